import Verif.Pass.Kinds

/-!
# C97: which statements the simulator runs again

The simulator registers every statement with the variables and slices it reads, links every bit of a
variable to a slice that holds it, and on a change of some bits runs what is registered with the variable
and with the slices linked to these bits.  C54 treats a slice as a reader of its whole variable; here the
links are modelled.
-/

namespace Kratos.SimLinks

/-! ## Model -/

/-- Bits `lo` to `hi` of variable `root`. -/
structure Range where
  root : Nat
  hi : Nat
  lo : Nat
  deriving DecidableEq, Repr

/-- The index of a slice `a[i]`: a variable or a slice of one, or an expression (with the bits it reads). -/
inductive Idx where
  | bits (r : Range)
  | expr (rs : List Range)
  deriving DecidableEq, Repr

/-- A slice object: `var_high()` and `var_low()` in the root variable; for `a[i]` all bits of `a`
(src/expr.cc:658-680). -/
structure Sl where
  at_ : Range
  idx : Option Idx
  deriving DecidableEq, Repr

/-- What a process reads: the right side of a continuous assignment or connection, all predicates, targets
and right sides of an `always_comb` block, or the events of an `always_ff` block (src/sim.cc:58-90, 145-176),
joined by `op2`.  Slices are numbers of objects.  `call`: its arguments, joined. -/
inductive X where
  | var (v : Nat)
  | const
  | sl (i : Nat)
  | op1 (a : X)
  | op2 (a b : X)
  | cond (c a b : X)
  | call (a : X)
  | cast (a : X)
  deriving DecidableEq, Repr

inductive Item where
  | whole (v : Nat)
  | slice (i : Nat)
  deriving DecidableEq, Repr

/-- `get_var_deps`, src/sim.cc:92-119: a conditional expression is an `Expr` with the two values on the left
and on the right; a call is registered as a variable of its own; a cast is treated as a `VarSlice`, which it
is not, and asked whether it is sliced by a variable (src/sim.cc:131). -/
def deps : X → Res (List Item)
  | .var v => .ok [.whole v]
  | .const => .ok []
  | .sl i => .ok [.slice i]
  | .op1 a => deps a
  | .op2 a b => (deps a).bind fun x => (deps b).bind fun y => .ok (x ++ y)
  | .cond _ a b => (deps a).bind fun x => (deps b).bind fun y => .ok (x ++ y)
  | .call _ => .ok []
  | .cast _ => .ub

/-- Is the bit among those linked to the slice?  `compute_linked_dep`, src/sim.cc:121-143.  For an index that
is an expression the links are made for the expression itself, which is no variable. -/
def linked (s : Sl) (v b : Nat) : Bool :=
  (decide (s.at_.root = v) && (decide (s.at_.lo ≤ b) && decide (b ≤ s.at_.hi))) ||
  match s.idx with
  | some (.bits r) => decide (r.root = v) && (decide (r.lo ≤ b) && decide (b ≤ r.hi))
  | _ => false

/-- A design: its slice objects and its processes. -/
structure Design where
  slices : List Sl
  procs : List X

/-- `linked_dependency_[v][b]`: `emplace` and `insert` keep what is there (src/sim.cc:67-69, 81-83, 128), so
it is the first slice in the order in which the statements and their parts are visited. -/
def link (D : Design) (order : List Nat) (v b : Nat) : Option Nat :=
  order.find? fun i => match D.slices[i]? with
    | some s => linked s v b
    | none => false

/-- Is the process run?  `trigger_event`, src/sim.cc:503-534. -/
def runs (D : Design) (order : List Nat) (v : Nat) (mask : List Nat) (d : List Item) : Bool :=
  !mask.isEmpty && (decide (Item.whole v ∈ d) ||
    mask.any fun b => match link D order v b with
      | some i => decide (Item.slice i ∈ d)
      | none => false)

/-- The processes added to the queue when bits `mask` of `v` have changed; `scope`: the block being run. -/
def queued (D : Design) (order : List Nat) (v : Nat) (mask scope : List Nat) : Res (List Nat) :=
  (Kinds.mapRes deps D.procs).bind fun t =>
    .ok ((List.range t.length).filter fun p => !decide (p ∈ scope) &&
      match t[p]? with
      | some d => runs D order v mask d
      | none => false)

/-! ## Specification -/

def Range.Has (r : Range) (v b : Nat) : Prop := r.root = v ∧ r.lo ≤ b ∧ b ≤ r.hi

/-- The value of the slice may depend on the bit. -/
def Idx.Needs (v b : Nat) : Idx → Prop
  | .bits r => r.Has v b
  | .expr rs => ∃ r ∈ rs, r.Has v b

/-- The value of the expression may depend on bit `b` of variable `v`. -/
inductive Needs (ss : List Sl) (v b : Nat) : X → Prop
  | var : Needs ss v b (.var v)
  | sl {i s} : ss[i]? = some s → s.at_.Has v b → Needs ss v b (.sl i)
  | index {i s x} : ss[i]? = some s → s.idx = some x → x.Needs v b → Needs ss v b (.sl i)
  | op1 {a} : Needs ss v b a → Needs ss v b (.op1 a)
  | left {a c} : Needs ss v b a → Needs ss v b (.op2 a c)
  | right {a c} : Needs ss v b c → Needs ss v b (.op2 a c)
  | test {c x y} : Needs ss v b c → Needs ss v b (.cond c x y)
  | yes {c x y} : Needs ss v b x → Needs ss v b (.cond c x y)
  | no {c x y} : Needs ss v b y → Needs ss v b (.cond c x y)
  | arg {a} : Needs ss v b a → Needs ss v b (.call a)
  | cast {a} : Needs ss v b a → Needs ss v b (.cast a)

/-- The slice is part of the expression. -/
inductive Uses (i : Nat) : X → Prop
  | sl : Uses i (.sl i)
  | op1 {a} : Uses i a → Uses i (.op1 a)
  | left {a c} : Uses i a → Uses i (.op2 a c)
  | right {a c} : Uses i c → Uses i (.op2 a c)
  | yes {c x y} : Uses i x → Uses i (.cond c x y)
  | no {c x y} : Uses i y → Uses i (.cond c x y)

/-- The order holds the slices of the processes. -/
def Visits (D : Design) (order : List Nat) : Prop := ∀ i, i ∈ order ↔ ∃ x ∈ D.procs, Uses i x

/-- The claim: a process that depends on a bit runs when the bit changes. -/
def RerunClaim : Prop := ∀ D order v mask scope q, Visits D order → queued D order v mask scope = .ok q →
  ∀ (p : Nat) (x : X) (b : Nat), D.procs[p]? = some x → p ∉ scope → b ∈ mask → Needs D.slices v b x → p ∈ q

/-- No conditional expressions and calls, and no expressions as index. -/
def Plain (ss : List Sl) : X → Prop
  | .var _ | .const => True
  | .sl i => ∀ s, ss[i]? = some s → ∀ rs, s.idx ≠ some (.expr rs)
  | .op1 a => Plain ss a
  | .op2 a b => Plain ss a ∧ Plain ss b
  | .cond _ _ _ | .call _ | .cast _ => False

/-- The slice needs the bit, for its place or for its index. -/
def At (ss : List Sl) (i v b : Nat) : Prop := ∃ s, ss[i]? = some s ∧ (s.at_.Has v b ∨ ∃ r, s.idx = some (.bits r) ∧ r.Has v b)

/-! ## Proof -/

theorem linked_iff {s : Sl} {v b : Nat} : linked s v b = true ↔ (s.at_.Has v b ∨ ∃ r, s.idx = some (.bits r) ∧ r.Has v b) := by
  unfold linked Range.Has
  rw [Bool.or_eq_true]
  refine or_congr (by simp) ?_
  split
  · rename_i r hr
    simp [hr]
  · rename_i h
    constructor
    · intro x; cases x
    · rintro ⟨r, hr, _⟩
      exact absurd hr (h r)

theorem link_some {D : Design} {order : List Nat} {v b i : Nat} (h : link D order v b = some i) : i ∈ order ∧ At D.slices i v b := by
  refine ⟨List.mem_of_find?_eq_some h, ?_⟩
  have := List.find?_some h
  split at this
  · rename_i s hs
    exact ⟨s, hs, linked_iff.1 this⟩
  · cases this

theorem link_exists {D : Design} {order : List Nat} {v b i : Nat} (hi : i ∈ order) (h : At D.slices i v b) :
    ∃ j, link D order v b = some j := by
  cases hl : link D order v b with
  | some j => exact ⟨j, rfl⟩
  | none =>
    have := List.find?_eq_none.1 hl i hi
    obtain ⟨s, hs, hh⟩ := h
    rw [hs] at this
    exact absurd (linked_iff.2 hh) this

theorem uses_iff {i : Nat} : ∀ (x : X) (d : List Item), deps x = .ok d → (Item.slice i ∈ d ↔ Uses i x)
  | .var v, d, h => by cases h; exact ⟨fun h => (by simp at h), fun h => (by cases h)⟩
  | .const, d, h => by cases h; exact ⟨fun h => (by cases h), fun h => (by cases h)⟩
  | .sl j, d, h => by
    cases h
    constructor
    · intro h; cases List.mem_singleton.1 h; exact .sl
    · intro h; cases h; exact List.mem_singleton.2 rfl
  | .op1 a, d, h => by
    rw [uses_iff a d h]
    exact ⟨.op1, fun h => by cases h; assumption⟩
  | .op2 a b, d, h => by
    simp only [deps, Res.bind_eq_ok, Res.ok.injEq] at h
    obtain ⟨x, hx, y, hy, rfl⟩ := h
    rw [List.mem_append, uses_iff a x hx, uses_iff b y hy]
    constructor
    · rintro (h | h)
      · exact .left h
      · exact .right h
    · intro h
      cases h with
      | left h => exact .inl h
      | right h => exact .inr h
  | .cond c a b, d, h => by
    simp only [deps, Res.bind_eq_ok, Res.ok.injEq] at h
    obtain ⟨x, hx, y, hy, rfl⟩ := h
    rw [List.mem_append, uses_iff a x hx, uses_iff b y hy]
    constructor
    · rintro (h | h)
      · exact .yes h
      · exact .no h
    · intro h
      cases h with
      | yes h => exact .inl h
      | no h => exact .inr h
  | .call a, d, h => by cases h; exact ⟨fun h => (by cases h), fun h => (by cases h)⟩
  | .cast a, d, h => by cases h

/-- A plain expression that needs a bit reads the variable as a whole or a slice that needs it. -/
theorem needs_deps {ss : List Sl} {v b : Nat} : ∀ (x : X) (d : List Item), Plain ss x → deps x = .ok d → Needs ss v b x →
    Item.whole v ∈ d ∨ ∃ i, Item.slice i ∈ d ∧ At ss i v b
  | .var u, d, _, h, hn => by cases h; cases hn; exact .inl (List.mem_singleton.2 rfl)
  | .const, d, _, h, hn => by cases hn
  | .sl i, d, hp, h, hn => by
    cases h
    refine .inr ⟨i, List.mem_singleton.2 rfl, ?_⟩
    cases hn with
    | sl hs hh => exact ⟨_, hs, .inl hh⟩
    | @index _ s x hs hx hh =>
      cases x with
      | bits r => exact ⟨s, hs, .inr ⟨r, hx, hh⟩⟩
      | expr rs => exact absurd hx (hp s hs rs)
  | .op1 a, d, hp, h, hn => by
    cases hn with
    | op1 hn => exact needs_deps a d hp h hn
  | .op2 a c, d, hp, h, hn => by
    simp only [deps, Res.bind_eq_ok, Res.ok.injEq] at h
    obtain ⟨x, hx, y, hy, rfl⟩ := h
    cases hn with
    | left hn =>
      rcases needs_deps a x hp.1 hx hn with h | ⟨i, h, h'⟩
      · exact .inl (List.mem_append_left _ h)
      · exact .inr ⟨i, List.mem_append_left _ h, h'⟩
    | right hn =>
      rcases needs_deps c y hp.2 hy hn with h | ⟨i, h, h'⟩
      · exact .inl (List.mem_append_right _ h)
      · exact .inr ⟨i, List.mem_append_right _ h, h'⟩
  | .cond .., _, hp, _, _ => hp.elim
  | .call .., _, hp, _, _ => hp.elim
  | .cast .., _, hp, _, _ => hp.elim

theorem deps_needs {ss : List Sl} {v b : Nat} : ∀ (x : X) (d : List Item), deps x = .ok d →
    (Item.whole v ∈ d ∨ ∃ i, Item.slice i ∈ d ∧ At ss i v b) → Needs ss v b x
  | .var u, d, h, hd => by
    cases h
    rcases hd with h | ⟨i, h, _⟩
    · cases List.mem_singleton.1 h; exact .var
    · simp at h
  | .const, d, h, hd => by
    cases h
    rcases hd with h | ⟨i, h, _⟩ <;> cases h
  | .sl j, d, h, hd => by
    cases h
    rcases hd with h | ⟨i, h, s, hs, hh⟩
    · simp at h
    · cases List.mem_singleton.1 h
      rcases hh with hh | ⟨r, hr, hh⟩
      · exact .sl hs hh
      · exact .index hs hr hh
  | .op1 a, d, h, hd => .op1 (deps_needs a d h hd)
  | .op2 a c, d, h, hd => by
    simp only [deps, Res.bind_eq_ok, Res.ok.injEq] at h
    obtain ⟨x, hx, y, hy, rfl⟩ := h
    rcases hd with h | ⟨i, h, h'⟩
    · rcases List.mem_append.1 h with h | h
      · exact .left (deps_needs a x hx (.inl h))
      · exact .right (deps_needs c y hy (.inl h))
    · rcases List.mem_append.1 h with h | h
      · exact .left (deps_needs a x hx (.inr ⟨i, h, h'⟩))
      · exact .right (deps_needs c y hy (.inr ⟨i, h, h'⟩))
  | .cond t a c, d, h, hd => by
    simp only [deps, Res.bind_eq_ok, Res.ok.injEq] at h
    obtain ⟨x, hx, y, hy, rfl⟩ := h
    rcases hd with h | ⟨i, h, h'⟩
    · rcases List.mem_append.1 h with h | h
      · exact .yes (deps_needs a x hx (.inl h))
      · exact .no (deps_needs c y hy (.inl h))
    · rcases List.mem_append.1 h with h | h
      · exact .yes (deps_needs a x hx (.inr ⟨i, h, h'⟩))
      · exact .no (deps_needs c y hy (.inr ⟨i, h, h'⟩))
  | .call a, d, h, hd => by
    cases h
    rcases hd with h | ⟨i, h, _⟩ <;> cases h
  | .cast a, d, h, hd => by cases h

theorem all2_get {α β : Type} {R : α → β → Prop} : ∀ {l : List α} {m : List β}, Kinds.All2 R l m → ∀ (p : Nat) (a : α), l[p]? = some a →
    ∃ b, m[p]? = some b ∧ R a b
  | _, _, .nil, p, a, h => by cases h
  | _, _, .cons hr ht, 0, a, h => by cases h; exact ⟨_, rfl, hr⟩
  | _, _, .cons hr ht, p + 1, a, h => all2_get ht p a h
theorem all2_get' {α β : Type} {R : α → β → Prop} : ∀ {l : List α} {m : List β}, Kinds.All2 R l m → ∀ (p : Nat) (b : β), m[p]? = some b →
    ∃ a, l[p]? = some a ∧ R a b
  | _, _, .nil, p, a, h => by cases h
  | _, _, .cons hr ht, 0, a, h => by cases h; exact ⟨_, rfl, hr⟩
  | _, _, .cons hr ht, p + 1, a, h => all2_get' ht p a h

theorem queued_iff {D : Design} {order : List Nat} {v : Nat} {mask scope q : List Nat} (h : queued D order v mask scope = .ok q) (p : Nat) :
    p ∈ q ↔ p ∉ scope ∧ ∃ x d, D.procs[p]? = some x ∧ deps x = .ok d ∧ runs D order v mask d = true := by
  simp only [queued, Res.bind_eq_ok, Res.ok.injEq] at h
  obtain ⟨t, ht, rfl⟩ := h
  have ha := Kinds.mapRes_all2 _ _ ht
  rw [List.mem_filter, List.mem_range, Bool.and_eq_true, Bool.not_eq_true', decide_eq_false_iff_not]
  constructor
  · rintro ⟨hp, hs, hr⟩
    refine ⟨hs, ?_⟩
    rw [List.getElem?_eq_getElem hp] at hr
    obtain ⟨x, hx, hd⟩ := all2_get' ha p _ (List.getElem?_eq_getElem hp)
    exact ⟨x, _, hx, hd, hr⟩
  · rintro ⟨hs, x, d, hx, hd, hr⟩
    obtain ⟨d', hd', he⟩ := all2_get ha p x hx
    rw [hd, Res.ok.injEq] at he
    subst he
    refine ⟨(List.getElem?_eq_some_iff.1 hd').1, hs, ?_⟩
    rw [hd']; exact hr

theorem runs_iff {D : Design} {order : List Nat} {v : Nat} {mask : List Nat} {d : List Item} : runs D order v mask d = true ↔
    mask ≠ [] ∧ (Item.whole v ∈ d ∨ ∃ b ∈ mask, ∃ i, link D order v b = some i ∧ Item.slice i ∈ d) := by
  unfold runs
  rw [Bool.and_eq_true, Bool.or_eq_true, decide_eq_true_iff, List.any_eq_true]
  refine and_congr ?_ (or_congr Iff.rfl ?_)
  · cases mask <;> simp
  · constructor
    · rintro ⟨b, hb, h⟩
      split at h
      · rename_i i hi
        exact ⟨b, hb, i, hi, of_decide_eq_true h⟩
      · cases h
    · rintro ⟨b, hb, i, hi, hd⟩
      exact ⟨b, hb, by rw [hi]; exact decide_eq_true hd⟩

/-! ## C97 -/

/-- What is run depends on one of the bits that changed. -/
theorem rerun_sound (D : Design) (order : List Nat) (v : Nat) (mask scope q : List Nat) (h : queued D order v mask scope = .ok q)
    (p : Nat) (hp : p ∈ q) : p ∉ scope ∧ ∃ x, D.procs[p]? = some x ∧ ∃ b ∈ mask, Needs D.slices v b x := by
  obtain ⟨hs, x, d, hx, hd, hr⟩ := (queued_iff h p).1 hp
  refine ⟨hs, x, hx, ?_⟩
  obtain ⟨hne, hw | ⟨b, hb, i, hl, hi⟩⟩ := runs_iff.1 hr
  · cases mask with
    | nil => exact absurd rfl hne
    | cons b m => exact ⟨b, List.mem_cons_self .., deps_needs x d hd (.inl hw)⟩
  · exact ⟨b, hb, deps_needs x d hd (.inr ⟨i, hi, (link_some hl).2⟩)⟩

/-- A process without conditional expressions, calls and expressions as index that depends on a bit runs when
the bit changes, if no two slices in the design need that bit. -/
theorem rerun_partial (D : Design) (order : List Nat) (v : Nat) (mask scope q : List Nat) (hv : Visits D order)
    (h : queued D order v mask scope = .ok q) (p : Nat) (x : X) (b : Nat) (hx : D.procs[p]? = some x) (hs : p ∉ scope)
    (hb : b ∈ mask) (hn : Needs D.slices v b x) (hp : Plain D.slices x)
    (h1 : ∀ i j, i ∈ order → j ∈ order → At D.slices i v b → At D.slices j v b → i = j) : p ∈ q := by
  rw [queued_iff h p]
  have hq := h
  simp only [queued, Res.bind_eq_ok] at hq
  obtain ⟨t, ht, _⟩ := hq
  obtain ⟨d, _, hd⟩ := all2_get (Kinds.mapRes_all2 _ _ ht) p x hx
  refine ⟨hs, x, d, hx, hd, runs_iff.2 ⟨fun e => (by rw [e] at hb; cases hb), ?_⟩⟩
  rcases needs_deps x d hp hd hn with hw | ⟨i, hi, ha⟩
  · exact .inl hw
  · have hio : i ∈ order := (hv i).2 ⟨x, List.mem_of_getElem? hx, (uses_iff x d hd).1 hi⟩
    obtain ⟨j, hj⟩ := link_exists hio ha
    obtain ⟨hjo, hja⟩ := link_some hj
    rw [h1 j i hjo hio hja ha] at hj
    exact .inr ⟨b, hb, i, hj, hi⟩

/-- If two slices need the same bit, then whatever the order, the readers of one of them do not run when only
that bit changes. -/
theorem overlap_missed (D : Design) (order : List Nat) (v b : Nat) (scope q : List Nat)
    (h : queued D order v [b] scope = .ok q) (i j : Nat) (hij : i ≠ j) :
    ∃ k, (k = i ∨ k = j) ∧ ∀ p, D.procs[p]? = some (.sl k) → p ∉ q := by
  have key : ∀ k, link D order v b ≠ some k → ∀ p, D.procs[p]? = some (.sl k) → p ∉ q := by
    intro k hk p hp hq
    obtain ⟨_, x, d, hx, hd, hr⟩ := (queued_iff h p).1 hq
    rw [hp, Option.some.injEq] at hx
    subst hx
    cases hd
    rcases (runs_iff.1 hr).2 with hw | ⟨c, hc, l, hl, hm⟩
    · simp at hw
    · rw [List.mem_singleton.1 hc] at hl
      cases List.mem_singleton.1 hm
      exact hk hl
  by_cases hl : link D order v b = some i
  · exact ⟨j, .inr rfl, key j fun e => hij (by rw [hl, Option.some.injEq] at e; exact e)⟩
  · exact ⟨i, .inl rfl, key i hl⟩

/-! ### Examples and disagreements -/

/-- `x = a[3:0] + b`, `y = a[7:4]`, `z = c[a[8]]`, an `always_ff` on `b`. -/
def sample : Design := ⟨[⟨⟨0, 3, 0⟩, none⟩, ⟨⟨0, 7, 4⟩, none⟩, ⟨⟨2, 1, 0⟩, some (.bits ⟨0, 8, 8⟩)⟩],
  [.op2 (.sl 0) (.var 1), .sl 1, .op1 (.sl 2), .var 1]⟩

example : queued sample [2, 0, 1] 0 [5] [] = .ok [1] := by decide +kernel
example : queued sample [2, 0, 1] 0 [2, 8] [] = .ok [0, 2] := by decide +kernel
example : queued sample [2, 0, 1] 1 [0] [] = .ok [0, 3] := by decide +kernel
example : queued sample [2, 0, 1] 2 [1] [] = .ok [2] := by decide +kernel

example : Visits sample [2, 0, 1] ∧ Plain sample.slices (.op1 (.sl 2)) ∧ Needs sample.slices 0 8 (.op1 (.sl 2)) ∧
    ∀ i j, i ∈ [2, 0, 1] → j ∈ [2, 0, 1] → At sample.slices i 0 8 → At sample.slices j 0 8 → i = j := by
  have hat : ∀ i, At sample.slices i 0 8 → i = 2 := by
    rintro i ⟨s, hs, hh⟩
    match i, hs with
    | 0, hs =>
      cases hs
      rcases hh with ⟨_, _, hh⟩ | ⟨r, hr, _⟩
      · simp at hh
      · cases hr
    | 1, hs =>
      cases hs
      rcases hh with ⟨_, _, hh⟩ | ⟨r, hr, _⟩
      · simp at hh
      · cases hr
    | 2, _ => rfl
    | n + 3, hs => simp [sample] at hs
  refine ⟨fun i => ⟨fun h => ?_, ?_⟩, ?_, .op1 (.index rfl rfl ⟨rfl, by decide, by decide⟩), fun i j _ _ hi hj => (hat i hi).trans (hat j hj).symm⟩
  · simp only [List.mem_cons, List.not_mem_nil, or_false] at h
    rcases h with rfl | rfl | rfl
    · exact ⟨.op1 (.sl 2), by simp [sample], .op1 .sl⟩
    · exact ⟨.op2 (.sl 0) (.var 1), by simp [sample], .left .sl⟩
    · exact ⟨.sl 1, by simp [sample], .sl⟩
  · rintro ⟨x, hx, hu⟩
    simp only [sample, List.mem_cons, List.not_mem_nil, or_false] at hx
    rcases hx with rfl | rfl | rfl | rfl
    · cases hu with
      | left hu => cases hu; decide
      | right hu => cases hu
    · cases hu; decide
    · cases hu with
      | op1 hu => cases hu; decide
    · cases hu
  · intro s hs rs
    cases hs
    simp

/-- `x = a[7:0]`, `y = a[3:0]`: bit 2 of `a` changes and only `x` is computed again. -/
def overlap : Design := ⟨[⟨⟨0, 7, 0⟩, none⟩, ⟨⟨0, 3, 0⟩, none⟩], [.sl 0, .sl 1]⟩
theorem overlap_lost : queued overlap [0, 1] 0 [2] [] = .ok [0] := by decide +kernel

/-- `x = a[i]`, `y = b[i]`: `i` changes and only `x` is computed again. -/
def twice : Design := ⟨[⟨⟨0, 3, 0⟩, some (.bits ⟨2, 1, 0⟩)⟩, ⟨⟨1, 3, 0⟩, some (.bits ⟨2, 1, 0⟩)⟩], [.sl 0, .sl 1]⟩
theorem twice_lost : queued twice [0, 1] 2 [0] [] = .ok [0] := by decide +kernel

/-- `x = a[i + 1]`: `i` changes and nothing is computed again. -/
theorem index_lost : queued ⟨[⟨⟨0, 3, 0⟩, some (.expr [⟨2, 1, 0⟩])⟩], [.sl 0]⟩ [0] 2 [0] [] = .ok [] := by decide +kernel

/-- `x = s ? a : b`: `s` changes and nothing is computed again. -/
theorem condition_lost : queued ⟨[], [.cond (.var 0) (.var 1) (.var 2)]⟩ [] 0 [0] [] = .ok [] := by decide +kernel

/-- `x = clog2(a)`: `a` changes and nothing is computed again. -/
theorem call_lost : queued ⟨[], [.call (.var 0)]⟩ [] 0 [0] [] = .ok [] := by decide +kernel

/-- A cast anywhere in what is read: undefined behaviour. -/
theorem cast_ub : queued ⟨[], [.cast (.var 0)]⟩ [] 0 [0] [] = .ub := by decide +kernel

theorem not_RerunClaim : ¬ RerunClaim := by
  intro h
  have := h ⟨[], [.cond (.var 0) (.var 1) (.var 2)]⟩ [] 0 [0] [] [] (fun i => ?_) condition_lost 0 _ 0 rfl (by decide) (by decide)
    (.test .var)
  · cases this
  · constructor
    · intro h; cases h
    · rintro ⟨x, hx, hu⟩
      cases List.mem_singleton.1 hx
      cases hu with
      | yes hu => cases hu
      | no hu => cases hu

end Kratos.SimLinks
