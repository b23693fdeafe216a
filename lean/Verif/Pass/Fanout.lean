import Verif.Base

/-!
# Removing wires with a single reader (property C23, first half)

Models `VarFanOutVisitor`, src/optimize.cc:204-273, on the assignments of one generator.
-/

namespace Kratos.Fanout

/-! ### Model -/

abbrev VarId := Nat

/-- Where an assignment stands: directly in the generator, in one of its blocks, in another generator (the parent's port
connections), or nowhere in the text (the stand-in statements that make a predicate a reader, src/stmt.cc:239-242). -/
inductive Place where
  | top | block | outside | loose
  deriving DecidableEq, Repr

/-- Right-hand side: a whole variable, or any other expression with the variables it reads. -/
inductive Rhs where
  | var (u : VarId)
  | expr (reads : List VarId) (tag : Nat)
  deriving DecidableEq, Repr

/-- `AssignStmt`: `part` is the slice of `lhs` that is assigned (`none`: the whole variable).  `id` is the identity of the
statement object. -/
structure Asn where
  id : Nat
  place : Place
  lhs : VarId
  part : Option (Nat × Nat)
  rhs : Rhs
  deriving DecidableEq, Repr

inductive Dir where
  | inp | out | inout
  deriving DecidableEq, Repr

/-- What is known about variables: does it belong to this generator, is it part of an interface, its direction if it is a port. -/
structure Info where
  own : VarId → Bool
  iface : VarId → Bool
  dir : VarId → Option Dir

def Rhs.reads (v : VarId) : Rhs → Bool
  | .var u => u == v
  | .expr rs _ => rs.contains v

/-- `Var::sinks()`: the statements reading `v`. -/
def sinks (B : List Asn) (v : VarId) : List Asn := B.filter fun s => s.rhs.reads v

/-- The tests of src/optimize.cc:248-260 on the only reader: it stands directly in the generator, assigns a whole variable of the
same generator that is not part of an interface (a slice has another parent), and is a plain copy. -/
def follows (I : Info) (s : Asn) : Bool :=
  s.place == .top && (I.own s.lhs && (s.part.isNone && (!I.iface s.lhs &&
    (match s.rhs with | .var _ => true | .expr _ _ => false))))

/-- `compute_assign_chain`, src/optimize.cc:240-270.  `n` bounds the recursion; running out means it does not end. -/
def chain (I : Info) (B : List Asn) : Nat → VarId → Res (List (VarId × Option Asn))
  | 0, _ => .ub
  | n + 1, v =>
    match sinks B v with
    | [s] => if follows I s then (chain I B n s.lhs).map fun q => (v, some s) :: q else .ok []
    | _ => .ok [(v, none)]

/-- `stmt_set_left` from `move_src_to` (src/expr.cc:1590-1611, 1623-1640): assignments to `v` inside this generator now assign `d`. -/
def retarget (v d : VarId) (s : Asn) : Asn :=
  if s.lhs = v ∧ (s.place = .top ∨ s.place = .block) then { s with lhs := d } else s

/-- The statements taken out: those of every link but the last (`next->unassign(stmt)`, src/optimize.cc:216-228). -/
def removed (q : List (VarId × Option Asn)) : List Asn := q.dropLast.filterMap (·.2)

/-- `var->type() == VarType::PortIO`. -/
def Info.port (I : Info) (v : VarId) : Bool := (I.dir v).isSome

/-- The statement added when both ends are ports, src/optimize.cc:233-243. -/
def bridge (I : Info) (fresh : Nat) (v d : VarId) : List Asn :=
  if I.port v && I.port d then [⟨fresh, .top, d, none, .var v⟩] else []

/-- One turn of the loop over the variables for a chain with more than two entries, src/optimize.cc:214-243. -/
def collapse (I : Info) (fresh : Nat) (B : List Asn) (v d : VarId) (q : List (VarId × Option Asn)) : List Asn :=
  ((B.filter fun s => !(removed q).contains s).map (retarget v d)) ++ bridge I fresh v d

/-- `chain.back().first`. -/
def dst : VarId → List (VarId × Option Asn) → VarId
  | v, [] => v
  | _, p :: q => dst p.1 q

/-- The body of the loop, src/optimize.cc:208-243. -/
def step (I : Info) (n fresh : Nat) (B : List Asn) (v : VarId) : Res (List Asn) :=
  (chain I B n v).map fun q => if q.length ≤ 2 then B else collapse I fresh B v (dst v q) q

/-- `VarFanOutVisitor::visit`, src/optimize.cc:206-245: `names` is the order of `get_all_var_names`, `fresh` gives the identity of
a new statement. -/
def run (I : Info) (n : Nat) : List Asn → List (VarId × Nat) → Res (List Asn)
  | B, [] => .ok B
  | B, (v, fresh) :: vs => (step I n fresh B v).bind fun B' => run I n B' vs

/-! ### Specification -/

/-- Where a value comes from: an input port, or an assignment that computes something (with the part of the variable it assigns). -/
inductive Source where
  | input (v : VarId)
  | stmt (id : Nat) (part : Option (Nat × Nat))

/-- A continuous copy `x = u` of whole variables. -/
def Copy (s : Asn) (u : VarId) : Prop := (s.place = .top ∨ s.place = .outside) ∧ s.part = none ∧ s.rhs = .var u

/-- Variable `v` ultimately carries source `x`. -/
inductive Carries (I : Info) (B : List Asn) : VarId → Source → Prop
  | input {v : VarId} : I.dir v = some .inp → Carries I B v (.input v)
  | stmt {s : Asn} : s ∈ B → s.place ≠ .loose → (∀ u, ¬ Copy s u) → Carries I B s.lhs (.stmt s.id s.part)
  | copy {s : Asn} {u : VarId} {x : Source} : s ∈ B → Copy s u → Carries I B u x → Carries I B s.lhs x

/-- Somebody looks at the variable: a statement reads it or it is a port. -/
def Seen (I : Info) (B : List Asn) (v : VarId) : Prop := I.dir v ≠ none ∨ ∃ s ∈ B, s.rhs.reads v = true

/-- Legal wiring, as checked by other passes: a variable that is the target of a copy has no other driver; other generators drive
only the input ports of this one; nothing in the generator drives its input ports. -/
structure Legal (I : Info) (B : List Asn) : Prop where
  single : ∀ s ∈ B, s.place = .top → s.part = none → ∀ u, s.rhs = .var u → ∀ t ∈ B, t.place ≠ .loose → t.lhs = s.lhs → t = s
  outer : ∀ s ∈ B, s.place = .outside → I.own s.lhs = true → I.dir s.lhs = some .inp
  inner : ∀ s ∈ B, s.place = .top ∨ s.place = .block → I.own s.lhs = true → I.dir s.lhs ≠ some .inp

/-- Every variable somebody still looks at carries exactly what it carried. -/
def SameSources (I : Info) (B A : List Asn) : Prop := ∀ v, Seen I A v → ∀ x, Carries I A v x ↔ Carries I B v x

/-- Full claim (first half of C23). -/
def FanoutClaim : Prop := ∀ (I : Info) (n : Nat) (B A : List Asn) (vs : List (VarId × Nat)), (∀ p ∈ vs, I.own p.1 = true) → Legal I B →
  run I n B vs = .ok A → SameSources I B A

/-- Ports in a chain: none in the middle, and at its start only an input port that ends in a port. -/
def GoodChain (I : Info) (v d : VarId) (q : List (VarId × Option Asn)) : Prop :=
  (∀ p ∈ q.dropLast, p.1 ≠ v → I.dir p.1 = none) ∧ (I.dir v = none ∨ (I.dir v = some .inp ∧ I.dir d ≠ none))

/-- Every chain that is shortened is good. -/
def GoodRun (I : Info) (n : Nat) : List Asn → List (VarId × Nat) → Prop
  | _, [] => True
  | B, (v, fresh) :: vs => (∀ q, chain I B n v = .ok q → 2 < q.length → GoodChain I v (dst v q) q) ∧
      ∀ B', step I n fresh B v = .ok B' → GoodRun I n B' vs

/-! ### Proof -/

theorem sinks_one {B : List Asn} {v : VarId} {s : Asn} (h : sinks B v = [s]) :
    s ∈ B ∧ s.rhs.reads v = true ∧ ∀ t ∈ B, t.rhs.reads v = true → t = s := by
  have hs : s ∈ sinks B v := by rw [h]; exact List.mem_singleton.2 rfl
  obtain ⟨h1, h2⟩ := List.mem_filter.1 hs
  refine ⟨h1, h2, fun t ht hr => ?_⟩
  have : t ∈ sinks B v := List.mem_filter.2 ⟨ht, hr⟩
  rw [h] at this
  exact List.mem_singleton.1 this

theorem follows_iff {I : Info} {s : Asn} (h : follows I s = true) : s.place = .top ∧ I.own s.lhs = true ∧ s.part = none ∧ ∃ u, s.rhs = .var u := by
  simp only [follows, Bool.and_eq_true, beq_iff_eq] at h
  refine ⟨h.1, h.2.1, by simpa using h.2.2.1, ?_⟩
  have h4 := h.2.2.2.2
  split at h4
  · rename_i u hu; exact ⟨u, hu⟩
  · cases h4

/-- Link `(v, s)`: `s` is the only reader of `v` and copies it into a whole variable of the generator. -/
def Link (I : Info) (B : List Asn) (v : VarId) (s : Asn) : Prop :=
  s ∈ B ∧ (∀ t ∈ B, t.rhs.reads v = true → t = s) ∧ s.place = .top ∧ I.own s.lhs = true ∧ s.part = none ∧ s.rhs = .var v

/-- The shape of a chain. -/
inductive Chain (I : Info) (B : List Asn) : VarId → List (VarId × Option Asn) → Prop
  | nil (v : VarId) : Chain I B v []
  | last (v : VarId) : Chain I B v [(v, none)]
  | link {v : VarId} {s : Asn} {q : List (VarId × Option Asn)} : Link I B v s → Chain I B s.lhs q → Chain I B v ((v, some s) :: q)

theorem chain_shape (I : Info) (B : List Asn) : ∀ (n : Nat) (v : VarId) (q : List (VarId × Option Asn)), chain I B n v = .ok q → Chain I B v q
  | 0, _, _, h => by simp [chain] at h
  | n + 1, v, q, h => by
    unfold chain at h
    split at h
    · rename_i s hs
      obtain ⟨h1, h2, h3⟩ := sinks_one hs
      split at h
      · rename_i hf
        obtain ⟨f1, f2, f3, u, f4⟩ := follows_iff hf
        have hu : u = v := by rw [f4] at h2; simpa [Rhs.reads] using h2
        subst hu
        cases hc : chain I B n s.lhs with
        | ok q' =>
          rw [hc] at h
          cases h
          exact .link ⟨h1, h3, f1, f2, f3, f4⟩ (chain_shape I B n _ _ hc)
        | throw e => rw [hc] at h; cases h
        | ub => rw [hc] at h; cases h
      · cases h; exact .nil v
    · cases h; exact .last v

/-- In a chain with at least two entries: each entry but the last is a link whose statement leads to the next entry. -/
theorem chain_links {I : Info} {B : List Asn} : ∀ {q : List (VarId × Option Asn)} {v : VarId}, Chain I B v q → 1 ≤ q.length →
    (∀ p ∈ q.dropLast, ∃ s, p.2 = some s ∧ Link I B p.1 s ∧ (s.lhs = dst v q ∨ ∃ p' ∈ q.dropLast, p'.1 = s.lhs)) ∧
    (2 ≤ q.length → ∃ s, (v, some s) ∈ q.dropLast)
  | [], _, _, h => by simp at h
  | [(v, none)], _, .last _, _ => by simp
  | [(v, some s)], _, .link _ _, _ => by simp
  | (v, some s) :: p2 :: q, _, .link hl hc, _ => by
    obtain ⟨ih, ih2⟩ := chain_links hc (by simp)
    have hd : (( v, some s) :: p2 :: q).dropLast = (v, some s) :: (p2 :: q).dropLast := rfl
    have hdst : ∀ w w', dst w ((v, some s) :: p2 :: q) = dst w' (p2 :: q) := by
      intro w w'
      rfl
    rw [hd]
    refine ⟨fun p hp => ?_, fun _ => ⟨s, List.mem_cons_self ..⟩⟩
    rcases List.mem_cons.1 hp with rfl | hp
    · refine ⟨s, rfl, hl, ?_⟩
      rcases Nat.lt_or_ge (p2 :: q).length 2 with h1 | h1
      · left
        cases q with
        | nil =>
          rw [hdst v s.lhs]
          cases hc with
          | last _ => rfl
          | link _ _ => rfl
        | cons _ _ => simp at h1; omega
      · obtain ⟨s', hs'⟩ := ih2 h1
        exact .inr ⟨(s.lhs, some s'), List.mem_cons_of_mem _ hs', rfl⟩
    · obtain ⟨s', h1, h2, h3⟩ := ih p hp
      refine ⟨s', h1, h2, ?_⟩
      rw [hdst v s.lhs]
      rcases h3 with h3 | ⟨p', h4, h5⟩
      · exact .inl h3
      · exact .inr ⟨p', List.mem_cons_of_mem _ h4, h5⟩

theorem chain_carries {I : Info} {B : List Asn} {x : Source} : ∀ {q : List (VarId × Option Asn)} {v : VarId}, Chain I B v q → 1 ≤ q.length →
    Carries I B v x → Carries I B (dst v q) x
  | [], _, _, h, _ => by simp at h
  | [(_, none)], _, .last _, _, hc => hc
  | [(_, some s)], _, .link _ _, _, hc => hc
  | (v, some s) :: p2 :: q, _, .link hl hq, _, hc => by
    have h1 : Carries I B s.lhs x := .copy hl.1 ⟨.inl hl.2.2.1, hl.2.2.2.2.1, hl.2.2.2.2.2⟩ hc
    have := chain_carries hq (by simp) h1
    exact this

theorem retarget_rhs (v d : VarId) (s : Asn) : (retarget v d s).rhs = s.rhs ∧ (retarget v d s).id = s.id ∧ (retarget v d s).part = s.part ∧
    (retarget v d s).place = s.place := by
  unfold retarget; split <;> exact ⟨rfl, rfl, rfl, rfl⟩

theorem retarget_copy {v d : VarId} {s : Asn} {u : VarId} : Copy (retarget v d s) u ↔ Copy s u := by
  obtain ⟨h1, _, h3, h4⟩ := retarget_rhs v d s
  unfold Copy
  rw [h1, h3, h4]

theorem retarget_hit {v d : VarId} {s : Asn} (h : s.lhs = v) (hp : s.place = .top ∨ s.place = .block) : (retarget v d s).lhs = d := by
  unfold retarget; rw [if_pos ⟨h, hp⟩]

theorem retarget_out {v d : VarId} {s : Asn} (h : s.place = .outside) : retarget v d s = s := by
  unfold retarget
  rw [if_neg]
  rintro ⟨_, h1 | h1⟩ <;> rw [h] at h1 <;> cases h1

theorem retarget_ne {v d : VarId} {s : Asn} (h : s.lhs ≠ v) : retarget v d s = s := by
  unfold retarget
  rw [if_neg (fun hh => h hh.1)]

/-- Facts about a chain that is shortened. -/
structure Setup (I : Info) (B : List Asn) (v d : VarId) (q : List (VarId × Option Asn)) : Prop where
  links : ∀ p ∈ q.dropLast, ∃ s, p.2 = some s ∧ Link I B p.1 s ∧ (s.lhs = d ∨ ∃ p' ∈ q.dropLast, p'.1 = s.lhs)
  first : ∃ s, (v, some s) ∈ q.dropLast
  into : ∀ p ∈ q.dropLast, p.1 ≠ v → ∃ s ∈ removed q, s.lhs = p.1
  last : ∃ s ∈ removed q, s.lhs = d
  carry : ∀ x, Carries I B v x → Carries I B d x

/-- Every entry but the first is the target of a removed statement. -/
theorem chain_into {I : Info} {B : List Asn} : ∀ {q : List (VarId × Option Asn)} {v : VarId}, Chain I B v q →
    (∀ p ∈ q.dropLast, p.1 ≠ v → ∃ s ∈ removed q, s.lhs = p.1) ∧ (2 ≤ q.length → ∃ s ∈ removed q, s.lhs = dst v q)
  | [], _, _ => by simp
  | [(v, none)], _, .last _ => by simp
  | [(v, some s)], _, .link _ _ => by simp
  | (v, some s) :: p2 :: q, _, .link hl hc => by
    obtain ⟨ih1, ih2⟩ := chain_into hc
    have hr : removed ((v, some s) :: p2 :: q) = s :: removed (p2 :: q) := rfl
    have hd : ((v, some s) :: p2 :: q).dropLast = (v, some s) :: (p2 :: q).dropLast := rfl
    rw [hr, hd]
    constructor
    · intro p hp hne
      rcases List.mem_cons.1 hp with rfl | hp
      · exact absurd rfl hne
      · rcases Decidable.em (p.1 = s.lhs) with e | e
        · exact ⟨s, List.mem_cons_self .., e.symm⟩
        · obtain ⟨t, h1, h2⟩ := ih1 p hp e
          exact ⟨t, List.mem_cons_of_mem _ h1, h2⟩
    · intro _
      rcases Nat.lt_or_ge (p2 :: q).length 2 with h1 | h1
      · cases q with
        | nil =>
          refine ⟨s, List.mem_cons_self .., ?_⟩
          cases hc with
          | last _ => rfl
          | link _ _ => rfl
        | cons _ _ => simp at h1; omega
      · obtain ⟨t, h2, h3⟩ := ih2 h1
        exact ⟨t, List.mem_cons_of_mem _ h2, h3⟩

theorem setup {I : Info} {B : List Asn} {n : Nat} {v : VarId} {q : List (VarId × Option Asn)} (h : chain I B n v = .ok q) (hl : 2 < q.length) :
    Setup I B v (dst v q) q := by
  have hc := chain_shape I B n v q h
  obtain ⟨h1, h2⟩ := chain_links hc (by omega)
  obtain ⟨h3, h4⟩ := chain_into hc
  exact ⟨h1, h2 (by omega), h3, h4 (by omega), fun x => chain_carries hc (by omega)⟩

section
variable {I : Info} {B : List Asn} {v d : VarId} {q : List (VarId × Option Asn)}

theorem mem_removed {s : Asn} : s ∈ removed q ↔ ∃ u, (u, some s) ∈ q.dropLast := by
  simp only [removed, List.mem_filterMap]
  constructor
  · rintro ⟨⟨u, o⟩, h1, h2⟩
    simp only at h2
    exact ⟨u, h2 ▸ h1⟩
  · rintro ⟨u, h⟩
    exact ⟨_, h, rfl⟩

/-- A removed statement is a copy out of an inner variable. -/
theorem Setup.removed_link (S : Setup I B v d q) {s : Asn} (h : s ∈ removed q) : ∃ u, Link I B u s ∧ (u, some s) ∈ q.dropLast ∧
    (s.lhs = d ∨ ∃ p' ∈ q.dropLast, p'.1 = s.lhs) := by
  obtain ⟨u, hu⟩ := mem_removed.1 h
  obtain ⟨t, h1, h2, h3⟩ := S.links _ hu
  cases h1
  exact ⟨u, h2, hu, h3⟩

theorem Setup.removed_copy (S : Setup I B v d q) {s : Asn} (h : s ∈ removed q) : ∃ u, Copy s u ∧ s.place = .top := by
  obtain ⟨u, h1, _⟩ := S.removed_link h
  exact ⟨u, ⟨.inl h1.2.2.1, h1.2.2.2.2.1, h1.2.2.2.2.2⟩, h1.2.2.1⟩

theorem mem_collapse {fresh : Nat} {t : Asn} : t ∈ collapse I fresh B v d q ↔
    (∃ s ∈ B, s ∉ removed q ∧ t = retarget v d s) ∨ t ∈ bridge I fresh v d := by
  simp only [collapse, List.mem_append, List.mem_map, List.mem_filter]
  constructor
  · rintro (⟨s, ⟨h1, h2⟩, rfl⟩ | h)
    · exact .inl ⟨s, h1, by simpa using h2, rfl⟩
    · exact .inr h
  · rintro (⟨s, h1, h2, rfl⟩ | h)
    · exact .inl ⟨s, ⟨h1, by simpa using h2⟩, rfl⟩
    · exact .inr h

theorem mem_bridge {fresh : Nat} {t : Asn} (h : t ∈ bridge I fresh v d) : t = ⟨fresh, .top, d, none, .var v⟩ := by
  unfold bridge at h
  split at h
  · exact List.mem_singleton.1 h
  · cases h

/-- Nothing new arrives. -/
theorem carries_back (S : Setup I B v d q) {fresh : Nat} {w : VarId} {x : Source} (h : Carries I (collapse I fresh B v d q) w x) : Carries I B w x := by
  induction h with
  | input h => exact .input h
  | @stmt t ht hl hn =>
    rcases mem_collapse.1 ht with ⟨s, h1, _, rfl⟩ | h
    · obtain ⟨e1, e2, e3, e4⟩ := retarget_rhs v d s
      have hs : ∀ u, ¬ Copy s u := fun u hu => hn u (retarget_copy.2 hu)
      have hb : Carries I B s.lhs (.stmt s.id s.part) := .stmt h1 (e4 ▸ hl) hs
      rw [e2, e3]
      unfold retarget
      split
      · rename_i hc; exact S.carry _ (hc.1 ▸ hb)
      · exact hb
    · rw [mem_bridge h] at hn
      exact absurd ⟨.inl rfl, rfl, rfl⟩ (hn v)
  | @copy t u x ht hcp _ ih =>
    rcases mem_collapse.1 ht with ⟨s, h1, _, rfl⟩ | h
    · have hb : Carries I B s.lhs x := .copy h1 (retarget_copy.1 hcp) ih
      unfold retarget
      split
      · rename_i hc; exact S.carry _ (hc.1 ▸ hb)
      · exact hb
    · rw [mem_bridge h] at hcp ⊢
      have : u = v := by
        have := hcp.2.2
        injection this with e
        exact e.symm
      subst this
      exact S.carry _ ih

/-- Variables that lose their reader. -/
def Inner (q : List (VarId × Option Asn)) (w : VarId) : Prop := ∃ s, (w, some s) ∈ q.dropLast

theorem Setup.inner_iff (S : Setup I B v d q) {w : VarId} : Inner q w ↔ ∃ p ∈ q.dropLast, p.1 = w := by
  constructor
  · rintro ⟨s, h⟩; exact ⟨_, h, rfl⟩
  · rintro ⟨⟨u, o⟩, h, rfl⟩
    obtain ⟨s, h1, _⟩ := S.links _ h
    simp only at h1
    subst h1
    exact ⟨s, h⟩

/-- A statement that stays does not read an inner variable. -/
theorem Setup.kept_reads (S : Setup I B v d q) {s : Asn} (hs : s ∈ B) (hr : s ∉ removed q) {w : VarId} (hw : Inner q w) : s.rhs.reads w = false := by
  obtain ⟨t, ht⟩ := hw
  obtain ⟨t', h1, h2, _⟩ := S.links _ ht
  cases h1
  cases hh : s.rhs.reads w with
  | false => rfl
  | true =>
    exfalso
    apply hr
    rw [h2.2.1 s hs hh]
    exact mem_removed.2 ⟨w, ht⟩

/-- A variable that carries something before: if it is not inner it still does, otherwise the end of the chain does. -/
theorem carries_forth (S : Setup I B v d q) (L : Legal I B) (hv : I.own v = true) (hd : I.own d = true) (G : GoodChain I v d q) {fresh : Nat} {w : VarId} {x : Source}
    (h : Carries I B w x) : (¬ Inner q w → Carries I (collapse I fresh B v d q) w x) ∧
      (Inner q w → Carries I (collapse I fresh B v d q) d x) ∧ (w = v → I.dir v ≠ none → Carries I (collapse I fresh B v d q) v x) := by
  -- the statement added between two ports
  have hbr : I.dir v ≠ none → (⟨fresh, .top, d, none, .var v⟩ : Asn) ∈ collapse I fresh B v d q := by
    intro hp
    apply mem_collapse.2
    right
    have h1 : I.port v = true := by simpa [Info.port, Option.isSome_iff_ne_none] using hp
    have h2 : I.port d = true := by
      rcases G.2 with h | h
      · exact absurd h hp
      · simpa [Info.port, Option.isSome_iff_ne_none] using h.2
    unfold bridge
    rw [h1, h2]
    exact List.mem_singleton.2 rfl
  have hin : I.dir v ≠ none → I.dir v = some .inp := fun hp => by
    rcases G.2 with h | h
    · exact absurd h hp
    · exact h.1
  have hpass : I.dir v ≠ none → ∀ x, Carries I (collapse I fresh B v d q) v x → Carries I (collapse I fresh B v d q) d x := by
    intro hp x hx
    exact Carries.copy (s := ⟨fresh, .top, d, none, .var v⟩) (hbr hp) ⟨.inl rfl, rfl, rfl⟩ hx
  -- an inner variable other than the first has only its removed driver
  have hsole : ∀ w, Inner q w → w ≠ v → ∀ t ∈ B, t.place ≠ .loose → t.lhs = w → t ∈ removed q := by
    intro w hw hne t ht hl e
    obtain ⟨p, hp, rfl⟩ := S.inner_iff.1 hw
    obtain ⟨s, h1, h2⟩ := S.into p hp hne
    obtain ⟨u, hlk, _, _⟩ := S.removed_link h1
    have := L.single s hlk.1 hlk.2.2.1 hlk.2.2.2.2.1 u hlk.2.2.2.2.2 t ht hl (e.trans h2.symm)
    exact this ▸ h1
  induction h with
  | @input w hw =>
    refine ⟨fun _ => .input hw, fun hi => ?_, fun e _ => e ▸ .input hw⟩
    rcases Decidable.em (w = v) with rfl | hne
    · exact hpass (by rw [hw]; simp) _ (.input hw)
    · obtain ⟨p, hp, e⟩ := S.inner_iff.1 hi
      have := G.1 p hp (by rw [e]; exact hne)
      rw [e, hw] at this
      cases this
  | @stmt s hs hl hn =>
    have hr : s ∉ removed q := fun hh => by
      obtain ⟨u, hu, _⟩ := S.removed_copy hh
      exact hn u hu
    obtain ⟨e1, e2, e3, e4⟩ := retarget_rhs v d s
    have ha : Carries I (collapse I fresh B v d q) (retarget v d s).lhs (.stmt s.id s.part) := by
      have := Carries.stmt (I := I) (B := collapse I fresh B v d q) (s := retarget v d s) (mem_collapse.2 (.inl ⟨s, hs, hr, rfl⟩))
        (by rw [e4]; exact hl) (fun u hu => hn u (retarget_copy.1 hu))
      rw [e2, e3] at this
      exact this
    refine ⟨fun hi => ?_, fun hi => ?_, fun e hp => ?_⟩
    · have hne : s.lhs ≠ v := fun e => hi (e ▸ S.first)
      rw [retarget_ne hne] at ha
      exact ha
    · rcases Decidable.em (s.lhs = v) with e | hne
      · rcases Decidable.em (s.place = .outside) with ho | ho
        · rw [retarget_out ho, e] at ha
          have := L.outer s hs ho (by rw [e]; exact hv)
          exact hpass (by rw [← e, this]; simp) _ ha
        · rw [retarget_hit e (by cases hpl : s.place <;> simp_all)] at ha
          exact ha
      · exact absurd (hsole _ hi hne s hs hl rfl) hr
    · rcases Decidable.em (s.place = .outside) with ho | ho
      · rw [retarget_out ho, e] at ha
        exact ha
      · have := L.inner s hs (by cases hpl : s.place <;> simp_all) (by rw [e]; exact hv)
        rw [e] at this
        exact absurd (hin hp) this
  | @copy s u x hs hc hcarry ih =>
    rcases Decidable.em (s ∈ removed q) with hr | hr
    · obtain ⟨u', hlk, hmem, hnext⟩ := S.removed_link hr
      have hu : u' = u := by
        have := hlk.2.2.2.2.2
        rw [hc.2.2] at this
        injection this with e
        exact e.symm
      subst hu
      have hd' := ih.2.1 ⟨s, hmem⟩
      refine ⟨fun hi => ?_, fun _ => hd', fun e hp => ?_⟩
      · rcases hnext with e | hp
        · rw [e]; exact hd'
        · exact absurd (S.inner_iff.2 hp) hi
      · have := L.inner s hs (.inl hlk.2.2.1) hlk.2.2.2.1
        rw [e] at this
        exact absurd (hin hp) this
    · have hu : ¬ Inner q u := fun hi => by
        have := S.kept_reads hs hr hi
        rw [hc.2.2] at this
        simp [Rhs.reads] at this
      obtain ⟨e1, e2, e3, e4⟩ := retarget_rhs v d s
      have ha : Carries I (collapse I fresh B v d q) (retarget v d s).lhs x :=
        .copy (mem_collapse.2 (.inl ⟨s, hs, hr, rfl⟩)) (retarget_copy.2 hc) (ih.1 hu)
      have hl : s.place ≠ .loose := by
        rcases hc.1 with h | h <;> rw [h] <;> simp
      refine ⟨fun hi => ?_, fun hi => ?_, fun e hp => ?_⟩
      · have hne : s.lhs ≠ v := fun e => hi (e ▸ S.first)
        rw [retarget_ne hne] at ha
        exact ha
      · rcases Decidable.em (s.lhs = v) with e | hne
        · rcases Decidable.em (s.place = .outside) with ho | ho
          · rw [retarget_out ho, e] at ha
            have := L.outer s hs ho (by rw [e]; exact hv)
            exact hpass (by rw [← e, this]; simp) _ ha
          · rw [retarget_hit e (by cases hpl : s.place <;> simp_all)] at ha
            exact ha
        · exact absurd (hsole _ hi hne s hs hl rfl) hr
      · rcases Decidable.em (s.place = .outside) with ho | ho
        · rw [retarget_out ho, e] at ha
          exact ha
        · have := L.inner s hs (by cases hpl : s.place <;> simp_all) (by rw [e]; exact hv)
          rw [e] at this
          exact absurd (hin hp) this

theorem Setup.own_dst (S : Setup I B v d q) : ∃ r ∈ B, r ∈ removed q ∧ r.lhs = d ∧ r.place = .top ∧ r.part = none ∧ (∃ u, r.rhs = .var u) ∧ I.own d = true := by
  obtain ⟨r, h1, h2⟩ := S.last
  obtain ⟨u, hlk, _⟩ := S.removed_link h1
  exact ⟨r, hlk.1, h1, h2, hlk.2.2.1, hlk.2.2.2.2.1, ⟨u, hlk.2.2.2.2.2⟩, h2 ▸ hlk.2.2.2.1⟩

theorem bridge_dir (G : GoodChain I v d q) {fresh : Nat} {t : Asn} (h : t ∈ bridge I fresh v d) : I.dir v = some .inp := by
  unfold bridge at h
  split at h
  · rename_i hc
    rcases G.2 with h1 | h1
    · simp [Info.port, h1] at hc
    · exact h1.1
  · cases h

theorem collapse_same (S : Setup I B v d q) (L : Legal I B) (hv : I.own v = true) (G : GoodChain I v d q) (fresh : Nat) :
    SameSources I B (collapse I fresh B v d q) := by
  obtain ⟨_, _, _, _, _, _, _, hd⟩ := S.own_dst
  intro w hw x
  refine ⟨carries_back S, fun h => ?_⟩
  have hf := carries_forth S L hv hd G (fresh := fresh) h
  rcases Classical.em (Inner q w) with hi | hi
  · rcases Decidable.em (w = v) with rfl | hne
    · rcases Decidable.em (I.dir w = none) with hp | hp
      · exfalso
        rcases hw with hw | ⟨s, hs, hr⟩
        · exact hw hp
        · rcases mem_collapse.1 hs with ⟨s0, h1, h2, rfl⟩ | hb
          · rw [(retarget_rhs w d s0).1, S.kept_reads h1 h2 hi] at hr
            cases hr
          · have := bridge_dir G hb
            rw [hp] at this
            cases this
      · exact hf.2.2 rfl hp
    · exfalso
      obtain ⟨p, hp, e⟩ := S.inner_iff.1 hi
      have hdir := G.1 p hp (by rw [e]; exact hne)
      rw [e] at hdir
      rcases hw with hw | ⟨s, hs, hr⟩
      · exact hw hdir
      · rcases mem_collapse.1 hs with ⟨s0, h1, h2, rfl⟩ | hb
        · rw [(retarget_rhs v d s0).1, S.kept_reads h1 h2 hi] at hr
          cases hr
        · rw [mem_bridge hb] at hr
          have : v = w := by simpa [Rhs.reads] using hr
          exact hne this.symm
  · exact hf.1 hi

theorem collapse_seen (G : GoodChain I v d q) {fresh : Nat} {w : VarId} (h : Seen I (collapse I fresh B v d q) w) : Seen I B w := by
  rcases h with h | ⟨s, hs, hr⟩
  · exact .inl h
  · rcases mem_collapse.1 hs with ⟨s0, h1, _, rfl⟩ | hb
    · exact .inr ⟨s0, h1, by rw [(retarget_rhs v d s0).1] at hr; exact hr⟩
    · left
      rw [mem_bridge hb] at hr
      have : v = w := by simpa [Rhs.reads] using hr
      rw [← this, bridge_dir G hb]
      simp

theorem collapse_legal (S : Setup I B v d q) (L : Legal I B) (hv : I.own v = true) (G : GoodChain I v d q) (fresh : Nat) :
    Legal I (collapse I fresh B v d q) := by
  obtain ⟨r, r1, r2, r3, r4, r5, ⟨ru, r6⟩, hd⟩ := S.own_dst
  -- a statement that is not removed does not assign the end of the chain
  have hlast : ∀ t ∈ B, t ∉ removed q → t.place ≠ .loose → t.lhs ≠ d := fun t h1 h2 h3 e =>
    h2 (L.single r r1 r4 r5 ru r6 t h1 h3 (e.trans r3.symm) ▸ r2)
  have hcases : ∀ s : Asn, (s.lhs = v ∧ (s.place = .top ∨ s.place = .block) ∧ (retarget v d s).lhs = d) ∨ retarget v d s = s := by
    intro s
    rcases Decidable.em (s.lhs = v ∧ (s.place = .top ∨ s.place = .block)) with h | h
    · exact .inl ⟨h.1, h.2, retarget_hit h.1 h.2⟩
    · right; unfold retarget; rw [if_neg h]
  refine ⟨?_, ?_, ?_⟩
  · intro s hs hp hpart u hu t ht hl e
    rcases mem_collapse.1 hs with ⟨s0, h1, h2, rfl⟩ | hb
    · obtain ⟨s1, _, s3, s4⟩ := retarget_rhs v d s0
      rw [s4] at hp; rw [s3] at hpart; rw [s1] at hu
      rcases mem_collapse.1 ht with ⟨t0, h3, h4, rfl⟩ | hb'
      · obtain ⟨_, _, _, t4⟩ := retarget_rhs v d t0
        rw [t4] at hl
        rcases hcases s0 with ⟨e1, _, e2⟩ | e1
        · rcases hcases t0 with ⟨e3, _, _⟩ | e3
          · rw [L.single s0 h1 hp hpart u hu t0 h3 hl (e3.trans e1.symm)]
          · rw [e2, e3] at e
            exact absurd e (hlast t0 h3 h4 hl)
        · rcases hcases t0 with ⟨e3, _, e4⟩ | e3
          · rw [e1, e4] at e
            exact absurd e.symm (hlast s0 h1 h2 (by rw [hp]; simp))
          · rw [e1, e3] at e ⊢
            exact L.single s0 h1 hp hpart u hu t0 h3 hl e
      · rw [mem_bridge hb'] at e
        have hin := bridge_dir G hb'
        rcases hcases s0 with ⟨e1, e1', e2⟩ | e1
        · have := L.inner s0 h1 e1' (by rw [e1]; exact hv)
          rw [e1] at this
          exact absurd hin this
        · rw [e1] at e
          exact absurd e.symm (hlast s0 h1 h2 (by rw [hp]; simp))
    · have hin := bridge_dir G hb
      rw [mem_bridge hb] at e ⊢
      rcases mem_collapse.1 ht with ⟨t0, h3, h4, rfl⟩ | hb'
      · obtain ⟨_, _, _, t4⟩ := retarget_rhs v d t0
        rw [t4] at hl
        rcases hcases t0 with ⟨e3, e3', _⟩ | e3
        · have := L.inner t0 h3 e3' (by rw [e3]; exact hv)
          rw [e3] at this
          exact absurd hin this
        · rw [e3] at e
          exact absurd e (hlast t0 h3 h4 hl)
      · exact mem_bridge hb'
  · intro s hs hp ho
    rcases mem_collapse.1 hs with ⟨s0, h1, _, rfl⟩ | hb
    · rw [(retarget_rhs v d s0).2.2.2] at hp
      rw [retarget_out hp] at ho ⊢
      exact L.outer s0 h1 hp ho
    · rw [mem_bridge hb] at hp; cases hp
  · intro s hs hp ho
    have hdn : I.dir d ≠ some .inp := by
      have := L.inner r r1 (.inl r4) (by rw [r3]; exact hd)
      rw [r3] at this
      exact this
    rcases mem_collapse.1 hs with ⟨s0, h1, _, rfl⟩ | hb
    · rw [(retarget_rhs v d s0).2.2.2] at hp
      rcases hcases s0 with ⟨_, _, e⟩ | e
      · rw [e]; exact hdn
      · rw [e] at ho ⊢
        exact L.inner s0 h1 hp ho
    · rw [mem_bridge hb]; exact hdn

end

theorem step_ok {I : Info} {n fresh : Nat} {B B' : List Asn} {v : VarId} (h : step I n fresh B v = .ok B') :
    ∃ q, chain I B n v = .ok q ∧ ((q.length ≤ 2 ∧ B' = B) ∨ (2 < q.length ∧ B' = collapse I fresh B v (dst v q) q)) := by
  unfold step at h
  cases hc : chain I B n v with
  | ok q =>
    rw [hc] at h
    refine ⟨q, rfl, ?_⟩
    simp only [Res.ok_map] at h
    have h := (Res.ok.inj h).symm
    rcases Nat.lt_or_ge 2 q.length with hl | hl
    · rw [if_neg (by omega)] at h
      exact .inr ⟨hl, h⟩
    · rw [if_pos (by omega)] at h
      exact .inl ⟨hl, h⟩
  | throw e => rw [hc] at h; cases h
  | ub => rw [hc] at h; cases h

/-! ### Property theorems -/

/-- C23, single-reader wires: when every shortened chain has no port in its middle, and begins with a port only if that is an input
leading to another port, every variable that is still read or is a port carries exactly the sources it carried; and the design
stays legal. -/
theorem fanout_partial {I : Info} {n : Nat} : ∀ {vs : List (VarId × Nat)} {B A : List Asn}, (∀ p ∈ vs, I.own p.1 = true) → Legal I B →
    GoodRun I n B vs → run I n B vs = .ok A → SameSources I B A ∧ Legal I A ∧ ∀ v, Seen I A v → Seen I B v
  | [], B, A, _, L, _, h => by
    have : B = A := Res.ok.inj h
    subst this
    exact ⟨fun _ _ _ => Iff.rfl, L, fun _ h => h⟩
  | (v, fresh) :: vs, B, A, hown, L, G, h => by
    simp only [run, Res.bind_eq_ok] at h
    obtain ⟨B', hst, h⟩ := h
    have G' := G.2 B' hst
    obtain ⟨q, hq, hc⟩ := step_ok hst
    have key : SameSources I B B' ∧ Legal I B' ∧ ∀ v, Seen I B' v → Seen I B v := by
      rcases hc with ⟨_, rfl⟩ | ⟨hl, rfl⟩
      · exact ⟨fun _ _ _ => Iff.rfl, L, fun _ h => h⟩
      · have hg := G.1 q hq hl
        have S := setup hq hl
        have hv := hown _ (List.mem_cons_self ..)
        exact ⟨collapse_same S L hv hg fresh, collapse_legal S L hv hg fresh, fun _ => collapse_seen hg⟩
    obtain ⟨k1, k2, k3⟩ := key
    obtain ⟨i1, i2, i3⟩ := fanout_partial (fun p hp => hown p (List.mem_cons_of_mem _ hp)) k2 G' h
    exact ⟨fun w hw x => (i1 w hw x).trans (k1 w (i3 w hw) x), i2, fun w hw => k3 w (i3 w hw)⟩

/-- A condition on the design alone: no port is copied by its only reader. -/
def NoPortCopied (I : Info) (B : List Asn) : Prop := ∀ v s, Link I B v s → I.dir v = none

/-- Under that condition every chain is good. -/
theorem noPort_goodRun {I : Info} {n : Nat} : ∀ {vs : List (VarId × Nat)} {B : List Asn}, (∀ p ∈ vs, I.own p.1 = true) → Legal I B →
    NoPortCopied I B → GoodRun I n B vs
  | [], _, _, _, _ => trivial
  | (v, fresh) :: vs, B, hown, L, N => by
    have hgood : ∀ q, chain I B n v = .ok q → 2 < q.length → GoodChain I v (dst v q) q := by
      intro q hq hl
      have S := setup hq hl
      refine ⟨fun p hp _ => ?_, .inl ?_⟩
      · obtain ⟨s, _, h2, _⟩ := S.links p hp
        exact N _ _ h2
      · obtain ⟨s, hs⟩ := S.first
        obtain ⟨s', _, h2, _⟩ := S.links _ hs
        exact N _ _ h2
    refine ⟨hgood, fun B' hst => ?_⟩
    obtain ⟨q, hq, hc⟩ := step_ok hst
    rcases hc with ⟨_, rfl⟩ | ⟨hl, rfl⟩
    · exact noPort_goodRun (fun p hp => hown p (List.mem_cons_of_mem _ hp)) L N
    · have hg := hgood q hq hl
      have S := setup hq hl
      have hv := hown _ (List.mem_cons_self ..)
      have L' := collapse_legal S L hv hg fresh
      refine noPort_goodRun (fun p hp => hown p (List.mem_cons_of_mem _ hp)) L' ?_
      intro w s hlk
      obtain ⟨h1, h2, h3, h4, h5, h6⟩ := hlk
      rcases mem_collapse.1 h1 with ⟨s0, h7, h8, rfl⟩ | hb
      · obtain ⟨e1, e2, e3, e4⟩ := retarget_rhs v (dst v q) s0
        rw [e1] at h6
        rcases Decidable.em (I.dir w = none) with hw | hw
        · exact hw
        · -- w is a port, so it is not inner and all its readers stay
          have hni : ¬ Inner q w := fun hi => by
            have := S.kept_reads h7 h8 hi
            rw [h6] at this
            simp [Rhs.reads] at this
          obtain ⟨_, _, _, _, _, _, _, hd⟩ := S.own_dst
          rw [e4] at h3
          rw [e3] at h5
          have how : I.own s0.lhs = true := by
            rcases Decidable.em (s0.lhs = v) with e | e
            · rw [e]; exact hv
            · rw [retarget_ne e] at h4; exact h4
          refine N w s0 ⟨h7, fun t ht hr => ?_, h3, how, h5, h6⟩
          have htr : t ∉ removed q := fun hh => by
            obtain ⟨u, hlk', hmem, _⟩ := S.removed_link hh
            rw [hlk'.2.2.2.2.2] at hr
            have : u = w := by simpa [Rhs.reads] using hr
            exact hni (this ▸ ⟨t, hmem⟩)
          have heq := h2 (retarget v (dst v q) t) (mem_collapse.2 (.inl ⟨t, ht, htr, rfl⟩)) (by rw [(retarget_rhs v (dst v q) t).1]; exact hr)
          -- retargeting is injective on the statements that stay
          rcases Decidable.em (t = s0) with e | hne
          · exact e
          · exfalso
            obtain ⟨r, r1, r2, r3, r4, r5, ⟨ru, r6⟩, _⟩ := S.own_dst
            have hlast : ∀ t ∈ B, t ∉ removed q → t.place = .top → t.lhs ≠ dst v q := fun t h1 h2 h3 e =>
              h2 (L.single r r1 r4 r5 ru r6 t h1 (by rw [h3]; simp) (e.trans r3.symm) ▸ r2)
            obtain ⟨t1, t2, t3, t4⟩ := retarget_rhs v (dst v q) t
            have htp : t.place = .top := by rw [← t4, heq, e4]; exact h3
            have el := congrArg Asn.lhs heq
            rcases Decidable.em (t.lhs = v) with a | a <;> rcases Decidable.em (s0.lhs = v) with b | b
            · apply hne
              rw [heq] at t1 t2 t3 t4
              cases t; cases s0
              simp_all
            · rw [retarget_hit a (.inl htp), retarget_ne b] at el
              exact hlast s0 h7 h8 h3 el.symm
            · rw [retarget_ne a, retarget_hit b (.inl h3)] at el
              exact hlast t ht htr htp el
            · rw [retarget_ne a, retarget_ne b] at heq
              exact hne heq
      · have h0 := bridge_dir hg hb
        obtain ⟨s', hs'⟩ := S.first
        obtain ⟨s'', _, h9, _⟩ := S.links _ hs'
        have := N _ _ h9
        rw [h0] at this
        cases this

/-- The same from a condition on the design alone. -/
theorem fanout_wires_partial {I : Info} {n : Nat} {vs : List (VarId × Nat)} {B A : List Asn} (hown : ∀ p ∈ vs, I.own p.1 = true) (L : Legal I B)
    (N : NoPortCopied I B) (h : run I n B vs = .ok A) : SameSources I B A :=
  (fanout_partial hown L (noPort_goodRun hown L N) h).1

/-! ### A run on a concrete design, and where the code disagrees -/

/-- Variables 0-9 belong to the generator; 0 is an input, 8 and 9 are outputs. -/
def info : Info := ⟨fun v => decide (v < 10), fun _ => false, fun v => if v = 0 then some .inp else if v = 8 ∨ v = 9 then some .out else none⟩

/-- `x = u` in the generator. -/
def cp (id x u : Nat) : Asn := ⟨id, .top, x, none, .var u⟩

/-- `in → 1 → 2 → out`. -/
def straight : List Asn := [cp 100 1 0, cp 101 2 1, cp 102 9 2]

theorem straight_run : run info 5 straight [(0, 200), (1, 201), (2, 202), (9, 203)] = .ok [cp 200 9 0] := rfl

theorem legal_of {I : Info} {B : List Asn} (h1 : ∀ s ∈ B, ∀ t ∈ B, t.lhs = s.lhs → t = s) (h2 : ∀ s ∈ B, s.place = .top)
    (h3 : ∀ s ∈ B, I.dir s.lhs ≠ some .inp) : Legal I B :=
  ⟨fun s hs _ _ _ _ t ht _ e => h1 s hs t ht e, (fun s hs hp => by rw [h2 s hs] at hp; nomatch hp), fun s hs _ _ => h3 s hs⟩

theorem straight_legal : Legal info straight := by
  refine legal_of ?_ ?_ ?_ <;> simp [straight, cp, info]

example : SameSources info straight [cp 200 9 0] := by
  refine (fanout_partial (n := 5) (vs := [(0, 200), (1, 201), (2, 202), (9, 203)]) ?_ straight_legal ?_ straight_run).1
  · simp [info]
  · refine ⟨fun q hq _ => ?_, fun B' hB => ?_⟩
    · have e : chain info straight 5 0 = .ok [(0, some (cp 100 1 0)), (1, some (cp 101 2 1)), (2, some (cp 102 9 2)), (9, none)] := rfl
      rw [e] at hq
      cases hq
      refine ⟨?_, .inr ⟨rfl, ?_⟩⟩
      · simp [info]
      · simp [dst, info]
    · have e : step info 5 200 straight 0 = .ok [cp 200 9 0] := rfl
      rw [e] at hB
      cases hB
      refine ⟨fun q hq hl => ?_, fun B' hB => ?_⟩
      · have e : chain info [cp 200 9 0] 5 1 = .ok [(1, none)] := rfl
        rw [e] at hq; cases hq; simp at hl
      · have e : step info 5 201 [cp 200 9 0] 1 = .ok [cp 200 9 0] := rfl
        rw [e] at hB
        cases hB
        refine ⟨fun q hq hl => ?_, fun B' hB => ?_⟩
        · have e : chain info [cp 200 9 0] 5 2 = .ok [(2, none)] := rfl
          rw [e] at hq; cases hq; simp at hl
        · have e : step info 5 202 [cp 200 9 0] 2 = .ok [cp 200 9 0] := rfl
          rw [e] at hB
          cases hB
          refine ⟨fun q hq hl => ?_, fun B' hB => trivial⟩
          have e : chain info [cp 200 9 0] 5 9 = .ok [(9, none)] := rfl
          rw [e] at hq; cases hq; simp at hl

/-- Wires only: `1` is computed from the input, copied through `2` and `3`, and `3` has two readers. -/
def wires : List Asn := [⟨100, .top, 1, none, .expr [0] 7⟩, cp 101 2 1, cp 102 3 2, ⟨103, .block, 8, none, .expr [3] 1⟩, ⟨104, .block, 9, none, .expr [3] 2⟩]

theorem wires_run : run info 5 wires [(0, 200), (1, 201), (2, 202), (3, 203)] =
    .ok [⟨100, .top, 3, none, .expr [0] 7⟩, ⟨103, .block, 8, none, .expr [3] 1⟩, ⟨104, .block, 9, none, .expr [3] 2⟩] := rfl

example : Legal info wires ∧ NoPortCopied info wires := by
  refine ⟨⟨?_, ?_, ?_⟩, ?_⟩
  · simp [wires, cp]
  · simp [wires, cp]
  · simp [wires, cp, info]
  · rintro v s ⟨h1, h2, h3, h4, h5, h6⟩
    simp only [wires, List.mem_cons, List.mem_nil_iff, or_false] at h1
    rcases h1 with rfl | rfl | rfl | rfl | rfl <;> cases h6 <;> rfl

/-- `in → 1 → 2`, and `2` has two readers. -/
def fanned : List Asn := [cp 100 1 0, cp 101 2 1, ⟨102, .block, 8, none, .expr [2] 1⟩, ⟨103, .block, 9, none, .expr [2] 2⟩]

/-- The input's connection disappears: variable 2 is read twice and driven by nothing. -/
theorem input_lost : run info 5 fanned [(0, 200), (1, 201), (2, 202)] =
    .ok [⟨102, .block, 8, none, .expr [2] 1⟩, ⟨103, .block, 9, none, .expr [2] 2⟩] := rfl

/-- `1 → out → 2`, where `1` is computed: the output port in the middle is left without a driver. -/
theorem output_lost : run info 5 [⟨100, .top, 1, none, .expr [0] 7⟩, cp 101 8 1, cp 102 2 8] [(1, 200), (8, 201), (2, 202)] =
    .ok [⟨100, .top, 2, none, .expr [0] 7⟩] := rfl

/-- `out1 → 1 → out2`, where `out1` is computed: the computation moves to `out2`, which is then also driven by the undriven `out1`. -/
theorem output_twice : run info 5 [⟨100, .top, 8, none, .expr [0] 7⟩, cp 101 1 8, cp 102 9 1] [(8, 200), (1, 201), (9, 202)] =
    .ok [⟨100, .top, 9, none, .expr [0] 7⟩, cp 200 9 8] := rfl

/-- Two wires that copy each other: the search for the end of the chain never ends. -/
theorem loop_diverges : ∀ n, chain info [cp 100 1 2, cp 101 2 1] n 1 = .ub ∧ chain info [cp 100 1 2, cp 101 2 1] n 2 = .ub
  | 0 => ⟨rfl, rfl⟩
  | n + 1 => by
    obtain ⟨h1, h2⟩ := loop_diverges n
    constructor
    · unfold chain
      have e : sinks [cp 100 1 2, cp 101 2 1] 1 = [cp 101 2 1] := rfl
      rw [e]
      show (if true = true then Res.map _ (chain info [cp 100 1 2, cp 101 2 1] n 2) else _) = Res.ub
      rw [h2]; rfl
    · unfold chain
      have e : sinks [cp 100 1 2, cp 101 2 1] 2 = [cp 100 1 2] := rfl
      rw [e]
      show (if true = true then Res.map _ (chain info [cp 100 1 2, cp 101 2 1] n 1) else _) = Res.ub
      rw [h1]; rfl

theorem not_FanoutClaim : ¬ FanoutClaim := by
  intro h
  have h1 := h info 5 fanned _ _ (by simp [info]) (by
    refine ⟨?_, ?_, ?_⟩ <;> simp [fanned, cp, info]) input_lost 2 (.inr ⟨⟨102, .block, 8, none, .expr [2] 1⟩, by simp, rfl⟩) (.input 0)
  have h2 : Carries info fanned 2 (.input 0) :=
    .copy (s := cp 101 2 1) (by simp [fanned]) ⟨.inl rfl, rfl, rfl⟩ (.copy (s := cp 100 1 0) (by simp [fanned]) ⟨.inl rfl, rfl, rfl⟩ (.input rfl))
  have h3 := h1.2 h2
  have h4 : ∀ w x, Carries info [⟨102, .block, 8, none, .expr [2] 1⟩, ⟨103, .block, 9, none, .expr [2] 2⟩] w x → w ≠ 2 := by
    intro w x hc
    cases hc with
    | input h => rintro rfl; cases h
    | stmt hs =>
      simp only [List.mem_cons, List.mem_nil_iff, or_false] at hs
      rcases hs with e | e <;> rw [e] <;> simp
    | copy hs =>
      simp only [List.mem_cons, List.mem_nil_iff, or_false] at hs
      rcases hs with e | e <;> rw [e] <;> simp
  exact h4 _ _ h3 rfl

end Kratos.Fanout
