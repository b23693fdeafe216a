import Verif.Py.Ssa
import Verif.Pass.Kinds

/-!
# Breakpoints in single-assignment form

`transform_always_comb_ssa` marks every version it creates with the name it stands for, the depth of the `if`s around
it and the tests of these `if`s (kratos/pyast.py:674-694, 734-741).  `ssa_transform_fix` (src/debug.cc:639-712)
reads the marks and decides which version each name shows at each statement; `compute_enable_condition` joins the tests
to the condition of the breakpoint (src/analysis.cc:890-898, 981-1008).

The conversion is that of `Verif.Py.Ssa`, with the marks added.  The text of a condition is kept as the list of its
parts, each a test or the complement `~` of a test: that the debugger reads the text `(a == b) and ~(c)` as such is
taken for granted.  All names of local variables are taken to be in the scope of each statement
(`add_scope_context`, kratos/pyast.py:815-822).  The attribute `ssa-trigger` is left out.
-/

namespace Kratos.Ssa

section
variable {X A : Type} [DecidableEq X]

/-! ## The marks -/

/-- What `create_new_var` attaches to a version (kratos/pyast.py:680-690): the name, `len(self.phi_scope)`, and the
conditions of all open scopes, outermost first; a test with `false` is written with `~`. -/
structure Mark (X A : Type) where
  x : X
  k : Nat
  depth : Nat
  en : List (Bool × E (Nm X) A)

/-- The mark of a phi statement. -/
def phiMark (d : Nat) (cs : List (Bool × E (Nm X) A)) : T X A → Option (Mark X A)
  | .phi x k _ _ _ => some ⟨x, k, d, cs⟩
  | _ => none

/-- `visit` with the marks (kratos/pyast.py:665-803).  Attributes and parts of variables are not new versions and
carry no mark. -/
def visitD (known : X → Bool) : P X A → List (Bool × E (Nm X) A) → St X →
    Res (List (T X A × Option (Mark X A)) × St X)
  | .nil, _, st => .ok ([], st)
  | .set x e r, cs, st => (readE st e).bind fun e' => (writeName known st x).bind fun kst =>
      (visitD known r cs kst.2).bind fun q =>
      .ok ((.set x kst.1 e', some ⟨x, kst.1, st.scopes.length, cs⟩) :: q.1, q.2)
  | .attr y e r, cs, st => (readE st e).bind fun e' => (visitD known r cs st).bind fun q =>
      .ok ((.attr y e', none) :: q.1, q.2)
  | .part x e r, cs, st => (readE st e).bind fun e' => (readName st (.loc x)).bind fun n =>
      (visitD known r cs st).bind fun q => .ok ((.part n x e', none) :: q.1, q.2)
  | .ite c t e r, cs, st => (readE st c).bind fun c' =>
      (visitD known t (cs ++ [(true, c')]) { st with scopes := [] :: st.scopes }).bind fun q1 =>
      (visitD known e (cs ++ [(false, c')])
        { (popScope q1.2).2 with scopes := [] :: (popScope q1.2).2.scopes }).bind fun q2 =>
      (phis known c' (popScope q1.2).1 (popScope q2.2).1 (both (popScope q1.2).1 (popScope q2.2).1) (popScope q2.2).2).bind fun q3 =>
      (visitD known r cs q3.2).bind fun q4 =>
      .ok (q1.1 ++ q2.1 ++ q3.1.map (fun t => (t, phiMark st.scopes.length cs t)) ++ q4.1, q4.2)

/-! ## The names at each statement -/

/-- `current_scope` and `symbol_mappings` (src/debug.cc:661-662). -/
structure Fix (X : Type) where
  cur : Nat
  maps : Nat → Option (X → Option Nat)

/-- The loop of `process_always_comb` (src/debug.cc:665-716): the mapping that each statement is shown with. -/
def fixRun : List (T X A × Option (Mark X A)) → Fix X → Res (List (X → Option Nat))
  | [], _ => .ok []
  | (_, none) :: _, _ => .throw .stmt
  | (_, some m) :: l, f =>
    match f.maps f.cur with
    | none => .throw .outOfRange
    | some cm =>
      let f' : Fix X := if f.cur ≠ m.depth then ⟨m.depth, fun d => if d = m.depth then some cm else f.maps d⟩ else f
      match f'.maps f'.cur with
      | none => .throw .outOfRange
      | some sm =>
        (fixRun l ⟨f'.cur, fun d => if d = f'.cur then some (fun y => if y = m.x then some m.k else sm y)
          else f'.maps d⟩).bind fun r => .ok (sm :: r)

def Fix.init : Fix X := ⟨1, fun d => if d = 1 then some (fun _ => none) else none⟩

/-- A breakpoint: whether it stands at a statement that the conversion added, the version that each name shows, and
the tests. -/
structure Bp (X A : Type) where
  added : Bool
  shown : X → Option Nat
  en : List (Bool × E (Nm X) A)

def isPhi : T X A → Bool
  | .phi .. => true
  | _ => false

def bpOf (q : T X A × Option (Mark X A)) (sh : X → Option Nat) : Bp X A :=
  ⟨isPhi q.1, sh, match q.2 with | some m => m.en | none => []⟩

/-- The breakpoints of a function (`StmtScopeVisitor`, src/debug.cc:334-487, makes one of each assignment). -/
def breakpoints (known : X → Bool) (p : P X A) : Res (List (Bp X A)) :=
  (visitD known p [] St.init).bind fun q => (fixRun q.1 Fix.init).bind fun sh => .ok (List.zipWith bpOf q.1 sh)

/-! ## Specification -/

/-- The number of assignments of a body. -/
def count : P X A → Nat
  | .nil => 0
  | .set _ _ r => count r + 1
  | .attr _ _ r => count r + 1
  | .part _ _ r => count r + 1
  | .ite _ t e r => count t + count e + count r

/-- Running the function as written, with a note for each assignment in the order of the text: `none` if it does not
run, else the store before it, and the variables that the other, first branch of an `if` around it assigns and that
have not been assigned since. -/
def trace (w : World X A) : P X A → List X → (Src X → A) → List (Option ((Src X → A) × List X))
  | .nil, _, _ => []
  | .set x e r, hid, s =>
      some (s, hid) :: trace w r (hid.filter (· ≠ x)) (upd s (.loc x) (w.cast x (e.eval s)))
  | .attr y e r, hid, s => some (s, hid) :: trace w r hid (upd s (.attr y) (e.eval s))
  | .part x e r, hid, s =>
      some (s, hid) :: trace w r hid (upd s (.loc x) (w.cast x (e.f (s (.loc x) :: e.args.map s))))
  | .ite c t e r, hid, s =>
      (if w.truth (c.eval s) then trace w t hid s ++ List.replicate (count e) none
       else List.replicate (count t) none ++ trace w e (hid ++ asg t) s) ++
      trace w r (hid.filter fun x => x ∉ asg t ++ asg e) (if w.truth (c.eval s) then exec w t s else exec w e s)

/-- The condition of a breakpoint in a state; `neg` is what `~` does. -/
def enabled (w : World X A) (neg : A → A) (σ : Nm X → A) (en : List (Bool × E (Nm X) A)) : Bool :=
  en.all fun q => w.truth (if q.1 then q.2.eval σ else neg (q.2.eval σ))

/-- What a name shows in a state. -/
def value (σ : Nm X → A) (sh : X → Option Nat) (x : X) : A :=
  match sh x with
  | some k => σ (.ver x k)
  | none => σ (.orig x)

/-- The state that the function starts from. -/
def back (σ : Nm X → A) : Src X → A
  | .loc x => σ (.orig x)
  | .attr y => σ (.attr y)

/-- A breakpoint is right in a state: it stops exactly if the statement runs, and then every name shows the value that
the variable has before the statement. -/
def Right (w : World X A) (neg : A → A) (σ : Nm X → A) (b : Bp X A) (ev : Option ((Src X → A) × List X)) : Prop :=
  (enabled w neg σ b.en = true ↔ ev ≠ none) ∧
  ∀ s hid, ev = some (s, hid) → ∀ x, value σ b.shown x = s (.loc x)

/-- What a user expects: in every settled state of the block the breakpoints are those of the function, and right. -/
def DebugClaim (X A : Type) [DecidableEq X] : Prop :=
  ∀ (w : World X A) (neg : A → A), (∀ x v, w.cast x (w.cast x v) = w.cast x v) →
  ∀ (known : X → Bool) (p : P X A) (ts : List (T X A)) (ref : X → Option Nat) (bs : List (Bp X A)),
    convert known p = .ok (ts, ref) → breakpoints known p = .ok bs →
  ∀ σ : Nm X → A, (∀ x, w.cast x (σ (.orig x)) = σ (.orig x)) → run w ts σ = σ →
    Kinds.All2 (Right w neg σ) bs (trace w p [] (back σ))

/-- The same for the breakpoints at statements of the function, and for the names that are not hidden. -/
def RightPart (w : World X A) (neg : A → A) (σ : Nm X → A) (b : Bp X A) (ev : Option ((Src X → A) × List X)) : Prop :=
  (enabled w neg σ b.en = true ↔ ev ≠ none) ∧
  ∀ s hid, ev = some (s, hid) → ∀ x, x ∉ hid → value σ b.shown x = s (.loc x)

/-- A body of assignments to whole variables. -/
def Whole : P X A → Prop
  | .nil => True
  | .set _ _ r => Whole r
  | .attr _ _ _ => False
  | .part _ _ _ => False
  | .ite _ t e r => Whole t ∧ Whole e ∧ Whole r

/-! ## Theorems -/

/-- The marks do not change the conversion. -/
theorem visitD_erase {known : X → Bool} : ∀ (p : P X A) (cs : List (Bool × E (Nm X) A)) (st : St X),
    (visitD known p cs st).bind (fun q => .ok (q.1.map Prod.fst, q.2)) = visit known p st
  | .nil, _, _ => rfl
  | .set x e r, cs, st => by
    simp only [visitD, visit]
    cases readE st e <;> simp only [Res.ok_bind, Res.throw_bind, Res.ub_bind]
    cases writeName known st x <;> simp only [Res.ok_bind, Res.throw_bind, Res.ub_bind]
    rename_i kst
    rw [← visitD_erase r cs kst.2]
    cases visitD known r cs kst.2 <;> rfl
  | .attr y e r, cs, st => by
    simp only [visitD, visit]
    cases readE st e <;> simp only [Res.ok_bind, Res.throw_bind, Res.ub_bind]
    rw [← visitD_erase r cs st]
    cases visitD known r cs st <;> rfl
  | .part x e r, cs, st => by
    simp only [visitD, visit]
    cases readE st e <;> simp only [Res.ok_bind, Res.throw_bind, Res.ub_bind]
    cases readName st (.loc x) <;> simp only [Res.ok_bind, Res.throw_bind, Res.ub_bind]
    rw [← visitD_erase r cs st]
    cases visitD known r cs st <;> rfl
  | .ite c t e r, cs, st => by
    simp only [visitD, visit]
    cases readE st c <;> simp only [Res.ok_bind, Res.throw_bind, Res.ub_bind]
    rename_i c'
    rw [← visitD_erase t (cs ++ [(true, c')])]
    cases visitD known t (cs ++ [(true, c')]) { st with scopes := [] :: st.scopes } <;>
      simp only [Res.ok_bind, Res.throw_bind, Res.ub_bind]
    rename_i q1
    rw [← visitD_erase e (cs ++ [(false, c')])]
    cases visitD known e (cs ++ [(false, c')]) { (popScope q1.2).2 with scopes := [] :: (popScope q1.2).2.scopes } <;>
      simp only [Res.ok_bind, Res.throw_bind, Res.ub_bind]
    rename_i q2
    cases phis known c' (popScope q1.2).1 (popScope q2.2).1 (both (popScope q1.2).1 (popScope q2.2).1) (popScope q2.2).2 <;>
      simp only [Res.ok_bind, Res.throw_bind, Res.ub_bind]
    rename_i q3
    rw [← visitD_erase r cs q3.2]
    cases visitD known r cs q3.2 <;> simp [Function.comp_def]

theorem visitD_visit {known : X → Bool} {p : P X A} {cs : List (Bool × E (Nm X) A)} {st st' : St X}
    {qs : List (T X A × Option (Mark X A))} (h : visitD known p cs st = .ok (qs, st')) :
    visit known p st = .ok (qs.map Prod.fst, st') := by
  rw [← visitD_erase p cs st, h]; rfl

/-- One mapping is enough. -/
def shows : (X → Option Nat) → List (T X A × Option (Mark X A)) → List (X → Option Nat)
  | _, [] => []
  | sm, (_, none) :: l => sm :: shows sm l
  | sm, (_, some m) :: l => sm :: shows (fun y => if y = m.x then some m.k else sm y) l

/-- **`ssa_transform_fix` uses one mapping**: entering and leaving a scope both carry it along. -/
theorem fix_linear : ∀ (l : List (T X A × Option (Mark X A))) (f : Fix X) (sm : X → Option Nat),
    f.maps f.cur = some sm →
    fixRun l f = if (∀ q ∈ l, q.2.isSome = true) then .ok (shows sm l) else .throw .stmt
  | [], f, sm, _ => by simp [fixRun, shows]
  | (t, none) :: l, f, sm, _ => by
    rw [if_neg (fun h => by have := h _ (List.mem_cons_self ..); cases this)]
    rfl
  | (t, some m) :: l, f, sm, h => by
    simp only [fixRun, h]
    have key : ∀ f' : Fix X, f'.maps f'.cur = some sm →
        (match f'.maps f'.cur with
        | none => (.throw .outOfRange : Res (List (X → Option Nat)))
        | some sm => (fixRun l ⟨f'.cur, fun d => if d = f'.cur then some (fun y => if y = m.x then some m.k else sm y)
            else f'.maps d⟩).bind fun r => .ok (sm :: r)) =
        if (∀ q ∈ (t, some m) :: l, q.2.isSome = true) then .ok (shows sm ((t, some m) :: l)) else .throw .stmt := by
      intro f' hf'
      rw [hf']
      simp only
      rw [fix_linear l _ (fun y => if y = m.x then some m.k else sm y) (by simp)]
      by_cases ha : ∀ q ∈ l, q.2.isSome = true
      · rw [if_pos ha, if_pos (by
          intro q hq
          rcases List.mem_cons.1 hq with rfl | hq
          · rfl
          · exact ha q hq)]
        rfl
      · rw [if_neg ha, if_neg (fun h => ha fun q hq => h q (List.mem_cons_of_mem _ hq))]
        rfl
    refine key _ ?_
    split
    · simp
    · exact h

theorem shows_append : ∀ (l1 l2 : List (T X A × Option (Mark X A))) (sm : X → Option Nat),
    ∃ sm', shows sm (l1 ++ l2) = shows sm l1 ++ shows sm' l2 ∧ sm' = l1.foldl (fun sm q => match q.2 with
      | some m => fun y => if y = m.x then some m.k else sm y
      | none => sm) sm
  | [], l2, sm => ⟨sm, rfl, rfl⟩
  | (t, none) :: l1, l2, sm => by
    obtain ⟨sm', h, e⟩ := shows_append l1 l2 sm
    exact ⟨sm', by simp only [List.cons_append, shows, h], e⟩
  | (t, some m) :: l1, l2, sm => by
    obtain ⟨sm', h, e⟩ := shows_append l1 l2 (fun y => if y = m.x then some m.k else sm y)
    exact ⟨sm', by simp only [List.cons_append, shows, h], e⟩

theorem shows_length : ∀ (l : List (T X A × Option (Mark X A))) (sm : X → Option Nat), (shows sm l).length = l.length
  | [], _ => rfl
  | (_, none) :: l, sm => by simp only [shows, List.length_cons, shows_length l]
  | (_, some m) :: l, sm => by simp only [shows, List.length_cons, shows_length l]

/-- The mapping after some statements. -/
def after (sm : X → Option Nat) (l : List (T X A × Option (Mark X A))) : X → Option Nat :=
  l.foldl (fun sm q => match q.2 with
      | some m => fun y => if y = m.x then some m.k else sm y
      | none => sm) sm

theorem newVar_ref {known : X → Bool} {st : St X} {x : X} {k : Nat} {st' : St X}
    (h : newVar known st x = .ok (k, st')) : st'.ref = fun y => if y = x then some k else st.ref y := by
  unfold newVar at h
  split at h
  · simp only [Res.ok.injEq, Prod.mk.injEq] at h
    obtain ⟨rfl, rfl⟩ := h
    rfl
  · cases h

theorem phis_after {known : X → Bool} {c : E (Nm X) A} {bs es : List (X × Nat)} {d : Nat}
    {cs : List (Bool × E (Nm X) A)} : ∀ (xs : List X) {st : St X} {ts : List (T X A)} {st' : St X},
    phis known c bs es xs st = .ok (ts, st') →
    after st.ref (ts.map fun t => (t, phiMark d cs t)) = st'.ref
  | [], st, ts, st', h => by
    simp only [phis, Res.ok.injEq, Prod.mk.injEq] at h
    obtain ⟨rfl, rfl⟩ := h
    rfl
  | x :: xs, st, ts, st', h => by
    simp only [phis, Res.bind_eq_ok, Res.ok.injEq, Prod.mk.injEq] at h
    obtain ⟨ab, -, ⟨k, st1⟩, hn, ⟨us, st2⟩, hp, rfl, rfl⟩ := h
    have := phis_after (d := d) (cs := cs) xs hp
    rw [← this, newVar_ref hn]
    rfl

/-- **The mapping is what the conversion itself used for names that are read.** -/
theorem visitD_after {known : X → Bool} : ∀ (p : P X A) {cs : List (Bool × E (Nm X) A)} {st st' : St X}
    {qs : List (T X A × Option (Mark X A))}, visitD known p cs st = .ok (qs, st') → after st.ref qs = st'.ref
  | .nil, cs, st, st', qs, h => by
    simp only [visitD, Res.ok.injEq, Prod.mk.injEq] at h
    obtain ⟨rfl, rfl⟩ := h
    rfl
  | .set x e r, cs, st, st', qs, h => by
    simp only [visitD, Res.bind_eq_ok, Res.ok.injEq, Prod.mk.injEq] at h
    obtain ⟨e', -, ⟨k, s1⟩, hw, ⟨t2, s2⟩, h2, rfl, rfl⟩ := h
    rw [← visitD_after r h2, newVar_ref hw]
    rfl
  | .attr y e r, cs, st, st', qs, h => by
    simp only [visitD, Res.bind_eq_ok, Res.ok.injEq, Prod.mk.injEq] at h
    obtain ⟨e', -, ⟨t2, s2⟩, h2, rfl, rfl⟩ := h
    exact visitD_after (qs := t2) r h2
  | .part x e r, cs, st, st', qs, h => by
    simp only [visitD, Res.bind_eq_ok, Res.ok.injEq, Prod.mk.injEq] at h
    obtain ⟨e', -, n, -, ⟨t2, s2⟩, h2, rfl, rfl⟩ := h
    exact visitD_after (qs := t2) r h2
  | .ite c t e r, cs, st, st', qs, h => by
    simp only [visitD, Res.bind_eq_ok, Res.ok.injEq, Prod.mk.injEq] at h
    obtain ⟨c', hc, ⟨t1, s1⟩, h1, ⟨t2, s2⟩, h2, ⟨t3, s3⟩, h3, ⟨t4, s4⟩, h4, rfl, rfl⟩ := h
    have a1 := visitD_after t h1
    have a2 := visitD_after e h2
    have a4 := visitD_after r h4
    have hp1 : (popScope s1).2.ref = s1.ref := by unfold popScope; split <;> rfl
    have hp2 : (popScope s2).2.ref = s2.ref := by unfold popScope; split <;> rfl
    have a3 := phis_after (d := st.scopes.length) (cs := cs) _ h3
    simp only [hp1, hp2] at a1 a2 a3 a4
    unfold after at *
    rw [List.foldl_append, List.foldl_append, List.foldl_append, a1, a2, a3, a4]

/-- What is printed for statements of a body: those that were not added, with names and tests. -/
def own (sm : X → Option Nat) (l : List (T X A × Option (Mark X A))) : List (Bp X A) :=
  (List.zipWith bpOf l (shows sm l)).filter fun b => !b.added

theorem own_append (sm : X → Option Nat) (l1 l2 : List (T X A × Option (Mark X A))) :
    own sm (l1 ++ l2) = own sm l1 ++ own (after sm l1) l2 := by
  obtain ⟨sm', h, e⟩ := shows_append l1 l2 sm
  have e : sm' = after sm l1 := e
  subst e
  unfold own
  rw [h, List.zipWith_append (by rw [shows_length]), List.filter_append]

theorem phis_isPhi {known : X → Bool} {c : E (Nm X) A} {bs es : List (X × Nat)} : ∀ (xs : List X) {st : St X}
    {ts : List (T X A)} {st' : St X}, phis known c bs es xs st = .ok (ts, st') → ∀ t ∈ ts, isPhi t = true
  | [], st, ts, st', h => by
    simp only [phis, Res.ok.injEq, Prod.mk.injEq] at h
    obtain ⟨rfl, rfl⟩ := h
    simp
  | x :: xs, st, ts, st', h => by
    simp only [phis, Res.bind_eq_ok, Res.ok.injEq, Prod.mk.injEq] at h
    obtain ⟨ab, -, ⟨k, st1⟩, hn, ⟨us, st2⟩, hp, rfl, rfl⟩ := h
    intro t ht
    rcases List.mem_cons.1 ht with rfl | ht
    · rfl
    · exact phis_isPhi xs hp t ht

theorem own_phis : ∀ (ts : List (T X A)) (sm : X → Option Nat) (d : Nat) (cs : List (Bool × E (Nm X) A)),
    (∀ t ∈ ts, isPhi t = true) → own sm (ts.map fun t => (t, phiMark d cs t)) = []
  | [], _, _, _, _ => rfl
  | t :: ts, sm, d, cs, h => by
    have ht := h t (List.mem_cons_self ..)
    cases t with
    | phi x k c a b =>
      have ih := own_phis ts (fun y => if y = x then some k else sm y) d cs
        (fun t ht => h t (List.mem_cons_of_mem _ ht))
      exact ih
    | set x k e => cases ht
    | attr y e => cases ht
    | part n x e => cases ht

theorem enabled_append (w : World X A) (neg : A → A) (σ : Nm X → A) (a b : List (Bool × E (Nm X) A)) :
    enabled w neg σ (a ++ b) = (enabled w neg σ a && enabled w neg σ b) := by
  simp [enabled, List.all_append]

theorem all2_append {α β : Type} {R : α → β → Prop} : ∀ {l1 : List α} {m1 : List β} {l2 : List α} {m2 : List β},
    Kinds.All2 R l1 m1 → Kinds.All2 R l2 m2 → Kinds.All2 R (l1 ++ l2) (m1 ++ m2)
  | [], [], _, _, _, h => h
  | _ :: _, _ :: _, _, _, .cons h t, h2 => .cons h (all2_append t h2)

/-- Statements that do not run: some test around them fails. -/
theorem skipped {w : World X A} {neg : A → A} {σ : Nm X → A} {known : X → Bool} : ∀ (p : P X A)
    {cs : List (Bool × E (Nm X) A)} {st st' : St X} {qs : List (T X A × Option (Mark X A))}, Whole p →
    visitD known p cs st = .ok (qs, st') → enabled w neg σ cs = false → ∀ sm,
    Kinds.All2 (RightPart w neg σ) (own sm qs) (List.replicate (count p) none)
  | .nil, cs, st, st', qs, _, h, _, sm => by
    simp only [visitD, Res.ok.injEq, Prod.mk.injEq] at h
    obtain ⟨rfl, rfl⟩ := h
    exact .nil
  | .set x e r, cs, st, st', qs, hw, h, hf, sm => by
    simp only [visitD, Res.bind_eq_ok, Res.ok.injEq, Prod.mk.injEq] at h
    obtain ⟨e', -, ⟨k, s1⟩, hwr, ⟨t2, s2⟩, h2, rfl, rfl⟩ := h
    have ih := skipped r hw h2 hf (fun y => if y = x then some k else sm y)
    refine .cons (⟨?_, nofun⟩) ih
    simp [bpOf, hf]
  | .attr y e r, cs, st, st', qs, hw, h, hf, sm => hw.elim
  | .part x e r, cs, st, st', qs, hw, h, hf, sm => hw.elim
  | .ite c t e r, cs, st, st', qs, hw, h, hf, sm => by
    simp only [visitD, Res.bind_eq_ok, Res.ok.injEq, Prod.mk.injEq] at h
    obtain ⟨c', hc, ⟨t1, s1⟩, h1, ⟨t2, s2⟩, h2, ⟨t3, s3⟩, h3, ⟨t4, s4⟩, h4, rfl, rfl⟩ := h
    rw [own_append, own_append, own_append, own_phis _ _ _ _ (phis_isPhi _ h3), List.append_nil, count,
      ← List.replicate_append_replicate, ← List.replicate_append_replicate]
    exact all2_append (all2_append
      (skipped t hw.1 h1 (by rw [enabled_append, hf]; rfl) _)
      (skipped e hw.2.1 h2 (by rw [enabled_append, hf]; rfl) _)) (skipped r hw.2.2 h4 hf _)

theorem phis_keep (w : World X A) {known : X → Bool} {c : E (Nm X) A} {bs es : List (X × Nat)} : ∀ (xs : List X) {st : St X}
    {ts : List (T X A)} {st' : St X}, phis known c bs es xs st = .ok (ts, st') → st.next ≤ st'.next ∧ ∀ σ n,
    Below st.next n → run w ts σ n = σ n
  | [], st, ts, st', h => by
    simp only [phis, Res.ok.injEq, Prod.mk.injEq] at h
    obtain ⟨rfl, rfl⟩ := h
    exact ⟨Nat.le_refl _, fun _ _ _ => rfl⟩
  | x :: xs, st, ts, st', h => by
    simp only [phis, Res.bind_eq_ok, Res.ok.injEq, Prod.mk.injEq] at h
    obtain ⟨⟨a, b⟩, hab, ⟨k, st1⟩, hn, ⟨us, st2⟩, hp, rfl, rfl⟩ := h
    obtain ⟨hk, hnx⟩ := newVar_next hn
    obtain ⟨q1, q2⟩ := phis_keep w xs hp
    simp only at q1 q2
    refine ⟨by simp only; omega, fun σ n hbn => ?_⟩
    rw [run_cons, q2 _ n (hbn.mono (by omega))]
    exact upd_ne fun e => by have := hbn x k e; omega

omit [DecidableEq X] in
theorem pop_next (s : St X) : (popScope s).2.next = s.next := by unfold popScope; split <;> rfl

/-- A body of assignments to whole variables writes new versions only. -/
theorem keep (w : World X A) {known : X → Bool} : ∀ (p : P X A) {st st' : St X} {ts : List (T X A)}, Whole p →
    visit known p st = .ok (ts, st') → st.next ≤ st'.next ∧ ∀ σ n, Below st.next n → run w ts σ n = σ n
  | .nil, st, st', ts, _, h => by
    simp only [visit, Res.ok.injEq, Prod.mk.injEq] at h
    obtain ⟨rfl, rfl⟩ := h
    exact ⟨Nat.le_refl _, fun _ _ _ => rfl⟩
  | .set x e r, st, st', ts, hw, h => by
    simp only [visit, Res.bind_eq_ok, Res.ok.injEq, Prod.mk.injEq] at h
    obtain ⟨e', -, ⟨k, s1⟩, hwr, ⟨t2, s2⟩, h2, rfl, rfl⟩ := h
    obtain ⟨hk, hnx⟩ := newVar_next hwr
    have hk : k = st.next := hk
    have hnx : s1.next = st.next + 1 := hnx
    obtain ⟨q1, q2⟩ := keep w r hw h2
    have q1 : s1.next ≤ s2.next := q1
    refine ⟨by simp only; omega, fun σ n hn => ?_⟩
    rw [run_cons, q2 _ n (hn.mono (by simp only; omega))]
    exact upd_ne fun e => by have := hn x k e; omega
  | .attr y e r, _, _, _, hw, _ => hw.elim
  | .part x e r, _, _, _, hw, _ => hw.elim
  | .ite c t e r, st, st', ts, hw, h => by
    obtain ⟨c', t1, s1, t2, s2, t3, s3, t4, hc, h1, h2, h3, h4, rfl⟩ := ite_parts h
    obtain ⟨a1, a2⟩ := keep w t hw.1 h1
    obtain ⟨b1, b2⟩ := keep w e hw.2.1 h2
    obtain ⟨c1, c2⟩ := phis_keep w _ h3
    obtain ⟨d1, d2⟩ := keep w r hw.2.2 h4
    simp only [pop_next] at a1 a2 b1 b2 c1 c2
    refine ⟨by omega, fun σ n hn => ?_⟩
    rw [run_append, run_append, run_append, d2 _ n (hn.mono (by omega)), c2 _ n (hn.mono (by omega)),
      b2 _ n (hn.mono (by omega)), a2 _ n hn]

/-- Names that have no version yet. -/
def Bare (st : St X) : Prop := ∀ x, x ∉ st.vars → st.ref x = none

theorem Bare.eff {st st' : St X} {a : List X} (h : Bare st) (he : Eff st st' a)
    (hv : ∀ x, x ∈ st.vars ∨ x ∈ a → x ∈ st'.vars) : Bare st' := by
  intro x hx
  have hx' : x ∉ a := fun q => hx (hv x (.inr q))
  rw [he.ref x hx', h x (fun q => hx (hv x (.inl q)))]

/-- Statements of a body that runs. -/
theorem executed {w : World X A} (hcast : ∀ x v, w.cast x (w.cast x v) = w.cast x v) {neg : A → A}
    (hneg : ∀ v, w.truth (neg v) = !w.truth v) {known : X → Bool} {ω : Nm X → A} : ∀ (p : P X A)
    {cs : List (Bool × E (Nm X) A)} {st : St X}, st.scopes ≠ [] → Wf st → Bare st →
    ∀ {qs : List (T X A × Option (Mark X A))} {st' : St X}, Whole p → visitD known p cs st = .ok (qs, st') →
    ∀ {inIf : Bool} {ow stale : List X}, Ok inIf ow stale p → Own st 0 ow → Good st stale →
    ∀ {s : Src X → A} {σ : Nm X → A}, Typed w s → Agree st s σ → enabled w neg ω cs = true →
    (∀ n, Below st'.next n → ω n = run w (qs.map Prod.fst) σ n) →
    Kinds.All2 (RightPart w neg ω) (own st.ref qs) (trace w p stale s)
  | .nil, cs, st, ho, hwf, hb, qs, st', _, h, _, _, _, _, _, _, s, σ, _, _, _, _ => by
    simp only [visitD, Res.ok.injEq, Prod.mk.injEq] at h
    obtain ⟨rfl, rfl⟩ := h
    exact .nil
  | .set x e r, cs, st, ho, hwf, hb, qs, st', hw, h, inIf, ow, stale, hok, hown, hg, s, σ, hty, ha, hen, hω => by
    have hv0 := visitD_visit h
    simp only [visitD, Res.bind_eq_ok, Res.ok.injEq, Prod.mk.injEq] at h
    obtain ⟨e', he', ⟨k, s1⟩, hwr, ⟨t2, s2⟩, h2, rfl, rfl⟩ := h
    have h1 : visit known (.set x e .nil) st = .ok ([.set x k e'], s1) := by
      simp only [visit, he', hwr, Res.ok_bind]
    have hk1 := keep w (.set x e .nil) (by exact trivial) h1
    have hk2 := keep w r hw (visitD_visit h2)
    obtain ⟨hv, he⟩ := visit_eff (.set x e .nil) ho h1
    have ha1 := sim hcast (.set x e .nil) ho hwf h1 (inIf := inIf) (own := ow) (stale := stale) ⟨hok.1, trivial⟩
      (base := 0) (Nat.zero_le _) hown hg hty ha
    have hlow : ∀ n, Below st.next n → ω n = σ n := by
      intro n hn
      rw [hω n (hn.mono (Nat.le_trans hk1.1 hk2.1))]
      show run w (_ :: t2.map Prod.fst) σ n = _
      rw [run_cons, hk2.2 _ n (hn.mono hk1.1)]
      exact hk1.2 σ n hn
    have ih := executed hcast hneg r he.open_ (hwf.eff he) (hb.eff he fun y => (hv y).2) hw h2 hok.2
      (hown.eff (Nat.zero_le _) he (fun y => (hv y).2) (by
        intro y hy
        rcases List.mem_cons.1 hy with rfl | hy
        · exact .inr (by simp [asg])
        · exact .inl hy))
      (hg.eff he (fun y => (hv y).1) (by
        intro y hy hyx
        rw [List.mem_filter]
        exact ⟨hy, by simpa [asg] using hyx⟩)) (hty.upd hcast x _) ha1 hen hω
    have hown' : own st.ref ((.set x k e', some ⟨x, k, st.scopes.length, cs⟩) :: t2) =
        ⟨false, st.ref, cs⟩ :: own s1.ref t2 := by
      rw [newVar_ref hwr]
      rfl
    show Kinds.All2 _ (own st.ref ((.set x k e', some ⟨x, k, st.scopes.length, cs⟩) :: t2)) _
    rw [hown']
    refine .cons ⟨by simp [hen], ?_⟩ ih
    intro s' hid hs y hy
    cases hs
    by_cases hyv : y ∈ st.vars
    · obtain ⟨j, q1, q2⟩ := hg y hy hyv
      simp only [value, q1]
      rw [hlow (.ver y j) (by intro z i q; cases q; exact hwf.ref y j q1)]
      exact ha.ver y j q2
    · simp only [value, hb y hyv]
      rw [hlow _ (below_orig _ _)]
      exact ha.orig y hyv
  | .attr y e r, _, _, _, _, _, _, _, hw, _, _, _, _, _, _, _, _, _, _, _, _, _ => hw.elim
  | .part x e r, _, _, _, _, _, _, _, hw, _, _, _, _, _, _, _, _, _, _, _, _, _ => hw.elim
  | .ite c t e r, cs, st, ho, hwf, hb, qs, st', hw, h, inIf, ow, stale, hok, hown, hg, s, σ, hty, ha, hen, hω => by
    simp only [visitD, Res.bind_eq_ok, Res.ok.injEq, Prod.mk.injEq] at h
    obtain ⟨c', hc, ⟨t1, s1⟩, h1, ⟨t2, s2⟩, h2, ⟨t3, s3⟩, h3, ⟨t4, s4⟩, h4, rfl, rfl⟩ := h
    have v1 := visitD_visit h1
    have v2 := visitD_visit h2
    have v4 := visitD_visit h4
    simp only at v1 v2 v4 h2 h3 h4 hω
    obtain ⟨F, v2', h3'⟩ := if_facts ho v1 v2 h3
    have n1 : st.next ≤ s1.next := F.eff1.next
    have n2 : s1.next ≤ s2.next := F.eff2.next
    have w1 : Wf { st with scopes := [] :: st.scopes } := hwf.push st rfl (Nat.le_refl _) hwf.ref
    have w2 : Wf { s1 with scopes := [] :: st.scopes } :=
      hwf.push { s1 with scopes := st.scopes } rfl n1 (w1.eff F.eff1).ref
    have k1 := keep w t hw.1 v1
    have k2 := keep w e hw.2.1 v2'
    have k3 := phis_keep w _ h3'
    have k4 := keep w r hw.2.2 v4
    have k2n : s1.next ≤ s2.next := k2.1
    have k3n : s2.next ≤ s3.next := k3.1
    have k4n : s3.next ≤ s4.next := k4.1
    have hall : run w ((t1 ++ t2 ++ t3.map (fun t => (t, phiMark st.scopes.length cs t)) ++ t4).map Prod.fst) σ =
        run w (t4.map Prod.fst) (run w t3 (run w (t2.map Prod.fst) (run w (t1.map Prod.fst) σ))) := by
      simp only [List.map_append, List.map_map]
      rw [run_append, run_append, run_append]
      congr 2
      simp [Function.comp_def]
    rw [hall] at hω
    -- the state shown is the state at each point
    have o3 : ∀ n, Below s3.next n → ω n = run w t3 (run w (t2.map Prod.fst) (run w (t1.map Prod.fst) σ)) n :=
      fun n hn => by rw [hω n (hn.mono k4n), k4.2 _ n hn]
    have o2 : ∀ n, Below s2.next n → ω n = run w (t2.map Prod.fst) (run w (t1.map Prod.fst) σ) n :=
      fun n hn => by rw [o3 n (hn.mono k3n)]; exact k3.2 _ n hn
    have o1 : ∀ n, Below s1.next n → ω n = run w (t1.map Prod.fst) σ n :=
      fun n hn => by rw [o2 n (hn.mono k2n)]; exact k2.2 _ n hn
    have o0 : ∀ n, Below st.next n → ω n = σ n :=
      fun n hn => by rw [o1 n (hn.mono n1)]; exact k1.2 _ n hn
    obtain ⟨hf, hargs, hbel⟩ := readE_ok hg hwf ha hok.1 hc
    have hev : c'.eval ω = c.eval s := by
      unfold E.eval
      rw [hf, ← hargs]
      congr 1
      exact List.map_congr_left fun n hn => o0 n (hbel n hn)
    have ent : enabled w neg ω (cs ++ [(true, c')]) = w.truth (c.eval s) := by
      rw [enabled_append, hen]
      simp [enabled, hev]
    have enf : enabled w neg ω (cs ++ [(false, c')]) = !w.truth (c.eval s) := by
      rw [enabled_append, hen]
      simp [enabled, hev, hneg]
    -- after the `if`
    have vi : visit known (.ite c t e .nil) st = .ok (t1.map Prod.fst ++ t2.map Prod.fst ++ t3, s3) := by
      simp only [visit, hc, v1, v2, h3, Res.ok_bind, List.append_nil]
    have ha3 := sim hcast (.ite c t e .nil) ho hwf vi (inIf := inIf) (own := ow) (stale := stale)
      ⟨hok.1, hok.2.1, hok.2.2.1, trivial⟩ (base := 0) (Nat.zero_le _) hown hg hty ha
    rw [run_append, run_append] at ha3
    have hr3 : after s2.ref (t3.map (fun t => (t, phiMark st.scopes.length cs t))) = s3.ref := by
      have := phis_after (d := st.scopes.length) (cs := cs) _ h3'
      exact this
    have ih4 := executed hcast hneg r F.eff.open_ (hwf.eff F.eff) (hb.eff F.eff fun x => (F.vars x).2) hw.2.2 h4
      hok.2.2.2 (hown.eff (Nat.zero_le _) F.eff (fun x hx => (F.vars x).2 hx) (by
          intro x hx
          rw [List.mem_append] at hx
          exact hx.symm))
      (hg.eff F.eff (fun x => (F.vars x).1) (by
          intro x hx hxa
          rw [List.mem_filter]
          exact ⟨hx, decide_eq_true hxa⟩)) (exec_typed hcast (.ite c t e .nil) hty) ha3 hen hω
    show Kinds.All2 _ (own st.ref (t1 ++ t2 ++ t3.map (fun t => (t, phiMark st.scopes.length cs t)) ++ t4)) _
    have a1 : after st.ref t1 = s1.ref := visitD_after (st := { st with scopes := [] :: st.scopes }) t h1
    have hp1 : (popScope s1).2.ref = s1.ref := by unfold popScope; split <;> rfl
    have a2 : after s1.ref t2 = s2.ref := by rw [← hp1]; exact visitD_after (st := { (popScope s1).2 with scopes := [] :: (popScope s1).2.scopes }) e h2
    have h2' : visitD known e (cs ++ [(false, c')]) { s1 with scopes := [] :: st.scopes } = .ok (t2, s2) := by
      rw [F.pop1] at h2; exact h2
    have aall : after st.ref (t1 ++ t2 ++ t3.map (fun t => (t, phiMark st.scopes.length cs t))) = s3.ref := by
      have hh : ∀ (sm : X → Option Nat) (l1 l2 : List (T X A × Option (Mark X A))),
          after sm (l1 ++ l2) = after (after sm l1) l2 := fun sm l1 l2 => List.foldl_append ..
      rw [hh, hh, a1, a2, hr3]
    have a12 : after st.ref (t1 ++ t2) = s2.ref := by
      have hh : ∀ (sm : X → Option Nat) (l1 l2 : List (T X A × Option (Mark X A))),
          after sm (l1 ++ l2) = after (after sm l1) l2 := fun sm l1 l2 => List.foldl_append ..
      rw [hh, a1, a2]
    rw [own_append, aall, own_append, own_phis _ _ _ _ (phis_isPhi _ h3), List.append_nil, own_append, a1]
    refine all2_append ?_ ih4
    by_cases htc : w.truth (c.eval s) = true
    · rw [if_pos htc]
      refine all2_append ?_ (skipped e hw.2.1 h2 (by rw [enf, htc]; rfl) _)
      exact executed hcast hneg t (st := { st with scopes := [] :: st.scopes }) (by simp) w1 hb hw.1 h1 hok.2.1
        nofun hg hty ⟨ha.ver, ha.orig, ha.attr⟩ (by rw [ent, htc]) o1
    · rw [if_neg htc]
      have htc' : w.truth (c.eval s) = false := by simpa using htc
      refine all2_append (skipped t hw.1 h1 (by rw [ent, htc']) _) ?_
      refine executed hcast hneg e (st := { s1 with scopes := [] :: st.scopes }) (by simp) w2 ?_ hw.2.1 h2' hok.2.2.1
        nofun ?_ hty ⟨?_, ?_, ?_⟩ (by rw [enf, htc']; rfl) o2
      · have : Bare s1 := Bare.eff (st := { st with scopes := [] :: st.scopes }) hb F.eff1 fun x => (F.vars1 x).2
        exact this
      · intro x hx hxv
        rw [List.mem_append, not_or] at hx
        obtain ⟨k, q1, q2⟩ := hg x hx.1 (((F.vars1 x).1 hxv).resolve_right hx.2)
        exact ⟨k, (F.eff1.ref x hx.2).trans q1, q2⟩
      · intro x k hk
        have hk : findDef st.scopes x = some k := hk
        rw [k1.2 _ _ (by intro z i q; cases q; exact hwf.below x k hk)]
        exact ha.ver x k hk
      · intro x hx
        rw [k1.2 _ _ (below_orig _ _)]
        exact ha.orig x (fun q => hx ((F.vars1 x).2 (.inl q)))
      · intro y
        rw [k1.2 _ _ (below_attr _ _)]
        exact ha.attr y

theorem marks_iff {known : X → Bool} : ∀ (p : P X A) {cs : List (Bool × E (Nm X) A)} {st st' : St X}
    {qs : List (T X A × Option (Mark X A))}, visitD known p cs st = .ok (qs, st') →
    ((∀ q ∈ qs, q.2.isSome = true) ↔ Whole p)
  | .nil, cs, st, st', qs, h => by
    simp only [visitD, Res.ok.injEq, Prod.mk.injEq] at h
    obtain ⟨rfl, rfl⟩ := h
    simp [Whole]
  | .set x e r, cs, st, st', qs, h => by
    simp only [visitD, Res.bind_eq_ok, Res.ok.injEq, Prod.mk.injEq] at h
    obtain ⟨e', -, ⟨k, s1⟩, hw, ⟨t2, s2⟩, h2, rfl, rfl⟩ := h
    rw [Whole, ← marks_iff r h2]
    simp
  | .attr y e r, cs, st, st', qs, h => by
    simp only [visitD, Res.bind_eq_ok, Res.ok.injEq, Prod.mk.injEq] at h
    obtain ⟨e', -, ⟨t2, s2⟩, h2, rfl, rfl⟩ := h
    simp [Whole]
  | .part x e r, cs, st, st', qs, h => by
    simp only [visitD, Res.bind_eq_ok, Res.ok.injEq, Prod.mk.injEq] at h
    obtain ⟨e', -, n, -, ⟨t2, s2⟩, h2, rfl, rfl⟩ := h
    simp [Whole]
  | .ite c t e r, cs, st, st', qs, h => by
    simp only [visitD, Res.bind_eq_ok, Res.ok.injEq, Prod.mk.injEq] at h
    obtain ⟨c', hc, ⟨t1, s1⟩, h1, ⟨t2, s2⟩, h2, ⟨t3, s3⟩, h3, ⟨t4, s4⟩, h4, rfl, rfl⟩ := h
    rw [Whole, ← marks_iff t h1, ← marks_iff e h2, ← marks_iff r h4]
    have h3' : ∀ q ∈ t3.map (fun t => (t, phiMark st.scopes.length cs t)), q.2.isSome = true := by
      intro q hq
      obtain ⟨t, ht, rfl⟩ := List.mem_map.1 hq
      have := phis_isPhi _ h3 t ht
      cases t <;> first | rfl | cases this
    simp only [List.mem_append]
    constructor
    · intro h
      exact ⟨fun q hq => h q (.inl (.inl (.inl hq))), fun q hq => h q (.inl (.inl (.inr hq))),
        fun q hq => h q (.inr hq)⟩
    · rintro ⟨q1, q2, q4⟩ q (((hq | hq) | hq) | hq)
      · exact q1 q hq
      · exact q2 q hq
      · exact h3' q hq
      · exact q4 q hq

/-- **Which functions are accepted**: those that are converted and assign whole variables only. -/
theorem accepted_iff (known : X → Bool) (p : P X A) :
    (∃ bs, breakpoints known p = .ok bs) ↔ (∃ q, convert known p = .ok q) ∧ Whole p := by
  unfold breakpoints convert
  rw [← visitD_erase p []]
  cases h : visitD known p [] St.init with
  | ok q =>
    obtain ⟨qs, st'⟩ := q
    have hi := marks_iff p h
    simp only [Res.ok_bind]
    rw [fix_linear qs Fix.init (fun _ => none) rfl]
    by_cases ha : ∀ q ∈ qs, q.2.isSome = true
    · rw [if_pos ha]
      simp only [Res.ok_bind]
      exact ⟨fun _ => ⟨⟨_, rfl⟩, hi.1 ha⟩, fun _ => ⟨_, rfl⟩⟩
    · rw [if_neg ha]
      exact ⟨fun ⟨_, h⟩ => (by cases h), fun ⟨_, h⟩ => absurd (hi.2 h) ha⟩
  | throw e => exact ⟨fun ⟨_, h⟩ => (by cases h), fun ⟨⟨_, h⟩, _⟩ => (by cases h)⟩
  | ub => exact ⟨fun ⟨_, h⟩ => (by cases h), fun ⟨⟨_, h⟩, _⟩ => (by cases h)⟩

/-- **Breakpoints, partial**: in every settled state of the block, a breakpoint at a statement of the function stops
exactly if the statement runs, and then every name shows the value that the variable has before the statement, unless
the first branch of an `if` around it has assigned the variable and the second branch has not.  Missing: these names,
the breakpoints at added statements, and tests whose complement is not their negation. -/
theorem debug_partial (w : World X A) (hcast : ∀ x v, w.cast x (w.cast x v) = w.cast x v) (neg : A → A)
    (hneg : ∀ v, w.truth (neg v) = !w.truth v) (known : X → Bool) (p : P X A) (ts : List (T X A))
    (ref : X → Option Nat) (bs : List (Bp X A)) (hc : convert known p = .ok (ts, ref))
    (hb : breakpoints known p = .ok bs) (hok : Ok false [] [] p) (σ : Nm X → A)
    (hty : ∀ x, w.cast x (σ (.orig x)) = σ (.orig x)) (hσ : run w ts σ = σ) :
    Kinds.All2 (RightPart w neg σ) (bs.filter fun b => !b.added) (trace w p [] (back σ)) := by
  have hwh := ((accepted_iff known p).1 ⟨bs, hb⟩).2
  simp only [breakpoints, Res.bind_eq_ok, Res.ok.injEq] at hb
  obtain ⟨⟨qs, st'⟩, hv, sh, hf, rfl⟩ := hb
  have hvv := visitD_visit hv
  simp only [convert, hvv, Res.ok_bind, Res.ok.injEq, Prod.mk.injEq] at hc
  obtain ⟨rfl, rfl⟩ := hc
  rw [fix_linear qs Fix.init (fun _ => none) rfl, if_pos ((marks_iff p hv).2 hwh)] at hf
  cases hf
  have := executed hcast hneg (ω := σ) p (st := St.init) (by simp [St.init]) ⟨nofun, nofun⟩ (fun _ _ => rfl) hwh hv hok
    nofun (by intro x _ hx; cases hx) (s := back σ) (σ := σ) hty ⟨nofun, fun _ _ => rfl, fun _ => rfl⟩ rfl
    (fun n _ => by rw [hσ])
  exact this

/-! ### Settled states -/

def tgt : T X A → Nm X
  | .set x k _ => .ver x k
  | .attr y _ => .attr y
  | .part n _ _ => n
  | .phi x k _ _ _ => .ver x k

/-- Statements that write the versions with numbers from `a` to `b`, in this order, and read older ones. -/
def Asc : List (T X A) → Nat → Nat → Prop
  | [], a, b => a = b
  | .set _ k e :: l, a, b => k = a ∧ (∀ n ∈ e.args, Below a n) ∧ Asc l (a + 1) b
  | .phi _ k c p q :: l, a, b => k = a ∧ (∀ n ∈ c.args, Below a n) ∧ p < a ∧ q < a ∧ Asc l (a + 1) b
  | .attr .. :: _, _, _ => False
  | .part .. :: _, _, _ => False

theorem Asc.fresh : ∀ {l : List (T X A)} {a b : Nat}, Asc l a b → ∀ t ∈ l, ∀ n, Below a n → tgt t ≠ n
  | [], _, _, _, t, ht, _, _ => by cases ht
  | .set x k e :: l, a, b, h, t, ht, n, hn => by
    rcases List.mem_cons.1 ht with rfl | ht
    · intro q
      have := hn x k q.symm
      have := h.1
      omega
    · exact Asc.fresh h.2.2 t ht n (hn.mono (Nat.le_succ _))
  | .phi x k c p q :: l, a, b, h, t, ht, n, hn => by
    rcases List.mem_cons.1 ht with rfl | ht
    · intro q
      have := hn x k q.symm
      have := h.1
      omega
    · exact Asc.fresh h.2.2.2.2 t ht n (hn.mono (Nat.le_succ _))
  | .attr .. :: _, _, _, h, _, _, _, _ => h.elim
  | .part .. :: _, _, _, h, _, _, _, _ => h.elim

theorem Asc.append : ∀ {l m : List (T X A)} {a b c : Nat}, Asc l a b → Asc m b c → Asc (l ++ m) a c
  | [], m, a, b, c, h, h' => by
    have h : a = b := h
    subst h
    exact h'
  | .set .. :: l, _, _, _, _, h, h' => ⟨h.1, h.2.1, Asc.append h.2.2 h'⟩
  | .phi .. :: l, _, _, _, _, h, h' => ⟨h.1, h.2.1, h.2.2.1, h.2.2.2.1, Asc.append h.2.2.2.2 h'⟩
  | .attr .. :: _, _, _, _, _, h, _ => h.elim
  | .part .. :: _, _, _, _, _, h, _ => h.elim

theorem step_other (w : World X A) (σ : Nm X → A) (t : T X A) (n : Nm X) (h : tgt t ≠ n) : step w σ t n = σ n := by
  cases t <;> exact upd_ne (Ne.symm h)

theorem run_other (w : World X A) : ∀ (l : List (T X A)) (σ : Nm X → A) (n : Nm X), (∀ t ∈ l, tgt t ≠ n) →
    run w l σ n = σ n
  | [], _, _, _ => rfl
  | t :: l, σ, n, h => by
    rw [run_cons, run_other w l _ n fun t ht => h t (List.mem_cons_of_mem _ ht)]
    exact step_other w σ t n (h t (List.mem_cons_self ..))

/-- The result depends only on the names that are not written. -/
theorem Asc.congr (w : World X A) : ∀ {l : List (T X A)} {a b : Nat}, Asc l a b → ∀ {σ σ' : Nm X → A},
    (∀ n, (∀ t ∈ l, tgt t ≠ n) → σ n = σ' n) → run w l σ = run w l σ'
  | [], _, _, _, σ, σ', h => funext fun n => h n nofun
  | t :: l, a, b, ha, σ, σ', h => by
    rw [run_cons, run_cons]
    have below : ∀ n, Below a n → σ n = σ' n := fun n hn => h n fun t ht => ha.fresh t ht n hn
    have tail : (∃ a', Asc l a' b) ∧ step w σ t (tgt t) = step w σ' t (tgt t) := by
      cases t with
      | set x k e =>
        refine ⟨⟨_, ha.2.2⟩, ?_⟩
        simp only [step, tgt, upd_eq, E.eval]
        rw [List.map_congr_left fun n hn => below n (ha.2.1 n hn)]
      | phi x k c p q =>
        refine ⟨⟨_, ha.2.2.2.2⟩, ?_⟩
        have hev : c.eval σ = c.eval σ' := by
          unfold E.eval
          rw [List.map_congr_left fun n hn => below n (ha.2.1 n hn)]
        simp only [step, tgt, upd_eq]
        rw [hev, below (.ver x p) (by intro y j e; cases e; exact ha.2.2.1),
          below (.ver x q) (by intro y j e; cases e; exact ha.2.2.2.1)]
      | attr y e => exact ha.elim
      | part n x e => exact ha.elim
    obtain ⟨⟨a', ht⟩, heq⟩ := tail
    refine Asc.congr w ht fun n hn => ?_
    by_cases hc : tgt t = n
    · rw [← hc]
      exact heq
    · rw [step_other w σ t n hc, step_other w σ' t n hc]
      refine h n fun t' ht' => ?_
      rcases List.mem_cons.1 ht' with rfl | ht'
      · exact hc
      · exact hn t' ht'

theorem readNames_below {st : St X} (hw : Wf st) : ∀ {ns : List (Src X)} {ms : List (Nm X)}, readNames st ns = .ok ms →
    ∀ m ∈ ms, Below st.next m
  | [], ms, h, m, hm => by cases h; cases hm
  | n :: ns, ms, h, m, hm => by
    simp only [readNames, Res.bind_eq_ok, Res.ok.injEq] at h
    obtain ⟨m', h1, ms', h2, rfl⟩ := h
    rcases List.mem_cons.1 hm with rfl | hm
    · cases n with
      | attr y => cases h1; exact below_attr _ _
      | loc x =>
        simp only [readName] at h1
        split at h1
        · cases hr : st.ref x with
          | none => rw [hr] at h1; cases h1
          | some k => rw [hr] at h1; cases h1; intro y j e; cases e; exact hw.ref x k hr
        · cases h1; exact below_orig _ _
    · exact readNames_below hw h2 m hm

theorem readE_below {st : St X} (hw : Wf st) {e : E (Src X) A} {e' : E (Nm X) A} (h : readE st e = .ok e') :
    ∀ n ∈ e'.args, Below st.next n := by
  simp only [readE, Res.bind_eq_ok, Res.ok.injEq] at h
  obtain ⟨ms, hms, rfl⟩ := h
  exact readNames_below hw hms

theorem phis_asc {known : X → Bool} {c : E (Nm X) A} {bs es : List (X × Nat)} {m : Nat} : ∀ (xs : List X) {st : St X}
    {ts : List (T X A)} {st' : St X}, st.scopes ≠ [] → Wf st → m ≤ st.next → phis known c bs es xs st = .ok (ts, st') →
    (∀ n ∈ c.args, Below m n) → (∀ x k, look bs x = some k → k < m) → (∀ x k, look es x = some k → k < m) →
    Asc ts st.next st'.next
  | [], st, ts, st', _, _, _, h, _, _, _ => by
    simp only [phis, Res.ok.injEq, Prod.mk.injEq] at h
    obtain ⟨rfl, rfl⟩ := h
    rfl
  | x :: xs, st, ts, st', ho, hw, hm, h, hc, hb, he => by
    have h0 := h
    simp only [phis, Res.bind_eq_ok, Res.ok.injEq, Prod.mk.injEq] at h
    obtain ⟨⟨a, b⟩, hab, ⟨k, st1⟩, hn, ⟨us, st2⟩, hp, rfl, rfl⟩ := h
    obtain ⟨hk, hnx⟩ := newVar_next hn
    simp only at hp
    have h1 : phis known c bs es [x] st = .ok ([.phi x k c a b], st1) := by
      simp only [phis, hab, hn, Res.ok_bind]
    obtain ⟨-, he1⟩ := phis_eff _ ho h1
    obtain ⟨q1, q2⟩ := operands_below (m := st.next) (fun k q => Nat.lt_of_lt_of_le (hb x k q) hm)
      (fun k q => Nat.lt_of_lt_of_le (he x k q) hm) (hw.below x) hab
    refine ⟨hk, fun n q => (hc n q).mono hm, q1, q2, ?_⟩
    have := phis_asc xs he1.open_ (hw.eff he1) (by omega) hp hc hb he
    rw [hnx] at this
    exact this

theorem visit_asc {known : X → Bool} : ∀ (p : P X A) {st st' : St X} {ts : List (T X A)}, st.scopes ≠ [] → Wf st →
    Whole p → visit known p st = .ok (ts, st') → Asc ts st.next st'.next
  | .nil, st, st', ts, _, _, _, h => by
    simp only [visit, Res.ok.injEq, Prod.mk.injEq] at h
    obtain ⟨rfl, rfl⟩ := h
    rfl
  | .set x e r, st, st', ts, ho, hwf, hw, h => by
    simp only [visit, Res.bind_eq_ok, Res.ok.injEq, Prod.mk.injEq] at h
    obtain ⟨e', he', ⟨k, s1⟩, hwr, ⟨t2, s2⟩, h2, rfl, rfl⟩ := h
    have h1 : visit known (.set x e .nil) st = .ok ([.set x k e'], s1) := by
      simp only [visit, he', hwr, Res.ok_bind]
    obtain ⟨hv, he⟩ := visit_eff (.set x e .nil) ho h1
    obtain ⟨hk, hnx⟩ := newVar_next hwr
    have hk : k = st.next := hk
    have hnx : s1.next = st.next + 1 := hnx
    have := visit_asc r he.open_ (hwf.eff he) hw h2
    rw [hnx] at this
    exact ⟨hk, readE_below hwf he', this⟩
  | .attr y e r, _, _, _, _, _, hw, _ => hw.elim
  | .part x e r, _, _, _, _, _, hw, _ => hw.elim
  | .ite c t e r, st, st', ts, ho, hwf, hw, h => by
    obtain ⟨c', t1, s1, t2, s2, t3, s3, t4, hc, h1, h2, h3, h4, rfl⟩ := ite_parts h
    obtain ⟨F, h2, h3⟩ := if_facts ho h1 h2 h3
    have n1 : st.next ≤ s1.next := F.eff1.next
    have n2 : s1.next ≤ s2.next := F.eff2.next
    have w1 : Wf { st with scopes := [] :: st.scopes } := hwf.push st rfl (Nat.le_refl _) hwf.ref
    have w2 : Wf { s1 with scopes := [] :: st.scopes } :=
      hwf.push { s1 with scopes := st.scopes } rfl n1 (w1.eff F.eff1).ref
    have w3 : Wf { s2 with scopes := st.scopes } :=
      ⟨fun x k q => Nat.lt_of_lt_of_le (hwf.below x k q) (Nat.le_trans n1 n2), (w2.eff F.eff2).ref⟩
    have a1 := visit_asc t (by simp) w1 hw.1 h1
    have a2 := visit_asc e (by simp) w2 hw.2.1 h2
    have a3 := phis_asc (m := s2.next) _ (st := { s2 with scopes := st.scopes }) ho w3 (Nat.le_refl _) h3
      (fun n q => (readE_below hwf hc n q).mono (Nat.le_trans n1 n2))
      (fun x k q => Nat.lt_of_lt_of_le (F.look1 x k q).2 n2) (fun x k q => (F.look2 x k q).2)
    have a4 := visit_asc r F.eff.open_ (hwf.eff F.eff) hw.2.2 h4
    exact ((Asc.append a1 a2).append a3).append a4

/-- **A block settles**: from every state, running the converted function once leads to a settled state, with the same
values of the variables themselves and of the attributes.  So the states of `debug_partial` exist for every start. -/
theorem settles (w : World X A) (known : X → Bool) (p : P X A) (ts : List (T X A)) (ref : X → Option Nat)
    (hc : convert known p = .ok (ts, ref)) (hw : Whole p) (σ : Nm X → A) :
    run w ts (run w ts σ) = run w ts σ ∧ back (run w ts σ) = back σ := by
  simp only [convert, Res.bind_eq_ok, Res.ok.injEq, Prod.mk.injEq] at hc
  obtain ⟨⟨us, st'⟩, hv, rfl, rfl⟩ := hc
  have ha := visit_asc p (st := St.init) (by simp [St.init]) ⟨nofun, nofun⟩ hw hv
  refine ⟨Asc.congr w ha fun n hn => run_other w _ σ n hn, funext fun n => ?_⟩
  cases n with
  | loc x => exact run_other w _ σ _ fun t ht => ha.fresh t ht _ (below_orig _ _)
  | attr y => exact run_other w _ σ _ fun t ht => ha.fresh t ht _ (below_attr _ _)

end

/-! ### Where it goes wrong, and cases that meet the hypotheses -/

/-- Complement of eight bits, and of one bit. -/
def comp8 (v : Nat) : Nat := 255 - v % 256
def comp1 (v : Nat) : Nat := if v = 0 then 1 else 0

theorem comp1_neg (v : Nat) : w8.truth (comp1 v) = !w8.truth v := by
  unfold comp1 w8
  by_cases h : v = 0 <;> simp [h]

/-- `x = 1; if c: x = 2 else: y = 0; y = 1` and `y = 0` before, with `x`, `y`, `c` being 0, 1, 2. -/
def hides : P Nat Nat :=
  .set 1 (num 0) (.set 0 (num 1) (.ite (rd 2) (.set 0 (num 2) .nil) (.set 1 (num 1) .nil) .nil))

/-- The state that the block settles in. -/
def settled (p : P Nat Nat) (s : Nm Nat → Nat) : Nm Nat → Nat :=
  match convert all p with
  | .ok (ts, _) => run w8 ts s
  | _ => s

/-- A breakpoint, seen from outside: added, stops, and what the names 0 and 1 show. -/
def seen (neg : Nat → Nat) (σ : Nm Nat → Nat) (b : Bp Nat Nat) : Bool × Bool × Nat × Nat :=
  (b.added, enabled w8 neg σ b.en, value σ b.shown 0, value σ b.shown 1)

/-- **A name shows the wrong value**: in the `else` branch `x` is 1; the breakpoint shows the 2 of the branch that did
not run. -/
theorem hidden_wrong : ∃ bs, breakpoints all hides = .ok bs ∧
    (bs.map (seen comp1 (settled hides fun _ => 0)))[3]? = some (false, true, 2, 0) ∧
    ((trace w8 hides [] (back (settled hides fun _ => 0)))[3]?.join.map fun q => q.1 (.loc 0)) = some 1 :=
  ⟨_, rfl, by decide +kernel, by decide +kernel⟩

/-- **A breakpoint in a branch that does not run stops**: the test is written `~(c)`, and with more than one bit the
complement of 1 is not zero. -/
theorem neg_wrong : ∃ bs, breakpoints all hides = .ok bs ∧
    (bs.map (seen comp8 (settled hides fun _ => 1)))[2]? = some (false, true, 1, 0) ∧
    (bs.map (seen comp8 (settled hides fun _ => 1)))[3]? = some (false, true, 2, 0) ∧
    (trace w8 hides [] (back (settled hides fun _ => 1)))[3]? = some none :=
  ⟨_, rfl, by decide +kernel, by decide +kernel, by
    have : ((trace w8 hides [] (back (settled hides fun _ => 1)))[3]?.map Option.isNone) = some true := by decide +kernel
    revert this
    cases (trace w8 hides [] (back (settled hides fun _ => 1)))[3]? with
    | none => intro h; cases h
    | some q => cases q with
      | none => intro _; rfl
      | some _ => intro h; cases h⟩

/-- **There are breakpoints at statements that nobody wrote**: four assignments make six breakpoints. -/
theorem added_wrong : ∃ bs, breakpoints all hides = .ok bs ∧ bs.map (·.added) = [false, false, false, false, true, true] ∧
    count hides = 4 :=
  ⟨_, rfl, by decide +kernel, by decide +kernel⟩

theorem all2_length {A B : Type} {R : A → B → Prop} : ∀ {l : List A} {m : List B}, Kinds.All2 R l m → l.length = m.length
  | _, _, .nil => rfl
  | _, _, .cons _ h => by simp [all2_length h]

theorem hides_whole : Whole hides := by simp [hides, Whole]

/-- **The claim is false.** -/
theorem not_DebugClaim : ¬ DebugClaim Nat Nat := by
  intro hcl
  obtain ⟨bs, hb, hadd, -⟩ := added_wrong
  obtain ⟨⟨ts, ref⟩, hc⟩ := ((accepted_iff all hides).1 ⟨bs, hb⟩).1
  obtain ⟨h1, h2⟩ := settles w8 all hides ts ref hc hides_whole (fun _ => 0)
  have h2' : ∀ x, run w8 ts (fun _ => 0) (.orig x) = 0 := fun x => congrFun h2 (.loc x)
  have hl := all2_length (hcl w8 comp1 w8_cast all hides ts ref bs hc hb (run w8 ts fun _ => 0)
    (fun x => by rw [h2' x]; rfl) h1)
  rw [h2] at hl
  have h6 : bs.length = 6 := by have := congrArg List.length hadd; simpa using this
  rw [h6] at hl
  exact absurd hl (by decide +kernel)

/-- **Attributes and parts of variables are refused.** -/
theorem attr_refused : breakpoints all (.attr 9 (rd 3) .nil) = .throw .stmt ∧
    breakpoints all (.set 3 (num 0) (.part 3 ⟨[.loc 0], fun l => l.sum⟩ .nil)) = .throw .stmt := ⟨rfl, rfl⟩

/-- `y = 0; x = 1; if c: x = 2 (and if x: y = x) else: x = 4; y = x`, then `z = y`. -/
def goodWhole : P Nat Nat :=
  .set 1 (num 0) (.set 0 (num 1) (.ite (rd 2) (.set 0 (num 2) (.ite (rd 0) (.set 1 (rd 0) .nil) .nil .nil))
    (.set 0 (num 4) (.set 1 (rd 0) .nil)) (.set 3 (rd 1) .nil)))

/-- The hypotheses of `debug_partial` are met from every state, and the conclusion is about real stops: with `c = 0`
the first two and the last three breakpoints stop; `x` and `y` show (0, 0), (0, 0), then hidden values, `x = 4` and
(4, 4). -/
example : ∃ ts ref bs, convert all goodWhole = .ok (ts, ref) ∧ breakpoints all goodWhole = .ok bs ∧
    Ok false [] [] goodWhole ∧ Whole goodWhole ∧
    (bs.filter fun b => !b.added).map (seen comp1 (settled goodWhole fun _ => 0)) =
      [(false, true, 0, 0), (false, true, 0, 0), (false, false, 1, 0), (false, false, 2, 0), (false, true, 2, 2),
       (false, true, 4, 2), (false, true, 4, 4)] :=
  ⟨_, _, _, rfl, rfl, by simp [goodWhole, Ok, rd, num, asg], by simp [goodWhole, Whole], by decide +kernel⟩

end Kratos.Ssa
