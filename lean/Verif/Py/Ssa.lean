import Verif.Base

/-!
# C25: single-assignment form of a combinational function

`transform_always_comb_ssa` (kratos/pyast.py:650-812), applied to a function body of assignments and `if`s (loops
have been unrolled before, kratos/pyast.py:1077-1084).

An expression is any function of the names it mentions. A name is a local variable of the function's scope or
anything reached through an attribute (`self.y`), which the visitor leaves alone. `cast x` is what storing into a
variable of the width and sign of `x` does to a value; a new version of `x` has its width and sign
(`var_from_def`, kratos/pyast.py:679). New names are written `ver x k` with a running number `k`: that
`get_unique_variable_name` returns a name that is not in use is C03's subject. Python names and names of kratos
variables are taken to be the same (the final wires look Python names up in the generator, kratos/pyast.py:808-811).
-/

namespace Kratos.Ssa

/-- A name in the function: a local variable, or an attribute. -/
inductive Src (X : Type) where
  | loc (x : X)
  | attr (y : X)
  deriving DecidableEq

/-- A name in the converted function: the variable itself, a version of it, or an attribute. -/
inductive Nm (X : Type) where
  | orig (x : X)
  | ver (x : X) (k : Nat)
  | attr (y : X)
  deriving DecidableEq

/-- An expression over names. -/
structure E (N A : Type) where
  args : List N
  f : List A → A

def E.eval {N A : Type} (e : E N A) (s : N → A) : A := e.f (e.args.map s)

/-- A body. `set`: `x = e`; `attr`: `self.y = e`; `part`: `x[i] = e`, the new value of `x` being a function of the old
one (the first argument of `f`) and the names of `e`. -/
inductive P (X A : Type) where
  | nil
  | set (x : X) (e : E (Src X) A) (rest : P X A)
  | attr (y : X) (e : E (Src X) A) (rest : P X A)
  | part (x : X) (e : E (Src X) A) (rest : P X A)
  | ite (c : E (Src X) A) (t e : P X A) (rest : P X A)

/-- Statements of the converted function: there is no `if` left. -/
inductive T (X A : Type) where
  | set (x : X) (k : Nat) (e : E (Nm X) A)
  | attr (y : X) (e : E (Nm X) A)
  | part (n : Nm X) (x : X) (e : E (Nm X) A)
  | phi (x : X) (k : Nat) (c : E (Nm X) A) (a b : Nat)

section
variable {X A : Type} [DecidableEq X]

/-- What values are: how they are stored, and which count as true. -/
structure World (X A : Type) where
  cast : X → A → A
  truth : A → Bool

def upd {N : Type} [DecidableEq N] (s : N → A) (n : N) (v : A) : N → A := fun m => if m = n then v else s m

/-! ### Specification: running the two functions -/

/-- Running the function as written. -/
def exec (w : World X A) : P X A → (Src X → A) → Src X → A
  | .nil, s => s
  | .set x e r, s => exec w r (upd s (.loc x) (w.cast x (e.eval s)))
  | .attr y e r, s => exec w r (upd s (.attr y) (e.eval s))
  | .part x e r, s => exec w r (upd s (.loc x) (w.cast x (e.f (s (.loc x) :: e.args.map s))))
  | .ite c t e r, s => exec w r (if w.truth (c.eval s) then exec w t s else exec w e s)

/-- Running one converted statement. -/
def step (w : World X A) (σ : Nm X → A) : T X A → Nm X → A
  | .set x k e => upd σ (.ver x k) (w.cast x (e.eval σ))
  | .attr y e => upd σ (.attr y) (e.eval σ)
  | .part n x e => upd σ n (w.cast x (e.f (σ n :: e.args.map σ)))
  | .phi x k c a b => upd σ (.ver x k) (w.cast x (if w.truth (c.eval σ) then σ (.ver x a) else σ (.ver x b)))

def run (w : World X A) (ts : List (T X A)) (σ : Nm X → A) : Nm X → A := ts.foldl (step w) σ

/-! ### The conversion -/

/-- A dictionary of created names, in the order of first insertion. -/
def put : List (X × Nat) → X → Nat → List (X × Nat)
  | [], x, k => [(x, k)]
  | (y, j) :: l, x, k => if y = x then (y, k) :: l else (y, j) :: put l x k

def look : List (X × Nat) → X → Option Nat
  | [], _ => none
  | (y, j) :: l, x => if y = x then some j else look l x

/-- `__find_var_def` (kratos/pyast.py:719-723): innermost scope first. -/
def findDef : List (List (X × Nat)) → X → Option Nat
  | [], _ => none
  | d :: ds, x => match look d x with
    | some k => some k
    | none => findDef ds x

/-- The state of the visitor (kratos/pyast.py:651-663): names assigned so far, the current version of each, the
dictionaries of created names (innermost scope first), and the next number. -/
structure St (X : Type) where
  vars : List X
  ref : X → Option Nat
  scopes : List (List (X × Nat))
  next : Nat

def St.init : St X := ⟨[], fun _ => none, [[]], 0⟩

/-- `create_new_var` (kratos/pyast.py:674-694); `known x`: the name is in the local scope. Attributes for the
debugger are left out. -/
def newVar (known : X → Bool) (st : St X) (x : X) : Res (Nat × St X) :=
  if known x then
    .ok (st.next, { st with ref := fun y => if y = x then some st.next else st.ref y,
                            scopes := match st.scopes with
                              | [] => []
                              | d :: ds => put d x st.next :: ds,
                            next := st.next + 1 })
  else .throw .user

/-- `visit_Name` for a name that is read (kratos/pyast.py:696-717). -/
def readName (st : St X) : Src X → Res (Nm X)
  | .attr y => .ok (.attr y)
  | .loc x => if x ∈ st.vars then match st.ref x with
      | some k => .ok (.ver x k)
      | none => .throw .user
    else .ok (.orig x)

def readNames (st : St X) : List (Src X) → Res (List (Nm X))
  | [] => .ok []
  | n :: ns => (readName st n).bind fun m => (readNames st ns).bind fun ms => .ok (m :: ms)

def readE (st : St X) (e : E (Src X) A) : Res (E (Nm X) A) := (readNames st e.args).bind fun as => .ok ⟨as, e.f⟩

/-- `visit_Name` for an assigned name (kratos/pyast.py:696-712). -/
def writeName (known : X → Bool) (st : St X) (x : X) : Res (Nat × St X) :=
  newVar known { st with vars := if x ∈ st.vars then st.vars else x :: st.vars } x

/-- The operands of a phi function (kratos/pyast.py:781-795). -/
def operands (bs es : List (X × Nat)) (sc : List (List (X × Nat))) (x : X) : Res (Nat × Nat) :=
  match look bs x with
  | some a => match look es x with
    | some b => .ok (a, b)
    | none => match findDef sc x with
      | some b => .ok (a, b)
      | none => .throw .user
  | none => match look es x with
    | some b => match findDef sc x with
      | some a => .ok (a, b)
      | none => .throw .user
    | none => .throw .outOfRange

/-- The loop over the variables created in either branch (kratos/pyast.py:780-803). -/
def phis (known : X → Bool) (c : E (Nm X) A) (bs es : List (X × Nat)) : List X → St X → Res (List (T X A) × St X)
  | [], st => .ok ([], st)
  | x :: xs, st => (operands bs es st.scopes x).bind fun ab => (newVar known st x).bind fun kst =>
      (phis known c bs es xs kst.2).bind fun r => .ok (.phi x kst.1 c ab.1 ab.2 :: r.1, r.2)

/-- The names of both dictionaries, without repetition (kratos/pyast.py:773-779). -/
def both (bs es : List (X × Nat)) : List X :=
  bs.map Prod.fst ++ (es.map Prod.fst).filter (fun x => x ∉ bs.map Prod.fst)

/-- The innermost dictionary, and the others. -/
def popScope (st : St X) : List (X × Nat) × St X :=
  match st.scopes with
  | [] => ([], st)
  | d :: ds => (d, { st with scopes := ds })

/-- `visit_Assign` (kratos/pyast.py:665-672) — a target that is not a name is visited like an expression, so an
attribute stays as it is and a sliced variable is replaced by its current version — and `visit_If`
(kratos/pyast.py:742-805). `self.var_ref` is not put back between the two branches. -/
def visit (known : X → Bool) : P X A → St X → Res (List (T X A) × St X)
  | .nil, st => .ok ([], st)
  | .set x e r, st => (readE st e).bind fun e' => (writeName known st x).bind fun kst =>
      (visit known r kst.2).bind fun q => .ok (.set x kst.1 e' :: q.1, q.2)
  | .attr y e r, st => (readE st e).bind fun e' => (visit known r st).bind fun q => .ok (.attr y e' :: q.1, q.2)
  | .part x e r, st => (readE st e).bind fun e' => (readName st (.loc x)).bind fun n =>
      (visit known r st).bind fun q => .ok (.part n x e' :: q.1, q.2)
  | .ite c t e r, st => (readE st c).bind fun c' =>
      (visit known t { st with scopes := [] :: st.scopes }).bind fun q1 =>
      (visit known e { (popScope q1.2).2 with scopes := [] :: (popScope q1.2).2.scopes }).bind fun q2 =>
      (phis known c' (popScope q1.2).1 (popScope q2.2).1 (both (popScope q1.2).1 (popScope q2.2).1) (popScope q2.2).2).bind fun q3 =>
      (visit known r q3.2).bind fun q4 => .ok (q1.1 ++ q2.1 ++ q3.1 ++ q4.1, q4.2)

/-- The whole function, and the final wires `x = version` (kratos/pyast.py:804-811). -/
def convert (known : X → Bool) (p : P X A) : Res (List (T X A) × (X → Option Nat)) :=
  (visit known p St.init).bind fun q => .ok (q.1, q.2.ref)

/-! ### Specification: what is claimed -/

/-- The variables a body assigns as a whole. -/
def asg : P X A → List X
  | .nil => []
  | .set x _ r => x :: asg r
  | .attr _ _ r => asg r
  | .part _ _ r => asg r
  | .ite _ t e r => asg t ++ asg e ++ asg r

/-- The store before the converted function runs. -/
def entry (s : Src X → A) (junk : A) : Nm X → A
  | .orig x => s (.loc x)
  | .ver _ _ => junk
  | .attr y => s (.attr y)

/-- **C25**, the full claim: whatever the body, if it is converted then every variable it assigns is wired to a
version that holds its final value, and everything else holds what it would. -/
def SsaClaim (X A : Type) [DecidableEq X] : Prop :=
  ∀ (w : World X A), (∀ x v, w.cast x (w.cast x v) = w.cast x v) →
  ∀ (known : X → Bool) (p : P X A) (ts : List (T X A)) (ref : X → Option Nat), convert known p = .ok (ts, ref) →
  ∀ (s : Src X → A) (junk : A), (∀ x, w.cast x (s (.loc x)) = s (.loc x)) →
    (∀ x ∈ asg p, ∃ k, ref x = some k ∧ run w ts (entry s junk) (.ver x k) = exec w p s (.loc x)) ∧
    (∀ x, x ∉ asg p → ref x = none ∧ run w ts (entry s junk) (.orig x) = exec w p s (.loc x)) ∧
    (∀ y, run w ts (entry s junk) (.attr y) = exec w p s (.attr y))

/-- Bodies the conversion is right for. `stale`: variables assigned in the first branch of an enclosing `if` and not
since; they are not read. `own`: variables assigned as a whole in the present branch (or at the top); only their parts
are assigned. Attributes are assigned outside of `if`s only. -/
def Ok (inIf : Bool) (own stale : List X) : P X A → Prop
  | .nil => True
  | .set x e r => (∀ y, Src.loc y ∈ e.args → y ∉ stale) ∧ Ok inIf (x :: own) (stale.filter (· ≠ x)) r
  | .attr _ e r => inIf = false ∧ (∀ y, Src.loc y ∈ e.args → y ∉ stale) ∧ Ok inIf own stale r
  | .part x e r => x ∈ own ∧ x ∉ stale ∧ (∀ y, Src.loc y ∈ e.args → y ∉ stale) ∧ Ok inIf own stale r
  | .ite c t e r => (∀ y, Src.loc y ∈ c.args → y ∉ stale) ∧ Ok true [] stale t ∧ Ok true [] (stale ++ asg t) e ∧
      Ok inIf (asg t ++ asg e ++ own) (stale.filter (fun x => x ∉ asg t ++ asg e)) r

/-! ### Dictionaries -/

theorem look_put (l : List (X × Nat)) (x : X) (k : Nat) (y : X) :
    look (put l x k) y = if y = x then some k else look l y := by
  induction l with
  | nil =>
    simp only [put, look]
    by_cases h : y = x
    · subst h; simp
    · rw [if_neg h, if_neg (fun e => h e.symm)]
  | cons p l ih =>
    obtain ⟨z, j⟩ := p
    simp only [put]
    by_cases hz : z = x
    · subst hz
      simp only [if_true, look]
      by_cases h : z = y
      · subst h; simp
      · rw [if_neg h, if_neg (fun e => h e.symm), if_neg h]
    · simp only [if_neg hz, look]
      by_cases h : z = y
      · subst h; simp [hz]
      · simp only [if_neg h, ih]

theorem look_none {l : List (X × Nat)} {x : X} : look l x = none ↔ x ∉ l.map Prod.fst := by
  induction l with
  | nil => simp [look]
  | cons p l ih =>
    obtain ⟨z, j⟩ := p
    simp only [look, List.map_cons, List.mem_cons, not_or]
    by_cases h : z = x
    · simp [h]
    · simp only [if_neg h, ih]
      exact ⟨fun q => ⟨fun e => h e.symm, q⟩, fun q => q.2⟩

theorem look_some_mem {l : List (X × Nat)} {x : X} {k : Nat} (h : look l x = some k) : x ∈ l.map Prod.fst := by
  apply Classical.byContradiction
  intro hn
  rw [look_none.2 hn] at h
  cases h

theorem keys_put (l : List (X × Nat)) (x : X) (k : Nat) (y : X) :
    y ∈ (put l x k).map Prod.fst ↔ y ∈ l.map Prod.fst ∨ y = x := by
  have h := look_put l x k y
  constructor
  · intro hm
    by_cases hy : y = x
    · exact .inr hy
    · left
      apply Classical.byContradiction
      intro hn
      rw [if_neg hy, look_none.2 hn] at h
      exact look_none.1 h hm
  · intro hm
    apply Classical.byContradiction
    intro hn
    rw [look_none.2 hn] at h
    split at h
    · cases h
    · rename_i hne
      rcases hm with hm | hm
      · exact look_none.1 h.symm hm
      · exact hne hm

theorem nodup_put {l : List (X × Nat)} (h : (l.map Prod.fst).Nodup) (x : X) (k : Nat) :
    ((put l x k).map Prod.fst).Nodup := by
  induction l with
  | nil => simp [put]
  | cons p l ih =>
    obtain ⟨z, j⟩ := p
    simp only [List.map_cons, List.nodup_cons] at h
    simp only [put]
    split
    · simp only [List.map_cons, List.nodup_cons]; exact h
    · rename_i hz
      simp only [List.map_cons, List.nodup_cons]
      refine ⟨?_, ih h.2⟩
      rw [keys_put]
      rintro (q | q)
      · exact h.1 q
      · exact hz q

theorem findDef_cons (d : List (X × Nat)) (ds : List (List (X × Nat))) (x : X) :
    findDef (d :: ds) x = (look d x).or (findDef ds x) := by
  simp only [findDef]
  cases look d x <;> rfl

/-! ### What the visitor does to its state -/

/-- Between two states the variables `a` got new versions in the current scope. -/
structure Eff (st st' : St X) (a : List X) : Prop where
  next : st.next ≤ st'.next
  scopes : ∃ d d' ds, st.scopes = d :: ds ∧ st'.scopes = d' :: ds ∧ (∀ x, x ∉ a → look d' x = look d x) ∧
    (∀ x ∈ a, ∃ k, look d' x = some k ∧ st'.ref x = some k ∧ st.next ≤ k ∧ k < st'.next) ∧
    ((d.map Prod.fst).Nodup → (d'.map Prod.fst).Nodup)
  ref : ∀ x, x ∉ a → st'.ref x = st.ref x

theorem Eff.refl (st : St X) (h : st.scopes ≠ []) : Eff st st [] := by
  cases hs : st.scopes with
  | nil => exact absurd hs h
  | cons d ds => exact ⟨Nat.le_refl _, ⟨d, d, ds, hs, hs, fun _ _ => rfl, nofun, id⟩, fun _ _ => rfl⟩

theorem Eff.trans {s1 s2 s3 : St X} {a b : List X} (h1 : Eff s1 s2 a) (h2 : Eff s2 s3 b) : Eff s1 s3 (a ++ b) := by
  obtain ⟨n1, ⟨d1, d2, ds, e1, e2, o1, i1, u1⟩, r1⟩ := h1
  obtain ⟨n2, ⟨d2', d3, ds', e2', e3, o2, i2, u2⟩, r2⟩ := h2
  rw [e2] at e2'
  obtain ⟨rfl, rfl⟩ := List.cons.inj e2'
  refine ⟨by omega, ⟨d1, d3, ds, e1, e3, ?_, ?_, fun h => u2 (u1 h)⟩, ?_⟩
  · intro x hx
    rw [List.mem_append, not_or] at hx
    rw [o2 x hx.2, o1 x hx.1]
  · intro x hx
    by_cases hb : x ∈ b
    · obtain ⟨k, q1, q2, q3, q4⟩ := i2 x hb
      exact ⟨k, q1, q2, by omega, q4⟩
    · rw [List.mem_append] at hx
      obtain ⟨k, q1, q2, q3, q4⟩ := i1 x (hx.resolve_right hb)
      exact ⟨k, (o2 x hb).trans q1, (r2 x hb).trans q2, q3, by omega⟩
  · intro x hx
    rw [List.mem_append, not_or] at hx
    rw [r2 x hx.2, r1 x hx.1]

theorem Eff.congr {s1 s2 : St X} {a b : List X} (h : Eff s1 s2 a) (hab : ∀ x, x ∈ a ↔ x ∈ b) : Eff s1 s2 b := by
  obtain ⟨n1, ⟨d1, d2, ds, e1, e2, o1, i1, u1⟩, r1⟩ := h
  exact ⟨n1, ⟨d1, d2, ds, e1, e2, fun x hx => o1 x (fun q => hx ((hab x).1 q)), fun x hx => i1 x ((hab x).2 hx), u1⟩,
    fun x hx => r1 x (fun q => hx ((hab x).1 q))⟩

theorem Eff.open_ {s1 s2 : St X} {a : List X} (h : Eff s1 s2 a) : s2.scopes ≠ [] := by
  obtain ⟨-, ⟨d1, d2, ds, e1, e2, -⟩, -⟩ := h
  rw [e2]; simp

theorem Eff.find_out {s1 s2 : St X} {a : List X} (h : Eff s1 s2 a) {x : X} (hx : x ∉ a) :
    findDef s2.scopes x = findDef s1.scopes x := by
  obtain ⟨-, ⟨d1, d2, ds, e1, e2, o1, -⟩, -⟩ := h
  rw [e1, e2, findDef_cons, findDef_cons, o1 x hx]

theorem Eff.find_in {s1 s2 : St X} {a : List X} (h : Eff s1 s2 a) {x : X} (hx : x ∈ a) :
    ∃ k, findDef s2.scopes x = some k ∧ s2.ref x = some k ∧ s1.next ≤ k ∧ k < s2.next := by
  obtain ⟨-, ⟨d1, d2, ds, e1, e2, -, i1, -⟩, -⟩ := h
  obtain ⟨k, q1, q2⟩ := i1 x hx
  refine ⟨k, ?_, q2⟩
  rw [e2, findDef_cons, q1]; rfl

theorem newVar_eff {known : X → Bool} {st : St X} (ho : st.scopes ≠ []) {x : X} {k : Nat} {st' : St X}
    (h : newVar known st x = .ok (k, st')) :
    known x = true ∧ k = st.next ∧ st'.next = st.next + 1 ∧ st'.vars = st.vars ∧ st'.ref x = some k ∧ Eff st st' [x] := by
  cases hs : st.scopes with
  | nil => exact absurd hs ho
  | cons d ds =>
    unfold newVar at h
    rw [hs] at h
    split at h
    · rename_i hk
      simp only [Res.ok.injEq, Prod.mk.injEq] at h
      obtain ⟨rfl, rfl⟩ := h
      refine ⟨hk, rfl, rfl, rfl, by simp, ⟨Nat.le_succ _, ⟨d, put d x st.next, ds, hs, rfl, ?_, ?_, fun hn => nodup_put hn _ _⟩, ?_⟩⟩
      · intro y hy
        rw [look_put, if_neg (by simpa using hy)]
      · intro y hy
        rw [List.mem_singleton] at hy
        subst hy
        exact ⟨st.next, by rw [look_put, if_pos rfl], by simp, Nat.le_refl _, Nat.lt_succ_self _⟩
      · intro y hy
        simp only
        rw [if_neg (by simpa using hy)]
    · cases h

theorem phis_eff {known : X → Bool} {c : E (Nm X) A} {bs es : List (X × Nat)} : ∀ (xs : List X) {st : St X},
    st.scopes ≠ [] → ∀ {ts : List (T X A)} {st' : St X}, phis known c bs es xs st = .ok (ts, st') →
    st'.vars = st.vars ∧ Eff st st' xs
  | [], st, ho, ts, st', h => by
    simp only [phis, Res.ok.injEq, Prod.mk.injEq] at h
    obtain ⟨-, rfl⟩ := h
    exact ⟨rfl, Eff.refl _ ho⟩
  | x :: xs, st, ho, ts, st', h => by
    simp only [phis, Res.bind_eq_ok, Res.ok.injEq, Prod.mk.injEq] at h
    obtain ⟨ab, -, ⟨k, st1⟩, hn, ⟨us, st2⟩, hp, -, rfl⟩ := h
    obtain ⟨-, -, -, hv, -, he⟩ := newVar_eff ho hn
    obtain ⟨hv2, he2⟩ := phis_eff xs he.open_ hp
    exact ⟨hv2.trans hv, he.trans he2⟩

theorem both_mem (bs es : List (X × Nat)) (x : X) :
    x ∈ both bs es ↔ x ∈ bs.map Prod.fst ∨ x ∈ es.map Prod.fst := by
  unfold both
  rw [List.mem_append, List.mem_filter, decide_eq_true_iff]
  by_cases h : x ∈ bs.map Prod.fst <;> simp [h]

theorem both_nodup {bs es : List (X × Nat)} (h1 : (bs.map Prod.fst).Nodup) (h2 : (es.map Prod.fst).Nodup) : (both bs es).Nodup := by
  unfold both
  rw [List.nodup_append]
  refine ⟨h1, h2.filter _, ?_⟩
  intro a ha b hb e
  subst e
  rw [List.mem_filter, decide_eq_true_iff] at hb
  exact hb.2 ha

/-- The pieces of a converted `if`. -/
theorem ite_parts {known : X → Bool} {c : E (Src X) A} {t e r : P X A} {st : St X} {ts : List (T X A)} {st' : St X}
    (h : visit known (.ite c t e r) st = .ok (ts, st')) :
    ∃ c' t1 s1 t2 s2 t3 s3 t4, readE st c = .ok c' ∧
      visit known t { st with scopes := [] :: st.scopes } = .ok (t1, s1) ∧
      visit known e { (popScope s1).2 with scopes := [] :: (popScope s1).2.scopes } = .ok (t2, s2) ∧
      phis known c' (popScope s1).1 (popScope s2).1 (both (popScope s1).1 (popScope s2).1) (popScope s2).2 = .ok (t3, s3) ∧
      visit known r s3 = .ok (t4, st') ∧ ts = t1 ++ t2 ++ t3 ++ t4 := by
  simp only [visit, Res.bind_eq_ok, Res.ok.injEq, Prod.mk.injEq] at h
  obtain ⟨c', hc, ⟨t1, s1⟩, h1, ⟨t2, s2⟩, h2, ⟨t3, s3⟩, h3, ⟨t4, s4⟩, h4, rfl, rfl⟩ := h
  exact ⟨c', t1, s1, t2, s2, t3, s3, t4, hc, h1, h2, h3, h4, rfl⟩

/-- A branch: what is left after its scope is closed. -/
theorem branch_eff {st s1 : St X} {a : List X} (h : Eff { st with scopes := [] :: st.scopes } s1 a) :
    (popScope s1).2.scopes = st.scopes ∧ (popScope s1).2.next = s1.next ∧ (popScope s1).2.ref = s1.ref ∧
    (popScope s1).2.vars = s1.vars ∧ s1.scopes = (popScope s1).1 :: st.scopes ∧
    (∀ x, x ∈ (popScope s1).1.map Prod.fst ↔ x ∈ a) ∧ ((popScope s1).1.map Prod.fst).Nodup ∧
    (∀ x k, look (popScope s1).1 x = some k → st.next ≤ k ∧ k < s1.next) := by
  obtain ⟨n1, ⟨d1, d2, ds, e1, e2, o1, i1, u1⟩, r1⟩ := h
  simp only [List.cons.injEq] at e1
  obtain ⟨rfl, rfl⟩ := e1
  have hp : popScope s1 = (d2, { s1 with scopes := st.scopes }) := by simp only [popScope, e2]
  rw [hp]
  have hk : ∀ x, x ∈ d2.map Prod.fst ↔ x ∈ a := by
    intro x
    constructor
    · intro hx
      apply Classical.byContradiction
      intro hn
      have := o1 x hn
      exact look_none.1 (this.trans rfl) hx
    · intro hx
      obtain ⟨k, q, -⟩ := i1 x hx
      exact look_some_mem q
  refine ⟨rfl, rfl, rfl, rfl, e2, hk, u1 List.nodup_nil, ?_⟩
  intro x k hl
  obtain ⟨k', q1, -, q3, q4⟩ := i1 x ((hk x).1 (look_some_mem hl))
  have hl : look d2 x = some k := hl
  rw [q1] at hl
  cases hl
  exact ⟨q3, q4⟩

/-- The whole visitor: exactly the assigned variables get new versions. -/
theorem visit_eff {known : X → Bool} : ∀ (p : P X A) {st : St X}, st.scopes ≠ [] → ∀ {ts : List (T X A)} {st' : St X},
    visit known p st = .ok (ts, st') → (∀ x, x ∈ st'.vars ↔ x ∈ st.vars ∨ x ∈ asg p) ∧ Eff st st' (asg p)
  | .nil, st, ho, ts, st', h => by
    simp only [visit, Res.ok.injEq, Prod.mk.injEq] at h
    obtain ⟨-, rfl⟩ := h
    exact ⟨fun x => by simp [asg], Eff.refl _ ho⟩
  | .set x e r, st, ho, ts, st', h => by
    simp only [visit, Res.bind_eq_ok, Res.ok.injEq, Prod.mk.injEq] at h
    obtain ⟨e', -, ⟨k, s1⟩, hw, ⟨t2, s2⟩, h2, -, rfl⟩ := h
    obtain ⟨-, -, -, hv, -, he⟩ := newVar_eff (st := { st with vars := if x ∈ st.vars then st.vars else x :: st.vars }) ho hw
    have he : Eff st s1 [x] := ⟨he.next, he.scopes, he.ref⟩
    obtain ⟨hv2, he2⟩ := visit_eff r he.open_ h2
    refine ⟨?_, he.trans he2⟩
    intro y
    rw [hv2, hv]
    simp only [asg, List.mem_cons]
    split
    · rename_i hx
      constructor
      · rintro (q | q)
        · exact .inl q
        · exact .inr (.inr q)
      · rintro (q | rfl | q)
        · exact .inl q
        · exact .inl hx
        · exact .inr q
    · simp only [List.mem_cons]
      constructor
      · rintro ((q | q) | q)
        · exact .inr (.inl q)
        · exact .inl q
        · exact .inr (.inr q)
      · rintro (q | q | q)
        · exact .inl (.inr q)
        · exact .inl (.inl q)
        · exact .inr q
  | .attr y e r, st, ho, ts, st', h => by
    simp only [visit, Res.bind_eq_ok, Res.ok.injEq, Prod.mk.injEq] at h
    obtain ⟨e', -, ⟨t2, s2⟩, h2, -, rfl⟩ := h
    exact visit_eff r ho h2
  | .part x e r, st, ho, ts, st', h => by
    simp only [visit, Res.bind_eq_ok, Res.ok.injEq, Prod.mk.injEq] at h
    obtain ⟨e', -, n, -, ⟨t2, s2⟩, h2, -, rfl⟩ := h
    exact visit_eff r ho h2
  | .ite c t e r, st, ho, ts, st', h => by
    obtain ⟨c', t1, s1, t2, s2, t3, s3, t4, -, h1, h2, h3, h4, -⟩ := ite_parts h
    obtain ⟨v1, e1⟩ := visit_eff t (by simp) h1
    obtain ⟨b1, b2, b3, b4, b5, b6, b7, b8⟩ := branch_eff e1
    obtain ⟨v2, e2⟩ := visit_eff e (by simp) h2
    obtain ⟨d1, d2, d3, d4, d5, d6, d7, d8⟩ := branch_eff (st := (popScope s1).2) e2
    obtain ⟨v3, e3⟩ := phis_eff _ (by rw [d1, b1]; exact ho) h3
    obtain ⟨v4, e4⟩ := visit_eff r e3.open_ h4
    have hm : ∀ x, x ∈ both (popScope s1).1 (popScope s2).1 ↔ x ∈ asg t ++ asg e := by
      intro x
      rw [both_mem, b6, d6, List.mem_append]
    have e3 := e3.congr hm
    have hst : Eff st s3 (asg t ++ asg e) := by
      obtain ⟨n3, ⟨k1, k2, ds, q1, q2, o3, i3, u3⟩, r3⟩ := e3
      have n1 := e1.next
      have n2 := e2.next
      simp only [d2, b2] at n1 n2 n3
      refine ⟨by omega, ⟨k1, k2, ds, by rw [← b1, ← d1]; exact q1, q2, o3, ?_, u3⟩, ?_⟩
      · intro x hx
        obtain ⟨k, z1, z2, z3, z4⟩ := i3 x hx
        exact ⟨k, z1, z2, by rw [d2] at z3; omega, z4⟩
      · intro x hx
        rw [r3 x hx]
        rw [List.mem_append, not_or] at hx
        rw [d3, e2.ref x hx.2]
        show (popScope s1).2.ref x = _
        rw [b3, e1.ref x hx.1]
    refine ⟨?_, hst.trans e4⟩
    intro x
    rw [v4, v3, d4, v2]
    show (x ∈ (popScope s1).2.vars ∨ _) ∨ _ ↔ _
    rw [b4, v1]
    simp only [asg, List.mem_append, or_assoc]

/-! ### What the converted statements do -/

/-- Names that exist before number `m` is given out. -/
def Below (m : Nat) (n : Nm X) : Prop := ∀ x k, n = .ver x k → k < m

theorem Below.mono {m m' : Nat} (h : m ≤ m') {n : Nm X} (hb : Below m n) : Below m' n := fun x k e => by
  have := hb x k e
  omega

theorem below_orig (m : Nat) (x : X) : Below m (.orig x) := nofun
theorem below_attr (m : Nat) (y : X) : Below m (.attr y) := nofun

/-- All numbers in use are below `next`. -/
structure Wf (st : St X) : Prop where
  below : ∀ x k, findDef st.scopes x = some k → k < st.next
  ref : ∀ x k, st.ref x = some k → k < st.next

theorem Wf.eff {st st' : St X} {a : List X} (h : Wf st) (he : Eff st st' a) : Wf st' := by
  have hn := he.next
  refine ⟨?_, ?_⟩ <;> intro x k hk <;> by_cases hx : x ∈ a
  · obtain ⟨j, q1, q2, q3, q4⟩ := he.find_in hx
    rw [q1] at hk
    cases hk
    exact q4
  · rw [he.find_out hx] at hk
    have := h.below x k hk
    omega
  · obtain ⟨j, q1, q2, q3, q4⟩ := he.find_in hx
    rw [q2] at hk
    cases hk
    exact q4
  · rw [he.ref x hx] at hk
    have := h.ref x k hk
    omega

/-- Variables that are not stale: their current version is the one the scopes know. -/
def Good (st : St X) (stale : List X) : Prop :=
  ∀ x, x ∉ stale → x ∈ st.vars → ∃ k, st.ref x = some k ∧ findDef st.scopes x = some k

theorem Good.eff {st st' : St X} {a stale stale' : List X} (h : Good st stale) (he : Eff st st' a)
    (hv : ∀ x, x ∈ st'.vars → x ∈ st.vars ∨ x ∈ a) (hs : ∀ x, x ∈ stale → x ∉ a → x ∈ stale') : Good st' stale' := by
  intro x hx hxv
  by_cases ha : x ∈ a
  · obtain ⟨j, q1, q2, -⟩ := he.find_in ha
    exact ⟨j, q2, q1⟩
  · obtain ⟨k, q1, q2⟩ := h x (fun q => hx (hs x q ha)) ((hv x hxv).resolve_right ha)
    exact ⟨k, (he.ref x ha).trans q1, (he.find_out ha).trans q2⟩

/-- Variables assigned in the present branch: their version is one of the branch. -/
def Own (st : St X) (base : Nat) (own : List X) : Prop :=
  ∀ x ∈ own, x ∈ st.vars ∧ ∃ k, st.ref x = some k ∧ base ≤ k

theorem Own.eff {st st' : St X} {a own own' : List X} {base : Nat} (h : Own st base own) (hb : base ≤ st.next) (he : Eff st st' a)
    (hv : ∀ x, x ∈ st.vars ∨ x ∈ a → x ∈ st'.vars) (ho : ∀ x ∈ own', x ∈ own ∨ x ∈ a) : Own st' base own' := by
  intro x hx
  by_cases ha : x ∈ a
  · obtain ⟨j, q1, q2, q3, -⟩ := he.find_in ha
    exact ⟨hv x (.inr ha), j, q2, by omega⟩
  · obtain ⟨q, k, q1, q2⟩ := h x ((ho x hx).resolve_right ha)
    exact ⟨hv x (.inl q), k, (he.ref x ha).trans q1, q2⟩

/-- The two stores agree: on every variable through the version the scopes know, on variables not assigned yet and on
attributes directly. -/
structure Agree (st : St X) (s : Src X → A) (σ : Nm X → A) : Prop where
  ver : ∀ x k, findDef st.scopes x = some k → σ (.ver x k) = s (.loc x)
  orig : ∀ x, x ∉ st.vars → σ (.orig x) = s (.loc x)
  attr : ∀ y, σ (.attr y) = s (.attr y)

theorem readName_ok {st : St X} {stale : List X} {s : Src X → A} {σ : Nm X → A} (hg : Good st stale) (hw : Wf st)
    (ha : Agree st s σ) {n : Src X} (hn : ∀ y, n = .loc y → y ∉ stale) {m : Nm X} (h : readName st n = .ok m) :
    σ m = s n ∧ Below st.next m := by
  cases n with
  | attr y =>
    simp only [readName, Res.ok.injEq] at h
    subst h
    exact ⟨ha.attr y, nofun⟩
  | loc x =>
    simp only [readName] at h
    split at h
    · rename_i hx
      obtain ⟨k, q1, q2⟩ := hg x (hn x rfl) hx
      rw [q1] at h
      simp only [Res.ok.injEq] at h
      subst h
      refine ⟨ha.ver x k q2, ?_⟩
      intro y j e
      cases e
      exact hw.ref x k q1
    · rename_i hx
      simp only [Res.ok.injEq] at h
      subst h
      exact ⟨ha.orig x hx, nofun⟩

theorem readNames_ok {st : St X} {stale : List X} {s : Src X → A} {σ : Nm X → A} (hg : Good st stale) (hw : Wf st)
    (ha : Agree st s σ) : ∀ {ns : List (Src X)}, (∀ y, .loc y ∈ ns → y ∉ stale) → ∀ {ms : List (Nm X)},
    readNames st ns = .ok ms → ms.map σ = ns.map s ∧ ∀ m ∈ ms, Below st.next m
  | [], _, ms, h => by
    simp only [readNames, Res.ok.injEq] at h
    subst h
    exact ⟨rfl, nofun⟩
  | n :: ns, hn, ms, h => by
    simp only [readNames, Res.bind_eq_ok, Res.ok.injEq] at h
    obtain ⟨m, hm, ms', hms, rfl⟩ := h
    obtain ⟨q1, q2⟩ := readName_ok hg hw ha (fun y e => hn y (by rw [e]; exact List.mem_cons_self ..)) hm
    obtain ⟨q3, q4⟩ := readNames_ok hg hw ha (fun y e => hn y (List.mem_cons_of_mem _ e)) hms
    refine ⟨by rw [List.map_cons, List.map_cons, q1, q3], ?_⟩
    intro m' hm'
    rcases List.mem_cons.1 hm' with rfl | hm'
    · exact q2
    · exact q4 m' hm'

theorem readE_ok {st : St X} {stale : List X} {s : Src X → A} {σ : Nm X → A} (hg : Good st stale) (hw : Wf st)
    (ha : Agree st s σ) {e : E (Src X) A} (hn : ∀ y, .loc y ∈ e.args → y ∉ stale) {e' : E (Nm X) A}
    (h : readE st e = .ok e') : e'.f = e.f ∧ e'.args.map σ = e.args.map s ∧ ∀ m ∈ e'.args, Below st.next m := by
  simp only [readE, Res.bind_eq_ok, Res.ok.injEq] at h
  obtain ⟨ms, hms, rfl⟩ := h
  exact ⟨rfl, readNames_ok hg hw ha hn hms⟩

theorem run_append (w : World X A) (a b : List (T X A)) (σ : Nm X → A) : run w (a ++ b) σ = run w b (run w a σ) := by
  unfold run
  rw [List.foldl_append]

theorem run_cons (w : World X A) (a : T X A) (b : List (T X A)) (σ : Nm X → A) : run w (a :: b) σ = run w b (step w σ a) := rfl

theorem upd_ne {N : Type} [DecidableEq N] {s : N → A} {n m : N} {v : A} (h : m ≠ n) : upd s n v m = s m := if_neg h
theorem upd_eq {N : Type} [DecidableEq N] {s : N → A} {n : N} {v : A} : upd s n v n = v := if_pos rfl

theorem operands_congr {bs es : List (X × Nat)} {sc sc' : List (List (X × Nat))} {x : X} (h : findDef sc x = findDef sc' x) :
    operands bs es sc x = operands bs es sc' x := by
  unfold operands
  rw [h]

theorem operands_below {bs es : List (X × Nat)} {sc : List (List (X × Nat))} {x : X} {a b m : Nat}
    (hb : ∀ k, look bs x = some k → k < m) (he : ∀ k, look es x = some k → k < m) (hs : ∀ k, findDef sc x = some k → k < m)
    (h : operands bs es sc x = .ok (a, b)) : a < m ∧ b < m := by
  unfold operands at h
  cases h1 : look bs x <;> cases h2 : look es x <;> cases h3 : findDef sc x <;> simp only [h1, h2, h3] at h <;> cases h
  · exact ⟨hs _ h3, he _ h2⟩
  · exact ⟨hb _ h1, hs _ h3⟩
  · exact ⟨hb _ h1, he _ h2⟩
  · exact ⟨hb _ h1, he _ h2⟩

/-- What the phi functions compute. -/
theorem phis_run (w : World X A) {known : X → Bool} {c : E (Nm X) A} {bs es : List (X × Nat)} : ∀ (xs : List X) {st : St X},
    st.scopes ≠ [] → xs.Nodup → ∀ {ts : List (T X A)} {st' : St X}, phis known c bs es xs st = .ok (ts, st') →
    (∀ n ∈ c.args, Below st.next n) → (∀ x k, look bs x = some k → k < st.next) →
    (∀ x k, look es x = some k → k < st.next) → Wf st → ∀ σ,
    (∀ n, Below st.next n → run w ts σ n = σ n) ∧
    ∀ x ∈ xs, ∃ k a b, operands bs es st.scopes x = .ok (a, b) ∧ st'.ref x = some k ∧
      run w ts σ (.ver x k) = w.cast x (if w.truth (c.eval σ) then σ (.ver x a) else σ (.ver x b))
  | [], st, ho, _, ts, st', h, _, _, _, _, σ => by
    simp only [phis, Res.ok.injEq, Prod.mk.injEq] at h
    obtain ⟨rfl, rfl⟩ := h
    exact ⟨fun _ _ => rfl, nofun⟩
  | x :: xs, st, ho, hnd, ts, st', h, hc, hb, he, hw, σ => by
    rw [List.nodup_cons] at hnd
    simp only [phis, Res.bind_eq_ok, Res.ok.injEq, Prod.mk.injEq] at h
    obtain ⟨⟨a, b⟩, hab, ⟨k, st1⟩, hn, ⟨us, st2⟩, hp, rfl, rfl⟩ := h
    obtain ⟨-, hk, hnext, -, href, heff⟩ := newVar_eff ho hn
    obtain ⟨-, heff2⟩ := phis_eff xs heff.open_ hp
    obtain ⟨f1, f2⟩ := phis_run w xs heff.open_ hnd.2 hp (fun n hn => (hc n hn).mono heff.next)
      (fun y j q => Nat.lt_of_lt_of_le (hb y j q) heff.next) (fun y j q => Nat.lt_of_lt_of_le (he y j q) heff.next)
      (hw.eff heff) (step w σ (.phi x k c a b))
    have hne : ∀ n, Below st.next n → n ≠ Nm.ver x k := by
      intro n hbn e
      have := hbn x k e
      omega
    have hkeep : ∀ n, Below st.next n → step w σ (.phi x k c a b) n = σ n := fun n hbn => upd_ne (hne n hbn)
    refine ⟨?_, ?_⟩
    · intro n hbn
      rw [run_cons, f1 n (hbn.mono heff.next), hkeep n hbn]
    · intro y hy
      rcases List.mem_cons.1 hy with rfl | hy
      · refine ⟨k, a, b, hab, ?_, ?_⟩
        · show st2.ref y = _
          rw [heff2.ref y hnd.1, href]
        · show run w (_ :: us) σ _ = _
          rw [run_cons, f1 (.ver y k) (by intro z j e; cases e; omega)]
          exact upd_eq
      · have hyx : y ≠ x := fun e => hnd.1 (e ▸ hy)
        obtain ⟨j, a', b', q1, q2, q3⟩ := f2 y hy
        have hfd : findDef st1.scopes y = findDef st.scopes y := heff.find_out (by simpa using hyx)
        rw [operands_congr hfd] at q1
        obtain ⟨ha', hb'⟩ := operands_below (hb y) (he y) (hw.below y) q1
        refine ⟨j, a', b', q1, q2, ?_⟩
        show run w (_ :: us) σ _ = _
        rw [run_cons, q3, hkeep (.ver y a') (by intro z i e; cases e; exact ha'),
          hkeep (.ver y b') (by intro z i e; cases e; exact hb')]
        have : c.eval (step w σ (.phi x k c a b)) = c.eval σ := by
          unfold E.eval
          congr 1
          exact List.map_congr_left fun n hn => hkeep n (hc n hn)
        rw [this]

theorem phis_frame (w : World X A) {known : X → Bool} {c : E (Nm X) A} {bs es : List (X × Nat)} : ∀ (xs : List X) {st : St X},
    st.scopes ≠ [] → ∀ {ts : List (T X A)} {st' : St X}, phis known c bs es xs st = .ok (ts, st') → ∀ σ n,
    Below st.next n → run w ts σ n = σ n
  | [], st, ho, ts, st', h, σ, n, _ => by
    simp only [phis, Res.ok.injEq, Prod.mk.injEq] at h
    obtain ⟨rfl, rfl⟩ := h
    rfl
  | x :: xs, st, ho, ts, st', h, σ, n, hbn => by
    simp only [phis, Res.bind_eq_ok, Res.ok.injEq, Prod.mk.injEq] at h
    obtain ⟨⟨a, b⟩, hab, ⟨k, st1⟩, hn, ⟨us, st2⟩, hp, rfl, rfl⟩ := h
    obtain ⟨-, hk, -, -, -, heff⟩ := newVar_eff ho hn
    rw [run_cons, phis_frame w xs heff.open_ hp _ n (hbn.mono heff.next)]
    exact upd_ne fun e => by have := hbn x k e; omega

/-- The states around a converted `if`. -/
structure IfFacts (st s1 s2 s3 : St X) (at_ ae : List X) : Prop where
  sc1 : s1.scopes = (popScope s1).1 :: st.scopes
  sc2 : s2.scopes = (popScope s2).1 :: st.scopes
  pop1 : (popScope s1).2 = { s1 with scopes := st.scopes }
  pop2 : (popScope s2).2 = { s2 with scopes := st.scopes }
  eff1 : Eff { st with scopes := [] :: st.scopes } s1 at_
  eff2 : Eff { s1 with scopes := [] :: st.scopes } s2 ae
  look1 : ∀ x k, look (popScope s1).1 x = some k → st.next ≤ k ∧ k < s1.next
  look2 : ∀ x k, look (popScope s2).1 x = some k → s1.next ≤ k ∧ k < s2.next
  keys1 : ∀ x, x ∈ (popScope s1).1.map Prod.fst ↔ x ∈ at_
  keys2 : ∀ x, x ∈ (popScope s2).1.map Prod.fst ↔ x ∈ ae
  nodup : (both (popScope s1).1 (popScope s2).1).Nodup
  vars1 : ∀ x, x ∈ s1.vars ↔ x ∈ st.vars ∨ x ∈ at_
  vars2 : ∀ x, x ∈ s2.vars ↔ x ∈ s1.vars ∨ x ∈ ae
  vars3 : s3.vars = s2.vars
  eff3 : Eff { s2 with scopes := st.scopes } s3 (at_ ++ ae)
  eff : Eff st s3 (at_ ++ ae)

theorem popScope_eq {s : St X} {d : List (X × Nat)} {ds : List (List (X × Nat))} (h : s.scopes = d :: ds) :
    popScope s = (d, { s with scopes := ds }) := by
  unfold popScope
  rw [h]

theorem if_facts {known : X → Bool} {t e : P X A} {st : St X} (ho : st.scopes ≠ []) {c' : E (Nm X) A}
    {t1 t2 t3 : List (T X A)} {s1 s2 s3 : St X}
    (h1 : visit known t { st with scopes := [] :: st.scopes } = .ok (t1, s1))
    (h2 : visit known e { (popScope s1).2 with scopes := [] :: (popScope s1).2.scopes } = .ok (t2, s2))
    (h3 : phis known c' (popScope s1).1 (popScope s2).1 (both (popScope s1).1 (popScope s2).1) (popScope s2).2 = .ok (t3, s3)) :
    IfFacts st s1 s2 s3 (asg t) (asg e) ∧ visit known e { s1 with scopes := [] :: st.scopes } = .ok (t2, s2) ∧
    phis known c' (popScope s1).1 (popScope s2).1 (both (popScope s1).1 (popScope s2).1) { s2 with scopes := st.scopes } = .ok (t3, s3) := by
  obtain ⟨v1, e1⟩ := visit_eff t (by simp) h1
  obtain ⟨b1, b2, b3, b4, b5, b6, b7, b8⟩ := branch_eff e1
  have p1 : (popScope s1).2 = { s1 with scopes := st.scopes } := by rw [popScope_eq b5]
  rw [p1] at h2
  obtain ⟨v2, e2⟩ := visit_eff e (by simp) h2
  obtain ⟨d1, d2, d3, d4, d5, d6, d7, d8⟩ := branch_eff (st := { s1 with scopes := st.scopes }) e2
  have p2 : (popScope s2).2 = { s2 with scopes := st.scopes } := by rw [popScope_eq d5]
  rw [p2] at h3
  obtain ⟨v3, e3⟩ := phis_eff (st := { s2 with scopes := st.scopes }) _ ho h3
  have hm : ∀ x, x ∈ both (popScope s1).1 (popScope s2).1 ↔ x ∈ asg t ++ asg e := by
    intro x
    rw [both_mem, b6, d6, List.mem_append]
  have e3 := e3.congr hm
  have hst : Eff st s3 (asg t ++ asg e) := by
    obtain ⟨n3, ⟨k1, k2, ds, q1, q2, o3, i3, u3⟩, r3⟩ := e3
    have n1 : st.next ≤ s1.next := e1.next
    have n2 : s1.next ≤ s2.next := e2.next
    have n3 : s2.next ≤ s3.next := n3
    refine ⟨by omega, ⟨k1, k2, ds, q1, q2, o3, ?_, u3⟩, ?_⟩
    · intro x hx
      obtain ⟨k, z1, z2, z3, z4⟩ := i3 x hx
      have z3 : s2.next ≤ k := z3
      exact ⟨k, z1, z2, by omega, z4⟩
    · intro x hx
      rw [r3 x hx]
      rw [List.mem_append, not_or] at hx
      exact (e2.ref x hx.2).trans (e1.ref x hx.1)
  exact ⟨⟨b5, d5, p1, p2, e1, e2, b8, d8, b6, d6, both_nodup b7 d7, v1, v2, v3, e3, hst⟩, h2, h3⟩

theorem IfFacts.vars {st s1 s2 s3 : St X} {a b : List X} (h : IfFacts st s1 s2 s3 a b) (x : X) :
    x ∈ s3.vars ↔ x ∈ st.vars ∨ x ∈ a ++ b := by
  rw [h.vars3, h.vars2, h.vars1, List.mem_append, or_assoc]

theorem Wf.push {st : St X} (h : Wf st) (s : St X) (hs : s.scopes = st.scopes) (hn : st.next ≤ s.next)
    (hr : ∀ x k, s.ref x = some k → k < s.next) : Wf { s with scopes := [] :: s.scopes } := by
  refine ⟨?_, hr⟩
  intro x k hk
  have : findDef s.scopes x = some k := hk
  rw [hs] at this
  exact Nat.lt_of_lt_of_le (h.below x k this) hn

/-- Converted statements write new versions only (and attributes outside of `if`s). -/
theorem frame (w : World X A) {known : X → Bool} : ∀ (p : P X A) {st : St X}, st.scopes ≠ [] → Wf st →
    ∀ {ts : List (T X A)} {st' : St X}, visit known p st = .ok (ts, st') → ∀ {inIf : Bool} {own stale : List X},
    Ok inIf own stale p → ∀ {base : Nat}, base ≤ st.next → Own st base own → ∀ (σ : Nm X → A) (n : Nm X), Below base n →
    (∀ y, n = .attr y → inIf = true) → run w ts σ n = σ n
  | .nil, st, ho, _, ts, st', h, _, _, _, _, _, _, _, σ, n, _, _ => by
    simp only [visit, Res.ok.injEq, Prod.mk.injEq] at h
    obtain ⟨rfl, rfl⟩ := h
    rfl
  | .set x e r, st, ho, hwf, ts, st', h, inIf, own, stale, hok, base, hbase, hown, σ, n, hn, hat => by
    simp only [visit, Res.bind_eq_ok, Res.ok.injEq, Prod.mk.injEq] at h
    obtain ⟨e', -, ⟨k, s1⟩, hw, ⟨t2, s2⟩, h2, rfl, rfl⟩ := h
    obtain ⟨-, hk, -, hv, -, he⟩ := newVar_eff (st := { st with vars := if x ∈ st.vars then st.vars else x :: st.vars }) ho hw
    have he : Eff st s1 [x] := ⟨he.next, he.scopes, he.ref⟩
    have hk : k = st.next := hk
    have hvars : ∀ y, y ∈ st.vars ∨ y ∈ [x] → y ∈ s1.vars := by
      intro y hy
      rw [hv]
      rw [List.mem_singleton] at hy
      split <;> rcases hy with hy | rfl
      · exact hy
      · assumption
      · exact List.mem_cons_of_mem _ hy
      · exact List.mem_cons_self ..
    rw [run_cons, frame w r he.open_ (hwf.eff he) h2 hok.2 (Nat.le_trans hbase he.next)
      (hown.eff hbase he hvars (by intro y hy; rcases List.mem_cons.1 hy with rfl | hy <;> simp_all)) _ n hn hat]
    exact upd_ne (fun q => by have := hn x k q; omega)
  | .attr y e r, st, ho, hwf, ts, st', h, inIf, own, stale, hok, base, hbase, hown, σ, n, hn, hat => by
    simp only [visit, Res.bind_eq_ok, Res.ok.injEq, Prod.mk.injEq] at h
    obtain ⟨e', -, ⟨t2, s2⟩, h2, rfl, rfl⟩ := h
    rw [run_cons, frame w r ho hwf h2 hok.2.2 hbase hown _ n hn hat]
    refine upd_ne (fun q => ?_)
    have := hat y q
    rw [hok.1] at this
    cases this
  | .part x e r, st, ho, hwf, ts, st', h, inIf, own, stale, hok, base, hbase, hown, σ, n, hn, hat => by
    simp only [visit, Res.bind_eq_ok, Res.ok.injEq, Prod.mk.injEq] at h
    obtain ⟨e', -, m, hm, ⟨t2, s2⟩, h2, rfl, rfl⟩ := h
    rw [run_cons, frame w r ho hwf h2 hok.2.2.2 hbase hown _ n hn hat]
    obtain ⟨hxv, k, q1, q2⟩ := hown x hok.1
    simp only [readName, if_pos hxv, q1, Res.ok.injEq] at hm
    subst hm
    exact upd_ne (fun q => by have := hn x k q; omega)
  | .ite c t e r, st, ho, hwf, ts, st', h, inIf, own, stale, hok, base, hbase, hown, σ, n, hn, hat => by
    obtain ⟨c', t1, s1, t2, s2, t3, s3, t4, hc, h1, h2, h3, h4, rfl⟩ := ite_parts h
    obtain ⟨F, h2, h3⟩ := if_facts ho h1 h2 h3
    have n1 : st.next ≤ s1.next := F.eff1.next
    have n2 : s1.next ≤ s2.next := F.eff2.next
    have w1 : Wf { st with scopes := [] :: st.scopes } := hwf.push st rfl (Nat.le_refl _) hwf.ref
    have w2 : Wf { s1 with scopes := [] :: st.scopes } :=
      hwf.push { s1 with scopes := st.scopes } rfl n1 (w1.eff F.eff1).ref
    rw [run_append, run_append, run_append,
      frame w r F.eff.open_ (hwf.eff F.eff) h4 hok.2.2.2 (Nat.le_trans hbase F.eff.next)
        (hown.eff hbase F.eff (fun x hx => (F.vars x).2 hx) (by
          intro x hx
          rw [List.mem_append] at hx
          exact hx.symm)) _ n hn hat,
      phis_frame w _ (st := { s2 with scopes := st.scopes }) ho h3 _ n (hn.mono (show base ≤ s2.next by omega)),
      frame w e (by simp) w2 h2 hok.2.2.1 (base := base) (show base ≤ s1.next by omega) nofun _ n hn (fun _ _ => rfl),
      frame w t (by simp) w1 h1 hok.2.1 (base := base) hbase nofun _ n hn (fun _ _ => rfl)]

/-! ### The converted function computes the same -/

/-- Values fit their variables. -/
def Typed (w : World X A) (s : Src X → A) : Prop := ∀ x, w.cast x (s (.loc x)) = s (.loc x)

theorem Typed.upd {w : World X A} (hc : ∀ x v, w.cast x (w.cast x v) = w.cast x v) {s : Src X → A} (h : Typed w s) (x : X) (v : A) :
    Typed w (upd s (.loc x) (w.cast x v)) := by
  intro y
  by_cases hy : y = x
  · subst hy
    rw [upd_eq, hc]
  · rw [upd_ne (by simpa using hy)]
    exact h y

theorem Typed.attr {w : World X A} {s : Src X → A} (h : Typed w s) (y : X) (v : A) : Typed w (Ssa.upd s (.attr y) v) := by
  intro x
  rw [upd_ne (by simp)]
  exact h x

theorem exec_typed {w : World X A} (hc : ∀ x v, w.cast x (w.cast x v) = w.cast x v) : ∀ (p : P X A) {s : Src X → A},
    Typed w s → Typed w (exec w p s)
  | .nil, _, h => h
  | .set x e r, _, h => exec_typed hc r (h.upd hc x _)
  | .attr y e r, _, h => exec_typed hc r (h.attr y _)
  | .part x e r, _, h => exec_typed hc r (h.upd hc x _)
  | .ite c t e r, s, h => by
    simp only [exec]
    apply exec_typed hc r
    split
    · exact exec_typed hc t h
    · exact exec_typed hc e h

/-- Closing an `if`: `db` is the dictionary of the branch the function takes. -/
theorem close_if {w : World X A} {known : X → Bool} {c' : E (Nm X) A} {st s1 s2 s3 : St X} {at_ ae : List X} {t3 : List (T X A)}
    (ho : st.scopes ≠ []) (hwf : Wf st) (F : IfFacts st s1 s2 s3 at_ ae)
    (h3 : phis known c' (popScope s1).1 (popScope s2).1 (both (popScope s1).1 (popScope s2).1) { s2 with scopes := st.scopes } = .ok (t3, s3))
    (hc : ∀ n ∈ c'.args, Below st.next n) (sb : St X) (s' : Src X → A) (σ : Nm X → A)
    (hver : ∀ x k, findDef sb.scopes x = some k → σ (.ver x k) = s' (.loc x))
    (horig : ∀ x, x ∉ s2.vars → σ (.orig x) = s' (.loc x)) (hattr : ∀ y, σ (.attr y) = s' (.attr y))
    (hty : Typed w s') (hout : ∀ x, x ∉ at_ ++ ae → findDef sb.scopes x = findDef st.scopes x)
    (hpick : ∀ x a b, operands (popScope s1).1 (popScope s2).1 st.scopes x = .ok (a, b) →
      findDef sb.scopes x = some (if w.truth (c'.eval σ) then a else b)) : Agree s3 s' (run w t3 σ) := by
  have n1 : st.next ≤ s1.next := F.eff1.next
  have n2 : s1.next ≤ s2.next := F.eff2.next
  have wf2 : Wf { s2 with scopes := st.scopes } := by
    have w1 : Wf { st with scopes := [] :: st.scopes } := hwf.push st rfl (Nat.le_refl _) hwf.ref
    have w2 : Wf { s1 with scopes := [] :: st.scopes } :=
      hwf.push { s1 with scopes := st.scopes } rfl n1 (w1.eff F.eff1).ref
    exact ⟨fun x k hk => Nat.lt_of_lt_of_le (hwf.below x k hk) (Nat.le_trans n1 n2), (w2.eff F.eff2).ref⟩
  obtain ⟨f1, f2⟩ := phis_run w _ (st := { s2 with scopes := st.scopes }) ho F.nodup h3
    (fun n hn => (hc n hn).mono (Nat.le_trans n1 n2))
    (fun x k hk => Nat.lt_of_lt_of_le (F.look1 x k hk).2 n2) (fun x k hk => (F.look2 x k hk).2) wf2 σ
  refine ⟨?_, ?_, ?_⟩
  · intro x k hk
    by_cases hx : x ∈ at_ ++ ae
    · obtain ⟨j, a, b, q1, q2, q3⟩ := f2 x ((both_mem _ _ x).2 (by
        rw [F.keys1, F.keys2]
        exact List.mem_append.1 hx))
      obtain ⟨j', r1, r2, -⟩ := F.eff.find_in hx
      rw [r1] at hk
      rw [r2] at q2
      cases hk
      cases q2
      rw [q3]
      have hp := hver x _ (hpick x a b q1)
      have : (if w.truth (c'.eval σ) then σ (.ver x a) else σ (.ver x b)) = s' (.loc x) := by
        rw [← hp]
        split <;> rfl
      rw [this, hty x]
    · rw [F.eff.find_out hx] at hk
      rw [f1 (.ver x k) (by
        intro z i e
        cases e
        exact Nat.lt_of_lt_of_le (hwf.below x k hk) (Nat.le_trans n1 n2))]
      rw [← hout x hx] at hk
      exact hver x k hk
  · intro x hx
    rw [F.vars3] at hx
    rw [f1 (.orig x) nofun]
    exact horig x hx
  · intro y
    rw [f1 (.attr y) nofun]
    exact hattr y

theorem sim {w : World X A} (hcast : ∀ x v, w.cast x (w.cast x v) = w.cast x v) {known : X → Bool} : ∀ (p : P X A) {st : St X},
    st.scopes ≠ [] → Wf st →
    ∀ {ts : List (T X A)} {st' : St X}, visit known p st = .ok (ts, st') → ∀ {inIf : Bool} {own stale : List X},
    Ok inIf own stale p → ∀ {base : Nat}, base ≤ st.next → Own st base own → Good st stale → ∀ {s : Src X → A} {σ : Nm X → A},
    Typed w s → Agree st s σ → Agree st' (exec w p s) (run w ts σ)
  | .nil, st, ho, _, ts, st', h, _, _, _, _, _, _, _, _, s, σ, _, ha => by
    simp only [visit, Res.ok.injEq, Prod.mk.injEq] at h
    obtain ⟨rfl, rfl⟩ := h
    exact ha
  | .set x e r, st, ho, hwf, ts, st', h, inIf, own, stale, hok, base, hbase, hown, hg, s, σ, hty, ha => by
    simp only [visit, Res.bind_eq_ok, Res.ok.injEq, Prod.mk.injEq] at h
    obtain ⟨e', he', ⟨k, s1⟩, hw, ⟨t2, s2⟩, h2, rfl, rfl⟩ := h
    obtain ⟨-, hk, -, hv, hrefx, he⟩ := newVar_eff (st := { st with vars := if x ∈ st.vars then st.vars else x :: st.vars }) ho hw
    have he : Eff st s1 [x] := ⟨he.next, he.scopes, he.ref⟩
    have hvars : ∀ y, y ∈ s1.vars ↔ y ∈ st.vars ∨ y ∈ [x] := by
      intro y
      rw [hv, List.mem_singleton]
      split
      · constructor
        · exact .inl
        · rintro (q | rfl)
          · exact q
          · assumption
      · rw [List.mem_cons]
        exact Or.comm
    obtain ⟨hf, hargs, -⟩ := readE_ok hg hwf ha hok.1 he'
    rw [run_cons]
    refine sim hcast r he.open_ (hwf.eff he) h2 hok.2 (Nat.le_trans hbase he.next)
      (hown.eff hbase he (fun y => (hvars y).2) (by intro y hy; rcases List.mem_cons.1 hy with rfl | hy <;> simp_all))
      (hg.eff he (fun y => (hvars y).1) (by
        intro y hy hyx
        rw [List.mem_filter]
        exact ⟨hy, by simpa using hyx⟩)) (hty.upd hcast x _) ?_
    have hev : e'.eval σ = e.eval s := by
      unfold E.eval
      rw [hf, hargs]
    refine ⟨?_, ?_, ?_⟩
    · intro y j hj
      by_cases hy : y = x
      · subst hy
        obtain ⟨j', q1, q2, -⟩ := he.find_in (List.mem_singleton.2 rfl)
        rw [q1] at hj
        have hrefx : s1.ref y = some k := hrefx
        rw [hrefx] at q2
        cases hj
        cases q2
        simp only [step]
        rw [upd_eq, upd_eq, hev]
      · rw [he.find_out (by simpa using hy)] at hj
        simp only [step]
        rw [upd_ne (by simp [hy]), upd_ne (by simp [hy])]
        exact ha.ver y j hj
    · intro y hy
      have hn : y ≠ x := fun q => hy ((hvars y).2 (.inr (List.mem_singleton.2 q)))
      simp only [step]
      rw [upd_ne (by simp), upd_ne (by simp [hn])]
      exact ha.orig y (fun q => hy ((hvars y).2 (.inl q)))
    · intro y
      simp only [step]
      rw [upd_ne (by simp), upd_ne (by simp)]
      exact ha.attr y
  | .attr z e r, st, ho, hwf, ts, st', h, inIf, own, stale, hok, base, hbase, hown, hg, s, σ, hty, ha => by
    simp only [visit, Res.bind_eq_ok, Res.ok.injEq, Prod.mk.injEq] at h
    obtain ⟨e', he', ⟨t2, s2⟩, h2, rfl, rfl⟩ := h
    obtain ⟨hf, hargs, -⟩ := readE_ok hg hwf ha hok.2.1 he'
    rw [run_cons]
    refine sim hcast r ho hwf h2 hok.2.2 hbase hown hg (hty.attr z _) ?_
    have hev : e'.eval σ = e.eval s := by
      unfold E.eval
      rw [hf, hargs]
    refine ⟨?_, ?_, ?_⟩
    · intro y j hj
      simp only [step]
      rw [upd_ne (by simp), upd_ne (by simp)]
      exact ha.ver y j hj
    · intro y hy
      simp only [step]
      rw [upd_ne (by simp), upd_ne (by simp)]
      exact ha.orig y hy
    · intro y
      simp only [step]
      by_cases hy : y = z
      · subst hy
        rw [upd_eq, upd_eq, hev]
      · rw [upd_ne (by simp [hy]), upd_ne (by simp [hy])]
        exact ha.attr y
  | .part x e r, st, ho, hwf, ts, st', h, inIf, own, stale, hok, base, hbase, hown, hg, s, σ, hty, ha => by
    simp only [visit, Res.bind_eq_ok, Res.ok.injEq, Prod.mk.injEq] at h
    obtain ⟨e', he', m, hm, ⟨t2, s2⟩, h2, rfl, rfl⟩ := h
    obtain ⟨hf, hargs, -⟩ := readE_ok hg hwf ha hok.2.2.1 he'
    obtain ⟨hxv, -⟩ := hown x hok.1
    obtain ⟨k, q1, q2⟩ := hg x hok.2.1 hxv
    simp only [readName, if_pos hxv, q1, Res.ok.injEq] at hm
    subst hm
    have hx := ha.ver x k q2
    rw [run_cons]
    refine sim hcast r ho hwf h2 hok.2.2.2 hbase hown hg (hty.upd hcast x _) ?_
    refine ⟨?_, ?_, ?_⟩
    · intro y j hj
      simp only [step]
      by_cases hy : y = x
      · subst hy
        rw [q2] at hj
        cases hj
        rw [upd_eq, upd_eq, hf, hargs, hx]
      · rw [upd_ne (by simp [hy]), upd_ne (by simp [hy])]
        exact ha.ver y j hj
    · intro y hy
      simp only [step]
      rw [upd_ne (by simp), upd_ne (by simp; rintro rfl; exact hy hxv)]
      exact ha.orig y hy
    · intro y
      simp only [step]
      rw [upd_ne (by simp), upd_ne (by simp)]
      exact ha.attr y
  | .ite c t e r, st, ho, hwf, ts, st', h, inIf, own, stale, hok, base, hbase, hown, hg, s, σ, hty, ha => by
    obtain ⟨c', t1, s1, t2, s2, t3, s3, t4, hc, h1, h2, h3, h4, rfl⟩ := ite_parts h
    obtain ⟨F, h2, h3⟩ := if_facts ho h1 h2 h3
    obtain ⟨hf, hargs, hbel⟩ := readE_ok hg hwf ha hok.1 hc
    have n1 : st.next ≤ s1.next := F.eff1.next
    have n2 : s1.next ≤ s2.next := F.eff2.next
    have w1 : Wf { st with scopes := [] :: st.scopes } := hwf.push st rfl (Nat.le_refl _) hwf.ref
    have w2 : Wf { s1 with scopes := [] :: st.scopes } :=
      hwf.push { s1 with scopes := st.scopes } rfl n1 (w1.eff F.eff1).ref
    have hev : c'.eval σ = c.eval s := by
      unfold E.eval
      rw [hf, hargs]
    -- what the branches leave alone
    have fr1 : ∀ n, Below st.next n → run w t1 σ n = σ n := fun n hn =>
      frame w t (by simp) w1 h1 hok.2.1 (base := st.next) (Nat.le_refl _) nofun σ n hn (fun _ _ => rfl)
    have fr2 : ∀ n, Below s1.next n → run w t2 (run w t1 σ) n = run w t1 σ n := fun n hn =>
      frame w e (by simp) w2 h2 hok.2.2.1 (base := s1.next) (Nat.le_refl _) nofun _ n hn (fun _ _ => rfl)
    have hev2 : c'.eval (run w t2 (run w t1 σ)) = c.eval s := by
      rw [← hev]
      unfold E.eval
      congr 1
      exact List.map_congr_left fun n hn => by rw [fr2 n ((hbel n hn).mono n1), fr1 n (hbel n hn)]
    rw [run_append, run_append, run_append]
    have hmid : Agree s3 (if w.truth (c.eval s) then exec w t s else exec w e s) (run w t3 (run w t2 (run w t1 σ))) := by
      by_cases htc : w.truth (c.eval s) = true
      · rw [if_pos htc]
        have ha1 : Agree s1 (exec w t s) (run w t1 σ) :=
          sim hcast t (st := { st with scopes := [] :: st.scopes }) (by simp) w1 h1 hok.2.1 (base := 0) (Nat.zero_le _) nofun
            hg hty ⟨ha.ver, ha.orig, ha.attr⟩
        refine close_if ho hwf F h3 hbel s1 _ _ ?_ ?_ ?_ (exec_typed hcast t hty) ?_ ?_
        · intro x k hk
          rw [fr2 _ (by intro z i q; cases q; exact (w1.eff F.eff1).below x k hk)]
          exact ha1.ver x k hk
        · intro x hx
          rw [fr2 _ (below_orig _ _)]
          exact ha1.orig x (fun q => hx ((F.vars2 x).2 (.inl q)))
        · intro y
          rw [fr2 _ (below_attr _ _)]
          exact ha1.attr y
        · intro x hx
          rw [List.mem_append, not_or] at hx
          exact F.eff1.find_out hx.1
        · intro x a b hab
          rw [hev2, if_pos htc, F.sc1, findDef_cons]
          unfold operands at hab
          cases q1 : look (popScope s1).1 x <;> cases q2 : look (popScope s2).1 x <;> cases q3 : findDef st.scopes x <;>
            simp only [q1, q2, q3] at hab <;> cases hab <;> rfl
      · rw [if_neg htc]
        have ha2 : Agree s2 (exec w e s) (run w t2 (run w t1 σ)) := by
          refine sim hcast e (st := { s1 with scopes := [] :: st.scopes }) (by simp) w2 h2 hok.2.2.1 (base := 0) (Nat.zero_le _) nofun
            ?_ hty ⟨?_, ?_, ?_⟩
          · intro x hx hxv
            rw [List.mem_append, not_or] at hx
            obtain ⟨k, q1, q2⟩ := hg x hx.1 (((F.vars1 x).1 hxv).resolve_right hx.2)
            exact ⟨k, (F.eff1.ref x hx.2).trans q1, q2⟩
          · intro x k hk
            have hk : findDef st.scopes x = some k := hk
            rw [fr1 _ (by intro z i q; cases q; exact hwf.below x k hk)]
            exact ha.ver x k hk
          · intro x hx
            rw [fr1 _ (below_orig _ _)]
            exact ha.orig x (fun q => hx ((F.vars1 x).2 (.inl q)))
          · intro y
            rw [fr1 _ (below_attr _ _)]
            exact ha.attr y
        refine close_if ho hwf F h3 hbel s2 _ _ ha2.ver ha2.orig ha2.attr (exec_typed hcast e hty) ?_ ?_
        · intro x hx
          rw [List.mem_append, not_or] at hx
          exact F.eff2.find_out hx.2
        · intro x a b hab
          rw [hev2, if_neg htc, F.sc2, findDef_cons]
          unfold operands at hab
          cases q1 : look (popScope s1).1 x <;> cases q2 : look (popScope s2).1 x <;> cases q3 : findDef st.scopes x <;>
            simp only [q1, q2, q3] at hab <;> cases hab <;> rfl
    refine sim hcast r F.eff.open_ (hwf.eff F.eff) h4 hok.2.2.2 (Nat.le_trans hbase F.eff.next)
        (hown.eff hbase F.eff (fun x hx => (F.vars x).2 hx) (by
          intro x hx
          rw [List.mem_append] at hx
          exact hx.symm))
        (hg.eff F.eff (fun x => (F.vars x).1) (by
          intro x hx hxa
          rw [List.mem_filter]
          exact ⟨hx, decide_eq_true hxa⟩)) ?_ hmid
    split
    · exact exec_typed hcast t hty
    · exact exec_typed hcast e hty

/-- **C25, partial**: a body that reads no variable assigned in the first branch of an `if` in the second branch
before assigning it there, assigns attributes outside of `if`s only and parts of variables only after the whole, is
converted to a body that computes the same: every variable it assigns is wired to a version holding its final value,
all others and the attributes hold what they would. Missing: the excluded bodies, for which it is false. -/
theorem ssa_partial (w : World X A) (hcast : ∀ x v, w.cast x (w.cast x v) = w.cast x v) (known : X → Bool) (p : P X A)
    (ts : List (T X A)) (ref : X → Option Nat) (h : convert known p = .ok (ts, ref)) (hok : Ok false [] [] p)
    (s : Src X → A) (junk : A) (hty : ∀ x, w.cast x (s (.loc x)) = s (.loc x)) :
    (∀ x ∈ asg p, ∃ k, ref x = some k ∧ run w ts (entry s junk) (.ver x k) = exec w p s (.loc x)) ∧
    (∀ x, x ∉ asg p → ref x = none ∧ run w ts (entry s junk) (.orig x) = exec w p s (.loc x)) ∧
    (∀ y, run w ts (entry s junk) (.attr y) = exec w p s (.attr y)) := by
  simp only [convert, Res.bind_eq_ok, Res.ok.injEq, Prod.mk.injEq] at h
  obtain ⟨⟨ts', st'⟩, hv, rfl, rfl⟩ := h
  have ho : (St.init : St X).scopes ≠ [] := by simp [St.init]
  obtain ⟨v, e⟩ := visit_eff p ho hv
  have ha := sim hcast p ho ⟨nofun, nofun⟩ hv hok (base := 0) (Nat.le_refl _) nofun (by intro x _ hx; cases hx) hty
    (σ := entry s junk) ⟨nofun, fun _ _ => rfl, fun _ => rfl⟩
  refine ⟨?_, ?_, ha.attr⟩
  · intro x hx
    obtain ⟨k, q1, q2, -⟩ := e.find_in hx
    exact ⟨k, q2, ha.ver x k q1⟩
  · intro x hx
    refine ⟨e.ref x hx, ha.orig x ?_⟩
    rw [v]
    rintro (q | q)
    · cases q
    · exact hx q

/-! ### Each version is assigned once -/

/-- The numbers of the versions assigned as a whole. -/
def targets : List (T X A) → List Nat
  | [] => []
  | .set _ k _ :: ts => k :: targets ts
  | .phi _ k _ _ _ :: ts => k :: targets ts
  | .attr _ _ :: ts => targets ts
  | .part _ _ _ :: ts => targets ts

theorem targets_append (a b : List (T X A)) : targets (a ++ b) = targets a ++ targets b := by
  induction a with
  | nil => rfl
  | cons t a ih => cases t <;> simp only [List.cons_append, targets, ih]

theorem newVar_next {known : X → Bool} {st : St X} {x : X} {k : Nat} {st' : St X} (h : newVar known st x = .ok (k, st')) :
    k = st.next ∧ st'.next = st.next + 1 := by
  unfold newVar at h
  split at h
  · simp only [Res.ok.injEq, Prod.mk.injEq] at h
    obtain ⟨rfl, rfl⟩ := h
    exact ⟨rfl, rfl⟩
  · cases h

/-- A run of numbers. -/
def Run (ts : List (T X A)) (a b : Nat) : Prop := a ≤ b ∧ targets ts = List.range' a (b - a)

theorem Run.append {t1 t2 : List (T X A)} {a b c : Nat} (h1 : Run t1 a b) (h2 : Run t2 b c) : Run (t1 ++ t2) a c := by
  refine ⟨by have := h1.1; have := h2.1; omega, ?_⟩
  rw [targets_append, h1.2, h2.2]
  have e1 := h1.1
  have e2 := h2.1
  have := List.range'_append_1 (s := a) (m := b - a) (n := c - b)
  rw [show a + (b - a) = b by omega, show b - a + (c - b) = c - a by omega] at this
  exact this

theorem Run.cons {t : T X A} {ts : List (T X A)} {k b : Nat} (ht : targets [t] = [k]) (h : Run ts (k + 1) b) : Run (t :: ts) k b := by
  refine Run.append (t1 := [t]) ⟨Nat.le_succ _, ?_⟩ h
  rw [ht, show k + 1 - k = 1 by omega]
  rfl

theorem phis_targets {known : X → Bool} {c : E (Nm X) A} {bs es : List (X × Nat)} : ∀ (xs : List X) {st : St X}
    {ts : List (T X A)} {st' : St X}, phis known c bs es xs st = .ok (ts, st') → Run ts st.next st'.next
  | [], st, ts, st', h => by
    simp only [phis, Res.ok.injEq, Prod.mk.injEq] at h
    obtain ⟨rfl, rfl⟩ := h
    exact ⟨Nat.le_refl _, by simp [targets]⟩
  | x :: xs, st, ts, st', h => by
    simp only [phis, Res.bind_eq_ok, Res.ok.injEq, Prod.mk.injEq] at h
    obtain ⟨ab, -, ⟨k, st1⟩, hn, ⟨us, st2⟩, hp, rfl, rfl⟩ := h
    obtain ⟨rfl, q⟩ := newVar_next hn
    have := phis_targets xs hp
    simp only [q] at this
    exact this.cons rfl

theorem popScope_next (st : St X) : (popScope st).2.next = st.next := by
  unfold popScope
  split <;> rfl

theorem visit_targets {known : X → Bool} : ∀ (p : P X A) {st : St X} {ts : List (T X A)} {st' : St X},
    visit known p st = .ok (ts, st') → Run ts st.next st'.next
  | .nil, st, ts, st', h => by
    simp only [visit, Res.ok.injEq, Prod.mk.injEq] at h
    obtain ⟨rfl, rfl⟩ := h
    exact ⟨Nat.le_refl _, by simp [targets]⟩
  | .set x e r, st, ts, st', h => by
    simp only [visit, Res.bind_eq_ok, Res.ok.injEq, Prod.mk.injEq] at h
    obtain ⟨e', -, ⟨k, s1⟩, hw, ⟨t2, s2⟩, h2, rfl, rfl⟩ := h
    obtain ⟨q1, q2⟩ := newVar_next hw
    have := visit_targets r h2
    simp only [q2] at this
    simp only at q1
    subst q1
    exact this.cons rfl
  | .attr y e r, st, ts, st', h => by
    simp only [visit, Res.bind_eq_ok, Res.ok.injEq, Prod.mk.injEq] at h
    obtain ⟨e', -, ⟨t2, s2⟩, h2, rfl, rfl⟩ := h
    have := visit_targets r h2
    exact ⟨this.1, this.2⟩
  | .part x e r, st, ts, st', h => by
    simp only [visit, Res.bind_eq_ok, Res.ok.injEq, Prod.mk.injEq] at h
    obtain ⟨e', -, n, -, ⟨t2, s2⟩, h2, rfl, rfl⟩ := h
    have := visit_targets r h2
    exact ⟨this.1, this.2⟩
  | .ite c t e r, st, ts, st', h => by
    obtain ⟨c', t1, s1, t2, s2, t3, s3, t4, -, h1, h2, h3, h4, rfl⟩ := ite_parts h
    have r1 := visit_targets t h1
    have r2 := visit_targets e h2
    have r3 := phis_targets _ h3
    have r4 := visit_targets r h4
    simp only [popScope_next] at r2 r3
    exact ((r1.append r2).append r3).append r4

/-- **C25, single assignment**: in the converted function every introduced variable is assigned as a whole exactly
once: the assigned versions are numbered 0, 1, 2, … without a repetition. -/
theorem single_assignment (known : X → Bool) (p : P X A) (ts : List (T X A)) (ref : X → Option Nat)
    (h : convert known p = .ok (ts, ref)) : targets ts = List.range (targets ts).length ∧ (targets ts).Nodup := by
  simp only [convert, Res.bind_eq_ok, Res.ok.injEq, Prod.mk.injEq] at h
  obtain ⟨⟨ts', st'⟩, hv, rfl, rfl⟩ := h
  have := (visit_targets p hv).2
  have e : targets ts' = List.range st'.next := by
    rw [this, List.range_eq_range']
    rfl
  simp only
  rw [e, List.length_range]
  exact ⟨rfl, List.nodup_range⟩

/-! ### Which bodies are converted -/

/-- Every assigned name is in scope, and a variable assigned in one branch only has a value before the `if`, given in
an enclosing branch or at the top. -/
def Closed (known : X → Bool) (defs : List X) : P X A → Prop
  | .nil => True
  | .set x _ r => known x = true ∧ Closed known (x :: defs) r
  | .attr _ _ r => Closed known defs r
  | .part _ _ r => Closed known defs r
  | .ite _ t e r => Closed known defs t ∧ Closed known defs e ∧ (∀ x ∈ asg t, x ∉ asg e → x ∈ defs) ∧
      (∀ x ∈ asg e, x ∉ asg t → x ∈ defs) ∧ Closed known (asg t ++ asg e ++ defs) r

omit [DecidableEq X] in
theorem closed_known {known : X → Bool} : ∀ (p : P X A) {defs : List X}, Closed known defs p → ∀ x ∈ asg p, known x = true
  | .nil, _, _, _, hx => nomatch hx
  | .set y _ r, _, h, x, hx => by
    rcases List.mem_cons.1 hx with rfl | hx
    · exact h.1
    · exact closed_known r h.2 x hx
  | .attr _ _ r, _, h, x, hx => closed_known r h x hx
  | .part _ _ r, _, h, x, hx => closed_known r h x hx
  | .ite _ t e r, _, h, x, hx => by
    simp only [asg, List.mem_append] at hx
    rcases hx with (hx | hx) | hx
    · exact closed_known t h.1 x hx
    · exact closed_known e h.2.1 x hx
    · exact closed_known r h.2.2.2.2 x hx

/-- Every name assigned before has a version. -/
def Has (st : St X) : Prop := ∀ x ∈ st.vars, st.ref x ≠ none

/-- The variables the scopes know. -/
def Knows (st : St X) (defs : List X) : Prop := ∀ x, findDef st.scopes x ≠ none ↔ x ∈ defs

theorem readName_returns {st : St X} (hh : Has st) (n : Src X) : ∃ m, readName st n = .ok m := by
  cases n with
  | attr y => exact ⟨_, rfl⟩
  | loc x =>
    simp only [readName]
    split
    · rename_i hx
      cases q : st.ref x with
      | none => exact absurd q (hh x hx)
      | some k => exact ⟨_, rfl⟩
    · exact ⟨_, rfl⟩

theorem readE_returns {st : St X} (hh : Has st) (e : E (Src X) A) : ∃ e', readE st e = .ok e' := by
  have : ∀ ns, ∃ ms, readNames st ns = .ok ms := by
    intro ns
    induction ns with
    | nil => exact ⟨_, rfl⟩
    | cons n ns ih =>
      obtain ⟨ms, h⟩ := ih
      obtain ⟨m, h'⟩ := readName_returns hh n
      exact ⟨m :: ms, by simp only [readNames, h, h', Res.ok_bind]⟩
  obtain ⟨ms, h⟩ := this e.args
  exact ⟨⟨ms, e.f⟩, by simp only [readE, h, Res.ok_bind]⟩

theorem Knows.eff {st st' : St X} {a defs : List X} (h : Knows st defs) (he : Eff st st' a) : Knows st' (a ++ defs) := by
  intro x
  rw [List.mem_append]
  by_cases hx : x ∈ a
  · obtain ⟨k, q, -⟩ := he.find_in hx
    simp [q, hx]
  · rw [he.find_out hx, h x]
    simp [hx]

theorem Has.eff {st st' : St X} {a : List X} (h : Has st) (he : Eff st st' a) (hv : ∀ x, x ∈ st'.vars → x ∈ st.vars ∨ x ∈ a) :
    Has st' := by
  intro x hx
  by_cases ha : x ∈ a
  · obtain ⟨k, -, q, -⟩ := he.find_in ha
    simp [q]
  · rw [he.ref x ha]
    exact h x ((hv x hx).resolve_right ha)

theorem operands_ok_iff {bs es : List (X × Nat)} {sc : List (List (X × Nat))} {x : X}
    (hx : x ∈ bs.map Prod.fst ∨ x ∈ es.map Prod.fst) :
    (∃ ab, operands bs es sc x = .ok ab) ↔ ((x ∈ bs.map Prod.fst ∧ x ∈ es.map Prod.fst) ∨ findDef sc x ≠ none) := by
  unfold operands
  cases q1 : look bs x <;> cases q2 : look es x <;> cases q3 : findDef sc x <;>
    simp only [q1, q2, q3, reduceCtorEq, exists_false, false_iff, not_or, ne_eq, not_true_eq_false, not_false_eq_true, and_true,
      or_true, iff_true, or_false]
  · exact (hx.elim (look_none.1 q1) (look_none.1 q2)).elim
  · exact (hx.elim (look_none.1 q1) (look_none.1 q2)).elim
  · exact fun q => look_none.1 q1 q.1
  · exact ⟨_, rfl⟩
  · exact fun q => look_none.1 q2 q.2
  · exact ⟨_, rfl⟩
  · exact ⟨fun _ => ⟨look_some_mem q1, look_some_mem q2⟩, fun _ => ⟨_, rfl⟩⟩
  · exact ⟨_, rfl⟩

theorem phis_ok_iff {known : X → Bool} {c : E (Nm X) A} {bs es : List (X × Nat)} : ∀ (xs : List X) {st : St X},
    st.scopes ≠ [] → xs.Nodup → (∀ x ∈ xs, known x = true) →
    ((∃ r, phis known c bs es xs st = .ok r) ↔ ∀ x ∈ xs, ∃ ab, operands bs es st.scopes x = .ok ab)
  | [], st, _, _, _ => by simp [phis]
  | x :: xs, st, ho, hnd, hk => by
    rw [List.nodup_cons] at hnd
    have hn : ∃ q, newVar known st x = .ok q := by
      unfold newVar
      rw [if_pos (hk x (List.mem_cons_self ..))]
      exact ⟨_, rfl⟩
    obtain ⟨⟨k, st1⟩, hn⟩ := hn
    obtain ⟨-, -, -, -, -, heff⟩ := newVar_eff ho hn
    have ih := phis_ok_iff (known := known) (c := c) (bs := bs) (es := es) xs heff.open_ hnd.2 (fun y hy => hk y (List.mem_cons_of_mem _ hy))
    have hsame : ∀ y ∈ xs, operands bs es st1.scopes y = operands bs es st.scopes y := fun y hy =>
      operands_congr (heff.find_out (by rw [List.mem_singleton]; intro e; exact hnd.1 (e ▸ hy)))
    constructor
    · rintro ⟨r, hr⟩
      simp only [phis, Res.bind_eq_ok] at hr
      obtain ⟨ab, hab, kst, hn', q, hq, -⟩ := hr
      rw [hn] at hn'
      cases hn'
      intro y hy
      rcases List.mem_cons.1 hy with rfl | hy
      · exact ⟨ab, hab⟩
      · have := ih.1 ⟨q, hq⟩ y hy
        rwa [hsame y hy] at this
    · intro h
      obtain ⟨ab, hab⟩ := h x (List.mem_cons_self ..)
      obtain ⟨q, hq⟩ := ih.2 (fun y hy => by rw [hsame y hy]; exact h y (List.mem_cons_of_mem _ hy))
      exact ⟨(.phi x k c ab.1 ab.2 :: q.1, q.2), by simp only [phis, hab, hn, hq, Res.ok_bind]⟩

theorem visit_ok_iff {known : X → Bool} : ∀ (p : P X A) {st : St X} {defs : List X}, st.scopes ≠ [] → Has st → Knows st defs →
    ((∃ r, visit known p st = .ok r) ↔ Closed known defs p)
  | .nil, st, defs, _, _, _ => by simp [visit, Closed]
  | .set x e r, st, defs, ho, hh, hk => by
    obtain ⟨e', he'⟩ := readE_returns hh e
    by_cases hx : known x = true
    · have hn : ∃ q, writeName known st x = .ok q := by
        unfold writeName newVar
        rw [if_pos hx]
        exact ⟨_, rfl⟩
      obtain ⟨⟨k, s1⟩, hn⟩ := hn
      obtain ⟨-, -, -, hv, -, he⟩ := newVar_eff (st := { st with vars := if x ∈ st.vars then st.vars else x :: st.vars }) ho hn
      have he : Eff st s1 [x] := ⟨he.next, he.scopes, he.ref⟩
      have ih := visit_ok_iff (known := known) r he.open_ (hh.eff he (by
        intro y hy
        rw [hv] at hy
        rw [List.mem_singleton]
        split at hy
        · exact .inl hy
        · exact (List.mem_cons.1 hy).symm)) (hk.eff he)
      simp only [Closed, hx, true_and]
      rw [show x :: defs = [x] ++ defs from rfl, ← ih]
      simp only [visit, he', hn, Res.ok_bind, Res.bind_eq_ok]
      constructor
      · rintro ⟨_, q, hq, -⟩
        exact ⟨q, hq⟩
      · rintro ⟨q, hq⟩
        exact ⟨_, q, hq, rfl⟩
    · refine ⟨?_, fun q => absurd q.1 hx⟩
      rintro ⟨q, hq⟩
      simp only [visit, he', Res.ok_bind, writeName, newVar, hx, Bool.false_eq_true, if_false, Res.throw_bind] at hq
      cases hq
  | .attr y e r, st, defs, ho, hh, hk => by
    obtain ⟨e', he'⟩ := readE_returns hh e
    have ih := visit_ok_iff (known := known) r ho hh hk
    simp only [Closed]
    rw [← ih]
    simp only [visit, he', Res.ok_bind, Res.bind_eq_ok]
    constructor
    · rintro ⟨_, q, hq, -⟩
      exact ⟨q, hq⟩
    · rintro ⟨q, hq⟩
      exact ⟨_, q, hq, rfl⟩
  | .part x e r, st, defs, ho, hh, hk => by
    obtain ⟨e', he'⟩ := readE_returns hh e
    obtain ⟨m, hm⟩ := readName_returns hh (.loc x)
    have ih := visit_ok_iff (known := known) r ho hh hk
    simp only [Closed]
    rw [← ih]
    simp only [visit, he', hm, Res.ok_bind, Res.bind_eq_ok]
    constructor
    · rintro ⟨_, q, hq, -⟩
      exact ⟨q, hq⟩
    · rintro ⟨q, hq⟩
      exact ⟨_, q, hq, rfl⟩
  | .ite c t e r, st, defs, ho, hh, hk => by
    obtain ⟨c', hc'⟩ := readE_returns hh c
    have i1 := visit_ok_iff (known := known) t (st := { st with scopes := [] :: st.scopes }) (defs := defs) (by simp) hh hk
    have phi : ∀ {t1 t2 : List (T X A)} {s1 s2 : St X},
        visit known t { st with scopes := [] :: st.scopes } = .ok (t1, s1) →
        visit known e { s1 with scopes := [] :: st.scopes } = .ok (t2, s2) → Closed known defs t → Closed known defs e →
        (popScope s1).2 = { s1 with scopes := st.scopes } ∧ (popScope s2).2 = { s2 with scopes := st.scopes } ∧
        ((∃ r, phis known c' (popScope s1).1 (popScope s2).1 (both (popScope s1).1 (popScope s2).1) { s2 with scopes := st.scopes } = .ok r) ↔
          ((∀ x ∈ asg t, x ∉ asg e → x ∈ defs) ∧ (∀ x ∈ asg e, x ∉ asg t → x ∈ defs))) := by
      intro t1 t2 s1 s2 h1 h2 c1 c2
      obtain ⟨v1, e1⟩ := visit_eff t (by simp) h1
      obtain ⟨b1, b2, b3, b4, b5, b6, b7, b8⟩ := branch_eff e1
      obtain ⟨v2, e2⟩ := visit_eff e (by simp) h2
      obtain ⟨d1, d2, d3, d4, d5, d6, d7, d8⟩ := branch_eff (st := { s1 with scopes := st.scopes }) e2
      refine ⟨by rw [popScope_eq b5], by rw [popScope_eq d5], ?_⟩
      rw [phis_ok_iff (st := { s2 with scopes := st.scopes }) _ ho (both_nodup b7 d7) (by
        intro x hx
        rcases (both_mem _ _ x).1 hx with hx | hx
        · exact closed_known t c1 x ((b6 x).1 hx)
        · exact closed_known e c2 x ((d6 x).1 hx))]
      have key : ∀ x, x ∈ both (popScope s1).1 (popScope s2).1 →
          ((∃ ab, operands (popScope s1).1 (popScope s2).1 st.scopes x = .ok ab) ↔ ((x ∈ asg t ∧ x ∈ asg e) ∨ x ∈ defs)) := by
        intro x hx
        rw [operands_ok_iff ((both_mem _ _ x).1 hx), b6, d6, hk x]
      constructor
      · intro h
        refine ⟨?_, ?_⟩
        · intro x hx hn
          have hb := (both_mem (popScope s1).1 (popScope s2).1 x).2 (.inl ((b6 x).2 hx))
          exact ((key x hb).1 (h x hb)).resolve_left (fun q => hn q.2)
        · intro x hx hn
          have hb := (both_mem (popScope s1).1 (popScope s2).1 x).2 (.inr ((d6 x).2 hx))
          exact ((key x hb).1 (h x hb)).resolve_left (fun q => hn q.1)
      · rintro ⟨h1, h2⟩ x hb
        refine (key x hb).2 ?_
        rcases (both_mem _ _ x).1 hb with hx | hx
        · rw [b6] at hx
          by_cases hn : x ∈ asg e
          · exact .inl ⟨hx, hn⟩
          · exact .inr (h1 x hx hn)
        · rw [d6] at hx
          by_cases hn : x ∈ asg t
          · exact .inl ⟨hn, hx⟩
          · exact .inr (h2 x hx hn)
    have els : ∀ {t1 : List (T X A)} {s1 : St X}, visit known t { st with scopes := [] :: st.scopes } = .ok (t1, s1) →
        ((∃ r, visit known e { s1 with scopes := [] :: st.scopes } = .ok r) ↔ Closed known defs e) := by
      intro t1 s1 h1
      obtain ⟨v1, e1⟩ := visit_eff t (by simp) h1
      exact visit_ok_iff (known := known) e (st := { s1 with scopes := [] :: st.scopes }) (by simp)
        (show Has s1 from Has.eff (st := { st with scopes := [] :: st.scopes }) hh e1 (fun x => (v1 x).1)) hk
    constructor
    · rintro ⟨⟨ts, st'⟩, hr⟩
      obtain ⟨c'', t1, s1, t2, s2, t3, s3, t4, hc, h1, h2, h3, h4, -⟩ := ite_parts hr
      rw [hc'] at hc
      cases hc
      obtain ⟨F, h2, h3⟩ := if_facts ho h1 h2 h3
      have c1 := i1.1 ⟨_, h1⟩
      have c2 := (els h1).1 ⟨_, h2⟩
      have c3 := (phi h1 h2 c1 c2).2.2.1 ⟨_, h3⟩
      exact ⟨c1, c2, c3.1, c3.2, (visit_ok_iff (known := known) r F.eff.open_ (hh.eff F.eff (fun x => (F.vars x).1)) (hk.eff F.eff)).1 ⟨_, h4⟩⟩
    · rintro ⟨c1, c2, c3, c4, c5⟩
      obtain ⟨⟨t1, s1⟩, h1⟩ := i1.2 c1
      obtain ⟨⟨t2, s2⟩, h2⟩ := (els h1).2 c2
      obtain ⟨p1, p2, hphi⟩ := phi h1 h2 c1 c2
      obtain ⟨⟨t3, s3⟩, h3⟩ := hphi.2 ⟨c3, c4⟩
      have h2' : visit known e { (popScope s1).2 with scopes := [] :: (popScope s1).2.scopes } = .ok (t2, s2) := by
        rw [p1]; exact h2
      have h3' : phis known c' (popScope s1).1 (popScope s2).1 (both (popScope s1).1 (popScope s2).1) (popScope s2).2 = .ok (t3, s3) := by
        rw [p2]; exact h3
      obtain ⟨F, -, -⟩ := if_facts ho h1 h2' h3'
      obtain ⟨q, h4⟩ := (visit_ok_iff (known := known) r F.eff.open_ (hh.eff F.eff (fun x => (F.vars x).1)) (hk.eff F.eff)).2 c5
      exact ⟨_, by simp only [visit, hc', h1, h2', h3', h4, Res.ok_bind]; rfl⟩

/-- **C25, what is refused**: a function is converted exactly when all the names it assigns are in scope and it makes
no latch: a variable assigned in one branch of an `if` is assigned in the other branch too or has a value from before. -/
theorem convert_iff (known : X → Bool) (p : P X A) : (∃ r, convert known p = .ok r) ↔ Closed known [] p := by
  rw [← visit_ok_iff p (st := St.init) (by simp [St.init]) nofun (by intro x; simp [St.init, findDef, look])]
  constructor
  · rintro ⟨r, hr⟩
    simp only [convert, Res.bind_eq_ok] at hr
    obtain ⟨q, hq, -⟩ := hr
    exact ⟨q, hq⟩
  · rintro ⟨q, hq⟩
    exact ⟨_, by simp only [convert, hq, Res.ok_bind]; rfl⟩

end

/-! ### Where it goes wrong, and cases that meet the hypotheses -/

def num (n : Nat) : E (Src Nat) Nat := ⟨[], fun _ => n⟩
def rd (x : Nat) : E (Src Nat) Nat := ⟨[.loc x], fun l => l.headD 0⟩
def w8 : World Nat Nat := ⟨fun _ v => v % 256, fun v => v != 0⟩
def all : Nat → Bool := fun _ => true

theorem w8_cast (x v : Nat) : w8.cast x (w8.cast x v) = w8.cast x v := Nat.mod_mod ..

/-- `y = 0; x = 1; if c: x = 2  else: y = x` with `x`, `y`, `c` being 0, 1, 2. -/
def elseReads : P Nat Nat :=
  .set 1 (num 0) (.set 0 (num 1) (.ite (rd 2) (.set 0 (num 2) .nil) (.set 1 (rd 0) .nil) .nil))

/-- `if c: self.y = 1  else: self.y = 2`. -/
def attrBranches : P Nat Nat := .ite (rd 2) (.attr 1 (num 1) .nil) (.attr 1 (num 2) .nil) .nil

/-- `x = 0; if c: x[0] = 1`. -/
def partBranch : P Nat Nat :=
  .set 0 (num 0) (.ite (rd 2) (.part 0 ⟨[], fun l => l.headD 0 + 1⟩ .nil) .nil .nil)

def zeros : Src Nat → Nat := fun _ => 0

theorem elseReads_wrong : ∃ ts ref, convert all elseReads = .ok (ts, ref) ∧ exec w8 elseReads zeros (.loc 1) = 1 ∧
    (ref 1).map (fun k => run w8 ts (entry zeros 0) (.ver 1 k)) = some 2 :=
  ⟨_, _, rfl, by decide +kernel, by decide +kernel⟩

theorem attrBranches_wrong : ∃ ts ref, convert all attrBranches = .ok (ts, ref) ∧
    exec w8 attrBranches (fun | .loc _ => 1 | .attr _ => 0) (.attr 1) = 1 ∧
    run w8 ts (entry (fun | .loc _ => 1 | .attr _ => 0) 0) (.attr 1) = 2 :=
  ⟨_, _, rfl, by decide +kernel, by decide +kernel⟩

theorem partBranch_wrong : ∃ ts ref, convert all partBranch = .ok (ts, ref) ∧ exec w8 partBranch zeros (.loc 0) = 0 ∧
    (ref 0).map (fun k => run w8 ts (entry zeros 0) (.ver 0 k)) = some 1 :=
  ⟨_, _, rfl, by decide +kernel, by decide +kernel⟩

/-- **C25 is false**: `y = 0; x = 1; if c: x = 2 else: y = x` sets `y` to 1 when `c` is 0; the converted
function sets it to 2, because the second branch reads the version of `x` made in the first. -/
theorem not_SsaClaim : ¬ SsaClaim Nat Nat := by
  intro hc
  obtain ⟨ts, ref, h, h1, h2⟩ := elseReads_wrong
  obtain ⟨k, q1, q2⟩ := (hc w8 w8_cast all elseReads ts ref h zeros 0 (fun _ => rfl)).1 1 (by decide)
  rw [q1, Option.map_some] at h2
  rw [q2, h1] at h2
  cases h2

/-- `y = 0; x = 1; if c: x = 2 (and if x: y = x) else: x = 4; y = x`, then `z = y; z[0] = …; self.q = z`. -/
def good : P Nat Nat :=
  .set 1 (num 0) (.set 0 (num 1) (.ite (rd 2) (.set 0 (num 2) (.ite (rd 0) (.set 1 (rd 0) .nil) .nil .nil))
    (.set 0 (num 4) (.set 1 (rd 0) .nil))
    (.set 3 (rd 1) (.part 3 ⟨[.loc 0], fun l => l.sum⟩ (.attr 9 (rd 3) .nil)))))

example : Ok false [] [] good := by
  simp [good, Ok, rd, num, asg]

example : Closed all [] good := by
  simp [good, Closed, all, asg]

example : ∃ ts ref, convert all good = .ok (ts, ref) ∧ targets ts = [0, 1, 2, 3, 4, 5, 6, 7, 8, 9] :=
  ⟨_, _, rfl, by decide +kernel⟩

/-- A latch: refused. -/
example : convert all (.ite (rd 2) (.set 0 (num 2) .nil) .nil .nil) = .throw .user := rfl

end Kratos.Ssa
