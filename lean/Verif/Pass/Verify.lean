import Verif.Const.Props
import Verif.Pass.Kinds

/-!
# C33: width and sign check of assignments (src/analysis.cc:19-128)

Widths and signs of variables, slices and the like are given; how they are computed is C07 and C09.
-/

namespace Kratos.Verify

open Kratos.Const Kratos.Eval Kratos.Kinds

/-- The operator classes of src/expr.cc:27-42. -/
inductive Cls where
  | relational | reduction | expand | plain
  deriving DecidableEq, Repr

/-- Right sides. `leaf`: anything but a constant or an operator. For a ternary `bin` holds its two branches. -/
inductive VE where
  | leaf (w : Nat) (s : Bool)
  | const (c : KConst)
  | un (k : Cls) (w : Nat) (s : Bool) (e : VE)
  | bin (k : Cls) (w : Nat) (s : Bool) (l r : VE)
  deriving DecidableEq, Repr

def VE.width : VE → Nat
  | .leaf w _ => w
  | .const c => c.width
  | .un _ w _ _ => w
  | .bin _ w _ _ _ => w

def VE.sgn : VE → Bool
  | .leaf _ s => s
  | .const c => c.sgn
  | .un _ _ s _ => s
  | .bin _ _ s _ _ => s

/-- The condition of src/analysis.cc:103 and 108. -/
def mismatch (k : Cls) (w : Nat) (e : VE) : Bool := decide (k ≠ .relational) && decide (k ≠ .reduction) && decide (e.width ≠ w) && decide (k ≠ .expand)

/-- `check_expr` (src/analysis.cc:92-121). -/
def checkExpr : VE → Res Unit
  | .leaf _ _ => .ok ()
  | .const _ => .ok ()
  | .un k w _ e => if mismatch k w e then .throw .var else checkExpr e
  | .bin k w _ l r =>
    if mismatch k w l then .throw .var
    else if mismatch k w r then .throw .var
    else (checkExpr l).bind fun _ => checkExpr r

/-- The resizing of constants (src/analysis.cc:24-36); an exception of the constructor is caught. -/
def resize (wl : Nat) (r : VE) : Res VE :=
  if wl ≠ r.width then
    match r with
    | .const c =>
      match create c.value wl c.sgn with
      | .ok c' => .ok (.const c')
      | .throw _ => .ok r
      | .ub => .ub
    | _ => .ok r
  else .ok r

/-- `VerifyAssignmentVisitor::visit(AssignStmt*)` (src/analysis.cc:21-49): the right side afterwards. -/
def verify (wl : Nat) (sl : Bool) (r : VE) : Res VE :=
  (resize wl r).bind fun r =>
    if wl ≠ r.width then .throw .stmt
    else if sl ≠ r.sgn then .throw .stmt
    else (checkExpr r).bind fun _ => .ok r

/-- An assignment: width and sign of the left side, right side. -/
structure Asg where
  wl : Nat
  sl : Bool
  rhs : VE
  deriving DecidableEq, Repr

def verifyAsg (a : Asg) : Res Asg := (verify a.wl a.sl a.rhs).bind fun r => .ok { a with rhs := r }

/-- `verify_assignments` (src/analysis.cc:124-128): every assignment of the design, until the first exception. -/
def verifyAll (as : List Asg) : Res (List Asg) := mapRes verifyAsg as

/-! ### Specification -/

/-- Operators that keep the width have operands of their own width, at every depth. -/
inductive WellSized : VE → Prop
  | leaf {w s} : WellSized (.leaf w s)
  | const {c} : WellSized (.const c)
  | un {k w s e} : (k = .plain → e.width = w) → WellSized e → WellSized (.un k w s e)
  | bin {k w s l r} : (k = .plain → l.width = w ∧ r.width = w) → WellSized l → WellSized r → WellSized (.bin k w s l r)

/-- The right side after the check: the same, or the same constant in the new width, in which it is representable. -/
def SameRhs (wl : Nat) (r r' : VE) : Prop := r' = r ∨ ∃ c, r = .const c ∧ r' = .const ⟨c.value, wl, c.sgn⟩ ∧ (wl ≤ 64 → Representable c.sgn wl (number c.sgn c.value))

/-- What an accepted assignment looks like. -/
structure Good (a a' : Asg) : Prop where
  left : a'.wl = a.wl ∧ a'.sl = a.sl
  width : a'.rhs.width = a.wl
  sign : a'.rhs.sgn = a.sl
  same : SameRhs a.wl a.rhs a'.rhs
  sized : WellSized a'.rhs

/-! ### Proof -/

theorem mismatch_iff {k : Cls} {w : Nat} {e : VE} : mismatch k w e = false ↔ (k = .plain → e.width = w) := by
  unfold mismatch
  cases k <;> simp

theorem checkExpr_iff : ∀ e, checkExpr e = .ok () ↔ WellSized e
  | .leaf _ _ => ⟨fun _ => .leaf, fun _ => rfl⟩
  | .const _ => ⟨fun _ => .const, fun _ => rfl⟩
  | .un k w s e => by
    unfold checkExpr
    constructor
    · intro h
      split at h
      · cases h
      · rename_i hm
        exact .un (mismatch_iff.1 (by simpa using hm)) ((checkExpr_iff e).1 h)
    · intro h
      cases h with
      | un h1 h2 => rw [mismatch_iff.2 h1, if_neg Bool.false_ne_true]; exact (checkExpr_iff e).2 h2
  | .bin k w s l r => by
    unfold checkExpr
    constructor
    · intro h
      split at h
      · cases h
      split at h
      · cases h
      rename_i h1 h2
      simp only [Res.bind_eq_ok] at h
      obtain ⟨_, h3, h4⟩ := h
      have h1 := mismatch_iff.1 (by simpa using h1)
      have h2 := mismatch_iff.1 (by simpa using h2)
      exact .bin (fun hk => ⟨h1 hk, h2 hk⟩) ((checkExpr_iff l).1 h3) ((checkExpr_iff r).1 h4)
    · intro h
      cases h with
      | bin h1 h2 h3 =>
        rw [mismatch_iff.2 fun hk => (h1 hk).1, mismatch_iff.2 fun hk => (h1 hk).2, if_neg Bool.false_ne_true, if_neg Bool.false_ne_true,
          (checkExpr_iff l).2 h2]
        exact (checkExpr_iff r).2 h3

theorem create_ok {v : U64} {w : Nat} {s : Bool} {c : KConst} (h : create v w s = .ok c) : c = ⟨v, w, s⟩ ∧ (w ≤ 64 → Representable s w (number s v)) := by
  have h0 : w ≠ 0 := by
    intro e
    unfold create at h
    rw [if_pos e] at h
    cases h
  refine ⟨?_, fun hw => ?_⟩
  · unfold create at h
    rw [if_neg h0] at h
    simp only [Res.bind_eq_ok] at h
    obtain ⟨r, -, h⟩ := h
    cases r with
    | small => cases h
    | big =>
      simp only at h
      split at h
      · simp only [Res.bind_eq_ok] at h
        obtain ⟨_, _, h⟩ := h
        cases h
      · injection h with h; exact h.symm
    | legal => injection h with h; exact h.symm
  · obtain ⟨h1, h2⟩ := const_create_exact (by omega) hw s v
    by_cases hr : Representable s w (number s v)
    · exact hr
    · rw [h2 hr] at h; cases h

theorem resize_ok {wl : Nat} {r r' : VE} (h : resize wl r = .ok r') : SameRhs wl r r' := by
  unfold resize at h
  split at h
  · split at h
    · rename_i c _
      split at h
      · rename_i c' hc
        injection h with h
        obtain ⟨h1, h2⟩ := create_ok hc
        exact Or.inr ⟨c, rfl, by rw [← h, h1], h2⟩
      · injection h with h; exact Or.inl h.symm
      · cases h
    · injection h with h; exact Or.inl h.symm
  · injection h with h; exact Or.inl h.symm

/-- **C33**: every assignment of an accepted design has sides of equal width and sign, its right side is unchanged or a
constant that fits its new width, and its operators have operands of one width. -/
theorem assignments_good {as as' : List Asg} (h : verifyAll as = .ok as') : All2 Good as as' := by
  refine All2.mono ?_ (mapRes_all2 as as' h)
  intro a a' h
  simp only [verifyAsg, verify, Res.bind_eq_ok] at h
  obtain ⟨r, ⟨r', h1, h2⟩, h⟩ := h
  injection h with h
  subst h
  split at h2
  · cases h2
  split at h2
  · cases h2
  rename_i hw hs
  simp only [Res.bind_eq_ok] at h2
  obtain ⟨_, h3, h2⟩ := h2
  injection h2 with h2
  subst h2
  exact ⟨⟨rfl, rfl⟩, (by simpa using hw : a.wl = r'.width).symm, (by simpa using hs : a.sl = r'.sgn).symm, resize_ok h1, (checkExpr_iff r').1 h3⟩

/-- **C33**: nothing else is refused: an assignment with equal widths and signs and well-sized operators is accepted as it
is. -/
theorem good_accepted {a : Asg} (hw : a.rhs.width = a.wl) (hs : a.rhs.sgn = a.sl) (hz : WellSized a.rhs) : verifyAsg a = .ok a := by
  unfold verifyAsg verify resize
  rw [if_neg (by simp [hw]), Res.ok_bind, if_neg (by simp [hw]), if_neg (by simp [hs]), (checkExpr_iff _).2 hz]
  rfl

/-- **C33**: a constant of another width is accepted when it fits. -/
theorem const_accepted {wl : Nat} {sl : Bool} {c : KConst} (h1 : 1 ≤ wl) (h2 : wl ≤ 64) (hs : c.sgn = sl) (hr : Representable c.sgn wl (number c.sgn c.value)) :
    verify wl sl (.const c) = .ok (.const ⟨c.value, wl, c.sgn⟩) := by
  have hc := (const_create_exact h1 h2 c.sgn c.value).1 hr
  unfold verify resize
  by_cases hw : wl = c.width
  · have e : c = ⟨c.value, wl, c.sgn⟩ := by rw [hw]
    rw [if_neg (by simp [VE.width, hw]), Res.ok_bind, if_neg (by simp [VE.width, hw]), if_neg (by simp [VE.sgn, hs])]
    rw [← e]; rfl
  · rw [if_pos (by simp [VE.width, hw])]
    simp only [hc, Res.ok_bind]
    rw [if_neg (by simp [VE.width]), if_neg (by simp [VE.sgn, hs])]
    rfl

/-! ### Examples -/

example : verifyAll [⟨8, false, .const ⟨5, 4, false⟩⟩, ⟨1, false, .bin .relational 1 false (.leaf 8 false) (.leaf 8 false)⟩] =
    .ok [⟨8, false, .const ⟨5, 8, false⟩⟩, ⟨1, false, .bin .relational 1 false (.leaf 8 false) (.leaf 8 false)⟩] := by decide +kernel
example : verify 2 false (.const ⟨5, 4, false⟩) = .throw .stmt := by decide +kernel
example : verify 8 false (.leaf 4 false) = .throw .stmt := by decide +kernel
example : verify 8 true (.leaf 8 false) = .throw .stmt := by decide +kernel
example : verify 8 false (.bin .plain 8 false (.leaf 8 false) (.leaf 4 false)) = .throw .var := by decide +kernel
example : WellSized (.bin .plain 8 false (.leaf 8 false) (.const ⟨1, 8, false⟩)) := .bin (fun _ => ⟨rfl, rfl⟩) .leaf .const

end Kratos.Verify
