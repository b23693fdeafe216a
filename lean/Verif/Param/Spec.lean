import Verif.Param.Model

/-!
# When a design's parameters are consistent
-/

namespace Kratos.Param

/-- Everything that depends on a parameter shows its current value: widths and sizes tied to an
expression have the expression's value, and a parameter set from another has that one's value. -/
structure Consistent (E : Nat → WExpr) (st : St) : Prop where
  width : ∀ x e, st.widthTie x = some e → (E e).eval st.val = some (st.width x)
  size : ∀ x i e, st.sizeTie x i = some e → (E e).eval st.val = some (st.size x i)
  derived : ∀ c p, st.parent c = some p → st.val c = st.val p

/-- Nothing is tied to anything yet; values, widths and sizes are arbitrary. -/
def Fresh (st : St) : Prop :=
  (∀ p, st.widthVars p = [] ∧ st.sizeVars p = [] ∧ st.kids p = [] ∧ st.parent p = none) ∧
  ∀ x, st.widthTie x = none ∧ ∀ i, st.sizeTie x i = none

/-- Everything a user can do. -/
inductive Reach (E : Nat → WExpr) : St → Prop where
  | fresh {st} : Fresh st → Reach E st
  | step {st c n st'} : Reach E st → call E n st c = (st', .ok) → Reach E st'

/-- The claim: after any history of successful calls everything is consistent. -/
def ParamsCorrect : Prop := ∀ E st, Reach E st → Consistent E st

/-- `e` is the parameter `p` itself. -/
def Bare (E : Nat → WExpr) (p e : Nat) : Prop :=
  (E e).pars = [p] ∧ ∀ v, (E e).eval v = if 0 < v p then some (v p) else none

/-- The calls for which the claim holds: a width is tied once, to a parameter itself; a dimension
is tied while it is free; a parameter gets at most one parent and is then only set through it. -/
def Tame (E : Nat → WExpr) (st : St) : Call → Prop
  | .setValue p _ => st.parent p = none
  | .setParent c p => st.parent c = none ∧ c ≠ p
  | .tieWidth x e => st.widthTie x = none ∧ ∃ p, Bare E p e
  | .untieWidth x => st.widthTie x = none
  | .tieSize x i _ => st.sizeTie x i = none
  | .untieSize _ _ => True

inductive TameReach (E : Nat → WExpr) : St → Prop where
  | fresh {st} : Fresh st → TameReach E st
  | step {st c n st'} : TameReach E st → Tame E st c → call E n st c = (st', .ok) → TameReach E st'

/-- `q` is `p` or set from it through any number of parameters. -/
inductive Desc (st : St) (p : Nat) : Nat → Prop where
  | refl : Desc st p p
  | step {q c} : Desc st p q → st.parent c = some q → Desc st p c

end Kratos.Param
