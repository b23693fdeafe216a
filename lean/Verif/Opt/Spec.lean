import Verif.Ir.Semantics

/-!
# Specification vocabulary for the statement-rewriting passes

Written over the IR only; nothing here mentions the passes.
-/

namespace Kratos.Opt
open Kratos.Ir

mutual
/-- `P` holds of a statement and of every statement nested in it. -/
def AllS (P : Stmt → Prop) : Stmt → Prop
  | .ite c t e => P (.ite c t e) ∧ AllB P t ∧ AllB P e
  | .switch tgt cs => P (.switch tgt cs) ∧ AllC P cs
  | .for_ iv a b s body => P (.for_ iv a b s body) ∧ AllB P body
  | s => P s
def AllB (P : Stmt → Prop) : Stmts → Prop
  | .nil => True
  | .cons s ss => AllS P s ∧ AllB P ss
def AllC (P : Stmt → Prop) : Cases → Prop
  | .nil => True
  | .cons _ b cs => AllB P b ∧ AllC P cs
end

/-- The expressions in a statement's head were accepted by the expression constructors. -/
def HeadWF : Stmt → Prop
  | .ite c _ _ => c.WF
  | .switch t _ => t.WF
  | _ => True

/-- For `if (x == c₁) … else if (x == c₂) … `: the bit patterns `[c₁, c₂, …]` tested against
`x` along the else-branches. -/
def eqChain (x : Expr) : Stmt → List Nat
  | .ite (.bin .eq l (.const w v)) _ (.cons s .nil) =>
      if l = x then pattern w v :: eqChain x s else []
  | .ite (.bin .eq l (.const w v)) _ _ => if l = x then [pattern w v] else []
  | _ => []

/-- No if/else-if chain tests the same value of the same target twice. -/
def NoRepeat (s : Stmt) : Prop := ∀ x, (eqChain x s).Nodup

/-- The block has no effect on the value of `x` (for example because it only makes
non-blocking assignments, or only assigns other variables). -/
def Keeps (x : Expr) (b : Stmts) : Prop := ∀ ι st, x.eval (b.exec ι st).val = x.eval st.val

mutual
/-- Nothing but empty blocks: contains no statement other than `if`/`case` with hollow bodies. -/
def hollowS : Stmt → Bool
  | .ite _ t e => hollowB t && hollowB e
  | .switch _ cs => hollowC cs
  | _ => false
def hollowB : Stmts → Bool
  | .nil => true
  | .cons s ss => hollowS s && hollowB ss
def hollowC : Cases → Bool
  | .nil => true
  | .cons _ b cs => hollowB b && hollowC cs
end

/-- Neither `if`, `case` nor `for`. -/
def plain : Stmt → Bool
  | .ite _ _ _ | .switch _ _ | .for_ _ _ _ _ _ => false
  | _ => true

def hasDefault : Cases → Bool
  | .nil => false
  | .cons none _ _ => true
  | .cons (some _) _ cs => hasDefault cs

/-- Some labelled (non-default) case has a hollow body. -/
def hollowLabel : Cases → Bool
  | .nil => false
  | .cons none _ cs => hollowLabel cs
  | .cons (some _) b cs => hollowB b || hollowLabel cs

/-- At most one `default` (the null key of a map is unique). -/
def oneDefault : Cases → Bool
  | .nil => true
  | .cons none _ cs => !hasDefault cs
  | .cons (some _) _ cs => oneDefault cs

/-- Bit patterns of the labelled cases. -/
def labels (w : Nat) : Cases → List Nat
  | .nil => []
  | .cons none _ cs => labels w cs
  | .cons (some c) _ cs => pattern w c :: labels w cs

def allPlain : Stmts → Bool
  | .nil => true
  | .cons s ss => plain s && allPlain ss

/-- The shapes on which removing empty blocks is claimed to work: no `if` with both branches
hollow; an `if` whose then-branch is hollow has a well-formed one-bit predicate and only plain
statements in its else-branch; a `case` has pairwise different labels and, if it has a
`default`, only one and no hollow labelled case. -/
def Prunable : Stmt → Prop
  | .ite c t e => (hollowB t = true → c.WF ∧ c.width = 1 ∧ allPlain e = true ∧ hollowB e = false)
  | .switch tgt cs => (labels tgt.width cs).Nodup ∧
      (hasDefault cs = true → hollowLabel cs = false ∧ oneDefault cs = true)
  | _ => True

end Kratos.Opt
