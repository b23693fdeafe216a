import Verif.Base

/-!
# The in-memory IR: expressions and statements

Models the object graph built by the API (`src/expr.hh`, `src/stmt.hh`).
Simplifications, common to all users of this file:

* variables are numbered (`VarId`), a variable node carries its width
  (`Var::width()`, src/expr.hh:88); arrays are flattened to bit ranges;
* expressions are unsigned (signed operators are covered by `Verif.Eval`);
* `shared_ptr` identity of statements is dropped (trees, not graphs).
-/

namespace Kratos.Ir

abbrev VarId := Nat

/-- Unary members of `enum class ExprOp`, src/expr.hh:17-25. -/
inductive UnOp where
  | invert | minus | plus | or | not | and | xor
  deriving DecidableEq, Repr

/-- Binary members of `enum class ExprOp`, src/expr.hh:27-50. -/
inductive BinOp where
  | add | minus | divide | multiply | mod | lshr | sshr | shl | or | and | xor | power
  | land | lor | lt | gt | le | ge | eq | neq
  deriving DecidableEq, Repr

/-- `is_relational_op`, src/expr.cc:27-32: results are 1 bit wide.  `&&` and `||` are not in
this set, so the code gives them the width of their operands. -/
def BinOp.isBool : BinOp → Bool
  | .lt | .gt | .le | .ge | .eq | .neq => true
  | _ => false

/-- Reduction operators and `!` give 1 bit (`is_reduction_op`, src/expr.cc:34-37). -/
def UnOp.isBool : UnOp → Bool
  | .or | .not | .and | .xor => true
  | _ => false

/-- Expression nodes: `Var`, `Const` (src/expr.hh), `VarSlice`, `Expr`, `ConditionalExpr`,
`VarConcat`, `VarExtend`, `VarDuplicated`.  `const w v` holds the `int64_t` value `v` of the
constant; its bit pattern is `v mod 2^w`.  A `VarConcat` of n variables is a left-nested
`concat`. -/
inductive Expr where
  | var (v : VarId) (w : Nat)
  | const (w : Nat) (v : Int)
  | slice (e : Expr) (hi lo : Nat)
  | un (op : UnOp) (e : Expr)
  | bin (op : BinOp) (l r : Expr)
  | cond (p l r : Expr)
  | concat (l r : Expr)
  | extend (w : Nat) (e : Expr)
  | dup (n : Nat) (e : Expr)
  deriving DecidableEq, Repr

/-- `Var::width()` of each node kind (src/expr.cc: `Expr::width` 806-818, `VarConcat` 1292-1313,
`VarExtend` 1329-1336, `VarDuplicated::width` 1379-1382, `VarSlice` width). -/
def Expr.width : Expr → Nat
  | .var _ w => w
  | .const w _ => w
  | .slice _ hi lo => hi - lo + 1
  | .un op e => if op.isBool then 1 else e.width
  | .bin op l _ => if op.isBool then 1 else l.width
  | .cond _ l _ => l.width
  | .concat l r => l.width + r.width
  | .extend w _ => w
  | .dup n e => n * e.width

/-- What the constructors enforce (src/expr.cc:742-770 and the other node constructors): operand
widths agree, slices are inside their parent, extension does not shrink, widths are positive. -/
def Expr.WF : Expr → Prop
  | .var _ w => 0 < w
  | .const w _ => 0 < w
  | .slice e hi lo => e.WF ∧ lo ≤ hi ∧ hi < e.width
  | .un _ e => e.WF
  | .bin _ l r => l.WF ∧ r.WF ∧ l.width = r.width
  | .cond p l r => p.WF ∧ l.WF ∧ r.WF ∧ l.width = r.width
  | .concat l r => l.WF ∧ r.WF
  | .extend w e => e.WF ∧ e.width ≤ w
  | .dup n e => 0 < n ∧ e.WF

/-- Left-hand side of an assignment: bits `lo .. lo+len-1` of a variable
(`AssignStmt::left()`, a variable or a constant-index slice). -/
structure LVal where
  v : VarId
  lo : Nat
  len : Nat
  deriving DecidableEq, Repr

mutual
/-- Statement kinds (`StatementType`, src/stmt.hh): assignment (blocking or non-blocking),
`IfStmt`, `SwitchStmt`, `ForStmt`, `ReturnStmt`, `BreakStmt`; every other kind (function calls,
assertions, comments, raw strings, events, …) is `other n` with an arbitrary meaning. -/
inductive Stmt where
  | assign (nb : Bool) (l : LVal) (r : Expr)
  | ite (c : Expr) (t e : Stmts)
  | switch (tgt : Expr) (cs : Cases)
  | for_ (iv : VarId) (start stop step : Int) (body : Stmts)
  | ret (e : Expr)
  | brk
  | other (n : Nat)
/-- `StmtBlock::stmts_`: the contents of a block. -/
inductive Stmts where
  | nil
  | cons (s : Stmt) (ss : Stmts)
/-- `SwitchStmt::body_`: case value (`none` = default, a null `Const`) and body. -/
inductive Cases where
  | nil
  | cons (k : Option Int) (b : Stmts) (cs : Cases)
end

deriving instance Repr for Stmt, Stmts, Cases

namespace Stmts

def append : Stmts → Stmts → Stmts
  | .nil, b => b
  | .cons s a, b => .cons s (append a b)

instance : Append Stmts := ⟨append⟩

def ofList : List Stmt → Stmts
  | [] => .nil
  | s :: l => .cons s (ofList l)

def toList : Stmts → List Stmt
  | .nil => []
  | .cons s ss => s :: ss.toList

/-- `StmtBlock::empty()`. -/
def isEmpty : Stmts → Bool
  | .nil => true
  | .cons _ _ => false

/-- `StmtBlock::size()`. -/
def length : Stmts → Nat
  | .nil => 0
  | .cons _ ss => ss.length + 1

@[simp] theorem nil_append (b : Stmts) : (Stmts.nil ++ b) = b := rfl
@[simp] theorem cons_append (s : Stmt) (a b : Stmts) :
    (Stmts.cons s a ++ b) = Stmts.cons s (a ++ b) := rfl
@[simp] theorem append_nil : ∀ (a : Stmts), (a ++ Stmts.nil) = a
  | .nil => rfl
  | .cons s a => by rw [cons_append, append_nil a]

end Stmts

namespace Cases

def ofList : List (Option Int × Stmts) → Cases
  | [] => .nil
  | (k, b) :: l => .cons k b (ofList l)

def toList : Cases → List (Option Int × Stmts)
  | .nil => []
  | .cons k b cs => (k, b) :: cs.toList

def isEmpty : Cases → Bool
  | .nil => true
  | .cons _ _ _ => false

end Cases
end Kratos.Ir
