import Verif.Ir.Syntax

/-!
# Control-flow checks: function return and inferred latch

Model of src/analysis.cc:396-583 and 638-663.
-/

namespace Kratos.Check
open Kratos.Ir

/-- `targeted_cases`, src/analysis.cc:443-451: number of enum values, else `1u << width`
(undefined from 32 bits on).  `enumOf` gives the value list of an enum-typed target. -/
def targetedCases (enumOf : Expr → Option (List Nat)) (tgt : Expr) : Res Nat :=
  match enumOf tgt with
  | some vs => .ok vs.length
  | none => if tgt.width ≥ 32 then .ub else .ok (2 ^ tgt.width)

/-- `cases.find(nullptr) != cases.end()`. -/
def findNull : Cases → Bool
  | .nil => false
  | .cons none _ _ => true
  | .cons (some _) _ cs => findNull cs

mutual
/-- `check_stmt_condition` on a non-block statement, src/analysis.cc:396-478. `cond` is the
tested predicate, `un` is `check_unreachable`, `full` is `full_branch`. -/
def checkS (enumOf : Expr → Option (List Nat)) (cond : Stmt → Bool) (un full : Bool) :
    Stmt → Res Bool
  | .switch tgt cs =>
      if cond (.switch tgt cs) then .ok true
      else if cs.isEmpty then .ok false
      else (checkC enumOf cond un full cs 0).bind fun r =>
        match r with
        | none => .ok false
        | some found => (targetedCases enumOf tgt).bind fun n =>
            if full then .ok (findNull cs || found == n) else .ok (found > 0)
  | .ite c t e =>
      if cond (.ite c t e) then .ok true
      else (checkB enumOf cond un full t).bind fun rt =>
        if full then (if rt then checkB enumOf cond un full e else .ok false)
        else (if rt then .ok true else checkB enumOf cond un full e)
  | .for_ iv a b s body =>
      if cond (.for_ iv a b s body) then .ok true else checkB enumOf cond un full body
  | s => .ok (cond s)
/-- The `Block` branch, src/analysis.cc:400-424: stop at the first statement satisfying the
condition; with `check_unreachable`, throw when anything follows it. -/
def checkB (enumOf : Expr → Option (List Nat)) (cond : Stmt → Bool) (un full : Bool) :
    Stmts → Res Bool
  | .nil => .ok false
  | .cons s ss => (checkS enumOf cond un full s).bind fun r =>
      if r then (if un && !ss.isEmpty then .throw .stmt else .ok true)
      else checkB enumOf cond un full ss
/-- The loop over the cases, src/analysis.cc:432-439; `none` is the early `return false`. -/
def checkC (enumOf : Expr → Option (List Nat)) (cond : Stmt → Bool) (un full : Bool) :
    Cases → Nat → Res (Option Nat)
  | .nil, found => .ok (some found)
  | .cons _ b cs, found => (checkB enumOf cond un full b).bind fun r =>
      if r then checkC enumOf cond un full cs (found + 1)
      else if full then .ok none
      else checkC enumOf cond un full cs found
end

/-- `stmt->type() == StatementType::Return`. -/
def isRet : Stmt → Bool
  | .ret _ => true
  | _ => false

/-- `FunctionReturnVisitor` for one function with a return value, src/analysis.cc:488-503. -/
def checkFunctionReturn (enumOf : Expr → Option (List Nat)) (body : Stmts) : Res Unit :=
  (checkB enumOf isRet true true body).bind fun r => if r then .ok () else .throw .stmt

/-- The lambda of `LatchVisitor::check_stmt_block`, src/analysis.cc:550-567: an assignment whose
left side is the variable or any slice of it.  Calls of statement functions are not modelled. -/
def assignsVar (v : VarId) : Stmt → Bool
  | .assign _ l _ => l.v == v
  | _ => false

mutual
/-- `AssignedVarVisitor`, src/analysis.cc:638-657 (left sides indexed by a variable, which it
skips, are not in the model). -/
def assignedS : Stmt → List VarId
  | .assign _ l _ => [l.v]
  | .ite _ t e => assignedB t ++ assignedB e
  | .switch _ cs => assignedC cs
  | .for_ _ _ _ _ b => assignedB b
  | _ => []
def assignedB : Stmts → List VarId
  | .nil => []
  | .cons s ss => assignedS s ++ assignedB ss
def assignedC : Cases → List VarId
  | .nil => []
  | .cons _ b cs => assignedB b ++ assignedC cs
end

/-- One variable of `check_combinational`, src/analysis.cc:548-574. -/
def checkLatchVar (enumOf : Expr → Option (List Nat)) (body : Stmts) (v : VarId) : Res Unit :=
  (checkB enumOf (assignsVar v) false true body).bind fun r => if r then .ok () else .throw .stmt

/-- `LatchVisitor::check_combinational`, src/analysis.cc:576-583, over the list of assigned
variables (in C++ an unordered map: the order only decides which variable is reported). -/
def checkLatchList (enumOf : Expr → Option (List Nat)) (body : Stmts) : List VarId → Res Unit
  | [] => .ok ()
  | v :: vs => (checkLatchVar enumOf body v).bind fun _ => checkLatchList enumOf body vs

def checkLatch (enumOf : Expr → Option (List Nat)) (body : Stmts) : Res Unit :=
  checkLatchList enumOf body (assignedB body)

end Kratos.Check
