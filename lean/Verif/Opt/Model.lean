import Verif.Ir.Syntax

/-!
# Statement-rewriting passes: if→case, merge_if_block, remove_empty_block

Model of src/optimize.cc:16-204 and 926-1018.  Blocks are `Stmts`; each pass returns the new
block.  Pointer comparison of two `Var*` is the parameter `same`; equal pointers denote the same
expression (`same a b → a = b` is assumed by the theorems), nothing is assumed about the
converse.
-/

namespace Kratos.Opt
open Kratos.Ir

/-- Monadic map over the statements of a block. -/
def mapStmtsM (f : Stmt → Res Stmt) : Stmts → Res Stmts
  | .nil => .ok .nil
  | .cons s ss => (f s).bind fun s' => (mapStmtsM f ss).bind fun ss' => .ok (.cons s' ss')

def mapCasesM (f : Stmts → Res Stmts) : Cases → Res Cases
  | .nil => .ok .nil
  | .cons k b cs => (f b).bind fun b' => (mapCasesM f cs).bind fun cs' => .ok (.cons k b' cs')

/-- `IRNode::get_child` of a statement: visit the nested blocks
(`IfStmt` src/stmt.cc:304-313, `SwitchStmt` 610-632, `ForStmt` 391). -/
def mapKidsM (f : Stmts → Res Stmts) : Stmt → Res Stmt
  | .ite c t e => (f t).bind fun t' => (f e).bind fun e' => .ok (.ite c t' e')
  | .switch tgt cs => (mapCasesM f cs).bind fun cs' => .ok (.switch tgt cs')
  | .for_ iv a b s body => (f body).bind fun body' => .ok (.for_ iv a b s body')
  | s => .ok s

/-! ### transform_if_to_case, src/optimize.cc:18-114 -/

/-- `TransformIfCase::has_target_if`, src/optimize.cc:41-72.  `var` is the `Var*&` out
parameter, `n` the current `if_stmts.size()`.  Returns the target, the (constant, then-body)
pairs of `if_stmts` and the else-body of the last one.  A `Parameter` on the right-hand side is
represented by a constant holding its current value. -/
def hasTargetIf (same : Expr → Expr → Bool) :
    Stmt → Option Expr → Nat → Option (Option Expr × List (Int × Stmts) × Stmts)
  | .ite (.bin .eq l (.const _ v)) t els, var, n =>
      let ok := match var with
        | none => true
        | some x => same x l
      if ok then
        let tgt := match var with
          | none => l
          | some x => x
        match els with
        | .nil => some (some tgt, [(v, t)], .nil)
        | .cons s .nil =>
          match hasTargetIf same s (some tgt) (n + 1) with
          | some (x, links, fin) => some (x, (v, t) :: links, fin)
          | none => none
        | .cons _ (.cons _ _) => none
      else none
  | .ite _ _ _, _, _ => none
  | s, var, n => if n ≤ 1 then none else some (var, [], .cons s .nil)

/-- `SwitchStmt::add_switch_case`, src/stmt.cc:548-573: bodies of equal case values (or of two
defaults) are concatenated.  `body_` is a `std::map` keyed by pointer; here new cases go to the
end (see `case_order_irrelevant`). -/
def addCase : Cases → Option Int → Stmts → Cases
  | .nil, k, b => .cons k b .nil
  | .cons k' b' cs, k, b => if k' = k then .cons k' (b' ++ b) cs else .cons k' b' (addCase cs k b)

/-- The loop of `change_if_to_switch`, src/optimize.cc:87-105. -/
def collectCases (links : List (Int × Stmts)) (fin : Stmts) : Cases :=
  let cs := links.foldl (fun cs p => addCase cs (some p.1) p.2) .nil
  match fin with
  | .nil => cs
  | fin => addCase cs none fin

/-- `SwitchStmt::SwitchStmt` throws on a constant target, src/stmt.cc:522-532. -/
def mkSwitch (tgt : Expr) (cs : Cases) : Res Stmt :=
  match tgt with
  | .const _ _ => .throw .stmt
  | _ => .ok (.switch tgt cs)

/-- Loop body of `TransformIfCase::transform_block`, src/optimize.cc:24-40.
`1u << target->width()` is undefined for widths of 32 and more. -/
def transformOne (same : Expr → Expr → Bool) (s : Stmt) : Res Stmt :=
  match hasTargetIf same s none 0 with
  | some (some tgt, links, fin) =>
      if tgt.width ≥ 32 then .ub
      else if 2 ^ tgt.width > 1 ∧ (links.length ≥ 2 ^ tgt.width ∨ fin.isEmpty = false) then
        mkSwitch tgt (collectCases links fin)
      else .ok s
  | _ => .ok s

/-- `visit_root_s` (src/ir.cc:42-52) with `TransformIfCase`: transform a block, then visit the
blocks below the new statements.  The C++ recursion is unbounded; `n` is the depth to which we
unroll it and the theorems hold for every `n`. -/
def ifToCase (same : Expr → Expr → Bool) : Nat → Stmts → Res Stmts
  | 0, ss => .ok ss
  | n + 1, ss => (mapStmtsM (transformOne same) ss).bind fun ss' =>
      mapStmtsM (mapKidsM (ifToCase same n)) ss'

/-! ### merge_if_block, src/optimize.cc:119-204 -/

/-- One entry of `result[target]`: the statement's target, constant, predicate and bodies. -/
structure MIf where
  tgt : Expr
  val : Int
  pred : Expr
  thn : Stmts
  els : Stmts

/-- Test in `get_targeted_if`, src/optimize.cc:178-196. -/
def targetedIf : Stmt → Option MIf
  | .ite (.bin .eq l (.const w v)) t e => some ⟨l, v, .bin .eq l (.const w v), t, e⟩
  | _ => none

/-- First pass, src/optimize.cc:139-157: an `if` with an already seen constant is appended to
the first one with that constant. -/
def mergeSame : List MIf → List MIf → List MIf
  | acc, [] => acc
  | acc, m :: ms =>
      if acc.any (fun a => a.val = m.val) then
        mergeSame (acc.map fun a => if a.val = m.val then
          { a with thn := a.thn ++ m.thn, els := a.els ++ m.els } else a) ms
      else mergeSame (acc ++ [m]) ms

def MIf.toStmt (m : MIf) : Stmt := .ite m.pred m.thn m.els

/-- Second pass, src/optimize.cc:159-168: the remaining ones are put into the else branch of
the first. -/
def nestGroup : List MIf → Option Stmt
  | [] => none
  | top :: rest => some (.ite top.pred top.thn (top.els ++ Stmts.ofList (rest.map MIf.toStmt)))

/-- The block after processing the group of target `x`: the first member is replaced by the
merged statement, the other members are removed (src/optimize.cc:170-173). `g` is the merged
statement, `seen` whether the first member was passed. -/
def rebuild (same : Expr → Expr → Bool) (x : Expr) (g : Stmt) : Stmts → Bool → Stmts
  | .nil, _ => .nil
  | .cons s ss, seen =>
      match targetedIf s with
      | some m => if same x m.tgt then
            if seen then rebuild same x g ss true else .cons g (rebuild same x g ss true)
          else .cons s (rebuild same x g ss seen)
      | none => .cons s (rebuild same x g ss seen)

/-- Members of the group of target `x`, in block order. -/
def groupOf (same : Expr → Expr → Bool) (x : Expr) : Stmts → List MIf
  | .nil => []
  | .cons s ss =>
      match targetedIf s with
      | some m => if same x m.tgt then m :: groupOf same x ss else groupOf same x ss
      | none => groupOf same x ss

/-- Process one target (one iteration of the loop at src/optimize.cc:132). -/
def mergeTarget (same : Expr → Expr → Bool) (x : Expr) (ss : Stmts) : Stmts :=
  let ms := groupOf same x ss
  if ms.length > 1 then
    match nestGroup (mergeSame [] ms) with
    | some g => rebuild same x g ss false
    | none => ss
  else ss

/-- `MergeIfVisitor::transform_block` on a block carrying the `merge_if_block` attribute,
src/optimize.cc:131-174.  The groups are disjoint sets of statements; they are processed in the
order of the list `targets` (in C++: pointer order of the map keys). -/
def mergeIfBlock (same : Expr → Expr → Bool) (targets : List Expr) (ss : Stmts) : Stmts :=
  targets.foldl (fun ss x => mergeTarget same x ss) ss

/-! ### remove_empty_block, src/optimize.cc:926-1018 -/

/-- `Stmt::clear()` as called on the statements of a block by `StmtBlock::clear`
(src/stmt.cc:450-455, IfStmt 347-351, ForStmt 407, SwitchStmt 655-660): the statement survives
where it is shared, but the blocks nested in it are emptied. -/
def clearCases : Cases → Cases
  | .nil => .nil
  | .cons k _ cs => .cons k .nil (clearCases cs)

def clearStmt : Stmt → Stmt
  | .ite c _ _ => .ite c .nil .nil
  | .switch tgt cs => .switch tgt (clearCases cs)
  | .for_ iv a b s _ => .for_ iv a b s .nil
  | s => s

def clearAll : Stmts → Stmts
  | .nil => .nil
  | .cons s ss => .cons (clearStmt s) (clearAll ss)

mutual
/-- `dispatch_node`, src/optimize.cc:1003-1013; `none` is the null pointer (remove it).
For the `IfStmt` case (src/optimize.cc:945-965): with an empty then-branch, `else_body->empty()`
dereferences the null pointer returned for an empty else-branch; otherwise the predicate becomes
`~predicate`, the else statements are added to the then-branch and `set_else(new block)` calls
`clear()` on the very same statements. -/
def removeEmptyStmt : Stmt → Res (Option Stmt)
  | .ite c t e =>
      (removeEmpty t).bind fun t' => (removeEmpty e).bind fun e' =>
        if t'.isEmpty then
          if e'.isEmpty then .ub
          else .ok (some (.ite (.un .invert c) (clearAll e') .nil))
        else .ok (some (.ite c t' e'))
  | .switch tgt cs => (removeEmptyCases cs).bind fun cs' =>
        if cs'.isEmpty then .ok none else .ok (some (.switch tgt cs'))
  | s => .ok (some s)
/-- `process(StmtBlock)`, src/optimize.cc:967-986 (the caller tests emptiness). -/
def removeEmpty : Stmts → Res Stmts
  | .nil => .ok .nil
  | .cons s ss => (removeEmptyStmt s).bind fun s' => (removeEmpty ss).bind fun ss' =>
      match s' with
      | none => .ok ss'
      | some s' => .ok (.cons s' ss')
/-- `process(SwitchStmt)`, src/optimize.cc:988-1001. -/
def removeEmptyCases : Cases → Res Cases
  | .nil => .ok .nil
  | .cons k b cs => (removeEmpty b).bind fun b' => (removeEmptyCases cs).bind fun cs' =>
      if b'.isEmpty then .ok cs' else .ok (.cons k b' cs')
end

end Kratos.Opt
