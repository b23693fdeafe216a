import Verif.Base

/-!
# Building operator expressions: widths, signs and implicit resizing

Model of src/expr.cc:28-40, 726-790, 806-818, 1283-1383, 2123-2200.

Objects live in a heap; an object is its index.  Constants are mutable: the constructor of an
operator expression changes the width of a constant operand in place.  Simplifications: scalars
only (`size_ = {1}`), so the packed-array check (src/expr.cc:783-788) never fires and
`width() = var_width()` for variables; no loop variables, so `safe_to_resize`
(src/expr.cc:2186-2200) is the `vars.empty()` branch; widths are natural numbers, i.e. sums and
products stay below 2^32.
-/

namespace Kratos.Width

/-- `ExprOp`, src/expr.hh:17-58, without the ternary and the members of the other node kinds. -/
inductive Op where
  | uinvert | uminus | uplus | uor | unot | uand | uxor
  | add | minus | divide | multiply | mod
  | lshr | ashr | shl
  | or | and | xor | power
  | land | lor
  | lt | gt | le | ge | eq | neq
  deriving DecidableEq, Repr

/-- `is_relational_op`, src/expr.cc:28-33. -/
def isRelational : Op → Bool
  | .lt | .gt | .le | .ge | .eq | .neq => true
  | _ => false

/-- `is_reduction_op`, src/expr.cc:35-38. -/
def isReduction : Op → Bool
  | .uor | .uxor | .uand | .unot => true
  | _ => false

/-- The test in src/expr.cc:751-752. -/
def isShift : Op → Bool
  | .shl | .ashr | .lshr => true
  | _ => false

/-- The classes of `Var` objects.  `op` and `dup` keep `var_width_` (`vw`) beside the operands
because their `width()` does not use it; `cast` is a `VarCasted` of kind `Resize`. -/
inductive Node where
  | base (w : Nat) (s : Bool)
  | const (v : Int) (w : Nat) (s : Bool)
  | param (v : Int) (w : Nat) (s : Bool)
  | cast (src : Nat) (w : Nat)
  | op (o : Op) (l : Nat) (r : Option Nat) (vw : Nat) (s : Bool)
  | concat (vs : List Nat) (w : Nat) (s : Bool)
  | extend (src : Nat) (w : Nat) (s : Bool)
  | dup (src : Nat) (count : Nat) (vw : Nat) (s : Bool)
  deriving DecidableEq, Repr

abbrev Heap := List Node

/-- Virtual `width()`: `Var::width` (src/expr.cc:46-58), `Expr::width` (src/expr.cc:806-818),
`VarConcat`/`VarExtend::width` (src/expr.hh:685, 706), `VarDuplicated::width`
(src/expr.cc:1379-1382).  `n` bounds the recursion depth; the theorems hold for every bound that
is at least the depth. -/
def width : Nat → Heap → Nat → Res Nat
  | 0, _, _ => .ub
  | n + 1, h, i =>
    match h[i]? with
    | none => .ub
    | some (.base w _) => .ok w
    | some (.const _ w _) => .ok w
    | some (.param _ w _) => .ok w
    | some (.cast _ w) => .ok w
    | some (.concat _ w _) => .ok w
    | some (.extend _ w _) => .ok w
    | some (.dup src c _ _) => (width n h src).bind fun w => .ok (c * w)
    | some (.op o l none _ _) =>
      if isRelational o || isReduction o then .ok 1 else width n h l
    | some (.op o l (some r) _ _) =>
      if isRelational o || isReduction o then .ok 1
      else (width n h l).bind fun wl => (width n h r).bind fun wr =>
        if wl != wr then .throw .var else .ok wl

/-- `width()` with a bound that is always enough (operands have smaller indices). -/
def W (h : Heap) (i : Nat) : Res Nat := width (i + 1) h i

/-- `is_signed()`; a `Resize` cast is created with `false` (src/expr.cc:1018). -/
def sgn (h : Heap) (i : Nat) : Bool :=
  match h[i]? with
  | some (.base _ s) | some (.const _ _ s) | some (.param _ _ s) => s
  | some (.op _ _ _ _ s) | some (.concat _ _ s) | some (.extend _ _ s) | some (.dup _ _ _ s) => s
  | some (.cast ..) | none => false

/-- `var_width()`, the cached field. -/
def varWidth (h : Heap) (i : Nat) : Res Nat :=
  match h[i]? with
  | some (.base w _) | some (.const _ w _) | some (.param _ w _) => .ok w
  | some (.cast _ w) | some (.concat _ w _) | some (.extend _ w _) => .ok w
  | some (.op _ _ _ vw _) | some (.dup _ _ vw _) => .ok vw
  | none => .ub

/-- `type() == VarType::ConstValue`. -/
def isConst (h : Heap) (i : Nat) : Bool :=
  match h[i]? with
  | some (.const ..) => true
  | _ => false

/-- `type() == VarType::Parameter`. -/
def isParam (h : Heap) (i : Nat) : Bool :=
  match h[i]? with
  | some (.param ..) => true
  | _ => false

/-- `IterVar::safe_to_resize` without loop variables, src/expr.cc:2151-2156: only variables and
ports (whose root is themselves) are compared with the target. -/
def safeToResize (h : Heap) (i : Nat) (target : Nat) : Res Bool :=
  match h[i]? with
  | some (.base w _) => .ok (decide (w ≤ target))
  | some _ => .ok true
  | none => .ub

/-- `resize_var`, src/expr.cc:726-739: the new heap and the operand the expression now holds. -/
def resizeVar (h : Heap) (i : Nat) (target : Nat) : Heap × Nat :=
  match h[i]? with
  | some (.const v _ s) => (h.set i (.const v target s), i)
  | _ => (h ++ [.cast i target], h.length)

/-- The resizing decision of `Expr::Expr`, src/expr.cc:750-767: which operand, to which width. -/
inductive Plan where
  | keep
  | left (w : Nat)
  | right (w : Nat)
  | reject
  deriving DecidableEq, Repr

def plan (h : Heap) (o : Op) (l r : Nat) : Res Plan :=
  (W h l).bind fun wl => (W h r).bind fun wr =>
    if isShift o && decide (wr < wl) then .ok (.right wl)
    else if wl = wr then .ok .keep
    else (safeToResize h l wr).bind fun sl =>
      if sl && !isConst h r && !isParam h r then .ok (.left wr)
      else (safeToResize h r wl).bind fun sr =>
        if sr then .ok (.right wl) else .ok .reject

/-- `Expr::Expr(op, left, right)` with a right operand, src/expr.cc:742-790. The heap changes
even when the constructor throws. -/
def mkBin (h : Heap) (o : Op) (l r : Nat) : Res (Heap × Nat) :=
  (plan h o l r).bind fun p =>
    let t := match p with
      | .keep => (h, l, r)
      | .left w => ((resizeVar h l w).1, (resizeVar h l w).2, r)
      | .right w => ((resizeVar h r w).1, l, (resizeVar h r w).2)
      | .reject => (h, l, r)
    if p = .reject then .throw .var
    else
      (varWidth t.1 l).bind fun vw =>
        let s := sgn h l && sgn h r
        .ok (t.1 ++ [.op o t.2.1 (some t.2.2) (if isRelational o || isReduction o then 1 else vw) s],
          t.1.length)

/-- `Expr::Expr(op, left, nullptr)`. -/
def mkUn (h : Heap) (o : Op) (l : Nat) : Res (Heap × Nat) :=
  (varWidth h l).bind fun vw =>
    .ok (h ++ [.op o l none (if isRelational o || isReduction o then 1 else vw) (sgn h l)], h.length)

/-- `Var::concat`, `VarConcat::concat`, src/expr.cc:249-263, 1292-1318: concatenating to a
concatenation appends to its list. The reuse of an existing equal pair is not modelled. -/
def mkConcat (h : Heap) (a b : Nat) : Res (Heap × Nat) :=
  (W h a).bind fun wa => (W h b).bind fun wb =>
    if sgn h a != sgn h b then .throw .var
    else
      let vs := match h[a]? with
        | some (.concat vs _ _) => vs ++ [b]
        | _ => [a, b]
      .ok (h ++ [.concat vs (wa + wb) (sgn h a)], h.length)

/-- `VarExtend::VarExtend`, src/expr.cc:1328-1343. -/
def mkExtend (h : Heap) (a : Nat) (w : Nat) : Res (Heap × Nat) :=
  (W h a).bind fun wa =>
    if w < wa then .throw .var else .ok (h ++ [.extend a w (sgn h a)], h.length)

/-- `VarDuplicated::VarDuplicated(Var *, uint32_t)`, src/expr.cc:1365-1370. -/
def mkDup (h : Heap) (a : Nat) (count : Nat) : Res (Heap × Nat) :=
  (W h a).bind fun wa => .ok (h ++ [.dup a count (count * wa) (sgn h a)], h.length)

/-- What a user can call. -/
inductive Call where
  | base (w : Nat) (s : Bool)
  | const (v : Int) (w : Nat) (s : Bool)
  | param (v : Int) (w : Nat) (s : Bool)
  | bin (o : Op) (l r : Nat)
  | un (o : Op) (l : Nat)
  | concat (a b : Nat)
  | extend (a w : Nat)
  | dup (a count : Nat)
  deriving DecidableEq, Repr

def call (h : Heap) : Call → Res (Heap × Nat)
  | .base w s => .ok (h ++ [.base w s], h.length)
  | .const v w s => .ok (h ++ [.const v w s], h.length)
  | .param v w s => .ok (h ++ [.param v w s], h.length)
  | .bin o l r => mkBin h o l r
  | .un o l => mkUn h o l
  | .concat a b => mkConcat h a b
  | .extend a w => mkExtend h a w
  | .dup a n => mkDup h a n

/-- The constant a call resizes in place, if any. -/
def resizes (h : Heap) : Call → Option Nat
  | .bin o l r =>
    match plan h o l r with
    | .ok (.left _) => if isConst h l then some l else none
    | .ok (.right _) => if isConst h r then some r else none
    | _ => none
  | _ => none

end Kratos.Width
