import Verif.Width.Model

/-!
# What an expression's width means in SystemVerilog

`SV h i w`: the text of object `i` has self-determined width `w` (IEEE 1800, table 11-21). It
looks at the operands each node holds, not at `width()`.
-/

namespace Kratos.Width

/-- Operators whose result is one bit: comparison, reduction and logical. -/
def oneBit : Op → Bool
  | .lt | .gt | .le | .ge | .eq | .neq => true
  | .uor | .unot | .uand | .uxor => true
  | .land | .lor => true
  | _ => false

/-- Operators whose width is the left operand's: shifts and power. -/
def leftOnly : Op → Bool
  | .shl | .ashr | .lshr | .power => true
  | _ => false

inductive SV (h : Heap) : Nat → Nat → Prop where
  | base {i w s} : h[i]? = some (.base w s) → SV h i w
  | const {i v w s} : h[i]? = some (.const v w s) → SV h i w
  | param {i v w s} : h[i]? = some (.param v w s) → SV h i w
  /-- `w'(x)` -/
  | cast {i x w} : h[i]? = some (.cast x w) → SV h i w
  | extend {i x w s} : h[i]? = some (.extend x w s) → SV h i w
  /-- `{n{x}}` -/
  | dup {i x n vw s wx} : h[i]? = some (.dup x n vw s) → SV h x wx → SV h i (n * wx)
  | concat {i vs w s} (f : Nat → Nat) : h[i]? = some (.concat vs w s) →
      (∀ v ∈ vs, SV h v (f v)) → SV h i (vs.map f).sum
  | one {i o l r vw s} : h[i]? = some (.op o l r vw s) → oneBit o = true → SV h i 1
  | unary {i o l vw s w} : h[i]? = some (.op o l none vw s) → oneBit o = false → SV h l w →
      SV h i w
  | shift {i o l r vw s w} : h[i]? = some (.op o l (some r) vw s) → leftOnly o = true →
      SV h l w → SV h i w
  | arith {i o l r vw s wl wr} : h[i]? = some (.op o l (some r) vw s) → oneBit o = false →
      leftOnly o = false → SV h l wl → SV h r wr → SV h i (max wl wr)

/-- The objects a node holds. -/
def Node.operands : Node → List Nat
  | .base .. | .const .. | .param .. => []
  | .cast x _ | .extend x _ _ | .dup x _ _ _ => [x]
  | .op _ l none _ _ => [l]
  | .op _ l (some r) _ _ => [l, r]
  | .concat vs _ _ => vs

/-- No object already built holds `k`. -/
def Unused (h : Heap) (k : Nat) : Prop := ∀ nd ∈ h, k ∉ nd.operands

/-- A history of successful calls from an empty design; constants are only resized while no
other expression holds them. -/
inductive Built : Heap → Prop where
  | nil : Built []
  | step {h c h' i} : Built h → call h c = .ok (h', i) →
      (∀ k, resizes h c = some k → Unused h k) → Built h'

/-- The same without the side condition: everything a user can build. -/
inductive Reachable : Heap → Prop where
  | nil : Reachable []
  | step {h c h' i} : Reachable h → call h c = .ok (h', i) → Reachable h'

/-- Logical operators are only applied to one-bit operands. -/
def LogicalOk (h : Heap) : Prop :=
  ∀ (i : Nat) (o : Op) (l : Nat) (r : Option Nat) (vw : Nat) (s : Bool), h[i]? = some (.op o l r vw s) → (o = .land ∨ o = .lor) → W h l = .ok 1

/-- The claim: every object a user can build has the width SystemVerilog gives its text. -/
def WidthCorrect : Prop := ∀ h, Reachable h → ∀ i, i < h.length → ∃ w, W h i = .ok w ∧ SV h i w

/-- `v` is representable in `w` bits. -/
def Fits (v : Int) (w : Nat) (s : Bool) : Prop :=
  if s then -(2 ^ (w - 1) : Nat) ≤ v ∧ v < (2 ^ (w - 1) : Nat) else 0 ≤ v ∧ v < (2 ^ w : Nat)

/-- Reading an operand in the expression gives at least all its bits: it is the same object, a
wider cast of it, or a constant that still fits. -/
def Preserved (h h' : Heap) (old new : Nat) : Prop :=
  match h[old]? with
  | some (.const v w s) => ∃ w', h'[new]? = some (.const v w' s) ∧ (Fits v w s → Fits v w' s)
  | _ => (new = old ∧ h'[old]? = h[old]?) ∨
      ∃ w w', W h old = .ok w ∧ h'[new]? = some (.cast old w') ∧ w ≤ w'

end Kratos.Width
