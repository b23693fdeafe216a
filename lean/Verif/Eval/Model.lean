import Verif.Base

/-!
# Model of `src/eval.cc` (constant folding / simulator arithmetic)

`uint64_t` is `BitVec 64`; `uint32_t width` is a `Nat` with `u32sub` giving the
wrapping 32-bit subtraction.  A C++ shift by 64 or more is undefined behaviour
and yields `Res.ub`.
-/

namespace Kratos.Eval
open Kratos

abbrev U64 := BitVec 64

/-- `UINT64_MASK`, src/util.hh (all ones). -/
def MASK : U64 := BitVec.allOnes 64

/-- `uint32_t` subtraction, wraps modulo 2^32 (used in `64 - width`, `width - 1`). -/
def u32sub (a b : Nat) : Nat := (a + 2 ^ 32 - b) % 2 ^ 32

/-- C++ `<<` on `uint64_t`: undefined for a shift amount ≥ 64. -/
def shl (v : U64) (n : Nat) : Res U64 := if n < 64 then .ok (v <<< n) else .ub

/-- C++ `>>` on `uint64_t`: undefined for a shift amount ≥ 64. -/
def shr (v : U64) (n : Nat) : Res U64 := if n < 64 then .ok (v >>> n) else .ub

/-- Operators of `ExprOp` (src/util.hh / src/expr.hh) that `eval.cc` distinguishes. -/
inductive UnOp where
  | invert | minus | plus | not | or | and | xor
  deriving DecidableEq, Repr

inductive BinOp where
  | add | minus | multiply | divide | mod | power
  | and | or | xor | eq | neq
  | ge | le | lt | gt
  | sshr | lshr | shl
  | land | lor
  deriving DecidableEq, Repr

/-- src/eval.cc:8-12 `invert`: `v = ~value; v ^= UINT64_MASK << width`. -/
def invert (value : U64) (width : Nat) : Res U64 := do
  let m ← shl MASK width
  pure ((~~~ value) ^^^ m)

/-- src/eval.cc:14-17 `two_complement`. -/
def twoComplement (value : U64) (width : Nat) : Res U64 := do
  let i ← invert value width
  let m ← shr MASK (u32sub 64 width)
  pure ((i + 1) &&& m)

/-- src/eval.cc:19-21 `truncate`. -/
def truncate (value : U64) (width : Nat) : Res U64 := do
  let m ← shr MASK (u32sub 64 width)
  pure (value &&& m)

/-- `__builtin_popcount(unsigned int)`: the `uint64_t` argument is converted to 32
bits first. -/
def popcount32 (v : U64) : Nat :=
  ((List.range 32).filter (fun i => v.getLsbD i)).length

def b2u (b : Bool) : U64 := if b then 1 else 0

/-- src/eval.cc:23-43 `eval_unary_op`. -/
def evalUnary (value : U64) (op : UnOp) (width : Nat) : Res U64 :=
  match op with
  | .minus => twoComplement value width
  | .and => .ok (b2u (popcount32 value == width))
  | .invert => invert value width
  | .not => .ok (b2u (value == 0))
  | .or => .ok (b2u (value != 0))
  | .plus => .ok value
  | .xor => .ok (BitVec.ofNat 64 (popcount32 value % 2))

/-- The four relational operators share this sign treatment, src/eval.cc:84-107:
`neg && !rneg ? x : !neg && rneg ? !x : result ^ left_negative` where `x` is the
answer for "left negative, right not". -/
def relational (x : Bool) (res lneg rneg : Bool) : Bool :=
  if lneg && !rneg then x else if !lneg && rneg then !x else Bool.xor res lneg

/-- src/eval.cc:53-113, the `switch (op)` of `eval_bin_op`, with the variables computed before
it as arguments.  `cpow` stands for `std::pow` on doubles converted back to `uint64_t`; floating
point is not modelled, so it is a parameter. -/
def binSwitch (cpow : U64 → U64 → Res U64) (l r : U64) (op : BinOp) (width : Nat)
    (lneg rneg : Bool) (labs rabs signedBit mask : U64) : Res U64 :=
  match op with
  | .add => .ok (l + r)
  | .minus => .ok ((l - r) &&& mask)
  | .multiply =>
      if signedBit != 0 then twoComplement (labs * rabs) width else .ok (labs * rabs)
  | .divide =>
      if rabs == 0 then .ub
      else if signedBit != 0 then twoComplement (labs / rabs) width else .ok (labs / rabs)
  | .and => .ok (l &&& r)
  | .or => .ok (l ||| r)
  | .xor => .ok (l ^^^ r)
  | .eq => .ok (b2u (l == r))
  | .power => cpow l r
  | .ge => .ok (b2u (relational false (decide (rabs ≤ labs)) lneg rneg))
  | .le => .ok (b2u (relational true (decide (labs ≤ rabs)) lneg rneg))
  | .lt => .ok (b2u (relational true (decide (labs < rabs)) lneg rneg))
  | .gt => .ok (b2u (relational false (decide (rabs < labs)) lneg rneg))
  | .sshr => do
      let s ← shr labs r.toNat
      if lneg then do
        -- width - 1 - right_value is computed in uint64_t and wraps
        let m ← shl MASK ((u32sub width 1 + 2 ^ 64 - r.toNat) % 2 ^ 64)
        .ok (s ||| m)
      else .ok s
  | .lshr => shr l r.toNat
  | .mod | .neq | .shl | .land | .lor => .throw .notImpl

/-- src/eval.cc:47-48 `signed_ && value >> (width - 1)`, before conversion to `bool`. -/
def signShift (sgn : Bool) (v : U64) (width : Nat) : Res U64 :=
  if sgn then shr v (u32sub width 1) else .ok 0

/-- src/eval.cc:49-50 `negative ? two_complement(value, width) : value`. -/
def magnitude (neg : Bool) (v : U64) (width : Nat) : Res U64 :=
  if neg then twoComplement v width else .ok v

/-- src/eval.cc:45-118 `eval_bin_op`.  `signed_ && x >> (width - 1)` short-circuits. -/
def evalBin (cpow : U64 → U64 → Res U64) (l r : U64) (op : BinOp) (width : Nat)
    (sgn : Bool) : Res U64 := do
  let ls ← signShift sgn l width
  let rs ← signShift sgn r width
  let lneg := ls != 0
  let rneg := rs != 0
  let labs ← magnitude lneg l width
  let rabs ← magnitude rneg r width
  let signedBit ← shl (b2u (Bool.xor lneg rneg)) (u32sub width 1)
  let mask ← shr MASK (u32sub 64 width)
  let result ← binSwitch cpow l r op width lneg rneg labs rabs signedBit mask
  pure (result &&& mask)

/-- src/eval.cc:120-126 `eval_ternary_op`. -/
def evalTernary (p : Bool) (l r : U64) (width : Nat) : Res U64 := do
  let m ← shr MASK (u32sub 64 width)
  pure ((if p then l else r) &&& m)

end Kratos.Eval
