import Verif.Base

/-!
# Model: `clog2` and `is_2_power`
-/

namespace Kratos.Util

/-- `std::ceil(std::log2(n))` for a positive `n`.  Floating point is replaced by the exact real
value; for a 32-bit argument the double result is exact (the conversion is exact, and the
distance of `log2(2^k + 1)` from `k` is far above the rounding error). -/
def ceilLog2 (n : Nat) : Nat := if 2 ^ Nat.log2 n = n then Nat.log2 n else Nat.log2 n + 1

/-- `uint32_t clog2(uint32_t value)`, src/util.cc:232-234.  `std::log2(0)` is `-inf`, and converting
it to `uint32_t` is undefined. -/
def clog2 (v : BitVec 32) : Res Nat :=
  if v = 0#32 then .ub else .ok (max 1 (ceilLog2 v.toNat))

/-- `bool is_2_power(uint64_t num)`, src/util.hh:54. -/
def is2Power (n : BitVec 64) : Bool := n != 0#64 && (n &&& (n - 1#64)) == 0#64

end Kratos.Util
