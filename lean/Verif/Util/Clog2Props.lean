import Verif.Util.Clog2

/-!
# C61: `clog2` is the least sufficient width; `is_2_power` recognises powers of two
-/

namespace Kratos.Util

theorem le_two_pow_ceilLog2 (n : Nat) (h : n ≠ 0) : n ≤ 2 ^ ceilLog2 n := by
  unfold ceilLog2
  split
  · rename_i e; omega
  · exact Nat.le_of_lt (Nat.lt_log2_self)

theorem ceilLog2_le (n j : Nat) (h : n ≠ 0) (hj : n ≤ 2 ^ j) : ceilLog2 n ≤ j := by
  have h1 := Nat.log2_self_le h
  unfold ceilLog2
  split
  · rename_i e
    rw [← e] at hj
    exact (Nat.pow_le_pow_iff_right (by decide)).1 hj
  · rename_i e
    have : 2 ^ Nat.log2 n < 2 ^ j := by omega
    exact (Nat.pow_lt_pow_iff_right (by decide)).1 this

/-- **C61.**  For every non-zero argument `clog2` returns a width `k ≥ 1` such that `n` values have
distinct `k`-bit codes, and no smaller positive width has this property. -/
theorem clog2_least (v : BitVec 32) (h : v ≠ 0#32) :
    ∃ k, clog2 v = .ok k ∧ 1 ≤ k ∧ v.toNat ≤ 2 ^ k ∧ ∀ j, 1 ≤ j → v.toNat ≤ 2 ^ j → k ≤ j := by
  have h0 : v.toNat ≠ 0 := fun e => h (BitVec.eq_of_toNat_eq (by simpa using e))
  refine ⟨max 1 (ceilLog2 v.toNat), by simp [clog2, h], by omega, ?_, ?_⟩
  · exact Nat.le_trans (le_two_pow_ceilLog2 _ h0) (Nat.pow_le_pow_right (by decide) (by omega))
  · intro j h1 hj
    have := ceilLog2_le _ j h0 hj
    omega

example : clog2 5#32 = .ok 3 ∧ clog2 4#32 = .ok 2 ∧ clog2 1#32 = .ok 1 := by decide

/-- `clog2(0)` is undefined behaviour. -/
theorem clog2_zero_ub : clog2 0#32 = .ub := by decide

/-- The power-of-two test used by the FSM code is exact for every 64-bit value. -/
theorem is_2_power_iff (n : BitVec 64) : is2Power n = true ↔ ∃ k, n.toNat = 2 ^ k := by
  have key := Nat.ne_zero_and_sub_one_eq_zero_iff_isPowerOfTwo (n := n.toNat)
  unfold Nat.isPowerOfTwo at key
  rw [← key]
  unfold is2Power
  simp only [Bool.and_eq_true, bne_iff_ne, beq_iff_eq]
  have e0 : n = 0#64 ↔ n.toNat = 0 := by
    constructor
    · intro e; subst e; rfl
    · intro e; exact BitVec.eq_of_toNat_eq (by simpa using e)
  constructor
  · rintro ⟨h, k⟩
    have hn : n.toNat ≠ 0 := fun e => h (e0.2 e)
    refine ⟨hn, ?_⟩
    have := congrArg BitVec.toNat k
    rw [BitVec.toNat_and, BitVec.toNat_sub_of_le (by rw [BitVec.le_def]; simpa using Nat.one_le_iff_ne_zero.2 hn)] at this
    simpa using this
  · rintro ⟨hn, k⟩
    refine ⟨fun e => hn (e0.1 e), ?_⟩
    apply BitVec.eq_of_toNat_eq
    rw [BitVec.toNat_and, BitVec.toNat_sub_of_le (by rw [BitVec.le_def]; simpa using Nat.one_le_iff_ne_zero.2 hn)]
    simpa using k

example : is2Power 64#64 = true ∧ is2Power 96#64 = false ∧ is2Power 0#64 = false := by decide

end Kratos.Util
