import Verif.Eval.Spec

/-! Helper lemmas for `Verif.Eval.Props`. -/

namespace Kratos.Eval
open Kratos

theorem u32sub_64 {w : Nat} (_h1 : 1 ≤ w) (h2 : w ≤ 64) : u32sub 64 w = 64 - w := by
  unfold u32sub; omega

theorem u32sub_one {w : Nat} (h1 : 1 ≤ w) (h2 : w ≤ 64) : u32sub w 1 = w - 1 := by
  unfold u32sub; omega

theorem shr_mask {w : Nat} (h1 : 1 ≤ w) (h2 : w ≤ 64) :
    shr MASK (u32sub 64 w) = .ok (MASK >>> (64 - w)) := by
  rw [u32sub_64 h1 h2]; unfold shr; rw [if_pos (by omega)]

theorem and_mask {w : Nat} (h2 : w ≤ 64) (x : U64) :
    x &&& (MASK >>> (64 - w)) = (x.setWidth w).setWidth 64 := by
  apply BitVec.eq_of_getLsbD_eq
  intro i hi
  rw [BitVec.getLsbD_and, BitVec.getLsbD_ushiftRight, BitVec.getLsbD_setWidth,
    BitVec.getLsbD_setWidth]
  unfold MASK
  rw [BitVec.getLsbD_allOnes]
  by_cases h : i < w
  · have : 64 - w + i < 64 := by omega
    simp [h, this, hi]
  · have : ¬ 64 - w + i < 64 := by omega
    simp [h, this]

theorem two_pow_le_64 {w : Nat} (h2 : w ≤ 64) : 2 ^ w ≤ 2 ^ 64 :=
  Nat.pow_le_pow_right (by omega) h2

theorem and_mask_toNat {w : Nat} (h2 : w ≤ 64) (x : U64) :
    (x &&& (MASK >>> (64 - w))).toNat = x.toNat % 2 ^ w := by
  rw [and_mask h2, BitVec.toNat_setWidth, BitVec.toNat_setWidth]
  have := two_pow_le_64 h2
  have h3 : x.toNat % 2 ^ w < 2 ^ w := Nat.mod_lt _ (Nat.two_pow_pos w)
  exact Nat.mod_eq_of_lt (by omega)

theorem invert_ok {w : Nat} (h2 : w < 64) (v : U64) :
    invert v w = .ok ((~~~ v) ^^^ (MASK <<< w)) := by
  unfold invert shl; simp [h2]

theorem invert_setWidth {w : Nat} (h2 : w < 64) (v : U64) :
    ((~~~ v) ^^^ (MASK <<< w)).setWidth w = ~~~ (v.setWidth w) := by
  apply BitVec.eq_of_getLsbD_eq
  intro i hi
  rw [BitVec.getLsbD_setWidth, BitVec.getLsbD_xor, BitVec.getLsbD_not, BitVec.getLsbD_shiftLeft,
    BitVec.getLsbD_not, BitVec.getLsbD_setWidth]
  have : i < 64 := by omega
  simp [hi, this]

theorem twoComplement_ok {w : Nat} (h1 : 1 ≤ w) (h2 : w < 64) (v : U64) :
    twoComplement v w = .ok ((-(v.setWidth w)).setWidth 64) := by
  unfold twoComplement
  simp only [Res.bind_def, Res.pure_def]
  rw [invert_ok h2, shr_mask h1 (by omega)]
  simp only [Res.bind]
  rw [and_mask (by omega), BitVec.setWidth_add _ _ (by omega), invert_setWidth h2,
    BitVec.neg_eq_not_add]
  congr 3
  apply BitVec.eq_of_toNat_eq
  simp

theorem neg_toNat {w : Nat} (h2 : w ≤ 64) (v : U64) :
    ((-(v.setWidth w)).setWidth 64).toNat = (2 ^ w - v.toNat % 2 ^ w) % 2 ^ w := by
  rw [BitVec.toNat_setWidth, BitVec.toNat_neg, BitVec.toNat_setWidth]
  have := two_pow_le_64 h2
  have h3 : (2 ^ w - v.toNat % 2 ^ w) % 2 ^ w < 2 ^ w := Nat.mod_lt _ (Nat.two_pow_pos w)
  exact Nat.mod_eq_of_lt (by omega)

/-- sign test: `v >> (w-1) != 0`. -/
theorem sign_test {w : Nat} (_h1 : 1 ≤ w) (_h2 : w ≤ 64) (v : U64) :
    ((v >>> (w - 1)) != 0#64) = decide (2 ^ (w - 1) ≤ v.toNat) := by
  rw [Bool.eq_iff_iff]
  simp only [bne_iff_ne, ne_eq, decide_eq_true_eq]
  rw [← BitVec.toNat_inj, BitVec.toNat_ushiftRight, Nat.shiftRight_eq_div_pow]
  simp only [BitVec.toNat_ofNat, Nat.zero_mod]
  rw [Nat.div_eq_zero_iff]
  have := Nat.two_pow_pos (w - 1)
  omega

theorem pow_split {w : Nat} (h1 : 1 ≤ w) : 2 ^ w = 2 * 2 ^ (w - 1) := by
  obtain ⟨k, rfl⟩ : ∃ k, w = k + 1 := ⟨w - 1, by omega⟩
  simp [Nat.pow_succ]; omega

/-- The magnitude computed by `eval_bin_op`. -/
def mag (neg : Bool) (w : Nat) (v : U64) : U64 := if neg then (-(v.setWidth w)).setWidth 64 else v

theorem mag_toNat {w : Nat} (h1 : 1 ≤ w) (h2 : w ≤ 64) {v : U64} (hv : Fits w v) :
    (mag (decide (2 ^ (w - 1) ≤ v.toNat)) w v).toNat = (denote true w v).natAbs := by
  unfold Fits at hv
  have hp := pow_split h1
  have hpp := Nat.two_pow_pos (w - 1)
  unfold mag denote
  by_cases h : 2 ^ (w - 1) ≤ v.toNat
  · simp only [h, decide_true, if_true, neg_toNat h2, and_self]
    rw [Nat.mod_eq_of_lt hv, Nat.mod_eq_of_lt (by omega)]
    have : ((2 : Int) ^ w) = ((2 ^ w : Nat) : Int) := by simp
    rw [this]
    omega
  · simp [h]

theorem denote_emod (sgn : Bool) (w : Nat) (v : U64) :
    denote sgn w v % 2 ^ w = (v.toNat : Int) % 2 ^ w := by
  unfold denote
  split
  · simp
  · rfl

theorem signedBit_test {w : Nat} (h1 : 1 ≤ w) (h2 : w ≤ 64) (b : Bool) :
    ((b2u b) <<< (w - 1) != 0#64) = b := by
  cases b
  · simp [b2u]
  · have : ((b2u true) <<< (w - 1)) ≠ 0#64 := by
      intro h
      have h3 := congrArg (fun x => BitVec.getLsbD x (w - 1)) h
      simp [b2u, BitVec.getLsbD_shiftLeft] at h3
      omega
    simpa using this

theorem shl_ok {n : Nat} (h : n < 64) (x : U64) : shl x n = .ok (x <<< n) := by
  unfold shl; rw [if_pos h]

theorem shr_ok {n : Nat} (h : n < 64) (x : U64) : shr x n = .ok (x >>> n) := by
  unfold shr; rw [if_pos h]

/-- `eval_bin_op` on unsigned operands reaches its `switch` without undefined behaviour. -/
theorem evalBin_unsigned (cpow) {w : Nat} (h1 : 1 ≤ w) (h2 : w ≤ 64) (l r : U64) (op : BinOp) :
    evalBin cpow l r op w false =
      Res.bind (binSwitch cpow l r op w false false l r 0#64 (MASK >>> (64 - w)))
      (fun x => .ok (x &&& (MASK >>> (64 - w)))) := by
  unfold evalBin
  simp [signShift, magnitude, shr_mask h1 h2, u32sub_one h1 h2, shl_ok (show w - 1 < 64 by omega), b2u]

/-- `eval_bin_op` on signed operands of at most 63 bits reaches its `switch`. -/
theorem evalBin_signed (cpow) {w : Nat} (h1 : 1 ≤ w) (h2 : w < 64) (l r : U64) (op : BinOp) :
    evalBin cpow l r op w true =
      (let lneg := decide (2 ^ (w - 1) ≤ l.toNat)
       let rneg := decide (2 ^ (w - 1) ≤ r.toNat)
       Res.bind (binSwitch cpow l r op w lneg rneg (mag lneg w l) (mag rneg w r)
          ((b2u (Bool.xor lneg rneg)) <<< (w - 1)) (MASK >>> (64 - w)))
        (fun x => .ok (x &&& (MASK >>> (64 - w))))) := by
  have st := fun v => sign_test h1 (by omega : w ≤ 64) v
  unfold evalBin signShift magnitude
  simp only [Res.bind_def, Res.pure_def, shr_mask h1 (show w ≤ 64 by omega),
    u32sub_one h1 (show w ≤ 64 by omega), shl_ok (show w - 1 < 64 by omega),
    shr_ok (show w - 1 < 64 by omega), if_true, Res.ok_bind, BitVec.ofNat_eq_ofNat, st]
  generalize decide (2 ^ (w - 1) ≤ l.toNat) = a
  generalize decide (2 ^ (w - 1) ≤ r.toNat) = b
  cases a <;> cases b <;> simp [mag, twoComplement_ok h1 h2]


/-! ### Integer views -/

theorem pow_cast (w : Nat) : ((2 : Int) ^ w) = ((2 ^ w : Nat) : Int) := by simp

theorem mask_int {w : Nat} (h2 : w ≤ 64) (x : U64) :
    ((x &&& (MASK >>> (64 - w))).toNat : Int) = (x.toNat : Int) % 2 ^ w := by
  rw [and_mask_toNat h2]; simp

theorem add_int {w : Nat} (h2 : w ≤ 64) (x y : U64) :
    ((x + y).toNat : Int) % 2 ^ w = ((x.toNat : Int) + y.toNat) % 2 ^ w := by
  have hdvd : (2 ^ w : Nat) ∣ 2 ^ 64 := Nat.pow_dvd_pow 2 h2
  rw [BitVec.toNat_add, pow_cast, ← Int.natCast_emod, Nat.mod_mod_of_dvd _ hdvd]
  simp only [Int.natCast_emod, Int.natCast_add]

theorem mul_int {w : Nat} (h2 : w ≤ 64) (x y : U64) :
    ((x * y).toNat : Int) % 2 ^ w = ((x.toNat : Int) * y.toNat) % 2 ^ w := by
  have hdvd : (2 ^ w : Nat) ∣ 2 ^ 64 := Nat.pow_dvd_pow 2 h2
  rw [BitVec.toNat_mul, pow_cast, ← Int.natCast_emod, Nat.mod_mod_of_dvd _ hdvd]
  simp only [Int.natCast_emod, Int.natCast_mul]

theorem neg_congr {a b n : Int} (h : a % n = b % n) : (-a) % n = (-b) % n := by
  rw [Int.neg_emod_eq_sub_emod, Int.neg_emod_eq_sub_emod, Int.sub_emod, h, ← Int.sub_emod]

theorem sub_int {w : Nat} (h2 : w ≤ 64) (x y : U64) :
    ((x - y).toNat : Int) % 2 ^ w = ((x.toNat : Int) - y.toNat) % 2 ^ w := by
  have e : (x - y) + y = x := by rw [BitVec.sub_add_cancel]
  have h := add_int h2 (x - y) y
  rw [e] at h
  rw [Int.sub_emod, h, ← Int.sub_emod]
  congr 1; omega

theorem neg_int {w : Nat} (h2 : w ≤ 64) (v : U64) :
    (((-(v.setWidth w)).setWidth 64).toNat : Int) = (-(v.toNat : Int)) % 2 ^ w := by
  rw [neg_toNat h2, pow_cast]
  have h3 : v.toNat % 2 ^ w < 2 ^ w := Nat.mod_lt _ (Nat.two_pow_pos w)
  rw [Int.natCast_emod, Int.ofNat_sub (by omega), Int.natCast_emod, ← Int.neg_emod_eq_sub_emod]
  exact neg_congr (Int.emod_emod _ _)

theorem denote_mag {w : Nat} (h1 : 1 ≤ w) (h2 : w ≤ 64) {v : U64} (hv : Fits w v) :
    denote true w v =
      if decide (2 ^ (w - 1) ≤ v.toNat) then
        -((mag (decide (2 ^ (w - 1) ≤ v.toNat)) w v).toNat : Int)
      else ((mag (decide (2 ^ (w - 1) ≤ v.toNat)) w v).toNat : Int) := by
  rw [mag_toNat h1 h2 hv]
  unfold denote Fits at *
  rw [pow_cast]
  have := pow_split h1
  by_cases h : 2 ^ (w - 1) ≤ v.toNat
  · simp only [h, decide_true, if_true, and_self]; omega
  · simp only [h, decide_false, and_false, if_false]; simp

theorem mag_lt {w : Nat} (h1 : 1 ≤ w) (h2 : w ≤ 64) {v : U64} (hv : Fits w v) :
    (mag (decide (2 ^ (w - 1) ≤ v.toNat)) w v).toNat < 2 ^ w := by
  rw [mag_toNat h1 h2 hv]
  unfold denote Fits at *
  rw [pow_cast]
  have := pow_split h1
  have := Nat.two_pow_pos (w - 1)
  by_cases h : 2 ^ (w - 1) ≤ v.toNat
  · simp only [h, if_true, and_self]; omega
  · simp [h]; omega

theorem fits_mask {w : Nat} (h2 : w ≤ 64) {x : U64} (hx : x.toNat < 2 ^ w) :
    x &&& (MASK >>> (64 - w)) = x := by
  apply BitVec.eq_of_toNat_eq
  rw [and_mask_toNat h2, Nat.mod_eq_of_lt hx]

theorem bool_mask {w : Nat} (h1 : 1 ≤ w) (h2 : w ≤ 64) (b : Bool) :
    (b2u b) &&& (MASK >>> (64 - w)) = b2u b := by
  apply fits_mask h2
  have := pow_split h1; have := Nat.two_pow_pos (w - 1)
  cases b <;> simp [b2u] <;> omega


/-- Signed value of a sign/magnitude pair. -/
def sm (neg : Bool) (a : U64) : Int := if neg then -(a.toNat : Int) else a.toNat

theorem rel_lt (ln rn : Bool) (a b : U64) (za : ln = true → a.toNat ≠ 0) (zb : rn = true → b.toNat ≠ 0)
    (hne : sm ln a = sm rn b → ¬ sm ln a < 0) :
    relational true (decide (a < b)) ln rn = decide (sm ln a < sm rn b) := by
  cases ln <;> cases rn <;> simp [relational, sm, BitVec.le_def, BitVec.lt_def] at * <;>
    first
    | omega
    | (rw [Bool.eq_iff_iff]; simp; omega)

theorem rel_le (ln rn : Bool) (a b : U64) (za : ln = true → a.toNat ≠ 0) (zb : rn = true → b.toNat ≠ 0)
    (hne : sm ln a = sm rn b → ¬ sm ln a < 0) :
    relational true (decide (a ≤ b)) ln rn = decide (sm ln a ≤ sm rn b) := by
  cases ln <;> cases rn <;> simp [relational, sm, BitVec.le_def, BitVec.lt_def] at * <;>
    first
    | omega
    | (rw [Bool.eq_iff_iff]; simp; omega)

theorem rel_gt (ln rn : Bool) (a b : U64) (za : ln = true → a.toNat ≠ 0) (zb : rn = true → b.toNat ≠ 0)
    (hne : sm ln a = sm rn b → ¬ sm ln a < 0) :
    relational false (decide (b < a)) ln rn = decide (sm ln a > sm rn b) := by
  cases ln <;> cases rn <;> simp [relational, sm, BitVec.le_def, BitVec.lt_def] at * <;>
    first
    | omega
    | (rw [Bool.eq_iff_iff]; simp; omega)

theorem rel_ge (ln rn : Bool) (a b : U64) (za : ln = true → a.toNat ≠ 0) (zb : rn = true → b.toNat ≠ 0)
    (hne : sm ln a = sm rn b → ¬ sm ln a < 0) :
    relational false (decide (b ≤ a)) ln rn = decide (sm ln a ≥ sm rn b) := by
  cases ln <;> cases rn <;> simp [relational, sm, BitVec.le_def, BitVec.lt_def] at * <;>
    first
    | omega
    | (rw [Bool.eq_iff_iff]; simp; omega)

theorem getLsbD_fits {w i : Nat} {v : U64} (hv : Fits w v) (h : w ≤ i) : v.getLsbD i = false := by
  unfold Fits at hv
  rw [BitVec.getLsbD]
  apply Nat.testBit_lt_two_pow
  exact Nat.lt_of_lt_of_le hv (Nat.pow_le_pow_right (by omega) h)

/-- For a value that fits in `w ≤ 32` bits the 32-bit popcount counts the low `w` bits. -/
theorem popcount32_fits {w : Nat} (h : w ≤ 32) {v : U64} (hv : Fits w v) :
    popcount32 v = ((List.range w).filter (fun i => v.getLsbD i)).length := by
  unfold popcount32
  have e : List.range 32 = List.range w ++ (List.range (32 - w)).map (w + ·) := by
    rw [← List.range_add]; congr 1; omega
  rw [e, List.filter_append, List.length_append]
  have z : ((List.range (32 - w)).map (w + ·)).filter (fun i => v.getLsbD i) = [] := by
    rw [List.filter_eq_nil_iff]
    intro a ha
    simp only [List.mem_map] at ha
    obtain ⟨b, _, rfl⟩ := ha
    simp [getLsbD_fits hv (show w ≤ w + b by omega)]
  rw [z]; simp

theorem popcount32_le (v : U64) : popcount32 v ≤ 32 := by
  unfold popcount32
  exact Nat.le_trans (List.length_filter_le _ _) (by simp)

theorem parity_foldl (l : List Nat) (p : Nat → Bool) (b : Bool) :
    l.foldl (fun acc i => Bool.xor acc (p i)) b =
      Bool.xor b (decide ((l.filter p).length % 2 = 1)) := by
  induction l generalizing b with
  | nil => simp
  | cons a l ih =>
    rw [List.foldl_cons, ih, List.filter_cons]
    cases hp : p a
    · simp
    · simp only [if_true, List.length_cons]
      have : decide ((List.filter p l).length.succ % 2 = 1)
          = !(decide ((List.filter p l).length % 2 = 1)) := by
        rw [Bool.eq_iff_iff]; simp; omega
      rw [show (List.filter p l).length + 1 = (List.filter p l).length.succ from rfl, this]
      cases b <;> simp

end Kratos.Eval
