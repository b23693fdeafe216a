import Verif.Eval.Lemmas

/-!
# Properties C01–C04: constant folding agrees with bit-vector arithmetic

All theorems quantify over every width and every operand.  `cpow` is the
unmodelled `std::pow`; no statement depends on it.
-/

namespace Kratos.Eval
open Kratos

variable (cpow : U64 → U64 → Res U64)

/-- The operator is evaluated where `eval.cc` has no undefined behaviour: any width 1..64
for unsigned operands, 1..63 for signed ones. -/
def WidthOk (sgn : Bool) (w : Nat) : Prop := 1 ≤ w ∧ (w ≤ 63 ∨ (w = 64 ∧ sgn = false))

instance (s w) : Decidable (WidthOk s w) := inferInstanceAs (Decidable (_ ∧ _))

theorem WidthOk.lt64 {w : Nat} : WidthOk true w → w < 64 := by
  rintro ⟨_, h | ⟨_, h⟩⟩
  · omega
  · cases h

/-! ## C01 -/

/-- C01 (arithmetic): `+`, `-`, `*` return the pattern congruent to the integer result. -/
theorem fold_arith {sgn : Bool} {w : Nat} (hw : WidthOk sgn w) {l r : U64} (hl : Fits w l)
    (hr : Fits w r) {op : BinOp} {f : Int → Int → Int} (hf : arith op = some f) :
    IsMod w (evalBin cpow l r op w sgn) (f (denote sgn w l) (denote sgn w r)) := by
  obtain ⟨h1, h2⟩ := hw
  have h64 : w ≤ 64 := by omega
  have dl : denote sgn w l % 2 ^ w = (l.toNat : Int) % 2 ^ w := denote_emod sgn w l
  have dr : denote sgn w r % 2 ^ w = (r.toNat : Int) % 2 ^ w := denote_emod sgn w r
  have e : ∃ x, evalBin cpow l r op w sgn = .ok (x &&& (MASK >>> (64 - w))) ∧
      (x.toNat : Int) % 2 ^ w = f (denote sgn w l) (denote sgn w r) % 2 ^ w := by
    have badd : ((l + r).toNat : Int) % 2 ^ w = (denote sgn w l + denote sgn w r) % 2 ^ w := by
      rw [add_int h64, Int.add_emod, ← dl, ← dr, ← Int.add_emod]
    have bsub : (((l - r) &&& (MASK >>> (64 - w))).toNat : Int) % 2 ^ w
        = (denote sgn w l - denote sgn w r) % 2 ^ w := by
      rw [mask_int h64, Int.emod_emod, sub_int h64, Int.sub_emod, ← dl, ← dr, ← Int.sub_emod]
    cases sgn with
    | false =>
      rw [evalBin_unsigned cpow h1 h64]
      cases op <;> simp only [arith, Option.some.injEq, reduceCtorEq] at hf <;> subst hf
      · exact ⟨_, rfl, badd⟩
      · exact ⟨_, rfl, bsub⟩
      · refine ⟨_, rfl, ?_⟩
        rw [mul_int h64, Int.mul_emod, ← dl, ← dr, ← Int.mul_emod]
    | true =>
      have hw63 : w < 64 := WidthOk.lt64 ⟨h1, h2⟩
      rw [evalBin_signed cpow h1 hw63]
      cases op <;> simp only [arith, Option.some.injEq, reduceCtorEq] at hf <;> subst hf
      · exact ⟨_, rfl, badd⟩
      · exact ⟨_, rfl, bsub⟩
      · simp only [binSwitch, BitVec.ofNat_eq_ofNat, signedBit_test h1 h64,
          twoComplement_ok h1 hw63]
        rw [denote_mag h1 h64 hl, denote_mag h1 h64 hr]
        generalize mag (decide (2 ^ (w - 1) ≤ l.toNat)) w l = a
        generalize mag (decide (2 ^ (w - 1) ≤ r.toNat)) w r = b
        generalize decide (2 ^ (w - 1) ≤ l.toNat) = ln
        generalize decide (2 ^ (w - 1) ≤ r.toNat) = rn
        cases ln <;> cases rn <;> refine ⟨_, rfl, ?_⟩ <;>
          simp only [if_true, if_false, neg_int h64, Int.emod_emod, Bool.false_eq_true,
            Int.neg_mul_neg, mul_int h64]
        · rw [Int.mul_neg]; exact neg_congr (mul_int h64 _ _)
        · rw [Int.neg_mul]; exact neg_congr (mul_int h64 _ _)
  obtain ⟨x, hx, hz⟩ := e
  exact ⟨_, hx, by rw [mask_int h64, hz]⟩


example : WidthOk true 8 ∧ Fits 8 0x80#64 ∧ Fits 8 0xff#64 ∧ arith .multiply = some (· * ·) := by
  exact ⟨by decide, by decide, by decide, rfl⟩

/-- C01 (bitwise): `&`, `|`, `^` act bit by bit and leave the bits above the width zero. -/
theorem fold_bitwise {sgn : Bool} {w : Nat} (hw : WidthOk sgn w) {l r : U64}
    {op : BinOp} {f : Bool → Bool → Bool} (hf : bitwise op = some f) :
    ∃ v, evalBin cpow l r op w sgn = .ok v ∧
      ∀ i, v.getLsbD i = (decide (i < w) && f (l.getLsbD i) (r.getLsbD i)) := by
  obtain ⟨h1, h2⟩ := hw
  have h64 : w ≤ 64 := by omega
  have e : ∃ x, evalBin cpow l r op w sgn = .ok (x &&& (MASK >>> (64 - w))) ∧
      ∀ i, i < 64 → x.getLsbD i = f (l.getLsbD i) (r.getLsbD i) := by
    cases sgn with
    | false =>
      rw [evalBin_unsigned cpow h1 h64]
      cases op <;> simp only [bitwise, Option.some.injEq, reduceCtorEq] at hf <;> subst hf <;>
        exact ⟨_, rfl, by intro i hi; simp⟩
    | true =>
      have hw63 : w < 64 := WidthOk.lt64 ⟨h1, h2⟩
      rw [evalBin_signed cpow h1 hw63]
      cases op <;> simp only [bitwise, Option.some.injEq, reduceCtorEq] at hf <;> subst hf <;>
        exact ⟨_, rfl, by intro i hi; simp⟩
  obtain ⟨x, hx, hb⟩ := e
  refine ⟨_, hx, ?_⟩
  intro i
  rw [and_mask h64, BitVec.getLsbD_setWidth, BitVec.getLsbD_setWidth]
  by_cases hi : i < w
  · simp [hi, hb i (by omega)]; omega
  · simp [hi]

example : WidthOk true 13 ∧ bitwise .xor = some Bool.xor := ⟨by decide, rfl⟩

/-- C01 (equality): `==` is 1 exactly when the denoted integers are equal. -/
theorem fold_eq {sgn : Bool} {w : Nat} (hw : WidthOk sgn w) {l r : U64} (hl : Fits w l)
    (hr : Fits w r) :
    IsBool (evalBin cpow l r .eq w sgn) (decide (denote sgn w l = denote sgn w r)) := by
  obtain ⟨h1, h2⟩ := hw
  have h64 : w ≤ 64 := by omega
  have hd : (l == r) = decide (denote sgn w l = denote sgn w r) := by
    rw [Bool.eq_iff_iff, beq_iff_eq, decide_eq_true_eq]
    constructor
    · rintro rfl; rfl
    · intro h
      have h3 := congrArg (· % (2 : Int) ^ w) h
      simp only [denote_emod] at h3
      unfold Fits at *
      rw [pow_cast, ← Int.natCast_emod, ← Int.natCast_emod, Nat.mod_eq_of_lt hl,
        Nat.mod_eq_of_lt hr] at h3
      exact BitVec.eq_of_toNat_eq (by omega)
  unfold IsBool
  rw [← hd]
  cases sgn with
  | false =>
    rw [evalBin_unsigned cpow h1 h64]
    simp only [binSwitch, Res.ok_bind, bool_mask h1 h64]; rfl
  | true =>
    have hw63 : w < 64 := WidthOk.lt64 ⟨h1, h2⟩
    rw [evalBin_signed cpow h1 hw63]
    simp only [binSwitch, Res.ok_bind, bool_mask h1 h64]; rfl

/-- C01 (range): whatever the operator, a normal result fits in `w` bits. -/
theorem fold_in_range {sgn : Bool} {w : Nat} (h1 : 1 ≤ w) (h2 : w ≤ 64) {l r : U64}
    {op : BinOp} {v : U64} (h : evalBin cpow l r op w sgn = .ok v) : Fits w v := by
  unfold evalBin at h
  simp only [Res.bind_def, Res.pure_def, shr_mask h1 h2] at h
  simp only [Res.ok_bind] at h
  have key : ∀ x : Res U64, x.bind (fun y => Res.ok (y &&& (MASK >>> (64 - w)))) = .ok v →
      Fits w v := by
    intro x hx
    obtain ⟨y, _, hy⟩ := Res.bind_eq_ok.1 hx
    cases hy
    unfold Fits; rw [and_mask_toNat h2]; exact Nat.mod_lt _ (Nat.two_pow_pos w)
  obtain ⟨a, _, h⟩ := Res.bind_eq_ok.1 h
  obtain ⟨b, _, h⟩ := Res.bind_eq_ok.1 h
  obtain ⟨c, _, h⟩ := Res.bind_eq_ok.1 h
  obtain ⟨d, _, h⟩ := Res.bind_eq_ok.1 h
  obtain ⟨e, _, h⟩ := Res.bind_eq_ok.1 h
  exact key _ h

example : evalBin (fun _ _ => .ub) 200#64 100#64 .add 8 false = .ok 44#64 := by decide

/-- C01 (limit of the code): a negative signed 64-bit operand makes `eval_bin_op` shift by 64,
which is undefined behaviour, for every operator. -/
theorem fold_signed_64_ub {l r : U64} (op : BinOp) (h : 2 ^ 63 ≤ l.toNat ∨ 2 ^ 63 ≤ r.toNat) :
    evalBin cpow l r op 64 true = .ub := by
  have t : ∀ v, twoComplement v 64 = .ub := by
    intro v; unfold twoComplement invert shl; rfl
  have e : u32sub 64 1 = 63 := by decide
  have st := fun v => sign_test (w := 64) (by omega) (by omega) v
  simp only [Nat.reduceSub] at st
  unfold evalBin signShift magnitude
  simp only [Res.bind_def, Res.pure_def, if_true, e, shr_ok (show 63 < 64 by omega), Res.ok_bind,
    BitVec.ofNat_eq_ofNat, st, t]
  by_cases hl : 2 ^ 63 ≤ l.toNat
  · simp [hl]
  · have hr : 2 ^ 63 ≤ r.toNat := by omega
    simp [hl, hr]

example : (2 : Nat) ^ 63 ≤ (BitVec.allOnes 64).toNat := by decide

/-! ## C02 -/

/-- The full property C02: every relational operator returns the truth value of the integer
comparison.  It is false of the code, see `fold_order_counterexample`. -/
def FoldOrderCorrect : Prop :=
  ∀ (sgn : Bool) (w : Nat) (l r : U64) (op : BinOp) (f : Int → Int → Bool),
    WidthOk sgn w → Fits w l → Fits w r → order op = some f →
    IsBool (evalBin cpow l r op w sgn) (f (denote sgn w l) (denote sgn w r))

/-- C02 is false: `-1 <= -1` on signed 8-bit operands evaluates to 0. -/
theorem fold_order_counterexample : ¬ FoldOrderCorrect cpow := by
  intro h
  have h1 := h true 8 0xff#64 0xff#64 .le _ (by decide) (by decide) (by decide) rfl
  revert h1
  unfold IsBool
  simp only [evalBin_signed cpow (show 1 ≤ 8 by omega) (show 8 < 64 by omega), binSwitch]
  decide

/-- C02, the part that holds: every comparison is right except two equal negative operands. -/
theorem fold_order_partial {sgn : Bool} {w : Nat} (hw : WidthOk sgn w) {l r : U64}
    (hl : Fits w l) (hr : Fits w r) {op : BinOp} {f : Int → Int → Bool} (hf : order op = some f)
    (hne : op = .eq ∨ ¬ (l = r ∧ denote sgn w l < 0)) :
    IsBool (evalBin cpow l r op w sgn) (f (denote sgn w l) (denote sgn w r)) := by
  by_cases hop : op = .eq
  · subst hop
    simp only [order, Option.some.injEq] at hf; subst hf
    exact fold_eq cpow hw hl hr
  have hne : ¬ (l = r ∧ denote sgn w l < 0) := by rcases hne with h | h <;> simp_all
  obtain ⟨h1, h2⟩ := hw
  have h64 : w ≤ 64 := by omega
  unfold IsBool
  cases sgn with
  | false =>
    rw [evalBin_unsigned cpow h1 h64]
    have d : ∀ v, denote false w v = v.toNat := by intro v; simp [denote]
    cases op <;> simp only [order, Option.some.injEq, reduceCtorEq] at hf <;> subst hf <;>
      first
      | exact absurd rfl hop
      | (simp only [binSwitch, Res.ok_bind, bool_mask h1 h64, d, relational]
         simp [b2u, BitVec.le_def, BitVec.lt_def])
  | true =>
    have hw63 : w < 64 := WidthOk.lt64 ⟨h1, h2⟩
    rw [evalBin_signed cpow h1 hw63]
    have el := denote_mag h1 h64 hl
    have er := denote_mag h1 h64 hr
    have zl : (mag (decide (2 ^ (w - 1) ≤ l.toNat)) w l).toNat = 0 → ¬ 2 ^ (w - 1) ≤ l.toNat := by
      rw [mag_toNat h1 h64 hl]; unfold denote Fits at *; rw [pow_cast]
      intro h h3; simp only [h3, and_self, if_true] at h; omega
    have zr : (mag (decide (2 ^ (w - 1) ≤ r.toNat)) w r).toNat = 0 → ¬ 2 ^ (w - 1) ≤ r.toNat := by
      rw [mag_toNat h1 h64 hr]; unfold denote Fits at *; rw [pow_cast]
      intro h h3; simp only [h3, and_self, if_true] at h; omega
    have hinj : denote true w l = denote true w r → l = r := by
      intro h
      have h3 := congrArg (· % (2 : Int) ^ w) h
      simp only [denote_emod] at h3
      unfold Fits at *
      rw [pow_cast, ← Int.natCast_emod, ← Int.natCast_emod, Nat.mod_eq_of_lt hl,
        Nat.mod_eq_of_lt hr] at h3
      exact BitVec.eq_of_toNat_eq (by omega)
    have hne' : denote true w l = denote true w r → ¬ denote true w l < 0 :=
      fun h hlt => hne ⟨hinj h, hlt⟩
    clear hne hinj
    cases op <;> simp only [order, Option.some.injEq, reduceCtorEq] at hf <;> subst hf
    · exact absurd rfl hop
    all_goals
      simp only [binSwitch, Res.ok_bind, bool_mask h1 h64]
      rw [el, er] at hne' ⊢
      revert zl zr hne'
      generalize mag (decide (2 ^ (w - 1) ≤ l.toNat)) w l = a
      generalize mag (decide (2 ^ (w - 1) ≤ r.toNat)) w r = b
      intro zl zr hne
      have za : decide (2 ^ (w - 1) ≤ l.toNat) = true → a.toNat ≠ 0 :=
        fun h3 h4 => zl h4 (of_decide_eq_true h3)
      have zb : decide (2 ^ (w - 1) ≤ r.toNat) = true → b.toNat ≠ 0 :=
        fun h3 h4 => zr h4 (of_decide_eq_true h3)
      first
      | rw [rel_lt _ _ a b za zb hne]
      | rw [rel_le _ _ a b za zb hne]
      | rw [rel_gt _ _ a b za zb hne]
      | rw [rel_ge _ _ a b za zb hne]
      rfl

example : WidthOk true 8 ∧ Fits 8 0xfe#64 ∧ Fits 8 0xff#64 ∧
    ¬ (0xfe#64 = 0xff#64 ∧ denote true 8 0xfe#64 < 0) := by decide

/-- C02, the excluded case exactly: on two equal negative operands all four order operators
return the negation of the right answer. -/
theorem fold_order_equal_negatives {w : Nat} (hw : WidthOk true w) {v : U64} (hv : Fits w v)
    (hneg : denote true w v < 0) {op : BinOp} {f : Int → Int → Bool} (hf : order op = some f)
    (hop : op ≠ .eq) :
    IsBool (evalBin cpow v v op w true) (! f (denote true w v) (denote true w v)) := by
  have hw63 := WidthOk.lt64 hw
  obtain ⟨h1, h2⟩ := hw
  have h64 : w ≤ 64 := by omega
  have hn : 2 ^ (w - 1) ≤ v.toNat := by
    unfold denote at hneg; by_cases h : 2 ^ (w - 1) ≤ v.toNat
    · exact h
    · simp [h] at hneg; omega
  unfold IsBool
  rw [evalBin_signed cpow h1 hw63]
  cases op <;> simp only [order, Option.some.injEq, reduceCtorEq] at hf <;> subst hf
  · exact absurd rfl hop
  all_goals
    simp only [binSwitch, Res.ok_bind, bool_mask h1 h64]
    simp [hn, relational, b2u]

example : WidthOk true 4 ∧ Fits 4 0xf#64 ∧ denote true 4 0xf#64 < 0 ∧ BinOp.ge ≠ .eq := by decide

/-! ## C03 -/

/-- C03 (division): truncation toward zero on the denoted integers, for every non-zero divisor. -/
theorem fold_divide {sgn : Bool} {w : Nat} (hw : WidthOk sgn w) {l r : U64} (hl : Fits w l)
    (hr : Fits w r) (h0 : r ≠ 0#64) :
    IsMod w (evalBin cpow l r .divide w sgn) (Int.tdiv (denote sgn w l) (denote sgn w r)) := by
  obtain ⟨h1, h2⟩ := hw
  have h64 : w ≤ 64 := by omega
  cases sgn with
  | false =>
    rw [evalBin_unsigned cpow h1 h64]
    have d : ∀ v, denote false w v = v.toNat := by intro v; simp [denote]
    refine ⟨(l / r) &&& (MASK >>> (64 - w)), ?_, ?_⟩
    · simp [binSwitch, h0]
    · rw [mask_int h64, d, d, BitVec.toNat_udiv]; simp
  | true =>
    have hw63 : w < 64 := WidthOk.lt64 ⟨h1, h2⟩
    rw [evalBin_signed cpow h1 hw63]
    have hm0 : mag (decide (2 ^ (w - 1) ≤ r.toNat)) w r ≠ 0#64 := by
      intro h
      have h3 := congrArg BitVec.toNat h
      rw [mag_toNat h1 h64 hr] at h3
      unfold denote Fits at *
      rw [pow_cast] at h3
      have : r.toNat ≠ 0 := fun h4 => h0 (BitVec.eq_of_toNat_eq (by simpa using h4))
      simp only [BitVec.toNat_ofNat, Nat.zero_mod] at h3
      split at h3 <;> omega
    rw [denote_mag h1 h64 hl, denote_mag h1 h64 hr]
    simp only [binSwitch, BitVec.ofNat_eq_ofNat, signedBit_test h1 h64, twoComplement_ok h1 hw63]
    revert hm0
    generalize mag (decide (2 ^ (w - 1) ≤ l.toNat)) w l = a
    generalize mag (decide (2 ^ (w - 1) ≤ r.toNat)) w r = b
    intro hm0
    have hb : (b == 0#64) = false := by simpa using hm0
    generalize decide (2 ^ (w - 1) ≤ l.toNat) = ln
    generalize decide (2 ^ (w - 1) ≤ r.toNat) = rn
    simp only [hb]
    cases ln <;> cases rn <;> refine ⟨_, rfl, ?_⟩ <;>
      simp only [mask_int h64, neg_int h64, if_true, if_false, Int.neg_tdiv, Int.tdiv_neg,
        Bool.false_eq_true, Int.neg_neg, BitVec.toNat_udiv] <;> simp

example : WidthOk true 8 ∧ Fits 8 0x80#64 ∧ Fits 8 0xff#64 ∧ (0xff#64 : U64) ≠ 0#64 := by decide

/-- C03 (division by zero) is undefined behaviour of the evaluator. -/
theorem fold_divide_zero_ub {w : Nat} (h1 : 1 ≤ w) (h2 : w ≤ 64) (l : U64) :
    evalBin cpow l 0#64 .divide w false = .ub := by
  rw [evalBin_unsigned cpow h1 h2]; rfl

/-- C03 (`>>`): shifts in zeros, for every shift amount below 64; larger amounts are undefined. -/
theorem fold_lshr {sgn : Bool} {w : Nat} (hw : WidthOk sgn w) {l r : U64} (hl : Fits w l) :
    (r.toNat < 64 → ∃ v, evalBin cpow l r .lshr w sgn = .ok v ∧
      v.toNat = l.toNat / 2 ^ r.toNat) ∧
    (64 ≤ r.toNat → evalBin cpow l r .lshr w sgn = .ub) := by
  obtain ⟨h1, h2⟩ := hw
  have h64 : w ≤ 64 := by omega
  have e : evalBin cpow l r .lshr w sgn = Res.bind (shr l r.toNat)
      (fun x => .ok (x &&& (MASK >>> (64 - w)))) := by
    cases sgn with
    | false => rw [evalBin_unsigned cpow h1 h64]; rfl
    | true => rw [evalBin_signed cpow h1 (WidthOk.lt64 ⟨h1, h2⟩)]; rfl
  rw [e]
  constructor
  · intro h
    rw [shr_ok h]
    refine ⟨_, rfl, ?_⟩
    rw [and_mask_toNat h64, BitVec.toNat_ushiftRight, Nat.shiftRight_eq_div_pow]
    apply Nat.mod_eq_of_lt
    exact Nat.lt_of_le_of_lt (Nat.div_le_self _ _) hl
  · intro h
    unfold shr; rw [if_neg (by omega)]; rfl

example : WidthOk true 8 ∧ Fits 8 0xf0#64 := by decide

/-- The full property for `>>>`: floor division of the denoted integer by a power of two. -/
def FoldSshrCorrect : Prop :=
  ∀ (sgn : Bool) (w : Nat) (l r : U64), WidthOk sgn w → Fits w l → Fits w r → r.toNat < w →
    IsMod w (evalBin cpow l r .sshr w sgn) (denote sgn w l / 2 ^ r.toNat)

/-- C03 is false for `>>>`: signed 8-bit `-4 >>> 1` does not evaluate to `-2`. -/
theorem fold_sshr_counterexample : ¬ FoldSshrCorrect cpow := by
  intro h
  obtain ⟨v, h1, h2⟩ := h true 8 0xfc#64 1#64 (by decide) (by decide) (by decide) (by decide)
  have e : evalBin cpow 0xfc#64 1#64 .sshr 8 true = .ok 0xc2#64 := by
    simp only [evalBin_signed cpow (show 1 ≤ 8 by omega) (show 8 < 64 by omega), binSwitch]
    decide
  rw [e] at h1
  cases h1
  revert h2
  decide

/-- C03 (`>>>`, the part that holds): a non-negative operand, any amount below 64. -/
theorem fold_sshr_partial {sgn : Bool} {w : Nat} (hw : WidthOk sgn w) {l r : U64} (hl : Fits w l)
    (hn : 0 ≤ denote sgn w l) (hr : r.toNat < 64) :
    IsMod w (evalBin cpow l r .sshr w sgn) (denote sgn w l / 2 ^ r.toNat) := by
  obtain ⟨h1, h2⟩ := hw
  have h64 : w ≤ 64 := by omega
  have d : denote sgn w l = l.toNat := by
    unfold denote Fits at *
    split at hn
    · rw [pow_cast] at hn; omega
    · rename_i h; simp [h]
  have e : evalBin cpow l r .sshr w sgn = .ok ((l >>> r.toNat) &&& (MASK >>> (64 - w))) := by
    cases sgn with
    | false =>
      rw [evalBin_unsigned cpow h1 h64]; simp [binSwitch, shr_ok hr]
    | true =>
      have hneg : ¬ 2 ^ (w - 1) ≤ l.toNat := by
        intro h; unfold denote Fits at *; simp only [h, and_self, if_true, pow_cast] at d
        have := Nat.two_pow_pos w; omega
      rw [evalBin_signed cpow h1 (WidthOk.lt64 ⟨h1, h2⟩)]
      simp [binSwitch, hneg, mag, shr_ok hr]
  refine ⟨_, e, ?_⟩
  rw [mask_int h64, d, BitVec.toNat_ushiftRight, Nat.shiftRight_eq_div_pow]; simp

example : WidthOk true 8 ∧ Fits 8 0x7c#64 ∧ 0 ≤ denote true 8 0x7c#64 := by decide

/-! ## C04 -/

/-- C04 (`~`): complements the low `w` bits and keeps the rest zero. -/
theorem fold_invert {w : Nat} (h1 : 1 ≤ w) (h2 : w ≤ 63) {v : U64} (hv : Fits w v) :
    ∃ x, evalUnary v .invert w = .ok x ∧ x.toNat = 2 ^ w - 1 - v.toNat := by
  refine ⟨_, invert_ok (by omega) v, ?_⟩
  have e : (~~~ v) ^^^ (MASK <<< w) = ((~~~ (v.setWidth w)).setWidth 64) := by
    apply BitVec.eq_of_getLsbD_eq
    intro i hi
    rw [BitVec.getLsbD_xor, BitVec.getLsbD_not, BitVec.getLsbD_shiftLeft, BitVec.getLsbD_setWidth,
      BitVec.getLsbD_not, BitVec.getLsbD_setWidth]
    by_cases h : i < w
    · simp [h, hi]
    · have : v.getLsbD i = false := getLsbD_fits hv (by omega)
      have h3 : i - w < 64 := by omega
      rw [this, MASK, BitVec.getLsbD_allOnes]
      simp [h, hi, h3]
  rw [e, BitVec.toNat_setWidth, BitVec.toNat_not, BitVec.toNat_setWidth, Nat.mod_eq_of_lt hv]
  unfold Fits at hv
  have := two_pow_le_64 (show w ≤ 64 by omega)
  exact Nat.mod_eq_of_lt (by omega)

example : (1 : Nat) ≤ 5 ∧ 5 ≤ 63 ∧ Fits 5 0b10110#64 := by decide

/-- C04 (unary `-`): two's-complement negation. -/
theorem fold_negate {w : Nat} (h1 : 1 ≤ w) (h2 : w ≤ 63) (v : U64) :
    IsMod w (evalUnary v .minus w) (-(v.toNat : Int)) :=
  ⟨_, twoComplement_ok h1 (by omega) v, neg_int (by omega) v⟩

/-- C04 (64-bit `~` and unary `-`) shift by 64: undefined behaviour. -/
theorem fold_invert_64_ub (v : U64) :
    evalUnary v .invert 64 = .ub ∧ evalUnary v .minus 64 = .ub := by
  constructor <;> rfl

/-- C04 (`+`, `!` and reduction `|`), every width. -/
theorem fold_plus_not_or {w : Nat} {v : U64} (hv : Fits w v) :
    evalUnary v .plus w = .ok v ∧
    IsBool (evalUnary v .not w) (decide (v.toNat = 0)) ∧
    IsBool (evalUnary v .or w) (decide (∃ i, i < w ∧ v.getLsbD i = true)) := by
  have hz : (v = 0#64) ↔ v.toNat = 0 := by
    constructor
    · rintro rfl; rfl
    · intro h; exact BitVec.eq_of_toNat_eq (by simpa using h)
  refine ⟨rfl, ?_, ?_⟩
  · unfold IsBool evalUnary b2u
    simp [hz]
  · unfold IsBool evalUnary b2u
    have : (∃ i, i < w ∧ v.getLsbD i = true) ↔ v ≠ 0#64 := by
      constructor
      · rintro ⟨i, _, h⟩ rfl; simp at h
      · intro h
        apply Classical.byContradiction
        intro h3
        apply h
        apply BitVec.eq_of_getLsbD_eq
        intro i hi
        by_cases hw : i < w
        · cases hb : v.getLsbD i
          · simp
          · exact absurd ⟨i, hw, hb⟩ h3
        · rw [getLsbD_fits hv (by omega)]; simp
    simp only [this]
    by_cases h0 : v = 0#64 <;> simp [h0]

example : Fits 40 (1#64 <<< 39) := by decide

/-- The full property for the reductions `&` and `^`. -/
def FoldReduceCorrect : Prop :=
  ∀ (w : Nat) (v : U64), 1 ≤ w → w ≤ 64 → Fits w v →
    IsBool (evalUnary v .and w) (decide (∀ i, i < w → v.getLsbD i = true)) ∧
    IsBool (evalUnary v .xor w)
      ((List.range w).foldl (fun acc i => Bool.xor acc (v.getLsbD i)) false)

/-- C04 is false: `&` over 33 ones evaluates to 0 (a 32-bit popcount is used). -/
theorem fold_reduce_counterexample : ¬ FoldReduceCorrect := by
  intro h
  have h1 := (h 33 (BitVec.ofNat 64 (2 ^ 33 - 1)) (by decide) (by decide) (by decide)).1
  have e : evalUnary (BitVec.ofNat 64 (2 ^ 33 - 1)) .and 33 = .ok 0#64 := by decide +kernel
  unfold IsBool at h1
  rw [e] at h1
  have hall : ∀ i, i < 33 → (BitVec.ofNat 64 (2 ^ 33 - 1)).getLsbD i = true := by
    intro i hi
    rw [BitVec.getLsbD_ofNat, Nat.testBit_two_pow_sub_one]
    simp; omega
  rw [decide_eq_true hall] at h1
  cases h1

/-- C04 (reductions `&`, `^`; the part that holds): widths up to 32. -/
theorem fold_reduce_partial {w : Nat} (_h1 : 1 ≤ w) (h2 : w ≤ 32) {v : U64} (hv : Fits w v) :
    IsBool (evalUnary v .and w) (decide (∀ i, i < w → v.getLsbD i = true)) ∧
    IsBool (evalUnary v .xor w)
      ((List.range w).foldl (fun acc i => Bool.xor acc (v.getLsbD i)) false) := by
  constructor
  · unfold IsBool evalUnary b2u
    rw [popcount32_fits h2 hv]
    have : ((List.range w).filter (fun i => v.getLsbD i)).length = w ↔
        ∀ i, i < w → v.getLsbD i = true := by
      have h := List.length_filter_eq_length_iff (l := List.range w) (p := fun i => v.getLsbD i)
      simp only [List.length_range, List.mem_range] at h
      exact h
    by_cases hc : ∀ i, i < w → v.getLsbD i = true
    · simp [this.2 hc]; exact hc
    · have h3 : ¬ ((List.range w).filter (fun i => v.getLsbD i)).length = w := fun h => hc (this.1 h)
      simp only [beq_iff_eq, h3, if_false, hc, decide_false]
      rfl
  · unfold IsBool evalUnary
    rw [popcount32_fits h2 hv, parity_foldl _ (fun i => v.getLsbD i)]
    simp only [Bool.false_bne, decide_eq_true_eq]
    split
    · rename_i h; rw [h]
    · rename_i h; rw [show (List.filter (fun i => v.getLsbD i) (List.range w)).length % 2 = 0 by omega]

example : (1 : Nat) ≤ 32 ∧ Fits 32 (BitVec.ofNat 64 (2 ^ 32 - 1)) := by decide

/-- C04 (reduction `&` above 32 bits): always evaluates to 0, whatever the operand. -/
theorem fold_reduce_and_wide {w : Nat} (h : 32 < w) (v : U64) :
    evalUnary v .and w = .ok 0#64 := by
  unfold evalUnary b2u
  have := popcount32_le v
  have h3 : (popcount32 v == w) = false := by simp; omega
  rw [h3]; rfl

example : (32 : Nat) < 40 := by decide

/-- The conditional operator selects an operand and truncates it. -/
theorem fold_ternary {w : Nat} (h1 : 1 ≤ w) (h2 : w ≤ 64) (p : Bool) (l r : U64) :
    ∃ v, evalTernary p l r w = .ok v ∧ v.toNat = (if p then l.toNat else r.toNat) % 2 ^ w := by
  unfold evalTernary
  simp only [Res.bind_def, Res.pure_def, shr_mask h1 h2, Res.ok_bind]
  refine ⟨_, rfl, ?_⟩
  rw [and_mask_toNat h2]
  cases p <;> rfl

/-- Setting a simulated variable truncates the value to the variable's width
(src/sim.cc:565, 585). -/
theorem truncate_mod {w : Nat} (h1 : 1 ≤ w) (h2 : w ≤ 64) (x : U64) :
    ∃ v, truncate x w = .ok v ∧ v.toNat = x.toNat % 2 ^ w := by
  unfold truncate
  simp only [Res.bind_def, Res.pure_def, shr_mask h1 h2, Res.ok_bind]
  exact ⟨_, rfl, and_mask_toNat h2 x⟩

example : (1 : Nat) ≤ 64 ∧ (64 : Nat) ≤ 64 := by decide

end Kratos.Eval
