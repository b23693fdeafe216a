import Verif.Const.Spec
import Verif.Eval.Lemmas
import Verif.Ir.Semantics

/-!
# Property theorems: constants (C05) and their text (C06)
-/

namespace Kratos.Const
open Kratos.Eval
open Kratos.Text

theorem toInt_lt (v : U64) : v.toInt < 2 ^ 63 := by
  have := BitVec.toInt_lt (x := v); simpa using this
theorem le_toInt (v : U64) : -(2 ^ 63) ≤ v.toInt := by
  have := BitVec.le_toInt (x := v); simpa using this

theorem toInt_minmask {w : Nat} (h1 : 1 ≤ w) (h2 : w ≤ 64) :
    (MASK <<< (w - 1)).toInt = -(2 ^ (w - 1)) := by
  unfold MASK
  have : w - 1 < 64 := by omega
  generalize w - 1 = k at this
  revert k
  decide

theorem toInt_maxmask {w : Nat} (h1 : 1 ≤ w) (h2 : w ≤ 64) :
    ((1#64 <<< (w - 1)) - 1#64).toInt = 2 ^ (w - 1) - 1 := by
  have : w - 1 < 64 := by omega
  generalize w - 1 = k at this
  revert k
  decide

theorem toNat_maxmask {w : Nat} (h2 : w < 64) :
    ((1#64 <<< w) - 1#64).toNat = 2 ^ w - 1 := by
  revert w
  decide

/-- The legality test decides representability. -/
theorem isLegal_iff {w : Nat} (h1 : 1 ≤ w) (h2 : w ≤ 64) (sgn : Bool) (v : U64) :
    ∃ r, isLegal v w sgn = .ok r ∧ (r = .legal ↔ Representable sgn w (number sgn v)) ∧
      (w = 64 → r ≠ .big) := by
  unfold isLegal Representable number
  cases sgn with
  | true =>
    have hu : u32sub w 1 = w - 1 := u32sub_one h1 h2
    simp only [if_true, hu, shl_ok (show w - 1 < 64 by omega), Res.ok_bind, BitVec.slt_iff_toInt_lt,
      toInt_minmask h1 h2, toInt_maxmask h1 h2, decide_eq_true_eq]
    have hl := toInt_lt v
    split
    · exact ⟨_, rfl, by simp; omega, by simp⟩
    · split
      · refine ⟨_, rfl, by simp; omega, ?_⟩
        intro hw; subst hw; simp at *; omega
      · exact ⟨_, rfl, by simp; omega, by simp⟩
  | false =>
    have hlt := v.isLt
    by_cases hw : w = 64
    · subst hw
      simp only [Bool.false_eq_true, if_false, if_true, Res.ok_bind]
      have : ¬ MASK < v := by
        rw [BitVec.lt_def]; unfold MASK; simp; omega
      simp only [this, if_false]
      exact ⟨_, rfl, by simp; omega, by simp⟩
    · have hw' : w < 64 := by omega
      have hp := Nat.two_pow_pos w
      have hc : ((2:Int) ^ w) = ((2 ^ w : Nat) : Int) := by simp
      simp only [Bool.false_eq_true, if_false, hw, shl_ok hw', Res.ok_bind, BitVec.lt_def]
      have : ((1#64 <<< w) - 1#64).toNat = 2 ^ w - 1 := toNat_maxmask hw'
      split
      · rename_i h
        refine ⟨_, rfl, ?_, by simp [hw]⟩
        rw [this] at h
        simp
        omega
      · rename_i h
        refine ⟨_, rfl, ?_, by simp⟩
        rw [this] at h
        simp
        omega

/-- C05, first half: for widths up to 64 `constant(value, width, signed)` is accepted exactly
when the value is representable, and otherwise throws. -/
theorem const_create_exact {w : Nat} (h1 : 1 ≤ w) (h2 : w ≤ 64) (sgn : Bool) (v : U64) :
    (Representable sgn w (number sgn v) → create v w sgn = .ok ⟨v, w, sgn⟩) ∧
    (¬ Representable sgn w (number sgn v) → create v w sgn = .throw .user) := by
  obtain ⟨r, hr, hiff, hbig⟩ := isLegal_iff h1 h2 sgn v
  unfold create
  simp only [show w ≠ 0 by omega, if_false, hr, Res.ok_bind]
  cases r with
  | legal => simp_all
  | small => simp_all
  | big =>
    have : w ≠ 64 := fun h => hbig h rfl
    simp_all [shl_ok (show w < 64 by omega)]

example : Representable true 4 (number true (BitVec.ofInt 64 (-8))) ∧
    ¬ Representable true 4 (number true (BitVec.ofInt 64 (-9))) ∧
    Representable false 64 (number false (BitVec.ofInt 64 (-1))) := by decide +kernel

/-- Wider constants make the test shift by 64 or more. -/
theorem const_wide_ub {w : Nat} (h : 64 < w) (h32 : w < 2 ^ 32) (sgn : Bool) (v : U64) :
    create v w sgn = .ub := by
  have hu : ¬ u32sub w 1 < 64 := by
    have e : (w + 2 ^ 32 - 1) % 2 ^ 32 = w - 1 := by omega
    unfold u32sub; rw [e]; omega
  have hs : ∀ x, Eval.shl x (u32sub w 1) = .ub := fun x => if_neg hu
  have hw : ∀ x, Eval.shl x w = .ub := fun x => if_neg (show ¬ w < 64 by omega)
  have hl : isLegal v w sgn = .ub := by
    unfold isLegal
    cases sgn with
    | true => rw [if_pos rfl, hs]; rfl
    | false =>
      rw [if_neg (by decide), if_neg (by omega), hw]; rfl
  unfold create
  rw [if_neg (by omega), hl]; rfl

example : create 0 128 false = .ub := const_wide_ub (by decide +kernel) (by decide +kernel) _ _

/-- C05, full claim over every kind of call on a constant object: a constant that was created
stays representable whatever is called on it (widths within 1..64). -/
def ConstInvariant (allowed : Op → Prop) : Prop :=
  ∀ (v : U64) (w : Nat) (sgn : Bool) (c : KConst) (ops : List Op) (c' : KConst),
    1 ≤ w → w ≤ 64 → create v w sgn = .ok c → (∀ o ∈ ops, allowed o) → run c ops = some c' →
    Representable c'.sgn c'.width (number c'.sgn c'.value)

/-- The checked mutators. -/
def Checked : Op → Prop
  | .setValue _ => True
  | .setWidth w => 1 ≤ w ∧ w ≤ 64
  | .rawWidth _ => False
  | .rawSigned _ => False

theorem step_inv (c : KConst) (o : Op) (ho : Checked o) (c' : KConst) (h1 : 1 ≤ c.width)
    (h2 : c.width ≤ 64) (hrep : Representable c.sgn c.width (number c.sgn c.value))
    (h : step c o = some c') : 1 ≤ c'.width ∧ c'.width ≤ 64 ∧
      Representable c'.sgn c'.width (number c'.sgn c'.value) := by
  cases o with
  | setValue v =>
    obtain ⟨r, hr, hiff, _⟩ := isLegal_iff h1 h2 c.sgn v
    simp only [step, setValue, hr, Res.ok_bind] at h
    by_cases hl : r = .legal
    · rw [if_pos hl] at h
      cases h
      exact ⟨h1, h2, hiff.1 hl⟩
    · rw [if_neg hl] at h
      cases h
      exact ⟨h1, h2, hrep⟩
  | setWidth w =>
    obtain ⟨r, hr, hiff, _⟩ := isLegal_iff ho.1 ho.2 c.sgn c.value
    simp only [step, setWidth, hr, Res.ok_bind] at h
    by_cases hl : r = .legal
    · rw [if_pos hl] at h
      cases h
      exact ⟨ho.1, ho.2, hiff.1 hl⟩
    · rw [if_neg hl] at h
      cases h
      exact ⟨h1, h2, hrep⟩
  | rawWidth w => exact ho.elim
  | rawSigned w => exact ho.elim

theorem run_inv : ∀ (ops : List Op) (c c' : KConst), 1 ≤ c.width → c.width ≤ 64 →
    Representable c.sgn c.width (number c.sgn c.value) → (∀ o ∈ ops, Checked o) →
    run c ops = some c' → Representable c'.sgn c'.width (number c'.sgn c'.value)
  | [], c, c', _, _, hrep, _, h => by cases h; exact hrep
  | o :: os, c, c', h1, h2, hrep, ho, h => by
      simp only [run] at h
      cases hs : step c o with
      | none => rw [hs] at h; cases h
      | some c1 =>
        rw [hs] at h
        obtain ⟨a, b, d⟩ := step_inv c o (ho o (by simp)) c1 h1 h2 hrep hs
        exact run_inv os c1 c' a b d (fun o h => ho o (by simp [h])) h

/-- C05, second half: any history of `set_value` and `set_width` calls (accepted or rejected)
leaves the constant representable. -/
theorem const_history_partial : ConstInvariant Checked := by
  intro v w sgn c ops c' h1 h2 hc ho hr
  obtain ⟨hy, hn⟩ := const_create_exact h1 h2 sgn v
  by_cases hrep : Representable sgn w (number sgn v)
  · rw [hy hrep] at hc
    cases hc
    exact run_inv ops ⟨v, w, sgn⟩ c' h1 h2 hrep ho hr
  · rw [hn hrep] at hc; cases hc

/-- None of those calls is undefined. -/
theorem const_history_defined : ∀ (ops : List Op) (c : KConst), 1 ≤ c.width → c.width ≤ 64 →
    Representable c.sgn c.width (number c.sgn c.value) → (∀ o ∈ ops, Checked o) →
    (run c ops).isSome
  | [], _, _, _, _, _ => rfl
  | o :: os, c, h1, h2, hrep, ho => by
      have hs : ∃ c1, step c o = some c1 := by
        have := ho o (by simp)
        cases o with
        | setValue v =>
          obtain ⟨r, hr, _⟩ := isLegal_iff h1 h2 c.sgn v
          simp only [step, setValue, hr, Res.ok_bind]
          by_cases hl : r = .legal <;> simp [hl]
        | setWidth w =>
          obtain ⟨r, hr, _⟩ := isLegal_iff this.1 this.2 c.sgn c.value
          simp only [step, setWidth, hr, Res.ok_bind]
          by_cases hl : r = .legal <;> simp [hl]
        | rawWidth w => exact this.elim
        | rawSigned w => exact this.elim
      obtain ⟨c1, hs⟩ := hs
      obtain ⟨a, b, d⟩ := step_inv c o (ho o (by simp)) c1 h1 h2 hrep hs
      simp only [run, hs]
      exact const_history_defined os c1 a b d (fun o h => ho o (by simp [h]))

/-- A history with an accepted and a rejected call of each kind. -/
example : run ⟨3, 4, true⟩ [.setValue (BitVec.ofInt 64 (-8)), .setValue 8, .setWidth 3, .setWidth 9]
    = some ⟨BitVec.ofInt 64 (-8), 9, true⟩ := by decide +kernel

/-- The unchecked Python properties break the claim: shrink the width of the constant 8. -/
theorem const_history_counterexample_width : ¬ ConstInvariant (fun _ => True) := by
  intro h
  have := h 8 4 false ⟨8, 4, false⟩ [.rawWidth 2] ⟨8, 2, false⟩ (by decide +kernel) (by decide +kernel) (by decide +kernel)
    (by simp) rfl
  revert this; decide +kernel

/-- … or make the unsigned constant 8 signed. -/
theorem const_history_counterexample_signed :
    ¬ ConstInvariant (fun o => ∃ s, o = .rawSigned s) := by
  intro h
  have := h 8 4 false ⟨8, 4, false⟩ [.rawSigned true] ⟨8, 4, true⟩ (by decide +kernel) (by decide +kernel) (by decide +kernel)
    (by simp) rfl
  revert this; decide +kernel

/-- `set_value(std::string)` confuses bits and bytes: it rejects every string of two or more
characters, even when the constant is 64 bits wide. -/
theorem const_string_counterexample (c : KConst) (a b : Nat) (s : List Nat) :
    setString c (a :: b :: s) = .throw .var := by
  unfold setString
  have : (a :: b :: s).length * 8 > 8 := by simp only [List.length_cons]; omega
  simp only [this, if_true]

/-! ### C06 -/

theorem digit_quote : (digitVal 10 '\'').isSome = false := by decide +kernel
theorem digit_dash : ∀ b, b = 10 ∨ b = 16 → (digitVal b '-').isSome = false := by
  rintro _ (rfl | rfl) <;> decide +kernel

theorem readLit_print {w : Nat} (hw : 0 < w) {hs : List Char} {v : Nat}
    (h : readNat 16 hs = some v) :
    readLit (printNat 10 w ++ '\'' :: 'h' :: hs) = some (w, v % 2 ^ w) := by
  unfold readLit
  rw [takeDigits_append 10 _ _ (printNat_digits (Or.inl rfl) w)
    (by intro c hc; simp at hc; subst hc; exact digit_quote)]
  simp only [readNat_printNat (Or.inl rfl) w, h, show w ≠ 0 by omega, if_false]

theorem readSigned_print {w : Nat} (hw : 0 < w) {hs : List Char} {v : Nat}
    (h : readNat 16 hs = some v) :
    readSigned (printNat 10 w ++ '\'' :: 'h' :: hs) = some (w, v % 2 ^ w) := by
  have hl := readLit_print hw h
  cases hp : printNat 10 w with
  | nil => exact absurd hp (printNat_ne_nil _ _)
  | cons c cs =>
    have hc : (digitVal 10 c).isSome := printNat_digits (Or.inl rfl) w c (by simp [hp])
    rw [hp] at hl
    simp only [List.cons_append] at hl ⊢
    unfold readSigned
    split
    · rename_i e
      cases e
      rw [digit_dash 10 (.inl rfl)] at hc
      cases hc
    · exact hl

/-- The full claim of C06: the printed literal denotes the bits of the constant, at its width
(as a Verilog expression with an optional unary minus). -/
def ConstTextCorrect : Prop :=
  ∀ c : KConst, 1 ≤ c.width → c.width ≤ 64 →
    Representable c.sgn c.width (number c.sgn c.value) →
    ∃ t, toText c = .ok t ∧ readSigned t = some (c.width, Ir.pattern c.width (number c.sgn c.value))

theorem slt_zero (v : U64) : v.slt 0 = true ↔ 2 ^ 63 ≤ v.toNat := by
  have := v.isLt
  rw [BitVec.slt_iff_toInt_lt, BitVec.toInt_eq_toNat_cond]
  simp
  omega

theorem hexInt_nonneg {v : U64} (h : v.toNat < 2 ^ 63) : hexInt v = printNat 16 v.toNat := by
  unfold hexInt
  have : ¬ v.slt 0 = true := by rw [slt_zero]; omega
  simp only [this]
  simp

/-- C06 for every constant except the smallest signed 64-bit one and the unsigned 64-bit
constants with the top bit set. -/
theorem const_text_partial (c : KConst) (h1 : 1 ≤ c.width)
    (hrep : Representable c.sgn c.width (number c.sgn c.value))
    (hs : c.sgn = true → c.value ≠ BitVec.intMin 64)
    (hu : c.sgn = false → c.value.toNat < 2 ^ 63) :
    ∃ t, toText c = .ok t ∧
      readSigned t = some (c.width, Ir.pattern c.width (number c.sgn c.value)) := by
  obtain ⟨v, w, sgn⟩ := c
  simp only at *
  have hv := v.isLt
  by_cases hneg : sgn = true ∧ v.slt 0 = true
  · obtain ⟨rfl, hn⟩ := hneg
    have hm := hs rfl
    have hn' := (slt_zero v).1 hn
    have hne : v.toNat ≠ 2 ^ 63 := by
      intro e; apply hm; apply BitVec.eq_of_toNat_eq; rw [e]; rfl
    have hnegv : (-v).toNat = 2 ^ 64 - v.toNat := by
      rw [BitVec.toNat_neg]; omega
    refine ⟨'-' :: (printNat 10 w ++ '\'' :: 'h' :: hexInt (-v)), ?_, ?_⟩
    · unfold toText
      simp only [hn, Bool.and_self, if_true, hm, if_false]
    · unfold readSigned
      rw [hexInt_nonneg (by omega)]
      simp only [readLit_print h1 (readNat_printNat (Or.inr rfl) _), hnegv]
      unfold Ir.pattern number Representable at *
      have hc : ((2:Int) ^ w) = ((2 ^ w : Nat) : Int) := by simp
      have hti : v.toInt = (v.toNat : Int) - 2 ^ 64 := by
        rw [BitVec.toInt_eq_toNat_cond]; simp; omega
      simp only [if_true, hti, hc] at *
      have hp := Nat.two_pow_pos w
      have hpw : 2 ^ w = 2 * 2 ^ (w - 1) := pow_split h1
      have hc1 : ((2:Int) ^ (w-1)) = ((2 ^ (w-1) : Nat) : Int) := by simp
      rw [hc1] at hrep
      have hlt : 2 ^ 64 - v.toNat < 2 ^ w := by omega
      rw [Nat.mod_eq_of_lt hlt, Nat.mod_eq_of_lt (by omega)]
      have : ((v.toNat : Int) - 2 ^ 64) % ((2 ^ w : Nat) : Int) = (v.toNat : Int) - 2 ^ 64 + ((2 ^ w : Nat) : Int) := by
        rw [← Int.add_emod_right, Int.emod_eq_of_lt] <;> omega
      rw [this]
      congr 2
      omega
  · have hlt : v.toNat < 2 ^ 63 := by
      cases sgn with
      | false => exact hu rfl
      | true =>
        have : ¬ v.slt 0 = true := fun h => hneg ⟨rfl, h⟩
        rw [slt_zero] at this
        omega
    refine ⟨printNat 10 w ++ '\'' :: 'h' :: hexInt v, ?_, ?_⟩
    · unfold toText
      have : (sgn && v.slt 0) = false := by
        cases sgn <;> simp_all
      simp only [this, Bool.false_eq_true, if_false]
    · rw [hexInt_nonneg hlt, readSigned_print h1 (readNat_printNat (Or.inr rfl) _)]
      unfold Ir.pattern number
      have hc : ((2:Int) ^ w) = ((2 ^ w : Nat) : Int) := by simp
      have hti : v.toInt = (v.toNat : Int) := by
        rw [BitVec.toInt_eq_toNat_cond]; simp; omega
      cases sgn <;> simp only [hti, if_true, Bool.false_eq_true, if_false, hc] <;>
        rw [← Int.natCast_emod, Int.toNat_natCast]

/-- Hypotheses hold for `-3` in 4 bits; its text is `-4'h3`. -/
example : toText ⟨BitVec.ofInt 64 (-3), 4, true⟩ = .ok "-4'h3".toList ∧
    readSigned "-4'h3".toList = some (4, 13) ∧
    Representable true 4 (number true (BitVec.ofInt 64 (-3))) := by decide +kernel

/-- Unsigned 64-bit constants with the top bit set are printed with a minus sign inside the
literal, `64'h-1`, which is not a literal. -/
theorem const_text_counterexample_unsigned : ¬ ConstTextCorrect := by
  intro h
  obtain ⟨t, ht, hr⟩ := h ⟨BitVec.allOnes 64, 64, false⟩ (by decide +kernel) (by decide +kernel) (by decide +kernel)
  have : toText ⟨BitVec.allOnes 64, 64, false⟩ = .ok "64'h-1".toList := by decide +kernel
  rw [this] at ht
  cases ht
  revert hr
  decide +kernel

/-- Printing the smallest signed 64-bit constant negates it: undefined. -/
theorem const_text_counterexample_min : ¬ ConstTextCorrect := by
  intro h
  obtain ⟨t, ht, hr⟩ := h ⟨BitVec.intMin 64, 64, true⟩ (by decide +kernel) (by decide +kernel) (by decide +kernel)
  have : toText ⟨BitVec.intMin 64, 64, true⟩ = .ub := by decide +kernel
  rw [this] at ht
  cases ht

/-- The bits agree, the number does not: a sized literal without `s` is unsigned, so the text of
`-1` denotes 255 wherever its value (not its bits) matters. -/
theorem const_text_unsigned_literal :
    toText ⟨BitVec.ofInt 64 (-1), 8, true⟩ = .ok "-8'h1".toList ∧
    (readSigned "-8'h1".toList).map (fun p => (p.2 : Int)) = some 255 ∧
    number true (BitVec.ofInt 64 (-1)) = -1 := by decide +kernel

theorem readAux_isSome (b : Nat) : ∀ (cs : List Char) (a : Nat),
    (∀ c ∈ cs, (digitVal b c).isSome) → (readAux b a cs).isSome
  | [], _, _ => rfl
  | c :: cs, a, h => by
      have h0 := h c (by simp)
      simp only [readAux]
      cases hd : digitVal b c with
      | none => rw [hd] at h0; cases h0
      | some d => exact readAux_isSome b cs _ (fun c hc => h c (by simp [hc]))

/-- Big constants: an accepted, non-empty hexadecimal string is read back as its positional
value at the given width. -/
theorem big_text {w : Nat} (hw : 0 < w) (hex : List Char) (hne : hex ≠ [])
    (hacc : bigAccepted hex = true) (neg : Bool) :
    ∃ v, readNat 16 hex = some v ∧
      readSigned (bigText neg w hex) =
        some (w, Ir.pattern w (if neg then -(v % 2 ^ w : Nat) else (v : Int))) := by
  have hall : ∀ c ∈ hex, (digitVal 16 c).isSome := by
    unfold bigAccepted at hacc; simpa using hacc
  have hsome : (readNat 16 hex).isSome := by
    cases hex with
    | nil => exact absurd rfl hne
    | cons c cs => exact readAux_isSome 16 _ _ hall
  obtain ⟨v, hv⟩ := Option.isSome_iff_exists.1 hsome
  refine ⟨v, hv, ?_⟩
  have hc : ((2:Int) ^ w) = ((2 ^ w : Nat) : Int) := by simp
  have hp := Nat.two_pow_pos w
  unfold bigText Ir.pattern
  cases neg with
  | false =>
    simp only [Bool.false_eq_true, if_false, List.nil_append, readSigned_print hw hv, hc]
    rw [← Int.natCast_emod, Int.toNat_natCast]
  | true =>
    simp only [if_true, List.cons_append, List.nil_append, readSigned, readLit_print hw hv, hc]
    congr 2
    have hlt : v % 2 ^ w < 2 ^ w := Nat.mod_lt _ hp
    by_cases h0 : v % 2 ^ w = 0
    · simp [h0]
    · rw [Nat.mod_eq_of_lt (by omega)]
      have : (-((v % 2 ^ w : Nat) : Int)) % ((2 ^ w : Nat) : Int) = ((2 ^ w : Nat) : Int) - (v % 2 ^ w : Nat) := by
        rw [← Int.add_emod_right, Int.emod_eq_of_lt] <;> omega
      rw [this]; omega

example : bigAccepted "DEADBEEFDEADBEEFDEADBEEF".toList = true ∧ "DEADBEEFDEADBEEFDEADBEEF".toList ≠ [] := by
  decide +kernel

end Kratos.Const
