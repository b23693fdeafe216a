import Verif.Sim.Model

/-! The value the simulator computes for an expression, against the SystemVerilog meaning. -/

namespace Kratos.Sim

open Kratos.Ir Kratos.Eval

/-- The expressions the simulator gets right (see the counterexamples in `Verif.Sim.Static` for the
rest): widths up to 63, constants in range, single-bit selects of the lowest or highest bit of a
variable, no reduction `&`/`^`, unary minus, power or replication. -/
def Good (W : VarId → Nat) : Expr → Prop
  | .var v w => w = W v ∧ 1 ≤ w ∧ w ≤ 63
  | .const w c => 1 ≤ w ∧ w ≤ 63 ∧ 0 ≤ c ∧ c < 2 ^ w
  | .slice (.var v w) hi lo => (w = W v ∧ 1 ≤ w ∧ w ≤ 63) ∧ hi = lo ∧ hi < w ∧ (hi = 0 ∨ hi + 1 = w)
  | .slice _ _ _ => False
  | .un op e => Good W e ∧ (op = .invert ∨ op = .plus ∨ op = .or ∨ op = .not)
  | .bin op l r => Good W l ∧ Good W r ∧ l.width = r.width ∧ op ≠ .power
  | .cond p l r => Good W p ∧ Good W l ∧ Good W r ∧ l.width = r.width
  | .concat l r => Good W l ∧ Good W r ∧ l.width + r.width ≤ 63
  | .extend w e => Good W e ∧ e.width ≤ w ∧ w ≤ 63
  | .dup _ _ => False

theorem Good.width {W : VarId → Nat} : ∀ {e : Expr}, Good W e → 1 ≤ e.width ∧ e.width ≤ 63
  | .var _ _, h => ⟨h.2.1, h.2.2⟩
  | .const _ _, h => ⟨h.1, h.2.1⟩
  | .slice (.var _ w) hi lo, h => by
      simp only [Good] at h; simp only [Expr.width]; omega
  | .slice (.const _ _) _ _, h => by simp [Good] at h
  | .slice (.slice _ _ _) _ _, h => by simp [Good] at h
  | .slice (.un _ _) _ _, h => by simp [Good] at h
  | .slice (.bin _ _ _) _ _, h => by simp [Good] at h
  | .slice (.cond _ _ _) _ _, h => by simp [Good] at h
  | .slice (.concat _ _) _ _, h => by simp [Good] at h
  | .slice (.extend _ _) _ _, h => by simp [Good] at h
  | .slice (.dup _ _) _ _, h => by simp [Good] at h
  | .un op e, h => by
      have := Good.width h.1
      simp only [Expr.width]; split <;> omega
  | .bin op l r, h => by
      have := Good.width h.1
      simp only [Expr.width]; split <;> omega
  | .cond p l r, h => by
      have := Good.width h.2.1
      simpa [Expr.width] using this
  | .concat l r, h => by
      have := Good.width h.1
      have := Good.width h.2.1
      simp only [Good] at h
      simp only [Expr.width]; omega
  | .extend w e, h => by
      have := Good.width h.1
      simp only [Good] at h
      simp only [Expr.width]; omega
  | .dup _ _, h => by simp [Good] at h

theorem chl_single (w b : Nat) (hb : b < 2 ^ 32) :
    Slice.computeHighLow ⟨w, [1], false⟩ [(b, b)] = .ok (b, b) := by
  have e : Slice.u32 b = b := Nat.mod_eq_of_lt hb
  simp [Slice.computeHighLow, Slice.simRangeOob, Slice.simLoop, Slice.simRest, e]

theorem not_mask {n : Nat} (h : n < 64) (v : U64) :
    (v &&& ~~~ (MASK <<< n)).toNat = v.toNat % 2 ^ n := by
  have : v &&& ~~~ (MASK <<< n) = (v.setWidth n).setWidth 64 := by
    apply BitVec.eq_of_getLsbD_eq
    intro i hi
    simp only [BitVec.getLsbD_and, BitVec.getLsbD_not, BitVec.getLsbD_shiftLeft,
      BitVec.getLsbD_setWidth, MASK, BitVec.getLsbD_allOnes, hi, decide_true, Bool.true_and]
    by_cases h3 : i < n
    · simp [h3]
    · simp [h3]; omega
  rw [this, BitVec.toNat_setWidth, BitVec.toNat_setWidth]
  apply Nat.mod_eq_of_lt
  have h1 : v.toNat % 2 ^ n < 2 ^ n := Nat.mod_lt _ (Nat.two_pow_pos n)
  have := two_pow_le_64 (show n ≤ 64 by omega)
  omega

/-- Reading a single bit: the bit and everything up to as many bits above it as it has below. -/
theorem readSlice_bit {w b : Nat} (hb : b < w) (hw : w ≤ 63) (v : U64) :
    ∃ x, readSlice w [(b, b)] v = .ok x ∧ x.toNat = v.toNat / 2 ^ b % 2 ^ (b + 1) := by
  unfold readSlice
  rw [chl_single w b (by omega)]
  simp only [Res.ok_bind]
  rw [if_neg (by omega), if_neg (by simp [Nat.div_eq_of_lt hb])]
  rw [Nat.mod_eq_of_lt hb, shr_ok (by omega), Res.ok_bind, shl_ok (by omega), Res.ok_bind]
  refine ⟨_, rfl, ?_⟩
  rw [not_mask (by omega), BitVec.toNat_ushiftRight, Nat.shiftRight_eq_div_pow]

theorem b2u_toNat (b : Bool) : (b2u b).toNat = b2n b := by cases b <;> rfl

theorem sem_bool_lt (b : Bool) : b2n b < 2 ^ 1 := by cases b <;> decide

/-- `eval_bin_op` on unsigned operands of equal width, called with the width of the result. -/
theorem evalBin_nat (cpow : U64 → U64 → Res U64) {op : Ir.BinOp} (hop : op ≠ .power) {w : Nat} (h1 : 1 ≤ w)
    (h2 : w ≤ 63) {a b v : U64} (ha : a.toNat < 2 ^ w) (hb : b.toNat < 2 ^ w)
    (h : evalBin cpow a b (evBin op) (if op.isBool then 1 else w) false = .ok v) :
    v.toNat = op.sem w a.toNat b.toNat ∧ v.toNat < 2 ^ (if op.isBool then 1 else w) := by
  have h64 : w ≤ 64 := by omega
  have hr := fold_in_range cpow (w := if op.isBool then 1 else w) (by split <;> omega)
    (by split <;> omega) h
  refine ⟨?_, hr⟩
  rw [evalBin_unsigned cpow (by split <;> omega) (by split <;> omega)] at h
  have mk : ∀ x : U64, Res.ok (x &&& (MASK >>> (64 - w))) = Res.ok v → v.toNat = x.toNat % 2 ^ w := by
    intro x hx; injection hx with hx; rw [← hx, and_mask_toNat h64]
  have mb : ∀ c : Bool, Res.ok (b2u c &&& (MASK >>> (64 - 1))) = Res.ok v → v.toNat = b2n c := by
    intro c hx
    injection hx with hx
    rw [← hx, bool_mask (by omega) (by omega), b2u_toNat]
  have pw : 2 ^ w ≤ 2 ^ 64 := two_pow_le_64 h64
  have dvd : 2 ^ w ∣ 2 ^ 64 := Nat.pow_dvd_pow 2 h64
  cases op with
  | power => exact absurd rfl hop
  | add =>
    simp only [evBin, binSwitch, Res.ok_bind, Ir.BinOp.isBool, Bool.false_eq_true, if_false] at h
    rw [mk _ h, BitVec.toNat_add, Nat.mod_mod_of_dvd _ dvd]; rfl
  | minus =>
    simp only [evBin, binSwitch, Res.ok_bind, Ir.BinOp.isBool, Bool.false_eq_true, if_false] at h
    rw [mk _ h, and_mask_toNat h64, Nat.mod_mod, BitVec.toNat_sub, Nat.mod_mod_of_dvd _ dvd]
    simp only [Ir.BinOp.sem]
    rw [Nat.mod_eq_of_lt hb]
    obtain ⟨k, hk⟩ := dvd
    have : 2 ^ 64 - b.toNat + a.toNat = a.toNat + (2 ^ w - b.toNat) + 2 ^ w * (k - 1) := by
      cases k with
      | zero => simp at hk
      | succ j =>
        rw [Nat.mul_succ] at hk
        simp only [Nat.add_sub_cancel]
        omega
    rw [this, Nat.add_mul_mod_self_left]
  | multiply =>
    simp only [evBin, binSwitch, Res.ok_bind, Ir.BinOp.isBool, Bool.false_eq_true, if_false] at h
    simp only [bne_self_eq_false, Bool.false_eq_true, if_false, BitVec.ofNat_eq_ofNat, Res.ok_bind] at h
    rw [mk _ h, BitVec.toNat_mul, Nat.mod_mod_of_dvd _ dvd]; rfl
  | divide =>
    simp only [evBin, binSwitch, Ir.BinOp.isBool, Bool.false_eq_true, if_false] at h
    split at h
    · cases h
    · simp only [BitVec.ofNat_eq_ofNat, bne_self_eq_false, Bool.false_eq_true, if_false, Res.ok_bind] at h
      rw [mk _ h, BitVec.toNat_udiv, Nat.mod_eq_of_lt]
      · rfl
      · exact Nat.lt_of_le_of_lt (Nat.div_le_self _ _) ha
  | mod => simp [evBin, binSwitch] at h
  | neq => simp [evBin, binSwitch] at h
  | shl => simp [evBin, binSwitch] at h
  | land => simp [evBin, binSwitch] at h
  | lor => simp [evBin, binSwitch] at h
  | lshr =>
    simp only [evBin, binSwitch, Ir.BinOp.isBool, Bool.false_eq_true, if_false, Res.bind_eq_ok] at h
    obtain ⟨x, hx, h⟩ := h
    unfold shr at hx
    split at hx
    · injection hx with hx
      subst hx
      rw [mk _ h, BitVec.toNat_ushiftRight, Nat.shiftRight_eq_div_pow, Nat.mod_eq_of_lt]
      · rfl
      · exact Nat.lt_of_le_of_lt (Nat.div_le_self _ _) ha
    · cases hx
  | sshr =>
    simp only [evBin, binSwitch, Ir.BinOp.isBool, Bool.false_eq_true, if_false, Res.bind_eq_ok,
      Res.bind_def] at h
    obtain ⟨x, ⟨y, hy, hx⟩, h⟩ := h
    unfold shr at hy
    split at hy
    · injection hy with hy
      injection hx with hx
      subst hx; subst hy
      rw [mk _ h, BitVec.toNat_ushiftRight, Nat.shiftRight_eq_div_pow, Nat.mod_eq_of_lt]
      · rfl
      · exact Nat.lt_of_le_of_lt (Nat.div_le_self _ _) ha
    · cases hy
  | or =>
    simp only [evBin, binSwitch, Res.ok_bind, Ir.BinOp.isBool, Bool.false_eq_true, if_false] at h
    rw [mk _ h, BitVec.toNat_or, Nat.mod_eq_of_lt]
    · rfl
    · exact Nat.or_lt_two_pow ha hb
  | and =>
    simp only [evBin, binSwitch, Res.ok_bind, Ir.BinOp.isBool, Bool.false_eq_true, if_false] at h
    rw [mk _ h, BitVec.toNat_and, Nat.mod_eq_of_lt]
    · rfl
    · exact Nat.and_lt_two_pow _ hb
  | xor =>
    simp only [evBin, binSwitch, Res.ok_bind, Ir.BinOp.isBool, Bool.false_eq_true, if_false] at h
    rw [mk _ h, BitVec.toNat_xor, Nat.mod_eq_of_lt]
    · rfl
    · exact Nat.xor_lt_two_pow ha hb
  | eq =>
    simp only [evBin, binSwitch, Res.ok_bind, Ir.BinOp.isBool, if_true] at h
    rw [mb _ h]
    simp only [Ir.BinOp.sem]
    congr 1
    rw [Bool.eq_iff_iff]; simp [BitVec.toNat_eq]
  | lt =>
    simp only [evBin, binSwitch, Res.ok_bind, Ir.BinOp.isBool, if_true] at h
    rw [mb _ h]
    simp [Ir.BinOp.sem, relational, BitVec.lt_def]
  | gt =>
    simp only [evBin, binSwitch, Res.ok_bind, Ir.BinOp.isBool, if_true] at h
    rw [mb _ h]
    simp [Ir.BinOp.sem, relational, BitVec.lt_def]
  | le =>
    simp only [evBin, binSwitch, Res.ok_bind, Ir.BinOp.isBool, if_true] at h
    rw [mb _ h]
    simp [Ir.BinOp.sem, relational, BitVec.le_def]
  | ge =>
    simp only [evBin, binSwitch, Res.ok_bind, Ir.BinOp.isBool, if_true] at h
    rw [mb _ h]
    simp [Ir.BinOp.sem, relational, BitVec.le_def]

/-- `eval_unary_op` on the operators the simulator applies. -/
theorem evalUn_nat {op : Ir.UnOp} (hop : op = .invert ∨ op = .plus ∨ op = .or ∨ op = .not) {w : Nat} (h1 : 1 ≤ w)
    (h2 : w ≤ 63) {a v : U64} (ha : a.toNat < 2 ^ w)
    (h : evalUnary a (evUn op) (if op.isBool then 1 else w) = .ok v) :
    v.toNat = op.sem w a.toNat ∧ v.toNat < 2 ^ (if op.isBool then 1 else w) := by
  rcases hop with rfl | rfl | rfl | rfl
  · simp only [evUn, Ir.UnOp.isBool, Bool.false_eq_true, if_false] at h ⊢
    obtain ⟨x, hx, hn⟩ := fold_invert h1 h2 ha
    rw [hx] at h
    injection h with h
    subst h
    refine ⟨hn, ?_⟩
    have := Nat.two_pow_pos w
    omega
  · simp only [evUn, evalUnary, Ir.UnOp.isBool, Bool.false_eq_true, if_false, Res.ok.injEq] at h ⊢
    subst h
    exact ⟨rfl, ha⟩
  · simp only [evUn, evalUnary, Ir.UnOp.isBool, if_true, Res.ok.injEq] at h ⊢
    subst h
    rw [b2u_toNat]
    refine ⟨?_, sem_bool_lt _⟩
    simp only [Ir.UnOp.sem]
    congr 1
    rw [Bool.eq_iff_iff]; simp [BitVec.toNat_eq]
  · simp only [evUn, evalUnary, Ir.UnOp.isBool, if_true, Res.ok.injEq] at h ⊢
    subst h
    rw [b2u_toNat]
    refine ⟨?_, sem_bool_lt _⟩
    simp only [Ir.UnOp.sem]
    congr 1
    rw [Bool.eq_iff_iff]; simp [BitVec.toNat_eq]

/-- The simulator's values hold the store, on the variables `e` reads. -/
def Holds (vals : Vals) (σ : Store) (e : Expr) : Prop :=
  ∀ x, e.reads x = true → ∃ u, vals x = some u ∧ u.toNat = σ x

/-- What is proved of a node in the two modes. -/
structure Right (cpow : U64 → U64 → Res U64) (vals : Vals) (σ : Store) (e : Expr) : Prop where
  known : simE cpow vals .value e ≠ .ok none
  value : ∀ v, simE cpow vals .value e = .ok (some v) → v.toNat = e.eval σ ∧ e.eval σ < 2 ^ e.width
  spineKnown : ∀ acc sh, simE cpow vals (.spine acc sh) e ≠ .ok none
  spine : ∀ (acc : U64) sh x, acc.toNat < 2 ^ sh → sh + e.width ≤ 63 →
    simE cpow vals (.spine acc sh) e = .ok (some x) → x.toNat = acc.toNat + e.eval σ * 2 ^ sh ∧
      e.eval σ < 2 ^ e.width

theorem Right.of_value {cpow : U64 → U64 → Res U64} {vals : Vals} {σ : Store} {e : Expr}
    (hs : ∀ acc sh, simE cpow vals (.spine acc sh) e = finish (.spine acc sh) (simE cpow vals .value e))
    (hk : simE cpow vals .value e ≠ .ok none)
    (hv : ∀ v, simE cpow vals .value e = .ok (some v) → v.toNat = e.eval σ ∧ e.eval σ < 2 ^ e.width) :
    Right cpow vals σ e := by
  refine ⟨hk, hv, ?_, ?_⟩
  · intro acc sh h
    rw [hs] at h
    simp only [finish, Res.bind_eq_ok] at h
    obtain ⟨a, ha, h⟩ := h
    cases a with
    | none => exact hk ha
    | some v =>
      simp only [Res.bind_eq_ok] at h
      obtain ⟨_, _, h⟩ := h
      cases h
  · intro acc sh x hacc hsh h
    rw [hs] at h
    simp only [finish, Res.bind_eq_ok] at h
    obtain ⟨a, ha, h⟩ := h
    cases a with
    | none => exact absurd ha hk
    | some v =>
      obtain ⟨h1, h2⟩ := hv v ha
      simp only [concatStep, Res.bind_eq_ok] at h
      obtain ⟨b, ⟨c, hc, hb⟩, h⟩ := h
      injection h with h; injection h with h; subst h
      injection hb with hb; subst hb
      rw [shl_ok (by omega)] at hc
      injection hc with hc; subst hc
      refine ⟨?_, h2⟩
      have hlt : v.toNat * 2 ^ sh < 2 ^ 64 := by
        have : v.toNat * 2 ^ sh < 2 ^ e.width * 2 ^ sh :=
          Nat.mul_lt_mul_of_pos_right (by omega) (Nat.two_pow_pos sh)
        rw [← Nat.pow_add] at this
        exact Nat.lt_of_lt_of_le this (Nat.pow_le_pow_right (by omega) (by omega))
      rw [BitVec.toNat_or, BitVec.toNat_shiftLeft, Nat.shiftLeft_eq, Nat.mod_eq_of_lt hlt, h1]
      rw [Nat.or_comm, Nat.mul_comm, ← Nat.two_pow_add_eq_or_of_lt hacc]
      omega

theorem sim_right (cpow : U64 → U64 → Res U64) (W : VarId → Nat) (vals : Vals) (σ : Store)
    (hσ : ∀ x, σ x < 2 ^ W x) : ∀ e, Good W e → Holds vals σ e → Right cpow vals σ e
  | .var v w, hg, hh => by
    obtain ⟨u, hu, hn⟩ := hh v (by simp [Expr.reads])
    have hl : σ v < 2 ^ w := by rw [hg.1]; exact hσ v
    refine .of_value (fun _ _ => rfl) ?_ ?_
    · simp [simE, finish, hu]
    · intro x hx
      simp only [simE, finish, hu, Res.ok.injEq, Option.some.injEq] at hx
      subst hx
      simp only [Expr.eval, Expr.width, Nat.mod_eq_of_lt hl]
      exact ⟨hn, hl⟩
  | .const w c, hg, _ => by
    obtain ⟨h1, h2, h3, h4⟩ := hg
    refine .of_value (fun _ _ => rfl) (by simp [simE, finish]) ?_
    intro x hx
    simp only [simE, finish, Res.ok.injEq, Option.some.injEq] at hx
    subst hx
    obtain ⟨n, rfl⟩ : ∃ n : Nat, c = n := ⟨c.toNat, by omega⟩
    have hn : n < 2 ^ w := by exact_mod_cast h4
    have hp := two_pow_le_64 (show w ≤ 64 by omega)
    have e1 : pattern w (n : Int) = n := by
      unfold pattern
      rw [pow_cast, ← Int.natCast_emod, Nat.mod_eq_of_lt hn]; rfl
    simp only [Expr.eval, Expr.width, e1]
    refine ⟨?_, hn⟩
    rw [BitVec.ofInt_natCast, BitVec.toNat_ofNat, Nat.mod_eq_of_lt (by omega)]
  | .slice (.var v w) hi lo, hg, hh => by
    obtain ⟨⟨hw, h1, h2⟩, he, hlt, hb⟩ := hg
    subst he
    obtain ⟨u, hu, hn⟩ := hh v (by simp [Expr.reads])
    have hl : σ v < 2 ^ w := by rw [hw]; exact hσ v
    obtain ⟨x, hx, hxn⟩ := readSlice_bit hlt h2 u
    have hval : simE cpow vals .value (.slice (.var v w) hi hi) = .ok (some x) := by
      simp [simE, finish, hu, chain, rootWidth, Expr.width, hx]
    refine .of_value (fun _ _ => rfl) (by rw [hval]; simp) ?_
    intro y hy
    rw [hval] at hy
    injection hy with hy; injection hy with hy; subst hy
    simp only [Expr.eval, Expr.width, Nat.sub_self, Nat.zero_add, Nat.mod_eq_of_lt hl]
    refine ⟨?_, Nat.mod_lt _ (by decide)⟩
    rw [hxn, hn]
    rcases hb with rfl | hb
    · rfl
    · have : σ v / 2 ^ hi < 2 := by
        rw [Nat.div_lt_iff_lt_mul (Nat.two_pow_pos _)]
        have e : 2 * 2 ^ hi = 2 ^ w := by rw [← hb, Nat.pow_succ, Nat.mul_comm]
        omega
      rw [Nat.mod_eq_of_lt (a := σ v / 2 ^ hi) (b := 2 ^ (hi + 1)), Nat.mod_eq_of_lt (b := 2 ^ 1)]
      · exact this
      · have : 2 ^ 1 ≤ 2 ^ (hi + 1) := Nat.pow_le_pow_right (by omega) (by omega)
        omega
  | .slice (.const _ _) _ _, hg, _ => by simp [Good] at hg
  | .slice (.slice _ _ _) _ _, hg, _ => by simp [Good] at hg
  | .slice (.un _ _) _ _, hg, _ => by simp [Good] at hg
  | .slice (.bin _ _ _) _ _, hg, _ => by simp [Good] at hg
  | .slice (.cond _ _ _) _ _, hg, _ => by simp [Good] at hg
  | .slice (.concat _ _) _ _, hg, _ => by simp [Good] at hg
  | .slice (.extend _ _) _ _, hg, _ => by simp [Good] at hg
  | .slice (.dup _ _) _ _, hg, _ => by simp [Good] at hg
  | .dup _ _, hg, _ => by simp [Good] at hg
  | .un op e, hg, hh => by
    obtain ⟨hge, hop⟩ := hg
    have ih := sim_right cpow W vals σ hσ e hge (fun x hx => hh x (by simpa [Expr.reads] using hx))
    have hu : isUnary op = true := by rcases hop with rfl | rfl | rfl | rfl <;> rfl
    refine .of_value (fun _ _ => rfl) ?_ ?_
    · intro h
      simp only [simE, finish, Res.bind_eq_ok] at h
      obtain ⟨a, ha, h⟩ := h
      cases a with
      | none => exact ih.known ha
      | some v =>
        simp only [hu, if_true, Res.bind_eq_ok] at h
        obtain ⟨_, _, h⟩ := h
        cases h
    · intro x h
      simp only [simE, finish, Res.bind_eq_ok] at h
      obtain ⟨a, ha, h⟩ := h
      cases a with
      | none => exact absurd ha ih.known
      | some v =>
        simp only [hu, if_true, Res.bind_eq_ok] at h
        obtain ⟨y, hy, h⟩ := h
        injection h with h; injection h with h; subst h
        obtain ⟨hv1, hv2⟩ := ih.value v ha
        have hw := hge.width
        have := evalUn_nat (a := v) hop hw.1 hw.2 (by omega) hy
        simp only [Expr.eval, Expr.width]
        rw [← hv1]
        exact ⟨this.1, this.1 ▸ this.2⟩
  | .bin op l r, hg, hh => by
    obtain ⟨hgl, hgr, hw, hop⟩ := hg
    have ihl := sim_right cpow W vals σ hσ l hgl (fun x hx => hh x (by simp [Expr.reads, hx]))
    have ihr := sim_right cpow W vals σ hσ r hgr (fun x hx => hh x (by simp [Expr.reads, hx]))
    refine .of_value (fun _ _ => rfl) ?_ ?_
    · intro h
      simp only [simE, finish, Res.bind_eq_ok] at h
      obtain ⟨a, ha, h⟩ := h
      cases a with
      | none => exact ihl.known ha
      | some v =>
        simp only [Res.bind_eq_ok] at h
        obtain ⟨b, hb, h⟩ := h
        cases b with
        | none => exact ihr.known hb
        | some u =>
          simp only [Res.bind_eq_ok] at h
          obtain ⟨_, _, h⟩ := h
          cases h
    · intro x h
      simp only [simE, finish, Res.bind_eq_ok] at h
      obtain ⟨a, ha, h⟩ := h
      cases a with
      | none => exact absurd ha ihl.known
      | some v =>
        simp only [Res.bind_eq_ok] at h
        obtain ⟨b, hb, h⟩ := h
        cases b with
        | none => exact absurd hb ihr.known
        | some u =>
          simp only [Res.bind_eq_ok] at h
          obtain ⟨y, hy, h⟩ := h
          injection h with h; injection h with h; subst h
          obtain ⟨hv1, hv2⟩ := ihl.value v ha
          obtain ⟨hu1, hu2⟩ := ihr.value u hb
          have hwl := hgl.width
          have := evalBin_nat cpow (a := v) (b := u) hop hwl.1 hwl.2 (by omega) (by rw [hw]; omega) hy
          simp only [Expr.eval, Expr.width]
          rw [← hv1, ← hu1]
          exact ⟨this.1, this.1 ▸ this.2⟩
  | .cond p l r, hg, hh => by
    obtain ⟨hgp, hgl, hgr, hw⟩ := hg
    have ihp := sim_right cpow W vals σ hσ p hgp (fun x hx => hh x (by simp [Expr.reads, hx]))
    have ihl := sim_right cpow W vals σ hσ l hgl (fun x hx => hh x (by simp [Expr.reads, hx]))
    have ihr := sim_right cpow W vals σ hσ r hgr (fun x hx => hh x (by simp [Expr.reads, hx]))
    have hwl := hgl.width
    have key : ∀ o, simE cpow vals .value (.cond p l r) = .ok o →
        ∃ x, o = some x ∧ x.toNat = (Expr.cond p l r).eval σ ∧ (Expr.cond p l r).eval σ < 2 ^ (Expr.cond p l r).width := by
      intro o h
      simp only [simE, finish, Res.bind_eq_ok] at h
      obtain ⟨a, ha, h⟩ := h
      cases a with
      | none => exact absurd ha ihl.known
      | some v =>
        simp only [Res.bind_eq_ok] at h
        obtain ⟨b, hb, c, hc, h⟩ := h
        cases b with
        | none => exact absurd hb ihr.known
        | some u =>
          cases c with
          | none => exact absurd hc ihp.known
          | some q =>
            simp only [condResult, Res.bind_eq_ok] at h
            obtain ⟨x, hx, h⟩ := h
            injection h with h
            obtain ⟨y, hy, hyn⟩ := fold_ternary (w := (Expr.cond p l r).width) hwl.1
              (Nat.le_trans hwl.2 (by omega)) (q != 0) v u
            rw [hy] at hx
            injection hx with hx; subst hx
            refine ⟨y, h.symm, ?_⟩
            obtain ⟨hv1, hv2⟩ := ihl.value v ha
            obtain ⟨hu1, hu2⟩ := ihr.value u hb
            obtain ⟨hq1, hq2⟩ := ihp.value q hc
            have hq : (q != 0) = true ↔ p.eval σ ≠ 0 := by
              rw [← hq1]; simp [BitVec.toNat_eq]
            have e : (if (q != 0) = true then v.toNat else u.toNat) = (Expr.cond p l r).eval σ := by
              simp only [Expr.eval]
              by_cases hz : p.eval σ ≠ 0
              · rw [if_pos (hq.2 hz), if_pos hz, hv1]
              · rw [if_neg (fun hh => hz (hq.1 hh)), if_neg hz, hu1]
            have hlt : (Expr.cond p l r).eval σ < 2 ^ (Expr.cond p l r).width := by
              simp only [Expr.eval, Expr.width]
              split
              · exact hv2
              · rw [hw]; exact hu2
            rw [hyn, e, Nat.mod_eq_of_lt hlt]
            exact ⟨rfl, hlt⟩
    refine .of_value (fun _ _ => rfl) ?_ ?_
    · intro h
      obtain ⟨x, hx, _⟩ := key _ h
      cases hx
    · intro v h
      obtain ⟨x, hx, h2⟩ := key _ h
      injection hx with hx; subst hx
      exact h2
  | .extend w e, hg, hh => by
    obtain ⟨hge, h1, h2⟩ := hg
    have ih := sim_right cpow W vals σ hσ e hge (fun x hx => hh x (by simpa [Expr.reads] using hx))
    refine .of_value (fun _ _ => rfl) (by simpa [simE, finish] using ih.known) ?_
    intro v h
    simp only [simE, finish] at h
    obtain ⟨hv1, hv2⟩ := ih.value v h
    simp only [Expr.eval, Expr.width]
    exact ⟨hv1, Nat.lt_of_lt_of_le hv2 (Nat.pow_le_pow_right (by omega) h1)⟩
  | .concat l r, hg, hh => by
    obtain ⟨hgl, hgr, hw⟩ := hg
    have ihl := sim_right cpow W vals σ hσ l hgl (fun x hx => hh x (by simp [Expr.reads, hx]))
    have ihr := sim_right cpow W vals σ hσ r hgr (fun x hx => hh x (by simp [Expr.reads, hx]))
    have hsk : ∀ acc sh, simE cpow vals (.spine acc sh) (.concat l r) ≠ .ok none := by
      intro acc sh h
      simp only [simE, Res.bind_eq_ok] at h
      obtain ⟨a, ha, h⟩ := h
      cases a with
      | none => exact ihr.spineKnown _ _ ha
      | some v => exact ihl.spineKnown _ _ h
    have hsp : ∀ (acc : U64) sh x, acc.toNat < 2 ^ sh → sh + (l.width + r.width) ≤ 63 →
        simE cpow vals (.spine acc sh) (.concat l r) = .ok (some x) →
        x.toNat = acc.toNat + (l.eval σ * 2 ^ r.width + r.eval σ) * 2 ^ sh ∧
          l.eval σ * 2 ^ r.width + r.eval σ < 2 ^ (l.width + r.width) := by
      intro acc sh x hacc hsh h
      simp only [simE, Res.bind_eq_ok] at h
      obtain ⟨a, ha, h⟩ := h
      cases a with
      | none => exact absurd ha (ihr.spineKnown _ _)
      | some v =>
        obtain ⟨hv1, hv2⟩ := ihr.spine acc sh v hacc (by omega) ha
        have hvl : v.toNat < 2 ^ (sh + r.width) := by
          rw [hv1, Nat.pow_add]
          have h3 : (r.eval σ + 1) * 2 ^ sh ≤ 2 ^ r.width * 2 ^ sh := Nat.mul_le_mul_right _ hv2
          rw [Nat.add_mul, Nat.one_mul, Nat.mul_comm (2 ^ r.width)] at h3
          omega
        obtain ⟨hx1, hx2⟩ := ihl.spine v (sh + r.width) x hvl (by omega) h
        constructor
        · rw [hx1, hv1, Nat.add_mul, Nat.mul_assoc, ← Nat.pow_add, Nat.add_comm r.width sh]
          omega
        · have h3 : (l.eval σ + 1) * 2 ^ r.width ≤ 2 ^ l.width * 2 ^ r.width := Nat.mul_le_mul_right _ hx2
          rw [Nat.add_mul, Nat.one_mul, ← Nat.pow_add] at h3
          omega
    have heq : simE cpow vals .value (.concat l r) = simE cpow vals (.spine 0 0) (.concat l r) := by
      simp [simE]
    refine ⟨by rw [heq]; exact hsk 0 0, ?_, hsk, hsp⟩
    intro v h
    rw [heq] at h
    have := hsp 0 0 v (by simp) (by omega) h
    simpa [Expr.eval, Expr.width] using this

end Kratos.Sim
