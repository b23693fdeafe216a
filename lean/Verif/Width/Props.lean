import Verif.Width.Lemmas

/-!
# C11: widths and signs of operator expressions
-/

namespace Kratos.Width

/-- C11 (part): in every design built without resizing a constant that another expression already
holds, and with logical operators only on one-bit operands, `width()` of every object is the
self-determined SystemVerilog width of its text.  Missing: the designs of the two counterexamples
below, where it is false. -/
theorem width_partial (h : Heap) (hb : Built h) (hl : LogicalOk h) (i : Nat) (hi : i < h.length) :
    ∃ w, W h i = .ok w ∧ SV h i w := by
  obtain ⟨f, hf⟩ := hb.inv
  exact ⟨f i, hf.W hi, hf.sv hl _ _ (Nat.lt_succ_self i) hi⟩

/-- The operands an operator expression ends up with have equal widths. -/
theorem operands_equal (h : Heap) (hb : Built h) (i : Nat) (o : Op) (l r vw : Nat) (s : Bool)
    (hn : h[i]? = some (.op o l (some r) vw s)) : ∃ w, W h l = .ok w ∧ W h r = .ok w := by
  obtain ⟨f, hf⟩ := hb.inv
  obtain ⟨h1, h2⟩ := hf i _ hn
  have hil := lt_of_get hn
  have hl := h1 l (by simp [Node.operands])
  have hr := h1 r (by simp [Node.operands])
  simp only [Local] at h2
  exact ⟨f l, hf.W (by omega), by rw [hf.W (by omega), h2.1]⟩

def ex1 : List Call := [.base 8 false, .const 3 4 false, .bin .add 0 1, .bin .lt 2 0,
  .concat 3 0, .concat 4 2, .dup 5 2, .base 16 true, .extend 0 20, .bin .shl 7 0]

def runAll (h : Heap) : List Call → Res Heap
  | [] => .ok h
  | c :: cs => (call h c).bind fun p => runAll p.1 cs

/-- The design `ex1` meets the hypotheses: `{a < a + 3, a, a + 3}` twice has 34 bits. -/
example : ∃ h, runAll [] ex1 = .ok h ∧ W h 6 = .ok 34 ∧ W h 10 = .ok 16 := by
  refine ⟨_, rfl, ?_, ?_⟩ <;> decide

example : Built [.base 8 false, .const 3 8 false, .op .add 0 (some 1) 8 false] ∧
    LogicalOk [.base 8 false, .const 3 8 false, .op .add 0 (some 1) 8 false] := by
  constructor
  · refine .step (c := .bin .add 0 1) (i := 2) (h := [.base 8 false, .const 3 4 false]) ?_ (by decide) ?_
    · refine .step (c := .const 3 4 false) (i := 1) (h := [.base 8 false]) ?_ (by decide) (by simp [resizes])
      exact .step (c := .base 8 false) (i := 0) .nil (by decide) (by simp [resizes])
    · intro k _ nd hnd
      simp only [List.mem_cons, List.not_mem_nil, or_false] at hnd
      rcases hnd with rfl | rfl <;> simp [Node.operands]
  · intro i o l r vw s hn ho
    have hi := lt_of_get hn
    simp only [List.length_cons, List.length_nil] at hi
    match i, hi with
    | 0, _ => simp at hn
    | 1, _ => simp at hn
    | 2, _ =>
      simp only [List.getElem?_cons_succ, List.getElem?_cons_zero, Option.some.injEq, Node.op.injEq] at hn
      rcases hn with ⟨rfl, _⟩
      simp at ho

/-- `width_partial` is false of the code when a constant is shared: `c = 3` (4 bits) used in
`a + c` with `a` 4 bits wide and then in `b + c` with `b` 8 bits wide; afterwards `a + c` has no
width (`width()` throws). -/
theorem width_counterexample_shared :
    ∃ h, Reachable h ∧ W h 3 = .throw .var := by
  refine ⟨[.base 4 false, .base 8 false, .const 3 8 false, .op .add 0 (some 2) 4 false,
    .op .add 1 (some 2) 8 false], ?_, by decide⟩
  refine .step (c := .bin .add 1 2) (i := 4) (h := [.base 4 false, .base 8 false, .const 3 4 false,
    .op .add 0 (some 2) 4 false]) ?_ (by decide)
  refine .step (c := .bin .add 0 2) (i := 3) (h := [.base 4 false, .base 8 false, .const 3 4 false]) ?_ (by decide)
  refine .step (c := .const 3 4 false) (i := 2) (h := [.base 4 false, .base 8 false]) ?_ (by decide)
  refine .step (c := .base 8 false) (i := 1) (h := [.base 4 false]) ?_ (by decide)
  exact .step (c := .base 4 false) (i := 0) .nil (by decide)

/-- The full claim is false of the code. -/
theorem not_WidthCorrect : ¬ WidthCorrect := by
  intro hc
  obtain ⟨h, hr, ht⟩ := width_counterexample_shared
  have hlt : 3 < h.length := by
    rcases Nat.lt_or_ge 3 h.length with hl | hl
    · exact hl
    · unfold W Width.width at ht
      rw [List.getElem?_eq_none hl] at ht
      cases ht
  obtain ⟨w, hw, _⟩ := hc h hr 3 hlt
  rw [ht] at hw
  cases hw

/-- A logical operator keeps the width of its operands, while its text has one bit. -/
theorem width_counterexample_logical :
    ∃ h, Built h ∧ W h 2 = .ok 8 ∧ SV h 2 1 ∧ ¬ SV h 2 8 := by
  refine ⟨[.base 8 false, .base 8 false, .op .land 0 (some 1) 8 false], ?_, by decide, ?_, ?_⟩
  · refine .step (c := .bin .land 0 1) (i := 2) (h := [.base 8 false, .base 8 false]) ?_ (by decide) (by
      intro k hk; exact absurd hk (by simp [resizes, show plan [.base 8 false, .base 8 false] .land 0 1 = .ok .keep by decide]))
    refine .step (c := .base 8 false) (i := 1) (h := [.base 8 false]) ?_ (by decide) (by simp [resizes])
    exact .step (c := .base 8 false) (i := 0) .nil (by decide) (by simp [resizes])
  · exact .one (o := .land) (l := 0) (r := some 1) (vw := 8) (s := false) (by simp) rfl
  · intro hsv
    have := hsv.one_eq (o := .land) (l := 0) (r := some 1) (vw := 8) (s := false) (by simp) rfl
    omega

/-- The width shown by the Python property `e.width` (`var_width()`, python/kratos_expr.cc:483) is
the unresized left operand's: `a + b` with 8 and 16 bits reports 8 while `width()` is 16. -/
theorem width_counterexample_cached :
    ∃ h, Built h ∧ W h 3 = .ok 16 ∧ varWidth h 3 = .ok 8 := by
  refine ⟨[.base 8 false, .base 16 false, .cast 0 16, .op .add 2 (some 1) 8 false], ?_, by decide, by decide⟩
  refine .step (c := .bin .add 0 1) (i := 3) (h := [.base 8 false, .base 16 false]) ?_ (by decide) (by
    intro k hk; exact absurd hk (by simp [resizes, isConst,
      show plan [.base 8 false, .base 16 false] .add 0 1 = .ok (.left 16) by decide]))
  refine .step (c := .base 16 false) (i := 1) (h := [.base 8 false]) ?_ (by decide) (by simp [resizes])
  exact .step (c := .base 8 false) (i := 0) .nil (by decide) (by simp [resizes])

/-! ## Signs -/

/-- An operator expression is signed exactly when both operands are. -/
theorem sign_bin (h h' : Heap) (o : Op) (l r i : Nat) (hc : call h (.bin o l r) = .ok (h', i)) :
    sgn h' i = (sgn h l && sgn h r) := by
  simp only [call, mkBin, Res.bind_eq_ok] at hc
  obtain ⟨p, hp, hc⟩ := hc
  split at hc
  · cases hc
  · simp only [Res.bind_eq_ok, Res.ok.injEq, Prod.mk.injEq] at hc
    obtain ⟨vw, _, hc, hidx⟩ := hc
    rw [← hc, ← hidx]
    simp [sgn]

theorem sign_un (h h' : Heap) (o : Op) (l i : Nat) (hc : call h (.un o l) = .ok (h', i)) :
    sgn h' i = sgn h l := by
  simp only [call, mkUn, Res.bind_eq_ok, Res.ok.injEq, Prod.mk.injEq] at hc
  obtain ⟨vw, _, hc, hidx⟩ := hc
  rw [← hc, ← hidx]
  simp [sgn]

/-- A concatenation is built exactly from operands of one sign and has that sign. -/
theorem sign_concat (h : Heap) (hb : Built h) (a b : Nat) (ha : a < h.length) (hbl : b < h.length) :
    (sgn h a = sgn h b ↔ ∃ h' i, call h (.concat a b) = .ok (h', i) ∧ sgn h' i = sgn h a) ∧
    (sgn h a ≠ sgn h b → call h (.concat a b) = .throw .var) := by
  obtain ⟨f, hf⟩ := hb.inv
  simp only [call, mkConcat, hf.W ha, hf.W hbl, Res.ok_bind]
  constructor
  · constructor
    · intro hs
      simp only [hs, bne_self_eq_false, Bool.false_eq_true, if_false]
      exact ⟨_, _, rfl, by simp [sgn]⟩
    · rintro ⟨h', i, hc, _⟩
      split at hc
      · cases hc
      · rename_i hs; simpa using hs
  · intro hs
    have hb : (sgn h a != sgn h b) = true := bne_iff_ne.mpr hs
    simp only [hb, if_true]

/-- An extension is accepted exactly when it is not a narrowing, and has the requested width. -/
theorem extend_exact (h : Heap) (hb : Built h) (a w wa : Nat) (ha : W h a = .ok wa) :
    (wa ≤ w → ∃ h' i, call h (.extend a w) = .ok (h', i) ∧ W h' i = .ok w) ∧
    (w < wa → call h (.extend a w) = .throw .var) := by
  simp only [call, mkExtend, ha, Res.ok_bind]
  constructor
  · intro hle
    rw [if_neg (by omega)]
    refine ⟨_, _, rfl, ?_⟩
    simp [W, width]
  · intro hlt
    rw [if_pos hlt]

example : ∃ h', call [.base 4 true, .base 4 false] (.concat 0 1) = .throw .var ∧
    call [.base 4 true] (.extend 0 3) = .throw .var ∧
    call [.base 4 true, .base 8 true] (.bin .mod 0 1) = .ok (h', 3) ∧ sgn h' 3 = true :=
  ⟨_, by decide, by decide, rfl, by decide⟩

/-! ## Which operand is resized -/

def NoSilentLoss : Prop :=
  ∀ h, Reachable h → ∀ o l r h' i, call h (.bin o l r) = .ok (h', i) →
    ∃ l' r' vw s, h'[i]? = some (.op o l' (some r') vw s) ∧ Preserved h h' l l' ∧ Preserved h h' r r'

/-- Mismatched operands are never rejected (for scalars without loop variables). -/
theorem never_rejected (h : Heap) (hb : Built h) (o : Op) (l r : Nat) (hl : l < h.length)
    (hr : r < h.length) : ∃ h' i, call h (.bin o l r) = .ok (h', i) := by
  obtain ⟨f, hf⟩ := hb.inv
  obtain ⟨p, hp, hne⟩ : ∃ p, plan h o l r = .ok p ∧ p ≠ .reject := by
    obtain ⟨nl, hnl⟩ : ∃ nd, h[l]? = some nd := ⟨h[l], by simp [hl]⟩
    obtain ⟨nr, hnr⟩ : ∃ nd, h[r]? = some nd := ⟨h[r], by simp [hr]⟩
    have hsl : ∃ b, safeToResize h l (f r) = .ok b ∧ (b = false → f r < f l) := by
      have h2 := (hf l nl hnl).2
      unfold safeToResize
      rw [hnl]
      cases nl <;> simp [Local] at h2 ⊢
      omega
    have hsr : ∃ b, safeToResize h r (f l) = .ok b ∧ (b = false → f l < f r ∧ isConst h r = false ∧
        isParam h r = false) := by
      have h2 := (hf r nr hnr).2
      unfold safeToResize isConst isParam
      rw [hnr]
      cases nr <;> simp [Local] at h2 ⊢
      omega
    obtain ⟨bl, hbl, hbl2⟩ := hsl
    obtain ⟨br, hbr, hbr2⟩ := hsr
    simp only [plan, hf.W hl, hf.W hr, Res.ok_bind, hbl, hbr]
    split
    · exact ⟨_, rfl, by simp⟩
    · split
      · exact ⟨_, rfl, by simp⟩
      · split
        · exact ⟨_, rfl, by simp⟩
        · rename_i hcond
          split
          · exact ⟨_, rfl, by simp⟩
          · rename_i hbrf
            have hb := hbr2 (by simpa using hbrf)
            have : bl = false := by
              cases bl with
              | false => rfl
              | true => exact absurd (by simp [hb]) hcond
            have := hbl2 this
            omega
  obtain ⟨g, l', r', vw, s, hm, _⟩ := mkBin_eq hp hne hl
  exact ⟨_, _, hm⟩

/-- `i` is a variable or port. -/
def isVar (h : Heap) (i : Nat) : Bool :=
  match h[i]? with
  | some (.base ..) => true
  | _ => false

/-- Neither operand loses bits when the wider operand is a variable, or a right operand that is
not a constant or parameter, or the shifted value, or the narrower one is a constant or parameter
on the right. -/
def Wide (h : Heap) (o : Op) (l r : Nat) : Prop :=
  ∀ wl wr, W h l = .ok wl → W h r = .ok wr →
    (wl < wr → isConst h r = false ∧ isParam h r = false) ∧
    (wr < wl → isShift o = true ∨ isVar h l = true ∨ isConst h r = true ∨ isParam h r = true)

/-- C11 (part): which operand pairs are combined without losing bits.  Missing: the two families
of counterexamples below, where bits are silently dropped. -/
theorem no_loss_partial (h : Heap) (o : Op) (l r : Nat) (h' : Heap) (i : Nat)
    (hc : call h (.bin o l r) = .ok (h', i)) (hw : Wide h o l r) :
    ∃ l' r' vw s, h'[i]? = some (.op o l' (some r') vw s) ∧ Preserved h h' l l' ∧
      Preserved h h' r r' := by
  have hc0 := hc
  simp only [call, mkBin, Res.bind_eq_ok] at hc
  obtain ⟨p, hp, hc⟩ := hc
  have hne : p ≠ .reject := by
    intro hr
    rw [hr] at hc
    simp at hc
  obtain ⟨wl, wr, hwl, hwr, hcase⟩ := plan_spec hp
  have hll := W_lt hwl
  have hrl := W_lt hwr
  obtain ⟨g, l', r', vw, s, hm, hmatch⟩ := mkBin_eq hp hne hll
  simp only [call] at hc0
  rw [hm] at hc0
  simp only [Res.ok.injEq, Prod.mk.injEq] at hc0
  obtain ⟨rfl, rfl⟩ := hc0
  refine ⟨l', r', vw, s, by simp, ?_⟩
  have hlr : ∀ w, (p = .left w ∨ p = .right w) → l ≠ r := by
    intro w hor heq
    subst heq
    rw [plan_same hp] at hor
    simp at hor
  obtain ⟨hw1, hw2⟩ := hw wl wr hwl hwr
  have hplan := hp
  unfold plan at hplan
  simp only [hwl, hwr, Res.ok_bind] at hplan
  rcases hcase with ⟨rfl, _⟩ | rfl | rfl | rfl
  · obtain ⟨rfl, rfl, rfl⟩ := hmatch
    exact ⟨.keep _ hll, .keep _ hrl⟩
  · obtain ⟨rfl, rfl, rfl⟩ := hmatch
    have hle : wl ≤ wr := by
      rcases Nat.lt_or_ge wr wl with hlt | hge
      · exfalso
        split at hplan
        · cases hplan
        · rename_i hsh
          rw [if_neg (by omega)] at hplan
          simp only [Res.bind_eq_ok] at hplan
          obtain ⟨sl, hsl, hplan⟩ := hplan
          split at hplan
          · rename_i hcond
            simp only [Bool.and_eq_true, Bool.not_eq_true'] at hcond
            rcases hw2 hlt with h1 | h1 | h1 | h1
            · simp [h1, hlt] at hsh
            · unfold isVar at h1
              split at h1
              · rename_i w0 s0 hbase
                simp only [safeToResize, hbase, Res.ok.injEq] at hsl
                unfold W width at hwl
                rw [hbase] at hwl
                simp only [Res.ok.injEq] at hwl
                rw [← hsl] at hcond
                simp at hcond
                omega
              · cases h1
            · rw [h1] at hcond; simp at hcond
            · rw [h1] at hcond; simp at hcond
          · simp only [Res.bind_eq_ok] at hplan
            obtain ⟨sr, _, hplan⟩ := hplan
            split at hplan <;> cases hplan
      · exact hge
    exact ⟨.resize _ hwl hle, .other _ hrl (Ne.symm (hlr wr (.inl rfl)))⟩
  · obtain ⟨rfl, rfl, rfl⟩ := hmatch
    have hle : wr ≤ wl := by
      rcases Nat.lt_or_ge wl wr with hlt | hge
      · exfalso
        obtain ⟨h1, h2⟩ := hw1 hlt
        rw [if_neg (by simp; omega), if_neg (by omega)] at hplan
        simp only [Res.bind_eq_ok] at hplan
        obtain ⟨sl, hsl, hplan⟩ := hplan
        have : sl = true := by
          unfold safeToResize at hsl
          split at hsl
          · rename_i w0 s0 hbase
            unfold W width at hwl
            rw [hbase] at hwl
            simp only [Res.ok.injEq] at hwl hsl
            rw [← hsl]
            simp
            omega
          · simpa using hsl.symm
          · cases hsl
        simp [this, h1, h2] at hplan
      · exact hge
    exact ⟨.other _ hll (hlr wl (.inr rfl)), .resize _ hwr hle⟩
  · exact absurd rfl hne

example : ∃ h', call [.base 8 false, .const 3 4 false] (.bin .add 0 1) = .ok (h', 2) ∧
    Wide [.base 8 false, .const 3 4 false] .add 0 1 ∧
    h' = [.base 8 false, .const 3 8 false, .op .add 0 (some 1) 8 false] := by
  refine ⟨_, rfl, ?_, by decide⟩
  intro wl wr hl hr
  have h1 : wl = 8 := by simpa [W, width] using hl.symm
  have h2 : wr = 4 := by simpa [W, width] using hr.symm
  subst h1 h2
  exact ⟨by omega, fun _ => .inr (.inl rfl)⟩

/-- `(a + b) & c` with 16-bit `a`, `b` and 8-bit `c` is accepted and the sum is cut to 8 bits. -/
theorem no_loss_counterexample_expr :
    ∃ h h', Built h ∧ call h (.bin .and 3 2) = .ok (h', 5) ∧
      h'[5]? = some (.op .and 4 (some 2) 16 false) ∧ W h 3 = .ok 16 ∧ h'[4]? = some (.cast 3 8) := by
  refine ⟨[.base 16 false, .base 16 false, .base 8 false, .op .add 0 (some 1) 16 false], _, ?_, rfl,
    by decide, by decide, by decide⟩
  refine .step (c := .bin .add 0 1) (i := 3) (h := [.base 16 false, .base 16 false, .base 8 false]) ?_
    (by decide) (by
      intro k hk
      exact absurd hk (by simp [resizes,
        show plan [.base 16 false, .base 16 false, .base 8 false] .add 0 1 = .ok .keep by decide]))
  refine .step (c := .base 8 false) (i := 2) (h := [.base 16 false, .base 16 false]) ?_ (by decide) (by simp [resizes])
  refine .step (c := .base 16 false) (i := 1) (h := [.base 16 false]) ?_ (by decide) (by simp [resizes])
  exact .step (c := .base 16 false) (i := 0) .nil (by decide) (by simp [resizes])

/-- `a + 300` with 8-bit `a` and a 16-bit constant is accepted; the constant becomes an 8-bit
constant with value 300. -/
theorem no_loss_counterexample_const :
    ∃ h h', Built h ∧ h[1]? = some (.const 300 16 false) ∧ Fits 300 16 false ∧
      call h (.bin .add 0 1) = .ok (h', 2) ∧ h'[1]? = some (.const 300 8 false) ∧
      ¬ Fits 300 8 false := by
  refine ⟨[.base 8 false, .const 300 16 false], _, ?_, by decide, by simp [Fits], rfl, by decide,
    by simp [Fits]⟩
  refine .step (c := .const 300 16 false) (i := 1) (h := [.base 8 false]) ?_ (by decide) (by simp [resizes])
  exact .step (c := .base 8 false) (i := 0) .nil (by decide) (by simp [resizes])

theorem Built.reachable {h : Heap} (hb : Built h) : Reachable h := by
  induction hb with
  | nil => exact .nil
  | step _ hc _ ih => exact .step ih hc

theorem not_NoSilentLoss : ¬ NoSilentLoss := by
  intro hn
  obtain ⟨h, h', hb, hv, hfit, hc, hv', hnf⟩ := no_loss_counterexample_const
  obtain ⟨l', r', vw, s, hnode, _, hpr⟩ := hn h hb.reachable .add 0 1 h' 2 hc
  unfold Preserved at hpr
  rw [hv] at hpr
  obtain ⟨w', hw', himp⟩ := hpr
  have hfit' := himp hfit
  have hr : r' = 1 := by
    have h2 := hc
    simp only [call] at h2
    obtain ⟨p, hp, hrest⟩ := Res.bind_eq_ok.mp h2
    have hl : 0 < h.length := Nat.lt_trans (by omega) (lt_of_get hv)
    have hne : p ≠ .reject := by intro hr; rw [hr] at hrest; simp at hrest
    obtain ⟨g, l'', r'', vw', s', hm, hmatch⟩ := mkBin_eq hp hne hl
    rw [hm] at h2
    simp only [Res.ok.injEq, Prod.mk.injEq] at h2
    rw [← h2.1, ← h2.2] at hnode
    simp only [List.getElem?_append_right (Nat.le_refl _), Nat.sub_self, List.getElem?_cons_zero,
      Option.some.injEq, Node.op.injEq, true_and] at hnode
    rw [← hnode.2.1]
    cases p with
    | reject => exact absurd rfl hne
    | keep => exact hmatch.2.2
    | left w => exact hmatch.2.2
    | right w => rw [hmatch.2.2]; simp [resizeVar, hv]
  rw [hr, hv'] at hw'
  simp only [Option.some.injEq, Node.const.injEq, true_and] at hw'
  rw [← hw'.1] at hfit'
  exact hnf hfit'

end Kratos.Width
