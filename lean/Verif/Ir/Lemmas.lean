import Verif.Ir.Semantics

/-! Helper lemmas about execution (no property theorems here). -/

namespace Kratos.Ir

@[simp] theorem guardRun_run {st x : St} (h : st.ctl = .run) : guardRun st x = x := by
  simp [guardRun, h]
theorem guardRun_stop {st x : St} (h : st.ctl ≠ .run) : guardRun st x = st := by
  simp [guardRun, h]

theorem Stmt.exec_stop (ι) (s : Stmt) (st : St) (h : st.ctl ≠ .run) : s.exec ι st = st := by
  cases s <;> simp only [Stmt.exec] <;> exact guardRun_stop h

theorem Stmts.exec_stop (ι) : ∀ (ss : Stmts) (st : St), st.ctl ≠ .run → ss.exec ι st = st
  | .nil, _, _ => by simp [Stmts.exec]
  | .cons s ss, st, h => by
      simp only [Stmts.exec]; rw [Stmt.exec_stop ι s st h]; exact Stmts.exec_stop ι ss st h

theorem Stmts.exec_append (ι) : ∀ (a b : Stmts) (st : St),
    (a ++ b).exec ι st = b.exec ι (a.exec ι st)
  | .nil, b, st => by simp [Stmts.exec]
  | .cons s a, b, st => by simp only [Stmts.cons_append, Stmts.exec]; exact Stmts.exec_append ι a b _

theorem Stmts.exec_nil (ι) (st : St) : Stmts.nil.exec ι st = st := by simp [Stmts.exec]
theorem Stmts.exec_cons (ι) (s ss) (st : St) :
    (Stmts.cons s ss).exec ι st = ss.exec ι (s.exec ι st) := by simp [Stmts.exec]
theorem Stmts.exec_single (ι) (s) (st : St) : (Stmts.cons s .nil).exec ι st = s.exec ι st := by
  simp [Stmts.exec]

theorem Stmt.Equiv.refl (a : Stmt) : a.Equiv a := fun _ _ => rfl
theorem Stmts.Equiv.refl (a : Stmts) : a.Equiv a := fun _ _ => rfl
theorem Stmt.Equiv.symm {a b : Stmt} (h : a.Equiv b) : b.Equiv a := fun ι st => (h ι st).symm
theorem Stmts.Equiv.symm {a b : Stmts} (h : a.Equiv b) : b.Equiv a := fun ι st => (h ι st).symm
theorem Stmt.Equiv.trans {a b c : Stmt} (h : a.Equiv b) (k : b.Equiv c) : a.Equiv c :=
  fun ι st => (h ι st).trans (k ι st)
theorem Stmts.Equiv.trans {a b c : Stmts} (h : a.Equiv b) (k : b.Equiv c) : a.Equiv c :=
  fun ι st => (h ι st).trans (k ι st)

theorem Stmts.Equiv.cons {s s' : Stmt} {ss ss' : Stmts} (h : s.Equiv s') (k : ss.Equiv ss') :
    (Stmts.cons s ss).Equiv (.cons s' ss') := by
  intro ι st; simp only [Stmts.exec]; rw [h, k]

theorem Stmts.Equiv.append {a a' b b' : Stmts} (h : a.Equiv a') (k : b.Equiv b') :
    (a ++ b).Equiv (a' ++ b') := by
  intro ι st; rw [Stmts.exec_append, Stmts.exec_append, h, k]

theorem Stmt.Equiv.ite {c : Expr} {t t' e e' : Stmts} (h : t.Equiv t') (k : e.Equiv e') :
    (Stmt.ite c t e).Equiv (.ite c t' e') := by
  intro ι st; simp only [Stmt.exec]; rw [h, k]

theorem Stmt.Equiv.for_ {iv a b s} {t t' : Stmts} (h : t.Equiv t') :
    (Stmt.for_ iv a b s t).Equiv (.for_ iv a b s t') := by
  intro ι st; simp only [Stmt.exec]
  have : (fun st i => guardRun st (t.exec ι (setIter iv i st)))
       = (fun st i => guardRun st (t'.exec ι (setIter iv i st))) := by
    funext st i; rw [h]
  rw [this]

/-- Same case values in the same order, equivalent bodies. -/
inductive Cases.Rel : Cases → Cases → Prop
  | nil : Cases.Rel .nil .nil
  | cons {k b b' cs cs'} : b.Equiv b' → Cases.Rel cs cs' → Cases.Rel (.cons k b cs) (.cons k b' cs')

theorem Cases.Rel.exec {cs cs' : Cases} (h : Cases.Rel cs cs') (ι w v) :
    ∀ (k : St → St) (st : St), cs.exec ι w v k st = cs'.exec ι w v k st := by
  induction h with
  | nil => intro k st; rfl
  | @cons key b b' cs cs' hb _ ih =>
    intro k st
    cases key with
    | none =>
      simp only [Cases.exec]
      have : (fun st => b.exec ι st) = (fun st => b'.exec ι st) := by funext st; rw [hb]
      rw [this]; exact ih _ _
    | some c => simp only [Cases.exec]; rw [hb, ih]

theorem Stmt.Equiv.switch {tgt : Expr} {cs cs' : Cases} (h : Cases.Rel cs cs') :
    (Stmt.switch tgt cs).Equiv (.switch tgt cs') := by
  intro ι st; simp only [Stmt.exec]; rw [h.exec]

/-! ### Values are bounded by widths -/

theorem b2n_lt (b : Bool) : b2n b < 2 := by cases b <;> simp [b2n]
theorem b2n_ne_zero (b : Bool) : b2n b ≠ 0 ↔ b = true := by cases b <;> simp [b2n]

theorem parity_lt (w x : Nat) : parity w x < 2 := by
  cases w with
  | zero => simp [parity]
  | succ w => simp only [parity]; omega

theorem pattern_lt (w : Nat) (v : Int) : pattern w v < 2 ^ w := by
  unfold pattern
  have h : (0 : Int) < 2 ^ w := Int.pow_pos (by decide)
  have h1 := Int.emod_lt_of_pos v h
  have h0 := Int.emod_nonneg v (Int.ne_of_gt h)
  have : ((v % 2 ^ w).toNat : Int) < ((2 ^ w : Nat) : Int) := by
    rw [Int.toNat_of_nonneg h0]; simpa using h1
  exact_mod_cast this

theorem repl_lt (n w x : Nat) (h : x < 2 ^ w) : repl n w x < 2 ^ (n * w) := by
  induction n with
  | zero => simp [repl]
  | succ n ih =>
    simp only [repl, Nat.succ_mul, Nat.pow_add]
    calc repl n w x * 2 ^ w + x < repl n w x * 2 ^ w + 2 ^ w := by omega
      _ = (repl n w x + 1) * 2 ^ w := by rw [Nat.succ_mul]
      _ ≤ _ := Nat.mul_le_mul_right _ ih

theorem Expr.width_pos : ∀ (e : Expr), e.WF → 0 < e.width
  | .var _ w, h => h
  | .const w _, h => h
  | .slice _ _ _, _ => by simp only [Expr.width]; omega
  | .un op e, h => by
      simp only [Expr.width]; split
      · decide
      · exact Expr.width_pos e h
  | .bin op l r, h => by
      simp only [Expr.width]; split
      · decide
      · exact Expr.width_pos l h.1
  | .cond p l r, h => Expr.width_pos l h.2.1
  | .concat l r, h => by have := Expr.width_pos l h.1; simp only [Expr.width]; omega
  | .extend w e, h => by have := Expr.width_pos e h.1; have := h.2; simp only [Expr.width]; omega
  | .dup n e, h => Nat.mul_pos h.1 (Expr.width_pos e h.2)

theorem two_le_two_pow {w : Nat} (h : 0 < w) : 2 ≤ 2 ^ w := by
  calc 2 = 2 ^ 1 := rfl
    _ ≤ 2 ^ w := Nat.pow_le_pow_right (by decide) h

theorem UnOp.sem_lt (op : UnOp) (w x : Nat) (h : x < 2 ^ w) :
    op.sem w x < 2 ^ (if op.isBool then 1 else w) := by
  cases op <;> simp only [UnOp.sem, UnOp.isBool, if_true, Bool.false_eq_true, if_false]
  · omega
  · exact Nat.mod_lt _ (Nat.two_pow_pos w)
  · exact h
  · exact b2n_lt _
  · exact b2n_lt _
  · exact b2n_lt _
  · exact parity_lt _ _

theorem BinOp.sem_lt (op : BinOp) (w x y : Nat) (hw : 0 < w) (hx : x < 2 ^ w) (hy : y < 2 ^ w) :
    op.sem w x y < 2 ^ (if op.isBool then 1 else w) := by
  have h2 := two_le_two_pow hw
  have hp := Nat.two_pow_pos w
  cases op <;> simp only [BinOp.sem, BinOp.isBool, if_true, Bool.false_eq_true, if_false]
  · exact Nat.mod_lt _ hp
  · exact Nat.mod_lt _ hp
  · exact Nat.lt_of_le_of_lt (Nat.div_le_self _ _) hx
  · exact Nat.mod_lt _ hp
  · exact Nat.lt_of_le_of_lt (Nat.mod_le _ _) hx
  · exact Nat.lt_of_le_of_lt (Nat.div_le_self _ _) hx
  · exact Nat.lt_of_le_of_lt (Nat.div_le_self _ _) hx
  · exact Nat.mod_lt _ hp
  · exact Nat.or_lt_two_pow hx hy
  · exact Nat.and_lt_two_pow _ hy
  · exact Nat.xor_lt_two_pow hx hy
  · exact Nat.mod_lt _ hp
  · exact Nat.lt_of_lt_of_le (b2n_lt _) h2
  · exact Nat.lt_of_lt_of_le (b2n_lt _) h2
  all_goals exact b2n_lt _

theorem Expr.eval_lt (σ : Store) : ∀ (e : Expr), e.WF → e.eval σ < 2 ^ e.width
  | .var v w, _ => Nat.mod_lt _ (Nat.two_pow_pos w)
  | .const w v, _ => pattern_lt w v
  | .slice e hi lo, _ => Nat.mod_lt _ (Nat.two_pow_pos _)
  | .un op e, h => by
      simp only [Expr.eval, Expr.width]; exact UnOp.sem_lt op _ _ (Expr.eval_lt σ e h)
  | .bin op l r, h => by
      simp only [Expr.eval, Expr.width]
      exact BinOp.sem_lt op _ _ _ (Expr.width_pos l h.1) (Expr.eval_lt σ l h.1)
        (h.2.2 ▸ Expr.eval_lt σ r h.2.1)
  | .cond p l r, h => by
      simp only [Expr.eval, Expr.width]; split
      · exact Expr.eval_lt σ l h.2.1
      · exact h.2.2.2 ▸ Expr.eval_lt σ r h.2.2.1
  | .concat l r, h => by
      have hl := Expr.eval_lt σ l h.1
      have hr := Expr.eval_lt σ r h.2
      simp only [Expr.eval, Expr.width, Nat.pow_add]
      calc l.eval σ * 2 ^ r.width + r.eval σ < l.eval σ * 2 ^ r.width + 2 ^ r.width := by omega
        _ = (l.eval σ + 1) * 2 ^ r.width := by rw [Nat.succ_mul]
        _ ≤ _ := Nat.mul_le_mul_right _ hl
  | .extend w e, h => Nat.lt_of_lt_of_le (Expr.eval_lt σ e h.1)
      (Nat.pow_le_pow_right (by decide) h.2)
  | .dup n e, h => repl_lt n _ _ (Expr.eval_lt σ e h.2)

end Kratos.Ir
