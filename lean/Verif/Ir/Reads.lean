import Verif.Ir.Lemmas

/-! Which variables an expression reads, and what follows for its value. -/

namespace Kratos.Ir

/-- The expression mentions variable `x`. -/
def Expr.reads (x : VarId) : Expr → Bool
  | .var v _ => v == x
  | .const _ _ => false
  | .slice e _ _ => e.reads x
  | .un _ e => e.reads x
  | .bin _ l r => l.reads x || r.reads x
  | .cond p l r => p.reads x || (l.reads x || r.reads x)
  | .concat l r => l.reads x || r.reads x
  | .extend _ e => e.reads x
  | .dup _ e => e.reads x

theorem Expr.eval_congr {σ τ : Store} : ∀ (e : Expr), (∀ x, e.reads x = true → σ x = τ x) →
    e.eval σ = e.eval τ
  | .var v w, h => by simp only [Expr.eval]; rw [h v (by simp [Expr.reads])]
  | .const _ _, _ => rfl
  | .slice e hi lo, h => by simp only [Expr.eval]; rw [Expr.eval_congr e h]
  | .un op e, h => by simp only [Expr.eval]; rw [Expr.eval_congr e h]
  | .bin op l r, h => by
      simp only [Expr.eval]
      rw [Expr.eval_congr l fun x hx => h x (by simp [Expr.reads, hx]),
        Expr.eval_congr r fun x hx => h x (by simp [Expr.reads, hx])]
  | .cond p l r, h => by
      simp only [Expr.eval]
      rw [Expr.eval_congr p fun x hx => h x (by simp [Expr.reads, hx]),
        Expr.eval_congr l fun x hx => h x (by simp [Expr.reads, hx]),
        Expr.eval_congr r fun x hx => h x (by simp [Expr.reads, hx])]
  | .concat l r, h => by
      simp only [Expr.eval]
      rw [Expr.eval_congr l fun x hx => h x (by simp [Expr.reads, hx]),
        Expr.eval_congr r fun x hx => h x (by simp [Expr.reads, hx])]
  | .extend w e, h => by simp only [Expr.eval]; rw [Expr.eval_congr e h]
  | .dup n e, h => by simp only [Expr.eval]; rw [Expr.eval_congr e h]

/-- Writing a variable an expression does not mention leaves its value alone. -/
theorem Expr.eval_write {σ : Store} {l : LVal} {x : Nat} {e : Expr} (h : e.reads l.v = false) :
    e.eval (σ.write l x) = e.eval σ := by
  apply Expr.eval_congr
  intro y hy
  unfold Store.write
  rcases Decidable.em (y = l.v) with rfl | hne
  · rw [h] at hy; cases hy
  · simp [hne]

theorem Store.write_ne {σ : Store} {l : LVal} {x : Nat} {y : VarId} (h : y ≠ l.v) :
    σ.write l x y = σ y := by simp [Store.write, h]

theorem setBits_zero_mod (old len x : Nat) : setBits old 0 len x % 2 ^ len = x % 2 ^ len := by
  simp only [setBits, Nat.zero_add, Nat.pow_zero, Nat.mul_one, Nat.mod_one, Nat.add_zero]
  rw [Nat.add_comm, Nat.add_mul_mod_self_right, Nat.mod_mod]

theorem Store.write_self {σ : Store} {v len x : Nat} :
    σ.write ⟨v, 0, len⟩ x v % 2 ^ len = x % 2 ^ len := by
  simp only [Store.write, if_true]; exact setBits_zero_mod _ _ _

end Kratos.Ir
