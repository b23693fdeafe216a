import Verif.Sim.ExprProps

/-! C55: static evaluation of expressions. -/

namespace Kratos.Sim

open Kratos.Ir

/-- The full claim: a returned value is the value of the expression whatever the variables hold; in
particular nothing is returned for an expression whose value depends on a variable. -/
def StaticClaim : Prop :=
  ∀ cpow e v, e.WF → staticEval cpow e = .ok v → ∀ σ, e.eval σ = v.toNat

/-- No variable occurs. -/
def Closed (e : Expr) : Prop := ∀ x, e.reads x = false

/-- C55, the part that holds: for expressions without variables, built from the operators the
evaluator gets right, the value returned is the value of the expression, and it is positive. -/
theorem static_partial (cpow : U64 → U64 → Res U64) (e : Expr) (hg : Good (fun _ => 0) e) (hc : Closed e)
    (v : U64) (h : staticEval cpow e = .ok v) (σ : Store) : e.eval σ = v.toNat ∧ 0 < v.toNat := by
  have hr := sim_right cpow (fun _ => 0) (fun _ => none) (fun _ => 0) (fun _ => Nat.two_pow_pos _) e hg
    (fun x hx => by rw [hc x] at hx; cases hx)
  simp only [staticEval, Res.bind_eq_ok] at h
  obtain ⟨a, ha, h⟩ := h
  cases a with
  | none => exact absurd ha hr.known
  | some u =>
    simp only at h
    split at h
    · cases h
    · rename_i hpos
      injection h with h
      subst h
      have := (hr.value u ha).1
      rw [Expr.eval_congr (σ := σ) (τ := fun _ => 0) e (fun x hx => by rw [hc x] at hx; cases hx)]
      refine ⟨this.symm, ?_⟩
      rcases Nat.eq_zero_or_pos u.toNat with h0 | h0
      · exfalso; apply hpos
        have : u = 0 := BitVec.eq_of_toNat_eq (by simpa using h0)
        subst this; decide
      · exact h0

/-- Some operand position the evaluator looks at (all but the condition of a conditional) holds a
variable. -/
def OpenOutsideConditions : Expr → Prop
  | .var _ _ => True
  | .const _ _ => False
  | .slice e _ _ => OpenOutsideConditions e
  | .un _ e => OpenOutsideConditions e
  | .bin _ l r => OpenOutsideConditions l ∨ OpenOutsideConditions r
  | .cond _ l r => OpenOutsideConditions l ∨ OpenOutsideConditions r
  | .concat l r => OpenOutsideConditions l ∨ OpenOutsideConditions r
  | .extend _ e => OpenOutsideConditions e
  | .dup _ e => OpenOutsideConditions e

theorem open_unknown (cpow : U64 → U64 → Res U64) : ∀ (e : Expr) (m : Mode), OpenOutsideConditions e →
    ∀ v, simE cpow (fun _ => none) m e ≠ .ok (some v)
  | .var _ _, m, _, v => by cases m <;> simp [simE, finish]
  | .const _ _, _, h, _ => by simp [OpenOutsideConditions] at h
  | .slice e hi lo, m, h, v => by
    have ih := open_unknown cpow e .root h
    cases m with
    | root => intro hh; simp only [simE] at hh; exact ih v hh
    | value =>
      intro hh
      simp only [simE, finish, Res.bind_eq_ok] at hh
      obtain ⟨a, ha, hh⟩ := hh
      cases a with
      | none => cases hh
      | some u => exact ih u ha
    | spine acc sh =>
      intro hh
      simp only [simE, finish, Res.bind_eq_ok] at hh
      obtain ⟨b, ⟨a, ha, hb⟩, hh⟩ := hh
      cases a with
      | none => injection hb with hb; subst hb; cases hh
      | some u => exact ih u ha
  | .un op e, m, h, v => by
    have ih := open_unknown cpow e .value h
    cases m with
    | spine acc sh =>
      intro hh
      simp only [simE, finish, Res.bind_eq_ok] at hh
      obtain ⟨b, ⟨a, ha, hb⟩, hh⟩ := hh
      cases a with
      | none => injection hb with hb; subst hb; cases hh
      | some u => exact ih u ha
    | root =>
      intro hh
      simp only [simE, finish, Res.bind_eq_ok] at hh
      obtain ⟨a, ha, hh⟩ := hh
      cases a with
      | none => cases hh
      | some u => exact ih u ha
    | value =>
      intro hh
      simp only [simE, finish, Res.bind_eq_ok] at hh
      obtain ⟨a, ha, hh⟩ := hh
      cases a with
      | none => cases hh
      | some u => exact ih u ha
  | .bin op l r, m, h, v => by
    have key : ∀ o, (simE cpow (fun _ => none) .value l).bind (fun
        | none => .ok none
        | some a => (simE cpow (fun _ => none) .value r).bind fun
          | none => .ok none
          | some b =>
            (Eval.evalBin cpow a b (evBin op) (Expr.bin op l r).width false).bind fun x => .ok (some x))
        = .ok o → o = none := by
      intro o ho
      simp only [Res.bind_eq_ok] at ho
      obtain ⟨a, ha, ho⟩ := ho
      cases a with
      | none => simpa using ho.symm
      | some u =>
        rcases h with h | h
        · exact absurd ha (open_unknown cpow l .value h u)
        · simp only [Res.bind_eq_ok] at ho
          obtain ⟨b, hb, ho⟩ := ho
          cases b with
          | none => simpa using ho.symm
          | some w => exact absurd hb (open_unknown cpow r .value h w)
    cases m with
    | spine acc sh =>
      intro hh
      simp only [simE, finish] at hh
      rw [Res.bind_eq_ok] at hh
      obtain ⟨b, hb, hh⟩ := hh
      have := key b hb
      subst this; cases hh
    | root => intro hh; simp only [simE, finish] at hh; cases key _ hh
    | value => intro hh; simp only [simE, finish] at hh; cases key _ hh
  | .cond p l r, m, h, v => by
    have key : ∀ o, (simE cpow (fun _ => none) .value l).bind (fun
      | none => .ok none
      | some a => (simE cpow (fun _ => none) .value r).bind fun b =>
          (simE cpow (fun _ => none) .value p).bind fun c => condResult a b c (Expr.cond p l r).width)
        = .ok o → o = none := by
      intro o ho
      simp only [Res.bind_eq_ok] at ho
      obtain ⟨a, ha, ho⟩ := ho
      cases a with
      | none => simpa using ho.symm
      | some u =>
        rcases h with h | h
        · exact absurd ha (open_unknown cpow l .value h u)
        · simp only [Res.bind_eq_ok] at ho
          obtain ⟨b, hb, c, _, ho⟩ := ho
          cases b with
          | some w => exact absurd hb (open_unknown cpow r .value h w)
          | none => cases c <;> simp [condResult] at ho; exact ho.symm
    cases m with
    | spine acc sh =>
      intro hh
      simp only [simE, finish] at hh
      rw [Res.bind_eq_ok] at hh
      obtain ⟨b, hb, hh⟩ := hh
      have := key b hb
      subst this; cases hh
    | root => intro hh; simp only [simE, finish] at hh; cases key _ hh
    | value => intro hh; simp only [simE, finish] at hh; cases key _ hh
  | .concat l r, m, h, v => by
    have key : ∀ acc sh sh' v, (simE cpow (fun _ => none) (.spine acc sh) r).bind (fun
        | none => .ok none
        | some acc' => simE cpow (fun _ => none) (.spine acc' sh') l) ≠ .ok (some v) := by
      intro acc sh sh' v hh
      simp only [Res.bind_eq_ok] at hh
      obtain ⟨a, ha, hh⟩ := hh
      cases a with
      | none => cases hh
      | some u =>
        rcases h with h | h
        · exact open_unknown cpow l _ h v hh
        · exact open_unknown cpow r _ h u ha
    cases m with
    | spine acc sh => simp only [simE]; exact key _ _ _ v
    | root => simp only [simE]; exact key _ _ _ v
    | value => simp only [simE]; exact key _ _ _ v
  | .extend _ e, m, h, v => by
    have ih := open_unknown cpow e .value h
    cases m with
    | spine acc sh =>
      intro hh
      simp only [simE, finish, Res.bind_eq_ok] at hh
      obtain ⟨a, ha, hh⟩ := hh
      cases a with
      | none => cases hh
      | some u => exact ih u ha
    | root => intro hh; simp only [simE, finish] at hh; exact ih v hh
    | value => intro hh; simp only [simE, finish] at hh; exact ih v hh
  | .dup _ e, m, h, v => by
    have ih := open_unknown cpow e .value h
    cases m with
    | spine acc sh =>
      intro hh
      simp only [simE, finish, Res.bind_eq_ok] at hh
      obtain ⟨b, ⟨a, ha, hb⟩, hh⟩ := hh
      cases a with
      | none => injection hb with hb; subst hb; cases hh
      | some u => cases hb
    | root =>
      intro hh
      simp only [simE, finish, Res.bind_eq_ok] at hh
      obtain ⟨a, ha, hh⟩ := hh
      cases a <;> cases hh
    | value =>
      intro hh
      simp only [simE, finish, Res.bind_eq_ok] at hh
      obtain ⟨a, ha, hh⟩ := hh
      cases a <;> cases hh

/-- Nothing is returned when a variable occurs anywhere but in the condition of a
conditional expression. -/
theorem static_needs_values (cpow : U64 → U64 → Res U64) (e : Expr) (h : OpenOutsideConditions e) (v : U64) :
    staticEval cpow e ≠ .ok v := by
  intro hh
  simp only [staticEval, Res.bind_eq_ok] at hh
  obtain ⟨a, ha, hh⟩ := hh
  cases a with
  | none => cases hh
  | some u => exact open_unknown cpow e .value h u ha

/-! ### What fails -/

/-- `s ? 1 : 2` with a variable `s` is "statically" 2. -/
theorem static_depends_on_variable (cpow : U64 → U64 → Res U64) :
    staticEval cpow (.cond (.var 0 1) (.const 4 1) (.const 4 2)) = .ok 2#64 ∧
    (Expr.cond (.var 0 1) (.const 4 1) (.const 4 2)).eval (fun _ => 1) = 1 := by
  constructor
  · simp [staticEval, simE, finish, condResult]
  · decide

theorem not_StaticClaim : ¬ StaticClaim := by
  intro h
  have h1 := static_depends_on_variable (fun _ _ => .ub)
  have := h _ _ _ (by simp [Expr.WF, Expr.width]) h1.1 (fun _ => 1)
  rw [h1.2] at this
  exact absurd this (by decide)

/-- A bit of a constant: the evaluator calls itself without end. -/
theorem static_constant_slice_diverges (cpow : U64 → U64 → Res U64) (w : Nat) (c : Int) (hi lo : Nat) :
    staticEval cpow (.slice (.const w c) hi lo) = .ub := by
  simp [staticEval, simE, finish]

/-- A negative constant compared with its own bit pattern is "different": the evaluator uses all 64
bits of the constant. -/
theorem static_negative_constant (cpow : U64 → U64 → Res U64) :
    simE cpow (fun _ => none) .value (.bin .eq (.const 8 255) (.const 8 (-1))) = .ok (some 0#64) ∧
    (Expr.bin .eq (.const 8 255) (.const 8 (-1))).eval (fun _ => 0) = 1 := by
  constructor
  · simp only [simE, finish, Res.ok_bind]
    have h := Eval.evalBin_unsigned cpow (w := 1) (by decide) (by decide) (BitVec.ofInt 64 255) (BitVec.ofInt 64 (-1)) .eq
    simp only [evBin, Expr.width, BinOp.isBool, if_true]
    rw [h]
    rfl
  · decide

/-- Reading bit 1 of `4'b1110` gives 3. -/
theorem bit_select_wrong : readSlice 4 [(1, 1)] 14#64 = .ok 3#64 ∧
    (Expr.slice (.var 0 4) 1 1).eval (fun _ => 14) = 1 := by decide

/-- Reading a range of a variable always fails. -/
theorem range_select_fails : readSlice 8 [(3, 0)] 255#64 = .throw .user := by decide

/-- Writing bit 0 of a variable clears its other bits. -/
theorem bit_write_clobbers : writeSlice 4 0 0 12#64 1#64 = .ok 1#64 ∧ setBits 12 0 1 1 = 13 := by decide

/-- `4 * 3 + 1` is static, and 13. -/
example : Good (fun _ => 0) (.bin .add (.bin .multiply (.const 5 4) (.const 5 3)) (.const 5 1)) ∧
    Closed (.bin .add (.bin .multiply (.const 5 4) (.const 5 3)) (.const 5 1)) := by
  constructor
  · simp [Good, Expr.width, BinOp.isBool]
  · intro x; rfl

example (cpow : U64 → U64 → Res U64) :
    staticEval cpow (.bin .add (.const 5 12) (.const 5 1)) = .ok 13#64 := by
  simp only [staticEval, simE, finish, Res.ok_bind, evBin, Expr.width, BinOp.isBool]
  have h := Eval.evalBin_unsigned cpow (w := 5) (by decide) (by decide) (BitVec.ofInt 64 12) (BitVec.ofInt 64 1) .add
  simp only [Bool.false_eq_true, if_false]
  rw [h]
  rfl

end Kratos.Sim
