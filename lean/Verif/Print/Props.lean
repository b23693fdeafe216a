import Verif.Print.LexLemmas
import Verif.Const.Props

/-!
# C07: the printed text of an expression denotes the expression

`Reads Γ cs e` (Spec.lean) says that the characters `cs` read, by SystemVerilog's rules, as `e`.
-/

namespace Kratos.Print
open Kratos.Ir Kratos.Text

/-- C07 in full: the text of every well-formed expression over declared variables reads as an
expression of the same width and the same value in every store. -/
def ExprTextCorrect : Prop :=
  ∀ (Γ : List Char → Option (VarId × Nat)) (name : VarId → List Char) (e : Expr),
    e.WF → Declared Γ name e → ∃ e', Reads Γ (toText name e) e' ∧ Same e' e

/-- Proved for the expressions of `Printable`; the counterexamples below show that each exclusion
is needed. -/
theorem expr_text_partial (Γ : List Char → Option (VarId × Nat)) (name : VarId → List Char) (e : Expr)
    (hwf : e.WF) (hd : Declared Γ name e) (hp : Printable e) :
    ∃ e', Reads Γ (toText name e) e' ∧ Same e' e := by
  obtain ⟨e', hs, N, hN⟩ := (good_all e hp hd hwf).full [] endE_nil
  obtain ⟨M, hM⟩ := lex_pr e .top hp hd [] [] (Or.inl rfl) lexes_nil
  refine ⟨e', ⟨strip (pr name .top e), max N M, fun n hn => ⟨?_, ?_⟩⟩, hs⟩
  · have := hM n (by omega)
    simpa [toText] using this
  · have := hN n (by omega)
    simpa [tk] using this

/-! ## Determinism: a text reads as at most one expression. -/

theorem reads_unique {Γ cs e₁ e₂} (h₁ : Reads Γ cs e₁) (h₂ : Reads Γ cs e₂) : e₁ = e₂ := by
  obtain ⟨t₁, N₁, h₁⟩ := h₁
  obtain ⟨t₂, N₂, h₂⟩ := h₂
  have a := h₁ (max N₁ N₂) (by omega)
  have b := h₂ (max N₁ N₂) (by omega)
  have ht : t₁ = t₂ := Option.some.inj (a.1.symm.trans b.1)
  subst ht
  have := Option.some.inj (a.2.symm.trans b.2)
  exact congrArg (·.1) this

/-! ## Concrete names -/

def nm : VarId → List Char
  | 0 => ['a'] | 1 => ['b'] | _ => ['c']
def env : List Char → Option (VarId × Nat)
  | ['a'] => some (0, 8) | ['b'] => some (1, 8) | ['c'] => some (2, 8) | _ => none
def va : Expr := .var 0 8
def vb : Expr := .var 1 8
def vc : Expr := .var 2 8

theorem ident_nm (v : VarId) : IsIdent (nm v) := by
  match v with
  | 0 => exact ⟨⟨'a', [], rfl, by decide⟩, by simp [nm]; decide⟩
  | 1 => exact ⟨⟨'b', [], rfl, by decide⟩, by simp [nm]; decide⟩
  | n + 2 => exact ⟨⟨'c', [], rfl, by decide⟩, by simp [nm]; decide⟩

/-- Non-vacuity: `(a + b + c) * ~a[3:0]...`: an expression with chains, slices, concatenation,
conditional, negative constant, cast and replication meets every hypothesis. -/
def sampleExpr : Expr :=
  .cond (.bin .eq (.bin .add va (.bin .add vb vc)) (.const 8 (-3)))
    (.concat (.concat (.slice va 3 0) (.slice vb 1 1)) (.extend 3 (.slice vc 0 0)))
    (.bin .minus (.bin .minus va (.un .minus (.un .invert (.un .invert vb)))) (.dup 2 (.slice vc 3 0)))

example : sampleExpr.WF ∧ Declared env nm sampleExpr ∧ Printable sampleExpr := by
  refine ⟨?_, ?_, ?_⟩
  · simp [sampleExpr, Expr.WF, Expr.width, va, vb, vc, BinOp.isBool, UnOp.isBool]
  · simp [sampleExpr, Declared, va, vb, vc, ident_nm]; simp [nm, env]
  · simp [sampleExpr, Printable, isBinOp, isUnOp, isNeg, isVar, assocOp, va, vb, vc]

example : String.ofList (toText nm sampleExpr) =
    "((a + b + c) == -8'h3) ? {a[3:0], b[1], 3'(c[0])}: a - -(~~b) - {32'h2{c[3:0]}}" := by decide +kernel

/-! ## Where the code's text means something else -/

/-- Two expressions with one text: if the text is right for the first, they mean the same. -/
theorem same_of_text {Γ name x y} (ht : toText name x = toText name y) (hwf : y.WF)
    (hd : Declared Γ name y) (hp : Printable y)
    (h : ∃ e', Reads Γ (toText name x) e' ∧ Same e' x) : Same x y := by
  obtain ⟨a, ha, hax⟩ := h
  obtain ⟨b, hb, hby⟩ := expr_text_partial Γ name y hwf hd hp
  rw [ht] at ha
  rw [reads_unique ha hb] at hax
  exact hax.symm.trans hby

/-- `a - (b - c)` is printed `a - b - c`. -/
theorem expr_text_counterexample_right :
    (Expr.bin .minus va (.bin .minus vb vc)).WF ∧
    Declared env nm (.bin .minus va (.bin .minus vb vc)) ∧
    ¬ ∃ e', Reads env (toText nm (.bin .minus va (.bin .minus vb vc))) e' ∧
      Same e' (.bin .minus va (.bin .minus vb vc)) := by
  refine ⟨by simp [Expr.WF, Expr.width, va, vb, vc, BinOp.isBool], by simp [Declared, va, vb, vc, ident_nm]; simp [nm, env], ?_⟩
  intro h
  have hs := same_of_text (Γ := env) (name := nm) (x := .bin .minus va (.bin .minus vb vc))
    (y := .bin .minus (.bin .minus va vb) vc) rfl
    (by simp [Expr.WF, Expr.width, va, vb, vc, BinOp.isBool])
    (by simp [Declared, va, vb, vc, ident_nm]; simp [nm, env])
    (by simp [Printable, isBinOp, va, vb, vc]) h
  have := hs.2 (fun v => if v = 2 then 1 else 0)
  revert this
  decide +kernel

/-- `-(a - b)` is printed `-a - b`. -/
theorem expr_text_counterexample_neg :
    (Expr.un .minus (.bin .minus va vb)).WF ∧ Declared env nm (.un .minus (.bin .minus va vb)) ∧
    ¬ ∃ e', Reads env (toText nm (.un .minus (.bin .minus va vb))) e' ∧
      Same e' (.un .minus (.bin .minus va vb)) := by
  refine ⟨by simp [Expr.WF, Expr.width, va, vb], by simp [Declared, va, vb, ident_nm]; simp [nm, env], ?_⟩
  intro h
  have hs := same_of_text (Γ := env) (name := nm) (x := .un .minus (.bin .minus va vb))
    (y := .bin .minus (.un .minus va) vb) rfl
    (by simp [Expr.WF, Expr.width, va, vb, UnOp.isBool])
    (by simp [Declared, va, vb, ident_nm]; simp [nm, env])
    (by simp [Printable, isBinOp, isUnOp, isNeg, va, vb]) h
  have := hs.2 (fun v => if v = 1 then 1 else 0)
  revert this
  decide +kernel

/-- `-(-a)`, `-(-3)`, `+(+a)`, `&(&a)` and `|(|a)` are printed with a token (`--`, `++`, `&&`,
`||`) that is not a prefix operator: the text is not an expression. -/
theorem expr_text_counterexample_fuse (x : Expr) (h : x = .un .minus (.un .minus va) ∨
    x = .un .minus (.const 8 (-3)) ∨ x = .un .plus (.un .plus va) ∨ x = .un .and (.un .and va) ∨
    x = .un .or (.un .or va)) : x.WF ∧ Declared env nm x ∧ ¬ ∃ e', Reads env (toText nm x) e' := by
  rcases h with rfl | rfl | rfl | rfl | rfl <;>
  · refine ⟨by simp [Expr.WF, va], by simp [Declared, va, ident_nm]; try simp [nm, env], ?_⟩
    rintro ⟨e', ts, N, hN⟩
    obtain ⟨h1, h2⟩ := hN (N + 20) (by omega)
    have h3 := Option.some.inj (Eq.trans (Eq.symm h1) rfl)
    subst h3
    exact absurd (Eq.trans (Eq.symm h2) rfl) (by intro h; cases h)

/-- `(a ^ b)[3:0]` is printed `a ^ b[3:0]`: the select moves to the last operand. -/
theorem expr_text_counterexample_select :
    (Expr.slice (.bin .xor va vb) 3 0).WF ∧ Declared env nm (.slice (.bin .xor va vb) 3 0) ∧
    ¬ ∃ e', Reads env (toText nm (.slice (.bin .xor va vb) 3 0)) e' ∧ Same e' (.slice (.bin .xor va vb) 3 0) := by
  refine ⟨by simp [Expr.WF, Expr.width, va, vb, BinOp.isBool], by simp [Declared, va, vb, ident_nm]; simp [nm, env], ?_⟩
  rintro ⟨e', ⟨ts, N, hN⟩, hs⟩
  obtain ⟨h1, h2⟩ := hN (N + 20) (by omega)
  have h3 : ts = _ := Option.some.inj (Eq.trans (Eq.symm h1) rfl)
  subst h3
  have h4 : some (Expr.bin .xor va (.slice vb 3 0), ([] : List Tok)) = some (e', []) := h2
  cases h4
  have := hs.1
  revert this
  decide

/-- `a[7:4][1:0]` is two selects in a row, which a vector does not have. -/
theorem expr_text_counterexample_chain :
    (Expr.slice (.slice va 7 4) 1 0).WF ∧ Declared env nm (.slice (.slice va 7 4) 1 0) ∧
    ¬ ∃ e', Reads env (toText nm (.slice (.slice va 7 4) 1 0)) e' := by
  refine ⟨by simp [Expr.WF, Expr.width, va], by simp [Declared, va, ident_nm]; simp [nm, env], ?_⟩
  rintro ⟨e', ts, N, hN⟩
  obtain ⟨h1, h2⟩ := hN (N + 20) (by omega)
  have h3 : ts = _ := Option.some.inj (Eq.trans (Eq.symm h1) rfl)
  subst h3
  have h4 : some (Expr.slice va 7 4, ([.sym ['['], .dec 1, .sym [':'], .dec 0, .sym [']']] : List Tok)) = some (e', []) := h2
  cases h4

theorem not_ExprTextCorrect : ¬ ExprTextCorrect := fun h =>
  expr_text_counterexample_right.2.2 (h env nm _ expr_text_counterexample_right.1 expr_text_counterexample_right.2.1)

/-! ## The literal text used here is the text of the constant model (C06) -/

/-- For the constants C06 proves right, the pieces `constText` render to exactly the characters
`Const::to_string` writes. -/
theorem constText_eq (c : Const.KConst) (hs : c.sgn = true → c.value ≠ BitVec.intMin 64)
    (hu : c.sgn = false → c.value.toNat < 2 ^ 63) :
    Const.toText c = .ok (render (constText c.width (Const.number c.sgn c.value))) := by
  obtain ⟨v, w, sgn⟩ := c
  simp only at *
  have hv := v.isLt
  by_cases hneg : sgn = true ∧ v.slt 0 = true
  · obtain ⟨rfl, hn⟩ := hneg
    have hm := hs rfl
    have hn' := (Const.slt_zero v).1 hn
    have hne : v.toNat ≠ 2 ^ 63 := by
      intro e; apply hm; apply BitVec.eq_of_toNat_eq; rw [e]; rfl
    have hnegv : (-v).toNat = 2 ^ 64 - v.toNat := by
      rw [BitVec.toNat_neg]; omega
    have hti : v.toInt = (v.toNat : Int) - 2 ^ 64 := by
      rw [BitVec.toInt_eq_toNat_cond]; simp; omega
    have hnum : Const.number true v = (v.toNat : Int) - 2 ^ 64 := by simp [Const.number, hti]
    have habs : ((v.toNat : Int) - 2 ^ 64).natAbs = 2 ^ 64 - v.toNat := by omega
    have hlt : (v.toNat : Int) - 2 ^ 64 < 0 := by omega
    unfold Const.toText
    simp only [hn, Bool.and_self, if_true, hm, if_false, hnum, constText, hlt, habs]
    rw [Const.hexInt_nonneg (by omega), hnegv]
    simp [render, Piece.text]
  · have hlt : v.toNat < 2 ^ 63 := by
      cases sgn with
      | false => exact hu rfl
      | true =>
        have : ¬ v.slt 0 = true := fun h => hneg ⟨rfl, h⟩
        rw [Const.slt_zero] at this
        omega
    have hnum : Const.number sgn v = (v.toNat : Int) := by
      have hti : v.toInt = (v.toNat : Int) := by
        rw [BitVec.toInt_eq_toNat_cond]; simp; omega
      cases sgn <;> simp [Const.number, hti]
    have hb : (sgn && v.slt 0) = false := by
      cases sgn <;> simp_all
    unfold Const.toText
    simp only [hb, Bool.false_eq_true, if_false, hnum, constText]
    rw [Const.hexInt_nonneg hlt, if_neg (by omega), Int.natAbs_natCast]
    simp [render, Piece.text]

end Kratos.Print
