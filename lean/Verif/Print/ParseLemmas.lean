import Verif.Print.Spec
import Verif.Ir.Lemmas
import Verif.Eval.Lemmas

namespace Kratos.Print
open Kratos.Ir Kratos.Text

/-! ### Same -/

theorem Same.refl (a : Expr) : Same a a := ⟨rfl, fun _ => rfl⟩
theorem Same.symm {a b : Expr} (h : Same a b) : Same b a := ⟨h.1.symm, fun σ => (h.2 σ).symm⟩
theorem Same.trans {a b c : Expr} (h : Same a b) (k : Same b c) : Same a c :=
  ⟨h.1.trans k.1, fun σ => (h.2 σ).trans (k.2 σ)⟩
theorem Same.un {a b : Expr} (h : Same a b) (op) : Same (.un op a) (.un op b) :=
  ⟨by simp only [Expr.width, h.1], fun σ => by simp only [Expr.eval, h.1, h.2 σ]⟩
theorem Same.bin {a b c d : Expr} (h : Same a b) (k : Same c d) (op) :
    Same (.bin op a c) (.bin op b d) :=
  ⟨by simp only [Expr.width, h.1], fun σ => by simp only [Expr.eval, h.1, h.2 σ, k.2 σ]⟩
theorem Same.concat {a b c d : Expr} (h : Same a b) (k : Same c d) :
    Same (.concat a c) (.concat b d) :=
  ⟨by simp only [Expr.width, h.1, k.1], fun σ => by simp only [Expr.eval, h.2 σ, k.1, k.2 σ]⟩
theorem Same.extend {a b : Expr} (h : Same a b) (w) : Same (.extend w a) (.extend w b) :=
  ⟨rfl, fun σ => by simp only [Expr.eval, h.2 σ]⟩
theorem Same.dup {a b : Expr} (h : Same a b) (n) : Same (.dup n a) (.dup n b) :=
  ⟨by simp only [Expr.width, h.1], fun σ => by simp only [Expr.eval, h.1, h.2 σ]⟩
theorem Same.cond {a b c d p q : Expr} (j : Same p q) (h : Same a b) (k : Same c d) :
    Same (.cond p a c) (.cond q b d) :=
  ⟨by simp only [Expr.width, h.1], fun σ => by simp only [Expr.eval, j.2 σ, h.2 σ, k.2 σ]⟩

theorem b2n_ne (b : Bool) : (b2n b != 0) = b := by cases b <;> rfl

theorem assoc_sem (op : BinOp) (h : assocOp op = true) (w x y z : Nat) :
    op.sem w (op.sem w x y) z = op.sem w x (op.sem w y z) := by
  cases op <;> simp [assocOp] at h <;> simp only [BinOp.sem]
  · rw [Nat.mod_add_mod, Nat.add_mod_mod, Nat.add_assoc]
  · rw [Nat.mod_mul_mod, Nat.mul_mod_mod, Nat.mul_assoc]
  · exact Nat.or_assoc ..
  · exact Nat.and_assoc ..
  · exact Nat.xor_assoc ..
  · rw [b2n_ne, b2n_ne, Bool.and_assoc]
  · rw [b2n_ne, b2n_ne, Bool.or_assoc]

theorem same_assoc (op : BinOp) (h : assocOp op = true) (a b c : Expr) (hw : a.width = b.width) :
    Same (.bin op (.bin op a b) c) (.bin op a (.bin op b c)) := by
  have hb : op.isBool = false := by cases op <;> simp [assocOp] at h <;> rfl
  refine ⟨by simp [Expr.width, hb], fun σ => ?_⟩
  simp only [Expr.eval, Expr.width, hb, Bool.false_eq_true, if_false, hw]
  exact assoc_sem op h ..

/-! ### Parses -/

def Parses (f : Nat → PRes) (x : Expr × List Tok) : Prop := ∃ N, ∀ n ≥ N, f n = some x

/-- Tokens: the text without blanks. -/
def strip : List Piece → List Tok
  | [] => []
  | .sp :: ps => strip ps
  | p :: ps => p :: strip ps

theorem strip_append : ∀ a b : List Piece, strip (a ++ b) = strip a ++ strip b
  | [], b => rfl
  | p :: ps, b => by
      cases p <;> simp only [List.cons_append, strip, strip_append ps b]

@[simp] theorem strip_nil : strip [] = [] := rfl
@[simp] theorem strip_sp (ps) : strip (.sp :: ps) = strip ps := rfl
@[simp] theorem strip_sym (s ps) : strip (.sym s :: ps) = .sym s :: strip ps := rfl
@[simp] theorem strip_id (s ps) : strip (.id s :: ps) = .id s :: strip ps := rfl
@[simp] theorem strip_num (w v ps) : strip (.num w v :: ps) = .num w v :: strip ps := rfl
@[simp] theorem strip_dec (n ps) : strip (.dec n :: ps) = .dec n :: strip ps := rfl

def NoSel (rest : List Tok) : Prop := ∀ r, rest ≠ .sym ['['] :: r
def Stop (m : Nat) (rest : List Tok) : Prop :=
  ∀ s r op q, rest = .sym s :: r → binTok s = some (op, q) → q < m
def NoQ (rest : List Tok) : Prop := ∀ r, rest ≠ .sym ['?'] :: r
/-- What may follow a complete expression. -/
def EndE (rest : List Tok) : Prop := NoSel rest ∧ Stop 1 rest ∧ NoQ rest

theorem Stop.mono {m k rest} (h : Stop m rest) (hk : m ≤ k) : Stop k rest :=
  fun s r op q e b => Nat.lt_of_lt_of_le (h s r op q e b) hk

/-- Precedence of a binary operator. -/
def prec (op : BinOp) : Nat := ((binTok (binStr op)).map (·.2)).getD 0

theorem binTok_str (op : BinOp) : binTok (binStr op) = some (op, prec op) := by
  cases op <;> rfl
theorem unTok_str (op : UnOp) : unTok (unStr op) = some op := by cases op <;> rfl
theorem unStr_ne (op : UnOp) : unStr op ≠ ['('] ∧ unStr op ≠ ['{'] := by cases op <;> decide
theorem prec_pos (op : BinOp) : 1 ≤ prec op := by cases op <;> decide

theorem binStr_noSel (op) (r) : NoSel (.sym (binStr op) :: r) := by
  intro r' h; cases op <;> cases h
theorem binStr_stop (op) (r) : Stop (prec op + 1) (.sym (binStr op) :: r) := by
  intro s r' o q h hb
  cases h
  rw [binTok_str] at hb
  cases hb
  omega

theorem endE_of {s : List Char} (r : List Tok) (h : s = [')'] ∨ s = ['}'] ∨ s = [','] ∨ s = [':'] ∨ s = ['{']) :
    EndE (.sym s :: r) := by
  refine ⟨?_, ?_, ?_⟩
  · intro r' e; cases e; simp at h
  · intro s' r' op q e hb
    cases e
    rcases h with rfl | rfl | rfl | rfl | rfl <;> cases hb
  · intro r' e; cases e; simp at h

theorem endE_nil : EndE [] := ⟨(by intro r h; cases h), (by intro _ _ _ _ h; cases h), (by intro r h; cases h)⟩

variable {Γ : List Char → Option (VarId × Nat)}

theorem loop_stop {m e rest} (h : Stop m rest) : Parses (fun n => pLoop Γ n m e rest) (e, rest) := by
  refine ⟨1, fun n hn => ?_⟩
  obtain ⟨n, rfl⟩ : ∃ k, n = k + 1 := ⟨n - 1, by omega⟩
  simp only [pLoop]
  split
  · rename_i s r
    split
    · rename_i op q hb
      have := h s r op q rfl hb
      rw [if_neg (by omega)]
    · rfl
  · rfl

theorem bin_of_unary {m ts e r x} (h : Parses (fun n => pUnary Γ n ts) (e, r))
    (k : Parses (fun n => pLoop Γ n m e r) x) : Parses (fun n => pBin Γ n m ts) x := by
  obtain ⟨N, hN⟩ := h
  obtain ⟨K, hK⟩ := k
  refine ⟨N + K + 1, fun n hn => ?_⟩
  obtain ⟨n, rfl⟩ : ∃ k, n = k + 1 := ⟨n - 1, by omega⟩
  have h1 := hN n (by omega)
  have h2 := hK n (by omega)
  simp only at h1 h2
  simp only [pBin, h1, h2]

theorem loop_step {m op e r e2 r2 x} (hm : m ≤ prec op)
    (h : Parses (fun n => pBin Γ n (prec op + 1) r) (e2, r2))
    (k : Parses (fun n => pLoop Γ n m (.bin op e e2) r2) x) :
    Parses (fun n => pLoop Γ n m e (.sym (binStr op) :: r)) x := by
  obtain ⟨N, hN⟩ := h
  obtain ⟨K, hK⟩ := k
  refine ⟨N + K + 1, fun n hn => ?_⟩
  obtain ⟨n, rfl⟩ : ∃ k, n = k + 1 := ⟨n - 1, by omega⟩
  have h1 := hN n (by omega)
  have h2 := hK n (by omega)
  simp only at h1 h2
  simp only [pLoop, binTok_str, hm, if_true, h1, h2]

theorem expr_of_bin {ts e r} (h : Parses (fun n => pBin Γ n 1 ts) (e, r)) (hq : NoQ r) :
    Parses (fun n => pExpr Γ n ts) (e, r) := by
  obtain ⟨N, hN⟩ := h
  refine ⟨N + 1, fun n hn => ?_⟩
  obtain ⟨n, rfl⟩ : ∃ k, n = k + 1 := ⟨n - 1, by omega⟩
  have h1 := hN n (by omega)
  simp only at h1
  simp only [pExpr, h1]
  split
  · rename_i e' r' he
    cases he
    exact absurd rfl (hq _)
  · rename_i he; exact he ▸ rfl
  · rename_i he; cases he

theorem expr_of_unary {ts e r} (h : Parses (fun n => pUnary Γ n ts) (e, r)) (hr : EndE r) :
    Parses (fun n => pExpr Γ n ts) (e, r) :=
  expr_of_bin (bin_of_unary h (loop_stop hr.2.1)) hr.2.2

theorem expr_cond {ts e r l r1 x r2} (h : Parses (fun n => pBin Γ n 1 ts) (e, .sym ['?'] :: r))
    (hl : Parses (fun n => pExpr Γ n r) (l, .sym [':'] :: r1))
    (hx : Parses (fun n => pExpr Γ n r1) (x, r2)) :
    Parses (fun n => pExpr Γ n ts) (.cond e l x, r2) := by
  obtain ⟨N, hN⟩ := h
  obtain ⟨K, hK⟩ := hl
  obtain ⟨J, hJ⟩ := hx
  refine ⟨N + K + J + 1, fun n hn => ?_⟩
  obtain ⟨n, rfl⟩ : ∃ k, n = k + 1 := ⟨n - 1, by omega⟩
  have h1 := hN n (by omega)
  have h2 := hK n (by omega)
  have h3 := hJ n (by omega)
  simp only at h1 h2 h3
  simp only [pExpr, h1, h2, h3]

theorem unary_paren {ts e r} (h : Parses (fun n => pExpr Γ n ts) (e, .sym [')'] :: r)) :
    Parses (fun n => pUnary Γ n (.sym ['('] :: ts)) (e, r) := by
  obtain ⟨N, hN⟩ := h
  refine ⟨N + 1, fun n hn => ?_⟩
  obtain ⟨n, rfl⟩ : ∃ k, n = k + 1 := ⟨n - 1, by omega⟩
  have h1 := hN n (by omega)
  simp only at h1
  simp only [pUnary, h1, if_true]

theorem unary_op {op ts e r} (h : Parses (fun n => pUnary Γ n ts) (e, r)) :
    Parses (fun n => pUnary Γ n (.sym (unStr op) :: ts)) (.un op e, r) := by
  obtain ⟨N, hN⟩ := h
  refine ⟨N + 1, fun n hn => ?_⟩
  obtain ⟨n, rfl⟩ : ∃ k, n = k + 1 := ⟨n - 1, by omega⟩
  have h1 := hN n (by omega)
  simp only at h1
  simp only [pUnary, if_neg (unStr_ne op).1, if_neg (unStr_ne op).2, unTok_str, h1]

theorem unary_num (w v) (r : List Tok) :
    Parses (fun n => pUnary Γ n (.num w v :: r)) (.const w (v % 2 ^ w : Nat), r) := by
  refine ⟨1, fun n hn => ?_⟩
  obtain ⟨n, rfl⟩ : ∃ k, n = k + 1 := ⟨n - 1, by omega⟩
  simp only [pUnary]

theorem unary_id {s v w} (h : Γ s = some (v, w)) {ts e r} (hs : pSelect v w ts = some (e, r)) :
    Parses (fun n => pUnary Γ n (.id s :: ts)) (e, r) := by
  refine ⟨1, fun n hn => ?_⟩
  obtain ⟨n, rfl⟩ : ∃ k, n = k + 1 := ⟨n - 1, by omega⟩
  simp only [pUnary, h, hs]

theorem unary_cast {w ts e r} (h : Parses (fun n => pExpr Γ n ts) (e, .sym [')'] :: r)) :
    Parses (fun n => pUnary Γ n (.dec w :: .sym ['\''] :: .sym ['('] :: ts)) (.extend w e, r) := by
  obtain ⟨N, hN⟩ := h
  refine ⟨N + 1, fun n hn => ?_⟩
  obtain ⟨n, rfl⟩ : ∃ k, n = k + 1 := ⟨n - 1, by omega⟩
  have h1 := hN n (by omega)
  simp only at h1
  simp only [pUnary, h1]

/-- Contents of braces: an expression and what `pBrace` makes of the rest. -/
def pContent (Γ : List Char → Option (VarId × Nat)) (n : Nat) (ts : List Tok) : PRes :=
  match pExpr Γ n ts with
  | some (x, r) => pBrace Γ n x r
  | none => none

theorem unary_brace {ts x} (h : Parses (fun n => pContent Γ n ts) x) :
    Parses (fun n => pUnary Γ n (.sym ['{'] :: ts)) x := by
  obtain ⟨N, hN⟩ := h
  refine ⟨N + 1, fun n hn => ?_⟩
  obtain ⟨n, rfl⟩ : ∃ k, n = k + 1 := ⟨n - 1, by omega⟩
  have h1 := hN n (by omega)
  simp only [pContent] at h1
  simp only [pUnary]
  rw [if_neg (by decide), if_pos trivial]
  exact h1

theorem content_of {ts e r x} (h : Parses (fun n => pExpr Γ n ts) (e, r))
    (k : Parses (fun n => pBrace Γ n e r) x) : Parses (fun n => pContent Γ n ts) x := by
  obtain ⟨N, hN⟩ := h
  obtain ⟨K, hK⟩ := k
  refine ⟨N + K, fun n hn => ?_⟩
  have h1 := hN n (by omega)
  have h2 := hK n (by omega)
  simp only at h1 h2
  simp only [pContent, h1, h2]

theorem brace_close (e) (r : List Tok) : Parses (fun n => pBrace Γ n e (.sym ['}'] :: r)) (e, r) := by
  refine ⟨1, fun n hn => ?_⟩
  obtain ⟨n, rfl⟩ : ∃ k, n = k + 1 := ⟨n - 1, by omega⟩
  simp only [pBrace]

theorem brace_comma {e ts y r x} (h : Parses (fun n => pExpr Γ n ts) (y, r))
    (k : Parses (fun n => pBrace Γ n (.concat e y) r) x) :
    Parses (fun n => pBrace Γ n e (.sym [','] :: ts)) x := by
  obtain ⟨N, hN⟩ := h
  obtain ⟨K, hK⟩ := k
  refine ⟨N + K + 1, fun n hn => ?_⟩
  obtain ⟨n, rfl⟩ : ∃ k, n = k + 1 := ⟨n - 1, by omega⟩
  have h1 := hN n (by omega)
  have h2 := hK n (by omega)
  simp only at h1 h2
  simp only [pBrace, h1, h2]

theorem brace_dup {w c ts y r} (h : Parses (fun n => pContent Γ n ts) (y, .sym ['}'] :: r)) :
    Parses (fun n => pBrace Γ n (.const w c) (.sym ['{'] :: ts)) (.dup c.toNat y, r) := by
  obtain ⟨N, hN⟩ := h
  refine ⟨N + 1, fun n hn => ?_⟩
  obtain ⟨n, rfl⟩ : ∃ k, n = k + 1 := ⟨n - 1, by omega⟩
  have h1 := hN n (by omega)
  simp only [pContent] at h1
  simp only [pBrace]
  cases h2 : pExpr Γ n ts with
  | none => rw [h2] at h1; cases h1
  | some p =>
    obtain ⟨x, r'⟩ := p
    rw [h2] at h1
    simp only at h1
    simp only [h1]

/-! ### constants -/

theorem pattern_nat (w n : Nat) : pattern w ((n % 2 ^ w : Nat) : Int) = n % 2 ^ w := by
  unfold pattern
  have hc : ((2:Int) ^ w) = ((2 ^ w : Nat) : Int) := by simp
  rw [hc, ← Int.natCast_emod, Int.toNat_natCast, Nat.mod_mod]

theorem pattern_ofNat (w n : Nat) : pattern w (n : Int) = n % 2 ^ w := by
  unfold pattern
  have hc : ((2:Int) ^ w) = ((2 ^ w : Nat) : Int) := by simp
  rw [hc, ← Int.natCast_emod, Int.toNat_natCast]

theorem pattern_neg (w n : Nat) : pattern w (-(n : Int)) = (2 ^ w - n % 2 ^ w) % 2 ^ w := by
  unfold pattern
  have hc : ((2:Int) ^ w) = ((2 ^ w : Nat) : Int) := by simp
  have hp := Nat.two_pow_pos w
  have hlt : n % 2 ^ w < 2 ^ w := Nat.mod_lt _ hp
  rw [hc]
  have : (-(n : Int)) % ((2 ^ w : Nat) : Int) = (-((n % 2 ^ w : Nat) : Int)) % ((2 ^ w : Nat) : Int) := by
    rw [Int.natCast_emod]
    exact Eval.neg_congr (Int.emod_emod _ _).symm
  rw [this]
  by_cases h0 : n % 2 ^ w = 0
  · simp [h0]
  · rw [Nat.mod_eq_of_lt (show 2 ^ w - n % 2 ^ w < 2 ^ w by omega)]
    rw [← Int.add_emod_right, Int.emod_eq_of_lt (by omega) (by omega)]
    omega

theorem const_unary (w : Nat) (v : Int) (r : List Tok) :
    ∃ e', Same e' (.const w v) ∧ Parses (fun n => pUnary Γ n (strip (constText w v) ++ r)) (e', r) := by
  unfold constText
  split
  · rename_i h
    refine ⟨.un .minus (.const w (v.natAbs % 2 ^ w : Nat)), ⟨rfl, fun σ => ?_⟩, ?_⟩
    · simp only [Expr.eval, UnOp.sem, pattern_nat, Expr.width]
      rw [← pattern_neg]
      congr 1
      omega
    · exact unary_op (op := .minus) (unary_num w v.natAbs r)
  · rename_i h
    refine ⟨.const w (v.natAbs % 2 ^ w : Nat), ⟨rfl, fun σ => ?_⟩, unary_num w v.natAbs r⟩
    simp only [Expr.eval, pattern_nat]
    rw [← pattern_ofNat]
    congr 1
    omega

end Kratos.Print
