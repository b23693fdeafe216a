import Verif.Print.ParseMain

namespace Kratos.Print
open Kratos.Ir Kratos.Text

def Lexes (cs : List Char) (ts : List Tok) : Prop := ∃ N, ∀ n ≥ N, lex n cs = some ts

theorem lexes_nil : Lexes [] [] := ⟨1, fun n hn => by
  cases n with
  | zero => omega
  | succ n => rfl⟩

theorem lexes_sp {cs ts} (h : Lexes cs ts) : Lexes (' ' :: cs) ts := by
  obtain ⟨N, hN⟩ := h
  refine ⟨N + 1, fun n hn => ?_⟩
  cases n with
  | zero => omega
  | succ n => rw [lex]; exact hN n (by omega)

theorem lexes_tok {c cs t r ts} (hc : c ≠ ' ') (h1 : lexOne (c :: cs) = some (t, r)) (h : Lexes r ts) :
    Lexes (c :: cs) (t :: ts) := by
  obtain ⟨N, hN⟩ := h
  refine ⟨N + 1, fun n hn => ?_⟩
  cases n with
  | zero => omega
  | succ n => simp [lex, hc, h1, hN n (by omega)]

/-- `b` may follow the one-character token `a`. -/
def safe (a b : Char) : Bool := !in2 a b && syms3.all fun s => !(s.take 2 == [a, b])

theorem in3_of_safe {a b} (h : safe a b = true) (c) : in3 a b c = false := by
  simp only [safe, Bool.and_eq_true, List.all_eq_true] at h
  cases hc : in3 a b c with
  | false => rfl
  | true =>
    have := h.2 [a, b, c] (by simpa [in3] using hc)
    simp at this

theorem matchSym1 {a : Char} {r : List Char} (ha : syms1.contains a = true)
    (h : ∀ b t, r = b :: t → safe a b = true) : matchSym (a :: r) = some ([a], r) := by
  match r with
  | [] => simp only [matchSym, ha, if_true]
  | [b] =>
    have hs := h b [] rfl
    have h2 : in2 a b = false := by simp [safe] at hs; simp [hs.1]
    simp only [matchSym, ha, h2, if_true, Bool.false_eq_true, if_false]
  | b :: c :: t =>
    have hs := h b _ rfl
    have h2 : in2 a b = false := by simp [safe] at hs; simp [hs.1]
    simp only [matchSym, ha, h2, in3_of_safe hs, if_true, Bool.false_eq_true, if_false]

theorem lexes_sym {a : Char} {r ts} (ha : syms1.contains a = true) (h : ∀ b t, r = b :: t → safe a b = true)
    (hr : Lexes r ts) : Lexes (a :: r) (.sym [a] :: ts) := by
  have hne : a ≠ ' ' ∧ isIdStart a = false ∧ isDigit a = false := by
    simp only [syms1, List.contains_eq_mem, List.mem_cons, List.not_mem_nil, or_false, decide_eq_true_eq] at ha
    rcases ha with rfl | rfl | rfl | rfl | rfl | rfl | rfl | rfl | rfl | rfl | rfl | rfl | rfl | rfl | rfl | rfl | rfl | rfl | rfl | rfl | rfl | rfl | rfl <;>
      decide
  refine lexes_tok hne.1 ?_ hr
  simp [lexOne, hne.2.1, hne.2.2, matchSym1 ha h]

theorem lexes_bin (op : BinOp) {r ts} (h : Lexes r ts) :
    Lexes (binStr op ++ ' ' :: r) (.sym (binStr op) :: ts) := by
  have key : lexOne (binStr op ++ ' ' :: r) = some (.sym (binStr op), ' ' :: r) := by
    cases op <;> cases r <;>
      simp [binStr, lexOne, isIdStart, isDigit, matchSym, in2, in3, syms3, syms2, syms1]
  cases op <;> exact lexes_tok (by decide) key (lexes_sp h)

/-- Characters that may follow an expression. -/
def Follow (r : List Char) : Prop :=
  r = [] ∨ ∃ c t, r = c :: t ∧ c ∈ [' ', ')', '}', ',', ':', '{', '[', ']', '-']

theorem Follow.cons {c t} (h : c ∈ [' ', ')', '}', ',', ':', '{', '[', ']', '-']) : Follow (c :: t) :=
  Or.inr ⟨c, t, rfl, h⟩

/-- First characters of an expression. -/
def Hd (c : Char) : Prop :=
  isIdStart c = true ∨ isDigit c = true ∨ c ∈ ['(', '{', '~', '!', '-', '+', '|', '&', '^']

theorem takeId_append : ∀ (s r : List Char), (∀ c ∈ s, isIdChar c = true) →
    (∀ c t, r = c :: t → isIdChar c = false) → takeId (s ++ r) = (s, r)
  | [], r, _, h => by
      cases r with
      | nil => rfl
      | cons c t => simp [takeId, h c t rfl]
  | d :: s, r, hs, h => by
      have := takeId_append s r (fun c hc => hs c (by simp [hc])) h
      simp [takeId, hs d (by simp), this]

theorem lexes_id {s r ts} (hs : IsIdent s) (hf : Follow r) (h : Lexes r ts) :
    Lexes (s ++ r) (.id s :: ts) := by
  obtain ⟨⟨c, cs, rfl, hc⟩, hall⟩ := hs
  have hr : ∀ c t, r = c :: t → isIdChar c = false := by
    intro c t hr
    rcases hf with rfl | ⟨c', t', rfl, hm⟩
    · cases hr
    · cases hr
      simp only [List.mem_cons, List.not_mem_nil, or_false] at hm
      rcases hm with rfl | rfl | rfl | rfl | rfl | rfl | rfl | rfl | rfl <;> decide
  have ht := takeId_append (c :: cs) r hall hr
  refine lexes_tok (by rintro rfl; revert hc; decide) ?_ h
  rw [List.cons_append] at ht
  simp [lexOne, hc, ht]

theorem printNat_cons (b n : Nat) : ∃ c cs, printNat b n = c :: cs := by
  cases h : printNat b n with
  | nil => exact absurd h (printNat_ne_nil b n)
  | cons c cs => exact ⟨c, cs, rfl⟩

theorem isDigit_of_val {c} (h : (digitVal 10 c).isSome = true) : isDigit c = true := by
  simp only [digitVal] at h
  split at h
  · rename_i d hd
    split at hd
    · rename_i hc
      simp only [show ('0':Char).toNat = 48 from rfl, show ('9':Char).toNat = 57 from rfl] at hc
      simp [isDigit, hc]
    · split at hd
      · simp at hd; split at h
        · omega
        · simp at h
      · split at hd
        · simp at hd; split at h
          · omega
          · simp at h
        · cases hd
  · simp at h

theorem print_head10 (n : Nat) : ∃ c cs, printNat 10 n = c :: cs ∧ isDigit c = true := by
  obtain ⟨c, cs, h⟩ := printNat_cons 10 n
  exact ⟨c, cs, h, isDigit_of_val (printNat_digits (Or.inl rfl) n c (by simp [h]))⟩

theorem not_idStart_of_digit {c} (h : isDigit c = true) : isIdStart c = false := by
  simp only [isDigit, Bool.and_eq_true, decide_eq_true_eq] at h
  simp only [isIdStart, Bool.or_eq_false_iff, Bool.and_eq_false_iff, decide_eq_false_iff_not, beq_eq_false_iff_ne]
  omega

theorem digit_ne_sp {c} (h : isDigit c = true) : c ≠ ' ' := by rintro rfl; revert h; decide

theorem lexes_num {w v r ts} (hf : Follow r) (h : Lexes r ts) :
    Lexes ((Piece.num w v).text ++ r) (.num w v :: ts) := by
  obtain ⟨c, cs, hc, hd⟩ := print_head10 w
  have h10 : takeDigits 10 (printNat 10 w ++ ('\'' :: 'h' :: (printNat 16 v ++ r))) =
      (printNat 10 w, '\'' :: 'h' :: (printNat 16 v ++ r)) :=
    takeDigits_append 10 _ _ (printNat_digits (Or.inl rfl) w) (by intro c hc; cases hc; decide)
  have h16 : takeDigits 16 (printNat 16 v ++ r) = (printNat 16 v, r) := by
    refine takeDigits_append 16 _ _ (printNat_digits (Or.inr rfl) v) ?_
    intro c hc
    rcases hf with rfl | ⟨c', t', rfl, hm⟩
    · cases hc
    · cases hc
      simp only [List.mem_cons, List.not_mem_nil, or_false] at hm
      rcases hm with rfl | rfl | rfl | rfl | rfl | rfl | rfl | rfl | rfl <;> decide
  have hm : matchNum ((Piece.num w v).text ++ r) = some (.num w v, r) := by
    simp only [Piece.text, List.append_assoc, List.cons_append]
    simp only [matchNum, h10, h16, readNat_printNat (Or.inl rfl), readNat_printNat (Or.inr rfl)]
  have ht : (Piece.num w v).text ++ r = c :: (cs ++ '\'' :: 'h' :: (printNat 16 v ++ r)) := by
    simp [Piece.text, hc]
  rw [ht] at hm ⊢
  refine lexes_tok (digit_ne_sp hd) ?_ h
  simp [lexOne, not_idStart_of_digit hd, hd, hm]

theorem lexes_dec {n r ts} (h0 : ∀ c t, r = c :: t → isDigit c = false) (h1 : ∀ t, r ≠ '\'' :: 'h' :: t)
    (h : Lexes r ts) : Lexes (printNat 10 n ++ r) (.dec n :: ts) := by
  obtain ⟨c, cs, hc, hd⟩ := print_head10 n
  have h10 : takeDigits 10 (printNat 10 n ++ r) = (printNat 10 n, r) := by
    refine takeDigits_append 10 _ _ (printNat_digits (Or.inl rfl) n) ?_
    intro c hc
    cases r with
    | nil => cases hc
    | cons d t =>
      simp only [List.head?_cons, Option.some.injEq] at hc
      subst hc
      cases hv : (digitVal 10 d).isSome with
      | false => rfl
      | true => have := h0 d t rfl; rw [isDigit_of_val hv] at this; cases this
  have hm : matchNum (printNat 10 n ++ r) = some (.dec n, r) := by
    simp only [matchNum, h10, readNat_printNat (Or.inl rfl)]
  rw [hc, List.cons_append] at hm ⊢
  refine lexes_tok (digit_ne_sp hd) ?_ h
  simp [lexOne, not_idStart_of_digit hd, hd, hm]

theorem render_append : ∀ a b : List Piece, render (a ++ b) = render a ++ render b
  | [], b => rfl
  | p :: a, b => by simp [render, render_append a b]

theorem Hd.safe_paren {c} (h : Hd c) : safe '(' c = true ∧ safe '{' c = true := by
  have : c ≠ '*' := by
    rintro rfl
    revert h; simp only [Hd]; decide
  constructor <;> simp [safe, in2, syms2, syms3, this]

/-- Nothing fuses with a following letter, digit, parenthesis or brace after these characters. -/
theorem safe_plain {a b : Char} (ha : a ∈ ['~', '!', '-', '+', '|', '&', '^', '(', '{', '[', ':'])
    (hb : isIdStart b = true ∨ isDigit b = true ∨ b ∈ ['(', '{']) : safe a b = true := by
  have hne : ∀ x ∈ ['+','-','*','/','&','|','^','~','<','>','=',':',')'], b ≠ x := by
    intro x hx hbx
    subst hbx
    simp only [List.mem_cons, List.not_mem_nil, or_false] at hx
    rcases hx with rfl | rfl | rfl | rfl | rfl | rfl | rfl | rfl | rfl | rfl | rfl | rfl | rfl <;> revert hb <;> decide
  simp only [List.mem_cons, List.not_mem_nil, or_false, forall_eq_or_imp, forall_eq] at hne
  obtain ⟨h1, h2, h3, h4, h5, h6, h7, h8, h9, h10, h11, h12, h13⟩ := hne
  simp only [List.mem_cons, List.not_mem_nil, or_false] at ha
  rcases ha with rfl | rfl | rfl | rfl | rfl | rfl | rfl | rfl | rfl | rfl | rfl <;>
    simp [safe, in2, syms2, syms3, *, Ne.symm h1, Ne.symm h2, Ne.symm h3, Ne.symm h4, Ne.symm h5, Ne.symm h6,
      Ne.symm h7, Ne.symm h8, Ne.symm h9, Ne.symm h10, Ne.symm h11, Ne.symm h12, Ne.symm h13]

/-- Closing brackets and commas never fuse with what follows. -/
theorem safe_close {a b : Char} (ha : a ∈ [')', '}', ']', ',', '?']) : safe a b = true := by
  simp only [List.mem_cons, List.not_mem_nil, or_false] at ha
  rcases ha with rfl | rfl | rfl | rfl | rfl <;> simp [safe, in2, syms2, syms3]

variable {Γ : List Char → Option (VarId × Nat)} {name : VarId → List Char}

theorem paren_head {b ps c cs} (h : render ps = c :: cs) (hc : Hd c) :
    ∃ d ds, render (paren b ps) = d :: ds ∧ Hd d := by
  unfold paren
  split
  · exact ⟨c, cs, h, hc⟩
  · exact ⟨'(', _, rfl, Or.inr (Or.inr (by simp))⟩

theorem pr_head : ∀ (e : Expr) (m : Mode), Printable e → Declared Γ name e →
    ∃ c cs, render (pr name m e) = c :: cs ∧ Hd c
  | .var v w, m, _, hd => by
      obtain ⟨⟨c, cs, h, hc⟩, _⟩ := hd.1
      exact ⟨c, cs, by simp [pr, render, Piece.text, h], Or.inl hc⟩
  | .const w v, m, _, _ => by
      obtain ⟨c, cs, h, hc⟩ := print_head10 w
      simp only [pr, constText]
      split
      · exact ⟨'-', _, rfl, Or.inr (Or.inr (by simp))⟩
      · exact ⟨c, cs ++ ('\'' :: 'h' :: printNat 16 v.natAbs), by simp [render, Piece.text, h], Or.inr (Or.inl hc)⟩
  | .slice e hi lo, m, hp, hd => by
      have hp' : Printable e := by
        cases e <;> simp [Printable, isVar] at hp ⊢
      obtain ⟨c, cs, h, hc⟩ := pr_head e .top hp' hd
      exact ⟨c, cs ++ render (sliceText e.width hi lo), by simp [pr, render_append, h], hc⟩
  | .un op e, m, _, _ => by
      refine paren_head (c := (unStr op).head (by cases op <;> simp [unStr])) (cs := render (pr name (.arg (unCode op)) e)) ?_ ?_
      · cases op <;> simp [render, Piece.text, unStr]
      · cases op <;> exact Or.inr (Or.inr (by simp [unStr]))
  | .bin op l r, m, hp, hd => by
      obtain ⟨c, cs, h, hc⟩ := pr_head l (.arg (.bin op)) hp.1 hd.1
      exact paren_head (c := c) (by rw [render_append, h]; rfl) hc
  | .cond p l r, m, hp, hd => by
      obtain ⟨c, cs, h, hc⟩ := pr_head p .top hp.1 hd.1
      obtain ⟨d, ds, h2, hd2⟩ := paren_head (b := !isExpr p) h hc
      unfold pr
      exact paren_head (c := d) (by rw [List.append_assoc, render_append, h2]; rfl) hd2
  | .concat l r, m, hp, hd => by
      cases m with
      | cat =>
        obtain ⟨c, cs, h, hc⟩ := pr_head l .cat hp.1 hd.1
        exact ⟨c, cs ++ render (.sym [','] :: .sp :: pr name .top r), by simp [pr, render_append, h], hc⟩
      | top => exact ⟨'{', _, rfl, Or.inr (Or.inr (by simp))⟩
      | arg c => exact ⟨'{', _, rfl, Or.inr (Or.inr (by simp))⟩
  | .extend w e, m, _, _ => by
      obtain ⟨c, cs, h, hc⟩ := print_head10 w
      exact ⟨c, cs ++ render (.sym ['\''] :: .sym ['('] :: pr name .top e ++ [.sym [')']]),
        by simp [pr, render, Piece.text, h], Or.inr (Or.inl hc)⟩
  | .dup n e, m, _, _ => ⟨'{', _, rfl, Or.inr (Or.inr (by simp))⟩

/-- The pieces are read back as tokens, whatever follows. -/
def LexOk (ps : List Piece) : Prop :=
  ∀ r ts, Follow r → Lexes r ts → Lexes (render ps ++ r) (strip ps ++ ts)

theorem lex_close {a : Char} (ha : a ∈ [')', '}', ']']) {r ts} (h : Lexes r ts) :
    Lexes (a :: r) (.sym [a] :: ts) := by
  refine lexes_sym ?_ (fun b t _ => safe_close ?_) h
  · simp only [List.mem_cons, List.not_mem_nil, or_false] at ha
    rcases ha with rfl | rfl | rfl <;> decide
  · simp only [List.mem_cons, List.not_mem_nil, or_false] at ha
    rcases ha with rfl | rfl | rfl <;> simp

theorem lex_paren {ps c cs} (hh : render ps = c :: cs) (hc : Hd c) (h : LexOk ps) (b : Bool) : LexOk (paren b ps) := by
  intro r ts hf hr
  unfold paren
  split
  · exact h r ts hf hr
  · have h1 := h (')' :: r) (.sym [')'] :: ts) (Follow.cons (by simp)) (lex_close (by simp) hr)
    have h2 : Lexes ('(' :: (render ps ++ ')' :: r)) (.sym ['('] :: (strip ps ++ .sym [')'] :: ts)) := by
      refine lexes_sym (by decide) ?_ h1
      intro b t hb
      rw [hh, List.cons_append] at hb
      cases hb
      exact hc.safe_paren.1
    simpa [render, render_append, strip_append, Piece.text] using h2

theorem lex_brace {ps c cs} (hh : render ps = c :: cs) (hc : Hd c) (h : LexOk ps) :
    LexOk (.sym ['{'] :: ps ++ [.sym ['}']]) := by
  intro r ts hf hr
  have h1 := h ('}' :: r) (.sym ['}'] :: ts) (Follow.cons (by simp)) (lex_close (by simp) hr)
  have h2 : Lexes ('{' :: (render ps ++ '}' :: r)) (.sym ['{'] :: (strip ps ++ .sym ['}'] :: ts)) := by
    refine lexes_sym (by decide) ?_ h1
    intro b t hb
    rw [hh, List.cons_append] at hb
    cases hb
    exact hc.safe_paren.2
  simpa [render, render_append, strip_append, Piece.text] using h2

theorem safe_of_digit {a b : Char} (ha : a ∈ ['~', '!', '-', '+', '|', '&', '^', '(', '{', '[', ':'])
    (hb : isDigit b = true) : safe a b = true := safe_plain ha (Or.inr (Or.inl hb))

theorem lex_const (w v) : LexOk (constText w v) := by
  intro r ts hf hr
  unfold constText
  split
  · obtain ⟨c, cs, h, hc⟩ := print_head10 w
    have h1 := lexes_num (w := w) (v := v.natAbs) hf hr
    have h2 : Lexes ('-' :: ((Piece.num w v.natAbs).text ++ r)) (.sym ['-'] :: .num w v.natAbs :: ts) := by
      refine lexes_sym (by decide) ?_ h1
      intro b t hb
      simp only [Piece.text, h, List.cons_append] at hb
      cases hb
      exact safe_of_digit (by simp) hc
    simpa [render, show (Piece.sym ['-']).text = ['-'] from rfl] using h2
  · simpa [render] using lexes_num (w := w) (v := v.natAbs) hf hr

theorem lex_slice (w hi lo) : LexOk (sliceText w hi lo) := by
  intro r ts hf hr
  have hopen : ∀ {x ts}, (∃ c cs, x = c :: cs ∧ isDigit c = true) → Lexes x ts → Lexes ('[' :: x) (.sym ['['] :: ts) := by
    intro x ts hx h
    refine lexes_sym (by decide) ?_ h
    intro b t hb
    obtain ⟨c, cs, hc, hd⟩ := hx
    rw [hc] at hb; cases hb
    exact safe_of_digit (by simp) hd
  have hcolon : ∀ {x ts}, (∃ c cs, x = c :: cs ∧ isDigit c = true) → Lexes x ts → Lexes (':' :: x) (.sym [':'] :: ts) := by
    intro x ts hx h
    refine lexes_sym (by decide) ?_ h
    intro b t hb
    obtain ⟨c, cs, hc, hd⟩ := hx
    rw [hc] at hb; cases hb
    exact safe_of_digit (by simp) hd
  have hd : ∀ n (x : List Char), ∃ c cs, printNat 10 n ++ x = c :: cs ∧ isDigit c = true := by
    intro n x
    obtain ⟨c, cs, h, hc⟩ := print_head10 n
    exact ⟨c, cs ++ x, by simp [h], hc⟩
  have hcl : Lexes (']' :: r) (.sym [']'] :: ts) := lex_close (by simp) hr
  have hdec : ∀ n, Lexes (printNat 10 n ++ ']' :: r) (.dec n :: .sym [']'] :: ts) := fun n =>
    lexes_dec (by intro c t h; cases h; decide) (by intro t h; cases h) hcl
  unfold sliceText
  split
  · split
    · simpa [render] using hr
    · have := hopen (hd hi _) (hdec hi)
      simpa [render, Piece.text] using this
  · have h1 := hcolon (hd lo _) (hdec lo)
    have h2 := lexes_dec (n := hi) (by intro c t h; cases h; decide) (by intro t h; cases h) h1
    have h3 := hopen (hd hi _) h2
    simpa [render, Piece.text] using h3

theorem lex_un {op e} (hp : Printable (.un op e)) (hd : Declared Γ name e)
    (h : LexOk (pr name (.arg (unCode op)) e)) : LexOk (.sym (unStr op) :: pr name (.arg (unCode op)) e) := by
  intro r ts hf hr
  have h1 := h r ts hf hr
  -- how the operand starts
  have hstart : (∃ b t, render (pr name (.arg (unCode op)) e) = b :: t ∧
        (isIdStart b = true ∨ isDigit b = true ∨ b ∈ ['(', '{'])) ∨
      (∃ b t, render (pr name (.arg (unCode op)) e) = '-' :: b :: t ∧ isDigit b = true ∧ op ≠ .minus) ∨
      (∃ a t, unStr op = [a] ∧ render (pr name (.arg (unCode op)) e) = a :: t ∧ a ∈ ['~', '!', '^']) := by
    cases e with
    | var v w =>
      obtain ⟨⟨c, cs, h, hc⟩, _⟩ := hd.1
      exact Or.inl ⟨c, cs, by simp [pr, render, Piece.text, h], Or.inl hc⟩
    | const w v =>
      obtain ⟨c, cs, h, hc⟩ := print_head10 w
      simp only [pr, constText]
      split
      · rename_i hv
        refine Or.inr (Or.inl ⟨c, cs ++ ('\'' :: 'h' :: printNat 16 v.natAbs), by simp [render, Piece.text, h], hc, ?_⟩)
        intro ho
        have := (hp.2.1 ho).2.2
        simp [isNeg] at this
        omega
      · exact Or.inl ⟨c, cs ++ ('\'' :: 'h' :: printNat 16 v.natAbs), by simp [render, Piece.text, h], Or.inr (Or.inl hc)⟩
    | slice x hi lo =>
      have hv : isVar x = true := hp.1
      cases x <;> simp [isVar] at hv
      rename_i v w
      obtain ⟨⟨c, cs, h, hc⟩, _⟩ := hd.1
      exact Or.inl ⟨c, cs ++ render (sliceText w hi lo), by simp [pr, render, Piece.text, h, Expr.width], Or.inl hc⟩
    | un o x =>
      by_cases ho : o = op
      · subst ho
        have hb : bare (.arg (unCode o)) (unCode o) = true := by simp [bare]
        simp only [pr, hb, paren, if_true]
        have h1 := hp.2.1
        have h2 := hp.2.2
        cases o <;> simp [isUnOp] at h1 h2
        · exact Or.inr (Or.inr ⟨'~', _, rfl, rfl, by simp⟩)
        · exact Or.inr (Or.inr ⟨'!', _, rfl, rfl, by simp⟩)
        · exact Or.inr (Or.inr ⟨'^', _, rfl, rfl, by simp⟩)
      · have hb : bare (.arg (unCode op)) (unCode o) = false := by
          cases o <;> cases op <;> simp [bare, unCode] at ho ⊢
        simp only [pr, hb, paren, Bool.false_eq_true, if_false]
        exact Or.inl ⟨'(', _, rfl, by simp⟩
    | bin o l x =>
      have hb : bare (.arg (unCode op)) (.bin o) = false := by
        cases op <;> try rfl
        have := (hp.2.1 rfl).1
        simp [isBinOp] at this
        simp [bare, unCode]
        exact fun h => this h.symm
      simp only [pr, hb, paren, Bool.false_eq_true, if_false]
      exact Or.inl ⟨'(', _, rfl, by simp⟩
    | cond p l x => exact Or.inl ⟨'(', _, by simp only [pr, paren, Bool.false_eq_true, if_false]; rfl, by simp⟩
    | concat l x => exact Or.inl ⟨'{', _, by simp only [pr]; rfl, by simp⟩
    | extend w x =>
      obtain ⟨c, cs, h, hc⟩ := print_head10 w
      exact Or.inl ⟨c, cs ++ render (.sym ['\''] :: .sym ['('] :: pr name .top x ++ [.sym [')']]),
        by simp [pr, render, Piece.text, h], Or.inr (Or.inl hc)⟩
    | dup n x => exact Or.inl ⟨'{', _, by simp only [pr]; rfl, by simp⟩
  obtain ⟨a, ha, hmem⟩ : ∃ a, unStr op = [a] ∧ a ∈ ['~', '!', '-', '+', '|', '&', '^'] := by
    cases op <;> exact ⟨_, rfl, by simp⟩
  have hsym : syms1.contains a = true := by
    simp only [List.mem_cons, List.not_mem_nil, or_false] at hmem
    rcases hmem with rfl | rfl | rfl | rfl | rfl | rfl | rfl <;> decide
  simp only [render, Piece.text, ha, List.cons_append, List.nil_append, strip_sym]
  rcases hstart with ⟨b, t, hb, hc⟩ | ⟨b, t, hb, hdig, hop⟩ | ⟨a', t, ha', hb, hm⟩
  · refine lexes_sym hsym ?_ h1
    intro b' t' h'
    rw [hb, List.cons_append] at h'
    cases h'
    refine safe_plain ?_ hc
    simp only [List.mem_cons, List.not_mem_nil, or_false] at hmem
    rcases hmem with rfl | rfl | rfl | rfl | rfl | rfl | rfl <;> simp
  · -- `|-4'h3` and the like
    have hne : b ≠ '>' := by rintro rfl; revert hdig; decide
    have hm : matchSym (a :: (render (pr name (.arg (unCode op)) e) ++ r)) =
        some ([a], render (pr name (.arg (unCode op)) e) ++ r) := by
      rw [hb]
      simp only [List.cons_append]
      cases op <;> simp [unStr] at ha hop <;> subst ha <;>
        simp [matchSym, in3, in2, syms3, syms2, syms1, hne]
    have hx : a ≠ ' ' ∧ isIdStart a = false ∧ isDigit a = false := by
      simp only [List.mem_cons, List.not_mem_nil, or_false] at hmem
      rcases hmem with rfl | rfl | rfl | rfl | rfl | rfl | rfl <;> decide
    refine lexes_tok hx.1 ?_ h1
    simp [lexOne, hx.2.1, hx.2.2, hm]
  · rw [ha] at ha'; cases ha'
    refine lexes_sym hsym ?_ h1
    intro b' t' h'
    rw [hb, List.cons_append] at h'
    cases h'
    simp only [List.mem_cons, List.not_mem_nil, or_false] at hm
    rcases hm with rfl | rfl | rfl <;> decide

theorem lex_chain {l x} (op : BinOp) (hl : LexOk l) (hx : LexOk x) : LexOk (l ++ .sp :: .sym (binStr op) :: .sp :: x) := by
  intro r ts hf hr
  have h1 := hl _ _ (Follow.cons (t := binStr op ++ ' ' :: (render x ++ r)) (c := ' ') (by simp))
    (lexes_sp (lexes_bin op (hx r ts hf hr)))
  simpa [render, render_append, strip_append, Piece.text] using h1

theorem lex_comma {l x} (hl : LexOk l) (hx : LexOk x) : LexOk (l ++ .sym [','] :: .sp :: x) := by
  intro r ts hf hr
  have h1 := hl _ _ (Follow.cons (t := ' ' :: (render x ++ r)) (c := ',') (by simp))
    (lexes_sym (by decide) (fun b t _ => safe_close (by simp)) (lexes_sp (hx r ts hf hr)))
  simpa [render, render_append, strip_append, Piece.text] using h1

/-- Every printable expression is cut into the tokens it was printed from. -/
theorem lex_pr : ∀ (e : Expr) (m : Mode), Printable e → Declared Γ name e → LexOk (pr name m e)
  | .var v w, m, _, hd => by
      intro r ts hf hr
      simpa [pr, render, Piece.text] using lexes_id hd.1 hf hr
  | .const w v, m, _, _ => lex_const w v
  | .slice e hi lo, m, hp, hd => by
      have hp' : Printable e := by
        cases e <;> simp [Printable, isVar] at hp ⊢
      intro r ts hf hr
      have h1 := lex_slice e.width hi lo r ts hf hr
      have hf' : Follow (render (sliceText e.width hi lo) ++ r) := by
        unfold sliceText
        split
        · split
          · exact hf
          · exact Follow.cons (c := '[') (by simp)
        · exact Follow.cons (c := '[') (by simp)
      have h2 := lex_pr e .top hp' hd _ _ hf' h1
      simpa [pr, render_append, strip_append] using h2
  | .un op e, m, hp, hd => by
      obtain ⟨c, cs, hh, hc⟩ := pr_head (name := name) (.un op e) .top hp hd
      simp only [pr, bare, paren, if_true] at hh
      exact lex_paren hh hc (lex_un hp hd (lex_pr e _ hp.1 hd)) _
  | .bin op l r, m, hp, hd => by
      obtain ⟨c, cs, hh, hc⟩ := pr_head (name := name) (.bin op l r) .top hp hd
      simp only [pr, bare, paren, if_true] at hh
      exact lex_paren hh hc (lex_chain op (lex_pr l _ hp.1 hd.1) (lex_pr r _ hp.2.1 hd.2)) _
  | .cond p l x, m, hp, hd => by
      obtain ⟨c, cs, hh, hc⟩ := pr_head (name := name) (.cond p l x) .top hp hd
      obtain ⟨c2, cs2, hh2, hc2⟩ := pr_head (name := name) p .top hp.1 hd.1
      unfold pr
      have key : LexOk (paren (!isExpr p) (pr name .top p) ++ .sp :: .sym ['?'] :: .sp :: pr name .top l ++
          .sym [':'] :: .sp :: pr name .top x) := by
        intro r ts hf hr
        have h1 := lex_pr x .top hp.2.2 hd.2.2 r ts hf hr
        have h2 : Lexes (':' :: ' ' :: (render (pr name .top x) ++ r)) (.sym [':'] :: (strip (pr name .top x) ++ ts)) :=
          lexes_sym (by decide) (by intro b t hb; cases hb; decide) (lexes_sp h1)
        have h3 := lex_pr l .top hp.2.1 hd.2.1 _ _ (Follow.cons (c := ':') (by simp)) h2
        have h4 := lexes_sym (a := '?') (by decide) (fun b t _ => safe_close (by simp)) (lexes_sp h3)
        have h5 := lex_paren hh2 hc2 (lex_pr p .top hp.1 hd.1) (!isExpr p) _ _ (Follow.cons (c := ' ') (by simp)) (lexes_sp h4)
        simpa [render, render_append, strip_append, Piece.text] using h5
      unfold pr at hh
      exact lex_paren hh hc key _
  | .concat l x, m, hp, hd => by
      obtain ⟨c, cs, hh, hc⟩ := pr_head (name := name) (.concat l x) .cat hp hd
      have key := lex_comma (lex_pr l .cat hp.1 hd.1) (lex_pr x .top hp.2 hd.2)
      cases m with
      | cat => exact key
      | top => exact lex_brace hh hc key
      | arg _ => exact lex_brace hh hc key
  | .extend w e, m, hp, hd => by
      obtain ⟨c, cs, hh, hc⟩ := pr_head (name := name) e .top hp hd
      intro r ts hf hr
      have h1 := lex_paren hh hc (lex_pr e .top hp hd) false r ts hf hr
      have h2 := lexes_sym (a := '\'') (by decide) (by intro b t hb; cases hb; decide) h1
      have h3 := lexes_dec (n := w) (by intro c t h; cases h; decide) (by intro t h; cases h) h2
      simpa [pr, paren, render, render_append, strip_append, Piece.text] using h3
  | .dup n e, m, hp, hd => by
      obtain ⟨c, cs, hh, hc⟩ := pr_head (name := name) e .top hp.2 hd
      obtain ⟨c1, cs1, hh1, hc1⟩ := pr_head (Γ := Γ) (name := name) (.const 32 n) .top trivial trivial
      have ih := lex_pr e .top hp.2 hd
      have hin : LexOk (if isConcat e then pr name .top e else .sym ['{'] :: pr name .top e ++ [.sym ['}']]) := by
        split
        · exact ih
        · exact lex_brace hh hc ih
      have hst : ∃ t, render (if isConcat e then pr name .top e else .sym ['{'] :: pr name .top e ++ [.sym ['}']]) = '{' :: t := by
        cases e <;> exact ⟨_, rfl⟩
      have key : LexOk (constText 32 n ++ if isConcat e then pr name .top e else .sym ['{'] :: pr name .top e ++ [.sym ['}']]) := by
        intro r ts hf hr
        have h1 := hin r ts hf hr
        obtain ⟨t, ht⟩ := hst
        have h2 := lex_const 32 n _ _ (by rw [ht]; exact Follow.cons (c := '{') (by simp)) h1
        rw [render_append, strip_append, List.append_assoc, List.append_assoc]
        exact h2
      have := lex_brace (ps := constText 32 n ++ if isConcat e then pr name .top e else .sym ['{'] :: pr name .top e ++ [.sym ['}']])
        (c := c1) (by rw [render_append]; rw [show render (constText 32 n) = c1 :: cs1 from hh1]; rfl) hc1 key
      simpa [pr] using this

end Kratos.Print
