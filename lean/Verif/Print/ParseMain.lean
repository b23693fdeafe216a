import Verif.Print.ParseLemmas

namespace Kratos.Print
open Kratos.Ir Kratos.Text

variable {Γ : List Char → Option (VarId × Nat)} {name : VarId → List Char}

/-- Tokens printed for `e` in a mode. -/
def tk (name : VarId → List Char) (m : Mode) (e : Expr) : List Tok := strip (pr name m e)

/-- `e` printed in mode `m` is a primary (with prefix operators). -/
def leafIn (m : Mode) : Expr → Bool
  | .bin op _ _ => !bare m (.bin op)
  | .cond _ _ _ => match m with
      | .arg _ => true
      | _ => false
  | .concat _ _ => m != .cat
  | _ => true

def Un (Γ : List Char → Option (VarId × Nat)) (name : VarId → List Char) (m : Mode) (e : Expr) : Prop :=
  ∀ rest, NoSel rest → ∃ e', Same e' e ∧ Parses (fun n => pUnary Γ n (tk name m e ++ rest)) (e', rest)

def Full (Γ : List Char → Option (VarId × Nat)) (name : VarId → List Char) (e : Expr) : Prop :=
  ∀ rest, EndE rest → ∃ e', Same e' e ∧ Parses (fun n => pExpr Γ n (tk name .top e ++ rest)) (e', rest)

/-- First operand of a chain of `op`. -/
def Lead (Γ : List Char → Option (VarId × Nat)) (name : VarId → List Char) (e : Expr) : Prop :=
  ∀ op m rest, m ≤ prec op → Stop (prec op + 1) rest → NoSel rest →
    ∃ e', Same e' e ∧ ∀ res, Parses (fun n => pLoop Γ n m e' rest) res →
      Parses (fun n => pBin Γ n m (tk name (.arg (.bin op)) e ++ rest)) res

/-- Later operand of a chain of `op`. -/
def Tail (Γ : List Char → Option (VarId × Nat)) (name : VarId → List Char) (e : Expr) : Prop :=
  ∀ op m lhs rest, (assocOp op = false → isBinOp op e = false) → lhs.width = e.width →
    m ≤ prec op → Stop (prec op + 1) rest → NoSel rest →
    ∃ x, Same x (.bin op lhs e) ∧ ∀ res, Parses (fun n => pLoop Γ n m x rest) res →
      Parses (fun n => pLoop Γ n m lhs (.sym (binStr op) :: (tk name (.arg (.bin op)) e ++ rest))) res

/-- Leading part of a concatenation. -/
def Cat (Γ : List Char → Option (VarId × Nat)) (name : VarId → List Char) (e : Expr) : Prop :=
  ∀ rest, EndE rest → ∃ e', Same e' e ∧ ∀ res, Parses (fun n => pBrace Γ n e' rest) res →
    Parses (fun n => pContent Γ n (tk name .cat e ++ rest)) res

structure Good (Γ : List Char → Option (VarId × Nat)) (name : VarId → List Char) (e : Expr) : Prop where
  un : ∀ m, leafIn m e = true → Un Γ name m e
  full : Full Γ name e
  lead : Lead Γ name e
  tail : Tail Γ name e
  cat : Cat Γ name e

theorem full_of_un {e} (h : Un Γ name .top e) : Full Γ name e := by
  intro rest hr
  obtain ⟨e', hs, hp⟩ := h rest hr.1
  exact ⟨e', hs, expr_of_unary hp hr⟩

theorem lead_of_un {e} (h : ∀ op, Un Γ name (.arg (.bin op)) e) : Lead Γ name e := by
  intro op m rest _ _ hn
  obtain ⟨e', hs, hp⟩ := h op rest hn
  exact ⟨e', hs, fun res hl => bin_of_unary hp hl⟩

theorem tail_of_un {e op m lhs rest} (h : Un Γ name (.arg (.bin op)) e) (hm : m ≤ prec op)
    (hst : Stop (prec op + 1) rest) (hn : NoSel rest) :
    ∃ x, Same x (.bin op lhs e) ∧ ∀ res, Parses (fun n => pLoop Γ n m x rest) res →
      Parses (fun n => pLoop Γ n m lhs (.sym (binStr op) :: (tk name (.arg (.bin op)) e ++ rest))) res := by
  obtain ⟨e', hs, hp⟩ := h rest hn
  exact ⟨.bin op lhs e', (Same.refl lhs).bin hs op,
    fun res hl => loop_step hm (bin_of_unary hp (loop_stop hst)) hl⟩

theorem cat_of_full {e} (ht : tk name .cat e = tk name .top e) (h : Full Γ name e) : Cat Γ name e := by
  intro rest hr
  obtain ⟨e', hs, hp⟩ := h rest hr
  refine ⟨e', hs, fun res hb => ?_⟩
  rw [ht]
  exact content_of hp hb

/-- Everything that is a primary in every mode. -/
theorem good_of_un {e} (ht : tk name .cat e = tk name .top e) (h : ∀ m, Un Γ name m e) : Good Γ name e where
  un := fun m _ => h m
  full := full_of_un (h _)
  lead := lead_of_un fun op => h _
  tail := fun op m lhs rest _ _ hm hst hn => tail_of_un (h _) hm hst hn
  cat := cat_of_full ht (full_of_un (h _))

theorem un_paren {m e body} (ht : tk name m e = .sym ['('] :: (body ++ [.sym [')']]))
    (h : ∀ rest, EndE rest → ∃ e', Same e' e ∧ Parses (fun n => pExpr Γ n (body ++ rest)) (e', rest)) :
    Un Γ name m e := by
  intro rest _
  obtain ⟨e', hs, hp⟩ := h (.sym [')'] :: rest) (endE_of rest (Or.inl rfl))
  refine ⟨e', hs, ?_⟩
  rw [ht]
  simp only [List.cons_append, List.append_assoc, List.nil_append]
  exact unary_paren hp

theorem pSelect_none {v w rest} (h : NoSel rest) : pSelect v w rest = some (.var v w, rest) := by
  unfold pSelect
  split
  · exact absurd rfl (h _)
  · exact absurd rfl (h _)
  · exact absurd rfl (h _)
  · rfl

theorem good_var {v w} (h : Γ (name v) = some (v, w)) : Good Γ name (.var v w) := by
  refine good_of_un rfl fun m rest hn => ⟨.var v w, Same.refl _, ?_⟩
  exact unary_id h (pSelect_none hn)

theorem same_slice_trivial {v w : Nat} (hw : w = 1) : Same (.var v w) (.slice (.var v w) 0 0) := by
  subst hw
  refine ⟨rfl, fun σ => ?_⟩
  simp only [Expr.eval, Nat.pow_zero, Nat.div_one, Nat.sub_self, Nat.zero_add, Nat.mod_mod]

theorem good_slice {v w hi lo} (h : Γ (name v) = some (v, w)) : Good Γ name (.slice (.var v w) hi lo) := by
  refine good_of_un rfl fun m rest hn => ?_
  have ht : tk name m (.slice (.var v w) hi lo) = .id (name v) :: strip (sliceText w hi lo) := by
    simp only [tk, pr, List.cons_append, List.nil_append, strip_id, Expr.width]
  rw [ht]
  unfold sliceText
  split
  · rename_i he
    subst he
    split
    · rename_i h1
      obtain ⟨rfl, h1⟩ := h1
      exact ⟨.var v w, same_slice_trivial h1, unary_id h (pSelect_none hn)⟩
    · exact ⟨.slice (.var v w) hi hi, Same.refl _, unary_id h rfl⟩
  · exact ⟨.slice (.var v w) hi lo, Same.refl _, unary_id h rfl⟩

theorem good_un {op e} (hp : (op = .minus → isBinOp .minus e = false)) (ih : Good Γ name e) :
    Good Γ name (.un op e) := by
  have hleaf : leafIn (.arg (unCode op)) e = true := by
    cases e <;> try rfl
    rename_i o l r
    cases op <;> cases o <;> first | rfl | (simp [isBinOp] at hp)
  have hbody : ∀ rest, NoSel rest → ∃ e', Same e' (.un op e) ∧
      Parses (fun n => pUnary Γ n (.sym (unStr op) :: (tk name (.arg (unCode op)) e ++ rest))) (e', rest) := by
    intro rest hn
    obtain ⟨e', hs, hp⟩ := ih.un _ hleaf rest hn
    exact ⟨_, hs.un op, unary_op hp⟩
  have hbare : ∀ m, bare m (unCode op) = true → Un Γ name m (.un op e) := by
    intro m hb rest hn
    have ht : tk name m (.un op e) = .sym (unStr op) :: tk name (.arg (unCode op)) e := by
      simp only [tk, pr, hb, paren, if_true, strip_sym]
    rw [ht]
    exact hbody rest hn
  refine good_of_un rfl fun m => ?_
  cases hb : bare m (unCode op) with
  | true => exact hbare m hb
  | false =>
    refine un_paren (body := .sym (unStr op) :: tk name (.arg (unCode op)) e) ?_ ?_
    · simp [tk, pr, hb, paren, strip_append]
    · intro rest hr
      obtain ⟨e', hs, hp⟩ := hbody rest hr.1
      exact ⟨e', hs, expr_of_unary hp hr⟩

theorem bare_arg (op : BinOp) : bare (.arg (.bin op)) (.bin op) = true := by
  simp [bare]

theorem good_bin {op l r} (hw : l.width = r.width) (ha : assocOp op = false → isBinOp op r = false)
    (hl : Good Γ name l) (hr : Good Γ name r) : Good Γ name (.bin op l r) := by
  have hbody : ∀ m, tk name m (.bin op l r) = if bare m (.bin op) then
      tk name (.arg (.bin op)) l ++ .sym (binStr op) :: tk name (.arg (.bin op)) r else
      .sym ['('] :: ((tk name (.arg (.bin op)) l ++ .sym (binStr op) :: tk name (.arg (.bin op)) r) ++ [.sym [')']]) := by
    intro m
    cases hb : bare m (.bin op) <;> simp [tk, pr, hb, paren, strip_append]
  have hlead : ∀ m rest, m ≤ prec op → Stop (prec op + 1) rest → NoSel rest →
      ∃ e', Same e' (.bin op l r) ∧ ∀ res, Parses (fun n => pLoop Γ n m e' rest) res →
        Parses (fun n => pBin Γ n m ((tk name (.arg (.bin op)) l ++ .sym (binStr op) ::
          tk name (.arg (.bin op)) r) ++ rest)) res := by
    intro m rest hm hst hn
    obtain ⟨l', hls, hlp⟩ := hl.lead op m (.sym (binStr op) :: (tk name (.arg (.bin op)) r ++ rest)) hm
      (binStr_stop op _) (binStr_noSel op _)
    obtain ⟨x, hx, hxp⟩ := hr.tail op m l' rest ha (hls.1.trans hw) hm hst hn
    refine ⟨x, hx.trans (hls.bin (Same.refl r) op), fun res hres => ?_⟩
    have := hlp res (hxp res hres)
    simpa using this
  have hfull : ∀ rest, EndE rest → ∃ e', Same e' (.bin op l r) ∧
      Parses (fun n => pExpr Γ n ((tk name (.arg (.bin op)) l ++ .sym (binStr op) ::
          tk name (.arg (.bin op)) r) ++ rest)) (e', rest) := by
    intro rest hr
    obtain ⟨x, hx, hxp⟩ := hlead 1 rest (prec_pos op) (hr.2.1.mono (by omega)) hr.1
    exact ⟨x, hx, expr_of_bin (hxp _ (loop_stop hr.2.1)) hr.2.2⟩
  have hun : ∀ m, leafIn m (.bin op l r) = true → Un Γ name m (.bin op l r) := by
    intro m hm
    have hb : bare m (.bin op) = false := by simpa [leafIn] using hm
    refine un_paren (body := tk name (.arg (.bin op)) l ++ .sym (binStr op) :: tk name (.arg (.bin op)) r) ?_ hfull
    rw [hbody, hb]
    simp
  refine ⟨hun, ?_, ?_, ?_, ?_⟩
  · intro rest hr
    rw [hbody .top]
    exact hfull rest hr
  · intro op2 m rest hm hst hn
    by_cases he : op2 = op
    · subst he
      rw [hbody, bare_arg]
      exact hlead m rest hm hst hn
    · have hb : bare (.arg (.bin op2)) (.bin op) = false := by simp [bare, he]
      obtain ⟨e', hs, hp⟩ := hun (.arg (.bin op2)) (by simp [leafIn, hb]) rest hn
      exact ⟨e', hs, fun res h => bin_of_unary hp h⟩
  · intro op2 m lhs rest ha2 hw2 hm hst hn
    by_cases he : op2 = op
    · subst he
      have hassoc : assocOp op2 = true := by
        cases h : assocOp op2 with
        | true => rfl
        | false => have := ha2 h; simp [isBinOp] at this
      have hb0 : op2.isBool = false := by cases op2 <;> simp [assocOp] at hassoc <;> rfl
      have hwl : lhs.width = l.width := by simpa [Expr.width, hb0] using hw2
      rw [hbody, bare_arg]
      simp only [if_true]
      obtain ⟨x, hx, hxp⟩ := hl.tail op2 m lhs (.sym (binStr op2) :: (tk name (.arg (.bin op2)) r ++ rest))
        (fun h => by rw [hassoc] at h; cases h) hwl hm (binStr_stop op2 _) (binStr_noSel op2 _)
      have hxw : x.width = r.width := by
        rw [hx.1]; simp [Expr.width, hb0, hwl, hw]
      obtain ⟨y, hy, hyp⟩ := hr.tail op2 m x rest ha hxw hm hst hn
      refine ⟨y, ?_, fun res hres => ?_⟩
      · exact (hy.trans (hx.bin (Same.refl r) op2)).trans (same_assoc op2 hassoc lhs l r hwl)
      · have := hxp res (hyp res hres)
        simpa using this
    · have hb : bare (.arg (.bin op2)) (.bin op) = false := by simp [bare, he]
      exact tail_of_un (hun (.arg (.bin op2)) (by simp [leafIn, hb])) hm hst hn
  · refine cat_of_full (by rw [hbody, hbody]; rfl) ?_
    intro rest hr
    rw [hbody .top]
    exact hfull rest hr

theorem leafIn_nonExpr {m e} (h : isExpr e = false) : leafIn m e = true := by
  cases e <;> simp [isExpr] at h <;> rfl

theorem good_cond {p l r} (hp : Good Γ name p) (hl : Good Γ name l) (hr : Good Γ name r) :
    Good Γ name (.cond p l r) := by
  have hhead : ∀ rest, NoSel rest → ∃ e', Same e' p ∧
      Parses (fun n => pUnary Γ n (strip (paren (!isExpr p) (pr name .top p)) ++ rest)) (e', rest) := by
    intro rest hn
    cases he : isExpr p with
    | false => exact hp.un .top (leafIn_nonExpr he) rest hn
    | true =>
      obtain ⟨e', hs, h⟩ := hp.full (.sym [')'] :: rest) (endE_of rest (Or.inl rfl))
      refine ⟨e', hs, ?_⟩
      simp only [paren, Bool.not_true, Bool.false_eq_true, if_false, List.cons_append, strip_sym, strip_append,
        List.append_assoc, strip_nil]
      exact unary_paren h
  let body : List Tok := strip (paren (!isExpr p) (pr name .top p)) ++ .sym ['?'] :: (tk name .top l ++
          .sym [':'] :: tk name .top r)
  have hfull : ∀ rest, EndE rest → ∃ e', Same e' (.cond p l r) ∧
      Parses (fun n => pExpr Γ n (body ++ rest)) (e', rest) := by
    intro rest hrest
    obtain ⟨r', hrs, hrp⟩ := hr.full rest hrest
    obtain ⟨l', hls, hlp⟩ := hl.full (.sym [':'] :: (tk name .top r ++ rest))
      (endE_of _ (Or.inr (Or.inr (Or.inr (Or.inl rfl)))))
    obtain ⟨p', hps, hpp⟩ := hhead (.sym ['?'] :: (tk name .top l ++ .sym [':'] :: (tk name .top r ++ rest)))
      (by intro r h; cases h)
    refine ⟨.cond p' l' r', hps.cond hls hrs, ?_⟩
    have hst : Stop 1 (.sym ['?'] :: (tk name .top l ++ .sym [':'] :: (tk name .top r ++ rest))) := by
      intro s r op q h hb; cases h; cases hb
    have := expr_cond (bin_of_unary hpp (loop_stop hst)) hlp hrp
    simpa [body] using this
  have htop : tk name .top (.cond p l r) = body := by
    simp [tk, pr, body, paren, strip_append]
  have hcat : tk name .cat (.cond p l r) = body := by
    simp [tk, pr, body, paren, strip_append]
  have harg : ∀ c, tk name (.arg c) (.cond p l r) = .sym ['('] :: (body ++ [.sym [')']]) := by
    intro c
    simp [tk, pr, body, paren, strip_append]
  have hun : ∀ c, Un Γ name (.arg c) (.cond p l r) := fun c => un_paren (harg c) hfull
  refine ⟨?_, ?_, ?_, ?_, ?_⟩
  · intro m hm
    cases m with
    | top => simp [leafIn] at hm
    | cat => simp [leafIn] at hm
    | arg c => exact hun c
  · intro rest h; rw [htop]; exact hfull rest h
  · exact lead_of_un fun op => hun _
  · exact fun op m lhs rest _ _ hm hst hn => tail_of_un (hun _) hm hst hn
  · refine cat_of_full (hcat.trans htop.symm) ?_
    intro rest h; rw [htop]; exact hfull rest h

theorem good_concat {l r} (hl : Good Γ name l) (hr : Good Γ name r) : Good Γ name (.concat l r) := by
  have hcat : Cat Γ name (.concat l r) := by
    intro rest hrest
    obtain ⟨r', hrs, hrp⟩ := hr.full rest hrest
    obtain ⟨l', hls, hlp⟩ := hl.cat (.sym [','] :: (tk name .top r ++ rest))
      (endE_of _ (Or.inr (Or.inr (Or.inl rfl))))
    refine ⟨.concat l' r', hls.concat hrs, fun res hres => ?_⟩
    have := hlp res (brace_comma hrp hres)
    simpa [tk, pr, strip_append] using this
  have hun : ∀ m, m ≠ .cat → Un Γ name m (.concat l r) := by
    intro m hm rest hn
    obtain ⟨e', hs, hp⟩ := hcat (.sym ['}'] :: rest) (endE_of _ (Or.inr (Or.inl rfl)))
    refine ⟨e', hs, ?_⟩
    have ht : tk name m (.concat l r) = .sym ['{'] :: (tk name .cat (.concat l r) ++ [.sym ['}']]) := by
      cases m <;> first | (exact absurd rfl hm) | simp [tk, pr, strip_append]
    rw [ht]
    have := unary_brace (hp _ (brace_close e' rest))
    simpa using this
  refine ⟨?_, full_of_un (hun _ (by simp)), lead_of_un fun op => hun _ (by simp), ?_, hcat⟩
  · intro m hm
    exact hun m (by simpa [leafIn] using hm)
  · exact fun op m lhs rest _ _ hm hst hn => tail_of_un (hun _ (by simp)) hm hst hn

theorem good_extend {w e} (he : Good Γ name e) : Good Γ name (.extend w e) := by
  refine good_of_un rfl fun m rest _ => ?_
  obtain ⟨e', hs, hp⟩ := he.full (.sym [')'] :: rest) (endE_of _ (Or.inl rfl))
  refine ⟨.extend w e', hs.extend w, ?_⟩
  have := unary_cast (w := w) hp
  simpa [tk, pr, strip_append] using this

theorem good_dup {n e} (hn : n < 2 ^ 32) (he : Good Γ name e) : Good Γ name (.dup n e) := by
  refine good_of_un rfl fun m rest _ => ?_
  -- contents of the inner braces
  have hin : ∃ e', Same e' e ∧ Parses (fun k => pBrace Γ k (.const 32 ((n % 2 ^ 32 : Nat) : Int))
      (strip (if isConcat e then pr name .top e else .sym ['{'] :: pr name .top e ++ [.sym ['}']]) ++
        .sym ['}'] :: rest)) (.dup n e', rest) := by
    have key : ∃ e', Same e' e ∧ Parses (fun k => pContent Γ k (tk name .cat e ++ .sym ['}'] :: .sym ['}'] :: rest))
        (e', .sym ['}'] :: rest) := by
      obtain ⟨e', hs, hp⟩ := he.cat (.sym ['}'] :: .sym ['}'] :: rest) (endE_of _ (Or.inr (Or.inl rfl)))
      exact ⟨e', hs, hp _ (brace_close _ _)⟩
    obtain ⟨e', hs, hp⟩ := key
    refine ⟨e', hs, ?_⟩
    have hd := brace_dup (w := 32) (c := ((n % 2 ^ 32 : Nat) : Int)) hp
    rw [Int.toNat_natCast, Nat.mod_eq_of_lt hn] at hd
    rw [Nat.mod_eq_of_lt hn]
    have ht : strip (if isConcat e then pr name .top e else .sym ['{'] :: pr name .top e ++ [.sym ['}']]) =
        .sym ['{'] :: (tk name .cat e ++ [.sym ['}']]) := by
      cases e <;> simp [isConcat, tk, pr, strip_append, bare]
    rw [ht]
    simpa using hd
  obtain ⟨e', hs, hp⟩ := hin
  refine ⟨.dup n e', hs.dup n, ?_⟩
  have ht : tk name m (.dup n e) ++ rest = .sym ['{'] :: (.num 32 n :: (strip (if isConcat e then pr name .top e else
      .sym ['{'] :: pr name .top e ++ [.sym ['}']]) ++ .sym ['}'] :: rest)) := by
    have : ¬ ((n : Int) < 0) := by omega
    simp [tk, pr, strip_append, constText, this]
  rw [ht]
  have hhd : ∃ s r, strip (if isConcat e then pr name .top e else .sym ['{'] :: pr name .top e ++ [.sym ['}']]) ++ .sym ['}'] :: rest
      = .sym ['{'] :: r ∧ s = ['{'] := by
    refine ⟨['{'], ?_⟩
    cases e <;> simp [isConcat, pr, strip_append]
  obtain ⟨s, r, hr, _⟩ := hhd
  refine unary_brace (content_of (e := .const 32 ((n % 2 ^ 32 : Nat) : Int)) (expr_of_unary (unary_num 32 n _) ?_) hp)
  rw [hr]
  exact endE_of _ (Or.inr (Or.inr (Or.inr (Or.inr rfl))))

/-- Every printable expression is read back. -/
theorem good_all : ∀ e : Expr, Printable e → Declared Γ name e → e.WF → Good Γ name e
  | .var v w, _, hd, _ => good_var hd.2
  | .const w v, _, _, _ => good_of_un rfl fun _ rest _ => const_unary w v rest
  | .slice (.var v w) hi lo, _, hd, _ => good_slice hd.2
  | .slice (.const _ _) _ _, h, _, _ | .slice (.slice _ _ _) _ _, h, _, _ | .slice (.un _ _) _ _, h, _, _
  | .slice (.bin _ _ _) _ _, h, _, _ | .slice (.cond _ _ _) _ _, h, _, _ | .slice (.concat _ _) _ _, h, _, _
  | .slice (.extend _ _) _ _, h, _, _ | .slice (.dup _ _) _ _, h, _, _ => by simp [Printable, isVar] at h
  | .un op e, hp, hd, hw => good_un (fun h => (hp.2.1 h).1) (good_all e hp.1 hd hw)
  | .bin op l r, hp, hd, hw =>
      good_bin hw.2.2 hp.2.2 (good_all l hp.1 hd.1 hw.1) (good_all r hp.2.1 hd.2 hw.2.1)
  | .cond p l r, hp, hd, hw =>
      good_cond (good_all p hp.1 hd.1 hw.1) (good_all l hp.2.1 hd.2.1 hw.2.1)
        (good_all r hp.2.2 hd.2.2 hw.2.2.1)
  | .concat l r, hp, hd, hw => good_concat (good_all l hp.1 hd.1 hw.1) (good_all r hp.2 hd.2 hw.2)
  | .extend w e, hp, hd, hw => good_extend (good_all e hp hd hw.1)
  | .dup n e, hp, hd, hw => good_dup hp.1 (good_all e hp.2 hd hw.2)

end Kratos.Print
