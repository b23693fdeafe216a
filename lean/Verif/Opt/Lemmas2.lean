import Verif.Opt.Lemmas

/-! Helper lemmas: whole-pass induction for if→case, remove_empty_block, merge_if_block. -/

namespace Kratos.Opt
open Kratos.Ir

/-! ### if→case -/

abbrev CaseOk (s : Stmt) : Prop := HeadWF s ∧ NoRepeat s

theorem AllS_imp {P Q : Stmt → Prop} (h : ∀ s, P s → Q s) : ∀ s, AllS P s → AllS Q s := by
  intro s
  exact (go s)
where
  go : ∀ s, AllS P s → AllS Q s
    | .ite _ t e, hs => ⟨h _ hs.1, goB t hs.2.1, goB e hs.2.2⟩
    | .switch _ cs, hs => ⟨h _ hs.1, goC cs hs.2⟩
    | .for_ _ _ _ _ b, hs => ⟨h _ hs.1, goB b hs.2⟩
    | .assign .., hs => h _ hs
    | .ret _, hs => h _ hs
    | .brk, hs => h _ hs
    | .other _, hs => h _ hs
  goB : ∀ b, AllB P b → AllB Q b
    | .nil, _ => trivial
    | .cons s ss, hb => ⟨go s hb.1, goB ss hb.2⟩
  goC : ∀ c, AllC P c → AllC Q c
    | .nil, _ => trivial
    | .cons _ b cs, hc => ⟨goB b hc.1, goC cs hc.2⟩

theorem transformOne_spec (same) (hsame : ∀ a b, same a b = true → a = b) (s s' : Stmt)
    (h : AllS CaseOk s) (ht : transformOne same s = .ok s') :
    s.Equiv s' ∧ KidsS (AllB CaseOk) s' := by
  unfold transformOne at ht
  split at ht
  · rename_i tgt links fin hc
    have hch := chain_top same hsame s tgt links fin (AllS_imp (fun _ h => h.1) s h) hc
    split at ht
    · simp at ht
    · split at ht
      · have hall := hch.all CaseOk h
        have hkids := collectCases_all CaseOk links fin hall.1 hall.2
        have hs' : s' = .switch tgt (collectCases links fin) := by
          unfold mkSwitch at ht
          split at ht
          · simp at ht
          · simpa using ht.symm
        subst hs'
        refine ⟨?_, hkids⟩
        intro ι st
        by_cases hr : st.ctl = .run
        · rw [hch.sem ι st hr]
          simp only [Stmt.exec, guardRun_run hr]
          rw [collectCases_exec]
          rw [hch.keys]
          exact (AllS_head _ _ h).2 tgt
        · rw [Stmt.exec_stop ι _ st hr, Stmt.exec_stop ι _ st hr]
      · cases ht; exact ⟨Stmt.Equiv.refl _, AllS_kids _ _ h⟩
  · cases ht; exact ⟨Stmt.Equiv.refl _, AllS_kids _ _ h⟩

theorem mapCasesM_rel (f : Stmts → Res Stmts) (Q : Stmts → Prop)
    (hf : ∀ b b', Q b → f b = .ok b' → b.Equiv b') : ∀ (cs cs' : Cases),
    (∀ p ∈ cs.toList, Q p.2) → mapCasesM f cs = .ok cs' → Cases.Rel cs cs'
  | .nil, cs', _, h => by cases h; exact .nil
  | .cons k b cs, cs', hq, h => by
      simp only [mapCasesM, Res.bind_eq_ok] at h
      obtain ⟨b', hb, cs1, hcs, h⟩ := h
      cases h
      exact .cons (hf b b' (hq (k, b) (by simp [Cases.toList])) hb)
        (mapCasesM_rel f Q hf cs cs1 (fun p hp => hq p (by simp [Cases.toList, hp])) hcs)

theorem mapKidsM_equiv (f : Stmts → Res Stmts) (Q : Stmts → Prop)
    (hf : ∀ b b', Q b → f b = .ok b' → b.Equiv b') (s s' : Stmt)
    (hq : KidsS Q s) (h : mapKidsM f s = .ok s') : s.Equiv s' := by
  cases s with
  | ite c t e =>
    simp only [mapKidsM, Res.bind_eq_ok] at h
    obtain ⟨t', ht, e', he, h⟩ := h
    cases h
    exact Stmt.Equiv.ite (hf _ _ hq.1 ht) (hf _ _ hq.2 he)
  | switch tgt cs =>
    simp only [mapKidsM, Res.bind_eq_ok] at h
    obtain ⟨cs', hcs, h⟩ := h
    cases h
    exact Stmt.Equiv.switch (mapCasesM_rel f Q hf cs cs' hq hcs)
  | for_ iv a b s body =>
    simp only [mapKidsM, Res.bind_eq_ok] at h
    obtain ⟨b', hb, h⟩ := h
    cases h
    exact Stmt.Equiv.for_ (hf _ _ hq hb)
  | _ => cases h; exact Stmt.Equiv.refl _

theorem mapStmtsM_equiv (f : Stmt → Res Stmt) (Q : Stmt → Prop)
    (hf : ∀ b b', Q b → f b = .ok b' → b.Equiv b') : ∀ (ss ss' : Stmts),
    (∀ p ∈ ss.toList, Q p) → mapStmtsM f ss = .ok ss' → ss.Equiv ss'
  | .nil, ss', _, h => by cases h; exact Stmts.Equiv.refl _
  | .cons s ss, ss', hq, h => by
      simp only [mapStmtsM, Res.bind_eq_ok] at h
      obtain ⟨b', hb, cs1, hcs, h⟩ := h
      cases h
      exact .cons (hf _ b' (hq s (by simp [Stmts.toList])) hb)
        (mapStmtsM_equiv f Q hf ss cs1 (fun p hp => hq p (by simp [Stmts.toList, hp])) hcs)

theorem mapStmtsM_post (f : Stmt → Res Stmt) (P Q : Stmt → Prop)
    (hf : ∀ b b', P b → f b = .ok b' → Q b') : ∀ (ss ss' : Stmts),
    (∀ p ∈ ss.toList, P p) → mapStmtsM f ss = .ok ss' → ∀ p ∈ ss'.toList, Q p
  | .nil, ss', _, h => by cases h; simp [Stmts.toList]
  | .cons s ss, ss', hq, h => by
      simp only [mapStmtsM, Res.bind_eq_ok] at h
      obtain ⟨b', hb, cs1, hcs, h⟩ := h
      cases h
      intro p hp
      simp only [Stmts.toList, List.mem_cons] at hp
      rcases hp with rfl | hp
      · exact hf _ _ (hq s (by simp [Stmts.toList])) hb
      · exact mapStmtsM_post f P Q hf ss cs1 (fun p hp => hq p (by simp [Stmts.toList, hp])) hcs p hp

theorem AllB_mem (P) : ∀ (ss : Stmts), AllB P ss → ∀ s ∈ ss.toList, AllS P s
  | .nil, _, s, h => by simp [Stmts.toList] at h
  | .cons a ss, h, s, hs => by
      simp only [Stmts.toList, List.mem_cons] at hs
      rcases hs with rfl | hs
      · exact h.1
      · exact AllB_mem P ss h.2 s hs

theorem ifToCase_equiv (same) (hsame : ∀ a b, same a b = true → a = b) : ∀ (n : Nat) (ss r),
    AllB CaseOk ss → ifToCase same n ss = .ok r → ss.Equiv r
  | 0, ss, r, _, h => by cases h; exact Stmts.Equiv.refl _
  | n + 1, ss, r, hall, h => by
      simp only [ifToCase, Res.bind_eq_ok] at h
      obtain ⟨ss', h1, h2⟩ := h
      have hmem := AllB_mem _ ss hall
      have e1 : ss.Equiv ss' := mapStmtsM_equiv _ (AllS CaseOk)
        (fun b b' hb ht => (transformOne_spec same hsame b b' hb ht).1) ss ss' hmem h1
      have k1 := mapStmtsM_post _ (AllS CaseOk) (KidsS (AllB CaseOk))
        (fun b b' hb ht => (transformOne_spec same hsame b b' hb ht).2) ss ss' hmem h1
      have e2 : ss'.Equiv r := mapStmtsM_equiv _ (KidsS (AllB CaseOk))
        (fun b b' hb ht => mapKidsM_equiv _ (AllB CaseOk)
          (fun x y hx hy => ifToCase_equiv same hsame n x y hx hy) b b' hb ht) ss' r k1 h2
      exact e1.trans e2

/-! ### case order -/

theorem cases_perm (ι w v) {l l' : List (Option Int × Stmts)} (hp : l.Perm l') :
    (l.map (fun p => p.1.map (pattern w))).Nodup → ∀ k st,
    (Cases.ofList l).exec ι w v k st = (Cases.ofList l').exec ι w v k st := by
  induction hp with
  | nil => intros; rfl
  | @cons a l l' _ ih =>
    intro hn k st
    simp only [List.map_cons, List.nodup_cons] at hn
    obtain ⟨key, b⟩ := a
    cases key with
    | none => simp only [Cases.ofList, Cases.exec]; exact ih hn.2 _ _
    | some c => simp only [Cases.ofList, Cases.exec]; rw [ih hn.2]
  | swap a b l =>
    intro hn k st
    obtain ⟨ka, ba⟩ := a
    obtain ⟨kb, bb⟩ := b
    simp only [List.map_cons, List.nodup_cons, List.mem_cons, not_or] at hn
    cases ka with
    | none =>
      cases kb with
      | none => simp at hn
      | some c => simp only [Cases.ofList, Cases.exec]
    | some d =>
      cases kb with
      | none => simp only [Cases.ofList, Cases.exec]
      | some c =>
        have hcd : pattern w c ≠ pattern w d := fun e => hn.1.1 (by simp [e])
        simp only [Cases.ofList, Cases.exec]
        by_cases h1 : pattern w c = v
        · have h2 : pattern w d ≠ v := fun e => hcd (h1.trans e.symm)
          simp [h1, h2]
        · simp [h1]
  | trans h1 h2 ih1 ih2 =>
    intro hn k st
    rw [ih1 hn, ih2 ((h1.map _).nodup_iff.mp hn)]

/-! ### remove_empty_block -/

theorem isEmpty_iff (ss : Stmts) : ss.isEmpty = true ↔ ss = .nil := by
  cases ss <;> simp [Stmts.isEmpty]

theorem hollow_of_allPlain : ∀ (ss : Stmts), allPlain ss = true → removeEmpty ss = .ok ss
  | .nil, _ => rfl
  | .cons s ss, h => by
      simp only [allPlain, Bool.and_eq_true] at h
      have ih := hollow_of_allPlain ss h.2
      cases s <;> simp_all [plain, removeEmpty, removeEmptyStmt]

theorem clearAll_plain : ∀ (ss : Stmts), allPlain ss = true → clearAll ss = ss
  | .nil, _ => rfl
  | .cons s ss, h => by
      simp only [allPlain, Bool.and_eq_true] at h
      have ih := clearAll_plain ss h.2
      cases s <;> simp_all [plain, clearAll, clearStmt]

def optExec (ι : Nat → St → St) : Option Stmt → St → St
  | none, st => st
  | some s, st => s.exec ι st

theorem exec_no_match (ι w v) : ∀ (cs : Cases) (st), hasDefault cs = false → v ∉ labels w cs →
    cs.exec ι w v id st = st
  | .nil, st, _, _ => rfl
  | .cons none b cs, st, h, _ => by simp [hasDefault] at h
  | .cons (some c) b cs, st, h, hv => by
      simp only [labels, List.mem_cons, not_or] at hv
      simp only [Cases.exec, Ne.symm hv.1, if_false]
      exact exec_no_match ι w v cs st (by simpa [hasDefault] using h) hv.2

mutual
theorem removeStmt_ok : ∀ (s : Stmt), AllS Prunable s →
    ∃ r, removeEmptyStmt s = .ok r ∧ r.isNone = hollowS s ∧
      ∀ ι st, s.exec ι st = optExec ι r st
  | .ite c t e, h => by
      obtain ⟨t', ht, het, hqt⟩ := removeB_ok t h.2.1
      obtain ⟨e', he, hee, hqe⟩ := removeB_ok e h.2.2
      simp only [removeEmptyStmt, ht, he, Res.bind, het, hee]
      cases hht : hollowB t with
      | true =>
        obtain ⟨hwf, hw, hpl, hne⟩ := h.1 hht
        have he' : e' = e := by
          have := hollow_of_allPlain e hpl; rw [he] at this; simpa using this
        subst he'
        have htn : t' = .nil := (isEmpty_iff t').mp (het.trans hht)
        subst htn
        rw [clearAll_plain _ hpl]
        refine ⟨_, by simp [hne]; rfl, by simp [hollowS, hht, hne], ?_⟩
        intro ι st
        simp only [optExec, Stmt.exec, Expr.eval, UnOp.sem, hw]
        have hlt := Expr.eval_lt st.val c hwf
        rw [hw] at hlt
        rw [hqt ι st, Stmts.exec_nil]
        have hc : c.eval st.val = 0 ∨ c.eval st.val = 1 := by omega
        rcases hc with h0 | h0 <;> simp [h0]
      | false =>
        refine ⟨_, by simp; rfl, by simp [hollowS, hht], ?_⟩
        intro ι st
        simp only [optExec, Stmt.exec]; rw [hqt, hqe]
  | .switch tgt cs, h => by
      obtain ⟨cs', hcs, hec, _, hq⟩ := removeC_ok cs h.2
      simp only [removeEmptyStmt, hcs, Res.bind, hec]
      cases hh : hollowC cs with
      | true =>
        refine ⟨none, by simp, by simp [hollowS, hh], ?_⟩
        intro ι st
        have : cs' = .nil := by
          have := hec.trans hh; cases cs' <;> simp_all [Cases.isEmpty]
        subst this
        simp only [optExec, Stmt.exec]
        rw [hq h.1.2 _ h.1.1]
        simp [Cases.exec, guardRun]
      | false =>
        refine ⟨some (.switch tgt cs'), by simp, by simp [hollowS, hh], ?_⟩
        intro ι st
        simp only [optExec, Stmt.exec]; rw [hq h.1.2 _ h.1.1]
  | .for_ iv a b s body, h => ⟨_, rfl, rfl, fun _ _ => rfl⟩
  | .assign nb l r, h => ⟨_, rfl, rfl, fun _ _ => rfl⟩
  | .ret e, h => ⟨_, rfl, rfl, fun _ _ => rfl⟩
  | .brk, h => ⟨_, rfl, rfl, fun _ _ => rfl⟩
  | .other n, h => ⟨_, rfl, rfl, fun _ _ => rfl⟩
theorem removeB_ok : ∀ (ss : Stmts), AllB Prunable ss →
    ∃ r, removeEmpty ss = .ok r ∧ r.isEmpty = hollowB ss ∧ ss.Equiv r
  | .nil, _ => ⟨.nil, rfl, rfl, Stmts.Equiv.refl _⟩
  | .cons s ss, h => by
      obtain ⟨s', hs, hes, hqs⟩ := removeStmt_ok s h.1
      obtain ⟨ss', hss, hess, hqss⟩ := removeB_ok ss h.2
      simp only [removeEmpty, hs, hss, Res.bind]
      cases s' with
      | none =>
        refine ⟨ss', rfl, ?_, ?_⟩
        · simp only [hollowB, ← hes, hess]; simp
        · intro ι st; rw [Stmts.exec_cons, hqs]; exact hqss ι st
      | some s' =>
        refine ⟨.cons s' ss', rfl, ?_, ?_⟩
        · simp only [hollowB, ← hes]; simp [Stmts.isEmpty]
        · intro ι st; rw [Stmts.exec_cons, Stmts.exec_cons, hqs]; exact hqss ι _
theorem removeC_ok : ∀ (cs : Cases), AllC Prunable cs →
    ∃ r, removeEmptyCases cs = .ok r ∧ r.isEmpty = hollowC cs ∧
      (hollowLabel cs = false → hasDefault cs = false →
        ∀ ι w v k st, cs.exec ι w v k st = r.exec ι w v k st) ∧
      ((hasDefault cs = true → hollowLabel cs = false ∧ oneDefault cs = true) →
        ∀ w, (labels w cs).Nodup → ∀ ι v st, cs.exec ι w v id st = r.exec ι w v id st)
  | .nil, _ => ⟨.nil, rfl, rfl, fun _ _ _ _ _ _ _ => rfl, fun _ _ _ _ _ _ => rfl⟩
  | .cons k b cs, h => by
      obtain ⟨b', hb, heb, hqb⟩ := removeB_ok b h.1
      obtain ⟨cs', hcs, hec, hq1, hq2⟩ := removeC_ok cs h.2
      simp only [removeEmptyCases, hb, hcs, Res.bind, heb]
      cases k with
      | none =>
        cases hh : hollowB b with
        | true =>
          refine ⟨cs', by simp, by simp [hollowC, hh, hec], by simp [hasDefault], ?_⟩
          intro hd w hn ι v st
          have hbn : b' = .nil := (isEmpty_iff _).mp (heb.trans hh)
          subst hbn
          have hid : (fun st => b.exec ι st) = id := by
            funext st; rw [hqb, Stmts.exec_nil]; rfl
          obtain ⟨hl, ho⟩ := hd (by simp [hasDefault])
          simp only [Cases.exec, hid]
          exact hq2 (fun h => by simp [oneDefault, h] at ho) w hn ι v st
        | false =>
          refine ⟨.cons none b' cs', by simp, by simp [hollowC, hh, Cases.isEmpty],
            by simp [hasDefault], ?_⟩
          intro hd w hn ι v st
          have hid : (fun st => b.exec ι st) = (fun st => b'.exec ι st) := by
            funext st; rw [hqb]
          obtain ⟨hl, ho⟩ := hd (by simp [hasDefault])
          simp only [Cases.exec, hid]
          exact hq1 (by simpa [hollowLabel] using hl) (by simpa [oneDefault] using ho) ι w v _ st
      | some c =>
        cases hh : hollowB b with
        | true =>
          refine ⟨cs', by simp, by simp [hollowC, hh, hec], by simp [hollowLabel, hh], ?_⟩
          intro hd w hn ι v st
          have hbn : b' = .nil := (isEmpty_iff _).mp (heb.trans hh)
          subst hbn
          have hnd : hasDefault cs = false := by
            cases hx : hasDefault cs with
            | false => rfl
            | true => have := (hd (by simpa [hasDefault] using hx)).1; simp [hollowLabel, hh] at this
          simp only [labels, List.nodup_cons] at hn
          rw [← hq2 (by simp [hnd]) w hn.2]
          simp only [Cases.exec]
          split
          · rename_i hv
            rw [hqb, Stmts.exec_nil, exec_no_match ι w v cs st hnd (hv ▸ hn.1)]
          · rfl
        | false =>
          refine ⟨.cons (some c) b' cs', by simp, by simp [hollowC, hh, Cases.isEmpty], ?_, ?_⟩
          · intro hl hd ι w v k st
            simp only [Cases.exec]
            rw [hqb, hq1 (by simpa [hollowLabel, hh] using hl) (by simpa [hasDefault] using hd)]
          · intro hd w hn ι v st
            simp only [Cases.exec]
            rw [hqb, hq2 (fun h => by
              have := hd (by simpa [hasDefault] using h)
              simpa [hollowLabel, hh, oneDefault] using this) w (by
                simp only [labels, List.nodup_cons] at hn; exact hn.2)]
end

end Kratos.Opt
