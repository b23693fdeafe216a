import Verif.Check.Lemmas

/-! Helper lemmas: the checks against concrete execution. -/

namespace Kratos.Check
open Kratos.Ir Kratos.Opt

abbrev noEnum : Expr → Option (List Nat) := fun _ => none

/-- running or returned -/
def RR (st : St) : Prop := st.ctl = .run ∨ ∃ v, st.ctl = .ret v

/-- Uninterpreted statements do not jump. -/
def Calm (ι : Nat → St → St) : Prop := ∀ n st, st.ctl = .run → (ι n st).ctl = .run

theorem RR.guard {st x : St} (h : RR st) (hx : st.ctl = .run → RR x) : RR (guardRun st x) := by
  rcases h with h | ⟨v, h⟩
  · rw [guardRun_run h]; exact hx h
  · rw [guardRun_stop (by simp [h])]; exact .inr ⟨v, h⟩

theorem RR_fold (f : St → Int → St) (hf : ∀ st i, RR st → RR (f st i)) : ∀ (l : List Int) (st),
    RR st → RR (l.foldl f st)
  | [], st, h => h
  | i :: l, st, h => RR_fold f hf l _ (hf st i h)

mutual
theorem rrS (ι) (hι : Calm ι) : ∀ (s : Stmt) (st), AllS NoBreak s → RR st → RR (s.exec ι st)
  | .assign nb l r, st, _, h => by
      simp only [Stmt.exec]; refine h.guard fun hr => ?_
      split <;> exact .inl hr
  | .ite c t e, st, hn, h => by
      simp only [Stmt.exec]; refine h.guard fun hr => ?_
      split
      · exact rrB ι hι t st hn.2.1 h
      · exact rrB ι hι e st hn.2.2 h
  | .switch tgt cs, st, hn, h => by
      simp only [Stmt.exec]; refine h.guard fun hr => ?_
      exact rrC ι hι cs _ _ id st hn.2 (fun _ h => h) h
  | .for_ iv a b s body, st, hn, h => by
      simp only [Stmt.exec]; refine h.guard fun hr => ?_
      have := RR_fold (fun st i => guardRun st (body.exec ι (setIter iv i st)))
        (fun st i hst => hst.guard fun hr => rrB ι hι body _ hn.2 (.inl (by simp [setIter, hr])))
        (iterValues a b s) st h
      rcases this with h1 | ⟨v, h1⟩
      · left; simp [endLoop, h1]
      · right; exact ⟨v, by simp [endLoop, h1]⟩
  | .ret e, st, _, h => by
      simp only [Stmt.exec]; exact h.guard fun hr => .inr ⟨_, rfl⟩
  | .brk, st, hn, h => absurd hn (by simp [AllS, NoBreak])
  | .other n, st, _, h => by
      simp only [Stmt.exec]; exact h.guard fun hr => .inl (hι n st hr)
theorem rrB (ι) (hι : Calm ι) : ∀ (s : Stmts) (st), AllB NoBreak s → RR st → RR (s.exec ι st)
  | .nil, st, _, h => by rw [Stmts.exec_nil]; exact h
  | .cons s ss, st, hn, h => by
      rw [Stmts.exec_cons]; exact rrB ι hι ss _ hn.2 (rrS ι hι s st hn.1 h)
theorem rrC (ι) (hι : Calm ι) : ∀ (cs : Cases) (w v k st), AllC NoBreak cs →
    (∀ st, RR st → RR (k st)) → RR st → RR (cs.exec ι w v k st)
  | .nil, w, v, k, st, _, hk, h => hk st h
  | .cons none b cs, w, v, k, st, hn, hk, h => by
      simp only [Cases.exec]
      exact rrC ι hι cs w v _ st hn.2 (fun st hst => rrB ι hι b st hn.1 hst) h
  | .cons (some c) b cs, w, v, k, st, hn, hk, h => by
      simp only [Cases.exec]
      split
      · exact rrB ι hι b st hn.1 h
      · exact rrC ι hι cs w v k st hn.2 hk h
end

/-- Which case body runs: either one of the bodies, or the continuation when no label matches
and there is no default. -/
theorem cases_pick (ι) : ∀ (cs : Cases) (w v) (k : St → St) (st),
    (∃ b, (∃ key, (key, b) ∈ cs.toList) ∧ cs.exec ι w v k st = b.exec ι st) ∨
    (hasDefault cs = false ∧ v ∉ labels w cs ∧ cs.exec ι w v k st = k st)
  | .nil, w, v, k, st => .inr ⟨rfl, by simp [labels], rfl⟩
  | .cons none b cs, w, v, k, st => by
      left
      simp only [Cases.exec]
      rcases cases_pick ι cs w v (fun st => b.exec ι st) st with ⟨b', ⟨key, hk⟩, h⟩ | ⟨_, _, h⟩
      · exact ⟨b', ⟨key, by simp [Cases.toList, hk]⟩, h⟩
      · exact ⟨b, ⟨none, by simp [Cases.toList]⟩, h⟩
  | .cons (some c) b cs, w, v, k, st => by
      simp only [Cases.exec]
      split
      · left; exact ⟨b, ⟨some c, by simp [Cases.toList]⟩, rfl⟩
      · rename_i hne
        rcases cases_pick ι cs w v k st with ⟨b', ⟨key, hk⟩, h⟩ | ⟨h1, h2, h⟩
        · left; exact ⟨b', ⟨key, by simp [Cases.toList, hk]⟩, h⟩
        · right
          refine ⟨by simpa [hasDefault] using h1, ?_, h⟩
          simp only [labels, List.mem_cons, not_or]
          exact ⟨fun e => hne e.symm, h2⟩

abbrev ExecOk (s : Stmt) : Prop := SwitchOk (domain noEnum) s ∧ LoopOk s ∧ HeadWF s

/-- An accepted `case`: every value of the target reaches one of the bodies. -/
theorem covered {un} {cond : Stmt → Bool} (hcond : ∀ s, cond s = true → plain s = true)
    (tgt : Expr) (cs : Cases) (hok : ExecOk (.switch tgt cs))
    (h : checkS noEnum cond un true (.switch tgt cs) = .ok true) :
    (∃ m, checkC noEnum cond un true cs 0 = .ok (some m)) ∧
    ∀ σ, hasDefault cs = true ∨ tgt.eval σ ∈ labels tgt.width cs := by
  obtain ⟨⟨hn, hsub, hdn, hne⟩, _, hwf⟩ := hok
  have hnc : cond (.switch tgt cs) = false := by
    cases hc : cond (.switch tgt cs) with
    | false => rfl
    | true => have := hcond _ hc; simp [plain] at this
  simp only [checkS, hnc, Bool.false_eq_true, if_false, if_true] at h
  split at h
  · cases h
  · rw [Res.bind_eq_ok] at h
    obtain ⟨rc, hc, h⟩ := h
    cases rc with
    | none => simp only at h; cases h
    | some m =>
      simp only [Res.bind_eq_ok] at h
      obtain ⟨n, ht, h⟩ := h
      have hn' := targeted_domain noEnum tgt n ht
      refine ⟨⟨m, hc⟩, fun σ => ?_⟩
      rw [findNull_eq] at h
      cases hd : hasDefault cs with
      | true => left; rfl
      | false =>
        right
        simp only [hd, Bool.false_or, Res.ok.injEq, beq_iff_eq] at h
        have hm : m = cs.toList.length := by
          have : ∀ (cs : Cases) f m, checkC noEnum cond un true cs f = .ok (some m) →
              m = f + cs.toList.length := by
            intro cs
            exact countC cs
          simpa using this cs 0 m hc
        refine cover _ _ hn hdn hsub ?_ _ ?_
        · rw [labels_length _ _ hd]; omega
        · simp only [domain, List.mem_range]
          exact Expr.eval_lt σ tgt hwf
where
  countC : ∀ (cs : Cases) f m, checkC noEnum cond un true cs f = .ok (some m) →
      m = f + cs.toList.length
    | .nil, f, m, h => by simp [checkC] at h; simp [Cases.toList, h]
    | .cons k b cs, f, m, h => by
        simp only [checkC, Res.bind_eq_ok, if_true] at h
        obtain ⟨rb, hb, h⟩ := h
        cases rb with
        | false => simp at h
        | true =>
          simp only [if_true] at h
          have := countC cs (f+1) m h
          simp [Cases.toList]; omega

theorem checkC_mem {un} {cond : Stmt → Bool} : ∀ (cs : Cases) f m,
    checkC noEnum cond un true cs f = .ok (some m) →
    ∀ p ∈ cs.toList, checkB noEnum cond un true p.2 = .ok true
  | .nil, f, m, h, p, hp => by simp [Cases.toList] at hp
  | .cons k b cs, f, m, h, p, hp => by
      simp only [checkC, Res.bind_eq_ok, if_true] at h
      obtain ⟨rb, hb, h⟩ := h
      cases rb with
      | false => simp at h
      | true =>
        simp only [if_true] at h
        simp only [Cases.toList, List.mem_cons] at hp
        rcases hp with rfl | hp
        · exact hb
        · exact checkC_mem cs (f+1) m h p hp

theorem isRet_plain : ∀ s, isRet s = true → plain s = true := by
  intro s; cases s <;> simp [isRet, plain]

theorem foldl_stop (f : St → Int → St) (hf : ∀ st i, st.ctl ≠ .run → f st i = st) :
    ∀ (l : List Int) (st : St), st.ctl ≠ .run → l.foldl f st = st
  | [], st, _ => rfl
  | i :: l, st, h => by rw [List.foldl_cons, hf st i h]; exact foldl_stop f hf l st h

mutual
theorem retS {un} (ι) (hι : Calm ι) : ∀ (s : Stmt) (st), AllS ExecOk s → AllS NoBreak s →
    checkS noEnum isRet un true s = .ok true → st.ctl = .run → ∃ v, (s.exec ι st).ctl = .ret v
  | .assign nb l r, st, _, _, h, _ => by simp [checkS, isRet] at h
  | .ite c t e, st, hok, hn, h, hr => by
      simp only [checkS, isRet, Bool.false_eq_true, if_false, if_true, Res.bind_eq_ok] at h
      obtain ⟨rt, ht, h⟩ := h
      cases rt with
      | false => simp at h
      | true =>
        simp only [if_true] at h
        simp only [Stmt.exec, guardRun_run hr]
        split
        · exact retB ι hι t st hok.2.1 hn.2.1 ht hr
        · exact retB ι hι e st hok.2.2 hn.2.2 h hr
  | .switch tgt cs, st, hok, hn, h, hr => by
      obtain ⟨⟨m, hm⟩, hcov⟩ := covered isRet_plain tgt cs hok.1 h
      simp only [Stmt.exec, guardRun_run hr]
      rcases cases_pick ι cs tgt.width (tgt.eval st.val) id st with ⟨b, ⟨key, hb⟩, he⟩ | ⟨h1, h2, _⟩
      · rw [he]
        exact retC ι hι cs 0 m hok.2 hn.2 hm (key, b) hb st hr
      · rcases hcov st.val with h3 | h3
        · rw [h1] at h3; simp at h3
        · exact absurd h3 h2
  | .for_ iv a b s body, st, hok, hn, h, hr => by
      simp only [checkS, isRet, Bool.false_eq_true, if_false] at h
      have hne : iterValues a b s ≠ [] := hok.1.2.1
      simp only [Stmt.exec, guardRun_run hr]
      obtain ⟨i, is, hi⟩ : ∃ i is, iterValues a b s = i :: is := by
        cases hx : iterValues a b s with
        | nil => exact absurd hx hne
        | cons i is => exact ⟨i, is, rfl⟩
      rw [hi, List.foldl_cons, guardRun_run hr]
      obtain ⟨v, hv⟩ := retB ι hι body (setIter iv i st) hok.2 hn.2 h (by simp [setIter, hr])
      rw [foldl_stop _ (fun st i h => guardRun_stop h) is _ (by simp [hv])]
      exact ⟨v, by simp [endLoop, hv]⟩
  | .ret e, st, _, _, _, hr => ⟨e.eval st.val, by simp only [Stmt.exec, guardRun_run hr]⟩
  | .brk, st, _, _, h, _ => by simp [checkS, isRet] at h
  | .other n, st, _, _, h, _ => by simp [checkS, isRet] at h
theorem retB {un} (ι) (hι : Calm ι) : ∀ (s : Stmts) (st), AllB ExecOk s → AllB NoBreak s →
    checkB noEnum isRet un true s = .ok true → st.ctl = .run → ∃ v, (s.exec ι st).ctl = .ret v
  | .nil, st, _, _, h, _ => by simp [checkB] at h
  | .cons s ss, st, hok, hn, h, hr => by
      simp only [checkB, Res.bind_eq_ok] at h
      obtain ⟨rs, hs, h⟩ := h
      rw [Stmts.exec_cons]
      cases rs with
      | true =>
        obtain ⟨v, hv⟩ := retS ι hι s st hok.1 hn.1 hs hr
        exact ⟨v, by rw [Stmts.exec_stop ι ss _ (by simp [hv])]; exact hv⟩
      | false =>
        simp only [Bool.false_eq_true, if_false] at h
        rcases rrS ι hι s st hn.1 (.inl hr) with h1 | ⟨v, h1⟩
        · exact retB ι hι ss _ hok.2 hn.2 h h1
        · exact ⟨v, by rw [Stmts.exec_stop ι ss _ (by simp [h1])]; exact h1⟩
theorem retC {un} (ι) (hι : Calm ι) : ∀ (cs : Cases) f m, AllC ExecOk cs → AllC NoBreak cs →
    checkC noEnum isRet un true cs f = .ok (some m) →
    ∀ p ∈ cs.toList, ∀ st, st.ctl = .run → ∃ v, (p.2.exec ι st).ctl = .ret v
  | .nil, f, m, _, _, h, p, hp => by simp [Cases.toList] at hp
  | .cons k b cs, f, m, hok, hn, h, p, hp => by
      simp only [checkC, Res.bind_eq_ok, if_true] at h
      obtain ⟨rb, hb, h⟩ := h
      cases rb with
      | false => simp at h
      | true =>
        simp only [if_true] at h
        intro st hr
        simp only [Cases.toList, List.mem_cons] at hp
        rcases hp with rfl | hp
        · exact retB ι hι b st hok.1 hn.1 hb hr
        · exact retC ι hι cs (f+1) m hok.2 hn.2 h p hp st hr
end

/-! ### rejected functions -/

mutual
theorem throwS {enumOf : Expr → Option (List Nat)} : ∀ (s : Stmt) (x), AllS (PathOk (domain enumOf)) s →
    checkS enumOf isRet true true s = .throw x → x = .stmt ∧ deadS (domain enumOf) s
  | .ite c t e, x, hok, h => by
      simp only [checkS, isRet, Bool.false_eq_true, if_false, if_true] at h
      cases ht : checkB enumOf isRet true true t with
      | throw y =>
        rw [ht] at h; cases h
        exact ⟨(throwB t x hok.2.1 ht).1, .inl (throwB t x hok.2.1 ht).2⟩
      | ub => rw [ht] at h; cases h
      | ok r =>
        rw [ht] at h
        cases r with
        | false => cases h
        | true => exact ⟨(throwB e x hok.2.2 h).1, .inr (throwB e x hok.2.2 h).2⟩
  | .switch tgt cs, x, hok, h => by
      simp only [checkS, isRet, Bool.false_eq_true, if_false, if_true] at h
      split at h
      · cases h
      · cases hc : checkC enumOf isRet true true cs 0 with
        | throw y =>
          rw [hc] at h; cases h
          exact throwC cs 0 x hok.2 hc
        | ub => rw [hc] at h; cases h
        | ok r =>
          rw [hc] at h
          cases r with
          | none => cases h
          | some m =>
            simp only [Res.bind] at h
            cases ht : targetedCases enumOf tgt with
            | ok n => rw [ht] at h; cases h
            | ub => rw [ht] at h; cases h
            | throw y =>
              unfold targetedCases at ht
              split at ht
              · cases ht
              · split at ht <;> cases ht
  | .for_ iv a b s body, x, hok, h => by
      simp only [checkS, isRet, Bool.false_eq_true, if_false] at h
      exact throwB body x hok.2 h
  | .assign nb l r, x, _, h => by simp [checkS] at h
  | .ret e, x, _, h => by simp [checkS] at h
  | .brk, x, _, h => by simp [checkS] at h
  | .other n, x, _, h => by simp [checkS] at h
theorem throwB {enumOf : Expr → Option (List Nat)} : ∀ (s : Stmts) (x), AllB (PathOk (domain enumOf)) s →
    checkB enumOf isRet true true s = .throw x → x = .stmt ∧ deadB (domain enumOf) s
  | .nil, x, _, h => by simp [checkB] at h
  | .cons s ss, x, hok, h => by
      simp only [checkB] at h
      cases hs : checkS enumOf isRet true true s with
      | throw y =>
        rw [hs] at h; cases h
        exact ⟨(throwS s x hok.1 hs).1, .inl (throwS s x hok.1 hs).2⟩
      | ub => rw [hs] at h; cases h
      | ok r =>
        rw [hs] at h
        cases r with
        | false =>
          exact ⟨(throwB ss x hok.2 h).1, .inr (.inr (throwB ss x hok.2 h).2)⟩
        | true =>
          simp only [Res.bind, if_true, Bool.true_and] at h
          split at h
          · rename_i hne
            cases h
            refine ⟨rfl, .inr (.inl ⟨?_, ?_⟩)⟩
            · intro e; subst e; simp [Stmts.isEmpty] at hne
            · intro p hp
              obtain ⟨y, hy, hc⟩ := (pathS_exact isRet_plain s true hok.1 hs).1 rfl p hp
              refine ⟨y, hy, ?_⟩
              cases y <;> simp_all [isRet]
          · cases h
theorem throwC {enumOf : Expr → Option (List Nat)} : ∀ (s : Cases) (f) (x), AllC (PathOk (domain enumOf)) s →
    checkC enumOf isRet true true s f = .throw x → x = .stmt ∧ deadC (domain enumOf) s
  | .nil, f, x, _, h => by simp [checkC] at h
  | .cons k b cs, f, x, hok, h => by
      simp only [checkC] at h
      cases hs : checkB enumOf isRet true true b with
      | throw y =>
        rw [hs] at h; cases h
        exact ⟨(throwB b x hok.1 hs).1, .inl (throwB b x hok.1 hs).2⟩
      | ub => rw [hs] at h; cases h
      | ok r =>
        rw [hs] at h
        cases r with
        | false => simp [Res.bind] at h
        | true =>
          simp only [Res.bind, if_true] at h
          exact ⟨(throwC cs _ x hok.2 h).1, .inr (throwC cs _ x hok.2 h).2⟩
end

/-! ### trace -/

theorem run_fold (f : St → Int → St) (hf : ∀ st i, st.ctl = .run → (f st i).ctl = .run) :
    ∀ (l : List Int) (st), st.ctl = .run → (l.foldl f st).ctl = .run
  | [], st, h => h
  | i :: l, st, h => run_fold f hf l _ (hf st i h)

mutual
theorem runS (ι) (hι : Calm ι) : ∀ (s : Stmt) (st), AllS NoJump s → st.ctl = .run →
    (s.exec ι st).ctl = .run
  | .assign nb l r, st, _, h => by simp only [Stmt.exec, guardRun_run h]; split <;> exact h
  | .ite c t e, st, hn, h => by
      simp only [Stmt.exec, guardRun_run h]; split
      · exact runB ι hι t st hn.2.1 h
      · exact runB ι hι e st hn.2.2 h
  | .switch tgt cs, st, hn, h => by
      simp only [Stmt.exec, guardRun_run h]
      exact runC ι hι cs _ _ id st hn.2 (fun _ h => h) h
  | .for_ iv a b s body, st, hn, h => by
      simp only [Stmt.exec, guardRun_run h]
      have := run_fold (fun st i => guardRun st (body.exec ι (setIter iv i st)))
        (fun st i hst => by
          simp only [guardRun_run hst]
          exact runB ι hι body _ hn.2 (by simp [setIter, hst])) (iterValues a b s) st h
      simp [endLoop, this]
  | .ret e, st, hn, _ => absurd hn (by simp [AllS, NoJump])
  | .brk, st, hn, _ => absurd hn (by simp [AllS, NoJump])
  | .other n, st, _, h => by simp only [Stmt.exec, guardRun_run h]; exact hι n st h
theorem runB (ι) (hι : Calm ι) : ∀ (s : Stmts) (st), AllB NoJump s → st.ctl = .run →
    (s.exec ι st).ctl = .run
  | .nil, st, _, h => by rw [Stmts.exec_nil]; exact h
  | .cons s ss, st, hn, h => by
      rw [Stmts.exec_cons]; exact runB ι hι ss _ hn.2 (runS ι hι s st hn.1 h)
theorem runC (ι) (hι : Calm ι) : ∀ (cs : Cases) (w v k st), AllC NoJump cs →
    (∀ st, st.ctl = .run → (k st).ctl = .run) → st.ctl = .run → (cs.exec ι w v k st).ctl = .run
  | .nil, w, v, k, st, _, hk, h => hk st h
  | .cons none b cs, w, v, k, st, hn, hk, h => by
      simp only [Cases.exec]
      exact runC ι hι cs w v _ st hn.2 (fun st hst => runB ι hι b st hn.1 hst) h
  | .cons (some c) b cs, w, v, k, st, hn, hk, h => by
      simp only [Cases.exec]
      split
      · exact runB ι hι b st hn.1 h
      · exact runC ι hι cs w v k st hn.2 hk h
end

theorem trace_pick (ι) : ∀ (cs : Cases) (w v) (k : St → List Stmt) (st),
    (∃ b, (∃ key, (key, b) ∈ cs.toList) ∧ traceC ι cs w v k st = traceB ι b st) ∨
    (hasDefault cs = false ∧ v ∉ labels w cs ∧ traceC ι cs w v k st = k st)
  | .nil, w, v, k, st => .inr ⟨rfl, by simp [labels], rfl⟩
  | .cons none b cs, w, v, k, st => by
      left
      simp only [traceC]
      rcases trace_pick ι cs w v (fun st => traceB ι b st) st with ⟨b', ⟨key, hk⟩, h⟩ | ⟨_, _, h⟩
      · exact ⟨b', ⟨key, by simp [Cases.toList, hk]⟩, h⟩
      · exact ⟨b, ⟨none, by simp [Cases.toList]⟩, h⟩
  | .cons (some c) b cs, w, v, k, st => by
      simp only [traceC]
      split
      · left; exact ⟨b, ⟨some c, by simp [Cases.toList]⟩, rfl⟩
      · rename_i hne
        rcases trace_pick ι cs w v k st with ⟨b', ⟨key, hk⟩, h⟩ | ⟨h1, h2, h⟩
        · left; exact ⟨b', ⟨key, by simp [Cases.toList, hk]⟩, h⟩
        · right
          refine ⟨by simpa [hasDefault] using h1, ?_, h⟩
          simp only [labels, List.mem_cons, not_or]
          exact ⟨fun e => hne e.symm, h2⟩

mutual
theorem hitS {un} {cond : Stmt → Bool} (hcond : ∀ s, cond s = true → plain s = true) (ι)
    (hι : Calm ι) : ∀ (s : Stmt) (st), AllS ExecOk s → AllS NoJump s →
    checkS noEnum cond un true s = .ok true → st.ctl = .run → Hit cond (traceS ι s st)
  | .ite c t e, st, hok, hn, h, hr => by
      have hnc : cond (.ite c t e) = false := by
        cases hc : cond (.ite c t e) with
        | false => rfl
        | true => have := hcond _ hc; simp [plain] at this
      simp only [checkS, hnc, Bool.false_eq_true, if_false, if_true, Res.bind_eq_ok] at h
      obtain ⟨rt, ht, h⟩ := h
      cases rt with
      | false => simp at h
      | true =>
        simp only [if_true] at h
        simp only [traceS]
        split
        · exact hitB hcond ι hι t st hok.2.1 hn.2.1 ht hr
        · exact hitB hcond ι hι e st hok.2.2 hn.2.2 h hr
  | .switch tgt cs, st, hok, hn, h, hr => by
      obtain ⟨⟨m, hm⟩, hcov⟩ := covered hcond tgt cs hok.1 h
      simp only [traceS]
      rcases trace_pick ι cs tgt.width (tgt.eval st.val) (fun _ => []) st with
        ⟨b, ⟨key, hb⟩, he⟩ | ⟨h1, h2, _⟩
      · rw [he]
        exact hitC hcond ι hι cs 0 m hok.2 hn.2 hm (key, b) hb st hr
      · rcases hcov st.val with h3 | h3
        · rw [h1] at h3; simp at h3
        · exact absurd h3 h2
  | .for_ iv a b s body, st, hok, hn, h, hr => by
      have hnc : cond (.for_ iv a b s body) = false := by
        cases hc : cond (.for_ iv a b s body) with
        | false => rfl
        | true => have := hcond _ hc; simp [plain] at this
      simp only [checkS, hnc, Bool.false_eq_true, if_false] at h
      have hne : iterValues a b s ≠ [] := hok.1.2.1
      obtain ⟨i, is, hi⟩ : ∃ i is, iterValues a b s = i :: is := by
        cases hx : iterValues a b s with
        | nil => exact absurd hx hne
        | cons i is => exact ⟨i, is, rfl⟩
      simp only [traceS, hi, traceL, hr, if_true]
      exact (hitB hcond ι hι body (setIter iv i st) hok.2 hn.2 h (by simp [setIter, hr])).left
  | .assign nb l r, st, _, _, h, _ => by
      simp only [checkS, Res.ok.injEq] at h; exact ⟨_, by simp [traceS], h⟩
  | .ret e, st, _, _, h, _ => by
      simp only [checkS, Res.ok.injEq] at h; exact ⟨_, by simp [traceS], h⟩
  | .brk, st, _, _, h, _ => by
      simp only [checkS, Res.ok.injEq] at h; exact ⟨_, by simp [traceS], h⟩
  | .other n, st, _, _, h, _ => by
      simp only [checkS, Res.ok.injEq] at h; exact ⟨_, by simp [traceS], h⟩
theorem hitB {un} {cond : Stmt → Bool} (hcond : ∀ s, cond s = true → plain s = true) (ι)
    (hι : Calm ι) : ∀ (s : Stmts) (st), AllB ExecOk s → AllB NoJump s →
    checkB noEnum cond un true s = .ok true → st.ctl = .run → Hit cond (traceB ι s st)
  | .nil, st, _, _, h, _ => by simp [checkB] at h
  | .cons s ss, st, hok, hn, h, hr => by
      simp only [checkB, Res.bind_eq_ok] at h
      obtain ⟨rs, hs, h⟩ := h
      simp only [traceB, hr, if_true]
      cases rs with
      | true => exact (hitS hcond ι hι s st hok.1 hn.1 hs hr).left
      | false =>
        simp only [Bool.false_eq_true, if_false] at h
        exact (hitB hcond ι hι ss _ hok.2 hn.2 h (runS ι hι s st hn.1 hr)).right
theorem hitC {un} {cond : Stmt → Bool} (hcond : ∀ s, cond s = true → plain s = true) (ι)
    (hι : Calm ι) : ∀ (cs : Cases) f m, AllC ExecOk cs → AllC NoJump cs →
    checkC noEnum cond un true cs f = .ok (some m) →
    ∀ p ∈ cs.toList, ∀ st, st.ctl = .run → Hit cond (traceB ι p.2 st)
  | .nil, f, m, _, _, h, p, hp => by simp [Cases.toList] at hp
  | .cons k b cs, f, m, hok, hn, h, p, hp => by
      simp only [checkC, Res.bind_eq_ok, if_true] at h
      obtain ⟨rb, hb, h⟩ := h
      cases rb with
      | false => simp at h
      | true =>
        simp only [if_true] at h
        intro st hr
        simp only [Cases.toList, List.mem_cons] at hp
        rcases hp with rfl | hp
        · exact hitB hcond ι hι b st hok.1 hn.1 hb hr
        · exact hitC hcond ι hι cs (f+1) m hok.2 hn.2 h p hp st hr
end

end Kratos.Check
