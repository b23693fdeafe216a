import Verif.Fsm.Props

/-!
# C35: outputs of a Mealy machine
-/

namespace Kratos.Fsm
open Kratos.Ir

variable {W : World} {top : FId} {states : List SId} {c : Cfg} {r : Realized} {p : Plan}

theorem find_split {α : Type} {q : α → Bool} : ∀ {pre : List α} {a : α} {post : List α},
    (∀ b ∈ pre, q b = false) → q a = true → (pre ++ a :: post).find? q = some a
  | [], a, post, _, ha => by simp [List.find?, ha]
  | b :: pre, a, post, hp, ha => by
      simp only [List.cons_append, List.find?, hp b (by simp)]
      exact find_split (fun b' hb' => hp b' (List.mem_cons_of_mem _ hb')) ha

theorem addLast_append (s : Stmts) (y : Expr × Stmts) (post : List (Expr × Stmts)) :
    ∀ (pre : List (Expr × Stmts)) (x : Expr × Stmts),
    addLast s (pre ++ x :: y :: post) = pre ++ x :: addLast s (y :: post)
  | [], x => rfl
  | [a], x => rfl
  | a :: b :: pre, x => by
      have := addLast_append s y post (b :: pre) x
      simp only [List.cons_append, addLast] at this ⊢
      rw [this]

/-- When a guarded transition fires (and it is not the last one next to an unconditional
transition), exactly its statements run. -/
theorem body_go {trans : List (Option Guard × SId)} {b : Stmts}
    (hb : stateBody W top c p trans = .ok b) {pre post : List (Expr × SId)} {g : Expr} {t : SId}
    (hg : guarded trans = pre ++ (g, t) :: post) (ι : Nat → St → St) {st : St} (hr : st.ctl = .run)
    (hpre : ∀ q ∈ pre, q.1.eval st.val = 0) (hgt : g.eval st.val ≠ 0)
    (hlast : defaultOf trans = none ∨ post ≠ []) :
    Good W top c p t ∧ b.exec ι st = (goStmts c p t).exec ι st := by
  unfold stateBody at hb
  split at hb
  · simp [guarded] at hg
  · rw [Res.bind_eq_ok] at hb
    obtain ⟨ls, hls, hb⟩ := hb
    obtain ⟨hls, hgood⟩ := links_ok _ _ hls
    have hGood := hgood (g, t) (by rw [hg]; simp)
    refine ⟨hGood, ?_⟩
    rw [hg, List.map_append, List.map_cons] at hls
    have hpre' : ∀ q ∈ pre.map (fun q : Expr × SId => (q.1, goStmts c p q.2)),
        (q.1.eval st.val != 0) = false := by
      intro q hq
      obtain ⟨q', hq', rfl⟩ := List.mem_map.1 hq
      simp [hpre q' hq']
    have hgt' : (g.eval st.val != 0) = true := by simp [hgt]
    have hfind : ∀ post', (pre.map (fun q : Expr × SId => (q.1, goStmts c p q.2)) ++
        (g, goStmts c p t) :: post').find? (fun q => q.1.eval st.val != 0) =
        some (g, goStmts c p t) := fun post' => find_split hpre' hgt'
    split at hb
    · rename_i d hd
      have hpost : post ≠ [] := by
        rcases hlast with h | h
        · rw [h] at hd; cases hd
        · exact h
      rw [Res.bind_eq_ok] at hb
      obtain ⟨a, ha, hb⟩ := hb
      split at hb
      · cases hb
      · split at hb
        · cases hb
          rw [chain_exec ι _ hr, hls, hfind]
        · rw [Res.bind_eq_ok] at hb
          obtain ⟨s, hs, hb⟩ := hb
          cases hb
          cases post with
          | nil => exact absurd rfl hpost
          | cons y post =>
            rw [hls, List.map_cons, addLast_append, chain_exec ι _ hr, hfind]
    · split at hb
      · cases hb
      · cases hb
        rw [chain_exec ι _ hr, hls, hfind]

theorem callArgs_mem (outs : List Out) : ∀ (decl : List Out) (args : List (VarId × Nat × Expr)),
    callArgs outs decl = .ok args →
    ∀ d ∈ decl, ∃ o ∈ outs, o.v = d.v ∧ (d.v, d.w, argExpr d o.x) ∈ args
  | [], _, _, _, hd => by cases hd
  | d :: ds, args, h, d', hd' => by
      simp only [callArgs] at h
      split at h
      · cases h
      · rename_i o ho
        split at h
        · cases h
        · rw [Res.bind_eq_ok] at h
          obtain ⟨l, hl, h⟩ := h
          cases h
          cases hd' with
          | head =>
            exact ⟨o, List.mem_of_find?_eq_some ho, by simpa using List.find?_some ho, by simp⟩
          | tail _ hd' =>
            obtain ⟨o', h1, h2, h3⟩ := callArgs_mem outs ds l hl d' hd'
            exact ⟨o', h1, h2, List.mem_cons_of_mem _ h3⟩

/-- **C35** (partial).  In a Mealy machine, when a guarded transition is taken, the outputs are
those of the state being entered — provided the state has no unconditional transition or the guard
is not the last one.  Missing: the other cases, in which the code shows something else
(`mealy_counterexample_single`, `mealy_counterexample_last`, `mealy_counterexample_default`). -/
theorem mealy_outputs_partial (h : realize W top c states = .ok r) (hm : c.moore = false)
    (hn : NamesDistinct W top states) (hf : Fresh W top c states) (ho : OneDefault W states)
    (hdecl : ((W.F top).decl.map (·.v)).Nodup)
    (hindep : ∀ t ∈ states, ∀ o ∈ r.plan.outs t, ∀ e, o.x = .val e →
      e.reads c.cs = false ∧ e.reads c.ns = false)
    {ι : Nat → St → St} (hι : CallsMean W top r.plan ι) {s : SId} (hs : s ∈ states) (σ : Store)
    {pre post : List (Expr × SId)} {g : Expr} {t : SId}
    (hg : guarded (W.S s).trans = pre ++ (g, t) :: post)
    (hpre : ∀ q ∈ pre, q.1.eval σ = 0) (hgt : g.eval σ ≠ 0)
    (hlast : unconditional (W.S s).trans = [] ∨ post ≠ []) :
    let st' := r.comb.exec ι ⟨withReg c.cs (enc r.plan s) σ, [], .run⟩
    specNext W σ s = t ∧ st'.val c.ns % 2 ^ r.plan.w = enc r.plan t ∧
    ∀ d ∈ (W.F top).decl, ∃ o ∈ r.plan.outs t, o.v = d.v ∧
      st'.val d.v % 2 ^ d.w = shown σ ⟨d.v, d.w, o.x⟩ := by
  have hp := realize_parts h
  have hlt := enc_lt hp.plan hs
  have hspec : specNext W σ s = t := by
    unfold specNext taken
    rw [hg, find_split (fun q hq => by simp [hpre q hq]) (by simp [hgt])]
    rfl
  have hstep := (comb_step h hn hf ho (fun _ => hι) hs σ).1.ns
  rw [hspec] at hstep
  refine ⟨hspec, hstep, ?_⟩
  obtain ⟨b, hb, he⟩ := comb_exec hp hn ι hs (st := ⟨withReg c.cs (enc r.plan s) σ, [], .run⟩) rfl
    (by simp [withReg, Nat.mod_eq_of_lt hlt]) hf.ne
  have hev : ∀ e : Expr, e.reads c.cs = false → e.reads c.ns = false → ∀ x,
      e.eval ((withReg c.cs (enc r.plan s) σ).write ⟨c.ns, 0, r.plan.w⟩ x) = e.eval σ := by
    intro e h1 h2 x
    rw [Expr.eval_write h2]
    apply Expr.eval_congr
    intro y hy
    have : y ≠ c.cs := by rintro rfl; rw [h1] at hy; cases hy
    simp [withReg, this]
  have hgs := hf.guards s hs
  have hdef : defaultOf (W.S s).trans = none ∨ post ≠ [] := by
    rcases hlast with h1 | h1
    · left; rw [defaultOf_eq _ (ho s hs), h1]; rfl
    · exact .inr h1
  obtain ⟨hGood, hgo⟩ := body_go hb hg ι
    (st := ⟨(withReg c.cs (enc r.plan s) σ).write ⟨c.ns, 0, r.plan.w⟩ (enc r.plan s), [], .run⟩) rfl
    (by
      intro q hq
      have := hgs q (by rw [hg]; simp [hq])
      rw [hev q.1 this.1 this.2]; exact hpre q hq)
    (by
      have := hgs (g, t) (by rw [hg]; simp)
      rw [hev g this.1 this.2]; exact hgt) hdef
  rw [he, hgo]
  obtain ⟨args, hargs⟩ := hGood.2 hm
  have htm : t ∈ states := by have := hGood.1; rwa [hp.plan.sts] at this
  intro d hd
  obtain ⟨o, ho1, ho2, hmem⟩ := callArgs_mem _ _ _ hargs d hd
  refine ⟨o, ho1, ho2, ?_⟩
  unfold goStmts
  rw [Stmts.exec_cons]
  simp only [hm, Bool.false_eq_true, if_false, Stmts.exec_single]
  simp only [Stmt.exec, guardRun_run, Bool.false_eq_true, if_false, hι t args hargs, callSem,
    Expr.eval]
  have hnd : (args.map (fun a => a.1)).Nodup := by
    have := callArgs_vars _ _ _ hargs
    have h2 := congrArg (List.map Prod.fst) this
    simp only [List.map_map, Function.comp_def] at h2
    rw [h2]; exact hdecl
  rw [foldl_write_mem (fun a => a.2.2.eval _) args _ hnd _ hmem]
  have hdv := hf.outs d hd
  cases hx : o.x with
  | val e =>
    have := hindep t htm o ho1 e hx
    simp only [argExpr, shown]
    rw [Expr.eval_write this.2, hev e this.1 this.2]
  | null =>
    simp only [argExpr, shown, Expr.eval, Nat.mod_mod]
    rw [Store.write_ne hdv.2.1, Store.write_ne hdv.2.1]
    simp [withReg, hdv.1]
  | self =>
    simp only [argExpr, shown, Expr.eval, Nat.mod_mod]
    rw [Store.write_ne hdv.2.1, Store.write_ne hdv.2.1]
    simp [withReg, hdv.1]

end Kratos.Fsm
