import Verif.Fsm.Lemmas

/-!
# C34: a realized machine follows its state diagram
-/

namespace Kratos.Fsm
open Kratos.Ir

variable {W : World} {top : FId} {states : List SId} {c : Cfg} {r : Realized}

theorem taken_congr {σ τ : Store} {trans : List (Option Guard × SId)}
    (h : ∀ q ∈ guarded trans, q.1.eval σ = q.1.eval τ) : taken σ trans = taken τ trans := by
  have : ∀ l : List (Expr × SId), (∀ q ∈ l, q.1.eval σ = q.1.eval τ) →
      l.find? (fun q => q.1.eval σ != 0) = l.find? (fun q => q.1.eval τ != 0) := by
    intro l
    induction l with
    | nil => intro _; rfl
    | cons a l ih =>
      intro h
      simp only [List.find?]
      rw [h a (by simp), ih fun q hq => h q (List.mem_cons_of_mem _ hq)]
  unfold taken
  rw [this _ h]

/-- The combinational block in a state `s`: the next-state variable gets the code of the diagram's
next state, and nothing else changes (except the outputs, in a Mealy machine). -/
theorem comb_step (h : realize W top c states = .ok r) (hn : NamesDistinct W top states)
    (hf : Fresh W top c states) (ho : OneDefault W states)
    {ι : Nat → St → St} (hι : c.moore = false → CallsMean W top r.plan ι)
    {s : SId} (hs : s ∈ states) (σ : Store) :
    let st' := r.comb.exec ι ⟨withReg c.cs (enc r.plan s) σ, [], .run⟩
    Effect W top c r.plan ⟨withReg c.cs (enc r.plan s) σ, [], .run⟩ st'
      (enc r.plan (specNext W σ s)) ∧ specNext W σ s ∈ states := by
  have hp := realize_parts h
  have hlt : ∀ t ∈ r.plan.states, enc r.plan t < 2 ^ r.plan.w := by
    intro t ht; rw [hp.plan.sts] at ht; exact enc_lt hp.plan ht
  have hls := hlt s (by rw [hp.plan.sts]; exact hs)
  have hw := fresh_written hf
  obtain ⟨b, hb, he⟩ := comb_exec hp hn ι hs (st := ⟨withReg c.cs (enc r.plan s) σ, [], .run⟩) rfl
    (by simp [withReg, Nat.mod_eq_of_lt hls]) hf.ne
  have hbe := body_effect hι hw.1 hlt (ho s hs) hb
    (st := ⟨(withReg c.cs (enc r.plan s) σ).write ⟨c.ns, 0, r.plan.w⟩ (enc r.plan s), [], .run⟩) rfl
  simp only
  rw [he]
  have ht : taken ((withReg c.cs (enc r.plan s) σ).write ⟨c.ns, 0, r.plan.w⟩ (enc r.plan s))
      (W.S s).trans = taken σ (W.S s).trans := by
    apply taken_congr
    intro q hq
    have hg := hf.guards s hs q hq
    rw [Expr.eval_write hg.2]
    apply Expr.eval_congr
    intro x hx
    have : x ≠ c.cs := by rintro rfl; rw [hg.1] at hx; cases hx
    simp [withReg, this]
  simp only [ht] at hbe
  obtain ⟨h1, h2⟩ := hbe
  have hspec : ((taken σ (W.S s).trans).map (enc r.plan)).getD
      (((withReg c.cs (enc r.plan s) σ).write ⟨c.ns, 0, r.plan.w⟩ (enc r.plan s)) c.ns
        % 2 ^ r.plan.w) = enc r.plan (specNext W σ s) := by
    unfold specNext
    cases ht : taken σ (W.S s).trans with
    | some t => rfl
    | none => simp only [Option.map_none, Option.getD_none]; rw [Store.write_self, Nat.mod_eq_of_lt hls]
  rw [hspec] at h1
  refine ⟨⟨h1.ctl, h1.nba, ?_, h1.ns⟩, ?_⟩
  · intro x hx1 hx2
    rw [h1.frame x hx1 hx2]
    exact Store.write_ne hx1
  · unfold specNext
    cases ht : taken σ (W.S s).trans with
    | some t => have := h2 t ht; rw [hp.plan.sts] at this; exact this
    | none => exact hs

theorem resetLow_iff (hrst : c.rstIsPort = true ∨ c.resetHigh = true ∧ c.rstActiveHigh ≠ some false)
    (σ : Store) (hσ : ∀ x, x = c.rst → σ x = σ c.rst) :
    ((if resetLow c then Expr.un .not (.var c.rst c.rstW) else .var c.rst c.rstW).eval σ ≠ 0) ↔
      resetActive c σ := by
  clear hσ
  have hiff : resetLow c = true ↔ (c.rstActiveHigh = some false ∨ c.resetHigh = false) := by
    unfold resetLow
    simp only [Bool.and_eq_true, Bool.or_eq_true, beq_iff_eq, Bool.not_eq_true']
    rcases hrst with h | ⟨h1, h2⟩
    · simp [h]
    · simp [h1, h2]
  unfold resetActive
  by_cases hl : resetLow c = true
  · rw [if_pos hl, if_pos (hiff.1 hl)]
    simp [Expr.eval, UnOp.sem, b2n_ne_zero]
  · rw [if_neg hl, if_neg (fun hh => hl (hiff.2 hh))]
    simp [Expr.eval]

/-- Reset signal as the code sees it: a port, or an ordinary variable used active high. -/
def ResetOk (c : Cfg) : Prop :=
  c.rstIsPort = true ∨ c.resetHigh = true ∧ c.rstActiveHigh ≠ some false

theorem seq_exec (h : Parts W top c states r) (hrst : ResetOk c) (ι) (σ : Store) (hne : c.cs ≠ c.ns) :
    (r.seq.exec ι ⟨σ, [], .run⟩).commit c.cs % 2 ^ r.plan.w =
      if resetActive c σ then enc r.plan r.start else σ c.ns % 2 ^ r.plan.w := by
  have hls := enc_lt h.plan h.startMem
  rw [h.seq]
  unfold seqStmt
  simp only [Stmt.exec, guardRun_run]
  have hiff := resetLow_iff hrst σ (fun x e => by rw [e])
  by_cases ha : resetActive c σ
  · rw [if_pos (hiff.2 ha), if_pos ha]
    simp only [Stmts.exec, Stmt.exec, guardRun_run, if_true, List.nil_append, St.commit,
      List.foldl_cons, List.foldl_nil, Expr.eval]
    rw [Store.write_self, pattern_small hls, Nat.mod_eq_of_lt hls]
  · rw [if_neg (fun hh => ha (hiff.1 hh)), if_neg ha]
    simp only [Stmts.exec, Stmt.exec, guardRun_run, if_true, List.nil_append, St.commit,
      List.foldl_cons, List.foldl_nil, Expr.eval]
    rw [Store.write_self, Nat.mod_mod]

/-- One event from a known state. -/
theorem hw_step (h : realize W top c states = .ok r) (hn : NamesDistinct W top states)
    (hf : Fresh W top c states) (ho : OneDefault W states) (hrst : ResetOk c)
    {ι : Nat → St → St} (hι : c.moore = false → CallsMean W top r.plan ι)
    {s : SId} (hs : s ∈ states) (σ : Store) :
    hwStep ι c r σ (enc r.plan s) =
      enc r.plan (if resetActive c σ then r.start else specNext W σ s) := by
  have hp := realize_parts h
  obtain ⟨hc, _⟩ := comb_step h hn hf ho hι hs σ
  unfold hwStep
  simp only
  rw [seq_exec hp hrst ι _ hf.ne, hc.ns]
  have hr : (r.comb.exec ι ⟨withReg c.cs (enc r.plan s) σ, [], .run⟩).val c.rst = σ c.rst := by
    rw [hc.frame c.rst hf.rst.2 (fresh_written hf).2.2]
    simp [withReg, hf.rst.1]
  have : resetActive c (r.comb.exec ι ⟨withReg c.cs (enc r.plan s) σ, [], .run⟩).val ↔
      resetActive c σ := by unfold resetActive; rw [hr]
  by_cases ha : resetActive c σ
  · rw [if_pos (this.2 ha), if_pos ha]
  · rw [if_neg (fun hh => ha (this.1 hh)), if_neg ha]

theorem start_mem (h : realize W top c states = .ok r) : r.start ∈ states :=
  (realize_parts h).startMem

theorem specRun_mem (h : realize W top c states = .ok r) (hn : NamesDistinct W top states)
    (hf : Fresh W top c states) (ho : OneDefault W states)
    {ι : Nat → St → St} (hι : c.moore = false → CallsMean W top r.plan ι)
    {s0 : SId} (hs : s0 ∈ states) (inp : Nat → Store) :
    ∀ k, specRun W c r.start inp s0 k ∈ states
  | 0 => hs
  | k + 1 => by
      simp only [specRun]
      split
      · exact start_mem h
      · exact (comb_step h hn hf ho hι (specRun_mem h hn hf ho hι hs inp k) (inp k)).2

/-- From a known state, the register follows the diagram for every input history. -/
theorem hw_run (h : realize W top c states = .ok r) (hn : NamesDistinct W top states)
    (hf : Fresh W top c states) (ho : OneDefault W states) (hrst : ResetOk c)
    {ι : Nat → St → St} (hι : c.moore = false → CallsMean W top r.plan ι)
    {s0 : SId} (hs : s0 ∈ states) (inp : Nat → Store) :
    ∀ k, hwRun ι c r inp (enc r.plan s0) k = enc r.plan (specRun W c r.start inp s0 k)
  | 0 => rfl
  | k + 1 => by
      simp only [hwRun, specRun]
      rw [hw_run h hn hf ho hrst hι hs inp k,
        hw_step h hn hf ho hrst hι (specRun_mem h hn hf ho hι hs inp k)]

/-! ### Reset from an arbitrary register value -/

theorem runLinks_cases (ι) (w v : Nat) (fin : Stmts) (st : St) (f : SId → Int) (body : SId → Stmts) :
    ∀ (l : List SId),
    (∃ s ∈ l, Opt.runLinks ι w v (l.map (fun t => (f t, body t))) fin st = (body s).exec ι st) ∨
    Opt.runLinks ι w v (l.map (fun t => (f t, body t))) fin st = fin.exec ι st
  | [] => .inr (by simp [Opt.runLinks])
  | a :: l => by
      simp only [List.map_cons, Opt.runLinks]
      by_cases e : pattern w (f a) = v
      · rw [if_pos e]; exact .inl ⟨a, by simp, rfl⟩
      · rw [if_neg e]
        rcases runLinks_cases ι w v fin st f body l with ⟨s, hs, h⟩ | h
        · exact .inl ⟨s, List.mem_cons_of_mem _ hs, h⟩
        · exact .inr h

/-- Whatever the register holds, the combinational block leaves the reset signal alone. -/
theorem comb_frame (h : realize W top c states = .ok r) (hn : NamesDistinct W top states)
    (hf : Fresh W top c states) (ho : OneDefault W states)
    {ι : Nat → St → St} (hι : c.moore = false → CallsMean W top r.plan ι) (σ : Store) :
    (r.comb.exec ι ⟨σ, [], .run⟩).val c.rst = σ c.rst := by
  have hp := realize_parts h
  have hlt : ∀ t ∈ r.plan.states, enc r.plan t < 2 ^ r.plan.w := by
    intro t ht; rw [hp.plan.sts] at ht; exact enc_lt hp.plan ht
  have hw := fresh_written hf
  have hcomb := hp.comb
  unfold genTransition at hcomb
  rw [Res.bind_eq_ok] at hcomb
  obtain ⟨l, hl, hcomb⟩ := hcomb
  rw [hp.plan.sts] at hl
  obtain ⟨hl1, hl2⟩ := stateCases_ok _ _ hl
  simp only [Res.ok.injEq] at hcomb
  rw [← hcomb]
  have hinj : (states.map (fun t => (enc r.plan t : Int))).Nodup :=
    nodup_map_inj _ _ (names_nodup hn) fun s hs t ht e =>
      enc_inj hp.plan hn hs ht (by exact_mod_cast e)
  rw [Stmts.exec_cons, Stmts.exec_single]
  have e1 : (Stmt.assign false ⟨c.ns, 0, r.plan.w⟩ (.var c.cs r.plan.w)).exec ι ⟨σ, [], .run⟩ =
      ⟨σ.write ⟨c.ns, 0, r.plan.w⟩ (σ c.cs % 2 ^ r.plan.w), [], .run⟩ := by
    simp only [Stmt.exec, guardRun_run, Bool.false_eq_true, if_false, Expr.eval]
  rw [e1]
  generalize hst : (⟨σ.write ⟨c.ns, 0, r.plan.w⟩ (σ c.cs % 2 ^ r.plan.w), [], .run⟩ : St) = st1
  have hrun : st1.ctl = .run := by rw [← hst]
  have hrst : st1.val c.rst = σ c.rst := by rw [← hst]; exact Store.write_ne hf.rst.2
  rw [← hrst]
  clear hst hrst
  simp only [Stmt.exec, Expr.eval, Expr.width]
  rw [guardRun_run hrun, hl1]
  have hfe := foldl_exec ι r.plan.w (enc r.plan) (bodyOf W top c r.plan) states hinj
  have hbody : ∀ s ∈ states, ((bodyOf W top c r.plan s).exec ι st1).val c.rst = st1.val c.rst := by
    intro s hs
    exact (body_effect hι hw.1 hlt (ho s hs) (hl2 s hs) hrun).1.frame c.rst hf.rst.2 hw.2.2
  split
  · rw [(hfe .nil _ _).2]
    rcases runLinks_cases ι r.plan.w (st1.val c.cs % 2 ^ r.plan.w) .nil st1
      (fun t => (enc r.plan t : Int)) (bodyOf W top c r.plan) states with ⟨s, hs, e⟩ | e
    · rw [e]; exact hbody s hs
    · rw [e, Stmts.exec_nil]
  · rw [(hfe _ _ _).1]
    rcases runLinks_cases ι r.plan.w (st1.val c.cs % 2 ^ r.plan.w) _ st1
      (fun t => (enc r.plan t : Int)) (bodyOf W top c r.plan) states with ⟨s, hs, e⟩ | e
    · rw [e]; exact hbody s hs
    · rw [e, Stmts.exec_single]
      simp only [Stmt.exec, guardRun_run hrun, Bool.false_eq_true, if_false]
      exact Store.write_ne hf.rst.2

/-- An active reset puts the register into the start state, whatever it held. -/
theorem hw_reset (h : realize W top c states = .ok r) (hn : NamesDistinct W top states)
    (hf : Fresh W top c states) (ho : OneDefault W states) (hrst : ResetOk c)
    {ι : Nat → St → St} (hι : c.moore = false → CallsMean W top r.plan ι)
    (σ : Store) (q : Nat) (ha : resetActive c σ) :
    hwStep ι c r σ q = enc r.plan r.start := by
  have hp := realize_parts h
  unfold hwStep
  simp only
  rw [seq_exec hp hrst ι _ hf.ne]
  have := comb_frame h hn hf ho hι (withReg c.cs q σ)
  rw [if_pos]
  unfold resetActive at ha ⊢
  rw [this]
  simpa [withReg, hf.rst.1] using ha

theorem hwRun_shift (ι : Nat → St → St) (inp : Nat → Store) (q0 j : Nat) : ∀ k,
    hwRun ι c r inp q0 (j + k) = hwRun ι c r (fun i => inp (j + i)) (hwRun ι c r inp q0 j) k
  | 0 => rfl
  | k + 1 => by
      rw [← Nat.add_assoc]
      simp only [hwRun]
      rw [hwRun_shift ι inp q0 j k]

/-! ### Moore outputs -/

/-- What an output shows in a state: the value of its expression, or its old value when the user
gave no value or the output itself. -/
def shown (σ : Store) (o : Out) : Nat :=
  match o.x with
  | .val e => e.eval σ % 2 ^ o.w
  | _ => σ o.v % 2 ^ o.w

theorem outStmts_exec (ι) : ∀ (outs : List Out) (st : St), st.ctl = .run →
    (outs.map (·.v)).Nodup → (∀ o ∈ outs, ∀ e, o.x = .val e → ∀ o' ∈ outs, e.reads o'.v = false) →
    let st' := (outStmts outs).exec ι st
    st'.ctl = .run ∧ (∀ x, x ∉ outs.map (·.v) → st'.val x = st.val x) ∧
      ∀ o ∈ outs, st'.val o.v % 2 ^ o.w = shown st.val o
  | [], st, hr, _, _ => by simp [outStmts, Stmts.exec, hr]
  | o :: l, st, hr, hn, hi => by
      simp only [List.map_cons, List.nodup_cons] at hn
      have hi' : ∀ o ∈ l, ∀ e, o.x = .val e → ∀ o' ∈ l, e.reads o'.v = false :=
        fun o ho e he o' ho' => hi o (List.mem_cons_of_mem _ ho) e he o' (List.mem_cons_of_mem _ ho')
      obtain ⟨v, w, x⟩ := o
      have skip : (∀ e, x ≠ .val e) → outStmts (⟨v, w, x⟩ :: l) = outStmts l := by
        intro hx; cases x with
        | val e => exact absurd rfl (hx e)
        | null => rfl
        | self => rfl
      rcases Classical.em (∃ e, x = .val e) with ⟨e, rfl⟩ | hx
      · simp only [outStmts, Stmts.exec_cons]
        have e1 : (Stmt.assign false ⟨v, 0, w⟩ e).exec ι st =
            { st with val := st.val.write ⟨v, 0, w⟩ (e.eval st.val) } := by
          simp only [Stmt.exec, guardRun_run hr, Bool.false_eq_true, if_false]
        rw [e1]
        obtain ⟨h1, h2, h3⟩ := outStmts_exec ι l
          { st with val := st.val.write ⟨v, 0, w⟩ (e.eval st.val) } hr hn.2 hi'
        refine ⟨h1, ?_, ?_⟩
        · intro y hy
          simp only [List.map_cons, List.mem_cons, not_or] at hy
          rw [h2 y hy.2]
          exact Store.write_ne hy.1
        · intro o ho
          cases ho with
          | head => rw [h2 v hn.1]; simp only [shown]; exact Store.write_self
          | tail _ ho =>
            rw [h3 o ho]
            have hov : o.v ≠ v := by
              intro hv
              apply hn.1
              have := List.mem_map_of_mem (f := fun o : Out => o.v) ho
              rwa [hv] at this
            unfold shown
            cases hx : o.x with
            | val e' =>
              simp only
              have hrd : e'.reads v = false := hi o (List.mem_cons_of_mem _ ho) e' hx _ (List.mem_cons_self ..)
              rw [Expr.eval_write hrd]
            | null => simp only; rw [Store.write_ne hov]
            | self => simp only; rw [Store.write_ne hov]
      · rw [skip fun e he => hx ⟨e, he⟩]
        obtain ⟨h1, h2, h3⟩ := outStmts_exec ι l st hr hn.2 hi'
        refine ⟨h1, ?_, ?_⟩
        · intro y hy
          simp only [List.map_cons, List.mem_cons, not_or] at hy
          exact h2 y hy.2
        · intro o ho
          cases ho with
          | head =>
            rw [h2 v hn.1]
            unfold shown
            cases x with
            | val e => exact absurd ⟨e, rfl⟩ hx
            | null => rfl
            | self => rfl
          | tail _ ho => exact h3 o ho

theorem outCases_ok {p : Plan} : ∀ (l : List SId) (cs : List (Int × Stmts)),
    outCases p l = .ok cs →
    cs = (l.filter (fun s => !(outStmts (p.outs s)).isEmpty)).map
      (fun s => ((enc p s : Int), outStmts (p.outs s)))
  | [], cs, h => by simp only [outCases] at h; cases h; rfl
  | s :: l, cs, h => by
      simp only [outCases] at h
      rw [Res.bind_eq_ok] at h
      obtain ⟨v, hv, h⟩ := h
      rw [Res.bind_eq_ok] at h
      obtain ⟨cs', hc, h⟩ := h
      have ih := outCases_ok l cs' hc
      have hv' := (encode_ok hv).2
      split at h
      · rename_i hnil
        cases h
        have he : (outStmts (p.outs s)).isEmpty = true := by rw [hnil]; rfl
        rw [List.filter_cons_of_neg (by simp [he])]
        exact ih
      · rename_i b hb
        cases h
        have hne : (outStmts (p.outs s)).isEmpty = false := by
          cases hx : outStmts (p.outs s) with
          | nil => exact absurd hx hb
          | cons _ _ => rfl
        simp [List.filter, hne, ← ih, hv']

theorem outStmts_nil {outs : List Out} (h : outStmts outs = .nil) {o : Out} (ho : o ∈ outs) :
    ∀ e, o.x ≠ .val e := by
  induction outs with
  | nil => cases ho
  | cons a l ih =>
    obtain ⟨v, w, x⟩ := a
    cases x with
    | val e => simp [outStmts] at h
    | null =>
      simp only [outStmts] at h
      cases ho with
      | head => intro e he; cases he
      | tail _ ho => exact ih h ho
    | self =>
      simp only [outStmts] at h
      cases ho with
      | head => intro e he; cases he
      | tail _ ho => exact ih h ho

theorem runLinks_none (ι) (w v : Nat) (fin : Stmts) (st : St) (f : SId → Int) (body : SId → Stmts) :
    ∀ (l : List SId), (∀ t ∈ l, pattern w (f t) ≠ v) →
    Opt.runLinks ι w v (l.map (fun t => (f t, body t))) fin st = fin.exec ι st
  | [], _ => by simp [Opt.runLinks]
  | a :: l, h => by
      simp only [List.map_cons, Opt.runLinks]
      rw [if_neg (h a (by simp))]
      exact runLinks_none ι w v fin st f body l fun t ht => h t (List.mem_cons_of_mem _ ht)

/-- What the user must guarantee about the outputs of a Moore state. -/
structure OutsOk (r : Realized) (states : List SId) : Prop where
  /-- output variables are different -/
  nodup : ∀ s ∈ states, ((r.plan.outs s).map (·.v)).Nodup
  /-- no output value reads an output variable -/
  indep : ∀ s ∈ states, ∀ o ∈ r.plan.outs s, ∀ e, o.x = .val e →
    ∀ o' ∈ r.plan.outs s, e.reads o'.v = false
  /-- every state assigns something (see `moore_counterexample_hold`) -/
  some : ∀ s ∈ states, ∃ o ∈ r.plan.outs s, ∃ e, o.x = .val e

/-- The output block in a state shows the outputs of this state. -/
theorem out_step (h : realize W top c states = .ok r) (hn : NamesDistinct W top states)
    (hm : c.moore = true) (hok : OutsOk r states) (ι : Nat → St → St)
    {s : SId} (hs : s ∈ states) (σ : Store) (hq : σ c.cs % 2 ^ r.plan.w = enc r.plan s) :
    ∀ o ∈ r.plan.outs s, (r.out.exec ι ⟨σ, [], .run⟩).val o.v % 2 ^ o.w = shown σ o := by
  have hp := realize_parts h
  have hout := hp.out
  rw [hm] at hout
  simp only [if_true] at hout
  unfold genOutput at hout
  rw [Res.bind_eq_ok] at hout
  obtain ⟨l, hl, hout⟩ := hout
  rw [hp.plan.sts] at hl
  have hl' := outCases_ok _ _ hl
  split at hout
  · simp only [Res.ok.injEq] at hout
    rw [← hout, Stmts.exec_single]
    simp only [Stmt.exec, Expr.eval, Expr.width, guardRun_run, hq]
    obtain ⟨o1, ho1, e1, he1⟩ := hok.some s hs
    have hne : (outStmts (r.plan.outs s)).isEmpty = false := by
      cases hx : outStmts (r.plan.outs s) with
      | nil => exact absurd he1 (outStmts_nil hx ho1 e1)
      | cons _ _ => rfl
    have hsf : s ∈ states.filter (fun s => !(outStmts (r.plan.outs s)).isEmpty) := by
      simp [List.mem_filter, hs, hne]
    have hsub : ∀ t ∈ states.filter (fun s => !(outStmts (r.plan.outs s)).isEmpty), t ∈ states :=
      fun t ht => (List.mem_filter.1 ht).1
    have hnd : (states.filter (fun s => !(outStmts (r.plan.outs s)).isEmpty)).Nodup :=
      (names_nodup hn).filter _
    have hinj := nodup_map_inj (fun t => (enc r.plan t : Int)) _ hnd fun s hs t ht e =>
      enc_inj hp.plan hn (hsub s hs) (hsub t ht) (by exact_mod_cast e)
    have hfe := foldl_exec ι r.plan.w (enc r.plan) (fun t => outStmts (r.plan.outs t)) _ hinj
    have hpick := fun fin st => runLinks_pick ι r.plan.w (enc r.plan)
      (fun t => outStmts (r.plan.outs t)) fin st _ hsf
      (fun t ht => enc_lt hp.plan (hsub t ht))
      (fun t ht e => enc_inj hp.plan hn (hsub t ht) hs e)
    have hfin := outStmts_exec ι (r.plan.outs s) ⟨σ, [], .run⟩ rfl (hok.nodup s hs) (hok.indep s hs)
    rw [hl']
    split
    · rw [(hfe .nil _ _).2, hpick]; exact hfin.2.2
    · split
      · rw [(hfe .nil _ _).2, hpick]; exact hfin.2.2
      · rw [(hfe _ _ _).1, hpick]; exact hfin.2.2
  · cases hout

/-- **C34** (partial: distinct enum names, at most one unconditional transition per state, no
active-low reset on a non-port signal, every state assigns some output).  For every input history,
every contents `q0` of the register at power-up and every event `j` with an active reset: from then
on the register holds the code of the state the diagram is in, codes of different states differ,
and the outputs are those of that state. -/
theorem moore_trace_partial (h : realize W top c states = .ok r) (hm : c.moore = true)
    (hn : NamesDistinct W top states) (hf : Fresh W top c states) (ho : OneDefault W states)
    (hrst : ResetOk c) (hok : OutsOk r states) (ι : Nat → St → St)
    (inp : Nat → Store) (q0 j : Nat) (hj : resetActive c (inp j)) (k : Nat) :
    let s := specRun W c r.start (fun i => inp (j + 1 + i)) r.start k
    let q := hwRun ι c r inp q0 (j + 1 + k)
    (W.F top).start = some r.start ∧ s ∈ states ∧
    q = enc r.plan s ∧ (∀ t ∈ states, enc r.plan t = q → t = s) ∧
    ∀ o ∈ r.plan.outs s,
      (r.out.exec ι ⟨withReg c.cs q (inp (j + 1 + k)), [], .run⟩).val o.v % 2 ^ o.w =
        shown (withReg c.cs q (inp (j + 1 + k))) o := by
  have hι : c.moore = false → CallsMean W top r.plan ι := by rw [hm]; intro h; cases h
  have hp := realize_parts h
  have hstart := start_mem h
  have hs := specRun_mem h hn hf ho hι hstart (fun i => inp (j + 1 + i)) k
  have hq : hwRun ι c r inp q0 (j + 1 + k) =
      enc r.plan (specRun W c r.start (fun i => inp (j + 1 + i)) r.start k) := by
    rw [hwRun_shift]
    have : hwRun ι c r inp q0 (j + 1) = enc r.plan r.start := by
      simp only [hwRun]; exact hw_reset h hn hf ho hrst hι _ _ hj
    rw [this, hw_run h hn hf ho hrst hι hstart]
  refine ⟨hp.start, hs, hq, ?_, ?_⟩
  · intro t ht e; rw [hq] at e; exact enc_inj hp.plan hn ht hs e
  · apply out_step h hn hm hok ι hs
    rw [hq]
    simp [withReg, Nat.mod_eq_of_lt (enc_lt hp.plan hs)]

end Kratos.Fsm
