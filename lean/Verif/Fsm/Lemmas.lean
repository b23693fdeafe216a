import Verif.Fsm.Spec
import Verif.Opt.Lemmas
import Verif.Util.Clog2Props

/-! Helper lemmas for the FSM model (no property theorems here). -/

namespace Kratos.Fsm
open Kratos.Ir

/-! ### The enum -/

theorem lookup_rawDef (n : String) : ∀ (ns : List String) (c : Nat) (d : List (String × Nat)),
    (rawDef ns c d).lookup n =
      (d.lookup n).or (if n ∈ ns then some (c + ns.idxOf n) else none)
  | [], c, d => by simp [rawDef]
  | m :: ns, c, d => by
      simp only [rawDef]
      rw [lookup_rawDef n ns (c + 1)]
      rcases Decidable.em (n = m) with rfl | hne
      · cases hd : d.lookup n with
        | none => simp [List.lookup_append, hd, List.lookup]
        | some v => simp [hd]
      · have h1 : (if (d.lookup m).isSome then d else d ++ [(m, c)]).lookup n = d.lookup n := by
          split
          · rfl
          · rw [List.lookup_append]
            have : (n == m) = false := by simp [hne]
            simp [List.lookup, this]
        rw [h1]
        congr 1
        have : (m == n) = false := by simp [Ne.symm hne]
        by_cases hm : n ∈ ns
        · simp only [hm, List.mem_cons, or_true, if_true, List.idxOf_cons, this, cond_false]
          simp only [Option.some.injEq]; omega
        · simp [hm, hne]

theorem lookup_plan {names : List String} {n : String} (h : n ∈ names) :
    (rawDef names 0 []).lookup n = some (names.idxOf n) := by
  rw [lookup_rawDef]; simp [h]

/-- The plan made by `realize`. -/
structure IsPlan (W : World) (top : FId) (states : List SId) (p : Plan) : Prop where
  sts : p.states = states
  w : p.w = max 1 (Util.ceilLog2 states.length)
  defs : p.defs = rawDef (states.map (stateName W top)) 0 []
  name : p.name = stateName W top
  nonempty : states ≠ []

variable {W : World} {top : FId} {states : List SId} {p : Plan} {c : Cfg}

theorem enc_eq (hp : IsPlan W top states p) {s : SId} (hs : s ∈ states) :
    enc p s = (states.map (stateName W top)).idxOf (stateName W top s) ∧
    p.defs.lookup (p.name s) = some (enc p s) := by
  have hm : stateName W top s ∈ states.map (stateName W top) := List.mem_map_of_mem hs
  have := lookup_plan hm
  have hl : p.defs.lookup (p.name s) = some ((states.map (stateName W top)).idxOf (stateName W top s)) := by
    rw [hp.defs, hp.name]; exact this
  constructor
  · simp [enc, hl]
  · simp [enc, hl]

theorem enc_lt (hp : IsPlan W top states p) {s : SId} (hs : s ∈ states) : enc p s < 2 ^ p.w := by
  have h1 := (enc_eq hp hs).1
  have hm : stateName W top s ∈ states.map (stateName W top) := List.mem_map_of_mem hs
  have h2 := List.idxOf_lt_length_of_mem hm
  rw [← h1, List.length_map] at h2
  have h0 : states.length ≠ 0 := by
    intro h; exact hp.nonempty (List.length_eq_zero_iff.1 h)
  have h3 := Util.le_two_pow_ceilLog2 states.length h0
  have h4 : 2 ^ Util.ceilLog2 states.length ≤ 2 ^ p.w :=
    Nat.pow_le_pow_right (by decide) (by rw [hp.w]; omega)
  omega

theorem enc_name (hp : IsPlan W top states p) {s t : SId} (hs : s ∈ states) (ht : t ∈ states) :
    enc p s = enc p t ↔ stateName W top s = stateName W top t := by
  constructor
  · intro h
    rw [(enc_eq hp hs).1, (enc_eq hp ht).1] at h
    have hms : stateName W top s ∈ states.map (stateName W top) := List.mem_map_of_mem hs
    have hmt : stateName W top t ∈ states.map (stateName W top) := List.mem_map_of_mem ht
    have a := List.getElem_idxOf (List.idxOf_lt_length_of_mem hms)
    have b := List.getElem_idxOf (List.idxOf_lt_length_of_mem hmt)
    simp only [h] at a
    exact a.symm.trans b
  · intro h
    simp only [enc, hp.name, h]

theorem enc_inj (hp : IsPlan W top states p) (hn : NamesDistinct W top states) {s t : SId}
    (hs : s ∈ states) (ht : t ∈ states) (h : enc p s = enc p t) : s = t := by
  have h1 := (enc_name hp hs ht).1 h
  unfold NamesDistinct at hn
  clear h hp
  induction states with
  | nil => cases hs
  | cons a l ih =>
    simp only [List.map_cons, List.nodup_cons] at hn
    cases hs with
    | head =>
      cases ht with
      | head => rfl
      | tail _ ht => exact absurd (h1 ▸ List.mem_map_of_mem ht) hn.1
    | tail _ hs =>
      cases ht with
      | head => exact absurd (h1.symm ▸ List.mem_map_of_mem hs) hn.1
      | tail _ ht => exact ih hn.2 hs ht

theorem pattern_small {w v : Nat} (h : v < 2 ^ w) : pattern w (v : Int) = v := by
  unfold pattern
  have : ((v : Int) % 2 ^ w) = v := by
    apply Int.emod_eq_of_lt (by omega)
    exact_mod_cast h
  rw [this]; rfl

theorem encode_ok {t : SId} {v : Nat} (h : encode p t = .ok v) :
    t ∈ p.states ∧ v = enc p t := by
  unfold encode at h
  split at h
  · rename_i ht
    refine ⟨ht, ?_⟩
    split at h
    · rename_i x hx; cases h; simp [enc, hx]
    · cases h
  · cases h

/-! ### The if chain -/

theorem chain_exec (ι) (e : Stmts) {st : St} (hr : st.ctl = .run) :
    ∀ (ls : List (Expr × Stmts)), (chain ls e).exec ι st =
      match ls.find? (fun q => q.1.eval st.val != 0) with
      | some q => q.2.exec ι st
      | none => e.exec ι st
  | [] => by simp [chain]
  | (g, b) :: l => by
      simp only [chain, Stmts.exec, Stmt.exec, guardRun_run hr, List.find?]
      rcases Decidable.em (g.eval st.val = 0) with h | h
      · have : (g.eval st.val != 0) = false := by simp [h]
        simp only [h, this, ne_eq, not_true_eq_false, if_false]
        exact chain_exec ι e hr l
      · have : (g.eval st.val != 0) = true := by simp [h]
        simp [h, this]

/-- The statements of one transition to `t`. -/
def goStmts (c : Cfg) (p : Plan) (t : SId) : Stmts :=
  .cons (.assign false ⟨c.ns, 0, p.w⟩ (.const p.w (enc p t)))
    (if c.moore then .nil else .cons (.other t) .nil)

theorem nextStmt_ok {t : SId} {a : Stmt} (h : nextStmt c p t = .ok a) :
    t ∈ p.states ∧ a = .assign false ⟨c.ns, 0, p.w⟩ (.const p.w (enc p t)) := by
  unfold nextStmt at h
  rw [Res.bind_eq_ok] at h
  obtain ⟨v, hv, h⟩ := h
  obtain ⟨h1, h2⟩ := encode_ok hv
  cases h
  exact ⟨h1, by rw [h2]⟩

theorem callStmt_ok {t : SId} {a : Stmt} (h : callStmt W top p t = .ok a) :
    a = .other t ∧ ∃ args, callArgs (p.outs t) (W.F top).decl = .ok args := by
  unfold callStmt at h
  rw [Res.bind_eq_ok] at h
  obtain ⟨v, hv, h⟩ := h
  cases h
  exact ⟨rfl, v, hv⟩

/-- Targets are known states and, in a Mealy machine, their calls are well formed. -/
def Good (W : World) (top : FId) (c : Cfg) (p : Plan) (t : SId) : Prop :=
  t ∈ p.states ∧ (c.moore = false → ∃ args, callArgs (p.outs t) (W.F top).decl = .ok args)

theorem links_ok : ∀ (trans : List (Option Guard × SId)) (ls : List (Expr × Stmts)),
    links W top c p trans = .ok ls →
    ls = (guarded trans).map (fun q => (q.1, goStmts c p q.2)) ∧
    ∀ q ∈ guarded trans, Good W top c p q.2
  | [], ls, h => by
      simp only [links] at h; cases h; simp [guarded]
  | (none, _) :: l, ls, h => by
      simp only [links] at h
      simpa [guarded] using links_ok l ls h
  | (some g, t) :: l, ls, h => by
      simp only [links] at h
      rw [Res.bind_eq_ok] at h
      obtain ⟨a, ha, h⟩ := h
      obtain ⟨hm, ha'⟩ := nextStmt_ok ha
      rw [Res.bind_eq_ok] at h
      obtain ⟨rest, hrest, h⟩ := h
      rw [Res.bind_eq_ok] at h
      obtain ⟨ls', hl, h⟩ := h
      obtain ⟨h1, h2⟩ := links_ok l ls' hl
      cases h
      have hg : guarded ((some g, t) :: l) = (g.e, t) :: guarded l := by simp [guarded]
      rw [hg]
      have hr : rest = (if c.moore then .nil else .cons (.other t) .nil) ∧
          (c.moore = false → ∃ args, callArgs (p.outs t) (W.F top).decl = .ok args) := by
        cases hmo : c.moore with
        | true => rw [hmo] at hrest; simp only [if_true] at hrest; cases hrest; simp
        | false =>
          rw [hmo] at hrest
          simp only [Bool.false_eq_true, if_false] at hrest
          rw [Res.bind_eq_ok] at hrest
          obtain ⟨s, hs, he⟩ := hrest
          obtain ⟨e1, e2⟩ := callStmt_ok hs
          cases he
          simp [e1, e2]
      constructor
      · rw [List.map_cons, ← h1, ha', hr.1]; rfl
      · intro q hq
        cases hq with
        | head => exact ⟨hm, hr.2⟩
        | tail _ hq => exact h2 q hq

theorem defaultOf_eq : ∀ (trans : List (Option Guard × SId)),
    (unconditional trans).length ≤ 1 → defaultOf trans = (unconditional trans).head?
  | [], _ => rfl
  | (none, t) :: l, h => by
      have hu : unconditional ((none, t) :: l) = t :: unconditional l := by
        simp [unconditional]
      rw [hu] at h ⊢
      simp only [List.length_cons] at h
      have h0 : unconditional l = [] := List.length_eq_zero_iff.1 (by omega)
      have := defaultOf_eq l (by omega)
      simp [defaultOf, this, h0]
  | (some g, t) :: l, h => by
      have hu : unconditional ((some g, t) :: l) = unconditional l := by
        simp [unconditional]
      rw [hu] at h ⊢
      simp only [defaultOf]; exact defaultOf_eq l h

/-! ### Calls -/

theorem callArgs_vars (outs : List Out) : ∀ (decl : List Out) (args : List (VarId × Nat × Expr)),
    callArgs outs decl = .ok args → args.map (fun a => (a.1, a.2.1)) = decl.map (fun d => (d.v, d.w))
  | [], args, h => by simp only [callArgs] at h; cases h; rfl
  | d :: ds, args, h => by
      simp only [callArgs] at h
      split at h
      · cases h
      · split at h
        · cases h
        · rw [Res.bind_eq_ok] at h
          obtain ⟨l, hl, h⟩ := h
          cases h
          simp [callArgs_vars outs ds l hl]

theorem foldl_write_ne {x : VarId} (f : VarId × Nat × Expr → Nat) :
    ∀ (args : List (VarId × Nat × Expr)) (σ : Store), (∀ a ∈ args, x ≠ a.1) →
    args.foldl (fun σ a => σ.write ⟨a.1, 0, a.2.1⟩ (f a)) σ x = σ x
  | [], _, _ => rfl
  | a :: l, σ, h => by
      simp only [List.foldl_cons]
      rw [foldl_write_ne f l _ fun b hb => h b (List.mem_cons_of_mem _ hb)]
      exact Store.write_ne (h a (by simp))

theorem foldl_write_mem (f : VarId × Nat × Expr → Nat) :
    ∀ (args : List (VarId × Nat × Expr)) (σ : Store), (args.map (fun a => a.1)).Nodup →
    ∀ a ∈ args, args.foldl (fun σ a => σ.write ⟨a.1, 0, a.2.1⟩ (f a)) σ a.1 % 2 ^ a.2.1 =
      f a % 2 ^ a.2.1
  | [], _, _, _, ha => by cases ha
  | b :: l, σ, hn, a, ha => by
      simp only [List.map_cons, List.nodup_cons] at hn
      simp only [List.foldl_cons]
      cases ha with
      | head =>
        have hne : ∀ b' ∈ l, b.1 ≠ b'.1 := by
          intro b' hb' he
          apply hn.1
          rw [he]
          exact List.mem_map_of_mem (f := fun a : VarId × Nat × Expr => a.1) hb'
        rw [foldl_write_ne f l _ hne]
        exact Store.write_self
      | tail _ ha => exact foldl_write_mem f l _ hn.2 a ha

/-- Variables a call may write. -/
def written (W : World) (top : FId) (c : Cfg) : List VarId :=
  if c.moore then [] else (W.F top).decl.map (·.v)

theorem call_frame {ι : Nat → St → St} (hι : CallsMean W top p ι) (hm : c.moore = false) {t : SId}
    (hg : Good W top c p t) {st : St} (hr : st.ctl = .run) :
    let st' := (Stmt.other t).exec ι st
    st'.ctl = .run ∧ st'.nba = st.nba ∧ ∀ x, x ∉ written W top c → st'.val x = st.val x := by
  obtain ⟨args, ha⟩ := hg.2 hm
  simp only [Stmt.exec, guardRun_run hr, hι t args ha, callSem]
  refine ⟨hr, trivial, ?_⟩
  intro x hx
  apply foldl_write_ne
  intro a haa he
  apply hx
  unfold written
  rw [hm]
  have := callArgs_vars _ _ _ ha
  have hmem : (a.1, a.2.1) ∈ (W.F top).decl.map (fun d => (d.v, d.w)) := by
    rw [← this]; exact List.mem_map_of_mem (f := fun a : VarId × Nat × Expr => (a.1, a.2.1)) haa
  simp only [Bool.false_eq_true, if_false]
  obtain ⟨d, hd, e⟩ := List.mem_map.1 hmem
  rw [he]
  simp only [Prod.mk.injEq] at e
  exact e.1 ▸ List.mem_map_of_mem (f := fun d : Out => d.v) hd

/-- Effect of a block on the next-state variable, with everything but `ns` and the call outputs
left alone. -/
structure Effect (W : World) (top : FId) (c : Cfg) (p : Plan) (st st' : St) (v : Nat) : Prop where
  ctl : st'.ctl = .run
  nba : st'.nba = st.nba
  frame : ∀ x, x ≠ c.ns → x ∉ written W top c → st'.val x = st.val x
  ns : st'.val c.ns % 2 ^ p.w = v

theorem assign_effect {ι} {st : St} (hr : st.ctl = .run) {t : SId} (hlt : enc p t < 2 ^ p.w) :
    Effect W top c p st
      ((Stmt.assign false ⟨c.ns, 0, p.w⟩ (.const p.w (enc p t))).exec ι st) (enc p t) := by
  simp only [Stmt.exec, guardRun_run hr, Bool.false_eq_true, if_false, Expr.eval]
  refine ⟨hr, rfl, ?_, ?_⟩
  · intro x hx _; exact Store.write_ne hx
  · rw [Store.write_self, pattern_small hlt, Nat.mod_eq_of_lt hlt]

theorem call_effect {ι : Nat → St → St} (hι : c.moore = false → CallsMean W top p ι)
    (hm : c.moore = false)
    (hns : c.ns ∉ written W top c) {t : SId} (hg : Good W top c p t) {st st1 : St} {v : Nat}
    (h : Effect W top c p st st1 v) :
    Effect W top c p st ((Stmt.other t).exec ι st1) v := by
  have := call_frame (hι hm) hm hg h.ctl
  refine ⟨this.1, this.2.1.trans h.nba, ?_, ?_⟩
  · intro x h1 h2; rw [this.2.2 x h2, h.frame x h1 h2]
  · rw [this.2.2 _ hns]; exact h.ns

theorem go_effect {ι : Nat → St → St} (hι : c.moore = false → CallsMean W top p ι)
    (hns : c.ns ∉ written W top c) {t : SId}
    (hg : Good W top c p t) (hlt : enc p t < 2 ^ p.w) {st : St} (hr : st.ctl = .run) :
    Effect W top c p st ((goStmts c p t).exec ι st) (enc p t) := by
  unfold goStmts
  rw [Stmts.exec_cons]
  have h1 := assign_effect (W := W) (top := top) (c := c) (ι := ι) hr hlt
  cases hm : c.moore with
  | true => simpa [Stmts.exec] using h1
  | false =>
    simp only [Bool.false_eq_true, if_false, Stmts.exec_single]
    exact call_effect hι hm hns hg h1

/-- Extra calls at the end of the last then-branch. -/
theorem go_calls_effect {ι : Nat → St → St} (hι : c.moore = false → CallsMean W top p ι)
    (hns : c.ns ∉ written W top c) {t d : SId} (hm : c.moore = false)
    (hg : Good W top c p t) (hd : Good W top c p d) (hlt : enc p t < 2 ^ p.w) {st : St}
    (hr : st.ctl = .run) :
    Effect W top c p st ((goStmts c p t ++ .cons (.other d) .nil).exec ι st) (enc p t) := by
  rw [Stmts.exec_append, Stmts.exec_single]
  exact call_effect hι hm hns hd (go_effect hι hns hg hlt hr)

theorem find_map {α β : Type} (f : α → β) (q : β → Bool) (l : List α) :
    (l.map f).find? q = (l.find? (fun a => q (f a))).map f := by
  induction l with
  | nil => rfl
  | cons a l ih =>
    simp only [List.map_cons, List.find?]
    cases q (f a) with
    | true => rfl
    | false => exact ih

theorem addLast_find (s : Stmts) (q : Expr → Bool) : ∀ (ls : List (Expr × Stmts)),
    ((addLast s ls).find? (fun a => q a.1)) = none ∧ (ls.find? (fun a => q a.1)) = none ∨
    ∃ g b b', (addLast s ls).find? (fun a => q a.1) = some (g, b') ∧
      ls.find? (fun a => q a.1) = some (g, b) ∧ (b' = b ∨ b' = b ++ s)
  | [] => by left; simp [addLast]
  | [(g, b)] => by
      simp only [addLast, List.find?]
      cases h : q g with
      | false => left; simp
      | true => right; exact ⟨g, b, b ++ s, rfl, rfl, .inr rfl⟩
  | (g, b) :: a :: l => by
      simp only [addLast]
      rw [List.find?_cons, List.find?_cons]
      cases h : q g with
      | true => right; exact ⟨g, b, b, by simp [h], by simp [h], .inl rfl⟩
      | false => simp only [h]; exact addLast_find s q (a :: l)

/-- The body of a case moves the next-state variable as the diagram says. -/
theorem body_effect {ι : Nat → St → St} (hι : c.moore = false → CallsMean W top p ι)
    (hns : c.ns ∉ written W top c)
    (hlt : ∀ t ∈ p.states, enc p t < 2 ^ p.w) {trans : List (Option Guard × SId)}
    (hone : (unconditional trans).length ≤ 1) {b : Stmts}
    (hb : stateBody W top c p trans = .ok b) {st : St} (hr : st.ctl = .run) :
    Effect W top c p st (b.exec ι st)
        (((taken st.val trans).map (enc p)).getD (st.val c.ns % 2 ^ p.w)) ∧
      ∀ t, taken st.val trans = some t → t ∈ p.states := by
  unfold stateBody at hb
  split at hb
  · rename_i t
    rw [Res.bind_eq_ok] at hb
    obtain ⟨a, ha, hb⟩ := hb
    obtain ⟨hm, ha'⟩ := nextStmt_ok ha
    cases hb
    subst ha'
    have ht : taken st.val [(none, t)] = some t := by simp [taken, guarded, unconditional]
    rw [ht, Stmts.exec_single]
    refine ⟨assign_effect hr (hlt t hm), ?_⟩
    intro t' h'; cases h'; exact hm
  · rw [Res.bind_eq_ok] at hb
    obtain ⟨ls, hls, hb⟩ := hb
    obtain ⟨hls, hgood⟩ := links_ok _ _ hls
    have hdef := defaultOf_eq trans hone
    have hfind : ls.find? (fun q => q.1.eval st.val != 0) =
        ((guarded trans).find? (fun q => q.1.eval st.val != 0)).map
          (fun q => (q.1, goStmts c p q.2)) := by
      rw [hls, find_map]
    have hmem : ∀ q, (guarded trans).find? (fun q => q.1.eval st.val != 0) = some q →
        Good W top c p q.2 := fun q hq => hgood q (List.mem_of_find?_eq_some hq)
    split at hb
    · rename_i d hd
      rw [hdef] at hd
      rw [Res.bind_eq_ok] at hb
      obtain ⟨a, ha, hb⟩ := hb
      obtain ⟨hdm, ha'⟩ := nextStmt_ok ha
      split at hb
      · cases hb
      · split at hb
        · rename_i hmo
          cases hb
          rw [chain_exec ι _ hr, hfind]
          unfold taken
          cases hf : (guarded trans).find? (fun q => q.1.eval st.val != 0) with
          | some q =>
            simp only [Option.map_some]
            refine ⟨go_effect hι hns (hmem q hf) (hlt _ (hmem q hf).1) hr, ?_⟩
            intro t ht; cases ht; exact (hmem q hf).1
          | none =>
            simp only [Option.map_none, hd, Stmts.exec_single, ha']
            refine ⟨assign_effect hr (hlt _ hdm), ?_⟩
            intro t ht; cases ht; exact hdm
        · rename_i hmo
          have hmo : c.moore = false := by simpa using hmo
          rw [Res.bind_eq_ok] at hb
          obtain ⟨s, hs, hb⟩ := hb
          obtain ⟨hs, hargs⟩ := callStmt_ok hs
          cases hb
          subst hs
          rw [chain_exec ι _ hr]
          have hadd := addLast_find (.cons (.other d) .nil) (fun e => e.eval st.val != 0) ls
          rw [hfind] at hadd
          unfold taken
          cases hf : (guarded trans).find? (fun q => q.1.eval st.val != 0) with
          | some q =>
            rw [hf] at hadd
            rcases hadd with ⟨_, h⟩ | ⟨g, b, b', h1, h2, h3⟩
            · cases h
            · rw [h1]
              simp only [Option.map_some, Option.some.injEq, Prod.mk.injEq] at h2
              refine ⟨?_, by intro t ht; cases ht; exact (hmem q hf).1⟩
              rcases h3 with h3 | h3
              · rw [h3, ← h2.2]
                exact go_effect hι hns (hmem q hf) (hlt _ (hmem q hf).1) hr
              · rw [h3, ← h2.2]
                exact go_calls_effect hι hns hmo (hmem q hf) ⟨hdm, fun _ => hargs⟩
                  (hlt _ (hmem q hf).1) hr
          | none =>
            rw [hf] at hadd
            rcases hadd with ⟨h, _⟩ | ⟨g, b, b', h1, h2, h3⟩
            · rw [h]
              simp only [hd, Stmts.exec_single, ha']
              refine ⟨assign_effect hr (hlt _ hdm), ?_⟩
              intro t ht; cases ht; exact hdm
            · cases h2
    · rename_i hd
      rw [hdef] at hd
      split at hb
      · cases hb
      · cases hb
        rw [chain_exec ι _ hr, hfind]
        unfold taken
        cases hf : (guarded trans).find? (fun q => q.1.eval st.val != 0) with
        | some q =>
          simp only [Option.map_some]
          refine ⟨go_effect hι hns (hmem q hf) (hlt _ (hmem q hf).1) hr, ?_⟩
          intro t ht; cases ht; exact (hmem q hf).1
        | none =>
          simp only [Option.map_none, hd, Stmts.exec_nil]
          refine ⟨⟨hr, rfl, fun _ _ _ => rfl, rfl⟩, ?_⟩
          intro t ht; cases ht

/-! ### The switch -/

/-- Body of a state's case (`nil` when the construction fails). -/
def bodyOf (W : World) (top : FId) (c : Cfg) (p : Plan) (s : SId) : Stmts :=
  match stateBody W top c p (W.S s).trans with
  | .ok b => b
  | _ => .nil

theorem stateCases_ok : ∀ (l : List SId) (cs : List (Int × Stmts)),
    stateCases W top c p l = .ok cs →
    cs = l.map (fun s => ((enc p s : Int), bodyOf W top c p s)) ∧
    ∀ s ∈ l, stateBody W top c p (W.S s).trans = .ok (bodyOf W top c p s)
  | [], cs, h => by simp only [stateCases] at h; cases h; simp
  | s :: l, cs, h => by
      simp only [stateCases] at h
      rw [Res.bind_eq_ok] at h
      obtain ⟨v, hv, h⟩ := h
      rw [Res.bind_eq_ok] at h
      obtain ⟨b, hb, h⟩ := h
      rw [Res.bind_eq_ok] at h
      obtain ⟨cs', hc, h⟩ := h
      cases h
      obtain ⟨h1, h2⟩ := stateCases_ok l cs' hc
      have hv' := (encode_ok hv).2
      have hbody : bodyOf W top c p s = b := by simp [bodyOf, hb]
      constructor
      · simp [h1, hv', hbody]
      · intro t ht
        cases ht with
        | head => rw [hbody]; exact hb
        | tail _ ht => exact h2 t ht

theorem runLinks_pick (ι) (w : Nat) (f : SId → Nat) (body : SId → Stmts) (fin : Stmts) (st : St)
    {s : SId} : ∀ (l : List SId), s ∈ l → (∀ t ∈ l, f t < 2 ^ w) →
    (∀ t ∈ l, f t = f s → t = s) →
    Opt.runLinks ι w (f s) (l.map (fun t => ((f t : Int), body t))) fin st = (body s).exec ι st
  | [], h, _, _ => by cases h
  | a :: l, h, hlt, hinj => by
      simp only [List.map_cons, Opt.runLinks]
      rw [pattern_small (hlt a (by simp))]
      rcases Decidable.em (f a = f s) with e | e
      · rw [if_pos e]
        rw [hinj a (by simp) e]
      · rw [if_neg e]
        have : s ∈ l := by
          cases h with
          | head => exact absurd rfl e
          | tail _ h => exact h
        exact runLinks_pick ι w f body fin st l this (fun t ht => hlt t (List.mem_cons_of_mem _ ht))
          (fun t ht => hinj t (List.mem_cons_of_mem _ ht))

theorem nodup_map_inj {α : Type} (f : SId → α) : ∀ (l : List SId), l.Nodup →
    (∀ s ∈ l, ∀ t ∈ l, f s = f t → s = t) → (l.map f).Nodup
  | [], _, _ => by simp
  | a :: l, hn, hi => by
      simp only [List.nodup_cons] at hn
      simp only [List.map_cons, List.nodup_cons, List.mem_map]
      refine ⟨?_, nodup_map_inj f l hn.2 fun s hs t ht =>
        hi s (List.mem_cons_of_mem _ hs) t (List.mem_cons_of_mem _ ht)⟩
      rintro ⟨t, ht, e⟩
      exact hn.1 (hi t (List.mem_cons_of_mem _ ht) a (by simp) e ▸ ht)

theorem names_nodup (hn : NamesDistinct W top states) : states.Nodup :=
  Opt.nodup_of_map _ _ hn

theorem foldl_exec (ι) (w : Nat) (f : SId → Nat) (body : SId → Stmts) (l : List SId)
    (hinj : (l.map (fun t => (f t : Int))).Nodup) (fin : Stmts) (v : Nat) (st : St) :
    ((Opt.addCase ((l.map (fun t => ((f t : Int), body t))).foldl
        (fun cs q => Opt.addCase cs (some q.1) q.2) .nil) none fin).exec ι w v id st =
      Opt.runLinks ι w v (l.map (fun t => ((f t : Int), body t))) fin st) ∧
    (((l.map (fun t => ((f t : Int), body t))).foldl
        (fun cs q => Opt.addCase cs (some q.1) q.2) .nil).exec ι w v id st =
      Opt.runLinks ι w v (l.map (fun t => ((f t : Int), body t))) .nil st) := by
  have h : ((l.map (fun t => ((f t : Int), body t))).map Prod.fst).Nodup := by
    simpa [List.map_map, Function.comp_def] using hinj
  rw [Opt.foldl_addCase _ .nil h (by simp [Opt.keysOf])]
  simp only [Opt.appC]
  rw [Opt.addCase_linksC_none]
  exact ⟨Opt.exec_links_default ι w v _ fin id st, Opt.exec_links_nodefault ι w v _ st⟩

/-- What `realize` returned, taken apart. -/
structure Parts (W : World) (top : FId) (c : Cfg) (states : List SId) (r : Realized) : Prop where
  plan : IsPlan W top states r.plan
  start : (W.F top).start = some r.start
  startMem : r.start ∈ states
  outs : ∃ os, checkAll W states = .ok os ∧ r.plan.outs = outsOf states os
  seq : r.seq = seqStmt c r.plan (enc r.plan r.start)
  comb : genTransition W top c r.plan = .ok r.comb
  out : if c.moore then genOutput c r.plan r.start = .ok r.out else r.out = .nil

theorem realize_parts {r : Realized} (h : realize W top c states = .ok r) :
    Parts W top c states r := by
  unfold realize at h
  split at h
  · cases h
  · rename_i hne
    split at h
    · cases h
    · rename_i start hstart
      rw [Res.bind_eq_ok] at h
      obtain ⟨os, hos, h⟩ := h
      simp only at h
      rw [Res.bind_eq_ok] at h
      obtain ⟨sv, hsv, h⟩ := h
      rw [Res.bind_eq_ok] at h
      obtain ⟨comb, hcomb, h⟩ := h
      rw [Res.bind_eq_ok] at h
      obtain ⟨out, hout, h⟩ := h
      cases h
      obtain ⟨h1, h2⟩ := encode_ok hsv
      refine ⟨⟨rfl, rfl, rfl, rfl, by simpa using hne⟩, hstart, h1, ⟨os, hos, rfl⟩, ?_, hcomb, ?_⟩
      · simp only [h2]
      · cases hm : c.moore with
        | true => rw [hm] at hout; simpa using hout
        | false => rw [hm] at hout; simp only [Bool.false_eq_true, if_false] at hout ⊢; cases hout; rfl

theorem fresh_written (hf : Fresh W top c states) :
    c.ns ∉ written W top c ∧ c.cs ∉ written W top c ∧ c.rst ∉ written W top c := by
  unfold written
  cases hm : c.moore with
  | true => simp
  | false =>
    simp only [Bool.false_eq_true, if_false]
    refine ⟨?_, ?_, ?_⟩ <;> intro h <;> obtain ⟨d, hd, e⟩ := List.mem_map.1 h
    · exact (hf.outs d hd).2.1 e
    · exact (hf.outs d hd).1 e
    · exact (hf.outs d hd).2.2 hm e

/-- The case of a state is the one that runs. -/
theorem comb_exec {r : Realized} (h : Parts W top c states r) (hn : NamesDistinct W top states)
    (ι) {s : SId} (hs : s ∈ states) {st : St} (hr : st.ctl = .run)
    (hq : st.val c.cs % 2 ^ r.plan.w = enc r.plan s) (hne : c.cs ≠ c.ns) :
    ∃ b, stateBody W top c r.plan (W.S s).trans = .ok b ∧
      r.comb.exec ι st = b.exec ι { st with val := st.val.write ⟨c.ns, 0, r.plan.w⟩ (enc r.plan s) } := by
  have hcomb := h.comb
  unfold genTransition at hcomb
  rw [Res.bind_eq_ok] at hcomb
  obtain ⟨l, hl, hcomb⟩ := hcomb
  rw [h.plan.sts] at hl
  obtain ⟨hl1, hl2⟩ := stateCases_ok _ _ hl
  simp only [Res.ok.injEq] at hcomb
  rw [← hcomb]
  refine ⟨bodyOf W top c r.plan s, hl2 s hs, ?_⟩
  have hinj : (states.map (fun t => (enc r.plan t : Int))).Nodup :=
    nodup_map_inj _ _ (names_nodup hn) fun s hs t ht e =>
      enc_inj h.plan hn hs ht (by exact_mod_cast e)
  have hlt : ∀ t ∈ states, enc r.plan t < 2 ^ r.plan.w := fun t ht => enc_lt h.plan ht
  rw [Stmts.exec_cons, Stmts.exec_single]
  have e1 : (Stmt.assign false ⟨c.ns, 0, r.plan.w⟩ (.var c.cs r.plan.w)).exec ι st =
      { st with val := st.val.write ⟨c.ns, 0, r.plan.w⟩ (enc r.plan s) } := by
    simp only [Stmt.exec, guardRun_run hr, Bool.false_eq_true, if_false, Expr.eval, hq]
  rw [e1]
  have e2 : (st.val.write ⟨c.ns, 0, r.plan.w⟩ (enc r.plan s)) c.cs % 2 ^ r.plan.w = enc r.plan s := by
    rw [Store.write_ne hne]; exact hq
  simp only [Stmt.exec, Expr.eval, Expr.width]
  rw [guardRun_run (by exact hr), e2, hl1]
  have hf := foldl_exec ι r.plan.w (enc r.plan) (bodyOf W top c r.plan) states hinj
  have hpick := fun fin st => runLinks_pick ι r.plan.w (enc r.plan) (bodyOf W top c r.plan) fin st
    states hs hlt (fun t ht e => enc_inj h.plan hn ht hs e)
  split
  · rw [(hf .nil _ _).2, hpick]
  · rw [(hf _ _ _).1, hpick]

end Kratos.Fsm
