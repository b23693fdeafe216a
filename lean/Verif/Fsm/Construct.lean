import Verif.Fsm.Lemmas

/-!
# C36, C37: construction of machines, the state search and the encoding
-/

namespace Kratos.Fsm
open Kratos.Ir

/-! ### Specification -/

/-- No FSM and no state yet. -/
def emptyWorld : World :=
  { S := fun _ => ⟨"", 0, [], []⟩, F := fun _ => ⟨0, "", none, [], [], [], none⟩, nS := 0, nF := 0 }

/-- The call only mentions objects that exist. -/
def Call.valid (W : World) : Call → Prop
  | .newFsm _ _ => True
  | .addState f _ => f < W.nF
  | .addChild p c => p < W.nF ∧ c < W.nF
  | .declOutput f _ => f < W.nF
  | .setStart f s => f < W.nF ∧ s < W.nS
  | .next _ s t _ => s < W.nS ∧ ∀ t', t = some t' → t' < W.nS
  | .stateOutput s _ => s < W.nS

/-- Worlds made by any sequence of successful calls (a call that throws changes nothing). -/
inductive Reach : World → Prop
  | init : Reach emptyWorld
  | step {W W' c} : Reach W → c.valid W → call W c = .ok W' → Reach W'

/-- All calls succeed and give this world. -/
def runCalls : World → List Call → Res World
  | W, [] => .ok W
  | W, c :: cs => (call W c).bind fun W' => runCalls W' cs

/-- The transition list of a state is well formed: guards are 1 bit wide, no guard object occurs
twice, and no guarded transition comes after an unconditional one. -/
structure TransOk (trans : List (Option Guard × SId)) : Prop where
  width : ∀ q ∈ trans, ∀ g, q.1 = some g → g.e.width = 1
  distinct : (trans.filterMap (fun q => q.1.map Guard.id)).Nodup
  order : ∃ gs us : List (Option Guard × SId), trans = gs ++ us ∧
    (∀ q ∈ gs, q.1.isSome = true) ∧ ∀ q ∈ us, q.1 = none

/-- States of the machine: the FSM's own states, and all owned targets of transitions. -/
inductive Found (W : World) (top : FId) : SId → Prop
  | own {s} : s ∈ (W.F top).own → Found W top s
  | step {s t} : Found W top s → t ∈ succs W top s → Found W top t

/-! ### Invariant of construction -/

structure Inv (W : World) : Prop where
  own : ∀ f, ∀ s ∈ (W.F f).own, s < W.nS ∧ (W.S s).fsm = f
  all : ∀ s, s < W.nS → (W.S s).fsm < W.nF ∧ s ∈ (W.F (W.S s).fsm).own
  names : ∀ f, ((W.F f).own.map (fun s => (W.S s).name)).Nodup
  par : ∀ f p, (W.F f).parent = some p → p < W.nF ∧ (W.F p).kids ≠ []
  tgt : ∀ s, s < W.nS → ∀ q ∈ (W.S s).trans, q.2 < W.nS
  trans : ∀ s, s < W.nS → TransOk (W.S s).trans
  outs : ∀ s, s < W.nS → ((W.S s).outs.map (·.v)).Nodup
  decl : ∀ f, ((W.F f).decl.map (·.v)).Nodup

theorem upd_self {α : Type} (f : Nat → α) (i : Nat) (a : α) : upd f i a i = a := by simp [upd]
theorem upd_ne {α : Type} (f : Nat → α) {i j : Nat} (a : α) (h : j ≠ i) : upd f i a j = f j := by
  simp [upd, h]

theorem insertByName_perm (W : World) (s : SId) (n : String) :
    ∀ l, (insertByName W s n l).Perm (s :: l)
  | [] => .refl _
  | t :: l => by
      simp only [insertByName]
      split
      · exact .refl _
      · exact ((insertByName_perm W s n l).cons t).trans (.swap s t l)

theorem nodup_snoc {α : Type} {l : List α} {a : α} (h : l.Nodup) (ha : a ∉ l) : (l ++ [a]).Nodup := by
  rw [List.nodup_append]
  refine ⟨h, by simp, ?_⟩
  intro x hx y hy e
  rw [List.mem_singleton] at hy
  exact ha (hy ▸ e ▸ hx)

theorem any_false {α : Type} {l : List α} {q : α → Bool} (h : ¬ l.any q = true) {a : α} (ha : a ∈ l) :
    q a = false := by
  cases hq : q a with
  | false => rfl
  | true => exact absurd (List.any_eq_true.2 ⟨a, ha, hq⟩) h

theorem inv_empty : Inv emptyWorld := by
  refine ⟨?_, ?_, ?_, ?_, ?_, ?_, ?_, ?_⟩ <;> simp [emptyWorld]

theorem transOk_snoc {trans : List (Option Guard × SId)} (h : TransOk trans) {t : SId}
    {cond : Option Guard}
    (hc : ∀ g, cond = some g → hasGuard none trans = false ∧ g.e.width = 1 ∧
      hasGuard (some g.id) trans = false) : TransOk (trans ++ [(cond, t)]) := by
  obtain ⟨gs, us, he, hg, hu⟩ := h.order
  cases cond with
  | none =>
    refine ⟨?_, ?_, gs, us ++ [(none, t)], ?_, hg, ?_⟩
    · intro q hq g hqg
      rw [List.mem_append, List.mem_singleton] at hq
      rcases hq with hq | rfl
      · exact h.width q hq g hqg
      · cases hqg
    · simpa using h.distinct
    · rw [he, List.append_assoc]
    · intro q hq
      rw [List.mem_append, List.mem_singleton] at hq
      rcases hq with hq | rfl
      · exact hu q hq
      · rfl
  | some g =>
    obtain ⟨h1, h2, h3⟩ := hc g rfl
    have hus : us = [] := by
      cases us with
      | nil => rfl
      | cons q us =>
        have hq := hu q (by simp)
        have := any_false (l := trans) (q := fun p => (p.1.map Guard.id) == none)
          (by unfold hasGuard at h1; rw [h1]; exact Bool.false_ne_true) (a := q) (by rw [he]; simp)
        simp [hq] at this
    subst hus
    refine ⟨?_, ?_, gs ++ [(some g, t)], [], ?_, ?_, by simp⟩
    · intro q hq g' hqg
      rw [List.mem_append, List.mem_singleton] at hq
      rcases hq with hq | rfl
      · exact h.width q hq g' hqg
      · cases hqg; exact h2
    · rw [List.filterMap_append]
      simp only [List.filterMap_cons, List.filterMap_nil, Option.map_some]
      apply nodup_snoc h.distinct
      intro hm
      obtain ⟨q, hq, hqe⟩ := List.mem_filterMap.1 hm
      have := any_false (l := trans) (q := fun p => (p.1.map Guard.id) == some g.id)
          (by unfold hasGuard at h3; rw [h3]; exact Bool.false_ne_true) hq
      simp [hqe] at this
    · rw [he]; simp
    · intro q hq
      rw [List.mem_append, List.mem_singleton] at hq
      rcases hq with hq | rfl
      · exact hg q hq
      · rfl

/-- Acceptance of a transition, exactly. -/
theorem next_ok_iff (n : Nat) (W W' : World) (s : SId) (t : Option SId) (cond : Option Guard) :
    next n W s t cond = .ok W' ↔
      ∃ t', t = some t' ∧ below W n (root W n (W.S s).fsm) (W.S t').fsm = true ∧
        (∀ g, cond = some g → hasGuard none (W.S s).trans = false ∧ g.e.width = 1 ∧
          hasGuard (some g.id) (W.S s).trans = false) ∧
        W' = { W with S := upd W.S s { W.S s with trans := (W.S s).trans ++ [(cond, t')] } } := by
  unfold next
  cases t with
  | none => simp
  | some t =>
    simp only [Option.some.injEq, exists_eq_left']
    cases hb : below W n (root W n (W.S s).fsm) (W.S t).fsm with
    | false => simp
    | true =>
      simp only [Bool.true_eq_false, if_false]
      cases cond with
      | none => simp only [reduceCtorEq, false_implies, implies_true, true_and, Res.ok.injEq]; exact eq_comm
      | some g =>
        simp only [Option.some.injEq, forall_eq']
        cases h1 : hasGuard none (W.S s).trans with
        | true => simp
        | false =>
          by_cases h2 : g.e.width = 1
          · cases h3 : hasGuard (some g.id) (W.S s).trans with
            | true => simp [h2]
            | false => simp only [h2, ne_eq, not_true_eq_false, if_false, Bool.false_eq_true, Res.ok.injEq, true_and]; exact eq_comm
          · simp [h2]

theorem Inv.step {W W' : World} (h : Inv W) {cl : Call} (hv : cl.valid W) (hc : call W cl = .ok W') :
    Inv W' := by
  cases cl with
  | newFsm gen name =>
    simp only [call, newFsm] at hc
    split at hc
    · cases hc
    · cases hc
      refine ⟨?_, ?_, ?_, ?_, h.tgt, h.trans, h.outs, ?_⟩
      · intro f s hs
        simp only at hs
        rcases Decidable.em (f = W.nF) with rfl | hne
        · rw [upd_self] at hs; cases hs
        · rw [upd_ne _ _ hne] at hs; exact h.own f s hs
      · intro s hs
        have := h.all s hs
        refine ⟨Nat.lt_succ_of_lt this.1, ?_⟩
        simp only
        rw [upd_ne _ _ (Nat.ne_of_lt this.1)]; exact this.2
      · intro f
        simp only
        rcases Decidable.em (f = W.nF) with rfl | hne
        · rw [upd_self]; simp
        · rw [upd_ne _ _ hne]; exact h.names f
      · intro f p hp
        simp only at hp ⊢
        rcases Decidable.em (f = W.nF) with rfl | hne
        · rw [upd_self] at hp; cases hp
        · rw [upd_ne _ _ hne] at hp
          have := h.par f p hp
          refine ⟨Nat.lt_succ_of_lt this.1, ?_⟩
          rw [upd_ne _ _ (Nat.ne_of_lt this.1)]; exact this.2
      · intro f
        simp only
        rcases Decidable.em (f = W.nF) with rfl | hne
        · rw [upd_self]; simp
        · rw [upd_ne _ _ hne]; exact h.decl f
  | addState f name =>
    simp only [call, addState] at hc
    split at hc
    · cases hc
    · rename_i hany
      cases hc
      have hperm := insertByName_perm W W.nS name (W.F f).own
      have hmem : ∀ s, s ∈ insertByName W W.nS name (W.F f).own ↔ s = W.nS ∨ s ∈ (W.F f).own := by
        intro s; rw [hperm.mem_iff]; simp
      have hS : ∀ s, s < W.nS → upd W.S W.nS ⟨name, f, [], []⟩ s = W.S s :=
        fun s hs => upd_ne _ _ (Nat.ne_of_lt hs)
      have hown : ∀ g, ((upd W.F f { W.F f with own := insertByName W W.nS name (W.F f).own }) g).own =
          if g = f then insertByName W W.nS name (W.F f).own else (W.F g).own := by
        intro g
        rcases Decidable.em (g = f) with rfl | hne
        · rw [upd_self, if_pos rfl]
        · rw [upd_ne _ _ hne, if_neg hne]
      have hcomp : ∀ g, ((upd W.F f { W.F f with own := insertByName W W.nS name (W.F f).own }) g).decl =
          (W.F g).decl ∧
          ((upd W.F f { W.F f with own := insertByName W W.nS name (W.F f).own }) g).parent =
          (W.F g).parent ∧
          ((upd W.F f { W.F f with own := insertByName W W.nS name (W.F f).own }) g).kids =
          (W.F g).kids := by
        intro g
        rcases Decidable.em (g = f) with rfl | hne
        · rw [upd_self]; simp
        · rw [upd_ne _ _ hne]; simp
      refine ⟨?_, ?_, ?_, ?_, ?_, ?_, ?_, ?_⟩
      · intro g s hs
        simp only at hs ⊢
        rw [hown] at hs
        split at hs
        · rename_i e; subst e
          rcases (hmem s).1 hs with rfl | hs
          · rw [upd_self]; exact ⟨Nat.lt_succ_self _, rfl⟩
          · have := h.own g s hs
            rw [hS s this.1]; exact ⟨Nat.lt_succ_of_lt this.1, this.2⟩
        · have := h.own g s hs
          rw [hS s this.1]; exact ⟨Nat.lt_succ_of_lt this.1, this.2⟩
      · intro s hs
        simp only at hs ⊢
        rcases Decidable.em (s = W.nS) with rfl | hne
        · rw [upd_self]
          refine ⟨hv, ?_⟩
          simp only
          rw [hown, if_pos rfl, hmem]; exact .inl rfl
        · have hs' : s < W.nS := by omega
          rw [hS s hs']
          have := h.all s hs'
          refine ⟨this.1, ?_⟩
          rw [hown]
          split
          · rename_i e; rw [hmem]; exact .inr (e ▸ this.2)
          · exact this.2
      · intro g
        simp only
        rw [hown]
        have hmap : ∀ g, (W.F g).own.map (fun s => (upd W.S W.nS ⟨name, f, [], []⟩ s).name) =
            (W.F g).own.map (fun s => (W.S s).name) := by
          intro g
          apply List.map_congr_left
          intro s hs
          rw [hS s (h.own g s hs).1]
        split
        · rw [(hperm.map _).nodup_iff, List.map_cons, List.nodup_cons, hmap, upd_self]
          refine ⟨?_, h.names f⟩
          intro hm
          obtain ⟨s, hs, e⟩ := List.mem_map.1 hm
          have := any_false hany hs
          simp [e] at this
        · rw [hmap]; exact h.names g
      · intro g q hq
        simp only at hq ⊢
        rw [(hcomp g).2.1] at hq
        rw [(hcomp q).2.2]
        exact h.par g q hq
      · intro s hs q hq
        simp only at hs hq ⊢
        rcases Decidable.em (s = W.nS) with rfl | hne
        · rw [upd_self] at hq; cases hq
        · have hs' : s < W.nS := by omega
          rw [hS s hs'] at hq
          exact Nat.lt_succ_of_lt (h.tgt s hs' q hq)
      · intro s hs
        simp only at hs ⊢
        rcases Decidable.em (s = W.nS) with rfl | hne
        · rw [upd_self]; exact ⟨by simp, by simp, [], [], rfl, by simp, by simp⟩
        · have hs' : s < W.nS := by omega
          rw [hS s hs']; exact h.trans s hs'
      · intro s hs
        simp only at hs ⊢
        rcases Decidable.em (s = W.nS) with rfl | hne
        · rw [upd_self]; simp
        · have hs' : s < W.nS := by omega
          rw [hS s hs']; exact h.outs s hs'
      · intro g
        simp only
        rw [(hcomp g).1]; exact h.decl g
  | addChild p ch =>
    simp only [call, addChild] at hc
    split at hc
    · cases hc
    · cases hc
      generalize hF1 : upd W.F p { W.F p with
        kids := if (W.F p).kids.any (fun k => (W.F k).name == (W.F ch).name) = true then (W.F p).kids
              else (W.F p).kids ++ [ch] } = F1
      have hk : (F1 p).kids ≠ [] := by
        rw [← hF1, upd_self]
        simp only
        split
        · rename_i ha
          intro e; rw [e] at ha; simp at ha
        · simp
      have h1 : ∀ g, (F1 g).own = (W.F g).own ∧ (F1 g).decl = (W.F g).decl ∧
          (F1 g).parent = (W.F g).parent ∧ (g ≠ p → (F1 g).kids = (W.F g).kids) := by
        intro g
        rcases Decidable.em (g = p) with rfl | hne
        · rw [← hF1, upd_self]; simp
        · rw [← hF1, upd_ne _ _ hne]; simp
      have h2 : ∀ g, (upd F1 ch { F1 ch with parent := some p, start := none } g).own = (W.F g).own ∧
          (upd F1 ch { F1 ch with parent := some p, start := none } g).decl = (W.F g).decl ∧
          (upd F1 ch { F1 ch with parent := some p, start := none } g).kids = (F1 g).kids := by
        intro g
        rcases Decidable.em (g = ch) with rfl | hne
        · rw [upd_self]; exact ⟨(h1 g).1, (h1 g).2.1, rfl⟩
        · rw [upd_ne _ _ hne]; exact ⟨(h1 g).1, (h1 g).2.1, rfl⟩
      refine ⟨?_, ?_, ?_, ?_, h.tgt, h.trans, h.outs, ?_⟩
      · intro g s hs; simp only at hs; rw [(h2 g).1] at hs; exact h.own g s hs
      · intro s hs; have := h.all s hs; refine ⟨this.1, ?_⟩; simp only; rw [(h2 _).1]; exact this.2
      · intro g; simp only; rw [(h2 g).1]; exact h.names g
      · intro g q hq
        simp only at hq ⊢
        rw [(h2 q).2.2]
        have hqk : q = p ∨ (W.F g).parent = some q := by
          rcases Decidable.em (g = ch) with rfl | hne
          · rw [upd_self] at hq; cases hq; exact .inl rfl
          · rw [upd_ne _ _ hne, (h1 g).2.2.1] at hq; exact .inr hq
        rcases Decidable.em (q = p) with rfl | hne
        · exact ⟨hv.1, hk⟩
        · rcases hqk with e | e
          · exact absurd e hne
          · have := h.par g q e
            rw [(h1 q).2.2.2 hne]; exact this
      · intro g; simp only; rw [(h2 g).2.1]; exact h.decl g
  | declOutput f o =>
    simp only [call, declOutput] at hc
    split at hc
    · cases hc; exact h
    · rename_i hany
      cases hc
      have h2 : ∀ g, (upd W.F f { W.F f with decl := (W.F f).decl ++ [o] } g).own = (W.F g).own ∧
          (upd W.F f { W.F f with decl := (W.F f).decl ++ [o] } g).parent = (W.F g).parent ∧
          (upd W.F f { W.F f with decl := (W.F f).decl ++ [o] } g).kids = (W.F g).kids := by
        intro g
        rcases Decidable.em (g = f) with rfl | hne
        · rw [upd_self]; simp
        · rw [upd_ne _ _ hne]; simp
      refine ⟨?_, ?_, ?_, ?_, h.tgt, h.trans, h.outs, ?_⟩
      · intro g s hs; simp only at hs; rw [(h2 g).1] at hs; exact h.own g s hs
      · intro s hs; have := h.all s hs; refine ⟨this.1, ?_⟩; simp only; rw [(h2 _).1]; exact this.2
      · intro g; simp only; rw [(h2 g).1]; exact h.names g
      · intro g q hq
        simp only at hq ⊢
        rw [(h2 q).2.2]; rw [(h2 g).2.1] at hq; exact h.par g q hq
      · intro g
        simp only
        rcases Decidable.em (g = f) with rfl | hne
        · rw [upd_self]
          simp only [List.map_append, List.map_cons, List.map_nil]
          apply nodup_snoc (h.decl g)
          intro hm
          obtain ⟨d, hd, e⟩ := List.mem_map.1 hm
          have := any_false hany hd
          simp [e] at this
        · rw [upd_ne _ _ hne]; exact h.decl g
  | setStart f s =>
    simp only [call, setStart] at hc
    cases hc
    have h2 : ∀ g, (upd W.F f { W.F f with start := some s } g).own = (W.F g).own ∧
        (upd W.F f { W.F f with start := some s } g).parent = (W.F g).parent ∧
        (upd W.F f { W.F f with start := some s } g).kids = (W.F g).kids ∧
        (upd W.F f { W.F f with start := some s } g).decl = (W.F g).decl := by
      intro g
      rcases Decidable.em (g = f) with rfl | hne
      · rw [upd_self]; simp
      · rw [upd_ne _ _ hne]; simp
    refine ⟨?_, ?_, ?_, ?_, h.tgt, h.trans, h.outs, ?_⟩
    · intro g s hs; simp only at hs; rw [(h2 g).1] at hs; exact h.own g s hs
    · intro s hs; have := h.all s hs; refine ⟨this.1, ?_⟩; simp only; rw [(h2 _).1]; exact this.2
    · intro g; simp only; rw [(h2 g).1]; exact h.names g
    · intro g q hq
      simp only at hq ⊢
      rw [(h2 q).2.2.1]; rw [(h2 g).2.1] at hq; exact h.par g q hq
    · intro g; simp only; rw [(h2 g).2.2.2]; exact h.decl g
  | next n s t cond =>
    simp only [call] at hc
    obtain ⟨t', ht, _, hg, rfl⟩ := (next_ok_iff _ _ _ _ _ _).1 hc
    have htl : t' < W.nS := hv.2 t' ht
    have h2 : ∀ x, (upd W.S s { W.S s with trans := (W.S s).trans ++ [(cond, t')] } x).name = (W.S x).name ∧
        (upd W.S s { W.S s with trans := (W.S s).trans ++ [(cond, t')] } x).fsm = (W.S x).fsm ∧
        (upd W.S s { W.S s with trans := (W.S s).trans ++ [(cond, t')] } x).outs = (W.S x).outs := by
      intro x
      rcases Decidable.em (x = s) with rfl | hne
      · rw [upd_self]; simp
      · rw [upd_ne _ _ hne]; simp
    refine ⟨?_, ?_, ?_, h.par, ?_, ?_, ?_, h.decl⟩
    · intro f x hx; have := h.own f x hx; refine ⟨this.1, ?_⟩; simp only; rw [(h2 x).2.1]; exact this.2
    · intro x hx
      have := h.all x hx
      simp only
      rw [(h2 x).2.1]; exact this
    · intro f; simp only [(h2 _).1]; exact h.names f
    · intro x hx q hq
      simp only at hq ⊢
      rcases Decidable.em (x = s) with rfl | hne
      · rw [upd_self] at hq
        simp only [List.mem_append, List.mem_singleton] at hq
        rcases hq with hq | rfl
        · exact h.tgt x hx q hq
        · exact htl
      · rw [upd_ne _ _ hne] at hq; exact h.tgt x hx q hq
    · intro x hx
      simp only
      rcases Decidable.em (x = s) with rfl | hne
      · rw [upd_self]; exact transOk_snoc (h.trans x hx) hg
      · rw [upd_ne _ _ hne]; exact h.trans x hx
    · intro x hx; simp only; rw [(h2 x).2.2]; exact h.outs x hx
  | stateOutput s o =>
    simp only [call, stateOutput, pushOut] at hc
    split at hc
    · cases hc
    · rename_i hany
      cases hc
      have h2 : ∀ x, (upd W.S s { W.S s with outs := (W.S s).outs ++ [o] } x).name = (W.S x).name ∧
          (upd W.S s { W.S s with outs := (W.S s).outs ++ [o] } x).fsm = (W.S x).fsm ∧
          (upd W.S s { W.S s with outs := (W.S s).outs ++ [o] } x).trans = (W.S x).trans := by
        intro x
        rcases Decidable.em (x = s) with rfl | hne
        · rw [upd_self]; simp
        · rw [upd_ne _ _ hne]; simp
      refine ⟨?_, ?_, ?_, h.par, ?_, ?_, ?_, h.decl⟩
      · intro f x hx; have := h.own f x hx; refine ⟨this.1, ?_⟩; simp only; rw [(h2 x).2.1]; exact this.2
      · intro x hx
        have := h.all x hx
        simp only
        rw [(h2 x).2.1]; exact this
      · intro f; simp only [(h2 _).1]; exact h.names f
      · intro x hx q hq; simp only at hq; rw [(h2 x).2.2] at hq; exact h.tgt x hx q hq
      · intro x hx; simp only; rw [(h2 x).2.2]; exact h.trans x hx
      · intro x hx
        simp only
        rcases Decidable.em (x = s) with rfl | hne
        · rw [upd_self]
          simp only [List.map_append, List.map_cons, List.map_nil]
          apply nodup_snoc (h.outs x hx)
          intro hm
          obtain ⟨d, hd, e⟩ := List.mem_map.1 hm
          have := any_false hany hd
          simp [e] at this
        · rw [upd_ne _ _ hne]; exact h.outs x hx

theorem reach_inv {W : World} (h : Reach W) : Inv W := by
  induction h with
  | init => exact inv_empty
  | step _ hv hc ih => exact ih.step hv hc

/-! ### The search -/

structure BfsInv (W : World) (top : FId) (q res : List SId) : Prop where
  nodup : res.Nodup
  own : ∀ s ∈ (W.F top).own, s ∈ res ∨ s ∈ q
  closed : ∀ s ∈ res, ∀ t ∈ succs W top s, t ∈ res ∨ t ∈ q
  found : ∀ s, s ∈ res ∨ s ∈ q → Found W top s

theorem bfs_inv {W : World} {top : FId} : ∀ (n : Nat) (q res out : List SId),
    BfsInv W top q res → bfs W top n q res = some out → BfsInv W top [] out
  | n, [], res, out, h, hb => by
      cases n <;> (simp only [bfs] at hb; cases hb; exact h)
  | 0, _ :: _, _, _, _, hb => by simp [bfs] at hb
  | n + 1, s :: q, res, out, h, hb => by
      simp only [bfs] at hb
      split at hb
      · rename_i hs
        refine bfs_inv n q res out ⟨h.nodup, ?_, ?_, ?_⟩ hb
        · intro x hx
          rcases h.own x hx with h1 | h1
          · exact .inl h1
          · cases h1 with
            | head => exact .inl hs
            | tail _ h1 => exact .inr h1
        · intro x hx t ht
          rcases h.closed x hx t ht with h1 | h1
          · exact .inl h1
          · cases h1 with
            | head => exact .inl hs
            | tail _ h1 => exact .inr h1
        · intro x hx
          exact h.found x (hx.imp id (List.mem_cons_of_mem _))
      · rename_i hs
        have hsf := h.found s (.inr (by simp))
        refine bfs_inv n _ _ out ⟨nodup_snoc h.nodup hs, ?_, ?_, ?_⟩ hb
        · intro x hx
          rcases h.own x hx with h1 | h1
          · exact .inl (by simp [h1])
          · cases h1 with
            | head => exact .inl (by simp)
            | tail _ h1 => exact .inr (List.mem_append_left _ h1)
        · intro x hx t ht
          rw [List.mem_append, List.mem_singleton] at hx
          rcases hx with hx | rfl
          · rcases h.closed x hx t ht with h1 | h1
            · exact .inl (by simp [h1])
            · cases h1 with
              | head => exact .inl (by simp)
              | tail _ h1 => exact .inr (List.mem_append_left _ h1)
          · exact .inr (by simp [ht])
        · intro x hx
          rcases hx with hx | hx
          · rw [List.mem_append, List.mem_singleton] at hx
            rcases hx with hx | rfl
            · exact h.found x (.inl hx)
            · exact hsf
          · rw [List.mem_append] at hx
            rcases hx with hx | hx
            · exact h.found x (.inr (List.mem_cons_of_mem _ hx))
            · exact .step hsf hx

/-- **C36.**  The search returns every state of the machine exactly once, and nothing else. -/
theorem states_exact {W : World} {top : FId} {n : Nat} {states : List SId}
    (h : allStates W top n = some states) :
    states.Nodup ∧ ∀ s, s ∈ states ↔ Found W top s := by
  have hb := bfs_inv n (W.F top).own [] states
    ⟨by simp, fun s hs => .inr hs, by simp, fun s hs => .own (by simpa using hs)⟩ h
  refine ⟨hb.nodup, fun s => ⟨fun hs => hb.found s (.inl hs), fun hs => ?_⟩⟩
  induction hs with
  | own hs => simpa using hb.own _ hs
  | step _ ht ih => simpa using hb.closed _ ih _ ht

/-- Transitions of states not yet visited. -/
def work (W : World) (top : FId) (res l : List SId) : Nat :=
  ((l.filter (fun s => !res.contains s)).map (fun s => (succs W top s).length)).sum

theorem work_snoc {W : World} {top : FId} {res : List SId} {s : SId} (hs : s ∉ res) :
    ∀ (l : List SId), l.Nodup → s ∈ l →
    work W top (res ++ [s]) l + (succs W top s).length = work W top res l
  | [], _, h => by cases h
  | a :: l, hn, h => by
      rw [List.nodup_cons] at hn
      have key : ∀ (x : SId) (r : List SId) (l : List SId), work W top r (x :: l) =
          (if r.contains x then 0 else (succs W top x).length) + work W top r l := by
        intro x r l
        unfold work
        by_cases hx : r.contains x = true
        · rw [List.filter_cons_of_neg (by simpa using hx), if_pos hx]; omega
        · rw [List.filter_cons_of_pos (by simpa using hx), if_neg hx]; simp
      rw [key, key]
      rcases Decidable.em (a = s) with rfl | hne
      · have h1 : res.contains a = false := by simpa using hs
        have h2 : (res ++ [a]).contains a = true := by simp
        have h3 : work W top (res ++ [a]) l = work W top res l := by
          unfold work
          have : l.filter (fun x => !(res ++ [a]).contains x) = l.filter (fun x => !res.contains x) := by
            apply List.filter_congr
            intro x hx
            have : x ≠ a := by rintro rfl; exact hn.1 hx
            simp [this]
          rw [this]
        rw [h1, h2, h3]; simp; omega
      · have hsl : s ∈ l := by
          cases h with
          | head => exact absurd rfl hne
          | tail _ h => exact h
        have ih := work_snoc (W := W) (top := top) hs l hn.2 hsl
        have h1 : (res ++ [s]).contains a = res.contains a := by simp [hne]
        rw [h1]; omega

theorem bfs_terminates {W : World} (hi : Inv W) (top : FId) : ∀ (n : Nat) (q res : List SId),
    (∀ s ∈ q, s < W.nS) → q.length + work W top res (List.range W.nS) ≤ n →
    ∃ out, bfs W top n q res = some out
  | n, [], res, _, _ => by cases n <;> exact ⟨res, by simp [bfs]⟩
  | 0, s :: q, res, _, h => by simp at h
  | n + 1, s :: q, res, hq, h => by
      simp only [bfs]
      simp only [List.length_cons] at h
      split
      · exact bfs_terminates hi top n q res (fun x hx => hq x (List.mem_cons_of_mem _ hx)) (by omega)
      · rename_i hs
        have hsl := hq s (by simp)
        have hw := work_snoc (W := W) (top := top) hs (List.range W.nS) List.nodup_range
          (List.mem_range.2 hsl)
        apply bfs_terminates hi top n
        · intro x hx
          rw [List.mem_append] at hx
          rcases hx with hx | hx
          · exact hq x (List.mem_cons_of_mem _ hx)
          · unfold succs at hx
            rw [List.mem_filter] at hx
            obtain ⟨p, hp, rfl⟩ := List.mem_map.1 hx.1
            exact hi.tgt s hsl p hp
        · simp only [List.length_append]; omega

/-- The search ends on every machine that can be built. -/
theorem search_terminates {W : World} (h : Reach W) (top : FId) :
    ∃ n states, allStates W top n = some states := by
  have hi := reach_inv h
  obtain ⟨out, ho⟩ := bfs_terminates hi top _ (W.F top).own [] (fun s hs => (hi.own top s hs).1)
    (Nat.le_refl _)
  exact ⟨_, out, ho⟩

/-! ### C36: encodings -/

/-- **C36** (partial): every state's code fits in the state register, the register is at least one
bit and no wider than necessary, and two states have the same code exactly when they have the same
name in the enum.  What is missing: for nested machines the enum names of different states can be
equal, see `encodings_counterexample`. -/
theorem encodings_partial {W : World} {top : FId} {c : Cfg} {states : List SId} {r : Realized}
    (h : realize W top c states = .ok r) :
    1 ≤ r.plan.w ∧ (∀ j, 1 ≤ j → states.length ≤ 2 ^ j → r.plan.w ≤ j) ∧
    (∀ s ∈ states, enc r.plan s < 2 ^ r.plan.w) ∧
    ∀ s ∈ states, ∀ t ∈ states,
      (enc r.plan s = enc r.plan t ↔ stateName W top s = stateName W top t) := by
  have hp := (realize_parts h).plan
  have h0 : states.length ≠ 0 := fun h => hp.nonempty (List.length_eq_zero_iff.1 h)
  refine ⟨by rw [hp.w]; omega, ?_, fun s hs => enc_lt hp hs, fun s hs t ht => enc_name hp hs ht⟩
  intro j h1 hj
  rw [hp.w]
  have := Util.ceilLog2_le _ j h0 hj
  omega

theorem below_flat {W : World} {top : FId} (h : ∀ f, (W.F f).parent ≠ some top) :
    ∀ n f, below W n top f = true → f = top
  | 0, _, hb => by simp [below] at hb
  | n + 1, f, hb => by
      simp only [below] at hb
      split at hb
      · assumption
      · split at hb
        · cases hb
        · rename_i p hp
          have := below_flat h n p hb
          subst this
          exact absurd hp (h f)

/-- A machine without child FSMs has pairwise different state names. -/
theorem flat_names {W : World} (hr : Reach W) {top : FId} (hflat : (W.F top).kids = [])
    {n : Nat} {states : List SId} (hs : allStates W top n = some states) :
    NamesDistinct W top states := by
  have hi := reach_inv hr
  obtain ⟨hnd, hf⟩ := states_exact hs
  have hpar : ∀ f, (W.F f).parent ≠ some top := fun f hp => (hi.par f top hp).2 hflat
  have hlt : ∀ s ∈ states, s < W.nS ∧ (W.S s).fsm = top := by
    intro s hs
    have := (hf s).1 hs
    clear hs
    induction this with
    | own h => exact hi.own top _ h
    | @step s t _ ht ih =>
      unfold succs at ht
      rw [List.mem_filter] at ht
      obtain ⟨p, hp, rfl⟩ := List.mem_map.1 ht.1
      exact ⟨hi.tgt s ih.1 p hp, below_flat hpar _ _ ht.2⟩
  have hmap : states.map (stateName W top) = states.map (fun s => (W.S s).name) := by
    apply List.map_congr_left
    intro s _
    simp [stateName, hflat]
  unfold NamesDistinct
  rw [hmap]
  apply nodup_map_inj _ _ hnd
  intro s hs t ht e
  have h1 := (hi.all s (hlt s hs).1).2
  have h2 := (hi.all t (hlt t ht).1).2
  rw [(hlt s hs).2] at h1
  rw [(hlt t ht).2] at h2
  have hn := hi.names top
  generalize (W.F top).own = l at h1 h2 hn
  induction l with
  | nil => cases h1
  | cons a l ih =>
    rw [List.map_cons, List.nodup_cons] at hn
    have hm : ∀ x ∈ l, (W.S x).name ∈ l.map (fun s => (W.S s).name) :=
      fun x hx => List.mem_map_of_mem (f := fun s => (W.S s).name) hx
    cases h1 with
    | head =>
      cases h2 with
      | head => rfl
      | tail _ h2 => exact absurd (e ▸ hm t h2) hn.1
    | tail _ h1 =>
      cases h2 with
      | head => exact absurd (e.symm ▸ hm s h1) hn.1
      | tail _ h2 => exact ih h1 h2 hn.2

/-- **C36** for machines without child FSMs, in full: distinct states have distinct codes. -/
theorem encodings_flat {W : World} (hr : Reach W) {top : FId} (hflat : (W.F top).kids = [])
    {n : Nat} {states : List SId} (hs : allStates W top n = some states) {c : Cfg} {r : Realized}
    (h : realize W top c states = .ok r) :
    ∀ s ∈ states, ∀ t ∈ states, enc r.plan s = enc r.plan t → s = t :=
  fun _ hs' _ ht e => enc_inj (realize_parts h).plan (flat_names hr hflat hs) hs' ht e

/-! ### C37 -/

/-- **C37**, transitions (partial: nothing stops a second unconditional transition, see
`construct_counterexample`): after any sequence of calls, every state's transitions have 1-bit
guards, different guards, and no guarded transition after an unconditional one. -/
theorem construct_partial {W : World} (h : Reach W) (s : SId) (hs : s < W.nS) :
    TransOk (W.S s).trans := (reach_inv h).trans s hs

theorem fillOutputs_ok : ∀ (decl outs outs' : List Out), fillOutputs decl outs = .ok outs' →
    (∃ extra, outs' = outs ++ extra ∧ ∀ e ∈ extra, e ∈ decl ∧ e.x ≠ .null) ∧
    (∀ d ∈ decl, ∃ o ∈ outs', o.v = d.v) ∧ ((outs.map (·.v)).Nodup → (outs'.map (·.v)).Nodup)
  | [], outs, outs', h => by
      simp only [fillOutputs] at h
      cases h
      exact ⟨⟨[], by simp, by simp⟩, by simp, id⟩
  | d :: ds, outs, outs', h => by
      simp only [fillOutputs] at h
      split at h
      · rename_i ha
        obtain ⟨⟨ex, h1, h2⟩, h3, h4⟩ := fillOutputs_ok ds outs outs' h
        refine ⟨⟨ex, h1, fun e he => ⟨List.mem_cons_of_mem _ (h2 e he).1, (h2 e he).2⟩⟩, ?_, h4⟩
        intro d' hd'
        cases hd' with
        | head =>
          obtain ⟨o, ho, e⟩ := List.any_eq_true.1 ha
          exact ⟨o, by rw [h1]; simp [ho], by simpa using e⟩
        | tail _ hd' => exact h3 d' hd'
      · rename_i ha
        split at h
        · cases h
        · rename_i hnn
          simp only [pushOut, ha, Bool.false_eq_true, if_false, Res.ok_bind] at h
          obtain ⟨⟨ex, h1, h2⟩, h3, h4⟩ := fillOutputs_ok ds _ outs' h
          refine ⟨⟨d :: ex, by rw [h1]; simp, ?_⟩, ?_, ?_⟩
          · intro e he
            cases he with
            | head => exact ⟨by simp, fun hx => hnn hx⟩
            | tail _ he => exact ⟨List.mem_cons_of_mem _ (h2 e he).1, (h2 e he).2⟩
          · intro d' hd'
            cases hd' with
            | head => exact ⟨d, by rw [h1]; simp, rfl⟩
            | tail _ hd' => exact h3 d' hd'
          · intro hn
            apply h4
            simp only [List.map_append, List.map_cons, List.map_nil]
            apply nodup_snoc hn
            intro hm
            obtain ⟨o, ho, e⟩ := List.mem_map.1 hm
            have := any_false ha ho
            simp [e] at this

theorem checkAll_mem {W : World} : ∀ (states : List SId) (os : List (List Out)),
    checkAll W states = .ok os → ∀ s ∈ states,
      checkOutputs (W.F (W.S s).fsm).decl (W.S s).outs = .ok (outsOf states os s)
  | [], _, _, _, hs => by cases hs
  | a :: l, os, h, s, hs => by
      simp only [checkAll] at h
      rw [Res.bind_eq_ok] at h
      obtain ⟨o, ho, h⟩ := h
      rw [Res.bind_eq_ok] at h
      obtain ⟨os', hos, h⟩ := h
      cases h
      rcases Decidable.em (s = a) with rfl | hne
      · simp [outsOf, List.lookup, ho]
      · have hsl : s ∈ l := by
          cases hs with
          | head => exact absurd rfl hne
          | tail _ hs => exact hs
        have := checkAll_mem l os' hos s hsl
        rw [this]
        have hb : (s == a) = false := by simp [hne]
        simp [outsOf, List.lookup, hb]

/-- **C37**, outputs: if realization succeeds then in every state every output declared for its FSM
has a value — the one given for the state, or the FSM's default — and no undeclared output has
one. -/
theorem outputs_complete {W : World} {top : FId} {c : Cfg} {states : List SId} {r : Realized}
    (h : realize W top c states = .ok r) : ∀ s ∈ states,
    (∀ d ∈ (W.F (W.S s).fsm).decl, ∃ o ∈ r.plan.outs s, o.v = d.v) ∧
    (∀ o ∈ r.plan.outs s, ∃ d ∈ (W.F (W.S s).fsm).decl, d.v = o.v) ∧
    (∀ o ∈ (W.S s).outs, o ∈ r.plan.outs s) ∧
    (∀ o ∈ r.plan.outs s, o ∈ (W.S s).outs ∨ o ∈ (W.F (W.S s).fsm).decl ∧ o.x ≠ .null) ∧
    (((W.S s).outs.map (·.v)).Nodup → ((r.plan.outs s).map (·.v)).Nodup) := by
  intro s hs
  obtain ⟨os, hos, he⟩ := (realize_parts h).outs
  have hc := checkAll_mem states os hos s hs
  rw [he]
  generalize outsOf states os s = out at hc
  unfold checkOutputs at hc
  rw [Res.bind_eq_ok] at hc
  obtain ⟨o', ho', hc⟩ := hc
  split at hc
  · rename_i hall
    cases hc
    obtain ⟨⟨ex, h1, h2⟩, h3, h4⟩ := fillOutputs_ok _ _ _ ho'
    refine ⟨h3, ?_, ?_, ?_, h4⟩
    · intro o ho
      have := (List.all_eq_true.1 hall) o ho
      obtain ⟨d, hd, e⟩ := List.any_eq_true.1 this
      exact ⟨d, hd, by simpa using e⟩
    · intro o ho; rw [h1]; simp [ho]
    · intro o ho
      rw [h1, List.mem_append] at ho
      rcases ho with ho | ho
      · exact .inl ho
      · exact .inr (h2 o ho)
  · cases hc

/-- The register of a reachable machine: a missing output without default is rejected. -/
theorem missing_output_rejected {W : World} {top : FId} {c : Cfg} {states : List SId} {s : SId}
    (hs : s ∈ states) {d : Out} (hd : d ∈ (W.F (W.S s).fsm).decl) (hnull : d.x = .null)
    (hdn : ((W.F (W.S s).fsm).decl.map (·.v)).Nodup)
    (hmiss : ∀ o ∈ (W.S s).outs, o.v ≠ d.v) (r : Realized) :
    realize W top c states ≠ .ok r := by
  intro h
  obtain ⟨h1, _, _, h4, _⟩ := outputs_complete h s hs
  obtain ⟨o, ho, e⟩ := h1 d hd
  rcases h4 o ho with h5 | ⟨h5, h6⟩
  · exact hmiss o h5 e
  · apply h6
    have : o = d := by
      generalize (W.F (W.S s).fsm).decl = l at hdn hd h5
      induction l with
      | nil => cases hd
      | cons a l ih =>
        rw [List.map_cons, List.nodup_cons] at hdn
        cases hd with
        | head =>
          cases h5 with
          | head => rfl
          | tail _ h5 => exact absurd (e ▸ List.mem_map_of_mem (f := fun o : Out => o.v) h5) hdn.1
        | tail _ hd =>
          cases h5 with
          | head => exact absurd (e.symm ▸ List.mem_map_of_mem (f := fun o : Out => o.v) hd) hdn.1
          | tail _ h5 => exact ih hdn.2 hd h5
    rw [this]; exact hnull

end Kratos.Fsm
