import Verif.Opt.Lemmas2

/-! Helper lemmas for merge_if_block. -/

namespace Kratos.Opt
open Kratos.Ir

theorem Keeps.nil (x) : Keeps x .nil := fun _ _ => rfl
theorem Keeps.append {x a b} (ha : Keeps x a) (hb : Keeps x b) : Keeps x (a ++ b) := by
  intro ι st; rw [Stmts.exec_append, hb, ha]

/-- value of the then-body selected for pattern `v` -/
def F (w v : Nat) (l : List MIf) : Stmts :=
  match l.find? (fun a => pattern w a.val = v) with
  | some a => a.thn
  | none => .nil

/-- all matching bodies, in order -/
def G (w v : Nat) : List MIf → Stmts
  | [] => .nil
  | m :: ms => (if pattern w m.val = v then m.thn else .nil) ++ G w v ms

def InjOn (w : Nat) (l : List MIf) : Prop :=
  ∀ a ∈ l, ∀ b ∈ l, pattern w a.val = pattern w b.val → a.val = b.val

def upd (m a : MIf) : MIf :=
  if a.val = m.val then { a with thn := a.thn ++ m.thn, els := a.els ++ m.els } else a

theorem upd_val (m a) : (upd m a).val = a.val := by unfold upd; split <;> rfl
theorem upd_pred (m a) : (upd m a).pred = a.pred := by unfold upd; split <;> rfl

theorem mergeSame_cons (acc m ms) : mergeSame acc (m :: ms) =
    if acc.any (fun a => a.val = m.val) then mergeSame (acc.map (upd m)) ms
    else mergeSame (acc ++ [m]) ms := rfl

theorem append_assoc : ∀ (a b c : Stmts), (a ++ b) ++ c = a ++ (b ++ c)
  | .nil, _, _ => rfl
  | .cons s a, b, c => by simp [append_assoc a b c]

theorem mergeSame_F (w v) : ∀ (ms acc : List MIf), (∀ a ∈ acc ++ ms, ∀ b ∈ acc ++ ms,
      pattern w a.val = pattern w b.val → a.val = b.val) →
    F w v (mergeSame acc ms) = F w v acc ++ G w v ms
  | [], acc, _ => by simp [mergeSame, G]
  | m :: ms, acc, hinj => by
      rw [mergeSame_cons]
      split
      · rename_i hany
        rw [List.any_eq_true] at hany
        obtain ⟨a0, ha0, hav⟩ := hany
        have hav : a0.val = m.val := by simpa using hav
        rw [mergeSame_F w v ms _ (by
          intro a ha b hb
          have key : ∀ y ∈ acc.map (upd m) ++ ms, ∃ z ∈ acc ++ m :: ms, z.val = y.val := by
            intro y hy
            rw [List.mem_append, List.mem_map] at hy
            rcases hy with ⟨z, hz, rfl⟩ | hy
            · exact ⟨z, by simp [hz], (upd_val m z).symm⟩
            · exact ⟨y, by simp [hy], rfl⟩
          obtain ⟨za, hza, ea⟩ := key a ha
          obtain ⟨zb, hzb, eb⟩ := key b hb
          rw [← ea, ← eb]; exact hinj za hza zb hzb)]
        rw [G, ← append_assoc]
        congr 1
        unfold F
        rw [List.find?_map]
        have hfun : ((fun a : MIf => decide (pattern w a.val = v)) ∘ upd m)
            = (fun a : MIf => decide (pattern w a.val = v)) := by
          funext a; simp [upd_val]
        rw [hfun]
        cases hf : acc.find? (fun a => decide (pattern w a.val = v)) with
        | none =>
          have := List.find?_eq_none.mp hf a0 ha0
          simp only [decide_eq_true_eq] at this
          rw [hav] at this
          simp [this]
        | some a =>
          have hav' : pattern w a.val = v := by simpa using List.find?_some hf
          have hamem := List.mem_of_find?_eq_some hf
          simp only [Option.map_some]
          by_cases hm : pattern w m.val = v
          · have : a.val = m.val := hinj a (by simp [hamem]) m (by simp) (hav'.trans hm.symm)
            simp [upd, this, hm]
          · have : a.val ≠ m.val := fun e => hm (e ▸ hav')
            simp [upd, this, hm]
      · rename_i hany
        rw [mergeSame_F w v ms _ (by simpa using hinj)]
        rw [G, ← append_assoc]
        congr 1
        unfold F
        rw [List.find?_append]
        cases hf : acc.find? (fun a => decide (pattern w a.val = v)) with
        | none =>
          simp only [Option.none_or, List.find?_cons, List.find?_nil, Stmts.nil_append]
          by_cases hm : pattern w m.val = v
          · simp [hm]
          · simp [hm]
        | some a =>
          have hav' : pattern w a.val = v := by simpa using List.find?_some hf
          have hamem := List.mem_of_find?_eq_some hf
          have hm : pattern w m.val ≠ v := by
            intro hm
            have : a.val = m.val := hinj a (by simp [hamem]) m (by simp) (hav'.trans hm.symm)
            exact hany (by rw [List.any_eq_true]; exact ⟨a, hamem, by simp [this]⟩)
          simp [hm]

def predOf (x : Expr) (v : Int) : Expr := .bin .eq x (.const x.width v)

structure Shape (x : Expr) (c0 : Int) (e0 : Stmts) (acc : List MIf) : Prop where
  ex : ∃ a r, acc = a :: r ∧ a.val = c0 ∧ a.els = e0 ∧ ∀ y ∈ r, y.els = .nil
  preds : ∀ y ∈ acc, y.pred = predOf x y.val
  nd : (acc.map MIf.val).Nodup

theorem mergeSame_shape (x c0 e0) : ∀ (ms acc : List MIf), Shape x c0 e0 acc →
    (∀ m ∈ ms, m.els = .nil ∧ m.pred = predOf x m.val) → Shape x c0 e0 (mergeSame acc ms)
  | [], acc, h, _ => h
  | m :: ms, acc, h, hm => by
      rw [mergeSame_cons]
      obtain ⟨he, hpm⟩ := hm m (by simp)
      have htl : ∀ m ∈ ms, m.els = .nil ∧ m.pred = predOf x m.val :=
        fun y hy => hm y (List.mem_cons_of_mem _ hy)
      split
      · apply mergeSame_shape x c0 e0 ms _ _ htl
        obtain ⟨a, r, rfl, hav, hae, hr⟩ := h.ex
        have hels : ∀ y, (upd m y).els = y.els := by
          intro y; unfold upd; split
          · simp [he]
          · rfl
        refine ⟨⟨upd m a, r.map (upd m), rfl, ?_, ?_, ?_⟩, ?_, ?_⟩
        · rw [upd_val, hav]
        · rw [hels, hae]
        · intro y hy
          obtain ⟨z, hz, rfl⟩ := List.mem_map.mp hy
          rw [hels, hr z hz]
        · intro y hy
          obtain ⟨z, hz, rfl⟩ := List.mem_map.mp hy
          rw [upd_pred, upd_val, h.preds z hz]
        · have : (List.map (upd m) (a :: r)).map MIf.val = (a :: r).map MIf.val := by
            rw [List.map_map]; apply List.map_congr_left; intro y _; exact upd_val m y
          rw [this]; exact h.nd
      · rename_i hany
        apply mergeSame_shape x c0 e0 ms _ _ htl
        obtain ⟨a, r, rfl, hav, hae, hr⟩ := h.ex
        refine ⟨⟨a, r ++ [m], rfl, hav, hae, ?_⟩, ?_, ?_⟩
        · intro y hy
          rw [List.mem_append, List.mem_singleton] at hy
          rcases hy with hy | rfl
          · exact hr y hy
          · exact he
        · intro y hy
          rw [List.mem_append, List.mem_singleton] at hy
          rcases hy with hy | rfl
          · exact h.preds y hy
          · exact hpm
        · rw [List.map_append, List.nodup_append]
          refine ⟨h.nd, by simp, ?_⟩
          intro v hv u hu e
          simp only [List.map_cons, List.map_nil, List.mem_singleton] at hu
          subst hu; subst e
          obtain ⟨y, hy, hyv⟩ := List.mem_map.mp hv
          exact hany (by rw [List.any_eq_true]; exact ⟨y, hy, by simp [hyv]⟩)

theorem predOf_eval (x : Expr) (v : Int) (σ) :
    (predOf x v).eval σ ≠ 0 ↔ pattern x.width v = x.eval σ := by
  simp only [predOf, Expr.eval, BinOp.sem, eq_ne_zero]

/-- Executing a list of ifs with distinct values and empty else-branches, none of which
matches. -/
theorem exec_nomatch (x : Expr) (ι) : ∀ (l : List MIf) (st : St),
    (∀ y ∈ l, y.els = .nil ∧ y.pred = predOf x y.val) →
    (∀ y ∈ l, pattern x.width y.val ≠ x.eval st.val) →
    (Stmts.ofList (l.map MIf.toStmt)).exec ι st = st
  | [], st, _, _ => rfl
  | m :: l, st, h, hv => by
      simp only [List.map_cons, Stmts.ofList, Stmts.exec_cons]
      have h1 : m.toStmt.exec ι st = st := by
        obtain ⟨he, hp⟩ := h m (by simp)
        simp only [MIf.toStmt, Stmt.exec, he, hp]
        have : ¬ (predOf x m.val).eval st.val ≠ 0 := by
          rw [predOf_eval]; exact hv m (by simp)
        rw [if_neg this, Stmts.exec_nil]
        simp [guardRun]
      rw [h1]
      exact exec_nomatch x ι l st (fun y hy => h y (List.mem_cons_of_mem _ hy))
        (fun y hy => hv y (List.mem_cons_of_mem _ hy))

/-- Sequential ifs on an unchanged target run all matching bodies. -/
theorem exec_seq (x : Expr) (ι) : ∀ (l : List MIf) (st : St),
    (∀ y ∈ l, y.els = .nil ∧ y.pred = predOf x y.val ∧ Keeps x y.thn) →
    (Stmts.ofList (l.map MIf.toStmt)).exec ι st = (G x.width (x.eval st.val) l).exec ι st
  | [], st, _ => rfl
  | m :: l, st, h => by
      simp only [List.map_cons, Stmts.ofList, Stmts.exec_cons, G, Stmts.exec_append]
      obtain ⟨he, hp, hk⟩ := h m (by simp)
      have h1 : m.toStmt.exec ι st
          = (if pattern x.width m.val = x.eval st.val then m.thn else .nil).exec ι st := by
        by_cases hr : st.ctl = .run
        · simp only [MIf.toStmt, Stmt.exec, he, hp, guardRun_run hr]
          by_cases hc : pattern x.width m.val = x.eval st.val
          · rw [if_pos ((predOf_eval x m.val _).mpr hc), if_pos hc]
          · rw [if_neg (fun e => hc ((predOf_eval x m.val _).mp e)), if_neg hc]
        · rw [Stmt.exec_stop ι _ st hr, Stmts.exec_stop ι _ st hr]
      rw [h1, exec_seq x ι l _ (fun y hy => h y (List.mem_cons_of_mem _ hy))]
      congr 1
      split
      · rw [hk]
      · rfl

theorem G_keeps (x w v) : ∀ l : List MIf, (∀ y ∈ l, Keeps x y.thn) → Keeps x (G w v l)
  | [], _ => Keeps.nil x
  | m :: l, h => by
      simp only [G]
      refine Keeps.append ?_ (G_keeps x w v l (fun y hy => h y (List.mem_cons_of_mem _ hy)))
      split
      · exact h m (by simp)
      · exact Keeps.nil x

/-- With distinct values at most one if matches, and executing the sequence is executing `F`. -/
theorem exec_distinct (x : Expr) (ι) : ∀ (l : List MIf) (st : St),
    (l.map (fun y => pattern x.width y.val)).Nodup →
    (∀ y ∈ l, y.els = .nil ∧ y.pred = predOf x y.val) →
    (∀ y ∈ l, Keeps x y.thn) →
    (Stmts.ofList (l.map MIf.toStmt)).exec ι st = (F x.width (x.eval st.val) l).exec ι st := by
  intro l st hn h hk
  rw [exec_seq x ι l st (fun y hy => ⟨(h y hy).1, (h y hy).2, hk y hy⟩)]
  congr 1
  exact GF _ l hn
where
  GF (v) : ∀ l : List MIf, (l.map (fun y => pattern x.width y.val)).Nodup →
      G x.width v l = F x.width v l
    | [], _ => rfl
    | m :: l, hn => by
        simp only [List.map_cons, List.nodup_cons] at hn
        simp only [G, F, List.find?_cons]
        by_cases hc : pattern x.width m.val = v
        · simp only [hc, if_true, decide_true]
          have hl : G x.width v l = .nil := by
            rw [GF v l hn.2]; unfold F
            have : l.find? (fun a => decide (pattern x.width a.val = v)) = none := by
              rw [List.find?_eq_none]; intro y hy
              simp only [decide_eq_true_eq]; intro e
              exact hn.1 (List.mem_map.mpr ⟨y, hy, e.trans hc.symm⟩)
            rw [this]
          rw [hl]; simp
        · simp only [hc, if_false, decide_false, Stmts.nil_append]
          rw [GF v l hn.2]; rfl

theorem thn_keeps (x) : ∀ (ms acc : List MIf), (∀ y ∈ acc, Keeps x y.thn) →
    (∀ y ∈ ms, Keeps x y.thn) → ∀ y ∈ mergeSame acc ms, Keeps x y.thn
  | [], acc, h, _ => h
  | m :: ms, acc, h, hm => by
      rw [mergeSame_cons]
      have htl : ∀ y ∈ ms, Keeps x y.thn := fun y hy => hm y (List.mem_cons_of_mem _ hy)
      split
      · refine thn_keeps x ms _ ?_ htl
        intro y hy
        obtain ⟨z, hz, rfl⟩ := List.mem_map.mp hy
        unfold upd; split
        · exact Keeps.append (h z hz) (hm m (by simp))
        · exact h z hz
      · refine thn_keeps x ms _ ?_ htl
        intro y hy
        rw [List.mem_append, List.mem_singleton] at hy
        rcases hy with hy | rfl
        · exact h y hy
        · exact hm y (by simp)

theorem mergeSame_vals : ∀ (ms acc : List MIf), ∀ y ∈ mergeSame acc ms, ∃ z ∈ acc ++ ms, z.val = y.val
  | [], acc, y, hy => ⟨y, by simpa [mergeSame] using hy, rfl⟩
  | m :: ms, acc, y, hy => by
      rw [mergeSame_cons] at hy
      split at hy
      · obtain ⟨z, hz, e⟩ := mergeSame_vals ms _ y hy
        rw [List.mem_append, List.mem_map] at hz
        rcases hz with ⟨u, hu, rfl⟩ | hz
        · exact ⟨u, by simp [hu], by rw [← e, upd_val]⟩
        · exact ⟨z, by simp [hz], e⟩
      · obtain ⟨z, hz, e⟩ := mergeSame_vals ms _ y hy
        exact ⟨z, by simpa using hz, e⟩

/-- The core: merging a contiguous group. -/
theorem group_equiv (x : Expr) (m0 : MIf) (ms : List MIf) (g : Stmt)
    (h0 : m0.pred = predOf x m0.val ∧ Keeps x m0.thn ∧ Keeps x m0.els)
    (hms : ∀ m ∈ ms, m.els = .nil ∧ m.pred = predOf x m.val ∧ Keeps x m.thn)
    (hinj : InjOn x.width (m0 :: ms))
    (hg : nestGroup (mergeSame [] (m0 :: ms)) = some g) :
    (Stmts.ofList ((m0 :: ms).map MIf.toStmt)).Equiv (.cons g .nil) := by
  have hstep : mergeSame [] (m0 :: ms) = mergeSame [m0] ms := rfl
  rw [hstep] at hg
  have hsh : Shape x m0.val m0.els (mergeSame [m0] ms) :=
    mergeSame_shape x _ _ ms [m0]
      ⟨⟨m0, [], rfl, rfl, rfl, by simp⟩, by simpa using h0.1, by simp⟩
      (fun m hm => ⟨(hms m hm).1, (hms m hm).2.1⟩)
  have hF := fun v => mergeSame_F x.width v ms [m0] hinj
  have hkeep := thn_keeps x ms [m0] (by simpa using h0.2.1) (fun m hm => (hms m hm).2.2)
  have hvals := mergeSame_vals ms [m0]
  obtain ⟨a, r, hL, hav, hae, hr⟩ := hsh.ex
  have hpr := hsh.preds
  have hnd := hsh.nd
  rw [hL] at hg hF hkeep hvals hpr hnd
  simp only [nestGroup, Option.some.injEq] at hg
  subst hg
  have hpa := hpr a (by simp)
  have hndp : ((a :: r).map (fun y => pattern x.width y.val)).Nodup := by
    have hinj' : ∀ y ∈ a :: r, ∀ z ∈ a :: r, pattern x.width y.val = pattern x.width z.val →
        y.val = z.val := by
      intro y hy z hz e
      obtain ⟨y', hy', ey⟩ := hvals y hy
      obtain ⟨z', hz', ez⟩ := hvals z hz
      rw [← ey, ← ez] at e ⊢
      exact hinj y' hy' z' hz' e
    clear hL hF hkeep hvals hpr hpa hav hae hr
    revert hnd hinj'
    generalize a :: r = l
    induction l with
    | nil => intros; simp
    | cons b l ih =>
      intro hnd hinj'
      simp only [List.map_cons, List.nodup_cons] at hnd ⊢
      refine ⟨?_, ih hnd.2 (fun y hy z hz => hinj' y (List.mem_cons_of_mem _ hy) z
        (List.mem_cons_of_mem _ hz))⟩
      intro hm
      obtain ⟨z, hz, e⟩ := List.mem_map.mp hm
      exact hnd.1 (List.mem_map.mpr ⟨z, hz,
        hinj' z (List.mem_cons_of_mem _ hz) b (by simp) e⟩)
  intro ι st
  rw [Stmts.exec_single]
  by_cases hrun : ¬ st.ctl = .run
  · rw [Stmts.exec_stop ι _ st hrun, Stmt.exec_stop ι _ st hrun]
  have hrun : st.ctl = .run := Classical.not_not.mp hrun
  simp only [List.map_cons, Stmts.ofList, Stmts.exec_cons]
  have hFv := hF (x.eval st.val)
  simp only [Stmt.exec, guardRun_run hrun, MIf.toStmt, h0.1, hpa]
  simp only [List.map_cons, List.nodup_cons] at hndp
  by_cases hc : pattern x.width m0.val = x.eval st.val
  · have hca : pattern x.width a.val = x.eval st.val := by rw [hav]; exact hc
    rw [if_pos ((predOf_eval x _ _).mpr hc), if_pos ((predOf_eval x _ _).mpr hca)]
    have e1 : F x.width (x.eval st.val) (a :: r) = a.thn := by simp [F, hca]
    have e2 : F x.width (x.eval st.val) [m0] = m0.thn := by simp [F, hc]
    rw [e1, e2] at hFv
    rw [hFv, Stmts.exec_append, exec_seq x ι ms _ hms]
    rw [h0.2.1]
  · have hca : ¬ pattern x.width a.val = x.eval st.val := by rw [hav]; exact hc
    rw [if_neg (fun e => hc ((predOf_eval x _ _).mp e)),
      if_neg (fun e => hca ((predOf_eval x _ _).mp e))]
    have e1 : F x.width (x.eval st.val) (a :: r) = F x.width (x.eval st.val) r := by
      simp [F, hca]
    have e2 : F x.width (x.eval st.val) [m0] = .nil := by simp [F, hc]
    rw [e1, e2, Stmts.nil_append] at hFv
    rw [hae, Stmts.exec_append, exec_seq x ι ms _ hms]
    rw [exec_distinct x ι r _ hndp.2
      (fun y hy => ⟨hr y hy, hpr y (List.mem_cons_of_mem _ hy)⟩)
      (fun y hy => hkeep y (List.mem_cons_of_mem _ hy))]
    rw [h0.2.2, hFv]

/-! ### locating the group inside a block -/

theorem targeted_other (same : Expr → Expr → Bool) (hsame : ∀ a b, same a b = true → a = b) (x : Expr) (s : Stmt)
    (h : eqChain x s = []) : ∀ m, targetedIf s = some m → same x m.tgt = false := by
  intro m hm
  unfold targetedIf at hm
  split at hm
  · rename_i l w v t e
    simp only [Option.some.injEq] at hm
    subst hm
    cases hs : same x l with
    | false => rfl
    | true =>
      have := hsame _ _ hs
      subst this
      unfold eqChain at h
      split at h
      · rename_i heq; cases heq; simp at h
      · rename_i heq; cases heq; simp at h
      · rename_i h2; exact absurd rfl (h2 _ _ _ _ _)
  · simp at hm

theorem groupOf_other (same : Expr → Expr → Bool) (hsame : ∀ a b, same a b = true → a = b) (x : Expr) :
    ∀ (pre ss : Stmts), (∀ s ∈ pre.toList, eqChain x s = []) →
    groupOf same x (pre ++ ss) = groupOf same x ss
  | .nil, ss, _ => rfl
  | .cons s pre, ss, h => by
      have ih := groupOf_other same hsame x pre ss (fun y hy => h y (by simp [Stmts.toList, hy]))
      have := targeted_other same hsame x s (h s (by simp [Stmts.toList]))
      simp only [Stmts.cons_append, groupOf]
      split
      · rename_i m hm; simp [this m hm, ih]
      · exact ih

theorem rebuild_other (same : Expr → Expr → Bool) (hsame : ∀ a b, same a b = true → a = b) (x : Expr) (g) (b) :
    ∀ (pre ss : Stmts), (∀ s ∈ pre.toList, eqChain x s = []) →
    rebuild same x g (pre ++ ss) b = pre ++ rebuild same x g ss b
  | .nil, ss, _ => rfl
  | .cons s pre, ss, h => by
      have ih := rebuild_other same hsame x g b pre ss
        (fun y hy => h y (by simp [Stmts.toList, hy]))
      have := targeted_other same hsame x s (h s (by simp [Stmts.toList]))
      simp only [Stmts.cons_append, rebuild]
      split
      · rename_i m hm; simp [this m hm, ih]
      · simp [ih]

theorem groupOf_nil_other (same : Expr → Expr → Bool) (hsame : ∀ a b, same a b = true → a = b) (x : Expr) (ss : Stmts)
    (h : ∀ s ∈ ss.toList, eqChain x s = []) : groupOf same x ss = [] := by
  have := groupOf_other same hsame x ss .nil h
  rw [Stmts.append_nil] at this; rw [this]; rfl

theorem rebuild_nil_other (same : Expr → Expr → Bool) (hsame : ∀ a b, same a b = true → a = b) (x : Expr) (g b)
    (ss : Stmts) (h : ∀ s ∈ ss.toList, eqChain x s = []) : rebuild same x g ss b = ss := by
  have := rebuild_other same hsame x g b ss .nil h
  rw [Stmts.append_nil] at this; rw [this]; simp [rebuild]

end Kratos.Opt
