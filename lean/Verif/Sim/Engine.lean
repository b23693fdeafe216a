import Verif.Sim.ExprProps

/-! Lemmas about the event engine: what running a statement does to values and to the queue. -/

namespace Kratos.Sim

open Kratos.Ir

/-! ### Expressions only depend on what they read -/

theorem simE_congr (cpow : U64 → U64 → Res U64) {va vb : Vals} : ∀ (e : Expr) (m : Mode),
    (∀ x, e.reads x = true → va x = vb x) → simE cpow va m e = simE cpow vb m e
  | .var v _, m, h => by
    cases m <;> simp only [simE] <;> rw [h v (by simp [Expr.reads])]
  | .const _ _, m, _ => by cases m <;> simp only [simE]
  | .slice e hi lo, m, h => by
    have ih := simE_congr cpow e .root (va := va) (vb := vb) h
    cases m <;> simp only [simE, ih]
  | .un op e, m, h => by
    have ih := simE_congr cpow e .value (va := va) (vb := vb) h
    cases m <;> simp only [simE, ih]
  | .bin op l r, m, h => by
    have ih1 := simE_congr cpow l .value (va := va) (vb := vb) (fun x hx => h x (by simp [Expr.reads, hx]))
    have ih2 := simE_congr cpow r .value (va := va) (vb := vb) (fun x hx => h x (by simp [Expr.reads, hx]))
    cases m <;> simp only [simE, ih1, ih2]
  | .cond p l r, m, h => by
    have ih1 := simE_congr cpow l .value (va := va) (vb := vb) (fun x hx => h x (by simp [Expr.reads, hx]))
    have ih2 := simE_congr cpow r .value (va := va) (vb := vb) (fun x hx => h x (by simp [Expr.reads, hx]))
    have ih3 := simE_congr cpow p .value (va := va) (vb := vb) (fun x hx => h x (by simp [Expr.reads, hx]))
    cases m <;> simp only [simE, ih1, ih2, ih3]
  | .concat l r, m, h => by
    have ih1 := fun m => simE_congr cpow l m (va := va) (vb := vb) (fun x hx => h x (by simp [Expr.reads, hx]))
    have ih2 := fun m => simE_congr cpow r m (va := va) (vb := vb) (fun x hx => h x (by simp [Expr.reads, hx]))
    cases m <;> simp only [simE, ih1, ih2]
  | .extend _ e, m, h => by
    have ih := simE_congr cpow e .value (va := va) (vb := vb) h
    cases m <;> simp only [simE, ih]
  | .dup _ e, m, h => by
    have ih := simE_congr cpow e .value (va := va) (vb := vb) h
    cases m <;> simp only [simE, ih]

/-! ### Values without the queue -/

def vset (D : Design) (l : LVal) (x : U64) (vals : Vals) : Res Vals :=
  if l.lo = 0 ∧ l.len = D.width l.v then .ok (updV vals l.v x)
  else (writeSlice (D.width l.v) (l.lo + l.len - 1) l.lo ((vals l.v).getD 0) x).bind fun n =>
    .ok (updV vals l.v n)

mutual
def vrun (D : Design) : Stmt → Vals × Nba → Res (Vals × Nba)
  | .assign nb l r, s => (simE D.cpow s.1 .value r).bind fun
      | none => .ok s
      | some x => if nb then .ok (s.1, nbaAdd s.2 l x) else (vset D l x s.1).bind fun v => .ok (v, s.2)
  | .ite c t e, s => (simE D.cpow s.1 .value c).bind fun v =>
      if v.any (· != 0) then vruns D t s else vruns D e s
  | .switch tgt cs, s => (simE D.cpow s.1 .value tgt).bind fun
      | none => vrunDefault D cs s
      | some v => vrunCases D tgt.width v cs .ok s
  | .for_ _ _ _ _ _, _ => .throw .notImpl
  | .ret _, _ => .throw .notImpl
  | .brk, _ => .throw .notImpl
  | .other _, _ => .throw .notImpl
def vruns (D : Design) : Stmts → Vals × Nba → Res (Vals × Nba)
  | .nil, s => .ok s
  | .cons x xs, s => (vrun D x s).bind fun s' => vruns D xs s'
def vrunDefault (D : Design) : Cases → Vals × Nba → Res (Vals × Nba)
  | .nil, s => .ok s
  | .cons none b _, s => vruns D b s
  | .cons (some _) _ cs, s => vrunDefault D cs s
def vrunCases (D : Design) (w : Nat) (v : U64) :
    Cases → (Vals × Nba → Res (Vals × Nba)) → Vals × Nba → Res (Vals × Nba)
  | .nil, k, s => k s
  | .cons none b cs, _, s => vrunCases D w v cs (fun s => vruns D b s) s
  | .cons (some c) b cs, k, s => (caseBits w c).bind fun bits =>
      if v = bits then vruns D b s else vrunCases D w v cs k s
end

def proj (s : S × Nba) : Vals × Nba := (s.1.vals, s.2)

theorem updV_same {f : Vals} {v : VarId} {x : U64} (h : f v = some x) : updV f v x = f := by
  funext y
  unfold updV
  split
  · rename_i e; rw [e, h]
  · rfl

@[simp] theorem trigger_vals (D : Design) (sc : Option Nat) (v : VarId) (s : S) :
    (trigger D sc v s).vals = s.vals := rfl

theorem setWhole_vals (D : Design) (sc : Option Nat) (v : VarId) (x : U64) (s : S) :
    (setWhole D sc v x s).vals = updV s.vals v x := by
  unfold setWhole
  split
  · rename_i old h
    split
    · rename_i e; subst e; exact (updV_same h).symm
    · simp only; split <;> rfl
  · simp only; split <;> rfl

theorem setLVal_vset (D : Design) (sc : Option Nat) (l : LVal) (x : U64) (s : S) :
    (setLVal D sc l x s).map S.vals = vset D l x s.vals := by
  unfold setLVal vset
  split
  · rw [Res.ok_map, setWhole_vals]
  · simp only
    cases writeSlice (D.width l.v) (l.lo + l.len - 1) l.lo ((s.vals l.v).getD 0) x with
    | ok n => simp only [Res.ok_bind, Res.ok_map]; split <;> rfl
    | throw e => rfl
    | ub => rfl

theorem map_bind_eq {α β γ δ : Type} (r : Res α) (f : α → Res β) (g : β → γ) (h : α → δ) (f' : δ → Res γ)
    (hh : ∀ a, (f a).map g = f' (h a)) : (r.bind f).map g = (r.map h).bind f' := by
  cases r with
  | ok a => exact hh a
  | throw e => rfl
  | ub => rfl

mutual
theorem run_v (D : Design) (sc : Option Nat) : ∀ (st : Stmt) (s : S × Nba),
    (run D sc st s).map proj = vrun D st (proj s)
  | .assign nb l r, s => by
    simp only [run, vrun, proj]
    cases simE D.cpow s.1.vals .value r with
    | throw e => rfl
    | ub => rfl
    | ok o =>
      cases o with
      | none => rfl
      | some x =>
        simp only [Res.ok_bind]
        cases nb with
        | true => rfl
        | false =>
          simp only [Bool.false_eq_true, if_false]
          rw [← setLVal_vset D sc l x s.1]
          exact map_bind_eq _ _ _ _ _ (fun a => rfl)
  | .ite c t e, s => by
    simp only [run, vrun]
    rw [show simE D.cpow (proj s).1 .value c = simE D.cpow s.1.vals .value c from rfl]
    cases simE D.cpow s.1.vals .value c with
    | throw e => rfl
    | ub => rfl
    | ok o =>
      simp only [Res.ok_bind]
      split
      · exact runs_v D sc t s
      · exact runs_v D sc e s
  | .switch tgt cs, s => by
    simp only [run, vrun]
    rw [show simE D.cpow (proj s).1 .value tgt = simE D.cpow s.1.vals .value tgt from rfl]
    cases simE D.cpow s.1.vals .value tgt with
    | throw e => rfl
    | ub => rfl
    | ok o =>
      cases o with
      | none => exact runDefault_v D sc cs s
      | some v => exact runCases_v D sc _ v cs _ _ (fun _ => rfl) s
  | .for_ _ _ _ _ _, _ => rfl
  | .ret _, _ => rfl
  | .brk, _ => rfl
  | .other _, _ => rfl
theorem runs_v (D : Design) (sc : Option Nat) : ∀ (b : Stmts) (s : S × Nba),
    (runs D sc b s).map proj = vruns D b (proj s)
  | .nil, s => rfl
  | .cons x xs, s => by
    simp only [runs, vruns]
    rw [← run_v D sc x s]
    exact map_bind_eq _ _ _ _ _ (fun a => runs_v D sc xs a)
theorem runDefault_v (D : Design) (sc : Option Nat) : ∀ (cs : Cases) (s : S × Nba),
    (runDefault D sc cs s).map proj = vrunDefault D cs (proj s)
  | .nil, s => rfl
  | .cons none b cs, s => runs_v D sc b s
  | .cons (some _) _ cs, s => runDefault_v D sc cs s
theorem runCases_v (D : Design) (sc : Option Nat) (w : Nat) (v : U64) : ∀ (cs : Cases)
    (k : S × Nba → Res (S × Nba)) (k' : Vals × Nba → Res (Vals × Nba)),
    (∀ s, (k s).map proj = k' (proj s)) → ∀ s : S × Nba,
    (runCases D sc w v cs k s).map proj = vrunCases D w v cs k' (proj s)
  | .nil, k, k', hk, s => hk s
  | .cons none b cs, k, k', hk, s => by
    simp only [runCases, vrunCases]
    exact runCases_v D sc w v cs _ _ (fun s => runs_v D sc b s) s
  | .cons (some c) b cs, k, k', hk, s => by
    simp only [runCases, vrunCases]
    cases caseBits w c with
    | throw e => rfl
    | ub => rfl
    | ok bits =>
      simp only [Res.ok_bind]
      split
      · exact runs_v D sc b s
      · exact runCases_v D sc w v cs k k' hk s
end

/-! ### The queue -/

/-- Values fit the widths of their variables. -/
def Fit (D : Design) (vals : Vals) : Prop := ∀ v u, vals v = some u → u.toNat < 2 ^ D.width v

/-- From `s` to `s'` the queue grew, and everybody sensitive to a changed variable was queued. -/
def Told (D : Design) (sc : Option Nat) (s s' : S) : Prop :=
  ∃ new, s'.q = s.q ++ new ∧
    ∀ x, s'.vals x ≠ s.vals x → ∀ p ∈ D.order x, sc ≠ some p → (x, p) ∈ new

theorem Told.refl (D : Design) (sc : Option Nat) (s : S) : Told D sc s s :=
  ⟨[], by simp, fun x h => absurd rfl h⟩

theorem Told.trans {D : Design} {sc : Option Nat} {a b c : S} (h1 : Told D sc a b) (h2 : Told D sc b c) :
    Told D sc a c := by
  obtain ⟨n1, e1, p1⟩ := h1
  obtain ⟨n2, e2, p2⟩ := h2
  refine ⟨n1 ++ n2, by rw [e2, e1, List.append_assoc], ?_⟩
  intro x hx p hp hs
  rcases Classical.em (b.vals x = a.vals x) with h | h
  · exact List.mem_append_right _ (p2 x (by rw [h]; exact hx) p hp hs)
  · exact List.mem_append_left _ (p1 x h p hp hs)

theorem bitsDiffer_of_ne {w : Nat} {a b : U64} (hw : w ≤ 64) (ha : a.toNat < 2 ^ w) (hb : b.toNat < 2 ^ w)
    (h : a ≠ b) : bitsDiffer w a b = true := by
  apply Classical.byContradiction
  intro hc
  apply h
  apply BitVec.eq_of_getLsbD_eq
  intro i hi
  by_cases hiw : i < w
  · simp only [bitsDiffer, Bool.not_eq_true] at hc
    rw [List.any_eq_false] at hc
    have := hc i (List.mem_range.2 hiw)
    rw [BitVec.getLsbD_xor] at this
    revert this
    cases a.getLsbD i <;> cases b.getLsbD i <;> decide
  · rw [Eval.getLsbD_fits (w := w) ha (by omega), Eval.getLsbD_fits (w := w) hb (by omega)]

theorem setWhole_told {D : Design} {sc : Option Nat} {v : VarId} {x : U64} {s : S} (hw : 1 ≤ D.width v)
    (hw2 : D.width v ≤ 64) (hf : Fit D s.vals) (hx : x.toNat < 2 ^ D.width v) :
    Told D sc s (setWhole D sc v x s) ∧ Fit D (setWhole D sc v x s).vals := by
  constructor
  · have key : ∀ s' : S, s'.vals = updV s.vals v x → s'.q = s.q → Told D sc s (trigger D sc v s') := by
      intro s' hv hq
      refine ⟨_, by rw [show (trigger D sc v s').q = s'.q ++ _ from rfl, hq], ?_⟩
      intro y hy p hp hs
      have : y = v := by
        apply Classical.byContradiction
        intro hne
        apply hy
        rw [trigger_vals, hv]; simp [updV, hne]
      subst this
      simp only [List.mem_map, List.mem_filter, decide_eq_true_eq]
      exact ⟨p, ⟨hp, hs⟩, rfl⟩
    unfold setWhole
    split
    · rename_i old ho
      split
      · exact Told.refl D sc s
      · rename_i hne
        simp only
        rw [if_pos (bitsDiffer_of_ne hw2 hx (hf v old ho) (fun e => hne e.symm))]
        exact key _ rfl rfl
    · simp only
      rw [if_neg (by omega)]
      exact key _ rfl rfl
  · rw [setWhole_vals]
    intro y u hy
    unfold updV at hy
    split at hy
    · rename_i e
      injection hy with hy
      subst hy; subst e; exact hx
    · exact hf y u hy

/-! ### Values fit -/

/-- Known values of `e` fit its width. -/
structure Bounded (cpow : U64 → U64 → Res U64) (vals : Vals) (e : Expr) : Prop where
  value : ∀ v, simE cpow vals .value e = .ok (some v) → v.toNat < 2 ^ e.width
  spine : ∀ (acc : U64) sh x, acc.toNat < 2 ^ sh → sh + e.width ≤ 63 →
    simE cpow vals (.spine acc sh) e = .ok (some x) → x.toNat < 2 ^ (sh + e.width)

theorem Bounded.of_value {cpow : U64 → U64 → Res U64} {vals : Vals} {e : Expr}
    (hs : ∀ acc sh, simE cpow vals (.spine acc sh) e = finish (.spine acc sh) (simE cpow vals .value e))
    (hv : ∀ v, simE cpow vals .value e = .ok (some v) → v.toNat < 2 ^ e.width) : Bounded cpow vals e := by
  refine ⟨hv, ?_⟩
  intro acc sh x hacc hsh h
  rw [hs] at h
  simp only [finish, Res.bind_eq_ok] at h
  obtain ⟨a, ha, h⟩ := h
  cases a with
  | none => cases h
  | some v =>
    have h1 := hv v ha
    simp only [concatStep, Res.bind_eq_ok] at h
    obtain ⟨b, ⟨c, hc, hb⟩, h⟩ := h
    injection h with h; injection h with h; subst h
    injection hb with hb; subst hb
    rw [Eval.shl_ok (by omega)] at hc
    injection hc with hc; subst hc
    rw [BitVec.toNat_or]
    apply Nat.or_lt_two_pow
    · exact Nat.lt_of_lt_of_le hacc (Nat.pow_le_pow_right (by omega) (by omega))
    · rw [BitVec.toNat_shiftLeft, Nat.shiftLeft_eq]
      apply Nat.lt_of_le_of_lt (Nat.mod_le _ _)
      rw [Nat.add_comm, Nat.pow_add]
      exact Nat.mul_lt_mul_of_pos_right h1 (Nat.two_pow_pos sh)

theorem sim_bounded (cpow : U64 → U64 → Res U64) (W : VarId → Nat) (vals : Vals)
    (hf : ∀ v u, vals v = some u → u.toNat < 2 ^ W v) : ∀ e, Good W e → Bounded cpow vals e
  | .var v w, hg => by
    refine .of_value (fun _ _ => rfl) ?_
    intro x hx
    simp only [simE, finish, Res.ok.injEq] at hx
    have := hf v x hx
    rw [← hg.1] at this
    exact this
  | .const w c, hg => by
    obtain ⟨h1, h2, h3, h4⟩ := hg
    refine .of_value (fun _ _ => rfl) ?_
    intro x hx
    simp only [simE, finish, Res.ok.injEq, Option.some.injEq] at hx
    subst hx
    obtain ⟨n, rfl⟩ : ∃ n : Nat, c = n := ⟨c.toNat, by omega⟩
    have hn : n < 2 ^ w := by exact_mod_cast h4
    have hp := Eval.two_pow_le_64 (show w ≤ 64 by omega)
    rw [BitVec.ofInt_natCast, BitVec.toNat_ofNat, Nat.mod_eq_of_lt (by omega)]
    exact hn
  | .slice (.var v w) hi lo, hg => by
    obtain ⟨⟨hw, h1, h2⟩, he, hlt, hb⟩ := hg
    subst he
    refine .of_value (fun _ _ => rfl) ?_
    intro y hy
    cases hu : vals v with
    | none => simp [simE, finish, hu] at hy
    | some u =>
      obtain ⟨x, hx, hxn⟩ := readSlice_bit hlt h2 u
      have hval : simE cpow vals .value (.slice (.var v w) hi hi) = .ok (some x) := by
        simp [simE, finish, hu, chain, rootWidth, Expr.width, hx]
      rw [hval] at hy
      injection hy with hy; injection hy with hy; subst hy
      have hl := hf v u hu
      rw [← hw] at hl
      simp only [Expr.width, Nat.sub_self, Nat.zero_add]
      rw [hxn]
      rcases hb with rfl | hb
      · exact Nat.mod_lt _ (by decide)
      · apply Nat.lt_of_le_of_lt (Nat.mod_le _ _)
        rw [Nat.div_lt_iff_lt_mul (Nat.two_pow_pos _)]
        have e : 2 ^ 1 * 2 ^ hi = 2 ^ w := by rw [← hb, Nat.pow_succ]; omega
        omega
  | .slice (.const _ _) _ _, hg => by simp [Good] at hg
  | .slice (.slice _ _ _) _ _, hg => by simp [Good] at hg
  | .slice (.un _ _) _ _, hg => by simp [Good] at hg
  | .slice (.bin _ _ _) _ _, hg => by simp [Good] at hg
  | .slice (.cond _ _ _) _ _, hg => by simp [Good] at hg
  | .slice (.concat _ _) _ _, hg => by simp [Good] at hg
  | .slice (.extend _ _) _ _, hg => by simp [Good] at hg
  | .slice (.dup _ _) _ _, hg => by simp [Good] at hg
  | .dup _ _, hg => by simp [Good] at hg
  | .un op e, hg => by
    obtain ⟨hge, hop⟩ := hg
    have ih := sim_bounded cpow W vals hf e hge
    have hu : isUnary op = true := by rcases hop with rfl | rfl | rfl | rfl <;> rfl
    refine .of_value (fun _ _ => rfl) ?_
    intro x h
    simp only [simE, finish, Res.bind_eq_ok] at h
    obtain ⟨a, ha, h⟩ := h
    cases a with
    | none => cases h
    | some v =>
      simp only [hu, if_true, Res.bind_eq_ok] at h
      obtain ⟨y, hy, h⟩ := h
      injection h with h; injection h with h; subst h
      have hw := hge.width
      exact (evalUn_nat (a := v) hop hw.1 hw.2 (ih.value v ha) hy).2
  | .bin op l r, hg => by
    obtain ⟨hgl, hgr, hw, hop⟩ := hg
    refine .of_value (fun _ _ => rfl) ?_
    intro x h
    simp only [simE, finish, Res.bind_eq_ok] at h
    obtain ⟨a, ha, h⟩ := h
    cases a with
    | none => cases h
    | some v =>
      simp only [Res.bind_eq_ok] at h
      obtain ⟨b, hb, h⟩ := h
      cases b with
      | none => cases h
      | some u =>
        simp only [Res.bind_eq_ok] at h
        obtain ⟨y, hy, h⟩ := h
        injection h with h; injection h with h; subst h
        have hwl := hgl.width
        refine Eval.fold_in_range cpow ?_ ?_ hy
        · simp only [Expr.width]; split <;> omega
        · simp only [Expr.width]; split <;> omega
  | .cond p l r, hg => by
    obtain ⟨hgp, hgl, hgr, hw⟩ := hg
    have ihr := sim_bounded cpow W vals hf r hgr
    have hwl := hgl.width
    refine .of_value (fun _ _ => rfl) ?_
    intro x h
    simp only [simE, finish, Res.bind_eq_ok] at h
    obtain ⟨a, ha, h⟩ := h
    cases a with
    | none => cases h
    | some v =>
      simp only [Res.bind_eq_ok] at h
      obtain ⟨b, hb, c, hc, h⟩ := h
      cases c with
      | none =>
        simp only [condResult, Res.ok.injEq] at h
        subst h
        simp only [Expr.width]
        rw [hw]
        exact ihr.value x hb
      | some q =>
        cases b with
        | none => simp [condResult] at h
        | some u =>
          simp only [condResult, Res.bind_eq_ok] at h
          obtain ⟨z, hz, h⟩ := h
          injection h with h; injection h with h; subst h
          obtain ⟨y, hy, hyn⟩ := Eval.fold_ternary (w := (Expr.cond p l r).width) hwl.1
            (Nat.le_trans hwl.2 (by omega)) (q != 0) v u
          rw [hy] at hz
          injection hz with hz; subst hz
          rw [hyn]
          exact Nat.mod_lt _ (Nat.two_pow_pos _)
  | .extend w e, hg => by
    obtain ⟨hge, h1, h2⟩ := hg
    have ih := sim_bounded cpow W vals hf e hge
    refine .of_value (fun _ _ => rfl) ?_
    intro v h
    simp only [simE, finish] at h
    exact Nat.lt_of_lt_of_le (ih.value v h) (Nat.pow_le_pow_right (by omega) h1)
  | .concat l r, hg => by
    obtain ⟨hgl, hgr, hw⟩ := hg
    have ihl := sim_bounded cpow W vals hf l hgl
    have ihr := sim_bounded cpow W vals hf r hgr
    have hsp : ∀ (acc : U64) sh x, acc.toNat < 2 ^ sh → sh + (l.width + r.width) ≤ 63 →
        simE cpow vals (.spine acc sh) (.concat l r) = .ok (some x) →
        x.toNat < 2 ^ (sh + (l.width + r.width)) := by
      intro acc sh x hacc hsh h
      simp only [simE, Res.bind_eq_ok] at h
      obtain ⟨a, ha, h⟩ := h
      cases a with
      | none => cases h
      | some v =>
        have h1 := ihr.spine acc sh v hacc (by omega) ha
        have := ihl.spine v (sh + r.width) x h1 (by omega) h
        rwa [show sh + (l.width + r.width) = sh + r.width + l.width by omega]
    have heq : simE cpow vals .value (.concat l r) = simE cpow vals (.spine 0 0) (.concat l r) := by
      simp [simE]
    refine ⟨?_, hsp⟩
    intro v h
    rw [heq] at h
    have := hsp 0 0 v (by simp) (by omega) h
    simpa [Expr.width] using this

end Kratos.Sim
