import Verif.Sim.Settle

/-! C54: the theorems. -/

namespace Kratos.Sim

open Kratos.Ir

/-- A variable no process assigns. -/
def Undriven (D : Design) (v : VarId) : Prop := ∀ (p : Nat) pr, D.procs[p]? = some pr → v ∉ pr.writes

/-- What a user can do: construct the simulator, set undriven variables to values that fit, evaluate. -/
inductive Reached (D : Design) : S → Prop where
  | init {ps : List Nat} {s : S} : (∀ p ∈ ps, ∃ pr, D.procs[p]? = some pr ∧ isPullUp pr = true) →
      (∀ (p : Nat) pr, D.procs[p]? = some pr → isPullUp pr = true → p ∈ ps) →
      pullUp D ps ⟨fun _ => none, [], 0⟩ = .ok s → Reached D s
  | poke {s : S} {v : VarId} {x : U64} : Reached D s → Undriven D v → x.toNat < 2 ^ D.width v →
      Reached D (setWhole D none v x s)
  | eval {s s' : S} {n : Nat} : Reached D s → eval D n s = .ok s' → Reached D s'

theorem pullUp_inv {D : Design} (hD : Clean D) : ∀ (ps : List Nat) (E : Nat → Prop) (s s' : S), Inv D E s →
    pullUp D ps s = .ok s' → Inv D (fun q => E q ∧ q ∉ ps) s'
  | [], E, s, s', hI, h => by
    injection h with h; subst h
    exact ⟨hI.1, fun p pr hp => by simpa using hI.2 p pr hp⟩
  | p :: ps, E, s, s', hI, h => by
    simp only [pullUp] at h
    split at h
    · cases h
    · rename_i pr hpr
      rw [Res.bind_eq_ok] at h
      obtain ⟨s1, h1, h⟩ := h
      have h2 := step_inv hD (E := E) hpr hI.1 (fun q qr hq _ => hI.2 q qr hq) h1
      have h3 := pullUp_inv hD ps _ s1 s' h2 h
      refine ⟨h3.1, fun q qr hq => ?_⟩
      rcases h3.2 q qr hq with ⟨⟨a, b⟩, c⟩ | h
      · exact Or.inl ⟨a, by simp [b, c]⟩
      · exact Or.inr h

/-- Values set from outside keep the invariant. -/
theorem poke_inv {D : Design} (hD : Clean D) {E : Nat → Prop} {s : S} {v : VarId} {x : U64} (hI : Inv D E s)
    (hu : Undriven D v) (hx : x.toNat < 2 ^ D.width v) : Inv D E (setWhole D none v x s) := by
  have hw := hD.width v
  obtain ⟨⟨new, hq, ht⟩, hf⟩ := setWhole_told (sc := none) hw.1 (by omega) hI.1 hx
  refine ⟨hf, fun p pr hp => ?_⟩
  rcases hI.2 p pr hp with h | ⟨w, h⟩ | h
  · exact Or.inl h
  · exact Or.inr (Or.inl ⟨w, by rw [hq]; exact List.mem_append_left _ h⟩)
  · right
    have hne : ∀ y, y ≠ v → s.vals y = (setWhole D none v x s).vals y := by
      intro y hy; rw [setWhole_vals]; simp [updV, hy]
    rcases Classical.em (v ∈ pr.deps ∧ (setWhole D none v x s).vals v ≠ s.vals v) with ⟨h1, h2⟩ | hn
    · left
      exact ⟨v, by rw [hq]; exact List.mem_append_right _ (ht v h2 p ((hD.ok.order v p).2 ⟨pr, hp, h1⟩) (by simp))⟩
    · right
      refine frame_proc hD hp hf (fun y hy => ?_) (fun y hy => ?_) h
      · by_cases e : y = v
        · subst e
          apply Classical.byContradiction
          intro hc
          exact hn ⟨hy, fun e => hc e.symm⟩
        · exact hne y e
      · exact hne y (fun e => hu p pr hp (by rw [← e]; exact hy))

/-- With all values unknown no process except the constant ones has anything to do. -/
def Quiet (D : Design) : Prop :=
  ∀ (p : Nat) pr, D.procs[p]? = some pr → isPullUp pr = false → Stable D (fun _ => none) pr

theorem reached_inv {D : Design} (hD : Clean D) (hQ : Quiet D) {s : S} (h : Reached D s) : Inv D (fun _ => False) s := by
  induction h with
  | init h1 h2 h3 =>
    have h0 : Inv D (fun q => ∃ pr, D.procs[q]? = some pr ∧ isPullUp pr = true) ⟨fun _ => none, [], 0⟩ := by
      refine ⟨fun v u h => by simp at h, fun p pr hp => ?_⟩
      cases hpu : isPullUp pr with
      | true => exact Or.inl ⟨pr, hp, hpu⟩
      | false => exact Or.inr (Or.inr (hQ p pr hp hpu))
    have h4 := pullUp_inv hD _ _ _ _ h0 h3
    refine ⟨h4.1, fun p pr hp => ?_⟩
    rcases h4.2 p pr hp with ⟨⟨pr', a, b⟩, c⟩ | h
    · exact absurd (h2 p pr' a b) c
    · exact Or.inr h
  | poke _ hu hx ih => exact poke_inv hD ih hu hx
  | eval _ h ih => exact (evalLoop_inv hD _ _ _ (by exact ih) h).1

/-- **C54, settling (proved part).**  In a design with one driver per variable, whole-variable
assignments, dependency lists that cover what is read, and nothing to do before the first input:
whenever an evaluation returns, no event is left and every continuous assignment and every `always_comb`
block is stable - after any history of settings and evaluations, in any iteration order. -/
theorem settle_partial {D : Design} (hD : Clean D) (hQ : Quiet D) {s s' : S} {n : Nat} (h : Reached D s)
    (he : eval D n s = .ok s') :
    s'.q = [] ∧ ∀ (p : Nat) pr, D.procs[p]? = some pr → Stable D s'.vals pr := by
  obtain ⟨h1, h2⟩ := evalLoop_inv hD (E := fun _ => False) n { s with depth := 0 } s'
    (reached_inv hD hQ h : Inv D (fun _ => False) s) he
  refine ⟨h2, fun p pr hp => ?_⟩
  rcases h1.2 p pr hp with h | ⟨v, h⟩ | h
  · exact h.elim
  · rw [h2] at h; cases h
  · exact h

/-! ### What stability means -/

/-- The values of all variables in `U` are known; known values are those of `σ`, which is 0 elsewhere. -/
def Rep (U : VarId → Prop) (vals : Vals) (σ : Store) : Prop :=
  ∀ x, (∃ u, vals x = some u ∧ u.toNat = σ x) ∨ (vals x = none ∧ σ x = 0 ∧ ¬ U x)

theorem Rep.lt {D : Design} {U : VarId → Prop} {vals : Vals} {σ : Store} (h : Rep U vals σ) (hf : Fit D vals) :
    ∀ x, σ x < 2 ^ D.width x := by
  intro x
  rcases h x with ⟨u, hu, hs⟩ | ⟨_, hs, _⟩
  · rw [← hs]; exact hf x u hu
  · rw [hs]; exact Nat.two_pow_pos _

theorem Rep.known {U : VarId → Prop} {vals : Vals} {σ : Store} (h : Rep U vals σ) {x : VarId} (hx : U x) :
    ∃ u, vals x = some u ∧ u.toNat = σ x := by
  rcases h x with h | ⟨_, _, hn⟩
  · exact h
  · exact absurd hx hn

theorem Rep.uniq {U : VarId → Prop} {vals : Vals} {σ τ : Store} (h : Rep U vals σ) (h' : Rep U vals τ) : τ = σ := by
  funext x
  rcases h x with ⟨u, hu, hs⟩ | ⟨hu, hs, _⟩ <;> rcases h' x with ⟨u', hu', hs'⟩ | ⟨hu', hs', _⟩
  · rw [hu] at hu'; injection hu' with hu'; subst hu'; rw [← hs, ← hs']
  · rw [hu] at hu'; cases hu'
  · rw [hu] at hu'; cases hu'
  · rw [hs, hs']

mutual
/-- Conditions are properly sized and labels fit. -/
def CondsGood (W : VarId → Nat) : Stmt → Prop
  | .ite c t e => Good W c ∧ CondsGoodS W t ∧ CondsGoodS W e
  | .switch tgt cs => Good W tgt ∧ tgt.width ≤ 32 ∧ CondsGoodC W tgt.width cs
  | _ => True
def CondsGoodS (W : VarId → Nat) : Stmts → Prop
  | .nil => True
  | .cons s ss => CondsGood W s ∧ CondsGoodS W ss
def CondsGoodC (W : VarId → Nat) (w : Nat) : Cases → Prop
  | .nil => True
  | .cons k b cs => (∀ c, k = some c → 0 ≤ c ∧ c < 2 ^ w) ∧ CondsGoodS W b ∧ CondsGoodC W w cs
end

theorem Rep.upd {D : Design} {U : VarId → Prop} {vals : Vals} {σ : Store} (h : Rep U vals σ) (hf : Fit D vals) {l : LVal} {x : U64}
    (h0 : l.lo = 0) (hl : l.len = D.width l.v) (hx : x.toNat < 2 ^ D.width l.v) :
    Rep U (updV vals l.v x) (σ.write l x.toNat) := by
  intro y
  by_cases e : y = l.v
  · subst e
    refine Or.inl ⟨x, by simp [updV], ?_⟩
    have := h.lt hf l.v
    simp only [Store.write, if_true, h0, hl, setBits, Nat.zero_add]
    rw [Nat.div_eq_of_lt this, Nat.mod_eq_of_lt hx]
    simp [Nat.mod_one]
  · rcases h y with ⟨u, hu, hs⟩ | ⟨hu, hs, hn⟩
    · exact Or.inl ⟨u, by simp [updV, e, hu], by simp [Store.write, e, hs]⟩
    · exact Or.inr ⟨by simp [updV, e, hu], by simp [Store.write, e, hs], hn⟩

mutual
/-- Running a combinational block in the simulator is executing it. -/
theorem vrun_spec (D : Design) (U : VarId → Prop) (ι : Nat → St → St) : ∀ (st : Stmt) (a b : Vals × Nba) (σ : Store) N,
    CombStmt D.width st → CondsGood D.width st → ReadsIn U st → Fit D a.1 → Rep U a.1 σ → vrun D st a = .ok b →
    ∃ τ, st.exec ι ⟨σ, N, .run⟩ = ⟨τ, N, .run⟩ ∧ Rep U b.1 τ
  | .assign nb l r, a, b, σ, N, hg, _, hu, hf, hr, h => by
    obtain ⟨rfl, h0, hl, hrw, hgr⟩ := hg
    have hR := sim_right D.cpow D.width a.1 σ (hr.lt hf) r hgr (fun x hx => hr.known (hu x hx))
    simp only [vrun, Res.bind_eq_ok] at h
    obtain ⟨o, ho, h⟩ := h
    cases o with
    | none => exact absurd ho hR.known
    | some v =>
      obtain ⟨e1, e2⟩ := hR.value v ho
      simp only [vset, Bool.false_eq_true, if_false] at h
      rw [if_pos ⟨h0, hl⟩] at h
      simp only [Res.ok_bind] at h
      injection h with h; subst h
      refine ⟨σ.write l (r.eval σ), by simp [Stmt.exec, guardRun], ?_⟩
      rw [← e1]
      exact hr.upd hf h0 hl (by rw [e1, ← hrw]; exact e2)
  | .ite c t e, a, b, σ, N, hg, hc, hu, hf, hr, h => by
    have hR := sim_right D.cpow D.width a.1 σ (hr.lt hf) c hc.1 (fun x hx => hr.known (hu.1 x hx))
    simp only [vrun, Res.bind_eq_ok] at h
    obtain ⟨o, ho, h⟩ := h
    cases o with
    | none => exact absurd ho hR.known
    | some v =>
      obtain ⟨e1, e2⟩ := hR.value v ho
      have hx : (some v).any (· != 0) = decide (c.eval σ ≠ 0) := by
        rw [← e1]
        simp only [Option.any_some]
        by_cases h0 : v = 0
        · subst h0; simp
        · have : v.toNat ≠ 0 := fun e => h0 (BitVec.eq_of_toNat_eq (by simpa using e))
          rw [decide_eq_true this]
          exact bne_iff_ne.2 h0
      rw [hx] at h
      split at h
      · rename_i hc'
        rw [decide_eq_true_eq] at hc'
        obtain ⟨τ, h1, h2⟩ := vruns_spec D U ι t a b σ N hg.1 hc.2.1 hu.2.1 hf hr h
        exact ⟨τ, by simp only [Stmt.exec, guardRun, if_true]; rw [if_pos hc']; exact h1, h2⟩
      · rename_i hc'
        rw [decide_eq_true_eq] at hc'
        obtain ⟨τ, h1, h2⟩ := vruns_spec D U ι e a b σ N hg.2 hc.2.2 hu.2.2 hf hr h
        exact ⟨τ, by simp only [Stmt.exec, guardRun, if_true]; rw [if_neg hc']; exact h1, h2⟩
  | .switch tgt cs, a, b, σ, N, hg, hc, hu, hf, hr, h => by
    have hR := sim_right D.cpow D.width a.1 σ (hr.lt hf) tgt hc.1 (fun x hx => hr.known (hu.1 x hx))
    simp only [vrun, Res.bind_eq_ok] at h
    obtain ⟨o, ho, h⟩ := h
    cases o with
    | none => exact absurd ho hR.known
    | some v =>
      obtain ⟨e1, e2⟩ := hR.value v ho
      simp only at h
      obtain ⟨τ, h1, h2⟩ := vrunCases_spec D U ι tgt.width v hc.2.1 cs _ id a b σ N hg hc.2.2 hu.2 hf hr
        (fun b h => ⟨σ, rfl, by injection h with h; rw [← h]; exact hr⟩) h
      exact ⟨τ, by simp only [Stmt.exec, guardRun, if_true]; rw [← e1]; exact h1, h2⟩
  | .for_ _ _ _ _ _, _, _, _, _, hg, _, _, _, _, _ => hg.elim
  | .ret _, _, _, _, _, hg, _, _, _, _, _ => hg.elim
  | .brk, _, _, _, _, hg, _, _, _, _, _ => hg.elim
  | .other _, _, _, _, _, hg, _, _, _, _, _ => hg.elim
theorem vruns_spec (D : Design) (U : VarId → Prop) (ι : Nat → St → St) : ∀ (st : Stmts) (a b : Vals × Nba) (σ : Store) N,
    CombStmts D.width st → CondsGoodS D.width st → ReadsInS U st → Fit D a.1 → Rep U a.1 σ → vruns D st a = .ok b →
    ∃ τ, st.exec ι ⟨σ, N, .run⟩ = ⟨τ, N, .run⟩ ∧ Rep U b.1 τ
  | .nil, a, b, σ, N, _, _, _, _, hr, h => by injection h with h; subst h; exact ⟨σ, rfl, hr⟩
  | .cons s ss, a, b, σ, N, hg, hc, hu, hf, hr, h => by
    simp only [vruns, Res.bind_eq_ok] at h
    obtain ⟨c, hcc, h⟩ := h
    obtain ⟨τ, h1, h2⟩ := vrun_spec D U ι s a c σ N hg.1 hc.1 hu.1 hf hr hcc
    obtain ⟨ρ, h3, h4⟩ := vruns_spec D U ι ss c b τ N hg.2 hc.2 hu.2 (vrun_comb D s a c hg.1 hf hcc).1 h2 h
    exact ⟨ρ, by simp only [Stmts.exec]; rw [h1, h3], h4⟩
theorem vrunCases_spec (D : Design) (U : VarId → Prop) (ι : Nat → St → St) (w : Nat) (v : U64) (hw : w ≤ 32) : ∀ (cs : Cases)
    (k : Vals × Nba → Res (Vals × Nba)) (k' : St → St) (a b : Vals × Nba) (σ : Store) N,
    CombCases D.width cs → CondsGoodC D.width w cs → ReadsInC U cs → Fit D a.1 → Rep U a.1 σ →
    (∀ b, k a = .ok b → ∃ τ, k' ⟨σ, N, .run⟩ = ⟨τ, N, .run⟩ ∧ Rep U b.1 τ) → vrunCases D w v cs k a = .ok b →
    ∃ τ, cs.exec ι w v.toNat k' ⟨σ, N, .run⟩ = ⟨τ, N, .run⟩ ∧ Rep U b.1 τ
  | .nil, k, k', a, b, σ, N, _, _, _, _, _, hk, h => by simp only [Cases.exec]; exact hk b h
  | .cons none bd cs, k, k', a, b, σ, N, hg, hc, hu, hf, hr, hk, h => by
    simp only [vrunCases] at h
    simp only [Cases.exec]
    exact vrunCases_spec D U ι w v hw cs _ _ a b σ N hg.2 hc.2.2 hu.2 hf hr
      (fun b h => vruns_spec D U ι bd a b σ N hg.1 hc.2.1 hu.1 hf hr h) h
  | .cons (some c) bd cs, k, k', a, b, σ, N, hg, hc, hu, hf, hr, hk, h => by
    obtain ⟨h0, h1⟩ := hc.1 c rfl
    obtain ⟨hcb, hcl⟩ := caseBits_ok hw h0 h1
    simp only [vrunCases, hcb, Res.ok_bind] at h
    have h65 : (2 : Nat) ^ w ≤ 2 ^ 64 := Nat.pow_le_pow_right (by omega) (by omega)
    simp only [Cases.exec]
    split at h
    · rename_i e
      rw [if_pos (by rw [e, BitVec.toNat_ofNat, Nat.mod_eq_of_lt (by omega)])]
      exact vruns_spec D U ι bd a b σ N hg.1 hc.2.1 hu.1 hf hr h
    · rename_i e
      rw [if_neg (by
        intro e'
        apply e
        apply BitVec.eq_of_toNat_eq
        rw [BitVec.toNat_ofNat, e', Nat.mod_eq_of_lt v.isLt])]
      exact vrunCases_spec D U ι w v hw cs k k' a b σ N hg.2 hc.2.2 hu.2 hf hr hk h
end

/-- The combinational equations hold in `σ`: an assigned variable has the value of its right side, and
executing an `always_comb` block changes nothing. -/
def Solves (ι : Nat → St → St) (σ : Store) : Proc → Prop
  | .assign l r => σ l.v = r.eval σ
  | .comb b => ∀ N, b.exec ι ⟨σ, N, .run⟩ = ⟨σ, N, .run⟩
  | .seq _ _ => True

def ProcConds (W : VarId → Nat) : Proc → Prop
  | .comb b => CondsGoodS W b
  | _ => True

theorem stable_solves {D : Design} {U : VarId → Prop} (ι : Nat → St → St) {vals : Vals} {σ : Store} {pr : Proc} (hs : ProcShape D.width pr)
    (hc : ProcConds D.width pr) (hu : ReadsInS U pr.block) (hf : Fit D vals) (hr : Rep U vals σ) (h : Stable D vals pr) : Solves ι σ pr := by
  have uniq : ∀ τ, Rep U vals τ → τ = σ := fun τ ht => hr.uniq ht
  cases pr with
  | seq _ _ => trivial
  | comb b =>
    intro N
    obtain ⟨τ, h1, h2⟩ := vruns_spec D U ι b (vals, []) (vals, []) σ N hs hc hu hf hr h
    rw [h1, uniq τ h2]
  | assign l r =>
    obtain ⟨τ, h1, h2⟩ := vruns_spec D U ι (asBlock l r) (vals, []) (vals, []) σ [] hs ⟨trivial, trivial⟩ hu hf hr h
    have := uniq τ h2
    subst this
    simp only [asBlock, Stmts.exec, Stmt.exec, guardRun, if_true, Bool.false_eq_true, if_false] at h1
    injection h1 with h1 _ _
    obtain ⟨⟨-, h0, hl, hrw, hgr⟩, -⟩ := hs
    have hlt : ∀ x, τ x < 2 ^ D.width x := hr.lt hf
    have hR := sim_right D.cpow D.width vals τ hlt r hgr (fun x hx => hr.known (hu.1 x hx))
    have hev : r.eval τ < 2 ^ r.width := by
      simp only [Stable, vruns, vrun, Res.bind_eq_ok] at h
      obtain ⟨_, ⟨o, ho, _⟩, _⟩ := h
      cases o with
      | none => exact absurd ho hR.known
      | some v => exact (hR.value v ho).2
    have hw := congrFun h1 l.v
    simp only [Store.write, if_true, h0, hl, setBits, Nat.zero_add] at hw
    rw [Nat.div_eq_of_lt (hlt _), Nat.mod_eq_of_lt (show r.eval τ < 2 ^ D.width l.v by rw [← hrw]; exact hev)] at hw
    simp only [Nat.zero_mul, Nat.pow_zero, Nat.mul_one, Nat.mod_one, Nat.add_zero, Nat.zero_add] at hw
    exact hw.symm

/-- Everything the processes read or assign is in `U`. -/
def Covers (D : Design) (U : VarId → Prop) : Prop :=
  ∀ (p : Nat) pr, D.procs[p]? = some pr → ReadsInS U pr.block ∧ ∀ x ∈ pr.writes, U x

/-- **C54, against the specification.**  Once the values of all variables of the design are known, the values solve the
combinational equations of the design. -/
theorem settle_solves {D : Design} {U : VarId → Prop} (ι : Nat → St → St) (hD : Clean D) (hQ : Quiet D) (hU : Covers D U)
    (hC : ∀ (p : Nat) pr, D.procs[p]? = some pr → ProcConds D.width pr) {s s' : S} {n : Nat} (h : Reached D s)
    (he : eval D n s = .ok s') {σ : Store} (hσ : Rep U s'.vals σ) :
    ∀ (p : Nat) pr, D.procs[p]? = some pr → Solves ι σ pr := by
  intro p pr hp
  have h1 := (settle_partial hD hQ h he).2 p pr hp
  have h2 := (reached_inv hD hQ (Reached.eval h he)).1
  exact stable_solves ι (hD.shape p pr hp) (hC p pr hp) (hU p pr hp).1 h2 hσ h1

/-! ### Acyclic designs: one solution -/

def hasDefault : Cases → Bool
  | .nil => false
  | .cons none _ _ => true
  | .cons (some _) _ cs => hasDefault cs

mutual
/-- The statement assigns `x` on every path. -/
def Must (x : VarId) : Stmt → Prop
  | .assign _ l _ => x = l.v
  | .ite _ t e => MustS x t ∧ MustS x e
  | .switch _ cs => hasDefault cs = true ∧ MustC x cs
  | _ => False
def MustS (x : VarId) : Stmts → Prop
  | .nil => False
  | .cons s ss => Must x s ∨ MustS x ss
def MustC (x : VarId) : Cases → Prop
  | .nil => True
  | .cons _ b cs => MustS x b ∧ MustC x cs
end

def AgreeN (A : VarId → Prop) (f g : Store) : Prop := ∀ x, A x → f x = g x

/-- Executing from stores that agree on `A`: they agree on `A` and `M` afterwards. -/
def Det (f : St → St) (A M : VarId → Prop) (W : VarId → Nat) : Prop :=
  ∀ σ σ' N, AgreeN A σ σ' → (∀ x, σ x < 2 ^ W x) → (∀ x, σ' x < 2 ^ W x) →
    ∃ τ τ', f ⟨σ, N, .run⟩ = ⟨τ, N, .run⟩ ∧ f ⟨σ', N, .run⟩ = ⟨τ', N, .run⟩ ∧
      (∀ x, A x ∨ M x → τ x = τ' x) ∧ (∀ x, τ x < 2 ^ W x) ∧ (∀ x, τ' x < 2 ^ W x)

theorem write_whole {W : VarId → Nat} {σ : Store} (hσ : ∀ x, σ x < 2 ^ W x) {l : LVal} (h0 : l.lo = 0)
    (hl : l.len = W l.v) (y : Nat) (x : VarId) :
    σ.write l y x = if x = l.v then y % 2 ^ W l.v else σ x := by
  unfold Store.write
  split
  · rename_i e
    subst e
    simp only [h0, hl, setBits, Nat.zero_add]
    rw [Nat.div_eq_of_lt (hσ _)]
    simp [Nat.mod_one]
  · rfl

mutual
theorem exec_det (W : VarId → Nat) (ι : Nat → St → St) (A : VarId → Prop) : ∀ (st : Stmt), CombStmt W st →
    ReadsIn A st → Det (st.exec ι) A (fun x => Must x st) W
  | .assign nb l r, hg, hr => by
    obtain ⟨rfl, h0, hl, hrw, hgr⟩ := hg
    intro σ σ' N ha hs hs'
    have he : r.eval σ = r.eval σ' := Expr.eval_congr _ (fun x hx => ha x (hr x hx))
    refine ⟨σ.write l (r.eval σ), σ'.write l (r.eval σ'), by simp [Stmt.exec, guardRun], by simp [Stmt.exec, guardRun], ?_, ?_, ?_⟩
    · intro x hx
      rw [write_whole hs h0 hl, write_whole hs' h0 hl, he]
      split
      · rfl
      · rename_i hne
        rcases hx with hx | hx
        · exact ha x hx
        · exact absurd hx hne
    · intro x; rw [write_whole hs h0 hl]; split
      · rename_i e; rw [e]; exact Nat.mod_lt _ (Nat.two_pow_pos _)
      · exact hs x
    · intro x; rw [write_whole hs' h0 hl]; split
      · rename_i e; rw [e]; exact Nat.mod_lt _ (Nat.two_pow_pos _)
      · exact hs' x
  | .ite c t e, hg, hr => by
    intro σ σ' N ha hs hs'
    have he : c.eval σ = c.eval σ' := Expr.eval_congr _ (fun x hx => ha x (hr.1 x hx))
    simp only [Stmt.exec, guardRun, if_true]
    rw [he]
    by_cases hc : c.eval σ' ≠ 0
    · rw [if_pos hc, if_pos hc]
      obtain ⟨τ, τ', h1, h2, h3, h4, h5⟩ := execs_det W ι A t hg.1 hr.2.1 σ σ' N ha hs hs'
      exact ⟨τ, τ', h1, h2, fun x hx => h3 x (hx.imp id fun h => h.1), h4, h5⟩
    · rw [if_neg hc, if_neg hc]
      obtain ⟨τ, τ', h1, h2, h3, h4, h5⟩ := execs_det W ι A e hg.2 hr.2.2 σ σ' N ha hs hs'
      exact ⟨τ, τ', h1, h2, fun x hx => h3 x (hx.imp id fun h => h.2), h4, h5⟩
  | .switch tgt cs, hg, hr => by
    intro σ σ' N ha hs hs'
    have he : tgt.eval σ = tgt.eval σ' := Expr.eval_congr _ (fun x hx => ha x (hr.1 x hx))
    simp only [Stmt.exec, guardRun, if_true]
    rw [he]
    obtain ⟨τ, τ', h1, h2, h3, h4, h5⟩ := cases_det W ι A tgt.width (tgt.eval σ') cs id (fun _ => False) hg hr.2
      (fun σ σ' N ha hs hs' => ⟨σ, σ', rfl, rfl, fun x hx => ha x (hx.resolve_right (fun h => h)), hs, hs'⟩)
      σ σ' N ha hs hs'
    exact ⟨τ, τ', h1, h2, fun x hx => h3 x (hx.imp id fun h => ⟨h.2, Or.inl h.1⟩), h4, h5⟩
  | .for_ _ _ _ _ _, hg, _ => hg.elim
  | .ret _, hg, _ => hg.elim
  | .brk, hg, _ => hg.elim
  | .other _, hg, _ => hg.elim
theorem execs_det (W : VarId → Nat) (ι : Nat → St → St) (A : VarId → Prop) : ∀ (st : Stmts), CombStmts W st →
    ReadsInS A st → Det (st.exec ι) A (fun x => MustS x st) W
  | .nil, _, _ => by
    intro σ σ' N ha hs hs'
    exact ⟨σ, σ', rfl, rfl, fun x hx => ha x (hx.resolve_right (fun h => h)), hs, hs'⟩
  | .cons s ss, hg, hr => by
    intro σ σ' N ha hs hs'
    obtain ⟨τ, τ', h1, h2, h3, h4, h5⟩ := exec_det W ι A s hg.1 hr.1 σ σ' N ha hs hs'
    have h6 := execs_det W ι (fun x => A x ∨ Must x s) ss hg.2 (ReadsInS.mono (fun x hx => Or.inl hx) ss hr.2)
    obtain ⟨ρ, ρ', k1, k2, k3, k4, k5⟩ := h6 τ τ' N h3 h4 h5
    refine ⟨ρ, ρ', by simp only [Stmts.exec]; rw [h1, k1], by simp only [Stmts.exec]; rw [h2, k2], ?_, k4, k5⟩
    intro x hx
    apply k3 x
    rcases hx with hx | hx | hx
    · exact Or.inl (Or.inl hx)
    · exact Or.inl (Or.inr hx)
    · exact Or.inr hx
theorem cases_det (W : VarId → Nat) (ι : Nat → St → St) (A : VarId → Prop) (w v : Nat) : ∀ (cs : Cases) (k : St → St)
    (K : VarId → Prop), CombCases W cs → ReadsInC A cs → Det k A K W →
    Det (cs.exec ι w v k) A (fun x => MustC x cs ∧ (hasDefault cs = true ∨ K x)) W
  | .nil, k, K, _, _, hk => by
    intro σ σ' N ha hs hs'
    obtain ⟨τ, τ', h1, h2, h3, h4, h5⟩ := hk σ σ' N ha hs hs'
    exact ⟨τ, τ', by simp only [Cases.exec]; exact h1, by simp only [Cases.exec]; exact h2,
      fun x hx => h3 x (hx.imp id fun h => h.2.resolve_left (by simp [hasDefault])), h4, h5⟩
  | .cons none b cs, k, K, hg, hr, hk => by
    intro σ σ' N ha hs hs'
    obtain ⟨τ, τ', h1, h2, h3, h4, h5⟩ := cases_det W ι A w v cs (fun st => b.exec ι st) (fun x => MustS x b) hg.2 hr.2
      (execs_det W ι A b hg.1 hr.1) σ σ' N ha hs hs'
    exact ⟨τ, τ', by simp only [Cases.exec]; exact h1, by simp only [Cases.exec]; exact h2,
      fun x hx => h3 x (hx.imp id fun h => ⟨h.1.2, Or.inr h.1.1⟩), h4, h5⟩
  | .cons (some c) b cs, k, K, hg, hr, hk => by
    intro σ σ' N ha hs hs'
    simp only [Cases.exec]
    by_cases hc : pattern w c = v
    · rw [if_pos hc, if_pos hc]
      obtain ⟨τ, τ', h1, h2, h3, h4, h5⟩ := execs_det W ι A b hg.1 hr.1 σ σ' N ha hs hs'
      exact ⟨τ, τ', h1, h2, fun x hx => h3 x (hx.imp id fun h => h.1.1), h4, h5⟩
    · rw [if_neg hc, if_neg hc]
      obtain ⟨τ, τ', h1, h2, h3, h4, h5⟩ := cases_det W ι A w v cs k K hg.2 hr.2 hk σ σ' N ha hs hs'
      exact ⟨τ, τ', h1, h2, fun x hx => h3 x (hx.imp id fun h => ⟨h.1.2, h.2⟩), h4, h5⟩
end

/-- Combinational logic without loops and latches: what is read ranks below what is assigned, and
`always_comb` blocks assign their targets on every path. -/
structure Acyclic (ps : List Proc) (rank : VarId → Nat) : Prop where
  below : ∀ pr ∈ ps, pr.isSeq = false → ∀ x ∈ pr.writes, ∀ y ∈ pr.deps, rank y < rank x
  full : ∀ b, .comb b ∈ ps → ∀ x ∈ stmtsWrites b, MustS x b

/-- In an acyclic design the values of the undriven variables and of the registers determine all
others. -/
theorem solution_unique (ι : Nat → St → St) {W : VarId → Nat} {ps : List Proc} {rank : VarId → Nat} (hA : Acyclic ps rank)
    (hS : ∀ pr ∈ ps, ProcShape W pr) (hdep : ∀ pr ∈ ps, DepsCover pr) {σ σ' : Store}
    (h1 : ∀ x, σ x < 2 ^ W x) (h2 : ∀ x, σ' x < 2 ^ W x)
    (hin : ∀ x, (∀ pr ∈ ps, pr.isSeq = false → x ∉ pr.writes) → σ x = σ' x)
    (hs : ∀ pr ∈ ps, Solves ι σ pr) (hs' : ∀ pr ∈ ps, Solves ι σ' pr) : σ = σ' := by
  have key : ∀ n x, rank x < n → σ x = σ' x := by
    intro n
    induction n with
    | zero => intro x h; omega
    | succ n ih =>
      intro x hx
      rcases Classical.em (∃ pr ∈ ps, pr.isSeq = false ∧ x ∈ pr.writes) with ⟨pr, hp, hq, hw⟩ | hn
      · have hlow : ∀ y ∈ pr.deps, σ y = σ' y := fun y hy => ih y (by
          have := hA.below pr hp hq x hw y hy; omega)
        cases pr with
        | seq _ _ => cases hq
        | assign l r =>
          have e : x = l.v := by simpa [Proc.writes] using hw
          subst e
          rw [hs _ hp, hs' _ hp]
          exact Expr.eval_congr _ (fun y hy => hlow y ((hdep _ hp).1 y hy))
        | comb b =>
          obtain ⟨τ, τ', k1, k2, k3, -, -⟩ := execs_det W ι (· ∈ stmtsDeps b) b (hS _ hp) (hdep _ hp) σ σ' [] hlow h1 h2
          have e1 := hs _ hp []
          have e2 := hs' _ hp []
          rw [k1] at e1; rw [k2] at e2
          injection e1 with e1 _ _
          injection e2 with e2 _ _
          rw [← e1, ← e2]
          exact k3 x (Or.inr (hA.full b hp x hw))
      · exact hin x (fun pr hp hq hw => hn ⟨pr, hp, hq, hw⟩)
  funext x
  exact key _ x (Nat.lt_succ_self _)

/-- **C54, order independence (proved part).**  Two simulations of the same acyclic design - with
whatever iteration orders and after whatever histories - that end with all variables of the design known and agree on the
undriven variables and registers, agree everywhere. -/
theorem settle_order_independent {D D' : Design} {U : VarId → Prop} (hU : Covers D U) (hp : D.procs = D'.procs) (hw : D.width = D'.width)
    (hD : Clean D) (hD' : Clean D') (hQ : Quiet D) (hQ' : Quiet D') {rank : VarId → Nat} (hA : Acyclic D.procs rank)
    (hC : ∀ (p : Nat) pr, D.procs[p]? = some pr → ProcConds D.width pr)
    {s s' t t' : S} {n m : Nat} (h : Reached D s) (he : eval D n s = .ok s') (h' : Reached D' t)
    (he' : eval D' m t = .ok t') {σ σ' : Store} (hσ : Rep U s'.vals σ) (hσ' : Rep U t'.vals σ')
    (hin : ∀ x, (∀ pr ∈ D.procs, pr.isSeq = false → x ∉ pr.writes) → s'.vals x = t'.vals x) :
    s'.vals = t'.vals := by
  have mem : ∀ pr, pr ∈ D.procs → ∃ p, D.procs[p]? = some pr := fun pr h => List.mem_iff_getElem?.1 h
  have f1 := (reached_inv hD hQ (Reached.eval h he)).1
  have f2 := (reached_inv hD' hQ' (Reached.eval h' he')).1
  have hσσ : σ = σ' := by
    refine solution_unique (fun _ st => st) hA (W := D.width) ?_ ?_ ?_ ?_ ?_ ?_ ?_
    · intro pr hpr; obtain ⟨p, e⟩ := mem pr hpr; exact hD.shape p pr e
    · intro pr hpr; obtain ⟨p, e⟩ := mem pr hpr; exact hD.deps p pr e
    · exact hσ.lt f1
    · rw [hw]; exact hσ'.lt f2
    · intro x hx
      have hv := hin x hx
      rcases hσ x with ⟨u, hu, e⟩ | ⟨hu, e, _⟩ <;> rcases hσ' x with ⟨u', hu', e'⟩ | ⟨hu', e', _⟩
      · rw [hu, hu'] at hv
        injection hv with hv
        rw [← e, ← e', hv]
      · rw [hu, hu'] at hv; cases hv
      · rw [hu, hu'] at hv; cases hv
      · rw [e, e']
    · intro pr hpr; obtain ⟨p, e⟩ := mem pr hpr; exact settle_solves _ hD hQ hU hC h he hσ p pr e
    · intro pr hpr; obtain ⟨p, e⟩ := mem pr hpr
      exact settle_solves _ hD' hQ' (by rw [Covers, ← hp]; exact hU) (by rw [← hp, ← hw]; exact hC) h' he' hσ' p pr (by rw [← hp]; exact e)
  funext x
  rcases Classical.em (U x) with hx | hx
  · obtain ⟨u, hu, e⟩ := hσ.known hx
    obtain ⟨u', hu', e'⟩ := hσ'.known hx
    rw [hu, hu']
    congr 1
    apply BitVec.eq_of_toNat_eq
    rw [e, e', hσσ]
  · refine hin x fun pr hpr _ hw => hx ?_
    obtain ⟨p, e⟩ := mem pr hpr
    exact (hU p pr e).2 x hw

/-! ### A design the theorems cover

Variables (one bit each): 0 clock, 1 `a`, 2 `b`, 3 register `q`, 4 `y = a & q`, 5 `z` assigned by an
`always_comb` block with an `if`. -/

def demoProcs : List Proc :=
  [.assign ⟨4, 0, 1⟩ (.bin .and (.var 1 1) (.var 3 1)),
   .comb (.cons (.ite (.var 4 1) (.cons (.assign false ⟨5, 0, 1⟩ (.var 2 1)) .nil)
     (.cons (.assign false ⟨5, 0, 1⟩ (.var 1 1)) .nil)) .nil),
   .seq [(true, 0)] (.cons (.assign true ⟨3, 0, 1⟩ (.var 2 1)) .nil)]

def demo : Design := design demoProcs fun _ => 1

def demoRank : VarId → Nat := fun v => if v = 4 then 1 else if v = 5 then 2 else 0

theorem demo_cases {P : Proc → Prop} (h0 : P (.assign ⟨4, 0, 1⟩ (.bin .and (.var 1 1) (.var 3 1))))
    (h1 : P (.comb (.cons (.ite (.var 4 1) (.cons (.assign false ⟨5, 0, 1⟩ (.var 2 1)) .nil)
      (.cons (.assign false ⟨5, 0, 1⟩ (.var 1 1)) .nil)) .nil)))
    (h2 : P (.seq [(true, 0)] (.cons (.assign true ⟨3, 0, 1⟩ (.var 2 1)) .nil))) :
    ∀ (p : Nat) pr, demo.procs[p]? = some pr → P pr := by
  intro p pr h
  match p, h with
  | 0, h => injection h with h; subst h; exact h0
  | 1, h => injection h with h; subst h; exact h1
  | 2, h => injection h with h; subst h; exact h2
  | n + 3, h => simp [demo, design, demoProcs] at h

theorem demo_clean : Clean demo where
  ok := design_ok _ _
  width := fun _ => ⟨Nat.le_refl _, show 1 ≤ 63 by decide⟩
  shape := demo_cases (by simp [ProcShape, asBlock, CombStmts, CombStmt, Good, demo, design, Expr.width])
    (by simp [ProcShape, CombStmts, CombStmt, Good, demo, design, Expr.width])
    (by simp [ProcShape, RegStmts, RegStmt, Good, demo, design, Expr.width])
  deps := demo_cases (by
    simp only [DepsCover, asBlock, ReadsInS, ReadsIn, exprDeps, Expr.reads]
    refine ⟨fun x hx => ?_, trivial⟩
    simp only [Bool.or_eq_true, decide_eq_true_eq, beq_iff_eq] at hx
    rcases hx with rfl | rfl <;> simp)
    (by simp [DepsCover, ReadsInS, ReadsIn, stmtsDeps, stmtDeps, exprDeps, Expr.reads]) trivial
  idem := demo_cases trivial (idem_of_no_own_reads
    (by simp [CombStmts, CombStmt, Good, demo, design, Expr.width])
    (by simp [ReadsInS, ReadsIn, stmtsWrites, stmtWrites, Expr.reads])) trivial
  single := by
    intro p q pr qr hp hq hne x
    match p, q, hp, hq with
    | 0, 0, _, _ => exact absurd rfl hne
    | 1, 1, _, _ => exact absurd rfl hne
    | 2, 2, _, _ => exact absurd rfl hne
    | 0, 1, hp, hq | 0, 2, hp, hq | 1, 0, hp, hq | 1, 2, hp, hq | 2, 0, hp, hq | 2, 1, hp, hq =>
      injection hp with hp; injection hq with hq; subst hp; subst hq
      simp only [Proc.writes, stmtsWrites, stmtWrites, List.append_nil, List.mem_append, List.mem_singleton, List.mem_cons,
        List.not_mem_nil, or_false]
      rintro h h'
      try simp only [or_self] at h h'
      rw [h] at h'
      revert h'
      decide
    | n + 3, _, hp, _ => simp [demo, design, demoProcs] at hp
    | _, n + 3, _, hq => simp [demo, design, demoProcs] at hq

theorem demo_quiet : Quiet demo :=
  demo_cases (fun _ => rfl) (fun _ => rfl) (fun _ => trivial)

theorem demo_acyclic : Acyclic demo.procs demoRank where
  below := by
    intro pr h
    simp only [demo, design, demoProcs, List.mem_cons, List.not_mem_nil, or_false] at h
    rcases h with rfl | rfl | rfl <;>
      simp [Proc.isSeq, Proc.writes, Proc.deps, stmtsWrites, stmtWrites, exprDeps, stmtsDeps, stmtDeps, demoRank]
  full := by
    intro b h
    simp only [demo, design, demoProcs, List.mem_cons, List.not_mem_nil, or_false, reduceCtorEq, false_or,
      Proc.comb.injEq] at h
    subst h
    simp [stmtsWrites, stmtWrites, MustS, Must]

/-- Setting inputs, then clocking the register: everything propagates. -/
example : ((((set demo 9 1 1 ⟨fun _ => none, [], 0⟩).bind fun s => set demo 9 2 0 s).bind fun s => set demo 9 0 0 s).bind
    fun s => (set demo 9 2 1 s).bind fun s => set demo 9 0 1 s).bind (fun s => .ok (s.vals 3, s.vals 4, s.vals 5)) =
    .ok (some 1, some 1, some 1) := by decide +kernel

example : ∃ s, Reached demo s ∧ ∃ s', eval demo 9 s = .ok s' ∧ s'.vals 5 = some 1 := by
  refine ⟨setWhole demo none 1 1 ⟨fun _ => none, [], 0⟩, ?_, ?_⟩
  · refine Reached.poke (Reached.init (ps := []) (by simp) ?_ rfl) ?_ (by decide)
    · intro p pr hp hpu
      have := demo_cases (P := fun pr => isPullUp pr = false) rfl rfl rfl p pr hp
      rw [this] at hpu; cases hpu
    · exact demo_cases (by simp [Proc.writes]) (by simp [Proc.writes, stmtsWrites, stmtWrites])
        (by simp [Proc.writes, stmtsWrites, stmtWrites])
  · have : (eval demo 9 (setWhole demo none 1 1 ⟨fun _ => none, [], 0⟩)).bind (fun s => .ok (s.vals 5)) = .ok (some 1) := by
      decide +kernel
    rw [Res.bind_eq_ok] at this
    obtain ⟨s', h1, h2⟩ := this
    injection h2 with h2
    exact ⟨s', h1, h2⟩

theorem demo_covers : Covers demo (· < 6) :=
  demo_cases (by
      simp only [Proc.block, Proc.writes, asBlock, ReadsInS, ReadsIn, Expr.reads, Bool.or_eq_true, beq_iff_eq, List.mem_singleton]
      refine ⟨⟨fun x hx => ?_, trivial⟩, fun x hx => ?_⟩
      · rcases hx with rfl | rfl <;> decide
      · subst hx; decide)
    (by simp [Proc.block, Proc.writes, ReadsInS, ReadsIn, Expr.reads, stmtsWrites, stmtWrites])
    (by simp [Proc.block, Proc.writes, ReadsInS, ReadsIn, Expr.reads, stmtsWrites, stmtWrites])

theorem demo_conds : ∀ (p : Nat) pr, demo.procs[p]? = some pr → ProcConds demo.width pr :=
  demo_cases trivial (by simp [ProcConds, CondsGoodS, CondsGood, Good, demo, design]) trivial

theorem demo_undriven {v : VarId} (hv : v < 3) : Undriven demo v :=
  demo_cases (by simp [Proc.writes]; rintro rfl; exact absurd hv (by decide))
    (by simp [Proc.writes, stmtsWrites, stmtWrites]; rintro rfl; exact absurd hv (by decide))
    (by simp [Proc.writes, stmtsWrites, stmtWrites]; rintro rfl; exact absurd hv (by decide))

/-- The inputs and the clock of the demo, set and evaluated one after the other. -/
def demoRun (n : Nat) : List (VarId × U64) → S → Res S
  | [], s => .ok s
  | (v, x) :: l, s => (set demo n v x s).bind fun s => demoRun n l s

theorem demoRun_reached {n : Nat} : ∀ (l : List (VarId × U64)) (s s' : S), Reached demo s → (∀ e ∈ l, e.1 < 3 ∧ e.2.toNat < 2) →
    demoRun n l s = .ok s' → Reached demo s'
  | [], s, s', hr, _, h => by injection h with h; subst h; exact hr
  | (v, x) :: l, s, s', hr, hl, h => by
    simp only [demoRun, Res.bind_eq_ok] at h
    obtain ⟨a, ha, h⟩ := h
    have := hl (v, x) (List.mem_cons_self ..)
    exact demoRun_reached l a s' (.eval (.poke hr (demo_undriven this.1) (by simpa [demo, design] using this.2)) ha)
      (fun e he => hl e (List.mem_cons_of_mem _ he)) h

theorem demo_init : Reached demo ⟨fun _ => none, [], 0⟩ := by
  refine Reached.init (ps := []) (by simp) ?_ rfl
  intro p pr hp hpu
  have := demo_cases (P := fun pr => isPullUp pr = false) rfl rfl rfl p pr hp
  rw [this] at hpu; cases hpu

theorem rep_of_known {U : VarId → Prop} {vals : Vals} (h : ∀ x, U x → vals x ≠ none) :
    Rep U vals fun x => ((vals x).map (·.toNat)).getD 0 := by
  intro x
  cases hv : vals x with
  | some u => exact Or.inl ⟨u, rfl, by simp [hv]⟩
  | none => exact Or.inr ⟨rfl, by simp [hv], fun hu => h x hu hv⟩

/-- The hypotheses of `settle_solves` are met: after these settings all six variables are known. -/
theorem demo_known : ∃ s s' σ, Reached demo s ∧ eval demo 9 s = .ok s' ∧ Rep (· < 6) s'.vals σ ∧ σ 3 = 1 ∧ σ 4 = 1 := by
  have : (demoRun 9 [(1, 1), (2, 1), (0, 0), (0, 1)] ⟨fun _ => none, [], 0⟩).bind (fun s => (eval demo 9 s).bind fun s' =>
      .ok ((List.range 6).map s'.vals)) = .ok [some 1, some 1, some 1, some 1, some 1, some 1] := by decide +kernel
  simp only [Res.bind_eq_ok] at this
  obtain ⟨s, h1, s', h2, h3⟩ := this
  injection h3 with h3
  simp only [List.range, List.range.loop, List.map_cons, List.map_nil, List.cons.injEq, and_true] at h3
  obtain ⟨k0, k1, k2, k3, k4, k5⟩ := h3
  refine ⟨s, s', _, demoRun_reached _ _ _ demo_init (by decide) h1, h2, rep_of_known ?_, by simp [k3], by simp [k4]⟩
  intro x hx
  match x, hx with
  | 0, _ => rw [k0]; simp
  | 1, _ => rw [k1]; simp
  | 2, _ => rw [k2]; simp
  | 3, _ => rw [k3]; simp
  | 4, _ => rw [k4]; simp
  | 5, _ => rw [k5]; simp
  | n + 6, h => exact absurd h (Nat.not_lt.2 (Nat.le_add_left 6 n))

/-! ### The full claim fails -/

/-- **Full claim C54**: for every design with properly typed processes and one driver per variable,
every evaluation that returns leaves all combinational processes stable. -/
def SettleClaim : Prop := ∀ (D : Design), D.Ok → (∀ v, 1 ≤ D.width v ∧ D.width v ≤ 63) →
  (∀ (p : Nat) pr, D.procs[p]? = some pr → ProcShape D.width pr ∧ Idem D pr) →
  (∀ (p q : Nat) pr qr, D.procs[p]? = some pr → D.procs[q]? = some qr → p ≠ q → ∀ x, x ∈ pr.writes → x ∉ qr.writes) →
  ∀ s s' n, Reached D s → eval D n s = .ok s' → ∀ (p : Nat) pr, D.procs[p]? = some pr → Stable D s'.vals pr

/-- `y = s ? a : b` with variables 1 `s`, 2 `a`, 3 `b`, 4 `y`. -/
def muxDesign : Design := design [.assign ⟨4, 0, 1⟩ (.cond (.var 1 1) (.var 2 1) (.var 3 1))] fun _ => 1

/-- The condition of a ternary is not a dependency: changing the select does not change the output. -/
theorem ternary_condition_ignored :
    ((((set muxDesign 9 2 1 ⟨fun _ => none, [], 0⟩).bind fun s => set muxDesign 9 1 1 s).bind fun s => set muxDesign 9 3 0 s).bind
      fun s => set muxDesign 9 1 0 s).bind (fun s => .ok (s.vals 4)) = .ok (some 1) := by decide +kernel

/-- `y = 1 + 1` (2 bits, variable 4): never evaluated, `y` stays unknown whatever is set. -/
def constDesign : Design := design [.assign ⟨4, 0, 2⟩ (.bin .add (.const 2 1) (.const 2 1))] fun _ => 2

theorem constant_expression_ignored (n : Nat) (s : S) (h : Reached constDesign s) : s.vals 4 = none := by
  have hno : ∀ v, constDesign.order v = [] := by
    intro v
    simp [constDesign, design, orderOf, Proc.deps, exprDeps, List.range, List.range.loop]
  have key : s.vals 4 = none ∧ s.q = [] := by
    induction h with
    | init h1 _ h3 =>
      rename_i ps _ _
      cases ps with
      | nil => injection h3 with h3; subst h3; exact ⟨rfl, rfl⟩
      | cons p ps =>
        obtain ⟨pr, hp, hpu⟩ := h1 p (List.mem_cons_self ..)
        match p, hp with
        | 0, hp => injection hp with hp; subst hp; cases hpu
        | n + 1, hp => simp [constDesign, design] at hp
    | poke _ hu _ ih =>
      rename_i s v x _ _
      have hv : v ≠ 4 := fun e => hu 0 _ rfl (by simp [Proc.writes, e])
      refine ⟨by rw [setWhole_vals]; simp [updV, Ne.symm hv, ih.1], ?_⟩
      unfold setWhole
      have ht : ∀ s' : S, s'.q = [] → (trigger constDesign none v s').q = [] := by
        intro s' h; simp [trigger, h, hno]
      split
      · split
        · exact ih.2
        · simp only; split
          · exact ht _ ih.2
          · exact ih.2
      · simp only; split
        · exact ih.2
        · exact ht _ ih.2
    | eval _ he ih =>
      rename_i s s' n _
      have : evalLoop constDesign n { s with depth := 0 } = .ok { s with depth := 0 } := by
        cases n <;> simp [evalLoop, ih.2]
      rw [show Sim.eval constDesign n s = evalLoop constDesign n { s with depth := 0 } from rfl, this] at he
      injection he with he; subst he; exact ih
  exact key.1

/-- Setting a one-bit variable to 2: the value is kept as it is, dependents are not told. -/
theorem oversized_value_not_told :
    (set demo 9 1 0 ⟨fun _ => none, [], 0⟩).bind (fun s => (set demo 9 1 2 s).bind fun s => .ok (s.vals 1, s.vals 5)) =
    .ok (some 2, some 0) := by decide +kernel

theorem not_SettleClaim : ¬ SettleClaim := by
  intro h
  have hr : Reached constDesign ⟨fun _ => none, [], 0⟩ := Reached.init (ps := []) (by simp) (by
    intro p pr hp
    match p, hp with
    | 0, hp => injection hp with hp; subst hp; intro h; cases h
    | n + 1, hp => simp [constDesign, design] at hp) rfl
  have := h constDesign (design_ok _ _) (fun _ => by simp [constDesign, design]) (by
    intro p pr hp
    match p, hp with
    | 0, hp =>
      injection hp with hp; subst hp
      exact ⟨by simp [ProcShape, asBlock, CombStmts, CombStmt, Good, constDesign, design, Expr.width, BinOp.isBool], trivial⟩
    | n + 1, hp => simp [constDesign, design] at hp) (by
    intro p q pr qr hp hq hne
    match p, q, hp, hq with
    | 0, 0, _, _ => exact absurd rfl hne
    | n + 1, _, hp, _ => simp [constDesign, design] at hp
    | _, n + 1, _, hq => simp [constDesign, design] at hq) _ _ 0 hr rfl 0 _ rfl
  simp only [Stable, vruns, vrun, Res.bind_eq_ok] at this
  obtain ⟨a, ⟨o, ho, ha⟩, e⟩ := this
  injection e with e
  subst e
  have hv : simE constDesign.cpow (fun _ => none) .value (.bin .add (.const 2 1) (.const 2 1)) = .ok (some 2) := by
    decide +kernel
  rw [hv] at ho
  injection ho with ho
  subst ho
  simp only [vset, Bool.false_eq_true, if_false] at ha
  rw [if_pos (by decide)] at ha
  simp only [Res.ok_bind] at ha
  injection ha with ha
  injection ha with ha _
  have := congrFun ha 4
  simp [updV] at this

end Kratos.Sim
