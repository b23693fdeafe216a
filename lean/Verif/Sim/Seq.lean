import Verif.Sim.Engine

/-!
# C53: a clock edge in the simulator behaves like SystemVerilog's non-blocking assignments

Specification: at the edge every triggered `always_ff` block is executed on the values before the
edge, the updates are collected in program order and applied at the end (`Stmts.exec`, `St.commit`).
-/

namespace Kratos.Sim

open Kratos.Ir

mutual
/-- A register block: non-blocking assignments of whole variables, conditionals and case
statements; operands are unsigned, properly sized and fit 63 bits; case targets are at most 32 bits
wide and labels fit them. -/
def RegStmt (W : VarId → Nat) : Stmt → Prop
  | .assign nb l r => nb = true ∧ l.lo = 0 ∧ l.len = W l.v ∧ r.width = W l.v ∧ Good W r
  | .ite c t e => Good W c ∧ RegStmts W t ∧ RegStmts W e
  | .switch tgt cs => Good W tgt ∧ tgt.width ≤ 32 ∧ RegCases W tgt.width cs
  | .for_ _ _ _ _ _ => False
  | .ret _ => False
  | .brk => False
  | .other _ => False
def RegStmts (W : VarId → Nat) : Stmts → Prop
  | .nil => True
  | .cons s ss => RegStmt W s ∧ RegStmts W ss
def RegCases (W : VarId → Nat) (w : Nat) : Cases → Prop
  | .nil => True
  | .cons k b cs => (∀ c, k = some c → 0 ≤ c ∧ c < 2 ^ w) ∧ RegStmts W b ∧ RegCases W w cs
end

mutual
/-- Everything the block reads has the value it has in `σ`. -/
def HoldsStmt (vals : Vals) (σ : Store) : Stmt → Prop
  | .assign _ _ r => Holds vals σ r
  | .ite c t e => Holds vals σ c ∧ HoldsStmts vals σ t ∧ HoldsStmts vals σ e
  | .switch tgt cs => Holds vals σ tgt ∧ HoldsCases vals σ cs
  | _ => True
def HoldsStmts (vals : Vals) (σ : Store) : Stmts → Prop
  | .nil => True
  | .cons s ss => HoldsStmt vals σ s ∧ HoldsStmts vals σ ss
def HoldsCases (vals : Vals) (σ : Store) : Cases → Prop
  | .nil => True
  | .cons _ b cs => HoldsStmts vals σ b ∧ HoldsCases vals σ cs
end

def pend (n : Nba) (L : List (LVal × Nat)) : Nba :=
  L.foldl (fun n e => nbaAdd n e.1 (BitVec.ofNat 64 e.2)) n

/-- What a run of a register block does: nothing to the values, and the updates that were collected
are those of the specification. -/
def Collects (W : VarId → Nat) (σ : Store) (s : S) (n : Nba) (out : S × Nba) (spec : St → St) : Prop :=
  ∃ L, (∀ N, spec ⟨σ, N, .run⟩ = ⟨σ, N ++ L, .run⟩) ∧ out = (s, pend n L) ∧
    ∀ e ∈ L, e.1.lo = 0 ∧ e.1.len = W e.1.v ∧ 1 ≤ W e.1.v ∧ W e.1.v ≤ 63 ∧ e.2 < 2 ^ W e.1.v

theorem caseBits_ok {w : Nat} {c : Int} (hw : w ≤ 32) (h0 : 0 ≤ c) (h1 : c < 2 ^ w) :
    caseBits w c = .ok (BitVec.ofNat 64 (pattern w c)) ∧ pattern w c < 2 ^ w := by
  obtain ⟨n, rfl⟩ : ∃ n : Nat, c = n := ⟨c.toNat, by omega⟩
  have hn : n < 2 ^ w := by exact_mod_cast h1
  have hp : pattern w (n : Int) = n := by
    unfold pattern
    rw [show ((2 : Int) ^ w) = ((2 ^ w : Nat) : Int) by simp, ← Int.natCast_emod, Int.toNat_natCast,
      Nat.mod_eq_of_lt hn]
  have h64 : (2 : Nat) ^ w ≤ 2 ^ (64 - w) := Nat.pow_le_pow_right (by omega) (by omega)
  have h65 : (2 : Nat) ^ w ≤ 2 ^ 64 := Nat.pow_le_pow_right (by omega) (by omega)
  refine ⟨?_, by rw [hp]; exact hn⟩
  unfold caseBits
  rw [Eval.shr_ok (by omega), Res.ok_bind, hp]
  congr 1
  apply BitVec.eq_of_toNat_eq
  rw [BitVec.ofInt_natCast, show w = 64 - (64 - w) by omega, Eval.and_mask_toNat (by omega)]
  simp only [BitVec.toNat_ofNat]
  rw [Nat.mod_eq_of_lt (show n < 2 ^ 64 by omega), Nat.mod_eq_of_lt (by omega)]

mutual
theorem run_collects (D : Design) (ι : Nat → St → St) (sc : Option Nat) (σ : Store) (s : S)
    (hσ : ∀ x, σ x < 2 ^ D.width x) : ∀ (st : Stmt) (n : Nba) (out : S × Nba), RegStmt D.width st →
    HoldsStmt s.vals σ st → run D sc st (s, n) = .ok out → Collects D.width σ s n out (st.exec ι)
  | .assign nb l r, n, out, hg, hh, h => by
    obtain ⟨rfl, h0, hl, hrw, hgr⟩ := hg
    have hr := sim_right D.cpow D.width s.vals σ hσ r hgr hh
    simp only [run, Res.bind_eq_ok] at h
    obtain ⟨a, ha, h⟩ := h
    cases a with
    | none => exact absurd ha hr.known
    | some x =>
      obtain ⟨e1, e2⟩ := hr.value x ha
      simp only [if_true] at h
      injection h with h
      refine ⟨[(l, r.eval σ)], fun N => by simp [Stmt.exec, guardRun], ?_, ?_⟩
      · rw [← h, ← e1]
        simp [pend]
      · intro e he
        rw [List.mem_singleton] at he
        subst he
        have := hgr.width
        rw [hrw] at this
        exact ⟨h0, hl, this.1, this.2, by rw [← hrw]; exact e2⟩
  | .ite c t e, n, out, hg, hh, h => by
    obtain ⟨hgc, hgt, hge⟩ := hg
    obtain ⟨hhc, hht, hhe⟩ := hh
    have hr := sim_right D.cpow D.width s.vals σ hσ c hgc hhc
    simp only [run, Res.bind_eq_ok] at h
    obtain ⟨a, ha, h⟩ := h
    cases a with
    | none => exact absurd ha hr.known
    | some x =>
      obtain ⟨e1, e2⟩ := hr.value x ha
      have hx : (some x).any (· != 0) = decide (c.eval σ ≠ 0) := by
        rw [← e1]
        simp only [Option.any_some]
        by_cases h0 : x = 0
        · subst h0; simp
        · have : x.toNat ≠ 0 := fun e => h0 (BitVec.eq_of_toNat_eq (by simpa using e))
          rw [decide_eq_true this]
          exact bne_iff_ne.2 h0
      rw [hx] at h
      split at h
      · rename_i hc
        rw [decide_eq_true_eq] at hc
        obtain ⟨L, hL, ho, hb⟩ := runs_collects D ι sc σ s hσ t n out hgt hht h
        exact ⟨L, fun N => by simp only [Stmt.exec, guardRun, if_true]; rw [if_pos hc]; exact hL N, ho, hb⟩
      · rename_i hc
        rw [decide_eq_true_eq] at hc
        obtain ⟨L, hL, ho, hb⟩ := runs_collects D ι sc σ s hσ e n out hge hhe h
        exact ⟨L, fun N => by simp only [Stmt.exec, guardRun, if_true]; rw [if_neg hc]; exact hL N, ho, hb⟩
  | .switch tgt cs, n, out, hg, hh, h => by
    obtain ⟨hgt, hw, hgc⟩ := hg
    obtain ⟨hht, hhc⟩ := hh
    have hr := sim_right D.cpow D.width s.vals σ hσ tgt hgt hht
    simp only [run, Res.bind_eq_ok] at h
    obtain ⟨a, ha, h⟩ := h
    cases a with
    | none => exact absurd ha hr.known
    | some x =>
      obtain ⟨e1, e2⟩ := hr.value x ha
      simp only at h
      obtain ⟨L, hL, ho, hb⟩ := runCases_collects D ι sc σ s hσ tgt.width x hw cs n .ok id out hgc hhc
        (fun out h => ⟨[], fun N => by simp, by injection h with h; rw [← h]; rfl, by simp⟩) h
      exact ⟨L, fun N => by simp only [Stmt.exec, guardRun, if_true]; rw [← e1]; exact hL N, ho, hb⟩
  | .for_ _ _ _ _ _, _, _, hg, _, _ => hg.elim
  | .ret _, _, _, hg, _, _ => hg.elim
  | .brk, _, _, hg, _, _ => hg.elim
  | .other _, _, _, hg, _, _ => hg.elim
theorem runs_collects (D : Design) (ι : Nat → St → St) (sc : Option Nat) (σ : Store) (s : S)
    (hσ : ∀ x, σ x < 2 ^ D.width x) : ∀ (b : Stmts) (n : Nba) (out : S × Nba), RegStmts D.width b →
    HoldsStmts s.vals σ b → runs D sc b (s, n) = .ok out → Collects D.width σ s n out (b.exec ι)
  | .nil, n, out, _, _, h => by
    injection h with h
    exact ⟨[], fun N => by simp [Stmts.exec], by rw [← h]; rfl, by simp⟩
  | .cons x xs, n, out, hg, hh, h => by
    simp only [runs, Res.bind_eq_ok] at h
    obtain ⟨a, ha, h⟩ := h
    obtain ⟨L1, h1, e1, b1⟩ := run_collects D ι sc σ s hσ x n a hg.1 hh.1 ha
    subst e1
    obtain ⟨L2, h2, e2, b2⟩ := runs_collects D ι sc σ s hσ xs (pend n L1) out hg.2 hh.2 h
    refine ⟨L1 ++ L2, fun N => ?_, ?_, ?_⟩
    · simp only [Stmts.exec]
      rw [h1 N, h2, List.append_assoc]
    · rw [e2]; simp [pend, List.foldl_append]
    · intro e he
      rcases List.mem_append.1 he with he | he
      · exact b1 e he
      · exact b2 e he
theorem runCases_collects (D : Design) (ι : Nat → St → St) (sc : Option Nat) (σ : Store) (s : S)
    (hσ : ∀ x, σ x < 2 ^ D.width x) (w : Nat) (v : U64) (hw : w ≤ 32) : ∀ (cs : Cases) (n : Nba)
    (k : S × Nba → Res (S × Nba)) (k' : St → St) (out : S × Nba), RegCases D.width w cs →
    HoldsCases s.vals σ cs → (∀ out, k (s, n) = .ok out → Collects D.width σ s n out k') →
    runCases D sc w v cs k (s, n) = .ok out → Collects D.width σ s n out (cs.exec ι w v.toNat k')
  | .nil, n, k, k', out, _, _, hk, h => by
    obtain ⟨L, hL, ho, hb⟩ := hk out h
    exact ⟨L, fun N => by simp only [Cases.exec]; exact hL N, ho, hb⟩
  | .cons none b cs, n, k, k', out, hg, hh, hk, h => by
    simp only [runCases] at h
    obtain ⟨L, hL, ho, hb⟩ := runCases_collects D ι sc σ s hσ w v hw cs n _ (fun st => b.exec ι st) out hg.2.2 hh.2
      (fun out h => runs_collects D ι sc σ s hσ b n out hg.2.1 hh.1 h) h
    exact ⟨L, fun N => by simp only [Cases.exec]; exact hL N, ho, hb⟩
  | .cons (some c) b cs, n, k, k', out, hg, hh, hk, h => by
    obtain ⟨h0, h1⟩ := hg.1 c rfl
    obtain ⟨hcb, hcl⟩ := caseBits_ok hw h0 h1
    simp only [runCases, hcb, Res.ok_bind] at h
    have h65 : (2 : Nat) ^ w ≤ 2 ^ 64 := Nat.pow_le_pow_right (by omega) (by omega)
    split at h
    · rename_i e
      obtain ⟨L, hL, ho, hb⟩ := runs_collects D ι sc σ s hσ b n out hg.2.1 hh.1 h
      have e' : pattern w c = v.toNat := by
        rw [e, BitVec.toNat_ofNat, Nat.mod_eq_of_lt (by omega)]
      exact ⟨L, fun N => by simp only [Cases.exec]; rw [if_pos e']; exact hL N, ho, hb⟩
    · rename_i e
      obtain ⟨L, hL, ho, hb⟩ := runCases_collects D ι sc σ s hσ w v hw cs n k k' out hg.2.2 hh.2 hk h
      have e' : pattern w c ≠ v.toNat := by
        intro e'
        apply e
        apply BitVec.eq_of_toNat_eq
        rw [BitVec.toNat_ofNat, e', Nat.mod_eq_of_lt v.isLt]
      exact ⟨L, fun N => by simp only [Cases.exec]; rw [if_neg e']; exact hL N, ho, hb⟩
end

/-! ### The pending updates -/

/-- The earliest update of a variable. -/
def earliest (L : List (LVal × Nat)) (x : VarId) : Option Nat :=
  (L.find? fun e => decide (e.1.v = x)).map Prod.snd

/-- The latest update of a variable. -/
def latest (L : List (LVal × Nat)) (x : VarId) : Option Nat := earliest L.reverse x

def lookV (n : Nba) (x : VarId) : Option U64 := (n.find? fun e => decide (e.1.v = x)).map Prod.snd

theorem pend_spec (W : VarId → Nat) : ∀ (L : List (LVal × Nat)) (n : Nba),
    (∀ e ∈ L, e.1.lo = 0 ∧ e.1.len = W e.1.v) → (∀ e ∈ n, e.1.lo = 0 ∧ e.1.len = W e.1.v) →
    (n.map fun e => e.1.v).Nodup →
    ((pend n L).map fun e => e.1.v).Nodup ∧ (∀ e ∈ pend n L, e.1.lo = 0 ∧ e.1.len = W e.1.v) ∧
    ∀ x, lookV (pend n L) x = (lookV n x).or ((earliest L x).map (BitVec.ofNat 64))
  | [], n, _, hn, hd => ⟨hd, hn, fun x => by simp [pend, earliest]⟩
  | (l, u) :: L, n, hL, hn, hd => by
    have hl := hL (l, u) (List.mem_cons_self ..)
    have hL' : ∀ e ∈ L, e.1.lo = 0 ∧ e.1.len = W e.1.v := fun e he => hL e (List.mem_cons_of_mem _ he)
    have hp : pend n ((l, u) :: L) = pend (nbaAdd n l (BitVec.ofNat 64 u)) L := rfl
    rw [hp]
    unfold nbaAdd
    split
    · rename_i hany
      rw [List.any_eq_true] at hany
      obtain ⟨e, he, hel⟩ := hany
      rw [decide_eq_true_eq] at hel
      obtain ⟨h1, h2, h3⟩ := pend_spec W L n hL' hn hd
      refine ⟨h1, h2, fun x => ?_⟩
      rw [h3 x]
      by_cases hx : l.v = x
      · have : (lookV n x).isSome = true := by
          simp only [lookV, Option.isSome_map, List.find?_isSome]
          exact ⟨e, he, by rw [hel]; simpa using hx⟩
        obtain ⟨y, hy⟩ := Option.isSome_iff_exists.1 this
        rw [hy]; simp
      · simp [earliest, hx]
    · rename_i hany
      have hnew : ∀ e ∈ n, e.1.v ≠ l.v := by
        intro e he hv
        apply hany
        rw [List.any_eq_true]
        refine ⟨e, he, ?_⟩
        rw [decide_eq_true_eq]
        have := hn e he
        obtain ⟨⟨v, lo, len⟩, y⟩ := e
        obtain ⟨v', lo', len'⟩ := l
        simp only at this hv hl ⊢
        subst hv
        rw [this.1, this.2, hl.1, hl.2]
      obtain ⟨h1, h2, h3⟩ := pend_spec W L (n ++ [(l, BitVec.ofNat 64 u)]) hL' (by
        intro e he
        rcases List.mem_append.1 he with he | he
        · exact hn e he
        · rw [List.mem_singleton] at he; subst he; exact hl) (by
        rw [List.map_append, List.nodup_append]
        refine ⟨hd, by simp, ?_⟩
        intro a ha b hb
        simp only [List.map_cons, List.map_nil, List.mem_singleton] at hb
        subst hb
        simp only [List.mem_map] at ha
        obtain ⟨e, he, rfl⟩ := ha
        exact hnew e he)
      refine ⟨h1, h2, fun x => ?_⟩
      rw [h3 x]
      simp only [lookV, earliest, List.find?_append, List.find?_cons, List.find?_nil]
      cases hf : n.find? (fun e => decide (e.1.v = x)) with
      | some y => simp
      | none =>
        by_cases hx : l.v = x
        · simp [hx]
        · simp [hx]

theorem commit_vals (D : Design) : ∀ (P : Nba) (s s' : S),
    (∀ e ∈ P, e.1.lo = 0 ∧ e.1.len = D.width e.1.v) → (P.map fun e => e.1.v).Nodup →
    commit D P s = .ok s' → ∀ x, s'.vals x = (lookV P x).or (s.vals x)
  | [], s, s', _, _, h => by injection h with h; subst h; simp [lookV]
  | (l, u) :: P, s, s', hw, hd, h => by
    have hl := hw (l, u) (List.mem_cons_self ..)
    simp only [commit, setLVal] at h
    rw [if_pos hl, Res.ok_bind] at h
    rw [List.map_cons, List.nodup_cons] at hd
    intro x
    rw [commit_vals D P _ s' (fun e he => hw e (List.mem_cons_of_mem _ he)) hd.2 h x, setWhole_vals]
    simp only [lookV, List.find?_cons]
    by_cases hx : l.v = x
    · subst hx
      have : P.find? (fun e => decide (e.1.v = l.v)) = none := by
        rw [List.find?_eq_none]
        intro e he hv
        apply hd.1
        rw [List.mem_map]
        exact ⟨e, he, by simpa using hv⟩
      rw [this]; simp [updV]
    · have hx' : x ≠ l.v := fun e => hx e.symm
      simp [hx, updV, hx']

theorem commit_ok (D : Design) : ∀ (P : Nba) (s : S),
    (∀ e ∈ P, e.1.lo = 0 ∧ e.1.len = D.width e.1.v) → ∃ s', commit D P s = .ok s'
  | [], s, _ => ⟨s, rfl⟩
  | (l, u) :: P, s, hw => by
    have hl := hw (l, u) (List.mem_cons_self ..)
    simp only [commit, setLVal]
    rw [if_pos hl, Res.ok_bind]
    exact commit_ok D P _ (fun e he => hw e (List.mem_cons_of_mem _ he))

theorem nodup_map_inj {α β : Type} {f : α → β} : ∀ {l : List α}, (l.map f).Nodup → ∀ {a b : α}, a ∈ l → b ∈ l →
    f a = f b → a = b
  | [], _, _, _, ha, _, _ => by cases ha
  | x :: l, h, a, b, ha, hb, e => by
    rw [List.map_cons, List.nodup_cons] at h
    rcases List.mem_cons.1 ha with rfl | ha' <;> rcases List.mem_cons.1 hb with rfl | hb'
    · rfl
    · exact absurd (List.mem_map.2 ⟨b, hb', e.symm⟩) h.1
    · exact absurd (List.mem_map.2 ⟨a, ha', e⟩) h.1
    · exact nodup_map_inj h.2 ha' hb' e

theorem lookV_perm {P Q : Nba} (hp : P.Perm Q) (hd : (Q.map fun e => e.1.v).Nodup) (x : VarId) :
    lookV P x = lookV Q x := by
  have key : ∀ {A B : Nba}, A.Perm B → (A.map fun e => e.1.v).Nodup → ∀ u, lookV A x = some u → lookV B x = some u := by
    intro A B hp hd u h
    simp only [lookV, Option.map_eq_some_iff] at h
    obtain ⟨e, he, hu⟩ := h
    have hm := List.mem_of_find?_eq_some he
    have hv := List.find?_some he
    simp only [decide_eq_true_eq] at hv
    simp only [lookV, Option.map_eq_some_iff]
    refine ⟨e, ?_, hu⟩
    cases hf : B.find? (fun e => decide (e.1.v = x)) with
    | none =>
      rw [List.find?_eq_none] at hf
      exact absurd hv (by simpa using hf e (hp.mem_iff.1 hm))
    | some e' =>
      have hm' := hp.mem_iff.2 (List.mem_of_find?_eq_some hf)
      have hv' := List.find?_some hf
      simp only [decide_eq_true_eq] at hv'
      have : e' = e := by
        exact nodup_map_inj hd hm' hm (by rw [hv', hv])
      rw [this]
  have hdP : (P.map fun e => e.1.v).Nodup := ((hp.map _).nodup_iff).2 hd
  cases h : lookV Q x with
  | some u => exact key hp.symm hd u h
  | none =>
    cases h' : lookV P x with
    | none => rfl
    | some u => rw [key hp hdP u h'] at h; cases h

/-- **What an edge does (proved part of C53, exact form).**  A triggered register block, whose inputs
are known: every variable ends with its *earliest* update of the specification's list, and otherwise
keeps its value; all right sides were read from the values before the edge.  This does not depend on
the order in which the pending values are stored. -/
theorem seq_exact (D : Design) (hD : D.Ok) (ι : Nat → St → St) (p : Nat) (clk : VarId)
    (evs : List (Bool × VarId)) (b : Stmts) (s s' : S) (σ : Store) (hσ : ∀ x, σ x < 2 ^ D.width x)
    (hg : RegStmts D.width b) (hh : HoldsStmts s.vals σ b) (ht : triggered s.vals evs clk = true)
    (h : runProc D p clk (.seq evs b) s = .ok s') :
    (b.exec ι ⟨σ, [], .run⟩).val = σ ∧
    ∀ x, s'.vals x = ((earliest (b.exec ι ⟨σ, [], .run⟩).nba x).map (BitVec.ofNat 64)).or (s.vals x) := by
  simp only [runProc, ht, if_true, Res.bind_eq_ok] at h
  obtain ⟨a, ha, h⟩ := h
  obtain ⟨L, hL, rfl, hb⟩ := runs_collects D ι none σ s hσ b [] a hg hh ha
  have hsp := hL []
  simp only [List.nil_append] at hsp
  rw [hsp]
  refine ⟨rfl, fun x => ?_⟩
  obtain ⟨h1, h2, h3⟩ := pend_spec D.width L [] (fun e he => ⟨(hb e he).1, (hb e he).2.1⟩) (by simp) (by simp)
  have hperm := hD.nba (pend [] L)
  rw [commit_vals D _ _ _ (fun e he => h2 e (hperm.mem_iff.1 he)) (((hperm.map _).nodup_iff).2 h1) h x,
    lookV_perm hperm h1 x, h3 x]
  simp [lookV]

/-- With whole, distinct-or-not updates the specification leaves the latest update. -/
theorem spec_commit (σ : Store) (W : VarId → Nat) (hσ : ∀ x, σ x < 2 ^ W x) : ∀ (L : List (LVal × Nat)),
    (∀ e ∈ L, e.1.lo = 0 ∧ e.1.len = W e.1.v ∧ e.2 < 2 ^ W e.1.v) →
    (∀ x, (St.commit ⟨σ, L, .run⟩) x = (latest L x).getD (σ x)) := by
  intro L
  have key : ∀ (L : List (LVal × Nat)) (σ : Store), (∀ x, σ x < 2 ^ W x) →
      (∀ e ∈ L, e.1.lo = 0 ∧ e.1.len = W e.1.v ∧ e.2 < 2 ^ W e.1.v) →
      ∀ x, (L.foldl (fun σ p => σ.write p.1 p.2) σ) x = (latest L x).getD (σ x) := by
    intro L
    induction L with
    | nil => intro σ _ _ x; simp [latest, earliest]
    | cons e L ih =>
      intro σ hσ hL x
      obtain ⟨h0, hl, hv⟩ := hL e (List.mem_cons_self ..)
      have hwr : ∀ y, σ.write e.1 e.2 y = if y = e.1.v then e.2 else σ y := by
        intro y
        unfold Store.write
        split
        · rename_i hy
          rw [h0, hl]
          unfold setBits
          rw [hy, Nat.zero_add, Nat.div_eq_of_lt (hσ _), Nat.mod_eq_of_lt hv]
          simp [Nat.mod_one]
        · rfl
      rw [List.foldl_cons, ih _ (by
        intro y; rw [hwr]; split
        · rename_i hy; rw [hy]; exact hv
        · exact hσ y) (fun e he => hL e (List.mem_cons_of_mem _ he)) x, hwr]
      simp only [latest, earliest, List.reverse_cons, List.find?_append, List.find?_cons, List.find?_nil]
      cases hf : L.reverse.find? (fun e => decide (e.1.v = x)) with
      | some y => simp
      | none =>
        by_cases hx : e.1.v = x
        · simp [hx]
        · have hx' : x ≠ e.1.v := fun e => hx e.symm
          simp [hx, hx']
  exact fun hL x => key L σ hσ hL x

theorem earliest_latest {L : List (LVal × Nat)} (hd : (L.map fun e => e.1.v).Nodup) (x : VarId) :
    earliest L x = latest L x := by
  unfold latest
  induction L with
  | nil => rfl
  | cons e L ih =>
    rw [List.map_cons, List.nodup_cons] at hd
    have ih := ih hd.2
    simp only [earliest, List.reverse_cons, List.find?_append, List.find?_cons, List.find?_nil] at ih ⊢
    by_cases hx : e.1.v = x
    · have : L.reverse.find? (fun e => decide (e.1.v = x)) = none := by
        rw [List.find?_eq_none]
        intro e' he' hv
        apply hd.1
        rw [List.mem_map]
        exact ⟨e', List.mem_reverse.1 he', by rw [hx]; simpa using hv⟩
      rw [this]; simp [hx]
    · simp only [hx, decide_false]
      rw [ih]
      simp

/-- **C53 (proved part).**  A triggered register block that updates no variable twice: afterwards
every updated variable has exactly the value SystemVerilog's non-blocking semantics gives it, and every
other variable is unchanged. -/
theorem seq_partial (D : Design) (hD : D.Ok) (ι : Nat → St → St) (p : Nat) (clk : VarId)
    (evs : List (Bool × VarId)) (b : Stmts) (s s' : S) (σ : Store) (hσ : ∀ x, σ x < 2 ^ D.width x)
    (hg : RegStmts D.width b) (hh : HoldsStmts s.vals σ b) (ht : triggered s.vals evs clk = true)
    (honce : ((b.exec ι ⟨σ, [], .run⟩).nba.map fun e => e.1.v).Nodup)
    (h : runProc D p clk (.seq evs b) s = .ok s') :
    ∀ x, if x ∈ (b.exec ι ⟨σ, [], .run⟩).nba.map (fun e => e.1.v)
      then ∃ u, s'.vals x = some u ∧ u.toNat = (b.exec ι ⟨σ, [], .run⟩).commit x
      else s'.vals x = s.vals x ∧ (b.exec ι ⟨σ, [], .run⟩).commit x = σ x := by
  obtain ⟨-, hx⟩ := seq_exact D hD ι p clk evs b s s' σ hσ hg hh ht h
  simp only [runProc, ht, if_true, Res.bind_eq_ok] at h
  obtain ⟨a, ha, h⟩ := h
  obtain ⟨L, hL, rfl, hb⟩ := runs_collects D ι none σ s hσ b [] a hg hh ha
  have hsp := hL []
  simp only [List.nil_append] at hsp
  rw [hsp] at hx honce ⊢
  simp only at hx honce ⊢
  intro x
  rw [hx x, spec_commit σ D.width hσ L (fun e he => ⟨(hb e he).1, (hb e he).2.1, (hb e he).2.2.2.2⟩) x,
    ← earliest_latest honce x]
  split
  · rename_i hm
    rw [List.mem_map] at hm
    obtain ⟨e, he, hv⟩ := hm
    have : (earliest L x).isSome = true := by
      simp only [earliest, Option.isSome_map, List.find?_isSome]
      exact ⟨e, he, by simpa using hv⟩
    obtain ⟨y, hy⟩ := Option.isSome_iff_exists.1 this
    rw [hy]
    refine ⟨BitVec.ofNat 64 y, by simp, ?_⟩
    simp only [earliest, Option.map_eq_some_iff] at hy
    obtain ⟨e', he', hy⟩ := hy
    obtain ⟨-, -, h1, h63, hlt⟩ := hb e' (List.mem_of_find?_eq_some he')
    have := Eval.two_pow_le_64 (show D.width e'.1.v ≤ 64 by omega)
    rw [Option.getD_some, BitVec.toNat_ofNat, ← hy, Nat.mod_eq_of_lt (by omega)]
  · rename_i hm
    have : earliest L x = none := by
      simp only [earliest, Option.map_eq_none_iff, List.find?_eq_none]
      intro e he hv
      apply hm
      rw [List.mem_map]
      exact ⟨e, he, by simpa using hv⟩
    rw [this]
    simp

/-- A block that is not triggered does nothing. -/
theorem seq_not_triggered (D : Design) (p : Nat) (v : VarId) (evs : List (Bool × VarId)) (b : Stmts) (s : S)
    (ht : triggered s.vals evs v = false) : runProc D p v (.seq evs b) s = .ok s := by
  simp [runProc, ht]

/-- An edge is seen only on a variable of the sensitivity list, and only at the right level. -/
theorem triggered_iff (vals : Vals) (evs : List (Bool × VarId)) (v : VarId) :
    triggered vals evs v = true ↔
      ∃ u, vals v = some u ∧ ((true, v) ∈ evs ∧ u ≠ 0 ∨ (false, v) ∈ evs ∧ u = 0) := by
  simp only [triggered, List.any_eq_true, Bool.and_eq_true, decide_eq_true_eq]
  constructor
  · rintro ⟨⟨b, w⟩, he, rfl, h⟩
    simp only at h
    cases hv : vals w with
    | none => rw [hv] at h; cases h
    | some u =>
      rw [hv] at h
      refine ⟨u, rfl, ?_⟩
      cases b with
      | true => simp at h; exact Or.inl ⟨he, h⟩
      | false => simp at h; exact Or.inr ⟨he, h⟩
  · rintro ⟨u, hu, ⟨he, h⟩ | ⟨he, h⟩⟩
    · refine ⟨_, he, rfl, ?_⟩; simp only [hu, if_true]; exact bne_iff_ne.2 h
    · refine ⟨_, he, rfl, ?_⟩; simp [hu, h]

/-! ### Examples and the full claim -/

def pow0 : U64 → U64 → Res U64 := fun _ _ => .ub

/-- Variables: 0 clock, 1 d, 2 q1, 3 q2; all one bit. -/
def bit (v : VarId) : Expr := .var v 1
def put (v : VarId) (e : Expr) : Stmt := .assign true ⟨v, 0, 1⟩ e

/-- Dependents in process order. -/
def orderOf (ps : List Proc) (v : VarId) : List Nat :=
  (List.range ps.length).filter fun p => match ps[p]? with
    | some pr => decide (v ∈ pr.deps)
    | none => false

def design (ps : List Proc) (W : VarId → Nat) : Design := ⟨ps, W, orderOf ps, id, pow0⟩

theorem design_ok (ps : List Proc) (W : VarId → Nat) : (design ps W).Ok := by
  constructor
  · intro v p
    simp only [design, orderOf, List.mem_filter, List.mem_range]
    constructor
    · rintro ⟨h, h2⟩
      rw [List.getElem?_eq_getElem h] at h2 ⊢
      exact ⟨_, rfl, by simpa using h2⟩
    · rintro ⟨pr, h1, h2⟩
      have : p < ps.length := by
        apply Classical.byContradiction
        intro hc
        rw [List.getElem?_eq_none (by omega)] at h1
        cases h1
      exact ⟨this, by rw [h1]; simpa using h2⟩
  · intro l; exact List.Perm.refl _

def valsOf (l : List U64) : Vals := fun v => l[v]?

/-- `q1 <= d; q2 <= q1` in one block. -/
def shiftBlock : Stmts := Stmts.ofList [put 2 (bit 1), put 3 (bit 2)]

/-- **Full claim C53**, for a design all of whose blocks are clocked by variable 0: after the clock
rises every variable but the clock has the value non-blocking semantics prescribes: all blocks are
executed on the values before the edge, in order, and updates applied at the end. -/
def SeqClaim : Prop := ∀ (blocks : List Stmts) (W : VarId → Nat) (s s' : S) (σ : Store) (n : Nat),
  W 0 = 1 → (∀ b ∈ blocks, RegStmts W b) → (∀ x, ∃ u, s.vals x = some u ∧ u.toNat = σ x ∧ σ x < 2 ^ W x) →
  s.q = [] → s.vals 0 = some 0 →
  set (design (blocks.map fun b => .seq [(true, 0)] b) W) n 0 1 s = .ok s' →
  ∀ x, x ≠ 0 → ∃ u, s'.vals x = some u ∧
    u.toNat = (St.mk σ (blocks.flatMap fun b => (b.exec (fun _ st => st) ⟨σ, [], .run⟩).nba) .run).commit x

/-- Values of the counterexamples: `d = 1`, all else zero. -/
def start : S := ⟨fun v => if v = 1 then some 1 else some 0, [], 0⟩
def startσ : Store := fun v => if v = 1 then 1 else 0

/-- The last assignment does not win: `q1 <= d; q1 <= 0` leaves `q1 = d`. -/
theorem first_assignment_wins :
    (set (design [.seq [(true, 0)] (Stmts.ofList [put 2 (bit 1), put 2 (.const 1 0)])] (fun _ => 1)) 5 0 1
      start).bind (fun s => .ok (s.vals 2)) = .ok (some 1) := by decide +kernel

/-- Two blocks on one clock: the second sees the update of the first, so a value crosses two
registers in one edge. -/
theorem two_blocks_race :
    (set (design [.seq [(true, 0)] (Stmts.ofList [put 2 (bit 1)]), .seq [(true, 0)] (Stmts.ofList [put 3 (bit 2)])]
      (fun _ => 1)) 5 0 1 start).bind (fun s => .ok (s.vals 3)) = .ok (some 1) := by decide +kernel

theorem not_SeqClaim : ¬ SeqClaim := by
  intro h
  have h1 := two_blocks_race
  rw [Res.bind_eq_ok] at h1
  obtain ⟨s', hs, h1⟩ := h1
  injection h1 with h1
  obtain ⟨u, hu, hv⟩ := h [Stmts.ofList [put 2 (bit 1)], Stmts.ofList [put 3 (bit 2)]] (fun _ => 1) start s' startσ 5
    rfl (by simp [RegStmts, RegStmt, put, bit, Good, Expr.width, Stmts.ofList]) (by
      intro x
      unfold start startσ
      simp only
      split
      · exact ⟨1, rfl, rfl, by decide⟩
      · exact ⟨0, rfl, rfl, by decide⟩) rfl rfl hs 3 (by decide)
  rw [h1] at hu
  injection hu with hu
  subst hu
  exact absurd hv (by decide)

/-- The hypotheses of `seq_partial` are met by a two-stage shift register, which then shifts. -/
example : RegStmts (fun _ => 1) shiftBlock ∧ HoldsStmts start.vals startσ shiftBlock ∧
    ((shiftBlock.exec (fun _ st => st) ⟨startσ, [], .run⟩).nba.map fun e => e.1.v).Nodup ∧
    (shiftBlock.exec (fun _ st => st) ⟨startσ, [], .run⟩).commit 2 = 1 ∧
    (shiftBlock.exec (fun _ st => st) ⟨startσ, [], .run⟩).commit 3 = 0 := by
  refine ⟨by simp [shiftBlock, RegStmts, RegStmt, put, bit, Good, Expr.width, Stmts.ofList], ?_, by decide, by decide, by decide⟩
  simp only [shiftBlock, HoldsStmts, HoldsStmt, put, bit, Holds, Stmts.ofList, and_true]
  constructor <;> (intro x _; unfold start startσ; simp only; split)
  · exact ⟨1, rfl, rfl⟩
  · exact ⟨0, rfl, rfl⟩
  · exact ⟨1, rfl, rfl⟩
  · exact ⟨0, rfl, rfl⟩

example : (runProc (design [.seq [(true, 0)] shiftBlock] (fun _ => 1)) 0 0 (.seq [(true, 0)] shiftBlock)
    { start with vals := updV start.vals 0 1 }).bind (fun s => .ok (s.vals 2, s.vals 3)) = .ok (some 1, some 0) := by
  decide +kernel

end Kratos.Sim
