import Verif.Sim.Seq

/-!
# C54: after `set` the combinational logic has settled

A process is *stable* at given values if evaluating it would change nothing.  The property: whenever
`set` returns, every continuous assignment and every `always_comb` block is stable, and for an acyclic
design the values do not depend on the order in which events were processed.
-/

namespace Kratos.Sim

open Kratos.Ir

mutual
/-- Blocking assignments of whole variables, conditionals and case statements over properly sized
operands. -/
def CombStmt (W : VarId → Nat) : Stmt → Prop
  | .assign nb l r => nb = false ∧ l.lo = 0 ∧ l.len = W l.v ∧ r.width = W l.v ∧ Good W r
  | .ite _ t e => CombStmts W t ∧ CombStmts W e
  | .switch _ cs => CombCases W cs
  | .for_ _ _ _ _ _ => False
  | .ret _ => False
  | .brk => False
  | .other _ => False
def CombStmts (W : VarId → Nat) : Stmts → Prop
  | .nil => True
  | .cons s ss => CombStmt W s ∧ CombStmts W ss
def CombCases (W : VarId → Nat) : Cases → Prop
  | .nil => True
  | .cons _ b cs => CombStmts W b ∧ CombCases W cs
end

mutual
/-- Variables a statement may assign. -/
def stmtWrites : Stmt → List VarId
  | .assign _ l _ => [l.v]
  | .ite _ t e => stmtsWrites t ++ stmtsWrites e
  | .switch _ cs => casesWrites cs
  | .for_ _ _ _ _ b => stmtsWrites b
  | _ => []
def stmtsWrites : Stmts → List VarId
  | .nil => []
  | .cons s ss => stmtWrites s ++ stmtsWrites ss
def casesWrites : Cases → List VarId
  | .nil => []
  | .cons _ b cs => stmtsWrites b ++ casesWrites cs
end

mutual
/-- Everything read satisfies `A`. -/
def ReadsIn (A : VarId → Prop) : Stmt → Prop
  | .assign _ _ r => ∀ x, r.reads x = true → A x
  | .ite c t e => (∀ x, c.reads x = true → A x) ∧ ReadsInS A t ∧ ReadsInS A e
  | .switch tgt cs => (∀ x, tgt.reads x = true → A x) ∧ ReadsInC A cs
  | .for_ _ _ _ _ _ => False
  | .ret _ => False
  | .brk => False
  | .other _ => False
def ReadsInS (A : VarId → Prop) : Stmts → Prop
  | .nil => True
  | .cons s ss => ReadsIn A s ∧ ReadsInS A ss
def ReadsInC (A : VarId → Prop) : Cases → Prop
  | .nil => True
  | .cons _ b cs => ReadsInS A b ∧ ReadsInC A cs
end

def Proc.writes : Proc → List VarId
  | .assign l _ => [l.v]
  | .comb b => stmtsWrites b
  | .seq _ b => stmtsWrites b

/-- Evaluating the process at these values succeeds and changes nothing. -/
def Stable (D : Design) (vals : Vals) : Proc → Prop
  | .assign l r => vruns D (.cons (.assign false l r) .nil) (vals, []) = .ok (vals, [])
  | .comb b => vruns D b (vals, []) = .ok (vals, [])
  | .seq _ _ => True

/-- A continuous assignment, seen as a block. -/
def asBlock (l : LVal) (r : Expr) : Stmts := .cons (.assign false l r) .nil

/-! ### Which body a case statement runs -/

def bodies : Cases → List Stmts
  | .nil => []
  | .cons _ b cs => b :: bodies cs

def kont (D : Design) : Option Stmts → Vals × Nba → Res (Vals × Nba)
  | none => .ok
  | some b => vruns D b

def pick (w : Nat) (v : U64) : Cases → Option Stmts → Res (Option Stmts)
  | .nil, d => .ok d
  | .cons none b cs, _ => pick w v cs (some b)
  | .cons (some c) b cs, d => (caseBits w c).bind fun bits => if v = bits then .ok (some b) else pick w v cs d

def dflt : Cases → Option Stmts
  | .nil => none
  | .cons none b _ => some b
  | .cons (some _) _ cs => dflt cs

theorem vrunDefault_eq (D : Design) (a : Vals × Nba) : ∀ cs, vrunDefault D cs a = kont D (dflt cs) a
  | .nil => rfl
  | .cons none _ _ => rfl
  | .cons (some _) _ cs => vrunDefault_eq D a cs

theorem vrunCases_eq (D : Design) (w : Nat) (v : U64) (a : Vals × Nba) : ∀ (cs : Cases) (d : Option Stmts),
    vrunCases D w v cs (kont D d) a = (pick w v cs d).bind fun o => kont D o a
  | .nil, d => rfl
  | .cons none b cs, d => by
    simp only [vrunCases, pick]
    exact vrunCases_eq D w v a cs (some b)
  | .cons (some c) b cs, d => by
    simp only [vrunCases, pick]
    cases caseBits w c with
    | throw e => rfl
    | ub => rfl
    | ok bits =>
      simp only [Res.ok_bind]
      split
      · rfl
      · exact vrunCases_eq D w v a cs d

theorem dflt_mem : ∀ (cs : Cases) (b : Stmts), dflt cs = some b → b ∈ bodies cs
  | .nil, _, h => by cases h
  | .cons none _ _, _, h => by injection h with h; subst h; exact List.mem_cons_self ..
  | .cons (some _) _ cs, b, h => List.mem_cons_of_mem _ (dflt_mem cs b h)

theorem pick_mem (w : Nat) (v : U64) : ∀ (cs : Cases) (d : Option Stmts) (b : Stmts),
    pick w v cs d = .ok (some b) → b ∈ bodies cs ∨ d = some b
  | .nil, d, b, h => by injection h with h; exact Or.inr h
  | .cons none b' cs, d, b, h => by
    simp only [pick] at h
    rcases pick_mem w v cs (some b') b h with h | h
    · exact Or.inl (List.mem_cons_of_mem _ h)
    · injection h with h; subst h; exact Or.inl (List.mem_cons_self ..)
  | .cons (some c) b' cs, d, b, h => by
    simp only [pick, Res.bind_eq_ok] at h
    obtain ⟨bits, _, h⟩ := h
    split at h
    · injection h with h; injection h with h; subst h; exact Or.inl (List.mem_cons_self ..)
    · rcases pick_mem w v cs d b h with h | h
      · exact Or.inl (List.mem_cons_of_mem _ h)
      · exact Or.inr h

/-- The body a case statement runs at these values. -/
def chosen (D : Design) (vals : Vals) (tgt : Expr) (cs : Cases) : Res (Option Stmts) :=
  (simE D.cpow vals .value tgt).bind fun
    | none => .ok (dflt cs)
    | some v => pick tgt.width v cs none

theorem vrun_switch (D : Design) (tgt : Expr) (cs : Cases) (a : Vals × Nba) :
    vrun D (.switch tgt cs) a = (chosen D a.1 tgt cs).bind fun o => kont D o a := by
  simp only [vrun, chosen]
  cases simE D.cpow a.1 .value tgt with
  | throw e => rfl
  | ub => rfl
  | ok o =>
    cases o with
    | none => exact vrunDefault_eq D a cs
    | some v => exact vrunCases_eq D tgt.width v a cs none

theorem chosen_mem {D : Design} {vals : Vals} {tgt : Expr} {cs : Cases} {b : Stmts}
    (h : chosen D vals tgt cs = .ok (some b)) : b ∈ bodies cs := by
  simp only [chosen, Res.bind_eq_ok] at h
  obtain ⟨o, _, h⟩ := h
  cases o with
  | none => injection h with h; exact dflt_mem cs b h
  | some v =>
    rcases pick_mem _ _ _ _ _ h with h | h
    · exact h
    · cases h

/-! ### Value-level lemmas -/

mutual
theorem vrun_comb (D : Design) : ∀ (st : Stmt) (a b : Vals × Nba), CombStmt D.width st → Fit D a.1 →
    vrun D st a = .ok b → Fit D b.1 ∧ b.2 = a.2 ∧ ∀ x, x ∉ stmtWrites st → b.1 x = a.1 x
  | .assign nb l r, a, b, hg, hf, h => by
    obtain ⟨rfl, h0, hl, hrw, hgr⟩ := hg
    simp only [vrun, Res.bind_eq_ok] at h
    obtain ⟨o, ho, h⟩ := h
    cases o with
    | none => injection h with h; subst h; exact ⟨hf, rfl, fun _ _ => rfl⟩
    | some v =>
      simp only [vset, Bool.false_eq_true, if_false] at h
      rw [if_pos ⟨h0, hl⟩] at h
      simp only [Res.ok_bind] at h
      injection h with h; subst h
      refine ⟨?_, rfl, ?_⟩
      · intro y u hy
        simp only [updV] at hy
        split at hy
        · rename_i e
          injection hy with hy
          subst hy; subst e
          have := (sim_bounded D.cpow D.width a.1 hf r hgr).value _ ho
          rwa [hrw] at this
        · exact hf y u hy
      · intro x hx
        simp only [stmtWrites, List.mem_singleton] at hx
        simp [updV, hx]
  | .ite c t e, a, b, hg, hf, h => by
    simp only [vrun, Res.bind_eq_ok] at h
    obtain ⟨o, ho, h⟩ := h
    split at h
    · obtain ⟨h1, h2, h3⟩ := vruns_comb D t a b hg.1 hf h
      exact ⟨h1, h2, fun x hx => h3 x (fun hm => hx (by simp [stmtWrites, hm]))⟩
    · obtain ⟨h1, h2, h3⟩ := vruns_comb D e a b hg.2 hf h
      exact ⟨h1, h2, fun x hx => h3 x (fun hm => hx (by simp [stmtWrites, hm]))⟩
  | .switch tgt cs, a, b, hg, hf, h => by
    rw [vrun_switch, Res.bind_eq_ok] at h
    obtain ⟨o, ho, h⟩ := h
    cases o with
    | none => injection h with h; subst h; exact ⟨hf, rfl, fun _ _ => rfl⟩
    | some bd => exact cases_comb D cs hg bd (chosen_mem ho) a b hf h
  | .for_ _ _ _ _ _, _, _, hg, _, _ => hg.elim
  | .ret _, _, _, hg, _, _ => hg.elim
  | .brk, _, _, hg, _, _ => hg.elim
  | .other _, _, _, hg, _, _ => hg.elim
theorem vruns_comb (D : Design) : ∀ (st : Stmts) (a b : Vals × Nba), CombStmts D.width st → Fit D a.1 →
    vruns D st a = .ok b → Fit D b.1 ∧ b.2 = a.2 ∧ ∀ x, x ∉ stmtsWrites st → b.1 x = a.1 x
  | .nil, a, b, _, hf, h => by injection h with h; subst h; exact ⟨hf, rfl, fun _ _ => rfl⟩
  | .cons s ss, a, b, hg, hf, h => by
    simp only [vruns, Res.bind_eq_ok] at h
    obtain ⟨c, hc, h⟩ := h
    obtain ⟨h1, h2, h3⟩ := vrun_comb D s a c hg.1 hf hc
    obtain ⟨k1, k2, k3⟩ := vruns_comb D ss c b hg.2 h1 h
    refine ⟨k1, by rw [k2, h2], fun x hx => ?_⟩
    simp only [stmtsWrites, List.mem_append, not_or] at hx
    rw [k3 x hx.2, h3 x hx.1]
theorem cases_comb (D : Design) : ∀ (cs : Cases), CombCases D.width cs → ∀ bd ∈ bodies cs, ∀ a b : Vals × Nba,
    Fit D a.1 → vruns D bd a = .ok b → Fit D b.1 ∧ b.2 = a.2 ∧ ∀ x, x ∉ casesWrites cs → b.1 x = a.1 x
  | .nil, _, _, hm, _, _, _, _ => by cases hm
  | .cons k bd cs, hg, bd', hm, a, b, hf, h => by
    rcases List.mem_cons.1 hm with e | hm
    · rw [e] at h
      obtain ⟨h1, h2, h3⟩ := vruns_comb D bd a b hg.1 hf h
      exact ⟨h1, h2, fun x hx => h3 x (fun hm => hx (by simp [casesWrites, hm]))⟩
    · obtain ⟨h1, h2, h3⟩ := cases_comb D cs hg.2 bd' hm a b hf h
      exact ⟨h1, h2, fun x hx => h3 x (fun hm => hx (by simp [casesWrites, hm]))⟩
end

/-- Agreement on a set of variables. -/
def Agree (A : VarId → Prop) (f g : Vals) : Prop := ∀ x, A x → f x = g x

/-- Two runs do the same: each variable gets the same value in both, or is left alone in both. -/
def Same (a b a' b' : Vals) : Prop := ∀ x, b x = b' x ∨ (b x = a x ∧ b' x = a' x)

theorem Same.trans {a b c a' b' c' : Vals} (h1 : Same a b a' b') (h2 : Same b c b' c') : Same a c a' c' := by
  intro x
  rcases h2 x with h | ⟨h, h'⟩
  · exact Or.inl h
  · rcases h1 x with k | ⟨k, k'⟩
    · exact Or.inl (by rw [h, h', k])
    · exact Or.inr ⟨by rw [h, k], by rw [h', k']⟩

mutual
theorem ReadsIn.mono {A B : VarId → Prop} (hAB : ∀ x, A x → B x) : ∀ (st : Stmt), ReadsIn A st → ReadsIn B st
  | .assign _ _ _, h => fun x hx => hAB x (h x hx)
  | .ite _ t e, h => ⟨fun x hx => hAB x (h.1 x hx), ReadsInS.mono hAB t h.2.1, ReadsInS.mono hAB e h.2.2⟩
  | .switch _ cs, h => ⟨fun x hx => hAB x (h.1 x hx), ReadsInC.mono hAB cs h.2⟩
  | .for_ _ _ _ _ _, h => h.elim
  | .ret _, h => h.elim
  | .brk, h => h.elim
  | .other _, h => h.elim
theorem ReadsInS.mono {A B : VarId → Prop} (hAB : ∀ x, A x → B x) : ∀ (st : Stmts), ReadsInS A st → ReadsInS B st
  | .nil, _ => trivial
  | .cons s ss, h => ⟨ReadsIn.mono hAB s h.1, ReadsInS.mono hAB ss h.2⟩
theorem ReadsInC.mono {A B : VarId → Prop} (hAB : ∀ x, A x → B x) : ∀ (cs : Cases), ReadsInC A cs → ReadsInC B cs
  | .nil, _ => trivial
  | .cons _ b cs, h => ⟨ReadsInS.mono hAB b h.1, ReadsInC.mono hAB cs h.2⟩
end

mutual
/-- Running a block on values that agree on everything it reads: same outcome, and the agreement is
kept, extended by everything the block certainly assigns. -/
theorem vrun_agree (D : Design) (A : VarId → Prop) : ∀ (st : Stmt) (a b a' : Vals × Nba), CombStmt D.width st →
    ReadsIn A st → Agree A a.1 a'.1 → vrun D st a = .ok b → ∃ b', vrun D st a' = .ok b' ∧ Agree A b.1 b'.1 ∧ Same a.1 b.1 a'.1 b'.1
  | .assign nb l r, a, b, a', hg, hr, ha, h => by
    obtain ⟨rfl, h0, hl, hrw, hgr⟩ := hg
    have he := simE_congr D.cpow r .value (va := a.1) (vb := a'.1) (fun x hx => ha x (hr x hx))
    simp only [vrun, Res.bind_eq_ok] at h
    obtain ⟨o, ho, h⟩ := h
    simp only [vrun, ← he, ho, Res.ok_bind]
    cases o with
    | none => injection h with h; subst h; exact ⟨a', rfl, ha, fun x => Or.inr ⟨rfl, rfl⟩⟩
    | some v =>
      simp only [vset, Bool.false_eq_true, if_false] at h ⊢
      rw [if_pos ⟨h0, hl⟩] at h ⊢
      simp only [Res.ok_bind] at h ⊢
      injection h with h; subst h
      refine ⟨_, rfl, ?_, ?_⟩
      · intro x hx
        simp only [updV]
        split
        · rfl
        · exact ha x hx
      · intro x
        simp only [updV]
        split
        · exact Or.inl rfl
        · exact Or.inr ⟨rfl, rfl⟩
  | .ite c t e, a, b, a', hg, hr, ha, h => by
    have he := simE_congr D.cpow c .value (va := a.1) (vb := a'.1) (fun x hx => ha x (hr.1 x hx))
    simp only [vrun, Res.bind_eq_ok] at h
    obtain ⟨o, ho, h⟩ := h
    simp only [vrun, ← he, ho, Res.ok_bind]
    split at h
    · rename_i hc
      rw [if_pos hc]
      exact vruns_agree D A t a b a' hg.1 hr.2.1 ha h
    · rename_i hc
      rw [if_neg hc]
      exact vruns_agree D A e a b a' hg.2 hr.2.2 ha h
  | .switch tgt cs, a, b, a', hg, hr, ha, h => by
    have he := simE_congr D.cpow tgt .value (va := a.1) (vb := a'.1) (fun x hx => ha x (hr.1 x hx))
    rw [vrun_switch, Res.bind_eq_ok] at h
    obtain ⟨o, ho, h⟩ := h
    rw [vrun_switch]
    have ho' : chosen D a'.1 tgt cs = .ok o := by
      rw [← ho]; simp only [chosen]; rw [he]
    rw [ho', Res.ok_bind]
    cases o with
    | none => injection h with h; subst h; exact ⟨a', rfl, ha, fun x => Or.inr ⟨rfl, rfl⟩⟩
    | some bd => exact cases_agree D A cs hg hr.2 bd (chosen_mem ho) a b a' ha h
  | .for_ _ _ _ _ _, _, _, _, hg, _, _, _ => hg.elim
  | .ret _, _, _, _, hg, _, _, _ => hg.elim
  | .brk, _, _, _, hg, _, _, _ => hg.elim
  | .other _, _, _, _, hg, _, _, _ => hg.elim
theorem vruns_agree (D : Design) (A : VarId → Prop) : ∀ (st : Stmts) (a b a' : Vals × Nba), CombStmts D.width st →
    ReadsInS A st → Agree A a.1 a'.1 → vruns D st a = .ok b → ∃ b', vruns D st a' = .ok b' ∧ Agree A b.1 b'.1 ∧ Same a.1 b.1 a'.1 b'.1
  | .nil, a, b, a', _, _, ha, h => by injection h with h; subst h; exact ⟨a', rfl, ha, fun x => Or.inr ⟨rfl, rfl⟩⟩
  | .cons s ss, a, b, a', hg, hr, ha, h => by
    simp only [vruns, Res.bind_eq_ok] at h
    obtain ⟨c, hc, h⟩ := h
    obtain ⟨c', hc', h1, r1⟩ := vrun_agree D A s a c a' hg.1 hr.1 ha hc
    obtain ⟨b', hb', h2, r2⟩ := vruns_agree D A ss c b c' hg.2 hr.2 h1 h
    exact ⟨b', by simp only [vruns, hc', Res.ok_bind]; exact hb', h2, r1.trans r2⟩
theorem cases_agree (D : Design) (A : VarId → Prop) : ∀ (cs : Cases), CombCases D.width cs → ReadsInC A cs →
    ∀ bd ∈ bodies cs, ∀ a b a' : Vals × Nba, Agree A a.1 a'.1 → vruns D bd a = .ok b →
    ∃ b', vruns D bd a' = .ok b' ∧ Agree A b.1 b'.1 ∧ Same a.1 b.1 a'.1 b'.1
  | .nil, _, _, _, hm, _, _, _, _, _ => by cases hm
  | .cons k bd cs, hg, hr, bd', hm, a, b, a', ha, h => by
    rcases List.mem_cons.1 hm with e | hm
    · rw [e] at h ⊢
      exact vruns_agree D A bd a b a' hg.1 hr.1 ha h
    · exact cases_agree D A cs hg.2 hr.2 bd' hm a b a' ha h
end

/-- A block stable at some values is stable at any values that agree on what it reads and writes. -/
theorem stable_frame {D : Design} {b : Stmts} {va vb : Vals} {A : VarId → Prop} (hg : CombStmts D.width b)
    (hr : ReadsInS A b) (hw : ∀ x ∈ stmtsWrites b, A x) (hf : Fit D vb) (ha : Agree A va vb)
    (h : vruns D b (va, []) = .ok (va, [])) : vruns D b (vb, []) = .ok (vb, []) := by
  obtain ⟨⟨b1, b2⟩, hb, h1, -⟩ := vruns_agree D A b (va, []) (va, []) (vb, []) hg hr ha h
  obtain ⟨-, h2, h3⟩ := vruns_comb D b (vb, []) (b1, b2) hg hf hb
  simp only at h1 h2 h3
  rw [hb]
  have : b1 = vb := by
    funext x
    rcases Classical.em (x ∈ stmtsWrites b) with hx | hx
    · rw [← h1 x (hw x hx), ha x (hw x hx)]
    · exact h3 x hx
  rw [this, h2]

/-! ### What a run tells the queue -/

mutual
theorem run_told (D : Design) (hW : ∀ v, 1 ≤ D.width v ∧ D.width v ≤ 63) (sc : Option Nat) : ∀ (st : Stmt)
    (a b : S × Nba), CombStmt D.width st → Fit D a.1.vals → run D sc st a = .ok b →
    Told D sc a.1 b.1 ∧ Fit D b.1.vals
  | .assign nb l r, a, b, hg, hf, h => by
    obtain ⟨rfl, h0, hl, hrw, hgr⟩ := hg
    simp only [run, Res.bind_eq_ok] at h
    obtain ⟨o, ho, h⟩ := h
    cases o with
    | none => injection h with h; subst h; exact ⟨Told.refl D sc _, hf⟩
    | some v =>
      simp only [setLVal, Bool.false_eq_true, if_false] at h
      rw [if_pos ⟨h0, hl⟩] at h
      simp only [Res.ok_bind] at h
      injection h with h; subst h
      have hb := (sim_bounded D.cpow D.width a.1.vals hf r hgr).value _ ho
      rw [hrw] at hb
      have := hW l.v
      exact setWhole_told this.1 (by omega) hf hb
  | .ite c t e, a, b, hg, hf, h => by
    simp only [run, Res.bind_eq_ok] at h
    obtain ⟨o, ho, h⟩ := h
    split at h
    · exact runs_told D hW sc t a b hg.1 hf h
    · exact runs_told D hW sc e a b hg.2 hf h
  | .switch tgt cs, a, b, hg, hf, h => by
    simp only [run, Res.bind_eq_ok] at h
    obtain ⟨o, ho, h⟩ := h
    cases o with
    | none => exact runDefault_told D hW sc cs a b hg hf h
    | some v =>
      exact runCases_told D hW sc tgt.width v cs .ok a b hg hf
        (fun b h => by injection h with h; subst h; exact ⟨Told.refl D sc _, hf⟩) h
  | .for_ _ _ _ _ _, _, _, hg, _, _ => hg.elim
  | .ret _, _, _, hg, _, _ => hg.elim
  | .brk, _, _, hg, _, _ => hg.elim
  | .other _, _, _, hg, _, _ => hg.elim
theorem runs_told (D : Design) (hW : ∀ v, 1 ≤ D.width v ∧ D.width v ≤ 63) (sc : Option Nat) : ∀ (st : Stmts)
    (a b : S × Nba), CombStmts D.width st → Fit D a.1.vals → runs D sc st a = .ok b →
    Told D sc a.1 b.1 ∧ Fit D b.1.vals
  | .nil, a, b, _, hf, h => by injection h with h; subst h; exact ⟨Told.refl D sc _, hf⟩
  | .cons s ss, a, b, hg, hf, h => by
    simp only [runs, Res.bind_eq_ok] at h
    obtain ⟨c, hc, h⟩ := h
    obtain ⟨h1, h2⟩ := run_told D hW sc s a c hg.1 hf hc
    obtain ⟨h3, h4⟩ := runs_told D hW sc ss c b hg.2 h2 h
    exact ⟨h1.trans h3, h4⟩
theorem runDefault_told (D : Design) (hW : ∀ v, 1 ≤ D.width v ∧ D.width v ≤ 63) (sc : Option Nat) : ∀ (cs : Cases)
    (a b : S × Nba), CombCases D.width cs → Fit D a.1.vals → runDefault D sc cs a = .ok b →
    Told D sc a.1 b.1 ∧ Fit D b.1.vals
  | .nil, a, b, _, hf, h => by injection h with h; subst h; exact ⟨Told.refl D sc _, hf⟩
  | .cons none bd cs, a, b, hg, hf, h => runs_told D hW sc bd a b hg.1 hf h
  | .cons (some _) bd cs, a, b, hg, hf, h => runDefault_told D hW sc cs a b hg.2 hf h
theorem runCases_told (D : Design) (hW : ∀ v, 1 ≤ D.width v ∧ D.width v ≤ 63) (sc : Option Nat) (w : Nat) (v : U64) :
    ∀ (cs : Cases) (k : S × Nba → Res (S × Nba)) (a b : S × Nba), CombCases D.width cs → Fit D a.1.vals →
    (∀ b, k a = .ok b → Told D sc a.1 b.1 ∧ Fit D b.1.vals) →
    runCases D sc w v cs k a = .ok b → Told D sc a.1 b.1 ∧ Fit D b.1.vals
  | .nil, k, a, b, _, hf, hk, h => hk b h
  | .cons none bd cs, k, a, b, hg, hf, hk, h => by
    simp only [runCases] at h
    exact runCases_told D hW sc w v cs _ a b hg.2 hf (fun b h => runs_told D hW sc bd a b hg.1 hf h) h
  | .cons (some c) bd cs, k, a, b, hg, hf, hk, h => by
    simp only [runCases, Res.bind_eq_ok] at h
    obtain ⟨bits, _, h⟩ := h
    split at h
    · exact runs_told D hW sc bd a b hg.1 hf h
    · exact runCases_told D hW sc w v cs k a b hg.2 hf hk h
end

/-! ### Register blocks -/

/-- Pending values are for whole variables in `ws` and fit. -/
def NbaOk (D : Design) (ws : List VarId) (n : Nba) : Prop :=
  ∀ e ∈ n, e.1.lo = 0 ∧ e.1.len = D.width e.1.v ∧ e.2.toNat < 2 ^ D.width e.1.v ∧ e.1.v ∈ ws

theorem NbaOk.mono {D : Design} {ws ws' : List VarId} {n : Nba} (h : NbaOk D ws n) (hs : ∀ x ∈ ws, x ∈ ws') :
    NbaOk D ws' n := fun e he => ⟨(h e he).1, (h e he).2.1, (h e he).2.2.1, hs _ (h e he).2.2.2⟩

mutual
theorem run_nba (D : Design) (sc : Option Nat) (ws : List VarId) : ∀ (st : Stmt) (a b : S × Nba),
    RegStmt D.width st → Fit D a.1.vals → (∀ x ∈ stmtWrites st, x ∈ ws) → NbaOk D ws a.2 →
    run D sc st a = .ok b → b.1 = a.1 ∧ NbaOk D ws b.2
  | .assign nb l r, a, b, hg, hf, hs, hn, h => by
    obtain ⟨rfl, h0, hl, hrw, hgr⟩ := hg
    simp only [run, Res.bind_eq_ok] at h
    obtain ⟨o, ho, h⟩ := h
    cases o with
    | none => injection h with h; subst h; exact ⟨rfl, hn⟩
    | some v =>
      simp only [if_true] at h
      injection h with h; subst h
      refine ⟨rfl, ?_⟩
      intro e he
      simp only [nbaAdd] at he
      split at he
      · exact hn e he
      · rcases List.mem_append.1 he with he | he
        · exact hn e he
        · rw [List.mem_singleton] at he
          subst he
          have hb := (sim_bounded D.cpow D.width a.1.vals hf r hgr).value _ ho
          rw [hrw] at hb
          exact ⟨h0, hl, hb, hs _ (by simp [stmtWrites])⟩
  | .ite c t e, a, b, hg, hf, hs, hn, h => by
    simp only [run, Res.bind_eq_ok] at h
    obtain ⟨o, ho, h⟩ := h
    split at h
    · exact runs_nba D sc ws t a b hg.2.1 hf (fun x hx => hs x (by simp [stmtWrites, hx])) hn h
    · exact runs_nba D sc ws e a b hg.2.2 hf (fun x hx => hs x (by simp [stmtWrites, hx])) hn h
  | .switch tgt cs, a, b, hg, hf, hs, hn, h => by
    simp only [run, Res.bind_eq_ok] at h
    obtain ⟨o, ho, h⟩ := h
    cases o with
    | none => exact runDefault_nba D sc ws tgt.width cs a b hg.2.2 hf hs hn h
    | some v =>
      exact runCases_nba D sc ws tgt.width v cs .ok a b hg.2.2 hf hs hn
        (fun b h => by injection h with h; subst h; exact ⟨rfl, hn⟩) h
  | .for_ _ _ _ _ _, _, _, hg, _, _, _, _ => hg.elim
  | .ret _, _, _, hg, _, _, _, _ => hg.elim
  | .brk, _, _, hg, _, _, _, _ => hg.elim
  | .other _, _, _, hg, _, _, _, _ => hg.elim
theorem runs_nba (D : Design) (sc : Option Nat) (ws : List VarId) : ∀ (st : Stmts) (a b : S × Nba),
    RegStmts D.width st → Fit D a.1.vals → (∀ x ∈ stmtsWrites st, x ∈ ws) → NbaOk D ws a.2 →
    runs D sc st a = .ok b → b.1 = a.1 ∧ NbaOk D ws b.2
  | .nil, a, b, _, hf, _, hn, h => by injection h with h; subst h; exact ⟨rfl, hn⟩
  | .cons s ss, a, b, hg, hf, hs, hn, h => by
    simp only [runs, Res.bind_eq_ok] at h
    obtain ⟨c, hc, h⟩ := h
    obtain ⟨h1, h2⟩ := run_nba D sc ws s a c hg.1 hf (fun x hx => hs x (by simp [stmtsWrites, hx])) hn hc
    obtain ⟨h3, h4⟩ := runs_nba D sc ws ss c b hg.2 (by rw [h1]; exact hf)
      (fun x hx => hs x (by simp [stmtsWrites, hx])) h2 h
    exact ⟨by rw [h3, h1], h4⟩
theorem runDefault_nba (D : Design) (sc : Option Nat) (ws : List VarId) (w : Nat) : ∀ (cs : Cases) (a b : S × Nba),
    RegCases D.width w cs → Fit D a.1.vals → (∀ x ∈ casesWrites cs, x ∈ ws) → NbaOk D ws a.2 →
    runDefault D sc cs a = .ok b → b.1 = a.1 ∧ NbaOk D ws b.2
  | .nil, a, b, _, hf, _, hn, h => by injection h with h; subst h; exact ⟨rfl, hn⟩
  | .cons none bd cs, a, b, hg, hf, hs, hn, h =>
    runs_nba D sc ws bd a b hg.2.1 hf (fun x hx => hs x (by simp [casesWrites, hx])) hn h
  | .cons (some _) bd cs, a, b, hg, hf, hs, hn, h =>
    runDefault_nba D sc ws w cs a b hg.2.2 hf (fun x hx => hs x (by simp [casesWrites, hx])) hn h
theorem runCases_nba (D : Design) (sc : Option Nat) (ws : List VarId) (w : Nat) (v : U64) :
    ∀ (cs : Cases) (k : S × Nba → Res (S × Nba)) (a b : S × Nba), RegCases D.width w cs → Fit D a.1.vals →
    (∀ x ∈ casesWrites cs, x ∈ ws) → NbaOk D ws a.2 → (∀ b, k a = .ok b → b.1 = a.1 ∧ NbaOk D ws b.2) →
    runCases D sc w v cs k a = .ok b → b.1 = a.1 ∧ NbaOk D ws b.2
  | .nil, k, a, b, _, hf, _, _, hk, h => hk b h
  | .cons none bd cs, k, a, b, hg, hf, hs, hn, hk, h => by
    simp only [runCases] at h
    exact runCases_nba D sc ws w v cs _ a b hg.2.2 hf (fun x hx => hs x (by simp [casesWrites, hx])) hn
      (fun b h => runs_nba D sc ws bd a b hg.2.1 hf (fun x hx => hs x (by simp [casesWrites, hx])) hn h) h
  | .cons (some c) bd cs, k, a, b, hg, hf, hs, hn, hk, h => by
    simp only [runCases, Res.bind_eq_ok] at h
    obtain ⟨bits, _, h⟩ := h
    split at h
    · exact runs_nba D sc ws bd a b hg.2.1 hf (fun x hx => hs x (by simp [casesWrites, hx])) hn h
    · exact runCases_nba D sc ws w v cs k a b hg.2.2 hf (fun x hx => hs x (by simp [casesWrites, hx])) hn hk h
end

theorem commit_told (D : Design) (hW : ∀ v, 1 ≤ D.width v ∧ D.width v ≤ 63) (ws : List VarId) : ∀ (P : Nba) (s s' : S),
    NbaOk D ws P → Fit D s.vals → commit D P s = .ok s' →
    Told D none s s' ∧ Fit D s'.vals ∧ ∀ x, x ∉ ws → s'.vals x = s.vals x
  | [], s, s', _, hf, h => by injection h with h; subst h; exact ⟨Told.refl D none _, hf, fun _ _ => rfl⟩
  | (l, u) :: P, s, s', hn, hf, h => by
    obtain ⟨h0, hl, hu, hv⟩ := hn (l, u) (List.mem_cons_self ..)
    simp only [commit, setLVal] at h
    rw [if_pos ⟨h0, hl⟩, Res.ok_bind] at h
    obtain ⟨t1, f1⟩ := setWhole_told (sc := none) (s := s) (hW l.v).1 (by have := hW l.v; omega) hf hu
    obtain ⟨t2, f2, k2⟩ := commit_told D hW ws P _ s' (fun e he => hn e (List.mem_cons_of_mem _ he)) f1 h
    refine ⟨t1.trans t2, f2, fun x hx => ?_⟩
    rw [k2 x hx, setWhole_vals]
    have : x ≠ l.v := fun e => hx (by rw [e]; exact hv)
    simp [updV, this]

/-! ### Designs the theorem covers -/

def ProcShape (W : VarId → Nat) : Proc → Prop
  | .assign l r => CombStmts W (asBlock l r)
  | .comb b => CombStmts W b
  | .seq _ b => RegStmts W b

/-- The simulator's dependency list covers what the process reads (not the case when a variable occurs
only in the condition of a ternary). -/
def DepsCover : Proc → Prop
  | .assign l r => ReadsInS (· ∈ exprDeps r) (asBlock l r)
  | .comb b => ReadsInS (· ∈ stmtsDeps b) b
  | .seq _ _ => True

/-- Running an `always_comb` block twice is running it once. -/
def Idem (D : Design) : Proc → Prop
  | .comb b => ∀ v v', Fit D v → vruns D b (v, []) = .ok (v', []) → vruns D b (v', []) = .ok (v', [])
  | _ => True

def Proc.isSeq : Proc → Bool
  | .seq _ _ => true
  | _ => false

structure Clean (D : Design) : Prop where
  ok : D.Ok
  width : ∀ v, 1 ≤ D.width v ∧ D.width v ≤ 63
  shape : ∀ (p : Nat) pr, D.procs[p]? = some pr → ProcShape D.width pr
  deps : ∀ (p : Nat) pr, D.procs[p]? = some pr → DepsCover pr
  idem : ∀ (p : Nat) pr, D.procs[p]? = some pr → Idem D pr
  /-- single driver -/
  single : ∀ (p q : Nat) pr qr, D.procs[p]? = some pr → D.procs[q]? = some qr → p ≠ q →
    ∀ x, x ∈ pr.writes → x ∉ qr.writes

/-- A block that does not read what it writes is idempotent. -/
theorem idem_of_no_own_reads {D : Design} {b : Stmts} (hg : CombStmts D.width b)
    (hr : ReadsInS (fun x => x ∉ stmtsWrites b) b) : Idem D (.comb b) := by
  intro v v' hf h
  obtain ⟨hf', -, hk⟩ := vruns_comb D b (v, []) (v', []) hg hf h
  have hA : Agree (fun x => x ∉ stmtsWrites b) v v' := fun x hx => (hk x hx).symm
  obtain ⟨⟨b1, b2⟩, hb, -, h2⟩ := vruns_agree D _ b (v, []) (v', []) (v', []) hg hr hA h
  have hn := (vruns_comb D b (v', []) (b1, b2) hg hf' hb).2.1
  simp only at h2 hn
  rw [hb]
  have : b1 = v' := by
    funext x
    rcases h2 x with h | ⟨-, h⟩
    · exact h.symm
    · exact h
  rw [this, hn]

def scopeOf (p : Nat) : Proc → Option Nat
  | .comb _ => some p
  | _ => none

/-- The block of a combinational process. -/
def Proc.block : Proc → Stmts
  | .assign l r => asBlock l r
  | .comb b => b
  | .seq _ b => b

theorem stable_iff (D : Design) (vals : Vals) (pr : Proc) :
    Stable D vals pr ↔ (pr.isSeq = true ∨ vruns D pr.block (vals, []) = .ok (vals, [])) := by
  cases pr <;> simp [Stable, Proc.isSeq, Proc.block, asBlock]

theorem writes_block (pr : Proc) : stmtsWrites pr.block = pr.writes := by
  cases pr <;> simp [Proc.block, Proc.writes, asBlock, stmtsWrites, stmtWrites]

theorem proc_step {D : Design} (hD : Clean D) {p : Nat} {v : VarId} {pr : Proc} {s s' : S}
    (hp : D.procs[p]? = some pr) (hf : Fit D s.vals) (h : runProc D p v pr s = .ok s') :
    Told D (scopeOf p pr) s s' ∧ Fit D s'.vals ∧ (∀ x, x ∉ pr.writes → s'.vals x = s.vals x) ∧
    (pr.isSeq = false → vruns D pr.block (s.vals, []) = .ok (s'.vals, [])) := by
  have hsh := hD.shape p pr hp
  cases pr with
  | assign l r =>
    have h' : (runs D none (asBlock l r) (s, [])).bind (fun s' => .ok s'.1) = .ok s' := by
      rw [← h]
      simp only [runProc, asBlock, runs]
      cases run D none (.assign false l r) (s, []) <;> rfl
    rw [Res.bind_eq_ok] at h'
    obtain ⟨a, ha, h'⟩ := h'
    injection h' with h'; subst h'
    obtain ⟨t, f⟩ := runs_told D hD.width none _ _ _ hsh hf ha
    have hv := runs_v D none (asBlock l r) (s, [])
    rw [ha, Res.ok_map] at hv
    obtain ⟨-, n1, k1⟩ := vruns_comb D (asBlock l r) (s.vals, []) (a.1.vals, a.2) hsh hf hv.symm
    simp only at n1 k1
    refine ⟨t, f, fun x hx => k1 x (by simpa [asBlock, stmtsWrites, stmtWrites, Proc.writes] using hx), fun _ => ?_⟩
    have e := hv.symm
    simp only [proj] at e
    rw [n1] at e
    exact e
  | comb b =>
    simp only [runProc, Res.bind_eq_ok] at h
    obtain ⟨a, ha, h⟩ := h
    injection h with h; subst h
    obtain ⟨t, f⟩ := runs_told D hD.width (some p) _ _ _ hsh hf ha
    have hv := runs_v D (some p) b (s, [])
    rw [ha, Res.ok_map] at hv
    obtain ⟨-, n1, k1⟩ := vruns_comb D b (s.vals, []) (a.1.vals, a.2) hsh hf hv.symm
    simp only at n1 k1
    refine ⟨t, f, k1, fun _ => ?_⟩
    have e := hv.symm
    simp only [proj] at e
    rw [n1] at e
    exact e
  | seq evs b =>
    simp only [runProc] at h
    split at h
    · rw [Res.bind_eq_ok] at h
      obtain ⟨a, ha, h⟩ := h
      obtain ⟨h1, h2⟩ := runs_nba D none (stmtsWrites b) b (s, []) a hsh hf (fun _ hx => hx) (by intro e he; cases he) ha
      rw [h1] at h
      obtain ⟨t, f, k⟩ := commit_told D hD.width (stmtsWrites b) _ s s'
        (fun e he => h2 e ((hD.ok.nba a.2).mem_iff.1 he)) hf h
      exact ⟨t, f, k, fun hc => by cases hc⟩
    · injection h with h; subst h
      exact ⟨Told.refl D _ _, hf, fun _ _ => rfl, fun hc => by cases hc⟩

theorem frame_proc {D : Design} (hD : Clean D) {p : Nat} {pr : Proc} {va vb : Vals} (hp : D.procs[p]? = some pr)
    (hf : Fit D vb) (hd : ∀ x ∈ pr.deps, va x = vb x) (hw : ∀ x ∈ pr.writes, va x = vb x)
    (h : Stable D va pr) : Stable D vb pr := by
  have hsh := hD.shape p pr hp
  have hdp := hD.deps p pr hp
  have key : ∀ (b : Stmts) (A : List VarId), CombStmts D.width b → ReadsInS (· ∈ A) b → (∀ x ∈ A, va x = vb x) →
      (∀ x ∈ stmtsWrites b, va x = vb x) → vruns D b (va, []) = .ok (va, []) → vruns D b (vb, []) = .ok (vb, []) := by
    intro b A hg hr h1 h2 h
    refine stable_frame (A := fun x => x ∈ A ∨ x ∈ stmtsWrites b) hg ?_ (fun x hx => Or.inr hx) hf ?_ h
    · exact ReadsInS.mono (fun x hx => Or.inl hx) b hr
    · intro x hx
      rcases hx with hx | hx
      · exact h1 x hx
      · exact h2 x hx
  cases pr with
  | assign l r => exact key (asBlock l r) _ hsh hdp hd (by rw [← writes_block] at hw; exact hw) h
  | comb b => exact key b _ hsh hdp hd hw h
  | seq _ _ => trivial

/-- Every process outside `E` is queued or stable. -/
def Inv (D : Design) (E : Nat → Prop) (s : S) : Prop :=
  Fit D s.vals ∧ ∀ (p : Nat) pr, D.procs[p]? = some pr → E p ∨ (∃ v, (v, p) ∈ s.q) ∨ Stable D s.vals pr

/-- Running one process keeps the invariant, and establishes it for that process. -/
theorem step_inv {D : Design} (hD : Clean D) {E : Nat → Prop} {p : Nat} {v : VarId} {pr : Proc} {s s' : S}
    (hp : D.procs[p]? = some pr) (hf : Fit D s.vals)
    (hI : ∀ (q : Nat) qr, D.procs[q]? = some qr → q ≠ p → E q ∨ (∃ v, (v, q) ∈ s.q) ∨ Stable D s.vals qr)
    (h : runProc D p v pr s = .ok s') : Inv D (fun q => E q ∧ q ≠ p) s' := by
  obtain ⟨⟨new, hq, ht⟩, f, hu, hv⟩ := proc_step hD hp hf h
  refine ⟨f, ?_⟩
  intro q qr hqr
  by_cases hqp : q = p
  · subst hqp
    rw [hp] at hqr; injection hqr with hqr; subst hqr
    right
    cases pr with
    | seq _ _ => right; trivial
    | comb b =>
      right
      exact hD.idem q _ hp s.vals s'.vals hf (hv rfl)
    | assign l r =>
      rcases Classical.em (l.v ∈ exprDeps r ∧ s'.vals l.v ≠ s.vals l.v) with ⟨h1, h2⟩ | hn
      · left
        have hm : q ∈ D.order l.v := (hD.ok.order l.v q).2 ⟨_, hp, h1⟩
        exact ⟨l.v, by rw [hq]; exact List.mem_append_right _ (ht l.v h2 q hm (by simp [scopeOf]))⟩
      · right
        have hv := hv rfl
        have heq : ∀ x, x ∈ exprDeps r → s.vals x = s'.vals x := by
          intro x hx
          by_cases hxl : x = l.v
          · subst hxl
            apply Classical.byContradiction
            intro hne
            exact hn ⟨hx, fun e => hne e.symm⟩
          · exact (hu x (by simpa [Proc.writes] using hxl)).symm
        have hsim := simE_congr D.cpow r .value (va := s.vals) (vb := s'.vals)
          (fun x hx => heq x ((hD.deps q _ hp).1 x hx))
        obtain ⟨⟨-, h0, hl, -, -⟩, -⟩ := hD.shape q _ hp
        simp only [Stable, Proc.block, asBlock, vruns, vrun, Res.bind_eq_ok] at hv ⊢
        rw [hsim] at hv
        obtain ⟨a, ⟨o, ho, hv⟩, hv2⟩ := hv
        injection hv2 with hv2
        subst hv2
        refine ⟨_, ⟨o, ho, ?_⟩, rfl⟩
        cases o with
        | none => rfl
        | some x =>
          simp only [vset, Bool.false_eq_true, if_false] at hv ⊢
          rw [if_pos ⟨h0, hl⟩] at hv ⊢
          simp only [Res.ok_bind] at hv ⊢
          injection hv with hv
          injection hv with hv _
          rw [updV_same]
          rw [← hv]; simp [updV]
  · rcases hI q qr hqr hqp with h1 | ⟨w, h1⟩ | h1
    · exact Or.inl ⟨h1, hqp⟩
    · exact Or.inr (Or.inl ⟨w, by rw [hq]; exact List.mem_append_left _ h1⟩)
    · right
      cases hseq : qr.isSeq with
      | true => right; rw [stable_iff]; exact Or.inl hseq
      | false =>
        rcases Classical.em (∃ x ∈ qr.deps, s'.vals x ≠ s.vals x) with ⟨x, hx, hne⟩ | hn
        · left
          have hm : q ∈ D.order x := (hD.ok.order x q).2 ⟨qr, hqr, hx⟩
          have hsc : scopeOf p pr ≠ some q := by
            cases pr <;> simp [scopeOf]
            exact fun e => hqp e.symm
          exact ⟨x, by rw [hq]; exact List.mem_append_right _ (ht x hne q hm hsc)⟩
        · right
          refine frame_proc hD hqr f (fun x hx => ?_) (fun x hx => ?_) h1
          · apply Classical.byContradiction
            intro hne
            exact hn ⟨x, hx, fun e => hne e.symm⟩
          · exact (hu x (fun hxp => hD.single p q pr qr hp hqr (fun e => hqp e.symm) x hxp hx)).symm

theorem evalLoop_inv {D : Design} (hD : Clean D) {E : Nat → Prop} : ∀ (n : Nat) (s s' : S), Inv D E s →
    evalLoop D n s = .ok s' → Inv D E s' ∧ s'.q = []
  | 0, s, s', hI, h => by
    simp only [evalLoop] at h
    split at h
    · rename_i hq; injection h with h; subst h; exact ⟨hI, hq⟩
    · cases h
  | n + 1, s, s', hI, h => by
    simp only [evalLoop] at h
    split at h
    · rename_i hq; injection h with h; subst h; exact ⟨hI, hq⟩
    · rename_i v p q hq
      split at h
      · cases h
      · split at h
        · cases h
        · rename_i pr hpr
          rw [Res.bind_eq_ok] at h
          obtain ⟨s1, h1, h⟩ := h
          have := step_inv hD (E := E) (s := { s with q := q }) hpr hI.1 (by
            intro q' qr hqr hne
            rcases hI.2 q' qr hqr with h | ⟨w, h⟩ | h
            · exact Or.inl h
            · rw [hq] at h
              rcases List.mem_cons.1 h with h | h
              · injection h with _ h; exact absurd h hne
              · exact Or.inr (Or.inl ⟨w, h⟩)
            · exact Or.inr (Or.inr h)) h1
          exact evalLoop_inv hD n s1 s' ⟨this.1, fun q qr hq => by
            rcases this.2 q qr hq with h | h
            · exact Or.inl h.1
            · exact Or.inr h⟩ h

end Kratos.Sim
