import Verif.Sim.SettleProps

/-!
# C134: clocking and resetting a design from Python

`Simulator.cycle` and `Simulator.reset` of kratos/sim.py, on the simulator of C53 and C54.
-/

namespace Kratos.Sim

open Kratos.Ir

/-! ### The Python wrapper -/

/-- The only element (kratos/sim.py:11-19). -/
def theOnly : List VarId → Option VarId
  | [v] => some v
  | _ => none

/-- What the wrapper keeps: the clock and the asynchronous reset. -/
structure Py where
  clk : Option VarId
  rst : Option VarId

/-- `Simulator.__init__` (kratos/sim.py:7-19), from the ports of type `Clock` and `AsyncReset`. -/
def Py.make (clks rsts : List VarId) : Py := ⟨theOnly clks, theOnly rsts⟩

/-- `self.set(v, a); self.set(v, b)` (kratos/sim.py:34-35, src/sim.cc:556-559). `n` bounds the rounds of one evaluation. -/
def pulse (D : Design) (n : Nat) (v : VarId) (a b : U64) (s : S) : Res S :=
  (set D n v a s).bind fun s => set D n v b s

/-- The loop of `cycle` (kratos/sim.py:33-35). -/
def cycles (D : Design) (n : Nat) (v : VarId) : Nat → S → Res S
  | 0, s => .ok s
  | k + 1, s => (pulse D n v 1 0 s).bind fun s => cycles D n v k s

/-- `Simulator.cycle` (kratos/sim.py:30-35); `range` of a negative number is empty. -/
def Py.cycle (py : Py) (D : Design) (n : Nat) (k : Int) (s : S) : Res S :=
  match py.clk with
  | none => .throw .user
  | some v => cycles D n v k.toNat s

/-- `Simulator.reset` (kratos/sim.py:37-45). -/
def Py.reset (py : Py) (D : Design) (n : Nat) (high : Bool) (s : S) : Res S :=
  match py.rst with
  | none => .throw .user
  | some v => if high then pulse D n v 1 0 s else pulse D n v 0 1 s

/-! ### Specification -/

/-- The store with one variable changed. -/
def put1 (σ : Store) (v : VarId) (x : Nat) : Store := fun y => if y = v then x else σ y

/-- A block sensitive to `evs` reacts when `v` gets the value `x`. -/
def Reacts (evs : List (Bool × VarId)) (v : VarId) (x : Nat) : Prop :=
  (true, v) ∈ evs ∧ x ≠ 0 ∨ (false, v) ∈ evs ∧ x = 0

/-- From `σ` to `σ'`: the registers of block `p` take the values of its non-blocking assignments, executed with `v` at level
`x`; inputs and all other registers stay; the combinational equations hold. -/
structure Pulse (D : Design) (ι : Nat → St → St) (p : Nat) (b : Stmts) (v : VarId) (x : Nat) (σ σ' : Store) : Prop where
  inputs : ∀ y, Undriven D y → σ' y = σ y
  registers : ∀ y ∈ stmtsWrites b, σ' y = (b.exec ι ⟨put1 σ v x, [], .run⟩).commit y
  others : ∀ (q : Nat) evs c, D.procs[q]? = some (.seq evs c) → q ≠ p → ∀ y ∈ stmtsWrites c, σ' y = σ y
  equations : ∀ (q : Nat) pr, D.procs[q]? = some pr → Solves ι σ' pr

/-- `k` steps. -/
inductive Steps (R : Store → Store → Prop) : Nat → Store → Store → Prop where
  | zero {σ} : Steps R 0 σ σ
  | succ {k σ τ ρ} : R σ τ → Steps R k τ ρ → Steps R (k + 1) σ ρ

/-- A state in which nothing is left to do, and the values of the variables `U` of the design are known. -/
def Steady (D : Design) (U : VarId → Prop) (s : S) (σ : Store) : Prop := Reached D s ∧ s.q = [] ∧ Rep U s.vals σ

/-- `v` is a clock or reset of one register block: only the block `p` depends on it, no clock or reset is computed
by the design, and the block assigns nothing twice. -/
structure Drives (D : Design) (ι : Nat → St → St) (v : VarId) (p : Nat) (evs : List (Bool × VarId)) (b : Stmts) : Prop where
  block : D.procs[p]? = some (.seq evs b)
  listens : v ∈ evs.map Prod.snd
  sole : ∀ (q : Nat) pr, D.procs[q]? = some pr → v ∈ pr.deps → q = p
  /-- `dependency_` holds sets (src/sim.hh:36) -/
  nodup : (D.order v).Nodup
  ports : ∀ (q : Nat) es c, D.procs[q]? = some (.seq es c) → ∀ y ∈ es.map Prod.snd, Undriven D y
  once : ∀ σ, ((b.exec ι ⟨σ, [], .run⟩).nba.map fun e => e.1.v).Nodup

/-- **Full claim C134** (one cycle): `cycle()` advances the registers by one clock edge. -/
def CycleClaim : Prop := ∀ D U ι v p b s σ n s', Clean D → Quiet D → Covers D U → U v →
  (∀ (p : Nat) pr, D.procs[p]? = some pr → ProcConds D.width pr) → Drives D ι v p [(true, v)] b → Steady D U s σ →
  (Py.make [v] []).cycle D n 1 s = .ok s' → ∃ σ', Steady D U s' σ' ∧
    ∀ y ∈ stmtsWrites b, σ' y = (b.exec ι ⟨put1 σ v 1, [], .run⟩).commit y

/-! ### What gets queued -/

/-- Only dependents of variables in `ws` get queued, and no value is forgotten. -/
def Grows (D : Design) (ws : VarId → Prop) (s s' : S) : Prop :=
  (∀ e ∈ s'.q, e ∈ s.q ∨ (ws e.1 ∧ e.2 ∈ D.order e.1)) ∧ ∀ x, s.vals x ≠ none → s'.vals x ≠ none

theorem Grows.refl (D : Design) (ws : VarId → Prop) (s : S) : Grows D ws s s := ⟨fun _ h => Or.inl h, fun _ h => h⟩

theorem Grows.trans {D : Design} {ws : VarId → Prop} {a b c : S} (h1 : Grows D ws a b) (h2 : Grows D ws b c) : Grows D ws a c := by
  refine ⟨fun e he => ?_, fun x hx => h2.2 x (h1.2 x hx)⟩
  rcases h2.1 e he with h | h
  · exact h1.1 e h
  · exact Or.inr h

theorem Grows.mono {D : Design} {ws ws' : VarId → Prop} {a b : S} (h : Grows D ws a b) (hw : ∀ x, ws x → ws' x) : Grows D ws' a b :=
  ⟨fun e he => (h.1 e he).imp id fun h => ⟨hw _ h.1, h.2⟩, h.2⟩

theorem trigger_grows (D : Design) (sc : Option Nat) (v : VarId) (x : U64) (s : S) :
    Grows D (· = v) s (trigger D sc v { s with vals := updV s.vals v x }) := by
  refine ⟨fun e he => ?_, fun y hy => ?_⟩
  · simp only [trigger, List.mem_append, List.mem_map, List.mem_filter] at he
    rcases he with he | ⟨p, ⟨hp, _⟩, rfl⟩
    · exact Or.inl he
    · exact Or.inr ⟨rfl, hp⟩
  · rw [trigger_vals]
    simp only [updV]
    split
    · simp
    · exact hy

theorem upd_grows (D : Design) (v : VarId) (x : U64) (s : S) : Grows D (· = v) s { s with vals := updV s.vals v x } := by
  refine ⟨fun e he => Or.inl he, fun y hy => ?_⟩
  simp only [updV]
  split
  · simp
  · exact hy

theorem setWhole_grows (D : Design) (sc : Option Nat) (v : VarId) (x : U64) (s : S) : Grows D (· = v) s (setWhole D sc v x s) := by
  unfold setWhole
  split
  · split
    · exact Grows.refl ..
    · dsimp only
      split
      · exact trigger_grows ..
      · exact upd_grows ..
  · dsimp only
    split
    · exact upd_grows ..
    · exact trigger_grows ..

theorem setLVal_grows {D : Design} {sc : Option Nat} {l : LVal} {x : U64} {s s' : S} (h : setLVal D sc l x s = .ok s') :
    Grows D (· = l.v) s s' := by
  unfold setLVal at h
  split at h
  · injection h with h; subst h; exact setWhole_grows ..
  · dsimp only at h
    rw [Res.bind_eq_ok] at h
    obtain ⟨y, _, h⟩ := h
    injection h with h
    subst h
    split
    · exact trigger_grows ..
    · exact upd_grows ..

mutual
theorem run_grows (D : Design) (sc : Option Nat) : ∀ (st : Stmt) (a b : S × Nba), run D sc st a = .ok b →
    Grows D (· ∈ stmtWrites st) a.1 b.1
  | .assign nb l r, a, b, h => by
    simp only [run, Res.bind_eq_ok] at h
    obtain ⟨o, ho, h⟩ := h
    cases o with
    | none => injection h with h; subst h; exact Grows.refl ..
    | some v =>
      simp only at h
      split at h
      · injection h with h; subst h; exact Grows.refl ..
      · rw [Res.bind_eq_ok] at h
        obtain ⟨s', hs, h⟩ := h
        injection h with h; subst h
        exact (setLVal_grows hs).mono fun x hx => by simp [stmtWrites, hx]
  | .ite c t e, a, b, h => by
    simp only [run, Res.bind_eq_ok] at h
    obtain ⟨o, ho, h⟩ := h
    split at h
    · exact (runs_grows D sc t a b h).mono fun x hx => by simp [stmtWrites, hx]
    · exact (runs_grows D sc e a b h).mono fun x hx => by simp [stmtWrites, hx]
  | .switch tgt cs, a, b, h => by
    simp only [run, Res.bind_eq_ok] at h
    obtain ⟨o, ho, h⟩ := h
    cases o with
    | none => exact (runDefault_grows D sc cs a b h).mono fun x hx => hx
    | some v =>
      exact runCases_grows D sc tgt.width v (· ∈ casesWrites cs) cs .ok (fun _ hx => hx)
        (fun a b h => by injection h with h; subst h; exact Grows.refl ..) a b h
  | .for_ _ _ _ _ _, _, _, h => by cases h
  | .ret _, _, _, h => by cases h
  | .brk, _, _, h => by cases h
  | .other _, _, _, h => by cases h
theorem runs_grows (D : Design) (sc : Option Nat) : ∀ (st : Stmts) (a b : S × Nba), runs D sc st a = .ok b →
    Grows D (· ∈ stmtsWrites st) a.1 b.1
  | .nil, a, b, h => by injection h with h; subst h; exact Grows.refl ..
  | .cons s ss, a, b, h => by
    simp only [runs, Res.bind_eq_ok] at h
    obtain ⟨c, hc, h⟩ := h
    exact ((run_grows D sc s a c hc).mono fun x hx => by simp [stmtsWrites, hx]).trans
      ((runs_grows D sc ss c b h).mono fun x hx => by simp [stmtsWrites, hx])
theorem runDefault_grows (D : Design) (sc : Option Nat) : ∀ (cs : Cases) (a b : S × Nba), runDefault D sc cs a = .ok b →
    Grows D (· ∈ casesWrites cs) a.1 b.1
  | .nil, a, b, h => by injection h with h; subst h; exact Grows.refl ..
  | .cons none bd cs, a, b, h => (runs_grows D sc bd a b h).mono fun x hx => by simp [casesWrites, hx]
  | .cons (some _) bd cs, a, b, h => (runDefault_grows D sc cs a b h).mono fun x hx => by simp [casesWrites, hx]
theorem runCases_grows (D : Design) (sc : Option Nat) (w : Nat) (v : U64) (ws : VarId → Prop) : ∀ (cs : Cases)
    (k : S × Nba → Res (S × Nba)), (∀ x ∈ casesWrites cs, ws x) → (∀ a b, k a = .ok b → Grows D ws a.1 b.1) →
    ∀ (a b : S × Nba), runCases D sc w v cs k a = .ok b → Grows D ws a.1 b.1
  | .nil, k, _, hk, a, b, h => hk a b h
  | .cons none bd cs, k, hw, hk, a, b, h => by
    simp only [runCases] at h
    exact runCases_grows D sc w v ws cs _ (fun x hx => hw x (by simp [casesWrites, hx]))
      (fun a b h => (runs_grows D sc bd a b h).mono fun x hx => hw x (by simp [casesWrites, hx])) a b h
  | .cons (some c) bd cs, k, hw, hk, a, b, h => by
    simp only [runCases, Res.bind_eq_ok] at h
    obtain ⟨bits, _, h⟩ := h
    split at h
    · exact (runs_grows D sc bd a b h).mono fun x hx => hw x (by simp [casesWrites, hx])
    · exact runCases_grows D sc w v ws cs k (fun x hx => hw x (by simp [casesWrites, hx])) hk a b h
end

theorem commit_grows (D : Design) (ws : VarId → Prop) : ∀ (P : Nba) (s s' : S), (∀ e ∈ P, ws e.1.v) → commit D P s = .ok s' →
    Grows D ws s s'
  | [], s, s', _, h => by injection h with h; subst h; exact Grows.refl ..
  | (l, x) :: P, s, s', hw, h => by
    simp only [commit, Res.bind_eq_ok] at h
    obtain ⟨a, ha, h⟩ := h
    exact ((setLVal_grows ha).mono fun y hy => by subst hy; exact hw (l, x) (List.mem_cons_self ..)).trans
      (commit_grows D ws P a s' (fun e he => hw e (List.mem_cons_of_mem _ he)) h)

theorem runProc_grows {D : Design} (hD : Clean D) {p : Nat} {v : VarId} {pr : Proc} {s s' : S} (hp : D.procs[p]? = some pr)
    (hf : Fit D s.vals) (h : runProc D p v pr s = .ok s') : Grows D (· ∈ pr.writes) s s' := by
  have hsh := hD.shape p pr hp
  cases pr with
  | assign l r =>
    simp only [runProc, Res.bind_eq_ok] at h
    obtain ⟨a, ha, h⟩ := h
    injection h with h; subst h
    exact run_grows D none _ _ _ ha
  | comb b =>
    simp only [runProc, Res.bind_eq_ok] at h
    obtain ⟨a, ha, h⟩ := h
    injection h with h; subst h
    exact runs_grows D (some p) _ _ _ ha
  | seq evs b =>
    simp only [runProc] at h
    split at h
    · rw [Res.bind_eq_ok] at h
      obtain ⟨a, ha, h⟩ := h
      obtain ⟨h1, h2⟩ := runs_nba D none (stmtsWrites b) b (s, []) a hsh hf (fun _ hx => hx) (by intro e he; cases he) ha
      rw [h1] at h
      exact commit_grows D _ _ _ _ (fun e he => (h2 e ((hD.ok.nba a.2).mem_iff.1 he)).2.2.2) h
    · injection h with h; subst h
      exact Grows.refl ..

/-! ### Settling after an edge -/

/-- A variable no continuous assignment and no combinational block assigns. -/
def NotComb (D : Design) (x : VarId) : Prop := ∀ (p : Nat) pr, D.procs[p]? = some pr → pr.isSeq = false → x ∉ pr.writes

/-- Only combinational processes are queued. -/
def CombQ (D : Design) (s : S) : Prop := ∀ e ∈ s.q, ∃ pr, D.procs[e.2]? = some pr ∧ pr.isSeq = false

theorem combQ_of_grows {D : Design} (hD : Clean D)
    (hP : ∀ (q : Nat) es c, D.procs[q]? = some (.seq es c) → ∀ y ∈ es.map Prod.snd, Undriven D y)
    {p : Nat} {pr : Proc} {s s' : S} (hp : D.procs[p]? = some pr) (hq : CombQ D s) (hg : Grows D (· ∈ pr.writes) s s') : CombQ D s' := by
  intro e he
  rcases hg.1 e he with h | ⟨h1, h2⟩
  · exact hq e h
  · obtain ⟨qr, hqr, hd⟩ := (hD.ok.order e.1 e.2).1 h2
    refine ⟨qr, hqr, ?_⟩
    cases qr with
    | assign _ _ => rfl
    | comb _ => rfl
    | seq es c => exact absurd h1 (hP e.2 es c hqr e.1 hd p pr hp)

theorem settle_frame {D : Design} (hD : Clean D)
    (hP : ∀ (q : Nat) es c, D.procs[q]? = some (.seq es c) → ∀ y ∈ es.map Prod.snd, Undriven D y) :
    ∀ (n : Nat) (s s' : S), CombQ D s → Fit D s.vals → evalLoop D n s = .ok s' →
      (∀ x, NotComb D x → s'.vals x = s.vals x) ∧ (∀ x, s.vals x ≠ none → s'.vals x ≠ none)
  | 0, s, s', _, _, h => by
    simp only [evalLoop] at h
    split at h
    · injection h with h; subst h; exact ⟨fun _ _ => rfl, fun _ h => h⟩
    · cases h
  | n + 1, s, s', hq, hf, h => by
    simp only [evalLoop] at h
    split at h
    · injection h with h; subst h; exact ⟨fun _ _ => rfl, fun _ h => h⟩
    · rename_i v p q e
      split at h
      · cases h
      · obtain ⟨pr, hp, hs⟩ := hq (v, p) (by rw [e]; exact List.mem_cons_self ..)
        simp only at hp
        rw [hp] at h
        simp only [Res.bind_eq_ok] at h
        obtain ⟨s1, h1, h⟩ := h
        have hq' : CombQ D { s with q := q } := fun x hx => hq x (by rw [e]; exact List.mem_cons_of_mem _ hx)
        have hg := runProc_grows hD hp (s := { s with q := q }) hf h1
        obtain ⟨_, f1, k1, _⟩ := proc_step hD hp (s := { s with q := q }) hf h1
        obtain ⟨r1, r2⟩ := settle_frame hD hP n s1 s' (combQ_of_grows hD hP hp hq' hg) f1 h
        exact ⟨fun x hx => (r1 x hx).trans (k1 x (hx p pr hp hs)), fun x hx => r2 x (hg.2 x hx)⟩

mutual
theorem rep_holds {U : VarId → Prop} {vals : Vals} {σ : Store} (h : Rep U vals σ) : ∀ (st : Stmt), ReadsIn U st → HoldsStmt vals σ st
  | .assign _ _ r, hu => fun x hx => h.known (hu x hx)
  | .ite c t e, hu => ⟨fun x hx => h.known (hu.1 x hx), reps_holds h t hu.2.1, reps_holds h e hu.2.2⟩
  | .switch tgt cs, hu => ⟨fun x hx => h.known (hu.1 x hx), repc_holds h cs hu.2⟩
  | .for_ _ _ _ _ _, _ => trivial
  | .ret _, _ => trivial
  | .brk, _ => trivial
  | .other _, _ => trivial
theorem reps_holds {U : VarId → Prop} {vals : Vals} {σ : Store} (h : Rep U vals σ) : ∀ (st : Stmts), ReadsInS U st → HoldsStmts vals σ st
  | .nil, _ => trivial
  | .cons s ss, hu => ⟨rep_holds h s hu.1, reps_holds h ss hu.2⟩
theorem repc_holds {U : VarId → Prop} {vals : Vals} {σ : Store} (h : Rep U vals σ) : ∀ (st : Cases), ReadsInC U st → HoldsCases vals σ st
  | .nil, _ => trivial
  | .cons _ b cs, hu => ⟨reps_holds h b hu.1, repc_holds h cs hu.2⟩
end

/-- The level of a variable. -/
theorem triggered_reacts {vals : Vals} {evs : List (Bool × VarId)} {v : VarId} {x : U64} (hv : vals v = some x) :
    triggered vals evs v = true ↔ Reacts evs v x.toNat := by
  have hz : x = 0 ↔ x.toNat = 0 := by
    constructor
    · rintro rfl; rfl
    · intro h; exact BitVec.eq_of_toNat_eq (by simpa using h)
  simp only [triggered, List.any_eq_true, Bool.and_eq_true, decide_eq_true_eq, Reacts]
  constructor
  · rintro ⟨⟨e, y⟩, hm, hy, h⟩
    simp only at hy
    subst hy
    simp only [hv] at h
    cases e with
    | true => exact Or.inl ⟨hm, fun h0 => by simp only [if_true, bne_iff_ne, ne_eq] at h; exact h (hz.2 h0)⟩
    | false => exact Or.inr ⟨hm, hz.1 (by simpa using h)⟩
  · rintro (⟨hm, h⟩ | ⟨hm, h⟩)
    · exact ⟨(true, v), hm, rfl, by simp only [hv, if_true, bne_iff_ne, ne_eq]; exact fun h0 => h (hz.1 h0)⟩
    · exact ⟨(false, v), hm, rfl, by simp only [hv, Bool.false_eq_true, if_false, beq_iff_eq]; exact hz.2 h⟩

theorem singleton_of {l : List Nat} {p : Nat} (hn : l.Nodup) (h : ∀ q, q ∈ l ↔ q = p) : l = [p] := by
  cases l with
  | nil => exact absurd ((h p).2 rfl) (by simp)
  | cons a l =>
    have ha := (h a).1 (List.mem_cons_self ..)
    subst ha
    cases l with
    | nil => rfl
    | cons b l =>
      have hb := (h b).1 (by simp)
      subst hb
      simp at hn

/-- What setting a clock or reset does. -/
structure Edge (D : Design) (ι : Nat → St → St) (p : Nat) (evs : List (Bool × VarId)) (b : Stmts) (v : VarId) (x : Nat) (σ σ' : Store) : Prop where
  inputs : ∀ y, Undriven D y → σ' y = put1 σ v x y
  hit : Reacts evs v x → ∀ y ∈ stmtsWrites b, σ' y = (b.exec ι ⟨put1 σ v x, [], .run⟩).commit y
  miss : ¬ Reacts evs v x → ∀ y ∈ stmtsWrites b, σ' y = σ y
  others : ∀ (q : Nat) es c, D.procs[q]? = some (.seq es c) → q ≠ p → ∀ y ∈ stmtsWrites c, σ' y = σ y
  equations : ∀ (q : Nat) pr, D.procs[q]? = some pr → Solves ι σ' pr

theorem edge {D : Design} {U : VarId → Prop} {ι : Nat → St → St} (hD : Clean D) (hQ : Quiet D) (hU : Covers D U)
    (hC : ∀ (p : Nat) pr, D.procs[p]? = some pr → ProcConds D.width pr) {v : VarId} {p : Nat} {evs : List (Bool × VarId)} {b : Stmts}
    (hK : Drives D ι v p evs b) (hv : U v) {s s' : S} {σ : Store} (hs : Steady D U s σ) {n : Nat} {x : U64}
    (hx : x.toNat < 2 ^ D.width v) (hne : σ v ≠ x.toNat) (h : set D n v x s = .ok s') :
    ∃ σ', Steady D U s' σ' ∧ Edge D ι p evs b v x.toNat σ σ' := by
  obtain ⟨hr, hq, hR⟩ := hs
  have huv : Undriven D v := hK.ports p evs b hK.block v hK.listens
  have hr1 : Reached D (setWhole D none v x s) := .poke hr huv hx
  have hr' : Reached D s' := .eval hr1 h
  have hf := (reached_inv hD hQ hr).1
  obtain ⟨u, hu, hus⟩ := hR.known hv
  have hux : u ≠ x := fun e => hne (by rw [← hus, e])
  have hw := hD.width v
  have hord : D.order v = [p] := singleton_of hK.nodup fun q => by
    rw [hD.ok.order v q]
    constructor
    · rintro ⟨pr, h1, h2⟩; exact hK.sole q pr h1 h2
    · rintro rfl; exact ⟨_, hK.block, hK.listens⟩
  -- the state with the new value
  have hset : setWhole D none v x s = ⟨updV s.vals v x, [(v, p)], s.depth + 1⟩ := by
    unfold setWhole
    rw [hu]
    simp only
    rw [if_neg hux, if_pos (bitsDiffer_of_ne (by omega) hx (hf v u hu) fun e => hux e.symm)]
    simp [trigger, hord, hq]
  have hf1 : Fit D (updV s.vals v x) := by
    have := (reached_inv hD hQ hr1).1
    rw [hset] at this
    exact this
  have hR1 : Rep U (updV s.vals v x) (put1 σ v x.toNat) := by
    intro y
    by_cases e : y = v
    · subst e; exact Or.inl ⟨x, by simp [updV], by simp [put1]⟩
    · rcases hR y with ⟨w, h1, h2⟩ | ⟨h1, h2, h3⟩
      · exact Or.inl ⟨w, by simp [updV, e, h1], by simp [put1, e, h2]⟩
      · exact Or.inr ⟨by simp [updV, e, h1], by simp [put1, e, h2], h3⟩
  rw [set, eval, hset] at h
  cases n with
  | zero => simp [evalLoop] at h
  | succ n =>
    simp only [evalLoop, hK.block] at h
    rw [if_neg (by simp [maxDepth])] at h
    rw [Res.bind_eq_ok] at h
    obtain ⟨s1, h1, h⟩ := h
    have hg := runProc_grows hD hK.block (s := ⟨updV s.vals v x, [], 0⟩) hf1 h1
    obtain ⟨_, f1, k1, _⟩ := proc_step hD hK.block (s := ⟨updV s.vals v x, [], 0⟩) hf1 h1
    have hcq : CombQ D s1 := combQ_of_grows hD hK.ports hK.block (s := ⟨updV s.vals v x, [], 0⟩) (by intro e he; cases he) hg
    obtain ⟨r1, r2⟩ := settle_frame hD hK.ports n s1 s' hcq f1 h
    have hq' : s'.q = [] := (evalLoop_inv hD (E := fun _ => True) n s1 s' ⟨f1, fun _ _ _ => Or.inl trivial⟩ h).2
    have known : ∀ y, U y → s'.vals y ≠ none := by
      intro y hy
      obtain ⟨w, hw, _⟩ := hR1.known hy
      exact r2 y (hg.2 y (by simp [hw]))
    have hR' := rep_of_known known
    refine ⟨_, ⟨hr', hq', hR'⟩, ?_⟩
    have val : ∀ y u', s'.vals y = some u' → ((s'.vals y).map (·.toNat)).getD 0 = u'.toNat := by
      intro y u' hy; simp [hy]
    -- values that survive
    have same : ∀ y, NotComb D y → s1.vals y = updV s.vals v x y → ((s'.vals y).map (·.toNat)).getD 0 = put1 σ v x.toNat y := by
      intro y h2 h3
      rw [r1 y h2, h3]
      rcases hR1 y with ⟨w, h4, h5⟩ | ⟨h4, h5, _⟩
      · rw [h4, ← h5]; rfl
      · rw [h4, h5]; rfl
    have undriven_notComb : ∀ y, Undriven D y → NotComb D y := fun y hy q qr hqr _ => hy q qr hqr
    have reg_notComb : ∀ (q : Nat) es c, D.procs[q]? = some (.seq es c) → ∀ y ∈ stmtsWrites c, NotComb D y := by
      intro q es c hqc y hy q' qr hqr hsq hm
      have hne : q' ≠ q := by
        rintro rfl
        rw [hqc] at hqr
        injection hqr with hqr
        subst hqr
        cases hsq
      exact hD.single q' q qr _ hqr hqc hne y hm hy
    have vne : ∀ (q : Nat) es c, D.procs[q]? = some (.seq es c) → ∀ y ∈ stmtsWrites c, y ≠ v := by
      rintro q es c hqc y hy rfl
      exact huv q _ hqc hy
    refine ⟨?_, ?_, ?_, ?_, ?_⟩
    · intro y hy
      exact same y (undriven_notComb y hy) (k1 y (hy p _ hK.block))
    · intro hre y hy
      have ht : triggered (updV s.vals v x) evs v = true := (triggered_reacts (by simp [updV])).2 hre
      have hsq := seq_partial D hD.ok ι p v evs b ⟨updV s.vals v x, [], 0⟩ s1 (put1 σ v x.toNat) (hR1.lt hf1) (hD.shape p _ hK.block)
        (reps_holds hR1 b (hU p _ hK.block).1) ht (hK.once _) h1 y
      have hnc := reg_notComb p evs b hK.block y hy
      split at hsq
      · obtain ⟨w, h2, h3⟩ := hsq
        rw [r1 y hnc, h2, ← h3]; rfl
      · rw [hsq.2]
        exact same y hnc hsq.1
    · intro hre y hy
      have ht : triggered (updV s.vals v x) evs v = false := by
        cases hc : triggered (updV s.vals v x) evs v with
        | false => rfl
        | true => exact absurd ((triggered_reacts (by simp [updV])).1 hc) hre
      rw [seq_not_triggered D p v evs b ⟨updV s.vals v x, [], 0⟩ ht] at h1
      injection h1 with h1
      have := same y (reg_notComb p evs b hK.block y hy) (by rw [← h1])
      rw [this]
      simp [put1, vne p evs b hK.block y hy]
    · intro q es c hqc hqp y hy
      have := same y (reg_notComb q es c hqc y hy) (k1 y (hD.single q p _ _ hqc hK.block hqp y hy))
      rw [this]
      simp [put1, vne q es c hqc y hy]
    · intro q qr hqr
      exact settle_solves ι hD hQ hU hC hr1 (n := n + 1) (s' := s') (by
        simp only [eval, hset, evalLoop, hK.block]
        rw [if_neg (by simp [maxDepth])]
        rw [Res.bind_eq_ok]
        exact ⟨s1, h1, h⟩) hR' q qr hqr

/-- **C134, a pulse**: setting a clock or reset that is idle to its active level and back - the block reacting to the one and not to the
other - executes the block once with the values before; all registers change at the same moment, other registers and the
inputs stay, and the combinational logic has settled. -/
theorem pulse_partial {D : Design} {U : VarId → Prop} {ι : Nat → St → St} (hD : Clean D) (hQ : Quiet D) (hU : Covers D U)
    (hC : ∀ (p : Nat) pr, D.procs[p]? = some pr → ProcConds D.width pr) {v : VarId} {p : Nat} {evs : List (Bool × VarId)} {b : Stmts}
    (hK : Drives D ι v p evs b) (hv : U v) {s s' : S} {σ : Store} (hs : Steady D U s σ) {n : Nat} {a i : U64}
    (ha : a.toNat < 2 ^ D.width v) (hi : i.toNat < 2 ^ D.width v) (hne : a.toNat ≠ i.toNat) (hidle : σ v = i.toNat)
    (hra : Reacts evs v a.toNat) (hri : ¬ Reacts evs v i.toNat) (h : pulse D n v a i s = .ok s') :
    ∃ σ', Steady D U s' σ' ∧ Pulse D ι p b v a.toNat σ σ' := by
  simp only [pulse, Res.bind_eq_ok] at h
  obtain ⟨s1, h1, h2⟩ := h
  have huv : Undriven D v := hK.ports p evs b hK.block v hK.listens
  obtain ⟨σ1, st1, e1⟩ := edge hD hQ hU hC hK hv hs ha (by rw [hidle]; exact fun e => hne e.symm) h1
  have h1v : σ1 v = a.toNat := by rw [e1.inputs v huv]; simp [put1]
  obtain ⟨σ2, st2, e2⟩ := edge hD hQ hU hC hK hv st1 hi (by rw [h1v]; exact hne) h2
  refine ⟨σ2, st2, ?_, ?_, ?_, e2.equations⟩
  · intro y hy
    rw [e2.inputs y hy]
    by_cases e : y = v
    · subst e; simp [put1, hidle]
    · simp only [put1, e, if_false]
      rw [e1.inputs y hy]
      simp [put1, e]
  · intro y hy
    rw [e2.miss hri y hy, e1.hit hra y hy]
  · intro q es c hqc hqp y hy
    rw [e2.others q es c hqc hqp y hy, e1.others q es c hqc hqp y hy]

/-- **C134, cycles**: with the clock low, `cycle(k)` makes `k` clock cycles: each executes the register block once. -/
theorem cycle_partial {D : Design} {U : VarId → Prop} {ι : Nat → St → St} (hD : Clean D) (hQ : Quiet D) (hU : Covers D U)
    (hC : ∀ (p : Nat) pr, D.procs[p]? = some pr → ProcConds D.width pr) {v : VarId} {p : Nat} {evs : List (Bool × VarId)} {b : Stmts}
    (hK : Drives D ι v p evs b) (hv : U v) (hpos : (true, v) ∈ evs) (hneg : (false, v) ∉ evs) {n : Nat} {rsts : List VarId} {k : Int}
    {s s' : S} {σ : Store} (hs : Steady D U s σ) (hlow : σ v = 0) (h : (Py.make [v] rsts).cycle D n k s = .ok s') :
    ∃ σ', Steady D U s' σ' ∧ Steps (Pulse D ι p b v 1) k.toNat σ σ' ∧ σ' v = 0 := by
  have huv : Undriven D v := hK.ports p evs b hK.block v hK.listens
  have hw := (hD.width v).1
  have h2 : 2 ≤ 2 ^ D.width v := by
    have := Nat.pow_le_pow_right (n := 2) (by omega) hw
    omega
  simp only [Py.cycle, Py.make, theOnly] at h
  generalize k.toNat = m at h ⊢
  induction m generalizing s σ with
  | zero => injection h with h; subst h; exact ⟨σ, hs, .zero, hlow⟩
  | succ m ih =>
    simp only [cycles, Res.bind_eq_ok] at h
    obtain ⟨s1, h1, h⟩ := h
    obtain ⟨σ1, st1, e1⟩ := pulse_partial hD hQ hU hC hK hv hs (a := 1) (i := 0) (show 1 < _ by omega) (show 0 < _ by omega) (by decide)
      hlow (Or.inl ⟨hpos, by decide⟩) (by
        rintro (⟨_, h⟩ | ⟨h, _⟩)
        · exact h rfl
        · exact hneg h) h1
    obtain ⟨σ', st', e', hl'⟩ := ih st1 (by rw [e1.inputs v huv, hlow]) h
    exact ⟨σ', st', .succ e1 e', hl'⟩

/-- **C134, reset**: with the reset inactive, `reset(high)` executes the register block once with the reset active. -/
theorem reset_partial {D : Design} {U : VarId → Prop} {ι : Nat → St → St} (hD : Clean D) (hQ : Quiet D) (hU : Covers D U)
    (hC : ∀ (p : Nat) pr, D.procs[p]? = some pr → ProcConds D.width pr) {v : VarId} {p : Nat} {evs : List (Bool × VarId)} {b : Stmts}
    (hK : Drives D ι v p evs b) (hv : U v) {high : Bool} (hact : (high, v) ∈ evs) (hoff : (!high, v) ∉ evs) {n : Nat} {clks : List VarId}
    {s s' : S} {σ : Store} (hs : Steady D U s σ) (hidle : σ v = if high then 0 else 1)
    (h : (Py.make clks [v]).reset D n high s = .ok s') :
    ∃ σ', Steady D U s' σ' ∧ Pulse D ι p b v (if high then 1 else 0) σ σ' := by
  have hw := (hD.width v).1
  have h2 : 2 ≤ 2 ^ D.width v := by
    have := Nat.pow_le_pow_right (n := 2) (by omega) hw
    omega
  simp only [Py.reset, Py.make, theOnly] at h
  cases high with
  | true =>
    simp only [if_true] at h hidle ⊢
    exact pulse_partial hD hQ hU hC hK hv hs (a := 1) (i := 0) (show 1 < _ by omega) (show 0 < _ by omega) (by decide)
      hidle (Or.inl ⟨hact, by decide⟩) (by
        rintro (⟨_, h⟩ | ⟨h, _⟩)
        · exact h rfl
        · exact hoff h) h
  | false =>
    simp only [Bool.false_eq_true, if_false] at h hidle ⊢
    exact pulse_partial hD hQ hU hC hK hv hs (a := 0) (i := 1) (show 0 < _ by omega) (show 1 < _ by omega) (by decide)
      hidle (Or.inr ⟨hact, rfl⟩) (by
        rintro (⟨h, _⟩ | ⟨_, h⟩)
        · exact hoff h
        · cases h) h

/-- What a cycle leads to is determined, if the combinational logic has no loops. -/
theorem pulse_unique {D : Design} {ι : Nat → St → St} (hD : Clean D) {rank : VarId → Nat} (hA : Acyclic D.procs rank) {p : Nat} {evs : List (Bool × VarId)}
    {b : Stmts} (hb : D.procs[p]? = some (.seq evs b)) {v : VarId} {x : Nat} {σ τ τ' : Store}
    (h1 : ∀ y, τ y < 2 ^ D.width y) (h2 : ∀ y, τ' y < 2 ^ D.width y)
    (hp : Pulse D ι p b v x σ τ) (hp' : Pulse D ι p b v x σ τ') : τ = τ' := by
  have mem : ∀ pr, pr ∈ D.procs → ∃ p, D.procs[p]? = some pr := fun pr h => List.mem_iff_getElem?.1 h
  refine solution_unique ι hA (W := D.width) ?_ ?_ h1 h2 ?_ ?_ ?_
  · intro pr hpr; obtain ⟨q, e⟩ := mem pr hpr; exact hD.shape q pr e
  · intro pr hpr; obtain ⟨q, e⟩ := mem pr hpr; exact hD.deps q pr e
  · intro y hy
    rcases Classical.em (Undriven D y) with hu | hu
    · rw [hp.inputs y hu, hp'.inputs y hu]
    · have : ∃ (q : Nat) (pr : Proc), D.procs[q]? = some pr ∧ y ∈ pr.writes := by
        apply Classical.byContradiction
        intro hn
        exact hu fun q pr hq hw => hn ⟨q, pr, hq, hw⟩
      obtain ⟨q, pr, hq, hw⟩ := this
      cases pr with
      | assign l r => exact absurd hw (hy _ (List.mem_iff_getElem?.2 ⟨q, hq⟩) rfl)
      | comb c => exact absurd hw (hy _ (List.mem_iff_getElem?.2 ⟨q, hq⟩) rfl)
      | seq es c =>
        by_cases e : q = p
        · subst e
          rw [hb] at hq
          injection hq with hq
          injection hq with _ hq
          subst hq
          rw [hp.registers y hw, hp'.registers y hw]
        · rw [hp.others q es c hq e y hw, hp'.others q es c hq e y hw]
  · intro pr hpr; obtain ⟨q, e⟩ := mem pr hpr; exact hp.equations q pr e
  · intro pr hpr; obtain ⟨q, e⟩ := mem pr hpr; exact hp'.equations q pr e

/-- Without exactly one clock (asynchronous reset), `cycle` (`reset`) raises, whatever the number of cycles. -/
theorem no_clock {clks rsts : List VarId} (D : Design) (n : Nat) (k : Int) (s : S) (h : clks.length ≠ 1) :
    (Py.make clks rsts).cycle D n k s = .throw .user := by
  match clks, h with
  | [], _ => rfl
  | [_], h => exact absurd rfl h
  | _ :: _ :: _, _ => rfl

theorem no_reset {clks rsts : List VarId} (D : Design) (n : Nat) (high : Bool) (s : S) (h : rsts.length ≠ 1) :
    (Py.make clks rsts).reset D n high s = .throw .user := by
  match rsts, h with
  | [], _ => rfl
  | [_], h => exact absurd rfl h
  | _ :: _ :: _, _ => rfl

/-! ### A design the theorems cover, and how the full claim fails -/

theorem demo_drives (ι : Nat → St → St) : Drives demo ι 0 2 [(true, 0)] (.cons (.assign true ⟨3, 0, 1⟩ (.var 2 1)) .nil) where
  block := rfl
  listens := by simp
  sole := by
    intro q pr hq hd
    match q, hq with
    | 0, h => injection h with h; subst h; simp [Proc.deps, exprDeps] at hd
    | 1, h => injection h with h; subst h; simp [Proc.deps, stmtsDeps, stmtDeps, exprDeps] at hd
    | 2, h => rfl
    | n + 3, h => simp [demo, design, demoProcs] at h
  nodup := by decide
  ports := by
    intro q es c hq y hy
    match q, hq with
    | 2, h =>
      injection h with h
      injection h with h _
      subst h
      simp only [List.map_cons, List.map_nil, List.mem_singleton] at hy
      subst hy
      exact demo_undriven (by decide)
    | n + 3, h => simp [demo, design, demoProcs] at h
  once σ := by simp [Stmts.exec, Stmt.exec, guardRun]

/-- A run of the demo that ends with all six variables known. -/
theorem demo_steady {l : List (VarId × U64)} {vs : List U64} (hl : ∀ e ∈ l, e.1 < 3 ∧ e.2.toNat < 2)
    (hv : (demoRun 9 l ⟨fun _ => none, [], 0⟩).bind (fun s => .ok (s.q, (List.range 6).map s.vals)) = .ok ([], vs.map some)) (hn : vs.length = 6) :
    ∃ s σ, demoRun 9 l ⟨fun _ => none, [], 0⟩ = .ok s ∧ Steady demo (· < 6) s σ ∧ ∀ (i : Nat) (u : U64), vs[i]? = some u → σ i = u.toNat := by
  rw [Res.bind_eq_ok] at hv
  obtain ⟨s, h1, h3⟩ := hv
  injection h3 with h3
  injection h3 with hq h3
  have key : ∀ i : Nat, i < 6 → s.vals i = vs[i]? := by
    intro i hi
    have := congrArg (·[i]?) h3
    simp only [List.getElem?_map, List.getElem?_range hi, Option.map_some] at this
    cases hx : vs[i]? with
    | none =>
      rw [List.getElem?_eq_none_iff] at hx
      omega
    | some u => rw [hx] at this; simpa using this
  refine ⟨s, _, h1, ⟨demoRun_reached _ _ _ demo_init hl h1, hq, rep_of_known ?_⟩, ?_⟩
  · intro x hx
    rw [key x hx]
    intro hx'
    rw [List.getElem?_eq_none_iff, hn] at hx'
    exact absurd hx (Nat.not_lt.2 hx')
  · intro i u hi
    have : i < 6 := by
      rw [← hn]
      exact (List.getElem?_eq_some_iff.1 hi).1
    simp [key i this, hi]

/-- The hypotheses of `cycle_partial` are met, and one cycle moves the input 1 into the register. -/
theorem demo_cycle : ∃ s σ s', Steady demo (· < 6) s σ ∧ σ 0 = 0 ∧ σ 3 = 0 ∧ (Py.make [0] []).cycle demo 9 1 s = .ok s' ∧ s'.vals 3 = some 1 := by
  obtain ⟨s, σ, h1, h2, h3⟩ := demo_steady (l := [(1, 1), (2, 0), (0, 0), (0, 1), (0, 0), (2, 1)]) (vs := [0, 1, 1, 0, 0, 1]) (by decide) (by decide +kernel) rfl
  have : (demoRun 9 [(1, 1), (2, 0), (0, 0), (0, 1), (0, 0), (2, 1)] ⟨fun _ => none, [], 0⟩).bind (fun s =>
      ((Py.make [0] []).cycle demo 9 1 s).bind fun s' => .ok (s'.vals 3)) = .ok (some 1) := by decide +kernel
  rw [h1, Res.ok_bind, Res.bind_eq_ok] at this
  obtain ⟨s', h4, h5⟩ := this
  injection h5 with h5
  exact ⟨s, σ, s', h2, h3 0 0 rfl, h3 3 0 rfl, h4, h5⟩

/-- The hypotheses of `reset_partial` are met (variable 0 as an asynchronous reset), and `reset()` executes the block. -/
theorem demo_reset : ∃ s σ s', Steady demo (· < 6) s σ ∧ σ 0 = 0 ∧ σ 3 = 0 ∧ (Py.make [] [0]).reset demo 9 true s = .ok s' ∧ s'.vals 3 = some 1 := by
  obtain ⟨s, σ, h1, h2, h3⟩ := demo_steady (l := [(1, 1), (2, 0), (0, 0), (0, 1), (0, 0), (2, 1)]) (vs := [0, 1, 1, 0, 0, 1]) (by decide) (by decide +kernel) rfl
  have : (demoRun 9 [(1, 1), (2, 0), (0, 0), (0, 1), (0, 0), (2, 1)] ⟨fun _ => none, [], 0⟩).bind (fun s =>
      ((Py.make [] [0]).reset demo 9 true s).bind fun s' => .ok (s'.vals 3)) = .ok (some 1) := by decide +kernel
  rw [h1, Res.ok_bind, Res.bind_eq_ok] at this
  obtain ⟨s', h4, h5⟩ := this
  injection h5 with h5
  exact ⟨s, σ, s', h2, h3 0 0 rfl, h3 3 0 rfl, h4, h5⟩

/-- With the clock high before, the first cycle does nothing: there is no rising edge. -/
theorem high_clock_lost : ∃ s σ s', Steady demo (· < 6) s σ ∧ σ 0 = 1 ∧ σ 2 = 1 ∧ σ 3 = 0 ∧
    (Py.make [0] []).cycle demo 9 1 s = .ok s' ∧ s'.vals 3 = some 0 := by
  obtain ⟨s, σ, h1, h2, h3⟩ := demo_steady (l := [(1, 1), (2, 0), (0, 0), (0, 1), (2, 1)]) (vs := [1, 1, 1, 0, 0, 1]) (by decide) (by decide +kernel) rfl
  have : (demoRun 9 [(1, 1), (2, 0), (0, 0), (0, 1), (2, 1)] ⟨fun _ => none, [], 0⟩).bind (fun s =>
      ((Py.make [0] []).cycle demo 9 1 s).bind fun s' => .ok (s'.vals 3)) = .ok (some 0) := by decide +kernel
  rw [h1, Res.ok_bind, Res.bind_eq_ok] at this
  obtain ⟨s', h4, h5⟩ := this
  injection h5 with h5
  exact ⟨s, σ, s', h2, h3 0 1 rfl, h3 2 1 rfl, h3 3 0 rfl, h4, h5⟩

theorem not_CycleClaim : ¬ CycleClaim := by
  intro hc
  obtain ⟨s, σ, s', hs, h0, h2, h3, hcy, h4⟩ := high_clock_lost
  obtain ⟨σ', ⟨_, _, hR⟩, hreg⟩ := hc demo (· < 6) (fun _ st => st) 0 2 _ s σ 9 s' demo_clean demo_quiet demo_covers (by decide) demo_conds
    (demo_drives _) hs hcy
  have h5 := hreg 3 (by simp [stmtsWrites, stmtWrites])
  obtain ⟨u, hu, hu'⟩ := hR.known (x := 3) (by decide)
  rw [h4] at hu
  injection hu with hu
  subst hu
  rw [← hu'] at h5
  have : (Stmts.exec (fun _ st => st) (.cons (.assign true ⟨3, 0, 1⟩ (.var 2 1)) .nil) ⟨put1 σ 0 1, [], .run⟩).commit 3 = 1 := by
    simp [Stmts.exec, Stmt.exec, guardRun, St.commit, Store.write, setBits, put1, Expr.eval, h2, h3]
  rw [this] at h5
  revert h5
  decide

end Kratos.Sim
