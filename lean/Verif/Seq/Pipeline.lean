import Verif.Ir.Rename

/-!
# C17: inserted pipeline stages (`PipelineInsertionVisitor`, src/optimize.cc:531-616)

A module is its combinational logic (statements in dependency order, run once whenever the inputs change) and
its sequential blocks (all on the pipeline clock). Simplifications: one module, without instances inside; one
clock; memories and arrays are wide variables.
-/

namespace Kratos.Pipe

open Kratos.Ir

structure Mod where
  /-- continuous assignments and `always_comb` blocks -/
  comb : Stmts
  /-- `always_ff @(posedge clk)` blocks -/
  seqs : List Stmts
  /-- ports of direction `In` -/
  ins : List VarId
  /-- the other ports, in the order of `get_port_names()` -/
  outs : List VarId
  width : VarId → Nat

/-- The variable the source of an output moves to (src/optimize.cc:598). -/
def moved (outs : List VarId) (stage : VarId → Nat → VarId) (v : VarId) : VarId := if v ∈ outs then stage v 0 else v

/-- The variable that holds the value of `p` after `r` stages: the `r`-th new variable, and after the last stage the
port itself. -/
def reg (n : Nat) (stage : VarId → Nat → VarId) (p : VarId) (r : Nat) : VarId := if r = n then p else stage p r

/-- Block number `i` (src/optimize.cc:573-579 and 600-607): one non-blocking assignment per output. -/
def stageBlock (n : Nat) (stage : VarId → Nat → VarId) (m : Mod) (i : Nat) : Stmts :=
  Stmts.ofList (m.outs.map fun p => .assign true ⟨reg n stage p (i + 1), 0, m.width p⟩ (.var (stage p i) (m.width p)))

/-- `visit(Generator*)` with `num_stages = n` (src/optimize.cc:556-608). `stage p i` is the new variable
`get_unique_variable_name(p, "stage_i")`. -/
def insert (n : Nat) (stage : VarId → Nat → VarId) (m : Mod) : Mod :=
  { m with comb := m.comb.renL (moved m.outs stage),
           seqs := m.seqs.map (Stmts.renL (moved m.outs stage)) ++ (List.range n).map (stageBlock n stage m) }

/-! ### Behaviour of a module over time -/

def start (σ : Store) : St := ⟨σ, [], .run⟩

/-- New input values. -/
def drive (m : Mod) (x σ : Store) : Store := fun v => if v ∈ m.ins then x v else σ v

/-- The values after the combinational logic has settled. -/
def settle (ι : Nat → St → St) (m : Mod) (σ : Store) : Store := (m.comb.exec ι (start σ)).val

/-- All the blocks run at a clock edge, before the updates are applied. -/
def edgeSt (ι : Nat → St → St) (m : Mod) (σ : Store) : St := m.seqs.foldl (fun st b => b.exec ι { st with ctl := .run }) (start σ)

/-- State before the inputs of time `k` arrive. `edge k`: there is a clock edge at the end of time `k`. -/
def stateAt (ι : Nat → St → St) (m : Mod) (σ : Store) (x : Nat → Store) (edge : Nat → Bool) : Nat → Store
  | 0 => σ
  | k + 1 => let τ := settle ι m (drive m (x k) (stateAt ι m σ x edge k))
             if edge k then (edgeSt ι m τ).commit else τ

/-- All values at time `k`. -/
def valuesAt (ι : Nat → St → St) (m : Mod) (σ : Store) (x : Nat → Store) (edge : Nat → Bool) (k : Nat) : Store :=
  settle ι m (drive m (x k) (stateAt ι m σ x edge k))

/-- Value of an output at time `k`. -/
def out (ι : Nat → St → St) (m : Mod) (σ : Store) (x : Nat → Store) (edge : Nat → Bool) (k : Nat) (p : VarId) : Nat :=
  valuesAt ι m σ x edge k p % 2 ^ m.width p

/-- Clock edges at times `j, j+1, …, k-1`. -/
def edges (edge : Nat → Bool) (j : Nat) : Nat → Nat
  | 0 => 0
  | k + 1 => edges edge j k + (if j ≤ k ∧ edge k then 1 else 0)

/-! ### Conditions -/

/-- The new variables are new and different (`get_unique_variable_name`, property C38). -/
structure Fresh (n : Nat) (stage : VarId → Nat → VarId) (m : Mod) : Prop where
  inj : ∀ p ∈ m.outs, ∀ q ∈ m.outs, ∀ i j, stage p i = stage q j → p = q ∧ i = j
  out : ∀ p ∈ m.outs, ∀ q i, stage q i ≠ p
  inp : ∀ v ∈ m.ins, ∀ q i, stage q i ≠ v
  used : m.comb.Within (fun v => ∀ q i, stage q i ≠ v) (fun v => ∀ q i, stage q i ≠ v) ∧
    ∀ b ∈ m.seqs, b.Within (fun v => ∀ q i, stage q i ≠ v) (fun v => ∀ q i, stage q i ≠ v)

/-- No statement of the module reads one of its own outputs. -/
def NoOutputRead (m : Mod) : Prop := m.comb.Within (fun v => v ∉ m.outs) (fun _ => True) ∧
  ∀ b ∈ m.seqs, b.Within (fun v => v ∉ m.outs) (fun _ => True)

mutual
/-- Non-blocking assignments only (what assignment-kind inference, property C24, establishes for sequential blocks). -/
def NbOnly : Stmt → Prop
  | .assign nb _ _ => nb = true
  | .ite _ t e => NbOnlyS t ∧ NbOnlyS e
  | .switch _ cs => NbOnlyC cs
  | .for_ _ _ _ _ b => NbOnlyS b
  | .ret _ => True
  | .brk => True
  | .other _ => False
def NbOnlyS : Stmts → Prop
  | .nil => True
  | .cons s ss => NbOnly s ∧ NbOnlyS ss
def NbOnlyC : Cases → Prop
  | .nil => True
  | .cons _ b cs => NbOnlyS b ∧ NbOnlyC cs
end

/-- Full claim of C17: whatever the inputs and the clock edges (an edge that is gated off is no edge), the value of
an output just before a clock edge appears at the output once `n` edges have passed, counting that one. -/
def PipelineClaim (m : Mod) : Prop := ∀ (n : Nat) (stage : VarId → Nat → VarId) (ι : Nat → St → St) (σ σ' : Store)
    (x : Nat → Store) (edge : Nat → Bool), 0 < n → Fresh n stage m → (∀ b ∈ m.seqs, NbOnlyS b) → (∀ v ∈ m.outs, v ∉ m.ins) →
    (∀ v, (∀ q i, stage q i ≠ v) → σ' (moved m.outs stage v) = σ v) →
    ∀ p ∈ m.outs, ∀ j k, edge j = true → edges edge j k = n →
      out ι (insert n stage m) σ' x edge k p = out ι m σ x edge j p

/-! ### Proof -/

mutual
theorem within_and {R R' W W' : VarId → Prop} : ∀ (s : Stmt), s.Within R W → s.Within R' W' → s.Within (fun v => R v ∧ R' v) (fun v => W v ∧ W' v)
  | .assign _ _ _, h, h' => ⟨⟨h.1, h'.1⟩, fun x hx => ⟨h.2 x hx, h'.2 x hx⟩⟩
  | .ite _ t e, h, h' => ⟨fun x hx => ⟨h.1 x hx, h'.1 x hx⟩, withins_and t h.2.1 h'.2.1, withins_and e h.2.2 h'.2.2⟩
  | .switch _ cs, h, h' => ⟨fun x hx => ⟨h.1 x hx, h'.1 x hx⟩, withinc_and cs h.2 h'.2⟩
  | .for_ _ _ _ _ b, h, h' => ⟨⟨h.1, h'.1⟩, withins_and b h.2 h'.2⟩
  | .ret _, h, h' => fun x hx => ⟨h x hx, h' x hx⟩
  | .brk, _, _ => trivial
  | .other _, h, _ => h.elim
theorem withins_and {R R' W W' : VarId → Prop} : ∀ (s : Stmts), s.Within R W → s.Within R' W' → s.Within (fun v => R v ∧ R' v) (fun v => W v ∧ W' v)
  | .nil, _, _ => trivial
  | .cons s ss, h, h' => ⟨within_and s h.1 h'.1, withins_and ss h.2 h'.2⟩
theorem withinc_and {R R' W W' : VarId → Prop} : ∀ (s : Cases), s.Within R W → s.Within R' W' → s.Within (fun v => R v ∧ R' v) (fun v => W v ∧ W' v)
  | .nil, _, _ => trivial
  | .cons _ b cs, h, h' => ⟨withins_and b h.1 h'.1, withinc_and cs h.2 h'.2⟩
end

mutual
theorem within_mono {R R' W W' : VarId → Prop} (hR : ∀ v, R v → R' v) (hW : ∀ v, W v → W' v) : ∀ (s : Stmt), s.Within R W → s.Within R' W'
  | .assign _ _ _, h => ⟨hW _ h.1, fun x hx => hR _ (h.2 x hx)⟩
  | .ite _ t e, h => ⟨fun x hx => hR _ (h.1 x hx), withins_mono hR hW t h.2.1, withins_mono hR hW e h.2.2⟩
  | .switch _ cs, h => ⟨fun x hx => hR _ (h.1 x hx), withinc_mono hR hW cs h.2⟩
  | .for_ _ _ _ _ b, h => ⟨hR _ h.1, withins_mono hR hW b h.2⟩
  | .ret _, h => fun x hx => hR _ (h x hx)
  | .brk, _ => trivial
  | .other _, h => h.elim
theorem withins_mono {R R' W W' : VarId → Prop} (hR : ∀ v, R v → R' v) (hW : ∀ v, W v → W' v) : ∀ (s : Stmts), s.Within R W → s.Within R' W'
  | .nil, _ => trivial
  | .cons s ss, h => ⟨within_mono hR hW s h.1, withins_mono hR hW ss h.2⟩
theorem withinc_mono {R R' W W' : VarId → Prop} (hR : ∀ v, R v → R' v) (hW : ∀ v, W v → W' v) : ∀ (s : Cases), s.Within R W → s.Within R' W'
  | .nil, _ => trivial
  | .cons _ b cs, h => ⟨withins_mono hR hW b h.1, withinc_mono hR hW cs h.2⟩
end

/-- The variables of the original module. -/
def Old (stage : VarId → Nat → VarId) (v : VarId) : Prop := ∀ q i, stage q i ≠ v

section
variable {n : Nat} {stage : VarId → Nat → VarId} {m : Mod} (hf : Fresh n stage m)

include hf in
theorem moved_inj : ∀ v w, Old stage v → Old stage w → moved m.outs stage v = moved m.outs stage w → v = w := by
  intro v w hv hw h
  unfold moved at h
  split at h <;> split at h
  · rename_i h1 h2; exact (hf.inj _ h1 _ h2 _ _ h).1
  · exact absurd h (hw v 0)
  · exact absurd h.symm (hv w 0)
  · exact h

include hf in
/-- An output, and the later stages, are not written by the moved statements. -/
theorem moved_ne_reg {p : VarId} (hp : p ∈ m.outs) {r : Nat} (hr : 0 < r) : ∀ v, Old stage v → moved m.outs stage v ≠ reg n stage p r := by
  intro v hv h
  unfold moved reg at h
  split at h <;> split at h
  · exact hf.out p hp _ _ h
  · rename_i h1 _; have := (hf.inj _ h1 _ hp _ _ h).2; omega
  · rename_i h1 _; exact h1 (h ▸ hp)
  · exact hv _ _ h.symm

/-- What a block of the original module needs for `exec_renL`. -/
theorem ok_within {b : Stmts} (h1 : b.Within (Old stage) (Old stage)) (h2 : b.Within (fun v => v ∉ m.outs) (fun _ => True)) :
    b.Within (fun x => Old stage x ∧ moved m.outs stage x = x) (Old stage) :=
  withins_mono (fun _ h => ⟨h.1, if_neg h.2⟩) (fun _ h => h.1) b (withins_and b h1 h2)

/-- Agreement of the two modules on the old variables. -/
def Agrees (stage : VarId → Nat → VarId) (m : Mod) (σ σ' : Store) : Prop := ∀ v, Old stage v → σ' (moved m.outs stage v) = σ v

include hf in
theorem drive_agrees (hio : ∀ v ∈ m.outs, v ∉ m.ins) {σ σ' : Store} (h : Agrees stage m σ σ') (x : Store) :
    Agrees stage m (drive m x σ) (drive (insert n stage m) x σ') := by
  intro v hv
  show (if moved m.outs stage v ∈ m.ins then _ else _) = if v ∈ m.ins then _ else _
  by_cases hi : v ∈ m.ins
  · have : moved m.outs stage v = v := if_neg (fun ho => hio v ho hi)
    rw [this, if_pos hi, if_pos hi]
  · have : moved m.outs stage v ∉ m.ins := by
      intro hm
      unfold moved at hm
      split at hm
      · exact hf.inp _ hm _ _ rfl
      · exact hi hm
    rw [if_neg this, if_neg hi]
    exact h v hv

include hf in
/-- Nothing of the pipeline is an input. -/
theorem drive_reg (hio : ∀ v ∈ m.outs, v ∉ m.ins) {p : VarId} (hp : p ∈ m.outs) (x σ' : Store) (r : Nat) :
    drive (insert n stage m) x σ' (reg n stage p r) = σ' (reg n stage p r) := by
  refine if_neg ?_
  show reg n stage p r ∉ m.ins
  unfold reg
  split
  · exact hio p hp
  · intro hm; exact hf.inp _ hm _ _ rfl

include hf in
theorem settle_agrees (hn : NoOutputRead m) (ι : Nat → St → St) {σ σ' : Store} (h : Agrees stage m σ σ') :
    Agrees stage m (settle ι m σ) (settle ι (insert n stage m) σ') ∧
      ∀ p ∈ m.outs, ∀ r, 0 < r → settle ι (insert n stage m) σ' (reg n stage p r) = σ' (reg n stage p r) := by
  have := Stmts.exec_renL (moved_inj hf) ι σ' [] [] m.comb (start σ) (start σ') (ok_within hf.used.1 hn.1)
    ⟨h, fun _ _ => rfl, rfl, [], by simp [start], by simp [start], by simp⟩
  exact ⟨this.val, fun p hp r hr => this.frame _ (moved_ne_reg hf hp hr)⟩

include hf in
theorem seqs_agree (ι : Nat → St → St) (τ : Store) : ∀ (bs : List Stmts), (∀ b ∈ bs, b.Within (Old stage) (Old stage)) →
    (∀ b ∈ bs, b.Within (fun v => v ∉ m.outs) (fun _ => True)) → ∀ (st st' : St), RenRel (Old stage) (moved m.outs stage) τ [] [] st st' →
    RenRel (Old stage) (moved m.outs stage) τ [] [] (bs.foldl (fun st b => b.exec ι { st with ctl := .run }) st)
      ((bs.map (Stmts.renL (moved m.outs stage))).foldl (fun st b => b.exec ι { st with ctl := .run }) st')
  | [], _, _, _, _, h => h
  | b :: bs, h1, h2, st, st', h => by
    simp only [List.map_cons, List.foldl_cons]
    refine seqs_agree ι τ bs (fun b hb => h1 b (List.mem_cons_of_mem _ hb)) (fun b hb => h2 b (List.mem_cons_of_mem _ hb)) _ _ ?_
    exact Stmts.exec_renL (moved_inj hf) ι τ [] [] b _ _ (ok_within (h1 b (List.mem_cons_self ..)) (h2 b (List.mem_cons_self ..)))
      ⟨h.val, h.frame, rfl, h.nba⟩

end

theorem loop_val {iv : VarId} {f : St → St} (hf : ∀ st, (f st).val = st.val) : ∀ (is : List Int) (st : St) (v : VarId), v ≠ iv →
    (is.foldl (fun st i => guardRun st (f (setIter iv i st))) st).val v = st.val v
  | [], _, _, _ => rfl
  | i :: is, st, v, hv => by
    rw [List.foldl_cons, loop_val hf is _ v hv]
    unfold guardRun
    split
    · rw [hf]; exact if_neg hv
    · rfl

mutual
theorem nb_val (ι : Nat → St → St) : ∀ (s : Stmt) (st : St), NbOnly s → (s.exec ι st).val = st.val
  | .assign nb l r, st, h => by
    have h : nb = true := h
    subst h
    simp only [Stmt.exec, guardRun, if_true]
    split <;> rfl
  | .ite c t e, st, h => by
    simp only [Stmt.exec, guardRun]
    split
    · split
      · exact nbs_val ι t st h.1
      · exact nbs_val ι e st h.2
    · rfl
  | .switch tgt cs, st, h => by
    simp only [Stmt.exec, guardRun]
    split
    · exact nbc_val ι cs _ _ id st h (fun _ => rfl)
    · rfl
  | .for_ iv a b s body, st, h => by
    simp only [Stmt.exec, guardRun]
    split
    · funext v
      show (if v = iv then _ else _) = _
      split
      · rename_i e; rw [e]
      · rename_i e
        have := loop_val (iv := iv) (f := fun st => body.exec ι st) (fun st => nbs_val ι body st h) (iterValues a b s) st v e
        exact this
    · rfl
  | .ret e, st, _ => by
    simp only [Stmt.exec, guardRun]
    split <;> rfl
  | .brk, st, _ => by
    simp only [Stmt.exec, guardRun]
    split <;> rfl
  | .other _, _, h => h.elim
theorem nbs_val (ι : Nat → St → St) : ∀ (s : Stmts) (st : St), NbOnlyS s → (s.exec ι st).val = st.val
  | .nil, _, _ => by simp only [Stmts.exec]
  | .cons s ss, st, h => by
    simp only [Stmts.exec]
    rw [nbs_val ι ss _ h.2, nb_val ι s st h.1]
theorem nbc_val (ι : Nat → St → St) : ∀ (cs : Cases) (w v : Nat) (k : St → St) (st : St), NbOnlyC cs → (∀ st, (k st).val = st.val) →
    (cs.exec ι w v k st).val = st.val
  | .nil, _, _, k, st, _, hk => by simpa only [Cases.exec] using hk st
  | .cons none b cs, w, v, k, st, h, _ => by
    simp only [Cases.exec]
    exact nbc_val ι cs w v _ st h.2 (fun st => nbs_val ι b st h.1)
  | .cons (some c) b cs, w, v, k, st, h, hk => by
    simp only [Cases.exec]
    split
    · exact nbs_val ι b st h.1
    · exact nbc_val ι cs w v k st h.2 hk
end

mutual
theorem nb_ren (g : VarId → VarId) : ∀ (s : Stmt), NbOnly s → NbOnly (s.renL g)
  | .assign _ _ _, h => h
  | .ite _ t e, h => ⟨nbs_ren g t h.1, nbs_ren g e h.2⟩
  | .switch _ cs, h => nbc_ren g cs h
  | .for_ _ _ _ _ b, h => nbs_ren g b h
  | .ret _, _ => trivial
  | .brk, _ => trivial
  | .other _, h => h.elim
theorem nbs_ren (g : VarId → VarId) : ∀ (s : Stmts), NbOnlyS s → NbOnlyS (s.renL g)
  | .nil, _ => trivial
  | .cons s ss, h => ⟨nb_ren g s h.1, nbs_ren g ss h.2⟩
theorem nbc_ren (g : VarId → VarId) : ∀ (s : Cases), NbOnlyC s → NbOnlyC (s.renL g)
  | .nil, _ => trivial
  | .cons _ b cs, h => ⟨nbs_ren g b h.1, nbc_ren g cs h.2⟩
end

theorem blocks_val (ι : Nat → St → St) : ∀ (bs : List Stmts) (st : St), (∀ b ∈ bs, NbOnlyS b) →
    (bs.foldl (fun st b => b.exec ι { st with ctl := .run }) st).val = st.val
  | [], _, _ => rfl
  | b :: bs, st, h => by
    rw [List.foldl_cons, blocks_val ι bs _ (fun b hb => h b (List.mem_cons_of_mem _ hb)), nbs_val ι b _ (h b (List.mem_cons_self ..))]

/-- A list of non-blocking assignments adds its updates and does nothing else. -/
theorem exec_nbas (ι : Nat → St → St) : ∀ (l : List (LVal × Expr)) (st : St), st.ctl = .run →
    (Stmts.ofList (l.map fun a => .assign true a.1 a.2)).exec ι st = { st with nba := st.nba ++ l.map fun a => (a.1, a.2.eval st.val) }
  | [], st, _ => by simp [Stmts.ofList, Stmts.exec]
  | a :: l, st, h => by
    simp only [List.map_cons, Stmts.ofList, Stmts.exec, Stmt.exec, guardRun, h, if_true]
    rw [exec_nbas ι l _ rfl]
    simp

/-- The updates of all the stage blocks, from the values `τ`. -/
def stageUpdates (n : Nat) (stage : VarId → Nat → VarId) (m : Mod) (τ : Store) (is : List Nat) : List (LVal × Nat) :=
  is.flatMap fun i => m.outs.map fun p => (⟨reg n stage p (i + 1), 0, m.width p⟩, τ (stage p i) % 2 ^ m.width p)

theorem exec_stages (ι : Nat → St → St) (n : Nat) (stage : VarId → Nat → VarId) (m : Mod) : ∀ (is : List Nat) (st : St),
    let e := (is.map (stageBlock n stage m)).foldl (fun st b => b.exec ι { st with ctl := .run }) st
    e.val = st.val ∧ e.nba = st.nba ++ stageUpdates n stage m st.val is
  | [], st => by simp [stageUpdates]
  | i :: is, st => by
    simp only [List.map_cons, List.foldl_cons]
    have hb : (stageBlock n stage m i).exec ι { st with ctl := .run } = { val := st.val, nba := st.nba ++ m.outs.map (fun p => ((⟨reg n stage p (i + 1), 0, m.width p⟩ : LVal), st.val (stage p i) % 2 ^ m.width p)), ctl := .run } := by
      have := exec_nbas ι (m.outs.map fun p => ((⟨reg n stage p (i + 1), 0, m.width p⟩ : LVal), Expr.var (stage p i) (m.width p))) { st with ctl := .run } rfl
      simp only [List.map_map] at this
      unfold stageBlock
      exact this
    rw [hb]
    have := exec_stages ι n stage m is { val := st.val, nba := st.nba ++ m.outs.map (fun p => ((⟨reg n stage p (i + 1), 0, m.width p⟩ : LVal), st.val (stage p i) % 2 ^ m.width p)), ctl := .run }
    simp only at this
    refine ⟨this.1, ?_⟩
    rw [this.2]
    simp [stageUpdates]

/-- Updates of other variables do not matter. -/
theorem commit_other : ∀ (L : List (LVal × Nat)) (σ : Store) (v : VarId), (∀ p ∈ L, p.1.v ≠ v) →
    (L.foldl (fun σ p => σ.write p.1 p.2) σ) v = σ v
  | [], _, _, _ => rfl
  | p :: L, σ, v, h => by
    rw [List.foldl_cons, commit_other L _ v (fun q hq => h q (List.mem_cons_of_mem _ hq))]
    exact Store.write_ne (fun e => h p (List.mem_cons_self ..) e.symm)

/-- If all updates of `v` set its low `w` bits to the same value, that is the result. -/
theorem commit_same {v : VarId} {w x : Nat} : ∀ (L : List (LVal × Nat)) (σ : Store),
    (∀ p ∈ L, p.1.v = v → p.1 = ⟨v, 0, w⟩ ∧ p.2 % 2 ^ w = x % 2 ^ w) → ((∃ p ∈ L, p.1.v = v) ∨ σ v % 2 ^ w = x % 2 ^ w) →
    (L.foldl (fun σ p => σ.write p.1 p.2) σ) v % 2 ^ w = x % 2 ^ w
  | [], _, _, h => by
    rcases h with ⟨p, hp, _⟩ | h
    · cases hp
    · exact h
  | p :: L, σ, h, h' => by
    rw [List.foldl_cons]
    apply commit_same L _ (fun q hq => h q (List.mem_cons_of_mem _ hq))
    by_cases e : p.1.v = v
    · right
      obtain ⟨h1, h2⟩ := h p (List.mem_cons_self ..) e
      rw [h1]
      unfold Store.write
      simp only [if_true]
      rw [setBits_zero_mod, h2]
    · rcases h' with ⟨q, hq, e'⟩ | h'
      · rcases List.mem_cons.1 hq with rfl | hq
        · exact absurd e' e
        · exact Or.inl ⟨q, hq, e'⟩
      · right
        rw [Store.write_ne (fun e' => e e'.symm)]
        exact h'

section
variable {n : Nat} {stage : VarId → Nat → VarId} {m : Mod} (hf : Fresh n stage m)

include hf in
theorem reg_inj {p q : VarId} (hp : p ∈ m.outs) (hq : q ∈ m.outs) {i j : Nat} (hi : i ≤ n) (hj : j ≤ n) (h : reg n stage p i = reg n stage q j) :
    p = q ∧ i = j := by
  unfold reg at h
  split at h <;> split at h
  · exact ⟨h, by omega⟩
  · exact absurd h.symm (hf.out p hp _ _)
  · exact absurd h (hf.out q hq _ _)
  · exact hf.inj _ hp _ hq _ _ h

include hf in
/-- One clock edge. -/
theorem edge_step (hn : NoOutputRead m) (hnb : ∀ b ∈ m.seqs, NbOnlyS b) (ι : Nat → St → St) {τ τ' : Store} (h : Agrees stage m τ τ') :
    Agrees stage m (edgeSt ι m τ).commit (edgeSt ι (insert n stage m) τ').commit ∧
      ∀ p ∈ m.outs, ∀ i, i < n → (edgeSt ι (insert n stage m) τ').commit (reg n stage p (i + 1)) % 2 ^ m.width p = τ' (stage p i) % 2 ^ m.width p := by
  have hbodyrel := seqs_agree hf ι τ' m.seqs hf.used.2 hn.2 (start τ) (start τ')
    ⟨h, fun _ _ => rfl, rfl, [], by simp [start], by simp [start], by simp⟩
  -- the stage blocks see the values before the edge: the other blocks write old variables only
  have hs : edgeSt ι (insert n stage m) τ' = ((List.range n).map (stageBlock n stage m)).foldl (fun st b => b.exec ι { st with ctl := .run })
      ((m.seqs.map (Stmts.renL (moved m.outs stage))).foldl (fun st b => b.exec ι { st with ctl := .run }) (start τ')) := by
    show (m.seqs.map (Stmts.renL (moved m.outs stage)) ++ (List.range n).map (stageBlock n stage m)).foldl _ _ = _
    rw [List.foldl_append]
  have hst := exec_stages ι n stage m (List.range n) ((m.seqs.map (Stmts.renL (moved m.outs stage))).foldl (fun st b => b.exec ι { st with ctl := .run }) (start τ'))
  simp only at hst
  rw [← hs] at hst
  obtain ⟨L, h1, h2, h3⟩ := hbodyrel.nba
  simp only [List.nil_append] at h1 h2
  obtain ⟨c1, c2⟩ := commit_ren (moved_inj hf) L _ _ h3 hbodyrel.val
  have hc : (edgeSt ι m τ).commit = L.foldl (fun σ p => σ.write p.1 p.2) (edgeSt ι m τ).val := by
    unfold St.commit
    have : (edgeSt ι m τ).nba = L := h1
    rw [this]
  generalize hm : ((m.seqs.map (Stmts.renL (moved m.outs stage))).foldl (fun st b => b.exec ι { st with ctl := .run }) (start τ')) = mid at hbodyrel hst h2 c1 c2
  have hc' : (edgeSt ι (insert n stage m) τ').commit = (stageUpdates n stage m mid.val (List.range n)).foldl (fun σ p => σ.write p.1 p.2)
      ((L.map (fun p => (p.1.ren (moved m.outs stage), p.2))).foldl (fun σ p => σ.write p.1 p.2) mid.val) := by
    unfold St.commit
    rw [hst.1, hst.2, h2, List.foldl_append]
  have mem : ∀ u ∈ stageUpdates n stage m mid.val (List.range n), ∃ p ∈ m.outs, ∃ i, i < n ∧
      u = (⟨reg n stage p (i + 1), 0, m.width p⟩, mid.val (stage p i) % 2 ^ m.width p) := by
    intro u hu
    obtain ⟨i, hi, hu⟩ := List.mem_flatMap.1 hu
    obtain ⟨p, hp, rfl⟩ := List.mem_map.1 hu
    exact ⟨p, hp, i, List.mem_range.1 hi, rfl⟩
  rw [hc, hc']
  refine ⟨fun v hv => ?_, fun p hp i hi => ?_⟩
  · rw [commit_other _ _ _ ?_]
    · exact c1 v hv
    · intro u hu
      obtain ⟨p, hp, i, hi, rfl⟩ := mem u hu
      exact fun e => moved_ne_reg hf hp (Nat.succ_pos i) v hv e.symm
  · have hmid : mid.val = τ' := by
      rw [← hm, blocks_val ι _ _ ?_]
      · rfl
      · intro b hb
        obtain ⟨b', hb', rfl⟩ := List.mem_map.1 hb
        exact nbs_ren _ b' (hnb b' hb')
    have key := commit_same (v := reg n stage p (i + 1)) (w := m.width p) (x := mid.val (stage p i)) (stageUpdates n stage m mid.val (List.range n))
      ((L.map (fun p => (p.1.ren (moved m.outs stage), p.2))).foldl (fun σ p => σ.write p.1 p.2) mid.val) (by
        intro u hu e
        obtain ⟨q, hq, j, hj, rfl⟩ := mem u hu
        obtain ⟨rfl, e2⟩ := reg_inj hf hq hp (by omega) (by omega) e
        have : j = i := by omega
        subst this
        exact ⟨rfl, Nat.mod_mod _ _⟩) (Or.inl ⟨(⟨reg n stage p (i + 1), 0, m.width p⟩, mid.val (stage p i) % 2 ^ m.width p), by
          refine List.mem_flatMap.2 ⟨i, List.mem_range.2 hi, List.mem_map.2 ⟨p, hp, rfl⟩⟩, rfl⟩)
    rw [key, hmid]

include hf in
/-- The state after `k` steps: old variables agree, and the value an output had at the edge `j` is in the stage
given by the number of edges since then. -/
theorem invariant (hn0 : 0 < n) (hn : NoOutputRead m) (hnb : ∀ b ∈ m.seqs, NbOnlyS b) (hio : ∀ v ∈ m.outs, v ∉ m.ins) (ι : Nat → St → St) {σ σ' : Store}
    (x : Nat → Store) (edge : Nat → Bool) (h0 : Agrees stage m σ σ') : ∀ k, Agrees stage m (stateAt ι m σ x edge k) (stateAt ι (insert n stage m) σ' x edge k) ∧
      ∀ p ∈ m.outs, ∀ j r, edge j = true → edges edge j k = r → 0 < r → r ≤ n →
        stateAt ι (insert n stage m) σ' x edge k (reg n stage p r) % 2 ^ m.width p = out ι m σ x edge j p
  | 0 => ⟨h0, fun p _ j r _ h1 h2 => by simp only [edges] at h1; omega⟩
  | k + 1 => by
    obtain ⟨ih1, ih2⟩ := invariant hn0 hn hnb hio ι x edge h0 k
    have hd := drive_agrees hf hio ih1 (x k)
    obtain ⟨hs1, hs2⟩ := settle_agrees hf hn ι hd
    have hkeep : ∀ p ∈ m.outs, ∀ r, 0 < r → settle ι (insert n stage m) (drive (insert n stage m) (x k) (stateAt ι (insert n stage m) σ' x edge k)) (reg n stage p r) =
        stateAt ι (insert n stage m) σ' x edge k (reg n stage p r) := by
      intro p hp r hr
      rw [hs2 p hp r hr, drive_reg hf hio hp]
    cases he : edge k with
    | false =>
      simp only [stateAt, he, Bool.false_eq_true, if_false]
      refine ⟨hs1, fun p hp j r hj h1 h2 h3 => ?_⟩
      rw [hkeep p hp r h2]
      refine ih2 p hp j r hj ?_ h2 h3
      simpa [edges, he] using h1
    | true =>
      simp only [stateAt, he, if_true]
      obtain ⟨e1, e2⟩ := edge_step hf hn hnb ι hs1
      refine ⟨e1, fun p hp j r hj h1 h2 h3 => ?_⟩
      obtain ⟨i, rfl⟩ : ∃ i, r = i + 1 := ⟨r - 1, by omega⟩
      rw [e2 p hp i (by omega)]
      by_cases hjk : j ≤ k
      · have hi : edges edge j k = i := by
          simp only [edges, he, hjk, and_self, if_true] at h1
          omega
        by_cases hi0 : 0 < i
        · have hr : reg n stage p i = stage p i := if_neg (by omega)
          rw [← hr, hkeep p hp i hi0]
          exact ih2 p hp j i hj hi hi0 (by omega)
        · -- no edge between `j` and `k`, and one at `j`: `j = k`
          have : i = 0 := by omega
          subst this
          have hjk' : j = k := by
            rcases Nat.lt_or_ge j k with h | h
            · exfalso
              have : 0 < edges edge j k := by
                clear h1 ih1 ih2 hd hs1 hs2 hkeep e1 e2 he hjk
                induction k with
                | zero => omega
                | succ k ih =>
                  simp only [edges]
                  rcases Nat.lt_or_ge j k with h' | h'
                  · have := ih (by
                      rcases Nat.eq_zero_or_pos (edges edge j k) with h0 | h0
                      · exact h0
                      · simp only [edges] at hi; omega) h'
                    omega
                  · have : j = k := by omega
                    subst this
                    simp [hj]
              omega
            · omega
          subst hjk'
          have hv := hs1 p (fun q i => hf.out p hp q i)
          have : moved m.outs stage p = stage p 0 := if_pos hp
          rw [this] at hv
          rw [hv]
          rfl
      · exfalso
        have : edges edge j k = 0 := by
          clear h1 ih1 ih2 hd hs1 hs2 hkeep e1 e2 he
          induction k with
          | zero => rfl
          | succ k ih =>
            simp only [edges]
            rw [ih (by omega)]
            simp only [Nat.zero_add]
            rw [if_neg]
            omega
        simp only [edges, this, he, hjk, false_and, if_false] at h1
        omega

end

/-- **C17, partial**: for every module that does not read its own outputs, the pipeline delays every output by exactly
`n` clock edges, for every input and clock sequence. Missing: modules that read their outputs
(`counter_slows_down`). -/
theorem pipeline_partial (m : Mod) (hn : NoOutputRead m) : PipelineClaim m := by
  intro n stage ι σ σ' x edge hn0 hf hnb hio h0 p hp j k hj hk
  obtain ⟨h1, h2⟩ := invariant hf hn0 hn hnb hio ι x edge h0 k
  have hd := drive_agrees hf hio h1 (x k)
  obtain ⟨_, hs2⟩ := settle_agrees hf hn ι hd
  have hr : reg n stage p n = p := if_pos rfl
  have e1 := hs2 p hp n hn0
  rw [hr] at e1
  have e2 := drive_reg hf hio hp (x k) (stateAt ι (insert n stage m) σ' x edge k) n
  rw [hr] at e2
  have e3 := h2 p hp j n hj hk hn0 (Nat.le_refl n)
  rw [hr] at e3
  show settle ι (insert n stage m) (drive (insert n stage m) (x k) (stateAt ι (insert n stage m) σ' x edge k)) p % 2 ^ m.width p = _
  rw [e1, e2]
  exact e3

theorem edges_all (j : Nat) : ∀ k, edges (fun _ => true) j k = k - j
  | 0 => by simp [edges]
  | k + 1 => by
    simp only [edges, edges_all j k, and_true]
    split <;> omega

/-- With an edge at every step the delay is `n` steps. -/
theorem pipeline_every_step_partial (m : Mod) (hn : NoOutputRead m) {n : Nat} {stage : VarId → Nat → VarId} {ι : Nat → St → St} {σ σ' : Store}
    {x : Nat → Store} (hn0 : 0 < n) (hf : Fresh n stage m) (hnb : ∀ b ∈ m.seqs, NbOnlyS b) (hio : ∀ v ∈ m.outs, v ∉ m.ins)
    (h0 : ∀ v, (∀ q i, stage q i ≠ v) → σ' (moved m.outs stage v) = σ v) {p : VarId} (hp : p ∈ m.outs) (k : Nat) :
    out ι (insert n stage m) σ' x (fun _ => true) (k + n) p = out ι m σ x (fun _ => true) k p :=
  pipeline_partial m hn n stage ι σ σ' x _ hn0 hf hnb hio h0 p hp k (k + n) rfl (by rw [edges_all]; omega)

/-! ### Example and failure -/

/-- `out1 = in0 + 1`, a register `r2` that keeps the input; stage variables are 100, 101, … -/
def demo : Mod := { comb := Stmts.ofList [.assign false ⟨1, 0, 8⟩ (.bin .add (.var 2 8) (.const 8 1))], seqs := [Stmts.ofList [.assign true ⟨2, 0, 8⟩ (.var 0 8)]],
                    ins := [0], outs := [1], width := fun _ => 8 }

/-- The names of the new variables. -/
def names (p i : Nat) : Nat := 100 + 10 * p + i

example : out (fun _ st => st) (insert 2 names demo) (fun _ => 0) (fun k _ => k) (fun _ => true) 9 1 = 7 ∧
    out (fun _ st => st) demo (fun _ => 0) (fun k _ => k) (fun _ => true) 7 1 = 7 := by
  decide

theorem demo_noread : NoOutputRead demo := by
  refine ⟨⟨⟨trivial, ?_⟩, trivial⟩, ?_⟩
  · intro x hx
    simp [Expr.reads] at hx
    subst hx; simp [demo]
  · intro b hb
    simp only [demo, List.mem_singleton] at hb
    subst hb
    refine ⟨⟨trivial, ?_⟩, trivial⟩
    intro x hx
    simp [Expr.reads] at hx
    subst hx; simp [demo]

theorem names_big (p i : Nat) : 100 ≤ names p i := by unfold names; omega

/-- The hypotheses of `pipeline_partial` hold for the example. -/
theorem demo_fresh (n : Nat) : Fresh n names demo := by
  have ne : ∀ v, v < 100 → ∀ q i, names q i ≠ v := fun v hv q i => by have := names_big q i; omega
  refine ⟨?_, ?_, ?_, ⟨⟨?_, ?_⟩, trivial⟩, ?_⟩
  · intro p hp q hq i j h
    simp only [demo, List.mem_singleton] at hp hq
    subst hp hq
    have h : (100 + 10 * 1 + i : Nat) = 100 + 10 * 1 + j := h
    exact ⟨rfl, by omega⟩
  · intro p hp
    simp only [demo, List.mem_singleton] at hp
    subst hp
    exact ne 1 (by omega)
  · intro p hp
    simp only [demo, List.mem_singleton] at hp
    subst hp
    exact ne 0 (by omega)
  · exact ne 1 (by omega)
  · intro x hx
    simp [Expr.reads] at hx
    subst hx
    exact ne 2 (by omega)
  · intro b hb
    simp only [demo, List.mem_singleton] at hb
    subst hb
    refine ⟨⟨ne 2 (by omega), ?_⟩, trivial⟩
    intro x hx
    simp [Expr.reads] at hx
    subst hx
    exact ne 0 (by omega)

/-- `pipeline_partial` on the example, for every input sequence. -/
example (ι : Nat → St → St) (x : Nat → Store) (k : Nat) : out ι (insert 3 names demo) (fun _ => 0) x (fun _ => true) (k + 3) 1 =
    out ι demo (fun _ => 0) x (fun _ => true) k 1 :=
  pipeline_every_step_partial demo demo_noread (by omega) (demo_fresh 3) (by
    intro b hb
    simp only [demo, List.mem_singleton] at hb
    subst hb
    exact ⟨rfl, trivial⟩) (by decide) (fun _ _ => rfl) (by decide) k

/-- A counter whose value is the output: `q <= q + 1`. -/
def counter : Mod := { comb := .nil, seqs := [Stmts.ofList [.assign true ⟨1, 0, 8⟩ (.bin .add (.var 1 8) (.const 8 1))]], ins := [], outs := [1], width := fun _ => 8 }

/-- The failure: a counter with one pipeline stage counts at half the speed, because the moved statement still reads the
(now delayed) port. -/
theorem counter_slows_down :
    (List.range 7).map (fun k => out (fun _ st => st) counter (fun _ => 0) (fun _ _ => 0) (fun _ => true) k 1) = [0, 1, 2, 3, 4, 5, 6] ∧
    (List.range 7).map (fun k => out (fun _ st => st) (insert 1 names counter) (fun _ => 0) (fun _ _ => 0) (fun _ => true) k 1) = [0, 0, 1, 1, 2, 2, 3] := by
  decide

theorem counter_fresh (n : Nat) : Fresh n names counter := by
  have ne : ∀ v, v < 100 → ∀ q i, names q i ≠ v := fun v hv q i => by have := names_big q i; omega
  refine ⟨?_, ?_, ?_, trivial, ?_⟩
  · intro p hp q hq i j h
    simp only [counter, List.mem_singleton] at hp hq
    subst hp hq
    have h : (100 + 10 * 1 + i : Nat) = 100 + 10 * 1 + j := h
    exact ⟨rfl, by omega⟩
  · intro p hp
    simp only [counter, List.mem_singleton] at hp
    subst hp
    exact ne 1 (by omega)
  · intro p hp
    simp [counter] at hp
  · intro b hb
    simp only [counter, List.mem_singleton] at hb
    subst hb
    refine ⟨⟨ne 1 (by omega), ?_⟩, trivial⟩
    intro x hx
    simp [Expr.reads] at hx
    subst hx
    exact ne 1 (by omega)

/-- The full claim is false. -/
theorem not_PipelineClaim : ¬ ∀ m, PipelineClaim m := by
  intro h
  have := h counter 1 names (fun _ st => st) (fun _ => 0) (fun _ => 0) (fun _ _ => 0) (fun _ => true) (by omega) (counter_fresh 1) (by
    intro b hb
    simp only [counter, List.mem_singleton] at hb
    subst hb
    exact ⟨rfl, trivial⟩) (by decide) (fun _ _ => rfl) 1 (by decide) 4 5 rfl (by decide)
  exact absurd this (by decide)

end Kratos.Pipe
