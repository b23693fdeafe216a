import Verif.Base
import Verif.Util.Map

/-!
# C60: fault localisation

Statements are trees whose scope blocks carry an identity (the `Stmt*`). Conditions are known only through
`Simulator::get`, which yields a value or nothing, so a state is a function from conditions to optional values.
-/

namespace Kratos.Fault

abbrev Id := Nat
abbrev Cond := Nat

/-- A simulator state: the value of every predicate or switch target, if it can be computed. -/
abbrev State := Cond → Option (BitVec 64)

mutual
/-- The statement kinds `compute_hit_stmts` distinguishes; `leaf` stands for assignments, calls of built-in and DPI
functions and every other statement without a body. `call` holds the body of the called function. -/
inductive St where
  | leaf
  | ite (c : Cond) (t e : St)
  | block (scope : Bool) (id : Id) (body : Sts)
  | call (body : St)
  | switch (c : Cond) (cs : Arms) (dflt : St)
inductive Sts where
  | nil
  | cons (s : St) (ss : Sts)
inductive Arms where
  | nil
  | cons (v : BitVec 64) (b : St) (cs : Arms)
end

mutual
/-- `compute_hit_stmts` (src/fault.cc:111-138); a set is a list. There is no branch for switch statements. -/
def hit (σ : State) : St → List Id
  | .leaf => []
  | .ite c t e => match σ c with
    | some v => if v ≠ 0#64 then hit σ t else hit σ e
    | none => hit σ e
  | .block scope id body => (if scope then [id] else []) ++ hits σ body
  | .call body => hit σ body
  | .switch .. => []
def hits (σ : State) : Sts → List Id
  | .nil => []
  | .cons s ss => hit σ s ++ hits σ ss
end

/-- `SimulationRun` (src/fault.hh:13-37): what matters of it. -/
structure Run where
  states : List State
  wrong : Bool
  cov : List Id

/-- `FaultAnalyzer` (src/fault.hh:39-54): the top-level statements of all generators, in the order visited, the runs,
and the coverage maps computed so far. -/
structure Analyzer where
  design : Sts
  runs : List Run
  maps : Map Nat (List Id)

/-- `compute_coverage` (src/fault.cc:140-163): the result. -/
def coverageOf (design : Sts) (r : Run) : List Id :=
  if r.cov.isEmpty then r.states.flatMap fun σ => hits σ design else r.cov

/-- `compute_coverage` (src/fault.cc:140-163); `emplace` keeps an existing entry. -/
def computeCoverage (A : Analyzer) (i : Nat) : Analyzer × Res (List Id) :=
  match A.runs[i]? with
  | none => (A, .ub)
  | some r => ({ A with maps := A.maps.emplace i (coverageOf A.design r) }, .ok (coverageOf A.design r))

/-- The first loop of `compute_fault_stmts_from_coverage` (src/fault.cc:167-172) over the remaining
indices. -/
def fill (A : Analyzer) : List Nat → Analyzer
  | [] => A
  | i :: is => fill (if A.maps.has i then A else (computeCoverage A i).1) is

/-- The run an entry belongs to is failing (`runs_[run_index]->has_wrong_value()`, src/fault.cc:176-177). -/
def failing (A : Analyzer) (i : Nat) : Bool := (A.runs[i]?.map Run.wrong).getD false

/-- `compute_fault_stmts_from_coverage` (src/fault.cc:165-198); the two counting maps matter only through
their keys. -/
def computeFault (A : Analyzer) : Analyzer × List Id :=
  let A := fill A (List.range A.runs.length)
  let wrong := A.maps.flatMap fun e => if failing A e.1 then e.2 else []
  let correct := A.maps.flatMap fun e => if failing A e.1 then [] else e.2
  (A, wrong.filter fun s => !correct.contains s)

/-! ### Specification -/

/-- No label of the switch matches. -/
inductive NoArm : BitVec 64 → Arms → Prop where
  | nil {v} : NoArm v .nil
  | cons {v w b cs} : v ≠ w → NoArm v cs → NoArm v (.cons w b cs)

mutual
/-- Big-step execution of a statement in a state, recording the conditional blocks entered; an unknown condition
counts as false, as `x` does in SystemVerilog. -/
inductive Enter (σ : State) : St → Id → Prop where
  | thenB {c t e v i} : σ c = some v → v ≠ 0#64 → Enter σ t i → Enter σ (.ite c t e) i
  | elseB {c t e i} : (∀ v, σ c = some v → v = 0#64) → Enter σ e i → Enter σ (.ite c t e) i
  | here {i b} : Enter σ (.block true i b) i
  | inside {sc j b i} : Enters σ b i → Enter σ (.block sc j b) i
  | call {b i} : Enter σ b i → Enter σ (.call b) i
  | arm {c cs d v i} : σ c = some v → EnterArm σ v cs i → Enter σ (.switch c cs d) i
  | dflt {c cs d i} : (∀ v, σ c = some v → NoArm v cs) → Enter σ d i → Enter σ (.switch c cs d) i
inductive Enters (σ : State) : Sts → Id → Prop where
  | head {s ss i} : Enter σ s i → Enters σ (.cons s ss) i
  | tail {s ss i} : Enters σ ss i → Enters σ (.cons s ss) i
inductive EnterArm (σ : State) : BitVec 64 → Arms → Id → Prop where
  | head {v b cs i} : Enter σ b i → EnterArm σ v (.cons v b cs) i
  | tail {v w b cs i} : v ≠ w → EnterArm σ v cs i → EnterArm σ v (.cons w b cs) i
end

/-- Executed in a run: according to the coverage supplied with the run, or else in one of its states. -/
def ExecutedIn (design : Sts) (r : Run) (i : Id) : Prop :=
  if r.cov = [] then ∃ σ ∈ r.states, Enters σ design i else i ∈ r.cov

/-- Suspicious: executed in some failing and in no passing run. -/
def Suspicious (design : Sts) (runs : List Run) (i : Id) : Prop :=
  (∃ r ∈ runs, r.wrong = true ∧ ExecutedIn design r i) ∧ ∀ r ∈ runs, r.wrong = false → ¬ ExecutedIn design r i

/-- Full claim of C60 for an analyzer. -/
def FaultClaim (A : Analyzer) : Prop := ∀ i, i ∈ (computeFault A).2 ↔ Suspicious A.design A.runs i

mutual
/-- No switch statement in the tree. -/
def NoSwitch : St → Prop
  | .leaf => True
  | .ite _ t e => NoSwitch t ∧ NoSwitch e
  | .block _ _ b => NoSwitches b
  | .call b => NoSwitch b
  | .switch .. => False
def NoSwitches : Sts → Prop
  | .nil => True
  | .cons s ss => NoSwitch s ∧ NoSwitches ss
end

/-! ### Proofs -/

mutual
theorem hit_iff (σ : State) (i : Id) : ∀ s : St, NoSwitch s → (i ∈ hit σ s ↔ Enter σ s i)
  | .leaf, _ => ⟨fun h => by simp [hit] at h, fun h => by cases h⟩
  | .ite c t e, hn => by
    obtain ⟨ht, he⟩ := hn
    have iht := hit_iff σ i t ht
    have ihe := hit_iff σ i e he
    simp only [hit]
    split
    · rename_i v hv
      split
      · rename_i hz
        rw [iht]
        refine ⟨fun h => .thenB hv hz h, fun h => ?_⟩
        cases h with
        | thenB _ _ h => exact h
        | elseB h0 _ => exact absurd (h0 v hv) hz
      · rename_i hz
        rw [ihe]
        refine ⟨fun h => .elseB (fun w hw => ?_) h, fun h => ?_⟩
        · rw [hv] at hw
          injection hw with hw
          subst hw
          exact Classical.not_not.1 hz
        · cases h with
          | thenB h1 h2 _ =>
            rw [hv] at h1
            injection h1 with h1
            subst h1
            exact absurd h2 hz
          | elseB _ h => exact h
    · rename_i hv
      rw [ihe]
      refine ⟨fun h => .elseB (fun w hw => by rw [hv] at hw; cases hw) h, fun h => ?_⟩
      cases h with
      | thenB h1 _ _ => rw [hv] at h1; cases h1
      | elseB _ h => exact h
  | .block sc j b, hn => by
    have ih := hits_iff σ i b hn
    simp only [hit, List.mem_append, ih]
    constructor
    · rintro (h | h)
      · cases sc with
        | false => simp at h
        | true => simp at h; subst h; exact .here
      · exact .inside h
    · intro h
      cases h with
      | here => left; simp
      | inside h => exact Or.inr h
  | .call b, hn => by
    have ih := hit_iff σ i b hn
    simp only [hit, ih]
    exact ⟨fun h => .call h, fun h => by cases h with | call h => exact h⟩
  | .switch .., hn => hn.elim
theorem hits_iff (σ : State) (i : Id) : ∀ s : Sts, NoSwitches s → (i ∈ hits σ s ↔ Enters σ s i)
  | .nil, _ => ⟨fun h => by simp [hits] at h, fun h => by cases h⟩
  | .cons s ss, hn => by
    obtain ⟨h1, h2⟩ := hn
    have ih1 := hit_iff σ i s h1
    have ih2 := hits_iff σ i ss h2
    simp only [hits, List.mem_append, ih1, ih2]
    constructor
    · rintro (h | h)
      · exact .head h
      · exact .tail h
    · intro h
      cases h with
      | head h => exact Or.inl h
      | tail h => exact Or.inr h
end

theorem coverage_iff (design : Sts) (hn : NoSwitches design) (r : Run) (i : Id) :
    i ∈ coverageOf design r ↔ ExecutedIn design r i := by
  unfold coverageOf ExecutedIn
  cases hc : r.cov with
  | nil =>
    simp only [List.isEmpty_nil, if_true, List.mem_flatMap]
    exact ⟨fun ⟨σ, h1, h2⟩ => ⟨σ, h1, (hits_iff σ i design hn).1 h2⟩,
      fun ⟨σ, h1, h2⟩ => ⟨σ, h1, (hits_iff σ i design hn).2 h2⟩⟩
  | cons a as => simp

/-- Every entry is the coverage of its run as it is now. -/
def Fresh (A : Analyzer) : Prop :=
  ∀ i cov, (i, cov) ∈ A.maps → ∃ r, A.runs[i]? = some r ∧ cov = coverageOf A.design r

theorem fill_fixed : ∀ (is : List Nat) (A : Analyzer), (fill A is).design = A.design ∧ (fill A is).runs = A.runs
  | [], _ => ⟨rfl, rfl⟩
  | i :: is, A => by
    simp only [fill]
    have h1 : (if A.maps.has i = true then A else (computeCoverage A i).1).design = A.design ∧
        (if A.maps.has i = true then A else (computeCoverage A i).1).runs = A.runs := by
      split
      · exact ⟨rfl, rfl⟩
      · unfold computeCoverage; split <;> exact ⟨rfl, rfl⟩
    have h2 := fill_fixed is (if A.maps.has i = true then A else (computeCoverage A i).1)
    exact ⟨h2.1.trans h1.1, h2.2.trans h1.2⟩

theorem mem_emplace {m : Map Nat (List Id)} {i j : Nat} {c d : List Id} (h : (j, d) ∈ m.emplace i c) :
    (j, d) ∈ m ∨ (m.has i = false ∧ j = i ∧ d = c) := by
  unfold Map.emplace at h
  split at h
  · exact Or.inl h
  · rename_i hh
    rcases List.mem_append.1 h with h | h
    · exact Or.inl h
    · simp only [List.mem_singleton, Prod.mk.injEq] at h
      exact Or.inr ⟨by simpa using hh, h.1, h.2⟩

theorem mem_emplace_old {m : Map Nat (List Id)} {i : Nat} {c : List Id} {x : Nat × List Id} (h : x ∈ m) : x ∈ m.emplace i c := by
  unfold Map.emplace
  split
  · exact h
  · exact List.mem_append_left _ h

/-- What the coverage maps hold after the first loop. -/
theorem fill_spec : ∀ (is : List Nat) (A : Analyzer), (∀ i ∈ is, i < A.runs.length) → Fresh A →
    Fresh (fill A is) ∧ (∀ x ∈ A.maps, x ∈ (fill A is).maps) ∧ ∀ i ∈ is, ∃ cov, (i, cov) ∈ (fill A is).maps
  | [], A, _, hf => ⟨hf, fun _ h => h, fun _ h => nomatch h⟩
  | i :: is, A, hb, hf => by
    simp only [fill]
    have hi := hb i (List.mem_cons_self ..)
    have hr : A.runs[i]? = some A.runs[i] := List.getElem?_eq_getElem hi
    have step : ∃ A', (if A.maps.has i = true then A else (computeCoverage A i).1) = A' ∧ A'.design = A.design ∧ A'.runs = A.runs ∧
        Fresh A' ∧ (∀ x ∈ A.maps, x ∈ A'.maps) ∧ ∃ cov, (i, cov) ∈ A'.maps := by
      by_cases hh : A.maps.has i = true
      · refine ⟨A, if_pos hh, rfl, rfl, hf, fun _ h => h, ?_⟩
        obtain ⟨c, hc⟩ := Option.isSome_iff_exists.1 (show (Map.find A.maps i).isSome = true from hh)
        exact ⟨c, Map.mem_of_find hc⟩
      · refine ⟨{ A with maps := A.maps.emplace i (coverageOf A.design A.runs[i]) }, ?_, rfl, rfl, ?_, fun x h => mem_emplace_old h, coverageOf A.design A.runs[i], ?_⟩
        · rw [if_neg hh]; unfold computeCoverage; rw [hr]
        · intro j c hjc
          rcases mem_emplace hjc with h | ⟨_, rfl, rfl⟩
          · exact hf j c h
          · exact ⟨_, hr, rfl⟩
        · show _ ∈ Map.emplace _ _ _
          unfold Map.emplace
          rw [if_neg hh]
          exact List.mem_append_right _ (List.mem_singleton.2 rfl)
    obtain ⟨A', e, hd, hruns, hf', hmono, hthere⟩ := step
    rw [e]
    obtain ⟨h1, h2, h3⟩ := fill_spec is A' (fun j hj => by rw [hruns]; exact hb j (List.mem_cons_of_mem _ hj)) hf'
    refine ⟨h1, fun x hx => h2 x (hmono x hx), fun j hj => ?_⟩
    rcases List.mem_cons.1 hj with rfl | hj
    · obtain ⟨c, hc⟩ := hthere
      exact ⟨c, h2 _ hc⟩
    · exact h3 j hj

/-- What is reported, in terms of the coverage of each run: no assumption on the design. -/
theorem fault_coverage (A : Analyzer) (hf : Fresh A) (i : Id) :
    i ∈ (computeFault A).2 ↔
      (∃ r ∈ A.runs, r.wrong = true ∧ i ∈ coverageOf A.design r) ∧
      ∀ r ∈ A.runs, r.wrong = false → i ∉ coverageOf A.design r := by
  obtain ⟨h1, _, h3⟩ := fill_spec (List.range A.runs.length) A (fun j hj => List.mem_range.1 hj) hf
  obtain ⟨hd, hr⟩ := fill_fixed (List.range A.runs.length) A
  unfold computeFault
  simp only
  generalize fill A (List.range A.runs.length) = B at *
  have fwd : ∀ (j : Nat) (cov : List Id), (j, cov) ∈ B.maps → ∃ r, A.runs[j]? = some r ∧ cov = coverageOf A.design r ∧ failing B j = r.wrong := by
    intro j cov h
    obtain ⟨r, hr1, hr2⟩ := h1 j cov h
    rw [hr] at hr1
    rw [hd] at hr2
    refine ⟨r, hr1, hr2, ?_⟩
    unfold failing
    rw [hr, hr1]
    rfl
  have bwd : ∀ r ∈ A.runs, ∃ j : Nat, (j, coverageOf A.design r) ∈ B.maps ∧ failing B j = r.wrong := by
    intro r hm
    obtain ⟨j, hj, he⟩ := List.mem_iff_getElem.1 hm
    obtain ⟨c, hc⟩ := h3 j (List.mem_range.2 hj)
    obtain ⟨r', hr1, hr2, hr3⟩ := fwd j c hc
    rw [List.getElem?_eq_getElem hj] at hr1
    injection hr1 with hr1
    rw [he] at hr1
    subst hr1
    exact ⟨j, hr2 ▸ hc, hr3⟩
  simp only [List.mem_filter, List.mem_flatMap, Bool.not_eq_true', List.contains_eq_mem, decide_eq_false_iff_not]
  constructor
  · rintro ⟨⟨⟨j, c⟩, hjc, hi⟩, hno⟩
    obtain ⟨r, hr1, hr2, hr3⟩ := fwd j c hjc
    refine ⟨⟨r, List.mem_of_getElem? hr1, ?_⟩, ?_⟩
    · simp only [hr3] at hi
      cases hw : r.wrong with
      | false => rw [hw] at hi; simp at hi
      | true => rw [hw] at hi; simp only [if_true] at hi; exact ⟨rfl, hr2 ▸ hi⟩
    · intro r' hr' hw' hmem
      obtain ⟨j', hj', hf'⟩ := bwd r' hr'
      exact hno ⟨(j', coverageOf A.design r'), hj', by simp only [hf', hw']; simpa using hmem⟩
  · rintro ⟨⟨r, hm, hw, hi⟩, hno⟩
    obtain ⟨j, hj, hfj⟩ := bwd r hm
    refine ⟨⟨(j, coverageOf A.design r), hj, by simp only [hfj, hw, if_true]; exact hi⟩, ?_⟩
    rintro ⟨⟨j', c'⟩, hjc', hi'⟩
    obtain ⟨r', hr1, hr2, hr3⟩ := fwd j' c' hjc'
    simp only [hr3] at hi'
    cases hw' : r'.wrong with
    | true => rw [hw'] at hi'; simp at hi'
    | false =>
      rw [hw'] at hi'
      simp only [Bool.false_eq_true, if_false] at hi'
      exact hno r' (List.mem_of_getElem? hr1) hw' (hr2 ▸ hi')

/-- **C60, partial**: for every design without switch statements, every number of runs and states, if the coverage computed
earlier (if any) still is the coverage of its run, the reported statements are exactly those executed in some
failing and no passing run. Missing: switch statements (`switch_not_reported`) and data added to a run after its coverage
was computed (`late_state_ignored`). -/
theorem fault_partial (A : Analyzer) (hn : NoSwitches A.design) (hf : Fresh A) : FaultClaim A := by
  intro i
  rw [fault_coverage A hf i]
  unfold Suspicious
  simp only [coverage_iff A.design hn]

/-- An analyzer that has computed nothing yet meets the second hypothesis. -/
theorem fresh_new (d : Sts) (runs : List Run) : Fresh ⟨d, runs, []⟩ := fun _ _ h => nomatch h

/-- Asking again, with no change in between, gives the same answer. -/
theorem fault_again (A : Analyzer) (hf : Fresh A) (i : Id) :
    i ∈ (computeFault (computeFault A).1).2 ↔ i ∈ (computeFault A).2 := by
  have h1 := (fill_spec (List.range A.runs.length) A (fun j hj => List.mem_range.1 hj) hf).1
  obtain ⟨hd, hr⟩ := fill_fixed (List.range A.runs.length) A
  have h2 := fault_coverage (computeFault A).1 h1 i
  rw [h2, fault_coverage A hf i]
  show (∃ r ∈ (fill A _).runs, _ ∧ _ ∈ coverageOf (fill A _).design r) ∧ (∀ r ∈ (fill A _).runs, _ → _ ∉ coverageOf (fill A _).design r) ↔ _
  rw [hd, hr]

/-- Adding further runs keeps earlier coverage valid (`add_simulation_run` appends). -/
theorem fresh_addRun (A : Analyzer) (hf : Fresh A) (r : Run) : Fresh { A with runs := A.runs ++ [r] } := by
  intro i c h
  obtain ⟨r', h1, h2⟩ := hf i c h
  refine ⟨r', ?_, h2⟩
  show (A.runs ++ [r])[i]? = some r'
  rw [List.getElem?_append_left (List.getElem?_eq_some_iff.1 h1).1]
  exact h1

/-- A run: one `if` with two scope blocks; the first run takes the `then` block and fails. -/
def demoDesign : Sts := .cons (.block false 0 (.cons (.ite 0 (.block true 1 .nil) (.block true 2 .nil)) .nil)) .nil
def demoRuns : List Run := [⟨[fun _ => some 1#64, fun _ => none], true, []⟩, ⟨[fun _ => some 0#64], false, []⟩]

example : NoSwitches demoDesign := ⟨⟨⟨trivial, trivial⟩, trivial⟩, trivial⟩
example : (computeFault ⟨demoDesign, demoRuns, []⟩).2 = [1] := by decide

/-- The first failure: a faulty block in a switch statement is not reported. -/
def switchDesign : Sts := .cons (.switch 0 (.cons 1#64 (.block true 1 .nil) .nil) (.block true 2 .nil)) .nil

theorem switch_not_reported : Suspicious switchDesign demoRuns 1 ∧ (computeFault ⟨switchDesign, demoRuns, []⟩).2 = [] := by
  refine ⟨⟨⟨_, List.mem_cons_self .., rfl, ?_⟩, ?_⟩, by decide⟩
  · exact ⟨_, List.mem_cons_self .., .head (.arm rfl (.head .here))⟩
  · intro r hr hw hx
    simp only [demoRuns, List.mem_cons, List.not_mem_nil, or_false] at hr
    rcases hr with rfl | rfl
    · cases hw
    · obtain ⟨σ, h1, h2⟩ := hx
      simp only [List.mem_singleton] at h1
      subst h1
      cases h2 with
      | head h =>
        cases h with
        | arm h1 h2 =>
          injection h1 with h1
          subst h1
          cases h2 with
          | tail _ h => cases h
        | dflt _ h =>
          cases h with
          | inside h => cases h
      | tail h => cases h

/-- The second failure: states added to a run after the first analysis are ignored. -/
theorem late_state_ignored :
    let A := (computeFault ⟨demoDesign, [⟨[fun _ => some 1#64], true, []⟩], []⟩).1
    let A' : Analyzer := { A with runs := [⟨[fun _ => some 1#64, fun _ => some 0#64], true, []⟩] }
    (computeFault A').2 = [1] ∧ (computeFault { A' with maps := [] }).2 = [1, 2] := by
  decide

theorem not_FaultClaim : ¬ ∀ A, FaultClaim A := by
  intro h
  have := (h ⟨switchDesign, demoRuns, []⟩ 1).2 switch_not_reported.1
  rw [switch_not_reported.2] at this
  cases this

end Kratos.Fault
