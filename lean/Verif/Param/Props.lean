import Verif.Param.Lemmas

/-!
# C12: parameter updates reach everything that depends on the parameter
-/

namespace Kratos.Param
variable {E : Nat → WExpr}

/-- One update of a parameter that is not derived from another. -/
theorem set_value_step (st st' : St) (n p : Nat) (v : Int)
    (hroot : st.parent p = none) (h : setValue E n st p v = (st', .ok))
    (hlc : Linked E st ∧ Consistent E st) :
    Consistent E st' ∧ (∀ q, Desc st p q → st'.val q = v) ∧
      (∀ q, ¬ Desc st p q → st'.val q = st.val q) := by
  obtain ⟨hl, hc⟩ := hlc
  have hp := setValue_post n st st' p v hl h
  have hd : ∀ c q, st'.parent c = some q → st'.val c = st'.val q := by
    intro c q hcq
    rw [hp.same.parent] at hcq
    refine hp.pair c q hcq ?_ (hc.derived c q hcq)
    intro heq
    subst heq
    rw [hroot] at hcq
    cases hcq
  refine ⟨⟨hp.width hc.width, hp.size hc.size, hd⟩, ?_, ?_⟩
  · intro q hq
    induction hq with
    | refl => exact hp.self
    | step _ hpar ih => rw [hd _ _ (by rw [hp.same.parent]; exact hpar), ih]
  · intro q hq
    rcases Decidable.em (st'.val q = st.val q) with heq | hne
    · exact heq
    · exact absurd (hp.frame q hne) hq

theorem fresh_ok {st : St} (h : Fresh st) : Linked E st ∧ Consistent E st := by
  obtain ⟨hp, hv⟩ := h
  refine ⟨⟨?_, ?_, ?_, ?_, ?_⟩, ⟨?_, ?_, ?_⟩⟩
  · intro x e h; rw [(hv x).1] at h; cases h
  · intro p x h; rw [(hp p).1] at h; simp at h
  · intro x e h; rw [(hv x).1] at h; cases h
  · intro p x i e; rw [(hp p).2.1, (hv x).2 i]; simp
  · intro c p; rw [(hp p).2.2.1, (hp c).2.2.2]; simp
  · intro x e h; rw [(hv x).1] at h; cases h
  · intro x i e h; rw [(hv x).2 i] at h; cases h
  · intro c p h; rw [(hp c).2.2.2] at h; cases h

theorem tame_step {st st' : St} {c : Call} {n : Nat} (hlc : Linked E st ∧ Consistent E st)
    (ht : Tame E st c) (h : call E n st c = (st', .ok)) :
    Linked E st' ∧ Consistent E st' := by
  have hl := hlc.1
  have hc := hlc.2
  cases c with
  | setValue p v =>
    exact ⟨hl.same (setValue_post n st st' p v hl h).same, (set_value_step st st' n p v ht h hlc).1⟩
  | setParent c p =>
    obtain ⟨hnone, hne⟩ := ht
    simp only [call, setParent] at h
    generalize hst1 : { st with
        kids := upd st.kids p (insert c (st.kids p))
        parent := upd st.parent c (some p) } = st1 at h
    have e1 : st1.kids = upd st.kids p (insert c (st.kids p)) := by rw [← hst1]
    have e2 : st1.parent = upd st.parent c (some p) := by rw [← hst1]
    have e3 : st1.val = st.val := by rw [← hst1]
    have hl1 : Linked E st1 := by
      refine ⟨?_, ?_, ?_, ?_, ?_⟩
      · rw [← hst1]; exact hl.wreg
      · rw [← hst1]; exact hl.wtie
      · rw [← hst1]; exact hl.bare
      · rw [← hst1]; exact hl.sreg
      · intro d q
        rw [e1, e2]
        rcases Decidable.em (q = p) with rfl | hq
        · rw [upd_self, mem_insert]
          rcases Decidable.em (d = c) with rfl | hd
          · simp [upd_self]
          · rw [upd_ne _ _ hd]
            simp [hd, hl.preg]
        · rw [upd_ne _ _ hq, hl.preg]
          rcases Decidable.em (d = c) with rfl | hd
          · rw [upd_self, hnone]
            simp [Ne.symm hq]
          · rw [upd_ne _ _ hd]
    have hp := setValue_post n st1 st' c _ hl1 h
    refine ⟨hl1.same hp.same, hp.width ?_, hp.size ?_, ?_⟩
    · rw [← hst1]; exact hc.width
    · rw [← hst1]; exact hc.size
    · intro d q hd
      rw [hp.same.parent] at hd
      rcases Decidable.em (d = c) with rfl | hdc
      · rw [e2, upd_self] at hd
        cases hd
        rw [hp.self]
        rcases hp.either p with h | h <;> simp only [h, e3]
      · refine hp.pair d q hd hdc ?_
        rw [e2, upd_ne _ _ hdc] at hd
        rw [e3]
        exact hc.derived d q hd
  | tieWidth x e =>
    obtain ⟨hnone, q, hq1, hq2⟩ := ht
    simp only [call, tieWidth] at h
    split at h
    · cases h
    · rename_i w hw
      simp only [Prod.mk.injEq, and_true] at h
      subst h
      refine ⟨⟨?_, ?_, ?_, hl.sreg, hl.preg⟩, ⟨?_, hc.size, hc.derived⟩⟩
      · intro y f hy p hp
        simp only
        rcases Decidable.em (y = x) with rfl | hyx
        · simp only [upd_self, Option.some.injEq] at hy
          subst hy
          rw [if_pos hp, mem_insert]
          exact .inl rfl
        · simp only [upd_ne _ _ hyx] at hy
          have := hl.wreg y f hy p hp
          split
          · rw [mem_insert]; exact .inr this
          · exact this
      · intro p y hy
        simp only at hy ⊢
        rcases Decidable.em (y = x) with rfl | hyx
        · refine ⟨e, upd_self .., ?_⟩
          split at hy
          · assumption
          · obtain ⟨f, hf, _⟩ := hl.wtie p y hy
            rw [hnone] at hf
            cases hf
        · rw [upd_ne _ _ hyx]
          apply hl.wtie p y
          split at hy
          · rw [mem_insert] at hy
            exact hy.resolve_left hyx
          · exact hy
      · intro y f hy
        simp only at hy
        rcases Decidable.em (y = x) with rfl | hyx
        · simp only [upd_self, Option.some.injEq] at hy
          subst hy
          exact ⟨q, hq1, hq2⟩
        · rw [upd_ne _ _ hyx] at hy
          exact hl.bare y f hy
      · intro y f hy
        simp only at hy ⊢
        rcases Decidable.em (y = x) with rfl | hyx
        · simp only [upd_self, Option.some.injEq] at hy
          subst hy
          rw [upd_self, hw]
        · rw [upd_ne _ _ hyx] at hy
          rw [upd_ne _ _ hyx]
          exact hc.width y f hy
  | untieWidth x =>
    have ht' : st.widthTie x = none := ht
    simp only [call, untieWidth, ht', Prod.mk.injEq, and_true] at h
    subst h
    exact ⟨hl, hc⟩
  | tieSize x i e =>
    have ht' : st.sizeTie x i = none := ht
    simp only [call, setSize] at h
    split at h
    · cases h
    · rename_i d hd
      split at h
      · cases h
      · simp only [Prod.mk.injEq, and_true] at h
        subst h
        have htie : ∀ y j, (upd st.sizeTie x (upd (st.sizeTie x) i (some e))) y j =
            if (y, j) = (x, i) then some e else st.sizeTie y j := by
          intro y j
          simp only [Prod.mk.injEq]
          rcases Decidable.em (y = x) with rfl | hyx
          · rw [upd_self]
            rcases Decidable.em (j = i) with rfl | hji
            · simp [upd_self]
            · simp [upd_ne _ _ hji, hji]
          · simp [upd_ne _ _ hyx, hyx]
        have hsz : ∀ y j, (upd st.size x (upd (st.size x) i d)) y j =
            if (y, j) = (x, i) then d else st.size y j := by
          intro y j
          simp only [Prod.mk.injEq]
          rcases Decidable.em (y = x) with rfl | hyx
          · rw [upd_self]
            rcases Decidable.em (j = i) with rfl | hji
            · simp [upd_self]
            · simp [upd_ne _ _ hji, hji]
          · simp [upd_ne _ _ hyx, hyx]
        refine ⟨⟨hl.wreg, hl.wtie, hl.bare, ?_, hl.preg⟩, ⟨hc.width, ?_, hc.derived⟩⟩
        · intro p y j f
          simp only [htie]
          have hold := hl.sreg p y j f
          split
          · rename_i hp
            rw [mem_insert, hold]
            split
            · rename_i heq
              simp only [Prod.mk.injEq] at heq
              obtain ⟨rfl, rfl⟩ := heq
              simp only [Prod.mk.injEq, true_and, Option.some.injEq, ht', reduceCtorEq, false_and, or_false]
              constructor
              · rintro rfl; exact ⟨rfl, hp⟩
              · rintro ⟨rfl, _⟩; rfl
            · rename_i hne
              constructor
              · rintro (heq | h)
                · simp only [Prod.mk.injEq] at heq
                  exact absurd (by rw [heq.1, heq.2.1]) hne
                · exact h
              · exact .inr
          · rename_i hp
            rw [hold]
            split
            · rename_i heq
              simp only [Prod.mk.injEq] at heq
              obtain ⟨rfl, rfl⟩ := heq
              simp only [ht', reduceCtorEq, false_and, Option.some.injEq, false_iff, not_and]
              rintro rfl
              exact hp
            · exact Iff.rfl
        · intro y j f hy
          simp only [htie] at hy
          simp only [hsz]
          split at hy
          · rename_i heq
            simp only [Option.some.injEq] at hy
            subst hy
            rw [if_pos heq, hd]
          · rename_i hne
            rw [if_neg hne]
            exact hc.size y j f hy
  | untieSize x i =>
    simp only [call, untieSize] at h
    split at h
    · simp only [Prod.mk.injEq, and_true] at h
      subst h
      exact ⟨hl, hc⟩
    · rename_i e he
      simp only [Prod.mk.injEq, and_true] at h
      subst h
      have htie : ∀ y j, (upd st.sizeTie x (upd (st.sizeTie x) i none)) y j =
          if (y, j) = (x, i) then none else st.sizeTie y j := by
        intro y j
        simp only [Prod.mk.injEq]
        rcases Decidable.em (y = x) with rfl | hyx
        · rw [upd_self]
          rcases Decidable.em (j = i) with rfl | hji
          · simp [upd_self]
          · simp [upd_ne _ _ hji, hji]
        · simp [upd_ne _ _ hyx, hyx]
      refine ⟨⟨hl.wreg, hl.wtie, hl.bare, ?_, hl.preg⟩, ⟨hc.width, ?_, hc.derived⟩⟩
      · intro p y j f
        simp only [htie]
        have hold := hl.sreg p y j f
        split
        · rename_i hp
          rw [List.mem_filter, hold]
          split
          · rename_i heq
            simp only [Prod.mk.injEq] at heq
            obtain ⟨rfl, rfl⟩ := heq
            simp only [he, Option.some.injEq, reduceCtorEq, false_and, iff_false, not_and]
            rintro ⟨rfl, _⟩
            simp
          · rename_i hne
            constructor
            · exact fun h => h.1
            · intro h
              refine ⟨h, ?_⟩
              simp only [ne_eq, decide_eq_true_eq]
              intro heq
              simp only [Prod.mk.injEq] at heq
              exact hne (by rw [heq.1, heq.2.1])
        · rename_i hp
          rw [hold]
          split
          · rename_i heq
            simp only [Prod.mk.injEq] at heq
            obtain ⟨rfl, rfl⟩ := heq
            simp only [he, Option.some.injEq, reduceCtorEq, false_and, iff_false, not_and]
            rintro rfl
            exact hp
          · exact Iff.rfl
      · intro y j f hy
        simp only [htie] at hy
        split at hy
        · cases hy
        · exact hc.size y j f hy

theorem TameReach.ok {st : St} (h : TameReach E st) : Linked E st ∧ Consistent E st := by
  induction h with
  | fresh hf => exact fresh_ok hf
  | step _ ht hc ih => exact tame_step ih ht hc

/-- C12 (part): after any history of tame, successful calls every tied width, every tied
dimension (for any expression) and every derived parameter shows the current value.  Missing: the calls `Tame`
excludes, where the claim is false of the code (counterexamples below). -/
theorem params_partial (st : St) (h : TameReach E st) : Consistent E st := h.ok.2

/-- C12 (part): setting a value reaches exactly the parameters derived from it, at any depth. -/
theorem set_value_reaches_partial (st st' : St) (n p : Nat) (v : Int) (hr : TameReach E st)
    (hroot : st.parent p = none) (h : setValue E n st p v = (st', .ok)) :
    Consistent E st' ∧ (∀ q, Desc st p q → st'.val q = v) ∧
      (∀ q, ¬ Desc st p q → st'.val q = st.val q) :=
  set_value_step st st' n p v hroot h hr.ok

/-- A non-positive value for a parameter used as a width is rejected and nothing changes. -/
theorem nonpositive_rejected (st : St) (n p x : Nat) (v : Int) (hv : v ≤ 0)
    (hx : x ∈ st.widthVars p) : setValue E (n + 1) st p v = (st, .throw) := by
  unfold setValue
  rw [if_pos ⟨hv, List.ne_nil_of_mem hx⟩]

/-- … and every width tied to the parameter itself counts as such a use. -/
theorem nonpositive_rejected_tied (st : St) (n p x e : Nat) (v : Int) (hr : TameReach E st)
    (hv : v ≤ 0) (hx : st.widthTie x = some e) (hp : p ∈ (E e).pars) :
    setValue E (n + 1) st p v = (st, .throw) :=
  nonpositive_rejected st n p x v hv (hr.ok.1.wreg x e hx p hp)

/-! ## A design that meets the hypotheses, and the counterexamples -/

def st0 : St where
  val := fun _ => 1
  pwidth := fun _ => 32
  psgn := fun _ => false
  widthVars := fun _ => []
  sizeVars := fun _ => []
  kids := fun _ => []
  parent := fun _ => none
  width := fun _ => 1
  widthTie := fun _ => none
  size := fun _ _ => 1
  sizeTie := fun _ _ => none
  used := fun _ _ => 0

/-- Expression 0 is `P0`, 1 is `P0 + 1`, 2 is `P1`, 3 is `P1 + 1`. -/
def E0 : Nat → WExpr
  | 0 => .par 0
  | 1 => .plus 0 1
  | 2 => .par 1
  | _ => .plus 1 1

theorem st0_fresh : Fresh st0 := ⟨fun _ => ⟨rfl, rfl, rfl, rfl⟩, fun _ => ⟨rfl, fun _ => rfl⟩⟩

def runCalls (st : St) : List Call → St × Out
  | [] => (st, .ok)
  | c :: cs => match call E0 10 st c with
    | (st', .ok) => runCalls st' cs
    | r => r

theorem reach_run : ∀ (cs : List Call) (st st' : St), Reach E0 st → runCalls st cs = (st', .ok) → Reach E0 st' := by
  intro cs
  induction cs with
  | nil =>
    intro st st' hr h
    simp only [runCalls, Prod.mk.injEq, and_true] at h
    rwa [← h]
  | cons c cs ih =>
    intro st st' hr h
    unfold runCalls at h
    split at h
    · rename_i s hs
      exact ih s st' (.step hr hs) h
    · rename_i r hr'
      cases hs : call E0 10 st c with
      | mk s o => rw [hs] at h hr'; cases o <;> simp_all

/-- What is observed after a history, for concrete checks. -/
def outcome (cs : List Call) (f : St → Int) : Option Int :=
  match runCalls st0 cs with
  | (st, .ok) => some (f st)
  | _ => none

theorem outcome_reach {cs : List Call} {f : St → Int} {v : Int} (h : outcome cs f = some v) :
    ∃ st, Reach E0 st ∧ runCalls st0 cs = (st, .ok) ∧ f st = v := by
  unfold outcome at h
  split at h
  · rename_i st hst
    exact ⟨st, reach_run cs st0 st (.fresh st0_fresh) hst, hst, by simpa using h⟩
  · cases h

/-- A tame history: `P1` set from `P0`, a width tied to `P1`, a dimension to `P1 + 1`; setting
`P0 = 8` gives width 8 and dimension 9. -/
example : ∃ st, TameReach E0 st ∧ st.width 5 = 8 ∧ st.size 6 0 = 9 ∧ st.widthTie 5 = some 2 := by
  refine ⟨_, .step (n := 10) (c := .setValue 0 8) (.step (n := 10) (c := .tieSize 6 0 3) (.step (n := 10) (c := .tieWidth 5 2)
    (.step (n := 10) (c := .setParent 1 0) (.fresh st0_fresh) ⟨rfl, by decide⟩ rfl)
    ⟨rfl, 1, rfl, fun _ => rfl⟩ rfl) rfl rfl) rfl rfl, ?_, ?_, ?_⟩ <;> decide

/-- A width tied to `P0 + 1`: setting `P0 = 8` makes the width 8 instead of 9. -/
theorem params_counterexample_expr : ∃ st, Reach E0 st ∧ st.widthTie 5 = some 1 ∧
    st.val 0 = 8 ∧ st.width 5 = 8 := by
  have h : outcome [.tieWidth 5 1, .setValue 0 8] (fun s => s.width 5) = some 8 := by decide
  have h1 : outcome [.tieWidth 5 1, .setValue 0 8] (fun s => s.val 0) = some 8 := by decide
  have h2 : outcome [.tieWidth 5 1, .setValue 0 8]
    (fun s => match s.widthTie 5 with | some e => e | none => -1) = some 1 := by decide
  obtain ⟨st, hr, hrun, hw⟩ := outcome_reach h
  obtain ⟨st1, _, hrun1, hw1⟩ := outcome_reach h1
  obtain ⟨st2, _, hrun2, hw2⟩ := outcome_reach h2
  have e1 : st1 = st := by rw [hrun] at hrun1; simpa using hrun1.symm
  have e2 : st2 = st := by rw [hrun] at hrun2; simpa using hrun2.symm
  subst e1 e2
  refine ⟨st2, hr, ?_, hw1, hw⟩
  cases ht : st2.widthTie 5 with
  | none => simp [ht] at hw2
  | some e =>
    simp only [ht] at hw2
    congr 1
    omega

theorem not_ParamsCorrect : ¬ ParamsCorrect := by
  intro hc
  obtain ⟨st, hr, ht, hv, hw⟩ := params_counterexample_expr
  have := (hc E0 st hr).width 5 1 ht
  simp [E0, WExpr.plus, hv, hw] at this

/-- Untying a width does not take effect: the variable keeps following the parameter. -/
theorem params_counterexample_untie :
    outcome [.tieWidth 5 0, .untieWidth 5, .setValue 0 8] (fun s => s.width 5) = some 8 ∧
    outcome [.tieWidth 5 0, .untieWidth 5, .setValue 0 8] (fun s => if s.widthTie 5 = none then 1 else 0) = some 1 := by
  constructor <;> decide

/-- Re-tying a width to another parameter leaves the first in control: `P1 = 1`, width 8. -/
theorem params_counterexample_retie :
    outcome [.tieWidth 5 0, .tieWidth 5 2, .setValue 0 8] (fun s => s.width 5) = some 8 ∧
    outcome [.tieWidth 5 0, .tieWidth 5 2, .setValue 0 8] (fun s => s.val 1) = some 1 ∧
    outcome [.tieWidth 5 0, .tieWidth 5 2, .setValue 0 8] (fun s => if s.widthTie 5 = some 2 then 1 else 0) = some 1 := by
  refine ⟨?_, ?_, ?_⟩ <;> decide

/-- A parameter given a second parent still follows the first. -/
theorem params_counterexample_reparent :
    outcome [.setParent 2 0, .setParent 2 1, .setValue 0 8] (fun s => s.val 2) = some 8 ∧
    outcome [.setParent 2 0, .setParent 2 1, .setValue 0 8] (fun s => s.val 1) = some 1 ∧
    outcome [.setParent 2 0, .setParent 2 1, .setValue 0 8] (fun s => if s.parent 2 = some 1 then 1 else 0) = some 1 := by
  refine ⟨?_, ?_, ?_⟩ <;> decide

/-- A rejected value is not undone: `P1` is set from `P0` and used as a width; `P0 = 0` throws
and leaves `P0 = 0`, `P1 = 1`. -/
theorem params_counterexample_atomic :
    ∃ st st', TameReach E0 st ∧ st.parent 1 = some 0 ∧ setValue E0 10 st 0 0 = (st', .throw) ∧
      st.val 0 = 1 ∧ st'.val 0 = 0 ∧ st'.val 1 = 1 := by
  refine ⟨_, _, .step (n := 10) (c := .tieWidth 5 2) (.step (n := 10) (c := .setParent 1 0)
    (.fresh st0_fresh) ⟨rfl, by decide⟩ rfl) ⟨rfl, 1, rfl, fun _ => rfl⟩ rfl, ?_, rfl, ?_, ?_, ?_⟩ <;> decide

end Kratos.Param
