import Verif.Stmt.Heap

/-!
# C64: theorems about statement trees
-/

namespace Kratos.Heap

/-! ### No block holds a statement twice: every history -/

theorem upd_same {β : Type} (f : Nat → β) (a : Nat) (b : β) : upd f a b a = b := by simp [upd]
theorem upd_ne {β : Type} (f : Nat → β) {a x : Nat} (b : β) (h : x ≠ a) : upd f a b x = f x := by simp [upd, h]

theorem setParent_shape (f : Nat) (h : Heap) (n p : Nat) : ∃ P, (setParent f h n p).1 = h.withP P := by
  obtain ⟨P, h1, _⟩ := setParent_spec f h n p
  exact ⟨P, h1⟩

/-- A property of heaps that a loop keeps if its body does. -/
theorem eachS_keeps (I : Heap → Prop) (f : Heap → Nat → Heap × Res Unit) (hf : ∀ h x, I h → I (f h x).1) :
    ∀ (xs : List Nat) (h : Heap), I h → I (eachS f h xs).1
  | [], _, hi => hi
  | x :: xs, h, hi => by
    have h1 := hf h x hi
    simp only [eachS]
    split
    · rename_i e
      rw [e] at h1
      exact eachS_keeps I f hf xs _ h1
    · rename_i e
      rw [e] at h1
      exact h1

theorem NoTwice.addStmt {h : Heap} (hn : NoTwice h) (f b s : Nat) : NoTwice (addStmt f h b s).1 := by
  unfold Heap.addStmt
  split
  · exact hn
  split
  · exact hn
  rename_i hc
  split
  · exact hn
  obtain ⟨P, hP⟩ := setParent_shape f h s b
  split
  · rename_i h' _ e
    rw [e] at hP
    simp only at hP
    subst hP
    intro c t hk
    show (upd h.stmts b (h.stmts b ++ [s]) c).Nodup
    by_cases ec : c = b
    · subst ec
      rw [upd_same]
      refine List.nodup_append.2 ⟨hn c t hk, by simp, fun x hx y hy => ?_⟩
      rw [List.mem_singleton] at hy
      subst hy
      rintro rfl
      exact hc (List.contains_iff_mem.2 hx)
    · rw [upd_ne _ _ ec]
      exact hn c t hk
  · rename_i h' r _ e
    rw [e] at hP
    simp only at hP
    subst hP
    exact hn

theorem NoTwice.alloc {h : Heap} (hn : NoTwice h) (k : Kind) : NoTwice (h.alloc k) := by
  intro c t hk
  show (upd h.stmts h.next [] c).Nodup
  by_cases ec : c = h.next
  · subst ec; rw [upd_same]; exact List.nodup_nil
  · rw [upd_ne _ _ ec]
    have hk : upd h.kind h.next k c = .block t := hk
    rw [upd_ne _ _ ec] at hk
    exact hn c t hk

theorem NoTwice.newCase {h : Heap} (hn : NoTwice h) (sw : Nat) (c : Option Nat) : NoTwice (newCase h sw c) := by
  intro x t hk
  show (upd h.stmts h.next [] x).Nodup
  by_cases ec : x = h.next
  · subst ec; rw [upd_same]; exact List.nodup_nil
  · rw [upd_ne _ _ ec]
    have hk : upd h.kind h.next _ x = .block t := hk
    rw [upd_ne _ _ ec] at hk
    exact hn x t hk

theorem NoTwice.addCase {h : Heap} (hn : NoTwice h) (f sw : Nat) (c : Option Nat) (s : Nat) : NoTwice (addCase f h sw c s).1 := by
  obtain ⟨P, hP⟩ := setParent_shape f h s sw
  unfold Heap.addCase
  split
  · rename_i h' _ e
    rw [e] at hP
    simp only at hP
    have h1 : NoTwice h' := by rw [hP]; exact hn
    have h2 : NoTwice (caseBody h' sw c).1 := by
      unfold caseBody
      split
      · exact h1
      · exact h1.newCase sw c
    simp only
    split
    · exact eachS_keeps NoTwice _ (fun h x hi => hi.addStmt f _ x) _ _ h2
    · exact h2.addStmt f _ s
  · rename_i h' r _ e
    rw [e] at hP
    simp only at hP
    rw [hP]
    exact hn

theorem NoTwice.step {h : Heap} (hn : NoTwice h) (f : Nat) (o : Op) (ho : ∀ b i s, o ≠ .setChild b i s) : NoTwice (step f h o).1 := by
  have setP : ∀ {h : Heap}, NoTwice h → ∀ n p, NoTwice (h.setP n p) := fun hn _ _ => hn
  cases o with
  | newGen => exact hn.alloc _
  | newLeaf a i => exact hn.alloc _
  | newBlock t => exact hn.alloc _
  | newIf => exact (setP (NoTwice.alloc (setP (hn.alloc _) _ _) _) _ _).alloc _
  | newFor g => exact (setP (hn.alloc _) _ _).alloc _
  | newSwitch => exact hn.alloc _
  | addStmt b s =>
    simp only [Heap.step]
    split
    · exact hn.addStmt f b s
    · exact hn
  | addThen i s =>
    simp only [Heap.step]
    split
    · exact hn.addStmt f _ s
    · exact hn
  | addElse i s =>
    simp only [Heap.step]
    split
    · exact hn.addStmt f _ s
    · exact hn
  | forAdd i s =>
    simp only [Heap.step]
    split
    · exact hn.addStmt f _ s
    · exact hn
  | addCase sw c s =>
    simp only [Heap.step]
    split
    · exact hn.addCase f sw c s
    · exact hn
  | addGen g s =>
    simp only [Heap.step]
    split
    · rename_i hg
      obtain ⟨P, hP⟩ := setParent_shape f h s g
      unfold Heap.addGen
      split
      · rename_i h' _ e
        rw [e] at hP
        simp only at hP
        subst hP
        intro c t hk
        show (upd h.stmts g (h.stmts g ++ [s]) c).Nodup
        have hk : h.kind c = .block t := hk
        have ec : c ≠ g := fun e => by rw [e, hg] at hk; cases hk
        rw [upd_ne _ _ ec]
        exact hn c t hk
      · rename_i h' r _ e
        rw [e] at hP
        simp only at hP
        subst hP
        exact hn
    · exact hn
  | remove b s =>
    intro c t hk
    show (upd h.stmts b _ c).Nodup
    by_cases ec : c = b
    · subst ec; rw [upd_same]; exact (hn c t hk).erase _
    · rw [upd_ne _ _ ec]; exact hn c t hk
  | removeCase sw c => exact hn
  | setChild b i s => exact absurd rfl (ho b i s)
  | setConst c v => exact hn

theorem foldl_keeps {α β : Type} (I : β → Prop) (g : β → α → β) : ∀ (os : List α) (b : β), I b → (∀ b o, o ∈ os → I b → I (g b o)) →
    I (os.foldl g b)
  | [], _, h, _ => h
  | o :: os, b, h, hg => foldl_keeps I g os (g b o) (hg b o (List.mem_cons_self ..) h)
      (fun b o ho hi => hg b o (List.mem_cons_of_mem _ ho) hi)

/-- **C64, no duplicates**: after any history of creating, adding and removing statements, however careless,
no block contains a statement twice. (`set_child`, which replaces a statement in place, is the exception:
`setChild_duplicates`.) -/
theorem no_twice (f : Nat) (os : List Op) (hs : ∀ o ∈ os, ∀ b i s, o ≠ .setChild b i s) : NoTwice (after f os) :=
  foldl_keeps NoTwice _ os empty (fun _ _ hk => by cases hk) (fun _ o ho hi => hi.step f o (hs o ho))

/-! ### One body per case value: every history -/

theorem sameCase_iff (h : Heap) (a b : Option Nat) : sameCase h a b = true ↔ caseValue h a = caseValue h b := by
  cases a <;> cases b <;> simp [sameCase, caseValue]

theorem findCase_none (h : Heap) (c : Option Nat) : ∀ (cs : List (Option Nat × Nat)), findCase h c cs = none →
    ∀ e ∈ cs, caseValue h e.1 ≠ caseValue h c
  | [], _, _, he => nomatch he
  | (k, b) :: cs, hn, e, he => by
    unfold findCase at hn
    split at hn
    · cases hn
    · rename_i hs
      rcases List.mem_cons.1 he with rfl | he
      · exact fun h => hs ((sameCase_iff ..).2 h.symm)
      · exact findCase_none h c cs hn e he

theorem OneBody.addStmt {h : Heap} (hn : OneBody h) (f b s : Nat) : OneBody (addStmt f h b s).1 := by
  obtain ⟨P, hP⟩ := setParent_shape f h s b
  unfold Heap.addStmt
  split
  · exact hn
  split
  · exact hn
  split
  · exact hn
  split
  all_goals
    rename_i e
    rw [e] at hP
    simp only at hP
    subst hP
    exact hn

theorem OneBody.cases_upd {h h' : Heap} (hn : OneBody h) (a : Nat) (l : List (Option Nat × Nat)) (hc : h'.cases = upd h.cases a l)
    (hv : h'.cval = h.cval) (hl : (l.map fun e => caseValue h e.1).Nodup) : OneBody h' := by
  intro sw
  have e : (fun e : Option Nat × Nat => caseValue h' e.1) = fun e => caseValue h e.1 := by
    funext e; simp only [caseValue, hv]
  rw [e, hc]
  by_cases ea : sw = a
  · subst ea; rw [upd_same]; exact hl
  · rw [upd_ne _ _ ea]; exact hn sw

theorem OneBody.newCase {h : Heap} (hn : OneBody h) (sw : Nat) (c : Option Nat) (hf : findCase h c (h.cases sw) = none) :
    OneBody (newCase h sw c) := by
  have h1 : OneBody { h with cases := upd h.cases h.next [] } := hn.cases_upd h.next [] rfl rfl List.nodup_nil
  refine h1.cases_upd sw (h.cases sw ++ [(c, h.next)]) rfl rfl ?_
  rw [List.map_append]
  refine List.nodup_append.2 ⟨hn sw, by simp, ?_⟩
  intro x hx y hy
  obtain ⟨e, he, rfl⟩ := List.mem_map.1 hx
  simp only [List.map_cons, List.map_nil, List.mem_singleton] at hy
  subst hy
  exact findCase_none h c _ hf e he

theorem OneBody.step {h : Heap} (hn : OneBody h) (f : Nat) (o : Op) (ho : ∀ c v, o ≠ .setConst c v) : OneBody (step f h o).1 := by
  have alloc : ∀ {h : Heap}, OneBody h → ∀ k, OneBody (h.alloc k) := fun hn k => hn.cases_upd _ [] rfl rfl List.nodup_nil
  have setP : ∀ {h : Heap}, OneBody h → ∀ n p, OneBody (h.setP n p) := fun hn _ _ => hn
  cases o with
  | newGen => exact alloc hn _
  | newLeaf a i => exact alloc hn _
  | newBlock t => exact alloc hn _
  | newIf => exact alloc (setP (alloc (setP (alloc hn _) _ _) _) _ _) _
  | newFor g => exact alloc (setP (alloc hn _) _ _) _
  | newSwitch => exact alloc hn _
  | addStmt b s =>
    simp only [Heap.step]
    split
    · exact hn.addStmt f b s
    · exact hn
  | addThen i s =>
    simp only [Heap.step]
    split
    · exact hn.addStmt f _ s
    · exact hn
  | addElse i s =>
    simp only [Heap.step]
    split
    · exact hn.addStmt f _ s
    · exact hn
  | forAdd i s =>
    simp only [Heap.step]
    split
    · exact hn.addStmt f _ s
    · exact hn
  | addCase sw c s =>
    simp only [Heap.step]
    split
    · obtain ⟨P, hP⟩ := setParent_shape f h s sw
      unfold Heap.addCase
      split
      · rename_i h' _ e
        rw [e] at hP
        simp only at hP
        have h1 : OneBody h' := by rw [hP]; exact hn
        have h2 : OneBody (caseBody h' sw c).1 := by
          unfold caseBody
          split
          · exact h1
          · rename_i hf; exact h1.newCase sw c hf
        simp only
        split
        · exact eachS_keeps OneBody _ (fun h x hi => hi.addStmt f _ x) _ _ h2
        · exact h2.addStmt f _ s
      · rename_i h' r _ e
        rw [e] at hP
        simp only at hP
        rw [hP]
        exact hn
    · exact hn
  | addGen g s =>
    simp only [Heap.step]
    split
    · obtain ⟨P, hP⟩ := setParent_shape f h s g
      unfold Heap.addGen
      split
      all_goals
        rename_i e
        rw [e] at hP
        simp only at hP
        subst hP
        exact hn
    · exact hn
  | remove b s => exact hn
  | removeCase sw c => exact hn.cases_upd sw _ rfl rfl ((hn sw).sublist (List.Sublist.map _ List.filter_sublist))
  | setChild b i s =>
    simp only [Heap.step]
    split
    · unfold Heap.setChild
      split
      · obtain ⟨P, hP⟩ := setParent_shape f { h with stmts := upd h.stmts b ((h.stmts b).set i s) } s b
        rw [hP]
        exact hn
      · exact hn
    · exact hn
  | setConst c v => exact absurd rfl (ho c v)

/-- **C64, cases**: after any history of calls that does not change the value of a constant, every switch has at most
one block per case value, the default included. -/
theorem one_body (f : Nat) (os : List Op) (hs : ∀ o ∈ os, ∀ c v, o ≠ .setConst c v) : OneBody (after f os) :=
  foldl_keeps OneBody _ os empty (fun _ => List.nodup_nil) (fun _ o ho hi => hi.step f o (hs o ho))

/-! ### One parent: careful histories -/

structure WF (h : Heap) : Prop where
  bound : ∀ q x, Holds h q x → q < h.next ∧ x < h.next
  free : ∀ n, h.next ≤ n → h.kind n = .free ∧ h.stmts n = [] ∧ h.cases n = []
  one : OneHolder h
  par : ParentsOkUpToLoops h
  acyc : NoCycle h

/-- `s` may be put into `b`: it is held by nothing, and `b` is not inside it. -/
structure CanAdd (h : Heap) (b s : Nat) : Prop where
  detached : ∀ q, ¬ Holds h q s
  ne : b ≠ s
  above : ¬ Below h s b
  there : b < h.next ∧ s < h.next

/-- A careful caller: only statements that are in no block yet are added, and never inside themselves; blocks are
not merged into a switch case. -/
def Careful (h : Heap) : Op → Prop
  | .addStmt b s => CanAdd h b s
  | .addThen i s => ∀ t e, h.kind i = .ifS t e → CanAdd h t s
  | .addElse i s => ∀ t e, h.kind i = .ifS t e → CanAdd h e s
  | .forAdd f s => ∀ b g, h.kind f = .forS b g → CanAdd h b s
  | .addCase sw _ s => CanAdd h sw s ∧ isBlock (h.kind s) = false
  | .addGen g s => CanAdd h g s
  | .setChild b _ s => CanAdd h b s
  | _ => True

/-- States reached by careful calls that do not crash. -/
inductive Reached (f : Nat) : Heap → Prop where
  | start : Reached f empty
  | call {h o} : Reached f h → Careful h o → (step f h o).2 ≠ .ub → Reached f (step f h o).1

theorem Below.mono {h h' : Heap} (H : ∀ q x, Holds h' q x → Holds h q x) {q x : Nat} (hb : Below h' q x) : Below h q x := by
  induction hb with
  | one h => exact .one (H _ _ h)
  | more h _ ih => exact .more (H _ _ h) ih

theorem Below.trans {h : Heap} {a b c : Nat} (h1 : Below h a b) (h2 : Below h b c) : Below h a c := by
  induction h1 with
  | one h => exact .more h h2
  | more h _ ih => exact .more h (ih h2)

theorem Below.last {h : Heap} {a x : Nat} (hb : Below h a x) : ∃ q, Holds h q x ∧ (q = a ∨ Below h a q) := by
  induction hb with
  | one h => exact ⟨_, h, Or.inl rfl⟩
  | more h _ ih =>
    obtain ⟨q, h1, h2⟩ := ih
    refine ⟨q, h1, Or.inr ?_⟩
    rcases h2 with rfl | h2
    · exact .one h
    · exact .more h h2

/-- Fewer held statements. -/
theorem WF.shrink {h h' : Heap} (hw : WF h) (H : ∀ q x, Holds h' q x → Holds h q x) (hn : h'.next = h.next)
    (hp : h'.parent = h.parent) (hk : h'.kind = h.kind) (hf : ∀ n, h.next ≤ n → h'.stmts n = [] ∧ h'.cases n = []) : WF h' where
  bound q x hx := by rw [hn]; exact hw.bound q x (H q x hx)
  free n hle := by
    rw [hn] at hle
    rw [hk]
    exact ⟨(hw.free n hle).1, hf n hle⟩
  one q q' x h1 h2 := hw.one q q' x (H _ _ h1) (H _ _ h2)
  par q x hx := by rw [hp, hk]; exact hw.par q x (H q x hx)
  acyc x hx := hw.acyc x (hx.mono H)

/-- `set_parent` on a detached statement. -/
theorem WF.touched {h : Heap} (hw : WF h) {n p : Nat} {P : Nat → Option Nat} (ht : Touched h n p P) (hd : ∀ q, ¬ Holds h q n) :
    WF (h.withP P) where
  bound q x hx := hw.bound q x (holds_withP.1 hx)
  free := hw.free
  one q q' x h1 h2 := hw.one q q' x (holds_withP.1 h1) (holds_withP.1 h2)
  par q x hx := by
    have hx := holds_withP.1 hx
    show P x = some q ∨ ∃ f g, h.kind f = .forS q g ∧ P x = some f
    rcases ht x with e | ⟨rfl, _⟩ | ⟨q', hq', e⟩
    · rw [e]; exact hw.par q x hx
    · exact absurd hx (hd q)
    · rcases hq' with hq' | ⟨b, g, hk, hm⟩
      · rw [hw.one q q' x hx hq']; exact Or.inl e
      · rw [hw.one q b x hx (.stmt hm)]; exact Or.inr ⟨q', g, hk, e⟩
  acyc x hx := hw.acyc x (hx.mono fun _ _ => holds_withP.1)

/-- One more held statement. -/
theorem WF.edge {h h' : Heap} {b s : Nat} (hw : WF h) (hc : CanAdd h b s) (H : ∀ q x, Holds h' q x → Holds h q x ∨ (q = b ∧ x = s))
    (hn : h'.next = h.next) (hk : h'.kind = h.kind) (hp : ∀ x, x ≠ s → h'.parent x = h.parent x) (hs : h'.parent s = some b)
    (hf : ∀ n, h.next ≤ n → h'.stmts n = [] ∧ h'.cases n = []) : WF h' where
  bound q x hx := by
    rw [hn]
    rcases H q x hx with h | ⟨rfl, rfl⟩
    · exact hw.bound q x h
    · exact hc.there
  free n hle := by
    rw [hn] at hle
    rw [hk]
    exact ⟨(hw.free n hle).1, hf n hle⟩
  one q q' x h1 h2 := by
    rcases H q x h1 with h1 | ⟨rfl, rfl⟩
    · rcases H q' x h2 with h2 | ⟨rfl, rfl⟩
      · exact hw.one q q' x h1 h2
      · exact absurd h1 (hc.detached q)
    · rcases H q' x h2 with h2 | ⟨rfl, _⟩
      · exact absurd h2 (hc.detached q')
      · rfl
  par q x hx := by
    rw [hk]
    rcases H q x hx with h | ⟨rfl, rfl⟩
    · have hne : x ≠ s := by rintro rfl; exact hc.detached q h
      rw [hp x hne]
      exact hw.par q x h
    · exact Or.inl hs
  acyc x hx := by
    have key : ∀ a x, Below h' a x → Below h a x ∨ ((a = b ∨ Below h a b) ∧ (x = s ∨ Below h s x)) := by
      intro a x hb
      induction hb with
      | one hh =>
        rcases H _ _ hh with h | ⟨rfl, rfl⟩
        · exact Or.inl (.one h)
        · exact Or.inr ⟨Or.inl rfl, Or.inl rfl⟩
      | more hh _ ih =>
        rcases H _ _ hh with h1 | ⟨rfl, rfl⟩
        · rcases ih with ih | ⟨ih1, ih2⟩
          · exact Or.inl (.more h1 ih)
          · refine Or.inr ⟨Or.inr ?_, ih2⟩
            rcases ih1 with rfl | ih1
            · exact .one h1
            · exact .more h1 ih1
        · rcases ih with ih | ⟨ih1, _⟩
          · exact Or.inr ⟨Or.inl rfl, Or.inr ih⟩
          · rcases ih1 with e | ih1
            · exact absurd e.symm hc.ne
            · exact absurd ih1 hc.above
    rcases key x x hx with h | ⟨h1, h2⟩
    · exact hw.acyc x h
    · rcases h1 with rfl | h1 <;> rcases h2 with rfl | h2
      · exact hc.ne rfl
      · exact hc.above h2
      · exact hc.above h1
      · exact hc.above (h2.trans h1)

/-- A new object that holds already existing, detached objects (`k` says which). -/
theorem WF.alloc {h : Heap} (hw : WF h) (k : Kind) (P : Nat → Option Nat) (l : List Nat)
    (hl : ∀ x, (∃ t e, k = .ifS t e ∧ (x = t ∨ x = e)) ∨ (∃ b g, k = .forS b g ∧ x = b) → x ∈ l)
    (hd : ∀ x ∈ l, x < h.next ∧ (∀ q, ¬ Holds h q x) ∧ P x = some h.next) (hP : ∀ x, x ∉ l → x < h.next → P x = h.parent x)
    (hnf : k ≠ .free) :
    WF ((h.alloc k).withP P) := by
  have H : ∀ q x, Holds ((h.alloc k).withP P) q x → Holds h q x ∨ (q = h.next ∧ x ∈ l) := by
    intro q x hx
    rw [holds_withP] at hx
    by_cases hq : q = h.next
    · subst hq
      refine Or.inr ⟨rfl, ?_⟩
      cases hx with
      | stmt hm =>
        have hm : x ∈ upd h.stmts h.next [] h.next := hm
        rw [upd_same] at hm
        cases hm
      | thenB hk =>
        rename_i e
        have hk : upd h.kind h.next k h.next = _ := hk
        rw [upd_same] at hk
        exact hl _ (Or.inl ⟨_, e, hk, Or.inl rfl⟩)
      | elseB hk =>
        rename_i t
        have hk : upd h.kind h.next k h.next = _ := hk
        rw [upd_same] at hk
        exact hl _ (Or.inl ⟨t, _, hk, Or.inr rfl⟩)
      | loop hk =>
        rename_i g
        have hk : upd h.kind h.next k h.next = _ := hk
        rw [upd_same] at hk
        exact hl _ (Or.inr ⟨_, g, hk, rfl⟩)
      | case hm =>
        have hm : _ ∈ upd h.cases h.next [] h.next := hm
        rw [upd_same] at hm
        cases hm
    · refine Or.inl ?_
      cases hx with
      | stmt hm =>
        have hm : x ∈ upd h.stmts h.next [] q := hm
        rw [upd_ne _ _ hq] at hm
        exact .stmt hm
      | thenB hk =>
        have hk : upd h.kind h.next k q = _ := hk
        rw [upd_ne _ _ hq] at hk
        exact .thenB hk
      | elseB hk =>
        have hk : upd h.kind h.next k q = _ := hk
        rw [upd_ne _ _ hq] at hk
        exact .elseB hk
      | loop hk =>
        have hk : upd h.kind h.next k q = _ := hk
        rw [upd_ne _ _ hq] at hk
        exact .loop hk
      | case hm =>
        have hm : _ ∈ upd h.cases h.next [] q := hm
        rw [upd_ne _ _ hq] at hm
        exact .case hm
  have next_free : ∀ x, ¬ Holds h h.next x := fun x hx => absurd (hw.bound _ _ hx).1 (by omega)
  have next_det : ∀ q, ¬ Holds h q h.next := fun q hx => absurd (hw.bound _ _ hx).2 (by omega)
  refine ⟨?_, ?_, ?_, ?_, ?_⟩
  · intro q x hx
    show q < h.next + 1 ∧ x < h.next + 1
    rcases H q x hx with h1 | ⟨rfl, h1⟩
    · have := hw.bound q x h1; omega
    · have := (hd x h1).1; omega
  · intro n hle
    have hle : h.next + 1 ≤ n := hle
    have hne : n ≠ h.next := by omega
    obtain ⟨f1, f2, f3⟩ := hw.free n (by omega)
    exact ⟨(upd_ne _ _ hne).trans f1, (upd_ne _ _ hne).trans f2, (upd_ne _ _ hne).trans f3⟩
  · intro q q' x h1 h2
    rcases H q x h1 with h1 | ⟨rfl, h1'⟩
    · rcases H q' x h2 with h2 | ⟨rfl, h2'⟩
      · exact hw.one q q' x h1 h2
      · exact absurd h1 ((hd x h2').2.1 q)
    · rcases H q' x h2 with h3 | ⟨rfl, _⟩
      · exact absurd h3 ((hd x h1').2.1 q')
      · rfl
  · intro q x hx
    show P x = some q ∨ ∃ f g, upd h.kind h.next k f = .forS q g ∧ P x = some f
    rcases H q x hx with h1 | ⟨rfl, h1⟩
    · have hb := hw.bound q x h1
      rw [hP x (fun hm => (hd x hm).2.1 q h1) hb.2]
      rcases hw.par q x h1 with h2 | ⟨f, g, h2, h3⟩
      · exact Or.inl h2
      · refine Or.inr ⟨f, g, ?_, h3⟩
        rw [upd_ne _ _ (by rintro rfl; have := (hw.free h.next (Nat.le_refl _)).1; rw [h2] at this; cases this)]
        exact h2
    · exact Or.inl (hd x h1).2.2
  · intro x hx
    have key : ∀ a x, Below ((h.alloc k).withP P) a x → Below h a x ∨ (a = h.next ∧ x ≠ h.next) := by
      intro a x hb
      induction hb with
      | one hh =>
        rcases H _ _ hh with h1 | ⟨rfl, h1⟩
        · exact Or.inl (.one h1)
        · exact Or.inr ⟨rfl, by have := (hd _ h1).1; omega⟩
      | more hh _ ih =>
        rcases H _ _ hh with h1 | ⟨rfl, h1⟩
        · rcases ih with ih | ⟨rfl, _⟩
          · exact Or.inl (.more h1 ih)
          · exact absurd h1 (next_det _)
        · rcases ih with ih | ⟨rfl, h2⟩
          · refine Or.inr ⟨rfl, ?_⟩
            obtain ⟨q, h3, _⟩ := ih.last
            rintro rfl
            exact next_det _ h3
          · exact Or.inr ⟨rfl, h2⟩
    rcases key x x hx with h1 | ⟨rfl, h1⟩
    · exact hw.acyc x h1
    · exact h1 rfl

theorem WF.allocPlain {h : Heap} (hw : WF h) (k : Kind) (hk : ∀ t e, k ≠ .ifS t e) (hk' : ∀ b g, k ≠ .forS b g) (hnf : k ≠ .free) :
    WF (h.alloc k) := by
  have := hw.alloc k (upd h.parent h.next none) [] (by
      rintro x (⟨t, e, h1, _⟩ | ⟨b, g, h1, _⟩)
      · exact absurd h1 (hk t e)
      · exact absurd h1 (hk' b g)) (fun _ h => nomatch h) (fun x _ hx => upd_ne _ _ (by omega)) hnf
  exact this

theorem holds_alloc_plain {h : Heap} {k : Kind} (hk : ∀ t e, k ≠ .ifS t e) (hk' : ∀ b g, k ≠ .forS b g) {q x : Nat}
    (hx : Holds (h.alloc k) q x) : q ≠ h.next ∧ Holds h q x := by
  have hq : q ≠ h.next := by
    rintro rfl
    cases hx with
    | stmt hm => have hm : x ∈ upd h.stmts h.next [] h.next := hm; rw [upd_same] at hm; cases hm
    | thenB h1 => have h1 : upd h.kind h.next k h.next = _ := h1; rw [upd_same] at h1; exact hk _ _ h1
    | elseB h1 => have h1 : upd h.kind h.next k h.next = _ := h1; rw [upd_same] at h1; exact hk _ _ h1
    | loop h1 => have h1 : upd h.kind h.next k h.next = _ := h1; rw [upd_same] at h1; exact hk' _ _ h1
    | case hm => have hm : _ ∈ upd h.cases h.next [] h.next := hm; rw [upd_same] at hm; cases hm
  refine ⟨hq, ?_⟩
  cases hx with
  | stmt hm => have hm : x ∈ upd h.stmts h.next [] q := hm; rw [upd_ne _ _ hq] at hm; exact .stmt hm
  | thenB h1 => have h1 : upd h.kind h.next k q = _ := h1; rw [upd_ne _ _ hq] at h1; exact .thenB h1
  | elseB h1 => have h1 : upd h.kind h.next k q = _ := h1; rw [upd_ne _ _ hq] at h1; exact .elseB h1
  | loop h1 => have h1 : upd h.kind h.next k q = _ := h1; rw [upd_ne _ _ hq] at h1; exact .loop h1
  | case hm => have hm : _ ∈ upd h.cases h.next [] q := hm; rw [upd_ne _ _ hq] at hm; exact .case hm

/-- Setting the parent of something nobody holds. -/
theorem WF.setP {h : Heap} (hw : WF h) {n : Nat} (p : Nat) (hd : ∀ q, ¬ Holds h q n) : WF (h.setP n p) := by
  refine hw.touched (n := n) (p := p) (P := upd h.parent n (some p)) (fun x => ?_) hd
  by_cases e : x = n
  · subst e; exact Or.inr (Or.inl ⟨rfl, upd_same ..⟩)
  · exact Or.inl (upd_ne _ _ e)

theorem WF.newIf {h : Heap} (hw : WF h) : WF (newIf h) := by
  have h1 := hw.allocPlain (.block .scope) (by simp) (by simp) (by simp)
  have d1 : ∀ q, ¬ Holds (h.alloc (.block .scope)) q h.next := fun q hx =>
    absurd (hw.bound _ _ (holds_alloc_plain (by simp) (by simp) hx).2).2 (by omega)
  have h2 := h1.setP (h.next + 2) d1
  have h3 := h2.allocPlain (.block .scope) (by simp) (by simp) (by simp)
  have d3 : ∀ q x, Holds (((h.alloc (.block .scope)).setP h.next (h.next + 2)).alloc (.block .scope)) q x → x < h.next := by
    intro q x hx
    have := (holds_alloc_plain (by simp) (by simp) hx).2
    have : Holds (h.alloc (.block .scope)) q x := holds_withP.1 this
    exact (hw.bound _ _ (holds_alloc_plain (by simp) (by simp) this).2).2
  have h4 := h3.setP (n := h.next + 1) (h.next + 2) (fun q hx => absurd (d3 q _ hx) (by omega))
  have h5 := h4.alloc (.ifS h.next (h.next + 1)) (upd (((h.alloc (.block .scope)).setP h.next (h.next + 2)).alloc (.block .scope) |>.setP (h.next + 1) (h.next + 2)).parent (h.next + 2) none)
    [h.next, h.next + 1] (by
      rintro x (⟨t, e, h1, h2⟩ | ⟨b, g, h1, _⟩)
      · injection h1 with h1 h3
        subst h1 h3
        simpa using h2
      · cases h1) (by
      intro x hx
      simp only [List.mem_cons, List.not_mem_nil, or_false] at hx
      refine ⟨?_, ?_, ?_⟩
      · show x < h.next + 1 + 1
        omega
      · intro q hq
        have := d3 q x (holds_withP.1 hq)
        omega
      · show upd (upd (upd (upd (upd h.parent h.next none) h.next (some (h.next + 2))) (h.next + 1) none) (h.next + 1) (some (h.next + 2))) (h.next + 2) none x = some (h.next + 1 + 1)
        rcases hx with rfl | rfl
        · rw [upd_ne _ _ (by omega), upd_ne _ _ (by omega), upd_ne _ _ (by omega), upd_same]
        · rw [upd_ne _ _ (by omega), upd_same])
    (fun x _ hx => upd_ne _ _ (by have : x < h.next + 1 + 1 := hx; omega)) (by simp)
  exact h5

theorem WF.newFor {h : Heap} (hw : WF h) (g : Bool) : WF (newFor h g) := by
  have h1 := hw.allocPlain (.block .scope) (by simp) (by simp) (by simp)
  have d1 : ∀ q x, Holds (h.alloc (.block .scope)) q x → x < h.next := fun q x hx =>
    (hw.bound _ _ (holds_alloc_plain (by simp) (by simp) hx).2).2
  have h2 := h1.setP (n := h.next) (h.next + 1) (fun q hx => absurd (d1 q _ hx) (by omega))
  have h5 := h2.alloc (.forS h.next g) (upd ((h.alloc (.block .scope)).setP h.next (h.next + 1)).parent (h.next + 1) none)
    [h.next] (by
      rintro x (⟨t, e, h1, h2⟩ | ⟨b, g, h1, h2⟩)
      · cases h1
      · injection h1 with h1
        subst h1
        simpa using h2) (by
      intro x hx
      simp only [List.mem_cons, List.not_mem_nil, or_false] at hx
      subst hx
      refine ⟨?_, ?_, ?_⟩
      · show h.next < h.next + 1
        omega
      · intro q hq
        have := d1 q _ (holds_withP.1 hq)
        omega
      · show upd (upd (upd h.parent h.next none) h.next (some (h.next + 1))) (h.next + 1) none h.next = some (h.next + 1)
        rw [upd_ne _ _ (by omega), upd_same])
    (fun x _ hx => upd_ne _ _ (by have : x < h.next + 1 := hx; omega)) (by simp)
  exact h5

theorem holds_push {h : Heap} {b s q x : Nat} (hx : Holds (h.push b s) q x) : Holds h q x ∨ (q = b ∧ x = s) := by
  cases hx with
  | stmt hm =>
    have hm : x ∈ upd h.stmts b (h.stmts b ++ [s]) q := hm
    by_cases e : q = b
    · subst e
      rw [upd_same] at hm
      rcases List.mem_append.1 hm with hm | hm
      · exact Or.inl (.stmt hm)
      · exact Or.inr ⟨rfl, List.mem_singleton.1 hm⟩
    · rw [upd_ne _ _ e] at hm
      exact Or.inl (.stmt hm)
  | thenB h => exact Or.inl (.thenB h)
  | elseB h => exact Or.inl (.elseB h)
  | loop h => exact Or.inl (.loop h)
  | case h => exact Or.inl (.case h)

theorem CanAdd.withP {h : Heap} {b s : Nat} {P : Nat → Option Nat} (hc : CanAdd h b s) : CanAdd (h.withP P) b s :=
  ⟨fun q hq => hc.detached q (holds_withP.1 hq), hc.ne, fun hb => hc.above (hb.mono fun _ _ => holds_withP.1), hc.there⟩

/-- `set_parent` and then `emplace_back`. -/
theorem WF.put {h : Heap} (hw : WF h) {f b s : Nat} (hc : CanAdd h b s) :
    WF (match setParent f h s b with
      | (h, .ok _) => ((h.push b s, .ok ()) : Heap × Res Unit)
      | (h, r) => (h, r)).1 := by
  obtain ⟨P, h1, h2, h3⟩ := setParent_spec f h s b
  have hw1 := hw.touched h2 hc.detached
  split
  · rename_i h' a e
    rw [e] at h1 h3
    simp only at h1 h3
    subst h1
    have hs : P s = some b := by
      rcases h3 trivial with h | ⟨q, hq | ⟨b', g, hk, hm⟩, _⟩
      · exact h
      · exact absurd hq (hc.detached q)
      · exact absurd (.stmt hm) (hc.detached b')
    refine hw1.edge hc.withP (fun q x hx => holds_push hx) rfl rfl (fun _ _ => rfl) hs ?_
    intro n hn
    have hn : h.next ≤ n := hn
    refine ⟨?_, (hw.free n hn).2.2⟩
    show upd h.stmts b _ n = []
    rw [upd_ne _ _ (by have := hc.there; omega)]
    exact (hw.free n hn).2.1
  · rename_i h' r _ e
    rw [e] at h1
    simp only at h1
    subst h1
    exact hw1

theorem WF.addStmt {h : Heap} (hw : WF h) {f b s : Nat} (hc : CanAdd h b s) : WF (addStmt f h b s).1 := by
  unfold Heap.addStmt
  split
  · exact hw
  split
  · exact hw
  split
  · exact hw
  exact hw.put hc

theorem findCase_mem (h : Heap) (c : Option Nat) : ∀ (cs : List (Option Nat × Nat)) (b : Nat), findCase h c cs = some b → ∃ k, (k, b) ∈ cs
  | [], _, hn => by cases hn
  | (k, b') :: cs, b, hn => by
    unfold findCase at hn
    split at hn
    · injection hn with hn; subst hn; exact ⟨k, List.mem_cons_self ..⟩
    · obtain ⟨k', h⟩ := findCase_mem h c cs b hn
      exact ⟨k', List.mem_cons_of_mem _ h⟩

/-- The block of a case is there, the statement can be added to it. -/
theorem WF.caseBody {h : Heap} (hw : WF h) {sw s : Nat} (c : Option Nat) (hc : CanAdd h sw s) :
    WF (caseBody h sw c).1 ∧ CanAdd (caseBody h sw c).1 (caseBody h sw c).2 s ∧ (isBlock (h.kind s) = false → isBlock ((Heap.caseBody h sw c).1.kind s) = false) := by
  unfold Heap.caseBody
  split
  · rename_i b hb
    obtain ⟨k, hm⟩ := findCase_mem h c _ b hb
    have hh : Holds h sw b := .case hm
    refine ⟨hw, ⟨hc.detached, ?_, ?_, (hw.bound _ _ hh).2, hc.there.2⟩, id⟩
    · rintro rfl; exact hc.detached sw hh
    · intro hbl
      obtain ⟨q, h1, h2⟩ := hbl.last
      have := hw.one sw q b hh h1
      subst this
      rcases h2 with h2 | h2
      · exact hc.ne h2
      · exact hc.above h2
  · -- a new block, then the entry
    have h1 := hw.allocPlain (.block .scope) (by simp) (by simp) (by simp)
    have det : ∀ q x, Holds (h.alloc (.block .scope)) q x → q ≠ h.next ∧ Holds h q x := fun q x hx => holds_alloc_plain (by simp) (by simp) hx
    have hsw := hc.there.1
    have hcan : CanAdd (h.alloc (.block .scope)) sw h.next := by
      refine ⟨fun q hq => absurd (hw.bound _ _ (det q _ hq).2).2 (by omega), by omega, ?_, ?_⟩
      · intro hb
        cases hb with
        | one h => exact (det _ _ h).1 rfl
        | more h _ => exact (det _ _ h).1 rfl
      · show sw < h.next + 1 ∧ h.next < h.next + 1
        omega
    have H : ∀ q x, Holds (newCase h sw c) q x → Holds (h.alloc (.block .scope)) q x ∨ (q = sw ∧ x = h.next) := by
      intro q x hx
      cases hx with
      | stmt hm => exact Or.inl (.stmt hm)
      | thenB h => exact Or.inl (.thenB h)
      | elseB h => exact Or.inl (.elseB h)
      | loop h => exact Or.inl (.loop h)
      | case hm =>
        rename_i k
        have hm : (k, x) ∈ upd (upd h.cases h.next []) sw (h.cases sw ++ [(c, h.next)]) q := hm
        by_cases e : q = sw
        · subst e
          rw [upd_same] at hm
          rcases List.mem_append.1 hm with hm | hm
          · refine Or.inl (.case (k := k) ?_)
            show (k, x) ∈ upd h.cases h.next [] q
            rw [upd_ne _ _ (by omega)]
            exact hm
          · rw [List.mem_singleton] at hm
            injection hm with _ hm
            exact Or.inr ⟨rfl, hm⟩
        · rw [upd_ne _ _ e] at hm
          exact Or.inl (.case (k := k) hm)
    have h2 : WF (newCase h sw c) := by
      refine h1.edge hcan H rfl rfl (fun x hx => ?_) (upd_same ..) ?_
      · show upd h.parent h.next (some sw) x = upd h.parent h.next none x
        rw [upd_ne _ _ hx, upd_ne _ _ hx]
      · intro n hn
        have hn : h.next + 1 ≤ n := hn
        refine ⟨(h1.free n hn).2.1, ?_⟩
        show upd (upd h.cases h.next []) sw _ n = []
        rw [upd_ne _ _ (by omega)]
        exact (h1.free n hn).2.2
    have hsn := hc.there.2
    refine ⟨h2, ⟨?_, by show h.next ≠ s; omega, ?_, ?_⟩, ?_⟩
    · intro q hq
      rcases H q s hq with h | ⟨_, h⟩
      · exact hc.detached q (det _ _ h).2
      · omega
    · intro hb
      -- going down from `s` to the new block passes through the switch
      have key : ∀ a x, Below (newCase h sw c) a x → a < h.next → Below h a x ∨ (x = h.next ∧ (a = sw ∨ Below h a sw)) := by
        intro a x hb
        induction hb with
        | one hh =>
          intro _
          rcases H _ _ hh with h1 | ⟨rfl, rfl⟩
          · exact Or.inl (.one (det _ _ h1).2)
          · exact Or.inr ⟨rfl, Or.inl rfl⟩
        | more hh hb' ih =>
          intro ha
          rcases H _ _ hh with h1 | ⟨rfl, rfl⟩
          · have h1 := (det _ _ h1).2
            rcases ih (hw.bound _ _ h1).2 with ih | ⟨e, ih⟩
            · exact Or.inl (.more h1 ih)
            · refine Or.inr ⟨e, Or.inr ?_⟩
              rcases ih with rfl | ih
              · exact .one h1
              · exact .more h1 ih
          · exfalso
            cases hb' with
            | one h3 =>
              rcases H _ _ h3 with h4 | ⟨h4, _⟩
              · exact (det _ _ h4).1 rfl
              · omega
            | more h3 _ =>
              rcases H _ _ h3 with h4 | ⟨h4, _⟩
              · exact (det _ _ h4).1 rfl
              · omega
      rcases key s h.next hb hsn with h3 | ⟨_, h3⟩
      · obtain ⟨q, h4, _⟩ := h3.last
        exact absurd (hw.bound _ _ h4).2 (by omega)
      · rcases h3 with e | h3
        · exact hc.ne e.symm
        · exact hc.above h3
    · show h.next < h.next + 1 ∧ s < h.next + 1
      omega
    · intro hbk
      show isBlock (upd h.kind h.next (.block .scope) s) = false
      rw [upd_ne _ _ (by omega)]
      exact hbk

theorem setParent_throw : ∀ (f : Nat) (h : Heap) (n p : Nat) (e : Err), (setParent f h n p).2 = .throw e → h.kind p = .gen
  | 0, _, _, _, _, h => by cases h
  | f + 1, h, n, p, e, ht => by
    have loop : ∀ (xs : List Nat) (P : Nat → Option Nat), (eachS (fun h x => setParent f h x n) (h.withP P) xs).2 = .throw e → h.kind n = .gen := by
      intro xs
      induction xs with
      | nil => intro P hh; cases hh
      | cons x xs ih =>
        intro P hh
        simp only [eachS] at hh
        split at hh
        · rename_i h' _ e1
          obtain ⟨Q, hQ⟩ := setParent_shape f (h.withP P) x n
          rw [e1] at hQ
          simp only at hQ
          subst hQ
          exact ih Q hh
        · rename_i h' r _ e1
          simp only at hh
          subst hh
          exact setParent_throw f (h.withP P) x n e (by rw [e1])
    unfold setParent at ht
    split at ht
    · cases ht
    · cases ht
    · cases ht
    · rename_i hk; have := loop _ _ ht; rw [hk] at this; cases this
    · rename_i hk; have := loop _ _ ht; rw [hk] at this; cases this
    · rename_i hk; have := loop _ _ ht; rw [hk] at this; cases this
    · rename_i hk
      split at ht
      · assumption
      · have := loop _ _ ht; rw [hk] at this; cases this

theorem WF.setChild {h : Heap} (hw : WF h) {f b i s : Nat} (hc : CanAdd h b s) (hb : isBlock (h.kind b) = true)
    (hu : (setChild f h b i s).2 ≠ .ub) : WF (setChild f h b i s).1 := by
  unfold Heap.setChild at hu ⊢
  split
  · rename_i hi
    rw [if_pos hi] at hu
    have H : ∀ {h' : Heap}, h'.kind = h.kind → h'.cases = h.cases → h'.stmts = upd h.stmts b ((h.stmts b).set i s) →
        ∀ q x, Holds h' q x → Holds h q x ∨ (q = b ∧ x = s) := by
      intro h' e1 e2 e3 q x hx
      cases hx with
      | stmt hm =>
        rw [e3] at hm
        by_cases e : q = b
        · subst e
          rw [upd_same] at hm
          rcases List.mem_or_eq_of_mem_set hm with hm | rfl
          · exact Or.inl (.stmt hm)
          · exact Or.inr ⟨rfl, rfl⟩
        · rw [upd_ne _ _ e] at hm
          exact Or.inl (.stmt hm)
      | thenB h => rw [e1] at h; exact Or.inl (.thenB h)
      | elseB h => rw [e1] at h; exact Or.inl (.elseB h)
      | loop h => rw [e1] at h; exact Or.inl (.loop h)
      | case h => rw [e2] at h; exact Or.inl (.case h)
    obtain ⟨P, h1, h2, h3⟩ := setParent_spec f { h with stmts := upd h.stmts b ((h.stmts b).set i s) } s b
    rw [h1]
    have hok : (setParent f { h with stmts := upd h.stmts b ((h.stmts b).set i s) } s b).2 = .ok () := by
      cases hr : (setParent f { h with stmts := upd h.stmts b ((h.stmts b).set i s) } s b).2 with
      | ok a => rfl
      | ub => exact absurd hr hu
      | throw e =>
        have := setParent_throw f _ s b e hr
        have this : h.kind b = .gen := this
        rw [this] at hb
        cases hb
    have Hs := H (h' := { h with stmts := upd h.stmts b ((h.stmts b).set i s) }) rfl rfl rfl
    have onlyb : ∀ q, Holds { h with stmts := upd h.stmts b ((h.stmts b).set i s) } q s → q = b := by
      intro q hq
      rcases Hs q s hq with h | ⟨h, _⟩
      · exact absurd h (hc.detached q)
      · exact h
    -- the heap with the new child, its parent pointer already right
    have hw1 : WF (Heap.setP { h with stmts := upd h.stmts b ((h.stmts b).set i s) } s b) := by
      refine hw.edge hc (H rfl rfl rfl) rfl rfl (fun x hx => upd_ne _ _ hx) (upd_same ..) ?_
      intro n hn
      refine ⟨?_, (hw.free n hn).2.2⟩
      show upd h.stmts b _ n = []
      rw [upd_ne _ _ (by have := hc.there; omega)]
      exact (hw.free n hn).2.1
    refine ⟨fun q x hx => hw1.bound q x (holds_withP.1 hx), hw1.free, fun q q' x a b => hw1.one q q' x (holds_withP.1 a) (holds_withP.1 b), ?_,
      fun x hx => hw1.acyc x (hx.mono fun _ _ hh => holds_withP.2 (holds_withP.1 hh))⟩
    intro q x hx
    have hx := (holds_withP (h := { h with stmts := upd h.stmts b ((h.stmts b).set i s) })).1 hx
    show P x = some q ∨ ∃ f' g, h.kind f' = .forS q g ∧ P x = some f'
    have outer : ∀ q', (Holds { h with stmts := upd h.stmts b ((h.stmts b).set i s) } q' x ∨ ForGrand { h with stmts := upd h.stmts b ((h.stmts b).set i s) } q' x) → P x = some q' →
        P x = some q ∨ ∃ f' g, h.kind f' = .forS q g ∧ P x = some f' := by
      intro q' hq' e
      rcases hq' with hq' | ⟨b', g, hk, hm⟩
      · rw [hw1.one q q' x (holds_withP.2 hx) (holds_withP.2 hq')]; exact Or.inl e
      · rw [hw1.one q b' x (holds_withP.2 hx) (holds_withP.2 (.stmt hm))]; exact Or.inr ⟨q', g, hk, e⟩
    by_cases e : x = s
    · subst e
      rcases h3 hok with h4 | ⟨q', hq', e⟩
      · rw [onlyb q hx]; exact Or.inl h4
      · exact outer q' hq' e
    · rcases h2 x with h4 | ⟨h4, _⟩ | ⟨q', hq', e'⟩
      · rw [h4]
        have := hw1.par q x (holds_withP.2 hx)
        have e5 : (Heap.setP { h with stmts := upd h.stmts b ((h.stmts b).set i s) } s b).parent x = h.parent x := upd_ne _ _ e
        rw [e5] at this
        exact this
      · exact absurd h4 e
      · exact outer q' hq' e'
  · exact hw

theorem WF.empty : WF empty := by
  have hno : ∀ q x, ¬ Holds Heap.empty q x := by
    intro q x hx
    cases hx with
    | stmt h => cases h
    | thenB h => cases h
    | elseB h => cases h
    | loop h => cases h
    | case h => cases h
  refine ⟨fun q x hx => absurd hx (hno q x), fun _ _ => ⟨rfl, rfl, rfl⟩, fun q _ x hx => absurd hx (hno q x), fun q x hx => absurd hx (hno q x), ?_⟩
  intro x hx
  cases hx with
  | one h => exact hno _ _ h
  | more h _ => exact hno _ _ h

theorem WF.step {h : Heap} (hw : WF h) {f : Nat} {o : Op} (hc : Careful h o) (hu : (step f h o).2 ≠ .ub) : WF (step f h o).1 := by
  cases o with
  | newGen => exact hw.allocPlain _ (by simp) (by simp) (by simp)
  | newLeaf a i => exact hw.allocPlain _ (by simp) (by simp) (by simp)
  | newBlock t => exact hw.allocPlain _ (by simp) (by simp) (by simp)
  | newIf => exact hw.newIf
  | newFor g => exact hw.newFor g
  | newSwitch => exact hw.allocPlain _ (by simp) (by simp) (by simp)
  | addStmt b s =>
    simp only [Heap.step]
    split
    · exact hw.addStmt hc
    · exact hw
  | addThen i s =>
    simp only [Heap.step]
    split
    · rename_i hk; exact hw.addStmt (hc _ _ hk)
    · exact hw
  | addElse i s =>
    simp only [Heap.step]
    split
    · rename_i hk; exact hw.addStmt (hc _ _ hk)
    · exact hw
  | forAdd i s =>
    simp only [Heap.step]
    split
    · rename_i hk; exact hw.addStmt (hc _ _ hk)
    · exact hw
  | addCase sw c s =>
    obtain ⟨hc, hbk⟩ := hc
    simp only [Heap.step]
    split
    · obtain ⟨P, h1, h2, _⟩ := setParent_spec f h s sw
      have hw1 := hw.touched h2 hc.detached
      unfold Heap.addCase
      split
      · rename_i h' _ e
        rw [e] at h1
        simp only at h1
        subst h1
        obtain ⟨h3, h4, h5⟩ := hw1.caseBody c hc.withP
        simp only [h5 hbk, Bool.false_eq_true, if_false]
        exact h3.addStmt h4
      · rename_i h' r _ e
        rw [e] at h1
        simp only at h1
        subst h1
        exact hw1
    · exact hw
  | addGen g s =>
    simp only [Heap.step]
    split
    · exact hw.put hc
    · exact hw
  | remove b s =>
    refine hw.shrink ?_ rfl rfl rfl ?_
    · intro q x hx
      cases hx with
      | stmt hm =>
        have hm : x ∈ upd h.stmts b ((h.stmts b).erase s) q := hm
        by_cases e : q = b
        · subst e; rw [upd_same] at hm; exact .stmt (List.mem_of_mem_erase hm)
        · rw [upd_ne _ _ e] at hm; exact .stmt hm
      | thenB h => exact .thenB h
      | elseB h => exact .elseB h
      | loop h => exact .loop h
      | case h => exact .case h
    · intro n hn
      refine ⟨?_, (hw.free n hn).2.2⟩
      show upd h.stmts b ((h.stmts b).erase s) n = []
      by_cases e : n = b
      · subst e; rw [upd_same, (hw.free n hn).2.1]; rfl
      · rw [upd_ne _ _ e]; exact (hw.free n hn).2.1
  | removeCase sw c =>
    refine hw.shrink ?_ rfl rfl rfl ?_
    · intro q x hx
      cases hx with
      | stmt h => exact .stmt h
      | thenB h => exact .thenB h
      | elseB h => exact .elseB h
      | loop h => exact .loop h
      | case hm =>
        rename_i k
        have hm : (k, x) ∈ upd h.cases sw ((h.cases sw).filter fun e => decide (e.1 ≠ c)) q := hm
        by_cases e : q = sw
        · subst e; rw [upd_same] at hm; exact .case (List.mem_filter.1 hm).1
        · rw [upd_ne _ _ e] at hm; exact .case hm
    · intro n hn
      refine ⟨(hw.free n hn).2.1, ?_⟩
      show upd h.cases sw _ n = []
      by_cases e : n = sw
      · subst e; rw [upd_same, (hw.free n hn).2.2]; rfl
      · rw [upd_ne _ _ e]; exact (hw.free n hn).2.2
  | setChild b i s =>
    simp only [Heap.step] at hu ⊢
    split
    · rename_i hb
      rw [if_pos hb] at hu
      exact hw.setChild hc hb hu
    · exact hw
  | setConst c v =>
    refine hw.shrink (fun q x hx => ?_) rfl rfl rfl (fun n hn => (hw.free n hn).2)
    cases hx with
    | stmt h => exact .stmt h
    | thenB h => exact .thenB h
    | elseB h => exact .elseB h
    | loop h => exact .loop h
    | case h => exact .case h

/-- **C64, partial**: for every history in which a statement is only added while it is in no block (and not into
itself): every statement is held by at most one block, branch, loop or case; its parent pointer names that holder,
or the loop around it; and there are no cycles. Missing: adding a statement that already is somewhere
(`shared_statement`), inside itself (`self_inside`), and the loops (`loop_parent`). -/
theorem tree_partial {f : Nat} {h : Heap} (hr : Reached f h) : ParentsOkUpToLoops h ∧ OneHolder h ∧ NoCycle h := by
  have : WF h := by
    induction hr with
    | start => exact WF.empty
    | call _ hc hu ih => exact ih.step hc hu
  exact ⟨this.par, this.one, this.acyc⟩

/-- **C64, no loops**: if moreover the design has no `for` statement, every parent pointer is right. -/
theorem tree_no_loops {f : Nat} {h : Heap} (hr : Reached f h) (hn : ∀ n b g, h.kind n ≠ .forS b g) : ParentsOk h := by
  intro q x hx
  rcases (tree_partial hr).1 q x hx with h1 | ⟨f', g, h1, _⟩
  · exact h1
  · exact absurd h1 (hn f' q g)

/-! ### What one call does -/

/-- **C64, adding**: a call that returns normally has put the statement at the end of the block and changed the
contents of nothing else. -/
theorem added {f : Nat} {h : Heap} {b s : Nat} (hok : (addStmt f h b s).2 = .ok ()) :
    (addStmt f h b s).1.stmts b = h.stmts b ++ [s] ∧ (∀ c, c ≠ b → (addStmt f h b s).1.stmts c = h.stmts c) ∧
      (addStmt f h b s).1.kind = h.kind ∧ (addStmt f h b s).1.cases = h.cases := by
  obtain ⟨P, hP⟩ := setParent_shape f h s b
  unfold Heap.addStmt at hok ⊢
  split at hok
  · cases hok
  split at hok
  · cases hok
  split at hok
  · cases hok
  rename_i h1 h2 h3
  rw [if_neg h1, if_neg h2, if_neg h3]
  split at hok
  · rename_i h' _ e
    rw [e] at hP
    simp only at hP
    subst hP
    exact ⟨upd_same .., fun c hc => upd_ne _ _ hc, rfl, rfl⟩
  · rename_i h' r hr e
    exact absurd hok (by intro e'; simp only at e'; subst e'; exact hr () rfl)

/-- **C64, rejecting**: a block, a statement already there, and an assignment of the wrong type for the block are
rejected, and the heap is as before. -/
theorem rejected {f : Nat} {h : Heap} {b s : Nat} (hb : isBlock (h.kind s) = true ∨ s ∈ h.stmts b ∨
    (h.kind b = .block .combinational ∧ ∃ i, h.kind s = .leaf (some .nonBlocking) i) ∨
    (h.kind b = .block .sequential ∧ ∃ i, h.kind s = .leaf (some .blocking) i)) : addStmt f h b s = (h, .throw .stmt) := by
  unfold Heap.addStmt
  rcases hb with h1 | h1 | ⟨h1, i, h2⟩ | ⟨h1, i, h2⟩
  · rw [if_pos h1]
  · rw [if_pos (List.contains_iff_mem.2 h1)]
    split <;> rfl
  · rw [h1, h2]
    split
    · rfl
    split
    · rfl
    · rfl
  · rw [h1, h2]
    split
    · rfl
    split
    · rfl
    · rfl

/-- **C64, removing**: a removed statement is not in the block any more, the others are, in their order. -/
theorem removed (f : Nat) {h : Heap} {b s : Nat} (hn : (h.stmts b).Nodup) :
    (step f h (.remove b s)).1.stmts b = (h.stmts b).filter (· != s) ∧ ∀ c, c ≠ b → (step f h (.remove b s)).1.stmts c = h.stmts c := by
  refine ⟨?_, fun c hc => upd_ne _ _ hc⟩
  show upd h.stmts b ((h.stmts b).erase s) b = _
  rw [upd_same, List.Nodup.erase_eq_filter hn]

/-! ### Examples and failures -/

/-- An `if` in a combinational block, with an assignment in its branch: addresses 0 block, 3 `if` (1, 2 its bodies),
4 assignment. -/
def demoOps : List Op := [.newBlock .combinational, .newIf, .newLeaf (some .blocking) false, .addThen 3 4, .addStmt 0 3]

example : (after 9 demoOps).stmts 0 = [3] ∧ (after 9 demoOps).stmts 1 = [4] ∧ (after 9 demoOps).parent 4 = some 1 ∧
    (after 9 demoOps).parent 3 = some 0 ∧ (after 9 demoOps).parent 1 = some 3 := by decide

/-- The hypotheses of `tree_partial` are met by a history with nesting. -/
example : Reached 9 (after 9 [.newBlock .combinational, .newLeaf (some .blocking) false, .addStmt 0 1]) := by
  refine .call (o := .addStmt 0 1) (.call (o := .newLeaf (some .blocking) false) (.call (o := .newBlock .combinational) .start trivial (by decide)) trivial (by decide)) ?_ (by decide)
  have hno : ∀ q x, ¬ Holds (step 9 (step 9 empty (.newBlock .combinational)).1 (.newLeaf (some .blocking) false)).1 q x := by
    intro q x hx
    have h1 := (holds_alloc_plain (k := .leaf (some .blocking) false) (by simp) (by simp) hx).2
    have h2 := (holds_alloc_plain (h := empty) (k := .block .combinational) (by simp) (by simp) h1).2
    cases h2 with
    | stmt h => cases h
    | thenB h => cases h
    | elseB h => cases h
    | loop h => cases h
    | case h => cases h
  refine ⟨fun q hq => hno _ _ hq, by decide, fun hb => ?_, by decide⟩
  cases hb with
  | one h => exact hno _ _ h
  | more h _ => exact hno _ _ h

/-- The first failure: a statement added to two blocks is held by both, and its parent pointer knows one. -/
theorem shared_statement :
    let h := after 9 [.newBlock .combinational, .newBlock .combinational, .newLeaf (some .blocking) false, .addStmt 0 2, .addStmt 1 2]
    Holds h 0 2 ∧ Holds h 1 2 ∧ h.parent 2 = some 1 := by
  exact ⟨.stmt (by decide), .stmt (by decide), by decide⟩

/-- The second failure: statements in a loop body lose their parent when the loop is added to a block. -/
theorem loop_parent :
    let h := after 9 [.newBlock .combinational, .newFor false, .newLeaf (some .blocking) false, .forAdd 2 3, .addStmt 0 2]
    h.kind 2 = .forS 1 false ∧ Holds h 1 3 ∧ h.parent 3 = some 2 := by
  exact ⟨by decide, .stmt (by decide), by decide⟩

/-- The third failure: a statement can be put inside itself. -/
theorem self_inside : Below (after 9 [.newIf, .addThen 2 2]) 2 2 :=
  .more (m := 0) (.thenB (e := 1) (by decide)) (.one (.stmt (by decide)))

/-- The fourth failure: replacing a child by one that is already there. -/
theorem setChild_duplicates :
    (after 9 [.newBlock .combinational, .newLeaf none false, .newLeaf none false, .addStmt 0 1, .addStmt 0 2, .setChild 0 1 1]).stmts 0 = [1, 1] := by
  decide

/-- The fifth failure: two cases become equal when the value of a constant changes. -/
theorem setConst_same_case :
    let h := after 9 [.setConst 7 1#64, .setConst 8 2#64, .newSwitch, .newLeaf none false, .newLeaf none false,
      .addCase 0 (some 7) 1, .addCase 0 (some 8) 2, .setConst 8 1#64]
    (h.cases 0).map (fun e => caseValue h e.1) = [some 1#64, some 1#64] := by
  decide

/-- A generator, unlike a block, accepts the same statement twice. -/
theorem generator_twice : (after 9 [.newGen, .newBlock .combinational, .addGen 0 1, .addGen 0 1]).stmts 0 = [1, 1] := by decide

/-- The full claim is false. -/
theorem not_TreeClaim : ¬ ∀ f os, TreeClaim (after f os) := by
  intro h
  have h1 := (h 9 [.newIf, .addThen 2 2]).2.2.1 2
  exact h1 self_inside

end Kratos.Heap
