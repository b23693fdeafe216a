import Verif.Gen.Children
import Verif.Gen.CtxProps

/-!
# C42: instance names among siblings
-/

namespace Kratos.Gen

inductive FReach (inst : Nat → Name) (P : Forest → FOp → Prop) : Forest → Prop
  | init : FReach inst P (bare inst)
  | step {F : Forest} {o : FOp} : FReach inst P F → P F o → FReach inst P (fstep F o)

/-- C42 as stated: in every history, the children of a generator are listed without exception and
have pairwise distinct instance names. -/
def SiblingsClaim : Prop :=
  ∀ inst F, FReach inst (fun _ _ => True) F →
    ∀ p, ∃ cs, F.children p = .ok cs ∧ (cs.map F.inst).Nodup

/-- The child is registered with that parent under its own name. -/
def IsChild (F : Forest) (p c : Nat) : Prop := (F.kids p).find (F.inst c) = some c

/-- The generator is in nobody's list of children. -/
def Free (F : Forest) (c : Nat) : Prop := ∀ p n, (F.kids p).find n ≠ some c

/-- Calls on the right objects: a generator is added while it is nobody's child, and removed or
renamed through its own parent. -/
def FOp.safe (F : Forest) : FOp → Prop
  | .add _ _ c => Free F c
  | .remove p c => IsChild F p c
  | .rename p c _ => IsChild F p c
  | .setName _ _ => True
  | .replace p n c _ => Free F c ∧ ∀ old, (F.kids p).find n = some old → old ≠ c

/-! ### What holds in every history: the list of names and the map agree -/

structure Listed (F : Forest) : Prop where
  keys : ∀ p, (F.kids p).keys.Nodup
  nodup : ∀ p, (F.order p).Nodup
  same : ∀ p n, n ∈ F.order p ↔ (F.kids p).has n = true

theorem listed_bare (inst : Nat → Name) : Listed (bare inst) :=
  ⟨by simp [bare, Map.keys], by simp [bare], by simp [bare, Map.has, Map.find]⟩

theorem Listed.congr {F F' : Forest} (h : Listed F) (hk : F'.kids = F.kids) (ho : F'.order = F.order) :
    Listed F' := ⟨by rw [hk]; exact h.keys, by rw [ho]; exact h.nodup, by rw [hk, ho]; exact h.same⟩

theorem updN_self {α : Type} (f : Nat → α) (i : Nat) (a : α) : updN f i a i = a := by simp [updN]
theorem updN_ne {α : Type} (f : Nat → α) {i j : Nat} (a : α) (h : j ≠ i) : updN f i a j = f j := by simp [updN, h]

theorem has_emplace {V : Type} (m : Map Name V) (k k' : Name) (v : V) :
    (m.emplace k v).has k' = (decide (k' = k) || m.has k') := by
  simp only [Map.has, Map.find_emplace]
  by_cases h : k' = k <;> simp [h]

theorem has_erase {V : Type} (m : Map Name V) (k k' : Name) :
    (m.erase k).has k' = (decide (k' ≠ k) && m.has k') := by
  simp only [Map.has, Map.find_erase]
  by_cases h : k' = k <;> simp [h]

theorem Listed.add {F : Forest} (h : Listed F) (p : Nat) (n : Name) (c : Nat) : Listed (addChild F p n c).1 := by
  unfold addChild
  simp only
  split
  · exact h.congr rfl rfl
  · next hn =>
    refine ⟨fun q => ?_, fun q => ?_, fun q m => ?_⟩ <;> simp only <;> by_cases hq : q = p
    · subst hq; rw [updN_self]; exact Map.nodup_emplace (h.keys q) _ _
    · rw [updN_ne _ _ hq]; exact h.keys q
    · subst hq; rw [updN_self, List.nodup_append]
      refine ⟨h.nodup q, by simp, ?_⟩
      intro a ha b hb e
      simp only [List.mem_cons, List.not_mem_nil, or_false] at hb
      subst hb; subst e
      exact hn ((h.same q a).1 ha)
    · rw [updN_ne _ _ hq]; exact h.nodup q
    · subst hq
      rw [updN_self, updN_self, has_emplace]
      simp only [List.mem_append, List.mem_cons, List.not_mem_nil, or_false, h.same, Bool.or_eq_true,
        decide_eq_true_eq]
      exact or_comm
    · rw [updN_ne _ _ hq, updN_ne _ _ hq]; exact h.same q m

theorem Listed.remove {F : Forest} (h : Listed F) (p c : Nat) : Listed (removeChild F p c) := by
  unfold removeChild
  split
  · refine ⟨fun q => ?_, fun q => ?_, fun q m => ?_⟩ <;> simp only <;> by_cases hq : q = p
    · subst hq; rw [updN_self]; exact Map.nodup_erase (h.keys q) _
    · rw [updN_ne _ _ hq]; exact h.keys q
    · subst hq; rw [updN_self]; exact (h.nodup q).erase _
    · rw [updN_ne _ _ hq]; exact h.nodup q
    · subst hq
      rw [updN_self, updN_self, has_erase, (h.nodup q).mem_erase_iff, h.same]
      simp
    · rw [updN_ne _ _ hq, updN_ne _ _ hq]; exact h.same q m
  · exact h

theorem mem_replace {l : List Name} (hn : l.Nodup) {a b x : Name} (ha : a ∈ l) :
    x ∈ l.replace a b ↔ (x ∈ l ∧ x ≠ a) ∨ x = b := by
  induction l with
  | nil => cases ha
  | cons y l ih =>
    rw [List.nodup_cons] at hn
    rw [List.replace_cons]
    by_cases e : y = a
    · subst e
      simp only [beq_self_eq_true, if_true, List.mem_cons]
      constructor
      · rintro (rfl | hx)
        · exact .inr rfl
        · exact .inl ⟨.inr hx, fun e => hn.1 (e ▸ hx)⟩
      · rintro (⟨rfl | hx, hne⟩ | rfl)
        · exact absurd rfl hne
        · exact .inr hx
        · exact .inl rfl
    · have e' : (a == y) = false := by simp [Ne.symm e]
      have ha' : a ∈ l := by
        rcases List.mem_cons.1 ha with h | h
        · exact absurd h.symm e
        · exact h
      simp only [e', List.mem_cons, ih hn.2 ha']
      constructor
      · rintro (rfl | ⟨h1, h2⟩ | h)
        · exact .inl ⟨.inl rfl, e⟩
        · exact .inl ⟨.inr h1, h2⟩
        · exact .inr h
      · rintro (⟨rfl | h1, h2⟩ | h)
        · exact .inl rfl
        · exact .inr (.inl ⟨h1, h2⟩)
        · exact .inr (.inr h)

theorem nodup_replace {l : List Name} (hn : l.Nodup) {a b : Name} (hb : b ∉ l) : (l.replace a b).Nodup := by
  induction l with
  | nil => simp
  | cons y l ih =>
    have hb' : b ∉ l := fun h => hb (List.mem_cons_of_mem _ h)
    rw [List.nodup_cons] at hn
    rw [List.replace_cons]
    by_cases e : y = a
    · subst e
      simp only [beq_self_eq_true, if_true, List.nodup_cons]
      exact ⟨hb', hn.2⟩
    · have e' : (a == y) = false := by simp [Ne.symm e]
      simp only [e', List.nodup_cons]
      refine ⟨?_, ih hn.2 hb'⟩
      intro hy
      by_cases ha : a ∈ l
      · rcases (mem_replace hn.2 ha).1 hy with h | h
        · exact hn.1 h.1
        · exact hb (h ▸ List.mem_cons_self)
      · rw [List.replace_of_not_mem ha] at hy
        exact hn.1 hy

theorem Listed.rename {F : Forest} (h : Listed F) (p c : Nat) (new : Name) : Listed (renameChild F p c new).1 := by
  unfold renameChild
  split
  · exact h
  · next x hx =>
    split
    · exact h
    · next hnew =>
      have hin : F.inst c ∈ F.order p := by rw [h.same]; simp [Map.has, hx]
      simp only [List.contains_iff_mem.2 hin, if_true]
      have hnin : new ∉ F.order p := fun hh => hnew ((h.same p new).1 hh)
      refine ⟨fun q => ?_, fun q => ?_, fun q m => ?_⟩ <;> simp only <;> by_cases hq : q = p
      · subst hq; rw [updN_self]; exact Map.nodup_emplace (Map.nodup_erase (h.keys q) _) _ _
      · rw [updN_ne _ _ hq]; exact h.keys q
      · subst hq; rw [updN_self]; exact nodup_replace (h.nodup q) hnin
      · rw [updN_ne _ _ hq]; exact h.nodup q
      · subst hq
        rw [updN_self, updN_self, has_emplace, has_erase, mem_replace (h.nodup q) hin, h.same]
        simp only [Bool.or_eq_true, decide_eq_true_eq, Bool.and_eq_true]
        constructor
        · rintro (⟨a, b⟩ | a)
          · exact .inr ⟨b, a⟩
          · exact .inl a
        · rintro (a | ⟨b, a⟩)
          · exact .inr a
          · exact .inl ⟨a, b⟩
      · rw [updN_ne _ _ hq, updN_ne _ _ hq]; exact h.same q m

theorem Listed.step {F : Forest} (h : Listed F) (o : FOp) : Listed (fstep F o) := by
  cases o with
  | add p n c => exact h.add p n c
  | remove p c => exact h.remove p c
  | rename p c n => exact h.rename p c n
  | setName c n =>
    simp only [fstep, setInstName]
    split
    · exact h.congr rfl rfl
    · exact h.rename _ c n
  | replace p n c ok =>
    simp only [fstep, replaceChild]
    split
    · exact h
    · cases ok with
      | true => exact Listed.add (Listed.remove (h.congr (F' := { F with inst := updN F.inst c n }) rfl rfl) p _) p n c
      | false => exact h.congr rfl rfl

theorem childrenAux_ok {m : Map Name Nat} : ∀ (ns : List Name), (∀ n ∈ ns, m.has n = true) →
    ∃ cs, childrenAux m ns = .ok cs ∧ ∀ (f : Nat → Name), (∀ n ∈ ns, ∀ c, m.find n = some c → f c = n) → cs.map f = ns
  | [], _ => ⟨[], rfl, fun _ _ => rfl⟩
  | n :: ns, h => by
    obtain ⟨cs, h1, h2⟩ := childrenAux_ok ns fun x hx => h x (List.mem_cons_of_mem _ hx)
    have hn := h n List.mem_cons_self
    simp only [Map.has, Option.isSome_iff_exists] at hn
    obtain ⟨c, hc⟩ := hn
    refine ⟨c :: cs, by simp [childrenAux, hc, h1], fun f hf => ?_⟩
    simp only [List.map_cons]
    rw [hf n List.mem_cons_self c hc, h2 f fun x hx => hf x (List.mem_cons_of_mem _ hx)]

/-- **C42** (any history, any misuse): listing the children never throws, and there are exactly as
many children as registered names.  Missing: distinctness of the names the children carry
(`failed_add_clashes`, `added_twice_clashes`). -/
theorem listing_never_throws (inst : Nat → Name) (F : Forest) (h : FReach inst (fun _ _ => True) F) (p : Nat) :
    ∃ cs, F.children p = .ok cs ∧ cs.length = (F.kids p).keys.length := by
  have hl : Listed F := by
    induction h with
    | init => exact listed_bare inst
    | step _ _ ih => exact ih.step _
  obtain ⟨cs, h1, h2⟩ := childrenAux_ok (m := F.kids p) (F.order p) (fun n hn => (hl.same p n).1 hn)
  refine ⟨cs, h1, ?_⟩
  have hlen : cs.length = (F.order p).length := by
    have : ∀ (ns : List Name) (cs : List Nat), childrenAux (F.kids p) ns = .ok cs → cs.length = ns.length := by
      intro ns
      induction ns with
      | nil => intro cs h; simp [childrenAux] at h; subst h; rfl
      | cons n ns ih =>
        intro cs h
        simp only [childrenAux] at h
        split at h
        · cases h
        · rw [Res.bind_eq_ok] at h
          obtain ⟨ds, hd, he⟩ := h
          simp only [Res.ok.injEq] at he
          subst he
          simp [ih ds hd]
    exact this _ _ h1
  rw [hlen]
  apply Nat.le_antisymm
  · apply nodup_subset_length (hl.nodup p)
    intro n hn; exact Map.has_iff.1 ((hl.same p n).1 hn)
  · apply nodup_subset_length (hl.keys p)
    intro n hn; exact (hl.same p n).2 (Map.has_iff.2 hn)

/-! ### Histories of calls on the right objects -/

structure Sib (F : Forest) : Prop extends Listed F where
  own : ∀ p n c, (F.kids p).find n = some c → F.inst c = n
  par : ∀ p n c, (F.kids p).find n = some c → F.parent c = some p
  reg : ∀ p c, F.parent c = some p → (F.kids p).find (F.inst c) = some c

theorem sib_bare (inst : Nat → Name) : Sib (bare inst) :=
  ⟨listed_bare inst, by simp [bare, Map.find], by simp [bare, Map.find], by simp [bare]⟩

theorem Sib.rename {F : Forest} (h : Sib F) {p c : Nat} (new : Name) (hc : IsChild F p c) :
    Sib (renameChild F p c new).1 := by
  have hl := h.toListed.rename p c new
  unfold IsChild at hc
  unfold renameChild at hl ⊢
  simp only [hc] at hl ⊢
  split
  · exact h
  · next hnew =>
    simp only [hnew, if_false] at hl
    have hin : F.inst c ∈ F.order p := by rw [h.same]; simp [Map.has, hc]
    simp only [List.contains_iff_mem.2 hin, if_true] at hl ⊢
    have hfind : ∀ n x, (((F.kids p).erase (F.inst c)).emplace new c).find n = some x →
        (n = new ∧ x = c) ∨ (n ≠ F.inst c ∧ (F.kids p).find n = some x) := by
      intro n x hf
      rw [Map.find_emplace, Map.find_erase, Map.find_erase] at hf
      have hnone : (F.kids p).find new = none := by
        cases hh : (F.kids p).find new with
        | none => rfl
        | some y => exact absurd (by simp [Map.has, hh]) hnew
      split at hf
      · next e =>
        left
        refine ⟨e, ?_⟩
        simp [hnone] at hf
        exact hf.symm
      · split at hf
        · cases hf
        · next hne => exact .inr ⟨hne, hf⟩
    have other : ∀ q n x, (F.kids q).find n = some x → n ≠ F.inst c ∨ q ≠ p → x ≠ c := by
      rintro q n x hf hor rfl
      have e1 := h.own q n x hf
      have e2 := h.par q n x hf
      rw [h.par p _ _ hc] at e2
      simp only [Option.some.injEq] at e2
      rcases hor with h' | h'
      · exact h' e1.symm
      · exact h' e2.symm
    have hreg : ∀ q x, F.parent x = some q →
        (updN F.kids p (((F.kids p).erase (F.inst c)).emplace new c) q).find (updN F.inst c new x) = some x := by
      intro q x hx
      have hold := h.reg q x hx
      have hnone : (F.kids p).find new = none := by
        cases hh : (F.kids p).find new with
        | none => rfl
        | some y => exact absurd (by simp [Map.has, hh]) hnew
      by_cases hxc : x = c
      · subst hxc
        have hq : q = p := by
          have := h.par p _ _ hc
          rw [hx] at this; simpa using this
        subst hq
        rw [updN_self, updN_self, Map.find_emplace, Map.find_erase]
        simp [hnone]
      · rw [updN_ne _ _ hxc]
        by_cases hq : q = p
        · subst hq
          have h1 : F.inst x ≠ F.inst c := by
            intro e; rw [e, hc] at hold; simp at hold; exact hxc hold.symm
          have h2 : F.inst x ≠ new := by intro e; rw [e, hnone] at hold; cases hold
          rw [updN_self, Map.find_emplace, Map.find_erase, Map.find_erase]
          simp [h1, h2, hold]
        · rw [updN_ne _ _ hq]; exact hold
    refine ⟨hl, ?_, ?_, hreg⟩ <;> intro q n x hf <;> simp only at hf ⊢ <;> by_cases hq : q = p
    · subst hq
      rw [updN_self] at hf
      rcases hfind n x hf with ⟨rfl, rfl⟩ | ⟨h1, h2⟩
      · rw [updN_self]
      · rw [updN_ne _ _ (other q n x h2 (.inl h1))]; exact h.own _ _ _ h2
    · rw [updN_ne _ _ hq] at hf
      rw [updN_ne _ _ (other q n x hf (.inr hq))]; exact h.own _ _ _ hf
    · subst hq
      rw [updN_self] at hf
      rcases hfind n x hf with ⟨rfl, rfl⟩ | ⟨h1, h2⟩
      · exact h.par _ _ _ hc
      · exact h.par _ _ _ h2
    · rw [updN_ne _ _ hq] at hf
      exact h.par _ _ _ hf

theorem Sib.setInst {F : Forest} (h : Sib F) {c : Nat} (n : Name) (hf : Free F c) :
    Sib { F with inst := updN F.inst c n } := by
  refine ⟨h.toListed.congr rfl rfl, ?_, h.par, ?_⟩
  · intro q m x hx
    have : x ≠ c := fun e => hf q m (e ▸ hx)
    simp only [updN_ne _ _ this]
    exact h.own _ _ _ hx
  · intro q x hx
    have hold := h.reg q x hx
    have : x ≠ c := by rintro rfl; exact hf _ _ hold
    simp only [updN_ne _ _ this]
    exact hold

theorem Sib.add {F : Forest} (h : Sib F) (p : Nat) (n : Name) {c : Nat} (hf : Free F c) :
    Sib (addChild F p n c).1 := by
  have hl := h.toListed.add p n c
  unfold addChild at hl ⊢
  simp only at hl ⊢
  split
  · exact h.setInst n hf
  · next hn =>
    simp only [hn, if_false] at hl
    have hnone : (F.kids p).find n = none := by
      cases hh : (F.kids p).find n with
      | none => rfl
      | some y => exact absurd (by simp [Map.has, hh]) hn
    have hreg : ∀ q x, updN F.parent c (some p) x = some q →
        (updN F.kids p ((F.kids p).emplace n c) q).find (updN F.inst c n x) = some x := by
      intro q x hx
      by_cases hxc : x = c
      · subst hxc
        rw [updN_self] at hx
        simp only [Option.some.injEq] at hx
        subst hx
        rw [updN_self, updN_self, Map.find_emplace]
        simp [hnone]
      · rw [updN_ne _ _ hxc] at hx
        have hold := h.reg q x hx
        rw [updN_ne _ _ hxc]
        by_cases hq : q = p
        · subst hq
          have h2 : F.inst x ≠ n := by intro e; rw [e, hnone] at hold; cases hold
          rw [updN_self, Map.find_emplace]
          simp [h2, hold]
        · rw [updN_ne _ _ hq]; exact hold
    refine ⟨hl, ?_, ?_, hreg⟩ <;> intro q m x hx <;> simp only at hx ⊢ <;> by_cases hq : q = p
    · subst hq
      rw [updN_self, Map.find_emplace, hnone] at hx
      split at hx
      · next e => simp at hx; subst hx; rw [updN_self]; exact e.symm
      · rw [updN_ne _ _ (fun e => hf _ _ (e ▸ hx))]; exact h.own _ _ _ hx
    · rw [updN_ne _ _ hq] at hx
      rw [updN_ne _ _ (fun e => hf _ _ (e ▸ hx))]; exact h.own _ _ _ hx
    · subst hq
      rw [updN_self, Map.find_emplace, hnone] at hx
      split at hx
      · simp at hx; subst hx; rw [updN_self]
      · rw [updN_ne _ _ (fun e => hf _ _ (e ▸ hx))]; exact h.par _ _ _ hx
    · rw [updN_ne _ _ hq] at hx
      rw [updN_ne _ _ (fun e => hf _ _ (e ▸ hx))]; exact h.par _ _ _ hx

theorem Sib.remove {F : Forest} (h : Sib F) {p c : Nat} (hc : IsChild F p c) :
    Sib (removeChild F p c) ∧ Free (removeChild F p c) c := by
  have hl := h.toListed.remove p c
  unfold IsChild at hc
  unfold removeChild at hl ⊢
  have hin : F.inst c ∈ F.order p := by rw [h.same]; simp [Map.has, hc]
  simp only [List.contains_iff_mem.2 hin, if_true] at hl ⊢
  have hfind : ∀ q n x, (updN F.kids p ((F.kids p).erase (F.inst c)) q).find n = some x →
      (F.kids q).find n = some x ∧ x ≠ c := by
    intro q n x hx
    by_cases hq : q = p
    · subst hq
      rw [updN_self, Map.find_erase] at hx
      split at hx
      · cases hx
      · next hne =>
        refine ⟨hx, ?_⟩
        rintro rfl
        exact hne (h.own _ _ _ hx).symm
    · rw [updN_ne _ _ hq] at hx
      refine ⟨hx, ?_⟩
      rintro rfl
      have := h.par q n x hx
      rw [h.par p _ _ hc] at this
      simp only [Option.some.injEq] at this
      exact hq this.symm
  have hreg : ∀ q x, updN F.parent c none x = some q →
      (updN F.kids p ((F.kids p).erase (F.inst c)) q).find (F.inst x) = some x := by
    intro q x hx
    by_cases hxc : x = c
    · subst hxc; rw [updN_self] at hx; cases hx
    · rw [updN_ne _ _ hxc] at hx
      have hold := h.reg q x hx
      by_cases hq : q = p
      · subst hq
        have h1 : F.inst x ≠ F.inst c := by
          intro e; rw [e, hc] at hold; simp at hold; exact hxc hold.symm
        rw [updN_self, Map.find_erase]
        simp [h1, hold]
      · rw [updN_ne _ _ hq]; exact hold
  refine ⟨⟨hl, ?_, ?_, hreg⟩, ?_⟩
  · intro q n x hx
    exact h.own _ _ _ (hfind q n x hx).1
  · intro q n x hx
    obtain ⟨h1, h2⟩ := hfind q n x hx
    simp only
    rw [updN_ne _ _ h2]
    exact h.par _ _ _ h1
  · intro q n hx
    exact (hfind q n c hx).2 rfl

theorem Sib.step {F : Forest} (h : Sib F) (o : FOp) (hs : o.safe F) : Sib (fstep F o) := by
  cases o with
  | add p n c => exact h.add p n hs
  | remove p c => exact (h.remove hs).1
  | rename p c n => exact h.rename n hs
  | setName c n =>
    simp only [fstep, setInstName]
    split
    · next hp =>
      refine h.setInst n ?_
      intro q m hx
      have := h.par q m c hx
      rw [hp] at this; cases this
    · next p hp => exact h.rename n (h.reg p c hp)
  | replace p n c ok =>
    obtain ⟨hf, hne⟩ := hs
    simp only [fstep, replaceChild]
    split
    · exact h
    · next old hold =>
      have h1 := h.setInst n hf
      cases ok with
      | false => exact h1
      | true =>
        have hoc := hne old hold
        have hch : IsChild { F with inst := updN F.inst c n } p old := by
          unfold IsChild
          simp only [updN_ne _ _ hoc]
          rw [h.own _ _ _ hold]; exact hold
        obtain ⟨h2, -⟩ := h1.remove hch
        refine h2.add p n ?_
        intro q m hx
        have hsub : ∀ q m x, ((removeChild { F with inst := updN F.inst c n } p old).kids q).find m = some x →
            (F.kids q).find m = some x := by
          intro q m x hx
          unfold removeChild at hx
          split at hx
          · simp only at hx
            by_cases hq : q = p
            · subst hq
              rw [updN_self, Map.find_erase] at hx
              split at hx
              · cases hx
              · exact hx
            · rw [updN_ne _ _ hq] at hx; exact hx
          · exact hx
        exact hf q m (hsub q m c hx)

/-- **C42** for every history of calls on the right objects (`FOp.safe`): the children of every
generator are listed and have pairwise distinct instance names, each is found under its own name
and has that generator as its parent; a generator is a child of at most one parent.
Missing: adding a generator that already is a child, and removing or renaming through the wrong
parent (see the counterexamples). -/
theorem siblings_partial (inst : Nat → Name) (F : Forest) (h : FReach inst (fun F o => o.safe F) F) :
    (∀ p, ∃ cs, F.children p = .ok cs ∧ (cs.map F.inst).Nodup ∧
      ∀ c, c ∈ cs ↔ F.parent c = some p) ∧
    ∀ p c, F.parent c = some p → (F.kids p).find (F.inst c) = some c := by
  have hs : Sib F := by
    induction h with
    | init => exact sib_bare inst
    | step _ hs ih => exact ih.step _ hs
  refine ⟨fun p => ?_, hs.reg⟩
  obtain ⟨cs, h1, h2⟩ := childrenAux_ok (m := F.kids p) (F.order p) (fun n hn => (hs.same p n).1 hn)
  have hmap := h2 F.inst (fun n _ c hc => hs.own p n c hc)
  refine ⟨cs, h1, by rw [hmap]; exact hs.nodup p, ?_⟩
  have hmem : ∀ (ns : List Name) (cs : List Nat), childrenAux (F.kids p) ns = .ok cs →
      ∀ c, c ∈ cs ↔ ∃ n ∈ ns, (F.kids p).find n = some c := by
    intro ns
    induction ns with
    | nil => intro cs h c; simp [childrenAux] at h; subst h; simp
    | cons n ns ih =>
      intro cs h c
      simp only [childrenAux] at h
      split at h
      · cases h
      · next x hx =>
        rw [Res.bind_eq_ok] at h
        obtain ⟨ds, hd, he⟩ := h
        simp only [Res.ok.injEq] at he
        subst he
        simp only [List.mem_cons, ih ds hd c, exists_eq_or_imp, hx, Option.some.injEq]
        constructor
        · rintro (rfl | h)
          · exact .inl rfl
          · exact .inr h
        · rintro (rfl | h)
          · exact .inl rfl
          · exact .inr h
  intro c
  rw [hmem _ _ h1 c]
  constructor
  · rintro ⟨n, -, hn⟩; exact hs.par p n c hn
  · intro hp
    have := hs.reg p c hp
    exact ⟨F.inst c, (hs.same p _).2 (by simp [Map.has, this]), this⟩

/-- Adding under a name that is taken is refused. -/
theorem add_duplicate_refused (F : Forest) (p : Nat) (n : Name) (c : Nat) (h : (F.kids p).has n = true) :
    (addChild F p n c).2 = .throw .generator ∧ (addChild F p n c).1.kids = F.kids := by
  simp [addChild, h]

/-- Renaming to a name that is taken is refused and changes nothing. -/
theorem rename_duplicate_refused (F : Forest) (p c : Nat) (n : Name) (hc : IsChild F p c)
    (h : (F.kids p).has n = true) : renameChild F p c n = (F, .throw .generator) := by
  unfold IsChild at hc
  simp [renameChild, hc, h]

/-! ### What goes wrong -/

def fops : Forest → List FOp → Forest
  | F, [] => F
  | F, o :: os => fops (fstep F o) os

theorem freach_fops {inst : Nat → Name} : ∀ (os : List FOp) (F : Forest), FReach inst (fun _ _ => True) F →
    FReach inst (fun _ _ => True) (fops F os)
  | [], _, h => h
  | _ :: os, _, h => freach_fops os _ (.step h trivial)

/-- Adding a child a second time under a name that is taken throws — after giving it the name: two
children of generator 0 now have the instance name `b`. -/
theorem failed_add_clashes :
    let F := fops (bare fun _ => []) [.add 0 nA 1, .add 0 nB 2]
    (addChild F 0 nB 1).2 = .throw .generator ∧
    (addChild F 0 nB 1).1.children 0 = .ok [1, 2] ∧
    (addChild F 0 nB 1).1.inst 1 = nB ∧ (addChild F 0 nB 1).1.inst 2 = nB := by
  refine ⟨?_, ?_, ?_, ?_⟩ <;> decide +kernel

/-- The same generator can be added twice under two names; it is then instantiated twice under the
second. -/
theorem added_twice_clashes :
    let F := fops (bare fun _ => []) [.add 0 nA 1, .add 0 nB 1]
    F.children 0 = .ok [1, 1] ∧ F.inst 1 = nB := by
  refine ⟨?_, ?_⟩ <;> decide +kernel

/-- Removing a generator that is not a child removes the child of the same instance name. -/
theorem removes_wrong_child :
    let F := fops (bare fun _ => nA) [.add 0 nA 1]
    F.children 0 = .ok [1] ∧ F.parent 2 = none ∧ (removeChild F 0 2).children 0 = .ok [] := by
  refine ⟨?_, ?_, ?_⟩ <;> decide +kernel

/-- **C42**, negation of the full claim. -/
theorem not_SiblingsClaim : ¬ SiblingsClaim := by
  intro h
  obtain ⟨cs, h1, h2⟩ := h (fun _ => []) _ (freach_fops [.add 0 nA 1, .add 0 nB 2, .add 0 nB 1] _ .init) 0
  have e : (fops (bare fun _ => []) [.add 0 nA 1, .add 0 nB 2, .add 0 nB 1]).children 0 = .ok [1, 2] := by
    decide +kernel
  rw [e] at h1
  simp only [Res.ok.injEq] at h1
  subst h1
  revert h2
  decide +kernel

/-! ### The hypotheses are met -/

theorem demo_forest : FReach (fun _ => []) (fun F o => o.safe F)
    (fops (bare fun _ => []) [.add 0 nA 1, .add 0 nB 2, .rename 0 1 nC, .add 0 nA 3]) := by
  have h0 := FReach.init (inst := fun _ => ([] : Name)) (P := fun F o => o.safe F)
  have h1 := FReach.step (o := .add 0 nA 1) h0 (by intro p n h; simp [bare, Map.find] at h)
  have free : ∀ (m : Map Name Nat) (c : Nat), (m.map (·.2)).contains c = false → ∀ n, m.find n ≠ some c := by
    intro m c hc n h
    have := Map.mem_of_find h
    have : c ∈ m.map (·.2) := List.mem_map.2 ⟨_, this, rfl⟩
    rw [← List.contains_iff_mem, hc] at this
    cases this
  have h2 := FReach.step (o := .add 0 nB 2) h1 (by
    intro p n
    by_cases hp : p = 0
    · subst hp; exact free _ _ (by decide +kernel) n
    · have e : (fstep (bare fun _ => []) (.add 0 nA 1)).kids p = [] := by
        show updN _ _ _ p = _
        rw [updN_ne _ _ hp]; rfl
      rw [e]; simp [Map.find])
  have h3 := FReach.step (o := .rename 0 1 nC) h2 (by unfold FOp.safe IsChild; decide +kernel)
  have h4 := FReach.step (o := .add 0 nA 3) h3 (by
    intro p n
    by_cases hp : p = 0
    · subst hp; exact free _ _ (by decide +kernel) n
    · have e : (fstep (fstep (fstep (bare fun _ => []) (.add 0 nA 1)) (.add 0 nB 2)) (.rename 0 1 nC)).kids p = [] := by
        show updN _ _ _ p = _
        rw [updN_ne _ _ hp]
        show updN _ _ _ p = _
        rw [updN_ne _ _ hp]
        show updN _ _ _ p = _
        rw [updN_ne _ _ hp]; rfl
      rw [e]; simp [Map.find])
  exact h4

example : (fops (bare fun _ => []) [.add 0 nA 1, .add 0 nB 2, .rename 0 1 nC, .add 0 nA 3]).children 0
    = .ok [1, 2, 3] := by decide +kernel

end Kratos.Gen
