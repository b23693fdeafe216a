import Verif.Check.Model
import Verif.Check.Spec
import Verif.Opt.Lemmas2

/-! Helper lemmas for the control-flow checks. -/

namespace Kratos.Check
open Kratos.Ir Kratos.Opt

theorem nodup_erase {l : List Nat} (a : Nat) (h : l.Nodup) : (l.erase a).Nodup :=
  h.sublist List.erase_sublist

theorem len_le : ∀ (l d : List Nat), l.Nodup → (∀ v ∈ l, v ∈ d) → l.length ≤ d.length
  | [], d, _, _ => Nat.zero_le _
  | a :: l, d, hn, hs => by
      rw [List.nodup_cons] at hn
      have ha : a ∈ d := hs a (by simp)
      have ih := len_le l (d.erase a) hn.2 (by
        intro v hv
        have : v ≠ a := fun e => hn.1 (e ▸ hv)
        exact (List.mem_erase_of_ne this).mpr (hs v (List.mem_cons_of_mem _ hv)))
      rw [List.length_erase_of_mem ha] at ih
      have := List.length_pos_of_mem ha
      simp only [List.length_cons]; omega

theorem cover : ∀ (l d : List Nat), l.Nodup → d.Nodup → (∀ v ∈ l, v ∈ d) → d.length ≤ l.length →
    ∀ v ∈ d, v ∈ l
  | [], d, _, _, _, h => by
      have : d = [] := List.eq_nil_of_length_eq_zero (by simpa using h)
      subst this; simp
  | a :: l, d, hn, hd, hs, h => by
      rw [List.nodup_cons] at hn
      have ha : a ∈ d := hs a (by simp)
      have ih := cover l (d.erase a) hn.2 (nodup_erase a hd) (by
        intro v hv
        have : v ≠ a := fun e => hn.1 (e ▸ hv)
        exact (List.mem_erase_of_ne this).mpr (hs v (List.mem_cons_of_mem _ hv)))
        (by rw [List.length_erase_of_mem ha]; simp only [List.length_cons] at h; omega)
      intro v hv
      by_cases e : v = a
      · simp [e]
      · exact List.mem_cons_of_mem _ (ih v ((List.mem_erase_of_ne e).mpr hv))

theorem findNull_eq : ∀ cs, findNull cs = hasDefault cs
  | .nil => rfl
  | .cons none _ _ => rfl
  | .cons (some _) _ cs => by simp [findNull, hasDefault, findNull_eq cs]

theorem labels_length (w) : ∀ cs, hasDefault cs = false → (labels w cs).length = cs.toList.length
  | .nil, _ => rfl
  | .cons none _ _, h => by simp [hasDefault] at h
  | .cons (some c) _ cs, h => by
      simp [labels, Cases.toList, labels_length w cs (by simpa [hasDefault] using h)]

theorem targeted_domain (enumOf tgt n) (h : targetedCases enumOf tgt = .ok n) :
    n = (domain enumOf tgt).length := by
  unfold targetedCases at h
  unfold domain
  cases he : enumOf tgt with
  | some vs => rw [he] at h; simpa using h.symm
  | none =>
    rw [he] at h
    simp only at h
    split at h
    · cases h
    · simpa using h.symm

/-- Statement shapes assumed by the path theorems. -/
abbrev PathOk (dom : Expr → List Nat) (s : Stmt) : Prop := SwitchOk dom s ∧ LoopOk s

variable {enumOf : Expr → Option (List Nat)} {cond : Stmt → Bool} {un : Bool}

def Hit (cond : Stmt → Bool) (p : List Stmt) : Prop := ∃ x ∈ p, cond x = true
def Miss (cond : Stmt → Bool) (p : List Stmt) : Prop := ∀ x ∈ p, cond x = false

theorem Hit.left {p q} (h : Hit cond p) : Hit cond (p ++ q) := by
  obtain ⟨x, hx, hc⟩ := h; exact ⟨x, by simp [hx], hc⟩
theorem Hit.right {p q} (h : Hit cond q) : Hit cond (p ++ q) := by
  obtain ⟨x, hx, hc⟩ := h; exact ⟨x, by simp [hx], hc⟩
theorem Miss.append {p q} (h : Miss cond p) (k : Miss cond q) : Miss cond (p ++ q) := by
  intro x hx
  rw [List.mem_append] at hx
  rcases hx with hx | hx
  · exact h x hx
  · exact k x hx

theorem checkS_plain {full} (s : Stmt) (h : plain s = true) :
    checkS enumOf cond un full s = .ok (cond s) := by
  cases s <;> simp_all [plain, checkS]

theorem pathS_plain {dom} {s : Stmt} {p} (h : plain s = true) (hp : PathS dom s p) : p = [s] := by
  cases hp <;> simp_all [plain]

theorem plainCase (s : Stmt) (r : Bool) (hp : plain s = true)
    (h : checkS enumOf cond un true s = .ok r) :
    (r = true → ∀ p, PathS (domain enumOf) s p → Hit cond p) ∧
    (r = false → ∃ p, PathS (domain enumOf) s p ∧ Miss cond p) := by
  rw [checkS_plain s hp] at h
  cases h
  refine ⟨fun hc p hq => ?_, fun hc => ⟨[s], .leaf hp, ?_⟩⟩
  · rw [pathS_plain hp hq]; exact ⟨s, by simp, hc⟩
  · intro x hx; simp at hx; subst hx; exact hc

mutual
theorem pathS_exact (hcond : ∀ s, cond s = true → plain s = true) : ∀ (s : Stmt) (r : Bool),
    AllS (PathOk (domain enumOf)) s → checkS enumOf cond un true s = .ok r →
    (r = true → ∀ p, PathS (domain enumOf) s p → Hit cond p) ∧
    (r = false → ∃ p, PathS (domain enumOf) s p ∧ Miss cond p)
  | .ite c t e, r, hall, h => by
      have hnc : cond (.ite c t e) = false := by
        cases hc : cond (.ite c t e) with
        | false => rfl
        | true => have := hcond _ hc; simp [plain] at this
      simp only [checkS, hnc, Bool.false_eq_true, if_false, if_true, Res.bind_eq_ok] at h
      obtain ⟨rt, ht, h⟩ := h
      obtain ⟨t1, t2⟩ := pathB_exact hcond t rt hall.2.1 ht
      cases rt with
      | false =>
        simp only [Bool.false_eq_true, if_false] at h; cases h
        refine ⟨by simp, fun _ => ?_⟩
        obtain ⟨p, hp, hm⟩ := t2 rfl
        exact ⟨p, .thn hp, hm⟩
      | true =>
        simp only [if_true] at h
        obtain ⟨e1, e2⟩ := pathB_exact hcond e r hall.2.2 h
        refine ⟨fun hr p hp => ?_, fun hr => ?_⟩
        · cases hp with
          | leaf hl => simp [plain] at hl
          | thn hp => exact t1 rfl p hp
          | els hp => exact e1 hr p hp
        · obtain ⟨p, hp, hm⟩ := e2 hr
          exact ⟨p, .els hp, hm⟩
  | .switch tgt cs, r, hall, h => by
      have hnc : cond (.switch tgt cs) = false := by
        cases hc : cond (.switch tgt cs) with
        | false => rfl
        | true => have := hcond _ hc; simp [plain] at this
      obtain ⟨⟨⟨hn, hsub, hdn, hne⟩, _⟩, hac⟩ := hall
      simp only [checkS, hnc, Bool.false_eq_true, if_false, if_true] at h
      split at h
      · rename_i hemp
        cases h
        refine ⟨by simp, fun _ => ?_⟩
        obtain ⟨v, hv⟩ := List.exists_mem_of_ne_nil _ hne
        cases cs with
        | nil => exact ⟨[], .nomatch rfl hv (by simp [labels]), by intro x hx; simp at hx⟩
        | cons k b cs => simp [Cases.isEmpty] at hemp
      · rw [Res.bind_eq_ok] at h
        obtain ⟨rc, hc, h⟩ := h
        obtain ⟨c1, c2⟩ := pathC_exact hcond cs 0 rc hac hc
        cases rc with
        | none =>
          simp only at h; cases h
          refine ⟨by simp, fun _ => ?_⟩
          obtain ⟨p, hp, hm⟩ := c2 rfl
          exact ⟨p, .case hp, hm⟩
        | some m =>
          simp only [Res.bind_eq_ok] at h
          obtain ⟨n, ht, h⟩ := h
          obtain ⟨hm, hall⟩ := c1 m rfl
          have hn' := targeted_domain enumOf tgt n ht
          cases h
          rw [findNull_eq]
          refine ⟨fun hr p hp => ?_, fun hr => ?_⟩
          · cases hp with
            | leaf hl => simp [plain] at hl
            | case hp => exact hall p hp
            | «nomatch» hd hv hnl =>
              exfalso
              simp only [hd, Bool.false_or, beq_iff_eq] at hr
              apply hnl
              refine cover _ _ hn hdn hsub ?_ _ hv
              rw [labels_length _ _ hd]; omega
          · simp only [Bool.or_eq_false_iff, beq_eq_false_iff_ne] at hr
            obtain ⟨hd, hr⟩ := hr
            have hlen := labels_length tgt.width _ hd
            have hle := len_le _ _ hn hsub
            have : ∃ v ∈ domain enumOf tgt, v ∉ labels tgt.width cs := by
              apply Classical.byContradiction
              intro hno
              have : ∀ v ∈ domain enumOf tgt, v ∈ labels tgt.width cs := by
                intro v hv
                apply Classical.byContradiction
                intro h'; exact hno ⟨v, hv, h'⟩
              have := len_le _ _ hdn this
              omega
            obtain ⟨v, hv, hnl⟩ := this
            exact ⟨[], .nomatch hd hv hnl, by intro x hx; simp at hx⟩
  | .for_ iv a b s body, r, hall, h => by
      have hnc : cond (.for_ iv a b s body) = false := by
        cases hc : cond (.for_ iv a b s body) with
        | false => rfl
        | true => have := hcond _ hc; simp [plain] at this
      simp only [checkS, hnc, Bool.false_eq_true, if_false] at h
      obtain ⟨b1, b2⟩ := pathB_exact hcond body r hall.2 h
      have hne : iterValues a b s ≠ [] := hall.1.2
      refine ⟨fun hr p hp => ?_, fun hr => ?_⟩
      · cases hp with
        | leaf hl => simp [plain] at hl
        | loop _ hp => exact b1 hr p hp
        | skip h0 => exact absurd h0 hne
      · obtain ⟨p, hp, hm⟩ := b2 hr
        exact ⟨p, .loop hne hp, hm⟩
  | .assign nb l x, r, hall, h => plainCase _ r (by simp [plain]) h
  | .ret e, r, hall, h => plainCase _ r (by simp [plain]) h
  | .brk, r, hall, h => plainCase _ r (by simp [plain]) h
  | .other n, r, hall, h => plainCase _ r (by simp [plain]) h
theorem pathB_exact (hcond : ∀ s, cond s = true → plain s = true) : ∀ (ss : Stmts) (r : Bool),
    AllB (PathOk (domain enumOf)) ss → checkB enumOf cond un true ss = .ok r →
    (r = true → ∀ p, PathB (domain enumOf) ss p → Hit cond p) ∧
    (r = false → ∃ p, PathB (domain enumOf) ss p ∧ Miss cond p)
  | .nil, r, _, h => by
      simp only [checkB] at h; cases h
      exact ⟨by simp, fun _ => ⟨[], .nil, by intro x hx; simp at hx⟩⟩
  | .cons s ss, r, hall, h => by
      simp only [checkB, Res.bind_eq_ok] at h
      obtain ⟨rs, hs, h⟩ := h
      obtain ⟨s1, s2⟩ := pathS_exact hcond s rs hall.1 hs
      cases rs with
      | true =>
        simp only [if_true] at h
        split at h
        · cases h
        · cases h
          refine ⟨fun _ p hp => ?_, by simp⟩
          cases hp with
          | cons hp hq => exact (s1 rfl _ hp).left
      | false =>
        simp only [Bool.false_eq_true, if_false] at h
        obtain ⟨b1, b2⟩ := pathB_exact hcond ss r hall.2 h
        refine ⟨fun hr p hp => ?_, fun hr => ?_⟩
        · cases hp with
          | cons hp hq => exact (b1 hr _ hq).right
        · obtain ⟨p, hp, hm⟩ := s2 rfl
          obtain ⟨q, hq, hn⟩ := b2 hr
          exact ⟨p ++ q, .cons hp hq, hm.append hn⟩
theorem pathC_exact (hcond : ∀ s, cond s = true → plain s = true) : ∀ (cs : Cases) (f : Nat) (r),
    AllC (PathOk (domain enumOf)) cs → checkC enumOf cond un true cs f = .ok r →
    (∀ m, r = some m → m = f + cs.toList.length ∧
      ∀ p, PathC (domain enumOf) cs p → Hit cond p) ∧
    (r = none → ∃ p, PathC (domain enumOf) cs p ∧ Miss cond p)
  | .nil, f, r, _, h => by
      simp only [checkC] at h; cases h
      refine ⟨fun m hm => ?_, by simp⟩
      cases hm
      exact ⟨by simp [Cases.toList], fun p hp => by cases hp⟩
  | .cons k b cs, f, r, hall, h => by
      simp only [checkC, Res.bind_eq_ok] at h
      obtain ⟨rb, hb, h⟩ := h
      obtain ⟨b1, b2⟩ := pathB_exact hcond b rb hall.1 hb
      cases rb with
      | true =>
        simp only [if_true] at h
        obtain ⟨c1, c2⟩ := pathC_exact hcond cs (f+1) r hall.2 h
        refine ⟨fun m hm => ?_, fun hr => ?_⟩
        · obtain ⟨e, hp⟩ := c1 m hm
          refine ⟨by simp [Cases.toList]; omega, fun p hp' => ?_⟩
          cases hp' with
          | here hp' => exact b1 rfl p hp'
          | there hp' => exact hp p hp'
        · obtain ⟨p, hp, hm⟩ := c2 hr
          exact ⟨p, .there hp, hm⟩
      | false =>
        simp only [Bool.false_eq_true, if_false, if_true] at h
        cases h
        refine ⟨by simp, fun _ => ?_⟩
        obtain ⟨p, hp, hm⟩ := b2 rfl
        exact ⟨p, .here hp, hm⟩
end

end Kratos.Check
