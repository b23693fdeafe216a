import Verif.Param.Spec

namespace Kratos.Param

theorem upd_self {α : Type} (f : Nat → α) (k : Nat) (a : α) : upd f k a k = a := by simp [upd]
theorem upd_ne {α : Type} (f : Nat → α) {k j : Nat} (a : α) (h : j ≠ k) : upd f k a j = f j := by
  simp [upd, h]
theorem mem_insert {α : Type} [DecidableEq α] {a b : α} {l : List α} :
    b ∈ insert a l ↔ b = a ∨ b ∈ l := by
  unfold insert
  split
  · constructor
    · exact .inr
    · rintro (rfl | h)
      · assumption
      · exact h
  · simp

/-- The registration sets agree with the ties. -/
structure Linked (E : Nat → WExpr) (st : St) : Prop where
  wreg : ∀ x e, st.widthTie x = some e → ∀ p ∈ (E e).pars, x ∈ st.widthVars p
  wtie : ∀ p x, x ∈ st.widthVars p → ∃ e, st.widthTie x = some e ∧ p ∈ (E e).pars
  bare : ∀ x e, st.widthTie x = some e → ∃ p, Bare E p e
  sreg : ∀ p x i e, (x, i, e) ∈ st.sizeVars p ↔ st.sizeTie x i = some e ∧ p ∈ (E e).pars
  preg : ∀ c p, c ∈ st.kids p ↔ st.parent c = some p

/-- The parts a value update does not touch. -/
structure Same (st st' : St) : Prop where
  pwidth : st'.pwidth = st.pwidth
  psgn : st'.psgn = st.psgn
  widthVars : st'.widthVars = st.widthVars
  sizeVars : st'.sizeVars = st.sizeVars
  kids : st'.kids = st.kids
  parent : st'.parent = st.parent
  widthTie : st'.widthTie = st.widthTie
  sizeTie : st'.sizeTie = st.sizeTie
  used : st'.used = st.used

theorem Same.refl (st : St) : Same st st := ⟨rfl, rfl, rfl, rfl, rfl, rfl, rfl, rfl, rfl⟩
theorem Same.trans {a b c : St} (h : Same a b) (k : Same b c) : Same a c :=
  ⟨k.1.trans h.1, k.2.trans h.2, k.3.trans h.3, k.4.trans h.4, k.5.trans h.5, k.6.trans h.6,
    k.7.trans h.7, k.8.trans h.8, k.9.trans h.9⟩

theorem Linked.same {E : Nat → WExpr} {st st' : St} (hl : Linked E st) (hs : Same st st') :
    Linked E st' := by
  constructor
  · intro x e h; rw [hs.widthTie] at h; rw [hs.widthVars]; exact hl.wreg x e h
  · intro p x h; rw [hs.widthVars] at h; rw [hs.widthTie]; exact hl.wtie p x h
  · intro x e h; rw [hs.widthTie] at h; exact hl.bare x e h
  · intro p x i e; rw [hs.sizeVars, hs.sizeTie]; exact hl.sreg p x i e
  · intro c p; rw [hs.kids, hs.parent]; exact hl.preg c p

variable {E : Nat → WExpr}

/-- Re-evaluating a tied dimension. -/
theorem setSize_tied {st st' : St} {x i e : Nat} (hl : Linked E st) (ht : st.sizeTie x i = some e)
    (h : setSize E st x i e = (st', .ok)) :
    Same st st' ∧ st'.val = st.val ∧ st'.width = st.width ∧
      (E e).eval st.val = some (st'.size x i) ∧
      ∀ y j, (y, j) ≠ (x, i) → st'.size y j = st.size y j := by
  unfold setSize at h
  split at h
  · cases h
  · rename_i d hd
    split at h
    · cases h
    · simp only [Prod.mk.injEq, and_true] at h
      subst h
      refine ⟨⟨rfl, rfl, rfl, ?_, rfl, rfl, rfl, ?_, rfl⟩, rfl, rfl, ?_, ?_⟩
      · funext p
        simp only
        split
        · rename_i hp
          unfold insert
          rw [if_pos ((hl.sreg p x i e).mpr ⟨ht, hp⟩)]
        · rfl
      · funext y j
        rcases Decidable.em (y = x) with rfl | h1
        · simp only [upd_self]
          rcases Decidable.em (j = i) with rfl | h2
          · rw [upd_self, ht]
          · rw [upd_ne _ _ h2]
        · simp only [upd_ne _ _ h1]
      · simp [upd_self, hd]
      · intro y j hne
        rcases Decidable.em (y = x) with rfl | h1
        · simp only [upd_self]
          rcases Decidable.em (j = i) with rfl | h2
          · exact absurd rfl hne
          · rw [upd_ne _ _ h2]
        · simp only [upd_ne _ _ h1]

theorem setSizes_tied {st' : St} (ts : List (Nat × Nat × Nat)) :
    ∀ {st : St}, Linked E st → (∀ x i e, (x, i, e) ∈ ts → st.sizeTie x i = some e) →
    setSizes E st ts = (st', .ok) →
    Same st st' ∧ st'.val = st.val ∧ st'.width = st.width ∧
      (∀ x i e, (x, i, e) ∈ ts → (E e).eval st.val = some (st'.size x i)) ∧
      ∀ y j, (∀ e, (y, j, e) ∉ ts) → st'.size y j = st.size y j := by
  induction ts with
  | nil =>
    intro st hl ht h
    simp only [setSizes, Prod.mk.injEq, and_true] at h
    subst h
    exact ⟨.refl _, rfl, rfl, by simp, by simp⟩
  | cons t ts ih =>
    obtain ⟨x, i, e⟩ := t
    intro st hl ht h
    unfold setSizes at h
    split at h
    · rename_i st1 h1
      have htie := ht x i e (by simp)
      obtain ⟨hs1, hv1, hw1, he1, ho1⟩ := setSize_tied hl htie h1
      obtain ⟨hs2, hv2, hw2, he2, ho2⟩ := ih (hl.same hs1) (fun y j f hm => by
        rw [hs1.sizeTie]; exact ht y j f (by simp [hm])) h
      refine ⟨hs1.trans hs2, hv2.trans hv1, hw2.trans hw1, ?_, ?_⟩
      · intro y j f hm
        rcases Classical.em (∃ g, (y, j, g) ∈ ts) with ⟨g, hg⟩ | hno
        · have hfg : f = g := by
            have a := ht y j f hm
            have b := ht y j g (List.mem_cons_of_mem _ hg)
            rw [a] at b
            simpa using b
          subst hfg
          rw [← hv1]
          exact he2 y j f hg
        · have hno' : ∀ g, (y, j, g) ∉ ts := fun g hg => hno ⟨g, hg⟩
          have : (y, j, f) = (x, i, e) := by
            rcases List.mem_cons.mp hm with h | h
            · exact h
            · exact absurd h (hno' f)
          simp only [Prod.mk.injEq] at this
          obtain ⟨rfl, rfl, rfl⟩ := this
          rw [ho2 y j hno']
          exact he1
      · intro y j hno
        rw [ho2 y j (fun f hf => hno f (List.mem_cons_of_mem _ hf))]
        apply ho1
        intro heq
        simp only [Prod.mk.injEq] at heq
        obtain ⟨rfl, rfl⟩ := heq
        exact hno e (by simp)
    · rename_i r hr
      cases hs : setSize E st x i e with
      | mk s o =>
        rw [hs] at h hr
        cases o <;> simp_all

/-- What a successful update does. -/
structure Post (E : Nat → WExpr) (st st' : St) (p : Nat) (v : Int) : Prop where
  same : Same st st'
  self : st'.val p = v
  either : ∀ q, st'.val q = st.val q ∨ st'.val q = v
  frame : ∀ q, st'.val q ≠ st.val q → Desc st p q
  pair : ∀ c q, st.parent c = some q → c ≠ p → st.val c = st.val q → st'.val c = st'.val q
  width : (∀ x e, st.widthTie x = some e → (E e).eval st.val = some (st.width x)) →
    ∀ x e, st'.widthTie x = some e → (E e).eval st'.val = some (st'.width x)
  size : (∀ x i e, st.sizeTie x i = some e → (E e).eval st.val = some (st.size x i)) →
    ∀ x i e, st'.sizeTie x i = some e → (E e).eval st'.val = some (st'.size x i)

theorem Desc.same {st st' : St} (hp : st'.parent = st.parent) {p q : Nat} (h : Desc st' p q) :
    Desc st p q := by
  induction h with
  | refl => exact .refl
  | step _ hc ih => rw [hp] at hc; exact .step ih hc

theorem Desc.trans {st : St} {p q r : Nat} (h : Desc st p q) (k : Desc st q r) : Desc st p r := by
  induction k with
  | refl => exact h
  | step _ hc ih => exact .step ih hc

/-- After the children loop: like `Post` for each of them. -/
structure KPost (E : Nat → WExpr) (st st' : St) (p : Nat) (cs : List Nat) (v : Int) : Prop where
  same : Same st st'
  done : ∀ c ∈ cs, st'.val c = v
  either : ∀ q, st'.val q = st.val q ∨ st'.val q = v
  frame : ∀ q, st'.val q ≠ st.val q → Desc st p q
  pair : ∀ c q, st.parent c = some q → q ≠ p → st.val c = st.val q → st'.val c = st'.val q
  width : (∀ x e, st.widthTie x = some e → (E e).eval st.val = some (st.width x)) →
    ∀ x e, st'.widthTie x = some e → (E e).eval st'.val = some (st'.width x)
  size : (∀ x i e, st.sizeTie x i = some e → (E e).eval st.val = some (st.size x i)) →
    ∀ x i e, st'.sizeTie x i = some e → (E e).eval st'.val = some (st'.size x i)

theorem forKids_post {f : St → Nat → St × Out} {p : Nat} {v : Int} {st' : St}
    (hf : ∀ st st' c, Linked E st → f st c = (st', .ok) → Post E st st' c v) (cs : List Nat) :
    ∀ {st : St}, Linked E st → (∀ c ∈ cs, st.parent c = some p) →
    forKids f st cs = (st', .ok) → KPost E st st' p cs v := by
  induction cs with
  | nil =>
    intro st hl _ h
    simp only [forKids, Prod.mk.injEq, and_true] at h
    subst h
    exact ⟨.refl _, by simp, fun _ => .inl rfl, fun q h => absurd rfl h, fun _ _ _ _ h => h,
      fun h => h, fun h => h⟩
  | cons c cs ih =>
    intro st hl hpar h
    unfold forKids at h
    split at h
    · rename_i st1 h1
      have p1 := hf st st1 c hl h1
      have k2 := ih (hl.same p1.same) (fun d hd => by rw [p1.same.parent]; exact hpar d (by simp [hd])) h
      have hcp := hpar c (by simp)
      refine ⟨p1.same.trans k2.same, ?_, ?_, ?_, ?_, fun hw => k2.width (p1.width hw),
        fun hs => k2.size (p1.size hs)⟩
      · intro d hd
        rcases List.mem_cons.mp hd with rfl | hd
        · rcases k2.either d with h | h
          · rw [h, p1.self]
          · exact h
        · exact k2.done d hd
      · intro q
        rcases k2.either q with h2 | h2
        · rw [h2]; exact p1.either q
        · exact .inr h2
      · intro q hq
        rcases Decidable.em (st1.val q = st.val q) with heq | hne
        · rw [← heq] at hq
          exact (k2.frame q hq).same p1.same.parent
        · exact (Desc.step .refl hcp).trans (p1.frame q hne)
      · intro d q hd hq heq
        refine k2.pair d q (by rw [p1.same.parent]; exact hd) hq (p1.pair d q hd ?_ heq)
        intro hdc
        subst hdc
        rw [hcp] at hd
        exact hq (by simpa using hd.symm)
    · rename_i r hr
      cases hs : f st c with
      | mk s o =>
        rw [hs] at h hr
        cases o <;> simp_all

theorem setValue_post (n : Nat) : ∀ (st st' : St) (p : Nat) (v : Int), Linked E st →
    setValue E n st p v = (st', .ok) → Post E st st' p v := by
  induction n with
  | zero => intro st st' p v _ h; simp [setValue] at h
  | succ n ih =>
    intro st st' p v hl h
    unfold setValue at h
    split at h
    · cases h
    · rename_i hpos
      split at h
      · cases h
      · have hs1 : Same st { st with
            val := upd st.val p v
            width := fun x => if x ∈ st.widthVars p then v else st.width x } :=
          ⟨rfl, rfl, rfl, rfl, rfl, rfl, rfl, rfl, rfl⟩
        generalize hst1 : { st with
            val := upd st.val p v
            width := fun x => if x ∈ st.widthVars p then v else st.width x } = st1 at *
        have hv1 : st1.val = upd st.val p v := by rw [← hst1]
        have hw1 : st1.width = fun x => if x ∈ st.widthVars p then v else st.width x := by rw [← hst1]
        have hz1 : st1.size = st.size := by rw [← hst1]
        simp only at h
        split at h
        · rename_i st2 h2
          obtain ⟨hs2, hv2, hw2, he2, ho2⟩ := setSizes_tied (st.sizeVars p) (hl.same hs1)
            (fun x i e hm => by rw [hs1.sizeTie]; exact ((hl.sreg p x i e).mp hm).1) h2
          have k := forKids_post (p := p) (v := v) (fun a b c hla hab => ih a b c v hla hab)
            (st.kids p) ((hl.same hs1).same hs2)
            (fun c hc => by rw [hs2.parent, hs1.parent]; exact (hl.preg c p).mp hc) h
          have hval : st2.val = upd st.val p v := hv2.trans hv1
          have hpv : st'.val p = v := by
            rcases k.either p with h | h
            · rw [h, hval, upd_self]
            · exact h
          refine ⟨(hs1.trans hs2).trans k.same, hpv, ?_, ?_, ?_, ?_, ?_⟩
          · intro q
            rcases k.either q with h | h
            · rw [h, hval]
              rcases Decidable.em (q = p) with rfl | hne
              · exact .inr (upd_self ..)
              · exact .inl (upd_ne _ _ hne)
            · exact .inr h
          · intro q hq
            rcases Decidable.em (q = p) with rfl | hne
            · exact .refl
            · refine (k.frame q ?_).same (hs2.parent.trans hs1.parent)
              rw [hval, upd_ne _ _ hne]
              exact hq
          · intro c q hc hcp heq
            rcases Decidable.em (q = p) with rfl | hqp
            · rw [hpv]
              exact k.done c ((hl.preg c q).mpr hc)
            · refine k.pair c q (by rw [hs2.parent, hs1.parent]; exact hc) hqp ?_
              rw [hval, upd_ne _ _ hcp, upd_ne _ _ hqp]
              exact heq
          · intro hw
            apply k.width
            intro x e hx
            rw [hs2.widthTie, hs1.widthTie] at hx
            obtain ⟨q, hq1, hq2⟩ := hl.bare x e hx
            rw [hval, hw2, hw1]
            rcases Decidable.em (q = p) with rfl | hne
            · have hmem := hl.wreg x e hx q (by simp [hq1])
              have hv : 0 < v := by
                rcases Decidable.em (0 < v) with h | h
                · exact h
                · exact absurd ⟨by omega, List.ne_nil_of_mem hmem⟩ hpos
              simp [hq2, upd_self, hv, hmem]
            · have hmem : x ∉ st.widthVars p := by
                intro hm
                obtain ⟨e', he', hp'⟩ := hl.wtie p x hm
                rw [hx] at he'
                cases he'
                rw [hq1] at hp'
                simp at hp'
                exact hne hp'.symm
              simp only [hmem, if_false]
              rw [← hw x e hx]
              apply (E e).dep
              intro r hr
              rw [hq1] at hr
              simp at hr
              rw [hr]
              exact upd_ne _ _ hne
          · intro hsz
            apply k.size
            intro x i e hx
            rw [hs2.sizeTie, hs1.sizeTie] at hx
            rw [hv2]
            rcases Decidable.em (p ∈ (E e).pars) with hp | hp
            · exact he2 x i e ((hl.sreg p x i e).mpr ⟨hx, hp⟩)
            · have hno : ∀ f, (x, i, f) ∉ st.sizeVars p := by
                intro f hf
                obtain ⟨a, b⟩ := (hl.sreg p x i f).mp hf
                rw [hx] at a
                cases a
                exact hp b
              rw [ho2 x i hno, hv1, hz1, ← hsz x i e hx]
              apply (E e).dep
              intro r hr
              refine upd_ne _ _ ?_
              intro hrp
              subst hrp
              exact hp hr
        · rename_i r hr
          cases hs : setSizes E st1 (st.sizeVars p) with
          | mk s o =>
            rw [hs] at h hr
            cases o <;> simp_all

end Kratos.Param
