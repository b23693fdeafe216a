import Verif.Base

/-!
# The lists of an emitted module

`src/codegen.cc`: the ports of a module header (`generate_ports`), the variable declarations
(`generate_variables`, `Generator::get_vars`) and the connections of an instance
(`generate_port_interface`).

Their order comes from `std::sort` and `std::stable_sort`.  Both are modelled by their contract: if
the comparison is a strict weak ordering of the elements the result is any sorted permutation (for
`stable_sort`, one that keeps the order of equivalent elements); otherwise the behaviour is
undefined.  The order in which the elements come out of the containers is arbitrary.

Names are elements of any type with a strict total order (`std::string` with `<`).
-/

namespace Kratos.Lists

/-- `PortDirection` (`src/port.hh`). -/
inductive Dir where | inp | out | inout
  deriving DecidableEq, Repr

section sort
variable {α : Type}

/-- What the C++ standard asks of a comparison (*Compare*). -/
def StrictWeak (lt : α → α → Prop) (l : List α) : Prop :=
  (∀ a ∈ l, ¬ lt a a) ∧
  (∀ a ∈ l, ∀ b ∈ l, ∀ c ∈ l, lt a b → lt b c → lt a c) ∧
  (∀ a ∈ l, ∀ b ∈ l, ∀ c ∈ l, ¬ lt a b → ¬ lt b a → ¬ lt b c → ¬ lt c b → ¬ lt a c ∧ ¬ lt c a)

/-- `std::sort`. -/
def StdSort (lt : α → α → Prop) (l : List α) : Res (List α) → Prop
  | .ok r => StrictWeak lt l ∧ l.Perm r ∧ r.Pairwise fun a b => ¬ lt b a
  | .throw _ => False
  | .ub => ¬ StrictWeak lt l

/-- `std::stable_sort` (on a list without repetition). -/
def StdStable (lt : α → α → Prop) (l : List α) : Res (List α) → Prop
  | .ok r => StrictWeak lt l ∧ l.Perm r ∧ (r.Pairwise fun a b => ¬ lt b a) ∧
      ∀ a b, [a, b].Sublist l → ¬ lt b a → [a, b].Sublist r
  | .throw _ => False
  | .ub => ¬ StrictWeak lt l

end sort

section lists
variable {N : Type} (lt : N → N → Prop)

/-- The comparison of `src/codegen.cc:290-295` and `1104-1107`: an input before an output. -/
def before {α : Type} (dir : α → Dir) (a b : α) : Prop := dir a = .inp ∧ dir b = .out

/-- The order of the ports of a module header (`generate_ports`, `src/codegen.cc:281-295`): by name,
then inputs before outputs. -/
def headerOrder (dir : N → Dir) (names : List N) (o : Res (List N)) : Prop :=
  StdSort lt names .ub ∧ o = .ub ∨
  ∃ mid, StdSort lt names (.ok mid) ∧ StdStable (before dir) mid o

/-- The separator after each port but the last (`src/codegen.cc:326-338`): the counter reaches the
number of ports. -/
def commas (size : Nat) : Nat → List N → List (N × Bool)
  | _, [] => []
  | c, n :: l => (n, c + 1 != size) :: commas size (c + 1) l

/-- A variable of the generator: whether its type is `Base`, and whether it belongs to an interface. -/
structure Var (N : Type) where
  name : N
  base : Bool
  iface : Bool

/-- `Generator::get_vars` (`src/generator.cc:525-535`) and `generate_variables`
(`src/codegen.cc:341-350`): the declared variables, in order. -/
def declOrder (vars : List (Var N)) (o : Res (List (Var N))) : Prop :=
  match o with
  | .ok r => ∃ mid, StdSort (fun a b : Var N => lt a.name b.name) (vars.filter (·.base)) (.ok mid) ∧
      r = mid.filter (fun v => v.base && !v.iface)
  | .throw _ => False
  | .ub => StdSort (fun a b : Var N => lt a.name b.name) (vars.filter (·.base)) .ub

/-- An entry of the port mapping of an instance: the port of the child, with the interface instance
it belongs to if it belongs to one, and the text of what it is connected to (of the interface, for
an interface port). -/
structure Entry (N : Type) where
  port : N
  dir : Dir
  iface : Option N
  ext : N

/-- The loop of `generate_port_interface` for a module (`src/codegen.cc:1112-1157`): the ports of an
interface of the child make one connection, and have to agree on the interface of the parent. -/
def connections [DecidableEq N] : List (Entry N) → List (N × N) → Res (List (N × N))
  | [], _ => .ok []
  | e :: l, seen =>
    match e.iface with
    | none => (connections l seen).bind fun r => .ok ((e.port, e.ext) :: r)
    | some i =>
      match seen.find? (fun s => s.1 = i) with
      | some s => if s.2 ≠ e.ext then .throw .stmt else connections l seen
      | none => (connections l (seen ++ [(i, e.ext)])).bind fun r => .ok ((i, e.ext) :: r)

/-- The connections of an instance (`src/codegen.cc:1097-1157`): sort by name, then inputs before
outputs, then fold. -/
def instanceConns [DecidableEq N] (mapping : List (Entry N)) (o : Res (List (N × N))) : Prop :=
  StdSort (fun a b : Entry N => lt a.port b.port) mapping .ub ∧ o = .ub ∨
  ∃ mid, StdSort (fun a b : Entry N => lt a.port b.port) mapping (.ok mid) ∧
    (StdStable (before Entry.dir) mid .ub ∧ o = .ub ∨
     ∃ fin, StdStable (before Entry.dir) mid (.ok fin) ∧ o = connections fin [])

end lists

/-! ## Specification -/

/-- A strict total order. -/
structure Total {N : Type} (lt : N → N → Prop) : Prop where
  irrefl : ∀ a, ¬ lt a a
  trans : ∀ a b c, lt a b → lt b c → lt a c
  tri : ∀ a b, a = b ∨ lt a b ∨ lt b a

/-- The expected order: the inputs by name, then the outputs by name, and nothing else. -/
def InsThenOuts {α : Type} (lt : α → α → Prop) (dir : α → Dir) (l r : List α) : Prop :=
  ∃ i o, r = i ++ o ∧ l.Perm r ∧ (∀ a ∈ i, dir a = .inp) ∧ (∀ a ∈ o, dir a = .out) ∧
    i.Pairwise lt ∧ o.Pairwise lt

/-- What a user expects of a module header: for all ports, one order, whatever the order in which
the ports are stored. -/
def HeaderClaim : Prop :=
  ∀ (N : Type) (lt : N → N → Prop), Total lt → ∀ (dir : N → Dir) (names : List N), names.Nodup →
    (∃ r, headerOrder lt dir names (.ok r)) ∧ ¬ headerOrder lt dir names .ub

/-- What a user expects of the connections of an instance: they do not depend on the order in which
the mapping is stored. -/
def ReproducibleClaim : Prop :=
  ∀ (N : Type) [DecidableEq N] (lt : N → N → Prop), Total lt → ∀ (m m' : List (Entry N)),
    m.Perm m' → ∀ r r', instanceConns lt m (.ok r) → instanceConns lt m' (.ok r') → r = r'

/-! ## Theorems -/

section thms
variable {α : Type}

theorem sorted_unique {lt : α → α → Prop} (irr : ∀ a, ¬ lt a a)
    (tr : ∀ a b c, lt a b → lt b c → lt a c) :
    ∀ {l r : List α}, l.Pairwise lt → r.Pairwise lt → l.Perm r → l = r := by
  intro l
  induction l with
  | nil => intro r _ _ h; exact (List.Perm.nil_eq h)
  | cons a l ih =>
    intro r hl hr h
    cases r with
    | nil => exact absurd (List.Perm.eq_nil h) (by simp)
    | cons b r =>
      rw [List.pairwise_cons] at hl hr
      have hab : a = b := by
        rcases List.mem_cons.mp (h.mem_iff.mp (List.mem_cons_self (a := a))) with e | ha
        · exact e
        · rcases List.mem_cons.mp (h.mem_iff.mpr (List.mem_cons_self (a := b))) with e | hb
          · exact e.symm
          · exact absurd (tr _ _ _ (hl.1 b hb) (hr.1 a ha)) (irr a)
      subst hab
      rw [ih hl.2 hr.2 (List.Perm.cons_inv h)]

theorem insThenOuts_unique {lt : α → α → Prop} {dir : α → Dir} (irr : ∀ a, ¬ lt a a)
    (tr : ∀ a b c, lt a b → lt b c → lt a c) {l l' r r' : List α} (hl : l.Perm l')
    (h : InsThenOuts lt dir l r) (h' : InsThenOuts lt dir l' r') : r = r' := by
  obtain ⟨i, o, rfl, p, hi, ho, si, so⟩ := h
  obtain ⟨i', o', rfl, p', hi', ho', si', so'⟩ := h'
  have hp : (i ++ o).Perm (i' ++ o') := p.symm.trans (hl.trans p')
  have split : ∀ (i o : List α), (∀ a ∈ i, dir a = .inp) → (∀ a ∈ o, dir a = .out) →
      (i ++ o).filter (fun a => dir a = .inp) = i ∧ (i ++ o).filter (fun a => dir a = .out) = o := by
    intro i o hi ho
    constructor
    · rw [List.filter_append, List.filter_eq_self.mpr (by simpa using hi),
        List.filter_eq_nil_iff.mpr (by intro a ha; simp [ho a ha]), List.append_nil]
    · rw [List.filter_append, List.filter_eq_nil_iff.mpr (by intro a ha; simp [hi a ha]),
        List.nil_append, List.filter_eq_self.mpr (by simpa using ho)]
  have h1 : i.Perm i' := by
    have := hp.filter (fun a => dir a = .inp)
    rwa [(split i o hi ho).1, (split i' o' hi' ho').1] at this
  have h2 : o.Perm o' := by
    have := hp.filter (fun a => dir a = .out)
    rwa [(split i o hi ho).2, (split i' o' hi' ho').2] at this
  rw [sorted_unique irr tr si si' h1, sorted_unique irr tr so so' h2]

theorem weak_before {dir : α → Dir} {l : List α} (h : ∀ a ∈ l, dir a ≠ .inout) :
    StrictWeak (before dir) l := by
  refine ⟨?_, ?_, ?_⟩
  · intro a _ ⟨h1, h2⟩; rw [h1] at h2; cases h2
  · intro a _ b _ c _ ⟨_, h2⟩ ⟨h3, _⟩; rw [h2] at h3; cases h3
  · intro a ha b hb c hc
    have := h a ha; have := h b hb; have := h c hc
    unfold before
    cases ea : dir a <;> cases eb : dir b <;> cases ec : dir c <;> simp_all

/-- With only inputs and outputs, a stable sort by direction of a sorted list is the expected order,
and nothing else is. -/
theorem stable_before {lt : α → α → Prop} {dir : α → Dir} {mid r : List α}
    (hs : mid.Pairwise lt) (hd : ∀ a ∈ mid, dir a ≠ .inout) (hn : mid.Nodup)
    (h : StdStable (before dir) mid (.ok r)) : InsThenOuts lt dir mid r := by
  obtain ⟨hweak, hp, hsort, hst⟩ := h
  clear hweak
  have hrn : r.Nodup := hp.nodup_iff.mp hn
  have hd' : ∀ a ∈ r, dir a ≠ .inout := fun a ha => hd a (hp.mem_iff.mpr ha)
  have eqf : r = r.filter (fun a => dir a = .inp) ++ r.filter (fun a => dir a = .out) := by
    clear hst hp hrn
    induction r with
    | nil => rfl
    | cons a r ih =>
      rw [List.pairwise_cons] at hsort
      have ih := ih hsort.2 fun b hb => hd' b (List.mem_cons_of_mem _ hb)
      cases ea : dir a with
      | inp => simpa [List.filter_cons, ea] using ih
      | inout => exact absurd ea (hd' a (by simp))
      | out =>
        have hno : r.filter (fun b => dir b = .inp) = [] := by
          apply List.filter_eq_nil_iff.mpr
          intro b hb hbi
          exact hsort.1 b hb ⟨by simpa using hbi, ea⟩
        rw [hno, List.nil_append] at ih
        simp only [List.filter_cons, ea, hno]
        simpa using ih
  have pair : ∀ (p : Dir), (∀ a b, dir a = p → dir b = p → ¬ before dir a b) →
      (r.filter (fun a => dir a = p)).Pairwise lt := by
    intro p hpp
    rw [List.pairwise_iff_forall_sublist]
    intro a b hab
    have hmem : ∀ x ∈ [a, b], x ∈ r ∧ dir x = p := by
      intro x hx
      simpa using hab.subset hx
    have ha := hmem a (by simp)
    have hb := hmem b (by simp)
    have hne : a ≠ b := by
      have := (hab.trans List.filter_sublist).nodup hrn
      simpa using this
    have ham := hp.mem_iff.mpr ha.1
    have hbm := hp.mem_iff.mpr hb.1
    have hor : [a, b].Sublist mid ∨ [b, a].Sublist mid := by
      clear hst hp hs hd hrn hd' eqf hab hmem
      induction mid with
      | nil => cases ham
      | cons x mid ih =>
        rcases List.mem_cons.mp ham with rfl | ham'
        · rcases List.mem_cons.mp hbm with e | hbm'
          · exact absurd e.symm hne
          · exact Or.inl (List.Sublist.cons_cons _ (List.singleton_sublist.mpr hbm'))
        · rcases List.mem_cons.mp hbm with rfl | hbm'
          · exact Or.inr (List.Sublist.cons_cons _ (List.singleton_sublist.mpr ham'))
          · exact (ih (List.nodup_cons.mp hn).2 ham' hbm').imp (.cons _) (.cons _)
    rcases hor with h | h
    · exact List.pairwise_iff_forall_sublist.mp hs h
    · exfalso
      have h2 := hst b a h (hpp a b ha.2 hb.2)
      have h1 := hab.trans (List.filter_sublist (l := r))
      clear hst hp hs hd hd' eqf hab hmem hsort
      induction r with
      | nil => cases h1
      | cons x r ih =>
        rw [List.nodup_cons] at hrn
        cases h1 with
        | cons _ h1 =>
          cases h2 with
          | cons _ h2 =>
            exact ih hrn.2 ⟨h1.subset (by simp), ha.2⟩ ⟨h1.subset (by simp), hb.2⟩ h2 h1
          | cons_cons _ h2 => exact hrn.1 (h1.subset (by simp))
        | cons_cons _ h1 =>
          cases h2 with
          | cons _ h2 => exact hrn.1 (h2.subset (by simp))
          | cons_cons _ h2 => exact hne rfl
  refine ⟨_, _, eqf, hp, by simp, by simp, pair .inp ?_, pair .out ?_⟩
  · intro a b _ h2 ⟨_, h3⟩; rw [h2] at h3; cases h3
  · intro a b h1 _ ⟨h3, _⟩; rw [h1] at h3; cases h3

theorem weak_total {N : Type} {lt : N → N → Prop} (T : Total lt) (l : List N) :
    StrictWeak lt l := by
  refine ⟨fun a _ => T.irrefl a, fun a _ b _ c _ => T.trans a b c, ?_⟩
  intro a _ b _ c _ h1 h2 h3 h4
  have e1 : a = b := (T.tri a b).resolve_right fun h => h.elim h1 h2
  have e2 : b = c := (T.tri b c).resolve_right fun h => h.elim h3 h4
  subst e1; subst e2
  exact ⟨T.irrefl _, T.irrefl _⟩

theorem sort_exists {lt : α → α → Prop} {l : List α} (hw : StrictWeak lt l) :
    ∃ r, StdSort lt l (.ok r) := by
  -- insertion sort, with the comparison restricted to the elements of the list
  suffices H : ∀ l' : List α, (∀ a ∈ l', a ∈ l) →
      ∃ r, l'.Perm r ∧ r.Pairwise fun a b => ¬ lt b a by
    obtain ⟨r, hp, hs⟩ := H l fun _ h => h
    exact ⟨r, hw, hp, hs⟩
  intro l'
  induction l' with
  | nil => intro _; exact ⟨[], List.Perm.refl _, List.Pairwise.nil⟩
  | cons a l' ih =>
    intro hsub
    obtain ⟨r, hp, hs⟩ := ih fun b hb => hsub b (List.mem_cons_of_mem _ hb)
    have ha := hsub a (by simp)
    have hr : ∀ b ∈ r, b ∈ l := fun b hb => hsub b (List.mem_cons_of_mem _ (hp.mem_iff.mpr hb))
    suffices H : ∃ r', (a :: r).Perm r' ∧ r'.Pairwise fun a b => ¬ lt b a by
      obtain ⟨r', hp', hs'⟩ := H
      exact ⟨r', (hp.cons a).trans hp', hs'⟩
    clear hp ih
    induction r with
    | nil => exact ⟨[a], List.Perm.refl _, by simp⟩
    | cons b r ih =>
      rw [List.pairwise_cons] at hs
      have hb := hr b (by simp)
      by_cases hab : lt b a
      · obtain ⟨r', hp', hs'⟩ := ih hs.2 fun c hc => hr c (List.mem_cons_of_mem _ hc)
        refine ⟨b :: r', (List.Perm.swap b a r).trans (hp'.cons b), List.pairwise_cons.mpr ⟨?_, hs'⟩⟩
        intro c hc
        rcases List.mem_cons.mp (hp'.mem_iff.mpr hc) with rfl | hc'
        · exact fun h => hw.1 c ha (hw.2.1 c ha b hb c ha h hab)
        · exact hs.1 c hc'
      · refine ⟨a :: b :: r, List.Perm.refl _, List.pairwise_cons.mpr ⟨?_, List.pairwise_cons.mpr hs⟩⟩
        intro c hc h
        rcases List.mem_cons.mp hc with rfl | hc'
        · exact hab h
        · have hcl := hr c (List.mem_cons_of_mem _ hc')
          have hcb := hs.1 c hc'
          -- `c < a`, not `b < a`, not `c < b`: then `a` and `b` are not comparable with `c`…
          by_cases hba : lt a b
          · exact hcb (hw.2.1 c hcl a ha b hb h hba)
          · by_cases hbc : lt b c
            · exact hab (hw.2.1 b hb c hcl a ha hbc h)
            · exact (hw.2.2 c hcl b hb a ha hcb hbc hab hba).1 h

theorem stable_exists {dir : α → Dir} {mid : List α} (hd : ∀ a ∈ mid, dir a ≠ .inout) :
    ∃ r, StdStable (before dir) mid (.ok r) := by
  refine ⟨mid.filter (fun a => dir a = .inp) ++ mid.filter (fun a => dir a = .out),
    weak_before hd, ?_, ?_, ?_⟩
  · induction mid with
    | nil => exact List.Perm.refl _
    | cons a mid ih =>
      have ih := ih fun b hb => hd b (List.mem_cons_of_mem _ hb)
      cases ea : dir a with
      | inp => simpa [List.filter_cons, ea] using ih
      | inout => exact absurd ea (hd a (by simp))
      | out =>
        simp only [List.filter_cons, ea]
        exact (ih.cons a).trans List.perm_middle.symm
  · rw [List.pairwise_append]
    refine ⟨?_, ?_, ?_⟩
    · rw [List.pairwise_filter]
      refine List.Pairwise.imp (R := fun _ _ => True) ?_ (List.pairwise_of_forall fun _ _ => trivial)
      intro a b _ ha _ ⟨_, h⟩
      rw [of_decide_eq_true ha] at h; cases h
    · rw [List.pairwise_filter]
      refine List.Pairwise.imp (R := fun _ _ => True) ?_ (List.pairwise_of_forall fun _ _ => trivial)
      intro a b _ _ hb ⟨h, _⟩
      rw [of_decide_eq_true hb] at h; cases h
    · intro a ha b _ ⟨_, h⟩
      have := of_decide_eq_true (List.mem_filter.mp ha).2
      rw [this] at h; cases h
  · intro a b hab hnb
    have ha := hab.subset (List.mem_cons_self (a := a))
    have hb := hab.subset (List.mem_cons_of_mem a (List.mem_singleton.mpr (rfl : b = b)))
    have hda := hd a ha
    have hdb := hd b hb
    cases ea : dir a with
    | inout => exact absurd ea hda
    | inp =>
      cases eb : dir b with
      | inout => exact absurd eb hdb
      | inp =>
        have := hab.filter (fun a => dir a = .inp)
        simp only [List.filter_cons, ea, eb, List.filter_nil] at this
        exact (by simpa using this : [a, b].Sublist _).trans (List.sublist_append_left _ _)
      | out =>
        have h1 : [a].Sublist (mid.filter (fun a => dir a = .inp)) :=
          List.singleton_sublist.mpr (List.mem_filter.mpr ⟨ha, by simp [ea]⟩)
        have h2 : [b].Sublist (mid.filter (fun a => dir a = .out)) :=
          List.singleton_sublist.mpr (List.mem_filter.mpr ⟨hb, by simp [eb]⟩)
        exact h1.append h2
    | out =>
      cases eb : dir b with
      | inout => exact absurd eb hdb
      | inp => exact absurd ⟨eb, ea⟩ hnb
      | out =>
        have := hab.filter (fun a => dir a = .out)
        simp only [List.filter_cons, ea, eb, List.filter_nil] at this
        exact (by simpa using this : [a, b].Sublist _).trans (List.sublist_append_right _ _)

end thms

section header
variable {N : Type} {lt : N → N → Prop}

theorem pairwise_of_sorted (T : Total lt) {l : List N} (hn : l.Nodup)
    (h : l.Pairwise fun a b => ¬ lt b a) : l.Pairwise lt := by
  refine (h.and hn).imp ?_
  rintro a b ⟨h1, h2⟩
  exact ((T.tri a b).resolve_left h2).resolve_right h1

/-- C82: the header of a module without bidirectional ports lists every port once, inputs before
outputs and each by name; it always exists, nothing else is possible, and it does not depend on the
order in which the ports are stored. -/
theorem header_partial (T : Total lt) {dir : N → Dir} {names : List N} (hn : names.Nodup)
    (hd : ∀ n ∈ names, dir n ≠ .inout) :
    (∃ r, headerOrder lt dir names (.ok r)) ∧
    (∀ o, headerOrder lt dir names o → ∃ r, o = .ok r ∧ InsThenOuts lt dir names r) ∧
    (∀ names', names.Perm names' → ∀ r r', headerOrder lt dir names (.ok r) →
      headerOrder lt dir names' (.ok r') → r = r') := by
  have key : ∀ ns : List N, ns.Nodup → (∀ n ∈ ns, dir n ≠ .inout) →
      ∀ o, headerOrder lt dir ns o → ∃ r, o = .ok r ∧ InsThenOuts lt dir ns r := by
    intro ns hn hd o ho
    rcases ho with ⟨h, _⟩ | ⟨mid, hm, hst⟩
    · exact absurd (weak_total T ns) h
    · obtain ⟨_, hp, hs⟩ := hm
      have hmn : mid.Nodup := hp.nodup_iff.mp hn
      have hmd : ∀ a ∈ mid, dir a ≠ .inout := fun a ha => hd a (hp.mem_iff.mpr ha)
      cases o with
      | ok r =>
        refine ⟨r, rfl, ?_⟩
        obtain ⟨i, o, e, p, h⟩ := stable_before (pairwise_of_sorted T hmn hs) hmd hmn hst
        exact ⟨i, o, e, hp.trans p, h⟩
      | throw e => exact absurd hst id
      | ub => exact absurd (weak_before hmd) hst
  refine ⟨?_, key names hn hd, ?_⟩
  · obtain ⟨mid, hm⟩ := sort_exists (weak_total T names)
    have hp := hm.2.1
    have hmn : mid.Nodup := hp.nodup_iff.mp hn
    have hmd : ∀ a ∈ mid, dir a ≠ .inout := fun a ha => hd a (hp.mem_iff.mpr ha)
    obtain ⟨r, hr⟩ := stable_exists hmd
    exact ⟨r, Or.inr ⟨mid, hm, hr⟩⟩
  · intro names' hp r r' h h'
    obtain ⟨_, e, h1⟩ := key names hn hd _ h
    obtain ⟨_, e', h2⟩ := key names' (hp.nodup_iff.mp hn)
      (fun n hn' => hd n (hp.mem_iff.mpr hn')) _ h'
    cases e; cases e'
    exact insThenOuts_unique T.irrefl T.trans hp h1 h2

theorem natTotal : Total (fun a b : Nat => a < b) :=
  ⟨Nat.lt_irrefl, fun _ _ _ => Nat.lt_trans, fun a b => by omega⟩

example : headerOrder (fun a b : Nat => a < b) (fun n => if n < 2 then .out else .inp) [3, 1, 2]
    (.ok [2, 3, 1]) := by
  obtain ⟨⟨r, h⟩, h2, _⟩ := header_partial natTotal (dir := fun n => if n < 2 then .out else .inp)
    (names := [3, 1, 2]) (by decide) (by decide)
  obtain ⟨_, e, h3⟩ := h2 _ h
  cases e
  have := insThenOuts_unique natTotal.irrefl natTotal.trans (List.Perm.refl _) h3
    (r' := [2, 3, 1]) ⟨[2, 3], [1], rfl, by decide, by decide, by decide, by decide, by decide⟩
  exact this ▸ h

/-- C82: with an input, a bidirectional port and an output, sorting the ports of a header is
undefined: "input before output" is not a strict weak ordering. -/
theorem inout_ub {dir : N → Dir} {names : List N} {a b c : N} (ha : a ∈ names)
    (hb : b ∈ names) (hc : c ∈ names) (da : dir a = .inp) (db : dir b = .inout)
    (dc : dir c = .out) (o : Res (List N)) (h : headerOrder lt dir names o) : o = .ub := by
  rcases h with ⟨_, h⟩ | ⟨mid, hm, hst⟩
  · exact h
  · have hw : ¬ StrictWeak (before dir) mid := by
      intro hw
      have hm' := hm.2.1
      have := (hw.2.2 a (hm'.mem_iff.mp ha) b (hm'.mem_iff.mp hb) c (hm'.mem_iff.mp hc)
        (by simp [before, db]) (by simp [before, db]) (by simp [before, db])
        (by simp [before, db])).1
      exact this ⟨da, dc⟩
    cases o with
    | ok r => exact absurd hst.1 hw
    | throw e => exact absurd hst id
    | ub => rfl

theorem not_HeaderClaim : ¬ HeaderClaim := by
  intro h
  obtain ⟨⟨r, hr⟩, _⟩ := h Nat _ natTotal
    (fun n => if n = 0 then .inp else if n = 1 then .inout else .out) [0, 1, 2] (by decide)
  have := inout_ub (a := 0) (b := 1) (c := 2) (by decide) (by decide) (by decide) rfl rfl
    rfl _ hr
  cases this

/-- C82: every port but the last is followed by a comma. -/
theorem commas_spec (l : List N) :
    commas l.length 0 l = l.mapIdx (fun i n => (n, i + 1 != l.length)) := by
  suffices H : ∀ (l : List N) (c k : Nat), commas (c + k + l.length) (c + k) l =
      l.mapIdx (fun i n => (n, i + k + 1 != k + l.length)) by
    have := H l 0 0
    simpa using this
  intro l
  induction l with
  | nil => intro c k; rfl
  | cons a l ih =>
    intro c k
    have := ih c (k + 1)
    simp only [commas, List.mapIdx_cons, List.length_cons]
    have e1 : c + k + (l.length + 1) = c + (k + 1) + l.length := by omega
    have e2 : c + k + 1 = c + (k + 1) := by omega
    rw [e1, e2, this]
    have e3 : ∀ i, i + (k + 1) + 1 = i + 1 + k + 1 := by intro i; omega
    have e4 : k + 1 + l.length = k + (l.length + 1) := by omega
    have e5 : (c + (k + 1) != c + (k + 1) + l.length) = (0 + k + 1 != k + (l.length + 1)) := by
      rw [Bool.eq_iff_iff]; simp only [bne_iff_ne]; omega
    simp only [e3, e4, e5]

/-- C82: the variables declared in a module are exactly its plain variables, each once, by name;
there is one order, whatever the order in which they are stored. -/
theorem declared_partial (T : Total lt) {vars : List (Var N)} (hn : (vars.map (·.name)).Nodup) :
    (∃ r, declOrder lt vars (.ok r)) ∧ ¬ declOrder lt vars .ub ∧
    (∀ r, declOrder lt vars (.ok r) →
      (∀ v, v ∈ r ↔ v ∈ vars ∧ v.base = true ∧ v.iface = false) ∧
      (r.map (·.name)).Pairwise lt) := by
  have hw : StrictWeak (fun a b : Var N => lt a.name b.name) (vars.filter (·.base)) := by
    obtain ⟨h1, h2, h3⟩ := weak_total T (vars.map (·.name))
    have hm : ∀ v ∈ vars.filter (·.base), v.name ∈ vars.map (·.name) :=
      fun v hv => List.mem_map.mpr ⟨v, (List.mem_filter.mp hv).1, rfl⟩
    exact ⟨fun a ha => h1 _ (hm a ha), fun a ha b hb c hc => h2 _ (hm a ha) _ (hm b hb) _ (hm c hc),
      fun a ha b hb c hc => h3 _ (hm a ha) _ (hm b hb) _ (hm c hc)⟩
  refine ⟨?_, fun h => h hw, ?_⟩
  · obtain ⟨mid, hm⟩ := sort_exists hw
    exact ⟨_, mid, hm, rfl⟩
  · rintro r ⟨mid, ⟨_, hp, hs⟩, rfl⟩
    constructor
    · intro v
      simp only [List.mem_filter, ← hp.mem_iff, Bool.and_eq_true, Bool.not_eq_true']
      exact ⟨fun ⟨⟨h1, _⟩, h2, h3⟩ => ⟨h1, h2, h3⟩, fun ⟨h1, h2, h3⟩ => ⟨⟨h1, h2⟩, h2, h3⟩⟩
    · have hmn : (mid.map (·.name)).Nodup :=
        (hp.map (·.name)).nodup_iff.mp (hn.sublist (List.filter_sublist.map _))
      have hsm : (mid.map (·.name)).Pairwise fun a b => ¬ lt b a := List.pairwise_map.mpr hs
      exact (pairwise_of_sorted T hmn hsm).sublist (List.filter_sublist.map _)

example : declOrder (fun a b : Nat => a < b) [⟨2, true, false⟩, ⟨1, true, false⟩, ⟨0, true, true⟩]
    (.ok [⟨1, true, false⟩, ⟨2, true, false⟩]) :=
  ⟨[⟨0, true, true⟩, ⟨1, true, false⟩, ⟨2, true, false⟩],
    ⟨by simp [StrictWeak], by
      simp only [List.filter]
      exact (List.reverse_perm [(⟨0, true, true⟩ : Var Nat), ⟨1, true, false⟩, ⟨2, true, false⟩]),
      by simp⟩, rfl⟩

end header

section conns
variable {N : Type} [DecidableEq N] {lt : N → N → Prop}

/-- What is connected to what: a plain port to its text, the interface of an interface port to the
interface it is wired to. -/
def Entry.link (e : Entry N) : N × N := (e.iface.getD e.port, e.ext)

theorem connections_spec (l : List (Entry N)) : ∀ (seen r : List (N × N)),
    connections l seen = .ok r →
    (∀ p, p ∈ r ↔ (∃ e ∈ l, e.iface = none ∧ p = (e.port, e.ext)) ∨
      (∃ e ∈ l, ∃ i, e.iface = some i ∧ p = (i, e.ext) ∧ ∀ s ∈ seen, s.1 ≠ i)) ∧
    (∀ e ∈ l, ∀ i, e.iface = some i → ∀ s, seen.find? (fun s => s.1 = i) = some s →
      s.2 = e.ext) ∧
    (∀ e ∈ l, ∀ e' ∈ l, ∀ i, e.iface = some i → e'.iface = some i → e.ext = e'.ext) := by
  induction l with
  | nil => intro seen r h; cases h; simp
  | cons e l ih =>
    intro seen r h
    simp only [connections] at h
    split at h
    · rename_i hi
      simp only [Res.bind_eq_ok, Res.ok.injEq] at h
      obtain ⟨r', h1, rfl⟩ := h
      obtain ⟨a, b, c⟩ := ih seen r' h1
      refine ⟨?_, ?_, ?_⟩
      · intro p
        simp only [List.mem_cons, a]
        constructor
        · rintro (rfl | ⟨e', he', h⟩ | ⟨e', he', h⟩)
          · exact Or.inl ⟨e, Or.inl rfl, hi, rfl⟩
          · exact Or.inl ⟨e', Or.inr he', h⟩
          · exact Or.inr ⟨e', Or.inr he', h⟩
        · rintro (⟨e', rfl | he', h⟩ | ⟨e', rfl | he', i, hi', h⟩)
          · exact Or.inl h.2
          · exact Or.inr (Or.inl ⟨e', he', h⟩)
          · rw [hi] at hi'; cases hi'
          · exact Or.inr (Or.inr ⟨e', he', i, hi', h⟩)
      · intro e' he' i hi' s hs
        rcases List.mem_cons.mp he' with rfl | he'
        · rw [hi] at hi'; cases hi'
        · exact b e' he' i hi' s hs
      · intro e1 h1 e2 h2 i i1 i2
        rcases List.mem_cons.mp h1 with rfl | h1
        · rw [hi] at i1; cases i1
        · rcases List.mem_cons.mp h2 with rfl | h2
          · rw [hi] at i2; cases i2
          · exact c e1 h1 e2 h2 i i1 i2
    · rename_i i hi
      split at h
      · rename_i s hs
        split at h
        · cases h
        · rename_i hext
          have hext : s.2 = e.ext := by simpa using hext
          have hs1 : s.1 = i := by simpa using List.find?_some hs
          obtain ⟨a, b, c⟩ := ih seen r h
          refine ⟨?_, ?_, ?_⟩
          · intro p
            rw [a]
            constructor
            · rintro (⟨e', he', h⟩ | ⟨e', he', h⟩)
              · exact Or.inl ⟨e', List.mem_cons_of_mem _ he', h⟩
              · exact Or.inr ⟨e', List.mem_cons_of_mem _ he', h⟩
            · rintro (⟨e', he', h⟩ | ⟨e', he', i', hi', h1, h2⟩)
              · rcases List.mem_cons.mp he' with rfl | he'
                · rw [hi] at h; cases h.1
                · exact Or.inl ⟨e', he', h⟩
              · rcases List.mem_cons.mp he' with rfl | he'
                · rw [hi] at hi'; cases hi'
                  exact absurd hs1 (h2 s (List.mem_of_find?_eq_some hs))
                · exact Or.inr ⟨e', he', i', hi', h1, h2⟩
          · intro e' he' i' hi' s' hs'
            rcases List.mem_cons.mp he' with rfl | he'
            · rw [hi] at hi'; cases hi'
              rw [hs] at hs'; cases hs'
              exact hext
            · exact b e' he' i' hi' s' hs'
          · have hb : ∀ e' ∈ l, e'.iface = some i → e.ext = e'.ext := fun e' he' hi' =>
              hext.symm.trans (b e' he' i hi' s hs)
            intro e1 h1 e2 h2 i' i1 i2
            rcases List.mem_cons.mp h1 with rfl | h1 <;> rcases List.mem_cons.mp h2 with rfl | h2
            · rfl
            · rw [hi] at i1; cases i1; exact hb e2 h2 i2
            · rw [hi] at i2; cases i2; exact (hb e1 (by assumption) i1).symm
            · exact c e1 h1 e2 h2 i' i1 i2
      · rename_i hs
        simp only [Res.bind_eq_ok, Res.ok.injEq] at h
        obtain ⟨r', h1, rfl⟩ := h
        obtain ⟨a, b, c⟩ := ih _ r' h1
        have hnew : ∀ s ∈ seen, s.1 ≠ i := fun s hs' => by
          simpa using List.find?_eq_none.mp hs s hs'
        have hfind : (seen ++ [(i, e.ext)]).find? (fun s => s.1 = i) = some (i, e.ext) := by
          rw [List.find?_append, hs]; simp
        have hb : ∀ e' ∈ l, e'.iface = some i → e.ext = e'.ext := fun e' he' hi' =>
          b e' he' i hi' _ hfind
        refine ⟨?_, ?_, ?_⟩
        · intro p
          simp only [List.mem_cons, a]
          constructor
          · rintro (rfl | ⟨e', he', h⟩ | ⟨e', he', i', hi', h1, h2⟩)
            · exact Or.inr ⟨e, Or.inl rfl, i, hi, rfl, hnew⟩
            · exact Or.inl ⟨e', Or.inr he', h⟩
            · exact Or.inr ⟨e', Or.inr he', i', hi', h1,
                fun s hs' => h2 s (List.mem_append_left _ hs')⟩
          · rintro (⟨e', rfl | he', h⟩ | ⟨e', rfl | he', i', hi', hq, h2⟩)
            · rw [hi] at h; cases h.1
            · exact Or.inr (Or.inl ⟨e', he', h⟩)
            · rw [hi] at hi'; cases hi'; exact Or.inl hq
            · by_cases hii : i' = i
              · subst hii
                exact Or.inl (hq.trans (by rw [hb e' he' hi']))
              · refine Or.inr (Or.inr ⟨e', he', i', hi', hq, ?_⟩)
                intro s hs'
                rcases List.mem_append.mp hs' with hs' | hs'
                · exact h2 s hs'
                · simp only [List.mem_singleton] at hs'
                  subst hs'
                  exact fun e => hii e.symm
        · intro e' he' i' hi' s' hs'
          rcases List.mem_cons.mp he' with rfl | he'
          · rw [hi] at hi'; cases hi'
            rw [hs] at hs'; cases hs'
          · exact b e' he' i' hi' s' (by rw [List.find?_append, hs']; rfl)
        · intro e1 h1 e2 h2 i' i1 i2
          rcases List.mem_cons.mp h1 with rfl | h1 <;> rcases List.mem_cons.mp h2 with rfl | h2
          · rfl
          · rw [hi] at i1; cases i1; exact hb e2 h2 i2
          · rw [hi] at i2; cases i2; exact (hb e1 (by assumption) i1).symm
          · exact c e1 h1 e2 h2 i' i1 i2

theorem connections_throw (l : List (Entry N)) : ∀ (seen : List (N × N)),
    (∀ e ∈ l, ∀ i, e.iface = some i → ∀ s ∈ seen, s.1 = i → s.2 = e.ext) →
    (∀ e ∈ l, ∀ e' ∈ l, ∀ i, e.iface = some i → e'.iface = some i → e.ext = e'.ext) →
    ∃ r, connections l seen = .ok r := by
  induction l with
  | nil => intro seen _ _; exact ⟨[], rfl⟩
  | cons e l ih =>
    intro seen h1 h2
    have h2' : ∀ e ∈ l, ∀ e' ∈ l, ∀ i, e.iface = some i → e'.iface = some i → e.ext = e'.ext :=
      fun a ha b hb => h2 a (List.mem_cons_of_mem _ ha) b (List.mem_cons_of_mem _ hb)
    have h1' : ∀ e ∈ l, ∀ i, e.iface = some i → ∀ s ∈ seen, s.1 = i → s.2 = e.ext :=
      fun a ha => h1 a (List.mem_cons_of_mem _ ha)
    simp only [connections]
    split
    · obtain ⟨r, hr⟩ := ih seen h1' h2'
      exact ⟨_, by rw [hr]; rfl⟩
    · rename_i i hi
      split
      · rename_i s hs
        have hs1 : s.1 = i := by simpa using List.find?_some hs
        rw [if_neg (by simpa using h1 e (by simp) i hi s (List.mem_of_find?_eq_some hs) hs1)]
        exact ih seen h1' h2'
      · obtain ⟨r, hr⟩ := ih (seen ++ [(i, e.ext)]) (by
          intro a ha j hj s hs e1
          rcases List.mem_append.mp hs with hs | hs
          · exact h1' a ha j hj s hs e1
          · simp only [List.mem_singleton] at hs
            subst hs
            cases e1
            exact h2 e (by simp) a (List.mem_cons_of_mem _ ha) i hi hj) h2'
        exact ⟨_, by rw [hr]; rfl⟩

/-- C82: an emitted instance connects exactly what was mapped: each plain port to its text, and each
interface of the child to the one interface all its ports are wired to. -/
theorem conns_partial {m : List (Entry N)} {r : List (N × N)} (h : instanceConns lt m (.ok r)) :
    (∀ p, p ∈ r ↔ ∃ e ∈ m, p = e.link) ∧
    ∀ e ∈ m, ∀ e' ∈ m, ∀ i, e.iface = some i → e'.iface = some i → e.ext = e'.ext := by
  rcases h with ⟨_, h⟩ | ⟨mid, hm, ⟨_, h⟩ | ⟨fin, hf, h⟩⟩
  · cases h
  · cases h
  · have hp : ∀ e, e ∈ m ↔ e ∈ fin := fun e =>
      hm.2.1.mem_iff.trans hf.2.1.mem_iff
    obtain ⟨a, _, c⟩ := connections_spec fin [] r h.symm
    refine ⟨fun p => ?_, fun e he e' he' => c e ((hp e).mp he) e' ((hp e').mp he')⟩
    rw [a]
    constructor
    · rintro (⟨e, he, hi, rfl⟩ | ⟨e, he, i, hi, rfl, _⟩)
      · exact ⟨e, (hp e).mpr he, by simp [Entry.link, hi]⟩
      · exact ⟨e, (hp e).mpr he, by simp [Entry.link, hi]⟩
    · rintro ⟨e, he, rfl⟩
      cases hi : e.iface with
      | none => exact Or.inl ⟨e, (hp e).mp he, hi, by simp [Entry.link, hi]⟩
      | some i => exact Or.inr ⟨e, (hp e).mp he, i, hi, by simp [Entry.link, hi], by simp⟩

theorem connections_nodup (l : List (Entry N)) : ∀ (seen r : List (N × N)),
    connections l seen = .ok r → ((l.filter (·.iface.isNone)).map (·.port)).Nodup →
    (∀ e ∈ l, e.iface = none → ∀ e' ∈ l, e'.iface ≠ some e.port) → (r.map (·.1)).Nodup := by
  induction l with
  | nil => intro seen r h _ _; cases h; simp
  | cons e l ih =>
    intro seen r h hn hd
    have hd' : ∀ e ∈ l, e.iface = none → ∀ e' ∈ l, e'.iface ≠ some e.port :=
      fun a ha h b hb => hd a (List.mem_cons_of_mem _ ha) h b (List.mem_cons_of_mem _ hb)
    simp only [connections] at h
    split at h
    · rename_i hi
      simp only [Res.bind_eq_ok, Res.ok.injEq] at h
      obtain ⟨r', h1, rfl⟩ := h
      simp only [List.filter_cons, hi, Option.isNone_none, if_true, List.map_cons,
        List.nodup_cons] at hn ⊢
      refine ⟨?_, ih seen r' h1 hn.2 hd'⟩
      intro hm
      obtain ⟨p, hp, he⟩ := List.mem_map.mp hm
      rcases ((connections_spec l seen r' h1).1 p).mp hp with ⟨e', h', hi', rfl⟩ | ⟨e', h', i, hi', rfl, _⟩
      · exact hn.1 (List.mem_map.mpr ⟨e', List.mem_filter.mpr ⟨h', by simp [hi']⟩, he⟩)
      · have he : i = e.port := he
        exact hd e (by simp) hi e' (List.mem_cons_of_mem _ h') (he ▸ hi')
    · rename_i i hi
      have hn' : ((l.filter (·.iface.isNone)).map (·.port)).Nodup := by
        simpa [List.filter_cons, hi] using hn
      split at h
      · split at h
        · cases h
        · exact ih seen r h hn' hd'
      · simp only [Res.bind_eq_ok, Res.ok.injEq] at h
        obtain ⟨r', h1, rfl⟩ := h
        simp only [List.map_cons, List.nodup_cons]
        refine ⟨?_, ih _ r' h1 hn' hd'⟩
        intro hm
        obtain ⟨p, hp, he⟩ := List.mem_map.mp hm
        rcases ((connections_spec l _ r' h1).1 p).mp hp with ⟨e', h', hi', rfl⟩ | ⟨e', h', i', hi', rfl, hs⟩
        · have he : e'.port = i := he
          exact hd e' (List.mem_cons_of_mem _ h') hi' e (by simp) (he ▸ hi)
        · exact hs (i, e.ext) (by simp) he.symm

/-- C82: nothing is connected twice in an emitted instance, when the plain ports have distinct names
that no interface has. -/
theorem conns_once {m : List (Entry N)} {r : List (N × N)} (h : instanceConns lt m (.ok r))
    (hn : ((m.filter (·.iface.isNone)).map (·.port)).Nodup)
    (hd : ∀ e ∈ m, e.iface = none → ∀ e' ∈ m, e'.iface ≠ some e.port) : (r.map (·.1)).Nodup := by
  rcases h with ⟨_, h⟩ | ⟨mid, hm, ⟨_, h⟩ | ⟨fin, hf, h⟩⟩
  · cases h
  · cases h
  · have hp : m.Perm fin := hm.2.1.trans hf.2.1
    exact connections_nodup fin [] r h.symm (((hp.filter _).map _).nodup_iff.mp hn)
      fun e he hi e' he' => hd e (hp.mem_iff.mpr he) hi e' (hp.mem_iff.mpr he')

/-- The order of the entries is the order of their names. -/
theorem entries_weak (T : Total lt) (m : List (Entry N)) :
    StrictWeak (fun a b : Entry N => lt a.port b.port) m := by
  refine ⟨fun a _ => T.irrefl _, fun a _ b _ c _ => T.trans _ _ _, ?_⟩
  intro a _ b _ c _ h1 h2 h3 h4
  have e1 : a.port = b.port := (T.tri _ _).resolve_right fun h => h.elim h1 h2
  have e2 : b.port = c.port := (T.tri _ _).resolve_right fun h => h.elim h3 h4
  have e3 : a.port = c.port := e1.trans e2
  constructor
  · intro h
    have h : lt a.port c.port := h
    rw [e3] at h
    exact T.irrefl _ h
  · intro h
    have h : lt c.port a.port := h
    rw [e3] at h
    exact T.irrefl _ h

/-- C82: when the ports of the child have distinct names and none is bidirectional, the connections
do not depend on the order in which the mapping is stored, and are refused exactly when two ports of
one interface are wired to different interfaces. -/
theorem conns_reproducible_partial (T : Total lt) {m : List (Entry N)}
    (hn : (m.map (·.port)).Nodup) (hd : ∀ e ∈ m, e.dir ≠ .inout) :
    (∀ m', m.Perm m' → ∀ r r', instanceConns lt m r → instanceConns lt m' r' → r = r') ∧
    ((∃ r, instanceConns lt m (.ok r)) ↔
      ∀ e ∈ m, ∀ e' ∈ m, ∀ i, e.iface = some i → e'.iface = some i → e.ext = e'.ext) := by
  have hnd : ∀ m : List (Entry N), (m.map (·.port)).Nodup → m.Nodup := fun m h => by
    rw [List.nodup_iff_pairwise_ne, List.pairwise_map] at h
    exact h.imp fun hab e => hab (by rw [e])
  have sorted : ∀ mid : List (Entry N), (mid.map (·.port)).Nodup →
      (mid.Pairwise fun a b => ¬ lt b.port a.port) →
      mid.Pairwise fun a b : Entry N => lt a.port b.port := by
    intro mid h1 h2
    exact List.pairwise_map.mp (pairwise_of_sorted T h1 (List.pairwise_map.mpr h2))
  have key : ∀ m : List (Entry N), (m.map (·.port)).Nodup → (∀ e ∈ m, e.dir ≠ .inout) →
      ∀ o, instanceConns lt m o → ∃ fin, o = connections fin [] ∧
        InsThenOuts (fun a b : Entry N => lt a.port b.port) Entry.dir m fin := by
    intro m hn hd o ho
    rcases ho with ⟨h, _⟩ | ⟨mid, ⟨_, hp, hs⟩, h⟩
    · exact absurd (entries_weak T m) h
    · have hmn : (mid.map (·.port)).Nodup := (hp.map _).nodup_iff.mp hn
      have hmd : ∀ a ∈ mid, a.dir ≠ .inout := fun a ha => hd a (hp.mem_iff.mpr ha)
      rcases h with ⟨h, _⟩ | ⟨fin, hf, rfl⟩
      · exact absurd (weak_before hmd) h
      · obtain ⟨i, o, e, p, h⟩ := stable_before (sorted mid hmn hs) hmd (hnd mid hmn) hf
        exact ⟨fin, rfl, i, o, e, hp.trans p, h⟩
  refine ⟨?_, ?_, ?_⟩
  · intro m' hp r r' h h'
    obtain ⟨fin, rfl, h1⟩ := key m hn hd r h
    obtain ⟨fin', rfl, h2⟩ := key m' ((hp.map _).nodup_iff.mp hn)
      (fun e he => hd e (hp.mem_iff.mpr he)) r' h'
    rw [insThenOuts_unique (lt := fun a b : Entry N => lt a.port b.port) (fun a => T.irrefl _)
      (fun a b c => T.trans _ _ _) hp h1 h2]
  · rintro ⟨r, hr⟩
    exact (conns_partial hr).2
  · intro h
    obtain ⟨mid, hm⟩ := sort_exists (entries_weak T m)
    have hp := hm.2.1
    have hmn : (mid.map (·.port)).Nodup := (hp.map _).nodup_iff.mp hn
    have hmd : ∀ a ∈ mid, a.dir ≠ .inout := fun a ha => hd a (hp.mem_iff.mpr ha)
    obtain ⟨fin, hf⟩ := stable_exists hmd
    have hpf : ∀ e, e ∈ fin → e ∈ m := fun e he => hp.mem_iff.mpr (hf.2.1.mem_iff.mpr he)
    obtain ⟨r, hr⟩ := connections_throw fin [] (by simp)
      fun e he e' he' => h e (hpf e he) e' (hpf e' he')
    exact ⟨r, Or.inr ⟨mid, hm, Or.inr ⟨fin, hf, hr.symm⟩⟩⟩

end conns

/-- A plain input, and an interface with two ports, wired to one interface of the parent. -/
example : ∃ r, instanceConns (fun a b : Nat => a < b)
    [⟨3, .out, some 10, 20⟩, ⟨1, .inp, none, 7⟩, ⟨2, .inp, some 10, 20⟩] (.ok r) ∧
    (r.map (·.1)).Nodup ∧ (1, 7) ∈ r ∧ (10, 20) ∈ r := by
  obtain ⟨r, h⟩ := (conns_reproducible_partial natTotal (m :=
    [⟨3, .out, some 10, 20⟩, ⟨1, .inp, none, 7⟩, ⟨2, .inp, some 10, 20⟩]) (by decide)
    (by simp)).2.mpr (by simp)
  refine ⟨r, h, conns_once h (by decide) (by simp), ?_, ?_⟩
  · exact ((conns_partial h).1 _).mpr ⟨⟨1, .inp, none, 7⟩, by simp, rfl⟩
  · exact ((conns_partial h).1 _).mpr ⟨⟨2, .inp, some 10, 20⟩, by simp, rfl⟩

/-- C82: two interfaces of the child with a port of the same name: the order of their connections
depends on the order in which the mapping (a map keyed by addresses) is stored. -/
theorem same_names_wrong :
    let a : Entry Nat := ⟨0, .inp, some 10, 20⟩
    let b : Entry Nat := ⟨0, .inp, some 11, 21⟩
    instanceConns (fun a b : Nat => a < b) [a, b] (.ok [(10, 20), (11, 21)]) ∧
    instanceConns (fun a b : Nat => a < b) [b, a] (.ok [(11, 21), (10, 20)]) := by
  intro a b
  constructor
  · refine Or.inr ⟨[a, b], ⟨entries_weak natTotal _, List.Perm.refl _, by simp [a, b]⟩,
      Or.inr ⟨[a, b], ⟨weak_before (by simp [a, b]), List.Perm.refl _, by simp [a, b, before], ?_⟩,
        rfl⟩⟩
    intro _ _ h _; exact h
  · refine Or.inr ⟨[b, a], ⟨entries_weak natTotal _, List.Perm.refl _, by simp [a, b]⟩,
      Or.inr ⟨[b, a], ⟨weak_before (by simp [a, b]), List.Perm.refl _, by simp [a, b, before], ?_⟩,
        rfl⟩⟩
    intro _ _ h _; exact h

theorem not_ReproducibleClaim : ¬ ReproducibleClaim := by
  intro h
  have := h Nat _ natTotal _ _ (List.Perm.swap _ _ _) _ _ same_names_wrong.2 same_names_wrong.1
  cases this

end Kratos.Lists
