import Verif.Graph.Structs

/-! C46: struct definitions are emitted before their uses.  C67: one name, one definition. -/

namespace Kratos.Graph

open Gen (Name)

/-! ## Specification -/

/-- `x` is one of the definitions or nested in one, at any depth. -/
inductive Inside (roots : List PS) : PS → Prop
  | root {p} : p ∈ roots → Inside roots p
  | sub {p q} : Inside roots p → q ∈ p.subs → Inside roots q

/-- A definition named `a` has a field whose type is named `b`. -/
def Uses (roots : List PS) (a b : Name) : Prop :=
  ∃ p q, Inside roots p ∧ q ∈ p.subs ∧ p.name = a ∧ q.name = b

/-- `a` needs `b`, directly or through others. -/
inductive Needs (roots : List PS) : Name → Name → Prop
  | one {a b} : Uses roots a b → Needs roots a b
  | more {a b c} : Needs roots a b → Uses roots b c → Needs roots a c

theorem Needs.cons {roots : List PS} {a b c : Name} (h : Uses roots a b) (n : Needs roots b c) :
    Needs roots a c := by
  induction n with
  | one h2 => exact .more (.one h) h2
  | more _ h2 ih => exact .more ih h2

/-! ## The graph -/

theorem inside_mono {r r' : List PS} {x : PS} (h : ∀ p ∈ r, Inside r' p) (hx : Inside r x) :
    Inside r' x := by
  induction hx with
  | root hp => exact h _ hp
  | sub _ hq ih => exact .sub ih hq

structure GInv (roots : List PS) (g : SG) : Prop where
  keys : g.nodes.keys.Nodup
  val : ∀ n p, g.nodes.find n = some p → p.name = n ∧ Inside roots p
  edge : ∀ e ∈ g.edges, Uses roots e.2 e.1
  ends : ∀ e ∈ g.edges, g.nodes.has e.1 = true ∧ g.nodes.has e.2 = true

/-- Growth: names stay, edges stay. -/
structure Grew (g g' : SG) : Prop where
  nodes : ∀ n, g.nodes.has n = true → g'.nodes.has n = true
  edges : ∀ e ∈ g.edges, e ∈ g'.edges

theorem Grew.trans {a b c : SG} (h1 : Grew a b) (h2 : Grew b c) : Grew a c :=
  ⟨fun n h => h2.nodes n (h1.nodes n h), fun e h => h2.edges e (h1.edges e h)⟩

theorem Grew.refl (a : SG) : Grew a a := ⟨fun _ h => h, fun _ h => h⟩

theorem has_emplace {m : Map Name PS} {n k : Name} {p : PS} :
    (m.emplace n p).has k = true ↔ m.has k = true ∨ k = n := by
  simp only [Map.has, Map.find_emplace]
  by_cases e : k = n <;> simp [e]

theorem getNode_inv {roots : List PS} {g : SG} {p : PS} (hp : Inside roots p) (h : GInv roots g) :
    GInv roots (getNode p g) ∧ Grew g (getNode p g) ∧ (getNode p g).nodes.has p.name = true := by
  refine ⟨⟨Map.nodup_emplace h.keys _ _, ?_, h.edge, ?_⟩, ⟨?_, fun e he => he⟩, ?_⟩
  · intro n q hq
    simp only [getNode, Map.find_emplace] at hq
    by_cases e : n = p.name
    · rw [if_pos e] at hq
      cases hf : g.nodes.find p.name with
      | some v =>
        rw [hf] at hq; simp at hq; subst hq
        have := h.val _ v hf
        exact ⟨this.1.trans e.symm, this.2⟩
      | none => rw [hf] at hq; simp at hq; subst hq; exact ⟨e.symm, hp⟩
    · rw [if_neg e] at hq; exact h.val n q hq
  · intro e he
    exact ⟨has_emplace.2 (Or.inl (h.ends e he).1), has_emplace.2 (Or.inl (h.ends e he).2)⟩
  · intro n hn; exact has_emplace.2 (Or.inl hn)
  · exact has_emplace.2 (Or.inr rfl)

theorem link_inv {roots : List PS} {g : SG} {s : Option PS} {p : PS} (hp : Inside roots p)
    (hs : ∀ x, s = some x → Inside roots x ∧ p ∈ x.subs) (h : GInv roots g) :
    GInv roots (link s p g) ∧ Grew g (link s p g) ∧ (link s p g).nodes.has p.name = true ∧
      (∀ x, s = some x → (p.name, x.name) ∈ (link s p g).edges) := by
  obtain ⟨h1, h2, h3⟩ := getNode_inv hp h
  cases s with
  | none => exact ⟨h1, h2, h3, by simp⟩
  | some x =>
    obtain ⟨hx, hpx⟩ := hs x rfl
    obtain ⟨k1, k2, k3⟩ := getNode_inv hx h1
    refine ⟨⟨k1.keys, k1.val, ?_, ?_⟩, ⟨fun n hn => k2.nodes n (h2.nodes n hn), ?_⟩, k2.nodes _ h3, ?_⟩
    · intro e he
      rcases List.mem_append.1 he with he | he
      · exact k1.edge e he
      · simp at he; subst he; exact ⟨x, p, hx, hpx, rfl, rfl⟩
    · intro e he
      rcases List.mem_append.1 he with he | he
      · exact k1.ends e he
      · simp at he; subst he; exact ⟨k2.nodes _ h3, k3⟩
    · intro e he; exact List.mem_append.2 (Or.inl (k2.edges e (h2.edges e he)))
    · intro y hy; simp at hy; subst hy; simp [link]

/-- `x`'s node exists and it is a child of the nodes of all types its fields use. -/
def Done (g : SG) (x : PS) : Prop :=
  g.nodes.has x.name = true ∧ ∀ q ∈ x.subs, (q.name, x.name) ∈ g.edges

theorem Done.grew {g g' : SG} {x : PS} (h : Done g x) (w : Grew g g') : Done g' x :=
  ⟨w.nodes _ h.1, fun q hq => w.edges _ (h.2 q hq)⟩

mutual
theorem addStruct_inv {roots : List PS} : ∀ (p : PS) (s : Option PS) (g : SG), Inside roots p →
    (∀ x, s = some x → Inside roots x ∧ p ∈ x.subs) → GInv roots g →
    GInv roots (addStruct s p g) ∧ Grew g (addStruct s p g) ∧
      (∀ x, s = some x → (p.name, x.name) ∈ (addStruct s p g).edges) ∧
      ∀ x, Inside [p] x → Done (addStruct s p g) x
  | .mk n fs, s, g, hp, hs, h => by
    obtain ⟨l1, l2, l3, l4⟩ := link_inv hp hs h
    obtain ⟨k1, k2, k3, k4⟩ := addSubs_inv (.mk n fs) fs _ hp (fun q hq => hq) l1
    rw [addStruct]
    refine ⟨k1, l2.trans k2, fun x hx => k2.edges _ (l4 x hx), ?_⟩
    intro x hx
    have key : ∀ x, Inside [PS.mk n fs] x → x = .mk n fs ∨ ∃ q ∈ fs.subs, Inside [q] x := by
      intro x hx
      induction hx with
      | root hp => simp at hp; exact Or.inl hp
      | sub _ hq ih =>
        rename_i a b _
        rcases ih with rfl | ⟨q, hq', hi⟩
        · exact Or.inr ⟨b, hq, .root (by simp)⟩
        · exact Or.inr ⟨q, hq', .sub hi hq⟩
    rcases key x hx with rfl | ⟨q, hq, hi⟩
    · exact ⟨k2.nodes _ l3, k3⟩
    · exact k4 q hq x hi
theorem addSubs_inv {roots : List PS} (p : PS) : ∀ (fs : Flds) (g : SG), Inside roots p →
    (∀ q ∈ fs.subs, q ∈ p.subs) → GInv roots g →
    GInv roots (addSubs p fs g) ∧ Grew g (addSubs p fs g) ∧
      (∀ q ∈ fs.subs, (q.name, p.name) ∈ (addSubs p fs g).edges) ∧
      ∀ q ∈ fs.subs, ∀ x, Inside [q] x → Done (addSubs p fs g) x
  | .nil, g, _, _, h => by
    rw [addSubs]
    exact ⟨h, .refl _, by simp [Flds.subs], by simp [Flds.subs]⟩
  | .leaf _ _ _ r, g, hp, hq, h => by
    rw [addSubs]
    exact addSubs_inv p r g hp hq h
  | .sub _ q r, g, hp, hq, h => by
    rw [addSubs]
    have hqp : q ∈ p.subs := hq q (by simp [Flds.subs])
    obtain ⟨k1, k2, k3, k4⟩ := addStruct_inv q (some p) g (.sub hp hqp)
      (by intro x hx; simp at hx; subst hx; exact ⟨hp, hqp⟩) h
    obtain ⟨j1, j2, j3, j4⟩ := addSubs_inv p r (addStruct (some p) q g) hp
      (fun x hx => hq x (by simp [Flds.subs, hx])) k1
    refine ⟨j1, k2.trans j2, ?_, ?_⟩
    · intro x hx
      simp only [Flds.subs, List.mem_cons] at hx
      rcases hx with rfl | hx
      · exact j2.edges _ (k3 p rfl)
      · exact j3 x hx
    · intro x hx y hy
      simp only [Flds.subs, List.mem_cons] at hx
      rcases hx with rfl | hx
      · exact (k4 y hy).grew j2
      · exact j4 x hx y hy
end

theorem structGraph_inv (roots : List PS) : ∀ (ps : List PS) (g : SG), (∀ p ∈ ps, Inside roots p) →
    GInv roots g → (GInv roots (ps.foldl (fun g p => addStruct none p g) g) ∧
      Grew g (ps.foldl (fun g p => addStruct none p g) g) ∧
      ∀ x, Inside ps x → Done (ps.foldl (fun g p => addStruct none p g) g) x)
  | [], g, _, h => by
    refine ⟨h, .refl _, ?_⟩
    intro x hx
    exfalso
    induction hx with
    | root h => simp at h
    | sub _ _ ih => exact ih
  | p :: ps, g, hp, h => by
    obtain ⟨k1, k2, _, k4⟩ := addStruct_inv p none g (hp p (.head _)) (by simp) h
    obtain ⟨j1, j2, j3⟩ := structGraph_inv roots ps (addStruct none p g)
      (fun x hx => hp x (.tail _ hx)) k1
    refine ⟨j1, k2.trans j2, ?_⟩
    intro x hx
    have : Inside [p] x ∨ Inside ps x := by
      clear k4 j3
      induction hx with
      | root h =>
        rcases List.mem_cons.1 h with rfl | h
        · exact Or.inl (.root (by simp))
        · exact Or.inr (.root h)
      | sub _ hq ih =>
        rcases ih with h | h
        · exact Or.inl (.sub h hq)
        · exact Or.inr (.sub h hq)
    rcases this with h | h
    · exact (k4 x h).grew j2
    · exact j3 x h

theorem tail_unique {α : Type} {a b c d : List α} {x : α} (hn : (a ++ x :: b).Nodup)
    (e : a ++ x :: b = c ++ x :: d) : b = d := by
  induction a generalizing c with
  | nil =>
    cases c with
    | nil => simpa using e
    | cons y c =>
      simp at e
      obtain ⟨rfl, rfl⟩ := e
      simp at hn
  | cons z a ih =>
    cases c with
    | nil =>
      simp at e
      obtain ⟨rfl, e⟩ := e
      simp at hn
    | cons y c =>
      simp at e
      obtain ⟨rfl, e⟩ := e
      simp at hn
      exact ih (by simpa using hn.2) e

theorem mem_succ {g : SG} {a b : Name} : b ∈ g.succ a ↔ (a, b) ∈ g.edges := by
  simp only [SG.succ, List.mem_map, List.mem_filter, decide_eq_true_eq]
  constructor
  · rintro ⟨⟨x, y⟩, ⟨h, rfl⟩, rfl⟩; exact h
  · intro h; exact ⟨(a, b), ⟨h, rfl⟩, rfl⟩

/-- C46.  Let `ps` be the collected definitions and suppose no type needs itself.  Whatever the
iteration order of the node table (`nodes`) and of the children sets (`cord`), the order is found, it
has exactly one definition per struct name in use (nested ones included), each of them a definition
of the design, and every type a definition uses is defined before it. -/
theorem struct_order (ps : List PS) (hac : ∀ n, ¬ Needs ps n n) (nodes : List Name)
    (hn : nodes.Perm (structGraph ps).nodes.keys) (cord : Name → List Name)
    (hc : ∀ n x, x ∈ cord n ↔ x ∈ (structGraph ps).succ n) (fuel : Nat) (hf : nodes.length ≤ fuel) :
    ∃ out, getStructs (structGraph ps) nodes cord fuel = .ok out ∧
      (out.map PS.name).Nodup ∧
      (∀ p ∈ out, Inside ps p) ∧
      (∀ x, Inside ps x → x.name ∈ out.map PS.name) ∧
      ∀ before p after, out = before ++ p :: after → ∀ q ∈ p.subs, q.name ∈ before.map PS.name := by
  obtain ⟨i1, _, i3⟩ := structGraph_inv ps ps ⟨[], []⟩ (fun p hp => .root hp)
    ⟨by simp [Map.keys], by simp [Map.find], by simp, by simp⟩
  have hg : ps.foldl (fun g p => addStruct none p g) ⟨[], []⟩ = structGraph ps := rfl
  rw [hg] at i1 i3
  generalize structGraph ps = g at *
  have hne : ∀ a b, Path cord a b → Needs ps b a := by
    intro a b h
    induction h with
    | one h => exact .one (i1.edge _ (mem_succ.1 ((hc _ _).1 h)))
    | more _ h ih => exact .cons (i1.edge _ (mem_succ.1 ((hc _ _).1 h))) ih
  obtain ⟨l, h1, h2, h3⟩ := topSort_spec cord nodes (hn.nodup_iff.2 i1.keys)
    (by
      intro a ha b hb
      have := i1.ends _ (mem_succ.1 ((hc _ _).1 hb))
      exact hn.mem_iff.2 (Map.has_iff.1 this.2))
    (fun a _ h => hac a (hne a a h)) fuel hf
  have hl : l.Perm g.nodes.keys := h2.trans hn
  have hfind : ∀ n ∈ l, ∃ p, g.nodes.find n = some p := by
    intro n hm
    have := Map.has_iff.2 (hl.mem_iff.1 hm)
    simpa [Map.has, Option.isSome_iff_exists] using this
  have hmapname : ∀ l' : List Name, (∀ n ∈ l', n ∈ l) → (l'.filterMap g.nodes.find).map PS.name = l' := by
    intro l'
    induction l' with
    | nil => intro _; rfl
    | cons n l' ih =>
      intro hs
      obtain ⟨p, hp⟩ := hfind n (hs n (.head _))
      simp [List.filterMap_cons, hp, (i1.val n p hp).1, ih (fun x hx => hs x (.tail _ hx))]
  have hrev : (l.reverse.filterMap g.nodes.find).map PS.name = l.reverse :=
    hmapname l.reverse (by simp)
  refine ⟨l.reverse.filterMap g.nodes.find, by rw [getStructs, h1]; rfl, ?_, ?_, ?_, ?_⟩
  · rw [hrev]; exact (List.reverse_perm l).nodup_iff.2 (hl.nodup_iff.2 i1.keys)
  · intro p hp
    obtain ⟨n, _, hp⟩ := List.mem_filterMap.1 hp
    exact (i1.val n p hp).2
  · intro x hx
    rw [hrev]
    simpa using hl.mem_iff.2 (Map.has_iff.1 (i3 x hx).1)
  · intro before p after e q hq
    have hpin : p ∈ l.reverse.filterMap g.nodes.find := by rw [e]; simp
    obtain ⟨n, hnl, hp⟩ := List.mem_filterMap.1 hpin
    have hpI := (i1.val n p hp).2
    have hedge := (i3 p hpI).2 q hq
    -- names: l.reverse = before' ++ p.name :: after'
    have hm : l.reverse = before.map PS.name ++ p.name :: after.map PS.name := by
      rw [← hrev, e]; simp
    have hl2 : l = (after.map PS.name).reverse ++ p.name :: (before.map PS.name).reverse := by
      have := congrArg List.reverse hm
      simpa using this
    -- q.name is in l, and p.name is a successor of q.name, so p.name comes before q.name
    have hql : q.name ∈ l := hl.mem_iff.2 (Map.has_iff.1 (i1.ends _ hedge).1)
    obtain ⟨x, y, exy⟩ := List.append_of_mem hql
    have hpx : p.name ∈ x := h3 x q.name y exy _ ((hc _ _).2 (mem_succ.2 hedge))
    obtain ⟨x1, x2, ex⟩ := List.append_of_mem hpx
    have hnd : l.Nodup := hl.nodup_iff.2 i1.keys
    have e2 : (after.map PS.name).reverse ++ p.name :: (before.map PS.name).reverse
        = x1 ++ p.name :: (x2 ++ q.name :: y) := by
      rw [← hl2, exy, ex]; simp
    have : (before.map PS.name).reverse = x2 ++ q.name :: y := by
      have hnd' := hnd
      rw [hl2] at hnd'
      exact tail_unique hnd' e2
    have hq' : q.name ∈ (before.map PS.name).reverse := by rw [this]; simp
    simpa using hq'

/-! ## Collection -/

structure Coll (defs : List PS) (m : Map Name PS) : Prop where
  keys : m.keys.Nodup
  val : ∀ n p, m.find n = some p → p.name = n ∧ Inside defs p

/-- Entries stay, and `p`'s name is there with a definition that compares equal. -/
def Kept (m m' : Map Name PS) : Prop := ∀ n p, m.find n = some p → m'.find n = some p

mutual
theorem same_refl : ∀ p : PS, p.same p = true
  | .mk _ fs => by rw [PS.same]; exact same_refl_f fs
theorem same_refl_f : ∀ f : Flds, f.same f = true
  | .nil => rfl
  | .leaf _ _ _ r => by simp [Flds.same, same_refl_f r]
  | .sub _ p r => by simp [Flds.same, same_refl p, same_refl_f r]
end

mutual
theorem process_spec {defs : List PS} : ∀ (p : PS) (m m' : Map Name PS), Inside defs p → Coll defs m →
    process p m = .ok m' →
    Coll defs m' ∧ Kept m m' ∧ (∃ q, m'.find p.name = some q ∧ p.same q = true) ∧
      (∀ n q, m'.find n = some q → m.find n = none → ∀ x ∈ q.subs, m'.has x.name = true)
  | .mk n fs, m, m', hp, hc, h => by
    rw [process] at h
    cases hf : m.find n with
    | some q =>
      rw [hf] at h
      simp only at h
      split at h
      · rename_i hs
        simp only [Res.ok.injEq] at h
        subst h
        refine ⟨hc, fun _ _ h => h, ⟨q, hf, hs⟩, ?_⟩
        intro k q h1 h2; rw [h2] at h1; cases h1
      · cases h
    | none =>
      rw [hf] at h
      simp only at h
      have hc1 : Coll defs (m.emplace n (.mk n fs)) := by
        refine ⟨Map.nodup_emplace hc.keys _ _, ?_⟩
        intro k q hq
        rw [Map.find_emplace] at hq
        by_cases e : k = n
        · rw [if_pos e, hf] at hq; simp at hq; subst hq; exact ⟨e.symm, hp⟩
        · rw [if_neg e] at hq; exact hc.val k q hq
      have hk1 : Kept m (m.emplace n (.mk n fs)) := by
        intro k q hq
        rw [Map.find_emplace]
        have e : k ≠ n := by intro e; rw [e, hf] at hq; cases hq
        rw [if_neg e]; exact hq
      have hn : (m.emplace n (.mk n fs)).find n = some (.mk n fs) := by
        rw [Map.find_emplace, if_pos rfl, hf]; rfl
      obtain ⟨k1, k2, k3, k4⟩ := processSubs_spec fs _ m' (fun q hq => .sub hp hq) hc1 h
      refine ⟨k1, fun k q hq => k2 k q (hk1 k q hq), ⟨.mk n fs, k2 _ _ hn, same_refl _⟩, ?_⟩
      intro k q h1 h2 x hx
      by_cases e : k = n
      · subst e
        have := k2 _ _ hn
        rw [this] at h1
        simp at h1
        subst h1
        exact k3 x hx
      · refine k4 k q h1 ?_ x hx
        rw [Map.find_emplace, if_neg e]; exact h2
theorem processSubs_spec {defs : List PS} : ∀ (fs : Flds) (m m' : Map Name PS),
    (∀ q ∈ fs.subs, Inside defs q) → Coll defs m → processSubs fs m = .ok m' →
    Coll defs m' ∧ Kept m m' ∧ (∀ x ∈ fs.subs, m'.has x.name = true) ∧
      (∀ n q, m'.find n = some q → m.find n = none → ∀ x ∈ q.subs, m'.has x.name = true)
  | .nil, m, m', _, hc, h => by
    simp only [processSubs, Res.ok.injEq] at h
    subst h
    refine ⟨hc, fun _ _ h => h, by simp [Flds.subs], ?_⟩
    intro k q h1 h2; rw [h2] at h1; cases h1
  | .leaf _ _ _ r, m, m', hq, hc, h => by
    rw [processSubs] at h
    exact processSubs_spec r m m' hq hc h
  | .sub _ p r, m, m', hq, hc, h => by
    simp only [processSubs, Res.bind_eq_ok] at h
    obtain ⟨t, ht, h⟩ := h
    obtain ⟨a1, a2, ⟨pq, a3, _⟩, a4⟩ := process_spec p m t (hq p (by simp [Flds.subs])) hc ht
    obtain ⟨b1, b2, b3, b4⟩ := processSubs_spec r t m' (fun x hx => hq x (by simp [Flds.subs, hx])) a1 h
    have hhas : ∀ k, t.has k = true → m'.has k = true := by
      intro k hk
      simp only [Map.has, Option.isSome_iff_exists] at hk ⊢
      obtain ⟨v, hv⟩ := hk
      exact ⟨v, b2 _ _ hv⟩
    refine ⟨b1, fun k q hk => b2 k q (a2 k q hk), ?_, ?_⟩
    · intro x hx
      simp only [Flds.subs, List.mem_cons] at hx
      rcases hx with rfl | hx
      · exact hhas _ (by simp [Map.has, a3])
      · exact b3 x hx
    · intro k q h1 h2 x hx
      cases hk : t.find k with
      | none => exact b4 k q h1 hk x hx
      | some v =>
        have := b2 _ _ hk
        rw [this] at h1
        simp at h1
        subst h1
        exact hhas _ (a4 k v hk h2 x hx)
end

/-- The collected table: every struct of the design is registered under its name with a definition
that compares `same`; every type used by a registered definition is registered. -/
theorem collect_spec (defs : List PS) (m : Map Name PS) (h : collect defs = .ok m) :
    m.keys.Nodup ∧ (∀ n p, m.find n = some p → p.name = n ∧ Inside defs p) ∧
    (∀ d ∈ defs, ∃ p, m.find d.name = some p ∧ d.same p = true) ∧
    (∀ n p, m.find n = some p → ∀ x ∈ p.subs, m.has x.name = true) := by
  have key : ∀ (ds : List PS) (m m' : Map Name PS), (∀ d ∈ ds, Inside defs d) → Coll defs m →
      (∀ n p, m.find n = some p → ∀ x ∈ p.subs, m.has x.name = true) → each process ds m = .ok m' →
      Coll defs m' ∧ Kept m m' ∧ (∀ d ∈ ds, ∃ p, m'.find d.name = some p ∧ d.same p = true) ∧
      (∀ n p, m'.find n = some p → ∀ x ∈ p.subs, m'.has x.name = true) := by
    intro ds
    induction ds with
    | nil =>
      intro m m' _ hc hcl h
      simp only [each, Res.ok.injEq] at h
      subst h
      exact ⟨hc, fun _ _ h => h, by simp, hcl⟩
    | cons d ds ih =>
      intro m m' hd hc hcl h
      simp only [each, Res.bind_eq_ok] at h
      obtain ⟨t, ht, h⟩ := h
      obtain ⟨a1, a2, ⟨pq, a3, a3'⟩, a4⟩ := process_spec d m t (hd d (.head _)) hc ht
      have hclt : ∀ n p, t.find n = some p → ∀ x ∈ p.subs, t.has x.name = true := by
        intro n p hp x hx
        cases hk : m.find n with
        | none => exact a4 n p hp hk x hx
        | some v =>
          have := a2 _ _ hk
          rw [this] at hp
          simp at hp
          subst hp
          have := hcl n v hk x hx
          simp only [Map.has, Option.isSome_iff_exists] at this ⊢
          obtain ⟨w, hw⟩ := this
          exact ⟨w, a2 _ _ hw⟩
      obtain ⟨b1, b2, b3, b4⟩ := ih t m' (fun x hx => hd x (.tail _ hx)) a1 hclt h
      refine ⟨b1, fun k q hk => b2 k q (a2 k q hk), ?_, b4⟩
      intro x hx
      rcases List.mem_cons.1 hx with rfl | hx
      · exact ⟨pq, b2 _ _ a3, a3'⟩
      · exact b3 x hx
  obtain ⟨a, _, c, d⟩ := key defs [] m (fun d hd => .root hd) ⟨by simp [Map.keys], by simp [Map.find]⟩
    (by simp [Map.find]) h
  exact ⟨a.keys, a.val, c, d⟩

/-- Collection and ordering together: for the struct variables `defs` of a design, if collection
accepts them and no type needs itself, then in the emitted list the struct type of every variable is
defined, exactly once, after all types its fields use. -/
theorem emitted_in_order (defs : List PS) (m : Map Name PS) (h : collect defs = .ok m)
    (hac : ∀ n, ¬ Needs defs n n) (nodes : List Name)
    (hn : nodes.Perm (structGraph (m.map (·.2))).nodes.keys) (cord : Name → List Name)
    (hc : ∀ n x, x ∈ cord n ↔ x ∈ (structGraph (m.map (·.2))).succ n) (fuel : Nat)
    (hf : nodes.length ≤ fuel) :
    ∃ out, getStructs (structGraph (m.map (·.2))) nodes cord fuel = .ok out ∧
      (out.map PS.name).Nodup ∧ (∀ d ∈ defs, d.name ∈ out.map PS.name) ∧
      ∀ before p after, out = before ++ p :: after → ∀ q ∈ p.subs, q.name ∈ before.map PS.name := by
  obtain ⟨c1, c2, c3, c4⟩ := collect_spec defs m h
  have hin : ∀ x, Inside (m.map (·.2)) x → Inside defs x := by
    intro x hx
    refine inside_mono ?_ hx
    intro p hp
    obtain ⟨⟨k, v⟩, he, rfl⟩ := List.mem_map.1 hp
    exact (c2 k v (Map.find_of_mem c1 he)).2
  have hneeds : ∀ a b, Needs (m.map (·.2)) a b → Needs defs a b := by
    intro a b hab
    have hu : ∀ a b, Uses (m.map (·.2)) a b → Uses defs a b := by
      rintro a b ⟨p, q, hp, hq, rfl, rfl⟩
      exact ⟨p, q, hin p hp, hq, rfl, rfl⟩
    induction hab with
    | one h => exact .one (hu _ _ h)
    | more _ h ih => exact .more ih (hu _ _ h)
  obtain ⟨out, o1, o2, o3, o4, o5⟩ := struct_order (m.map (·.2)) (fun n hh => hac n (hneeds n n hh))
    nodes hn cord hc fuel hf
  refine ⟨out, o1, o2, ?_, o5⟩
  intro d hd
  obtain ⟨p, hp, _⟩ := c3 d hd
  have hm := Map.mem_of_find hp
  have := o4 p (.root (List.mem_map.2 ⟨_, hm, rfl⟩))
  rwa [(c2 _ _ hp).1] at this

/-! ## C67: one name, one definition -/

/-- The full claim: when a design is accepted, the emitted definition of a struct name has the same
field lines as every struct of that name in the design. -/
def OneMeaningClaim : Prop :=
  ∀ defs m, collect defs = .ok m → ∀ d ∈ defs, ∃ p, m.find d.name = some p ∧ p.fields.decls = d.fields.decls

def nS : Name := ['S']
def nT : Name := ['T']
def nF : Name := ['f']
def nH : Name := ['h']
def nX : Name := ['x']

/-- `struct S { T f; }` and `struct S { T h; }` in one design are accepted as the same type. -/
def s1 : PS := .mk nS (.sub nF (.mk nT (.leaf nX 1 false .nil)) .nil)
def s2 : PS := .mk nS (.sub nH (.mk nT (.leaf nX 1 false .nil)) .nil)

theorem conflicting_structs_accepted :
    (∃ m, collect [s1, s2] = .ok m ∧ m.find nS = some s1) ∧ s2.name = nS ∧
    s1.fields.decls = [.named nT nF] ∧ s2.fields.decls = [.named nT nH] := by
  refine ⟨⟨[(nS, s1), (nT, .mk nT (.leaf nX 1 false .nil))], ?_, ?_⟩, rfl, rfl, rfl⟩
  · have hs : (PS.mk nS (.sub nH (.mk nT (.leaf nX 1 false .nil)) .nil)).same s1 = true := by
      rw [s1, PS.same, Flds.same, PS.same, Flds.same, Flds.same, Flds.same]; decide
    have h1 : process s1 [] = .ok [(nS, s1), (nT, .mk nT (.leaf nX 1 false .nil))] := by
      simp [s1, process, processSubs, Map.find, Map.emplace, Map.has, nS, nT]
    have h2 : process s2 [(nS, s1), (nT, .mk nT (.leaf nX 1 false .nil))] =
        .ok [(nS, s1), (nT, .mk nT (.leaf nX 1 false .nil))] := by
      rw [s2, process]
      simp only [Map.find, if_true, hs]
    rw [collect, each, h1, Res.ok_bind, each, h2, Res.ok_bind, each]
  · simp [Map.find]

theorem not_OneMeaningClaim : ¬ OneMeaningClaim := by
  intro h
  obtain ⟨⟨m, hm, hf⟩, _, _, _⟩ := conflicting_structs_accepted
  obtain ⟨p, hp, he⟩ := h [s1, s2] m hm s2 (by simp)
  have : s2.name = nS := rfl
  rw [this, hf] at hp
  simp at hp
  subst hp
  revert he
  simp [s1, s2, PS.fields, Flds.decls, nF, nH]

/-- A field list without nested structs. -/
def Flds.flat : Flds → Bool
  | .nil => true
  | .leaf _ _ _ r => r.flat
  | .sub _ _ _ => false

theorem same_flat : ∀ (f g : Flds), f.flat = true → (f.same g = true ↔ f.decls = g.decls)
  | .nil, .nil, _ => by simp [Flds.same, Flds.decls]
  | .nil, .leaf .., _ => by simp [Flds.same, Flds.decls]
  | .nil, .sub .., _ => by simp [Flds.same, Flds.decls]
  | .leaf n w s r, .nil, _ => by simp [Flds.same, Flds.decls]
  | .leaf n w s r, .sub .., _ => by simp [Flds.same, Flds.decls]
  | .leaf n w s r, .leaf n' w' s' r', h => by
    simp only [Flds.flat] at h
    simp only [Flds.same, Flds.decls, Bool.and_eq_true, decide_eq_true_eq, same_flat r r' h,
      List.cons.injEq, Decl.vector.injEq]
    constructor
    · rintro ⟨⟨⟨a, b⟩, c⟩, d⟩; exact ⟨⟨b, c, a⟩, d⟩
    · rintro ⟨⟨b, c, a⟩, d⟩; exact ⟨⟨⟨a, b⟩, c⟩, d⟩
  | .sub .., _, h => by simp [Flds.flat] at h

mutual
/-- The vectors of a struct in order, nested structs spelled out. -/
def PS.layout : PS → List (Name × Nat × Bool)
  | .mk _ f => f.layout
def Flds.layout : Flds → List (Name × Nat × Bool)
  | .nil => []
  | .leaf n w s r => (n, w, s) :: r.layout
  | .sub _ p r => p.layout ++ r.layout
end

mutual
theorem same_layout : ∀ p q : PS, p.same q = true → p.layout = q.layout
  | .mk _ f, .mk _ g, h => by rw [PS.same] at h; exact same_layout_f f g h
theorem same_layout_f : ∀ f g : Flds, f.same g = true → f.layout = g.layout
  | .nil, .nil, _ => rfl
  | .leaf n w s r, .leaf n' w' s' r', h => by
    simp only [Flds.same, Bool.and_eq_true, decide_eq_true_eq] at h
    obtain ⟨⟨⟨rfl, rfl⟩, rfl⟩, h⟩ := h
    simp [Flds.layout, same_layout_f r r' h]
  | .sub _ p r, .sub _ p' r', h => by
    simp only [Flds.same, Bool.and_eq_true] at h
    simp [Flds.layout, same_layout p p' h.1, same_layout_f r r' h.2]
  | .nil, .leaf .., h => by simp [Flds.same] at h
  | .nil, .sub .., h => by simp [Flds.same] at h
  | .leaf .., .nil, h => by simp [Flds.same] at h
  | .leaf .., .sub .., h => by simp [Flds.same] at h
  | .sub .., .nil, h => by simp [Flds.same] at h
  | .sub .., .leaf .., h => by simp [Flds.same] at h
end

/-- C67, the part that holds: the emitted definition of a name agrees with every struct of that
name in the bit layout, and in every line when the struct has no nested struct; a flat struct that
differs in any line is rejected. -/
theorem one_meaning_partial (defs : List PS) (m : Map Name PS) (h : collect defs = .ok m) :
    (∀ d ∈ defs, ∃ p, m.find d.name = some p ∧ p.layout = d.layout ∧
      (d.fields.flat = true → p.fields.decls = d.fields.decls)) := by
  intro d hd
  obtain ⟨p, hp, hs⟩ := (collect_spec defs m h).2.2.1 d hd
  refine ⟨p, hp, (same_layout d p hs).symm, ?_⟩
  intro hfl
  cases d with
  | mk n f =>
    cases p with
    | mk n' g =>
      rw [PS.same] at hs
      exact ((same_flat f g hfl).1 hs).symm

theorem conflict_rejected (d e : PS) (m : Map Name PS) (he : m.find d.name = some e)
    (hfl : d.fields.flat = true) (hne : e.fields.decls ≠ d.fields.decls) :
    process d m = .throw .var := by
  cases d with
  | mk n f =>
    cases e with
    | mk n' g =>
      have hs : (PS.mk n f).same (.mk n' g) = false := by
        rw [PS.same]
        cases h : f.same g with
        | false => rfl
        | true => exact absurd ((same_flat f g hfl).1 h).symm hne
      simp only [PS.name] at he
      simp [process, he, hs]

/-! ## A concrete design: `S` uses `T`, `U` uses both -/

def dT : PS := .mk nT (.leaf nX 8 false .nil)
def dS : PS := .mk nS (.leaf nX 2 true (.sub nF dT .nil))
def dU : PS := .mk ['U'] (.sub nF dS (.sub nH dT .nil))

example : (structGraph [dT, dU]).nodes.keys = [nT, ['U'], nS] := by decide +kernel
example : (structGraph [dT, dU]).edges = [(nS, ['U']), (nT, nS), (nT, ['U'])] := by decide +kernel
example : (match getStructs (structGraph [dT, dU]) [['U'], nT, nS] (structGraph [dT, dU]).succ 3 with
    | .ok l => l.map PS.name
    | _ => []) = [nT, nS, ['U']] := by decide +kernel

/-- The acyclicity hypothesis holds for it: names can be ranked. -/
theorem needs_rank {ps : List PS} (rank : Name → Nat) (h : ∀ a b, Uses ps a b → rank b < rank a) :
    ∀ n, ¬ Needs ps n n := by
  have : ∀ a b, Needs ps a b → rank b < rank a := by
    intro a b hab
    induction hab with
    | one h' => exact h _ _ h'
    | more _ h' ih => exact Nat.lt_trans (h _ _ h') ih
  intro n hn
  have := this n n hn
  omega

example : ∀ n, ¬ Needs [dT, dU] n n := by
  have hin : ∀ x, Inside [dT, dU] x → x = dT ∨ x = dU ∨ x = dS := by
    intro x hx
    induction hx with
    | root h => simp at h; rcases h with h | h <;> simp [h]
    | sub _ hq ih =>
      rcases ih with rfl | rfl | rfl <;>
        simp [dT, dU, dS, PS.subs, PS.fields, Flds.subs] at hq <;> simp [hq, dT, dS, dU]
      rcases hq with h | h <;> simp [h]
  refine needs_rank (fun n => if n = ['U'] then 2 else if n = nS then 1 else 0) ?_
  rintro a b ⟨p, q, hp, hq, rfl, rfl⟩
  rcases hin p hp with rfl | rfl | rfl <;> simp [dT, dU, dS, PS.subs, PS.fields, Flds.subs] at hq
  · rcases hq with rfl | rfl <;> simp [PS.name, dU, nS, nT]
  · subst hq; simp [PS.name, dS, nS, nT]

end Kratos.Graph
