import Verif.Graph.GenOrder

/-! C45: bottom-up passes see every generator once, children first. -/

namespace Kratos.Graph

/-! ## The first pass accepts exactly trees -/

/-- Every node's children come after it. -/
def After (succ : Nat → List Nat) (l : List Nat) : Prop :=
  ∀ a m b, l = a ++ m :: b → ∀ c ∈ succ m, c ∈ b

structure Sub (kids : Nat → List Nat) (ns : List Nat) (roots : List Nat) (new : List Nat) : Prop where
  nodup : new.Nodup
  fresh : ∀ m ∈ new, m ∉ ns
  flat : new.Perm (roots ++ new.flatMap kids)
  after : After kids new
  below : ∀ m ∈ new, ∃ r ∈ roots, m = r ∨ Path kids r m

theorem After.append {kids : Nat → List Nat} {l1 l2 : List Nat} (h1 : After kids l1)
    (h2 : After kids l2) : After kids (l1 ++ l2) := by
  intro a m b e c hc
  rcases List.append_eq_append_iff.1 e with ⟨a', e1, e2⟩ | ⟨a', e1, e2⟩
  · exact h2 a' m b e2 c hc
  · cases a' with
    | nil =>
      simp at e2
      exact h2 [] m b (by simpa using e2.symm) c hc
    | cons x xs =>
      simp at e2
      obtain ⟨rfl, rfl⟩ := e2
      have := h1 a m xs e1 c hc
      simp [this]

theorem addNodes_foldl {kids : Nat → List Nat} {f : Nat}
    (ih : ∀ g ns ns', addNodes kids f g ns = .ok ns' → ∃ new, ns' = ns ++ new ∧ Sub kids ns [g] new) :
    ∀ (cs ns ns' : List Nat),
      each (addNodes kids f) cs ns = .ok ns' →
      ∃ new, ns' = ns ++ new ∧ Sub kids ns cs new
  | [], ns, ns', h => by
    simp only [each, Res.ok.injEq] at h
    subst h
    exact ⟨[], by simp, List.nodup_nil, by simp, by simp, by intro a m b e; simp at e, by simp⟩
  | c :: cs, ns, ns', h => by
    simp only [each, Res.bind_eq_ok] at h
    obtain ⟨t, ht, h⟩ := h
    obtain ⟨n1, rfl, s1⟩ := ih c ns t ht
    obtain ⟨n2, rfl, s2⟩ := addNodes_foldl ih cs _ _ h
    refine ⟨n1 ++ n2, by simp, ?_, ?_, ?_, s1.after.append s2.after, ?_⟩
    · rw [List.nodup_append]
      refine ⟨s1.nodup, s2.nodup, ?_⟩
      intro x hx y hy e
      subst e
      exact s2.fresh x hy (by simp [hx])
    · intro m hm
      rcases List.mem_append.1 hm with h | h
      · exact s1.fresh m h
      · intro hn; exact s2.fresh m h (by simp [hn])
    · have p := s1.flat.append s2.flat
      refine p.trans ?_
      simp only [List.flatMap_append, List.cons_append, List.nil_append]
      refine List.Perm.cons _ ?_
      have : (n1.flatMap kids ++ (cs ++ n2.flatMap kids)).Perm (cs ++ (n1.flatMap kids ++ n2.flatMap kids)) := by
        rw [← List.append_assoc, ← List.append_assoc]
        exact List.Perm.append_right _ List.perm_append_comm
      exact this
    · intro m hm
      rcases List.mem_append.1 hm with h | h
      · obtain ⟨r, hr, h⟩ := s1.below m h
        exact ⟨r, by simp at hr; simp [hr], h⟩
      · obtain ⟨r, hr, h⟩ := s2.below m h
        exact ⟨r, by simp [hr], h⟩

theorem addNodes_spec (kids : Nat → List Nat) : ∀ f g ns ns', addNodes kids f g ns = .ok ns' →
    ∃ new, ns' = ns ++ new ∧ Sub kids ns [g] new
  | 0, g, ns, ns', h => by simp [addNodes] at h
  | f + 1, g, ns, ns', h => by
    simp only [addNodes] at h
    split at h
    · cases h
    · rename_i hg
      obtain ⟨new, e, s⟩ := addNodes_foldl (addNodes_spec kids f) (kids g) _ _ h
      refine ⟨g :: new, by simp [e], ?_, ?_, ?_, ?_, ?_⟩
      · rw [List.nodup_cons]
        exact ⟨fun hc => s.fresh g hc (by simp), s.nodup⟩
      · intro m hm
        rcases List.mem_cons.1 hm with rfl | hm
        · exact hg
        · intro hn; exact s.fresh m hm (by simp [hn])
      · simpa using List.Perm.cons g s.flat
      · intro a m b e c hc
        cases a with
        | nil =>
          simp at e
          obtain ⟨rfl, rfl⟩ := e
          exact (s.flat.mem_iff).2 (by simp [hc])
        | cons x a =>
          simp at e
          obtain ⟨rfl, e⟩ := e
          exact s.after a m b e c hc
      · intro m hm
        rcases List.mem_cons.1 hm with rfl | hm
        · exact ⟨m, by simp, Or.inl rfl⟩
        · obtain ⟨r, hr, h⟩ := s.below m hm
          refine ⟨g, by simp, Or.inr ?_⟩
          rcases h with rfl | h
          · exact .one hr
          · exact .cons hr h

/-- A closed list in which children come later has no cycle. -/
theorem no_cycle {succ : Nat → List Nat} {l : List Nat} (hnd : l.Nodup) (ha : After succ l) :
    ∀ a ∈ l, ¬ Path succ a a := by
  have key : ∀ x y, Path succ x y → ∀ p q, l = p ++ x :: q → y ∈ q := by
    intro x y h
    induction h with
    | one h => intro p q e; exact ha p _ q e _ h
    | @more b' c _ h ih =>
      intro p q e
      have hb := ih p q e
      obtain ⟨q1, q2, e2⟩ := List.append_of_mem hb
      subst e2
      have := ha (p ++ x :: q1) _ q2 (by simp [e]) _ h
      simp [this]
  intro a h p
  obtain ⟨x, y, e⟩ := List.append_of_mem h
  have := key a a p x y e
  rw [e, List.nodup_append] at hnd
  have h2 := hnd.2.1
  rw [List.nodup_cons] at h2
  exact h2.1 this

/-! ## Specification -/

/-- `g` is the root or an instance at some depth below it. -/
inductive Below (kids : Nat → List Nat) (root : Nat) : Nat → Nat → Prop
  | top : Below kids root root 0
  | step {g d c} : Below kids root g d → c ∈ kids g → Below kids root c (d + 1)

theorem path_below {kids : Nat → List Nat} {root g : Nat} (h : Path kids root g) :
    ∃ d, Below kids root g d := by
  induction h with
  | one h => exact ⟨1, .step .top h⟩
  | more _ h ih => obtain ⟨d, hd⟩ := ih; exact ⟨d + 1, .step hd h⟩

/-- A bottom-up order: every generator of the hierarchy exactly once, every instance before the
generator that instantiates it. -/
structure BottomUp (kids : Nat → List Nat) (root : Nat) (l : List Nat) : Prop where
  once : l.Nodup
  all : ∀ g, g ∈ l ↔ ∃ d, Below kids root g d
  children_first : ∀ before g after, l = before ++ g :: after → ∀ c ∈ kids g, c ∈ before

/-- The nodes of the graph are exactly the generators of the hierarchy, each once; no generator has
two parents, and the top none. -/
theorem graph_nodes {kids : Nat → List Nat} {fuel root : Nat} {ns : List Nat}
    (h : addNodes kids fuel root [] = .ok ns) :
    ns.Nodup ∧ (∀ g, g ∈ ns ↔ ∃ d, Below kids root g d) ∧ After kids ns ∧
    ns.Perm (root :: ns.flatMap kids) := by
  obtain ⟨new, e, s⟩ := addNodes_spec kids fuel root [] ns h
  simp at e
  subst e
  have hcl : ∀ a ∈ ns, ∀ b ∈ kids a, b ∈ ns := by
    intro a ha b hb
    obtain ⟨x, y, e⟩ := List.append_of_mem ha
    have := s.after x a y e b hb
    rw [e]; simp [this]
  refine ⟨s.nodup, ?_, s.after, s.flat⟩
  intro g
  constructor
  · intro hg
    obtain ⟨r, hr, hp⟩ := s.below g hg
    simp at hr
    rw [hr] at hp
    rcases hp with e | hp
    · rw [e]; exact ⟨0, .top⟩
    · exact path_below hp
  · rintro ⟨d, hd⟩
    induction hd with
    | top => exact (s.flat.mem_iff).2 (by simp)
    | step _ hc ih => exact hcl _ ih _ hc

/-! ## The second pass never fails after the first -/

theorem each_addEdge {nodes : List Nat} {p : Nat} : ∀ (cs : List Nat) (es : Edges),
    (∀ c ∈ cs, c ∈ nodes) → cs.Nodup → (∀ c ∈ cs, ∀ e ∈ es, e.2 ≠ c) →
    each (addEdge nodes p) cs es = .ok (es ++ cs.map fun c => (p, c))
  | [], es, _, _, _ => by simp [each]
  | c :: cs, es, hm, hnd, hf => by
    rw [List.nodup_cons] at hnd
    have h1 : addEdge nodes p c es = .ok (es ++ [(p, c)]) := by
      have : es.any (fun e => e.2 == c) = false := by
        rw [List.any_eq_false]
        intro e he; simpa using hf c (.head _) e he
      simp [addEdge, hm c (.head _), this]
    rw [each, h1, Res.ok_bind, each_addEdge cs _ (fun x hx => hm x (.tail _ hx)) hnd.2 (by
      intro x hx e he
      rcases List.mem_append.1 he with h | h
      · exact hf x (.tail _ hx) e h
      · simp at h; subst h
        intro e; subst e; exact hnd.1 hx)]
    simp

/-- Edges of a list of nodes, in order. -/
def edgesOf (kids : Nat → List Nat) (l : List Nat) : Edges :=
  l.flatMap fun g => (kids g).map fun c => (g, c)

theorem edgesOf_snd (kids : Nat → List Nat) (l : List Nat) :
    (edgesOf kids l).map (·.2) = l.flatMap kids := by
  induction l with
  | nil => rfl
  | cons a l ih =>
    simp only [edgesOf, List.flatMap_cons, List.map_append, List.map_map] at ih ⊢
    rw [ih]
    congr 1
    exact List.map_id' (kids a)

theorem mem_edgesOf {kids : Nat → List Nat} {l : List Nat} {e : Nat × Nat} :
    e ∈ edgesOf kids l ↔ e.1 ∈ l ∧ e.2 ∈ kids e.1 := by
  obtain ⟨a, b⟩ := e
  simp only [edgesOf, List.mem_flatMap, List.mem_map, Prod.mk.injEq]
  constructor
  · rintro ⟨g, hg, c, hc, rfl, rfl⟩; exact ⟨hg, hc⟩
  · rintro ⟨h1, h2⟩; exact ⟨a, h1, b, h2, rfl, rfl⟩

theorem one_parent {kids : Nat → List Nat} : ∀ {l : List Nat}, (l.flatMap kids).Nodup →
    (∀ a ∈ l, (kids a).Nodup) ∧ ∀ a ∈ l, ∀ b ∈ l, ∀ c, c ∈ kids a → c ∈ kids b → a = b
  | [], _ => by simp
  | x :: l, h => by
    rw [List.flatMap_cons, List.nodup_append] at h
    obtain ⟨h1, h2, h3⟩ := h
    obtain ⟨i1, i2⟩ := one_parent h2
    have hx : ∀ b ∈ l, ∀ c, c ∈ kids x → c ∉ kids b := by
      intro b hb c hc hc'
      exact h3 c hc c (List.mem_flatMap.2 ⟨b, hb, hc'⟩) rfl
    refine ⟨?_, ?_⟩
    · intro a ha
      rcases List.mem_cons.1 ha with rfl | ha
      · exact h1
      · exact i1 a ha
    · intro a ha b hb c hca hcb
      rcases List.mem_cons.1 ha with ea | ha' <;> rcases List.mem_cons.1 hb with eb | hb'
      · rw [ea, eb]
      · subst ea; exact absurd hcb (hx b hb' c hca)
      · subst eb; exact absurd hca (hx a ha' c hcb)
      · exact i2 a ha' b hb' c hca hcb

/-- The passes walk the hierarchy alike: pass 2 from `g` handles exactly the nodes pass 1 added. -/
def PassOk (kids : Nat → List Nat) (nodes ns ns' : List Nat) (es : Edges) (r : Res Edges) : Prop :=
  ∀ done, (∀ e, e ∈ es ↔ e ∈ edgesOf kids done) → (∀ m ∈ done, m ∈ nodes) →
    (∀ m ∈ ns', m ∉ ns → m ∉ done) →
    ∃ es' new, ns' = ns ++ new ∧ r = .ok es' ∧ (∀ e, e ∈ es' ↔ e ∈ edgesOf kids (done ++ new))

theorem edgesOf_append (kids : Nat → List Nat) (a b : List Nat) :
    edgesOf kids (a ++ b) = edgesOf kids a ++ edgesOf kids b := by simp [edgesOf]

theorem edgePass_list {kids : Nat → List Nat} {nodes : List Nat} {f : Nat}
    (ih : ∀ g ns ns' es, addNodes kids f g ns = .ok ns' → (∀ m ∈ ns', m ∈ nodes) →
      PassOk kids nodes ns ns' es (edgePass kids nodes f g es)) :
    ∀ cs ns ns' es, each (addNodes kids f) cs ns = .ok ns' → (∀ m ∈ ns', m ∈ nodes) →
      PassOk kids nodes ns ns' es (each (edgePass kids nodes f) cs es)
  | [], ns, ns', es, h, hn => by
    intro done he hd hf
    simp only [each, Res.ok.injEq] at h
    exact ⟨es, [], by simp [h], rfl, by simpa using he⟩
  | c :: cs, ns, ns', es, h, hn => by
    intro done he hd hf
    simp only [each, Res.bind_eq_ok] at h
    obtain ⟨t, ht, h⟩ := h
    obtain ⟨n1, e1, s1⟩ := addNodes_spec kids f c ns t ht
    obtain ⟨n2, e2, s2⟩ := addNodes_foldl (addNodes_spec kids f) cs t ns' h
    have ht' : ∀ m ∈ t, m ∈ ns' := by intro m hm; rw [e2]; simp [hm]
    obtain ⟨es1, k1, g1, g2, g3⟩ := ih c ns t es ht (fun m hm => hn m (ht' m hm)) done he hd
      (fun m hm => hf m (ht' m hm))
    have ek : k1 = n1 := by rw [e1] at g1; exact (List.append_cancel_left g1).symm
    subst ek
    obtain ⟨es2, k2, g4, g5, g6⟩ := edgePass_list ih cs t ns' es1 h hn (done ++ k1) g3 (by
        intro m hm
        rcases List.mem_append.1 hm with h | h
        · exact hd m h
        · exact hn m (ht' m (by rw [e1]; simp [h])))
      (by
        intro m hm hmt hmd
        rcases List.mem_append.1 hmd with h | h
        · exact hf m hm (fun hc => hmt (by rw [e1]; simp [hc])) h
        · exact hmt (by rw [e1]; simp [h]))
    refine ⟨es2, k1 ++ k2, by rw [g4, g1]; simp, by simp [each, g2, g5], ?_⟩
    intro e
    rw [g6, List.append_assoc]

theorem edgePass_spec {kids : Nat → List Nat} {nodes : List Nat} (hnd : (nodes.flatMap kids).Nodup)
    (hcl : ∀ a ∈ nodes, ∀ b ∈ kids a, b ∈ nodes) :
    ∀ f g ns ns' es, addNodes kids f g ns = .ok ns' → (∀ m ∈ ns', m ∈ nodes) →
      PassOk kids nodes ns ns' es (edgePass kids nodes f g es)
  | 0, g, ns, ns', es, h, _ => by simp [addNodes] at h
  | f + 1, g, ns, ns', es, h, hn => by
    intro done he hd hf
    simp only [addNodes] at h
    split at h
    · cases h
    · rename_i hg
      obtain ⟨n1, e1, s1⟩ := addNodes_foldl (addNodes_spec kids f) (kids g) _ _ h
      have hgn : g ∈ ns' := by rw [e1]; simp
      have hgd : g ∉ done := hf g hgn hg
      obtain ⟨p1, p2⟩ := one_parent hnd
      have hadd : addEdges nodes g (kids g) es = .ok (es ++ (kids g).map fun c => (g, c)) := by
        rw [addEdges, if_pos (hn g hgn)]
        refine each_addEdge (kids g) es (hcl g (hn g hgn)) (p1 g (hn g hgn)) ?_
        intro c hc e hes heq
        have hm := mem_edgesOf.1 ((he e).1 hes)
        have := p2 e.1 (hd e.1 hm.1) g (hn g hgn) c (heq ▸ hm.2) hc
        exact hgd (this ▸ hm.1)
      obtain ⟨es2, k2, g4, g5, g6⟩ := edgePass_list (edgePass_spec hnd hcl f) (kids g) _ ns'
        (es ++ (kids g).map fun c => (g, c)) h hn (done ++ [g]) (by
          intro e
          rw [edgesOf_append, List.mem_append, List.mem_append, he]
          simp [edgesOf])
        (by
          intro m hm
          rcases List.mem_append.1 hm with h | h
          · exact hd m h
          · simp at h; subst h; exact hn _ hgn)
        (by
          intro m hm hmt hmd
          rcases List.mem_append.1 hmd with h | h
          · exact hf m hm (fun hc => hmt (by simp [hc])) h
          · exact hmt (by simp at h; simp [h]))
      refine ⟨es2, g :: k2, by simp [g4], by simp [edgePass, hadd, g5], ?_⟩
      intro e
      rw [g6]; simp

/-- Building the graph fails only when the first pass does, and then its children sets are the
instances of each generator. -/
theorem graph_edges {kids : Nat → List Nat} {fuel root : Nat} {ns : List Nat}
    (h : addNodes kids fuel root [] = .ok ns) :
    ∃ es, buildGraph kids fuel root = .ok (ns, es) ∧
      ∀ g ∈ ns, ∀ c, c ∈ childrenOf es g ↔ c ∈ kids g := by
  obtain ⟨h1, h2, h3, h4⟩ := graph_nodes h
  have hcl : ∀ a ∈ ns, ∀ b ∈ kids a, b ∈ ns := by
    intro a ha b hb
    obtain ⟨x, y, e⟩ := List.append_of_mem ha
    have := h3 x a y e b hb
    rw [e]; simp [this]
  have hnd := (h4.nodup_iff.1 h1)
  rw [List.nodup_cons] at hnd
  obtain ⟨es, new, e1, e2, e3⟩ := edgePass_spec hnd.2 hcl fuel root [] ns [] h (fun m hm => hm) []
    (by simp [edgesOf]) (by simp) (by simp)
  simp at e1
  subst e1
  refine ⟨es, by simp [buildGraph, h, e2], ?_⟩
  intro g hg c
  simp only [childrenOf, List.mem_map, List.mem_filter, beq_iff_eq]
  constructor
  · rintro ⟨e, ⟨he, rfl⟩, rfl⟩
    exact (mem_edgesOf.1 ((e3 e).1 he)).2
  · intro hc
    exact ⟨(g, c), ⟨(e3 _).2 (mem_edgesOf.2 ⟨by simpa using hg, hc⟩), rfl⟩, rfl⟩

/-- C45, the order of `get_sorted_nodes`: whenever the graph can be built (the hierarchy is a tree;
otherwise an exception is raised), for every iteration order of the node table (`nodes'`) and of
every children set (`cord`), the sort ends and lists every generator exactly once, children before
parents. -/
theorem sorted_bottom_up (kids : Nat → List Nat) (fuel root : Nat) (ns : List Nat) (es : Edges)
    (h : buildGraph kids fuel root = .ok (ns, es)) (nodes' : List Nat) (hp : nodes'.Perm ns)
    (cord : Nat → List Nat) (hc : ∀ g x, x ∈ cord g ↔ x ∈ childrenOf es g) (n : Nat)
    (hn : ns.length ≤ n) :
    ∃ l, topSort cord n nodes' = .ok l ∧ BottomUp kids root l := by
  simp only [buildGraph, Res.bind_eq_ok] at h
  obtain ⟨ns0, h0, es0, he, h⟩ := h
  simp only [Res.ok.injEq, Prod.mk.injEq] at h
  obtain ⟨rfl, rfl⟩ := h
  obtain ⟨es1, hb, hk⟩ := graph_edges h0
  simp only [buildGraph, h0, Res.ok_bind, he, Res.ok.injEq, Prod.mk.injEq, true_and] at hb
  subst hb
  obtain ⟨h1, h2, h3, h4⟩ := graph_nodes h0
  have hck : ∀ g ∈ ns0, ∀ x, x ∈ cord g ↔ x ∈ kids g := fun g hg x => (hc g x).trans (hk g hg x)
  have haft : After cord ns0 := by
    intro a m b e c hcm
    exact h3 a m b e c ((hck m (by rw [e]; simp) c).1 hcm)
  obtain ⟨l, hl, hpl, hbe⟩ := topSort_spec cord nodes' (hp.nodup_iff.2 h1)
    (by
      intro a ha b hb
      have ha' := hp.mem_iff.1 ha
      obtain ⟨x, y, e⟩ := List.append_of_mem ha'
      have := haft x a y e b hb
      exact hp.mem_iff.2 (by rw [e]; simp [this]))
    (fun a ha => no_cycle h1 haft a (hp.mem_iff.1 ha)) n (by rw [hp.length_eq]; exact hn)
  have hpl' := hpl.trans hp
  refine ⟨l, hl, hpl'.nodup_iff.2 h1, fun g => (hpl'.mem_iff).trans (h2 g), ?_⟩
  intro a m b e c hcm
  have hm : m ∈ ns0 := hpl'.mem_iff.1 (by rw [e]; simp)
  exact hbe a m b e c ((hck m hm c).2 hcm)

end Kratos.Graph
