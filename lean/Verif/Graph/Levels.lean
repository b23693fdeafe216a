import Verif.Graph.GenProps
import Verif.Util.Map

/-! C45 continued: which hierarchies are accepted, and the level-parallel visiting order. -/

namespace Kratos.Graph

/-! ## Every finite tree is accepted -/

/-- The hierarchy below `root` is a finite tree: some measure shrinks along instances, a generator
lists no instance twice and no generator is instantiated by two others. -/
structure Tree (kids : Nat → List Nat) (rank : Nat → Nat) : Prop where
  shrinks : ∀ g, ∀ c ∈ kids g, rank c < rank g
  distinct : ∀ g, (kids g).Nodup
  one_parent : ∀ a b c, c ∈ kids a → c ∈ kids b → a = b

theorem Tree.path_lt {kids : Nat → List Nat} {rank : Nat → Nat} (T : Tree kids rank) {a b : Nat}
    (h : Path kids a b) : rank b < rank a := by
  induction h with
  | one h => exact T.shrinks _ _ h
  | more _ h ih => exact Nat.lt_trans (T.shrinks _ _ h) ih

/-- `m` is `c` or an instance below it. -/
def Under (kids : Nat → List Nat) (c m : Nat) : Prop := m = c ∨ Path kids c m

theorem Tree.siblings_disjoint {kids : Nat → List Nat} {rank : Nat → Nat} (T : Tree kids rank)
    {g c1 c2 : Nat} (h1 : c1 ∈ kids g) (h2 : c2 ∈ kids g) :
    ∀ m, Under kids c1 m → Under kids c2 m → c1 = c2 := by
  have aux : ∀ x y, x ∈ kids g → y ∈ kids g → ¬ Path kids x y := by
    intro x y hx hy p
    cases p with
    | one h =>
      have := T.one_parent _ _ _ h hy
      have := T.shrinks g x hx
      subst_vars; omega
    | more p h =>
      have e := T.one_parent _ _ _ h hy
      rw [e] at p
      have h3 := T.path_lt p
      have := T.shrinks g x hx
      omega
  intro m u1 u2
  rcases u1 with rfl | p1
  · rcases u2 with rfl | p2
    · rfl
    · exact absurd p2 (aux _ _ h2 h1)
  · rcases u2 with rfl | p2
    · exact absurd p1 (aux _ _ h1 h2)
    · induction p1 with
      | one h =>
        cases p2 with
        | one h' => exact T.one_parent _ _ _ h h'
        | more p h' =>
          have e := T.one_parent _ _ _ h h'
          rw [← e] at p
          exact absurd p (aux _ _ h2 h1)
      | more p h ih =>
        cases p2 with
        | one h' =>
          have e := T.one_parent _ _ _ h h'
          rw [e] at p
          exact absurd p (aux _ _ h1 h2)
        | more p' h' =>
          have e := T.one_parent _ _ _ h h'
          rw [← e] at p'
          exact ih p'

theorem addNodes_ok {kids : Nat → List Nat} {rank : Nat → Nat} (T : Tree kids rank) :
    ∀ f g ns, rank g < f → (∀ m, Under kids g m → m ∉ ns) → ∃ ns', addNodes kids f g ns = .ok ns'
  | 0, g, ns, h, _ => by omega
  | f + 1, g, ns, h, hd => by
    have key : ∀ cs ns, (∀ c ∈ cs, c ∈ kids g) → cs.Nodup → (∀ c ∈ cs, ∀ m, Under kids c m → m ∉ ns) →
        ∃ ns', each (addNodes kids f) cs ns = .ok ns' := by
      intro cs
      induction cs with
      | nil => intro ns _ _ _; exact ⟨ns, rfl⟩
      | cons c cs ih =>
        intro ns hc hnd hf
        rw [List.nodup_cons] at hnd
        have hr := T.shrinks g c (hc c (.head _))
        obtain ⟨t, ht⟩ := addNodes_ok T f c ns (by omega) (hf c (.head _))
        obtain ⟨new, e, s⟩ := addNodes_spec kids f c ns t ht
        obtain ⟨ns', h'⟩ := ih t (fun x hx => hc x (.tail _ hx)) hnd.2 (by
          intro x hx m hm hmt
          rw [e] at hmt
          rcases List.mem_append.1 hmt with h | h
          · exact hf x (.tail _ hx) m hm h
          · obtain ⟨r, hr, hb⟩ := s.below m h
            simp at hr
            subst hr
            have := T.siblings_disjoint (hc r (.head _)) (hc x (.tail _ hx)) m hb hm
            subst this
            exact hnd.1 hx)
        exact ⟨ns', by simp [each, ht, h']⟩
    have hg : g ∉ ns := hd g (Or.inl rfl)
    simp only [addNodes, if_neg hg]
    refine key (kids g) (ns ++ [g]) (fun c hc => hc) (T.distinct g) ?_
    intro c hc m hm hmem
    rcases List.mem_append.1 hmem with h' | h'
    · refine hd m (Or.inr ?_) h'
      rcases hm with rfl | p
      · exact .one hc
      · exact .cons hc p
    · simp at h'
      subst h'
      have := T.shrinks m c hc
      rcases hm with e | p
      · rw [← e] at this; omega
      · have := T.path_lt p; omega

/-- Every finite tree of generators is accepted by the graph. -/
theorem tree_accepted {kids : Nat → List Nat} {rank : Nat → Nat} (T : Tree kids rank)
    (root fuel : Nat) (hf : rank root < fuel) :
    ∃ ns es, buildGraph kids fuel root = .ok (ns, es) := by
  obtain ⟨ns, h⟩ := addNodes_ok T fuel root [] hf (by simp)
  obtain ⟨es, he, _⟩ := graph_edges h
  exact ⟨ns, es, he⟩

/-- A generator instantiated in two places (or twice) below the root is an error, not a wrong
order: whenever the graph is built the children lists of the hierarchy have no generator in
common and do not contain the root. -/
theorem shared_rejected {kids : Nat → List Nat} {fuel root : Nat} {ns : List Nat} {es : Edges}
    (h : buildGraph kids fuel root = .ok (ns, es)) :
    (root :: ns.flatMap kids).Nodup := by
  simp only [buildGraph, Res.bind_eq_ok] at h
  obtain ⟨ns0, h0, es0, he, h⟩ := h
  simp only [Res.ok.injEq, Prod.mk.injEq] at h
  obtain ⟨rfl, rfl⟩ := h
  obtain ⟨h1, h2, h3, h4⟩ := graph_nodes h0
  exact h4.nodup_iff.1 h1

/-! ## Levels -/

def kp (kids : Nat → List Nat) (e : Nat × Nat) : List (Nat × Nat) := (kids e.1).map fun c => (c, e.2 + 1)

theorem nodup_flatMap {kids : Nat → List Nat} {ns : List Nat} (hnd : (ns.flatMap kids).Nodup) :
    ∀ l : List Nat, l.Nodup → (∀ x ∈ l, x ∈ ns) → (l.flatMap kids).Nodup
  | [], _, _ => by simp
  | a :: l, h, hs => by
    rw [List.nodup_cons] at h
    obtain ⟨p1, p2⟩ := one_parent hnd
    rw [List.flatMap_cons, List.nodup_append]
    refine ⟨p1 a (hs a (.head _)), nodup_flatMap hnd l h.2 (fun x hx => hs x (.tail _ hx)), ?_⟩
    intro x hx y hy e
    subst e
    obtain ⟨b, hb, hy⟩ := List.mem_flatMap.1 hy
    have := p2 a (hs a (.head _)) b (hs b (.tail _ hb)) x hx hy
    subst this
    exact h.1 hb

theorem kp_fst (kids : Nat → List Nat) (P : List (Nat × Nat)) :
    (P.flatMap (kp kids)).map (·.1) = (P.map (·.1)).flatMap kids := by
  induction P with
  | nil => rfl
  | cons e P ih =>
    simp only [List.flatMap_cons, List.map_append, List.map_cons, ih, kp, List.map_map]
    congr 1
    exact List.map_id' _

theorem levelLoop_spec {kids : Nat → List Nat} {root : Nat} {ns : List Nat}
    (hnd : (root :: ns.flatMap kids).Nodup) (hroot : root ∈ ns)
    (hcl : ∀ a ∈ ns, ∀ b ∈ kids a, b ∈ ns) :
    ∀ fuel (Q P : List (Nat × Nat)), P ++ Q = (root, 0) :: P.flatMap (kp kids) →
      (∀ e ∈ P ++ Q, Below kids root e.1 e.2) → (P.map (·.1)).Nodup → (∀ e ∈ P ++ Q, e.1 ∈ ns) →
      ns.length ≤ fuel + P.length →
      ∃ idx, levelLoop kids fuel Q P = .ok idx ∧ idx = (root, 0) :: idx.flatMap (kp kids) ∧
        (∀ e ∈ idx, Below kids root e.1 e.2) ∧ (idx.map (·.1)).Nodup := by
  intro fuel
  induction fuel with
  | zero =>
    intro Q P hpq hb hn hs hf
    cases Q with
    | nil => exact ⟨P, by simp [levelLoop], by simpa using hpq, fun e he => hb e (by simp [he]), hn⟩
    | cons e Q =>
      exfalso
      have h1 : (((root, 0) :: P.flatMap (kp kids)).map (·.1)).Nodup := by
        rw [List.map_cons, kp_fst, List.nodup_cons]
        rw [List.nodup_cons] at hnd
        refine ⟨?_, nodup_flatMap hnd.2 _ hn ?_⟩
        · intro hm
          obtain ⟨b, hb', hm⟩ := List.mem_flatMap.1 hm
          obtain ⟨e', he', rfl⟩ := List.mem_map.1 hb'
          exact hnd.1 (List.mem_flatMap.2 ⟨e'.1, hs e' (by simp [he']), hm⟩)
        · intro x hx
          obtain ⟨e', he', rfl⟩ := List.mem_map.1 hx
          exact hs e' (by simp [he'])
      rw [← hpq] at h1
      have h2 : ((P ++ e :: Q).map (·.1)).length ≤ ns.length := by
        have hsub : ∀ x ∈ (P ++ e :: Q).map (·.1), x ∈ ns := by
          intro x hx
          obtain ⟨e', he', rfl⟩ := List.mem_map.1 hx
          exact hs e' he'
        exact nodup_subset_length h1 hsub
      simp at h2
      omega
  | succ f ih =>
    intro Q P hpq hb hn hs hf
    cases Q with
    | nil => exact ⟨P, by simp [levelLoop], by simpa using hpq, fun e he => hb e (by simp [he]), hn⟩
    | cons e Q =>
      obtain ⟨g, d⟩ := e
      have h1 : (((root, 0) :: P.flatMap (kp kids)).map (·.1)).Nodup := by
        rw [List.map_cons, kp_fst, List.nodup_cons]
        rw [List.nodup_cons] at hnd
        refine ⟨?_, nodup_flatMap hnd.2 _ hn ?_⟩
        · intro hm
          obtain ⟨b, hb', hm⟩ := List.mem_flatMap.1 hm
          obtain ⟨e', he', rfl⟩ := List.mem_map.1 hb'
          exact hnd.1 (List.mem_flatMap.2 ⟨e'.1, hs e' (by simp [he']), hm⟩)
        · intro x hx
          obtain ⟨e', he', rfl⟩ := List.mem_map.1 hx
          exact hs e' (by simp [he'])
      rw [← hpq] at h1
      have hgP : ∀ e ∈ P, e.1 ≠ g := by
        intro e he heq
        rw [List.map_append, List.nodup_append] at h1
        exact h1.2.2 e.1 (List.mem_map.2 ⟨e, he, rfl⟩) g (by simp) heq
      have hfind : P.find? (fun e => e.1 == g) = none := by
        rw [List.find?_eq_none]
        intro e he; simpa using hgP e he
      simp only [levelLoop, hfind]
      have hkp : ((kids g).map fun c => (c, d + 1)) = kp kids (g, d) := rfl
      rw [hkp]
      have hbg : Below kids root g d := hb (g, d) (by simp)
      have hsg : g ∈ ns := hs (g, d) (by simp)
      refine ih (Q ++ kp kids (g, d)) (P ++ [(g, d)]) ?_ ?_ ?_ ?_ ?_
      · rw [List.flatMap_append, ← List.cons_append, ← hpq]
        simp
      · intro e he
        have : e ∈ P ++ (g, d) :: Q ∨ e ∈ kp kids (g, d) := by
          simp at he ⊢
          rcases he with h | h | h | h <;> simp [h]
        rcases this with h | h
        · exact hb e h
        · simp only [kp, List.mem_map] at h
          obtain ⟨c, hc, rfl⟩ := h
          exact .step hbg hc
      · rw [List.map_append, List.nodup_append]
        refine ⟨hn, by simp, ?_⟩
        intro x hx y hy e
        simp at hy
        subst e; subst hy
        obtain ⟨e', he', rfl⟩ := List.mem_map.1 hx
        exact hgP e' he' rfl
      · intro e he
        have : e ∈ P ++ (g, d) :: Q ∨ e ∈ kp kids (g, d) := by
          simp at he ⊢
          rcases he with h | h | h | h <;> simp [h]
        rcases this with h | h
        · exact hs e h
        · simp only [kp, List.mem_map] at h
          obtain ⟨c, hc, rfl⟩ := h
          exact hcl g hsg c hc
      · simp; omega

/-- `get_leveled_nodes`: the level of a generator is its depth, every generator has exactly one. -/
theorem levels_are_depths (kids : Nat → List Nat) (fuel root : Nat) (ns : List Nat) (es : Edges)
    (h : buildGraph kids fuel root = .ok (ns, es)) (n : Nat) (hn : ns.length ≤ n) :
    ∃ idx, levelLoop kids n [(root, 0)] [] = .ok idx ∧ (idx.map (·.1)).Nodup ∧
      ∀ g d, (g, d) ∈ idx ↔ Below kids root g d := by
  have hnd := shared_rejected h
  simp only [buildGraph, Res.bind_eq_ok] at h
  obtain ⟨ns0, h0, es0, he, h⟩ := h
  simp only [Res.ok.injEq, Prod.mk.injEq] at h
  obtain ⟨rfl, rfl⟩ := h
  obtain ⟨h1, h2, h3, h4⟩ := graph_nodes h0
  have hcl : ∀ a ∈ ns0, ∀ b ∈ kids a, b ∈ ns0 := by
    intro a ha b hb
    obtain ⟨d, hd⟩ := (h2 a).1 ha
    exact (h2 b).2 ⟨d + 1, .step hd hb⟩
  have hr : root ∈ ns0 := (h2 root).2 ⟨0, .top⟩
  obtain ⟨idx, k1, k2, k3, k4⟩ := levelLoop_spec hnd hr hcl n [(root, 0)] [] (by simp)
    (by simp; exact .top) (by simp) (by simpa using hr) (by simpa using hn)
  refine ⟨idx, k1, k4, fun g d => ⟨fun h => k3 _ h, ?_⟩⟩
  intro hb
  induction hb with
  | top => rw [k2]; simp
  | @step g d c _ hc ih =>
    rw [k2]
    refine .tail _ (List.mem_flatMap.2 ⟨(g, d), ih, ?_⟩)
    exact List.mem_map.2 ⟨c, hc, rfl⟩

theorem mem_levelOf {ord : List (Nat × Nat)} {d g : Nat} : g ∈ levelOf ord d ↔ (g, d) ∈ ord := by
  simp only [levelOf, List.mem_map, List.mem_filter, beq_iff_eq]
  constructor
  · rintro ⟨⟨a, b⟩, ⟨h, rfl⟩, rfl⟩; exact h
  · intro h; exact ⟨(g, d), ⟨h, rfl⟩, rfl⟩

theorem le_foldl_max (l : List (Nat × Nat)) : ∀ m, m ≤ l.foldl (fun m e => max m e.2) m ∧
    ∀ e ∈ l, e.2 ≤ l.foldl (fun m e => max m e.2) m := by
  induction l with
  | nil => intro m; simp
  | cons a l ih =>
    intro m
    obtain ⟨h1, h2⟩ := ih (max m a.2)
    simp only [List.foldl_cons]
    refine ⟨by omega, ?_⟩
    intro e he
    rcases List.mem_cons.1 he with rfl | he
    · omega
    · exact h2 e he

theorem levels_split {ord : List (Nat × Nat)} (hu : ∀ g d d', (g, d) ∈ ord → (g, d') ∈ ord → d = d') :
    ∀ (D : List Nat), D.Pairwise (· > ·) → ∀ a g b, D.flatMap (levelOf ord) = a ++ g :: b →
      ∀ d, (g, d) ∈ ord → ∀ x d', (x, d') ∈ ord → d' ∈ D → d < d' → x ∈ a := by
  intro D
  induction D with
  | nil => intro _ a g b e; simp at e
  | cons e D ih =>
    intro hp a g b heq d hg x d' hx hd' hlt
    rw [List.pairwise_cons] at hp
    rw [List.flatMap_cons] at heq
    rcases List.append_eq_append_iff.1 heq with ⟨a', e1, e2⟩ | ⟨a', e1, e2⟩
    · rw [e1]
      rcases List.mem_cons.1 hd' with rfl | hm
      · exact List.mem_append.2 (Or.inl (mem_levelOf.2 hx))
      · exact List.mem_append.2 (Or.inr (ih hp.2 a' g b e2 d hg x d' hx hm hlt))
    · have hge : g ∈ levelOf ord e ∨ a' = [] := by
        cases a' with
        | nil => right; rfl
        | cons y ys =>
          simp at e2
          left; rw [e1, ← e2.1]; simp
      rcases hge with hge | rfl
      · have := hu g d e hg (mem_levelOf.1 hge)
        subst this
        rcases List.mem_cons.1 hd' with rfl | hm
        · omega
        · have := hp.1 d' hm; omega
      · simp at e1 e2
        rw [← e1]
        rcases List.mem_cons.1 hd' with rfl | hm
        · exact mem_levelOf.2 hx
        · have := ih hp.2 [] g b (by simpa using e2.symm) d hg x d' hx hm hlt
          simp at this

theorem nodup_levels {ord : List (Nat × Nat)} (hn : (ord.map (·.1)).Nodup)
    (hu : ∀ g d d', (g, d) ∈ ord → (g, d') ∈ ord → d = d') :
    ∀ D : List Nat, D.Nodup → (D.flatMap (levelOf ord)).Nodup
  | [], _ => by simp
  | e :: D, hD => by
    rw [List.nodup_cons] at hD
    rw [List.flatMap_cons, List.nodup_append]
    refine ⟨?_, nodup_levels hn hu D hD.2, ?_⟩
    · exact (List.Sublist.map _ List.filter_sublist).nodup hn
    · intro x hx y hy heq
      subst heq
      obtain ⟨d, hd, hy⟩ := List.mem_flatMap.1 hy
      have := hu x e d (mem_levelOf.1 hx) (mem_levelOf.1 hy)
      subst this
      exact hD.1 hd

/-- C45, the parallel bottom-up visitor: whatever the iteration order of the level table and
whatever order the threads of one level run in, every generator is visited exactly once and every
instance before the generator instantiating it. -/
theorem parallel_bottom_up (kids : Nat → List Nat) (fuel root : Nat) (ns : List Nat) (es : Edges)
    (h : buildGraph kids fuel root = .ok (ns, es)) (n : Nat) (hn : ns.length ≤ n)
    (idx : List (Nat × Nat)) (hi : levelLoop kids n [(root, 0)] [] = .ok idx)
    (ord : List (Nat × Nat)) (hp : ord.Perm idx) :
    BottomUp kids root (parallelOrder idx ord) := by
  obtain ⟨idx', h1, h2, h3⟩ := levels_are_depths kids fuel root ns es h n hn
  rw [hi] at h1
  simp only [Res.ok.injEq] at h1
  subst h1
  have hno : (ord.map (·.1)).Nodup := (hp.map _).nodup_iff.2 h2
  have hu : ∀ g d d', (g, d) ∈ ord → (g, d') ∈ ord → d = d' := by
    intro g d d' ha hb
    obtain ⟨x, y, e⟩ := List.append_of_mem ha
    rw [e] at hno hb
    rw [List.map_append, List.map_cons, List.nodup_append, List.nodup_cons] at hno
    rcases List.mem_append.1 hb with h | h
    · exact absurd rfl (hno.2.2 g (List.mem_map.2 ⟨_, h, rfl⟩) g (by simp))
    · rcases List.mem_cons.1 h with h | h
      · simp at h; exact h.symm
      · exact absurd (List.mem_map.2 ⟨_, h, rfl⟩) hno.2.1.1
  have hpw : (List.range (maxLevel idx + 1)).reverse.Pairwise (· > ·) := by
    rw [List.pairwise_reverse]
    exact List.pairwise_lt_range
  have hmax : ∀ g d, (g, d) ∈ idx → d ∈ (List.range (maxLevel idx + 1)).reverse := by
    intro g d hm
    have := (le_foldl_max idx 0).2 _ hm
    simp [maxLevel] at this ⊢
    omega
  refine ⟨?_, ?_, ?_⟩
  · exact nodup_levels hno hu _ (hpw.imp (fun h e => by omega))
  · intro g
    rw [parallelOrder, List.mem_flatMap]
    constructor
    · rintro ⟨d, _, hg⟩
      exact ⟨d, (h3 g d).1 (hp.mem_iff.1 (mem_levelOf.1 hg))⟩
    · rintro ⟨d, hd⟩
      have hm := (h3 g d).2 hd
      exact ⟨d, hmax g d hm, mem_levelOf.2 (hp.mem_iff.2 hm)⟩
  · intro a g b e c hc
    have hg : g ∈ parallelOrder idx ord := by rw [e]; simp
    rw [parallelOrder, List.mem_flatMap] at hg
    obtain ⟨d, _, hg⟩ := hg
    have hgd := mem_levelOf.1 hg
    have hcd : (c, d + 1) ∈ idx := (h3 c (d + 1)).2 (.step ((h3 g d).1 (hp.mem_iff.1 hgd)) hc)
    exact levels_split hu _ hpw a g b e d hgd c (d + 1) (hp.mem_iff.2 hcd) (hmax _ _ hcd) (by omega)

/-! ## A concrete hierarchy -/

/-- Top 0 with instances 1 and 2; 1 contains 3. -/
def demoKids : Nat → List Nat
  | 0 => [1, 2]
  | 1 => [3]
  | _ => []

example : buildGraph demoKids 4 0 = .ok ([0, 1, 3, 2], [(0, 1), (0, 2), (1, 3)]) := by decide
example : topSort demoKids 4 [2, 0, 1, 3] = .ok [2, 3, 1, 0] := by decide
example : levelLoop demoKids 4 [(0, 0)] [] = .ok [(0, 0), (1, 1), (2, 1), (3, 2)] := by decide
example : parallelOrder [(0, 0), (1, 1), (2, 1), (3, 2)] [(2, 1), (0, 0), (1, 1), (3, 2)] = [3, 2, 1, 0] := by
  decide
/-- A generator instantiated twice. -/
example : buildGraph (fun g => if g = 0 then [1, 2] else if g = 1 then [2] else []) 4 0 =
    .throw .generator := by decide

end Kratos.Graph
