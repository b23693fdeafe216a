import Verif.Base

/-!
Depth-first post-order search, the helper shared by the generator order and the struct order
(src/graph.cc), with what is needed about paths.
-/

namespace Kratos.Graph

variable {α : Type} [DecidableEq α]

/-- The two containers of the search: the set of visited nodes and the output queue. -/
abbrev DS (α : Type) := List α × List α

/-- `for (child : …) if (visited.find(child) == visited.end()) helper(child)`
(src/graph.cc:78-84 and 88-95). -/
def visitAll (f : α → DS α → Res (DS α)) : List α → DS α → Res (DS α)
  | [], s => .ok s
  | c :: cs, s => (if c ∈ s.1 then .ok s else f c s).bind fun s' => visitAll f cs s'

/-- A `for` loop whose body may throw: the first exception ends it. -/
def each {β γ : Type} (f : β → γ → Res γ) : List β → γ → Res γ
  | [], s => .ok s
  | c :: cs, s => (f c s).bind fun s' => each f cs s'

/-- `topological_sort_helper` (src/graph.cc:71-86 and 203-217): mark, visit the unvisited children,
push.  The recursion depth is bounded by `fuel`; running out of it is `.ub` and the theorems show it
never happens with more fuel than nodes. -/
def visitNode (succ : α → List α) : Nat → α → DS α → Res (DS α)
  | 0, _, _ => .ub
  | f + 1, n, s =>
    (visitAll (visitNode succ f) (succ n) (n :: s.1, s.2)).bind fun r => .ok (r.1, r.2 ++ [n])

/-- `topological_sort` (src/graph.cc:88-99): the helper from every node not visited yet. -/
def topSort (succ : α → List α) (fuel : Nat) (nodes : List α) : Res (List α) :=
  (visitAll (visitNode succ fuel) nodes ([], [])).bind fun s => .ok s.2

/-- One or more edges. -/
inductive Path (succ : α → List α) : α → α → Prop
  | one {a b} : b ∈ succ a → Path succ a b
  | more {a b c} : Path succ a b → c ∈ succ b → Path succ a c

omit [DecidableEq α] in
theorem Path.cons {succ : α → List α} {a b c : α} (h : b ∈ succ a) (p : Path succ b c) :
    Path succ a c := by
  induction p with
  | one h2 => exact .more (.one h) h2
  | more _ h2 ih => exact .more ih h2

/-- Successors come before the node. -/
def Before (succ : α → List α) (q : List α) : Prop :=
  ∀ a m b, q = a ++ m :: b → ∀ c ∈ succ m, c ∈ a

omit [DecidableEq α] in
theorem Before.nil (succ : α → List α) : Before succ [] := by
  intro a m b h; simp at h

omit [DecidableEq α] in
theorem Before.snoc {succ : α → List α} {q : List α} {n : α} (h : Before succ q)
    (hn : ∀ c ∈ succ n, c ∈ q) : Before succ (q ++ [n]) := by
  intro a m b e c hc
  rcases List.eq_nil_or_concat b with hb | ⟨b', x, hb⟩
  · subst hb
    have := List.append_inj' e (by simp)
    obtain ⟨e1, e2⟩ := this
    simp at e2
    subst e1; subst e2; exact hn c hc
  · subst hb
    have e' : q ++ [n] = (a ++ m :: b') ++ [x] := by simpa using e
    have := List.append_inj' e' (by simp)
    exact h a m b' this.1 c hc

/-- What a search step guarantees: the queue grew by `new`, new nodes are distinct and were
unvisited, visited = old visited + new. -/
structure Grown (s s' : DS α) (new : List α) : Prop where
  queue : s'.2 = s.2 ++ new
  nodup : new.Nodup
  fresh : ∀ m ∈ new, m ∉ s.1
  vis : ∀ m, m ∈ s'.1 ↔ m ∈ s.1 ∨ m ∈ new

omit [DecidableEq α] in
theorem Grown.refl (s : DS α) : Grown s s [] :=
  ⟨by simp, List.nodup_nil, by simp, by simp⟩

omit [DecidableEq α] in
theorem Grown.trans {s s' s'' : DS α} {a b : List α} (h1 : Grown s s' a) (h2 : Grown s' s'' b) :
    Grown s s'' (a ++ b) := by
  refine ⟨by rw [h2.queue, h1.queue, List.append_assoc], ?_, ?_, ?_⟩
  · rw [List.nodup_append]
    refine ⟨h1.nodup, h2.nodup, ?_⟩
    intro x hx y hy e
    subst e
    exact h2.fresh x hy ((h1.vis x).2 (Or.inr hx))
  · intro m hm
    rcases List.mem_append.1 hm with h | h
    · exact h1.fresh m h
    · intro hs; exact h2.fresh m h ((h1.vis m).2 (Or.inl hs))
  · intro m
    rw [h2.vis, h1.vis, List.mem_append, or_assoc]

/-- The whole specification of one call, for an acyclic part `U` of the graph. -/
def Spec (succ : α → List α) (U : α → Prop) (f : α → DS α → Res (DS α)) : Prop :=
  ∀ n s s', U n → n ∉ s.1 → (∀ g ∈ s.1, g ∈ s.2 ∨ Path succ g n) → Before succ s.2 →
    (∀ m ∈ s.2, m ∈ s.1) → f n s = .ok s' →
    ∃ new, Grown s s' new ∧ n ∈ new ∧ (∀ m ∈ new, m = n ∨ Path succ n m) ∧ Before succ s'.2

theorem visitAll_spec {succ : α → List α} {U : α → Prop} {f : α → DS α → Res (DS α)}
    (hf : Spec succ U f) (R : α → Prop) : ∀ (cs : List α) (s s' : DS α), (∀ c ∈ cs, U c) → (∀ c ∈ cs, R c) →
    (∀ g ∈ s.1, g ∈ s.2 ∨ ∀ c ∈ cs, Path succ g c) → Before succ s.2 → (∀ m ∈ s.2, m ∈ s.1) →
    visitAll f cs s = .ok s' →
    ∃ new, Grown s s' new ∧ (∀ c ∈ cs, c ∈ s'.1) ∧ (∀ m ∈ new, ∃ c, R c ∧ (m = c ∨ Path succ c m)) ∧
      Before succ s'.2
  | [], s, s', _, _, _, hb, _, h => by
    simp only [visitAll, Res.ok.injEq] at h
    subst h
    exact ⟨[], .refl s, by simp, by simp, hb⟩
  | c :: cs, s, s', hU, hR, hg, hb, hq, h => by
    simp only [visitAll, Res.bind_eq_ok] at h
    obtain ⟨t, ht, h⟩ := h
    split at ht
    · rename_i hc
      simp only [Res.ok.injEq] at ht
      subst ht
      obtain ⟨new, g1, g2, g3, g4⟩ := visitAll_spec hf R cs s s' (fun x hx => hU x (.tail _ hx))
        (fun x hx => hR x (.tail _ hx))
        (fun g hgs => (hg g hgs).imp id (fun k x hx => k x (.tail _ hx))) hb hq h
      refine ⟨new, g1, ?_, g3, g4⟩
      intro x hx
      rcases List.mem_cons.1 hx with rfl | hx
      · exact (g1.vis _).2 (Or.inl hc)
      · exact g2 x hx
    · rename_i hc
      obtain ⟨n1, g1, g2, g3, g4⟩ := hf c s t (hU c (.head _)) hc
        (fun g hgs => (hg g hgs).imp id (fun k => k c (.head _))) hb hq ht
      have hq' : ∀ m ∈ t.2, m ∈ t.1 := by
        intro m hm
        rw [g1.queue] at hm
        rcases List.mem_append.1 hm with h | h
        · exact (g1.vis m).2 (Or.inl (hq m h))
        · exact (g1.vis m).2 (Or.inr h)
      obtain ⟨n2, k1, k2, k3, k4⟩ := visitAll_spec hf R cs t s' (fun x hx => hU x (.tail _ hx))
        (fun x hx => hR x (.tail _ hx)) (by
          intro g hgt
          rcases (g1.vis g).1 hgt with h | h
          · rcases hg g h with h | h
            · left; rw [g1.queue]; simp [h]
            · exact Or.inr fun x hx => h x (.tail _ hx)
          · left; rw [g1.queue]; simp [h]) g4 hq' h
      refine ⟨n1 ++ n2, g1.trans k1, ?_, ?_, k4⟩
      · intro x hx
        rcases List.mem_cons.1 hx with rfl | hx
        · exact (k1.vis _).2 (Or.inl ((g1.vis _).2 (Or.inr g2)))
        · exact k2 x hx
      · intro m hm
        rcases List.mem_append.1 hm with h | h
        · exact ⟨c, hR c (.head _), g3 m h⟩
        · exact k3 m h

theorem visitNode_spec {succ : α → List α} {U : α → Prop} (hcl : ∀ a, U a → ∀ b ∈ succ a, U b)
    (hac : ∀ a, U a → ¬ Path succ a a) : ∀ fuel, Spec succ U (visitNode succ fuel)
  | 0 => by intro n s s' _ _ _ _ _ h; simp [visitNode] at h
  | f + 1 => by
    intro n s s' hU hn hg hb hq h
    simp only [visitNode, Res.bind_eq_ok] at h
    obtain ⟨t, ht, h⟩ := h
    simp only [Res.ok.injEq] at h
    subst h
    obtain ⟨new, g1, g2, g3, g4⟩ := visitAll_spec (visitNode_spec hcl hac f) (fun c => c ∈ succ n)
      (succ n) (n :: s.1, s.2) t (hcl n hU) (fun c hc => hc)
      (by
        intro g hgs
        rcases List.mem_cons.1 hgs with rfl | hgs
        · exact Or.inr fun c hc => .one hc
        · exact (hg g hgs).imp id (fun p c hc => .more p hc)) hb
      (fun m hm => .tail _ (hq m hm)) ht
    have hnn : n ∉ new := fun hc => g1.fresh n hc (by simp)
    refine ⟨new ++ [n], ⟨?_, ?_, ?_, ?_⟩, by simp, ?_, ?_⟩
    · show t.2 ++ [n] = _
      rw [g1.queue]; simp
    · rw [List.nodup_append]
      refine ⟨g1.nodup, by simp, ?_⟩
      intro x hx y hy e
      simp at hy
      subst e; subst hy; exact hnn hx
    · intro m hm
      rcases List.mem_append.1 hm with h | h
      · intro hs; exact g1.fresh m h (.tail _ hs)
      · simp at h; subst h; exact hn
    · intro m
      show m ∈ t.1 ↔ _
      rw [g1.vis]
      simp only [List.mem_cons, List.mem_append, List.not_mem_nil, or_false]
      constructor
      · rintro ((h | h) | h)
        · exact Or.inr (Or.inr h)
        · exact Or.inl h
        · exact Or.inr (Or.inl h)
      · rintro (h | h | h)
        · exact Or.inl (Or.inr h)
        · exact Or.inr h
        · exact Or.inl (Or.inl h)
    · intro m hm
      rcases List.mem_append.1 hm with h | h
      · obtain ⟨c, hc, h⟩ := g3 m h
        rcases h with rfl | h
        · exact Or.inr (.one hc)
        · exact Or.inr (.cons hc h)
      · simp at h; exact Or.inl h
    · show Before succ (t.2 ++ [n])
      refine g4.snoc ?_
      intro c hc
      have hv := (g1.vis c).1 (g2 c hc)
      rw [g1.queue]
      rcases hv with hv | hv
      · rcases List.mem_cons.1 hv with rfl | hv
        · exact absurd (.one hc) (hac _ hU)
        · rcases hg c hv with h | h
          · simp [h]
          · exact absurd (Path.more h hc) (hac c (hcl n hU c hc))
      · simp [hv]

/-- Number of nodes of `l` not visited. -/
def left (l : List α) (vis : List α) : Nat := (l.filter fun x => decide (x ∉ vis)).length

theorem left_mono {l v v' : List α} (h : ∀ x ∈ v, x ∈ v') : left l v' ≤ left l v := by
  unfold left
  induction l with
  | nil => simp
  | cons a l ih =>
    simp only [List.filter_cons]
    by_cases h1 : a ∈ v'
    · by_cases h2 : a ∈ v
      · simpa [h1, h2] using ih
      · simp [h1, h2]; exact Nat.le_succ_of_le (by simpa using ih)
    · have h2 : a ∉ v := fun h' => h1 (h a h')
      simpa [h1, h2] using ih

theorem left_lt {l v : List α} {n : α} (hn : n ∈ l) (hv : n ∉ v) : left l (n :: v) < left l v := by
  unfold left
  induction l with
  | nil => simp at hn
  | cons a l ih =>
    simp only [List.filter_cons]
    have hm := left_mono (l := l) (v := v) (v' := n :: v) (fun x hx => .tail _ hx)
    unfold left at hm
    by_cases ha : a = n
    · subst ha
      simp [hv]; exact Nat.lt_succ_of_le (by simpa using hm)
    · have hn' : n ∈ l := by
        rcases List.mem_cons.1 hn with h | h
        · exact absurd h.symm ha
        · exact h
      have := ih hn'
      by_cases hav : a ∈ v
      · simpa [hav, ha] using this
      · simpa [hav, ha] using this

/-- The recursion ends: with more fuel than unvisited nodes there is a result, and visited nodes
stay visited. -/
theorem visitNode_ends (succ : α → List α) (l : List α) (hcl : ∀ a ∈ l, ∀ b ∈ succ a, b ∈ l) :
    ∀ fuel n s, n ∈ l → n ∉ s.1 → left l s.1 ≤ fuel →
      ∃ s', visitNode succ fuel n s = .ok s' ∧ ∀ x ∈ s.1, x ∈ s'.1
  | 0, n, s, hn, hs, hf => by
    have := left_lt hn hs
    omega
  | f + 1, n, s, hn, hs, hf => by
    have hlt := left_lt hn hs
    have key : ∀ cs (t : DS α), (∀ c ∈ cs, c ∈ l) → left l t.1 ≤ f →
        ∃ t', visitAll (visitNode succ f) cs t = .ok t' ∧ ∀ x ∈ t.1, x ∈ t'.1 := by
      intro cs
      induction cs with
      | nil => intro t _ _; exact ⟨t, rfl, fun x hx => hx⟩
      | cons c cs ih =>
        intro t hc ht
        by_cases hv : c ∈ t.1
        · obtain ⟨t', h1, h2⟩ := ih t (fun x hx => hc x (.tail _ hx)) ht
          exact ⟨t', by simp [visitAll, hv, h1], h2⟩
        · obtain ⟨u, hu, hm⟩ := visitNode_ends succ l hcl f c t (hc c (.head _)) hv ht
          obtain ⟨t', h1, h2⟩ := ih u (fun x hx => hc x (.tail _ hx))
            (Nat.le_trans (left_mono hm) ht)
          exact ⟨t', by simp [visitAll, hv, hu, h1], fun x hx => h2 x (hm x hx)⟩
    obtain ⟨t, h1, h2⟩ := key (succ n) (n :: s.1, s.2) (hcl n hn) (by show left l (n :: s.1) ≤ f; omega)
    exact ⟨(t.1, t.2 ++ [n]), by simp [visitNode, h1], fun x hx => h2 x (.tail _ hx)⟩

theorem visitAll_ends (succ : α → List α) (l : List α) (hcl : ∀ a ∈ l, ∀ b ∈ succ a, b ∈ l)
    (fuel : Nat) : ∀ (cs : List α) (s : DS α), (∀ c ∈ cs, c ∈ l) → left l s.1 ≤ fuel →
      ∃ s', visitAll (visitNode succ fuel) cs s = .ok s'
  | [], s, _, _ => ⟨s, rfl⟩
  | c :: cs, s, hc, hf => by
    by_cases hv : c ∈ s.1
    · obtain ⟨t, ht⟩ := visitAll_ends succ l hcl fuel cs s (fun x hx => hc x (.tail _ hx)) hf
      exact ⟨t, by simp [visitAll, hv, ht]⟩
    · obtain ⟨u, hu, hm⟩ := visitNode_ends succ l hcl fuel c s (hc c (.head _)) hv hf
      obtain ⟨t, ht⟩ := visitAll_ends succ l hcl fuel cs u (fun x hx => hc x (.tail _ hx))
        (Nat.le_trans (left_mono hm) hf)
      exact ⟨t, by simp [visitAll, hv, hu, ht]⟩

/-- Depth-first post-order of a finite graph without cycles: it ends, lists every node exactly once
and every successor before the node. -/
theorem topSort_spec (succ : α → List α) (nodes : List α) (hnd : nodes.Nodup)
    (hcl : ∀ a ∈ nodes, ∀ b ∈ succ a, b ∈ nodes) (hac : ∀ a ∈ nodes, ¬ Path succ a a) (fuel : Nat)
    (hf : nodes.length ≤ fuel) :
    ∃ l, topSort succ fuel nodes = .ok l ∧ l.Perm nodes ∧ Before succ l := by
  obtain ⟨s, hs⟩ := visitAll_ends succ nodes hcl fuel nodes ([], []) (fun c hc => hc)
    (Nat.le_trans (by unfold left; exact List.length_filter_le ..) hf)
  obtain ⟨new, g1, g2, g3, g4⟩ := visitAll_spec (visitNode_spec hcl hac fuel) (fun c => c ∈ nodes)
    nodes ([], []) s (fun c hc => hc) (fun c hc => hc) (by simp) (Before.nil _) (by simp) hs
  refine ⟨s.2, by simp [topSort, hs], ?_, g4⟩
  have hq : s.2 = new := by simpa using g1.queue
  rw [hq]
  refine (List.perm_ext_iff_of_nodup g1.nodup hnd).2 ?_
  intro m
  constructor
  · intro hm
    obtain ⟨c, hc, h⟩ := g3 m hm
    rcases h with rfl | h
    · exact hc
    · clear hm
      induction h with
      | one h => exact hcl _ hc _ h
      | more _ h ih => exact hcl _ ih _ h
  · intro hm
    have := (g1.vis m).1 (g2 m hm)
    simpa using this

end Kratos.Graph
