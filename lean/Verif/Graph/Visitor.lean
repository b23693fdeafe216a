import Verif.Graph.Dfs

/-!
# The IR visitor (`src/ir.cc`)

`kids n` lists `get_child(0) … get_child(child_count()-1)` of node `n`.  The state is the set
`visited_` and the sequence of nodes whose `accept` was called.  Here `accept` does not change the
tree; the loop that tolerates removals is modelled separately (`scan`).
-/

namespace Kratos.Graph

/-- `visited_` and the `accept` calls so far. -/
abbrev VS := List Nat × List Nat

/-- `IRVisitor::visit_root` (src/ir.cc:24-40). -/
def visitRoot (kids : Nat → List Nat) : Nat → Nat → VS → Res VS
  | 0, _, _ => .ub
  | f + 1, n, s =>
    each (fun c s => if c ∈ s.1 then .ok s else visitRoot kids f c (c :: s.1, s.2)) (kids n)
      (s.1, s.2 ++ [n])

/-- `IRVisitor::visit_root_s` (src/ir.cc:42-52): no `visited_`. -/
def visitRootS (kids : Nat → List Nat) : Nat → Nat → List Nat → Res (List Nat)
  | 0, _, _ => .ub
  | f + 1, n, out => each (visitRootS kids f) (kids n) (out ++ [n])

/-- The child loop of `visit_root` when visiting a child may change the list of children
(src/ir.cc:29-38): `act c l` is the list after visiting `c`.  The index advances only if the same
child is still at it. -/
def scan (act : Nat → List Nat → List Nat) : Nat → Nat → List Nat → List Nat → List Nat →
    Res (List Nat × List Nat)
  | 0, _, _, _, _ => .ub
  | f + 1, count, kids, vis, out =>
    match kids[count]? with
    | none => .ok (kids, out)
    | some c =>
      let r := if c ∈ vis then (kids, vis, out) else (act c kids, c :: vis, out ++ [c])
      scan act f (if r.1[count]? = some c then count + 1 else count) r.1 r.2.1 r.2.2

/-! ## C47 -/

/-- `m` is `n` or can be reached from it through children. -/
def Reach (kids : Nat → List Nat) (n m : Nat) : Prop := m = n ∨ Path kids n m

/-- Every node but the first comes after one of its parents. -/
def Discovered (kids : Nat → List Nat) (l : List Nat) : Prop :=
  ∀ a m b, l = a ++ m :: b → a = [] ∨ ∃ p ∈ a, m ∈ kids p

structure VPost (kids : Nat → List Nat) (roots : List Nat) (s s' : VS) (new : List Nat) : Prop where
  out : s'.2 = s.2 ++ new
  nodup : new.Nodup
  fresh : ∀ m ∈ new, m ∉ s.1
  vis : ∀ m, m ∈ s'.1 ↔ m ∈ s.1 ∨ m ∈ new
  reach : ∀ m ∈ new, ∃ r ∈ roots, Reach kids r m
  closed : ∀ m ∈ new, ∀ c ∈ kids m, c ∈ s'.1
  found : ∀ a m b, new = a ++ m :: b → m ∈ roots ∨ ∃ p ∈ a, m ∈ kids p
  roots : ∀ r ∈ roots, r ∈ s'.1

theorem each_visit {kids : Nat → List Nat} {g : Nat → VS → Res VS}
    (ih : ∀ n s s', n ∉ s.1 → g n (n :: s.1, s.2) = .ok s' → ∃ new, VPost kids [n] s s' new) :
    ∀ (cs : List Nat) (s s' : VS),
      each (fun c s => if c ∈ s.1 then .ok s else g c (c :: s.1, s.2)) cs s = .ok s' →
      ∃ new, VPost kids cs s s' new
  | [], s, s', h => by
    simp only [each, Res.ok.injEq] at h
    subst h
    exact ⟨[], by simp, List.nodup_nil, by simp, by simp, by simp, by simp, by simp, by simp⟩
  | c :: cs, s, s', h => by
    simp only [each, Res.bind_eq_ok] at h
    obtain ⟨t, ht, h⟩ := h
    split at ht
    · rename_i hc
      simp only [Res.ok.injEq] at ht
      subst ht
      obtain ⟨new, p⟩ := each_visit ih cs s s' h
      refine ⟨new, p.out, p.nodup, p.fresh, p.vis, ?_, p.closed, ?_, ?_⟩
      · intro m hm; obtain ⟨r, hr, h⟩ := p.reach m hm; exact ⟨r, .tail _ hr, h⟩
      · intro a m b e
        rcases p.found a m b e with h | h
        · exact Or.inl (.tail _ h)
        · exact Or.inr h
      · intro r hr
        rcases List.mem_cons.1 hr with rfl | hr
        · exact (p.vis _).2 (Or.inl hc)
        · exact p.roots r hr
    · rename_i hc
      obtain ⟨n1, p⟩ := ih c s t hc ht
      obtain ⟨n2, q⟩ := each_visit ih cs t s' h
      refine ⟨n1 ++ n2, by rw [q.out, p.out, List.append_assoc], ?_, ?_, ?_, ?_, ?_, ?_, ?_⟩
      · rw [List.nodup_append]
        refine ⟨p.nodup, q.nodup, ?_⟩
        intro x hx y hy e
        subst e
        exact q.fresh x hy ((p.vis x).2 (Or.inr hx))
      · intro m hm
        rcases List.mem_append.1 hm with h | h
        · exact p.fresh m h
        · intro hs; exact q.fresh m h ((p.vis m).2 (Or.inl hs))
      · intro m; rw [q.vis, p.vis, List.mem_append, or_assoc]
      · intro m hm
        rcases List.mem_append.1 hm with h | h
        · obtain ⟨r, hr, h⟩ := p.reach m h
          simp at hr; subst hr
          exact ⟨r, .head _, h⟩
        · obtain ⟨r, hr, h⟩ := q.reach m h; exact ⟨r, .tail _ hr, h⟩
      · intro m hm x hx
        rcases List.mem_append.1 hm with h | h
        · exact (q.vis x).2 (Or.inl (p.closed m h x hx))
        · exact q.closed m h x hx
      · intro a m b e
        rcases List.append_eq_append_iff.1 e with ⟨a', e1, e2⟩ | ⟨a', e1, e2⟩
        · rcases q.found a' m b e2 with h | ⟨x, hx, h⟩
          · exact Or.inl (.tail _ h)
          · exact Or.inr ⟨x, by rw [e1]; simp [hx], h⟩
        · cases a' with
          | nil =>
            simp at e1 e2
            rcases q.found [] m b (by simpa using e2.symm) with h | ⟨x, hx, h⟩
            · exact Or.inl (.tail _ h)
            · simp at hx
          | cons y ys =>
            simp at e2
            obtain ⟨rfl, rfl⟩ := e2
            rcases p.found a m ys e1 with h | h
            · simp at h; subst h; exact Or.inl (.head _)
            · exact Or.inr h
      · intro r hr
        rcases List.mem_cons.1 hr with rfl | hr
        · exact (q.vis _).2 (Or.inl (p.roots _ (by simp)))
        · exact q.roots r hr

/-- What one call does, the node being counted as visited by the caller. -/
theorem visitRoot_post (kids : Nat → List Nat) : ∀ f n s s', visitRoot kids f n s = .ok s' →
    ∃ new, VPost kids (kids n) (s.1, s.2 ++ [n]) s' new
  | 0, n, s, s', h => by simp [visitRoot] at h
  | f + 1, n, s, s', h => by
    rw [visitRoot] at h
    refine each_visit (g := visitRoot kids f) ?_ (kids n) (s.1, s.2 ++ [n]) s' h
    intro c t t' hc ht
    obtain ⟨new, p⟩ := visitRoot_post kids f c _ _ ht
    have hcn : c ∉ new := fun h => p.fresh c h (by simp)
    refine ⟨c :: new, by simpa using p.out, ?_, ?_, ?_, ?_, ?_, ?_, ?_⟩
    · rw [List.nodup_cons]; exact ⟨hcn, p.nodup⟩
    · intro m hm
      rcases List.mem_cons.1 hm with rfl | hm
      · exact hc
      · intro h; exact p.fresh m hm (by simp [h])
    · intro m
      rw [p.vis]
      simp only [List.mem_cons]
      constructor
      · rintro ((h | h) | h)
        · exact Or.inr (Or.inl h)
        · exact Or.inl h
        · exact Or.inr (Or.inr h)
      · rintro (h | h | h)
        · exact Or.inl (Or.inr h)
        · exact Or.inl (Or.inl h)
        · exact Or.inr h
    · intro m hm
      rcases List.mem_cons.1 hm with rfl | hm
      · exact ⟨m, by simp, Or.inl rfl⟩
      · obtain ⟨r, hr, h⟩ := p.reach m hm
        refine ⟨c, by simp, Or.inr ?_⟩
        rcases h with rfl | h
        · exact .one hr
        · exact .cons hr h
    · intro m hm x hx
      rcases List.mem_cons.1 hm with rfl | hm
      · exact p.roots x hx
      · exact p.closed m hm x hx
    · intro a m b e
      cases a with
      | nil => simp at e; left; simp [e.1]
      | cons y a =>
        simp at e
        obtain ⟨rfl, e⟩ := e
        right
        rcases p.found a m b e with h | ⟨x, hx, h⟩
        · exact ⟨c, by simp, h⟩
        · exact ⟨x, by simp [hx], h⟩
    · intro r hr
      simp at hr; subst hr
      exact (p.vis _).2 (Or.inl (by simp))

/-- The visit ends: the recursion is never deeper than the number of nodes. -/
theorem visit_ends (kids : Nat → List Nat) (l : List Nat) (hcl : ∀ a ∈ l, ∀ b ∈ kids a, b ∈ l) :
    ∀ f n s, n ∈ l → left l s.1 < f → ∃ s', visitRoot kids f n s = .ok s'
  | 0, n, s, _, h => by omega
  | f + 1, n, s, hn, hf => by
    have key : ∀ cs (t : VS), (∀ c ∈ cs, c ∈ l) → left l t.1 ≤ f →
        ∃ t', each (fun c s => if c ∈ s.1 then .ok s else visitRoot kids f c (c :: s.1, s.2)) cs t = .ok t' := by
      intro cs
      induction cs with
      | nil => intro t _ _; exact ⟨t, rfl⟩
      | cons c cs ih =>
        intro t hc ht
        by_cases hv : c ∈ t.1
        · obtain ⟨t', h⟩ := ih t (fun x hx => hc x (.tail _ hx)) ht
          exact ⟨t', by simp [each, hv, h]⟩
        · have hlt := left_lt (hc c (.head _)) hv
          obtain ⟨u, hu⟩ := visit_ends kids l hcl f c (c :: t.1, t.2) (hc c (.head _))
            (by show left l (c :: t.1) < f; omega)
          obtain ⟨new, p⟩ := visitRoot_post kids f c _ _ hu
          have hm : ∀ x ∈ t.1, x ∈ u.1 := fun x hx => (p.vis x).2 (Or.inl (by simp [hx]))
          obtain ⟨t', h⟩ := ih u (fun x hx => hc x (.tail _ hx)) (Nat.le_trans (left_mono hm) ht)
          exact ⟨t', by simp [each, hv, hu, h]⟩
    rw [visitRoot]
    exact key (kids n) _ (hcl n hn) (by show left l s.1 ≤ f; omega)

/-- C47.  For every finite graph of IR nodes (sharing allowed) in which the root is not its own
descendant, a fresh visitor called on the root calls `accept` exactly once on every node reachable
from the root and on nothing else, on the root first, and on every other node after one of the nodes
that has it as a child. -/
theorem visits_once_partial (kids : Nat → List Nat) (l : List Nat) (hcl : ∀ a ∈ l, ∀ b ∈ kids a, b ∈ l)
    (root : Nat) (hr : root ∈ l) (hroot : ¬ Path kids root root) (f : Nat) (hf : l.length < f) :
    ∃ s, visitRoot kids f root ([], []) = .ok s ∧ s.2.Nodup ∧ s.2.head? = some root ∧
      (∀ m, m ∈ s.2 ↔ Reach kids root m) ∧ Discovered kids s.2 := by
  obtain ⟨s, hs⟩ := visit_ends kids l hcl f root ([], []) hr
    (by have : left l ([] : List Nat) ≤ l.length := List.length_filter_le ..
        show left l [] < f; omega)
  obtain ⟨new, p⟩ := visitRoot_post kids f root _ _ hs
  have hout : s.2 = root :: new := by simpa using p.out
  have hnr : root ∉ new := by
    intro h
    obtain ⟨r, hr, h⟩ := p.reach root h
    apply hroot
    rcases h with rfl | h
    · exact .one hr
    · exact .cons hr h
  refine ⟨s, hs, by rw [hout, List.nodup_cons]; exact ⟨hnr, p.nodup⟩, by rw [hout]; rfl, ?_, ?_⟩
  · intro m
    rw [hout, List.mem_cons]
    constructor
    · rintro (rfl | h)
      · exact Or.inl rfl
      · obtain ⟨r, hr, h⟩ := p.reach m h
        right
        rcases h with rfl | h
        · exact .one hr
        · exact .cons hr h
    · rintro (rfl | h)
      · exact Or.inl rfl
      · right
        have hv : ∀ x, x ∈ s.1 ↔ x ∈ new := by intro x; simpa using p.vis x
        induction h with
        | one h => exact (hv _).1 (p.roots _ h)
        | more _ h ih => exact (hv _).1 (p.closed _ ih _ h)
  · intro a m b e
    rw [hout] at e
    cases a with
    | nil => exact Or.inl rfl
    | cons y a =>
      simp at e
      obtain ⟨rfl, e⟩ := e
      right
      rcases p.found a m b e with h | ⟨x, hx, h⟩
      · exact ⟨root, by simp, h⟩
      · exact ⟨x, by simp [hx], h⟩

/-- In a tree the one parent of a node is visited before it. -/
theorem parents_first_in_trees (kids : Nat → List Nat) (l : List Nat) (hcl : ∀ a ∈ l, ∀ b ∈ kids a, b ∈ l)
    (root : Nat) (hr : root ∈ l) (hroot : ¬ Path kids root root)
    (htree : ∀ a b c, c ∈ kids a → c ∈ kids b → a = b) (f : Nat) (hf : l.length < f) :
    ∃ s, visitRoot kids f root ([], []) = .ok s ∧
      ∀ a m b, s.2 = a ++ m :: b → ∀ p, Reach kids root p → m ∈ kids p → p ∈ a := by
  obtain ⟨s, h1, h2, h3, h4, h5⟩ := visits_once_partial kids l hcl root hr hroot f hf
  refine ⟨s, h1, ?_⟩
  intro a m b e p hp hmp
  rcases h5 a m b e with rfl | ⟨q, hq, hm⟩
  · exfalso
    rw [e] at h3
    simp at h3
    subst h3
    apply hroot
    rcases hp with rfl | hp
    · exact .one hmp
    · exact .more hp hmp
  · rw [htree p q m hmp hm]; exact hq

/-- The claim of C47 read literally for graphs with sharing: every parent before every child. -/
def VisitorClaim : Prop :=
  ∀ (kids : Nat → List Nat) (l : List Nat), (∀ a ∈ l, ∀ b ∈ kids a, b ∈ l) → ∀ root ∈ l,
    (∀ a, ¬ Path kids a a) → ∀ f, l.length < f → ∀ s, visitRoot kids f root ([], []) = .ok s →
    ∀ a m b, s.2 = a ++ m :: b → ∀ p, Reach kids root p → m ∈ kids p → p ∈ a

/-- Node 3 is a child of 1 and of 2. -/
def shared : Nat → List Nat
  | 0 => [1, 2]
  | 1 => [3]
  | 2 => [3]
  | _ => []

theorem shared_order : visitRoot shared 5 0 ([], []) = .ok ([2, 3, 1], [0, 1, 3, 2]) := by decide

theorem shared_acyclic : ∀ a, ¬ Path shared a a := by
  have : ∀ a b, Path shared a b → a < b := by
    intro a b h
    have hs : ∀ a b, b ∈ shared a → a < b := by
      intro a b hb
      unfold shared at hb
      split at hb <;> simp at hb <;> omega
    induction h with
    | one h => exact hs _ _ h
    | more _ h ih => exact Nat.lt_trans ih (hs _ _ h)
  intro a h
  exact Nat.lt_irrefl _ (this a a h)

theorem shared_closed : ∀ a ∈ [0, 1, 2, 3], ∀ b ∈ shared a, b ∈ [0, 1, 2, 3] := by decide

/-- A shared node is visited under its first parent, before its second one. -/
theorem not_VisitorClaim : ¬ VisitorClaim := by
  intro h
  have := h shared [0, 1, 2, 3] shared_closed 0 (by decide) shared_acyclic 5 (by decide) _ shared_order
    [0, 1] 3 [2] rfl 2 (Or.inr (.one (by decide))) (by decide)
  revert this; decide

/-- The root is not put in `visited_`: a node that has the root as a child makes it be visited
twice. -/
theorem root_visited_twice :
    visitRoot (fun n => if n = 0 then [1] else [0]) 4 0 ([], []) = .ok ([0, 1], [0, 1, 0]) := by decide

example : ∃ s, visitRoot shared 5 0 ([], []) = .ok s ∧ s.2.Nodup ∧ s.2.head? = some 0 ∧
    (∀ m, m ∈ s.2 ↔ Reach shared 0 m) ∧ Discovered shared s.2 :=
  visits_once_partial shared [0, 1, 2, 3] shared_closed 0 (by decide) (shared_acyclic 0) 5 (by decide)

/-! ## Visiting without the visited set -/

/-- `visit_root_s` lists nodes once only on trees: the shared node is visited twice. -/
theorem visit_s_repeats : visitRootS shared 4 0 [] = .ok [0, 1, 3, 2, 3] := by decide

theorem visitRootS_append (kids : Nat → List Nat) : ∀ f n out r, visitRootS kids f n out = .ok r →
    ∃ new, r = out ++ n :: new ∧ ∀ out', visitRootS kids f n out' = .ok (out' ++ n :: new)
  | 0, n, out, r, h => by simp [visitRootS] at h
  | f + 1, n, out, r, h => by
    have key : ∀ cs out r, each (visitRootS kids f) cs out = .ok r →
        ∃ new, r = out ++ new ∧ ∀ out', each (visitRootS kids f) cs out' = .ok (out' ++ new) := by
      intro cs
      induction cs with
      | nil =>
        intro out r h
        simp only [each, Res.ok.injEq] at h
        exact ⟨[], by simp [h], by simp [each]⟩
      | cons c cs ih =>
        intro out r h
        simp only [each, Res.bind_eq_ok] at h
        obtain ⟨t, ht, h⟩ := h
        obtain ⟨n1, rfl, h1⟩ := visitRootS_append kids f c out t ht
        obtain ⟨n2, rfl, h2⟩ := ih _ _ h
        refine ⟨c :: n1 ++ n2, by simp, ?_⟩
        intro out'
        simp [each, h1, h2]
    rw [visitRootS] at h
    obtain ⟨new, rfl, h2⟩ := key (kids n) _ _ h
    refine ⟨new, by simp, ?_⟩
    intro out'
    rw [visitRootS, h2]; simp

/-- On a graph where every node has one parent, `visit_root` and `visit_root_s` make the same calls
in the same order. -/
theorem visit_s_same_on_trees (kids : Nat → List Nat) :
    ∀ f n s r, visitRootS kids f n s.2 = .ok r → r.Nodup → (∀ m ∈ s.1, m ∈ s.2 ∨ m = n) →
      ∃ vis, visitRoot kids f n s = .ok (vis, r) ∧ ∀ m ∈ vis, m ∈ r
  | 0, n, s, r, h, _, _ => by simp [visitRootS] at h
  | f + 1, n, s, r, h, hnd, hv => by
    rw [visitRootS] at h
    have key : ∀ cs (t : VS) r, each (visitRootS kids f) cs t.2 = .ok r → r.Nodup →
        (∀ m ∈ t.1, m ∈ t.2) →
        ∃ vis, each (fun c s => if c ∈ s.1 then .ok s else visitRoot kids f c (c :: s.1, s.2)) cs t = .ok (vis, r) ∧
          ∀ m ∈ vis, m ∈ r := by
      intro cs
      induction cs with
      | nil =>
        intro t r h _ hv
        simp only [each, Res.ok.injEq] at h
        exact ⟨t.1, by simp [each, ← h], by rw [← h]; exact hv⟩
      | cons c cs ih =>
        intro t r h hnd hv
        simp only [each, Res.bind_eq_ok] at h
        obtain ⟨u, hu, h⟩ := h
        obtain ⟨n1, e1, _⟩ := visitRootS_append kids f c t.2 u hu
        have hpre : ∃ n2, r = u ++ n2 := by
          clear ih hu e1 hnd
          induction cs generalizing u with
          | nil => simp only [each, Res.ok.injEq] at h; exact ⟨[], by simp [h]⟩
          | cons d ds ih2 =>
            simp only [each, Res.bind_eq_ok] at h
            obtain ⟨w, hw, h⟩ := h
            obtain ⟨k, e, _⟩ := visitRootS_append kids f d u w hw
            obtain ⟨k2, e2⟩ := ih2 w h
            exact ⟨d :: k ++ k2, by rw [e2, e]; simp⟩
        obtain ⟨n2, e2⟩ := hpre
        have hund : u.Nodup := by
          rw [e2, List.nodup_append] at hnd; exact hnd.1
        have hct : c ∉ t.2 := by
          rw [e1, List.nodup_append] at hund
          intro h; exact hund.2.2 c h c (by simp) rfl
        have hcv : c ∉ t.1 := fun h => hct (hv c h)
        obtain ⟨vis, h1, h2⟩ := visit_s_same_on_trees kids f c (c :: t.1, t.2) u hu hund
          (by
            intro m hm
            rcases List.mem_cons.1 hm with rfl | hm
            · exact Or.inr rfl
            · exact Or.inl (hv m hm))
        obtain ⟨vis2, h3, h4⟩ := ih (vis, u) r h hnd h2
        exact ⟨vis2, by simp [each, hcv, h1, h3], h4⟩
    rw [visitRoot]
    refine key (kids n) (s.1, s.2 ++ [n]) r h hnd ?_
    intro m hm
    rcases hv m hm with h | h <;> simp [h]

/-! ## Visitors that remove the visited child -/

/-- `del c`: visiting `c` takes it out of the list of children. -/
def removing (del : Nat → Bool) (c : Nat) (l : List Nat) : List Nat := if del c then l.erase c else l

theorem scan_spec (del : Nat → Bool) :
    ∀ f (done todo vis out : List Nat), todo.length < f → (done ++ todo).Nodup → (∀ c ∈ todo, c ∉ vis) →
      scan (removing del) f done.length (done ++ todo) vis out =
        .ok (done ++ todo.filter (fun c => !del c), out ++ todo)
  | 0, done, todo, vis, out, h, _, _ => by omega
  | f + 1, done, [], vis, out, h, _, _ => by simp [scan]
  | f + 1, done, c :: todo, vis, out, h, hnd, hv => by
    have hc : c ∉ vis := hv c (.head _)
    have hcd : c ∉ done := by
      rw [List.nodup_append] at hnd
      intro h; exact hnd.2.2 c h c (by simp) rfl
    have hct : c ∉ todo := by
      rw [List.nodup_append, List.nodup_cons] at hnd
      exact hnd.2.1.1
    have hget : (done ++ c :: todo)[done.length]? = some c := by simp
    have hv' : ∀ x ∈ todo, x ∉ c :: vis := by
      intro x hx hm
      rcases List.mem_cons.1 hm with rfl | hm
      · exact hct hx
      · exact hv x (.tail _ hx) hm
    rw [scan, hget]
    simp only [if_neg hc]
    cases hd : del c with
    | true =>
      have he : removing del c (done ++ c :: todo) = done ++ todo := by
        simp [removing, hd, List.erase_append_right _ hcd]
      have hne : (done ++ todo)[done.length]? ≠ some c := by
        intro h
        rw [List.getElem?_append_right (Nat.le_refl _)] at h
        exact hct (List.mem_of_getElem? h)
      rw [he, if_neg hne, scan_spec del f done todo (c :: vis) (out ++ [c]) (by simp at h; omega)
        (by
          rw [List.nodup_append, List.nodup_cons] at hnd
          rw [List.nodup_append]
          exact ⟨hnd.1, hnd.2.1.2, fun x hx y hy => hnd.2.2 x hx y (.tail _ hy)⟩) hv']
      simp [hd]
    | false =>
      have he : removing del c (done ++ c :: todo) = done ++ c :: todo := by simp [removing, hd]
      have hsn : done ++ c :: todo = (done ++ [c]) ++ todo := by simp
      have hlen : done.length + 1 = (done ++ [c]).length := by simp
      rw [he, if_pos hget, hsn, hlen, scan_spec del f (done ++ [c]) todo (c :: vis) (out ++ [c])
        (by simp at h; omega) (by rw [← hsn]; exact hnd) hv']
      simp [hd]

/-- C47 with removals: a pass may take the node it is visiting out of its parent.  Then every child
is still visited exactly once, in order, and exactly the removed ones are missing afterwards. -/
theorem removal_safe (del : Nat → Bool) (kids : List Nat) (hnd : kids.Nodup) (f : Nat)
    (hf : kids.length < f) :
    scan (removing del) f 0 kids [] [] = .ok (kids.filter (fun c => !del c), kids) := by
  simpa using scan_spec del f [] kids [] [] hf (by simpa using hnd) (by simp)

example : scan (removing fun c => c == 2 || c == 3) 5 0 [1, 2, 3, 4] [] [] = .ok ([1, 4], [1, 2, 3, 4]) := by
  decide

/-- A pass that, visiting a child, removes two earlier ones makes the visitor skip a node. -/
theorem removing_siblings_skips :
    scan (fun c l => if c = 3 then (l.erase 1).erase 2 else l) 6 0 [1, 2, 3, 4] [] [] =
      .ok ([3, 4], [1, 2, 3]) := by
  decide

end Kratos.Graph
