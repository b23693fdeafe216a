import Verif.Base

/-!
# C24: inference of assignment kinds (src/transform.cc:17-75)

A design is the list of its generators. Statements are trees: a statement is in one place (property C64), so the two
passes, which only touch a statement through its place, are maps over the design. The parallel tasks of the first pass
(src/ir.cc:54-92) work on different generators; the list order stands for the order in which they finish.
-/

namespace Kratos.Kinds

/-- `AssignmentType`, src/stmt.hh:30. -/
inductive AKind where
  | blocking | nonBlocking | undefined
  deriving DecidableEq, Repr

mutual
/-- An assignment, or any statement with statements inside it (`if`, `switch`, `for`, their bodies). `n` stands for everything
else about the statement. -/
inductive Node where
  | assign (k : AKind) (n : Nat)
  | group (n : Nat) (kids : Nodes)
inductive Nodes where
  | nil
  | cons (s : Node) (ss : Nodes)
end

/-- What a top-level statement or a function is. `seq check`: `check` is false if the block has the attribute
`check_assignment=false`. -/
inductive Place where
  | top | comb | seq (check : Bool) | function | latch | initial | final
  deriving DecidableEq, Repr

/-- A top-level statement. -/
structure Item where
  place : Place
  body : Nodes

structure Gen where
  cloned : Bool
  external : Bool
  items : List Item

/-- `AssignmentTypeVisitor::visit(AssignStmt*)` (src/transform.cc:22-33). -/
def fixKind (t : AKind) (check : Bool) (k : AKind) : Res AKind :=
  if k = .undefined then .ok t else if check && decide (k ≠ t) then .throw .var else .ok k

mutual
/-- `visit_root` with that visitor. -/
def fixNode (t : AKind) (check : Bool) : Node → Res Node
  | .assign k n => (fixKind t check k).bind fun k' => .ok (.assign k' n)
  | .group n kids => (fixNodes t check kids).bind fun kids' => .ok (.group n kids')
def fixNodes (t : AKind) (check : Bool) : Nodes → Res Nodes
  | .nil => .ok .nil
  | .cons s ss => (fixNode t check s).bind fun s' => (fixNodes t check ss).bind fun ss' => .ok (.cons s' ss')
end

/-- `AssignmentTypeBlockVisitor` (src/transform.cc:40-65): what kind it enforces, if any. -/
def enforced : Place → Option AKind
  | .comb => some .blocking
  | .function => some .blocking
  | .seq true => some .nonBlocking
  | .seq false => none
  | .top => none
  | .latch => none
  | .initial => none
  | .final => none

/-- First pass on one block. -/
def fixBlock (i : Item) : Res Item :=
  match enforced i.place with
  | some t => (fixNodes t true i.body).bind fun b => .ok { i with body := b }
  | none => .ok i

/-- Second pass on one block (src/transform.cc:72-74). -/
def fixRest (i : Item) : Res Item := (fixNodes .blocking false i.body).bind fun b => .ok { i with body := b }

def mapRes {α β : Type} (f : α → Res β) : List α → Res (List β)
  | [] => .ok []
  | a :: l => (f a).bind fun a' => (mapRes f l).bind fun l' => .ok (a' :: l')

/-- Cloned and external generators are skipped (src/transform.cc:23-24, 42-43, src/ir.cc:72). -/
def inGen (f : Item → Res Item) (g : Gen) : Res Gen :=
  if g.cloned || g.external then .ok g else (mapRes f g.items).bind fun is => .ok { g with items := is }

/-- `fix_assignment_type` (src/transform.cc:67-75). -/
def fixAssignmentType (d : List Gen) : Res (List Gen) := (mapRes (inGen fixBlock) d).bind fun d => mapRes (inGen fixRest) d

/-! ### Specification -/

mutual
/-- The kinds of all assignments in a statement, in order. -/
def Node.kinds : Node → List AKind
  | .assign k _ => [k]
  | .group _ kids => kids.kinds
def Nodes.kinds : Nodes → List AKind
  | .nil => []
  | .cons s ss => s.kinds ++ ss.kinds
end

mutual
/-- A statement without its kinds. -/
def Node.shape : Node → Node
  | .assign _ n => .assign .undefined n
  | .group n kids => .group n kids.shape
def Nodes.shape : Nodes → Nodes
  | .nil => .nil
  | .cons s ss => .cons s.shape ss.shape
end

/-- The kind an assignment must have by the rules of SystemVerilog. -/
def wanted : Place → AKind
  | .seq _ => .nonBlocking
  | _ => .blocking

/-- Places in which the kind of an assignment is checked. -/
def Checked (p : Place) : Prop := p = .comb ∨ p = .function ∨ p = .seq true

/-- Full claim of C24: after the pass all assignments have the wanted kind. -/
def KindClaim (d' : List Gen) : Prop := ∀ g ∈ d', g.cloned = false → g.external = false → ∀ i ∈ g.items, ∀ k ∈ i.body.kinds, k = wanted i.place

/-- What the pass makes of the kind `k` in a place. -/
def result (p : Place) (k : AKind) : AKind := if k = .undefined then (match p with | .seq true => .nonBlocking | _ => .blocking) else k

/-! ### Proof -/

mutual
theorem fixNode_kinds (t : AKind) (check : Bool) : ∀ (s s' : Node), fixNode t check s = .ok s' →
    s'.shape = s.shape ∧ s'.kinds = s.kinds.map (fun k => if k = .undefined then t else k) ∧ (check = true → ∀ k ∈ s.kinds, k = .undefined ∨ k = t)
  | .assign k n, s', h => by
    simp only [fixNode, fixKind, Res.bind_eq_ok] at h
    obtain ⟨k', h1, h⟩ := h
    injection h with h
    subst h
    split at h1
    · rename_i hk
      injection h1 with h1
      subst h1 hk
      exact ⟨rfl, by simp [Node.kinds], fun _ k hk => Or.inl (by simpa [Node.kinds] using hk)⟩
    · rename_i hk
      split at h1
      · cases h1
      · rename_i hc
        injection h1 with h1
        subst h1
        refine ⟨rfl, by simp [Node.kinds, hk], fun hcheck k' hk' => ?_⟩
        simp only [Node.kinds, List.mem_singleton] at hk'
        subst hk'
        rw [hcheck] at hc
        exact Or.inr (by simpa using hc)
  | .group n kids, s', h => by
    simp only [fixNode, Res.bind_eq_ok] at h
    obtain ⟨k', h1, h⟩ := h
    injection h with h
    subst h
    obtain ⟨h2, h3, h4⟩ := fixNodes_kinds t check kids k' h1
    exact ⟨by rw [Node.shape, Node.shape, h2], by simpa [Node.kinds] using h3, by simpa [Node.kinds] using h4⟩
theorem fixNodes_kinds (t : AKind) (check : Bool) : ∀ (s s' : Nodes), fixNodes t check s = .ok s' →
    s'.shape = s.shape ∧ s'.kinds = s.kinds.map (fun k => if k = .undefined then t else k) ∧ (check = true → ∀ k ∈ s.kinds, k = .undefined ∨ k = t)
  | .nil, s', h => by
    simp only [fixNodes, Res.ok.injEq] at h
    subst h
    exact ⟨rfl, rfl, fun _ _ h => nomatch h⟩
  | .cons s ss, s', h => by
    simp only [fixNodes, Res.bind_eq_ok] at h
    obtain ⟨a, h1, b, h2, h⟩ := h
    injection h with h
    subst h
    obtain ⟨h3, h4, h5⟩ := fixNode_kinds t check s a h1
    obtain ⟨h6, h7, h8⟩ := fixNodes_kinds t check ss b h2
    refine ⟨by rw [Nodes.shape, Nodes.shape, h3, h6], by rw [Nodes.kinds, Nodes.kinds, List.map_append, h4, h7], fun hc k hk => ?_⟩
    rcases List.mem_append.1 hk with hk | hk
    · exact h5 hc k hk
    · exact h8 hc k hk
end

mutual
theorem fixNode_total (t : AKind) (check : Bool) : ∀ s : Node, (check = true → ∀ k ∈ s.kinds, k = .undefined ∨ k = t) → ∃ s', fixNode t check s = .ok s'
  | .assign k n, h => by
    have h := fun hc => h hc k (by simp [Node.kinds])
    unfold fixNode fixKind
    by_cases hk : k = .undefined
    · exact ⟨_, by rw [if_pos hk]; rfl⟩
    · rw [if_neg hk]
      cases check
      · exact ⟨_, rfl⟩
      · have := (h rfl).resolve_left hk
        subst this
        exact ⟨_, by simp; rfl⟩
  | .group n kids, h => by
    obtain ⟨k', h1⟩ := fixNodes_total t check kids (by simpa [Node.kinds] using h)
    exact ⟨.group n k', by rw [fixNode, h1]; rfl⟩
theorem fixNodes_total (t : AKind) (check : Bool) : ∀ s : Nodes, (check = true → ∀ k ∈ s.kinds, k = .undefined ∨ k = t) → ∃ s', fixNodes t check s = .ok s'
  | .nil, _ => ⟨.nil, rfl⟩
  | .cons s ss, h => by
    obtain ⟨a, h1⟩ := fixNode_total t check s fun hc k hk => h hc k (List.mem_append_left _ hk)
    obtain ⟨b, h2⟩ := fixNodes_total t check ss fun hc k hk => h hc k (List.mem_append_right _ hk)
    exact ⟨.cons a b, by rw [fixNodes, h1, Res.ok_bind, h2]; rfl⟩
end

/-- Two lists of the same length, related element by element. -/
inductive All2 {α β : Type} (R : α → β → Prop) : List α → List β → Prop
  | nil : All2 R [] []
  | cons {a b l m} : R a b → All2 R l m → All2 R (a :: l) (b :: m)

theorem All2.mem_right {α β : Type} {R : α → β → Prop} {l : List α} {m : List β} (h : All2 R l m) : ∀ b ∈ m, ∃ a ∈ l, R a b := by
  induction h with
  | nil => intro b hb; cases hb
  | cons h1 _ ih =>
    intro b hb
    rcases List.mem_cons.1 hb with e | hb
    · exact ⟨_, List.mem_cons_self .., e ▸ h1⟩
    · obtain ⟨a, ha, h⟩ := ih b hb
      exact ⟨a, List.mem_cons_of_mem _ ha, h⟩

theorem mapRes_all2 {α β : Type} {f : α → Res β} : ∀ (l : List α) (l' : List β), mapRes f l = .ok l' → All2 (fun a b => f a = .ok b) l l'
  | [], l', h => by injection h with h; subst h; exact .nil
  | a :: l, l', h => by
    simp only [mapRes, Res.bind_eq_ok] at h
    obtain ⟨a', h1, m, h2, h⟩ := h
    injection h with h
    subst h
    exact .cons h1 (mapRes_all2 l m h2)

theorem mapRes_total {α β : Type} {f : α → Res β} : ∀ l : List α, (∀ a ∈ l, ∃ b, f a = .ok b) → ∃ l', mapRes f l = .ok l'
  | [], _ => ⟨[], rfl⟩
  | a :: l, h => by
    obtain ⟨b, h1⟩ := h a (List.mem_cons_self ..)
    obtain ⟨m, h2⟩ := mapRes_total l fun x hx => h x (List.mem_cons_of_mem _ hx)
    exact ⟨b :: m, by rw [mapRes, h1, Res.ok_bind, h2]; rfl⟩

theorem All2.trans {α β γ : Type} {R : α → β → Prop} {S : β → γ → Prop} {T : α → γ → Prop} (h : ∀ a b c, R a b → S b c → T a c) : ∀ {l : List α} {m : List β} {n : List γ}, All2 R l m → All2 S m n → All2 T l n
  | _, _, _, .nil, .nil => .nil
  | _, _, _, .cons h1 h2, .cons h3 h4 => .cons (h _ _ _ h1 h3) (All2.trans h h2 h4)

theorem All2.mono {α β : Type} {R T : α → β → Prop} (h : ∀ a b, R a b → T a b) : ∀ {l : List α} {m : List β}, All2 R l m → All2 T l m
  | _, _, .nil => .nil
  | _, _, .cons h1 h2 => .cons (h _ _ h1) (All2.mono h h2)

theorem enforced_iff (p : Place) (t : AKind) : enforced p = some t ↔ Checked p ∧ t = wanted p := by
  cases p with
  | seq c => cases c <;> cases t <;> simp [enforced, Checked, wanted]
  | _ => cases t <;> simp [enforced, Checked, wanted]

/-- A block before and after the pass: the same place, the same statements, each kind as it should be, and no user-fixed
kind opposed to an enforced one. -/
structure Fixed (i i' : Item) : Prop where
  place : i'.place = i.place
  shape : i'.body.shape = i.body.shape
  kinds : i'.body.kinds = i.body.kinds.map (result i.place)
  agreed : Checked i.place → ∀ k ∈ i.body.kinds, k = .undefined ∨ k = wanted i.place

theorem fixed_of {i j i' : Item} (h1 : fixBlock i = .ok j) (h2 : fixRest j = .ok i') : Fixed i i' := by
  simp only [fixRest, Res.bind_eq_ok] at h2
  obtain ⟨b, h2, h3⟩ := h2
  injection h3 with h3
  subst h3
  obtain ⟨h4, h5, -⟩ := fixNodes_kinds .blocking false _ _ h2
  unfold fixBlock at h1
  split at h1
  · rename_i t ht
    simp only [Res.bind_eq_ok] at h1
    obtain ⟨c, h1, h6⟩ := h1
    injection h6 with h6
    subst h6
    obtain ⟨h7, h8, h9⟩ := fixNodes_kinds t true _ _ h1
    refine ⟨rfl, h4.trans h7, ?_, fun hc k hk => ?_⟩
    · show b.kinds = _
      rw [h5]
      show (c.kinds).map _ = _
      rw [h8, List.map_map]
      refine List.map_congr_left fun k _ => ?_
      show (if (if k = .undefined then t else k) = .undefined then _ else _) = _
      unfold result
      have hp : t = match i.place with | .seq true => .nonBlocking | _ => .blocking := by
        revert ht
        generalize i.place = p
        cases p with
        | seq c => cases c <;> simp [enforced] <;> exact fun h => h.symm
        | _ => simp [enforced] <;> exact fun h => h.symm
      rw [← hp]
      have ht2 : t ≠ .undefined := by
        rw [hp]; generalize i.place = p
        cases p with
        | seq c => cases c <;> simp
        | _ => simp
      by_cases hk : k = .undefined
      · simp [hk, ht2]
      · simp [hk]
    · rw [← ((enforced_iff _ _).1 ht).2]
      exact h9 rfl k hk
  · rename_i ht
    injection h1 with h1
    subst h1
    refine ⟨rfl, h4, ?_, fun hc => by rw [(enforced_iff _ _).2 ⟨hc, rfl⟩] at ht; cases ht⟩
    rw [h5]
    refine List.map_congr_left fun k _ => ?_
    unfold result
    revert ht
    generalize i.place = p
    cases p with
    | seq c => cases c <;> simp [enforced]
    | _ => simp [enforced]

/-- What happens to one generator. -/
structure FixedGen (g g' : Gen) : Prop where
  cloned : g'.cloned = g.cloned
  external : g'.external = g.external
  skipped : g.cloned = true ∨ g.external = true → g' = g
  items : g.cloned = false → g.external = false → All2 Fixed g.items g'.items

/-- **C24**: when the pass accepts, every generator keeps its statements in place, a user-fixed kind is kept, an open kind
becomes non-blocking in a sequential block and blocking elsewhere, and no user-fixed kind opposes the one its block
enforces. -/
theorem fixed {d d' : List Gen} (h : fixAssignmentType d = .ok d') : All2 FixedGen d d' := by
  simp only [fixAssignmentType, Res.bind_eq_ok] at h
  obtain ⟨e, h1, h2⟩ := h
  refine All2.trans ?_ (mapRes_all2 d e h1) (mapRes_all2 e d' h2)
  intro g m g' h1 h2
  unfold inGen at h1
  split at h1
  · rename_i hs
    injection h1 with h1
    subst h1
    unfold inGen at h2
    rw [if_pos hs] at h2
    injection h2 with h2
    subst h2
    refine ⟨rfl, rfl, fun _ => rfl, fun h3 h4 => ?_⟩
    rw [h3, h4] at hs
    cases hs
  · rename_i hs
    simp only [Res.bind_eq_ok] at h1
    obtain ⟨is, h1, h3⟩ := h1
    injection h3 with h3
    subst h3
    unfold inGen at h2
    have hs2 : ¬ (g.cloned || g.external) = true := hs
    simp only [hs2] at h2
    simp only [Bool.false_eq_true, if_false, Res.bind_eq_ok] at h2
    obtain ⟨js, h2, h4⟩ := h2
    injection h4 with h4
    subst h4
    refine ⟨rfl, rfl, fun h => ?_, fun _ _ => ?_⟩
    · rw [Bool.or_eq_true] at hs
      exact absurd h hs
    · exact All2.trans (R := fun a b => fixBlock a = .ok b) (S := fun a b => fixRest a = .ok b) (fun _ _ _ a b => fixed_of a b) (mapRes_all2 _ _ h1) (mapRes_all2 _ _ h2)

/-- **C24, partial**: after the pass the assignments of combinational blocks, functions and checked sequential blocks all
have the right kind, and every other assignment has it unless the user fixed another. Missing: a kind fixed by the user in
a latch, an `initial` or `final` block, at the top level (there emission refuses it) or under `check_assignment=false` is
not checked (`latch_not_checked`). -/
theorem kinds_partial {d d' : List Gen} (h : fixAssignmentType d = .ok d') : ∀ g ∈ d', g.cloned = false → g.external = false →
    ∀ i ∈ g.items, (Checked i.place → ∀ k ∈ i.body.kinds, k = wanted i.place) ∧ ∀ k ∈ i.body.kinds, k ≠ .undefined := by
  intro g' hg' hc he i' hi'
  obtain ⟨g, hg, hr⟩ := (fixed h).mem_right g' hg'
  obtain ⟨i, hi, hf⟩ := (hr.items (hr.cloned ▸ hc) (hr.external ▸ he)).mem_right i' hi'
  refine ⟨fun hen k hk => ?_, fun k hk => ?_⟩
  · rw [hf.kinds] at hk
    obtain ⟨k0, hk0, rfl⟩ := List.mem_map.1 hk
    rw [hf.place] at hen ⊢
    unfold result
    split
    · rcases hen with e | e | e <;> rw [e] <;> rfl
    · rename_i hu
      exact (hf.agreed hen k0 hk0).resolve_left hu
  · rw [hf.kinds] at hk
    obtain ⟨k0, -, rfl⟩ := List.mem_map.1 hk
    unfold result
    split
    · generalize i.place = p
      cases p with
      | seq c => cases c <;> simp
      | _ => simp
    · assumption

theorem fixRest_total (i : Item) : ∃ i', fixRest i = .ok i' := by
  obtain ⟨b, hb⟩ := fixNodes_total .blocking false i.body (fun h => nomatch h)
  exact ⟨{ i with body := b }, by rw [fixRest, hb]; rfl⟩

theorem inGen_total {f : Item → Res Item} {g : Gen} (h : g.cloned = false → g.external = false → ∀ i ∈ g.items, ∃ i', f i = .ok i') : ∃ g', inGen f g = .ok g' := by
  unfold inGen
  split
  · exact ⟨_, rfl⟩
  · rename_i hs
    obtain ⟨is, h⟩ := mapRes_total g.items (h (by cases hc : g.cloned <;> simp_all) (by cases hc : g.external <;> simp_all))
    exact ⟨_, by rw [h]; rfl⟩

/-- **C24**: the pass refuses a design only because a kind fixed by the user opposes the kind its block enforces. -/
theorem rejected_only {d : List Gen} (h : ∀ g ∈ d, g.cloned = false → g.external = false → ∀ i ∈ g.items, Checked i.place →
    ∀ k ∈ i.body.kinds, k = .undefined ∨ k = wanted i.place) : ∃ d', fixAssignmentType d = .ok d' := by
  obtain ⟨e, h1⟩ : ∃ e, mapRes (inGen fixBlock) d = .ok e := by
    refine mapRes_total d fun g hg => inGen_total fun hc he i hi => ?_
    unfold fixBlock
    split
    · rename_i t ht
      obtain ⟨b, hb⟩ := fixNodes_total t true i.body fun _ => by
        obtain ⟨h1, h2⟩ := (enforced_iff _ _).1 ht
        rw [h2]; exact h g hg hc he i hi h1
      exact ⟨_, by rw [hb]; rfl⟩
    · exact ⟨_, rfl⟩
  obtain ⟨d', h2⟩ : ∃ d', mapRes (inGen fixRest) e = .ok d' := mapRes_total e fun g hg => inGen_total fun _ _ i hi => fixRest_total i
  exact ⟨d', by rw [fixAssignmentType, h1, Res.ok_bind, h2]⟩

/-! ### Examples -/

/-- `if (c) a = b` with open kind, inside a block. -/
def body (k : AKind) : Nodes := .cons (.group 0 (.cons (.assign k 1) .nil)) (.cons (.assign .undefined 2) .nil)

def design (k : AKind) (p : Place) : List Gen := [⟨false, false, [⟨.top, .cons (.assign .undefined 0) .nil⟩, ⟨p, body k⟩]⟩]

example : ∃ d', fixAssignmentType (design .undefined (.seq true)) = .ok d' ∧ d'.map (fun g => g.items.map fun i => i.body.kinds) = [[[.blocking], [.nonBlocking, .nonBlocking]]] :=
  ⟨_, rfl, rfl⟩
example : fixAssignmentType (design .blocking (.seq true)) = .throw .var := rfl

/-- A non-blocking assignment in a latch is neither changed nor refused. -/
theorem latch_not_checked : ∃ d', fixAssignmentType (design .nonBlocking .latch) = .ok d' ∧
    d'.map (fun g => g.items.map fun i => i.body.kinds) = [[[.blocking], [.nonBlocking, .blocking]]] := ⟨_, rfl, rfl⟩

theorem not_KindClaim : ¬ ∀ d d', fixAssignmentType d = .ok d' → KindClaim d' := by
  intro h
  have := h (design .nonBlocking .latch) _ rfl _ (List.mem_cons_self ..) rfl rfl _ (List.mem_cons_of_mem _ (List.mem_cons_self ..)) .nonBlocking (by decide)
  cases this

end Kratos.Kinds
