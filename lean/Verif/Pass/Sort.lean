import Verif.Base

/-!
# C20: reordering of top-level statements (src/transform.cc:922-999)

`α` is the type of statement handles; only the kind of a statement matters.
-/

namespace Kratos.Sort

/-- `StatementType` and, for blocks, `StatementBlockType` (src/stmt.hh:11-31). -/
inductive Kind where
  | assign | inst | comb | seq | latch
  | scope | function | initial | final
  /-- every other type: if, switch, for, interface instantiation, function call, return, break, assert, comment,
  raw string, auxiliary -/
  | other
  deriving DecidableEq, Repr

variable {α : Type}

/-- The five vectors of `SortStmtVisitor::visit` (src/transform.cc:926-930). -/
structure Lists (α : Type) where
  assigns : List α := []
  insts : List α := []
  latches : List α := []
  combs : List α := []
  seqs : List α := []

/-- The loop body, src/transform.cc:935-955. -/
def put (kind : α → Kind) (l : Lists α) (s : α) : Res (Lists α) :=
  match kind s with
  | .assign => .ok { l with assigns := l.assigns ++ [s] }
  | .comb => .ok { l with combs := l.combs ++ [s] }
  | .seq => .ok { l with seqs := l.seqs ++ [s] }
  | .latch => .ok { l with latches := l.latches ++ [s] }
  | .inst => .ok { l with insts := l.insts ++ [s] }
  | .scope => .throw .stmt
  | .function => .throw .stmt
  | .initial => .throw .stmt
  | .final => .throw .stmt
  | .other => .throw .stmt

/-- The loop, src/transform.cc:934-955. -/
def split (kind : α → Kind) : List α → Lists α → Res (Lists α)
  | [], l => .ok l
  | s :: ss, l => (put kind l s).bind fun l => split kind ss l

/-- The order of `lists`, src/transform.cc:931-932, concatenated at 962. -/
def Lists.all (l : Lists α) : List α := l.assigns ++ l.insts ++ l.latches ++ l.combs ++ l.seqs

/-- `SortStmtVisitor::visit` (src/transform.cc:924-966) for one generator. -/
def sortStmts (kind : α → Kind) (ss : List α) : Res (List α) :=
  (split kind ss {}).bind fun l => if l.all.length ≠ ss.length then .throw .user else .ok l.all

/-- `get_order`, src/transform.cc:988-993. -/
def initialLast : Kind → Nat
  | .initial => 1
  | _ => 0

/-- `SortInitialVisitor::visit` (src/transform.cc:975-985); `std::stable_sort` is Lean's stable merge sort. -/
def sortInitial (kind : α → Kind) (ss : List α) : List α :=
  ss.mergeSort fun a b => initialLast (kind a) ≤ initialLast (kind b)

/-! ### Specification -/

/-- `ss'` is `ss` stably sorted by `rank`: the same elements, ordered by rank, those of equal rank in the same order. -/
structure StablySorted (rank : α → Nat) (ss ss' : List α) : Prop where
  perm : ss'.Perm ss
  sorted : ss'.Pairwise fun a b => rank a ≤ rank b
  stable : ∀ r, ss'.filter (fun a => rank a = r) = ss.filter (fun a => rank a = r)

/-- The documented order: assignments, instances, latches, combinational blocks, sequential blocks. -/
def rank : Kind → Nat
  | .assign => 0
  | .inst => 1
  | .latch => 2
  | .comb => 3
  | .seq => 4
  | _ => 5

/-- Stable sorting has one result. -/
theorem StablySorted.unique {rank : α → Nat} : ∀ {ss a b : List α}, StablySorted rank ss a → StablySorted rank ss b → a = b := by
  have key : ∀ a b : List α, a.Pairwise (fun a b => rank a ≤ rank b) → b.Pairwise (fun a b => rank a ≤ rank b) →
      (∀ r, a.filter (fun x => rank x = r) = b.filter (fun x => rank x = r)) → a = b := by
    intro a
    induction a with
    | nil =>
      intro b _ _ h
      cases b with
      | nil => rfl
      | cons y b => have := h (rank y); simp at this
    | cons x a ih =>
      intro b ha hb h
      cases b with
      | nil => have := h (rank x); simp at this
      | cons y b =>
        have hx : x ∈ y :: b := by
          have h1 : x ∈ (x :: a).filter (fun z => rank z = rank x) := by simp
          rw [h] at h1
          exact (List.mem_filter.1 h1).1
        have hy : y ∈ x :: a := by
          have h1 : y ∈ (y :: b).filter (fun z => rank z = rank y) := by simp
          rw [← h] at h1
          exact (List.mem_filter.1 h1).1
        have h1 : rank x ≤ rank y := by
          rcases List.mem_cons.1 hy with e | hy
          · rw [e]; exact Nat.le_refl _
          · exact (List.pairwise_cons.1 ha).1 _ hy
        have h2 : rank y ≤ rank x := by
          rcases List.mem_cons.1 hx with e | hx
          · rw [e]; exact Nat.le_refl _
          · exact (List.pairwise_cons.1 hb).1 _ hx
        have he : rank x = rank y := Nat.le_antisymm h1 h2
        have hxy : x = y := by
          have h3 := h (rank x)
          rw [List.filter_cons_of_pos (by simp), List.filter_cons_of_pos (by simp [he])] at h3
          injection h3
        subst hxy
        rw [ih b (List.pairwise_cons.1 ha).2 (List.pairwise_cons.1 hb).2 fun r => ?_]
        have h3 := h r
        by_cases hr : rank x = r
        · rw [List.filter_cons_of_pos (by simp [hr]), List.filter_cons_of_pos (by simp [hr])] at h3
          injection h3
        · rw [List.filter_cons_of_neg (by simp [hr]), List.filter_cons_of_neg (by simp [hr])] at h3
          exact h3
  intro ss a b ha hb
  exact key a b ha.sorted hb.sorted fun r => (ha.stable r).trans (hb.stable r).symm

/-! ### Proof -/

/-- The statements of one rank. -/
def of (kind : α → Kind) (r : Nat) (ss : List α) : List α := ss.filter fun a => rank (kind a) = r

theorem split_eq (kind : α → Kind) : ∀ (ss : List α) (l l' : Lists α), split kind ss l = .ok l' →
    l' = ⟨l.assigns ++ of kind 0 ss, l.insts ++ of kind 1 ss, l.latches ++ of kind 2 ss, l.combs ++ of kind 3 ss, l.seqs ++ of kind 4 ss⟩ ∧
    ∀ s ∈ ss, rank (kind s) < 5
  | [], l, l', h => by injection h with h; subst h; simp [of]
  | s :: ss, l, l', h => by
    simp only [split, Res.bind_eq_ok] at h
    obtain ⟨m, h1, h⟩ := h
    obtain ⟨h2, h3⟩ := split_eq kind ss m l' h
    unfold put at h1
    have cs : ∀ k, kind s = k → rank k < 5 → ∀ x ∈ s :: ss, rank (kind x) < 5 := by
      intro k hk hr x hx
      rcases List.mem_cons.1 hx with e | hx
      · rw [e, hk]; exact hr
      · exact h3 x hx
    split at h1 <;> first
      | (rename_i hk
         injection h1 with h1
         refine ⟨?_, cs _ hk (by decide)⟩
         rw [h2, ← h1]
         simp [of, List.filter_cons, hk, rank])
      | cases h1

theorem split_total (kind : α → Kind) : ∀ (ss : List α) (l : Lists α), (∀ s ∈ ss, rank (kind s) < 5) → ∃ l', split kind ss l = .ok l'
  | [], l, _ => ⟨l, rfl⟩
  | s :: ss, l, h => by
    have h1 := h s (List.mem_cons_self ..)
    have h2 := fun l => split_total kind ss l fun x hx => h x (List.mem_cons_of_mem _ hx)
    simp only [split]
    unfold put
    generalize kind s = k at h1
    cases k <;> first
      | exact h2 _
      | exact absurd h1 (by decide)

theorem pairwise_of (kind : α → Kind) (r : Nat) (ss : List α) : (of kind r ss).Pairwise fun a b => rank (kind a) ≤ rank (kind b) := by
  refine List.Pairwise.imp_of_mem (R := fun _ _ => True) (fun ha hb _ => ?_) (List.pairwise_of_forall fun _ _ => trivial)
  have h1 := of_decide_eq_true (List.mem_filter.1 ha).2
  have h2 := of_decide_eq_true (List.mem_filter.1 hb).2
  omega

theorem mem_of {kind : α → Kind} {r : Nat} {ss : List α} {a : α} (h : a ∈ of kind r ss) : rank (kind a) = r :=
  of_decide_eq_true (List.mem_filter.1 h).2

theorem filter_of (kind : α → Kind) (r q : Nat) (ss : List α) : (of kind r ss).filter (fun a => rank (kind a) = q) = if q = r then of kind r ss else [] := by
  split
  · rename_i h
    subst h
    unfold of
    rw [List.filter_filter]
    congr 1
    funext a
    simp
  · rename_i h
    rw [List.filter_eq_nil_iff]
    intro a ha
    have := mem_of ha
    simp; omega

theorem all_perm (kind : α → Kind) : ∀ ss : List α, (∀ s ∈ ss, rank (kind s) < 5) →
    (of kind 0 ss ++ of kind 1 ss ++ of kind 2 ss ++ of kind 3 ss ++ of kind 4 ss).Perm ss
  | [], _ => by simp [of]
  | s :: ss, h => by
    have ih := all_perm kind ss fun x hx => h x (List.mem_cons_of_mem _ hx)
    have hs := h s (List.mem_cons_self ..)
    have hc : ∀ r, of kind r (s :: ss) = if rank (kind s) = r then s :: of kind r ss else of kind r ss := by
      intro r; unfold of; rw [List.filter_cons]; simp
    have e : rank (kind s) = 0 ∨ rank (kind s) = 1 ∨ rank (kind s) = 2 ∨ rank (kind s) = 3 ∨ rank (kind s) = 4 := by omega
    refine List.Perm.trans ?_ (List.Perm.cons s ih)
    rcases e with e | e | e | e | e <;> simp only [hc, e] <;> simp only [List.append_assoc] <;> simp
    · exact List.Perm.trans (List.Perm.append_left _ List.perm_middle) List.perm_middle
    · refine List.Perm.trans (List.Perm.append_left _ (List.Perm.append_left _ List.perm_middle)) ?_
      exact List.Perm.trans (List.Perm.append_left _ List.perm_middle) List.perm_middle
    · refine List.Perm.trans (List.Perm.append_left _ (List.Perm.append_left _ (List.Perm.append_left _ List.perm_middle))) ?_
      refine List.Perm.trans (List.Perm.append_left _ (List.Perm.append_left _ List.perm_middle)) ?_
      exact List.Perm.trans (List.Perm.append_left _ List.perm_middle) List.perm_middle

/-- **C20**: the result of `sort_stmts` is the stable sort of the statements of the generator in the documented order. -/
theorem sorted {kind : α → Kind} {ss ss' : List α} (h : sortStmts kind ss = .ok ss') : StablySorted (fun a => rank (kind a)) ss ss' := by
  simp only [sortStmts, Res.bind_eq_ok] at h
  obtain ⟨l, h1, h⟩ := h
  obtain ⟨h2, h3⟩ := split_eq kind ss {} l h1
  split at h
  · cases h
  injection h with h
  have e : ss' = of kind 0 ss ++ of kind 1 ss ++ of kind 2 ss ++ of kind 3 ss ++ of kind 4 ss := by
    rw [← h, h2]; simp [Lists.all]
  subst e
  refine ⟨all_perm kind ss h3, ?_, ?_⟩
  · simp only [List.pairwise_append, pairwise_of, true_and, List.mem_append]
    refine ⟨⟨⟨?_, ?_⟩, ?_⟩, ?_⟩
    all_goals
      intro a ha b hb
      have h1 := mem_of hb
    · have := mem_of ha; omega
    · rcases ha with ha | ha <;> have := mem_of ha <;> omega
    · rcases ha with (ha | ha) | ha <;> have := mem_of ha <;> omega
    · rcases ha with ((ha | ha) | ha) | ha <;> have := mem_of ha <;> omega
  · intro r
    show _ = of kind r ss
    simp only [List.filter_append, filter_of]
    by_cases h5 : r < 5
    · have e : r = 0 ∨ r = 1 ∨ r = 2 ∨ r = 3 ∨ r = 4 := by omega
      rcases e with e | e | e | e | e <;> subst e <;> simp
    · have : of kind r ss = [] := by
        unfold of
        rw [List.filter_eq_nil_iff]
        intro a ha
        have := h3 a ha
        simp; omega
      rw [this]
      simp only [List.append_eq_nil_iff]
      refine ⟨⟨⟨⟨?_, ?_⟩, ?_⟩, ?_⟩, ?_⟩ <;> exact if_neg (by omega)

/-- **C20**: it is refused exactly when a statement that has no place in the order is at the top level. -/
theorem sort_accepts (kind : α → Kind) (ss : List α) : (∃ ss', sortStmts kind ss = .ok ss') ↔
    ∀ s ∈ ss, kind s = .assign ∨ kind s = .inst ∨ kind s = .latch ∨ kind s = .comb ∨ kind s = .seq := by
  have hk : ∀ k : Kind, rank k < 5 ↔ (k = .assign ∨ k = .inst ∨ k = .latch ∨ k = .comb ∨ k = .seq) := by
    intro k; cases k <;> decide
  constructor
  · rintro ⟨ss', h⟩ s hs
    simp only [sortStmts, Res.bind_eq_ok] at h
    obtain ⟨l, h1, h⟩ := h
    exact (hk _).1 ((split_eq kind ss {} l h1).2 s hs)
  · intro h
    have h5 : ∀ s ∈ ss, rank (kind s) < 5 := fun s hs => (hk _).2 (h s hs)
    obtain ⟨l, h1⟩ := split_total kind ss {} h5
    have h2 := (split_eq kind ss {} l h1).1
    have hl : l.all.length = ss.length := by
      rw [h2]
      have := (all_perm kind ss h5).length_eq
      simpa [Lists.all] using this
    exact ⟨l.all, by simp [sortStmts, h1, hl]⟩

/-- **C20**: moving the `initial` blocks to the end is a stable sort, and never refused. -/
theorem initial_sorted (kind : α → Kind) (ss : List α) :
    StablySorted (fun a => if kind a = .initial then 1 else 0) ss (sortInitial kind ss) := by
  have hr : ∀ k, initialLast k = if k = .initial then 1 else 0 := by intro k; cases k <;> rfl
  have tr : ∀ a b c : α, decide (initialLast (kind a) ≤ initialLast (kind b)) = true → decide (initialLast (kind b) ≤ initialLast (kind c)) = true →
      decide (initialLast (kind a) ≤ initialLast (kind c)) = true := by
    intro a b c h1 h2
    have h1 := of_decide_eq_true h1
    have h2 := of_decide_eq_true h2
    exact decide_eq_true (by omega)
  have tot : ∀ a b : α, (decide (initialLast (kind a) ≤ initialLast (kind b)) || decide (initialLast (kind b) ≤ initialLast (kind a))) = true := by
    intro a b
    rw [Bool.or_eq_true, decide_eq_true_eq, decide_eq_true_eq]; omega
  refine ⟨List.mergeSort_perm _ _, ?_, ?_⟩
  · refine (List.pairwise_mergeSort tr tot ss).imp ?_
    intro a b h
    have h := of_decide_eq_true h
    rw [hr, hr] at h
    exact h
  · intro r
    have hsub : (ss.filter fun a => (if kind a = .initial then 1 else 0) = r).Sublist (sortInitial kind ss) := by
      refine List.sublist_mergeSort tr tot ?_ List.filter_sublist
      refine List.Pairwise.imp_of_mem (R := fun _ _ => True) (fun ha hb _ => ?_) (List.pairwise_of_forall fun _ _ => trivial)
      have h1 := of_decide_eq_true (List.mem_filter.1 ha).2
      have h2 := of_decide_eq_true (List.mem_filter.1 hb).2
      rw [hr, hr]
      exact decide_eq_true (by omega)
    have h1 := hsub.filter (fun a => (if kind a = .initial then 1 else 0) = r)
    rw [List.filter_filter] at h1
    simp only [Bool.and_self] at h1
    refine (h1.eq_of_length ?_).symm
    exact ((List.mergeSort_perm ss _).filter _).length_eq.symm

/-! ### Examples -/

/-- Statement `n` of this list: sequential, assignment, instance, combinational, assignment, latch. -/
def demoKind : Nat → Kind := fun n => [.seq, .assign, .inst, .comb, .assign, .latch, .initial].getD n .other

example : sortStmts demoKind [0, 1, 2, 3, 4, 5] = .ok [1, 4, 2, 5, 3, 0] := rfl
example : sortStmts demoKind [0, 6] = .throw .stmt := rfl
example : StablySorted (fun a => rank (demoKind a)) [0, 1, 2, 3, 4, 5] [1, 4, 2, 5, 3, 0] := sorted rfl
example : (sortInitial demoKind [6, 0, 1]).length = 3 := by
  rw [(initial_sorted demoKind [6, 0, 1]).perm.length_eq]; rfl

end Kratos.Sort
