/-!
# Keyed containers

`std::map`/`std::unordered_map` as association lists: `find` is `find`/`at`, `emplace` is
`emplace` (an existing key keeps its value), `put` is `operator[] =`, `erase` is `erase(key)`.
The position of an entry in the list stands for the container's iteration order, so a statement
proved for every list holds for every iteration order.
-/

namespace Kratos

abbrev Map (K V : Type) := List (K × V)

namespace Map
variable {K V : Type} [DecidableEq K]

def find : Map K V → K → Option V
  | [], _ => none
  | (k', v) :: m, k => if k' = k then some v else find m k

def has (m : Map K V) (k : K) : Bool := (find m k).isSome

def emplace (m : Map K V) (k : K) (v : V) : Map K V := if has m k then m else m ++ [(k, v)]

def erase (m : Map K V) (k : K) : Map K V := m.filter fun e => decide (e.1 ≠ k)

def put (m : Map K V) (k : K) (v : V) : Map K V :=
  if has m k then m.map (fun e => if e.1 = k then (k, v) else e) else m ++ [(k, v)]

def keys (m : Map K V) : List K := m.map (·.1)

omit [DecidableEq K] in
theorem mem_keys {m : Map K V} {k : K} : k ∈ keys m ↔ ∃ v, (k, v) ∈ m := by
  simp [keys]

theorem has_iff {m : Map K V} {k : K} : has m k = true ↔ k ∈ keys m := by
  induction m with
  | nil => simp [has, find, keys]
  | cons e m ih =>
    obtain ⟨k', v⟩ := e
    simp only [has, find, keys, List.map_cons, List.mem_cons] at ih ⊢
    by_cases h : k' = k
    · simp [h]
    · simp [h, ih, eq_comm]
      exact fun h' => absurd h'.symm h

theorem has_false_iff {m : Map K V} {k : K} : has m k = false ↔ k ∉ keys m := by
  rw [← has_iff]; simp

theorem find_none_iff {m : Map K V} {k : K} : find m k = none ↔ k ∉ keys m := by
  rw [← has_false_iff]; simp [has]

theorem find_append (m n : Map K V) (k : K) : find (m ++ n) k = (find m k).or (find n k) := by
  induction m with
  | nil => simp [find]
  | cons e m ih =>
    obtain ⟨k', v⟩ := e
    simp only [List.cons_append, find]
    split <;> simp [ih]

theorem find_emplace (m : Map K V) (k k' : K) (v : V) :
    find (emplace m k v) k' = if k' = k then some ((find m k).getD v) else find m k' := by
  unfold emplace has
  cases h : find m k with
  | some w =>
    simp only [Option.isSome_some, if_true]
    split
    · next e => subst e; simp [h]
    · rfl
  | none =>
    simp only [Option.isSome_none, Bool.false_eq_true, if_false, find_append, find]
    by_cases e : k' = k
    · subst e; simp [h]
    · have e' : ¬ k = k' := fun x => e x.symm
      simp [e, e']

theorem find_erase (m : Map K V) (k k' : K) :
    find (erase m k) k' = if k' = k then none else find m k' := by
  induction m with
  | nil => simp [erase, find]
  | cons e m ih =>
    obtain ⟨a, v⟩ := e
    simp only [erase, List.filter_cons] at ih ⊢
    by_cases ha : a = k
    · subst ha
      simp only [ne_eq, not_true_eq_false, decide_false, Bool.false_eq_true, if_false, ih, find]
      by_cases hk : k' = a
      · simp [hk]
      · have : ¬ a = k' := fun x => hk x.symm
        simp [hk, this]
    · simp only [ne_eq, ha, not_false_eq_true, decide_true, if_true, find, ih]
      by_cases hk : k' = k
      · subst hk; simp [ha]
      · simp [hk]

theorem find_map_set (m : Map K V) (k k' : K) (v : V) :
    find (m.map fun e => if e.1 = k then (k, v) else e) k' =
      if k' = k then (find m k).map (fun _ => v) else find m k' := by
  induction m with
  | nil => simp [find]
  | cons e m ih =>
    obtain ⟨a, u⟩ := e
    simp only [List.map_cons]
    by_cases ha : a = k
    · subst ha
      simp only [if_true, find, ih]
      by_cases hk : k' = a
      · simp [hk]
      · have hk' : ¬ a = k' := fun x => hk x.symm
        simp [hk, hk']
    · simp only [ha, if_false, find, ih]
      by_cases hk : k' = k
      · subst hk; simp [ha]
      · simp [hk]

theorem find_put (m : Map K V) (k k' : K) (v : V) :
    find (put m k v) k' = if k' = k then some v else find m k' := by
  unfold put has
  cases h : find m k with
  | none =>
    simp only [Option.isSome_none, Bool.false_eq_true, if_false, find_append, find]
    by_cases e : k' = k
    · subst e; simp [h]
    · have e' : ¬ k = k' := fun x => e x.symm
      simp [e, e']
  | some w =>
    simp only [Option.isSome_some, if_true, find_map_set, h, Option.map_some]

theorem mem_of_find {m : Map K V} {k : K} {v : V} (h : find m k = some v) : (k, v) ∈ m := by
  induction m with
  | nil => simp [find] at h
  | cons e m ih =>
    obtain ⟨a, u⟩ := e
    simp only [find] at h
    split at h
    · next e => subst e; simp at h; subst h; exact List.mem_cons_self
    · exact List.mem_cons_of_mem _ (ih h)

theorem find_of_mem {m : Map K V} (hn : (keys m).Nodup) {k : K} {v : V} (h : (k, v) ∈ m) :
    find m k = some v := by
  induction m with
  | nil => cases h
  | cons e m ih =>
    obtain ⟨a, u⟩ := e
    simp only [keys, List.map_cons, List.nodup_cons] at hn
    simp only [find]
    rcases List.mem_cons.1 h with h | h
    · simp only [Prod.mk.injEq] at h
      simp [h.1, h.2]
    · have : a ≠ k := by
        intro e
        subst e
        exact hn.1 (List.mem_map.2 ⟨_, h, rfl⟩)
      simp [this, ih hn.2 h]

theorem nodup_emplace {m : Map K V} (hn : (keys m).Nodup) (k : K) (v : V) :
    (keys (emplace m k v)).Nodup := by
  unfold emplace
  split
  · exact hn
  · next h =>
    have h := has_false_iff.1 (Bool.eq_false_iff.2 h)
    simp only [keys, List.map_append, List.map_cons, List.map_nil, List.nodup_append] at hn h ⊢
    refine ⟨hn, by simp, ?_⟩
    intro a ha b hb e
    simp only [List.mem_cons, List.not_mem_nil, or_false] at hb
    subst hb; subst e
    exact h ha

theorem nodup_erase {m : Map K V} (hn : (keys m).Nodup) (k : K) : (keys (erase m k)).Nodup :=
  List.Sublist.nodup (List.Sublist.map _ List.filter_sublist) hn

theorem keys_put_has {m : Map K V} {k : K} (v : V) (h : has m k = true) : keys (put m k v) = keys m := by
  simp only [put, h, if_true, keys, List.map_map]
  apply List.map_congr_left
  intro e _
  simp only [Function.comp]
  split
  · next h => exact h.symm
  · rfl

theorem nodup_put {m : Map K V} (hn : (keys m).Nodup) (k : K) (v : V) :
    (keys (put m k v)).Nodup := by
  cases h : has m k with
  | true => rw [keys_put_has v h]; exact hn
  | false =>
    have : put m k v = emplace m k v := by simp [put, emplace, h]
    rw [this]
    exact nodup_emplace hn k v

theorem length_put (m : Map K V) (k : K) (v : V) :
    (put m k v).length = if has m k then m.length else m.length + 1 := by
  unfold put
  split <;> simp

theorem mem_emplace {m : Map K V} {k : K} {v : V} {e : K × V} (h : e ∈ emplace m k v) :
    e ∈ m ∨ (e = (k, v) ∧ has m k = false) := by
  unfold emplace at h
  split at h
  · exact .inl h
  · next hh =>
    rcases List.mem_append.1 h with h | h
    · exact .inl h
    · simp at h; exact .inr ⟨h, Bool.eq_false_iff.2 hh⟩

theorem mem_erase {m : Map K V} {k : K} {e : K × V} : e ∈ erase m k ↔ e ∈ m ∧ e.1 ≠ k := by
  simp [erase]

end Map

/-- A duplicate-free list contained in another is no longer than it. -/
theorem nodup_subset_length {α : Type} [DecidableEq α] : ∀ {l m : List α}, l.Nodup → l ⊆ m →
    l.length ≤ m.length
  | [], _, _, _ => Nat.zero_le _
  | a :: l, m, hn, hs => by
    rw [List.nodup_cons] at hn
    have ha : a ∈ m := hs List.mem_cons_self
    have hsub : l ⊆ m.erase a := by
      intro x hx
      have hxa : x ≠ a := fun e => hn.1 (e ▸ hx)
      exact (List.mem_erase_of_ne hxa).2 (hs (List.mem_cons_of_mem _ hx))
    have := nodup_subset_length hn.2 hsub
    rw [List.length_erase_of_mem ha] at this
    have : 0 < m.length := List.length_pos_of_mem ha
    simp only [List.length_cons]
    omega

end Kratos
