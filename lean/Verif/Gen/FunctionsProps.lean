import Verif.Gen.Functions

/-!
# Functions and calls: theorems
-/

namespace Kratos.Func

open Text

/-! ## The order of names, and maps -/

theorem lexLt_irrefl : ∀ a : Name, lexLt a a = false
  | [] => rfl
  | c :: s => by simp [lexLt, lexLt_irrefl s]

theorem char_ext {a b : Char} (h : a.toNat = b.toNat) : a = b := by
  have := congrArg Char.ofNat h
  simpa [Char.ofNat_toNat] using this

theorem lexLt_trans : ∀ {a b c : Name}, lexLt a b = true → lexLt b c = true → lexLt a c = true
  | [], [], _, h, _ => by simp [lexLt] at h
  | [], _ :: _, [], _, h => by simp [lexLt] at h
  | [], _ :: _, _ :: _, _, _ => by simp [lexLt]
  | _ :: _, [], _, h, _ => by simp [lexLt] at h
  | _ :: _, _ :: _, [], _, h => by simp [lexLt] at h
  | a :: s, b :: t, c :: u, h1, h2 => by
    simp only [lexLt, Bool.or_eq_true, decide_eq_true_eq, Bool.and_eq_true] at h1 h2 ⊢
    rcases h1 with h1 | ⟨h1, h1'⟩ <;> rcases h2 with h2 | ⟨h2, h2'⟩
    · exact Or.inl (by omega)
    · subst h2; exact Or.inl h1
    · subst h1; exact Or.inl h2
    · subst h1; subst h2; exact Or.inr ⟨rfl, lexLt_trans h1' h2'⟩

theorem lexLt_tri : ∀ a b : Name, a = b ∨ lexLt a b = true ∨ lexLt b a = true
  | [], [] => Or.inl rfl
  | [], _ :: _ => Or.inr (Or.inl rfl)
  | _ :: _, [] => Or.inr (Or.inr rfl)
  | a :: s, b :: t => by
    simp only [lexLt, Bool.or_eq_true, decide_eq_true_eq, Bool.and_eq_true]
    by_cases h : a = b
    · subst h
      rcases lexLt_tri s t with h | h | h
      · exact Or.inl (by rw [h])
      · exact Or.inr (Or.inl (Or.inr ⟨rfl, h⟩))
      · exact Or.inr (Or.inr (Or.inr ⟨rfl, h⟩))
    · have : a.toNat ≠ b.toNat := fun e => h (char_ext e)
      rcases Nat.lt_or_gt_of_ne this with h | h
      · exact Or.inr (Or.inl (Or.inl h))
      · exact Or.inr (Or.inr (Or.inl h))

/-- The entries are in the order of their keys, without repetition. -/
def Sorted {V : Type} (m : Map Name V) : Prop := (Map.keys m).Pairwise fun a b => lexLt a b = true

theorem Sorted.nodup {V : Type} {m : Map Name V} (h : Sorted m) : (Map.keys m).Nodup :=
  List.Pairwise.imp (fun {a b} h e => by subst e; rw [lexLt_irrefl] at h; cases h) h

/-- The keys after `emplace`. -/
def insKey (k : Name) : List Name → List Name
  | [] => [k]
  | k' :: l => if k = k' then k' :: l else if lexLt k k' then k :: k' :: l else k' :: insKey k l

theorem keys_emplace {V : Type} (k : Name) (v : V) : ∀ m : Map Name V,
    Map.keys (emplace k v m) = insKey k (Map.keys m)
  | [] => rfl
  | (k', v') :: m => by
    have ih := keys_emplace k v m
    simp only [Map.keys] at ih
    simp only [emplace, Map.keys, List.map_cons, insKey]
    split
    · rfl
    · split
      · rfl
      · simp [ih]

theorem mem_insKey (k x : Name) : ∀ l, x ∈ insKey k l ↔ x = k ∨ x ∈ l
  | [] => by simp [insKey]
  | k' :: l => by
    simp only [insKey]
    split
    · next h => subst h; simp
    · split
      · simp
      · simp only [List.mem_cons, mem_insKey k x l]
        constructor
        · rintro (h | h | h)
          · exact Or.inr (Or.inl h)
          · exact Or.inl h
          · exact Or.inr (Or.inr h)
        · rintro (h | h | h)
          · exact Or.inr (Or.inl h)
          · exact Or.inl h
          · exact Or.inr (Or.inr h)

theorem insKey_sorted (k : Name) : ∀ l : List Name, l.Pairwise (fun a b => lexLt a b = true) →
    (insKey k l).Pairwise fun a b => lexLt a b = true
  | [], _ => by simp [insKey]
  | k' :: l, h => by
    simp only [insKey]
    split
    · exact h
    · next hne =>
      rw [List.pairwise_cons] at h
      split
      · next hlt =>
        refine List.pairwise_cons.2 ⟨fun x hx => ?_, List.pairwise_cons.2 h⟩
        rcases List.mem_cons.1 hx with rfl | hx
        · exact hlt
        · exact lexLt_trans hlt (h.1 x hx)
      · next hlt =>
        refine List.pairwise_cons.2 ⟨fun x hx => ?_, insKey_sorted k l h.2⟩
        rcases (mem_insKey k x l).1 hx with rfl | hx
        · rcases lexLt_tri x k' with e | e | e
          · exact absurd e hne
          · exact absurd e hlt
          · exact e
        · exact h.1 x hx

theorem insKey_mem (k : Name) : ∀ l : List Name, l.Pairwise (fun a b => lexLt a b = true) → k ∈ l →
    insKey k l = l
  | [], _, h => by simp at h
  | k' :: l, hs, h => by
    simp only [insKey]
    split
    · rfl
    · next hne =>
      have h' : k ∈ l := (List.mem_cons.1 h).resolve_left hne
      rw [List.pairwise_cons] at hs
      have := hs.1 k h'
      rw [if_neg, insKey_mem k l hs.2 h']
      intro hlt
      have := lexLt_trans this hlt
      rw [lexLt_irrefl] at this; cases this

theorem emplace_sorted {V : Type} {m : Map Name V} (h : Sorted m) (k : Name) (v : V) :
    Sorted (emplace k v m) := by
  unfold Sorted; rw [keys_emplace]; exact insKey_sorted k _ h

/-- Two maps with the same keys list them in the same order. -/
theorem sorted_keys {V W : Type} {m : Map Name V} {n : Map Name W} (hm : Sorted m) (hn : Sorted n)
    (h : ∀ k, k ∈ Map.keys m ↔ k ∈ Map.keys n) : Map.keys m = Map.keys n :=
  Lists.sorted_unique (lt := fun a b => lexLt a b = true)
    (fun a h => by rw [lexLt_irrefl] at h; cases h) (fun _ _ _ => lexLt_trans) hm hn ((List.perm_ext_iff_of_nodup hm.nodup hn.nodup).2 h)

/-- `emplace` of an absent key adds an entry, `emplace` of a present one does nothing. -/
theorem emplace_absent {V : Type} (k : Name) (v : V) : ∀ m : Map Name V, k ∉ Map.keys m →
    (emplace k v m).Perm ((k, v) :: m)
  | [], _ => List.Perm.refl _
  | (k', v') :: m, h => by
    simp only [Map.keys, List.map_cons, List.mem_cons, not_or] at h
    simp only [emplace, if_neg h.1]
    split
    · exact List.Perm.refl _
    · exact ((emplace_absent k v m h.2).cons _).trans (List.Perm.swap _ _ _)

theorem emplace_present {V : Type} (k : Name) (v : V) : ∀ m : Map Name V, Sorted m →
    k ∈ Map.keys m → emplace k v m = m
  | [], _, h => by simp [Map.keys] at h
  | (k', v') :: m, hs, h => by
    simp only [emplace]
    split
    · rfl
    · next hne =>
      simp only [Map.keys, List.map_cons, List.mem_cons] at h
      have h' := h.resolve_left hne
      have hs' := List.pairwise_cons.1 hs
      have h1 := hs'.1 k h'
      rw [if_neg, emplace_present k v m hs'.2 h']
      intro hlt
      have := lexLt_trans h1 hlt
      rw [lexLt_irrefl] at this; cases this

theorem mem_emplace {V : Type} {m : Map Name V} (hs : Sorted m) {k : Name} {v : V} {e : Name × V} :
    e ∈ emplace k v m ↔ e ∈ m ∨ (k ∉ Map.keys m ∧ e = (k, v)) := by
  by_cases h : k ∈ Map.keys m
  · rw [emplace_present k v m hs h]; simp [h]
  · rw [(emplace_absent k v m h).mem_iff, List.mem_cons]
    constructor
    · rintro (h' | h')
      · exact Or.inr ⟨h, h'⟩
      · exact Or.inl h'
    · rintro (h' | h')
      · exact Or.inr h'
      · exact Or.inl h'.2

theorem foldl_sorted {V : Type} (l : List (Name × V)) : ∀ m : Map Name V, Sorted m →
    Sorted (l.foldl (fun m e => emplace e.1 e.2 m) m) := by
  induction l with
  | nil => intro m h; exact h
  | cons e l ih => intro m h; exact ih _ (emplace_sorted h _ _)

theorem ofList_sorted {V : Type} (l : List (Name × V)) : Sorted (ofList l) :=
  foldl_sorted l [] List.Pairwise.nil

theorem foldl_keys {V : Type} (l : List (Name × V)) : ∀ (m : Map Name V) k,
    k ∈ Map.keys (l.foldl (fun m e => emplace e.1 e.2 m) m) ↔ k ∈ Map.keys m ∨ k ∈ l.map (·.1) := by
  induction l with
  | nil => intro m k; simp
  | cons e l ih =>
    intro m k
    rw [List.foldl_cons, ih, keys_emplace, mem_insKey, List.map_cons, List.mem_cons]
    constructor
    · rintro ((h | h) | h)
      · exact Or.inr (Or.inl h)
      · exact Or.inl h
      · exact Or.inr (Or.inr h)
    · rintro (h | h | h)
      · exact Or.inl (Or.inr h)
      · exact Or.inl (Or.inl h)
      · exact Or.inr h

theorem ofList_keys {V : Type} (l : List (Name × V)) (k : Name) :
    k ∈ Map.keys (ofList l) ↔ k ∈ l.map (·.1) := by
  rw [ofList, foldl_keys]; simp [Map.keys]

theorem foldl_mem {V : Type} (l : List (Name × V)) : ∀ (m : Map Name V) e, Sorted m →
    e ∈ l.foldl (fun m e => emplace e.1 e.2 m) m → e ∈ m ∨ e ∈ l := by
  induction l with
  | nil => intro m e _ h; exact Or.inl h
  | cons d l ih =>
    intro m e hs h
    rcases ih _ e (emplace_sorted hs _ _) h with h | h
    · rcases (mem_emplace hs).1 h with h | h
      · exact Or.inl h
      · exact Or.inr (by rw [h.2]; simp)
    · exact Or.inr (List.mem_cons_of_mem _ h)

theorem ofList_mem {V : Type} {l : List (Name × V)} {e : Name × V} (h : e ∈ ofList l) : e ∈ l :=
  (foldl_mem l [] e List.Pairwise.nil h).resolve_left (by simp)

theorem foldl_perm {V : Type} (l : List (Name × V)) : ∀ m : Map Name V, (l.map (·.1)).Nodup →
    (∀ k ∈ l.map (·.1), k ∉ Map.keys m) →
    (l.foldl (fun m e => emplace e.1 e.2 m) m).Perm (m ++ l) := by
  induction l with
  | nil => intro m _ _; simp
  | cons e l ih =>
    intro m hn hd
    rw [List.map_cons, List.nodup_cons] at hn
    have he : e.1 ∉ Map.keys m := hd _ (by simp)
    refine (ih _ hn.2 fun k hk => ?_).trans ?_
    · rw [keys_emplace, mem_insKey, not_or]
      exact ⟨fun h => hn.1 (h ▸ hk), hd k (by rw [List.map_cons]; exact List.mem_cons_of_mem _ hk)⟩
    · refine ((emplace_absent e.1 e.2 m he).append_right l).trans ?_
      exact (List.perm_middle (l₁ := m) (a := e) (l₂ := l)).symm

theorem ofList_perm {V : Type} {l : List (Name × V)} (h : (l.map (·.1)).Nodup) :
    (ofList l).Perm l := by
  have := foldl_perm l [] h (by simp [Map.keys])
  rwa [List.nil_append] at this

/-! ## The invariants of the table -/

/-- What every history keeps of a function. -/
structure FnOk (F : Fn) : Prop where
  ports : Sorted F.ports
  ordering : Sorted F.ordering
  sub : ∀ k ∈ Map.keys F.ordering, k ∈ Map.keys F.ports
  dpi : F.kind = .dpi → Map.keys F.ordering = Map.keys F.ports
  ret : F.returns = true → F.handler.isSome
  handler : F.handler.isSome → F.returns = true

/-- What every history keeps of the table. -/
structure Inv (g : Gen) : Prop where
  sorted : Sorted g.funcs
  fns : ∀ f F, (f, F) ∈ g.funcs → FnOk F

theorem newFn_ok (k : Kind) : FnOk (newFn k) :=
  ⟨List.Pairwise.nil, List.Pairwise.nil, by simp [newFn, Map.keys], by simp [newFn, Map.keys],
    by simp [newFn], by simp [newFn]⟩

theorem addPort_ok {F : Fn} (h : FnOk F) (n : Name) (p : Prt) : FnOk (addPort F n p) := by
  refine ⟨emplace_sorted h.ports _ _, ?_, ?_, ?_, h.ret, h.handler⟩
  · simp only [addPort]
    split
    · exact emplace_sorted h.ordering _ _
    · exact h.ordering
  · simp only [addPort]
    intro k hk
    rw [keys_emplace, mem_insKey]
    split at hk
    · rw [keys_emplace, mem_insKey] at hk
      exact hk.imp id (h.sub k)
    · exact Or.inr (h.sub k hk)
  · intro hd
    have hd : F.kind = .dpi := hd
    simp only [addPort, hd, if_true, keys_emplace, h.dpi hd]

theorem subset_of_length {l m : List Name} (hn : l.Nodup) (hs : ∀ k ∈ l, k ∈ m)
    (hl : l.length = m.length) : ∀ k ∈ m, k ∈ l := by
  intro k hk
  by_cases h : k ∈ l
  · exact h
  · have := List.Nodup.length_le_of_subset (List.nodup_cons.2 ⟨h, hn⟩)
      (show (k :: l) ⊆ m from fun x hx => by
        rcases List.mem_cons.1 hx with rfl | hx
        · exact hk
        · exact hs x hx)
    simp at this; omega

theorem setOrdering_spec {F F' : Fn} {m : Map Name Nat} (h : setOrdering F m = .ok F') :
    F' = { F with ordering := m } ∧ m.length = F.ports.length ∧ ∀ k ∈ Map.keys m, k ∈ Map.keys F.ports := by
  simp only [setOrdering] at h
  split at h
  · cases h
  · next h1 =>
    split at h
    · cases h
    · next h2 =>
      cases h
      refine ⟨rfl, by omega, fun k hk => ?_⟩
      obtain ⟨v, hv⟩ := Map.mem_keys.1 hk
      simp only [List.any_eq_true, Bool.not_eq_true', not_exists, not_and] at h2
      have := h2 _ hv
      rw [Bool.not_eq_false, Map.has_iff] at this
      exact this

theorem setOrdering_keys {F F' : Fn} {m : Map Name Nat} (hF : FnOk F) (hm : Sorted m)
    (h : setOrdering F m = .ok F') : Map.keys m = Map.keys F.ports := by
  obtain ⟨_, hl, hs⟩ := setOrdering_spec h
  refine sorted_keys hm hF.ports fun k => ⟨hs k, ?_⟩
  exact subset_of_length hm.nodup hs (by simpa [Map.keys] using hl) k

theorem setOrdering_ok {F F' : Fn} {m : Map Name Nat} (hF : FnOk F) (hm : Sorted m)
    (h : setOrdering F m = .ok F') : FnOk F' := by
  have hk := setOrdering_keys hF hm h
  obtain ⟨rfl, _, hs⟩ := setOrdering_spec h
  exact ⟨hF.ports, hm, hs, fun _ => hk, hF.ret, hF.handler⟩

theorem placeReturn_ok {F F' : Fn} {w : Nat} {s : Bool} (hF : FnOk F)
    (h : placeReturn F w s = .ok F') : FnOk F' := by
  simp only [placeReturn] at h
  split at h
  · cases h
    exact ⟨hF.ports, hF.ordering, hF.sub, hF.dpi, fun _ => rfl, fun _ => rfl⟩
  · next h' hh =>
    split at h
    · cases h
    · split at h
      · cases h
      · cases h
        exact ⟨hF.ports, hF.ordering, hF.sub, hF.dpi, fun _ => by simp [hh], fun _ => rfl⟩

theorem find_mem {V : Type} {m : Map Name V} {k : Name} {v : V} (hs : Sorted m) :
    Map.find m k = some v ↔ (k, v) ∈ m :=
  ⟨Map.mem_of_find, Map.find_of_mem hs.nodup⟩

theorem keys_setFn (g : Gen) (n : Name) (F : Fn) : Map.keys (setFn g n F).funcs = Map.keys g.funcs := by
  simp only [setFn, Map.keys, List.map_map]
  apply List.map_congr_left
  intro e _
  simp only [Function.comp]
  split
  · next h => exact h.symm
  · rfl

theorem mem_setFn {g : Gen} {n f : Name} {F G : Fn} (h : (f, G) ∈ (setFn g n F).funcs) :
    (f = n ∧ G = F) ∨ (f ≠ n ∧ (f, G) ∈ g.funcs) := by
  simp only [setFn, List.mem_map] at h
  obtain ⟨e, he, h⟩ := h
  split at h
  · cases h; exact Or.inl ⟨rfl, rfl⟩
  · next hne => subst h; exact Or.inr ⟨hne, he⟩

theorem withFn_spec {g g' : Gen} {f : Name} {k : Fn → Res Fn} (h : withFn g f k = .ok g') :
    ∃ F F', (f, F) ∈ g.funcs ∧ k F = .ok F' ∧ g' = setFn g f F' := by
  simp only [withFn] at h
  split at h
  · cases h
  · next F hF =>
    simp only [Res.bind_eq_ok, Res.ok.injEq] at h
    obtain ⟨F', hF', rfl⟩ := h
    exact ⟨F, F', Map.mem_of_find hF, hF', rfl⟩

theorem withFn_inv {g g' : Gen} {f : Name} {k : Fn → Res Fn} (hi : Inv g)
    (hk : ∀ F F', FnOk F → k F = .ok F' → FnOk F') (h : withFn g f k = .ok g') : Inv g' := by
  obtain ⟨F, F', hF, hF', rfl⟩ := withFn_spec h
  refine ⟨?_, fun n G hG => ?_⟩
  · unfold Sorted; rw [keys_setFn]; exact hi.sorted
  · rcases mem_setFn hG with ⟨_, rfl⟩ | ⟨_, hG⟩
    · exact hk F _ (hi.fns _ _ hF) hF'
    · exact hi.fns _ _ hG

theorem emplace_inv {g : Gen} {n : Name} {k : Kind} {ix : Map Nat Name} (hi : Inv g) :
    Inv ⟨emplace n (newFn k) g.funcs, ix⟩ := by
  refine ⟨emplace_sorted hi.sorted _ _, fun f F hF => ?_⟩
  rcases (mem_emplace hi.sorted).1 hF with h | ⟨_, h⟩
  · exact hi.fns _ _ h
  · cases h; exact newFn_ok k

theorem create_spec {k : Kind} {n : Name} {g g' : Gen} (h : create k n g = .ok g') :
    n ∉ Map.keys g.funcs ∧
    g' = ⟨emplace n (newFn k) g.funcs, Map.emplace g.index g.funcs.length n⟩ := by
  simp only [create] at h
  split at h
  · cases h
  · next hh =>
    cases h
    exact ⟨by rwa [← Map.has_iff], rfl⟩

theorem createBuiltin_spec {n : Name} {g g' : Gen} (h : createBuiltin n g = .ok g') :
    (builtinInfo n).isSome ∧
    g' = ⟨emplace n (newFn .builtin) g.funcs, Map.emplace g.index g.funcs.length n⟩ := by
  simp only [createBuiltin] at h
  split at h
  · cases h
  · next hh =>
    cases h
    exact ⟨Option.isSome_iff_ne_none.2 (by simpa using hh), rfl⟩

theorem step_inv {g g' : Gen} {o : Op} (hi : Inv g) (h : step g o = .ok g') : Inv g' := by
  cases o with
  | function n => obtain ⟨_, rfl⟩ := create_spec h; exact emplace_inv hi
  | task n => obtain ⟨_, rfl⟩ := create_spec h; exact emplace_inv hi
  | dpi n => obtain ⟨_, rfl⟩ := create_spec h; exact emplace_inv hi
  | builtin n => obtain ⟨_, rfl⟩ := createBuiltin_spec h; exact emplace_inv hi
  | input f n w s =>
    exact withFn_inv hi (fun F F' hF h => by cases h; exact addPort_ok hF _ _) h
  | output f n w s =>
    refine withFn_inv hi (fun F F' hF h => ?_) h
    split at h
    · cases h; exact addPort_ok hF _ _
    · cases h
  | order f l => exact withFn_inv hi (fun F F' hF h => setOrdering_ok hF (ofList_sorted _) h) h
  | orderIndex f l => exact withFn_inv hi (fun F F' hF h => setOrdering_ok hF (ofList_sorted _) h) h
  | ret f w s => exact withFn_inv hi (fun F F' hF h => placeReturn_ok hF h) h
  | returnWidth f w =>
    refine withFn_inv hi (fun F F' hF h => ?_) h
    split at h
    · cases h; exact ⟨hF.ports, hF.ordering, hF.sub, hF.dpi, hF.ret, hF.handler⟩
    · cases h
  | isContext f b =>
    refine withFn_inv hi (fun F F' hF h => ?_) h
    split at h
    · cases h; exact ⟨hF.ports, hF.ordering, hF.sub, hF.dpi, hF.ret, hF.handler⟩
    · cases h
  | isPure f b =>
    refine withFn_inv hi (fun F F' hF h => ?_) h
    split at h
    · cases h; exact ⟨hF.ports, hF.ordering, hF.sub, hF.dpi, hF.ret, hF.handler⟩
    · cases h

theorem run_inv : ∀ (os : List Op) {g g' : Gen}, Inv g → run g os = .ok g' → Inv g'
  | [], g, g', hi, h => by simp only [run, Res.ok.injEq] at h; exact h ▸ hi
  | o :: os, g, g', hi, h => by
    simp only [run, Res.bind_eq_ok] at h
    obtain ⟨g1, h1, h⟩ := h
    exact run_inv os (step_inv hi h1) h

theorem empty_inv : Inv empty := ⟨List.Pairwise.nil, by simp [empty]⟩

theorem reach_inv {g : Gen} (h : Reach g) : Inv g := by
  obtain ⟨os, h⟩ := h; exact run_inv os empty_inv h

/-! ## Binding -/

theorem all2_map {α β γ : Type} {R : α → β → Prop} {f : γ → α} {g : γ → β} : ∀ l : List γ,
    (∀ c ∈ l, R (f c) (g c)) → Kinds.All2 R (l.map f) (l.map g)
  | [], _ => .nil
  | c :: l, h => .cons (h c (by simp)) (all2_map l fun d hd => h d (List.mem_cons_of_mem _ hd))

theorem all2_func {α β : Type} {R : α → β → Prop} {f : α → β} : ∀ {l : List α} {m : List β},
    (∀ a ∈ l, ∀ b, R a b → b = f a) → Kinds.All2 R l m → m = l.map f
  | [], _, _, .nil => rfl
  | a :: _, _ :: _, h, .cons h1 h2 => by
    rw [List.map_cons, h a (by simp) _ h1,
      ← all2_func (fun a ha => h a (List.mem_cons_of_mem _ ha)) h2]

/-- The text of the argument for a port. -/
def txt (args : Map Name Arg) (n : Name) : Name :=
  match Map.find args n with
  | some a => a.text
  | none => []

theorem txt_mem {args : Map Name Arg} (hs : Sorted args) {n : Name} {a : Arg} (h : (n, a) ∈ args) :
    txt args n = a.text := by
  simp [txt, (find_mem hs).2 h]

theorem mem_txt {args : Map Name Arg} {n : Name} (h : n ∈ Map.keys args) :
    ∃ a, (n, a) ∈ args ∧ a.text = txt args n := by
  cases hf : Map.find args n with
  | none => exact absurd h (Map.find_none_iff.1 hf)
  | some a => exact ⟨a, Map.mem_of_find hf, by simp [txt, hf]⟩

theorem map_txt {args : Map Name Arg} (hs : Sorted args) :
    (Map.keys args).map (txt args) = args.map fun e => e.2.text := by
  simp only [Map.keys, List.map_map]
  apply List.map_congr_left
  intro e he
  exact txt_mem hs he

/-- With distinct names `Binds` determines the arguments. -/
theorem binds_iff {args : Map Name Arg} (hs : Sorted args) {fs ts : List Name}
    (hf : ∀ n ∈ fs, n ∈ Map.keys args) : Binds args fs ts ↔ ts = fs.map (txt args) := by
  constructor
  · intro h
    refine all2_func (fun n _ t ht => ?_) h
    obtain ⟨a, ha, rfl⟩ := ht
    exact (txt_mem hs ha).symm
  · rintro rfl
    have := all2_map (R := fun n t => ∃ a, (n, a) ∈ args ∧ a.text = t) (f := id) (g := txt args) fs
      (fun n hn => mem_txt (hf n hn))
    rwa [List.map_id] at this

theorem at_mem {m : Map Name Nat} (hs : Sorted m) {n : Name} {i : Nat} (h : (n, i) ∈ m) :
    at' m n = i := by
  simp [at', (find_mem hs).2 h]

theorem mem_at {m : Map Name Nat} {n : Name} (h : n ∈ Map.keys m) : (n, at' m n) ∈ m := by
  cases hf : Map.find m n with
  | none => exact absurd h (Map.find_none_iff.1 hf)
  | some a => simpa [at', hf] using Map.mem_of_find hf

/-- The place that `indexing` gives to a text is that of one of the ports with that text. -/
theorem indexing_foldl (ord : Map Name Nat) (t : Name) : ∀ (l : List (Name × Arg)) (m : Map Name Nat) i,
    Map.find (l.foldl (fun m e => Map.emplace m e.2.text (at' ord e.1)) m) t = some i →
    Map.find m t = some i ∨ ∃ e ∈ l, e.2.text = t ∧ i = at' ord e.1
  | [], m, i, h => Or.inl h
  | e :: l, m, i, h => by
    rcases indexing_foldl ord t l _ i h with h | ⟨d, hd, h⟩
    · rw [Map.find_emplace] at h
      split at h
      · next ht =>
        cases hm : Map.find m e.2.text with
        | some j =>
          rw [hm] at h
          exact Or.inl (by rw [ht, hm]; simpa using h)
        | none =>
          rw [hm] at h
          exact Or.inr ⟨e, by simp, ht.symm, by simpa using h.symm⟩
      · exact Or.inl h
    · exact Or.inr ⟨d, List.mem_cons_of_mem _ hd, h⟩

theorem indexing_found (ord : Map Name Nat) (t : Name) : ∀ (l : List (Name × Arg)) (m : Map Name Nat),
    (Map.has m t = true ∨ ∃ e ∈ l, e.2.text = t) →
    Map.has (l.foldl (fun m e => Map.emplace m e.2.text (at' ord e.1)) m) t = true
  | [], m, h => by
    rcases h with h | ⟨e, he, _⟩
    · exact h
    · simp at he
  | e :: l, m, h => by
    refine indexing_found ord t l _ ?_
    simp only [Map.has, Map.find_emplace]
    rcases h with h | ⟨d, hd, h⟩
    · refine Or.inl ?_
      split
      · rfl
      · exact h
    · rcases List.mem_cons.1 hd with rfl | hd
      · exact Or.inl (by rw [if_pos h.symm]; rfl)
      · exact Or.inr ⟨d, hd, h⟩

theorem indexing_at {ord : Map Name Nat} {args : Map Name Arg} (hs : Sorted args) {n : Name}
    (h : n ∈ Map.keys args) :
    ∃ n' ∈ Map.keys args, txt args n' = txt args n ∧
      at' (indexing ord args) (txt args n) = at' ord n' := by
  obtain ⟨a, ha, hat⟩ := mem_txt h
  have hf := indexing_found ord (txt args n) args [] (Or.inr ⟨(n, a), ha, hat⟩)
  rw [Map.has, Option.isSome_iff_exists] at hf
  obtain ⟨i, hi⟩ := hf
  rcases indexing_foldl ord _ args [] i hi with h' | ⟨e, he, het, hei⟩
  · simp [Map.find] at h'
  · refine ⟨e.1, Map.mem_keys.2 ⟨e.2, he⟩, ?_, ?_⟩
    · rw [txt_mem hs (show (e.1, e.2) ∈ args from he), het]
    · have hi : Map.find (indexing ord args) (txt args n) = some i := hi
      rw [at', hi, hei]; rfl

/-- The printed call binds every port to its argument exactly when there is no ordering, or when
the arguments of equal text stand next to each other in the declaration. -/
theorem binds_iff_adjacent {g : Gen} {f : Name} {F : Fn} {args : Map Name Arg} {fs ts : List Name}
    (hg : Reach g) (hF : (f, F) ∈ g.funcs) (hd : Distinct F) (hs : Sorted args)
    (hk : ∀ n, n ∈ Map.keys args ↔ n ∈ Map.keys F.ports)
    (h1 : declOrder F (.ok fs)) (h2 : callOrder F args (.ok ts)) :
    Binds args fs ts ↔ F.ordering = [] ∨ Adjacent (fs.map fun n => txt args n) := by
  have ok := (reach_inv hg).fns _ _ hF
  have hkeys : Map.keys args = Map.keys F.ports := sorted_keys hs ok.ports hk
  simp only [declOrder] at h1
  simp only [callOrder] at h2
  split at h1
  · next ho =>
    rw [if_pos ho] at h2
    cases h1; cases h2
    simp only [ho, true_or, iff_true]
    rw [binds_iff hs (fun n hn => (hk n).2 hn), ← hkeys, map_txt hs]
  · next ho =>
    rw [if_neg ho] at h2
    simp only [ho, false_or]
    split at h1
    · cases h1
    · next hl =>
      -- the ordering covers the ports
      have hcov : ∀ k ∈ Map.keys F.ports, k ∈ Map.keys F.ordering :=
        subset_of_length ok.ordering.nodup ok.sub (by simpa [Map.keys] using Decidable.not_not.1 hl)
      rw [if_pos (by rw [List.all_eq_true]; exact fun k hk => Map.has_iff.2 (hcov k hk))] at h1
      rw [if_pos (by rw [List.all_eq_true]; exact fun k h => Map.has_iff.2 (hcov k ((hk k).1 h)))] at h2
      obtain ⟨_, p1, s1⟩ := h1
      obtain ⟨_, p2, s2⟩ := h2
      have memfs : ∀ n, n ∈ fs ↔ n ∈ Map.keys args := fun n => by rw [hkeys]; exact p1.mem_iff.symm
      have hnd : fs.Nodup := p1.nodup_iff.1 ok.ports.nodup
      have inj : ∀ a b, a ∈ Map.keys args → b ∈ Map.keys args → at' F.ordering a = at' F.ordering b →
          a = b := by
        intro a b ha hb e
        have h1 := mem_at (hcov a ((hk a).1 ha))
        have h2 := mem_at (hcov b ((hk b).1 hb))
        rw [← e] at h2
        exact hd a b _ h1 h2
      -- the key of a text determines it
      have kinj : ∀ m n, m ∈ Map.keys args → n ∈ Map.keys args →
          at' (indexing F.ordering args) (txt args m) = at' (indexing F.ordering args) (txt args n) →
          txt args m = txt args n := by
        intro m n hm hn e
        obtain ⟨m', hm', tm, em⟩ := indexing_at (ord := F.ordering) hs hm
        obtain ⟨n', hn', tn, en⟩ := indexing_at (ord := F.ordering) hs hn
        rw [em, en] at e
        rw [← tm, ← tn, inj m' n' hm' hn' e]
      have lt_of : ∀ (i j : Nat) (hi : i < fs.length) (hj : j < fs.length), i < j →
          at' F.ordering fs[i] < at' F.ordering fs[j] := by
        intro i j hi hj hij
        have h := List.pairwise_iff_getElem.1 s1 i j hi hj hij
        have hne : fs[i] ≠ fs[j] := List.pairwise_iff_getElem.1 hnd i j hi hj hij
        have : at' F.ordering fs[i] ≠ at' F.ordering fs[j] := fun e =>
          hne (inj _ _ ((memfs _).1 (List.getElem_mem hi)) ((memfs _).1 (List.getElem_mem hj)) e)
        omega
      have p3 : ts.Perm (fs.map (txt args)) := by
        refine p2.symm.trans ?_
        rw [← map_txt hs, hkeys]
        exact p1.map _
      rw [binds_iff hs (fun n hn => (memfs n).1 hn)]
      have s2' : ts.Pairwise fun a b =>
          at' (indexing F.ordering args) a ≤ at' (indexing F.ordering args) b :=
        s2.imp fun h => by omega
      constructor
      · rintro rfl i j k a b c hij hjk ha hb hc hac
        subst hac
        have hk' : k < (fs.map (txt args)).length := (List.getElem?_eq_some_iff.1 hc).1
        have hP := List.pairwise_iff_getElem.1 s2'
        have hi : i < (fs.map (txt args)).length := by omega
        have hj : j < (fs.map (txt args)).length := by omega
        have h1 := hP i j hi hj hij
        have h2 := hP j k hj hk' hjk
        rw [List.getElem?_eq_getElem hi, Option.some.injEq] at ha
        rw [List.getElem?_eq_getElem hj, Option.some.injEq] at hb
        rw [List.getElem?_eq_getElem hk', Option.some.injEq] at hc
        rw [ha, hb] at h1
        rw [hb, hc] at h2
        rw [List.getElem_map] at ha hb
        rw [← ha, ← hb] at h1 h2 ⊢
        exact kinj _ _ ((memfs _).1 (List.getElem_mem _)) ((memfs _).1 (List.getElem_mem _)) (by omega)
      · intro hA
        refine List.Perm.eq_of_pairwise ?_ s2' ?_ p3
        · intro a b ha hb h1 h2
          obtain ⟨m, hm, rfl⟩ := List.mem_map.1 (p3.mem_iff.1 ha)
          obtain ⟨n, hn, rfl⟩ := List.mem_map.1 hb
          exact kinj m n ((memfs _).1 hm) ((memfs _).1 hn) (by omega)
        · rw [List.pairwise_iff_getElem]
          intro i j hi hj hij
          rw [List.getElem_map, List.getElem_map]
          have hi' : i < fs.length := by simpa using hi
          have hj' : j < fs.length := by simpa using hj
          by_cases e : txt args fs[i] = txt args fs[j]
          · rw [e]; exact Nat.le_refl _
          · obtain ⟨m, hm, tm, em⟩ := indexing_at (ord := F.ordering) hs
              ((memfs _).1 (List.getElem_mem hi'))
            obtain ⟨n, hn, tn, en⟩ := indexing_at (ord := F.ordering) hs
              ((memfs _).1 (List.getElem_mem hj'))
            obtain ⟨p, hp, rfl⟩ := List.mem_iff_getElem.1 ((memfs m).2 hm)
            obtain ⟨q, hq, rfl⟩ := List.mem_iff_getElem.1 ((memfs n).2 hn)
            rw [em, en]
            have get : ∀ (x : Nat) (hx : x < fs.length),
                (fs.map fun n => txt args n)[x]? = some (txt args fs[x]) := by
              intro x hx
              rw [List.getElem?_map, List.getElem?_eq_getElem hx]; rfl
            have hpj : p < j := by
              rcases Nat.lt_or_ge p j with h | h
              · exact h
              · rcases Nat.eq_or_lt_of_le h with h | h
                · subst h; exact absurd tm.symm e
                · exact absurd (hA i j p _ _ _ hij h (get i hi') (get j hj') (get p hp) tm.symm).symm e
            have hpq : p < q := by
              rcases Nat.lt_or_ge p q with h | h
              · exact h
              · rcases Nat.eq_or_lt_of_le h with h | h
                · subst h; exact absurd (tm.symm.trans tn) e
                · have := hA q p j _ _ _ h hpj (get q hq) (get p hp) (get j hj') tn
                  exact absurd (tm.symm.trans (this.trans tn)) e
            exact Nat.le_of_lt (lt_of p q hp hq hpq)

theorem adjacent_of_nodup {l : List Name} (h : l.Nodup) : Adjacent l := by
  intro i j k a b c hij hjk ha hb hc hac
  subst hac
  obtain ⟨hi, ha⟩ := List.getElem?_eq_some_iff.1 ha
  obtain ⟨hk, hc⟩ := List.getElem?_eq_some_iff.1 hc
  exact absurd (ha.trans hc.symm) (List.pairwise_iff_getElem.1 h i k hi hk (by omega))

theorem makeCall_spec {g : Gen} {f : Name} {args : Map Name Arg} {r : Bool} {c : Call}
    (h : makeCall g f args r = .ok c) : ∃ F t, (f, F) ∈ g.funcs ∧ checkArgs F.ports args = .ok () ∧
      callType F f args.length r = .ok t ∧ c = ⟨f, args, t.1, t.2⟩ := by
  simp only [makeCall] at h
  split at h
  · cases h
  · next F hF =>
    simp only [Res.bind_eq_ok, Res.ok.injEq] at h
    obtain ⟨_, h1, t, h2, rfl⟩ := h
    exact ⟨F, t, Map.mem_of_find hF, h1, h2, rfl⟩

/-- **Arguments are bound to their ports.**  If the call names exactly the ports of the function,
and no two arguments have the same text unless the function has no ordering, every port of the
emitted declaration gets the argument that was named for it. -/
theorem binds_partial {g : Gen} {f : Name} {F : Fn} {args : List (Name × Arg)} {c : Call}
    {fs ts : List Name} (hg : Reach g) (hF : (f, F) ∈ g.funcs) (hc : callNamed g f args = .ok c)
    (hn : (args.map (·.1)).Nodup) (hk : ∀ n, n ∈ args.map (·.1) ↔ n ∈ F.ports.map (·.1))
    (hd : Distinct F) (ht : F.ordering = [] ∨ (args.map fun e => e.2.text).Nodup)
    (h1 : declOrder F (.ok fs)) (h2 : callOrder F c.args (.ok ts)) : Binds args fs ts := by
  obtain ⟨_, _, _, _, _, rfl⟩ := makeCall_spec hc
  have hp := ofList_perm hn
  have hs := ofList_sorted args
  have hk' : ∀ n, n ∈ Map.keys (ofList args) ↔ n ∈ Map.keys F.ports := fun n => by
    rw [ofList_keys]; exact hk n
  have key := (binds_iff_adjacent hg hF hd hs hk' h1 h2).2 (by
    rcases ht with h | h
    · exact Or.inl h
    · by_cases ho : F.ordering = []
      · exact Or.inl ho
      · refine Or.inr (adjacent_of_nodup ?_)
        -- the ports of the declaration are the ports of the function
        have hfs : (Map.keys F.ports).Perm fs := by
          simp only [declOrder, if_neg ho] at h1
          split at h1
          · cases h1
          · split at h1
            · exact h1.2.1
            · rcases h1 with h1 | ⟨_, h1⟩
              · cases h1
              · cases h1; exact List.Perm.refl _
        have : ((ofList args).map fun e => e.2.text).Perm (args.map fun e => e.2.text) := hp.map _
        rw [← map_txt hs, sorted_keys hs ((reach_inv hg).fns _ _ hF).ports hk'] at this
        exact ((hfs.map _).symm.trans this).nodup_iff.2 h)
  refine Kinds.All2.mono (fun n t => ?_) key
  rintro ⟨a, ha, hta⟩
  exact ⟨a, ofList_mem ha, hta⟩

/-! ### The declaration and the call can be printed -/

theorem key_weak {α : Type} (k : α → Nat) (l : List α) : Lists.StrictWeak (fun a b => k a < k b) l :=
  ⟨fun a _ => by omega, fun a _ b _ c _ => by omega, fun a _ b _ c _ => by omega⟩

/-- The declaration is printed exactly when the ordering is absent or covers the ports; it then
lists the ports of the function. -/
theorem decl_printed {g : Gen} {f : Name} {F : Fn} (hg : Reach g) (hF : (f, F) ∈ g.funcs) :
    ((∃ fs, declOrder F (.ok fs)) ↔ F.ordering = [] ∨ F.ordering.length = F.ports.length) ∧
    (∀ fs, declOrder F (.ok fs) → fs.Perm (F.ports.map (·.1))) ∧
    (∀ e, declOrder F (.throw e) → e = .user) := by
  have ok := (reach_inv hg).fns _ _ hF
  have hcov : F.ordering.length = F.ports.length →
      (Map.keys F.ports).all (Map.has F.ordering) = true := by
    intro hl
    rw [List.all_eq_true]
    exact fun k hk => Map.has_iff.2
      (subset_of_length ok.ordering.nodup ok.sub (by simpa [Map.keys] using hl) k hk)
  refine ⟨⟨?_, ?_⟩, ?_, ?_⟩
  · rintro ⟨fs, h⟩
    simp only [declOrder] at h
    split at h
    · next ho => exact Or.inl ho
    · split at h
      · cases h
      · next hl => exact Or.inr (Decidable.not_not.1 hl)
  · intro h
    by_cases ho : F.ordering = []
    · exact ⟨Map.keys F.ports, by simp only [declOrder, if_pos ho]⟩
    · have hl := h.resolve_left ho
      obtain ⟨r, hr⟩ := Lists.sort_exists
        (key_weak (at' F.ordering) (Map.keys F.ports))
      exact ⟨r, by rw [declOrder, if_neg ho, if_neg (fun h => h hl), if_pos (hcov hl)]; exact hr⟩
  · intro fs h
    simp only [declOrder] at h
    split at h
    · cases h; exact List.Perm.refl _
    · split at h
      · cases h
      · split at h
        · exact h.2.1.symm
        · rcases h with h | ⟨_, h⟩
          · cases h
          · cases h; exact List.Perm.refl _
  · intro e h
    simp only [declOrder] at h
    split at h
    · cases h
    · split at h
      · cases h; rfl
      · next hl =>
        rw [if_pos (hcov (Decidable.not_not.1 hl))] at h
        exact absurd h (by simp [Lists.StdSort])

/-- The arguments of a printed call are those of the call. -/
theorem call_printed {F : Fn} {args : Map Name Arg} :
    ((∃ ts, callOrder F args (.ok ts)) ↔
      F.ordering = [] ∨ ∀ e ∈ args, e.1 ∈ F.ordering.map (·.1)) ∧
    (∀ ts, callOrder F args (.ok ts) → ts.Perm (args.map fun e => e.2.text)) := by
  have hall : (Map.keys args).all (Map.has F.ordering) = true ↔ ∀ e ∈ args, e.1 ∈ F.ordering.map (·.1) := by
    rw [List.all_eq_true]
    constructor
    · intro h e he
      exact Map.has_iff.1 (h e.1 (Map.mem_keys.2 ⟨e.2, he⟩))
    · intro h k hk
      obtain ⟨v, hv⟩ := Map.mem_keys.1 hk
      exact Map.has_iff.2 (h _ hv)
  refine ⟨⟨?_, ?_⟩, ?_⟩
  · rintro ⟨ts, h⟩
    simp only [callOrder] at h
    split at h
    · next ho => exact Or.inl ho
    · split at h
      · next hc => exact Or.inr (hall.1 hc)
      · cases h
  · intro h
    by_cases ho : F.ordering = []
    · exact ⟨args.map fun e => e.2.text, by simp only [callOrder, if_pos ho]⟩
    · have hl := hall.2 (h.resolve_left ho)
      obtain ⟨r, hr⟩ := Lists.sort_exists
        (key_weak (at' (indexing F.ordering args)) (args.map fun e => e.2.text))
      exact ⟨r, by rw [callOrder, if_neg ho, if_pos hl]; exact hr⟩
  · intro ts h
    simp only [callOrder] at h
    split at h
    · cases h; exact List.Perm.refl _
    · split at h
      · exact h.2.1.symm
      · cases h

/-! ### Orderings that count from zero -/

theorem nodup_map_inj {α β : Type} {f : α → β} : ∀ {l : List α}, (l.map f).Nodup → ∀ {a b : α},
    a ∈ l → b ∈ l → f a = f b → a = b
  | [], _, _, _, h, _, _ => by simp at h
  | c :: l, hn, a, b, ha, hb, e => by
    rw [List.map_cons, List.nodup_cons] at hn
    rcases List.mem_cons.1 ha with h1 | h1 <;> rcases List.mem_cons.1 hb with h2 | h2
    · rw [h1, h2]
    · subst h1; exact absurd (List.mem_map.2 ⟨b, h2, e.symm⟩) hn.1
    · subst h2; exact absurd (List.mem_map.2 ⟨a, h1, e⟩) hn.1
    · exact nodup_map_inj hn.2 h1 h2 e

/-- The orderings that Python gives (`kratos/func.py:43-45, 100-110`): the names in turn, counted
from zero. -/
def Counts : Op → Prop
  | .order _ l => (l.map (·.1)).Nodup ∧ (l.map (·.2)).Perm (List.range l.length)
  | .orderIndex _ l => (l.map (·.2)).Nodup ∧ (l.map (·.1)).Perm (List.range l.length)
  | _ => True

/-- The places of an ordering are `0, …, n-1`. -/
def CountFn (F : Fn) : Prop := (F.ordering.map (·.2)).Perm (List.range F.ordering.length)

theorem addPort_count {F : Fn} (ok : FnOk F) (h : CountFn F) (n : Name) (p : Prt) :
    CountFn (addPort F n p) := by
  simp only [CountFn, addPort]
  split
  · by_cases hn : n ∈ Map.keys F.ordering
    · rw [emplace_present n _ _ ok.ordering hn]; exact h
    · have hp := emplace_absent n F.ordering.length F.ordering hn
      refine (hp.map _).trans ?_
      rw [hp.length_eq, List.map_cons, List.length_cons, List.range_succ]
      exact (h.cons _).trans (List.perm_append_singleton _ _).symm
  · exact h

theorem setOrdering_count {F F' : Fn} {l : List (Name × Nat)} (h : setOrdering F (ofList l) = .ok F')
    (hn : (l.map (·.1)).Nodup) (hl : (l.map (·.2)).Perm (List.range l.length)) : CountFn F' := by
  obtain ⟨rfl, _, _⟩ := setOrdering_spec h
  have hp := ofList_perm hn
  simp only [CountFn]
  rw [hp.length_eq]
  exact (hp.map _).trans hl

theorem step_count {g g' : Gen} {o : Op} (hi : Inv g) (hc : Counts o) (h : step g o = .ok g')
    (hg : ∀ f F, (f, F) ∈ g.funcs → CountFn F) : ∀ f F, (f, F) ∈ g'.funcs → CountFn F := by
  have hnew : ∀ k, CountFn (newFn k) := fun k => by simp [CountFn, newFn]
  have hem : ∀ n k ix, g' = ⟨emplace n (newFn k) g.funcs, ix⟩ →
      ∀ f F, (f, F) ∈ g'.funcs → CountFn F := by
    rintro n k ix rfl f F hF
    rcases (mem_emplace hi.sorted).1 hF with h | ⟨_, h⟩
    · exact hg _ _ h
    · cases h; exact hnew k
  have hw : ∀ f k, withFn g f k = .ok g' → (∀ F F', FnOk F → CountFn F → k F = .ok F' → CountFn F') →
      ∀ f F, (f, F) ∈ g'.funcs → CountFn F := by
    intro n k h hk f G hG
    obtain ⟨F, F', hF, hF', rfl⟩ := withFn_spec h
    rcases mem_setFn hG with ⟨_, rfl⟩ | ⟨_, hG⟩
    · exact hk F _ (hi.fns _ _ hF) (hg _ _ hF) hF'
    · exact hg _ _ hG
  cases o with
  | function n => exact hem _ _ _ (create_spec h).2
  | task n => exact hem _ _ _ (create_spec h).2
  | dpi n => exact hem _ _ _ (create_spec h).2
  | builtin n => exact hem _ _ _ (createBuiltin_spec h).2
  | input f n w s => exact hw _ _ h fun F F' ok hF h => by cases h; exact addPort_count ok hF _ _
  | output f n w s =>
    refine hw _ _ h fun F F' ok hF h => ?_
    split at h
    · cases h; exact addPort_count ok hF _ _
    · cases h
  | order f l => exact hw _ _ h fun F F' _ _ h => setOrdering_count h hc.1 hc.2
  | orderIndex f l =>
    refine hw _ _ h fun F F' _ _ h => setOrdering_count h ?_ ?_
    · rw [List.map_map]; exact hc.1
    · rw [List.map_map, List.length_map]; exact hc.2
  | ret f w s =>
    refine hw _ _ h fun F F' ok hF h => ?_
    simp only [placeReturn] at h
    split at h
    · cases h; exact hF
    · split at h
      · cases h
      · split at h
        · cases h
        · cases h; exact hF
  | returnWidth f w =>
    refine hw _ _ h fun F F' ok hF h => ?_
    split at h
    · cases h; exact hF
    · cases h
  | isContext f b =>
    refine hw _ _ h fun F F' ok hF h => ?_
    split at h
    · cases h; exact hF
    · cases h
  | isPure f b =>
    refine hw _ _ h fun F F' ok hF h => ?_
    split at h
    · cases h; exact hF
    · cases h

theorem run_count : ∀ (os : List Op) {g g' : Gen}, Inv g → (∀ o ∈ os, Counts o) →
    run g os = .ok g' → (∀ f F, (f, F) ∈ g.funcs → CountFn F) → ∀ f F, (f, F) ∈ g'.funcs → CountFn F
  | [], g, g', _, _, h, hg => by simp only [run, Res.ok.injEq] at h; exact h ▸ hg
  | o :: os, g, g', hi, hc, h, hg => by
    simp only [run, Res.bind_eq_ok] at h
    obtain ⟨g1, h1, h⟩ := h
    exact run_count os (step_inv hi h1) (fun o ho => hc o (List.mem_cons_of_mem _ ho)) h
      (step_count hi (hc o (by simp)) h1 hg)

/-- With orderings that count from zero no place is given twice, also when inputs are added to a
DPI function later. -/
theorem distinct_counts {os : List Op} {g : Gen} {f : Name} {F : Fn} (h : run empty os = .ok g)
    (hc : ∀ o ∈ os, Counts o) (hF : (f, F) ∈ g.funcs) : Distinct F := by
  have := run_count os empty_inv hc h (by simp [empty]) f F hF
  intro a b i ha hb
  have hn : (F.ordering.map (·.2)).Nodup := this.nodup_iff.2 List.nodup_range
  have := nodup_map_inj hn ha hb rfl
  exact congrArg Prod.fst this

/-! ## Acceptance -/

theorem checkArgs_iff (args : Map Name Arg) : ∀ ps : List (Name × Prt),
    checkArgs ps args = .ok () ↔
      ∀ n p, (n, p) ∈ ps → ∃ a, Map.find args n = some a ∧ a.width = p.width ∧ a.signed = p.signed
  | [] => by simp [checkArgs]
  | (m, q) :: ps => by
    have ih := checkArgs_iff args ps
    simp only [checkArgs]
    cases hf : Map.find args m with
    | none =>
      refine ⟨fun h => (by cases h), fun h => ?_⟩
      obtain ⟨a, ha, _⟩ := h m q (by simp)
      rw [hf] at ha; cases ha
    | some a =>
      simp only
      by_cases h1 : q.width = a.width
      · by_cases h2 : q.signed = a.signed
        · rw [if_neg (fun h => h h1), if_neg (fun h => h h2), ih]
          constructor
          · intro h n p hp
            rcases List.mem_cons.1 hp with e | hp
            · cases e; exact ⟨a, hf, h1.symm, h2.symm⟩
            · exact h n p hp
          · exact fun h n p hp => h n p (List.mem_cons_of_mem _ hp)
        · rw [if_neg (fun h => h h1), if_pos h2]
          refine ⟨fun h => (by cases h), fun h => ?_⟩
          obtain ⟨b, hb, _, hb2⟩ := h m q (by simp)
          rw [hf] at hb; cases hb
          exact absurd hb2.symm h2
      · rw [if_pos h1]
        refine ⟨fun h => (by cases h), fun h => ?_⟩
        obtain ⟨b, hb, hb1, _⟩ := h m q (by simp)
        rw [hf] at hb; cases hb
        exact absurd hb1.symm h1

/-- **A call with named arguments is accepted** exactly when every port of the function has an
argument of its width and sign, a plain function has a return statement, and a built-in with a
result gets an allowed number of arguments. -/
theorem accepts_iff {g : Gen} {f : Name} {F : Fn} {args : List (Name × Arg)} (hg : Reach g)
    (hF : (f, F) ∈ g.funcs) (hn : (args.map (·.1)).Nodup)
    (hb : F.kind = .builtin → ∃ i, builtinInfo f = some i) :
    (∃ c, callNamed g f args = .ok c) ↔
      (∀ n p, (n, p) ∈ F.ports → ∃ a, (n, a) ∈ args ∧ a.width = p.width ∧ a.signed = p.signed) ∧
      (F.kind = .plain → F.returns = true) ∧
      (F.kind = .builtin → ∀ i, builtinInfo f = some i → i.ret ≠ 0 →
        i.min ≤ args.length ∧ args.length ≤ i.max) := by
  have hi := reach_inv hg
  have ok := hi.fns _ _ hF
  have hp := ofList_perm hn
  have hfind : ∀ n a, Map.find (ofList args) n = some a ↔ (n, a) ∈ args := fun n a => by
    rw [find_mem (ofList_sorted args), hp.mem_iff]
  have hchk : checkArgs F.ports (ofList args) = .ok () ↔
      ∀ n p, (n, p) ∈ F.ports → ∃ a, (n, a) ∈ args ∧ a.width = p.width ∧ a.signed = p.signed := by
    rw [checkArgs_iff]
    constructor
    · intro h n p hp
      obtain ⟨a, ha, h⟩ := h n p hp
      exact ⟨a, (hfind n a).1 ha, h⟩
    · intro h n p hp
      obtain ⟨a, ha, h⟩ := h n p hp
      exact ⟨a, (hfind n a).2 ha, h⟩
  have hty : (∃ t, callType F f (ofList args).length true = .ok t) ↔
      (F.kind = .plain → F.returns = true) ∧
      (F.kind = .builtin → ∀ i, builtinInfo f = some i → i.ret ≠ 0 →
        i.min ≤ args.length ∧ args.length ≤ i.max) := by
    rw [hp.length_eq]
    simp only [callType, true_and]
    cases hk : F.kind with
    | plain =>
      cases hh : F.handler with
      | none =>
        have hr : F.returns = false := by
          cases hr : F.returns with
          | false => rfl
          | true => have := ok.ret hr; rw [hh] at this; cases this
        simp [hr]
      | some h =>
        have hr : F.returns = true := ok.handler (by simp [hh])
        simp [hr]
    | task =>
      cases hh : F.handler with
      | none => simp
      | some h => simp
    | dpi =>
      by_cases h0 : F.retWidth = 0
      · simp [h0]
      · simp [h0]
    | builtin =>
      obtain ⟨i, hi⟩ := hb hk
      simp only [hi, Option.some.injEq]
      by_cases h0 : i.ret = 0
      · simp [h0]
      · by_cases hl : args.length < i.min ∨ args.length > i.max
        · simp [h0, hl]
          omega
        · simp [h0, hl]
          omega
  rw [← hchk, ← hty]
  simp only [callNamed, makeCall, (find_mem hi.sorted).2 hF]
  constructor
  · rintro ⟨c, hc⟩
    simp only [Res.bind_eq_ok, Res.ok.injEq] at hc
    obtain ⟨_, h1, t, h2, _⟩ := hc
    exact ⟨h1, t, h2⟩
  · rintro ⟨h1, t, h2⟩
    exact ⟨_, by rw [h1]; simp only [Res.ok_bind, h2]; rfl⟩

/-- Every port has an argument of its type. -/
theorem args_partial {g : Gen} {f : Name} {F : Fn} {args : List (Name × Arg)} {c : Call}
    (hg : Reach g) (hF : (f, F) ∈ g.funcs) (hc : callNamed g f args = .ok c) :
    ∀ n p, (n, p) ∈ F.ports → ∃ a, (n, a) ∈ args ∧ a.width = p.width ∧ a.signed = p.signed := by
  obtain ⟨F', t, hF', h1, _, _⟩ := makeCall_spec hc
  have hs := (reach_inv hg).sorted
  have e : F' = F := by
    have := (find_mem hs).2 hF'
    rw [(find_mem hs).2 hF] at this
    exact (Option.some.inj this).symm
  subst e
  intro n p hp
  obtain ⟨a, ha, h⟩ := (checkArgs_iff _ _).1 h1 n p hp
  exact ⟨a, ofList_mem (Map.mem_of_find ha), h⟩

/-! ## The type of a call -/

/-- The width of a call of a plain function is that of the declaration; the declaration is always
unsigned. -/
theorem type_partial {g : Gen} {f : Name} {F : Fn} {args : List (Name × Arg)} {c : Call}
    (hg : Reach g) (hF : (f, F) ∈ g.funcs) (hk : F.kind = .plain) (hc : callNamed g f args = .ok c) :
    ∃ s, F.handler = some (c.width, s) ∧ declType F = .logic c.width ∧ c.signed = s := by
  obtain ⟨F', t, hF', _, h2, rfl⟩ := makeCall_spec hc
  have hs := (reach_inv hg).sorted
  have e : F' = F := by
    have := (find_mem hs).2 hF'
    rw [(find_mem hs).2 hF] at this
    exact (Option.some.inj this).symm
  subst e
  have ok := (reach_inv hg).fns _ _ hF
  cases hh : F'.handler with
  | none => simp [callType, hh, hk] at h2
  | some h =>
    simp [callType, hh, hk] at h2
    subst h2
    exact ⟨h.2, rfl, by simp [declType, hk, ok.handler (by simp [hh]), hh], rfl⟩

/-- A function keeps its place in the table, its class and its handle. -/
theorem step_keeps {g g' : Gen} {o : Op} (hi : Inv g) (h : step g o = .ok g') {f : Name} {F : Fn}
    (hF : (f, F) ∈ g.funcs) : ∃ F', (f, F') ∈ g'.funcs ∧ F'.kind = F.kind ∧
      ∀ x, F.handler = some x → F'.handler = some x := by
  have hem : ∀ n k ix, g' = ⟨emplace n (newFn k) g.funcs, ix⟩ →
      ∃ F', (f, F') ∈ g'.funcs ∧ F'.kind = F.kind ∧ ∀ x, F.handler = some x → F'.handler = some x := by
    rintro n k ix rfl
    exact ⟨F, (mem_emplace hi.sorted).2 (Or.inl hF), rfl, fun _ h => h⟩
  have hw : ∀ n k, withFn g n k = .ok g' →
      (∀ G G', k G = .ok G' → G'.kind = G.kind ∧ ∀ x, G.handler = some x → G'.handler = some x) →
      ∃ F', (f, F') ∈ g'.funcs ∧ F'.kind = F.kind ∧ ∀ x, F.handler = some x → F'.handler = some x := by
    intro n k h hk
    obtain ⟨G, G', hG, hG', rfl⟩ := withFn_spec h
    by_cases e : f = n
    · subst e
      have : G = F := by
        have h1 := (find_mem hi.sorted).2 hG
        rw [(find_mem hi.sorted).2 hF] at h1
        exact (Option.some.inj h1).symm
      subst this
      refine ⟨G', ?_, hk _ _ hG'⟩
      simp only [setFn, List.mem_map]
      exact ⟨(f, G), hF, by simp⟩
    · refine ⟨F, ?_, rfl, fun _ h => h⟩
      simp only [setFn, List.mem_map]
      exact ⟨(f, F), hF, by simp [e]⟩
  cases o with
  | function n => exact hem _ _ _ (create_spec h).2
  | task n => exact hem _ _ _ (create_spec h).2
  | dpi n => exact hem _ _ _ (create_spec h).2
  | builtin n => exact hem _ _ _ (createBuiltin_spec h).2
  | input f n w s => exact hw _ _ h fun G G' h => by cases h; exact ⟨rfl, fun _ h => h⟩
  | output f n w s =>
    refine hw _ _ h fun G G' h => ?_
    split at h
    · cases h; exact ⟨rfl, fun _ h => h⟩
    · cases h
  | order f l =>
    exact hw _ _ h fun G G' h => by obtain ⟨rfl, _⟩ := setOrdering_spec h; exact ⟨rfl, fun _ h => h⟩
  | orderIndex f l =>
    exact hw _ _ h fun G G' h => by obtain ⟨rfl, _⟩ := setOrdering_spec h; exact ⟨rfl, fun _ h => h⟩
  | ret f w s =>
    refine hw _ _ h fun G G' h => ?_
    simp only [placeReturn] at h
    split at h
    · next hn => cases h; exact ⟨rfl, fun x hx => by rw [hn] at hx; cases hx⟩
    · split at h
      · cases h
      · split at h
        · cases h
        · cases h; exact ⟨rfl, fun _ h => h⟩
  | returnWidth f w =>
    refine hw _ _ h fun G G' h => ?_
    split at h
    · cases h; exact ⟨rfl, fun _ h => h⟩
    · cases h
  | isContext f b =>
    refine hw _ _ h fun G G' h => ?_
    split at h
    · cases h; exact ⟨rfl, fun _ h => h⟩
    · cases h
  | isPure f b =>
    refine hw _ _ h fun G G' h => ?_
    split at h
    · cases h; exact ⟨rfl, fun _ h => h⟩
    · cases h

theorem run_keeps : ∀ (os : List Op) {g g' : Gen}, Inv g → run g os = .ok g' → ∀ {f : Name} {F : Fn},
    (f, F) ∈ g.funcs → ∃ F', (f, F') ∈ g'.funcs ∧ F'.kind = F.kind ∧
      ∀ x, F.handler = some x → F'.handler = some x
  | [], g, g', _, h, f, F, hF => by
    simp only [run, Res.ok.injEq] at h; subst h; exact ⟨F, hF, rfl, fun _ h => h⟩
  | o :: os, g, g', hi, h, f, F, hF => by
    simp only [run, Res.bind_eq_ok] at h
    obtain ⟨g1, h1, h⟩ := h
    obtain ⟨F1, hF1, hk1, hh1⟩ := step_keeps hi h1 hF
    obtain ⟨F2, hF2, hk2, hh2⟩ := run_keeps os (step_inv hi h1) h hF1
    exact ⟨F2, hF2, hk2.trans hk1, fun x hx => hh2 x (hh1 x hx)⟩

theorem ret_handler : ∀ (os : List Op) {g g' : Gen}, Inv g → run g os = .ok g' → ∀ {f : Name} {w : Nat}
    {s : Bool}, Op.ret f w s ∈ os → ∃ F, (f, F) ∈ g'.funcs ∧ F.handler = some (w, s)
  | [], g, g', _, _, f, w, s, hm => by simp at hm
  | o :: os, g, g', hi, h, f, w, s, hm => by
    simp only [run, Res.bind_eq_ok] at h
    obtain ⟨g1, h1, h⟩ := h
    rcases List.mem_cons.1 hm with rfl | hm
    · obtain ⟨G, G', hG, hG', rfl⟩ := withFn_spec h1
      have hm' : (f, G') ∈ (setFn g f G').funcs := by
        simp only [setFn, List.mem_map]
        exact ⟨(f, G), hG, by simp⟩
      have hh : G'.handler = some (w, s) := by
        simp only [placeReturn] at hG'
        split at hG'
        · cases hG'; rfl
        · next x hx =>
          split at hG'
          · cases hG'
          · next h2 =>
            split at hG'
            · cases hG'
            · next h3 =>
              cases hG'
              show G.handler = _
              rw [hx]
              obtain ⟨x1, x2⟩ := x
              simp only [ne_eq, Decidable.not_not] at h2 h3
              rw [h2, h3]
      obtain ⟨F, hF, _, hk⟩ := run_keeps os (step_inv hi h1) h hm'
      exact ⟨F, hF, hk _ hh⟩
    · exact ret_handler os (step_inv hi h1) h hm

/-- **All return statements of a function agree with its declaration**, whatever happens to the
function afterwards. -/
theorem return_types {os : List Op} {g : Gen} {f : Name} {F : Fn} {w : Nat} {s : Bool}
    (h : run empty os = .ok g) (hF : (f, F) ∈ g.funcs) (hm : Op.ret f w s ∈ os) :
    F.handler = some (w, s) ∧ (F.kind = .plain → declType F = .logic w) := by
  have hi := run_inv os empty_inv h
  obtain ⟨F', hF', hh⟩ := ret_handler os empty_inv h hm
  have e : F' = F := by
    have := (find_mem hi.sorted).2 hF'
    rw [(find_mem hi.sorted).2 hF] at this
    exact (Option.some.inj this).symm
  subst e
  refine ⟨hh, fun hk => ?_⟩
  simp [declType, hk, (hi.fns _ _ hF).handler (by simp [hh]), hh]

/-! ## The functions that a visitor meets -/

/-- The name that a call creates. -/
def created : Op → Option Name
  | .function n => some n
  | .task n => some n
  | .dpi n => some n
  | .builtin n => some n
  | _ => none

/-- The table lists `ns` in the order of creation. -/
def Lists' (g : Gen) (ns : List Name) : Prop :=
  (Map.keys g.funcs).Perm ns ∧ ∀ i, Map.find g.index i = ns[i]?

theorem lists_emplace {g : Gen} {ns : List Name} (hl : Lists' g ns) {n : Name} (k : Kind)
    (hn : n ∉ Map.keys g.funcs) :
    Lists' ⟨emplace n (newFn k) g.funcs, Map.emplace g.index g.funcs.length n⟩ (ns ++ [n]) := by
  have hlen : g.funcs.length = ns.length := by simpa [Map.keys] using hl.1.length_eq
  refine ⟨?_, fun i => ?_⟩
  · have := (emplace_absent n (newFn k) g.funcs hn).map Prod.fst
    refine List.Perm.trans this ?_
    exact (hl.1.cons n).trans (List.perm_append_singleton _ _).symm
  · simp only [Map.find_emplace, hl.2, hlen]
    split
    · next h => subst h; simp
    · next h =>
      rcases Nat.lt_or_ge i ns.length with h' | h'
      · rw [List.getElem?_append_left h']
      · rw [List.getElem?_eq_none (by omega), List.getElem?_eq_none (by simp; omega)]

theorem step_lists {g g' : Gen} {o : Op} {ns : List Name} (hl : Lists' g ns)
    (hf : ∀ n, created o = some n → n ∉ ns) (h : step g o = .ok g') :
    Lists' g' (ns ++ (created o).toList) := by
  have hkeys : ∀ n, created o = some n → n ∉ Map.keys g.funcs := fun n hn hm =>
    hf n hn (hl.1.mem_iff.1 hm)
  have hw : ∀ f k, withFn g f k = .ok g' → Lists' g' (ns ++ []) := by
    intro f k h
    obtain ⟨G, G', _, _, rfl⟩ := withFn_spec h
    rw [List.append_nil]
    exact ⟨by rw [keys_setFn]; exact hl.1, hl.2⟩
  cases o with
  | function n => rw [(create_spec h).2]; exact lists_emplace hl _ (hkeys n rfl)
  | task n => rw [(create_spec h).2]; exact lists_emplace hl _ (hkeys n rfl)
  | dpi n => rw [(create_spec h).2]; exact lists_emplace hl _ (hkeys n rfl)
  | builtin n => rw [(createBuiltin_spec h).2]; exact lists_emplace hl _ (hkeys n rfl)
  | input f n w s => exact hw _ _ h
  | output f n w s => exact hw _ _ h
  | order f l => exact hw _ _ h
  | orderIndex f l => exact hw _ _ h
  | ret f w s => exact hw _ _ h
  | returnWidth f w => exact hw _ _ h
  | isContext f b => exact hw _ _ h
  | isPure f b => exact hw _ _ h

theorem run_lists : ∀ (os : List Op) {g g' : Gen} {ns : List Name}, Lists' g ns →
    (ns ++ os.filterMap created).Nodup → run g os = .ok g' → Lists' g' (ns ++ os.filterMap created)
  | [], g, g', ns, hl, _, h => by
    simp only [run, Res.ok.injEq] at h; subst h; simpa using hl
  | o :: os, g, g', ns, hl, hn, h => by
    simp only [run, Res.bind_eq_ok] at h
    obtain ⟨g1, h1, h⟩ := h
    have e : ns ++ (o :: os).filterMap created = ns ++ (created o).toList ++ os.filterMap created := by
      rw [List.filterMap_cons]
      cases created o <;> simp
    rw [e] at hn ⊢
    refine run_lists os (step_lists hl (fun n hc hm => ?_) h1) hn h
    rw [hc] at hn
    have := (List.nodup_append.1 (List.nodup_append.1 hn).1).2.2 n hm n (by simp)
    exact this rfl

theorem children_lists {g : Gen} {ns : List Name} (hl : Lists' g ns) : children g = ns.map some := by
  have hlen : g.funcs.length = ns.length := by simpa [Map.keys] using hl.1.length_eq
  apply List.ext_getElem?
  intro i
  simp only [children, hlen, List.getElem?_map]
  rcases Nat.lt_or_ge i ns.length with h | h
  · rw [List.getElem?_range h, List.getElem?_eq_getElem h]
    simp [hl.2, List.getElem?_eq_getElem h]
  · rw [List.getElem?_eq_none (by simpa using h), List.getElem?_eq_none h]; rfl

/-- **A visitor meets every function exactly once**, in the order of creation, if no name is given
twice. -/
theorem children_partial {os : List Op} {g : Gen} (h : run empty os = .ok g)
    (hn : (os.filterMap created).Nodup) :
    children g = (os.filterMap created).map some ∧
    (children g).Perm ((Map.keys g.funcs).map some) := by
  have hl : Lists' g (os.filterMap created) := by
    have := run_lists os (g := empty) (ns := []) ⟨by simp [empty, Map.keys], by simp [empty, Map.find]⟩
      (by simpa using hn) h
    simpa using this
  have := children_lists hl
  exact ⟨this, by rw [this]; exact (hl.1.map some).symm⟩

/-- After a built-in is asked for a second time the next function is not met by any visitor. -/
theorem child_lost {os : List Op} {g g1 g2 : Gen} {n m : Name} (h : run empty os = .ok g)
    (hn : (os.filterMap created).Nodup) (hb : n ∈ Map.keys g.funcs)
    (h1 : step g (.builtin n) = .ok g1) (h2 : step g1 (.function m) = .ok g2) :
    m ∈ Map.keys g2.funcs ∧ some m ∉ children g2 := by
  have hi := run_inv os empty_inv h
  have hl : Lists' g (os.filterMap created) := by
    have := run_lists os (g := empty) (ns := []) ⟨by simp [empty, Map.keys], by simp [empty, Map.find]⟩
      (by simpa using hn) h
    simpa using this
  generalize os.filterMap created = ns at hl
  have hlen : g.funcs.length = ns.length := by simpa [Map.keys] using hl.1.length_eq
  have e1 := (createBuiltin_spec h1).2
  rw [emplace_present n _ _ hi.sorted hb] at e1
  obtain ⟨hm, e2⟩ := create_spec h2
  have hm' : m ∉ Map.keys g.funcs := by rw [e1] at hm; exact hm
  have hmn : m ≠ n := fun e => hm' (e ▸ hb)
  have hp := emplace_absent m (newFn .plain) g.funcs hm'
  refine ⟨?_, ?_⟩
  · rw [e2, e1]
    show m ∈ Map.keys (emplace m (newFn .plain) g.funcs)
    rw [keys_emplace, mem_insKey]; exact Or.inl rfl
  · intro hc
    simp only [children, List.mem_map] at hc
    obtain ⟨i, _, hc⟩ := hc
    rw [e2, e1] at hc
    simp only [Map.find_emplace, hl.2, hlen] at hc
    rw [List.getElem?_eq_none (Nat.le_refl _)] at hc
    have hmem : ∀ j : Nat, ns[j]? = some m → False := fun j hj =>
      hm' (hl.1.mem_iff.2 (List.mem_of_getElem? hj))
    by_cases hi : i = ns.length
    · simp [hi] at hc; exact hmn hc.symm
    · simp [hi] at hc; exact hmem i (by simpa using hc)

/-! ## Built-in functions -/

theorem mockArgs_keys : ∀ (l : List Arg) (i : Nat),
    (mockArgs i l).map (·.1) = (List.range l.length).map fun k => printNat 10 (i + k)
  | [], _ => rfl
  | a :: l, i => by
    simp only [mockArgs, List.map_cons, List.length_cons, List.range_succ_eq_map, mockArgs_keys l,
      List.map_map, Nat.add_zero]
    congr 1
    apply List.map_congr_left
    intro k _
    simp only [Function.comp]
    congr 1
    omega

theorem mockArgs_text : ∀ (l : List Arg) (i : Nat), (mockArgs i l).map (·.2) = l
  | [], _ => rfl
  | a :: l, i => by simp [mockArgs, mockArgs_text l]

theorem mockArgs_get : ∀ (l : List Arg) (i k : Nat) (a : Arg), l[k]? = some a →
    (printNat 10 (i + k), a) ∈ mockArgs i l
  | [], _, _, _, h => by simp at h
  | b :: l, i, 0, a, h => by
    simp only [List.getElem?_cons_zero, Option.some.injEq] at h
    subst h
    simp [mockArgs]
  | b :: l, i, k + 1, a, h => by
    have := mockArgs_get l (i + 1) k a (by simpa using h)
    rw [mockArgs]
    refine List.mem_cons_of_mem _ ?_
    rwa [show i + (k + 1) = i + 1 + k by omega]

theorem mockArgs_mem : ∀ (l : List Arg) (i : Nat) (n : Name) (a : Arg), (n, a) ∈ mockArgs i l →
    ∃ k, n = printNat 10 (i + k) ∧ l[k]? = some a
  | [], _, _, _, h => by simp [mockArgs] at h
  | b :: l, i, n, a, h => by
    simp only [mockArgs, List.mem_cons] at h
    rcases h with h | h
    · cases h; exact ⟨0, rfl, rfl⟩
    · obtain ⟨k, rfl, hk⟩ := mockArgs_mem l (i + 1) n a h
      exact ⟨k + 1, by congr 1; omega, by simpa using hk⟩

theorem printNat_inj {m n : Nat} (h : printNat 10 m = printNat 10 n) : m = n := by
  have h1 := readNat_printNat (b := 10) (Or.inl rfl) m
  have h2 := readNat_printNat (b := 10) (Or.inl rfl) n
  rw [h, h2] at h1
  exact (Option.some.inj h1).symm

theorem mockArgs_nodup (l : List Arg) : ((mockArgs 0 l).map (·.1)).Nodup := by
  rw [mockArgs_keys]
  refine List.Pairwise.map _ ?_ List.nodup_range
  intro a b hab h
  have := printNat_inj h
  omega

/-- Entries in the order of their keys stay in that order. -/
theorem ofList_of_sorted {V : Type} {l : List (Name × V)} (h : Sorted l) : ofList l = l := by
  have hp := ofList_perm h.nodup
  refine Lists.sorted_unique (lt := fun a b : Name × V => lexLt a.1 b.1 = true)
    (fun a h => by rw [lexLt_irrefl] at h; cases h) (fun _ _ _ => lexLt_trans) ?_ ?_ hp
  · exact List.pairwise_map.1 (ofList_sorted l)
  · exact List.pairwise_map.1 h

theorem callPos_spec {g : Gen} {f : Name} {args : List Arg} {c : Call} (hi : Inv g) {F : Fn}
    (hF : (f, F) ∈ g.funcs) (h : callPos g f args = .ok c) :
    F.kind = .builtin ∧ c.args = ofList (mockArgs 0 args) ∧ c.func = f ∧
      ∃ t, callType F f args.length (hasReturnValue F f) = .ok t ∧ c.width = t.1 ∧ c.signed = t.2 := by
  simp only [callPos, (find_mem hi.sorted).2 hF] at h
  split at h
  · cases h
  · next hk =>
    obtain ⟨F', t, hF', _, ht, rfl⟩ := makeCall_spec h
    have e : F' = F := by
      have := (find_mem hi.sorted).2 hF'
      rw [(find_mem hi.sorted).2 hF] at this
      exact (Option.some.inj this).symm
    subst e
    rw [(ofList_perm (mockArgs_nodup args)).length_eq] at ht
    have : (mockArgs 0 args).length = args.length := by
      rw [← List.length_map (f := (·.2)), mockArgs_text]
    rw [this] at ht
    exact ⟨Decidable.not_not.1 hk, rfl, rfl, t, ht, rfl, rfl⟩

/-- A built-in without ports has no ordering. -/
theorem no_ordering {g : Gen} {f : Name} {F : Fn} (hg : Reach g) (hF : (f, F) ∈ g.funcs)
    (hp : F.ports = []) : F.ordering = [] := by
  have ok := (reach_inv hg).fns _ _ hF
  cases ho : F.ordering with
  | nil => rfl
  | cons e l =>
    have := ok.sub e.1 (by rw [ho]; simp [Map.keys])
    rw [hp] at this
    simp [Map.keys] at this

theorem digits_sorted : ((List.range 10).map (printNat 10)).Pairwise fun a b => lexLt a b = true := by
  decide +kernel

/-- **Up to ten arguments of a built-in are printed in the order given.** -/
theorem pos_partial {g : Gen} {f : Name} {F : Fn} {args : List Arg} {c : Call} {ts : List Name}
    (hg : Reach g) (hF : (f, F) ∈ g.funcs) (hp : F.ports = []) (hc : callPos g f args = .ok c)
    (hl : args.length ≤ 10) (h : callOrder F c.args (.ok ts)) : ts = args.map (·.text) := by
  obtain ⟨_, ha, _, _⟩ := callPos_spec (reach_inv hg) hF hc
  rw [callOrder, if_pos (no_ordering hg hF hp), ha] at h
  cases h
  have hs : Sorted (mockArgs 0 args) := by
    unfold Sorted
    have : Map.keys (mockArgs 0 args) = ((List.range 10).map (printNat 10)).take args.length := by
      rw [← List.map_take, List.take_range, Nat.min_eq_left hl]
      show (mockArgs 0 args).map (·.1) = _
      rw [mockArgs_keys]
      apply List.map_congr_left
      intro k _
      rw [Nat.zero_add]
    rw [this]
    exact List.Pairwise.sublist (List.take_sublist _ _) digits_sorted
  rw [ofList_of_sorted hs]
  conv => rhs; rw [← mockArgs_text args 0]
  rw [List.map_map]
  rfl

theorem printNat_head {n : Nat} : ∃ c cs, printNat 10 n = c :: cs ∧
    (∀ d ∈ c :: cs, '0'.toNat ≤ d.toNat) := by
  cases h : printNat 10 n with
  | nil => exact absurd h (printNat_ne_nil 10 n)
  | cons c cs =>
    refine ⟨c, cs, rfl, fun d hd => ?_⟩
    have := printNat_digits (b := 10) (Or.inl rfl) n d (h ▸ hd)
    simp only [digitVal] at this
    split at this
    · next h0 =>
      split at h0
      · next h1 => exact h1.1
      · split at h0
        · next h1 => exact Nat.le_trans (by decide) h1.1
        · split at h0
          · next h1 => exact Nat.le_trans (by decide) h1.1
          · cases h0
    · cases this

theorem digitChar_zero : ∀ d, d < 10 → digitChar d = '0' → d = 0 := by decide

theorem printAux_zero : ∀ (f n : Nat) (acc cs : Name), n < f → printAux 10 f n acc = '0' :: cs → n = 0
  | 0, n, _, _, h, _ => by omega
  | f + 1, n, acc, cs, hn, h => by
    simp only [printAux] at h
    split at h
    · next h0 =>
      have := digitChar_zero (n % 10) (Nat.mod_lt _ (by omega)) (List.cons.inj h).1
      omega
    · next h0 =>
      have := printAux_zero f (n / 10) _ cs (by omega) h
      omega

/-- A numeral that starts with `0` is `0`. -/
theorem printNat_zero {n : Nat} {cs : Name} (h : printNat 10 n = '0' :: cs) : n = 0 :=
  printAux_zero (n + 1) n [] cs (by omega) h

theorem printNat_0 : printNat 10 0 = ['0'] := by decide
theorem printNat_1 : printNat 10 1 = ['1'] := by decide
theorem printNat_10 : printNat 10 10 = ['1', '0'] := by decide

/-- In the order of strings `10` comes right after `0` and `1`. -/
theorem numerals_order (n : Nat) :
    (n ≠ 0 → lexLt (printNat 10 0) (printNat 10 n) = true) ∧
    (n ≠ 0 → n ≠ 1 → lexLt (printNat 10 1) (printNat 10 n) = true) ∧
    (n ≠ 0 → n ≠ 1 → n ≠ 10 → lexLt (printNat 10 10) (printNat 10 n) = true) := by
  obtain ⟨c, cs, hc, hd⟩ := printNat_head (n := n)
  have h0 : n ≠ 0 → '0'.toNat < c.toNat := by
    intro hn
    have h1 := hd c (by simp)
    rcases Nat.eq_or_lt_of_le h1 with e | e
    · have := char_ext e
      subst this
      exact absurd (printNat_zero hc) hn
    · exact e
  have e0 : '0'.toNat = 48 := by decide
  have e1 : '1'.toNat = 49 := by decide
  have h1 : n ≠ 0 → c = '1' ∨ '1'.toNat < c.toNat := by
    intro hn
    have := h0 hn
    rcases Nat.lt_or_ge '1'.toNat c.toNat with h | h
    · exact Or.inr h
    · exact Or.inl (char_ext (by omega))
  rw [printNat_0, printNat_1, printNat_10, hc]
  refine ⟨fun hn => ?_, fun hn hn1 => ?_, fun hn hn1 hn10 => ?_⟩
  · simp only [lexLt, Bool.or_eq_true, decide_eq_true_eq]
    exact Or.inl (h0 hn)
  · simp only [lexLt, Bool.or_eq_true, decide_eq_true_eq, Bool.and_eq_true]
    rcases h1 hn with h | h
    · refine Or.inr ⟨h.symm, ?_⟩
      cases cs with
      | nil => subst h; exact absurd (printNat_inj (hc.trans printNat_1.symm)) hn1
      | cons d ds => rfl
    · exact Or.inl h
  · simp only [lexLt, Bool.or_eq_true, decide_eq_true_eq, Bool.and_eq_true]
    rcases h1 hn with h | h
    · refine Or.inr ⟨h.symm, ?_⟩
      cases cs with
      | nil => subst h; exact absurd (printNat_inj (hc.trans printNat_1.symm)) hn1
      | cons d ds =>
        simp only [lexLt, Bool.or_eq_true, decide_eq_true_eq, Bool.and_eq_true]
        have hd' := hd d (by simp)
        rcases Nat.eq_or_lt_of_le hd' with e | e
        · have e := char_ext e
          refine Or.inr ⟨e, ?_⟩
          cases ds with
          | nil => subst h; subst e; exact absurd (printNat_inj (hc.trans printNat_10.symm)) hn10
          | cons x xs => rfl
        · exact Or.inl e
    · exact Or.inl h

/-- The least entry comes first. -/
theorem sorted_head {V : Type} {m : Map Name V} (hs : Sorted m) {e : Name × V} (he : e ∈ m)
    (h : ∀ d ∈ m, d.1 ≠ e.1 → lexLt e.1 d.1 = true) :
    ∃ r, m = e :: r ∧ Sorted r ∧ ∀ d, d ∈ r ↔ d ∈ m ∧ d.1 ≠ e.1 := by
  cases m with
  | nil => simp at he
  | cons d r =>
    have hs' := List.pairwise_cons.1 hs
    have hd : d = e := by
      rcases List.mem_cons.1 he with rfl | he
      · rfl
      · have h1 : lexLt d.1 e.1 = true := hs'.1 e.1 (Map.mem_keys.2 ⟨e.2, he⟩)
        by_cases hk : d.1 = e.1
        · rw [hk, lexLt_irrefl] at h1; cases h1
        · have h2 := lexLt_trans h1 (h d (by simp) hk)
          rw [lexLt_irrefl] at h2; cases h2
    subst hd
    refine ⟨r, rfl, hs'.2, fun x => ⟨fun hx => ⟨List.mem_cons_of_mem _ hx, fun hk => ?_⟩, ?_⟩⟩
    · have h1 : lexLt d.1 x.1 = true := hs'.1 x.1 (Map.mem_keys.2 ⟨x.2, hx⟩)
      rw [hk, lexLt_irrefl] at h1; cases h1
    · rintro ⟨hx, hk⟩
      rcases List.mem_cons.1 hx with rfl | hx
      · exact absurd rfl hk
      · exact hx

/-- **With eleven or more arguments the eleventh is printed in the third place.** -/
theorem pos_wrong {g : Gen} {f : Name} {F : Fn} {args : List Arg} {c : Call} {ts : List Name} {a : Arg}
    (hg : Reach g) (hF : (f, F) ∈ g.funcs) (hp : F.ports = []) (hc : callPos g f args = .ok c)
    (ha : args[10]? = some a) (h : callOrder F c.args (.ok ts)) : ts[2]? = some a.text := by
  obtain ⟨_, hA, _, _⟩ := callPos_spec (reach_inv hg) hF hc
  rw [callOrder, if_pos (no_ordering hg hF hp), hA] at h
  cases h
  have hperm := ofList_perm (mockArgs_nodup args)
  have hs := ofList_sorted (mockArgs 0 args)
  have hmem : ∀ k a, args[k]? = some a → (printNat 10 k, a) ∈ ofList (mockArgs 0 args) := by
    intro k a hk
    have := mockArgs_get args 0 k a hk
    rw [Nat.zero_add] at this
    exact hperm.mem_iff.2 this
  have hnum : ∀ d ∈ ofList (mockArgs 0 args), ∃ k, d.1 = printNat 10 k := by
    intro d hd
    obtain ⟨k, hk, _⟩ := mockArgs_mem args 0 d.1 d.2 (hperm.mem_iff.1 hd)
    exact ⟨0 + k, hk⟩
  have hlen : 10 < args.length := (List.getElem?_eq_some_iff.1 ha).1
  obtain ⟨r, hr, sr, mr⟩ := sorted_head hs (hmem 0 args[0] (by simp)) (fun d hd hne => by
    obtain ⟨k, hk⟩ := hnum d hd
    rw [hk] at hne ⊢
    exact (numerals_order k).1 fun e => hne (by rw [e]))
  obtain ⟨r', hr', sr', mr'⟩ := sorted_head sr (e := (printNat 10 1, args[1]))
    ((mr _).2 ⟨hmem 1 args[1] (by simp), fun e => by
      have := printNat_inj (m := 1) (n := 0) e; omega⟩) (fun d hd hne => by
    obtain ⟨hd, hne0⟩ := (mr d).1 hd
    obtain ⟨k, hk⟩ := hnum d hd
    rw [hk] at hne hne0 ⊢
    exact (numerals_order k).2.1 (fun e => hne0 (by rw [e])) (fun e => hne (by rw [e])))
  obtain ⟨r'', hr'', _, _⟩ := sorted_head sr' (e := (printNat 10 10, a))
    ((mr' _).2 ⟨(mr _).2 ⟨hmem 10 a ha, fun e => by
      have := printNat_inj (m := 10) (n := 0) e; omega⟩, fun e => by
      have := printNat_inj (m := 10) (n := 1) e; omega⟩) (fun d hd hne => by
    obtain ⟨hd, hne1⟩ := (mr' d).1 hd
    obtain ⟨hd, hne0⟩ := (mr d).1 hd
    obtain ⟨k, hk⟩ := hnum d hd
    rw [hk] at hne hne0 hne1 ⊢
    exact (numerals_order k).2.2 (fun e => hne0 (by rw [e])) (fun e => hne1 (by rw [e]))
      (fun e => hne (by rw [e])))
  rw [hr, hr', hr'']
  rfl

/-- The number of arguments is checked for built-ins with a result. -/
theorem arity_partial {g : Gen} {f : Name} {F : Fn} {args : List Arg} {c : Call} {i : Info}
    (hg : Reach g) (hF : (f, F) ∈ g.funcs) (hc : callPos g f args = .ok c)
    (hi : builtinInfo f = some i) (hr : i.ret ≠ 0) :
    i.min ≤ args.length ∧ args.length ≤ i.max ∧ c.width = i.ret ∧ c.signed = i.signed := by
  obtain ⟨hk, _, _, t, ht, h1, h2⟩ := callPos_spec (reach_inv hg) hF hc
  have hv : hasReturnValue F f = true := by
    simp only [hasReturnValue, hk, hi, decide_eq_true_eq]; omega
  simp only [callType, hv, hk, hi, true_and, and_self, if_true, if_neg hr] at ht
  rw [if_neg (by simp)] at ht
  split at ht
  · cases ht
  · next hl =>
    cases ht
    exact ⟨by omega, by omega, h1, h2⟩

/-! ## Where the claims fail -/

def a1 (t : String) : Arg := ⟨t.toList, 1, false⟩

def nm (s : String) : Name := s.toList

/-- A function of three inputs with a return statement. -/
def threeOps : List Op :=
  [.function (nm "f"), .input (nm "f") (nm "a") 1 false, .input (nm "f") (nm "b") 1 false,
   .input (nm "f") (nm "c") 1 false, .ret (nm "f") 1 false,
   .orderIndex (nm "f") [(0, nm "a"), (1, nm "b"), (2, nm "c")]]

def threeFn : Fn :=
  ⟨.plain, [(nm "a", ⟨1, false, .inp⟩), (nm "b", ⟨1, false, .inp⟩), (nm "c", ⟨1, false, .inp⟩)],
   [(nm "a", 0), (nm "b", 1), (nm "c", 2)], some (1, false), true, 0, false, false⟩

def threeGen : Gen := ⟨[(nm "f", threeFn)], [(0, nm "f")]⟩

theorem three_run : run empty threeOps = .ok threeGen := by decide +kernel

theorem three_decl : declOrder threeFn (.ok [nm "a", nm "b", nm "c"]) := by
  rw [declOrder, if_neg (by decide +kernel), if_neg (by decide +kernel), if_pos (by decide +kernel)]
  exact ⟨key_weak _ _, by decide +kernel, by decide +kernel⟩

/-- `f(a=x, b=y, c=x)` is printed `f (x, x, y)`: the two equal arguments are moved together. -/
theorem same_text_wrong {args : List (Name × Arg)} {c : Call} {ts : List Name}
    (ha : args = [(nm "a", a1 "x"), (nm "b", a1 "y"), (nm "c", a1 "x")])
    (hc : callNamed threeGen (nm "f") args = .ok c) (h : callOrder threeFn c.args (.ok ts)) :
    ts = [nm "x", nm "x", nm "y"] ∧ ¬ Binds args [nm "a", nm "b", nm "c"] ts := by
  obtain ⟨_, _, _, _, _, rfl⟩ := makeCall_spec hc
  have e : ofList args = args := by subst ha; decide +kernel
  have h : callOrder threeFn args (.ok ts) := e ▸ h
  clear hc
  rw [callOrder, if_neg (by decide +kernel), if_pos (by subst ha; decide +kernel)] at h
  obtain ⟨_, hp, hs⟩ := h
  have hts : ts = [nm "x", nm "x", nm "y"] := by
    refine (List.Perm.eq_of_pairwise (le := fun a b =>
      at' (indexing threeFn.ordering args) a ≤ at' (indexing threeFn.ordering args) b)
      ?_ (hs.imp fun h => by omega) ?_ (hp.symm.trans ?_))
    · intro a b hm hb h1 h2
      have hm : a ∈ [nm "x", nm "y", nm "x"] := by
        have := hp.mem_iff.2 hm; subst ha; exact this
      have key : ∀ a ∈ [nm "x", nm "y", nm "x"], ∀ b ∈ [nm "x", nm "x", nm "y"],
          at' (indexing threeFn.ordering [(nm "a", a1 "x"), (nm "b", a1 "y"), (nm "c", a1 "x")]) a =
          at' (indexing threeFn.ordering [(nm "a", a1 "x"), (nm "b", a1 "y"), (nm "c", a1 "x")]) b →
          a = b := by decide +kernel
      subst ha
      exact key a hm b hb (by omega)
    · subst ha; decide +kernel
    · subst ha; decide +kernel
  refine ⟨hts, fun hb => ?_⟩
  subst hts
  have hk : ∀ n ∈ [nm "a", nm "b", nm "c"], n ∈ Map.keys args := by subst ha; decide +kernel
  rw [binds_iff (args := args) (by subst ha; unfold Sorted; decide +kernel) hk] at hb
  subst ha
  revert hb
  decide +kernel

theorem three_call : callNamed threeGen (nm "f")
    [(nm "a", a1 "x"), (nm "b", a1 "y"), (nm "c", a1 "x")] =
    .ok ⟨nm "f", [(nm "a", a1 "x"), (nm "b", a1 "y"), (nm "c", a1 "x")], 1, false⟩ := by
  decide +kernel

theorem not_BindClaim : ¬ BindClaim := by
  intro h
  obtain ⟨ts, hts⟩ := (call_printed (F := threeFn)
    (args := [(nm "a", a1 "x"), (nm "b", a1 "y"), (nm "c", a1 "x")])).1.2 (Or.inr (by decide +kernel))
  exact (same_text_wrong rfl three_call hts).2
    (h threeGen threeFn (nm "f") _ _ _ ts ⟨_, three_run⟩ (by simp [threeGen]) three_call three_decl hts)

/-- The hypotheses of `binds_partial` are met, and its conclusion is what it says. -/
example : ∃ c ts, callNamed threeGen (nm "f")
      [(nm "c", a1 "z"), (nm "a", a1 "x"), (nm "b", a1 "y")] = .ok c ∧
    callOrder threeFn c.args (.ok ts) ∧ ts = [nm "x", nm "y", nm "z"] := by
  refine ⟨⟨nm "f", [(nm "a", a1 "x"), (nm "b", a1 "y"), (nm "c", a1 "z")], 1, false⟩,
    [nm "x", nm "y", nm "z"], by decide +kernel, ?_, rfl⟩
  rw [callOrder, if_neg (by decide +kernel), if_pos (by decide +kernel)]
  exact ⟨key_weak _ _, by decide +kernel, by decide +kernel⟩

/-- A place that is given twice leaves the order to `std::sort`. -/
def tieOps : List Op :=
  [.function (nm "f"), .input (nm "f") (nm "a") 1 false, .input (nm "f") (nm "b") 1 false,
   .ret (nm "f") 1 false, .order (nm "f") [(nm "a", 0), (nm "b", 0)]]

def tieFn : Fn :=
  ⟨.plain, [(nm "a", ⟨1, false, .inp⟩), (nm "b", ⟨1, false, .inp⟩)],
   [(nm "a", 0), (nm "b", 0)], some (1, false), true, 0, false, false⟩

/-- An ordering with a tie is accepted, and the declaration and the call may then disagree. -/
theorem tie_wrong : ∃ c, run empty tieOps = .ok ⟨[(nm "f", tieFn)], [(0, nm "f")]⟩ ∧
    callNamed ⟨[(nm "f", tieFn)], [(0, nm "f")]⟩ (nm "f") [(nm "a", a1 "x"), (nm "b", a1 "y")] = .ok c ∧
    declOrder tieFn (.ok [nm "b", nm "a"]) ∧ callOrder tieFn c.args (.ok [nm "x", nm "y"]) := by
  refine ⟨⟨nm "f", [(nm "a", a1 "x"), (nm "b", a1 "y")], 1, false⟩, by decide +kernel,
    by decide +kernel, ?_, ?_⟩
  · rw [declOrder, if_neg (by decide +kernel), if_neg (by decide +kernel), if_pos (by decide +kernel)]
    exact ⟨key_weak _ _, by decide +kernel, by decide +kernel⟩
  · rw [callOrder, if_neg (by decide +kernel), if_pos (by decide +kernel)]
    exact ⟨key_weak _ _, by decide +kernel, by decide +kernel⟩

/-- A function without an ordering, and a call that names one argument too many. -/
def oneGen : Gen :=
  ⟨[(nm "g", ⟨.plain, [(nm "b", ⟨1, false, .inp⟩)], [], some (1, true), true, 0, false, false⟩)],
   [(0, nm "g")]⟩

theorem one_run : run empty [.function (nm "g"), .input (nm "g") (nm "b") 1 false,
    .ret (nm "g") 1 true] = .ok oneGen := by decide +kernel

theorem extra_call : callNamed oneGen (nm "g") [(nm "a", a1 "x"), (nm "b", a1 "y")] =
    .ok ⟨nm "g", [(nm "a", a1 "x"), (nm "b", a1 "y")], 1, true⟩ := by decide +kernel

theorem not_ArgsClaim : ¬ ArgsClaim := by
  intro h
  have := (h oneGen _ (nm "g") _ _ ⟨_, one_run⟩ (by simp [oneGen]; rfl) extra_call (nm "a")).1
    (by decide +kernel)
  revert this
  decide +kernel

/-- The declaration of a function that returns a signed value is unsigned. -/
theorem signed_wrong : ∃ F c, (nm "g", F) ∈ oneGen.funcs ∧
    callNamed oneGen (nm "g") [(nm "b", a1 "y")] = .ok c ∧ c.signed = true ∧
    declType F = .logic 1 :=
  ⟨_, ⟨nm "g", [(nm "b", a1 "y")], 1, true⟩, by simp [oneGen]; rfl, by decide +kernel, rfl,
    by decide +kernel⟩

theorem not_TypeClaim : ¬ TypeClaim := by
  intro h
  obtain ⟨F, c, hF, hc, hs, _⟩ := signed_wrong
  obtain ⟨w, _, _, h⟩ := h oneGen F (nm "g") _ c ⟨_, one_run⟩ hF (by
    simp [oneGen] at hF; subst hF; exact Or.inl rfl) hc
  rw [hs] at h; cases h

/-- A task, which has no value, can be called where a value is expected. -/
theorem task_wrong : ∃ g c, run empty [.task (nm "t")] = .ok g ∧ callNamed g (nm "t") [] = .ok c ∧
    c.width = 1 :=
  ⟨⟨[(nm "t", newFn .task)], [(0, nm "t")]⟩, ⟨nm "t", [], 1, false⟩, by decide +kernel,
    by decide +kernel, rfl⟩

theorem not_ChildrenClaim : ¬ ChildrenClaim := by
  intro h
  have := h ⟨[(nm "clog2", newFn .builtin), (nm "f", newFn .plain)], [(0, nm "clog2"), (1, nm "clog2")]⟩
    ⟨[.builtin (nm "clog2"), .builtin (nm "clog2"), .function (nm "f")], by decide +kernel⟩
  revert this
  decide +kernel

/-- `$finish` takes at most one argument; a call with two is accepted. -/
theorem arity_missed : ∃ g c i, run empty [.builtin (nm "finish")] = .ok g ∧
    callPos g (nm "finish") [a1 "x", a1 "y"] = .ok c ∧ builtinInfo (nm "finish") = some i ∧ i.max = 1 :=
  ⟨⟨[(nm "finish", newFn .builtin)], [(0, nm "finish")]⟩,
    ⟨nm "finish", [(nm "0", a1 "x"), (nm "1", a1 "y")], 1, false⟩, { ret := 0, min := 0, max := 1 },
    by decide +kernel, by decide +kernel, by decide +kernel, rfl⟩

theorem not_ArityClaim : ¬ ArityClaim := by
  intro h
  obtain ⟨g, c, i, hg, hc, hi, hm⟩ := arity_missed
  have hF : (nm "finish", newFn .builtin) ∈ g.funcs := by
    have : run empty [.builtin (nm "finish")] =
        .ok ⟨[(nm "finish", newFn .builtin)], [(0, nm "finish")]⟩ := by decide +kernel
    rw [this] at hg; cases hg; simp
  have := (h g _ _ _ c i ⟨_, hg⟩ hF hc hi).2
  rw [hm] at this
  simp at this

/-- `$display` of eleven arguments. -/
def displayGen : Gen := ⟨[(nm "display", newFn .builtin)], [(0, nm "display")]⟩

theorem display_run : run empty [.builtin (nm "display")] = .ok displayGen := by decide +kernel

theorem not_PosClaim : ¬ PosClaim := by
  intro h
  have hc : ∃ c, callPos displayGen (nm "display")
      ((List.range 11).map fun i => ⟨printNat 10 i, 1, false⟩) = .ok c := by
    refine ⟨⟨nm "display", ofList (mockArgs 0 ((List.range 11).map fun i => ⟨printNat 10 i, 1, false⟩)),
      1, false⟩, by decide +kernel⟩
  obtain ⟨c, hc⟩ := hc
  have hF : (nm "display", newFn .builtin) ∈ displayGen.funcs := by simp [displayGen]
  have ho : callOrder (newFn .builtin) c.args (.ok (c.args.map fun e => e.2.text)) := by
    rw [callOrder, if_pos (show (newFn .builtin).ordering = [] from rfl)]
  have h1 := h displayGen _ _ _ c _ ⟨_, display_run⟩ hF hc ho
  have h2 := pos_wrong ⟨_, display_run⟩ hF rfl hc (a := ⟨printNat 10 10, 1, false⟩) (by decide +kernel) ho
  rw [h1] at h2
  revert h2
  decide +kernel

/-- The hypotheses of `children_partial` and `return_types` are met. -/
example : ∃ g, run empty [.function (nm "f"), .ret (nm "f") 4 true, .builtin (nm "clog2"), .task (nm "a"),
      .ret (nm "f") 4 true] = .ok g ∧ children g = [some (nm "f"), some (nm "clog2"), some (nm "a")] :=
  ⟨_, rfl, by decide +kernel⟩

/-- The hypotheses of `child_lost` are met. -/
example : ∃ g g1 g2, run empty [.builtin (nm "display")] = .ok g ∧ nm "display" ∈ Map.keys g.funcs ∧
    step g (.builtin (nm "display")) = .ok g1 ∧ step g1 (.function (nm "f")) = .ok g2 ∧
    children g2 = [some (nm "display"), some (nm "display")] :=
  ⟨_, _, _, rfl, by decide +kernel, rfl, rfl, by decide +kernel⟩

/-- The hypotheses of `pos_partial` and `arity_partial` are met. -/
example : ∃ g c, run empty [.builtin (nm "fopen")] = .ok g ∧
    callPos g (nm "fopen") [a1 "y", a1 "x"] = .ok c ∧ c.width = 32 ∧
    callOrder (newFn .builtin) c.args (.ok [nm "y", nm "x"]) := by
  refine ⟨⟨[(nm "fopen", newFn .builtin)], [(0, nm "fopen")]⟩,
    ⟨nm "fopen", [(nm "0", a1 "y"), (nm "1", a1 "x")], 32, false⟩, by decide +kernel, by decide +kernel, rfl, ?_⟩
  rw [callOrder, if_pos (show (newFn .builtin).ordering = [] from rfl)]
  rfl

end Kratos.Func
