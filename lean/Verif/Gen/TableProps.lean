import Verif.Gen.Table

/-!
# C38 and C39: unique names, and the variable table

The specification is in terms of what a user can observe: looking a name up (`vars.find`), the
variable's own name, the port list, and `get_port`.
-/

namespace Kratos.Gen

/-! ## C38 -/

theorem dec_inj {a b : Nat} (h : dec a = dec b) : a = b := by
  have ha := Text.readNat_printNat (b := 10) (.inl rfl) a
  have hb := Text.readNat_printNat (b := 10) (.inl rfl) b
  unfold dec at h
  rw [h] at ha
  rw [ha] at hb
  simpa using hb

theorem join_inj {a b c : Name} (h : join a b = join a c) : b = c := by
  unfold join at h
  have := List.append_cancel_left h
  simpa using this

theorem freeFrom_ok (taken : Name → Bool) (mk : Nat → Name) : ∀ (f c : Nat) (r : Name),
    freeFrom taken mk f c = .ok r → taken r = false ∧ ∃ c', r = mk c'
  | 0, c, r, h => by simp [freeFrom] at h
  | f + 1, c, r, h => by
    simp only [freeFrom] at h
    split at h
    · exact freeFrom_ok taken mk f _ r h
    · next hf =>
      simp only [Res.ok.injEq] at h
      subst h
      exact ⟨by simpa using hf, c, rfl⟩

/-- If the loop has not ended after `f` steps then all `f` candidates are taken. -/
theorem freeFrom_ub (taken : Name → Bool) (mk : Nat → Name) : ∀ (f c : Nat), c + f ≤ 2 ^ 32 →
    (∀ r, freeFrom taken mk f c ≠ .ok r) → ∀ i, c ≤ i → i < c + f → taken (mk i) = true
  | 0, c, _, _, i, h1, h2 => by omega
  | f + 1, c, hc, h, i, h1, h2 => by
    simp only [freeFrom] at h
    cases ht : taken (mk c) with
    | false => rw [ht] at h; exact absurd rfl (h (mk c))
    | true =>
      rw [ht] at h
      simp only [if_true] at h
      rcases Nat.eq_or_lt_of_le h1 with e | e
      · rw [← e]; exact ht
      · have hlt : c + 1 < 2 ^ 32 ∨ f = 0 := by omega
        rcases hlt with hlt | hf
        · rw [Nat.mod_eq_of_lt hlt] at h
          exact freeFrom_ub taken mk f (c + 1) (by omega) h i (by omega) (by omega)
        · omega

/-- With at most 2³²−1 names in use the loop ends, for any injective family of candidates. -/
theorem freeFrom_terminates {V : Type} (m : Map Name V) (mk : Nat → Name)
    (hinj : ∀ a b, mk a = mk b → a = b) (hlen : m.length < 2 ^ 32) :
    ∃ r, freeFrom m.has mk (2 ^ 32) 0 = .ok r := by
  rcases Classical.em (∃ r, freeFrom m.has mk (2 ^ 32) 0 = .ok r) with h | h
  · exact h
  · exfalso
    have hall := freeFrom_ub m.has mk (2 ^ 32) 0 (by omega) (fun r hr => h ⟨r, hr⟩)
    have hnd : ((List.range (2 ^ 32)).map mk).Nodup := by
      apply List.nodup_iff_pairwise_ne.2
      rw [List.pairwise_map]
      have := List.nodup_iff_pairwise_ne.1 (List.nodup_range (n := 2 ^ 32))
      exact this.imp fun hne e => hne (hinj _ _ e)
    have hsub : (List.range (2 ^ 32)).map mk ⊆ m.keys := by
      intro x hx
      obtain ⟨i, hi, rfl⟩ := List.mem_map.1 hx
      rw [List.mem_range] at hi
      exact Map.has_iff.1 (hall i (Nat.zero_le _) (by omega))
    have := nodup_subset_length hnd hsub
    rw [List.length_map, List.length_range] at this
    unfold Map.keys at this
    rw [List.length_map] at this
    omega

/-- **C38.**  The returned name belongs to no variable of the generator, whatever names are in use
(any table), for every prefix and base name. -/
theorem unique_name_is_fresh (g : G) (pre base r : Name) (h : uniqueName g.vars.has pre base = .ok r) :
    g.vars.find r = none := by
  have key : g.vars.has r = false := by
    unfold uniqueName at h
    simp only at h
    generalize (if List.isEmpty pre = true then base else join pre base) = want at h
    split at h
    all_goals first
      | exact (freeFrom_ok _ _ _ _ _ h).1
      | (simp only [Res.ok.injEq] at h; subst h; simp_all)
  simpa [Map.has] using key

/-- **C38.**  The call returns, for every prefix and base name, as long as fewer than 2³² variables
exist. -/
theorem unique_name_terminates (g : G) (pre base : Name) (h : g.vars.length < 2 ^ 32) :
    ∃ r, uniqueName g.vars.has pre base = .ok r := by
  unfold uniqueName
  simp only
  generalize (if List.isEmpty pre = true then base else join pre base) = want
  split
  all_goals first
    | exact freeFrom_terminates g.vars _ (fun a b e => dec_inj (join_inj e)) h
    | exact ⟨_, rfl⟩

/-- The name asked for is used when it is free, and otherwise extended by a number. -/
theorem unique_name_shape (g : G) (pre base r : Name) (h : uniqueName g.vars.has pre base = .ok r) :
    let want := if pre = [] then base else pre ++ '_' :: base
    (g.vars.find want = none → r = want) ∧ (g.vars.find want ≠ none → ∃ c, r = want ++ '_' :: dec c) := by
  intro want
  have hw : want = if pre.isEmpty then base else join pre base := by
    simp only [want]
    cases pre <;> simp [join]
  unfold uniqueName at h
  rw [← hw] at h
  simp only at h
  constructor
  · intro hn
    have : g.vars.has want = false := by simp [Map.has, hn]
    rw [this] at h
    simpa [eq_comm] using h
  · intro hn
    have : g.vars.has want = true := by
      simp only [Map.has]; cases hf : g.vars.find want <;> simp_all
    rw [this] at h
    simp only [if_true] at h
    obtain ⟨-, c, hc⟩ := freeFrom_ok _ _ _ _ _ h
    exact ⟨c, hc⟩

/-! ## C39 -/

/-- The arguments of a call exist. -/
def Op.valid (g : G) : Op → Prop
  | .setName v _ => v < g.next
  | .connect v _ => v < g.next
  | _ => True

/-- The call is one of the generator's own (C++) methods, not the Python name attribute. -/
def Op.isMethod : Op → Prop
  | .setName .. => False
  | _ => True

/-- Every history of calls satisfying `P`, including calls that throw. -/
inductive Reach (kw : Name → Bool) (P : G → Op → Prop) : G → Prop
  | fresh : Reach kw P fresh
  | step {g : G} {o : Op} : Reach kw P g → o.valid g → P g o → Reach kw P (Gen.step kw g o).1

/-- Each variable is found under its own name, and no two entries have the same name. -/
def NamesOk (g : G) : Prop :=
  (∀ n v, g.vars.find n = some v → (g.obj v).name = n) ∧
  (∀ n n' v, g.vars.find n = some v → g.vars.find n' = some v → n = n') ∧
  g.vars.keys.Nodup

/-- The port list is exactly the names of the ports in the table. -/
def PortsOk (g : G) : Prop :=
  g.ports.Nodup ∧
  ∀ n, n ∈ g.ports ↔ ∃ v, g.vars.find n = some v ∧ (g.obj v).isPort = true

/-- C39 as stated: every history keeps names and ports in step. -/
def TableClaim : Prop := ∀ kw g, Reach kw (fun _ _ => True) g → NamesOk g ∧ PortsOk g

/-- Calls that cannot put the two containers out of step. -/
def Op.safe (g : G) : Op → Prop
  | .declPort n _ _ _ => g.vars.find n = none
  | .rename old new => (new = old ∨ g.vars.find new = none) ∧ (∀ v, g.vars.find old = some v → (g.obj v).isPort = false)
  | .setName v n => (g.obj v).name = n
  | .removeVar n => ∀ v, g.vars.find n = some v → (g.obj v).isPort = false
  | .removePort n => ∀ v, g.vars.find n = some v → (g.obj v).connected = false
  | _ => True

structure Inv (g : G) : Prop where
  nodup : g.vars.keys.Nodup
  own : ∀ n v, g.vars.find n = some v → (g.obj v).name = n
  bound : ∀ n v, g.vars.find n = some v → v < g.next

theorem Inv.names {g : G} (h : Inv g) : NamesOk g :=
  ⟨h.own, fun n n' v h1 h2 => (h.own n v h1).symm.trans (h.own n' v h2), h.nodup⟩

theorem inv_fresh : Inv fresh := ⟨by simp [fresh, Map.keys], by simp [fresh, Map.find], by simp [fresh, Map.find]⟩

theorem Inv.alloc {g : G} (h : Inv g) (v : VarObj) : Inv (g.alloc v) := by
  refine ⟨Map.nodup_emplace h.nodup _ _, ?_, ?_⟩ <;> intro n w hw
  · simp only [G.alloc, Map.find_emplace] at hw ⊢
    split at hw
    · next e =>
      simp only [Option.some.injEq] at hw
      cases hf : g.vars.find v.name with
      | none => rw [hf] at hw; simp at hw; subst hw; simp [updObj, e]
      | some u =>
        rw [hf] at hw; simp at hw; subst hw
        have := h.bound _ _ hf
        have hne : ¬ u = g.next := by omega
        simp only [updObj, hne, if_false]
        rw [e]; exact h.own _ _ hf
    · have := h.bound _ _ hw
      have hne : ¬ w = g.next := by omega
      simp only [updObj, hne, if_false]
      exact h.own _ _ hw
  · simp only [G.alloc, Map.find_emplace] at hw ⊢
    split at hw
    · next e =>
      simp only [Option.some.injEq] at hw
      cases hf : g.vars.find v.name with
      | none => rw [hf] at hw; simp at hw; omega
      | some u =>
        rw [hf] at hw; simp at hw; subst hw
        have := h.bound _ _ hf
        omega
    · have := h.bound _ _ hw
      omega

theorem Inv.of_ports {g : G} (h : Inv g) (ps : List Name) : Inv { g with ports := ps } :=
  ⟨h.nodup, h.own, h.bound⟩

theorem Inv.rename {g : G} (h : Inv g) (old new : Name) : Inv (renameVar g old new) := by
  unfold renameVar
  cases hf : g.vars.find old with
  | none => exact h
  | some v =>
    simp only
    refine ⟨Map.nodup_emplace (Map.nodup_erase h.nodup _) _ _, ?_, ?_⟩ <;> intro n w hw
    · simp only [Map.find_emplace, Map.find_erase] at hw
      -- an entry for `w` in the old table under a name other than `old` is not `v`
      have other : ∀ m, g.vars.find m = some w → m ≠ old →
          (updObj g.obj v { g.obj v with name := new } w).name = m := by
        intro m hm hne
        have hwv : ¬ w = v := by
          intro e; subst e
          exact hne ((h.own _ _ hm).symm.trans (h.own _ _ hf))
        simp only [updObj, hwv, if_false]
        exact h.own _ _ hm
      split at hw
      · next e =>
        simp only [Option.some.injEq] at hw
        by_cases ho : new = old
        · simp [ho] at hw; subst hw; simp [updObj, e]
        · simp only [ho, if_false] at hw
          cases hn : g.vars.find new with
          | none => rw [hn] at hw; simp at hw; subst hw; simp [updObj, e]
          | some u =>
            rw [hn] at hw; simp at hw; subst hw
            rw [e]; exact other new hn ho
      · split at hw
        · cases hw
        · next hne => exact other n hw hne
    · simp only [Map.find_emplace, Map.find_erase] at hw
      split at hw
      · simp only [Option.some.injEq] at hw
        split at hw
        · simp at hw; subst hw; exact h.bound _ _ hf
        · cases hn : g.vars.find new with
          | none => rw [hn] at hw; simp at hw; subst hw; exact h.bound _ _ hf
          | some u => rw [hn] at hw; simp at hw; subst hw; exact h.bound _ _ hn
      · split at hw
        · cases hw
        · exact h.bound _ _ hw

theorem Inv.erase {g : G} (h : Inv g) (n : Name) : Inv { g with vars := g.vars.erase n } := by
  refine ⟨Map.nodup_erase h.nodup _, ?_, ?_⟩ <;> intro m v hv <;> simp only [Map.find_erase] at hv <;>
    split at hv <;> first | cases hv | skip
  · exact h.own _ _ hv
  · exact h.bound _ _ hv

theorem Inv.removeVar {g : G} (h : Inv g) (n : Name) : Inv (removeVar g n).1 := by
  unfold Gen.removeVar
  split
  · exact h
  · split
    · exact h
    · exact h.erase n

theorem Inv.connect {g : G} (h : Inv g) (v : Nat) (b : Bool) :
    Inv { g with obj := updObj g.obj v { g.obj v with connected := b } } := by
  refine ⟨h.nodup, ?_, h.bound⟩
  intro n w hw
  simp only [updObj]
  split
  · next e => subst e; exact h.own _ _ hw
  · exact h.own _ _ hw

/-! Rebuilding the table: a fold of `emplace` over entries whose keys are distinct. -/

theorem foldl_emplace_fresh {K V α : Type} [DecidableEq K] (f : α → K) (val : α → V) :
    ∀ (l : List α) (m : Map K V), (m.keys ++ l.map f).Nodup →
      l.foldl (fun m a => m.emplace (f a) (val a)) m = m ++ l.map (fun a => (f a, val a))
  | [], m, _ => by simp
  | a :: l, m, h => by
    have hnot : m.has (f a) = false := by
      apply Map.has_false_iff.2
      intro hin
      rw [List.nodup_append] at h
      exact h.2.2 _ hin _ (by simp) rfl
    have he : m.emplace (f a) (val a) = m ++ [(f a, val a)] := by simp [Map.emplace, hnot]
    simp only [List.foldl_cons, he]
    rw [foldl_emplace_fresh f val l]
    · simp
    · simpa [Map.keys] using h

theorem Inv.nodup_names {g : G} (h : Inv g) : (g.vars.map fun e => (g.obj e.2).name).Nodup := by
  have : (g.vars.map fun e => (g.obj e.2).name) = g.vars.keys := by
    unfold Map.keys
    apply List.map_congr_left
    intro e he
    exact h.own _ _ (Map.find_of_mem h.nodup he)
  rw [this]; exact h.nodup

theorem reindex_vars_eq {g : G} (h : (g.vars.map fun e => (g.obj e.2).name).Nodup) :
    (reindex g).vars = g.vars.map fun e => ((g.obj e.2).name, e.2) := by
  simp only [reindex]
  rw [foldl_emplace_fresh (fun e : Name × Nat => (g.obj e.2).name) (fun e => e.2) g.vars [] (by simpa [Map.keys] using h)]
  rfl

theorem Inv.reindex_vars {g : G} (h : Inv g) : (reindex g).vars = g.vars := by
  rw [reindex_vars_eq h.nodup_names]
  conv => rhs; rw [← List.map_id g.vars]
  apply List.map_congr_left
  intro e he
  rw [h.own _ _ (Map.find_of_mem h.nodup he)]
  rfl

theorem Inv.reindex {g : G} (h : Inv g) : Inv (reindex g) := by
  have hv := h.reindex_vars
  exact ⟨by rw [hv]; exact h.nodup, by rw [hv]; exact h.own, by rw [hv]; exact h.bound⟩

theorem Inv.step {kw : Name → Bool} {g : G} (h : Inv g) (o : Op) (hm : o.isMethod) :
    Inv (Gen.step kw g o).1 := by
  cases o with
  | declVar n w sz sg =>
    simp only [Gen.step, declVar]
    split
    · split <;> exact h
    · split
      · exact h.alloc _
      · exact h
  | declPacked n w sz =>
    simp only [Gen.step, declPacked]
    split
    · exact h
    · split
      · exact h.alloc _
      · exact h
  | declPort n w sz sg =>
    simp only [Gen.step, declPort]
    split
    · split
      · exact h
      · exact (h.alloc _).of_ports _
    · exact h
  | rename old new => exact h.rename old new
  | setName v n => exact hm.elim
  | removeVar n => exact h.removeVar n
  | removePort n =>
    simp only [Gen.step, removePort]
    split
    · exact (h.of_ports _).removeVar n
    · exact h
  | reindex => exact h.reindex
  | connect v b => exact h.connect v b

/-- **C39** (names, C++ API).  After any history of the generator's own methods, in any order and
with any arguments, including calls that throw, each variable in the table is found under its own
name, no variable is listed twice and no two share a name.

Missing from the full claim: the port list (`ports_out_of_step` and the other counterexamples
below), and the Python name attribute (`two_variables_one_name`). -/
theorem names_partial (kw : Name → Bool) (g : G) (h : Reach kw (fun _ o => o.isMethod) g) : NamesOk g := by
  have : Inv g := by
    induction h with
    | fresh => exact inv_fresh
    | step _ _ hm ih => exact ih.step _ hm
  exact this.names

/-! ### Histories of safe calls -/

structure Full (g : G) : Prop extends Inv g where
  pnodup : g.ports.Nodup
  ports : ∀ n, n ∈ g.ports ↔ ∃ v, g.vars.find n = some v ∧ (g.obj v).isPort = true

theorem insertPort_mem (ps : List Name) (n m : Name) : m ∈ insertPort ps n ↔ m ∈ ps ∨ m = n := by
  unfold insertPort
  split
  · next h => simp only [List.contains_iff_mem] at h
              constructor
              · exact .inl
              · rintro (h' | rfl)
                · exact h'
                · exact h
  · simp

theorem insertPort_nodup {ps : List Name} (h : ps.Nodup) (n : Name) : (insertPort ps n).Nodup := by
  unfold insertPort
  split
  · exact h
  · next hc =>
    rw [List.nodup_append]
    refine ⟨h, by simp, ?_⟩
    intro a ha b hb e
    simp only [List.mem_cons, List.not_mem_nil, or_false] at hb
    subst hb; subst e
    exact hc (List.contains_iff_mem.2 ha)

theorem foldl_ports {g : G} : ∀ (l : List (Name × Nat)) (ps : List Name), ps.Nodup →
    (l.foldl (fun ps e => if (g.obj e.2).isPort then insertPort ps (g.obj e.2).name else ps) ps).Nodup ∧
    ∀ n, n ∈ l.foldl (fun ps e => if (g.obj e.2).isPort then insertPort ps (g.obj e.2).name else ps) ps ↔
      n ∈ ps ∨ ∃ e ∈ l, (g.obj e.2).isPort = true ∧ (g.obj e.2).name = n
  | [], ps, h => by simp [h]
  | e :: l, ps, h => by
    simp only [List.foldl_cons]
    cases hp : (g.obj e.2).isPort with
    | false =>
      simp only [Bool.false_eq_true, if_false]
      obtain ⟨h1, h2⟩ := foldl_ports (g := g) l ps h
      refine ⟨h1, fun n => ?_⟩
      rw [h2]
      simp [hp]
    | true =>
      simp only [if_true]
      obtain ⟨h1, h2⟩ := foldl_ports (g := g) l (insertPort ps (g.obj e.2).name) (insertPort_nodup h _)
      refine ⟨h1, fun n => ?_⟩
      rw [h2, insertPort_mem]
      simp only [List.mem_cons, exists_eq_or_imp, hp, true_and]
      constructor
      · rintro ((h | h) | h)
        · exact .inl h
        · exact .inr (.inl h.symm)
        · exact .inr (.inr h)
      · rintro (h | h | h)
        · exact .inl (.inl h)
        · exact .inl (.inr h.symm)
        · exact .inr h

/-- **C39** (repair).  Whatever was done before — including renaming through the Python attribute —
if the variables in the table have distinct names, `reindex_vars` makes the table and the port list
consistent and loses no variable. -/
theorem reindex_repairs (g : G) (h : (g.vars.map fun e => (g.obj e.2).name).Nodup) :
    NamesOk (reindex g) ∧ PortsOk (reindex g) ∧
    ∀ n v, (n, v) ∈ g.vars → (reindex g).vars.find (g.obj v).name = some v := by
  have hv := reindex_vars_eq h
  have ho : (reindex g).obj = g.obj := rfl
  have hk : (reindex g).vars.keys.Nodup := by
    rw [hv]; simpa [Map.keys, List.map_map, Function.comp_def] using h
  have hfind : ∀ n v, (reindex g).vars.find n = some v → (g.obj v).name = n := by
    intro n v hf
    have := Map.mem_of_find hf
    rw [hv] at this
    obtain ⟨e, -, he⟩ := List.mem_map.1 this
    simp only [Prod.mk.injEq] at he
    rw [← he.2, he.1]
  have hlist : ∀ n v, (n, v) ∈ g.vars → (reindex g).vars.find (g.obj v).name = some v := by
    intro n v hm
    apply Map.find_of_mem hk
    rw [hv]
    exact List.mem_map.2 ⟨_, hm, rfl⟩
  refine ⟨⟨hfind, fun n n' v h1 h2 => (hfind _ _ h1).symm.trans (hfind _ _ h2), hk⟩, ?_, hlist⟩
  obtain ⟨h1, h2⟩ := foldl_ports (g := g) g.vars [] List.nodup_nil
  refine ⟨h1, fun n => ?_⟩
  show n ∈ List.foldl _ [] g.vars ↔ _
  rw [h2]
  simp only [List.not_mem_nil, false_or]
  constructor
  · rintro ⟨⟨m, v⟩, he, hp, rfl⟩
    exact ⟨v, hlist m v he, hp⟩
  · rintro ⟨v, hf, hp⟩
    have := Map.mem_of_find hf
    rw [hv] at this
    obtain ⟨e, hin, he⟩ := List.mem_map.1 this
    simp only [Prod.mk.injEq] at he
    exact ⟨e, hin, by rw [he.2]; exact hp, he.1⟩

theorem full_fresh : Full fresh :=
  ⟨inv_fresh, by simp [fresh], by simp [fresh, Map.find]⟩

theorem Full.allocVar {g : G} (h : Full g) (v : VarObj) (hv : v.isPort = false)
    (hn : g.vars.find v.name = none) : Full (g.alloc v) := by
  refine ⟨h.toInv.alloc v, h.pnodup, fun n => ?_⟩
  show n ∈ g.ports ↔ _
  rw [h.ports]
  simp only [G.alloc, Map.find_emplace, hn, Option.getD_none]
  constructor
  · rintro ⟨w, hw, hp⟩
    have hne : n ≠ v.name := by rintro rfl; rw [hn] at hw; cases hw
    refine ⟨w, by simp [hne, hw], ?_⟩
    have := h.bound _ _ hw
    have : ¬ w = g.next := by omega
    simp [updObj, this, hp]
  · rintro ⟨w, hw, hp⟩
    split at hw
    · simp at hw; subst hw; simp [updObj, hv] at hp
    · have := h.bound _ _ hw
      have : ¬ w = g.next := by omega
      simp only [updObj, this, if_false] at hp
      exact ⟨w, hw, hp⟩

theorem Full.allocPort {g : G} (h : Full g) (v : VarObj) (hv : v.isPort = true)
    (hn : g.vars.find v.name = none) : Full { g.alloc v with ports := g.ports ++ [v.name] } := by
  have hnp : v.name ∉ g.ports := by
    intro hin
    obtain ⟨w, hw, -⟩ := (h.ports _).1 hin
    rw [hn] at hw; cases hw
  refine ⟨(h.toInv.alloc v).of_ports _, ?_, fun n => ?_⟩
  · rw [List.nodup_append]
    refine ⟨h.pnodup, by simp, ?_⟩
    intro a ha b hb e
    simp only [List.mem_cons, List.not_mem_nil, or_false] at hb
    subst hb; subst e
    exact hnp ha
  · show n ∈ g.ports ++ [v.name] ↔ _
    simp only [List.mem_append, List.mem_cons, List.not_mem_nil, or_false, G.alloc, Map.find_emplace, hn,
      Option.getD_none, h.ports]
    constructor
    · rintro (⟨w, hw, hp⟩ | rfl)
      · have hne : n ≠ v.name := by rintro rfl; rw [hn] at hw; cases hw
        refine ⟨w, by simp [hne, hw], ?_⟩
        have := h.bound _ _ hw
        have : ¬ w = g.next := by omega
        simp [updObj, this, hp]
      · exact ⟨g.next, by simp, by simp [updObj, hv]⟩
    · rintro ⟨w, hw, hp⟩
      split at hw
      · next e => exact .inr e
      · have := h.bound _ _ hw
        have : ¬ w = g.next := by omega
        simp only [updObj, this, if_false] at hp
        exact .inl ⟨w, hw, hp⟩

theorem Full.rename {g : G} (h : Full g) (old new : Name) (hnew : new = old ∨ g.vars.find new = none)
    (hold : ∀ v, g.vars.find old = some v → (g.obj v).isPort = false) : Full (renameVar g old new) := by
  refine ⟨h.toInv.rename old new, ?_, fun n => ?_⟩
  · unfold renameVar; split <;> exact h.pnodup
  · unfold renameVar
    cases hf : g.vars.find old with
    | none => exact h.ports n
    | some v =>
      simp only
      rw [h.ports]
      have hvp := hold v hf
      have objp : ∀ w, (updObj g.obj v { g.obj v with name := new } w).isPort = (g.obj w).isPort := by
        intro w; simp only [updObj]; split
        · next e => rw [e]
        · rfl
      simp only [objp, Map.find_emplace, Map.find_erase]
      have hnone : (if new = old then none else g.vars.find new) = none := by
        rcases hnew with e | e <;> simp [e]
      rw [hnone]
      simp only [Option.getD_none]
      constructor
      · rintro ⟨w, hw, hp⟩
        have hno : n ≠ old := by
          rintro rfl; rw [hf] at hw; simp at hw; subst hw; rw [hvp] at hp; cases hp
        have hnn : n ≠ new := by
          rintro rfl
          rcases hnew with e | e
          · exact hno e
          · rw [e] at hw; cases hw
        exact ⟨w, by simp [hno, hnn, hw], hp⟩
      · rintro ⟨w, hw, hp⟩
        split at hw
        · simp at hw; subst hw; rw [hvp] at hp; cases hp
        · split at hw
          · cases hw
          · exact ⟨w, hw, hp⟩

theorem Full.step {kw : Name → Bool} {g : G} (h : Full g) (o : Op) (hs : o.safe g) :
    Full (Gen.step kw g o).1 := by
  cases o with
  | declVar n w sz sg =>
    simp only [Gen.step, declVar]
    split
    · split <;> exact h
    · next hn =>
      split
      · exact h.allocVar _ rfl hn
      · exact h
  | declPacked n w sz =>
    simp only [Gen.step, declPacked]
    split
    · exact h
    · next hn =>
      split
      · refine h.allocVar _ rfl ?_
        simpa [Map.has] using hn
      · exact h
  | declPort n w sz sg =>
    simp only [Gen.step, declPort]
    split
    · split
      · exact h
      · exact h.allocPort ⟨n, true, w, sz, sg, false⟩ rfl hs
    · exact h
  | rename old new => exact h.rename old new hs.1 hs.2
  | setName v n =>
    have : (Gen.setName g v n).1 = g := by unfold Gen.setName; simp [show (g.obj v).name = n from hs]
    simp only [Gen.step, this]
    exact h
  | removeVar n =>
    simp only [Gen.step, Gen.removeVar]
    split
    · exact h
    · next v hf =>
      split
      · exact h
      · refine ⟨h.toInv.erase n, h.pnodup, fun m => ?_⟩
        show m ∈ g.ports ↔ _
        rw [h.ports]
        simp only [Map.find_erase]
        have hvp := hs v hf
        constructor
        · rintro ⟨w, hw, hp⟩
          have : m ≠ n := by rintro rfl; rw [hf] at hw; simp at hw; subst hw; rw [hvp] at hp; cases hp
          exact ⟨w, by simp [this, hw], hp⟩
        · rintro ⟨w, hw, hp⟩
          split at hw
          · cases hw
          · exact ⟨w, hw, hp⟩
  | removePort n =>
    simp only [Gen.step, Gen.removePort]
    split
    · next hc =>
      obtain ⟨v, hf, hp⟩ := (h.ports n).1 (List.contains_iff_mem.1 hc)
      simp only [Gen.removeVar, hf, hs v hf, Bool.false_eq_true, if_false]
      refine ⟨⟨(h.toInv.erase n).nodup, (h.toInv.erase n).own, (h.toInv.erase n).bound⟩,
        List.Sublist.nodup List.filter_sublist h.pnodup, fun m => ?_⟩
      simp only [List.mem_filter, decide_eq_true_eq, h.ports, Map.find_erase]
      constructor
      · rintro ⟨⟨w, hw, hp⟩, hne⟩
        exact ⟨w, by simp [hne, hw], hp⟩
      · rintro ⟨w, hw, hp⟩
        split at hw
        · cases hw
        · next hne => exact ⟨⟨w, hw, hp⟩, hne⟩
    · exact h
  | reindex =>
    obtain ⟨-, hp, -⟩ := reindex_repairs g h.toInv.nodup_names
    exact ⟨h.toInv.reindex, hp.1, hp.2⟩
  | connect v b =>
    refine ⟨h.toInv.connect v b, h.pnodup, fun n => ?_⟩
    show n ∈ g.ports ↔ _
    rw [h.ports]
    have objp : ∀ w, (updObj g.obj v { g.obj v with connected := b } w).isPort = (g.obj w).isPort := by
      intro w; simp only [updObj]; split
      · next e => rw [e]
      · rfl
    simp only [Gen.step, objp]

/-- **C39** (histories without the misuses listed in `Op.safe`).  Names and ports stay in step, and
`get_port` of any name returns the port of that name, or nothing if there is none — it never throws
and never returns something that is not a port. -/
theorem table_partial (kw : Name → Bool) (g : G) (h : Reach kw (fun g o => o.safe g) g) :
    NamesOk g ∧ PortsOk g ∧
    ∀ n r, getPort g n = r ↔
      ((∃ v, g.vars.find n = some v ∧ (g.obj v).isPort = true ∧ r = .ok (some v)) ∨
       ((∀ v, g.vars.find n = some v → (g.obj v).isPort = false) ∧ r = .ok none)) := by
  have hf : Full g := by
    induction h with
    | fresh => exact full_fresh
    | step _ _ hs ih => exact ih.step _ hs
  refine ⟨hf.toInv.names, ⟨hf.pnodup, hf.ports⟩, fun n r => ?_⟩
  unfold getPort
  by_cases hc : n ∈ g.ports
  · obtain ⟨v, hv, hp⟩ := (hf.ports n).1 hc
    simp only [List.contains_iff_mem.2 hc, if_true, hv, hp]
    constructor
    · rintro rfl; exact .inl ⟨v, rfl, hp, rfl⟩
    · rintro (⟨w, hw, -, rfl⟩ | ⟨hno, -⟩)
      · simp at hw; rw [hw]
      · have := hno v rfl
        rw [hp] at this; cases this
  · have hc' : g.ports.contains n = false := by
      rw [Bool.eq_false_iff]; intro h; exact hc (List.contains_iff_mem.1 h)
    simp only [hc', Bool.false_eq_true, if_false]
    have hno : ∀ v, g.vars.find n = some v → (g.obj v).isPort = false := by
      intro v hv
      rw [Bool.eq_false_iff]
      intro hp
      exact hc ((hf.ports n).2 ⟨v, hv, hp⟩)
    constructor
    · rintro rfl; exact .inr ⟨hno, rfl⟩
    · rintro (⟨w, hw, hp, -⟩ | ⟨-, rfl⟩)
      · rw [hno w hw] at hp; cases hp
      · rfl

/-! ### Effects of single calls -/

/-- Declaring a variable under a free, legal name creates it under that name and changes nothing
else; the new variable is distinct from every registered one. -/
theorem var_new (kw : Name → Bool) (g : G) (n : Name) (w : Nat) (sz : List Nat) (sg : Bool)
    (hn : g.vars.find n = none) (hk : kw n = false) (hw : 0 < w) :
    ∃ v, (declVar kw g n w sz sg).2 = .ok v ∧
      (∀ m, (declVar kw g n w sz sg).1.vars.find m = if m = n then some v else g.vars.find m) ∧
      (declVar kw g n w sz sg).1.obj v = ⟨n, false, w, sz, sg, false⟩ ∧
      ∀ u, u ≠ v → (declVar kw g n w sz sg).1.obj u = g.obj u := by
  have hc : ctorOk kw n w = true := by simp [ctorOk, hk]; omega
  refine ⟨g.next, ?_, ?_, ?_, ?_⟩ <;> simp only [declVar, hn, hc, if_true, G.alloc]
  · intro m; simp only [Map.find_emplace, hn, Option.getD_none]
  · simp [updObj]
  · intro u hu; simp [updObj, hu]

/-- Declaring a name again returns the existing variable or throws; the table does not change. -/
theorem var_again (kw : Name → Bool) (g : G) (n : Name) (w : Nat) (sz : List Nat) (sg : Bool) (v : Nat)
    (hn : g.vars.find n = some v) :
    (declVar kw g n w sz sg).1 = g ∧
    ((declVar kw g n w sz sg).2 = .ok v ∨ (declVar kw g n w sz sg).2 = .throw .var) := by
  simp only [declVar, hn]
  split
  · exact ⟨rfl, .inr rfl⟩
  · exact ⟨rfl, .inl rfl⟩

/-- Renaming to a free name moves the variable and nothing else. -/
theorem rename_moves (g : G) (old new : Name) (v : Nat) (ho : g.vars.find old = some v)
    (hn : g.vars.find new = none) :
    (∀ m, (renameVar g old new).vars.find m =
      if m = new then some v else if m = old then none else g.vars.find m) ∧
    ((renameVar g old new).obj v).name = new := by
  have hne : new ≠ old := by rintro rfl; rw [ho] at hn; cases hn
  simp only [renameVar, ho]
  refine ⟨fun m => ?_, by simp [updObj]⟩
  simp only [Map.find_emplace, Map.find_erase, hne, if_false, hn, Option.getD_none]

/-! ### What goes wrong -/

def ops (kw : Name → Bool) : G → List Op → G
  | g, [] => g
  | g, o :: os => ops kw (Gen.step kw g o).1 os

theorem reach_ops {kw : Name → Bool} {P : G → Op → Prop} : ∀ (os : List Op) (g : G), Reach kw P g →
    (∀ g o, o ∈ os → P g o ∧ o.valid g) → Reach kw P (ops kw g os)
  | [], _, h, _ => h
  | o :: os, g, h, hP => by
    exact reach_ops os _ (Reach.step h (hP g o List.mem_cons_self).2 (hP g o List.mem_cons_self).1)
      fun g' o' ho => hP g' o' (List.mem_cons_of_mem _ ho)

def nA : Name := ['a']
def nB : Name := ['b']
def nC : Name := ['c']
def noKw : Name → Bool := fun _ => false

/-- Renaming a port leaves the old name in the port list: the renamed port is not in it, and
`get_port` of the old name throws. -/
theorem ports_out_of_step :
    let g := ops noKw fresh [.declPort nA 1 [1] false, .rename nA nB]
    g.vars.find nB = some 0 ∧ (g.obj 0).isPort = true ∧ nB ∉ g.ports ∧ getPort g nA = .throw .outOfRange ∧
    getPort g nB = .ok none := by
  refine ⟨?_, ?_, ?_, ?_, ?_⟩ <;> decide +kernel

/-- Declaring a port under the name of an existing variable succeeds: the port list gets the name,
the table keeps the variable, and `get_port` casts that variable to a port. -/
theorem port_over_variable :
    let g := ops noKw fresh [.declVar nA 1 [1] false]
    let r := declPort noKw g nA 4 [1] false
    r.2 = .ok 1 ∧ r.1.vars.find nA = some 0 ∧ (r.1.obj 0).isPort = false ∧ getPort r.1 nA = .ub := by
  refine ⟨?_, ?_, ?_, ?_⟩ <;> decide +kernel

/-- Renaming onto an existing name silently drops the renamed variable from the table. -/
theorem rename_drops_variable :
    let g := ops noKw fresh [.declVar nA 1 [1] false, .declVar nB 1 [1] false]
    let g' := renameVar g nA nB
    g.vars.find nA = some 0 ∧ g'.vars.find nB = some 1 ∧ (g'.obj 0).name = nB ∧
    ∀ n, g'.vars.find n ≠ some 0 := by
  have he : (renameVar (ops noKw fresh [.declVar nA 1 [1] false, .declVar nB 1 [1] false]) nA nB).vars
      = [(nB, 1)] := by decide +kernel
  refine ⟨by decide +kernel, by decide +kernel, by decide +kernel, ?_⟩
  intro n
  rw [he]
  simp only [Map.find]
  split <;> simp

/-- A port that is still connected cannot be removed — but its name is gone from the port list
after the failed attempt. -/
theorem failed_removal_loses_port :
    let g := ops noKw fresh [.declPort nA 1 [1] false, .connect 0 true]
    (removePort g nA).2 = .throw .user ∧ getPort g nA = .ok (some 0) ∧ getPort (removePort g nA).1 nA = .ok none ∧
    (removePort g nA).1.vars.find nA = some 0 := by
  refine ⟨?_, ?_, ?_, ?_⟩ <;> decide +kernel

/-- Two variables given the same name through the Python attribute, neither call complaining:
the check looks at the table's keys, which the first renaming did not change. -/
theorem two_variables_one_name :
    let g := ops noKw fresh [.declVar nA 1 [1] false, .declVar nB 1 [1] false, .setName 0 nC]
    (setName g 1 nC).2 = .ok () ∧ ((setName g 1 nC).1.obj 0).name = nC ∧ ((setName g 1 nC).1.obj 1).name = nC ∧
    (reindex (setName g 1 nC).1).vars = [(nC, 0)] := by
  refine ⟨?_, ?_, ?_, ?_⟩ <;> decide +kernel

/-- Declaring the same array twice with the same arguments throws: the check compares the total
width with the element width. -/
theorem same_array_twice_rejected :
    let g := ops noKw fresh [.declVar nA 8 [4] false]
    (declVar noKw g nA 8 [4] false).2 = .throw .var := by
  decide +kernel

/-- **C39**, negation of the full claim. -/
theorem not_TableClaim : ¬ TableClaim := by
  intro h
  have hr : Reach noKw (fun _ _ => True) (ops noKw fresh [.declPort nA 1 [1] false, .rename nA nB]) := by
    apply reach_ops _ _ Reach.fresh
    intro g o ho
    simp only [List.mem_cons, List.not_mem_nil, or_false] at ho
    rcases ho with rfl | rfl <;> exact ⟨trivial, trivial⟩
  have := ((h _ _ hr).2.2 nA).1 (by decide +kernel)
  obtain ⟨v, hv, -⟩ := this
  have : (ops noKw fresh [.declPort nA 1 [1] false, .rename nA nB]).vars.find nA = none := by decide +kernel
  rw [this] at hv; cases hv

/-! ### The hypotheses are met -/

def demo : G := ops noKw fresh
  [.declVar nA 8 [4] false, .declPort nB 1 [1] false, .rename nA nC, .declVar nA 2 [1] true, .connect 1 true]

example : demo.vars.find nC = some 0 ∧ demo.vars.find nA = some 2 ∧ demo.ports = [nB] := by
  refine ⟨?_, ?_, ?_⟩ <;> decide +kernel

theorem demo_reach : Reach noKw (fun g o => o.safe g) demo := by
  have h0 := Reach.fresh (kw := noKw) (P := fun g o => o.safe g)
  have h1 := Reach.step (o := .declVar nA 8 [4] false) h0 trivial trivial
  have h2 := Reach.step (o := .declPort nB 1 [1] false) h1 trivial (by unfold Op.safe; decide +kernel)
  have h3 := Reach.step (o := .rename nA nC) h2 trivial
    ⟨.inr (by decide +kernel), by
      intro v hv
      have e : (Gen.step noKw (Gen.step noKw fresh (.declVar nA 8 [4] false)).1 (.declPort nB 1 [1] false)).1.vars.find nA
          = some 0 := by decide +kernel
      rw [e] at hv
      simp only [Option.some.injEq] at hv
      subst hv
      decide +kernel⟩
  have h4 := Reach.step (o := .declVar nA 2 [1] true) h3 trivial trivial
  have h5 := Reach.step (o := .connect 1 true) h4 (by unfold Op.valid; decide +kernel) trivial
  exact h5

example : getPort demo nB = .ok (some 1) ∧ getPort demo nA = .ok none := by
  refine ⟨?_, ?_⟩ <;> decide +kernel

example : uniqueName demo.vars.has [] nA = .ok (join nA (dec 0)) ∧ uniqueName demo.vars.has nA nB = .ok (join nA nB) := by
  refine ⟨?_, ?_⟩ <;> decide +kernel

example : demo.vars.length < 2 ^ 32 := by decide +kernel

/-- A table renamed through Python (distinct names) that `reindex_vars` repairs. -/
example : let g := ops noKw fresh [.declPort nA 1 [1] false, .declVar nB 1 [1] false, .setName 0 nC]
    (g.vars.map fun e => (g.obj e.2).name).Nodup ∧ ¬ NamesOk g := by
  refine ⟨by decide +kernel, fun h => ?_⟩
  have := h.1 nA 0 (by decide +kernel)
  revert this
  decide +kernel

end Kratos.Gen
