import Verif.Gen.TableProps

/-!
# Moving a generator's variables into another (`Generator::transfer_content`)

Called when an instance is inlined.  Statements, expressions and parameters are left out; what is
modelled is the choice of names and the registration in the destination's table.  A port is
replaced by a variable declared in the destination (`gen.var(*var, target)`), any other variable is
moved; both end in `vars_.emplace`, and for a port an existing entry is first checked by
`Generator::var`.
-/

namespace Kratos.Gen

/-- The name chosen for one variable (src/generator.cc:707-711).  Uniqueness is decided by
`get_unique_variable_name` of the generator being emptied (`this`), not of the destination. -/
def targetName (src dst : Map Name Nat) (pre n : Name) : Res Name :=
  if dst.has n then uniqueName src.has pre n else .ok n

/-- The loop over the variables (src/generator.cc:705-732) for variables that are not ports. -/
def transferVars (src : Map Name Nat) (pre : Name) : Map Name Nat → Map Name Nat → Res (Map Name Nat)
  | [], dst => .ok dst
  | (n, v) :: rest, dst =>
    (targetName src dst pre n).bind fun t => transferVars src pre rest (dst.emplace t v)

/-- C66: every variable of the inlined instance is found in the destination, and the destination's
own variables stay where they were. -/
def TransferClaim : Prop :=
  ∀ (src dst dst' : Map Name Nat) (pre : Name), src.keys.Nodup → dst.keys.Nodup →
    transferVars src pre src dst = .ok dst' →
    (∀ n v, dst.find n = some v → dst'.find n = some v) ∧
    ∀ n v, (n, v) ∈ src → ∃ t, dst'.find t = some v

/-- The destination's own variables stay where they were, always. -/
theorem transfer_keeps (src : Map Name Nat) (pre : Name) : ∀ (l dst dst' : Map Name Nat),
    transferVars src pre l dst = .ok dst' → ∀ n v, dst.find n = some v → dst'.find n = some v
  | [], dst, dst', h, n, v, hf => by simp [transferVars] at h; subst h; exact hf
  | (m, w) :: l, dst, dst', h, n, v, hf => by
    simp only [transferVars, Res.bind_eq_ok] at h
    obtain ⟨t, -, h⟩ := h
    refine transfer_keeps src pre l _ dst' h n v ?_
    rw [Map.find_emplace]
    split
    · next e => subst e; simp [hf]
    · exact hf

/-- Moving never overwrites: whatever ends up in the destination under a name was there before or
is a variable of the source, and a variable moves under its own name when that is free. -/
theorem transfer_free (src : Map Name Nat) (pre : Name) : ∀ (l dst dst' : Map Name Nat), l.keys.Nodup →
    (∀ n ∈ l.keys, dst.has n = false) → transferVars src pre l dst = .ok dst' →
    ∀ n v, (n, v) ∈ l → dst'.find n = some v
  | [], _, _, _, _, _, n, v, hm => by cases hm
  | (m, w) :: l, dst, dst', hnd, hfree, h, n, v, hm => by
    simp only [Map.keys, List.map_cons, List.nodup_cons] at hnd
    have hm0 : dst.has m = false := hfree m (by simp [Map.keys])
    have hf0 : dst.find m = none := Map.find_none_iff.2 (Map.has_false_iff.1 hm0)
    simp only [transferVars, targetName, hm0, Bool.false_eq_true, if_false, Res.ok_bind] at h
    have hnew : (dst.emplace m w).find m = some w := by rw [Map.find_emplace, hf0]; simp
    rcases List.mem_cons.1 hm with e | hin
    · simp only [Prod.mk.injEq] at e
      rw [e.1, e.2]
      exact transfer_keeps src pre l _ dst' h m w hnew
    · refine transfer_free src pre l _ dst' hnd.2 ?_ h n v hin
      intro k hk
      have hne : k ≠ m := fun e => hnd.1 (by rw [← e]; exact hk)
      have : dst.has k = false := hfree k (List.mem_cons_of_mem _ hk)
      simp only [Map.has, Map.find_emplace, hne, if_false] at this ⊢
      exact this

/-- **C66** when the two generators have no variable name in common.  Missing: a name in common,
where a variable can be lost (`transfer_loses_variable`). -/
theorem transfer_partial (src dst dst' : Map Name Nat) (pre : Name) (hs : src.keys.Nodup)
    (hdis : ∀ n ∈ src.keys, n ∉ dst.keys) (h : transferVars src pre src dst = .ok dst') :
    (∀ n v, dst.find n = some v → dst'.find n = some v) ∧ ∀ n v, (n, v) ∈ src → dst'.find n = some v :=
  ⟨transfer_keeps src pre src dst dst' h,
   transfer_free src pre src dst dst' hs (fun n hn => Map.has_false_iff.2 (hdis n hn)) h⟩

/-- The parent has `a` and `i__a`, the instance `i` (inlined with prefix `i_`,
src/optimize.cc:1278) has `a`: the instance's `a` is given the name `i__a`, which is free in the instance but taken in the parent, and disappears. -/
theorem transfer_loses_variable :
    transferVars [(nA, 7)] ['i', '_'] [(nA, 7)] [(nA, 1), (join ['i', '_'] nA, 2)] = .ok [(nA, 1), (join ['i', '_'] nA, 2)] := by
  decide +kernel

/-- **C66**, negation of the full claim. -/
theorem not_TransferClaim : ¬ TransferClaim := by
  intro h
  obtain ⟨-, h2⟩ := h _ _ _ _ (by decide +kernel) (by decide +kernel) transfer_loses_variable
  obtain ⟨t, ht⟩ := h2 nA 7 (by simp)
  simp only [Map.find] at ht
  split at ht
  · simp at ht
  · split at ht <;> simp at ht

/-- A case where both hypotheses of `transfer_partial` hold. -/
example : ∃ dst', transferVars [(nA, 7), (nB, 8)] nC [(nA, 7), (nB, 8)] [(nC, 1)] = .ok dst' ∧
    dst' = [(nC, 1), (nA, 7), (nB, 8)] := ⟨_, by decide +kernel, rfl⟩

end Kratos.Gen
