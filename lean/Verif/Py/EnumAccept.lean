import Verif.Py.EnumHelper

/-!
# Declaring enumerations from Python: every list, every fitting definition

More about the model of `Verif/Py/EnumHelper.lean`: the codes of a list whose names may be repeated, and
which definitions are accepted.
-/

namespace Kratos.EnumHelper
open Kratos.Enm (St EnumDef Op step)
open Kratos.Eval (U64)

variable {N : Type} [DecidableEq N]

theorem keys_dset (d : List (N × Int)) (n : N) (v : Int) :
    (dset d n v).map (·.1) = if n ∈ d.map (·.1) then d.map (·.1) else d.map (·.1) ++ [n] := by
  unfold dset
  by_cases h : d.any (fun x => x.1 = n) = true
  · have hm : n ∈ d.map (·.1) := by
      simp only [List.any_eq_true, decide_eq_true_eq] at h
      obtain ⟨x, hx, rfl⟩ := h
      exact List.mem_map_of_mem hx
    rw [if_pos h, if_pos hm, List.map_map]
    apply List.map_congr_left
    intro x _
    simp only [Function.comp]
    split
    · rename_i hx; exact hx.symm
    · rfl
  · have hm : n ∉ d.map (·.1) := by
      intro hm
      obtain ⟨x, hx, rfl⟩ := List.mem_map.1 hm
      exact h (List.any_eq_true.2 ⟨x, hx, by simp⟩)
    rw [if_neg h, if_neg hm]
    simp

theorem mem_dset_self (d : List (N × Int)) (n : N) (v : Int) : (n, v) ∈ dset d n v := by
  unfold dset
  split
  · rename_i h
    simp only [List.any_eq_true, decide_eq_true_eq] at h
    obtain ⟨x, hx, hn⟩ := h
    exact List.mem_map.2 ⟨x, hx, by simp [hn]⟩
  · simp

theorem mem_dset_other {d : List (N × Int)} {n k : N} {v w : Int} (hk : k ≠ n) :
    (k, w) ∈ dset d n v ↔ (k, w) ∈ d := by
  unfold dset
  split
  · constructor
    · intro h
      obtain ⟨x, hx, he⟩ := List.mem_map.1 h
      split at he
      · cases he; exact absurd rfl hk
      · exact he ▸ hx
    · intro h
      exact List.mem_map.2 ⟨(k, w), h, by simp [hk]⟩
  · simp [hk]

theorem add_eq (d : List (N × Int)) (i : Item N) : ∃ v, add d i = dset d i.id v ∧
    (∀ n, i = .name n → v = d.length) ∧ ∀ n u, i = .pair n u → v = u := by
  cases i with
  | name n => exact ⟨_, rfl, fun _ _ => rfl, nofun⟩
  | pair n v => exact ⟨_, rfl, nofun, fun _ _ h => by cases h; rfl⟩

theorem keys_fold : ∀ (l : List (Item N)) (d : List (N × Int)), (d.map (·.1)).Nodup →
    ((l.foldl add d).map (·.1)).Nodup ∧
      ∀ n, n ∈ (l.foldl add d).map (·.1) ↔ n ∈ d.map (·.1) ∨ n ∈ l.map Item.id
  | [], d, h => ⟨h, fun n => by simp⟩
  | i :: l, d, h => by
    obtain ⟨v, ht, _, _⟩ := add_eq d i
    have hk := keys_dset d i.id v
    have hn : ((add d i).map (·.1)).Nodup := by
      rw [ht, hk]
      split
      · exact h
      · rename_i hni
        rw [List.nodup_append]
        refine ⟨h, by simp, ?_⟩
        intro a ha b hb hab
        cases List.mem_singleton.1 hb
        exact hni (hab ▸ ha)
    obtain ⟨h1, h2⟩ := keys_fold l (add d i) hn
    refine ⟨h1, fun n => ?_⟩
    rw [List.foldl_cons, h2 n, ht, hk, List.map_cons, List.mem_cons]
    split
    · rename_i hi
      constructor
      · rintro (h | h)
        · exact .inl h
        · exact .inr (.inr h)
      · rintro (h | rfl | h)
        · exact .inl h
        · exact .inl hi
        · exact .inr h
    · rw [List.mem_append, List.mem_singleton, or_assoc]

theorem fold_other {n : N} {v : Int} : ∀ (l : List (Item N)) (d : List (N × Int)), n ∉ l.map Item.id →
    ((n, v) ∈ l.foldl add d ↔ (n, v) ∈ d)
  | [], _, _ => Iff.rfl
  | i :: l, d, h => by
    rw [List.map_cons, List.mem_cons, not_or] at h
    obtain ⟨w, ht, _, _⟩ := add_eq d i
    rw [List.foldl_cons, fold_other l _ h.2, ht, mem_dset_other h.1]

omit [DecidableEq N] in
theorem unique_key {d : List (N × Int)} (h : (d.map (·.1)).Nodup) {n : N} {v w : Int} (hv : (n, v) ∈ d)
    (hw : (n, w) ∈ d) : v = w := by
  induction d with
  | nil => cases hv
  | cons x d ih =>
    rw [List.map_cons, List.nodup_cons] at h
    rcases List.mem_cons.1 hv with e | hv' <;> rcases List.mem_cons.1 hw with e' | hw'
    · rw [← e] at e'; exact (Prod.mk.inj e').2.symm
    · exact absurd (List.mem_map.2 ⟨_, hw', by rw [← e]⟩) h.1
    · exact absurd (List.mem_map.2 ⟨_, hv', by rw [← e']⟩) h.1
    · exact ih h.2 hv' hw'

/-- **C128**: the names of a list are the members of the enum, each once. -/
theorem defs_names (l : List (Item N)) :
    ((defs l).map (·.1)).Nodup ∧
      ∀ n, n ∈ (defs l).map (·.1) ↔ ∃ i ∈ l, i = .name n ∨ ∃ v, i = .pair n v := by
  obtain ⟨h1, h2⟩ := keys_fold l [] List.nodup_nil
  refine ⟨h1, fun n => (h2 n).trans ?_⟩
  simp only [List.map_nil, List.not_mem_nil, false_or, List.mem_map]
  constructor
  · rintro ⟨i, hi, rfl⟩
    refine ⟨i, hi, ?_⟩
    cases i with
    | name n => exact .inl rfl
    | pair n v => exact .inr ⟨v, rfl⟩
  · rintro ⟨i, hi, rfl | ⟨v, rfl⟩⟩
    · exact ⟨_, hi, rfl⟩
    · exact ⟨_, hi, rfl⟩

/-- **C128**: the last element of a list with a name decides its value.  A pair gives it; a plain name gets the
number of different names before it. -/
theorem defs_value (pre post : List (Item N)) (i : Item N) (n : N) (v : Int)
    (last : ∀ j ∈ post, j ≠ .name n ∧ ∀ u, j ≠ .pair n u) :
    (i = .pair n v → ∀ w, (n, w) ∈ defs (pre ++ i :: post) ↔ w = v) ∧
    (i = .name n → ∀ names : List N, names.Nodup →
      (∀ k, k ∈ names ↔ ∃ j ∈ pre, j = .name k ∨ ∃ u, j = .pair k u) →
      ∀ w, (n, w) ∈ defs (pre ++ i :: post) ↔ w = (names.length : Int)) := by
  have hp : n ∉ post.map Item.id := by
    intro h
    obtain ⟨j, hj, hn⟩ := List.mem_map.1 h
    cases j with
    | name m => exact (last _ hj).1 (by rw [show m = n from hn])
    | pair m u => exact (last _ hj).2 u (by rw [show m = n from hn])
  have hk := (defs_names (pre ++ i :: post)).1
  have he : ∀ w, (n, w) ∈ defs (pre ++ i :: post) ↔ (n, w) ∈ add (defs pre) i := by
    intro w
    show (n, w) ∈ (pre ++ i :: post).foldl add [] ↔ _
    rw [List.foldl_append, List.foldl_cons, fold_other post _ hp]
    rfl
  constructor
  · rintro rfl w
    have := mem_dset_self (defs pre) n v
    constructor
    · intro h
      exact unique_key hk h ((he v).2 this)
    · rintro rfl
      exact (he _).2 this
  · rintro rfl names hnd hmem w
    have hlen : (defs pre).length = names.length := by
      have hpn := defs_names pre
      have := (List.perm_ext_iff_of_nodup hpn.1 hnd).2 fun k => (hpn.2 k).trans (hmem k).symm
      have := this.length_eq
      rw [List.length_map] at this
      exact this
    have := mem_dset_self (defs pre) n (defs pre).length
    rw [hlen] at this
    have hm : (n, (names.length : Int)) ∈ add (defs pre) (.name n) := by
      show _ ∈ dset _ _ _
      rw [hlen]; exact this
    constructor
    · intro h
      exact unique_key hk h ((he _).2 hm)
    · rintro rfl
      exact (he _).2 hm

theorem create_ok {v : U64} {w : Nat} (h1 : 1 ≤ w) (h2 : w ≤ 64) (h : v.toNat < 2 ^ w) :
    Const.create v w false = .ok ⟨v, w, false⟩ := by
  obtain ⟨r, hr, hrl, _⟩ := Const.isLegal_iff h1 h2 false v
  have : r = .legal := hrl.2 (by
    simp only [Const.Representable, Const.number, Bool.false_eq_true, if_false]
    exact ⟨by omega, by exact_mod_cast h⟩)
  subst this
  simp only [Const.create, if_neg (by omega : ¬ w = 0), hr, Res.ok_bind]

omit [DecidableEq N] in
theorem mapRes_ok {w : Nat} (h1 : 1 ≤ w) (h2 : w ≤ 64) : ∀ (ms : List (N × U64)), (∀ m ∈ ms, m.2.toNat < 2 ^ w) →
    Kinds.mapRes (fun m : N × U64 => (Const.create m.2 w false).bind fun c => .ok (m.1, c)) ms
      = .ok (ms.map fun m => (m.1, ⟨m.2, w, false⟩))
  | [], _ => rfl
  | m :: ms, h => by
    simp only [Kinds.mapRes, create_ok h1 h2 (h m List.mem_cons_self), Res.ok_bind,
      mapRes_ok h1 h2 ms fun x hx => h x (List.mem_cons_of_mem _ hx), List.map_cons]

theorem no_conflict {kw : N → Bool} {s : St N} {sc : Option Nat} {name : N} {d : List (N × Int)}
    (h : Free kw s sc name (d.map (·.1))) (f : N × Int → U64) :
    Enm.conflict (s.scope sc) name (d.map fun x => (x.1, f x)) = false := by
  rw [Bool.eq_false_iff]
  intro hc
  have hsc : ∀ e, e ∈ s.scope sc → (sc, e) ∈ s.enums := by
    intro e he
    simp only [Enm.St.scope, List.mem_map, List.mem_filter, decide_eq_true_eq] at he
    obtain ⟨p, ⟨hp, hs⟩, rfl⟩ := he
    rw [← hs]; exact hp
  simp only [Enm.conflict, Bool.or_eq_true, List.any_eq_true, decide_eq_true_eq, List.mem_map] at hc
  rcases hc with ⟨e, he, hn⟩ | ⟨m, ⟨x, hx, rfl⟩, e, he, y, hy, hn⟩
  · exact h.2.1 e (hsc e he) hn
  · exact h.2.2 e (hsc e he) y hy (hn ▸ List.mem_map_of_mem hx)

/-- Codes that fit in a width of 1 to 64 bits are accepted by the C++ part. -/
theorem step_accepts {kw : N → Bool} {s : St N} {sc : Option Nat} {name : N} {d : List (N × Int)} {w : Nat}
    (hf : Free kw s sc name (d.map (·.1))) (h1 : 1 ≤ w) (h2 : w ≤ 64) (h : ∀ x ∈ d, 0 ≤ x.2 ∧ x.2 < 2 ^ w) :
    ∃ s', (convert d).bind (fun ms => step kw s (.enum sc name ms w)) = .ok s' := by
  have hle : (2 : Nat) ^ w ≤ 2 ^ 64 := Nat.pow_le_pow_right (by decide) h2
  have hle' : (2 : Int) ^ w ≤ 2 ^ 64 := by exact_mod_cast hle
  have h64 : ∀ x ∈ d, 0 ≤ x.2 ∧ x.2 < 2 ^ 64 := fun x hx => ⟨(h x hx).1, Int.lt_of_lt_of_le (h x hx).2 hle'⟩
  have hm : ∀ m ∈ d.map (fun x => (x.1, BitVec.ofInt 64 x.2)), m.2.toNat < 2 ^ w := by
    intro m hm
    obtain ⟨x, hx, rfl⟩ := List.mem_map.1 hm
    have := ofInt_toNat (h64 x hx)
    have h3 := (h x hx).2
    rw [← this] at h3
    exact_mod_cast h3
  have hc := no_conflict hf fun x => BitVec.ofInt 64 x.2
  have hmk : Enm.make kw name (d.map fun x => (x.1, BitVec.ofInt 64 x.2)) w
      = .ok ⟨name, w, (d.map fun x => (x.1, BitVec.ofInt 64 x.2)).map fun m => (m.1, ⟨m.2, w, false⟩)⟩ := by
    simp only [Enm.make, hf.1, Bool.false_eq_true, if_false, mapRes_ok h1 h2 _ hm, Res.ok_bind]
  rw [convert_ok.2 ⟨h64, rfl⟩, Res.ok_bind]
  cases sc with
  | none => exact ⟨_, by simp only [step, hc, Bool.false_eq_true, if_false, hmk, Res.ok_bind]; rfl⟩
  | some g => exact ⟨_, by simp only [step, hc, Bool.false_eq_true, if_false, hmk, Res.ok_bind]; rfl⟩

/-- **C128**: a declaration with free names and a given width of 1 to 64 bits is accepted exactly when every code is
in the range of the width; it then has these codes and this width. -/
theorem given_width {kw : N → Bool} {lg : Nat → Nat} {s : St N} {sc : Option Nat} {name : N} {a : Arg N} {w : Nat}
    (h1 : 1 ≤ w) (h2 : w ≤ 64) (hf : Free kw s sc name (a.dict'.map (·.1))) :
    ((∃ s', declare kw lg s sc name a (some w) = .ok s') ↔ ∀ x ∈ a.dict', 0 ≤ x.2 ∧ x.2 < 2 ^ w) ∧
    ∀ s', declare kw lg s sc name a (some w) = .ok s' →
      Declared s s' sc name w fun n c => (n, (c : Int)) ∈ a.dict' := by
  refine ⟨⟨?_, fun h => step_accepts hf h1 h2 h⟩, ?_⟩
  · rintro ⟨s', h⟩ x hx
    obtain ⟨hr, w', _, hw, _, hfit⟩ := declare_exact h
    cases hw w rfl
    exact ⟨(hr x hx).1, (hfit x hx).1⟩
  · intro s' h
    obtain ⟨_, w', hd, hw, _⟩ := declare_exact h
    cases hw w rfl
    exact hd

/-- **C128** (partial): a definition with free names, no negative code, some code other than 0 and codes below `b` is
accepted without a width, in the least width that holds the codes; up to `b` the logarithm must be exact.
Missing: definitions whose codes are all 0, which are refused, and codes whose logarithm is rounded. -/
theorem default_width_partial {kw : N → Bool} {lg : Nat → Nat} {b : Nat} (hb : b ≤ 2 ^ 64) (hl : ExactTo lg b)
    {s : St N} {sc : Option Nat} {name : N} {a : Arg N} (hf : Free kw s sc name (a.dict'.map (·.1)))
    (h : ∀ x ∈ a.dict', 0 ≤ x.2 ∧ x.2 < b) (hp : ∃ x ∈ a.dict', x.2 ≠ 0) :
    ∃ s' w, declare kw lg s sc name a none = .ok s' ∧ Declared s s' sc name w (fun n c => (n, (c : Int)) ∈ a.dict') ∧
      (∀ x ∈ a.dict', x.2 < 2 ^ w) ∧ ∀ k : Nat, (∀ x ∈ a.dict', x.2 < 2 ^ k) → w ≤ k := by
  obtain ⟨x1, hx1, hn1⟩ := hp
  obtain ⟨m, hm⟩ := maxValue_total (d := a.dict') (by intro he; rw [he] at hx1; cases hx1)
  obtain ⟨⟨xm, hxm, hxe⟩, hle⟩ := maxValue_spec hm
  have hm1 : 1 ≤ m := by have := hle x1 hx1; have := (h x1 hx1).1; omega
  have hmb : m < b := by rw [← hxe]; exact (h xm hxm).2
  obtain ⟨k, rfl⟩ := Int.eq_ofNat_of_zero_le (show 0 ≤ m by omega)
  have hkb : k < b := by omega
  obtain ⟨ha, hmin⟩ := hl (k + 1) (by omega) hkb
  have hw : widthOf lg a.dict' none = .ok (lg (k + 1)) := by
    simp only [widthOf, hm, Res.ok_bind, clog2]
    rw [if_neg (by omega), if_neg (by omega)]
    rfl
  have h1 : 1 ≤ lg (k + 1) := by
    rcases Nat.eq_zero_or_pos (lg (k + 1)) with h0 | h0
    · rw [h0] at ha; omega
    · exact h0
  have hfit : ∀ x ∈ a.dict', x.2 < 2 ^ lg (k + 1) := by
    intro x hx
    refine Int.lt_of_le_of_lt (hle x hx) ?_
    have : k < 2 ^ lg (k + 1) := ha
    exact_mod_cast this
  obtain ⟨s', hs⟩ := step_accepts hf h1 (hmin 64 (by omega)) fun x hx => ⟨(h x hx).1, hfit x hx⟩
  have hd : declare kw lg s sc name a none = .ok s' := by rw [declare, hw, Res.ok_bind]; exact hs
  obtain ⟨w, h3, h4, h5⟩ := width_least hl (fun x hx => (h x hx).2) hd
  exact ⟨s', w, hd, h3, h4, h5⟩

/-- **C128**: a definition with a negative code is refused, with or without a width. -/
theorem negative_refused {kw : N → Bool} {lg : Nat → Nat} {s s' : St N} {sc : Option Nat} {name : N} {a : Arg N}
    {width : Option Nat} (h : ∃ x ∈ a.dict', x.2 < 0) : declare kw lg s sc name a width ≠ .ok s' := by
  intro hs
  obtain ⟨x, hx, hneg⟩ := h
  have := ((declare_exact hs).1 x hx).1
  omega

/-! ## Cases that meet the hypotheses -/

/-- `["A", ("B", 5), "C", "A"]`: the second `A` has the code 3, the number of different names before it. -/
example : ∀ w, (10, w) ∈ defs ([.name 10, .pair 11 5, .name 12] ++ Item.name 10 :: []) ↔ w = 3 :=
  (defs_value [.name 10, .pair 11 5, .name 12] [] (.name 10) 10 0 nofun).2 rfl [10, 11, 12] (by decide)
    (by intro k; simp [eq_comm])

/-- `enum("E", {"A": 0}, 1)` is accepted. -/
example : ∃ s', declare (fun _ => false) lgOf Enm.init none 1 (.dict [(10, 0)]) (some 1) = .ok s' :=
  (given_width (a := .dict [(10, 0)]) (by decide) (by decide) (free_empty _ _)).1.2 (by decide)

/-- `enum("E", {"A": 2}, 1)` is not. -/
example : ¬ ∃ s', declare (fun _ => false) lgOf Enm.init none 1 (.dict [(10, 2)]) (some 1) = .ok s' := fun h =>
  absurd ((given_width (a := .dict [(10, 2)]) (by decide) (by decide) (free_empty _ _)).1.1 h) (by decide)

/-- `enum("E", {"A": 0, "B": 6})` -/
example : ∃ s' w, declare (fun _ => false) lgOf Enm.init none 1 (.dict [(10, 0), (11, 6)]) none = .ok s' ∧
    Declared Enm.init s' none 1 w (fun n c => (n, (c : Int)) ∈ [((10 : Nat), (0 : Int)), (11, 6)]) ∧
    (∀ x ∈ [((10 : Nat), (0 : Int)), (11, 6)], x.2 < 2 ^ w) ∧
    ∀ k : Nat, (∀ x ∈ [((10 : Nat), (0 : Int)), (11, 6)], x.2 < 2 ^ k) → w ≤ k :=
  default_width_partial (b := 8) (by decide) (lgOf_exact _) (a := .dict [(10, 0), (11, 6)]) (free_empty _ _) (by decide)
    (by decide)

end Kratos.EnumHelper
