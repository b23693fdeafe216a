import Verif.Gen.Enums

/-!
# Declaring enumerations from Python

`kratos.enum(name, definition, width)` and `Generator.enum(name, values, width)`
(`kratos/generator.py:124-139, 588-591`), with `clog2` and `max_value` (`kratos/util.py:52-60, 209-213`),
on top of `Context::enum_` and `Generator::enum_` (C83).

`lg` stands for `int(math.ceil(math.log2(x)))`, which is computed with floating point numbers; the
theorems say what they need of it.  Dictionaries are lists of pairs in their order; `std::map` sorts them
by name, which no theorem here sees.  Not modelled: the use of `enum` as a cast.
-/

namespace Kratos.EnumHelper
open Kratos.Enm (St EnumDef Op step)
open Kratos.Eval (U64)

variable {N : Type} [DecidableEq N]

/-- An element of a list of states: `"A"` or `("A", 3)`. -/
inductive Item (N : Type) where
  | name (n : N)
  | pair (n : N) (v : Int)

/-- `d[n] = v` for a Python dictionary. -/
def dset (d : List (N × Int)) (n : N) (v : Int) : List (N × Int) :=
  if d.any (fun p => p.1 = n) then d.map fun p => if p.1 = n then (n, v) else p
  else d ++ [(n, v)]

/-- The loop over the list (`kratos/generator.py:131-135`). -/
def add (d : List (N × Int)) : Item N → List (N × Int)
  | .name n => dset d n d.length
  | .pair n v => dset d n v

def defs (l : List (Item N)) : List (N × Int) := l.foldl add []

/-- The argument `definition`. -/
inductive Arg (N : Type) where
  | dict (d : List (N × Int))
  | list (l : List (Item N))

def Arg.dict' : Arg N → List (N × Int)
  | .dict d => d
  | .list l => defs l

/-- `max_value` (`kratos/util.py:209-213`): `max` of an empty set raises. -/
def maxValue : List (N × Int) → Res Int
  | [] => .throw .user
  | p :: d => .ok (d.foldl (fun a q => if a < q.2 then q.2 else a) p.2)

/-- `clog2` (`kratos/util.py:57-60`): `log2` of a negative number raises. -/
def clog2 (lg : Nat → Nat) (x : Int) : Res Nat :=
  if x = 0 then .ok 0
  else if x < 0 then .throw .user
  else .ok (lg x.toNat)

/-- The conversion of the dictionary to `std::map<std::string, uint64_t>` by the binding. -/
def convert (d : List (N × Int)) : Res (List (N × U64)) :=
  if d.all (fun p => 0 ≤ p.2 ∧ p.2 < 2 ^ 64) then .ok (d.map fun p => (p.1, BitVec.ofInt 64 p.2))
  else .throw .invalidArg

/-- The width: the one given, or the one computed (`kratos/generator.py:137-138, 589-590`). -/
def widthOf (lg : Nat → Nat) (d : List (N × Int)) : Option Nat → Res Nat
  | some w => .ok w
  | none => (maxValue d).bind fun m => clog2 lg (m + 1)

/-- `enum` and `Generator.enum`; `sc` is the generator, or `none` for the context. -/
def declare (kw : N → Bool) (lg : Nat → Nat) (s : St N) (sc : Option Nat) (name : N) (a : Arg N) (width : Option Nat) :
    Res (St N) :=
  (widthOf lg a.dict' width).bind fun w =>
  (convert a.dict').bind fun ms => step kw s (.enum sc name ms w)

/-! ## Specification -/

/-- The name of a state. -/
def Item.id : Item N → N
  | .name n => n
  | .pair n _ => n

/-- The code the user gave to a state. -/
def Item.given : Item N → Option Int
  | .name _ => none
  | .pair _ v => some v

/-- `lg` is the logarithm, rounded up, for numbers up to `b`. -/
def ExactTo (lg : Nat → Nat) (b : Nat) : Prop :=
  ∀ x, 1 ≤ x → x ≤ b → x ≤ 2 ^ lg x ∧ ∀ k, x ≤ 2 ^ k → lg x ≤ k

/-- The last enumeration of a scope has these members and this width. -/
def Declared (s s' : St N) (sc : Option Nat) (name : N) (w : Nat) (code : N → Nat → Prop) : Prop :=
  ∃ e, s'.enums = s.enums ++ [(sc, e)] ∧ s'.vars = s.vars ∧ e.name = name ∧ e.width = w ∧
    ∀ n c, code n c ↔ ∃ m ∈ e.members, m.1 = n ∧ m.2.value.toNat = c

/-- Nothing in the way of a declaration with these members. -/
def Free (kw : N → Bool) (s : St N) (sc : Option Nat) (name : N) (ns : List N) : Prop :=
  kw name = false ∧ (∀ e, (sc, e) ∈ s.enums → e.name ≠ name) ∧
    ∀ e, (sc, e) ∈ s.enums → ∀ x ∈ e.members, x.1 ∉ ns

/-- What a user expects: different states have different codes, if those given are different. -/
def DistinctClaim : Prop :=
  ∀ l : List (Item Nat), (l.map Item.id).Nodup → (l.filterMap Item.given).Nodup → ((defs l).map (·.2)).Nodup

/-- What a user expects: any list of different names can be declared, and so can a single state. -/
def AnyClaim : Prop :=
  ∀ (kw : Nat → Bool) (lg : Nat → Nat) (s : St Nat) (sc : Option Nat) (name : Nat) (l : List Nat),
    ExactTo lg (2 ^ 32) → l.length < 2 ^ 32 → l ≠ [] → l.Nodup → Free kw s sc name l →
    ∃ s', declare kw lg s sc name (.list (l.map .name)) none = .ok s'

/-! ## Theorems -/

theorem dset_fresh {d : List (N × Int)} {n : N} (h : n ∉ d.map (·.1)) (v : Int) : dset d n v = d ++ [(n, v)] := by
  have : d.any (fun p => p.1 = n) = false := by
    rw [List.any_eq_false]
    intro p hp hpn
    exact h (by simp at hpn; rw [← hpn]; exact List.mem_map_of_mem hp)
  simp [dset, this]

/-- The code of a state of a list: its own, or its place. -/
def codes (k : Nat) : List (Item N) → List (N × Int)
  | [] => []
  | .name n :: l => (n, (k : Int)) :: codes (k + 1) l
  | .pair n v :: l => (n, v) :: codes (k + 1) l

theorem fold_codes (l : List (Item N)) : ∀ d : List (N × Int), (d.map (·.1) ++ l.map Item.id).Nodup →
    l.foldl add d = d ++ codes d.length l := by
  induction l with
  | nil => intro d _; simp [codes]
  | cons x l ih =>
    intro d h
    have hx : x.id ∉ d.map (·.1) := by
      rw [List.nodup_append] at h
      exact fun hm => h.2.2 _ hm _ (by simp) rfl
    have h' : ∀ v, ((d ++ [(x.id, v)]).map (fun p : N × Int => p.1) ++ l.map Item.id).Nodup := by
      intro v
      simpa using h
    cases x with
    | name n =>
      simp only [List.foldl_cons, add]
      rw [dset_fresh (n := n) hx]
      refine (ih _ (h' _)).trans ?_
      simp [codes, Item.id]
    | pair n v =>
      simp only [List.foldl_cons, add]
      rw [dset_fresh (n := n) hx]
      refine (ih _ (h' _)).trans ?_
      simp [codes, Item.id]

omit [DecidableEq N] in
theorem mem_codes {l : List (Item N)} {n : N} {c : Int} : ∀ {k : Nat}, (n, c) ∈ codes k l ↔
    ∃ i, (l[i]? = some (.name n) ∧ c = ((k + i : Nat) : Int)) ∨ l[i]? = some (.pair n c) := by
  induction l with
  | nil => intro k; simp [codes]
  | cons x l ih =>
    intro k
    cases x with
    | name m =>
      simp only [codes, List.mem_cons, Prod.mk.injEq, ih]
      constructor
      · rintro (⟨rfl, rfl⟩ | ⟨i, hi⟩)
        · exact ⟨0, .inl ⟨rfl, rfl⟩⟩
        · refine ⟨i + 1, ?_⟩
          simpa [Nat.add_assoc, Nat.add_comm 1 i] using hi
      · rintro ⟨i, hi⟩
        cases i with
        | zero => simp at hi; exact .inl ⟨hi.1.symm, hi.2⟩
        | succ i => exact .inr ⟨i, by simpa [Nat.add_assoc, Nat.add_comm 1 i] using hi⟩
    | pair m v =>
      simp only [codes, List.mem_cons, Prod.mk.injEq, ih]
      constructor
      · rintro (⟨rfl, rfl⟩ | ⟨i, hi⟩)
        · exact ⟨0, .inr rfl⟩
        · refine ⟨i + 1, ?_⟩
          simpa [Nat.add_assoc, Nat.add_comm 1 i] using hi
      · rintro ⟨i, hi⟩
        cases i with
        | zero => simp at hi; exact .inl ⟨hi.1.symm, hi.2.symm⟩
        | succ i => exact .inr ⟨i, by simpa [Nat.add_assoc, Nat.add_comm 1 i] using hi⟩

/-- **In a list of different names, a state has the code given with it, or else its place in the list.** -/
theorem codes_exact {l : List (Item N)} (h : (l.map Item.id).Nodup) (n : N) (c : Int) :
    (n, c) ∈ defs l ↔ ∃ i : Nat, (l[i]? = some (.name n) ∧ c = i) ∨ l[i]? = some (.pair n c) := by
  have := fold_codes l [] (by simpa using h)
  simp only [List.nil_append, List.length_nil] at this
  rw [defs, this, mem_codes]
  simp

omit [DecidableEq N] in
theorem maxValue_spec {d : List (N × Int)} {m : Int} (h : maxValue d = .ok m) :
    (∃ p ∈ d, p.2 = m) ∧ ∀ p ∈ d, p.2 ≤ m := by
  cases d with
  | nil => cases h
  | cons p d =>
    simp only [maxValue, Res.ok.injEq] at h
    have hk : ∀ (d : List (N × Int)) (a : Int),
        (a = d.foldl (fun a q => if a < q.2 then q.2 else a) a ∨ ∃ q ∈ d, q.2 = d.foldl (fun a q => if a < q.2 then q.2 else a) a) ∧
        a ≤ d.foldl (fun a q => if a < q.2 then q.2 else a) a ∧
        ∀ q ∈ d, q.2 ≤ d.foldl (fun a q => if a < q.2 then q.2 else a) a := by
      intro d
      induction d with
      | nil => intro a; simp
      | cons q d ih =>
        intro a
        simp only [List.foldl_cons]
        by_cases hq : a < q.2
        · rw [if_pos hq]
          obtain ⟨h1, h2, h3⟩ := ih q.2
          refine ⟨.inr ?_, by omega, ?_⟩
          · rcases h1 with h1 | ⟨r, hr, h1⟩
            · exact ⟨q, by simp, h1⟩
            · exact ⟨r, by simp [hr], h1⟩
          · intro r hr
            rcases List.mem_cons.1 hr with rfl | hr
            · exact h2
            · exact h3 r hr
        · rw [if_neg hq]
          obtain ⟨h1, h2, h3⟩ := ih a
          refine ⟨?_, h2, ?_⟩
          · rcases h1 with h1 | ⟨r, hr, h1⟩
            · exact .inl h1
            · exact .inr ⟨r, by simp [hr], h1⟩
          · intro r hr
            rcases List.mem_cons.1 hr with rfl | hr
            · omega
            · exact h3 r hr
    obtain ⟨h1, h2, h3⟩ := hk d p.2
    rw [h] at h1 h2 h3
    refine ⟨?_, ?_⟩
    · rcases h1 with h1 | ⟨q, hq, h1⟩
      · exact ⟨p, by simp, h1⟩
      · exact ⟨q, by simp [hq], h1⟩
    · intro q hq
      rcases List.mem_cons.1 hq with rfl | hq
      · exact h2
      · exact h3 q hq

omit [DecidableEq N] in
theorem maxValue_total {d : List (N × Int)} (h : d ≠ []) : ∃ m, maxValue d = .ok m := by
  cases d with
  | nil => exact absurd rfl h
  | cons p d => exact ⟨_, rfl⟩

omit [DecidableEq N] in
theorem convert_ok {d : List (N × Int)} {ms : List (N × U64)} : convert d = .ok ms ↔
    (∀ p ∈ d, 0 ≤ p.2 ∧ p.2 < 2 ^ 64) ∧ ms = d.map fun p => (p.1, BitVec.ofInt 64 p.2) := by
  unfold convert
  by_cases h : d.all (fun p => 0 ≤ p.2 ∧ p.2 < 2 ^ 64) = true
  · rw [if_pos h]
    simp only [List.all_eq_true, decide_eq_true_eq] at h
    simp only [Res.ok.injEq]
    exact ⟨fun e => ⟨h, e.symm⟩, fun e => e.2.symm⟩
  · rw [if_neg h]
    simp only [List.all_eq_true, decide_eq_true_eq] at h
    simp only [reduceCtorEq, false_iff, not_and]
    exact fun h' => absurd h' h

theorem ofInt_toNat {v : Int} (h : 0 ≤ v ∧ v < 2 ^ 64) : ((BitVec.ofInt 64 v).toNat : Int) = v := by
  rw [BitVec.toNat_ofInt]
  have : v % ((2 ^ 64 : Nat) : Int) = v := Int.emod_eq_of_lt h.1 (by exact_mod_cast h.2)
  rw [this]
  omega

theorem step_ok {kw : N → Bool} {s s' : St N} {sc : Option Nat} {name : N} {ms : List (N × U64)} {w : Nat}
    (h : step kw s (.enum sc name ms w) = .ok s') :
    ∃ e, Enm.make kw name ms w = .ok e ∧ s' = { s with enums := s.enums ++ [(sc, e)] } := by
  cases sc with
  | none =>
    simp only [step] at h
    split at h
    · cases h
    · rw [Res.bind_eq_ok] at h
      obtain ⟨e, he, h⟩ := h
      exact ⟨e, he, by cases h; rfl⟩
  | some g =>
    simp only [step] at h
    rw [Res.bind_eq_ok] at h
    obtain ⟨e, he, h⟩ := h
    split at h
    · cases h
    · exact ⟨e, he, by cases h; rfl⟩

/-- **An accepted declaration has the members of its definition, with their codes, and the width asked
for.** -/
theorem declare_exact {kw : N → Bool} {lg : Nat → Nat} {s s' : St N} {sc : Option Nat} {name : N} {a : Arg N}
    {width : Option Nat} (h : declare kw lg s sc name a width = .ok s') :
    (∀ p ∈ a.dict', 0 ≤ p.2 ∧ p.2 < 2 ^ 64) ∧
    ∃ w, Declared s s' sc name w (fun n c => (n, (c : Int)) ∈ a.dict') ∧ (∀ x, width = some x → w = x) ∧
      (width = none → ∃ m, maxValue a.dict' = .ok m ∧ clog2 lg (m + 1) = .ok w) ∧
      (∀ p ∈ a.dict', p.2 < 2 ^ w ∧ 1 ≤ w) := by
  unfold declare at h
  rw [Res.bind_eq_ok] at h
  obtain ⟨w, hw, h⟩ := h
  rw [Res.bind_eq_ok] at h
  obtain ⟨ms, hms, h⟩ := h
  rw [convert_ok] at hms
  obtain ⟨hr, rfl⟩ := hms
  obtain ⟨e, he, rfl⟩ := step_ok h
  obtain ⟨h1, h2⟩ := Enm.make_spec he
  simp only [EnumDef.shape, Prod.mk.injEq] at h1
  obtain ⟨hn, hwd, hm⟩ := h1
  have hmem : ∀ n v, (n, v) ∈ a.dict'.map (fun p => (p.1, BitVec.ofInt 64 p.2)) ↔ ∃ m ∈ e.members, m.1 = n ∧ m.2.value = v := by
    intro n v
    rw [← hm]
    simp
  refine ⟨hr, w, ⟨e, rfl, rfl, hn, hwd, ?_⟩, ?_, ?_, ?_⟩
  · intro n c
    constructor
    · intro hc
      obtain ⟨m, hm1, hm2, hm3⟩ := (hmem n (BitVec.ofInt 64 c)).1 (List.mem_map.2 ⟨_, hc, rfl⟩)
      refine ⟨m, hm1, hm2, ?_⟩
      rw [hm3]
      have := ofInt_toNat (v := c) (hr _ hc)
      exact_mod_cast this
    · rintro ⟨m, hm1, hm2, hm3⟩
      obtain ⟨p, hp, hpe⟩ := List.mem_map.1 ((hmem n m.2.value).2 ⟨m, hm1, hm2, rfl⟩)
      simp only [Prod.mk.injEq] at hpe
      have := ofInt_toNat (hr p hp)
      rw [hpe.2, hm3] at this
      rw [this, ← hpe.1]
      exact hp
  · rintro x rfl
    simp [widthOf] at hw
    exact hw.symm
  · rintro rfl
    rw [widthOf, Res.bind_eq_ok] at hw
    exact hw
  · intro p hp
    obtain ⟨m, hm1, hm2, hm3⟩ := (hmem p.1 (BitVec.ofInt 64 p.2)).1 (List.mem_map.2 ⟨_, hp, rfl⟩)
    obtain ⟨_, _, h3, _, h5⟩ := h2 m hm1
    rw [hm3] at h5
    have := ofInt_toNat (hr p hp)
    refine ⟨?_, h3⟩
    rw [← this]
    exact_mod_cast h5

/-- **Without a width, the width is the least that holds every code.** -/
theorem width_least {kw : N → Bool} {lg : Nat → Nat} {s s' : St N} {sc : Option Nat} {name : N} {a : Arg N} {b : Nat}
    (hl : ExactTo lg b) (hb : ∀ p ∈ a.dict', p.2 < b) (h : declare kw lg s sc name a none = .ok s') :
    ∃ w, Declared s s' sc name w (fun n c => (n, (c : Int)) ∈ a.dict') ∧ (∀ p ∈ a.dict', p.2 < 2 ^ w) ∧
      ∀ k : Nat, (∀ p ∈ a.dict', p.2 < 2 ^ k) → w ≤ k := by
  obtain ⟨hr, w, hd, -, h0, hf⟩ := declare_exact h
  obtain ⟨m, hm, hc⟩ := h0 rfl
  obtain ⟨⟨p, hp, hpm⟩, hle⟩ := maxValue_spec hm
  refine ⟨w, hd, fun p hp => (hf p hp).1, ?_⟩
  intro k hk
  have hm0 : 0 ≤ m := by rw [← hpm]; exact (hr p hp).1
  have hmb : m < b := by rw [← hpm]; exact hb p hp
  have hmk : m < 2 ^ k := by rw [← hpm]; exact hk p hp
  unfold clog2 at hc
  rw [if_neg (by omega), if_neg (by omega)] at hc
  simp only [Res.ok.injEq] at hc
  rw [← hc]
  refine (hl (m + 1).toNat (by omega) (by omega)).2 k ?_
  have : ((m + 1).toNat : Int) ≤ ((2 ^ k : Nat) : Int) := by
    rw [Int.toNat_of_nonneg (by omega)]
    push_cast
    omega
  exact_mod_cast this

/-- **A list of two or more different names can be declared; the states have the codes 0, 1, 2, … in this
order and the width is the least that holds them.** -/
theorem names_partial {kw : N → Bool} {lg : Nat → Nat} {s : St N} {sc : Option Nat} {name : N} {l : List N}
    (hl : ExactTo lg (2 ^ 32)) (h2 : 2 ≤ l.length) (hm : l.length < 2 ^ 32) (hd : l.Nodup) (hf : Free kw s sc name l) :
    ∃ s' w, declare kw lg s sc name (.list (l.map .name)) none = .ok s' ∧
      Declared s s' sc name w (fun n c => l[c]? = some n) ∧ l.length ≤ 2 ^ w ∧ ∀ k, l.length ≤ 2 ^ k → w ≤ k := by
  have hid : (l.map (Item.name (N := N))).map Item.id = l := by
    rw [List.map_map]
    have : (Item.id ∘ Item.name (N := N)) = id := rfl
    rw [this, List.map_id]
  have hcode : ∀ n c, (n, c) ∈ defs (l.map .name) ↔ ∃ i : Nat, l[i]? = some n ∧ c = i := by
    intro n c
    rw [codes_exact (by rw [hid]; exact hd)]
    simp
  have hne : defs (l.map .name) ≠ [] := by
    intro h0
    have : (l[0]'(by omega), (0 : Int)) ∈ defs (l.map .name) := (hcode _ _).2 ⟨0, by simp, rfl⟩
    rw [h0] at this
    simp at this
  have hrange : ∀ p ∈ defs (l.map .name), 0 ≤ p.2 ∧ p.2 < l.length := by
    intro p hp
    obtain ⟨i, hi, hp2⟩ := (hcode p.1 p.2).1 hp
    obtain ⟨hi, _⟩ := List.getElem?_eq_some_iff.1 hi
    rw [hp2]
    omega
  obtain ⟨m, hmv⟩ := maxValue_total hne
  obtain ⟨⟨p, hp, hpm⟩, hle⟩ := maxValue_spec hmv
  have hmax : m + 1 = l.length := by
    have h1 := (hrange p hp).2
    have h2 := hle _ ((hcode (l[l.length - 1]'(by omega)) ((l.length - 1 : Nat) : Int)).2 ⟨l.length - 1, by simp, rfl⟩)
    simp only at h2
    omega
  have hlg : clog2 lg (m + 1) = .ok (lg l.length) := by
    unfold clog2
    rw [if_neg (by omega), if_neg (by omega), hmax]
    rfl
  obtain ⟨hL, hK⟩ := hl l.length (by omega) (by omega)
  have hw1 : 1 ≤ lg l.length := by
    rcases Nat.eq_zero_or_pos (lg l.length) with h0 | h0
    · rw [h0] at hL
      omega
    · exact h0
  have hw2 : lg l.length ≤ 32 := hK 32 (by omega)
  have hconv : convert (defs (l.map .name)) = .ok ((defs (l.map .name)).map fun p => (p.1, BitVec.ofInt 64 p.2)) := by
    rw [convert_ok]
    refine ⟨fun p hp => ?_, rfl⟩
    have := hrange p hp
    omega
  obtain ⟨s', hs'⟩ := (Enm.enum_ok_iff (kw := kw) (s := s) (sc := sc) (name := name)
    (ms := (defs (l.map .name)).map fun p => (p.1, BitVec.ofInt 64 p.2)) hw1 (by omega)).2 (by
      refine ⟨hf.1, hf.2.1, ?_, ?_⟩
      · intro e he x hx q hq hxq
        obtain ⟨p, hp, rfl⟩ := List.mem_map.1 hq
        obtain ⟨i, hi, _⟩ := (hcode p.1 p.2).1 hp
        exact hf.2.2 e he x hx (by rw [hxq]; exact List.mem_of_getElem? hi)
      · intro q hq
        obtain ⟨p, hp, rfl⟩ := List.mem_map.1 hq
        have h1 := hrange p hp
        have h3 := ofInt_toNat (v := p.2) ⟨h1.1, by omega⟩
        have : (BitVec.ofInt 64 p.2).toNat < l.length := by
          have : ((BitVec.ofInt 64 p.2).toNat : Int) < l.length := by rw [h3]; exact h1.2
          exact_mod_cast this
        exact Nat.lt_of_lt_of_le this hL)
  have hdec : declare kw lg s sc name (.list (l.map .name)) none = .ok s' := by
    simp only [declare, widthOf, Arg.dict', hmv, hlg, hconv, Res.ok_bind, hs']
  obtain ⟨_, w, hD, -, hw, -⟩ := declare_exact hdec
  obtain ⟨m', hm', hc'⟩ := hw rfl
  have : w = lg l.length := by
    have e1 : maxValue (defs (l.map .name)) = .ok m' := hm'
    rw [hmv] at e1
    cases e1
    rw [hlg] at hc'
    cases hc'
    rfl
  subst this
  refine ⟨s', _, hdec, ?_, hL, hK⟩
  obtain ⟨e, e1, e2, e3, e4, e5⟩ := hD
  refine ⟨e, e1, e2, e3, e4, ?_⟩
  intro n c
  rw [← e5]
  show _ ↔ (n, (c : Int)) ∈ defs (l.map .name)
  rw [hcode]
  constructor
  · intro h
    exact ⟨c, h, rfl⟩
  · rintro ⟨i, hi, hc⟩
    have : c = i := by exact_mod_cast hc
    rw [this]
    exact hi

/-- **If the only code is 0, the declaration without a width is refused.** -/
theorem zero_refused {kw : N → Bool} {lg : Nat → Nat} {s : St N} {sc : Option Nat} {name : N} {a : Arg N}
    (hl : ExactTo lg 1) (h0 : ∀ p ∈ a.dict', p.2 = 0) (s' : St N) :
    declare kw lg s sc name a none ≠ .ok s' := by
  intro h
  obtain ⟨_, w, _, -, hw, hf⟩ := declare_exact h
  obtain ⟨m, hm, hc⟩ := hw rfl
  obtain ⟨⟨p, hp, hpm⟩, _⟩ := maxValue_spec hm
  have hm0 : m = 0 := by rw [← hpm]; exact h0 p hp
  subst hm0
  have h1 := (hl 1 (by omega) (by omega)).2 0 (by decide)
  unfold clog2 at hc
  rw [if_neg (by decide), if_neg (by decide)] at hc
  have hc' : lg 1 = w := by simpa using hc
  have := (hf p hp).2
  omega

/-- If the logarithm is rounded down, the declaration without a width is refused. -/
theorem rounding_refused {kw : N → Bool} {lg : Nat → Nat} {s : St N} {sc : Option Nat} {name : N} {a : Arg N} {m : Nat}
    (hm : maxValue a.dict' = .ok (m : Int)) (hr : 2 ^ lg (m + 1) < m + 1) (s' : St N) :
    declare kw lg s sc name a none ≠ .ok s' := by
  intro h
  obtain ⟨_, w, _, -, hw, hf⟩ := declare_exact h
  obtain ⟨m', hm', hc⟩ := hw rfl
  rw [hm] at hm'
  cases hm'
  obtain ⟨⟨p, hp, hpm⟩, _⟩ := maxValue_spec hm
  unfold clog2 at hc
  rw [if_neg (by omega), if_neg (by omega)] at hc
  have hc' : lg (m + 1) = w := by
    have e : ((m : Int) + 1).toNat = m + 1 := by omega
    rw [e] at hc
    simpa using hc
  have h1 := (hf p hp).1
  rw [hpm, ← hc'] at h1
  have h2 : ((m : Nat) : Int) < ((2 ^ lg (m + 1) : Nat) : Int) := by push_cast; exact h1
  have h3 : m < 2 ^ lg (m + 1) := by exact_mod_cast h2
  omega

/-! ## Examples and counterexamples -/

/-- A logarithm, rounded up. -/
def lgOf (x : Nat) : Nat := if x ≤ 1 then 0 else Nat.log2 (x - 1) + 1

theorem lgOf_exact (b : Nat) : ExactTo lgOf b := by
  intro x h1 _
  unfold lgOf
  by_cases h : x ≤ 1
  · rw [if_pos h]
    exact ⟨by omega, fun k _ => Nat.zero_le k⟩
  · rw [if_neg h]
    refine ⟨?_, ?_⟩
    · have : x - 1 < 2 ^ ((x - 1).log2 + 1) := Nat.lt_log2_self
      omega
    · intro k hk
      have h3 : x - 1 < 2 ^ k := by omega
      have := (Nat.log2_lt (by omega)).2 h3
      omega

theorem free_empty (name : Nat) (ns : List Nat) : Free (fun _ => false) Enm.init none name ns :=
  ⟨rfl, by intro e he; simp [Enm.init] at he, by intro e he; simp [Enm.init] at he⟩

/-- `enum("E", ["A", "B", "C"])` -/
example : ∃ s' w, declare (fun _ => false) lgOf Enm.init none 1 (.list ([10, 11, 12].map .name)) none = .ok s' ∧
    Declared Enm.init s' none 1 w (fun n c => [10, 11, 12][c]? = some n) ∧ 3 ≤ 2 ^ w ∧ ∀ k, 3 ≤ 2 ^ k → w ≤ k :=
  names_partial (l := [10, 11, 12]) (lgOf_exact _) (by decide) (by decide) (by decide) (free_empty _ _)

/-- `enum("E", {"A": 1, "B": 5})` has three bits -/
example : (declare (fun _ => false) lgOf Enm.init none 1 (.dict [(10, 1), (11, 5)]) none).bind
    (fun s => .ok (s.enums.map (fun e => (e.2.width, e.2.members.map fun m => (m.1, m.2.value.toNat))))) =
    .ok [(3, [(10, 1), (11, 5)])] := by decide +kernel

/-- `["A", ("B", 5)]` -/
example : ∀ n c, (n, c) ∈ defs [.name 10, .pair 11 5] ↔ ∃ i : Nat, ([Item.name 10, .pair 11 5][i]? = some (.name n) ∧ c = i) ∨
    [Item.name 10, .pair 11 5][i]? = some (.pair n c) := codes_exact (by decide)

/-- `[("A", 1), "B"]`: both states have the code 1. -/
theorem mixed_wrong : defs [.pair 10 1, .name 11] = [(10, (1 : Int)), (11, 1)] := by decide +kernel

/-- `["A", "A", "B"]`: both states have the code 1. -/
theorem repeat_wrong : defs [.name 10, .name 10, .name 11] = [(10, (1 : Int)), (11, 1)] := by decide +kernel

theorem not_DistinctClaim : ¬ DistinctClaim := by
  intro h
  have := h [.pair 10 1, .name 11] (by decide) (by decide)
  rw [mixed_wrong] at this
  revert this
  decide

/-- `enum("E", ["A"])` -/
theorem not_AnyClaim : ¬ AnyClaim := by
  intro h
  obtain ⟨s', hs⟩ := h (fun _ => false) lgOf Enm.init none 1 [10] (lgOf_exact _) (by decide) (by decide) (by decide) (free_empty _ _)
  refine zero_refused (lgOf_exact 1) ?_ s' hs
  · have : Arg.dict' (.list ([10].map Item.name)) = [(10, (0 : Int))] := by decide +kernel
    rw [this]
    simp

end Kratos.EnumHelper
