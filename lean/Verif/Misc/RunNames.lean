import Verif.Base
import Verif.Text.Tokens
import Verif.Text.Digits
import Verif.Slice.Props

/-!
# C120: names in recorded simulation values

Model of how fault analysis finds the variable of a recorded value (src/fault.cc:18-39, 48-90).

Generators are numbers; of a generator only its children and variables are modelled, of a variable its shape (`Verif/Slice/Model.lean`, C08)
and whether it is packed.  What `Simulator::set` does with the value is C40.
-/

namespace Kratos.RunNames
open Kratos.Text

/-! ## Model -/

/-- A variable. -/
structure Decl where
  root : Slice.Root
  packed : Bool
  deriving DecidableEq, Repr

/-- A generator: both maps have each name once. -/
structure Gen where
  kids : List (Str × Nat) := []
  vars : List (Str × Decl) := []
  deriving DecidableEq, Repr

/-- A map's `find`. -/
def get {α : Type} (m : List (Str × α)) (n : Str) : Option α := (m.find? fun e => e.1 = n).map (·.2)

/-- The blanks `std::stoi` skips. -/
def blank (c : Char) : Bool := c == ' ' || c == '\t' || c == '\n' || c == '\x0b' || c == '\x0c' || c == '\r'

/-- The digits of `std::stoi`; the result has to fit an `int`. -/
def stoiDigits (neg : Bool) (t : Str) : Res Int :=
  match readNat 10 (takeDigits 10 t).1 with
  | none => .throw .invalidArg
  | some n =>
    let v : Int := if neg then - (n : Int) else n
    if -2147483648 ≤ v ∧ v < 2147483648 then .ok v else .throw .outOfRange

/-- `std::stoi`: blanks, a sign, digits; what follows is ignored. -/
def stoi (t : Str) : Res Int :=
  match t.dropWhile blank with
  | '-' :: r => stoiDigits true r
  | '+' :: r => stoiDigits false r
  | r => stoiDigits false r

/-- `select_gen` (src/fault.cc:48-60) behind the first token: the generator and the tokens that are left. -/
def descend (w : Nat → Gen) : Nat → List Str → Nat × List Str
  | g, [] => (g, [])
  | g, t :: ts =>
    match get (w g).kids t with
    | none => (g, t :: ts)
    | some h => descend w h ts

/-- The loop over the indices, src/fault.cc:78-88. -/
def indices (r : Slice.Root) : Slice.Info → List Str → Res (Option Slice.Info)
  | i, [] => .ok (some i)
  | i, t :: ts =>
    match stoi t with
    | .throw .invalidArg => .ok none
    | .throw e => .throw e
    | .ub => .ub
    | .ok v => if v < 0 then .throw .user else (Slice.select r i v.toNat v.toNat).bind fun j => indices r j ts

/-- What was found: a generator, the name of one of its variables, and a part of it. -/
structure Sel where
  gen : Nat
  var : Str
  part : Slice.Info
  deriving DecidableEq, Repr

/-- `SimulationRun::select` (src/fault.cc:62-90); the first token of an empty list is undefined behaviour. -/
def select (w : Nat → Gen) (top : Nat) (topInst : Str) (name : Str) : Res (Option Sel) :=
  match getTokens name ['.'] with
  | [] => .ub
  | t :: ts =>
    if t ≠ topInst then .ok none
    else
      match descend w top ts with
      | (_, []) => .ok none
      | (g, v :: is) =>
        match get (w g).vars v with
        | none => .ok none
        | some d =>
          if d.packed ∧ (1 < d.root.size.length ∨ 1 < d.root.size.headD 0) then .throw .user
          else (indices d.root (Slice.rootInfo d.root) is).bind fun r => .ok (r.map fun i => ⟨g, v, i⟩)

/-- `add_simulation_state` (src/fault.cc:18-31): where the values go, in the order of the names. -/
def addState (w : Nat → Gen) (top : Nat) (topInst : Str) : List (Str × Int) → Res (List (Sel × Int))
  | [] => .ok []
  | (n, v) :: rest =>
    (select w top topInst n).bind fun
      | none => .throw .user
      | some s => (addState w top topInst rest).bind fun l => .ok ((s, v) :: l)

/-- `mark_wrong_value` (src/fault.cc:33-39) with a number of recorded states: the variable that is marked. -/
def mark (w : Nat → Gen) (top : Nat) (topInst : Str) (states : Nat) (name : Str) : Res (Nat × Str) :=
  if states = 0 then .throw .user
  else (select w top topInst name).bind fun
    | none => .ub
    | some s => .ok (s.gen, s.var)

/-! ## Specification -/

/-- The instance found by following instance names. -/
inductive Path (w : Nat → Gen) : Nat → List Str → Nat → Prop where
  | here {g : Nat} : Path w g [] g
  | step {g h k : Nat} {n : Str} {l : List Str} : (n, h) ∈ (w g).kids → Path w h l k → Path w g (n :: l) k

/-- A name. -/
def Plain (n : Str) : Prop := n ≠ [] ∧ '.' ∉ n

/-- Maps have each name once. -/
def Unique (w : Nat → Gen) : Prop := ∀ g, ((w g).kids.map (·.1)).Nodup ∧ ((w g).vars.map (·.1)).Nodup

/-- The hierarchical name of an element: the instances, the variable, the indices. -/
def fullName (topInst : Str) (insts : List Str) (v : Str) (is : List Nat) : Str := join ['.'] (topInst :: insts ++ v :: is.map (printNat 10))

/-- The name denotes these bits of the variable `v` of the generator `g`. -/
structure Denotes (w : Nat → Gen) (top : Nat) (topInst name : Str) (g : Nat) (v : Str) (d : Decl) (bits : Slice.Region) : Prop where
  ex : ∃ insts is, name = fullName topInst insts v is ∧ (∀ n ∈ topInst :: insts ++ [v], Plain n) ∧ Path w top insts g ∧
    (∀ i ∈ is, i < 2147483648) ∧ d.root.region.sels (is.map fun i => (i, i)) = some bits
  var : (v, d) ∈ (w g).vars
  ok : d.root.Ok

/-- The selection is these bits. -/
def Is (s : Sel) (g : Nat) (v : Str) (bits : Slice.Region) : Prop :=
  s.gen = g ∧ s.var = v ∧ s.part.low = bits.off ∧ s.part.high = bits.off + bits.width - 1 ∧ Slice.width s.part = bits.width

/-- A piece read as an index: blanks, a sign (`-` only for zero), decimal digits, and anything that does not begin with a digit. -/
def Index (t : Str) (n : Nat) : Prop :=
  ∃ bl sg ds rest, t = bl ++ sg ++ ds ++ rest ∧ (∀ c ∈ bl, c ∈ [' ', '\t', '\n', '\x0b', '\x0c', '\r']) ∧ (sg = [] ∨ sg = ['+'] ∨ sg = ['-'] ∧ n = 0) ∧
    readNat 10 ds = some n ∧ ∀ c ∈ rest.head?, digitVal 10 c = none

/-- The pieces read as indices. -/
def Indices : List Str → List Nat → Prop
  | [], [] => True
  | t :: ts, n :: ns => Index t n ∧ Indices ts ns
  | _, _ => False

/-- C120 in full: every hierarchical name finds what it denotes. -/
def NameClaim : Prop :=
  ∀ (w : Nat → Gen) (top : Nat) (topInst name : Str) (g : Nat) (v : Str) (d : Decl) (bits : Slice.Region), Unique w →
    Denotes w top topInst name g v d bits → ∃ s, select w top topInst name = .ok (some s) ∧ Is s g v bits

/-- Names that denote nothing are refused by an error. -/
def RefuseClaim : Prop :=
  ∀ (w : Nat → Gen) (top : Nat) (topInst name : Str), Unique w → select w top topInst name = .ok none → ∃ e, mark w top topInst 1 name = .throw e

/-! ## Proof -/

theorem get_mem {α : Type} {m : List (Str × α)} {n : Str} {a : α} (h : get m n = some a) : (n, a) ∈ m := by
  unfold get at h
  cases hf : m.find? fun e => e.1 = n with
  | none => rw [hf] at h; cases h
  | some e =>
    rw [hf] at h
    have h1 := List.find?_some hf
    have h2 := List.mem_of_find?_eq_some hf
    have h3 : e.2 = a := by simpa using h
    have h4 : e.1 = n := by simpa using h1
    rw [← h3, ← h4]
    exact h2

theorem get_of_mem {α : Type} {n : Str} {a : α} : ∀ {m : List (Str × α)}, (m.map (·.1)).Nodup → (n, a) ∈ m → get m n = some a
  | e :: m, hn, hm => by
    obtain ⟨h1, h2⟩ := List.nodup_cons.1 hn
    unfold get
    rw [List.find?_cons]
    rcases List.mem_cons.1 hm with rfl | hm
    · simp
    · have hne : e.1 ≠ n := by
        intro h
        subst h
        exact h1 (List.mem_map.2 ⟨_, hm, rfl⟩)
      simp only [hne, decide_false]
      exact get_of_mem h2 hm

theorem get_none {α : Type} {m : List (Str × α)} {n : Str} (h : n ∉ m.map (·.1)) : get m n = none := by
  unfold get
  have : m.find? (fun e => decide (e.1 = n)) = none := by
    rw [List.find?_eq_none]
    intro e he hd
    exact h (List.mem_map.2 ⟨e, he, of_decide_eq_true hd⟩)
  rw [this]
  rfl

theorem descend_path {w : Nat → Gen} (hw : Unique w) {g h : Nat} {insts : List Str} (hp : Path w g insts h) {v : Str} {is : List Str}
    (hv : v ∉ (w h).kids.map (·.1)) : descend w g (insts ++ v :: is) = (h, v :: is) := by
  induction hp with
  | here =>
    show (match get (w _).kids v with | none => _ | some h => _) = _
    rw [get_none hv]
  | step hm _ ih =>
    show (match get (w _).kids _ with | none => _ | some h => _) = _
    rw [get_of_mem (hw _).1 hm]
    exact ih hv

theorem descend_sound (w : Nat → Gen) : ∀ (ts : List Str) (g h : Nat) (rest : List Str), descend w g ts = (h, rest) →
    ∃ insts, ts = insts ++ rest ∧ Path w g insts h ∧ ∀ v is, rest = v :: is → v ∉ (w h).kids.map (·.1)
  | [], g, h, rest, he => by
    cases he
    exact ⟨[], rfl, .here, fun _ _ h => (nomatch h)⟩
  | t :: ts, g, h, rest, he => by
    simp only [descend] at he
    cases hg : get (w g).kids t with
    | none =>
      rw [hg] at he
      cases he
      refine ⟨[], rfl, .here, fun v is h hm => ?_⟩
      cases h
      obtain ⟨e, he, hee⟩ := List.mem_map.1 hm
      unfold get at hg
      have := List.find?_eq_none.1 (Option.map_eq_none_iff.1 hg) e he
      simp [hee] at this
    | some k =>
      rw [hg] at he
      obtain ⟨insts, h1, h2, h3⟩ := descend_sound w ts k h rest he
      exact ⟨t :: insts, by rw [h1]; rfl, .step (get_mem hg) h2, h3⟩

theorem digit_plain {c : Char} (h : (digitVal 10 c).isSome) : c ≠ '.' ∧ c ≠ '-' ∧ c ≠ '+' ∧ blank c = false := by
  have key : c ≠ '.' ∧ c ≠ '-' ∧ c ≠ '+' ∧ c ≠ ' ' ∧ c ≠ '\t' ∧ c ≠ '\n' ∧ c ≠ '\x0b' ∧ c ≠ '\x0c' ∧ c ≠ '\r' := by
    refine ⟨?_, ?_, ?_, ?_, ?_, ?_, ?_, ?_, ?_⟩ <;> (rintro rfl; revert h; decide)
  obtain ⟨h1, h2, h3, h4, h5, h6, h7, h8, h9⟩ := key
  refine ⟨h1, h2, h3, ?_⟩
  simp [blank, h4, h5, h6, h7, h8, h9]

theorem stoi_print {n : Nat} (h : n < 2147483648) : stoi (printNat 10 n) = .ok n := by
  have hd := printNat_digits (b := 10) (Or.inl rfl) n
  have h1 : takeDigits 10 (printNat 10 n) = (printNat 10 n, []) := by
    have := takeDigits_append 10 (printNat 10 n) [] hd (by simp)
    simpa using this
  have hdig : stoiDigits false (printNat 10 n) = .ok n := by
    unfold stoiDigits
    rw [h1, readNat_printNat (Or.inl rfl) n]
    simp only [Bool.false_eq_true, if_false]
    rw [if_pos ⟨by omega, by omega⟩]
  have hne := printNat_ne_nil 10 n
  cases hp : printNat 10 n with
  | nil => exact absurd hp hne
  | cons c cs =>
    rw [hp] at hd hdig
    obtain ⟨_, h2, h3, h4⟩ := digit_plain (hd c List.mem_cons_self)
    unfold stoi
    have : (c :: cs).dropWhile blank = c :: cs := by
      rw [List.dropWhile_cons, h4]
      rfl
    rw [this]
    split
    · rename_i h; exact absurd (List.cons.inj h).1 h2
    · rename_i h; exact absurd (List.cons.inj h).1 h3
    · exact hdig

theorem indices_selects (r : Slice.Root) : ∀ (is : List Nat) (i : Slice.Info), (∀ n ∈ is, n < 2147483648) →
    indices r i (is.map (printNat 10)) = (Slice.selects r i (is.map fun n => (n, n))).bind fun j => .ok (some j)
  | [], i, _ => rfl
  | n :: is, i, h => by
    rw [List.map_cons, List.map_cons]
    simp only [indices, Slice.selects]
    rw [stoi_print (h n List.mem_cons_self)]
    simp only
    rw [if_neg (by omega)]
    rw [Int.toNat_natCast]
    cases Slice.select r i n n with
    | ok j =>
      simp only [Res.ok_bind]
      exact indices_selects r is j fun m hm => h m (List.mem_cons_of_mem _ hm)
    | throw e => rfl
    | ub => rfl

theorem takeDigits_spec : ∀ t : Str, t = (takeDigits 10 t).1 ++ (takeDigits 10 t).2 ∧ ∀ c ∈ (takeDigits 10 t).2.head?, digitVal 10 c = none
  | [] => ⟨rfl, fun _ h => (nomatch h)⟩
  | c :: cs => by
    obtain ⟨h1, h2⟩ := takeDigits_spec cs
    unfold takeDigits
    by_cases h : (digitVal 10 c).isSome
    · rw [if_pos h]
      exact ⟨congrArg (c :: ·) h1, h2⟩
    · rw [if_neg h]
      refine ⟨rfl, fun x hx => ?_⟩
      cases hx
      exact Option.not_isSome_iff_eq_none.1 h

theorem dropBlank_spec : ∀ t : Str, ∃ bl, t = bl ++ t.dropWhile blank ∧ ∀ c ∈ bl, c ∈ [' ', '\t', '\n', '\x0b', '\x0c', '\r']
  | [] => ⟨[], rfl, fun _ h => (nomatch h)⟩
  | c :: cs => by
    rw [List.dropWhile_cons]
    split
    · rename_i h
      obtain ⟨bl, h1, h2⟩ := dropBlank_spec cs
      refine ⟨c :: bl, congrArg (c :: ·) h1, fun x hx => ?_⟩
      rcases List.mem_cons.1 hx with rfl | hx
      · simp only [blank, Bool.or_eq_true, beq_iff_eq] at h
        simp only [List.mem_cons, List.not_mem_nil, or_false]
        rcases h with ((((h | h) | h) | h) | h) | h <;> simp [h]
      · exact h2 x hx
    · exact ⟨[], rfl, fun _ h => (nomatch h)⟩

theorem stoiDigits_ok {neg : Bool} {t : Str} {v : Int} (h : stoiDigits neg t = .ok v) :
    ∃ n, readNat 10 (takeDigits 10 t).1 = some n ∧ v = if neg then - (n : Int) else n := by
  unfold stoiDigits at h
  split at h
  · cases h
  · rename_i n hn
    refine ⟨n, hn, ?_⟩
    dsimp only at h
    generalize (if neg = true then - (n : Int) else n) = x at h ⊢
    by_cases hx : -2147483648 ≤ x ∧ x < 2147483648
    · rw [if_pos hx] at h
      injection h with h
      exact h.symm
    · rw [if_neg hx] at h
      exact (nomatch h)

theorem stoi_sound {t : Str} {v : Int} (h : stoi t = .ok v) (hv : ¬ v < 0) : Index t v.toNat := by
  obtain ⟨bl, hb, hbl⟩ := dropBlank_spec t
  unfold stoi at h
  split at h
  · rename_i r hr
    obtain ⟨n, hn, he⟩ := stoiDigits_ok h
    simp only [if_true] at he
    have hn0 : n = 0 := by omega
    obtain ⟨h1, h2⟩ := takeDigits_spec r
    refine ⟨bl, ['-'], (takeDigits 10 r).1, (takeDigits 10 r).2, ?_, hbl, Or.inr (Or.inr ⟨rfl, by omega⟩), ?_, h2⟩
    · rw [hb, hr, List.append_assoc, List.append_assoc, ← h1]
      rfl
    · rw [hn, he, hn0]
      rfl
  · rename_i r hr
    obtain ⟨n, hn, he⟩ := stoiDigits_ok h
    simp only [Bool.false_eq_true, if_false] at he
    obtain ⟨h1, h2⟩ := takeDigits_spec r
    refine ⟨bl, ['+'], (takeDigits 10 r).1, (takeDigits 10 r).2, ?_, hbl, Or.inr (Or.inl rfl), ?_, h2⟩
    · rw [hb, hr, List.append_assoc, List.append_assoc, ← h1]
      rfl
    · rw [hn, he]
      rfl
  · rename_i r hr
    obtain ⟨n, hn, he⟩ := stoiDigits_ok h
    simp only [Bool.false_eq_true, if_false] at he
    obtain ⟨h1, h2⟩ := takeDigits_spec (t.dropWhile blank)
    refine ⟨bl, [], (takeDigits 10 (t.dropWhile blank)).1, (takeDigits 10 (t.dropWhile blank)).2, ?_, hbl, Or.inl rfl, ?_, h2⟩
    · rw [List.append_nil, List.append_assoc, ← h1]
      exact hb
    · rw [hn, he]
      rfl

theorem indices_sound (r : Slice.Root) : ∀ (ts : List Str) (i j : Slice.Info), indices r i ts = .ok (some j) →
    ∃ ns, Indices ts ns ∧ Slice.selects r i (ns.map fun n => (n, n)) = .ok j
  | [], i, j, h => by
    simp only [indices, Res.ok.injEq, Option.some.injEq] at h
    exact ⟨[], trivial, by rw [h]; rfl⟩
  | t :: ts, i, j, h => by
    simp only [indices] at h
    split at h
    · cases h
    · cases h
    · cases h
    · rename_i v hv
      split at h
      · cases h
      · rename_i hneg
        rw [Res.bind_eq_ok] at h
        obtain ⟨k, hk, h⟩ := h
        obtain ⟨ns, h1, h2⟩ := indices_sound r ts k j h
        refine ⟨v.toNat :: ns, ⟨stoi_sound hv hneg, h1⟩, ?_⟩
        show (Slice.select r i v.toNat v.toNat).bind _ = _
        rw [hk]
        exact h2

theorem noWide_same : ∀ (is : List Nat) (g : Slice.Region), Slice.NoWideRange g (is.map fun n => (n, n))
  | [], _ => trivial
  | _ :: is, _ => ⟨fun h => absurd rfl h, fun g' _ => noWide_same is g'⟩

theorem name_tokens {topInst : Str} {insts : List Str} {v : Str} (is : List Nat) (hp : ∀ n ∈ topInst :: insts ++ [v], Plain n) :
    getTokens (fullName topInst insts v is) ['.'] = topInst :: insts ++ v :: is.map (printNat 10) := by
  refine tokens_join ['.'] ['.'] (by simp) (fun c h => h) _ fun t h => ?_
  have free : ∀ {t : Str}, '.' ∉ t → Free ['.'] t := by
    intro t ht c hc hd
    rw [List.mem_singleton.1 hd] at hc
    exact ht hc
  have hcase : t ∈ topInst :: insts ++ [v] ∨ t ∈ is.map (printNat 10) := by
    rcases List.mem_append.1 h with h | h
    · exact Or.inl (List.mem_append_left _ h)
    · rcases List.mem_cons.1 h with h | h
      · exact Or.inl (List.mem_append_right _ (List.mem_singleton.2 h))
      · exact Or.inr h
  rcases hcase with h | h
  · exact ⟨(hp t h).1, free (hp t h).2⟩
  · obtain ⟨n, _, rfl⟩ := List.mem_map.1 h
    exact ⟨printNat_ne_nil 10 n, free fun hc => (digit_plain (printNat_digits (Or.inl rfl) n _ hc)).1 rfl⟩

/-! ## Theorems -/

/-- C120, partial: hierarchical names find the bits they denote if no instance beside the variable has its name and the variable is not a packed
array.  What is missing is false: `instance_hides`, `packed_refused`. -/
theorem select_partial (w : Nat → Gen) (top : Nat) (topInst name : Str) (g : Nat) (v : Str) (d : Decl) (bits : Slice.Region) (hw : Unique w)
    (h : Denotes w top topInst name g v d bits) (hv : v ∉ (w g).kids.map (·.1)) (hp : d.packed = false ∨ d.root.size = [1]) :
    ∃ s, select w top topInst name = .ok (some s) ∧ Is s g v bits := by
  obtain ⟨⟨insts, is, rfl, hpl, hpath, hi, hs⟩, hm, hok⟩ := h
  obtain ⟨j, hj, h1, h2, h3, _, _⟩ := Slice.slice_select_partial d.root hok _ bits (noWide_same is _) hs
  refine ⟨⟨g, v, j⟩, ?_, rfl, rfl, h1, h2, h3⟩
  have hnp : ¬ (d.packed = true ∧ (1 < d.root.size.length ∨ 1 < d.root.size.headD 0)) := by
    rintro ⟨ha, hb⟩
    rcases hp with hp | hp
    · rw [hp] at ha; cases ha
    · rw [hp] at hb
      revert hb
      simp
  unfold select
  rw [name_tokens is hpl]
  simp only [List.cons_append, ne_eq, not_true_eq_false, if_false]
  rw [descend_path hw hpath hv]
  simp only
  rw [get_of_mem (hw g).2 hm]
  simp only [hnp, if_false]
  rw [indices_selects d.root is _ hi, hj]
  rfl

/-- Whatever is found is what the pieces of the name say: instances below the top, then a variable of the last one which no instance hides, then
indices. -/
theorem select_sound (w : Nat → Gen) (top : Nat) (topInst name : Str) (s : Sel) (h : select w top topInst name = .ok (some s)) :
    ∃ insts is d, getTokens name ['.'] = topInst :: insts ++ s.var :: is ∧ Path w top insts s.gen ∧ (s.var, d) ∈ (w s.gen).vars ∧
      s.var ∉ (w s.gen).kids.map (·.1) ∧
      ∃ ns, Indices is ns ∧ Slice.selects d.root (Slice.rootInfo d.root) (ns.map fun n => (n, n)) = .ok s.part := by
  unfold select at h
  split at h
  · cases h
  · rename_i t ts ht
    split at h
    · cases h
    · rename_i hne
      have hne : t = topInst := Classical.not_not.1 hne
      split at h
      · cases h
      · rename_i g v is hd
        obtain ⟨insts, h1, h2, h3⟩ := descend_sound w ts top g _ hd
        split at h
        · cases h
        · rename_i d hg
          split at h
          · cases h
          · rw [Res.bind_eq_ok] at h
            obtain ⟨r, hr, h⟩ := h
            cases r with
            | none => cases h
            | some i =>
              simp only [Option.map_some, Res.ok.injEq, Option.some.injEq] at h
              subst h
              exact ⟨insts, is, d, by rw [ht, h1, hne]; rfl, h2, get_mem hg, h3 v is rfl, indices_sound d.root is _ _ hr⟩

/-- A negative index is an error, wherever it stands. -/
theorem negative_refused (r : Slice.Root) (i : Slice.Info) (n : Nat) (ts : List Str) (h0 : 0 < n) (hn : n < 2147483648) :
    indices r i (('-' :: printNat 10 n) :: ts) = .throw .user := by
  have h1 : takeDigits 10 (printNat 10 n) = (printNat 10 n, []) := by
    have := takeDigits_append 10 (printNat 10 n) [] (printNat_digits (Or.inl rfl) n) (by simp)
    simpa using this
  have hs : stoi ('-' :: printNat 10 n) = .ok (-(n : Int)) := by
    unfold stoi
    have : ('-' :: printNat 10 n).dropWhile blank = '-' :: printNat 10 n := by
      rw [List.dropWhile_cons]
      rfl
    rw [this]
    show stoiDigits true (printNat 10 n) = _
    unfold stoiDigits
    rw [h1, readNat_printNat (Or.inl rfl) n]
    simp only [if_true]
    rw [if_pos ⟨by omega, by omega⟩]
  simp only [indices, hs]
  rw [if_pos (by omega)]

/-- A piece behind the variable that does not begin with a digit, a sign or a blank finds nothing. -/
theorem word_unknown (r : Slice.Root) (i : Slice.Info) (c : Char) (t : Str) (ts : List Str) (hc : digitVal 10 c = none)
    (hs : c ∉ ['-', '+', ' ', '\t', '\n', '\x0b', '\x0c', '\r']) : indices r i ((c :: t) :: ts) = .ok none := by
  simp only [List.mem_cons, List.not_mem_nil, or_false, not_or] at hs
  have hb : blank c = false := by simp [blank, hs]
  have : stoi (c :: t) = .throw .invalidArg := by
    unfold stoi
    rw [List.dropWhile_cons, hb]
    simp only [Bool.false_eq_true, if_false]
    split
    · rename_i h; exact absurd (List.cons.inj h).1 hs.1
    · rename_i h; exact absurd (List.cons.inj h).1 hs.2.1
    · unfold stoiDigits takeDigits
      simp [hc, readNat]
  simp only [indices, this]

/-- All values of a state go to what their names denote. -/
theorem state_partial (w : Nat → Gen) (top : Nat) (topInst : Str) (hw : Unique w) : ∀ (vals : List (Str × Int)),
    (∀ e ∈ vals, ∃ g v d bits, Denotes w top topInst e.1 g v d bits ∧ v ∉ (w g).kids.map (·.1) ∧ (d.packed = false ∨ d.root.size = [1])) →
    ∃ l, addState w top topInst vals = .ok l ∧ l.map (·.2) = vals.map (·.2) ∧
      ∀ p ∈ vals.zip l, ∃ g v d bits, Denotes w top topInst p.1.1 g v d bits ∧ Is p.2.1 g v bits
  | [], _ => ⟨[], rfl, rfl, fun _ h => (nomatch h)⟩
  | e :: vals, h => by
    obtain ⟨l, h1, h2, h3⟩ := state_partial w top topInst hw vals fun x hx => h x (List.mem_cons_of_mem _ hx)
    obtain ⟨g, v, d, bits, hd, hv, hp⟩ := h e List.mem_cons_self
    obtain ⟨s, hs, his⟩ := select_partial w top topInst e.1 g v d bits hw hd hv hp
    refine ⟨(s, e.2) :: l, ?_, by simp [h2], ?_⟩
    · show (select w top topInst e.1).bind _ = _
      rw [hs]
      simp only [Res.ok_bind]
      rw [h1]
      rfl
    · intro p hpm
      rw [List.zip_cons_cons] at hpm
      rcases List.mem_cons.1 hpm with rfl | hpm
      · exact ⟨g, v, d, bits, hd, his⟩
      · exact h3 p hpm

/-- A state with a name that finds nothing is refused. -/
theorem state_refused (w : Nat → Gen) (top : Nat) (topInst : Str) (n : Str) (v : Int) (rest : List (Str × Int))
    (h : select w top topInst n = .ok none) : addState w top topInst ((n, v) :: rest) = .throw .user := by
  show (select w top topInst n).bind _ = _
  rw [h]
  rfl

/-- Marking a value needs a state, and marks the variable that was found. -/
theorem mark_iff (w : Nat → Gen) (top : Nat) (topInst : Str) (states : Nat) (name : Str) (g : Nat) (v : Str) :
    mark w top topInst states name = .ok (g, v) ↔ states ≠ 0 ∧ ∃ s, select w top topInst name = .ok (some s) ∧ s.gen = g ∧ s.var = v := by
  unfold mark
  by_cases hs : states = 0
  · simp [hs]
  · rw [if_neg hs, Res.bind_eq_ok]
    constructor
    · rintro ⟨o, h1, h2⟩
      cases o with
      | none => cases h2
      | some s =>
        simp only [Res.ok.injEq, Prod.mk.injEq] at h2
        exact ⟨hs, s, h1, h2.1, h2.2⟩
    · rintro ⟨_, s, h1, rfl, rfl⟩
      exact ⟨some s, h1, rfl⟩

/-- Marking a name that finds nothing is undefined behaviour. -/
theorem mark_unknown (w : Nat → Gen) (top : Nat) (topInst : Str) (states : Nat) (name : Str) (hs : states ≠ 0)
    (h : select w top topInst name = .ok none) : mark w top topInst states name = .ub := by
  unfold mark
  rw [if_neg hs, h]
  rfl

/-! ## Examples and witnesses -/

def scalar : Decl := ⟨⟨8, [1], false⟩, true⟩
def array (packed : Bool) : Decl := ⟨⟨8, [4, 2], false⟩, packed⟩

/-- `top` has an instance `u` and variables `a`, `u`, `m` (unpacked) and `p` (packed, the default). -/
def world : Nat → Gen
  | 0 => { kids := [("u".toList, 1)], vars := [("a".toList, scalar), ("u".toList, scalar), ("m".toList, array false), ("p".toList, array true)] }
  | 1 => { vars := [("b".toList, scalar)] }
  | _ => {}

def found (n : String) : Res (Option (Nat × String × Nat × Nat)) :=
  (select world 0 "top".toList n.toList).bind fun o => .ok (o.map fun s => (s.gen, String.ofList s.var, s.part.high, s.part.low))

example : found "top.u.b" = .ok (some (1, "b", 7, 0)) ∧ found "top.a" = .ok (some (0, "a", 7, 0)) ∧ found "top.m.3.1" = .ok (some (0, "m", 63, 56)) ∧
    found "top.a.3" = .ok (some (0, "a", 3, 3)) ∧ found "a" = .ok none ∧ found "top.x" = .ok none := by
  refine ⟨?_, ?_, ?_, ?_, ?_, ?_⟩ <;> decide +kernel

theorem world_unique : Unique world := by
  intro g
  match g with
  | 0 => constructor <;> decide +kernel
  | 1 => constructor <;> decide +kernel
  | _ + 2 => constructor <;> exact List.nodup_nil

theorem array_ok : (⟨8, [4, 2], false⟩ : Slice.Root).Ok := ⟨by decide, by decide, by decide, by decide +kernel, by decide⟩
theorem scalar_ok : (⟨8, [1], false⟩ : Slice.Root).Ok := ⟨by decide, by decide, by decide, by decide +kernel, by decide⟩

/-- The hypotheses are met: `top.m.3.1`. -/
example : ∃ s, select world 0 "top".toList "top.m.3.1".toList = .ok (some s) ∧ Is s 0 "m".toList ⟨56, [], 8⟩ := by
  refine select_partial world 0 _ _ 0 "m".toList (array false) _ world_unique ⟨⟨[], [3, 1], by decide +kernel, ?_, .here, by decide, by decide +kernel⟩, ?_, array_ok⟩
    (by decide +kernel) (Or.inl rfl)
  · unfold Plain; decide +kernel
  · decide +kernel

theorem u_denotes : Denotes world 0 "top".toList "top.u".toList 0 "u".toList scalar ⟨0, [], 8⟩ :=
  ⟨⟨[], [], by decide +kernel, by unfold Plain; decide +kernel, .here, by simp, by decide +kernel⟩, by decide +kernel, scalar_ok⟩

/-- A variable with the name of an instance beside it is not found. -/
theorem instance_hides : Denotes world 0 "top".toList "top.u".toList 0 "u".toList scalar ⟨0, [], 8⟩ ∧ found "top.u" = .ok none :=
  ⟨u_denotes, by decide +kernel⟩

/-- Arrays are packed unless the user says otherwise, and packed arrays are refused. -/
theorem packed_refused : found "top.p.3.1" = .throw .user := by decide +kernel

/-- An index is read up to the first other character, and blanks and signs are accepted. -/
theorem junk_accepted : found "top.m.3x.1" = .ok (some (0, "m", 63, 56)) ∧ found "top..m. +3.1." = .ok (some (0, "m", 63, 56)) := by decide +kernel

/-- The empty name is undefined behaviour. -/
theorem empty_undefined : found "" = .ub := by decide +kernel

theorem not_NameClaim : ¬ NameClaim := by
  intro h
  obtain ⟨s, hs, _⟩ := h world 0 "top".toList "top.u".toList 0 "u".toList scalar ⟨0, [], 8⟩ world_unique u_denotes
  have := instance_hides.2
  unfold found at this
  rw [hs] at this
  cases this

theorem not_RefuseClaim : ¬ RefuseClaim := by
  intro h
  have hn : select world 0 "top".toList "top.x".toList = .ok none := by decide +kernel
  obtain ⟨e, he⟩ := h world 0 "top".toList "top.x".toList world_unique hn
  rw [mark_unknown world 0 _ 1 _ (by decide) hn] at he
  cases he

end Kratos.RunNames
