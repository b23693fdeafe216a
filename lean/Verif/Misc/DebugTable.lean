import Verif.Slice.Props

/-!
# C136: the generator variables and source places in the debug database

`extract_symbol_table` and `dump_debug_database` of kratos/debug.py, `set_break_points`, `set_variable_mapping`, `create_variables` and
`save_database` of src/debug.cc.
-/

namespace Kratos.DebugTable

open Kratos.Slice

abbrev Str := List Char

/-! ### Model -/

/-- A Python generator with its children: those dropped from the C++ hierarchy have no parent there. -/
inductive T where
  | node (id : Nat) (kids : List (Bool × T))

/-- The children that are put in the queue (kratos/debug.py:34-38). -/
def queued (ks : List (Bool × T)) : List T := (ks.filter fun k => k.1).map fun k => k.2

/-- The loop of `extract_symbol_table` (kratos/debug.py:14-38): the generators in the order they leave the queue. `n` bounds the rounds. -/
def bfs : Nat → List T → Res (List Nat)
  | _, [] => .ok []
  | 0, _ :: _ => .ub
  | n + 1, .node g ks :: q => (bfs n (q ++ queued ks)).bind fun r => .ok (g :: r)

/-- An attribute of the Python object: a variable with its `to_string()`, a `bool`, `int` or `str` with its `str()`, or something else. -/
inductive Val where
  | var (text : Str)
  | static (text : Str)
  | other
deriving DecidableEq

abbrev Attrs := List (Str × Val)

def self : Str := ['s', 'e', 'l', 'f', '.']

/-- `var_entry`, with `var->to_string()` (kratos/debug.py:22-28, src/debug.cc:198-205). -/
def varEntry (as : Attrs) : List (Str × Str) :=
  as.filterMap fun a => match a.2 with
    | .var t => some (self ++ a.1, t)
    | _ => none

/-- `str_entry` (kratos/debug.py:29-30). -/
def strEntry (as : Attrs) : List (Str × Str) :=
  as.filterMap fun a => match a.2 with
    | .static t => some (self ++ a.1, t)
    | _ => none

/-- `variable_mapping_[gen].emplace`, entry by entry (src/debug.cc:200-203, 209-212). The map is sorted; the order is not modelled. -/
def emplaceAll (m : List (Str × Str)) : List (Str × Str) → List (Str × Str)
  | [] => m
  | e :: es => emplaceAll (if m.any fun x => decide (x.1 = e.1) then m else m ++ [e]) es

/-- `dump_debug_database`: first the variables, then the values (kratos/debug.py:59-61). -/
def mapping (as : Attrs) : List (Str × Str) := emplaceAll (emplaceAll [] (varEntry as)) (strEntry as)

/-- A variable of the generator: `plain` is `VarType::Base` or `PortIO`; the fields if it is a packed struct. -/
structure V where
  plain : Bool
  root : Root
  fields : Option (List Str)

/-- `hgdb::json::Variable` without the id. -/
structure Entry where
  name : Str
  value : Str
  rtl : Bool
deriving DecidableEq

/-- `create_variables` (src/debug.cc:232-309) on a variable of a generator; the case of a slice at a variable index is left out. -/
def createVariables (text name : Str) (v : V) : List Entry :=
  if v.root.size.length > 1 ∨ v.root.size.headD 0 > 1 then
    (flatten v.root).map fun ix =>
      ⟨ix.foldl (fun n i => n ++ '.' :: Nat.toDigits 10 i) name, ix.foldl (fun n i => n ++ '[' :: Nat.toDigits 10 i ++ [']']) text, true⟩
  else match v.fields with
    | some fs => fs.map fun f => ⟨name ++ '.' :: f, text ++ '.' :: f, true⟩
    | none => [⟨name, text, true⟩]

/-- The variables of one generator in `save_database` (src/debug.cc:522-538). -/
def saveVars (vars : Str → Option V) : List (Str × Str) → List Entry
  | [] => []
  | (front, back) :: m =>
    (match vars back with
      | some v => if v.plain then createVariables back front v else []
      | none => [⟨front, back, false⟩]) ++ saveVars vars m

/-- `fs::get_ext` with `std::filesystem` (src/util.cc:541-544). -/
def extFs (fn : Str) : Str :=
  let f := (fn.reverse.takeWhile (· ≠ '/'))
  if f = ['.', '.'] then []
  else match f.dropWhile (· ≠ '.') with
    | _ :: _ :: _ => '.' :: (f.takeWhile (· ≠ '.')).reverse
    | _ => []

/-- `fs::get_ext` without it (src/util.cc:546-550). -/
def extPlain (fn : Str) : Str :=
  match fn.reverse.dropWhile (· ≠ '.') with
  | [] => []
  | _ => '.' :: (fn.reverse.takeWhile (· ≠ '.')).reverse

/-- `set_break_points`: the place of a statement (src/debug.cc:177-192). -/
def place (ext : Str → Str) (want : Str) : List (Str × Nat) → Option (Str × Nat)
  | [] => none
  | e :: es => if ext e.1 = want then some e else place ext want es

/-! ### Specification -/

/-- `g` is the generator or reached through children still in the hierarchy. -/
inductive Below' : Nat → T → Prop where
  | here {g ks} : Below' g (.node g ks)
  | child {g h ks t} : (true, t) ∈ ks → Below' g t → Below' g (.node h ks)

/-- Text of an index tuple. -/
def dots : List Nat → Str
  | [] => []
  | i :: t => '.' :: Nat.toDigits 10 i ++ dots t

def brackets : List Nat → Str
  | [] => []
  | i :: t => '[' :: Nat.toDigits 10 i ++ ']' :: brackets t

/-- What the debugger should show for the attribute `x`. -/
inductive Shown (vars : Str → Option V) (x : Str) : Val → Entry → Prop where
  /-- a scalar of the generator -/
  | scalar {t v} : vars t = some v → v.root.size = [1] → v.fields = none → Shown vars x (.var t) ⟨self ++ x, t, true⟩
  /-- an element of an array of the generator -/
  | element {t v ix} : vars t = some v → v.root.size ≠ [1] → Below ix v.root.size →
      Shown vars x (.var t) ⟨self ++ x ++ dots ix, t ++ brackets ix, true⟩
  /-- a field of a struct of the generator -/
  | field {t v fs f} : vars t = some v → v.root.size = [1] → v.fields = some fs → f ∈ fs →
      Shown vars x (.var t) ⟨self ++ x ++ '.' :: f, t ++ '.' :: f, true⟩
  /-- any other signal: a slice, a port of a child -/
  | signal {t} : vars t = none → Shown vars x (.var t) ⟨self ++ x, t, true⟩
  /-- a Python value -/
  | value {t} : Shown vars x (.static t) ⟨self ++ x, t, false⟩

def VarsOk (vars : Str → Option V) : Prop := ∀ t v, vars t = some v → v.root.Ok

/-- **Full claim C136**: the debugger shows exactly the attributes of a generator. -/
def DebugVarsClaim : Prop := ∀ vars as, VarsOk vars → (as.map Prod.fst).Nodup →
  ∀ e, e ∈ saveVars vars (mapping as) ↔ ∃ x v, (x, v) ∈ as ∧ Shown vars x v e

/-- The attributes are variables of the generator itself, and no string is the name of a variable. -/
def Direct (vars : Str → Option V) (as : Attrs) : Prop :=
  ∀ x v, (x, v) ∈ as → match v with
    | .var t => ∃ w, vars t = some w ∧ w.plain = true
    | .static t => vars t = none
    | .other => True

/-! ### Generators: each once -/

mutual
def all : T → List Nat
  | .node g ks => g :: alls ks
def alls : List (Bool × T) → List Nat
  | [] => []
  | (true, t) :: ks => all t ++ alls ks
  | (false, _) :: ks => alls ks
end

def allq : List T → List Nat
  | [] => []
  | t :: q => all t ++ allq q

theorem allq_append (a b : List T) : allq (a ++ b) = allq a ++ allq b := by
  induction a with
  | nil => rfl
  | cons t a ih => simp [allq, ih]

theorem allq_queued : ∀ (ks : List (Bool × T)), allq (queued ks) = alls ks
  | [] => by simp [queued, allq, alls]
  | (true, t) :: ks => by
    have := allq_queued ks
    simp only [queued] at this
    simp [queued, allq, alls, this]
  | (false, t) :: ks => by
    have := allq_queued ks
    simp only [queued] at this
    simp [queued, alls, this]

theorem bfs_perm : ∀ (n : Nat) (q : List T), (allq q).length ≤ n → ∃ r, bfs n q = .ok r ∧ r.Perm (allq q)
  | n, [], _ => ⟨[], by cases n <;> rfl, .nil⟩
  | 0, .node g ks :: q, h => by simp [allq, all] at h
  | n + 1, .node g ks :: q, h => by
    obtain ⟨r, h1, h2⟩ := bfs_perm n (q ++ queued ks) (by
      rw [allq_append, allq_queued]
      simp [allq, all] at h ⊢
      omega)
    refine ⟨g :: r, by simp [bfs, h1], ?_⟩
    rw [allq_append, allq_queued] at h2
    simp only [allq, all, List.cons_append]
    exact (h2.trans List.perm_append_comm).cons g

mutual
theorem mem_all : ∀ (t : T) (g : Nat), g ∈ all t ↔ Below' g t
  | .node h ks, g => by
    simp only [all, List.mem_cons]
    rw [mem_alls ks g]
    constructor
    · rintro (rfl | ⟨t, ht, hg⟩)
      · exact .here
      · exact .child ht hg
    · intro hg
      cases hg with
      | here => exact Or.inl rfl
      | child ht hg => exact Or.inr ⟨_, ht, hg⟩
theorem mem_alls : ∀ (ks : List (Bool × T)) (g : Nat), g ∈ alls ks ↔ ∃ t, (true, t) ∈ ks ∧ Below' g t
  | [], g => by simp [alls]
  | (true, t) :: ks, g => by
    simp only [alls, List.mem_append]
    rw [mem_all t g, mem_alls ks g]
    constructor
    · rintro (h | ⟨t', ht, h⟩)
      · exact ⟨t, List.mem_cons_self .., h⟩
      · exact ⟨t', List.mem_cons_of_mem _ ht, h⟩
    · rintro ⟨t', ht, h⟩
      rcases List.mem_cons.1 ht with e | ht
      · injection e with _ e; subst e; exact Or.inl h
      · exact Or.inr ⟨t', ht, h⟩
  | (false, t) :: ks, g => by
    simp only [alls]
    rw [mem_alls ks g]
    constructor
    · rintro ⟨t', ht, h⟩; exact ⟨t', List.mem_cons_of_mem _ ht, h⟩
    · rintro ⟨t', ht, h⟩
      rcases List.mem_cons.1 ht with e | ht
      · injection e with e; cases e
      · exact ⟨t', ht, h⟩
end

/-- **C136, generators**: the walk ends and meets exactly the generators still in the hierarchy; each once, if no generator is
a child of two. -/
theorem walk_meets (t : T) : ∃ n r, bfs n [t] = .ok r ∧ (∀ g, g ∈ r ↔ Below' g t) ∧ (∀ m s, bfs m [t] = .ok s → s = r) ∧
    ((all t).Nodup → r.Nodup) := by
  obtain ⟨r, h1, h2⟩ := bfs_perm (allq [t]).length [t] (Nat.le_refl _)
  have e : allq [t] = all t := by simp [allq]
  have mono : ∀ (a b : Nat) (q : List T) (r s : List Nat), bfs a q = .ok r → bfs b q = .ok s → s = r := by
    intro a
    induction a with
    | zero =>
      intro b q r s ha hb
      cases q with
      | nil =>
        simp only [bfs] at ha hb
        injection ha with ha
        injection hb with hb
        rw [← ha, ← hb]
      | cons t q => simp [bfs] at ha
    | succ a ih =>
      intro b q r s ha hb
      match q, b with
      | [], b =>
        simp only [bfs] at ha hb
        injection ha with ha
        injection hb with hb
        rw [← ha, ← hb]
      | .node g ks :: q, 0 => simp [bfs] at hb
      | .node g ks :: q, b + 1 =>
        simp only [bfs, Res.bind_eq_ok] at ha hb
        obtain ⟨r', ha, ha'⟩ := ha
        obtain ⟨s', hb, hb'⟩ := hb
        injection ha' with ha'
        injection hb' with hb'
        rw [← ha', ← hb', ih b _ r' s' ha hb]
  refine ⟨_, r, h1, fun g => ?_, fun m s hs => mono _ _ _ _ _ h1 hs, fun hn => ?_⟩
  · rw [h2.mem_iff, e, mem_all]
  · exact (h2.nodup_iff).2 (by rw [e]; exact hn)

/-! ### Variables -/

theorem mem_emplaceAll : ∀ (es m : List (Str × Str)), (∀ e ∈ es, ∀ x ∈ m, x.1 ≠ e.1) → (es.map Prod.fst).Nodup →
    ∀ e, e ∈ emplaceAll m es ↔ e ∈ m ∨ e ∈ es
  | [], m, _, _, e => by simp [emplaceAll]
  | a :: es, m, hd, hn, e => by
    have hno : (m.any fun x => decide (x.1 = a.1)) = false := by
      rw [List.any_eq_false]
      intro x hx
      simpa using hd a (List.mem_cons_self ..) x hx
    simp only [emplaceAll, hno, Bool.false_eq_true, if_false]
    simp only [List.map_cons, List.nodup_cons] at hn
    rw [mem_emplaceAll es (m ++ [a]) ?_ hn.2 e]
    · simp only [List.mem_append, List.mem_cons, List.not_mem_nil, false_or, or_assoc]
    · intro b hb x hx
      rcases List.mem_append.1 hx with hx | hx
      · exact hd b (List.mem_cons_of_mem _ hb) x hx
      · rw [List.mem_singleton.1 hx]
        intro h
        exact hn.1 (h ▸ List.mem_map_of_mem hb)

theorem mem_varEntry {as : Attrs} {p : Str × Str} : p ∈ varEntry as ↔ ∃ x t, (x, .var t) ∈ as ∧ p = (self ++ x, t) := by
  simp only [varEntry, List.mem_filterMap]
  constructor
  · rintro ⟨⟨x, v⟩, h, hp⟩
    cases v with
    | var t => injection hp with hp; exact ⟨x, t, h, hp.symm⟩
    | static t => cases hp
    | other => cases hp
  · rintro ⟨x, t, h, rfl⟩; exact ⟨_, h, rfl⟩

theorem mem_strEntry {as : Attrs} {p : Str × Str} : p ∈ strEntry as ↔ ∃ x t, (x, .static t) ∈ as ∧ p = (self ++ x, t) := by
  simp only [strEntry, List.mem_filterMap]
  constructor
  · rintro ⟨⟨x, v⟩, h, hp⟩
    cases v with
    | static t => injection hp with hp; exact ⟨x, t, h, hp.symm⟩
    | var t => cases hp
    | other => cases hp
  · rintro ⟨x, t, h, rfl⟩; exact ⟨_, h, rfl⟩

theorem nodup_varEntry : ∀ {as : Attrs}, (as.map Prod.fst).Nodup → ((varEntry as).map Prod.fst).Nodup
  | [], _ => by simp [varEntry]
  | (x, v) :: as, h => by
    simp only [List.map_cons, List.nodup_cons] at h
    have ih := nodup_varEntry (as := as) h.2
    cases v with
    | var t =>
      simp only [varEntry, List.filterMap_cons, List.map_cons, List.nodup_cons]
      refine ⟨fun hm => ?_, ih⟩
      obtain ⟨p, hp, hpe⟩ := List.mem_map.1 hm
      obtain ⟨y, u, hy, rfl⟩ := mem_varEntry.1 hp
      have : y = x := List.append_cancel_left hpe
      subst this
      exact h.1 (List.mem_map.2 ⟨_, hy, rfl⟩)
    | static t => simpa [varEntry] using ih
    | other => simpa [varEntry] using ih

theorem nodup_strEntry : ∀ {as : Attrs}, (as.map Prod.fst).Nodup → ((strEntry as).map Prod.fst).Nodup
  | [], _ => by simp [strEntry]
  | (x, v) :: as, h => by
    simp only [List.map_cons, List.nodup_cons] at h
    have ih := nodup_strEntry (as := as) h.2
    cases v with
    | static t =>
      simp only [strEntry, List.filterMap_cons, List.map_cons, List.nodup_cons]
      refine ⟨fun hm => ?_, ih⟩
      obtain ⟨p, hp, hpe⟩ := List.mem_map.1 hm
      obtain ⟨y, u, hy, rfl⟩ := mem_strEntry.1 hp
      have : y = x := List.append_cancel_left hpe
      subst this
      exact h.1 (List.mem_map.2 ⟨_, hy, rfl⟩)
    | var t => simpa [strEntry] using ih
    | other => simpa [strEntry] using ih

theorem unique_of_nodup : ∀ {as : Attrs}, (as.map Prod.fst).Nodup → ∀ {x v w}, (x, v) ∈ as → (x, w) ∈ as → v = w
  | (y, u) :: as, h, x, v, w, hv, hw => by
    simp only [List.map_cons, List.nodup_cons] at h
    rcases List.mem_cons.1 hv with e | hv' <;> rcases List.mem_cons.1 hw with e' | hw'
    · injection e with _ e; injection e' with _ e'; rw [e, e']
    · injection e with e _; exact absurd (List.mem_map.2 ⟨_, hw', rfl⟩) (by rw [e]; exact h.1)
    · injection e' with e' _; exact absurd (List.mem_map.2 ⟨_, hv', rfl⟩) (by rw [e']; exact h.1)
    · exact unique_of_nodup h.2 hv' hw'

theorem mem_mapping {as : Attrs} (h : (as.map Prod.fst).Nodup) (p : Str × Str) :
    p ∈ mapping as ↔ ∃ x t, ((x, .var t) ∈ as ∨ (x, .static t) ∈ as) ∧ p = (self ++ x, t) := by
  have h1 := mem_emplaceAll (varEntry as) [] (by intro _ _ x hx; cases hx) (nodup_varEntry h)
  rw [mapping, mem_emplaceAll (strEntry as) _ ?_ (nodup_strEntry h), h1]
  · simp only [List.not_mem_nil, false_or, mem_varEntry, mem_strEntry]
    constructor
    · rintro (⟨x, t, hx, e⟩ | ⟨x, t, hx, e⟩)
      · exact ⟨x, t, Or.inl hx, e⟩
      · exact ⟨x, t, Or.inr hx, e⟩
    · rintro ⟨x, t, hx | hx, e⟩
      · exact Or.inl ⟨x, t, hx, e⟩
      · exact Or.inr ⟨x, t, hx, e⟩
  · intro e he x hx
    rw [h1] at hx
    simp only [List.not_mem_nil, false_or] at hx
    obtain ⟨y, t, hy, rfl⟩ := mem_strEntry.1 he
    obtain ⟨z, u, hz, rfl⟩ := mem_varEntry.1 hx
    intro hc
    have : z = y := List.append_cancel_left hc
    subst this
    cases unique_of_nodup h hy hz

theorem foldl_dots : ∀ (ix : List Nat) (n : Str), ix.foldl (fun n i => n ++ '.' :: Nat.toDigits 10 i) n = n ++ dots ix
  | [], n => by simp [dots]
  | i :: ix, n => by rw [List.foldl_cons, foldl_dots ix]; simp [dots]

theorem foldl_brackets : ∀ (ix : List Nat) (n : Str), ix.foldl (fun n i => n ++ '[' :: Nat.toDigits 10 i ++ [']']) n = n ++ brackets ix
  | [], n => by simp [brackets]
  | i :: ix, n => by rw [List.foldl_cons, foldl_brackets ix]; simp [brackets]

theorem size_test {r : Root} (ok : r.Ok) : (r.size.length > 1 ∨ r.size.headD 0 > 1) ↔ r.size ≠ [1] := by
  have hd := ok.dims
  have hn := ok.ne
  cases hs : r.size with
  | nil => exact absurd hs hn
  | cons d ds =>
    have := hd d (by rw [hs]; exact List.mem_cons_self ..)
    cases ds with
    | nil =>
      simp
      omega
    | cons e ds => simp

theorem mem_createVariables {vars : Str → Option V} {x t : Str} {v : V} (ok : v.root.Ok) (hv : vars t = some v) (e : Entry) :
    e ∈ createVariables t (self ++ x) v ↔ Shown vars x (.var t) e := by
  unfold createVariables
  by_cases hs : v.root.size = [1]
  · rw [if_neg (by rw [size_test ok]; exact fun h => h hs)]
    constructor
    · intro h
      cases hf : v.fields with
      | none =>
        simp only [hf, List.mem_singleton] at h
        subst h
        exact .scalar hv hs hf
      | some fs =>
        simp only [hf, List.mem_map] at h
        obtain ⟨f, hfm, rfl⟩ := h
        exact .field hv hs hf hfm
    · intro h
      cases h with
      | scalar h1 h2 h3 =>
        rw [hv] at h1; injection h1 with h1; subst h1
        simp [h3]
      | element h1 h2 h3 =>
        rw [hv] at h1; injection h1 with h1; subst h1
        exact absurd hs h2
      | field h1 h2 h3 h4 =>
        rw [hv] at h1; injection h1 with h1; subst h1
        simp only [h3, List.mem_map]
        exact ⟨_, h4, rfl⟩
      | signal h1 => rw [hv] at h1; cases h1
  · rw [if_pos ((size_test ok).2 hs), flatten_row_major v.root ok]
    simp only [List.mem_map, foldl_dots, foldl_brackets, rowMajor_mem]
    constructor
    · rintro ⟨ix, hix, rfl⟩
      exact .element hv hs hix
    · intro h
      cases h with
      | scalar h1 h2 h3 =>
        rw [hv] at h1; injection h1 with h1; subst h1
        exact absurd h2 hs
      | element h1 h2 h3 =>
        rw [hv] at h1; injection h1 with h1; subst h1
        exact ⟨_, h3, rfl⟩
      | field h1 h2 h3 h4 =>
        rw [hv] at h1; injection h1 with h1; subst h1
        exact absurd h2 hs
      | signal h1 => rw [hv] at h1; cases h1

theorem mem_saveVars (vars : Str → Option V) : ∀ (m : List (Str × Str)) (e : Entry), e ∈ saveVars vars m ↔ ∃ front back, (front, back) ∈ m ∧
    ((∃ v, vars back = some v ∧ v.plain = true ∧ e ∈ createVariables back front v) ∨ (vars back = none ∧ e = ⟨front, back, false⟩))
  | [], e => by simp [saveVars]
  | (front, back) :: m, e => by
    simp only [saveVars, List.mem_append, mem_saveVars vars m e, List.mem_cons]
    have key : (e ∈ (match vars back with
      | some v => if v.plain then createVariables back front v else []
      | none => [⟨front, back, false⟩])) ↔ ((∃ v, vars back = some v ∧ v.plain = true ∧ e ∈ createVariables back front v) ∨ (vars back = none ∧ e = ⟨front, back, false⟩)) := by
      cases hv : vars back with
      | none => simp
      | some v => cases hp : v.plain <;> simp [hp]
    rw [key]
    constructor
    · rintro (h | ⟨f, b, hm, h⟩)
      · exact ⟨front, back, Or.inl rfl, h⟩
      · exact ⟨f, b, Or.inr hm, h⟩
    · rintro ⟨f, b, hm | hm, h⟩
      · injection hm with h1 h2; subst h1; subst h2; exact Or.inl h
      · exact Or.inr ⟨f, b, hm, h⟩

/-- **C136, variables**: if the attributes that are variables are variables of the generator itself and no Python string is the name of
one, the debugger shows exactly the attributes: scalars, all elements of arrays, all fields of structs, and the Python values. -/
theorem debug_vars_partial (vars : Str → Option V) (as : Attrs) (hok : VarsOk vars) (hn : (as.map Prod.fst).Nodup) (hd : Direct vars as) (e : Entry) :
    e ∈ saveVars vars (mapping as) ↔ ∃ x v, (x, v) ∈ as ∧ Shown vars x v e := by
  rw [mem_saveVars]
  simp only [mem_mapping hn]
  constructor
  · rintro ⟨front, back, ⟨x, t, hx, he⟩, h⟩
    injection he with e1 e2
    subst e1; subst e2
    rcases hx with hx | hx
    · obtain ⟨w, hw, _⟩ := hd x _ hx
      rcases h with ⟨v, h1, _, h3⟩ | ⟨h1, _⟩
      · exact ⟨x, _, hx, (mem_createVariables (hok _ v h1) h1 e).1 h3⟩
      · rw [h1] at hw; cases hw
    · have hw : vars back = none := hd x _ hx
      rcases h with ⟨v, h1, _, h3⟩ | ⟨_, rfl⟩
      · rw [h1] at hw; cases hw
      · exact ⟨x, _, hx, .value⟩
  · rintro ⟨x, v, hx, hs⟩
    cases v with
    | var t =>
      obtain ⟨w, hw, hp⟩ := hd x _ hx
      exact ⟨_, t, ⟨x, t, Or.inl hx, rfl⟩, Or.inl ⟨w, hw, hp, (mem_createVariables (hok _ w hw) hw e).2 hs⟩⟩
    | static t =>
      have hw : vars t = none := hd x _ hx
      cases hs
      exact ⟨_, t, ⟨x, t, Or.inr hx, rfl⟩, Or.inr ⟨hw, rfl⟩⟩
    | other => cases hs

/-! ### Places -/

def py : Str := ['.', 'p', 'y']

theorem dropWhile_head {p : Char → Bool} : ∀ {l : List Char} {d : Char} {t : List Char}, l.dropWhile p = d :: t → p d = false
  | a :: l, d, t, h => by
    rw [List.dropWhile_cons] at h
    split at h
    · exact dropWhile_head h
    · rename_i hp
      injection h with h _
      subst h
      simpa using hp

/-- With `std::filesystem`, a Python file is one whose name ends in `.py` after at least one more character. -/
theorem ext_fs (fn : Str) : extFs fn = py ↔ ∃ a c, c ≠ '/' ∧ fn = a ++ c :: py := by
  unfold extFs
  generalize hr : fn.reverse = r
  have hfn : fn = r.reverse := by rw [← hr, List.reverse_reverse]
  subst hfn
  constructor
  · intro h
    dsimp only at h
    split at h
    · cases h
    · split at h
      · rename_i d c t hd
        injection h with _ h
        have he : (r.takeWhile (· ≠ '/')).takeWhile (· ≠ '.') = ['y', 'p'] := by
          have := congrArg List.reverse h
          simpa using this
        have h0 := dropWhile_head hd
        have hdot : d = '.' := by simpa using h0
        subst hdot
        have h1 : r.takeWhile (· ≠ '/') = 'y' :: 'p' :: '.' :: c :: t := by
          rw [← List.takeWhile_append_dropWhile (p := (· ≠ '.')) (l := r.takeWhile (· ≠ '/')), he, hd]
          rfl
        have h2 : r = 'y' :: 'p' :: '.' :: c :: (t ++ r.dropWhile (· ≠ '/')) := by
          have := List.takeWhile_append_dropWhile (p := (· ≠ '/')) (l := r)
          rw [h1] at this
          simpa using this.symm
        have h3 : c ≠ '/' := by
          rw [h2] at h1
          simp only [List.takeWhile_cons] at h1
          intro e
          subst e
          simp at h1
        exact ⟨(t ++ r.dropWhile (· ≠ '/')).reverse, c, h3, by conv => lhs; rw [h2]
                                                               simp [py]⟩
      · cases h
  · rintro ⟨a, c, hc, e⟩
    have hr : r = 'y' :: 'p' :: '.' :: c :: a.reverse := by
      rw [← List.reverse_reverse r, e]; simp [py]
    subst hr
    simp [List.takeWhile_cons, List.dropWhile_cons, hc, py]

/-- Without it, one that ends in `.py`. -/
theorem ext_plain (fn : Str) : extPlain fn = py ↔ ∃ a, fn = a ++ py := by
  unfold extPlain
  generalize hr : fn.reverse = r
  have hfn : fn = r.reverse := by rw [← hr, List.reverse_reverse]
  subst hfn
  constructor
  · intro h
    split at h
    · cases h
    · rename_i hne
      injection h with _ h
      have he : r.takeWhile (· ≠ '.') = ['y', 'p'] := by
        have := congrArg List.reverse h
        simpa using this
      cases hd : r.dropWhile (· ≠ '.') with
      | nil => exact absurd hd hne
      | cons d t =>
        have h0 := dropWhile_head hd
        have hdot : d = '.' := by simpa using h0
        subst hdot
        refine ⟨t.reverse, ?_⟩
        rw [← List.takeWhile_append_dropWhile (p := (· ≠ '.')) (l := r), he, hd]
        simp [py]
  · rintro ⟨a, e⟩
    have hr : r = 'y' :: 'p' :: '.' :: a.reverse := by
      rw [← List.reverse_reverse r, e]; simp [py]
    subst hr
    simp [List.takeWhile_cons, List.dropWhile_cons, py]

/-- **C136, places**: the place of a statement is its first one in a file with the extension; without one it has none. -/
theorem place_spec (ext : Str → Str) (want : Str) (l : List (Str × Nat)) :
    (∀ e, place ext want l = some e ↔ ∃ a b, l = a ++ e :: b ∧ ext e.1 = want ∧ ∀ x ∈ a, ext x.1 ≠ want) ∧
    (place ext want l = none ↔ ∀ x ∈ l, ext x.1 ≠ want) := by
  induction l with
  | nil => simp [place]
  | cons y l ih =>
    unfold place
    by_cases hy : ext y.1 = want
    · rw [if_pos hy]
      refine ⟨fun e => ⟨?_, ?_⟩, by simp [hy]⟩
      · intro h
        injection h with h
        subst h
        exact ⟨[], l, rfl, hy, by simp⟩
      · rintro ⟨a, b, h, he, ha⟩
        cases a with
        | nil => injection h with h _; rw [h]
        | cons z a =>
          injection h with h _
          subst h
          exact absurd hy (ha _ (List.mem_cons_self ..))
    · rw [if_neg hy]
      refine ⟨fun e => ⟨?_, ?_⟩, by rw [ih.2]; simp [hy]⟩
      · intro h
        obtain ⟨a, b, h1, h2, h3⟩ := (ih.1 e).1 h
        refine ⟨y :: a, b, by rw [h1]; rfl, h2, fun x hx => ?_⟩
        rcases List.mem_cons.1 hx with rfl | hx
        · exact hy
        · exact h3 x hx
      · rintro ⟨a, b, h, he, ha⟩
        cases a with
        | nil => injection h with h _; subst h; exact absurd he hy
        | cons z a =>
          injection h with h1 h2
          exact (ih.1 e).2 ⟨a, b, h2, he, fun x hx => ha x (List.mem_cons_of_mem _ hx)⟩

/-- A file named `.py` has the extension without `std::filesystem` only. -/
theorem hidden_file : extPlain ['/', '.', 'p', 'y'] = py ∧ extFs ['/', '.', 'p', 'y'] = [] := by decide

/-! ### Examples, and where the full claim fails -/

/-- A generator with a scalar `a`, an array `b` of two and a parameter `P`. -/
def demoVars : Str → Option V := fun t =>
  if t = ['a'] then some ⟨true, ⟨1, [1], false⟩, none⟩
  else if t = ['b'] then some ⟨true, ⟨4, [2], false⟩, none⟩
  else if t = ['P'] then some ⟨false, ⟨8, [1], false⟩, none⟩
  else none

theorem demo_ok : VarsOk demoVars := by
  intro t v h
  unfold demoVars at h
  split at h
  · injection h with h; subst h; exact ⟨by decide, by decide, by decide, by decide, by simp⟩
  · split at h
    · injection h with h; subst h; exact ⟨by decide, by decide, by decide, by decide, by simp⟩
    · split at h
      · injection h with h; subst h; exact ⟨by decide, by decide, by decide, by decide, by simp⟩
      · cases h

/-- The hypotheses of `debug_vars_partial` are met. -/
example : Direct demoVars [(['x'], .var ['a']), (['y'], .var ['b']), (['n'], .static ['5']), (['o'], .other)] := by
  intro x v h
  simp only [List.mem_cons, Prod.mk.injEq, List.not_mem_nil, or_false] at h
  rcases h with ⟨rfl, rfl⟩ | ⟨rfl, rfl⟩ | ⟨rfl, rfl⟩ | ⟨rfl, rfl⟩
  · exact ⟨_, rfl, rfl⟩
  · exact ⟨_, rfl, rfl⟩
  · rfl
  · trivial

example : saveVars demoVars (mapping [(['x'], .var ['a']), (['y'], .var ['b']), (['n'], .static ['5'])]) =
    [⟨self ++ ['x'], ['a'], true⟩, ⟨self ++ ['y', '.', '0'], ['b', '[', '0', ']'], true⟩, ⟨self ++ ['y', '.', '1'], ['b', '[', '1', ']'], true⟩,
      ⟨self ++ ['n'], ['5'], false⟩] := by decide +kernel

/-- A Python string that is the name of a variable is shown as that variable. -/
theorem string_taken_for_variable : saveVars demoVars (mapping [(['m'], .static ['a'])]) = [⟨self ++ ['m'], ['a'], true⟩] := by decide +kernel

/-- A slice is shown as a constant string. -/
theorem slice_taken_for_value : saveVars demoVars (mapping [(['s'], .var ['a', '[', '0', ']'])]) = [⟨self ++ ['s'], ['a', '[', '0', ']'], false⟩] := by decide +kernel

/-- A parameter is not shown. -/
theorem parameter_not_shown : saveVars demoVars (mapping [(['p'], .var ['P'])]) = [] := by decide +kernel

theorem not_DebugVarsClaim : ¬ DebugVarsClaim := by
  intro h
  have := (h demoVars [(['m'], .static ['a'])] demo_ok (by simp) ⟨self ++ ['m'], ['a'], true⟩).1 (by rw [string_taken_for_variable]; exact List.mem_cons_self ..)
  obtain ⟨x, v, hx, hs⟩ := this
  rw [List.mem_singleton] at hx
  injection hx with h1 h2
  subst h1; subst h2
  cases hs

/-- Two generators under the top, one dropped with what is below it. -/
example : bfs 4 [.node 0 [(true, .node 1 [(true, .node 3 [])]), (false, .node 2 [(true, .node 4 [])])]] = .ok [0, 1, 3] := by decide

end Kratos.DebugTable
