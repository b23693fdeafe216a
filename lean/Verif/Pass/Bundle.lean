import Verif.Base
import Verif.Pass.Kinds
import Verif.Text.Digits

/-!
# Port bundles become packed structs (property C85)

Models the pass `change_port_bundle_struct`, src/transform.cc:766-890, with what it uses: `Generator::port_packed`
(src/generator.cc:1093-1100, 231-236), `PortPackedStruct` and `PackedSlice::set_up` (src/port.cc:160-198, src/expr.cc:1916-1940),
`Var::move_src_to`, `Var::move_sink_to`, `Var::move_linked_to` (src/expr.cc:1581-1718).

Simplifications: a statement is the list of the signals it uses, each whole or in part, in the order in which `move_…_to` gets to them;
which places of an expression are looked at is property C75.  The statements a port is told about are taken in the order of the design;
in the code the order is that of an unordered set.  Parameters that give a width are left out.
-/

namespace Kratos.Bundle

open Kratos.Kinds (mapRes All2 mapRes_all2)

/-! ### Model -/

abbrev Name := List Char

/-- `PortDirection`, src/context.hh. -/
inductive Dir where
  | inp | out | inout
  deriving DecidableEq, Repr

/-- `PortType`: data, or a clock, a reset, … -/
inductive PType where
  | data | clock | reset
  deriving DecidableEq, Repr

/-- `Port`, src/port.hh: direction, width of one element, sign, sizes, type. -/
structure Port where
  dir : Dir
  width : Nat
  sgn : Bool
  dims : List Nat
  kind : PType
  deriving DecidableEq, Repr

/-- `PackedStructFieldDef`, src/expr.hh. -/
structure Field where
  name : Name
  width : Nat
  sgn : Bool
  deriving DecidableEq, Repr

/-- `PackedStruct`. -/
structure Struct where
  name : Name
  fields : List Field
  deriving DecidableEq, Repr

/-- What a name stands for in a generator (`vars_`, `ports_`): a variable, a port, a port with a struct type. -/
inductive Decl where
  | var
  | port (p : Port)
  | packed (dir : Dir) (s : Struct)
  deriving DecidableEq, Repr

/-- A signal: a variable or port of a generator, or a member of one of its struct ports. -/
inductive Sig where
  | var (g : Nat) (n : Name)
  | field (g : Nat) (n a : Name)
  deriving DecidableEq, Repr

/-- A use of a signal: whole, or the bits `[hi:lo]`. -/
structure Use where
  sig : Sig
  part : Option (Nat × Nat)
  deriving DecidableEq, Repr

/-- A statement: `id` says what it does with the signals; `right` is what `AssignStmt::right` holds, `text` what is printed.  `stuck`:
the two are different pointers, as for `if (p)` where the condition is the port itself (src/stmt.hh:182-183, src/stmt.cc:239-242). -/
structure St where
  gen : Nat
  id : Nat
  left : Use
  right : List Use
  stuck : Bool
  text : List Use
  deriving DecidableEq, Repr

/-- `PortBundleRef`, src/port.hh:147-176, with the name it has in its generator, the generator and its parent. -/
structure Item where
  gen : Nat
  parent : Option Nat
  entry : Name
  defName : Name
  map : List (Name × Name)
  deriving DecidableEq, Repr

/-- A design: declarations, bundles in the order of the walk, statements. -/
structure D where
  decl : Nat → Name → Option Decl
  refs : List Item
  stmts : List St

/-- `generator->get_port(name)` followed by `->`; names in a bundle are ports (src/generator.cc:1225-1228). -/
def portOf (d : D) (g : Nat) (n : Name) : Res Port :=
  match d.decl g n with
  | some (.port p) => .ok p
  | _ => .ub

/-- The loop over the ports of one bundle, src/transform.cc:774-793: the direction, if all is well so far. -/
def scan (d : D) (g : Nat) : Option Dir → List (Name × Name) → Res (Option Dir)
  | dir, [] => .ok dir
  | dir, (_, r) :: m =>
    (portOf d g r).bind fun p =>
      if dir = none ∨ dir = some p.dir then
        if p.dims.length ≠ 1 ∨ 1 < p.dims.headD 0 then .ok none else scan d g (some p.dir) m
      else .ok none

/-- src/transform.cc:771-773, 794: whether the bundle is to be converted. -/
def wanted (d : D) (i : Item) : Res Bool :=
  (scan d i.gen none i.map).map fun dir => decide (dir = some .inp ∨ dir = some .out)

/-- `bundle_mapping_[bundle_name].emplace_back(…)` of a `std::map`, src/transform.cc:796-797. -/
def addTo (n : Name) (x : Item) : List (Name × List Item) → List (Name × List Item)
  | [] => [(n, [x])]
  | (m, xs) :: r => if n = m then (m, xs ++ [x]) :: r else if n < m then (n, [x]) :: (m, xs) :: r else (m, xs) :: addTo n x r

/-- `PortBundleVisitor`, src/transform.cc:766-808. -/
def collect (d : D) : List (Name × List Item) → List Item → Res (List (Name × List Item))
  | acc, [] => .ok acc
  | acc, i :: is => (wanted d i).bind fun b => collect d (if b then addTo i.defName i acc else acc) is

/-- What is known of the ports of a bundle. -/
def fieldsOf (d : D) (i : Item) : Res (List Field) :=
  mapRes (fun (x : Name × Name) => (portOf d i.gen x.2).map fun p => ⟨x.1, p.width, p.sgn⟩) i.map

/-- src/transform.cc:826-830: width of an element, width (the same, as there are no arrays), sign, name.  The names come out of a
`std::map` in order (817-824). -/
def text (fs : List Field) : List Char :=
  fs.flatMap fun f => Text.printNat 10 f.width ++ Text.printNat 10 f.width ++ (if f.sgn then "true".toList else "false".toList) ++ f.name

/-- src/transform.cc:815-841: one hash for each generator. -/
def hashes (H : List Char → Nat) : List (Nat × Nat) → List (Nat × List Field) → Res (List (Nat × Nat))
  | m, [] => .ok m
  | m, (g, fs) :: r =>
    match m.lookup g with
    | some h => if h = H (text fs) then hashes H m r else .throw .user
    | none => hashes H ((g, H (text fs)) :: m) r

/-- src/transform.cc:843-856. -/
def same : List (Nat × Nat) → Res Unit
  | [] => .ok ()
  | (_, h) :: r => if ∀ x ∈ r, x.2 = h then .ok () else .throw .user

/-- `PackedStruct` with the fields of the bundle met last, src/transform.cc:838-839, 857-865. -/
def structOf (n : Name) : List (Nat × List Field) → Res Struct
  | [] => .throw .user
  | [x] => .ok ⟨n, x.2⟩
  | _ :: r => structOf n r

/-- Replacing a signal in the uses of a statement.  A whole use makes the code call `move_linked_to` on the new signal with itself as
argument (src/expr.cc:1586-1587, 1605-1606, 1523-1530): the members of a struct do not take the early exit of line 1680, and the list
of slices taken from the new signal is emptied (1699-1703).  If one of them is in use by a statement done before (`live`), that
statement is left with a pointer to freed memory. -/
def moveUses (t n : Sig) : Bool → List Use → Res (Bool × List Use)
  | live, [] => .ok (live, [])
  | live, u :: us =>
    if u.sig = t then
      if u.part = none ∧ live = true then .ub
      else (moveUses t n (live || u.part.isSome) us).map fun x => (x.1, { u with sig := n } :: x.2)
    else (moveUses t n live us).map fun x => (x.1, u :: x.2)

/-- `Var::move_src_to`, src/expr.cc:1615-1634. -/
def moveSrc (t n : Sig) (g : Nat) : Bool → List St → Res (Bool × List St)
  | live, [] => .ok (live, [])
  | live, s :: ss =>
    if s.gen = g ∧ s.left.sig = t then
      (moveUses t n live [s.left]).bind fun x =>
        (moveSrc t n g x.1 ss).map fun y => (y.1, { s with left := x.2.headD s.left } :: y.2)
    else (moveSrc t n g live ss).map fun y => (y.1, s :: y.2)

/-- `Var::move_sink_to`, src/expr.cc:1646-1667. -/
def moveSink (t n : Sig) (g : Nat) : Bool → List St → Res (Bool × List St)
  | live, [] => .ok (live, [])
  | live, s :: ss =>
    if s.gen = g then
      (moveUses t n live s.right).bind fun x =>
        (moveSink t n g x.1 ss).map fun y =>
          (y.1, { s with right := x.2, text := if s.stuck then s.text else x.2 } :: y.2)
    else (moveSink t n g live ss).map fun y => (y.1, s :: y.2)

/-- `if (p) Var::move_…_to(…, p, …)`. -/
def inParent (f : Nat → Bool → List St → Res (Bool × List St)) : Option Nat → Bool → List St → Res (Bool × List St)
  | some p, live, ss => f p live ss
  | none, live, ss => .ok (live, ss)

/-- One port of a bundle, src/transform.cc:872-889. -/
def convertPort (i : Item) (dir : Dir) (st : Struct) (d : D) (x : Name × Name) : Res D :=
  (portOf d i.gen x.2).bind fun p =>
    if ¬ ∃ f ∈ st.fields, f.name = x.1 then .throw .user
    else if dir ≠ p.dir then .throw .user
    else
      (if dir = .inp then
        (inParent (moveSrc (.var i.gen x.2) (.field i.gen i.entry x.1)) i.parent false d.stmts).bind fun y =>
          moveSink (.var i.gen x.2) (.field i.gen i.entry x.1) i.gen y.1 y.2
      else
        (moveSrc (.var i.gen x.2) (.field i.gen i.entry x.1) i.gen false d.stmts).bind fun y =>
          inParent (moveSink (.var i.gen x.2) (.field i.gen i.entry x.1)) i.parent y.1 y.2).bind fun y =>
      .ok { d with
        decl := fun g n => if g = i.gen ∧ n = x.2 then none else d.decl g n
        stmts := y.2 }

/-- The ports of a bundle, one after the other. -/
def convertPorts (i : Item) (dir : Dir) (st : Struct) : D → List (Name × Name) → Res D
  | d, [] => .ok d
  | d, x :: m => (convertPort i dir st d x).bind fun d' => convertPorts i dir st d' m

/-- One bundle, src/transform.cc:866-893.  `port_packed` (src/generator.cc:1093-1100) refuses a name that is a port; for the name of a
variable the `emplace` keeps the variable, and the reference returned is to the port that has just been destroyed. -/
def convert (st : Struct) (d : D) (i : Item) : Res D :=
  match i.map with
  | [] => .ub
  | (_, r) :: _ =>
    (portOf d i.gen r).bind fun p =>
      match d.decl i.gen i.entry with
      | some .var => .ub
      | some _ => .throw .var
      | none =>
        (convertPorts i p.dir st
          { d with decl := fun g n => if g = i.gen ∧ n = i.entry then some (.packed p.dir st) else d.decl g n } i.map).bind fun d' =>
        .ok { d' with refs := d'.refs.filter fun x => ¬ (x.gen = i.gen ∧ x.entry = i.entry) }

/-- The bundles of one name, src/transform.cc:866. -/
def convertAll (st : Struct) : D → List Item → Res D
  | d, [] => .ok d
  | d, i :: is => (convert st d i).bind fun d' => convertAll st d' is

/-- Turn of `merge_bundle_mapping`, src/transform.cc:812-895. -/
def mergeGroup (H : List Char → Nat) (d : D) (x : Name × List Item) : Res D :=
  (mapRes (fun i => (fieldsOf d i).map fun fs => (i.gen, fs)) x.2).bind fun gs =>
    (hashes H [] gs).bind fun m => (same m).bind fun _ => (structOf x.1 gs).bind fun st => convertAll st d x.2

/-- `merge_bundle_mapping`, src/transform.cc:810-896. -/
def merge (H : List Char → Nat) : D → List (Name × List Item) → Res D
  | d, [] => .ok d
  | d, x :: r => (mergeGroup H d x).bind fun d' => merge H d' r

/-- `change_port_bundle_struct`, src/transform.cc:898-904. -/
def change (H : List Char → Nat) (d : D) : Res D := (collect d [] d.refs).bind fun m => merge H d m

/-! ### Specification -/

/-- The bundles a user expects to be turned into structs: all ports inputs, or all outputs, none of them an array. -/
structure Uniform (d : D) (i : Item) : Prop where
  any : i.map ≠ []
  same : (∀ x ∈ i.map, ∃ p, d.decl i.gen x.2 = some (.port p) ∧ p.dir = .inp) ∨
    (∀ x ∈ i.map, ∃ p, d.decl i.gen x.2 = some (.port p) ∧ p.dir = .out)
  flat : ∀ x ∈ i.map, ∀ p, d.decl i.gen x.2 = some (.port p) → ∃ k, p.dims = [k] ∧ k ≤ 1

/-- A converted bundle `i` and its struct `st`: member for member the old ports. -/
def Mirrors (d : D) (i : Item) (fs : List Field) : Prop :=
  All2 (fun x f => ∃ p, d.decl i.gen x.2 = some (.port p) ∧ f = ⟨x.1, p.width, p.sgn⟩) i.map fs

/-- The port `n` of `g` belongs to the bundle as member `a`. -/
def Item.Has (i : Item) (g : Nat) (n a : Name) : Prop := i.gen = g ∧ (a, n) ∈ i.map

/-- The renaming a user expects: a port of a converted bundle becomes the member of the struct; nothing else changes. -/
inductive Ren (is : List Item) : Sig → Sig → Prop
  | moved {i : Item} {n a : Name} : i ∈ is → (a, n) ∈ i.map → Ren is (.var i.gen n) (.field i.gen i.entry a)
  | kept {s : Sig} : (∀ i ∈ is, ∀ x ∈ i.map, s ≠ .var i.gen x.2) → Ren is s s

/-- A use renamed. -/
def RenU (is : List Item) (u u' : Use) : Prop := Ren is u.sig u'.sig ∧ u'.part = u.part

/-- A statement renamed. -/
structure RenSt (is : List Item) (s s' : St) : Prop where
  gen : s'.gen = s.gen
  id : s'.id = s.id
  left : RenU is s.left s'.left
  text : All2 (RenU is) s.text s'.text

/-- What a statement says under a valuation of the signals; `R` is any meaning of statements. -/
def Sat {V : Type} (R : Nat → V × Option (Nat × Nat) → List (V × Option (Nat × Nat)) → Prop) (ρ : Sig → V) (s : St) : Prop :=
  R s.id (ρ s.left.sig, s.left.part) (s.text.map fun u => (ρ u.sig, u.part))

/-- Full claim: when the pass is through, every statement of the design reads as before, with the members of the structs in place of the
ports of the bundles. -/
def StatementsClaim : Prop := ∀ (H : List Char → Nat) (d d' : D), (∀ x y, H x = H y → x = y) → (∀ s ∈ d.stmts, s.text = s.right) →
  change H d = .ok d' → ∃ is : List Item, (∀ i, i ∈ is ↔ i ∈ d.refs ∧ Uniform d i) ∧ All2 (RenSt is) d.stmts d'.stmts

/-- Full claim: a design in which bundles of one name have one definition and no name is taken twice goes through. -/
def AcceptsClaim : Prop := ∀ (H : List Char → Nat) (d : D), (∀ i ∈ d.refs, ∀ x ∈ i.map, ∃ p, d.decl i.gen x.2 = some (.port p)) →
  (∀ i ∈ d.refs, ∀ j ∈ d.refs, i.defName = j.defName → ∀ fs, Mirrors d i fs → Mirrors d j fs) →
  (∀ i ∈ d.refs, ∀ p, d.decl i.gen i.entry ≠ some (.port p) ∧ ∀ dir st, d.decl i.gen i.entry ≠ some (.packed dir st)) →
  ∃ d', change H d = .ok d'

/-- Full claim: bundles of one name with different definitions are told apart before anything is changed. -/
def DefinitionsClaim : Prop := ∀ (H : List Char → Nat) (gs : List (Nat × List Field)) (m : List (Nat × Nat)), (∀ x y, H x = H y → x = y) →
  hashes H [] gs = .ok m → same m = .ok () → ∀ x ∈ gs, ∀ y ∈ gs, x.2 = y.2

/-! ### Which bundles -/

theorem portOf_ok {d : D} {g : Nat} {n : Name} {p : Port} : portOf d g n = .ok p ↔ d.decl g n = some (.port p) := by
  rw [portOf]
  split
  · rename_i q h; rw [h]; simp
  · rename_i h
    constructor
    · intro h'; cases h'
    · intro h'; exact absurd h' (h p)

theorem flat_iff {l : List Nat} : ¬ (l.length ≠ 1 ∨ 1 < l.headD 0) ↔ ∃ k, l = [k] ∧ k ≤ 1 := by
  cases l with
  | nil => simp
  | cons a l => cases l with
    | nil => simp
    | cons b l => simp

theorem scan_some {d : D} {g : Nat} : ∀ (m : List (Name × Name)) (dir : Option Dir) (b : Dir), scan d g dir m = .ok (some b) →
    (dir = none ∨ dir = some b) ∧ (m = [] → dir = some b) ∧
      ∀ x ∈ m, ∃ p, d.decl g x.2 = some (.port p) ∧ p.dir = b ∧ ∃ k, p.dims = [k] ∧ k ≤ 1
  | [], dir, b, h => by
    rw [scan, Res.ok.injEq] at h
    exact ⟨.inr h, fun _ => h, fun x hx => by cases hx⟩
  | (a, r) :: m, dir, b, h => by
    simp only [scan, Res.bind_eq_ok] at h
    obtain ⟨p, hp, h⟩ := h
    rw [portOf_ok] at hp
    split at h
    · rename_i hd
      split at h
      · simp at h
      · rename_i hf
        obtain ⟨h1, h2, h3⟩ := scan_some m (some p.dir) b h
        have hb : p.dir = b := by rcases h1 with h1 | h1 <;> simp_all
        refine ⟨by rw [← hb]; exact hd, by simp, fun x hx => ?_⟩
        rcases List.mem_cons.1 hx with rfl | hx
        · exact ⟨p, hp, hb, flat_iff.1 hf⟩
        · exact h3 x hx
    · simp at h

theorem scan_none {d : D} {g : Nat} : ∀ (m : List (Name × Name)) (dir : Option Dir) (r : Option Dir), scan d g dir m = .ok r →
    ∀ b, (dir = none ∨ dir = some b) → (m ≠ [] ∨ dir = some b) →
    (∀ x ∈ m, ∃ p, d.decl g x.2 = some (.port p) ∧ p.dir = b ∧ ∃ k, p.dims = [k] ∧ k ≤ 1) → r = some b
  | [], dir, r, h, b, h1, h2, _ => by
    rw [scan, Res.ok.injEq] at h
    rcases h2 with h2 | h2
    · simp at h2
    · rw [← h, h2]
  | (a, n) :: m, dir, r, h, b, h1, h2, h3 => by
    simp only [scan, Res.bind_eq_ok] at h
    obtain ⟨p, hp, h⟩ := h
    rw [portOf_ok] at hp
    obtain ⟨q, hq, hb, hf⟩ := h3 (a, n) List.mem_cons_self
    simp only [hp, Option.some.injEq, Decl.port.injEq] at hq
    subst hq
    rw [if_pos (by rw [hb]; exact h1), if_neg (flat_iff.2 hf)] at h
    exact scan_none m (some p.dir) r h b (.inr (by rw [hb])) (.inr (by rw [hb])) fun x hx => h3 x (List.mem_cons_of_mem _ hx)

/-- **C85, which bundles.**  A bundle is converted exactly when all its ports are inputs, or all are outputs, and none is an array. -/
theorem wanted_iff {d : D} {i : Item} {b : Bool} (h : wanted d i = .ok b) : b = true ↔ Uniform d i := by
  rw [wanted] at h
  cases hs : scan d i.gen none i.map with
  | throw e => rw [hs] at h; cases h
  | ub => rw [hs] at h; cases h
  | ok r =>
    rw [hs] at h
    simp only [Res.ok_map, Res.ok.injEq] at h
    subst h
    rw [decide_eq_true_eq]
    constructor
    · intro hr
      have key : ∀ b, r = some b → i.map ≠ [] ∧ ∀ x ∈ i.map, ∃ p, d.decl i.gen x.2 = some (.port p) ∧ p.dir = b ∧
          ∃ k, p.dims = [k] ∧ k ≤ 1 := fun b hb => by
        rw [hb] at hs
        obtain ⟨_, h2, h3⟩ := scan_some i.map none b hs
        exact ⟨fun h' => (nomatch h2 h'), h3⟩
      have flat : ∀ b, r = some b → ∀ x ∈ i.map, ∀ p, d.decl i.gen x.2 = some (.port p) → ∃ k, p.dims = [k] ∧ k ≤ 1 := by
        intro b hb x hx p hp
        obtain ⟨q, hq, _, hk⟩ := (key b hb).2 x hx
        rw [hp] at hq
        simp only [Option.some.injEq, Decl.port.injEq] at hq
        subst hq; exact hk
      rcases hr with hr | hr
      · refine ⟨(key _ hr).1, .inl fun x hx => ?_, flat _ hr⟩
        obtain ⟨p, hp, hd, _⟩ := (key _ hr).2 x hx
        exact ⟨p, hp, hd⟩
      · refine ⟨(key _ hr).1, .inr fun x hx => ?_, flat _ hr⟩
        obtain ⟨p, hp, hd, _⟩ := (key _ hr).2 x hx
        exact ⟨p, hp, hd⟩
    · rintro ⟨hne, hd, hf⟩
      have key : ∀ b, (∀ x ∈ i.map, ∃ p, d.decl i.gen x.2 = some (.port p) ∧ p.dir = b) → r = some b := fun b hb => by
        refine scan_none i.map none r hs b (.inl rfl) (.inl hne) fun x hx => ?_
        obtain ⟨p, hp, hpd⟩ := hb x hx
        exact ⟨p, hp, hpd, hf x hx p hp⟩
      rcases hd with hd | hd
      · exact .inl (key _ hd)
      · exact .inr (key _ hd)

/-! ### Definitions -/

theorem digits_split {a b : Nat} {s t : Bool} {x y : List Char}
    (h : Text.printNat 10 a ++ Text.printNat 10 a ++ (if s then "true".toList else "false".toList) ++ x =
      Text.printNat 10 b ++ Text.printNat 10 b ++ (if t then "true".toList else "false".toList) ++ y) : a = b ∧ s = t ∧ x = y := by
  have hd : ∀ n, ∀ c ∈ Text.printNat 10 n ++ Text.printNat 10 n, (Text.digitVal 10 c).isSome := fun n c hc => by
    rcases List.mem_append.1 hc with hc | hc <;> exact Text.printNat_digits (.inl rfl) n c hc
  have hh : ∀ (s : Bool) (x : List Char), ∀ c, ((if s then "true".toList else "false".toList) ++ x).head? = some c →
      (Text.digitVal 10 c).isSome = false := fun s x c hc => by
    cases s
    · have : c = 'f' := by simpa using hc.symm
      subst this; decide
    · have : c = 't' := by simpa using hc.symm
      subst this; decide
  have e1 := Text.takeDigits_append 10 _ _ (hd a) (hh s x)
  have e2 := Text.takeDigits_append 10 _ _ (hd b) (hh t y)
  rw [List.append_assoc, List.append_assoc (Text.printNat 10 b ++ Text.printNat 10 b)] at h
  rw [h, e2, Prod.mk.injEq] at e1
  obtain ⟨h1, h2⟩ := e1
  have hl : (Text.printNat 10 b).length = (Text.printNat 10 a).length := by
    have := congrArg List.length h1
    simp only [List.length_append] at this
    omega
  have hp := (List.append_inj h1 hl).1
  have hab : a = b := by
    have := Text.readNat_printNat (.inl rfl : (10 : Nat) = 10 ∨ (10 : Nat) = 16) a
    rw [← hp, Text.readNat_printNat (.inl rfl)] at this
    simpa using this.symm
  refine ⟨hab, ?_⟩
  cases s <;> cases t
  · exact ⟨rfl, by simpa using h2.symm⟩
  · simp at h2
  · simp at h2
  · exact ⟨rfl, by simpa using h2.symm⟩

/-- With the names given, the text that is hashed tells definitions apart. -/
theorem text_inj : ∀ (fs gs : List Field), fs.map (fun f => f.name) = gs.map (fun f => f.name) → text fs = text gs → fs = gs
  | [], [], _, _ => rfl
  | [], _ :: _, h, _ => by simp at h
  | _ :: _, [], h, _ => by simp at h
  | f :: fs, g :: gs, h, ht => by
    simp only [List.map_cons, List.cons.injEq] at h
    simp only [text, List.flatMap_cons, List.append_assoc] at ht
    have ht' : Text.printNat 10 f.width ++ Text.printNat 10 f.width ++ (if f.sgn then "true".toList else "false".toList) ++
        (f.name ++ text fs) = Text.printNat 10 g.width ++ Text.printNat 10 g.width ++
        (if g.sgn then "true".toList else "false".toList) ++ (g.name ++ text gs) := by
      simp only [text, List.append_assoc]; exact ht
    obtain ⟨h1, h2, h3⟩ := digits_split ht'
    rw [h.1] at h3
    have h4 := List.append_cancel_left h3
    rw [text_inj fs gs h.2 h4]
    cases f; cases g; simp_all

theorem lookup_mem {g h : Nat} : ∀ {m : List (Nat × Nat)}, m.lookup g = some h → (g, h) ∈ m
  | [], h' => by simp at h'
  | (a, b) :: m, h' => by
    rw [List.lookup_cons] at h'
    split at h'
    · rename_i he
      rw [beq_iff_eq] at he
      simp only [Option.some.injEq] at h'
      rw [he, h']; exact List.mem_cons_self
    · exact List.mem_cons_of_mem _ (lookup_mem h')

theorem hashes_mem {H : List Char → Nat} : ∀ (gs : List (Nat × List Field)) (m m' : List (Nat × Nat)), hashes H m gs = .ok m' →
    (∀ y ∈ m, y ∈ m') ∧ ∀ x ∈ gs, (x.1, H (text x.2)) ∈ m'
  | [], m, m', h => by
    rw [hashes, Res.ok.injEq] at h
    subst h
    exact ⟨fun _ hx => hx, fun x hx => by cases hx⟩
  | (g, fs) :: r, m, m', h => by
    rw [hashes] at h
    split at h
    · rename_i k hk
      split at h
      · rename_i he
        obtain ⟨h1, h2⟩ := hashes_mem r m m' h
        refine ⟨h1, fun x hx => ?_⟩
        rcases List.mem_cons.1 hx with rfl | hx
        · rw [← he]; exact h1 _ (lookup_mem hk)
        · exact h2 x hx
      · cases h
    · obtain ⟨h1, h2⟩ := hashes_mem r _ m' h
      refine ⟨fun y hy => h1 y (List.mem_cons_of_mem _ hy), fun x hx => ?_⟩
      rcases List.mem_cons.1 hx with rfl | hx
      · exact h1 _ List.mem_cons_self
      · exact h2 x hx

theorem same_iff : ∀ {m : List (Nat × Nat)}, same m = .ok () ↔ ∀ x ∈ m, ∀ y ∈ m, x.2 = y.2
  | [] => by simp [same]
  | (g, h) :: r => by
    rw [same]
    split
    · rename_i ha
      refine ⟨fun _ => ?_, fun _ => rfl⟩
      have : ∀ x ∈ (g, h) :: r, x.2 = h := fun x hx => by
        rcases List.mem_cons.1 hx with rfl | hx
        · rfl
        · exact ha x hx
      intro x hx y hy
      rw [this x hx, this y hy]
    · rename_i ha
      refine ⟨fun h' => (nomatch h'), fun h' => absurd (fun x hx => ?_) ha⟩
      exact h' x (List.mem_cons_of_mem _ hx) (g, h) List.mem_cons_self

theorem hashes_ok {H : List Char → Nat} {k : Nat} : ∀ (gs : List (Nat × List Field)) (m : List (Nat × Nat)),
    (∀ x ∈ gs, H (text x.2) = k) → (∀ x ∈ m, x.2 = k) → ∃ m', hashes H m gs = .ok m' ∧ ∀ x ∈ m', x.2 = k
  | [], m, _, h => ⟨m, rfl, h⟩
  | (g, fs) :: r, m, hg, h => by
    have hr : ∀ x ∈ r, H (text x.2) = k := fun x hx => hg x (List.mem_cons_of_mem _ hx)
    have h0 : H (text fs) = k := hg (g, fs) List.mem_cons_self
    rw [hashes]
    split
    · rename_i j hj
      rw [if_pos (by rw [h0]; exact h _ (lookup_mem hj))]
      exact hashes_ok r m hr h
    · refine hashes_ok r _ hr fun x hx => ?_
      rcases List.mem_cons.1 hx with rfl | hx
      · exact h0
      · exact h x hx

/-- **C85, definitions (partial).**  Bundles of one name whose members have the same names are accepted exactly when widths and signs
agree as well, provided the hash does not collide. -/
theorem definitions_partial (H : List Char → Nat) (gs : List (Nat × List Field)) (hH : ∀ x y, H x = H y → x = y)
    (hn : ∀ x ∈ gs, ∀ y ∈ gs, x.2.map (fun f => f.name) = y.2.map (fun f => f.name)) :
    (∃ m, hashes H [] gs = .ok m ∧ same m = .ok ()) ↔ ∀ x ∈ gs, ∀ y ∈ gs, x.2 = y.2 := by
  constructor
  · rintro ⟨m, hm, hs⟩ x hx y hy
    have h1 := (hashes_mem gs [] m hm).2
    have := same_iff.1 hs _ (h1 x hx) _ (h1 y hy)
    exact text_inj _ _ (hn x hx y hy) (hH _ _ this)
  · intro h
    cases gs with
    | nil => exact ⟨[], rfl, rfl⟩
    | cons x r =>
      obtain ⟨m, hm, hk⟩ := hashes_ok (H := H) (k := H (text x.2)) (x :: r) []
        (fun y hy => by rw [h y hy x List.mem_cons_self]) (fun y hy => by cases hy)
      exact ⟨m, hm, same_iff.2 fun a ha b hb => by rw [hk a ha, hk b hb]⟩

/-- Two definitions with one text: `{x : 8 bits, y : 11 bits}` and `{x11 : 8 bits, y : 1 bit}`. -/
theorem text_ambiguous_wrong : text [⟨"x".toList, 8, false⟩, ⟨"y".toList, 11, false⟩] = text [⟨"x11".toList, 8, false⟩, ⟨"y".toList, 1, false⟩] := by
  decide +kernel

/-- A hash without collisions, for examples. -/
def enc (l : List Char) : Nat := l.foldr (fun c n => n * 2 ^ 32 + c.toNat + 1) 0

theorem enc_inj : ∀ x y, enc x = enc y → x = y := by
  intro x
  induction x with
  | nil =>
    intro y hy
    cases y with
    | nil => rfl
    | cons c y => simp [enc] at hy
  | cons c x ih =>
    intro y hy
    cases y with
    | nil => simp [enc] at hy
    | cons e y =>
      simp only [enc, List.foldr_cons] at hy
      have hc : ∀ c : Char, c.toNat + 1 < 2 ^ 32 := fun c => by
        have := c.valid
        have h2 : c.toNat < 0x110000 := by
          rcases this with h | h
          · exact Nat.lt_trans h (by decide)
          · exact h.2
        have h3 : (0x110000 : Nat) + 1 < 2 ^ 32 := by decide
        omega
      have h1 := hc c
      have h2 := hc e
      have hm := congrArg (· % 2 ^ 32) hy
      have hq := congrArg (· / 2 ^ 32) hy
      rw [Nat.add_assoc, Nat.add_assoc, Nat.mul_add_mod_self_right, Nat.mul_add_mod_self_right, Nat.mod_eq_of_lt h1,
        Nat.mod_eq_of_lt h2] at hm
      rw [Nat.add_assoc, Nat.add_assoc, Nat.mul_comm _ (2 ^ 32), Nat.mul_comm _ (2 ^ 32), Nat.mul_add_div (by decide),
        Nat.mul_add_div (by decide), Nat.div_eq_of_lt h1, Nat.div_eq_of_lt h2, Nat.add_zero, Nat.add_zero] at hq
      rw [ih y hq]
      have : c.toNat = e.toNat := by omega
      rw [Char.ext (UInt32.toNat_inj.1 this)]

theorem not_DefinitionsClaim : ¬ DefinitionsClaim := by
  intro h
  have hH := enc_inj
  generalize enc = H at hH
  let gs : List (Nat × List Field) := [(0, [⟨"x".toList, 8, false⟩, ⟨"y".toList, 11, false⟩]), (1, [⟨"x11".toList, 8, false⟩, ⟨"y".toList, 1, false⟩])]
  have ht : ∀ x ∈ gs, H (text x.2) = H (text [⟨"x".toList, 8, false⟩, ⟨"y".toList, 11, false⟩]) := by
    intro x hx
    simp only [gs, List.mem_cons, List.not_mem_nil, or_false] at hx
    rcases hx with rfl | rfl
    · rfl
    · simp only; rw [text_ambiguous_wrong]
  obtain ⟨m, hm, hk⟩ := hashes_ok gs [] ht (fun y hy => by cases hy)
  have := h H gs m hH hm (same_iff.2 fun a ha b hb => by rw [hk a ha, hk b hb]) _ List.mem_cons_self _
    (List.mem_cons_of_mem _ List.mem_cons_self)
  exact absurd this (by decide)

/-! ### Layout -/

/-- The first bit of a member: `PackedSlice::set_up`, src/expr.cc:1918-1933; width and first bit. -/
def place : Nat → List Field → Name → Option (Nat × Nat)
  | _, [], _ => none
  | low, f :: fs, n => if f.name = n then some (low, f.width) else place (low + f.width) fs n

/-- `PackedStruct::bitwidth`, src/expr.cc:1876-1882. -/
def bitwidth (fs : List Field) : Nat := fs.foldl (fun n f => n + f.width) 0

theorem foldl_width : ∀ (fs : List Field) (n : Nat), fs.foldl (fun n f => n + f.width) n = n + (fs.map fun f => f.width).sum
  | [], n => by simp
  | f :: fs, n => by rw [List.foldl_cons, foldl_width fs, List.map_cons, List.sum_cons, Nat.add_assoc]

theorem place_of_mem : ∀ (fs : List Field) (low : Nat), (fs.map fun f => f.name).Nodup → ∀ f ∈ fs, ∃ k,
    place low fs f.name = some (low + k, f.width) ∧ k + f.width ≤ (fs.map fun f => f.width).sum
  | [], _, _, f, hf => by cases hf
  | f0 :: fs, low, hn, f, hf => by
    rw [List.map_cons, List.nodup_cons] at hn
    rcases List.mem_cons.1 hf with rfl | hf
    · exact ⟨0, by simp [place], by simp⟩
    · have hne : f0.name ≠ f.name := fun h => hn.1 (h ▸ List.mem_map_of_mem hf)
      obtain ⟨k, h1, h2⟩ := place_of_mem fs (low + f0.width) hn.2 f hf
      refine ⟨f0.width + k, ?_, ?_⟩
      · rw [place, if_neg hne, h1, Nat.add_assoc]
      · rw [List.map_cons, List.sum_cons]; omega

/-- The bits of the member `n` of the value `v` of a struct. -/
def member (fs : List Field) (v : List Bool) (n : Name) : Option (List Bool) :=
  (place 0 fs n).map fun x => (v.drop x.1).take x.2

theorem place_shift : ∀ (fs : List Field) (low k : Nat) (n : Name), place (low + k) fs n = (place low fs n).map fun x => (x.1 + k, x.2)
  | [], _, _, _ => rfl
  | f :: fs, low, k, n => by
    rw [place, place]
    split
    · rfl
    · rw [show low + k + f.width = low + f.width + k by omega, place_shift fs (low + f.width) k n]

/-- **C85, layout.**  The members of the struct share no bit and leave none out: for every choice of values of the members there is
exactly one value of the port with these members. -/
theorem layout : ∀ (fs : List Field), (fs.map fun f => f.name).Nodup → ∀ (val : Name → List Bool),
    (∀ f ∈ fs, (val f.name).length = f.width) →
    ∃ v : List Bool, (v.length = bitwidth fs ∧ ∀ f ∈ fs, member fs v f.name = some (val f.name)) ∧
      ∀ w : List Bool, w.length = bitwidth fs → (∀ f ∈ fs, member fs w f.name = some (val f.name)) → w = v
  | [], _, _, _ => ⟨[], ⟨rfl, fun f hf => by cases hf⟩, fun w hw _ => List.eq_nil_of_length_eq_zero hw⟩
  | f :: fs, hn, val, hv => by
    have hb : bitwidth (f :: fs) = f.width + bitwidth fs := by
      rw [bitwidth, bitwidth, foldl_width, foldl_width]; simp
    have hn' := hn
    rw [List.map_cons, List.nodup_cons] at hn
    obtain ⟨v, ⟨hl, hm⟩, hu⟩ := layout fs hn.2 val fun g hg => hv g (List.mem_cons_of_mem _ hg)
    have hf := hv f List.mem_cons_self
    have hne : ∀ g ∈ fs, f.name ≠ g.name := fun g hg h => hn.1 (h ▸ List.mem_map_of_mem hg)
    have tailv : ∀ (a u : List Bool) (g : Field), a.length = f.width → g ∈ fs → member (f :: fs) (a ++ u) g.name = member fs u g.name := by
      intro a u g ha hg
      rw [member, member, place, if_neg (hne g hg), show 0 + f.width = 0 + f.width from rfl, place_shift fs 0 f.width]
      cases place 0 fs g.name with
      | none => rfl
      | some x =>
        simp only [Option.map_some]
        rw [← ha, Nat.add_comm, List.drop_append, List.drop_of_length_le (by omega), List.nil_append,
          show a.length + x.1 - a.length = x.1 by omega]
    have headv : ∀ (a u : List Bool), a.length = f.width → member (f :: fs) (a ++ u) f.name = some a := by
      intro a u ha
      rw [member, place, if_pos rfl]
      simp [← ha]
    refine ⟨val f.name ++ v, ⟨by rw [List.length_append, hf, hl, hb], fun g hg => ?_⟩, fun w hw hx => ?_⟩
    · rcases List.mem_cons.1 hg with rfl | hg
      · exact headv _ _ hf
      · rw [tailv _ _ g hf hg]; exact hm g hg
    · have hlen : f.width ≤ w.length := by rw [hw, hb]; omega
      have hw' : w = w.take f.width ++ w.drop f.width := (List.take_append_drop _ _).symm
      have ht : (w.take f.width).length = f.width := by rw [List.length_take]; omega
      have h1 := hx f List.mem_cons_self
      rw [hw', headv _ _ ht, Option.some.injEq] at h1
      have h2 : w.drop f.width = v := by
        refine hu _ (by rw [List.length_drop, hw, hb]; omega) fun g hg => ?_
        have := hx g (List.mem_cons_of_mem _ hg)
        rw [hw', tailv _ _ g ht hg] at this
        exact this
      rw [hw', h1, h2]

/-! ### The moves -/

section
variable {t n : Sig}

/-- A use with `t` replaced. -/
def setU (t n : Sig) (u : Use) : Use := if u.sig = t then { u with sig := n } else u

theorem moveUses_ok : ∀ (us : List Use) (l l' : Bool) (us' : List Use), moveUses t n l us = .ok (l', us') → us' = us.map (setU t n)
  | [], l, l', us', h => by simp only [moveUses, Res.ok.injEq, Prod.mk.injEq] at h; rw [← h.2]; rfl
  | u :: us, l, l', us', h => by
    rw [moveUses] at h
    split at h
    · rename_i hu
      split at h
      · cases h
      · cases hm : moveUses t n (l || u.part.isSome) us with
        | throw e => rw [hm] at h; cases h
        | ub => rw [hm] at h; cases h
        | ok x =>
          rw [hm] at h
          simp only [Res.ok_map, Res.ok.injEq, Prod.mk.injEq] at h
          rw [← h.2, moveUses_ok us _ x.1 x.2 hm, List.map_cons, setU, if_pos hu]
    · rename_i hu
      cases hm : moveUses t n l us with
      | throw e => rw [hm] at h; cases h
      | ub => rw [hm] at h; cases h
      | ok x =>
        rw [hm] at h
        simp only [Res.ok_map, Res.ok.injEq, Prod.mk.injEq] at h
        rw [← h.2, moveUses_ok us _ x.1 x.2 hm, List.map_cons, setU, if_neg hu]

theorem moveSrc_ok {g : Nat} : ∀ (ss : List St) (l l' : Bool) (ss' : List St), moveSrc t n g l ss = .ok (l', ss') →
    ss' = ss.map fun s => if s.gen = g then { s with left := setU t n s.left } else s
  | [], l, l', ss', h => by simp only [moveSrc, Res.ok.injEq, Prod.mk.injEq] at h; rw [← h.2]; rfl
  | s :: ss, l, l', ss', h => by
    rw [moveSrc] at h
    split at h
    · rename_i hs
      rw [Res.bind_eq_ok] at h
      obtain ⟨x, hx, h⟩ := h
      have hx2 := moveUses_ok _ _ x.1 x.2 hx
      cases hm : moveSrc t n g x.1 ss with
      | throw e => rw [hm] at h; cases h
      | ub => rw [hm] at h; cases h
      | ok y =>
        rw [hm] at h
        simp only [Res.ok_map, Res.ok.injEq, Prod.mk.injEq] at h
        rw [← h.2, moveSrc_ok ss _ y.1 y.2 hm, List.map_cons, if_pos hs.1, hx2]
        rfl
    · rename_i hs
      cases hm : moveSrc t n g l ss with
      | throw e => rw [hm] at h; cases h
      | ub => rw [hm] at h; cases h
      | ok y =>
        rw [hm] at h
        simp only [Res.ok_map, Res.ok.injEq, Prod.mk.injEq] at h
        rw [← h.2, moveSrc_ok ss _ y.1 y.2 hm, List.map_cons]
        congr 1
        split
        · rename_i hg
          have : setU t n s.left = s.left := by rw [setU, if_neg fun h' => hs ⟨hg, h'⟩]
          rw [this]
        · rfl

theorem moveSink_ok {g : Nat} : ∀ (ss : List St) (l l' : Bool) (ss' : List St), moveSink t n g l ss = .ok (l', ss') →
    ss' = ss.map fun s => if s.gen = g then
      { s with right := s.right.map (setU t n), text := if s.stuck then s.text else s.right.map (setU t n) } else s
  | [], l, l', ss', h => by simp only [moveSink, Res.ok.injEq, Prod.mk.injEq] at h; rw [← h.2]; rfl
  | s :: ss, l, l', ss', h => by
    rw [moveSink] at h
    split at h
    · rename_i hs
      rw [Res.bind_eq_ok] at h
      obtain ⟨x, hx, h⟩ := h
      have hx2 := moveUses_ok _ _ x.1 x.2 hx
      cases hm : moveSink t n g x.1 ss with
      | throw e => rw [hm] at h; cases h
      | ub => rw [hm] at h; cases h
      | ok y =>
        rw [hm] at h
        simp only [Res.ok_map, Res.ok.injEq, Prod.mk.injEq] at h
        rw [← h.2, moveSink_ok ss _ y.1 y.2 hm, List.map_cons, if_pos hs, hx2]
    · rename_i hs
      cases hm : moveSink t n g l ss with
      | throw e => rw [hm] at h; cases h
      | ub => rw [hm] at h; cases h
      | ok y =>
        rw [hm] at h
        simp only [Res.ok_map, Res.ok.injEq, Prod.mk.injEq] at h
        rw [← h.2, moveSink_ok ss _ y.1 y.2 hm, List.map_cons, if_neg hs]

/-- A statement with `t` replaced everywhere. -/
def setS (t n : Sig) (s : St) : St :=
  { s with left := setU t n s.left, right := s.right.map (setU t n), text := s.text.map (setU t n) }

theorem setU_of_ne {u : Use} (h : u.sig ≠ t) : setU t n u = u := by rw [setU, if_neg h]

theorem map_setU_of_ne {us : List Use} (h : ∀ u ∈ us, u.sig ≠ t) : us.map (setU t n) = us := by
  rw [List.map_congr_left fun u hu => setU_of_ne (h u hu), List.map_id']

end

/-- The statements that write, and those that read, a port `x` of bundle `i` are where they belong: an input is written in the parent and
read inside, an output is written inside and read in the parent.  No test is of the port itself. -/
structure Placed (i : Item) (x : Name × Name) (dir : Dir) (s : St) : Prop where
  text : s.text = s.right
  write : s.left.sig = .var i.gen x.2 → some s.gen = if dir = .inp then i.parent else some i.gen
  read : (∃ u ∈ s.text, u.sig = .var i.gen x.2) → (some s.gen = if dir = .inp then some i.gen else i.parent) ∧ s.stuck = false

theorem src_placed {i : Item} {x : Name × Name} {n : Sig} {q : Option Nat} {ss ss' : List St} {l l' : Bool}
    (hw : ∀ s ∈ ss, s.left.sig = .var i.gen x.2 → some s.gen = q)
    (h : inParent (moveSrc (.var i.gen x.2) n) q l ss = .ok (l', ss')) :
    ss' = ss.map fun s => { s with left := setU (.var i.gen x.2) n s.left } := by
  have : ss' = ss.map fun s => if some s.gen = q then { s with left := setU (.var i.gen x.2) n s.left } else s := by
    cases q with
    | none =>
      simp only [inParent, Res.ok.injEq, Prod.mk.injEq] at h
      rw [← h.2]
      simp
    | some g =>
      rw [moveSrc_ok ss l l' ss' h]
      refine List.map_congr_left fun s _ => ?_
      simp only [Option.some.injEq]
  rw [this]
  refine List.map_congr_left fun s hs => ?_
  split
  · rfl
  · rename_i hq
    rw [setU_of_ne fun h' => hq (hw s hs h')]

theorem sink_placed {i : Item} {x : Name × Name} {n : Sig} {q : Option Nat} {ss ss' : List St} {l l' : Bool}
    (ht : ∀ s ∈ ss, s.text = s.right)
    (hr : ∀ s ∈ ss, (∃ u ∈ s.text, u.sig = .var i.gen x.2) → some s.gen = q ∧ s.stuck = false)
    (h : inParent (moveSink (.var i.gen x.2) n) q l ss = .ok (l', ss')) :
    ss' = ss.map fun s => { s with right := s.right.map (setU (.var i.gen x.2) n), text := s.text.map (setU (.var i.gen x.2) n) } := by
  have : ss' = ss.map fun s => if some s.gen = q then
      { s with right := s.right.map (setU (.var i.gen x.2) n),
               text := if s.stuck then s.text else s.right.map (setU (.var i.gen x.2) n) } else s := by
    cases q with
    | none =>
      simp only [inParent, Res.ok.injEq, Prod.mk.injEq] at h
      rw [← h.2]
      simp
    | some g =>
      rw [moveSink_ok ss l l' ss' h]
      refine List.map_congr_left fun s _ => ?_
      simp only [Option.some.injEq]
  rw [this]
  refine List.map_congr_left fun s hs => ?_
  by_cases hu : ∃ u ∈ s.text, u.sig = .var i.gen x.2
  · obtain ⟨h1, h2⟩ := hr s hs hu
    rw [if_pos h1, h2, ht s hs]
    simp
  · have h1 : s.text.map (setU (.var i.gen x.2) n) = s.text := map_setU_of_ne fun u hu' h' => hu ⟨u, hu', h'⟩
    have h2 : s.right.map (setU (.var i.gen x.2) n) = s.right := by rw [← ht s hs]; exact h1
    rw [h1, h2]
    split
    · cases s with
      | mk a b c e f k =>
        have : k = e := ht _ hs
        subst this
        simp
    · rfl

theorem convertPort_ok {i : Item} {dir : Dir} {st : Struct} {d d' : D} {x : Name × Name} (h : convertPort i dir st d x = .ok d') :
    (∃ p, d.decl i.gen x.2 = some (.port p) ∧ p.dir = dir) ∧ (∃ f ∈ st.fields, f.name = x.1) ∧
      (∀ g m, d'.decl g m = if g = i.gen ∧ m = x.2 then none else d.decl g m) ∧ d'.refs = d.refs ∧
      ((∀ s ∈ d.stmts, Placed i x dir s) → d'.stmts = d.stmts.map (setS (.var i.gen x.2) (.field i.gen i.entry x.1))) := by
  simp only [convertPort, Res.bind_eq_ok] at h
  obtain ⟨p, hp, h⟩ := h
  rw [portOf_ok] at hp
  split at h
  · cases h
  · rename_i hf
    split at h
    · cases h
    · rename_i hd
      rw [Res.bind_eq_ok] at h
      obtain ⟨y, hy, h⟩ := h
      rw [Res.ok.injEq] at h
      subst h
      refine ⟨⟨p, hp, (Classical.not_not.1 hd).symm⟩, Classical.not_not.1 hf, fun g m => rfl, rfl, fun hpl => ?_⟩
      have key : ∀ (l l' : Bool) (qs qr : Option Nat) (z : Bool × List St),
          (qs = if dir = .inp then i.parent else some i.gen) → (qr = if dir = .inp then some i.gen else i.parent) →
          inParent (moveSrc (.var i.gen x.2) (.field i.gen i.entry x.1)) qs l d.stmts = .ok z →
          inParent (moveSink (.var i.gen x.2) (.field i.gen i.entry x.1)) qr z.1 z.2 = .ok y →
          y.2 = d.stmts.map (setS (.var i.gen x.2) (.field i.gen i.entry x.1)) := by
        intro l l' qs qr z hqs hqr h1 h2
        have e1 := src_placed (fun s hs h' => by rw [hqs]; exact (hpl s hs).write h') h1
        have e2 := sink_placed (ss := z.2) (ss' := y.2) (x := x) (i := i) ?_ ?_ h2
        · rw [e2, e1, List.map_map]; rfl
        · intro s hs
          rw [e1] at hs
          obtain ⟨s0, hs0, rfl⟩ := List.mem_map.1 hs
          exact (hpl s0 hs0).text
        · intro s hs hu
          rw [e1] at hs
          obtain ⟨s0, hs0, rfl⟩ := List.mem_map.1 hs
          rw [hqr]
          exact (hpl s0 hs0).read hu
      split at hy
      · rename_i hi
        rw [Res.bind_eq_ok] at hy
        obtain ⟨z, hz, hy⟩ := hy
        exact key false false i.parent (some i.gen) z (by rw [if_pos hi]) (by rw [if_pos hi]) hz hy
      · rename_i hi
        rw [Res.bind_eq_ok] at hy
        obtain ⟨z, hz, hy⟩ := hy
        exact key false false (some i.gen) i.parent z (by rw [if_neg hi]) (by rw [if_neg hi]) hz hy

/-- The pairs of signals of a bundle. -/
def pairs (i : Item) (m : List (Name × Name)) : List (Sig × Sig) := m.map fun x => (.var i.gen x.2, .field i.gen i.entry x.1)

/-- The replacements, one after the other. -/
def setAll (ps : List (Sig × Sig)) (ss : List St) : List St := ps.foldl (fun ss p => ss.map (setS p.1 p.2)) ss

theorem setU_var {t n : Sig} {u : Use} {g : Nat} {m : Name} (hn : ∀ g m, n ≠ .var g m) (h : (setU t n u).sig = .var g m) :
    u.sig = .var g m := by
  rw [setU] at h
  split at h
  · exact absurd h (hn g m)
  · exact h

theorem placed_setS {i j : Item} {x y : Name × Name} {dir : Dir} {s : St} (h : Placed i x dir s) :
    Placed i x dir (setS (.var j.gen y.2) (.field j.gen j.entry y.1) s) := by
  refine ⟨by simp only [setS]; rw [h.text], fun hl => h.write (setU_var (fun _ _ h => by cases h) hl), fun ⟨u, hu, hs⟩ => h.read ?_⟩
  obtain ⟨u0, hu0, rfl⟩ := List.mem_map.1 hu
  exact ⟨u0, hu0, setU_var (fun _ _ h => by cases h) hs⟩

theorem convertPorts_ok {i : Item} {dir : Dir} {st : Struct} : ∀ (m : List (Name × Name)) (d d' : D),
    convertPorts i dir st d m = .ok d' →
    (∀ x ∈ m, ∃ p, d.decl i.gen x.2 = some (.port p) ∧ p.dir = dir) ∧ (∀ x ∈ m, ∃ f ∈ st.fields, f.name = x.1) ∧
      (∀ g n, (¬ (g = i.gen ∧ ∃ x ∈ m, x.2 = n) → d'.decl g n = d.decl g n) ∧ (g = i.gen → (∃ x ∈ m, x.2 = n) → d'.decl g n = none)) ∧
      d'.refs = d.refs ∧ ((∀ x ∈ m, ∀ s ∈ d.stmts, Placed i x dir s) → d'.stmts = setAll (pairs i m) d.stmts)
  | [], d, d', h => by
    rw [convertPorts, Res.ok.injEq] at h
    subst h
    exact ⟨nofun, nofun, fun g n => ⟨fun _ => rfl, fun _ ⟨x, hx, _⟩ => by cases hx⟩, rfl, fun _ => rfl⟩
  | x :: m, d, d', h => by
    rw [convertPorts, Res.bind_eq_ok] at h
    obtain ⟨d1, h1, h⟩ := h
    obtain ⟨a1, a2, a3, a4, a5⟩ := convertPort_ok h1
    obtain ⟨b1, b2, b3, b4, b5⟩ := convertPorts_ok m d1 d' h
    refine ⟨fun y hy => ?_, fun y hy => ?_, fun g n => ⟨fun hn => ?_, fun hg hn => ?_⟩, b4.trans a4, fun hp => ?_⟩
    · rcases List.mem_cons.1 hy with rfl | hy
      · exact a1
      · obtain ⟨p, hp, hd⟩ := b1 y hy
        rw [a3] at hp
        split at hp
        · cases hp
        · exact ⟨p, hp, hd⟩
    · rcases List.mem_cons.1 hy with rfl | hy
      · exact a2
      · exact b2 y hy
    · rw [(b3 g n).1 fun ⟨e, y, hy, hyn⟩ => hn ⟨e, y, List.mem_cons_of_mem _ hy, hyn⟩, a3,
        if_neg fun ⟨e, e'⟩ => hn ⟨e, x, List.mem_cons_self, e'.symm⟩]
    · by_cases hm : ∃ y ∈ m, y.2 = n
      · exact (b3 g n).2 hg hm
      · rw [(b3 g n).1 fun e => hm e.2, a3]
        obtain ⟨y, hy, hyn⟩ := hn
        rcases List.mem_cons.1 hy with rfl | hy
        · rw [if_pos ⟨hg, hyn.symm⟩]
        · exact absurd ⟨y, hy, hyn⟩ hm
    · have e1 := a5 (hp x List.mem_cons_self)
      rw [b5 fun y hy s hs => ?_, e1]
      · rfl
      · rw [e1] at hs
        obtain ⟨s0, hs0, rfl⟩ := List.mem_map.1 hs
        exact placed_setS (hp y (List.mem_cons_of_mem _ hy) s0 hs0)

/-- All ports of the bundle have this direction in this design. -/
def AllDir (d : D) (i : Item) (dir : Dir) : Prop := ∀ x ∈ i.map, ∃ p, d.decl i.gen x.2 = some (.port p) ∧ p.dir = dir

theorem convert_ok {st : Struct} {d d' : D} {i : Item} (h : convert st d i = .ok d') :
    ∃ dir, AllDir d i dir ∧ d.decl i.gen i.entry = none ∧ i.map ≠ [] ∧
      (∀ x ∈ i.map, ∃ f ∈ st.fields, f.name = x.1) ∧
      d'.decl i.gen i.entry = some (.packed dir st) ∧
      (∀ g n, ¬ (g = i.gen ∧ n = i.entry) → (¬ (g = i.gen ∧ ∃ x ∈ i.map, x.2 = n) → d'.decl g n = d.decl g n) ∧
        (g = i.gen → (∃ x ∈ i.map, x.2 = n) → d'.decl g n = none)) ∧
      d'.refs = d.refs.filter (fun x => ¬ (x.gen = i.gen ∧ x.entry = i.entry)) ∧
      ((∀ x ∈ i.map, ∀ s ∈ d.stmts, Placed i x dir s) → d'.stmts = setAll (pairs i i.map) d.stmts) := by
  rw [convert] at h
  split at h
  · cases h
  · rename_i a r m hm
    rw [Res.bind_eq_ok] at h
    obtain ⟨p, hp, h⟩ := h
    split at h
    · cases h
    · cases h
    · rename_i hnone
      rw [Res.bind_eq_ok] at h
      obtain ⟨d1, h1, h⟩ := h
      rw [Res.ok.injEq] at h
      subst h
      obtain ⟨b1, b2, b3, b4, b5⟩ := convertPorts_ok _ _ d1 h1
      have hne : ∀ x ∈ i.map, x.2 ≠ i.entry := fun x hx he => by
        obtain ⟨q, hq, _⟩ := b1 x hx
        simp [he] at hq
      refine ⟨p.dir, fun x hx => ?_, hnone, by rw [hm]; simp, b2, ?_, fun g n hgn => ⟨fun hx => ?_, fun hg hx => (b3 g n).2 hg hx⟩, ?_, ?_⟩
      · obtain ⟨q, hq, hd⟩ := b1 x hx
        simp only [hne x hx, and_false, if_false] at hq
        exact ⟨q, hq, hd⟩
      · show d1.decl i.gen i.entry = _
        rw [(b3 i.gen i.entry).1 fun ⟨_, x, hx, he⟩ => hne x hx he]
        simp
      · show d1.decl g n = _
        rw [(b3 g n).1 hx]
        simp only
        rw [if_neg hgn]
      · show d1.refs.filter _ = _
        rw [b4]
      · intro hpl
        exact b5 hpl

/-- Bundles with their structs, one after the other. -/
def run : D → List (Struct × Item) → Res D
  | d, [] => .ok d
  | d, x :: l => (convert x.1 d x.2).bind fun d' => run d' l

theorem run_append : ∀ (l l' : List (Struct × Item)) (d : D), run d (l ++ l') = (run d l).bind fun d' => run d' l'
  | [], l', d => rfl
  | x :: l, l', d => by
    rw [List.cons_append, run, run]
    cases convert x.1 d x.2 with
    | ok d1 => exact run_append l l' d1
    | throw e => rfl
    | ub => rfl

theorem run_convertAll {st : Struct} : ∀ (is : List Item) (d : D), convertAll st d is = run d (is.map fun i => (st, i))
  | [], d => rfl
  | i :: is, d => by
    rw [convertAll, List.map_cons, run]
    congr 1
    funext d1
    exact run_convertAll is d1

/-- Ports only disappear. -/
theorem run_port : ∀ (l : List (Struct × Item)) (d d' : D), run d l = .ok d' → ∀ g n p, d'.decl g n = some (.port p) →
    d.decl g n = some (.port p)
  | [], d, d', h, g, n, p, hp => by rw [run, Res.ok.injEq] at h; rw [h]; exact hp
  | x :: l, d, d', h, g, n, p, hp => by
    rw [run, Res.bind_eq_ok] at h
    obtain ⟨d1, h1, h⟩ := h
    have h2 := run_port l d1 d' h g n p hp
    obtain ⟨dir, _, _, _, _, c4, c5, _⟩ := convert_ok h1
    by_cases he : g = x.2.gen ∧ n = x.2.entry
    · rw [he.1, he.2, c4] at h2; cases h2
    · by_cases hr : g = x.2.gen ∧ ∃ y ∈ x.2.map, y.2 = n
      · rw [(c5 g n he).2 hr.1 hr.2] at h2; cases h2
      · rw [← (c5 g n he).1 hr]; exact h2

/-- Struct ports stay. -/
theorem run_packed : ∀ (l : List (Struct × Item)) (d d' : D), run d l = .ok d' → ∀ g n dir st, d.decl g n = some (.packed dir st) →
    d'.decl g n = some (.packed dir st)
  | [], d, d', h, g, n, dir, st, hp => by rw [run, Res.ok.injEq] at h; rw [← h]; exact hp
  | x :: l, d, d', h, g, n, dir, st, hp => by
    rw [run, Res.bind_eq_ok] at h
    obtain ⟨d1, h1, h⟩ := h
    refine run_packed l d1 d' h g n dir st ?_
    obtain ⟨dir', c1, c2, _, _, c4, c5, _⟩ := convert_ok h1
    have he : ¬ (g = x.2.gen ∧ n = x.2.entry) := fun he => by rw [he.1, he.2, c2] at hp; cases hp
    rw [(c5 g n he).1 fun ⟨e, y, hy, hn⟩ => ?_]
    · exact hp
    · obtain ⟨q, hq, _⟩ := c1 y hy
      rw [hn, ← e, hp] at hq; cases hq

theorem run_entries : ∀ (l : List (Struct × Item)) (d d' : D), run d l = .ok d' → ∀ x ∈ l, ∃ dir, AllDir d x.2 dir ∧
    d'.decl x.2.gen x.2.entry = some (.packed dir x.1)
  | [], _, _, _, x, hx => by cases hx
  | y :: l, d, d', h, x, hx => by
    have h0 := h
    rw [run, Res.bind_eq_ok] at h
    obtain ⟨d1, h1, h⟩ := h
    rcases List.mem_cons.1 hx with rfl | hx
    · obtain ⟨dir, c1, _, _, _, c4, _⟩ := convert_ok h1
      exact ⟨dir, c1, run_packed l d1 d' h _ _ _ _ c4⟩
    · obtain ⟨dir, e1, e2⟩ := run_entries l d1 d' h x hx
      refine ⟨dir, fun z hz => ?_, e2⟩
      obtain ⟨p, hp, hd⟩ := e1 z hz
      exact ⟨p, run_port [y] d d1 (by rw [run, h1]; rfl) _ _ _ hp, hd⟩

theorem run_others : ∀ (l : List (Struct × Item)) (d d' : D), run d l = .ok d' → ∀ g n,
    (∀ x ∈ l, ¬ (x.2.gen = g ∧ x.2.entry = n)) →
    ((∃ x ∈ l, x.2.gen = g ∧ ∃ y ∈ x.2.map, y.2 = n) → d'.decl g n = none) ∧
    ((¬ ∃ x ∈ l, x.2.gen = g ∧ ∃ y ∈ x.2.map, y.2 = n) → d'.decl g n = d.decl g n)
  | [], d, d', h, g, n, _ => by
    rw [run, Res.ok.injEq] at h
    subst h
    exact ⟨fun ⟨x, hx, _⟩ => (by cases hx), fun _ => rfl⟩
  | y :: l, d, d', h, g, n, hn => by
    rw [run, Res.bind_eq_ok] at h
    obtain ⟨d1, h1, h⟩ := h
    obtain ⟨b1, b2⟩ := run_others l d1 d' h g n fun x hx => hn x (List.mem_cons_of_mem _ hx)
    obtain ⟨dir, c1, c2, _, _, c4, c5, _⟩ := convert_ok h1
    have hy : ¬ (g = y.2.gen ∧ n = y.2.entry) := fun e => hn y List.mem_cons_self ⟨e.1.symm, e.2.symm⟩
    constructor
    · intro hx
      by_cases hl : ∃ x ∈ l, x.2.gen = g ∧ ∃ z ∈ x.2.map, z.2 = n
      · exact b1 hl
      · rw [b2 hl]
        obtain ⟨x, hx, hg, hz⟩ := hx
        rcases List.mem_cons.1 hx with rfl | hx
        · exact (c5 g n hy).2 hg.symm hz
        · exact absurd ⟨x, hx, hg, hz⟩ hl
    · intro hx
      rw [b2 fun ⟨x, hx', e⟩ => hx ⟨x, List.mem_cons_of_mem _ hx', e⟩]
      exact (c5 g n hy).1 fun e => hx ⟨y, List.mem_cons_self, e.1.symm, e.2⟩

theorem run_refs : ∀ (l : List (Struct × Item)) (d d' : D), run d l = .ok d' → ∀ i, i ∈ d'.refs ↔ i ∈ d.refs ∧
    ∀ x ∈ l, ¬ (x.2.gen = i.gen ∧ x.2.entry = i.entry)
  | [], d, d', h, i => by rw [run, Res.ok.injEq] at h; subst h; simp
  | y :: l, d, d', h, i => by
    rw [run, Res.bind_eq_ok] at h
    obtain ⟨d1, h1, h⟩ := h
    obtain ⟨_, _, _, _, _, _, _, c6, _⟩ := convert_ok h1
    rw [run_refs l d1 d' h i, c6, List.mem_filter]
    constructor
    · rintro ⟨⟨e1, e2⟩, e3⟩
      refine ⟨e1, fun x hx => ?_⟩
      rcases List.mem_cons.1 hx with rfl | hx
      · intro e; simp [e.1, e.2] at e2
      · exact e3 x hx
    · rintro ⟨e1, e2⟩
      refine ⟨⟨e1, ?_⟩, fun x hx => e2 x (List.mem_cons_of_mem _ hx)⟩
      have := e2 y List.mem_cons_self
      simp only [decide_eq_true_eq]
      exact fun e => this ⟨e.1.symm, e.2.symm⟩

theorem setAll_append (ps qs : List (Sig × Sig)) (ss : List St) : setAll (ps ++ qs) ss = setAll qs (setAll ps ss) := by
  rw [setAll, List.foldl_append]; rfl

theorem placed_setAll {i j : Item} {x : Name × Name} {dir : Dir} : ∀ (m : List (Name × Name)) (ss : List St),
    (∀ s ∈ ss, Placed i x dir s) → ∀ s ∈ setAll (pairs j m) ss, Placed i x dir s
  | [], _, h => h
  | y :: m, ss, h => by
    refine placed_setAll m (ss.map (setS (.var j.gen y.2) (.field j.gen j.entry y.1))) fun s hs => ?_
    obtain ⟨s0, hs0, rfl⟩ := List.mem_map.1 hs
    exact placed_setS (h s0 hs0)

theorem run_stmts : ∀ (l : List (Struct × Item)) (d d' : D), run d l = .ok d' →
    (∀ x ∈ l, ∀ y ∈ x.2.map, ∀ dir, AllDir d x.2 dir → ∀ s ∈ d.stmts, Placed x.2 y dir s) →
    d'.stmts = setAll (l.flatMap fun x => pairs x.2 x.2.map) d.stmts
  | [], d, d', h, _ => by rw [run, Res.ok.injEq] at h; subst h; rfl
  | x :: l, d, d', h, hp => by
    rw [run, Res.bind_eq_ok] at h
    obtain ⟨d1, h1, h⟩ := h
    obtain ⟨dir, c1, _, _, _, _, _, _, c7⟩ := convert_ok h1
    have e1 := c7 fun y hy s hs => hp x List.mem_cons_self y hy dir c1 s hs
    rw [List.flatMap_cons, setAll_append, ← e1]
    refine run_stmts l d1 d' h fun z hz y hy dir' hd s hs => ?_
    have hd' : AllDir d z.2 dir' := fun w hw => by
      obtain ⟨p, hp', hpd⟩ := hd w hw
      exact ⟨p, run_port [x] d d1 (by rw [run, h1]; rfl) _ _ _ hp', hpd⟩
    rw [e1] at hs
    exact placed_setAll _ _ (fun s hs => hp z (List.mem_cons_of_mem _ hz) y hy dir' hd' s hs) s hs

/-! ### Renaming -/

/-- The replacements in one use. -/
def renU (ps : List (Sig × Sig)) (u : Use) : Use := ps.foldl (fun u p => setU p.1 p.2 u) u

theorem renU_cons (p : Sig × Sig) (ps : List (Sig × Sig)) (u : Use) : renU (p :: ps) u = renU ps (setU p.1 p.2 u) := rfl

theorem renU_spec : ∀ (ps : List (Sig × Sig)), (∀ p ∈ ps, (∃ g n, p.1 = .var g n) ∧ ∃ g n a, p.2 = .field g n a) → ∀ u,
    (renU ps u).part = u.part ∧ ((∃ p ∈ ps, u.sig = p.1 ∧ (renU ps u).sig = p.2) ∨ ((∀ p ∈ ps, u.sig ≠ p.1) ∧ (renU ps u).sig = u.sig))
  | [], _, u => ⟨rfl, .inr ⟨nofun, rfl⟩⟩
  | p :: ps, h, u => by
    obtain ⟨h1, h2⟩ := renU_spec ps (fun q hq => h q (List.mem_cons_of_mem _ hq)) (setU p.1 p.2 u)
    rw [renU_cons]
    by_cases hu : u.sig = p.1
    · rw [setU, if_pos hu] at h1 h2 ⊢
      refine ⟨h1, .inl ⟨p, List.mem_cons_self, hu, ?_⟩⟩
      rcases h2 with ⟨q, hq, h3, _⟩ | ⟨_, h3⟩
      · obtain ⟨⟨g, n, hg⟩, _⟩ := h q (List.mem_cons_of_mem _ hq)
        obtain ⟨_, g', n', a', hf⟩ := h p List.mem_cons_self
        simp only [hg, hf] at h3
        cases h3
      · exact h3
    · rw [setU, if_neg hu] at h1 h2 ⊢
      refine ⟨h1, ?_⟩
      rcases h2 with ⟨q, hq, h3⟩ | ⟨h3, h4⟩
      · exact .inl ⟨q, List.mem_cons_of_mem _ hq, h3⟩
      · refine .inr ⟨fun q hq => ?_, h4⟩
        rcases List.mem_cons.1 hq with rfl | hq
        · exact hu
        · exact h3 q hq

theorem setAll_map : ∀ (ps : List (Sig × Sig)) (ss : List St), setAll ps ss =
    ss.map fun s => { s with left := renU ps s.left, right := s.right.map (renU ps), text := s.text.map (renU ps) }
  | [], ss => by
    have : ∀ us : List Use, us.map (renU []) = us := fun us => by
      rw [show renU [] = id from rfl, List.map_id]
    show ss = _
    simp only [this]
    simp [renU]
  | p :: ps, ss => by
    show setAll ps (ss.map (setS p.1 p.2)) = _
    rw [setAll_map ps, List.map_map]
    refine List.map_congr_left fun s _ => ?_
    simp only [Function.comp, setS, List.map_map]
    rfl

theorem all2_map {α β : Type} {R : α → β → Prop} {f : α → β} : ∀ l : List α, (∀ a ∈ l, R a (f a)) → All2 R l (l.map f)
  | [], _ => .nil
  | a :: l, h => .cons (h a List.mem_cons_self) (all2_map l fun b hb => h b (List.mem_cons_of_mem _ hb))

theorem renU_ren (is : List Item) (u : Use) : RenU is u (renU (is.flatMap fun i => pairs i i.map) u) := by
  obtain ⟨h1, h2⟩ := renU_spec (is.flatMap fun i => pairs i i.map) (fun p hp => by
    obtain ⟨i, _, hp⟩ := List.mem_flatMap.1 hp
    obtain ⟨x, _, rfl⟩ := List.mem_map.1 hp
    exact ⟨⟨_, _, rfl⟩, _, _, _, rfl⟩) u
  refine ⟨?_, h1⟩
  rcases h2 with ⟨p, hp, h3, h4⟩ | ⟨h3, h4⟩
  · obtain ⟨i, hi, hp⟩ := List.mem_flatMap.1 hp
    obtain ⟨x, hx, rfl⟩ := List.mem_map.1 hp
    rw [h3, h4]
    exact .moved hi hx
  · rw [h4]
    refine .kept fun i hi x hx => ?_
    exact h3 (.var i.gen x.2, .field i.gen i.entry x.1) (List.mem_flatMap.2 ⟨i, hi, List.mem_map.2 ⟨x, hx, rfl⟩⟩)

theorem setAll_ren (is : List Item) (ss : List St) : All2 (RenSt is) ss (setAll (is.flatMap fun i => pairs i i.map) ss) := by
  rw [setAll_map]
  exact all2_map ss fun s _ => ⟨rfl, rfl, renU_ren is s.left, all2_map s.text fun u _ => renU_ren is u⟩

/-! ### The whole pass -/

theorem addTo_mem {n : Name} {x i : Item} : ∀ (m : List (Name × List Item)),
    (∃ y ∈ addTo n x m, i ∈ y.2) ↔ i = x ∨ ∃ y ∈ m, i ∈ y.2
  | [] => by simp [addTo]
  | (k, xs) :: r => by
    rw [addTo]
    split
    · constructor
      · rintro ⟨y, hy, hi⟩
        rcases List.mem_cons.1 hy with rfl | hy
        · rcases List.mem_append.1 hi with hi | hi
          · exact .inr ⟨_, List.mem_cons_self, hi⟩
          · exact .inl (List.mem_singleton.1 hi)
        · exact .inr ⟨y, List.mem_cons_of_mem _ hy, hi⟩
      · rintro (rfl | ⟨y, hy, hi⟩)
        · exact ⟨_, List.mem_cons_self, List.mem_append_right _ (List.mem_singleton.2 rfl)⟩
        · rcases List.mem_cons.1 hy with rfl | hy
          · exact ⟨_, List.mem_cons_self, List.mem_append_left _ hi⟩
          · exact ⟨y, List.mem_cons_of_mem _ hy, hi⟩
    · split
      · constructor
        · rintro ⟨y, hy, hi⟩
          rcases List.mem_cons.1 hy with rfl | hy
          · exact .inl (List.mem_singleton.1 hi)
          · exact .inr ⟨y, hy, hi⟩
        · rintro (rfl | ⟨y, hy, hi⟩)
          · exact ⟨_, List.mem_cons_self, List.mem_singleton.2 rfl⟩
          · exact ⟨y, List.mem_cons_of_mem _ hy, hi⟩
      · have ih := addTo_mem (n := n) (x := x) (i := i) r
        constructor
        · rintro ⟨y, hy, hi⟩
          rcases List.mem_cons.1 hy with rfl | hy
          · exact .inr ⟨_, List.mem_cons_self, hi⟩
          · rcases ih.1 ⟨y, hy, hi⟩ with h | ⟨z, hz, h⟩
            · exact .inl h
            · exact .inr ⟨z, List.mem_cons_of_mem _ hz, h⟩
        · rintro (rfl | ⟨y, hy, hi⟩)
          · obtain ⟨z, hz, h⟩ := ih.2 (.inl rfl)
            exact ⟨z, List.mem_cons_of_mem _ hz, h⟩
          · rcases List.mem_cons.1 hy with rfl | hy
            · exact ⟨_, List.mem_cons_self, hi⟩
            · obtain ⟨z, hz, h⟩ := ih.2 (.inr ⟨y, hy, hi⟩)
              exact ⟨z, List.mem_cons_of_mem _ hz, h⟩

/-- In every group the bundles have the name of the group. -/
def Named (m : List (Name × List Item)) : Prop := ∀ y ∈ m, ∀ i ∈ y.2, i.defName = y.1

theorem addTo_named {x : Item} : ∀ (m : List (Name × List Item)), Named m → Named (addTo x.defName x m)
  | [], _ => by
    intro y hy i hi
    simp only [addTo, List.mem_singleton] at hy
    subst hy
    rw [List.mem_singleton.1 hi]
  | (k, xs) :: r, h => by
    rw [addTo]
    split
    · rename_i hk
      intro y hy i hi
      rcases List.mem_cons.1 hy with rfl | hy
      · rcases List.mem_append.1 hi with hi | hi
        · exact h _ List.mem_cons_self i hi
        · rw [List.mem_singleton.1 hi]; exact hk
      · exact h y (List.mem_cons_of_mem _ hy) i hi
    · split
      · intro y hy i hi
        rcases List.mem_cons.1 hy with rfl | hy
        · rw [List.mem_singleton.1 hi]
        · exact h y hy i hi
      · intro y hy i hi
        rcases List.mem_cons.1 hy with rfl | hy
        · exact h _ List.mem_cons_self i hi
        · exact addTo_named r (fun z hz => h z (List.mem_cons_of_mem _ hz)) y hy i hi

theorem collect_ok {d : D} : ∀ (is : List Item) (acc m : List (Name × List Item)), collect d acc is = .ok m →
    (Named acc → Named m) ∧ ∀ i, (∃ y ∈ m, i ∈ y.2) ↔ (∃ y ∈ acc, i ∈ y.2) ∨ (i ∈ is ∧ Uniform d i)
  | [], acc, m, h => by
    rw [collect, Res.ok.injEq] at h
    subst h
    exact ⟨id, fun i => by simp⟩
  | x :: is, acc, m, h => by
    rw [collect, Res.bind_eq_ok] at h
    obtain ⟨b, hb, h⟩ := h
    obtain ⟨h1, h2⟩ := collect_ok is _ m h
    have hw := wanted_iff hb
    cases b with
    | true =>
      have hx := hw.1 rfl
      rw [if_pos rfl] at h1 h2
      refine ⟨fun ha => h1 (addTo_named acc ha), fun i => ?_⟩
      rw [h2 i, addTo_mem]
      constructor
      · rintro ((rfl | h) | h)
        · exact .inr ⟨List.mem_cons_self, hx⟩
        · exact .inl h
        · exact .inr ⟨List.mem_cons_of_mem _ h.1, h.2⟩
      · rintro (h | ⟨h, hu⟩)
        · exact .inl (.inr h)
        · rcases List.mem_cons.1 h with rfl | h
          · exact .inl (.inl rfl)
          · exact .inr ⟨h, hu⟩
    | false =>
      have hx : ¬ Uniform d x := fun hx => by simpa using hw.2 hx
      rw [if_neg (by simp)] at h1 h2
      refine ⟨h1, fun i => ?_⟩
      rw [h2 i]
      constructor
      · rintro (h | h)
        · exact .inl h
        · exact .inr ⟨List.mem_cons_of_mem _ h.1, h.2⟩
      · rintro (h | ⟨h, hu⟩)
        · exact .inl h
        · rcases List.mem_cons.1 h with rfl | h
          · exact absurd hu hx
          · exact .inr ⟨h, hu⟩

theorem map_eq_ok {α β : Type} {x : Res α} {f : α → β} {b : β} : x.map f = .ok b ↔ ∃ a, x = .ok a ∧ f a = b := by
  cases x <;> simp

theorem fieldsOf_ok {d : D} {i : Item} {fs : List Field} (h : fieldsOf d i = .ok fs) : Mirrors d i fs := by
  refine All2.mono (fun x f hx => ?_) (mapRes_all2 _ _ h)
  obtain ⟨p, hp, hf⟩ := map_eq_ok.1 hx
  exact ⟨p, portOf_ok.1 hp, hf.symm⟩

theorem mirrors_names {d : D} {i : Item} {fs : List Field} (h : Mirrors d i fs) : fs.map (fun f => f.name) = i.map.map (fun x => x.1) := by
  obtain ⟨g, p, e, n, m⟩ := i
  unfold Mirrors at h
  simp only at h ⊢
  generalize hm : m = m' at h
  clear hm
  induction h with
  | nil => rfl
  | cons h _ ih =>
    obtain ⟨p, _, rfl⟩ := h
    simp only [List.map_cons, ih]

theorem structOf_ok {n : Name} : ∀ (gs : List (Nat × List Field)) (st : Struct), structOf n gs = .ok st →
    st.name = n ∧ ∃ x ∈ gs, st.fields = x.2
  | [], _, h => by cases h
  | [x], st, h => by rw [structOf, Res.ok.injEq] at h; subst h; exact ⟨rfl, x, List.mem_cons_self, rfl⟩
  | _ :: y :: r, st, h => by
    obtain ⟨h1, x, hx, h2⟩ := structOf_ok (y :: r) st h
    exact ⟨h1, x, List.mem_cons_of_mem _ hx, h2⟩

theorem mirrors_back {l : List (Struct × Item)} {d d' : D} {i : Item} {fs : List Field} (h : run d l = .ok d') (hm : Mirrors d' i fs) :
    Mirrors d i fs :=
  All2.mono (fun x f ⟨p, hp, hf⟩ => ⟨p, run_port l d d' h _ _ _ hp, hf⟩) hm

theorem all2_mem_left {α β : Type} {R : α → β → Prop} {l : List α} {m : List β} (h : All2 R l m) : ∀ a ∈ l, ∃ b ∈ m, R a b := by
  induction h with
  | nil => exact nofun
  | cons h _ ih =>
    intro x hx
    rcases List.mem_cons.1 hx with rfl | hx
    · exact ⟨_, List.mem_cons_self, h⟩
    · obtain ⟨b, hb, hr⟩ := ih x hx
      exact ⟨b, List.mem_cons_of_mem _ hb, hr⟩

theorem mergeGroup_ok {H : List Char → Nat} (hH : ∀ x y, H x = H y → x = y) {d d' : D} {x : Name × List Item}
    (hn : ∀ i ∈ x.2, ∀ j ∈ x.2, i.map.map (fun z => z.1) = j.map.map (fun z => z.1)) (h : mergeGroup H d x = .ok d') :
    ∃ st : Struct, st.name = x.1 ∧ (∀ i ∈ x.2, Mirrors d i st.fields) ∧ run d (x.2.map fun i => (st, i)) = .ok d' := by
  simp only [mergeGroup, Res.bind_eq_ok] at h
  obtain ⟨gs, hgs, m, hm, u, hs, st, hst, h⟩ := h
  rw [run_convertAll] at h
  obtain ⟨hname, y, hy, hyf⟩ := structOf_ok gs st hst
  have h2 := mapRes_all2 _ _ hgs
  have left : ∀ i ∈ x.2, ∃ z ∈ gs, Mirrors d i z.2 := fun i hi => by
    obtain ⟨z, hz, hr⟩ := all2_mem_left h2 i hi
    obtain ⟨fs, hfs, rfl⟩ := map_eq_ok.1 hr
    exact ⟨_, hz, fieldsOf_ok hfs⟩
  have right : ∀ z ∈ gs, ∃ i ∈ x.2, Mirrors d i z.2 := fun z hz => by
    obtain ⟨i, hi, hr⟩ := h2.mem_right z hz
    obtain ⟨fs, hfs, rfl⟩ := map_eq_ok.1 hr
    exact ⟨i, hi, fieldsOf_ok hfs⟩
  have heq := (definitions_partial H gs hH fun a ha b hb => by
    obtain ⟨i, hi, hia⟩ := right a ha
    obtain ⟨j, hj, hjb⟩ := right b hb
    rw [mirrors_names hia, mirrors_names hjb]
    exact hn i hi j hj).1 ⟨m, hm, by cases u; exact hs⟩
  refine ⟨st, hname, fun i hi => ?_, h⟩
  obtain ⟨z, hz, hm⟩ := left i hi
  rw [hyf, heq y hy z hz]
  exact hm

theorem merge_ok {H : List Char → Nat} (hH : ∀ x y, H x = H y → x = y) : ∀ (m : List (Name × List Item)) (d d' : D),
    (∀ x ∈ m, ∀ i ∈ x.2, ∀ j ∈ x.2, i.map.map (fun z => z.1) = j.map.map (fun z => z.1)) → merge H d m = .ok d' →
    ∃ l : List (Struct × Item), l.map (fun x => x.2) = m.flatMap (fun x => x.2) ∧ run d l = .ok d' ∧
      (∀ x ∈ l, Mirrors d x.2 x.1.fields) ∧ ∀ x ∈ l, ∃ y ∈ m, x.2 ∈ y.2 ∧ x.1.name = y.1
  | [], d, d', _, h => by
    rw [merge, Res.ok.injEq] at h
    exact ⟨[], rfl, by rw [h]; rfl, nofun, nofun⟩
  | x :: m, d, d', hn, h => by
    rw [merge, Res.bind_eq_ok] at h
    obtain ⟨d1, h1, h⟩ := h
    obtain ⟨st, a1, a2, a3⟩ := mergeGroup_ok hH (hn x List.mem_cons_self) h1
    obtain ⟨l, b1, b2, b3, b4⟩ := merge_ok hH m d1 d' (fun y hy => hn y (List.mem_cons_of_mem _ hy)) h
    refine ⟨x.2.map (fun i => (st, i)) ++ l, ?_, ?_, fun y hy => ?_, fun y hy => ?_⟩
    · rw [List.map_append, List.map_map, List.flatMap_cons, b1]
      congr 1
      rw [show ((fun x : Struct × Item => x.2) ∘ fun i => (st, i)) = id from rfl, List.map_id]
    · rw [run_append, a3, Res.ok_bind, b2]
    · rcases List.mem_append.1 hy with hy | hy
      · obtain ⟨i, hi, rfl⟩ := List.mem_map.1 hy
        exact a2 i hi
      · exact mirrors_back a3 (b3 y hy)
    · rcases List.mem_append.1 hy with hy | hy
      · obtain ⟨i, hi, rfl⟩ := List.mem_map.1 hy
        exact ⟨x, List.mem_cons_self, hi, a1⟩
      · obtain ⟨z, hz, h1, h2⟩ := b4 y hy
        exact ⟨z, List.mem_cons_of_mem _ hz, h1, h2⟩

/-! ### Properties -/

/-- What the pass leaves: for a list of bundles with structs. -/
structure Left (d d' : D) (l : List (Struct × Item)) : Prop where
  /-- the bundles are those with all ports inputs or all outputs and no array -/
  which : ∀ i, i ∈ l.map (fun x => x.2) ↔ i ∈ d.refs ∧ Uniform d i
  /-- the struct has the name of the definition and, member for member, the names, widths and signs of the ports -/
  struct : ∀ x ∈ l, x.1.name = x.2.defName ∧ Mirrors d x.2 x.1.fields
  /-- there is one port with the name of the bundle, of this type and with the direction of the ports -/
  port : ∀ x ∈ l, ∃ dir, (∀ y ∈ x.2.map, ∃ p, d.decl x.2.gen y.2 = some (.port p) ∧ p.dir = dir) ∧
    d'.decl x.2.gen x.2.entry = some (.packed dir x.1)
  /-- the old ports are gone -/
  gone : ∀ x ∈ l, ∀ y ∈ x.2.map, (∀ z ∈ l, ¬ (z.2.gen = x.2.gen ∧ z.2.entry = y.2)) → d'.decl x.2.gen y.2 = none
  /-- nothing else is declared differently -/
  others : ∀ g n, (∀ z ∈ l, ¬ (z.2.gen = g ∧ z.2.entry = n)) → (∀ x ∈ l, ∀ y ∈ x.2.map, ¬ (x.2.gen = g ∧ y.2 = n)) →
    d'.decl g n = d.decl g n
  /-- the bundles are forgotten, and only they -/
  refs : ∀ i, i ∈ d'.refs ↔ i ∈ d.refs ∧ ∀ x ∈ l, ¬ (x.2.gen = i.gen ∧ x.2.entry = i.entry)

/-- Bundles of one definition name have members of the same names. -/
def SameNames (d : D) : Prop := ∀ i ∈ d.refs, ∀ j ∈ d.refs, Uniform d i → Uniform d j → i.defName = j.defName →
  i.map.map (fun z => z.1) = j.map.map (fun z => z.1)

/-- Every use of a port of a converted bundle is where it belongs. -/
def WellPlaced (d : D) : Prop := ∀ i ∈ d.refs, Uniform d i → ∀ y ∈ i.map, ∀ dir, AllDir d i dir → ∀ s ∈ d.stmts, Placed i y dir s

/-- **C85 (partial).**  If the pass goes through: the bundles with all ports inputs, or all outputs, and no array have each become one
port of a struct type with the same members; all else is declared as before; and if every use of the ports is where it belongs, every
statement reads as before, with the members in place of the ports.

Missing: outputs read inside, tests of a port (`own_output_lost`, `test_lost`); names of members that make the hashed text ambiguous
(`not_DefinitionsClaim`) and hash collisions; that it goes through (`accepts_partial`). -/
theorem struct_partial (H : List Char → Nat) (hH : ∀ x y, H x = H y → x = y) (d d' : D) (hn : SameNames d) (h : change H d = .ok d') :
    ∃ l : List (Struct × Item), Left d d' l ∧ (WellPlaced d → All2 (RenSt (l.map fun x => x.2)) d.stmts d'.stmts) := by
  rw [change, Res.bind_eq_ok] at h
  obtain ⟨m, hm, h⟩ := h
  obtain ⟨hnamed, hmem⟩ := collect_ok d.refs [] m hm
  have hnamed := hnamed (fun y hy => by cases hy)
  have hmem : ∀ i, (∃ y ∈ m, i ∈ y.2) ↔ i ∈ d.refs ∧ Uniform d i := fun i => by rw [hmem i]; simp
  obtain ⟨l, a1, a2, a3, a4⟩ := merge_ok hH m d d' (fun x hx i hi j hj => by
    obtain ⟨h1, h2⟩ := (hmem i).1 ⟨x, hx, hi⟩
    obtain ⟨h3, h4⟩ := (hmem j).1 ⟨x, hx, hj⟩
    exact hn i h1 j h3 h2 h4 (by rw [hnamed x hx i hi, hnamed x hx j hj])) h
  have hl : ∀ x ∈ l, x.2 ∈ d.refs ∧ Uniform d x.2 := fun x hx => by
    obtain ⟨y, hy, hxy, _⟩ := a4 x hx
    exact (hmem x.2).1 ⟨y, hy, hxy⟩
  refine ⟨l, ⟨fun i => ?_, fun x hx => ⟨?_, a3 x hx⟩, fun x hx => run_entries l d d' a2 x hx, fun x hx y hy hz => ?_, fun g n hz hx => ?_,
    run_refs l d d' a2⟩, fun hp => ?_⟩
  · rw [a1, ← hmem i, List.mem_flatMap]
  · obtain ⟨y, hy, hxy, hname⟩ := a4 x hx
    rw [hname, hnamed y hy x.2 hxy]
  · exact (run_others l d d' a2 _ _ hz).1 ⟨x, hx, rfl, y, hy, rfl⟩
  · exact (run_others l d d' a2 _ _ hz).2 fun ⟨x, hx', hg, y, hy, e⟩ => hx x hx' y hy ⟨hg, e⟩
  · rw [run_stmts l d d' a2 fun x hx y hy dir hd s hs => hp x.2 (hl x hx).1 (hl x hx).2 y hy dir hd s hs]
    have := setAll_ren (l.map fun x => x.2) d.stmts
    rw [List.flatMap_map] at this
    exact this

/-- **C85, meaning.**  Renamed statements say the same: under any meaning of statements, a valuation of the new design in which the
members have the values of the old ports satisfies the new statement exactly when the old valuation satisfies the old one. -/
theorem meaning {V : Type} (R : Nat → V × Option (Nat × Nat) → List (V × Option (Nat × Nat)) → Prop) (is : List Item) (ρ ρ' : Sig → V)
    (h : ∀ s s', Ren is s s' → ρ' s' = ρ s) {s s' : St} (hs : RenSt is s s') : Sat R ρ' s' ↔ Sat R ρ s := by
  obtain ⟨_, hid, ⟨hl, hlp⟩, ht⟩ := hs
  rw [Sat, Sat, hid, hlp, h _ _ hl]
  have : s'.text.map (fun u => (ρ' u.sig, u.part)) = s.text.map (fun u => (ρ u.sig, u.part)) := by
    generalize s'.text = us' at ht
    generalize s.text = us at ht
    induction ht with
    | nil => rfl
    | cons hu _ ih => rw [List.map_cons, List.map_cons, ih, hu.2, h _ _ hu.1]
  rw [this]

/-! ### Going through -/

/-- A signal is used as a whole everywhere, or in part everywhere. -/
def NoMix (ss : List St) (t : Sig) : Prop :=
  (∀ s ∈ ss, ∀ u ∈ s.left :: s.right, u.sig = t → u.part = none) ∨ (∀ s ∈ ss, ∀ u ∈ s.left :: s.right, u.sig = t → u.part ≠ none)

theorem moveUses_whole {t n : Sig} : ∀ (us : List Use), (∀ u ∈ us, u.sig = t → u.part = none) → ∃ us', moveUses t n false us = .ok (false, us')
  | [], _ => ⟨[], rfl⟩
  | u :: us, h => by
    obtain ⟨us', h'⟩ := moveUses_whole (n := n) us fun v hv => h v (List.mem_cons_of_mem _ hv)
    rw [moveUses]
    split
    · rename_i hu
      have hp := h u List.mem_cons_self hu
      rw [if_neg (by simp), hp]
      exact ⟨_, by rw [show (false || (none : Option (Nat × Nat)).isSome) = false from rfl, h']; rfl⟩
    · exact ⟨_, by rw [h']; rfl⟩

theorem moveUses_part {t n : Sig} : ∀ (us : List Use) (l : Bool), (∀ u ∈ us, u.sig = t → u.part ≠ none) → ∃ x, moveUses t n l us = .ok x
  | [], l, _ => ⟨(l, []), rfl⟩
  | u :: us, l, h => by
    have ih := fun l => moveUses_part (n := n) us l fun v hv => h v (List.mem_cons_of_mem _ hv)
    rw [moveUses]
    split
    · rename_i hu
      rw [if_neg fun e => h u List.mem_cons_self hu e.1]
      obtain ⟨x, hx⟩ := ih (l || u.part.isSome)
      exact ⟨_, by rw [hx]; rfl⟩
    · obtain ⟨x, hx⟩ := ih l
      exact ⟨_, by rw [hx]; rfl⟩

theorem moveSrc_whole {t n : Sig} {g : Nat} : ∀ (ss : List St), (∀ s ∈ ss, ∀ u ∈ s.left :: s.right, u.sig = t → u.part = none) →
    ∃ ss', moveSrc t n g false ss = .ok (false, ss')
  | [], _ => ⟨[], rfl⟩
  | s :: ss, h => by
    obtain ⟨ss', h'⟩ := moveSrc_whole (n := n) (g := g) ss fun v hv => h v (List.mem_cons_of_mem _ hv)
    rw [moveSrc]
    split
    · obtain ⟨us, hu⟩ := moveUses_whole (n := n) [s.left] fun u hu => by
        rw [List.mem_singleton] at hu
        subst hu
        exact h s List.mem_cons_self _ List.mem_cons_self
      exact ⟨_, by rw [hu, Res.ok_bind, h']; rfl⟩
    · exact ⟨_, by rw [h']; rfl⟩

theorem moveSink_whole {t n : Sig} {g : Nat} : ∀ (ss : List St), (∀ s ∈ ss, ∀ u ∈ s.left :: s.right, u.sig = t → u.part = none) →
    ∃ ss', moveSink t n g false ss = .ok (false, ss')
  | [], _ => ⟨[], rfl⟩
  | s :: ss, h => by
    obtain ⟨ss', h'⟩ := moveSink_whole (n := n) (g := g) ss fun v hv => h v (List.mem_cons_of_mem _ hv)
    rw [moveSink]
    split
    · obtain ⟨us, hu⟩ := moveUses_whole (n := n) s.right fun u hu => h s List.mem_cons_self _ (List.mem_cons_of_mem _ hu)
      exact ⟨_, by rw [hu, Res.ok_bind, h']; rfl⟩
    · exact ⟨_, by rw [h']; rfl⟩

theorem moveSrc_part {t n : Sig} {g : Nat} : ∀ (ss : List St) (l : Bool), (∀ s ∈ ss, ∀ u ∈ s.left :: s.right, u.sig = t → u.part ≠ none) →
    ∃ x, moveSrc t n g l ss = .ok x
  | [], l, _ => ⟨(l, []), rfl⟩
  | s :: ss, l, h => by
    have ih := fun l => moveSrc_part (n := n) (g := g) ss l fun v hv => h v (List.mem_cons_of_mem _ hv)
    rw [moveSrc]
    split
    · obtain ⟨x, hx⟩ := moveUses_part (n := n) [s.left] l fun u hu => by
        rw [List.mem_singleton] at hu
        subst hu
        exact h s List.mem_cons_self _ List.mem_cons_self
      obtain ⟨y, hy⟩ := ih x.1
      exact ⟨_, by rw [hx, Res.ok_bind, hy]; rfl⟩
    · obtain ⟨y, hy⟩ := ih l
      exact ⟨_, by rw [hy]; rfl⟩

theorem moveSink_part {t n : Sig} {g : Nat} : ∀ (ss : List St) (l : Bool), (∀ s ∈ ss, ∀ u ∈ s.left :: s.right, u.sig = t → u.part ≠ none) →
    ∃ x, moveSink t n g l ss = .ok x
  | [], l, _ => ⟨(l, []), rfl⟩
  | s :: ss, l, h => by
    have ih := fun l => moveSink_part (n := n) (g := g) ss l fun v hv => h v (List.mem_cons_of_mem _ hv)
    rw [moveSink]
    split
    · obtain ⟨x, hx⟩ := moveUses_part (n := n) s.right l fun u hu => h s List.mem_cons_self _ (List.mem_cons_of_mem _ hu)
      obtain ⟨y, hy⟩ := ih x.1
      exact ⟨_, by rw [hx, Res.ok_bind, hy]; rfl⟩
    · obtain ⟨y, hy⟩ := ih l
      exact ⟨_, by rw [hy]; rfl⟩

/-- Uses of variables in the result are uses in the original. -/
def Back (ss ss' : List St) : Prop := ∀ s' ∈ ss', ∀ u ∈ s'.left :: s'.right, ∀ g m, u.sig = .var g m → ∃ s ∈ ss, u ∈ s.left :: s.right

theorem Back.noMix {ss ss' : List St} (h : Back ss ss') {g : Nat} {m : Name} (hn : NoMix ss (.var g m)) : NoMix ss' (.var g m) := by
  rcases hn with hn | hn
  · refine .inl fun s' hs' u hu e => ?_
    obtain ⟨s, hs, hu'⟩ := h s' hs' u hu g m e
    exact hn s hs u hu' e
  · refine .inr fun s' hs' u hu e => ?_
    obtain ⟨s, hs, hu'⟩ := h s' hs' u hu g m e
    exact hn s hs u hu' e

theorem Back.trans {a b c : List St} (h1 : Back a b) (h2 : Back b c) : Back a c := fun s hs u hu g m e => by
  obtain ⟨s1, hs1, hu1⟩ := h2 s hs u hu g m e
  exact h1 s1 hs1 u hu1 g m e

theorem Back.refl (a : List St) : Back a a := fun s hs u hu _ _ _ => ⟨s, hs, hu⟩

theorem setU_back {t : Sig} {g' : Nat} {n' a' : Name} {u : Use} {g : Nat} {m : Name}
    (h : (setU t (.field g' n' a') u).sig = .var g m) : setU t (.field g' n' a') u = u := by
  rw [setU] at h ⊢
  split
  · rename_i hu; rw [if_pos hu] at h; cases h
  · rfl

theorem src_back {t : Sig} {g' : Nat} {n' a' : Name} {q : Option Nat} {l l' : Bool} {ss ss' : List St}
    (h : inParent (moveSrc t (.field g' n' a')) q l ss = .ok (l', ss')) : Back ss ss' := by
  cases q with
  | none => simp only [inParent, Res.ok.injEq, Prod.mk.injEq] at h; rw [← h.2]; exact .refl _
  | some g0 =>
    rw [moveSrc_ok ss l l' ss' h]
    intro s' hs' u hu g m e
    obtain ⟨s, hs, rfl⟩ := List.mem_map.1 hs'
    refine ⟨s, hs, ?_⟩
    split at hu
    · rcases List.mem_cons.1 hu with rfl | hu
      · rw [setU_back e]; exact List.mem_cons_self
      · exact List.mem_cons_of_mem _ hu
    · exact hu

theorem sink_back {t : Sig} {g' : Nat} {n' a' : Name} {q : Option Nat} {l l' : Bool} {ss ss' : List St}
    (h : inParent (moveSink t (.field g' n' a')) q l ss = .ok (l', ss')) : Back ss ss' := by
  cases q with
  | none => simp only [inParent, Res.ok.injEq, Prod.mk.injEq] at h; rw [← h.2]; exact .refl _
  | some g0 =>
    rw [moveSink_ok ss l l' ss' h]
    intro s' hs' u hu g m e
    obtain ⟨s, hs, rfl⟩ := List.mem_map.1 hs'
    refine ⟨s, hs, ?_⟩
    split at hu
    · rcases List.mem_cons.1 hu with rfl | hu
      · exact List.mem_cons_self
      · obtain ⟨u0, hu0, rfl⟩ := List.mem_map.1 hu
        rw [setU_back e]
        exact List.mem_cons_of_mem _ hu0
    · exact hu

theorem moves_total {g0 : Nat} {m0 : Name} {g' : Nat} {n' a' : Name} {ss : List St} (h : NoMix ss (.var g0 m0)) (qs qr : Option Nat) :
    ∃ y z, inParent (moveSrc (.var g0 m0) (.field g' n' a')) qs false ss = .ok y ∧
      inParent (moveSink (.var g0 m0) (.field g' n' a')) qr y.1 y.2 = .ok z ∧ Back ss z.2 := by
  rcases h with h | h
  · obtain ⟨y, hy⟩ : ∃ y, inParent (moveSrc (.var g0 m0) (.field g' n' a')) qs false ss = .ok (false, y) := by
      cases qs with
      | none => exact ⟨ss, rfl⟩
      | some q => exact moveSrc_whole ss h
    have hb := src_back hy
    have h2 : ∀ s ∈ y, ∀ u ∈ s.left :: s.right, u.sig = .var g0 m0 → u.part = none := fun s hs u hu e => by
      obtain ⟨s0, hs0, hu0⟩ := hb s hs u hu g0 m0 e
      exact h s0 hs0 u hu0 e
    obtain ⟨z, hz⟩ : ∃ z, inParent (moveSink (.var g0 m0) (.field g' n' a')) qr false y = .ok (false, z) := by
      cases qr with
      | none => exact ⟨y, rfl⟩
      | some q => exact moveSink_whole y h2
    exact ⟨_, _, hy, hz, hb.trans (sink_back hz)⟩
  · obtain ⟨y, hy⟩ : ∃ y, inParent (moveSrc (.var g0 m0) (.field g' n' a')) qs false ss = .ok y := by
      cases qs with
      | none => exact ⟨_, rfl⟩
      | some q => exact moveSrc_part ss false h
    have hb := src_back (l' := y.1) (ss' := y.2) hy
    have h2 : ∀ s ∈ y.2, ∀ u ∈ s.left :: s.right, u.sig = .var g0 m0 → u.part ≠ none := fun s hs u hu e => by
      obtain ⟨s0, hs0, hu0⟩ := hb s hs u hu g0 m0 e
      exact h s0 hs0 u hu0 e
    obtain ⟨z, hz⟩ : ∃ z, inParent (moveSink (.var g0 m0) (.field g' n' a')) qr y.1 y.2 = .ok z := by
      cases qr with
      | none => exact ⟨_, rfl⟩
      | some q => exact moveSink_part y.2 y.1 h2
    exact ⟨_, _, hy, hz, hb.trans (sink_back (l' := z.1) (ss' := z.2) hz)⟩

theorem convertPort_total {i : Item} {dir : Dir} {st : Struct} {d : D} {x : Name × Name} {p : Port}
    (hp : d.decl i.gen x.2 = some (.port p)) (hd : p.dir = dir) (hf : ∃ f ∈ st.fields, f.name = x.1)
    (hm : NoMix d.stmts (.var i.gen x.2)) : ∃ d', convertPort i dir st d x = .ok d' ∧ Back d.stmts d'.stmts := by
  simp only [convertPort]
  rw [portOf_ok.2 hp, Res.ok_bind, if_neg (Classical.not_not.2 hf), if_neg (Classical.not_not.2 hd.symm)]
  by_cases hi : dir = .inp
  · obtain ⟨y, z, h1, h2, h3⟩ := moves_total (g' := i.gen) (n' := i.entry) (a' := x.1) hm i.parent (some i.gen)
    have h2 : moveSink (.var i.gen x.2) (.field i.gen i.entry x.1) i.gen y.1 y.2 = .ok z := h2
    rw [if_pos hi, h1, Res.ok_bind, h2, Res.ok_bind]
    exact ⟨_, rfl, h3⟩
  · obtain ⟨y, z, h1, h2, h3⟩ := moves_total (g' := i.gen) (n' := i.entry) (a' := x.1) hm (some i.gen) i.parent
    have h1 : moveSrc (.var i.gen x.2) (.field i.gen i.entry x.1) i.gen false d.stmts = .ok y := h1
    rw [if_neg hi, h1, Res.ok_bind, h2, Res.ok_bind]
    exact ⟨_, rfl, h3⟩

theorem convertPorts_total {i : Item} {dir : Dir} {st : Struct} : ∀ (m : List (Name × Name)) (d : D),
    (∀ x ∈ m, ∃ p, d.decl i.gen x.2 = some (.port p) ∧ p.dir = dir) → (∀ x ∈ m, ∃ f ∈ st.fields, f.name = x.1) →
    (∀ x ∈ m, NoMix d.stmts (.var i.gen x.2)) → (m.map fun x => x.2).Nodup →
    ∃ d', convertPorts i dir st d m = .ok d' ∧ Back d.stmts d'.stmts
  | [], d, _, _, _, _ => ⟨d, rfl, .refl _⟩
  | x :: m, d, h1, h2, h3, h4 => by
    rw [List.map_cons, List.nodup_cons] at h4
    obtain ⟨p, hp, hd⟩ := h1 x List.mem_cons_self
    obtain ⟨d1, e1, e2⟩ := convertPort_total hp hd (h2 x List.mem_cons_self) (h3 x List.mem_cons_self)
    obtain ⟨_, _, a3, _, _⟩ := convertPort_ok e1
    obtain ⟨d', e3, e4⟩ := convertPorts_total m d1 (fun y hy => by
        obtain ⟨q, hq, hqd⟩ := h1 y (List.mem_cons_of_mem _ hy)
        refine ⟨q, ?_, hqd⟩
        rw [a3, if_neg fun e => h4.1 (List.mem_map.2 ⟨y, hy, e.2⟩)]
        exact hq) (fun y hy => h2 y (List.mem_cons_of_mem _ hy))
      (fun y hy => e2.noMix (h3 y (List.mem_cons_of_mem _ hy))) h4.2
    exact ⟨d', by rw [convertPorts, e1, Res.ok_bind, e3], e2.trans e4⟩

/-- A bundle that can be converted now. -/
structure Ready (d : D) (i : Item) : Prop where
  any : i.map ≠ []
  dir : ∃ dir, AllDir d i dir
  free : d.decl i.gen i.entry = none
  noMix : ∀ x ∈ i.map, NoMix d.stmts (.var i.gen x.2)
  once : (i.map.map fun x => x.2).Nodup

/-- Two bundles have nothing in common. -/
def Apart (i j : Item) : Prop := i.gen = j.gen → i.entry ≠ j.entry ∧ ∀ x ∈ i.map, ∀ y ∈ j.map, x.2 ≠ y.2

theorem convert_total {st : Struct} {d : D} {i : Item} (h : Ready d i) (hf : ∀ x ∈ i.map, ∃ f ∈ st.fields, f.name = x.1) :
    ∃ d', convert st d i = .ok d' ∧ Back d.stmts d'.stmts := by
  obtain ⟨dir, hd⟩ := h.dir
  rw [convert]
  split
  · rename_i hm; exact absurd hm h.any
  · rename_i a r m hm
    obtain ⟨p, hp, hpd⟩ := hd (a, r) (by rw [hm]; exact List.mem_cons_self)
    rw [portOf_ok.2 hp, Res.ok_bind, h.free]
    simp only
    obtain ⟨d', e1, e2⟩ := convertPorts_total (i := i) (dir := p.dir) (st := st) i.map
      { d with decl := fun g n => if g = i.gen ∧ n = i.entry then some (.packed p.dir st) else d.decl g n } (fun x hx => by
        obtain ⟨q, hq, hqd⟩ := hd x hx
        refine ⟨q, ?_, by rw [hqd, hpd]⟩
        simp only
        rw [if_neg fun e => by rw [e.2, h.free] at hq; cases hq]
        exact hq) hf h.noMix h.once
    rw [e1, Res.ok_bind]
    exact ⟨_, rfl, e2⟩

/-- Converting one bundle leaves a bundle that has nothing in common with it as it was. -/
theorem convert_apart {st : Struct} {d d' : D} {i j : Item} (hi : Ready d i) (hj : Ready d j) (ha : Apart i j)
    (hb : Back d.stmts d'.stmts) (h : convert st d i = .ok d') :
    Ready d' j ∧ ∀ x ∈ j.map, d'.decl j.gen x.2 = d.decl j.gen x.2 := by
  obtain ⟨dir, _, c2, _, _, _, c5, _⟩ := convert_ok h
  have key : ∀ x ∈ j.map, d'.decl j.gen x.2 = d.decl j.gen x.2 := fun x hx => by
    obtain ⟨dj, hdj⟩ := hj.dir
    obtain ⟨q, hq, _⟩ := hdj x hx
    have he : ¬ (j.gen = i.gen ∧ x.2 = i.entry) := fun e => by rw [e.1, e.2, c2] at hq; cases hq
    exact (c5 j.gen x.2 he).1 fun ⟨e, y, hy, hyx⟩ => (ha e.symm).2 y hy x hx hyx
  refine ⟨⟨hj.any, ?_, ?_, fun x hx => hb.noMix (hj.noMix x hx), hj.once⟩, key⟩
  · obtain ⟨dj, hdj⟩ := hj.dir
    refine ⟨dj, fun x hx => ?_⟩
    rw [key x hx]; exact hdj x hx
  · have he : ¬ (j.gen = i.gen ∧ j.entry = i.entry) := fun e => (ha e.1.symm).1 e.2.symm
    rw [(c5 j.gen j.entry he).1 fun ⟨e, y, hy, hyx⟩ => ?_]
    · exact hj.free
    · obtain ⟨di, hdi⟩ := hi.dir
      obtain ⟨q, hq, _⟩ := hdi y hy
      rw [hyx, ← e, hj.free] at hq; cases hq

theorem run_total : ∀ (l : List (Struct × Item)) (d : D), (∀ x ∈ l, Ready d x.2 ∧ ∀ y ∈ x.2.map, ∃ f ∈ x.1.fields, f.name = y.1) →
    (l.map fun x => x.2).Pairwise Apart → ∃ d', run d l = .ok d' ∧ Back d.stmts d'.stmts ∧
      ∀ j, Ready d j → (∀ x ∈ l, Apart x.2 j) → Ready d' j ∧ ∀ x ∈ j.map, d'.decl j.gen x.2 = d.decl j.gen x.2
  | [], d, _, _ => ⟨d, rfl, .refl _, fun j hj _ => ⟨hj, fun _ _ => rfl⟩⟩
  | x :: l, d, h, hp => by
    rw [List.map_cons, List.pairwise_cons] at hp
    obtain ⟨hr, hf⟩ := h x List.mem_cons_self
    obtain ⟨d1, e1, e2⟩ := convert_total hr hf
    obtain ⟨d', e3, e4, e5⟩ := run_total l d1 (fun y hy => by
      obtain ⟨hy1, hy2⟩ := h y (List.mem_cons_of_mem _ hy)
      exact ⟨(convert_apart hr hy1 (hp.1 _ (List.mem_map_of_mem hy)) e2 e1).1, hy2⟩) hp.2
    refine ⟨d', by rw [run, e1, Res.ok_bind, e3], e2.trans e4, fun j hj ha => ?_⟩
    obtain ⟨g1, g2⟩ := convert_apart hr hj (ha x List.mem_cons_self) e2 e1
    obtain ⟨g3, g4⟩ := e5 j g1 fun y hy => ha y (List.mem_cons_of_mem _ hy)
    exact ⟨g3, fun y hy => by rw [g4 y hy, g2 y hy]⟩

theorem fieldsOf_total {d : D} {i : Item} (h : ∃ dir, AllDir d i dir) : ∃ fs, fieldsOf d i = .ok fs := by
  obtain ⟨dir, hd⟩ := h
  refine Kinds.mapRes_total _ fun x hx => ?_
  obtain ⟨p, hp, _⟩ := hd x hx
  exact ⟨_, by rw [portOf_ok.2 hp]; rfl⟩

theorem mirrors_det {d : D} {i : Item} {fs gs : List Field} (h1 : Mirrors d i fs) (h2 : Mirrors d i gs) : fs = gs := by
  obtain ⟨g, p, e, n, m⟩ := i
  unfold Mirrors at h1 h2
  simp only at h1 h2
  generalize hm : m = m' at h1 h2
  clear hm
  induction h1 generalizing gs with
  | nil => cases h2; rfl
  | cons h _ ih =>
    cases h2 with
    | cons h' ht =>
      obtain ⟨p, hp, rfl⟩ := h
      obtain ⟨q, hq, rfl⟩ := h'
      rw [hp] at hq
      cases hq
      rw [ih ht]

theorem mirrors_member {d : D} {i : Item} {fs : List Field} (h : Mirrors d i fs) : ∀ x ∈ i.map, ∃ f ∈ fs, f.name = x.1 := fun x hx => by
  obtain ⟨f, hf, p, _, rfl⟩ := all2_mem_left h x hx
  exact ⟨_, hf, rfl⟩

theorem structOf_total {n : Name} : ∀ (gs : List (Nat × List Field)), gs ≠ [] → ∃ st, structOf n gs = .ok st
  | [], h => absurd rfl h
  | [x], _ => ⟨_, rfl⟩
  | _ :: y :: r, _ => structOf_total (y :: r) (by simp)

theorem mergeGroup_total {H : List Char → Nat} {d : D} {x : Name × List Item} (hne : x.2 ≠ []) (hr : ∀ i ∈ x.2, Ready d i)
    (hap : x.2.Pairwise Apart) (hag : ∀ i ∈ x.2, ∀ j ∈ x.2, ∀ fs, Mirrors d i fs → Mirrors d j fs) :
    ∃ d', mergeGroup H d x = .ok d' ∧ ∀ j, Ready d j → (∀ i ∈ x.2, Apart i j) →
      Ready d' j ∧ ∀ z ∈ j.map, d'.decl j.gen z.2 = d.decl j.gen z.2 := by
  obtain ⟨gs, hgs⟩ : ∃ gs, mapRes (fun i => (fieldsOf d i).map fun fs => (i.gen, fs)) x.2 = .ok gs := by
    refine Kinds.mapRes_total _ fun i hi => ?_
    obtain ⟨fs, hfs⟩ := fieldsOf_total (hr i hi).dir
    exact ⟨_, by rw [hfs]; rfl⟩
  have h2 := mapRes_all2 _ _ hgs
  have right : ∀ z ∈ gs, ∃ i ∈ x.2, Mirrors d i z.2 := fun z hz => by
    obtain ⟨i, hi, h'⟩ := h2.mem_right z hz
    obtain ⟨fs, hfs, rfl⟩ := map_eq_ok.1 h'
    exact ⟨i, hi, fieldsOf_ok hfs⟩
  have heq : ∀ a ∈ gs, ∀ b ∈ gs, a.2 = b.2 := fun a ha b hb => by
    obtain ⟨i, hi, hia⟩ := right a ha
    obtain ⟨j, hj, hjb⟩ := right b hb
    exact mirrors_det (hag i hi j hj _ hia) hjb
  have hgne : gs ≠ [] := by
    cases hx : x.2 with
    | nil => exact absurd hx hne
    | cons i is =>
      obtain ⟨z, hz, _⟩ := all2_mem_left h2 i (by rw [hx]; exact List.mem_cons_self)
      exact fun e => by rw [e] at hz; cases hz
  obtain ⟨m, hm, hs⟩ : ∃ m, hashes H [] gs = .ok m ∧ same m = .ok () := by
    cases gs with
    | nil => exact absurd rfl hgne
    | cons z r =>
      obtain ⟨m, hm, hk⟩ := hashes_ok (H := H) (k := H (text z.2)) (z :: r) []
        (fun y hy => by rw [heq y hy z List.mem_cons_self]) (fun y hy => by cases hy)
      exact ⟨m, hm, same_iff.2 fun a ha b hb => by rw [hk a ha, hk b hb]⟩
  obtain ⟨st, hst⟩ := structOf_total (n := x.1) gs hgne
  obtain ⟨_, y, hy, hyf⟩ := structOf_ok gs st hst
  have hmir : ∀ i ∈ x.2, Mirrors d i st.fields := fun i hi => by
    obtain ⟨j, hj, hjy⟩ := right y hy
    rw [hyf]
    exact hag j hj i hi _ hjy
  have hmap : (x.2.map fun i => (st, i)).map (fun x => x.2) = x.2 := by
    rw [List.map_map, show ((fun x : Struct × Item => x.2) ∘ fun i => (st, i)) = id from rfl, List.map_id]
  obtain ⟨d', e1, _, e3⟩ := run_total (x.2.map fun i => (st, i)) d (fun z hz => by
    obtain ⟨i, hi, rfl⟩ := List.mem_map.1 hz
    exact ⟨hr i hi, mirrors_member (hmir i hi)⟩) (by rw [hmap]; exact hap)
  refine ⟨d', ?_, fun j hj ha => e3 j hj fun z hz => ?_⟩
  · rw [mergeGroup, hgs, Res.ok_bind, hm, Res.ok_bind, hs, Res.ok_bind, hst, Res.ok_bind, run_convertAll, e1]
  · obtain ⟨i, hi, rfl⟩ := List.mem_map.1 hz
    exact ha i hi

theorem merge_total {H : List Char → Nat} : ∀ (m : List (Name × List Item)) (d : D), (∀ x ∈ m, x.2 ≠ []) →
    (∀ x ∈ m, ∀ i ∈ x.2, Ready d i) → (m.flatMap fun x => x.2).Pairwise Apart →
    (∀ x ∈ m, ∀ i ∈ x.2, ∀ j ∈ x.2, ∀ fs, Mirrors d i fs → Mirrors d j fs) → ∃ d', merge H d m = .ok d'
  | [], d, _, _, _, _ => ⟨d, rfl⟩
  | x :: m, d, h1, h2, h3, h4 => by
    rw [List.flatMap_cons, List.pairwise_append] at h3
    obtain ⟨d1, e1, e2⟩ := mergeGroup_total (H := H) (h1 x List.mem_cons_self) (h2 x List.mem_cons_self) h3.1 (h4 x List.mem_cons_self)
    have key : ∀ y ∈ m, ∀ j ∈ y.2, Ready d1 j ∧ ∀ z ∈ j.map, d1.decl j.gen z.2 = d.decl j.gen z.2 := fun y hy j hj =>
      e2 j (h2 y (List.mem_cons_of_mem _ hy) j hj) fun i hi => h3.2.2 i hi j (List.mem_flatMap.2 ⟨y, hy, hj⟩)
    have mir : ∀ y ∈ m, ∀ j ∈ y.2, ∀ fs, Mirrors d1 j fs ↔ Mirrors d j fs := fun y hy j hj fs => by
      have aux : ∀ (m' : List (Name × Name)), (∀ z ∈ m', d1.decl j.gen z.2 = d.decl j.gen z.2) → ∀ fs : List Field,
          All2 (fun x f => ∃ p, d1.decl j.gen x.2 = some (.port p) ∧ f = (⟨x.1, p.width, p.sgn⟩ : Field)) m' fs ↔
          All2 (fun x f => ∃ p, d.decl j.gen x.2 = some (.port p) ∧ f = (⟨x.1, p.width, p.sgn⟩ : Field)) m' fs := by
        intro m' hm'
        induction m' with
        | nil => intro fs; constructor <;> (intro h; cases h; exact .nil)
        | cons z m' ih =>
          intro fs
          have hz := hm' z List.mem_cons_self
          have ih := ih fun w hw => hm' w (List.mem_cons_of_mem _ hw)
          constructor
          · intro h; cases h with
            | cons a b => exact .cons (by rw [← hz]; exact a) ((ih _).1 b)
          · intro h; cases h with
            | cons a b => exact .cons (by rw [hz]; exact a) ((ih _).2 b)
      exact aux j.map (key y hy j hj).2 fs
    obtain ⟨d', e3⟩ := merge_total (H := H) m d1 (fun y hy => h1 y (List.mem_cons_of_mem _ hy)) (fun y hy j hj => (key y hy j hj).1) h3.2.1
      fun y hy i hi j hj fs hfs => (mir y hy j hj fs).2 (h4 y (List.mem_cons_of_mem _ hy) i hi j hj fs ((mir y hy i hi fs).1 hfs))
    exact ⟨d', by rw [merge, e1, Res.ok_bind, e3]⟩

theorem Apart.symm {i j : Item} (h : Apart i j) : Apart j i := fun e =>
  ⟨fun e' => (h e.symm).1 e'.symm, fun x hx y hy e' => (h e.symm).2 y hy x hx e'.symm⟩

theorem addTo_apart {n : Name} {x : Item} : ∀ (m : List (Name × List Item)), (m.flatMap fun y => y.2).Pairwise Apart →
    (∀ y ∈ m, ∀ i ∈ y.2, Apart i x) → ((addTo n x m).flatMap fun y => y.2).Pairwise Apart
  | [], _, _ => by simp [addTo]
  | (k, xs) :: r, h, hx => by
    rw [List.flatMap_cons, List.pairwise_append] at h
    obtain ⟨h1, h2, h3⟩ := h
    have hr : ∀ j, (∃ y ∈ r, j ∈ y.2) → j ∈ r.flatMap fun y => y.2 := fun j ⟨y, hy, hj⟩ => List.mem_flatMap.2 ⟨y, hy, hj⟩
    rw [addTo]
    split
    · rw [List.flatMap_cons, List.pairwise_append]
      refine ⟨?_, h2, fun a ha b hb => ?_⟩
      · rw [List.pairwise_append]
        refine ⟨h1, List.pairwise_singleton _ _, fun a ha b hb => ?_⟩
        rw [List.mem_singleton] at hb
        subst hb
        exact hx _ List.mem_cons_self a ha
      · rcases List.mem_append.1 ha with ha | ha
        · exact h3 a ha b hb
        · rw [List.mem_singleton] at ha
          subst ha
          obtain ⟨y, hy, hb⟩ := List.mem_flatMap.1 hb
          exact (hx y (List.mem_cons_of_mem _ hy) b hb).symm
    · split
      · rw [List.flatMap_cons, List.pairwise_append]
        refine ⟨List.pairwise_singleton _ _, ?_, fun a ha b hb => ?_⟩
        · rw [List.flatMap_cons, List.pairwise_append]; exact ⟨h1, h2, h3⟩
        · rw [List.mem_singleton] at ha
          subst ha
          obtain ⟨y, hy, hb⟩ := List.mem_flatMap.1 hb
          exact (hx y hy b hb).symm
      · rw [List.flatMap_cons, List.pairwise_append]
        refine ⟨h1, addTo_apart r h2 fun y hy => hx y (List.mem_cons_of_mem _ hy), fun a ha b hb => ?_⟩
        obtain ⟨y, hy, hb⟩ := List.mem_flatMap.1 hb
        rcases (addTo_mem r).1 ⟨y, hy, hb⟩ with rfl | h
        · exact hx _ List.mem_cons_self a ha
        · exact h3 a ha b (hr b h)

theorem addTo_ne {n : Name} {x : Item} : ∀ (m : List (Name × List Item)), (∀ y ∈ m, y.2 ≠ []) → ∀ y ∈ addTo n x m, y.2 ≠ []
  | [], _ => by simp [addTo]
  | (k, xs) :: r, h => by
    rw [addTo]
    split
    · intro y hy
      rcases List.mem_cons.1 hy with rfl | hy
      · simp
      · exact h y (List.mem_cons_of_mem _ hy)
    · split
      · intro y hy
        rcases List.mem_cons.1 hy with rfl | hy
        · simp
        · exact h y hy
      · intro y hy
        rcases List.mem_cons.1 hy with rfl | hy
        · exact h _ List.mem_cons_self
        · exact addTo_ne r (fun z hz => h z (List.mem_cons_of_mem _ hz)) y hy

theorem scan_total {d : D} {g : Nat} : ∀ (m : List (Name × Name)) (dir : Option Dir), (∀ x ∈ m, ∃ p, d.decl g x.2 = some (.port p)) →
    ∃ r, scan d g dir m = .ok r
  | [], dir, _ => ⟨dir, rfl⟩
  | (a, r) :: m, dir, h => by
    obtain ⟨p, hp⟩ := h (a, r) List.mem_cons_self
    rw [scan, portOf_ok.2 hp, Res.ok_bind]
    split
    · split
      · exact ⟨none, rfl⟩
      · exact scan_total m _ fun x hx => h x (List.mem_cons_of_mem _ hx)
    · exact ⟨none, rfl⟩

theorem collect_total {d : D} : ∀ (is : List Item) (acc : List (Name × List Item)),
    (∀ i ∈ is, ∀ x ∈ i.map, ∃ p, d.decl i.gen x.2 = some (.port p)) → (acc.flatMap fun y => y.2).Pairwise Apart → is.Pairwise Apart →
    (∀ y ∈ acc, ∀ i ∈ y.2, ∀ j ∈ is, Apart i j) → (∀ y ∈ acc, y.2 ≠ []) →
    ∃ m, collect d acc is = .ok m ∧ (m.flatMap fun y => y.2).Pairwise Apart ∧ ∀ y ∈ m, y.2 ≠ []
  | [], acc, _, h, _, _, hne => ⟨acc, rfl, h, hne⟩
  | i :: is, acc, hp, h1, h2, h3, hne => by
    rw [List.pairwise_cons] at h2
    obtain ⟨r, hr⟩ := scan_total (d := d) (g := i.gen) i.map none (hp i List.mem_cons_self)
    rw [collect, wanted, hr]
    simp only [Res.ok_map, Res.ok_bind]
    have hp' : ∀ j ∈ is, ∀ x ∈ j.map, ∃ p, d.decl j.gen x.2 = some (.port p) := fun j hj => hp j (List.mem_cons_of_mem _ hj)
    split
    · refine collect_total is _ hp' (addTo_apart acc h1 fun y hy j hj => h3 y hy j hj i List.mem_cons_self) h2.2 ?_ (addTo_ne acc hne)
      intro y hy a ha j hj
      rcases (addTo_mem acc).1 ⟨y, hy, ha⟩ with rfl | ⟨z, hz, ha⟩
      · exact h2.1 j hj
      · exact h3 z hz a ha j (List.mem_cons_of_mem _ hj)
    · exact collect_total is acc hp' h1 h2.2 (fun y hy a ha j hj => h3 y hy a ha j (List.mem_cons_of_mem _ hj)) hne

/-- **C85, going through (partial).**  The pass goes through if bundles of one name have one definition, the names of the bundles are
free in their generators, and each port is used either as a whole everywhere or in part everywhere.

Missing: a variable with the name of a bundle (`clash_ub`), and a port used both ways (`mixed_ub`). -/
theorem accepts_partial (H : List Char → Nat) (d : D) (hp : ∀ i ∈ d.refs, ∀ x ∈ i.map, ∃ p, d.decl i.gen x.2 = some (.port p))
    (hdef : ∀ i ∈ d.refs, ∀ j ∈ d.refs, Uniform d i → Uniform d j → i.defName = j.defName → ∀ fs, Mirrors d i fs → Mirrors d j fs)
    (hfree : ∀ i ∈ d.refs, Uniform d i → d.decl i.gen i.entry = none)
    (hmix : ∀ i ∈ d.refs, Uniform d i → ∀ x ∈ i.map, NoMix d.stmts (.var i.gen x.2))
    (honce : ∀ i ∈ d.refs, (i.map.map fun x => x.2).Nodup) (hap : d.refs.Pairwise Apart) : ∃ d', change H d = .ok d' := by
  obtain ⟨m, hm, h1, h2⟩ := collect_total (d := d) d.refs [] hp (by simp) hap nofun nofun
  obtain ⟨hnamed, hmem⟩ := collect_ok d.refs [] m hm
  have hnamed := hnamed (fun y hy => by cases hy)
  have hmem : ∀ i, (∃ y ∈ m, i ∈ y.2) ↔ i ∈ d.refs ∧ Uniform d i := fun i => by rw [hmem i]; simp
  obtain ⟨d', h'⟩ := merge_total (H := H) m d h2 (fun x hx i hi => by
    obtain ⟨h3, h4⟩ := (hmem i).1 ⟨x, hx, hi⟩
    refine ⟨h4.any, ?_, hfree i h3 h4, hmix i h3 h4, honce i h3⟩
    rcases h4.same with h | h
    · exact ⟨_, h⟩
    · exact ⟨_, h⟩) h1 fun x hx i hi j hj fs hfs => by
    obtain ⟨h3, h4⟩ := (hmem i).1 ⟨x, hx, hi⟩
    obtain ⟨h5, h6⟩ := (hmem j).1 ⟨x, hx, hj⟩
    exact hdef i h3 j h5 h4 h6 (by rw [hnamed x hx i hi, hnamed x hx j hj]) fs hfs
  exact ⟨d', by rw [change, hm, Res.ok_bind, h']⟩

/-! ### Examples and disagreements -/

/-- A parent (generator 0) with a child (1) that has the bundle `cfg` of type `Config`: an input `read` of one bit and an input `write`
of 4 bits.  The parent drives both, `use` is how the child uses them. -/
def demo (clash : Option Decl) (dir : Dir) (use : List St) : D where
  decl := fun g n =>
    if g = 1 ∧ n = "cfg_read".toList then some (.port ⟨dir, 1, false, [1], .data⟩)
    else if g = 1 ∧ n = "cfg_write".toList then some (.port ⟨dir, 4, true, [1], .data⟩)
    else if g = 1 ∧ n = "y".toList then some .var
    else if g = 1 ∧ n = "cfg".toList then clash else none
  refs := [⟨1, some 0, "cfg".toList, "Config".toList, [("read".toList, "cfg_read".toList), ("write".toList, "cfg_write".toList)]⟩]
  stmts := use

/-- A whole use. -/
def whole (g : Nat) (n : String) : Use := ⟨.var g n.toList, none⟩
/-- An assignment. -/
def asn (g id : Nat) (l : Use) (r : List Use) : St := ⟨g, id, l, r, false, r⟩

/-- `cfg.read = a; cfg.write = b` in the parent, `y = cfg.write & {4{cfg.read}}` in the child. -/
def good : List St := [asn 0 0 (whole 1 "cfg_read") [whole 0 "a"], asn 0 0 (whole 1 "cfg_write") [whole 0 "b"],
  asn 1 1 (whole 1 "y") [whole 1 "cfg_write", whole 1 "cfg_read"]]

/-- What comes out: the declaration of `cfg`, the statements. -/
def outcome (r : Res D) : Res (Option Decl × Option Decl × List St) :=
  r.map fun d => (d.decl 1 "cfg".toList, d.decl 1 "cfg_read".toList, d.stmts)

example : outcome (change enc (demo none .inp good)) = .ok
    (some (.packed .inp ⟨"Config".toList, [⟨"read".toList, 1, false⟩, ⟨"write".toList, 4, true⟩]⟩), none,
      [asn 0 0 ⟨.field 1 "cfg".toList "read".toList, none⟩ [whole 0 "a"],
       asn 0 0 ⟨.field 1 "cfg".toList "write".toList, none⟩ [whole 0 "b"],
       asn 1 1 (whole 1 "y") [⟨.field 1 "cfg".toList "write".toList, none⟩, ⟨.field 1 "cfg".toList "read".toList, none⟩]]) := by
  decide +kernel

/-- The one bundle of the example. -/
def cfg : Item := ⟨1, some 0, "cfg".toList, "Config".toList, [("read".toList, "cfg_read".toList), ("write".toList, "cfg_write".toList)]⟩

theorem demo_decl (c : Option Decl) (dir : Dir) (ss : List St) : ∀ x ∈ cfg.map, ∃ p, (demo c dir ss).decl cfg.gen x.2 = some (.port p) ∧
    p.dir = dir ∧ p.dims = [1] := by
  intro x hx
  simp only [cfg, List.mem_cons, List.not_mem_nil, or_false] at hx
  rcases hx with rfl | rfl
  · exact ⟨_, rfl, rfl, rfl⟩
  · exact ⟨_, rfl, rfl, rfl⟩

theorem demo_uniform (c : Option Decl) (dir : Dir) (ss : List St) (hd : dir = .inp ∨ dir = .out) : Uniform (demo c dir ss) cfg := by
  refine ⟨by simp [cfg], ?_, fun x hx p hp => ?_⟩
  · rcases hd with rfl | rfl
    · exact .inl fun x hx => by obtain ⟨p, h1, h2, _⟩ := demo_decl c .inp ss x hx; exact ⟨p, h1, h2⟩
    · exact .inr fun x hx => by obtain ⟨p, h1, h2, _⟩ := demo_decl c .out ss x hx; exact ⟨p, h1, h2⟩
  · obtain ⟨q, h1, _, h3⟩ := demo_decl c dir ss x hx
    rw [hp] at h1
    cases h1
    exact ⟨1, h3, Nat.le_refl _⟩

/-- The hypotheses of `struct_partial` are met. -/
example : SameNames (demo none .inp good) ∧ WellPlaced (demo none .inp good) := by
  refine ⟨fun i hi j hj _ _ _ => ?_, fun i hi _ y hy dir hd s hs => ?_⟩
  · rw [List.mem_singleton.1 hi, List.mem_singleton.1 hj]
  · have hi : i = cfg := List.mem_singleton.1 hi
    subst hi
    have hdir : dir = .inp := by
      obtain ⟨p, hp, hpd⟩ := hd _ List.mem_cons_self
      obtain ⟨q, hq, hqd, _⟩ := demo_decl none .inp good _ List.mem_cons_self
      rw [hp] at hq; cases hq
      rw [← hpd, hqd]
    subst hdir
    have hs : s ∈ good := hs
    simp only [good, List.mem_cons, List.not_mem_nil, or_false] at hs
    simp only [cfg, List.mem_cons, List.not_mem_nil, or_false] at hy
    rcases hs with rfl | rfl | rfl <;> rcases hy with rfl | rfl <;>
      exact ⟨rfl, by decide +kernel, by decide +kernel⟩

/-- The hypotheses of `accepts_partial` are met. -/
example : (∀ i ∈ (demo none .inp good).refs, ∀ x ∈ i.map, NoMix (demo none .inp good).stmts (.var i.gen x.2)) ∧
    (demo none .inp good).decl cfg.gen cfg.entry = none ∧ (demo none .inp good).refs.Pairwise Apart := by
  refine ⟨fun i _ x _ => .inl fun s hs u hu _ => ?_, by decide +kernel, List.pairwise_singleton _ _⟩
  have hs : s ∈ good := hs
  have : ∀ s ∈ good, ∀ u ∈ s.left :: s.right, u.part = none := by decide +kernel
  exact this s hs u hu

/-- An output of a bundle that the module itself reads, `cfg.read = a; y = cfg.read`: the reader is left with the port that has been
removed. -/
theorem own_output_lost : outcome (change enc (demo none .out [asn 1 0 (whole 1 "cfg_read") [whole 1 "a"], asn 1 0 (whole 1 "y") [whole 1 "cfg_read"]])) =
    .ok (some (.packed .out ⟨"Config".toList, [⟨"read".toList, 1, false⟩, ⟨"write".toList, 4, true⟩]⟩), none,
      [asn 1 0 ⟨.field 1 "cfg".toList "read".toList, none⟩ [whole 1 "a"], asn 1 0 (whole 1 "y") [whole 1 "cfg_read"]]) := by
  decide +kernel

/-- A test of the port itself, `if (cfg.read)`: what is printed still names the removed port. -/
theorem test_lost : outcome (change enc (demo none .inp [⟨1, 2, whole 1 "aux", [whole 1 "cfg_read"], true, [whole 1 "cfg_read"]⟩])) =
    .ok (some (.packed .inp ⟨"Config".toList, [⟨"read".toList, 1, false⟩, ⟨"write".toList, 4, true⟩]⟩), none,
      [⟨1, 2, whole 1 "aux", [⟨.field 1 "cfg".toList "read".toList, none⟩], true, [whole 1 "cfg_read"]⟩]) := by
  decide +kernel

/-- A variable with the name of the bundle: the pass works on a port that has been destroyed. -/
theorem clash_ub : outcome (change enc (demo (some .var) .inp good)) = .ub := by decide +kernel

/-- A port used in part and then as a whole, `y = cfg.write[0]; z = cfg.write`: the first statement is left with freed memory. -/
theorem mixed_ub : outcome (change enc (demo none .inp [asn 1 0 (whole 1 "y") [⟨.var 1 "cfg_write".toList, some (0, 0)⟩],
    asn 1 0 (whole 1 "z") [whole 1 "cfg_write"]])) = .ub := by decide +kernel

theorem outcome_ok {r : Res D} {x : Option Decl × Option Decl × List St} (h : outcome r = .ok x) : ∃ d', r = .ok d' ∧ d'.stmts = x.2.2 := by
  obtain ⟨d', h1, h2⟩ := map_eq_ok.1 h
  exact ⟨d', h1, by rw [← h2]⟩

/-- The full claim about statements is false of the code. -/
theorem not_StatementsClaim : ¬ StatementsClaim := by
  intro h
  obtain ⟨d', h1, h2⟩ := outcome_ok own_output_lost
  obtain ⟨is, hi, hs⟩ := h enc _ d' enc_inj (by decide +kernel) h1
  rw [h2] at hs
  have hc : cfg ∈ is := (hi cfg).2 ⟨List.mem_cons_self, demo_uniform none .out _ (.inr rfl)⟩
  cases hs with
  | cons _ hs =>
    cases hs with
    | cons h3 _ =>
      have h4 := h3.text
      cases h4 with
      | cons h5 _ =>
        have key : ∀ a b, Ren is a b → a = b → a ≠ .var 1 "cfg_read".toList := fun a b hr he => by
          cases hr with
          | moved _ _ => cases he
          | kept h6 => exact h6 cfg hc ("read".toList, "cfg_read".toList) List.mem_cons_self
        exact key _ _ h5.1 rfl rfl

/-- The full claim about going through is false of the code. -/
theorem not_AcceptsClaim : ¬ AcceptsClaim := by
  intro h
  obtain ⟨d', h1⟩ := h enc (demo (some .var) .inp good) (fun i hi x hx => by
      rw [List.mem_singleton.1 hi] at hx ⊢
      obtain ⟨p, hp, _⟩ := demo_decl (some .var) .inp good x hx
      exact ⟨p, hp⟩)
    (fun i hi j hj _ fs hfs => by rw [List.mem_singleton.1 hj]; rw [List.mem_singleton.1 hi] at hfs; exact hfs)
    (fun i hi p => by
      rw [List.mem_singleton.1 hi]
      exact ⟨fun h => (by cases h), fun _ _ h => (by cases h)⟩)
  have := clash_ub
  rw [h1] at this
  cases this

/-- Accepted with different definitions, then stopped by an internal error in the middle of the changes. -/
theorem conflict_wrong : ∃ m, hashes enc [] [(1, [⟨"x".toList, 8, false⟩, ⟨"y".toList, 11, false⟩]), (2, [⟨"x11".toList, 8, false⟩, ⟨"y".toList, 1, false⟩])] = .ok m ∧
    same m = .ok () := by
  refine ⟨[(2, enc (text [⟨"x11".toList, 8, false⟩, ⟨"y".toList, 1, false⟩])), (1, enc (text [⟨"x".toList, 8, false⟩, ⟨"y".toList, 11, false⟩]))], ?_, ?_⟩ <;>
    decide +kernel

end Kratos.Bundle
