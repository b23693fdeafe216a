import Verif.Const.Props
import Verif.Pass.Kinds
import Verif.Print.Lists

/-!
# Enumerations

`Enum`, `EnumConst`, `EnumVar::assign_` (`src/expr.cc`), `EnumPort::assign_` (`src/port.cc`),
`Context::enum_`, `Generator::enum_`, and their text (`enum_code_`, `extract_enum_info`).

Not modelled: `external` enums, `Context::reset_enum`, enum parameters, debug information.
-/

namespace Kratos.Enm
open Kratos.Const (KConst)
open Kratos.Eval (U64)

variable {N : Type} [DecidableEq N]

/-- `Enum` (`src/expr.hh:785-808`): its members with their constants.  The constants are shared by
everything that uses the member. -/
structure EnumDef (N : Type) where
  name : N
  width : Nat
  members : List (N × KConst)
  deriving DecidableEq

/-- The enums of the context (`none`) and of the generators, and the variables of the generators. -/
structure St (N : Type) where
  enums : List (Option Nat × EnumDef N)
  vars : List (Nat × N)
  deriving DecidableEq

/-- The enums of a scope (`Context::enum_defs_`, `Generator::enums_`). -/
def St.scope (s : St N) (sc : Option Nat) : List (EnumDef N) :=
  (s.enums.filter (fun p => p.1 = sc)).map (·.2)

/-- The calls of the API. -/
inductive Op (N : Type) where
  /-- `Context::enum_` (`none`), `Generator::enum_` -/
  | enum (sc : Option Nat) (name : N) (ms : List (N × U64)) (width : Nat)
  /-- `Generator::var`, of a given shape -/
  | var (g : Nat) (n : N)
  /-- a member assigned to a plain variable of a width -/
  | use (sc : Option Nat) (e m : N) (w : Nat)

/-- `Enum::Enum` (`src/expr.cc:2036-2045`).  `kw`: the SystemVerilog keywords.  The names of the
members are not looked at. -/
def make (kw : N → Bool) (name : N) (ms : List (N × U64)) (width : Nat) : Res (EnumDef N) :=
  if kw name then .throw .user
  else (Kinds.mapRes (fun m : N × U64 => (Const.create m.2 width false).bind fun c => .ok (m.1, c)) ms).bind
    fun l => .ok ⟨name, width, l⟩

/-- `Enum::verify_naming_conflict` (`src/expr.cc:2053-2085`): whether it throws. -/
def conflict (enums : List (EnumDef N)) (name : N) (ms : List (N × U64)) : Bool :=
  enums.any (fun e => e.name = name) ||
  ms.any fun m => enums.any fun e => e.members.any fun x => x.1 = m.1

/-- `Enum::get_enum` (`src/expr.cc:2047-2051`). -/
def getEnum (e : EnumDef N) (m : N) : Res (N × KConst) :=
  match e.members.find? (fun x => x.1 = m) with
  | some x => .ok x
  | none => .throw .user

/-- The check of `AssignStmt` for a constant (`src/stmt.cc:146-155`): a constant of another width is
resized when its value fits. -/
def resize (c : KConst) (w : Nat) : Res KConst :=
  if c.width = w then .ok c
  else (Const.isLegal c.value w false).bind fun r =>
    if r = .legal then Const.setWidth c w else .throw .var

def St.find (s : St N) (sc : Option Nat) (nm : N) : Option (EnumDef N) :=
  (s.enums.find? (fun p => p.1 = sc ∧ p.2.name = nm)).map (·.2)

/-- Replace the constant of a member. -/
def St.put (s : St N) (sc : Option Nat) (nm m : N) (c : KConst) : St N :=
  { s with enums := s.enums.map fun p =>
      if p.1 = sc ∧ p.2.name = nm then
        (p.1, { p.2 with members := p.2.members.map fun x => if x.1 = m then (x.1, c) else x })
      else p }

/-- One call.
`enum`: `src/context.cc:112-119` checks, then creates; `src/generator.cc:261-267` creates, then
checks.  `var`: `src/generator.cc:92-104`.  `use`: `Var::assign_` (`src/expr.cc:904-924`). -/
def step (kw : N → Bool) (s : St N) : Op N → Res (St N)
  | .enum none name ms w =>
    if conflict (s.scope none) name ms then .throw .user
    else (make kw name ms w).bind fun e => .ok { s with enums := s.enums ++ [(none, e)] }
  | .enum (some g) name ms w =>
    (make kw name ms w).bind fun e =>
      if conflict (s.scope (some g)) name ms then .throw .user
      else .ok { s with enums := s.enums ++ [(some g, e)] }
  | .var g n =>
    if (g, n) ∈ s.vars then .ok s
    else if kw n then .throw .user
    else .ok { s with vars := s.vars ++ [(g, n)] }
  | .use sc e m w =>
    match s.find sc e with
    | none => .throw .user
    | some d => (getEnum d m).bind fun x => (resize x.2 w).bind fun c => .ok (s.put sc e m c)

/-- A history; an exception leaves the state as it was, undefined behaviour ends it. -/
def run (kw : N → Bool) : St N → List (Op N) → Option (St N)
  | s, [] => some s
  | s, o :: os =>
    match step kw s o with
    | .ok s' => run kw s' os
    | .throw _ => run kw s os
    | .ub => none

/-- A definition is a map: its keys are distinct (`std::map`, a Python dictionary). -/
def Op.wf : Op N → Prop
  | .enum _ _ ms _ => (ms.map (·.1)).Nodup
  | _ => True

def init : St N := ⟨[], []⟩

/-- What is assigned to an enum variable or port. -/
inductive Src (N : Type) where
  | const (e : EnumDef N) (m : N)
  | var (e : EnumDef N)
  | casted (t : Option (EnumDef N))
  | plain

/-- `EnumVar::assign_` and `EnumPort::assign_` (`src/expr.cc:2243-2264`, `src/port.cc:135-157`),
then the width check of the statement (`src/stmt.cc:146-175`; the width of a cast is that of its
enum). -/
def assign (t : EnumDef N) : Src N → Res Unit
  | .plain => .throw .var
  | .const e m =>
    if e.name ≠ t.name then .throw .var
    else (getEnum e m).bind fun x => (resize x.2 t.width).bind fun _ => .ok ()
  | .casted none => .throw .var
  | .casted (some e) | .var e =>
    if e.name ≠ t.name then .throw .var
    else if e.width ≠ t.width then .throw .var
    else .ok ()

/-- `enum_code_` (`src/codegen.cc:1186-1208`): the range (`none`: a single bit; `width - 1` is a
`uint32_t`) and the members, sorted by their value as `int64_t`. -/
def rangeOf (width : Nat) : Option Nat :=
  if width = 1 then none else some ((width + 2 ^ 32 - 1) % 2 ^ 32)

def typedefOrder (e : EnumDef N) (o : Res (List (N × KConst))) : Prop :=
  Lists.StdSort (fun a b : N × KConst => a.2.value.slt b.2.value = true) e.members o

/-! ## Specification -/

/-- The enum types and members that are declared in the body of a module. -/
def Types (s : St N) (g : Nat) (n : N) (e : EnumDef N) : Prop :=
  (some g, e) ∈ s.enums ∧ e.name = n

def Member (s : St N) (sc : Option Nat) (n : N) (v : Nat) : Prop :=
  ∃ e, (sc, e) ∈ s.enums ∧ ∃ c, (n, c) ∈ e.members ∧ v = c.value.toNat

/-- A name is declared in the body of a module. -/
def DeclaredIn (s : St N) (g : Nat) (n : N) : Prop :=
  (∃ v, Member s (some g) n v) ∨ (∃ e, Types s g n e) ∨ (g, n) ∈ s.vars

/-- What a name means in the body of a module as a value: a member declared there, or, if the module
does not declare the name, a member from the imported package. -/
def Denotes (s : St N) (g : Nat) (n : N) (v : Nat) : Prop :=
  Member s (some g) n v ∨ (¬ DeclaredIn s g n ∧ Member s none n v)

/-- What a name means in the body of a module as a type. -/
def DenotesType (s : St N) (g : Nat) (n : N) (e : EnumDef N) : Prop :=
  Types s g n e ∨ (¬ DeclaredIn s g n ∧ (none, e) ∈ s.enums ∧ e.name = n)

/-- The same in the header of a module: nothing of the body is declared yet. -/
def DenotesHeader (s : St N) (n : N) (e : EnumDef N) : Prop := (none, e) ∈ s.enums ∧ e.name = n

/-- A legal SystemVerilog enumeration (IEEE 1800-2017, 6.19): at least one member, distinct names,
distinct values that fit, literals as wide as the type. -/
def LegalEnum (e : EnumDef N) : Prop :=
  1 ≤ e.width ∧ e.members ≠ [] ∧ (e.members.map (·.1)).Nodup ∧
  (e.members.map (·.2.value.toNat)).Nodup ∧
  ∀ m ∈ e.members, m.2.value.toNat < 2 ^ e.width ∧ m.2.width = e.width

/-- What a user sees of an enum. -/
def EnumDef.shape (e : EnumDef N) : N × Nat × List (N × U64) :=
  (e.name, e.width, e.members.map fun m => (m.1, m.2.value))

/-- What a user expects: every enum accepted is legal. -/
def LegalClaim : Prop :=
  ∀ (N : Type) [DecidableEq N] (kw : N → Bool) (ops : List (Op N)) (s : St N),
    (∀ o ∈ ops, o.wf) → run kw init ops = some s → ∀ sc e, (sc, e) ∈ s.enums → LegalEnum e

/-- What a user expects: in a module, the name of a member of an enum of the context or of the module
has the value of that member. -/
def ValueClaim : Prop :=
  ∀ (N : Type) [DecidableEq N] (kw : N → Bool) (ops : List (Op N)) (s : St N),
    (∀ o ∈ ops, o.wf) → run kw init ops = some s →
    ∀ (g : Nat) (sc : Option Nat) (e : EnumDef N) (m : N) (c : KConst),
      sc = none ∨ sc = some g → (sc, e) ∈ s.enums → (m, c) ∈ e.members →
      ∀ v, Denotes s g m v ↔ v = c.value.toNat

/-- What a user expects: an accepted assignment gives an enum variable one of its values. -/
def AssignClaim : Prop :=
  ∀ (N : Type) [DecidableEq N] (kw : N → Bool) (ops : List (Op N)) (s : St N),
    (∀ o ∈ ops, o.wf) → run kw init ops = some s →
    ∀ (sc sc' : Option Nat) (t e : EnumDef N), (sc, t) ∈ s.enums → (sc', e) ∈ s.enums →
      assign t (.var e) = .ok () →
      ∀ m ∈ e.members, ∃ m' ∈ t.members, m'.2.value = m.2.value

/-! ## Theorems -/

theorem mapRes_members {width : Nat} : ∀ {ms : List (N × U64)} {l : List (N × KConst)},
    Kinds.mapRes (fun m : N × U64 => (Const.create m.2 width false).bind fun c => .ok (m.1, c)) ms
      = .ok l →
    l.map (fun m => (m.1, m.2.value)) = ms ∧
      ∀ m ∈ l, m.2.width = width ∧ m.2.sgn = false ∧ 1 ≤ width ∧ width ≤ 64 ∧
        m.2.value.toNat < 2 ^ width := by
  intro ms
  induction ms with
  | nil => intro l h; cases h; simp
  | cons m ms ih =>
    intro l h
    simp only [Kinds.mapRes, Res.bind_eq_ok, Res.ok.injEq] at h
    obtain ⟨x, ⟨c, hc, rfl⟩, l', hl, rfl⟩ := h
    obtain ⟨h1, h2⟩ := ih hl
    have key : c.value = m.2 ∧ c.width = width ∧ c.sgn = false ∧ 1 ≤ width ∧ width ≤ 64 ∧
        m.2.toNat < 2 ^ width := by
      by_cases hw0 : width = 0
      · simp [Const.create, hw0] at hc
      · by_cases hw : width ≤ 64
        · obtain ⟨r, hr, hrl, _⟩ := Const.isLegal_iff (by omega : 1 ≤ width) hw false m.2
          simp only [Const.create, if_neg hw0, hr, Res.ok_bind] at hc
          have : r = .legal := by
            cases r with
            | legal => rfl
            | small => simp at hc
            | big =>
              simp only [if_pos hw] at hc
              rw [Res.bind_eq_ok] at hc
              obtain ⟨_, _, hc⟩ := hc
              cases hc
          subst this
          simp only [Res.ok.injEq] at hc
          subst hc
          have := hrl.mp rfl
          simp only [Const.Representable, Const.number, Bool.false_eq_true, if_false] at this
          refine ⟨rfl, rfl, rfl, by omega, hw, ?_⟩
          have h3 := this.2
          exact_mod_cast h3
        · exfalso
          have hs : Eval.shl 1#64 width = .ub := by simp [Eval.shl]; omega
          simp [Const.create, hw0, Const.isLegal, hs, show width ≠ 64 by omega] at hc
    refine ⟨by simp [h1, key.1], ?_⟩
    intro x hx
    rcases List.mem_cons.mp hx with rfl | hx
    · exact ⟨key.2.1, key.2.2.1, key.2.2.2.1, key.2.2.2.2.1, by rw [key.1]; exact key.2.2.2.2.2⟩
    · exact h2 x hx

theorem make_spec {kw : N → Bool} {name : N} {ms : List (N × U64)} {w : Nat} {e : EnumDef N}
    (h : make kw name ms w = .ok e) :
    e.shape = (name, w, ms) ∧ ∀ m ∈ e.members, m.2.width = w ∧ m.2.sgn = false ∧ 1 ≤ w ∧ w ≤ 64 ∧
        m.2.value.toNat < 2 ^ w := by
  simp only [make] at h
  split at h
  · cases h
  · simp only [Res.bind_eq_ok, Res.ok.injEq] at h
    obtain ⟨l, hl, rfl⟩ := h
    obtain ⟨h1, h2⟩ := mapRes_members hl
    exact ⟨by simp [EnumDef.shape, h1], h2⟩

/-- What a user sees of all enums. -/
def shapes (s : St N) : List (Option Nat × N × Nat × List (N × U64)) :=
  s.enums.map fun p => (p.1, p.2.shape)

/-- The members of the enums of a scope. -/
def membersOf (l : List (Option Nat × N × Nat × List (N × U64))) (sc : Option Nat) : List (N × U64) :=
  (l.filter (fun p => p.1 = sc)).flatMap (·.2.2.2)

def namesOf (l : List (Option Nat × N × Nat × List (N × U64))) (sc : Option Nat) : List N :=
  (l.filter (fun p => p.1 = sc)).map (·.2.1)

structure Inv (l : List (Option Nat × N × Nat × List (N × U64))) : Prop where
  names : ∀ sc, (namesOf l sc).Nodup
  members : ∀ sc, ((membersOf l sc).map (·.1)).Nodup
  fits : ∀ p ∈ l, ∀ m ∈ p.2.2.2, 1 ≤ p.2.2.1 ∧ p.2.2.1 ≤ 64 ∧ m.2.toNat < 2 ^ p.2.2.1

omit [DecidableEq N] in
theorem inv_nil : Inv ([] : List (Option Nat × N × Nat × List (N × U64))) :=
  ⟨fun _ => by simp [namesOf], fun _ => by simp [membersOf], fun _ h => by cases h⟩

omit [DecidableEq N] in
theorem inv_append {l : List (Option Nat × N × Nat × List (N × U64))} (h : Inv l) {sc : Option Nat}
    {name : N} {w : Nat} {ms : List (N × U64)} (hn : name ∉ namesOf l sc)
    (hm : ∀ m ∈ ms, m.1 ∉ (membersOf l sc).map (·.1)) (hnd : (ms.map (·.1)).Nodup)
    (hf : ∀ m ∈ ms, 1 ≤ w ∧ w ≤ 64 ∧ m.2.toNat < 2 ^ w) : Inv (l ++ [(sc, name, w, ms)]) := by
  refine ⟨fun sc' => ?_, fun sc' => ?_, ?_⟩
  · by_cases he : sc = sc'
    · subst he
      simp only [namesOf, List.filter_append, List.map_append]
      rw [List.nodup_append]
      refine ⟨h.names sc, by simp, ?_⟩
      intro a ha b hb
      simp at hb
      subst hb
      exact fun e => hn (e ▸ ha)
    · have := h.names sc'
      simpa [namesOf, List.filter_append, he] using this
  · by_cases he : sc = sc'
    · subst he
      have e : membersOf (l ++ [(sc, name, w, ms)]) sc = membersOf l sc ++ ms := by
        simp [membersOf, List.filter_append]
      rw [e, List.map_append, List.nodup_append]
      refine ⟨h.members sc, hnd, ?_⟩
      intro a ha b hb e
      obtain ⟨m, hm', rfl⟩ := List.mem_map.mp hb
      exact hm m hm' (e ▸ ha)
    · have e : membersOf (l ++ [(sc, name, w, ms)]) sc' = membersOf l sc' := by
        simp [membersOf, List.filter_append, he]
      rw [e]
      exact h.members sc'
  · intro p hp m hm'
    rcases List.mem_append.mp hp with hp | hp
    · exact h.fits p hp m hm'
    · simp only [List.mem_singleton] at hp
      subst hp
      exact hf m hm'

theorem conflict_iff (s : St N) (sc : Option Nat) (name : N) (ms : List (N × U64)) :
    conflict (s.scope sc) name ms = false ↔
      name ∉ namesOf (shapes s) sc ∧ ∀ m ∈ ms, m.1 ∉ (membersOf (shapes s) sc).map (·.1) := by
  have h1 : ∀ e, e ∈ s.scope sc ↔ (sc, e) ∈ s.enums := by
    intro e
    simp only [St.scope, List.mem_map, List.mem_filter, decide_eq_true_eq]
    constructor
    · rintro ⟨⟨a, b⟩, ⟨h, rfl⟩, rfl⟩; exact h
    · intro h; exact ⟨_, ⟨h, rfl⟩, rfl⟩
  have h2 : ∀ n, n ∈ namesOf (shapes s) sc ↔ ∃ e, (sc, e) ∈ s.enums ∧ e.name = n := by
    intro n
    simp only [namesOf, shapes, List.mem_map, List.mem_filter, decide_eq_true_eq]
    constructor
    · rintro ⟨_, ⟨⟨⟨a, b⟩, h, rfl⟩, rfl⟩, rfl⟩; exact ⟨b, h, rfl⟩
    · rintro ⟨e, h, rfl⟩; exact ⟨_, ⟨⟨_, h, rfl⟩, rfl⟩, rfl⟩
  have h3 : ∀ n, n ∈ (membersOf (shapes s) sc).map (·.1) ↔
      ∃ e, (sc, e) ∈ s.enums ∧ ∃ x ∈ e.members, x.1 = n := by
    intro n
    simp only [membersOf, shapes, List.mem_map, List.mem_flatMap, List.mem_filter,
      decide_eq_true_eq]
    constructor
    · rintro ⟨y, ⟨_, ⟨⟨⟨a, b⟩, h, rfl⟩, rfl⟩, hy⟩, rfl⟩
      obtain ⟨x, hx, rfl⟩ := List.mem_map.mp hy
      exact ⟨b, h, x, hx, rfl⟩
    · rintro ⟨e, h, x, hx, rfl⟩
      exact ⟨(x.1, x.2.value), ⟨_, ⟨⟨_, h, rfl⟩, rfl⟩, List.mem_map.mpr ⟨x, hx, rfl⟩⟩, rfl⟩
  rw [Bool.eq_false_iff, h2]
  simp only [conflict, ne_eq, Bool.or_eq_true, List.any_eq_true, decide_eq_true_eq, h1, h3]
  constructor
  · intro h
    exact ⟨fun ⟨e, he, hn⟩ => h (Or.inl ⟨e, he, hn⟩),
      fun m hm ⟨e, he, x, hx, hn⟩ => h (Or.inr ⟨m, hm, e, he, x, hx, hn⟩)⟩
  · rintro ⟨a, b⟩ (⟨e, he, hn⟩ | ⟨m, hm, e, he, x, hx, hn⟩)
    · exact a ⟨e, he, hn⟩
    · exact b m hm ⟨e, he, x, hx, hn⟩

theorem resize_value {c c' : KConst} {w : Nat} (h : resize c w = .ok c') :
    c'.value = c.value ∧ c'.width = w := by
  simp only [resize] at h
  split at h
  · rename_i hw; cases h; exact ⟨rfl, hw⟩
  · simp only [Res.bind_eq_ok] at h
    obtain ⟨r, hr, h⟩ := h
    split at h
    · rename_i hl
      simp only [Const.setWidth, Res.bind_eq_ok] at h
      obtain ⟨r', _, h⟩ := h
      split at h
      · cases h; exact ⟨rfl, rfl⟩
      · cases h
    · cases h

theorem find_some {s : St N} {sc : Option Nat} {nm : N} {d : EnumDef N} (h : s.find sc nm = some d) :
    (sc, d) ∈ s.enums ∧ d.name = nm := by
  simp only [St.find, Option.map_eq_some_iff] at h
  obtain ⟨p, hp, rfl⟩ := h
  have h1 := List.mem_of_find?_eq_some hp
  have h2 := List.find?_some hp
  simp only [decide_eq_true_eq] at h2
  exact ⟨h2.1 ▸ h1, h2.2⟩

omit [DecidableEq N] in
theorem uniqKey {A B : Type} {l : List (A × B)} (h : (l.map (·.1)).Nodup) {a : A} {b c : B}
    (h1 : (a, b) ∈ l) (h2 : (a, c) ∈ l) : b = c := by
  induction l with
  | nil => cases h1
  | cons x l ih =>
    simp only [List.map_cons, List.nodup_cons] at h
    rcases List.mem_cons.mp h1 with e1 | h1 <;> rcases List.mem_cons.mp h2 with e2 | h2
    · rw [← e1] at e2; cases e2; rfl
    · exact absurd (List.mem_map.mpr ⟨_, h2, by rw [← e1]⟩) h.1
    · exact absurd (List.mem_map.mpr ⟨_, h1, by rw [← e2]⟩) h.1
    · exact ih h.2 h1 h2

/-- In a scope, a name is a member of at most one enum, with one value. -/
theorem member_unique {s : St N} (h : Inv (shapes s)) {sc : Option Nat} {e e' : EnumDef N} {m : N}
    {c c' : KConst} (he : (sc, e) ∈ s.enums) (he' : (sc, e') ∈ s.enums) (hm : (m, c) ∈ e.members)
    (hm' : (m, c') ∈ e'.members) : c.value = c'.value := by
  refine uniqKey (h.members sc) (a := m) ?_ ?_
  · simp only [membersOf, shapes, List.mem_flatMap, List.mem_filter, decide_eq_true_eq, List.mem_map]
    exact ⟨_, ⟨⟨_, he, rfl⟩, rfl⟩, List.mem_map.mpr ⟨_, hm, rfl⟩⟩
  · simp only [membersOf, shapes, List.mem_flatMap, List.mem_filter, decide_eq_true_eq, List.mem_map]
    exact ⟨_, ⟨⟨_, he', rfl⟩, rfl⟩, List.mem_map.mpr ⟨_, hm', rfl⟩⟩

theorem use_shapes {s : St N} (h : Inv (shapes s)) {sc : Option Nat} {e m : N} {w : Nat} {kw : N → Bool}
    {s' : St N} (hs : step kw s (.use sc e m w) = .ok s') : shapes s' = shapes s := by
  simp only [step] at hs
  split at hs
  · cases hs
  · rename_i d hd
    simp only [Res.bind_eq_ok, Res.ok.injEq] at hs
    obtain ⟨x, hx, c, hc, rfl⟩ := hs
    have hmem : x ∈ d.members ∧ x.1 = m := by
      simp only [getEnum] at hx
      split at hx
      · rename_i y hy
        cases hx
        exact ⟨List.mem_of_find?_eq_some hy, by simpa using List.find?_some hy⟩
      · cases hx
    have hd' := find_some hd
    have hv := (resize_value hc).1
    simp only [shapes, St.put, List.map_map]
    apply List.map_congr_left
    intro p hp
    simp only [Function.comp]
    split
    · rename_i hcond
      simp only [EnumDef.shape, Prod.mk.injEq, true_and, List.map_map]
      apply List.map_congr_left
      intro y hy
      simp only [Function.comp]
      split
      · rename_i hym
        have : y.2.value = x.2.value := by
          refine member_unique h (sc := sc) (e := p.2) (e' := d) (m := m) ?_ hd'.1 ?_ ?_
          · rw [← hcond.1]; exact hp
          · rw [← hym]; exact hy
          · rw [← hmem.2]; exact hmem.1
        rw [hv, this]
      · rfl
    · rfl

/-- What a call that returns does. -/
theorem step_shapes {kw : N → Bool} {s s' : St N} {o : Op N} (h : Inv (shapes s)) (hw : o.wf)
    (hs : step kw s o = .ok s') :
    Inv (shapes s') ∧ ∃ l, shapes s' = shapes s ++ l ∧
      ∀ p, p ∈ l ↔ ∃ sc n w ms, o = .enum sc n ms w ∧ p = (sc, n, w, ms) := by
  cases o with
  | enum sc name ms w =>
    have key : ∃ e, make kw name ms w = .ok e ∧ conflict (s.scope sc) name ms = false ∧
        s' = { s with enums := s.enums ++ [(sc, e)] } := by
      cases sc with
      | none =>
        simp only [step] at hs
        split at hs
        · cases hs
        · rename_i hc
          simp only [Res.bind_eq_ok, Res.ok.injEq] at hs
          obtain ⟨e, he, rfl⟩ := hs
          exact ⟨e, he, by simpa using hc, rfl⟩
      | some g =>
        simp only [step, Res.bind_eq_ok] at hs
        obtain ⟨e, he, hs⟩ := hs
        split at hs
        · cases hs
        · rename_i hc
          cases hs
          exact ⟨e, he, by simpa using hc, rfl⟩
    obtain ⟨e, he, hc, rfl⟩ := key
    obtain ⟨h1, h2⟩ := make_spec he
    have hsh : shapes { s with enums := s.enums ++ [(sc, e)] } = shapes s ++ [(sc, name, w, ms)] := by
      simp [shapes, h1]
    obtain ⟨c1, c2⟩ := (conflict_iff s sc name ms).mp hc
    rw [hsh]
    refine ⟨inv_append h c1 c2 hw ?_, _, rfl, ?_⟩
    · intro m hm
      have hms : e.members.map (fun m => (m.1, m.2.value)) = ms := by
        simp only [EnumDef.shape, Prod.mk.injEq] at h1
        exact h1.2.2
      rw [← hms] at hm
      obtain ⟨x, hx, rfl⟩ := List.mem_map.mp hm
      have := h2 x hx
      exact this.2.2
    · intro p
      simp only [List.mem_singleton]
      constructor
      · rintro rfl; exact ⟨_, _, _, _, rfl, rfl⟩
      · rintro ⟨_, _, _, _, h, rfl⟩; cases h; rfl
  | var g n =>
    have : shapes s' = shapes s := by
      simp only [step] at hs
      split at hs
      · cases hs; rfl
      · split at hs
        · cases hs
        · cases hs; rfl
    rw [this]
    exact ⟨h, [], by simp, by simp⟩
  | use sc e m w =>
    rw [use_shapes h hs]
    exact ⟨h, [], by simp, by simp⟩

theorem run_inv {kw : N → Bool} : ∀ {ops : List (Op N)} {s s' : St N}, Inv (shapes s) →
    (∀ o ∈ ops, o.wf) → run kw s ops = some s' →
    Inv (shapes s') ∧ ∃ l, shapes s' = shapes s ++ l ∧
      ∀ sc n w ms, (sc, n, w, ms) ∈ l → Op.enum sc n ms w ∈ ops := by
  intro ops
  induction ops with
  | nil => intro s s' h _ hr; cases hr; exact ⟨h, [], by simp, by simp⟩
  | cons o ops ih =>
    intro s s' h hw hr
    have hw' : ∀ o ∈ ops, o.wf := fun o ho => hw o (List.mem_cons_of_mem _ ho)
    simp only [run] at hr
    split at hr
    · rename_i s1 h1
      obtain ⟨i1, l1, e1, m1⟩ := step_shapes h (hw o (by simp)) h1
      obtain ⟨i2, l2, e2, m2⟩ := ih i1 hw' hr
      refine ⟨i2, l1 ++ l2, by rw [e2, e1, List.append_assoc], ?_⟩
      intro sc n w ms hm
      rcases List.mem_append.mp hm with hm | hm
      · obtain ⟨_, _, _, _, h, e⟩ := (m1 _).mp hm
        cases e
        rw [h]; simp
      · exact List.mem_cons_of_mem _ (m2 sc n w ms hm)
    · obtain ⟨i2, l2, e2, m2⟩ := ih h hw' hr
      exact ⟨i2, l2, e2, fun sc n w ms hm => List.mem_cons_of_mem _ (m2 sc n w ms hm)⟩
    · cases hr

theorem names_eq (s : St N) (sc : Option Nat) : (s.scope sc).map (·.name) = namesOf (shapes s) sc := by
  simp only [St.scope, namesOf, shapes, List.filter_map, List.map_map]
  rfl

theorem members_eq (s : St N) (sc : Option Nat) :
    ((s.scope sc).flatMap (·.members)).map (·.1) = (membersOf (shapes s) sc).map (·.1) := by
  simp only [St.scope, membersOf, shapes, List.filter_map, List.flatMap_map, List.map_flatMap]
  congr 1
  funext p
  simp [EnumDef.shape, Function.comp_def]

/-- C83: after any history of calls, in the context and in every generator the enums have distinct
names, no name is a member of two of them or twice of one, and every value fits in the declared
width; and every enum is as it was declared by one of the calls. -/
theorem declare_partial {kw : N → Bool} {ops : List (Op N)} {s : St N} (hw : ∀ o ∈ ops, o.wf)
    (h : run kw init ops = some s) :
    (∀ sc, ((s.scope sc).map (·.name)).Nodup) ∧
    (∀ sc, (((s.scope sc).flatMap (·.members)).map (·.1)).Nodup) ∧
    (∀ sc e, (sc, e) ∈ s.enums → ∀ m ∈ e.members,
      1 ≤ e.width ∧ e.width ≤ 64 ∧ m.2.value.toNat < 2 ^ e.width) ∧
    ∀ sc e, (sc, e) ∈ s.enums → ∃ ms, Op.enum sc e.name ms e.width ∈ ops ∧
      e.members.map (fun m => (m.1, m.2.value)) = ms := by
  obtain ⟨i, l, e, hl⟩ := run_inv (s := init) inv_nil hw h
  have e : shapes s = l := by simpa [shapes, init] using e
  refine ⟨fun sc => by rw [names_eq]; exact i.names sc, fun sc => by rw [members_eq]; exact i.members sc,
    ?_, ?_⟩
  · intro sc d hd m hm
    have := i.fits (sc, d.shape) (List.mem_map.mpr ⟨_, hd, rfl⟩) (m.1, m.2.value)
      (List.mem_map.mpr ⟨m, hm, rfl⟩)
    exact this
  · intro sc d hd
    have : (sc, d.shape) ∈ l := e ▸ List.mem_map.mpr ⟨_, hd, rfl⟩
    exact ⟨_, hl _ _ _ _ this, rfl⟩

/-- C83: what was declared stays: later calls only add enums. -/
theorem declared_stays {kw : N → Bool} {ops ops' : List (Op N)} {s s' : St N}
    (hw : ∀ o ∈ ops ++ ops', o.wf) (h : run kw init ops = some s) (h' : run kw s ops' = some s') :
    ∃ l, s'.enums.map (fun p => (p.1, p.2.name, p.2.width, p.2.members.map fun m => (m.1, m.2.value)))
      = s.enums.map (fun p => (p.1, p.2.name, p.2.width, p.2.members.map fun m => (m.1, m.2.value)))
        ++ l := by
  obtain ⟨i, _⟩ := run_inv (s := init) inv_nil (fun o ho => hw o (List.mem_append_left _ ho)) h
  obtain ⟨_, l, e, _⟩ := run_inv i (fun o ho => hw o (List.mem_append_right _ ho)) h'
  exact ⟨l, e⟩

/-- C83: which declarations are refused: a keyword, a name or member already used in the scope, or a
value that does not fit. -/
theorem enum_ok_iff {kw : N → Bool} {s : St N} {sc : Option Nat} {name : N} {ms : List (N × U64)}
    {w : Nat} (h1 : 1 ≤ w) (h2 : w ≤ 64) :
    (∃ s', step kw s (.enum sc name ms w) = .ok s') ↔
      kw name = false ∧ (∀ e, (sc, e) ∈ s.enums → e.name ≠ name) ∧
      (∀ e, (sc, e) ∈ s.enums → ∀ x ∈ e.members, ∀ m ∈ ms, x.1 ≠ m.1) ∧
      ∀ m ∈ ms, m.2.toNat < 2 ^ w := by
  have hmake : (∃ e, make kw name ms w = .ok e) ↔ kw name = false ∧ ∀ m ∈ ms, m.2.toNat < 2 ^ w := by
    constructor
    · rintro ⟨e, he⟩
      obtain ⟨a, b⟩ := make_spec he
      refine ⟨?_, ?_⟩
      · simp only [make] at he
        split at he
        · cases he
        · rename_i hk; simpa using hk
      · intro m hm
        simp only [EnumDef.shape, Prod.mk.injEq] at a
        rw [← a.2.2] at hm
        obtain ⟨x, hx, rfl⟩ := List.mem_map.mp hm
        exact (b x hx).2.2.2.2
    · rintro ⟨hk, hv⟩
      obtain ⟨l, hl⟩ := Kinds.mapRes_total (f := fun m : N × U64 =>
        (Const.create m.2 w false).bind fun c => .ok (m.1, c)) ms (by
          intro m hm
          have hw0 : w ≠ 0 := by omega
          obtain ⟨r, hr, hrl, _⟩ := Const.isLegal_iff h1 h2 false m.2
          have : r = .legal := hrl.mpr (by
            simp only [Const.Representable, Const.number, Bool.false_eq_true, if_false]
            exact ⟨by omega, by exact_mod_cast hv m hm⟩)
          subst this
          exact ⟨(m.1, ⟨m.2, w, false⟩), by simp [Const.create, hw0, hr]⟩)
      exact ⟨⟨name, w, l⟩, by simp only [make, hk, hl]; rfl⟩
  have hconf : conflict (s.scope sc) name ms = false ↔ (∀ e, (sc, e) ∈ s.enums → e.name ≠ name) ∧
      (∀ e, (sc, e) ∈ s.enums → ∀ x ∈ e.members, ∀ m ∈ ms, x.1 ≠ m.1) := by
    have hsc : ∀ e, e ∈ s.scope sc ↔ (sc, e) ∈ s.enums := by
      intro e
      simp only [St.scope, List.mem_map, List.mem_filter, decide_eq_true_eq]
      constructor
      · rintro ⟨⟨a, b⟩, ⟨h, rfl⟩, rfl⟩; exact h
      · intro h; exact ⟨_, ⟨h, rfl⟩, rfl⟩
    rw [Bool.eq_false_iff]
    simp only [conflict, ne_eq, Bool.or_eq_true, List.any_eq_true, decide_eq_true_eq, hsc]
    constructor
    · intro h
      exact ⟨fun e he hn => h (Or.inl ⟨e, he, hn⟩),
        fun e he x hx m hm hn => h (Or.inr ⟨m, hm, e, he, x, hx, hn⟩)⟩
    · rintro ⟨a, b⟩ (⟨e, he, hn⟩ | ⟨m, hm, e, he, x, hx, hn⟩)
      · exact a e he hn
      · exact b e he x hx m hm hn
  have hstep : (∃ s', step kw s (.enum sc name ms w) = .ok s') ↔
      (∃ e, make kw name ms w = .ok e) ∧ conflict (s.scope sc) name ms = false := by
    cases sc with
    | none =>
      simp only [step]
      cases hc : conflict (s.scope none) name ms with
      | true => simp
      | false => cases make kw name ms w <;> simp
    | some g =>
      simp only [step]
      cases hc : conflict (s.scope (some g)) name ms with
      | true => cases make kw name ms w <;> simp
      | false => cases make kw name ms w <;> simp
  rw [hstep, hmake, hconf]
  constructor
  · rintro ⟨⟨a, b⟩, c, d⟩; exact ⟨a, c, d, b⟩
  · rintro ⟨a, c, d, b⟩; exact ⟨⟨a, b⟩, c, d⟩

/-- Enums of equal names are equal, in a scope. -/
theorem enum_unique {s : St N} (h : Inv (shapes s)) {sc : Option Nat} {e e' : EnumDef N}
    (he : (sc, e) ∈ s.enums) (he' : (sc, e') ∈ s.enums) (hn : e.name = e'.name) : e = e' := by
  have := h.names sc
  rw [← names_eq] at this
  have hm : ∀ d, (sc, d) ∈ s.enums → d ∈ s.scope sc := fun d hd =>
    List.mem_map.mpr ⟨_, List.mem_filter.mpr ⟨hd, by simp⟩, rfl⟩
  refine uniqKey (l := (s.scope sc).map fun d => (d.name, d)) ?_ (a := e.name)
    (List.mem_map.mpr ⟨e, hm e he, rfl⟩) (List.mem_map.mpr ⟨e', hm e' he', by rw [hn]⟩)
  simpa [List.map_map, Function.comp_def] using this

/-- C83: in a module, the name of a member of an enum of the module has the value of that member; the
name of a member of an enum of the context does if the module declares nothing of that name. -/
theorem value_partial {kw : N → Bool} {ops : List (Op N)} {s : St N} (hw : ∀ o ∈ ops, o.wf)
    (h : run kw init ops = some s) {g : Nat} {sc : Option Nat} {e : EnumDef N} {m : N} {c : KConst}
    (he : (sc, e) ∈ s.enums) (hm : (m, c) ∈ e.members)
    (hsc : sc = some g ∨ sc = none ∧ ¬ DeclaredIn s g m) (v : Nat) :
    Denotes s g m v ↔ v = c.value.toNat := by
  obtain ⟨i, _⟩ := run_inv (s := init) inv_nil hw h
  rcases hsc with rfl | ⟨rfl, hd⟩
  · constructor
    · rintro (⟨e', he', c', hm', rfl⟩ | ⟨hd, _⟩)
      · rw [member_unique i he he' hm hm']
      · exact absurd (Or.inl ⟨_, e, he, c, hm, rfl⟩) hd
    · rintro rfl
      exact Or.inl ⟨e, he, c, hm, rfl⟩
  · constructor
    · rintro (hl | ⟨_, e', he', c', hm', rfl⟩)
      · exact absurd (Or.inl ⟨_, hl⟩) hd
      · rw [member_unique i he he' hm hm']
    · rintro rfl
      exact Or.inr ⟨hd, e, he, c, hm, rfl⟩

/-- C83: the same for the names of the types, in the body of the module. -/
theorem type_partial {kw : N → Bool} {ops : List (Op N)} {s : St N} (hw : ∀ o ∈ ops, o.wf)
    (h : run kw init ops = some s) {g : Nat} {sc : Option Nat} {e : EnumDef N}
    (he : (sc, e) ∈ s.enums) (hsc : sc = some g ∨ sc = none ∧ ¬ DeclaredIn s g e.name)
    (e' : EnumDef N) : DenotesType s g e.name e' ↔ e' = e := by
  obtain ⟨i, _⟩ := run_inv (s := init) inv_nil hw h
  rcases hsc with rfl | ⟨rfl, hd⟩
  · constructor
    · rintro (⟨he', hn⟩ | ⟨hd, _⟩)
      · exact enum_unique i he' he hn
      · exact absurd (Or.inr (Or.inl ⟨e, he, rfl⟩)) hd
    · rintro rfl; exact Or.inl ⟨he, rfl⟩
  · constructor
    · rintro (hl | ⟨_, he', hn⟩)
      · exact absurd (Or.inr (Or.inl ⟨_, hl⟩)) hd
      · exact enum_unique i he' he hn
    · rintro rfl; exact Or.inr ⟨hd, he, rfl⟩

/-- C83: a variable of a module with an enum of another module: its type means nothing, or another
type. -/
theorem foreign_wrong {s : St N} {g g' : Nat} {e : EnumDef N} (hg : g ≠ g')
    (hl : ∀ d, (some g, d) ∈ s.enums → d.name ≠ e.name)
    (hc : ∀ d, (none, d) ∈ s.enums → d.name ≠ e.name) (_ : (some g', e) ∈ s.enums) :
    ¬ ∃ d, DenotesType s g e.name d := by
  rintro ⟨d, ⟨h1, h2⟩ | ⟨_, h1, h2⟩⟩
  · exact hl d h1 h2
  · exact hc d h1 h2

/-- C83: a port with an enum of its own module: the type is declared only after the header. -/
theorem port_type_wrong {s : St N} {e : EnumDef N} (hc : ∀ d, (none, d) ∈ s.enums → d.name ≠ e.name) :
    ¬ ∃ d, DenotesHeader s e.name d := by
  rintro ⟨d, h1, h2⟩
  exact hc d h1 h2

/-- C83: an enum of the context gives the type of a port its meaning. -/
theorem port_type_partial {kw : N → Bool} {ops : List (Op N)} {s : St N} (hw : ∀ o ∈ ops, o.wf)
    (h : run kw init ops = some s) {e : EnumDef N} (he : (none, e) ∈ s.enums) (e' : EnumDef N) :
    DenotesHeader s e.name e' ↔ e' = e := by
  obtain ⟨i, _⟩ := run_inv (s := init) inv_nil hw h
  constructor
  · rintro ⟨he', hn⟩; exact enum_unique i he' he hn
  · rintro rfl; exact ⟨he, rfl⟩

/-! ### Examples and disagreements -/

def noKw : Nat → Bool := fun _ => false

/-- Two enums in the context and one in generator 0; members 10, 11 / 12 / 20. -/
def exOps : List (Op Nat) :=
  [.enum none 1 [(10, 0), (11, 1)] 1, .enum none 2 [(12, 3)] 2, .enum (some 0) 3 [(20, 5), (21, 2)] 3,
   .enum none 4 [(10, 1)] 1, .var 0 30, .use none 2 12 2]

def exSt : St Nat :=
  ⟨[(none, ⟨1, 1, [(10, ⟨0, 1, false⟩), (11, ⟨1, 1, false⟩)]⟩), (none, ⟨2, 2, [(12, ⟨3, 2, false⟩)]⟩),
    (some 0, ⟨3, 3, [(20, ⟨5, 3, false⟩), (21, ⟨2, 3, false⟩)]⟩)], [(0, 30)]⟩

example : (∀ o ∈ exOps, o.wf) ∧ run noKw init exOps = some exSt := by
  refine ⟨?_, by decide +kernel⟩
  simp [exOps, Op.wf]

/-- C83: two members with one value. -/
theorem same_value_wrong : run noKw init [.enum none 1 [(10, 0), (11, 0)] 1] =
      some ⟨[(none, ⟨1, 1, [(10, ⟨0, 1, false⟩), (11, ⟨0, 1, false⟩)]⟩)], []⟩ ∧
    ¬ LegalEnum (⟨1, 1, [(10, ⟨0, 1, false⟩), (11, ⟨0, 1, false⟩)]⟩ : EnumDef Nat) := by
  refine ⟨by decide +kernel, ?_⟩
  rintro ⟨_, _, _, h, _⟩
  revert h; decide +kernel

/-- C83: an enum without members is accepted, even of width 0. -/
theorem empty_wrong : run noKw init [.enum none (1 : Nat) [] 0] = some ⟨[(none, ⟨1, 0, []⟩)], []⟩ ∧
    ¬ LegalEnum (⟨1, 0, []⟩ : EnumDef Nat) ∧ rangeOf 0 = some (2 ^ 32 - 1) := by
  refine ⟨by decide +kernel, ?_, by decide +kernel⟩
  rintro ⟨h, _⟩
  revert h; decide

/-- C83: a member assigned to a plain variable is resized for everybody: the literal in the
declaration of the type gets the width of the variable. -/
theorem resized_wrong :
    run noKw init [.enum none 1 [(10, 0), (11, 1)] 1, .use none 1 11 8] =
      some ⟨[(none, ⟨1, 1, [(10, ⟨0, 1, false⟩), (11, ⟨1, 8, false⟩)]⟩)], []⟩ ∧
    ¬ LegalEnum (⟨1, 1, [(10, ⟨0, 1, false⟩), (11, ⟨1, 8, false⟩)]⟩ : EnumDef Nat) := by
  refine ⟨by decide +kernel, ?_⟩
  rintro ⟨_, _, _, _, h⟩
  have := (h (11, ⟨1, 8, false⟩) (by simp)).2
  cases this

theorem not_LegalClaim : ¬ LegalClaim := by
  intro h
  exact same_value_wrong.2 (h Nat noKw _ _ (by simp [Op.wf]) same_value_wrong.1 none _ (by simp))

/-- C83: a generator may declare a member of the name of a member in the context; the name then has
the value of the other. -/
theorem shadow_wrong : ∃ s, run noKw init [.enum none 1 [(10, 1)] 1, .enum (some 0) 2 [(10, 0)] 1] = some s ∧
    (none, ⟨1, 1, [(10, ⟨1, 1, false⟩)]⟩) ∈ s.enums ∧ Denotes s 0 10 0 ∧ ¬ Denotes s 0 10 1 := by
  refine ⟨⟨[(none, ⟨1, 1, [(10, ⟨1, 1, false⟩)]⟩), (some 0, ⟨2, 1, [(10, ⟨0, 1, false⟩)]⟩)], []⟩,
    by decide +kernel, by simp, ?_, ?_⟩
  · exact Or.inl ⟨⟨2, 1, [(10, ⟨0, 1, false⟩)]⟩, by simp, ⟨0, 1, false⟩, by simp, rfl⟩
  · rintro (⟨e, he, c, hc, hv⟩ | ⟨hd, _⟩)
    · simp at he
      subst he
      simp at hc
      subst hc
      cases hv
    · exact hd (Or.inl ⟨0, ⟨2, 1, [(10, ⟨0, 1, false⟩)]⟩, by simp, ⟨0, 1, false⟩, by simp, rfl⟩)

theorem not_ValueClaim : ¬ ValueClaim := by
  intro h
  obtain ⟨s, hs, hm, _, hn⟩ := shadow_wrong
  exact hn ((h Nat noKw _ s (by simp [Op.wf]) hs 0 none _ 10 ⟨1, 1, false⟩ (Or.inl rfl) hm (by simp) 1).mpr
    rfl)

/-- C83: a variable of a generator may have the name of a member of one of its enums, and an enum
the name of one of its members: the module declares the name twice. -/
theorem clash_wrong : ∃ s, run noKw init [.enum (some 0) 1 [(1, 0), (2, 1)] 1, .var 0 2] = some s ∧
    (∃ e, Types s 0 1 e ∧ Member s (some 0) 1 0) ∧ Member s (some 0) 2 1 ∧ (0, 2) ∈ s.vars := by
  refine ⟨⟨[(some 0, ⟨1, 1, [(1, ⟨0, 1, false⟩), (2, ⟨1, 1, false⟩)]⟩)], [(0, 2)]⟩, by decide +kernel,
    ⟨⟨1, 1, [(1, ⟨0, 1, false⟩), (2, ⟨1, 1, false⟩)]⟩, ⟨by simp, rfl⟩, ?_⟩, ?_, by simp⟩
  · exact ⟨_, by simp; rfl, ⟨0, 1, false⟩, by simp, rfl⟩
  · exact ⟨_, by simp; rfl, ⟨1, 1, false⟩, by simp, rfl⟩

/-- C83: the members of an enum may be keywords. -/
theorem keyword_wrong : run (fun n : Nat => n == 7) init [.enum none 1 [(7, 0)] 1] =
    some ⟨[(none, ⟨1, 1, [(7, ⟨0, 1, false⟩)]⟩)], []⟩ := by decide +kernel

/-! ### Legal enums -/

/-- C83: the enums are legal if they are declared with at least one member and distinct values, and
members are only assigned to variables of the width of the enum. -/
theorem legal_partial {kw : N → Bool} {ops : List (Op N)} {s : St N} (hw : ∀ o ∈ ops, o.wf)
    (hd : ∀ sc n ms w, Op.enum sc n ms w ∈ ops → ms ≠ [] ∧ (ms.map (·.2)).Nodup)
    (hu : ∀ sc e m w, Op.use sc e m w ∈ ops → ∀ ms w', Op.enum sc e ms w' ∈ ops → w' = w)
    (h : run kw init ops = some s) : ∀ sc e, (sc, e) ∈ s.enums → LegalEnum e := by
  obtain ⟨h1, h2, h3, h4⟩ := declare_partial hw h
  have hwid : ∀ (os : List (Op N)) (s s' : St N), (∀ o ∈ os, o ∈ ops) →
      (∀ sc e, (sc, e) ∈ s.enums → (∃ ms, Op.enum sc e.name ms e.width ∈ ops) ∧
        ∀ m ∈ e.members, m.2.width = e.width) →
      run kw s os = some s' → ∀ sc e, (sc, e) ∈ s'.enums → ∀ m ∈ e.members, m.2.width = e.width := by
    intro os
    induction os with
    | nil => intro s s' _ hi hr; cases hr; exact fun sc e he => (hi sc e he).2
    | cons o os ih =>
      intro s s' hsub hi hr
      have hsub' : ∀ o ∈ os, o ∈ ops := fun o ho => hsub o (List.mem_cons_of_mem _ ho)
      simp only [run] at hr
      split at hr
      · rename_i s1 hs1
        refine ih s1 s' hsub' ?_ hr
        cases o with
        | enum sc name ms w =>
          have key : ∃ e, make kw name ms w = .ok e ∧ s1 = { s with enums := s.enums ++ [(sc, e)] } := by
            cases sc with
            | none =>
              simp only [step] at hs1
              split at hs1
              · cases hs1
              · simp only [Res.bind_eq_ok, Res.ok.injEq] at hs1
                obtain ⟨e, he, rfl⟩ := hs1
                exact ⟨e, he, rfl⟩
            | some g =>
              simp only [step, Res.bind_eq_ok] at hs1
              obtain ⟨e, he, hs1⟩ := hs1
              split at hs1
              · cases hs1
              · cases hs1; exact ⟨e, he, rfl⟩
          obtain ⟨e, he, rfl⟩ := key
          obtain ⟨a, b⟩ := make_spec he
          simp only [EnumDef.shape, Prod.mk.injEq] at a
          intro sc' e' he'
          rcases List.mem_append.mp he' with he' | he'
          · exact hi sc' e' he'
          · simp only [List.mem_singleton, Prod.mk.injEq] at he'
            obtain ⟨rfl, rfl⟩ := he'
            refine ⟨⟨ms, ?_⟩, fun m hm => by rw [(b m hm).1, a.2.1]⟩
            rw [a.1, a.2.1]
            exact hsub _ (by simp)
        | var g n =>
          simp only [step] at hs1
          split at hs1
          · cases hs1; exact hi
          · split at hs1
            · cases hs1
            · cases hs1; exact hi
        | use sc e m w =>
          simp only [step] at hs1
          split at hs1
          · cases hs1
          · rename_i d hdf
            simp only [Res.bind_eq_ok, Res.ok.injEq] at hs1
            obtain ⟨x, hx, c, hc, rfl⟩ := hs1
            have hcw := (resize_value hc).2
            intro sc' e' he'
            simp only [St.put, List.mem_map] at he'
            obtain ⟨p, hp, he'⟩ := he'
            split at he'
            · rename_i hcond
              cases he'
              obtain ⟨⟨ms, hms⟩, hall⟩ := hi p.1 p.2 hp
              refine ⟨⟨ms, hms⟩, ?_⟩
              intro y hy
              simp only [List.mem_map] at hy
              obtain ⟨z, hz, rfl⟩ := hy
              split
              · have := hu sc e m w (hsub _ (by simp)) ms p.2.width (by
                  rw [← hcond.1, ← hcond.2]; exact hms)
                simp only [hcw, this]
              · exact hall z hz
            · subst he'
              exact hi sc' e' hp
      · exact ih s s' hsub' hi hr
      · cases hr
  intro sc e he
  obtain ⟨ms, hms, heq⟩ := h4 sc e he
  obtain ⟨hne, hnd⟩ := hd _ _ _ _ hms
  have hne' : e.members ≠ [] := by
    intro h0; rw [h0] at heq; exact hne heq.symm
  obtain ⟨m0, hm0⟩ := List.exists_mem_of_ne_nil _ hne'
  have hwd := hwid ops init s (fun _ h => h) (by intro _ _ h; cases h) h sc e he
  refine ⟨(h3 sc e he m0 hm0).1, hne', ?_, ?_, ?_⟩
  · have hsub : (e.members.map (·.1)).Sublist (((s.scope sc).flatMap (·.members)).map (·.1)) := by
      refine List.Sublist.map _ ?_
      have : e ∈ s.scope sc := List.mem_map.mpr ⟨_, List.mem_filter.mpr ⟨he, by simp⟩, rfl⟩
      obtain ⟨l1, l2, hl⟩ := List.append_of_mem this
      rw [hl]
      simp only [List.flatMap_append, List.flatMap_cons]
      exact (List.sublist_append_left _ _).trans (List.sublist_append_right _ _)
    exact hsub.nodup (h2 sc)
  · have e1 : e.members.map (fun m => m.2.value.toNat) = (ms.map (·.2)).map BitVec.toNat := by
      rw [← heq]; simp [List.map_map, Function.comp_def]
    rw [e1, List.nodup_iff_pairwise_ne, List.pairwise_map]
    exact hnd.imp fun hab h => hab (BitVec.eq_of_toNat_eq h)
  · exact fun m hm => ⟨(h3 sc e he m hm).2.2, hwd m hm⟩

example : ∀ sc e, (sc, e) ∈ exSt.enums → LegalEnum e :=
  legal_partial (ops := exOps.take 3 ++ exOps.drop 4) (kw := noKw) (by simp [exOps, Op.wf])
    (by
      intro sc n ms w h
      simp [exOps] at h
      rcases h with ⟨_, _, rfl, _⟩ | ⟨_, _, rfl, _⟩ | ⟨_, _, rfl, _⟩ <;> simp)
    (by
      intro sc e m w h ms w' h'
      simp [exOps] at h h'
      obtain ⟨_, rfl, _, rfl⟩ := h
      simp at h'
      exact h'.2.2)
    (by decide +kernel)

/-! ### Text -/

/-- C83: the range in the text gives the declared width. -/
theorem range_text {w : Nat} (h1 : 1 ≤ w) (h2 : w < 2 ^ 32) :
    (match rangeOf w with | none => 1 | some k => k + 1) = w := by
  unfold rangeOf
  by_cases h : w = 1
  · rw [if_pos h]; exact h.symm
  · rw [if_neg h]
    show (w + 2 ^ 32 - 1) % 2 ^ 32 + 1 = w
    omega

/-- C83: the text lists all the members of an enum, by value; for distinct values below `2 ^ 63`
there is one order, which does not depend on the order in which they are stored. -/
theorem order_partial {e : EnumDef N} (hv : ∀ m ∈ e.members, m.2.value.toNat < 2 ^ 63)
    (hn : (e.members.map (·.2.value.toNat)).Nodup) :
    (∃ r, typedefOrder e (.ok r)) ∧ (∀ o, typedefOrder e o → ∃ r, o = .ok r ∧ e.members.Perm r ∧
      (r.map (·.2.value.toNat)).Pairwise (· < ·)) ∧
    ∀ e', e.members.Perm e'.members → ∀ r r', typedefOrder e (.ok r) → typedefOrder e' (.ok r') → r = r' := by
  have hlt : ∀ a b : U64, a.slt b = true ↔ a.toInt < b.toInt := fun a b => by
    rw [BitVec.slt_iff_toInt_lt]
  have hweak : ∀ l : List (N × KConst),
      Lists.StrictWeak (fun a b : N × KConst => a.2.value.slt b.2.value = true) l := by
    intro l
    simp only [Lists.StrictWeak, hlt]
    refine ⟨fun a _ => by omega, fun a _ b _ c _ h1 h2 => by omega, ?_⟩
    intro a _ b _ c _ h1 h2 h3 h4
    constructor <;> omega
  have hint : ∀ x : U64, x.toNat < 2 ^ 63 → x.toInt = x.toNat := by
    intro x hx
    rw [BitVec.toInt_eq_toNat_cond, if_pos (by omega)]
  have key : ∀ (d : EnumDef N) r, (∀ m ∈ d.members, m.2.value.toNat < 2 ^ 63) →
      (d.members.map (·.2.value.toNat)).Nodup → typedefOrder d (.ok r) →
      d.members.Perm r ∧ (r.map (·.2.value.toNat)).Pairwise (· < ·) := by
    intro d r hv hn hr
    obtain ⟨_, hp, hs⟩ := hr
    refine ⟨hp, ?_⟩
    have hn' : (r.map (·.2.value.toNat)).Nodup := (hp.map _).nodup_iff.mp hn
    rw [List.nodup_iff_pairwise_ne, List.pairwise_map] at hn'
    rw [List.pairwise_map]
    refine (hs.and hn').imp_of_mem ?_
    rintro a b ha hb ⟨h1, h2⟩
    have h1 : ¬ b.2.value.slt a.2.value = true := h1
    rw [hlt, hint _ (hv a (hp.mem_iff.mpr ha)), hint _ (hv b (hp.mem_iff.mpr hb))] at h1
    omega
  refine ⟨Lists.sort_exists (hweak _), ?_, ?_⟩
  · intro o ho
    cases o with
    | ok r => exact ⟨r, rfl, key e r hv hn ho⟩
    | throw _ => exact absurd ho id
    | ub => exact absurd (hweak _) ho
  · intro e' hp r r' h h'
    obtain ⟨p1, s1⟩ := key e r hv hn h
    obtain ⟨p2, s2⟩ := key e' r' (fun m hm => hv m (hp.mem_iff.mpr hm))
      ((hp.map _).nodup_iff.mp hn) h'
    exact Lists.sorted_unique (lt := fun a b : N × KConst => a.2.value.toNat < b.2.value.toNat)
      (fun a => by omega) (fun a b c h1 h2 => by omega) (List.pairwise_map.mp s1)
      (List.pairwise_map.mp s2) (p1.symm.trans (hp.trans p2))

example : typedefOrder (⟨3, 3, [(20, ⟨5, 3, false⟩), (21, ⟨2, 3, false⟩)]⟩ : EnumDef Nat)
    (.ok [(21, ⟨2, 3, false⟩), (20, ⟨5, 3, false⟩)]) := by
  obtain ⟨⟨r, hr⟩, h2, h3⟩ := order_partial (e := (⟨3, 3, [(20, ⟨5, 3, false⟩), (21, ⟨2, 3, false⟩)]⟩ : EnumDef Nat))
    (by simp) (by simp)
  obtain ⟨_, e, hp, hs⟩ := h2 _ hr
  cases e
  have := Lists.sorted_unique (lt := fun a b : Nat × KConst => a.2.value.toNat < b.2.value.toNat)
    (fun a => by omega) (fun a b c h1 h2 => by omega) (List.pairwise_map.mp hs)
    (r := [(21, ⟨2, 3, false⟩), (20, ⟨5, 3, false⟩)]) (by simp) (hp.symm.trans (List.Perm.swap _ _ _))
  exact this ▸ hr

/-! ### Assignments -/

/-- C83: an enum variable takes a variable or a cast exactly if the enums have the same name and
width; nothing that is not an enum. -/
theorem assign_var_iff (t e : EnumDef N) :
    (assign t (.var e) = .ok () ↔ e.name = t.name ∧ e.width = t.width) ∧
    (assign t (.casted (some e)) = .ok () ↔ e.name = t.name ∧ e.width = t.width) ∧
    assign t .plain = .throw .var ∧ assign t (.casted none) = .throw .var := by
  refine ⟨?_, ?_, rfl, rfl⟩ <;>
  · simp only [assign]
    split
    · simp_all
    · split <;> simp_all

/-- C83: an enum variable takes a member of an enum of its name, if it is a member of it and fits. -/
theorem assign_const_partial {t e : EnumDef N} {m : N} (h : assign t (.const e m) = .ok ()) :
    e.name = t.name ∧ ∃ c, (m, c) ∈ e.members := by
  simp only [assign] at h
  split at h
  · cases h
  · rename_i hn
    refine ⟨by simpa using hn, ?_⟩
    simp only [Res.bind_eq_ok] at h
    obtain ⟨x, hx, _⟩ := h
    simp only [getEnum] at hx
    split at hx
    · rename_i y hy
      cases hx
      have : x.1 = m := by simpa using List.find?_some hy
      exact ⟨x.2, this ▸ List.mem_of_find?_eq_some hy⟩
    · cases hx

/-- C83: within a scope, an accepted assignment gives an enum variable one of its values. -/
theorem assign_partial {kw : N → Bool} {ops : List (Op N)} {s : St N} (hw : ∀ o ∈ ops, o.wf)
    (h : run kw init ops = some s) {sc : Option Nat} {t e : EnumDef N} (ht : (sc, t) ∈ s.enums)
    (he : (sc, e) ∈ s.enums) :
    (assign t (.var e) = .ok () → e = t) ∧
    ∀ m, assign t (.const e m) = .ok () → ∃ c, (m, c) ∈ t.members := by
  obtain ⟨i, _⟩ := run_inv (s := init) inv_nil hw h
  refine ⟨fun ha => enum_unique i he ht ((assign_var_iff t e).1.mp ha).1, fun m ha => ?_⟩
  obtain ⟨hn, hm⟩ := assign_const_partial ha
  rw [← enum_unique i he ht hn]
  exact hm

/-- C83: two generators may have enums of one name; a variable of one takes the values of the
other. -/
theorem same_name_wrong : ∃ s,
    run noKw init [.enum (some 0) 1 [(10, 0)] 2, .enum (some 1) 1 [(10, 3)] 2] = some s ∧
    (some 0, ⟨1, 2, [(10, ⟨0, 2, false⟩)]⟩) ∈ s.enums ∧
    (some 1, ⟨1, 2, [(10, ⟨3, 2, false⟩)]⟩) ∈ s.enums ∧
    assign ⟨1, 2, [(10, ⟨0, 2, false⟩)]⟩ (.var ⟨1, 2, [(10, ⟨3, 2, false⟩)]⟩) = .ok () :=
  ⟨⟨[(some 0, ⟨1, 2, [(10, ⟨0, 2, false⟩)]⟩), (some 1, ⟨1, 2, [(10, ⟨3, 2, false⟩)]⟩)], []⟩,
    by decide +kernel, by simp, by simp, by decide +kernel⟩

theorem not_AssignClaim : ¬ AssignClaim := by
  intro h
  obtain ⟨s, hs, h0, h1, ha⟩ := same_name_wrong
  obtain ⟨m', hm', hv⟩ := h Nat noKw _ s (by simp [Op.wf]) hs _ _ _ _ h0 h1 ha (10, ⟨3, 2, false⟩) (by simp)
  simp at hm'
  subst hm'
  revert hv
  decide +kernel

/-- C83: `get_enum` gives the member of the name, and refuses other names. -/
theorem get_iff {kw : N → Bool} {ops : List (Op N)} {s : St N} (hw : ∀ o ∈ ops, o.wf)
    (h : run kw init ops = some s) {sc : Option Nat} {e : EnumDef N} (he : (sc, e) ∈ s.enums) (m : N)
    (c : KConst) : getEnum e m = .ok (m, c) ↔ (m, c) ∈ e.members := by
  constructor
  · intro hg
    simp only [getEnum] at hg
    split at hg
    · rename_i y hy
      cases hg
      exact List.mem_of_find?_eq_some hy
    · cases hg
  · intro hm
    simp only [getEnum]
    split
    · rename_i y hy
      have h1 : y.1 = m := by simpa using List.find?_some hy
      have h2 : y ∈ e.members := List.mem_of_find?_eq_some hy
      have hnd : (e.members.map (·.1)).Nodup := by
        obtain ⟨_, h2, _⟩ := declare_partial hw h
        refine List.Sublist.nodup ?_ (h2 sc)
        refine List.Sublist.map _ ?_
        have : e ∈ s.scope sc := List.mem_map.mpr ⟨_, List.mem_filter.mpr ⟨he, by simp⟩, rfl⟩
        obtain ⟨l1, l2, hl⟩ := List.append_of_mem this
        rw [hl]
        simp only [List.flatMap_append, List.flatMap_cons]
        exact (List.sublist_append_left _ _).trans (List.sublist_append_right _ _)
      have : y.2 = c := uniqKey hnd (a := m) (by rw [← h1]; exact h2) hm
      rw [← h1, ← this]
    · rename_i hy
      have := List.find?_eq_none.mp hy _ hm
      simp at this

end Kratos.Enm
