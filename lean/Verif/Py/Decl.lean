import Verif.Base

/-!
# Declaring ports and variables from Python

`Generator.var`, `.port`, `.input` and `.output` of the Python class (`kratos/generator.py:382-399,
421-462, 475-496, 524-545`) on top of `Generator::var`, `port`, `enum_var`, `port_packed` and
`var_packed` (`src/generator.cc:92-104, 130-142, 187-200, 231-236, 269-275, 1093-1122`), the bindings
that take a parameter as width (`python/kratos_generator.cc:34-51, 65-84`), the constructors
(`src/expr.cc:860-875, 2003-2013`, `src/expr.hh:814-815`, `src/port.cc:29-39, 130-133, 173-187`),
`Var::set_width_param` and `Var::set_size_param` (`src/expr.cc:338-341, 375-392`).

Names, parameters, enumerations and structures are numbers.  Integer arguments are those that fit
`uint32_t` (the binding refuses others).  Not modelled: debug information, the check of
`set_size_param` against slices taken before (there are none right after a declaration), the parameters'
lists of their users (C41).
-/

namespace Kratos.PyDecl

/-- `PortType`; the first four must be single bits. -/
inductive PType where
  | clock | clockEn | reset | asyncReset | data
  deriving DecidableEq

/-- A variable, or a port with its direction (`true`: input) and type. -/
inductive Role where
  | var
  | port (input : Bool) (t : PType)
  deriving DecidableEq

inductive Typ where
  | plain
  | enum (e : Nat)
  | struct (s : Nat)
  deriving DecidableEq

/-- A number that may come from a parameter. -/
abbrev Dim := Nat × Option Nat

structure Sig where
  typ : Typ
  role : Role
  width : Dim
  size : List Dim
  signed : Bool
  packed : Bool
  explicit : Bool
  deriving DecidableEq

/-- `vars_` and `ports_`. -/
structure St where
  sigs : Nat → Option Sig
  ports : Nat → Bool

def St.put (st : St) (n : Nat) (s : Sig) : St :=
  { st with sigs := fun m => if m = n then some s else st.sigs m }

def St.addPort (st : St) (n : Nat) : St :=
  { st with ports := fun m => if m = n then true else st.ports m }

/-- The argument `width`: an enumeration with its width and whether it is local to a generator. -/
inductive Width where
  | int (w : Nat)
  | param (p : Nat)
  | enum (e w : Nat) (loc : Bool)
  | struct (s w : Nat)

/-- One element of the argument `size`. -/
inductive Size1 where
  | int (n : Nat)
  | param (p : Nat)

inductive Size where
  | one (s : Size1)
  | list (l : List Size1)

/-- Which method was called: `port` takes the direction as an argument, `input` and `output` have it. -/
inductive How where
  | var
  | port (input : Bool) (t : PType)
  | inout (input : Bool) (t : PType)

structure Req where
  how : How
  name : Nat
  width : Width
  size : Size
  signed : Bool
  packed : Bool
  explicit : Bool

/-- The list of sizes of `__filter_size`. -/
def sizes : List Size1 → List Nat
  | [] => []
  | .int n :: l => n :: sizes l
  | .param _ :: l => 1 :: sizes l

/-- The dictionary of `__filter_size`. -/
def sizeParams (i : Nat) : List Size1 → List (Nat × Nat)
  | [] => []
  | .int _ :: l => sizeParams (i + 1) l
  | .param p :: l => (i, p) :: sizeParams (i + 1) l

/-- `__filter_size` (`kratos/generator.py:421-437`). -/
def filterSize : Size → List Nat × List (Nat × Nat)
  | .one (.int n) => ([n], [])
  | .one (.param p) => ([1], [(0, p)])
  | .list l => (sizes l, sizeParams 0 l)

/-- `Var::width()`: the width of the element times the sizes. -/
def total (s : Sig) : Nat := s.size.foldl (fun a d => a * d.1) s.width.1 % 2 ^ 32

/-- `Var::set_size_param` (`src/expr.cc:354-392`). -/
def setSize (pv : Nat → Nat) (s : Sig) (i p : Nat) : Res Sig :=
  if i ≥ s.size.length then .throw .user
  else .ok { s with size := s.size.set i (pv p % 2 ^ 32, some p) }

/-- `__set_var_size` (`kratos/generator.py:439-442`): the signal as it is when the loop ends or an
exception leaves it. -/
def setSizes (pv : Nat → Nat) (s : Sig) : List (Nat × Nat) → Sig × Res Unit
  | [] => (s, .ok ())
  | (i, p) :: l =>
    match setSize pv s i p with
    | .ok s' => setSizes pv s' l
    | .throw e => (s, .throw e)
    | .ub => (s, .ub)

/-- The end of the methods: `is_packed` and `explicit_array`, except for structures, then the sizes. -/
def finish (pv : Nat → Nat) (st : St) (r : Req) (s : Sig) (ps : List (Nat × Nat)) : St × Res Sig :=
  let s1 := match r.width with
    | .struct _ _ => s
    | _ => { s with packed := r.packed, explicit := r.explicit }
  match setSizes pv s1 ps with
  | (s2, .ok _) => (st.put r.name s2, .ok s2)
  | (s2, .throw e) => (st.put r.name s2, .throw e)
  | (s2, .ub) => (st.put r.name s2, .ub)

/-- `set_width_param` with the width of the signal, if the width is a parameter. -/
def withParam (pv : Nat → Nat) (s : Sig) : Width → Sig
  | .param p => { s with width := (pv p % 2 ^ 32, some p) }
  | _ => s

/-- The width handed to C++: 1 for a parameter, and 1 in the constructors of structures. -/
def ctorWidth : Width → Nat
  | .int w => w
  | .param _ => 1
  | .enum _ w _ => w
  | .struct _ _ => 1

def typOf : Width → Typ
  | .int _ | .param _ => .plain
  | .enum e _ _ => .enum e
  | .struct s _ => .struct s

/-- The new object.  Enumerations have one element, no sign and the type `Data`; structures have no
sign and the type `Data`. -/
def fresh (kind : Role) (w : Width) (sz : List Nat) (signed : Bool) : Sig :=
  let role := match w, kind with
    | .int _, k | .param _, k => k
    | _, .var => .var
    | _, .port d _ => .port d .data
  let size := match w with
    | .enum _ _ _ => [1]
    | _ => sz
  let sg := match w with
    | .int _ | .param _ => signed
    | _ => false
  let width := match w with
    | .struct _ w => w
    | w => ctorWidth w
  ⟨typOf w, role, (width, none), size.map (·, none), sg, true, false⟩

/-- `Generator.var` (`kratos/generator.py:382-399`). -/
def pyVar (kw : Nat → Bool) (pv : Nat → Nat) (st : St) (r : Req) : St × Res Sig :=
  let (sz, ps) := filterSize r.size
  match r.width with
  | .enum _ _ _ | .struct _ _ =>
    if (st.sigs r.name).isSome then (st, .throw .var)
    else if kw r.name || ctorWidth r.width = 0 then (st, .throw .user)
    else finish pv st r (fresh .var r.width sz r.signed) ps
  | .int _ | .param _ =>
    match st.sigs r.name with
    | some s =>
      if total s ≠ ctorWidth r.width || s.signed ≠ r.signed then (st, .throw .var)
      else finish pv st r (withParam pv s r.width) ps
    | none =>
      if kw r.name || ctorWidth r.width = 0 then (st, .throw .user)
      else finish pv st r (withParam pv (fresh .var r.width sz r.signed) r.width) ps

/-- `Generator.port`, `.input`, `.output` (`kratos/generator.py:444-462, 475-496, 524-545`).  The check of a
clock, reset or clock enable is made with the width given to the constructor (`src/port.cc:34-38`); a name
taken by a variable is not looked at, and then the new port belongs to nobody and is gone when the call
returns. -/
def pyPort (kw : Nat → Bool) (pv : Nat → Nat) (st : St) (r : Req) (input : Bool) (t : PType) : St × Res Sig :=
  let (sz, ps) := filterSize r.size
  let s := fresh (.port input t) r.width sz r.signed
  let add : St × Res Sig :=
    if kw r.name || ctorWidth r.width = 0 then (st, .throw .user)
    else if s.role ≠ .port input .data ∧ ctorWidth r.width > 1 then (st, .throw .user)
    else if st.ports r.name then (st, .throw .var)
    else if (st.sigs r.name).isSome then (st.addPort r.name, .ub)
    else finish pv (st.addPort r.name) r (withParam pv s r.width) ps
  match r.width with
  | .enum _ _ loc =>
    if st.ports r.name then (st, .throw .var)
    else if loc then (st, .throw .user)
    else add
  | _ => add

/-- A call.  `port` has no case for structures, and no overload of the binding takes one. -/
def declare (kw : Nat → Bool) (pv : Nat → Nat) (st : St) (r : Req) : St × Res Sig :=
  match r.how with
  | .var => pyVar kw pv st r
  | .inout i t => pyPort kw pv st r i t
  | .port i t =>
    match r.width with
    | .struct _ _ => (st, .throw .invalidArg)
    | _ => pyPort kw pv st r i t

/-- The state after a number of calls, refused ones included. -/
def run (kw : Nat → Bool) (pv : Nat → Nat) (st : St) : List Req → St
  | [] => st
  | r :: rs => run kw pv (declare kw pv st r).1 rs

def empty : St := ⟨fun _ => none, fun _ => false⟩

/-! ## Specification -/

/-- A number given as such or by a parameter. -/
def askedDim (pv : Nat → Nat) : Size1 → Dim
  | .int n => (n, none)
  | .param p => (pv p, some p)

def askedSize (pv : Nat → Nat) : Size → List Dim
  | .one s => [askedDim pv s]
  | .list l => l.map (askedDim pv)

def askedWidth (pv : Nat → Nat) : Width → Dim
  | .int w => (w, none)
  | .param p => (pv p, some p)
  | .enum _ w _ => (w, none)
  | .struct _ w => (w, none)

def askedTyp : Width → Typ
  | .int _ => .plain
  | .param _ => .plain
  | .enum e _ _ => .enum e
  | .struct s _ => .struct s

def askedRole : How → Role
  | .var => .var
  | .port i t => .port i t
  | .inout i t => .port i t

/-- The signal is what the call asked for. -/
structure Asked (pv : Nat → Nat) (r : Req) (s : Sig) : Prop where
  typ : s.typ = askedTyp r.width
  role : s.role = askedRole r.how
  width : s.width = askedWidth pv r.width
  size : s.size = askedSize pv r.size
  signed : s.signed = r.signed
  packed : s.packed = r.packed
  explicit : s.explicit = r.explicit

/-- What a user expects: whatever was declared before, a declaration that is accepted gives the signal
that was asked for. -/
def AskedClaim : Prop :=
  ∀ (kw : Nat → Bool) (pv : Nat → Nat) (rs : List Req) (r : Req) (st : St) (s : Sig), (∀ p, pv p < 2 ^ 32) →
    declare kw pv (run kw pv empty rs) r = (st, .ok s) → Asked pv r s

/-- What a user expects: a refused declaration changes nothing. -/
def AtomicClaim : Prop :=
  ∀ (kw : Nat → Bool) (pv : Nat → Nat) (rs : List Req) (r : Req) (st : St) (e : Err),
    declare kw pv (run kw pv empty rs) r = (st, .throw e) → st.sigs r.name = (run kw pv empty rs).sigs r.name

/-- What a user expects: the same declaration of a variable twice is the same variable. -/
def AgainClaim : Prop :=
  ∀ (kw : Nat → Bool) (pv : Nat → Nat) (rs : List Req) (r : Req) (st : St) (s : Sig), r.how = .var →
    declare kw pv (run kw pv empty rs) r = (st, .ok s) → ∃ st', declare kw pv st r = (st', .ok s)

/-- What a user expects: clocks, clock enables and resets are single bits. -/
def ClockClaim : Prop :=
  ∀ (kw : Nat → Bool) (pv : Nat → Nat) (rs : List Req) (n : Nat) (s : Sig) (i : Bool) (t : PType),
    (run kw pv empty rs).sigs n = some s → s.role = .port i t → t ≠ .data → s.width.1 = 1

/-- The arguments that have an effect: an enumeration has no sign, no port type and is a scalar; a
structure has no sign, no port type, is packed and not an explicit array. -/
def Plain (r : Req) : Prop :=
  match r.width with
  | .int _ => True
  | .param _ => True
  | .enum _ _ _ => r.signed = false ∧ (∃ x, (r.size = .one x ∨ r.size = .list [x]) ∧ x ≠ .int 0 ∧ ∀ n, x = .int n → n = 1) ∧
      (askedRole r.how = .var ∨ ∃ i, askedRole r.how = .port i .data)
  | .struct _ _ => r.signed = false ∧ r.packed = true ∧ r.explicit = false ∧
      (askedRole r.how = .var ∨ ∃ i, askedRole r.how = .port i .data)

/-- The declarations that are accepted. -/
structure Legal (kw : Nat → Bool) (r : Req) : Prop where
  name : kw r.name = false
  width : ∀ w, r.width = .int w → w ≠ 0
  enum : ∀ e w l, r.width = .enum e w l → w ≠ 0
  clock : ∀ i t w, askedRole r.how = .port i t → t ≠ .data → r.width = .int w → w ≤ 1
  loc : ∀ i t e w, askedRole r.how = .port i t → r.width ≠ .enum e w true
  struct : ∀ i t s w, r.how = .port i t → r.width ≠ .struct s w

/-! ## Theorems -/

theorem sizes_length (l : List Size1) : (sizes l).length = l.length := by
  induction l with
  | nil => rfl
  | cons x l ih => cases x <;> simp [sizes, ih]

theorem set_append_length {α : Type} (a : List α) (x y : α) (b : List α) :
    (a ++ x :: b).set a.length y = a ++ y :: b := by
  induction a with
  | nil => rfl
  | cons z a ih => simp [ih]

/-- The loop over the parameters of the sizes, after the first sizes were done. -/
theorem setSizes_ok {pv : Nat → Nat} (hpv : ∀ p, pv p < 2 ^ 32) : ∀ (l : List Size1) (done : List Dim) (s : Sig),
    s.size = done ++ (sizes l).map (·, none) →
    setSizes pv s (sizeParams done.length l) = ({ s with size := done ++ l.map (askedDim pv) }, .ok ())
  | [], done, s, h => by
    simp only [sizes, List.map_nil] at h
    simp only [sizeParams, setSizes, List.map_nil]
    rw [← h]
  | .int n :: l, done, s, h => by
    have h' : s.size = (done ++ [(n, none)]) ++ (sizes l).map (·, none) := by simpa [sizes] using h
    have := setSizes_ok hpv l (done ++ [(n, none)]) s h'
    simpa [sizeParams, askedDim] using this
  | .param p :: l, done, s, h => by
    have hlt : ¬ done.length ≥ s.size.length := by rw [h]; simp [sizes]
    have hs : s.size.set done.length (pv p % 2 ^ 32, some p) =
        (done ++ [(pv p, some p)]) ++ (sizes l).map (·, none) := by
      rw [h, Nat.mod_eq_of_lt (hpv p)]
      simp only [sizes, List.map_cons]
      rw [set_append_length]
      simp
    have := setSizes_ok hpv l (done ++ [(pv p, some p)])
      { s with size := s.size.set done.length (pv p % 2 ^ 32, some p) } hs
    simp only [List.length_append, List.length_singleton] at this
    simp only [sizeParams, setSizes, setSize, if_neg hlt, this]
    simp [askedDim]

theorem setSizes_filter {pv : Nat → Nat} (hpv : ∀ p, pv p < 2 ^ 32) (z : Size) (s : Sig)
    (h : s.size = (filterSize z).1.map (·, none)) :
    setSizes pv s (filterSize z).2 = ({ s with size := askedSize pv z }, .ok ()) := by
  cases z with
  | one x =>
    cases x with
    | int n =>
      have := setSizes_ok hpv [.int n] [] s h
      simpa [filterSize, sizeParams, askedSize] using this
    | param p =>
      have := setSizes_ok hpv [.param p] [] s h
      simpa [filterSize, sizeParams, askedSize] using this
  | list l =>
    have := setSizes_ok hpv l [] s h
    simpa [filterSize, sizeParams, askedSize] using this

theorem finish_st (pv : Nat → Nat) (st : St) (r : Req) (s : Sig) (ps : List (Nat × Nat)) :
    ∃ s', (finish pv st r s ps).1 = st.put r.name s' := by
  unfold finish
  dsimp only
  split <;> exact ⟨_, rfl⟩

/-- A declaration, accepted or not, changes no signal of another name. -/
theorem others_keep (kw : Nat → Bool) (pv : Nat → Nat) (st : St) (r : Req) {m : Nat} (h : m ≠ r.name) :
    (declare kw pv st r).1.sigs m = st.sigs m := by
  have hf : ∀ (st : St) s ps, (finish pv st r s ps).1.sigs m = st.sigs m := by
    intro st s ps
    obtain ⟨s', hs⟩ := finish_st pv st r s ps
    rw [hs]
    simp [St.put, h]
  have hp : ∀ i t, (pyPort kw pv st r i t).1.sigs m = st.sigs m := by
    intro i t
    unfold pyPort
    dsimp only
    have : ∀ (b : Prop) [Decidable b] (x y : St × Res Sig), x.1.sigs m = st.sigs m → y.1.sigs m = st.sigs m →
        (if b then x else y).1.sigs m = st.sigs m := by
      intro b _ x y hx hy
      split
      · exact hx
      · exact hy
    split <;> repeat' first
      | rfl
      | apply this
      | exact hf _ _ _
      | exact (hf _ _ _).trans rfl
  unfold declare
  split
  · unfold pyVar
    dsimp only
    split
    · split
      · rfl
      · split
        · rfl
        · exact hf _ _ _
    · split
      · rfl
      · split
        · rfl
        · exact hf _ _ _
    · split
      · split
        · rfl
        · exact hf _ _ _
      · split
        · rfl
        · exact hf _ _ _
    · split
      · split
        · rfl
        · exact hf _ _ _
      · split
        · rfl
        · exact hf _ _ _
  · exact hp _ _
  · split
    · rfl
    · exact hp _ _

/-- The signal asked for. -/
def wanted (pv : Nat → Nat) (r : Req) : Sig :=
  ⟨askedTyp r.width, askedRole r.how, askedWidth pv r.width, askedSize pv r.size, r.signed, r.packed, r.explicit⟩

theorem wanted_asked (pv : Nat → Nat) (r : Req) : Asked pv r (wanted pv r) := ⟨rfl, rfl, rfl, rfl, rfl, rfl, rfl⟩

/-- The end of a declaration, for a signal that is as wanted up to what is still to be set. -/
theorem finish_wanted {pv : Nat → Nat} (hpv : ∀ p, pv p < 2 ^ 32) (st : St) {r : Req} {s : Sig}
    (hp : Plain r) (h1 : s.typ = askedTyp r.width) (h2 : s.role = askedRole r.how)
    (h3 : s.width = askedWidth pv r.width) (h4 : s.size = (filterSize r.size).1.map (·, none))
    (h5 : s.signed = r.signed) (h6 : s.packed = true) (h7 : s.explicit = false) :
    finish pv st r s (filterSize r.size).2 = (st.put r.name (wanted pv r), .ok (wanted pv r)) := by
  unfold finish
  dsimp only
  cases hw : r.width with
  | struct a b =>
    dsimp only
    rw [setSizes_filter hpv _ s h4]
    simp only [Plain, hw] at hp
    have : { s with size := askedSize pv r.size } = wanted pv r := by
      obtain ⟨a1, a2, a3, a4, a5, a6, a7⟩ := s
      simp_all [wanted]
    rw [this]
  | int a =>
    dsimp only
    rw [setSizes_filter hpv _ { s with packed := r.packed, explicit := r.explicit } h4]
    have : { s with packed := r.packed, explicit := r.explicit, size := askedSize pv r.size } = wanted pv r := by
      obtain ⟨a1, a2, a3, a4, a5, a6, a7⟩ := s
      simp_all [wanted]
    simp only [this]
  | param a =>
    dsimp only
    rw [setSizes_filter hpv _ { s with packed := r.packed, explicit := r.explicit } h4]
    have : { s with packed := r.packed, explicit := r.explicit, size := askedSize pv r.size } = wanted pv r := by
      obtain ⟨a1, a2, a3, a4, a5, a6, a7⟩ := s
      simp_all [wanted]
    simp only [this]
  | enum a b c =>
    dsimp only
    rw [setSizes_filter hpv _ { s with packed := r.packed, explicit := r.explicit } h4]
    have : { s with packed := r.packed, explicit := r.explicit, size := askedSize pv r.size } = wanted pv r := by
      obtain ⟨a1, a2, a3, a4, a5, a6, a7⟩ := s
      simp_all [wanted]
    simp only [this]

/-- For an enumeration that is `Plain` the sizes are those of its object. -/
theorem plain_enum_size {r : Req} (hp : Plain r) {e w : Nat} {l : Bool} (hw : r.width = .enum e w l) :
    (filterSize r.size).1 = [1] := by
  simp only [Plain, hw] at hp
  obtain ⟨_, ⟨x, hx, _, h1⟩, _⟩ := hp
  cases x with
  | int n =>
    have := h1 n rfl
    subst this
    rcases hx with hx | hx <;> rw [hx] <;> rfl
  | param p => rcases hx with hx | hx <;> rw [hx] <;> rfl

theorem fresh_wanted {pv : Nat → Nat} (hpv : ∀ p, pv p < 2 ^ 32) (st : St) {r : Req} (hp : Plain r) :
    finish pv st r (withParam pv (fresh (askedRole r.how) r.width (filterSize r.size).1 r.signed) r.width)
      (filterSize r.size).2 = (st.put r.name (wanted pv r), .ok (wanted pv r)) := by
  apply finish_wanted hpv st hp
  · cases hw : r.width <;> simp [withParam, fresh, typOf, askedTyp]
  · cases hw : r.width with
    | int w => simp [withParam, fresh]
    | param p => simp [withParam, fresh]
    | enum e w l =>
      simp only [Plain, hw] at hp
      rcases hp.2.2 with h | ⟨i, h⟩ <;> simp [withParam, fresh, h]
    | struct a b =>
      simp only [Plain, hw] at hp
      rcases hp.2.2.2 with h | ⟨i, h⟩ <;> simp [withParam, fresh, h]
  · cases hw : r.width with
    | param p => simp [withParam, askedWidth, Nat.mod_eq_of_lt (hpv p)]
    | _ => simp [withParam, fresh, askedWidth, ctorWidth]
  · cases hw : r.width with
    | enum e w l => simp [withParam, fresh, plain_enum_size hp hw]
    | _ => simp [withParam, fresh]
  · cases hw : r.width with
    | enum e w l => simp only [Plain, hw] at hp; simp [withParam, fresh, hp.1]
    | struct a b => simp only [Plain, hw] at hp; simp [withParam, fresh, hp.1]
    | _ => simp [withParam, fresh]
  · cases hw : r.width <;> simp [withParam, fresh]
  · cases hw : r.width <;> simp [withParam, fresh]

theorem pyVar_fresh {kw : Nat → Bool} {pv : Nat → Nat} (hpv : ∀ p, pv p < 2 ^ 32) {st : St} {r : Req}
    (hf : st.sigs r.name = none) (hp : Plain r) (hv : askedRole r.how = .var) :
    pyVar kw pv st r = if kw r.name || ctorWidth r.width = 0 then (st, .throw .user)
      else (st.put r.name (wanted pv r), .ok (wanted pv r)) := by
  have h := fresh_wanted hpv st hp
  rw [hv] at h
  unfold pyVar
  dsimp only
  cases hw : r.width with
  | int w => simp only [hw] at h ⊢; simp only [hf, h]
  | param p => simp only [hw] at h ⊢; simp only [hf, h]
  | enum e w l => simp only [hw, withParam] at h ⊢; simp [hf, h]
  | struct a b => simp only [hw, withParam] at h ⊢; simp [hf, h]

def isLoc : Width → Bool
  | .enum _ _ l => l
  | _ => false

theorem isLoc_iff (w : Width) : isLoc w = true ↔ ∃ e v, w = .enum e v true := by
  cases w <;> simp [isLoc]

theorem pyPort_fresh {kw : Nat → Bool} {pv : Nat → Nat} (hpv : ∀ p, pv p < 2 ^ 32) {st : St} {r : Req}
    (hf : st.sigs r.name = none) (hq : st.ports r.name = false) (hp : Plain r) {i : Bool} {t : PType}
    (hv : askedRole r.how = .port i t) :
    pyPort kw pv st r i t =
      if isLoc r.width = true ∨ kw r.name = true ∨ ctorWidth r.width = 0 ∨ (t ≠ .data ∧ ctorWidth r.width > 1)
      then (st, .throw .user)
      else ((st.addPort r.name).put r.name (wanted pv r), .ok (wanted pv r)) := by
  have h := fresh_wanted hpv (st.addPort r.name) hp
  rw [hv] at h
  unfold pyPort
  dsimp only
  have hr : (fresh (.port i t) r.width (filterSize r.size).1 r.signed).role = .port i t := by
    cases hw : r.width with
    | int w => rfl
    | param p => rfl
    | enum e w l =>
      simp only [Plain, hw] at hp
      rcases hp.2.2 with h' | ⟨j, h'⟩
      · rw [hv] at h'; cases h'
      · rw [hv] at h'; injection h' with _ h'; subst h'; rfl
    | struct a b =>
      simp only [Plain, hw] at hp
      rcases hp.2.2.2 with h' | ⟨j, h'⟩
      · rw [hv] at h'; cases h'
      · rw [hv] at h'; injection h' with _ h'; subst h'; rfl
  simp only [hr, hq, hf, h]
  have e1 : (Role.port i t ≠ Role.port i PType.data) ↔ t ≠ .data := by simp
  have key : (if (kw r.name || decide (ctorWidth r.width = 0)) = true then (st, Res.throw Err.user)
      else if Role.port i t ≠ Role.port i PType.data ∧ ctorWidth r.width > 1 then (st, Res.throw Err.user)
      else if false = true then (st, Res.throw Err.var)
      else if (none : Option Sig).isSome = true then (st.addPort r.name, Res.ub)
      else ((st.addPort r.name).put r.name (wanted pv r), Res.ok (wanted pv r))) =
      if kw r.name = true ∨ ctorWidth r.width = 0 ∨ (t ≠ .data ∧ ctorWidth r.width > 1)
      then (st, .throw .user) else ((st.addPort r.name).put r.name (wanted pv r), .ok (wanted pv r)) := by
    by_cases a : kw r.name = true <;> by_cases b : ctorWidth r.width = 0 <;> by_cases c : t = .data <;>
      by_cases d : ctorWidth r.width > 1 <;> simp_all
  rw [key]
  cases hw : r.width with
  | enum e w l => cases l <;> simp [isLoc]
  | _ => simp [isLoc]

theorem legal_var {kw : Nat → Bool} {r : Req} (hv : r.how = .var) :
    Legal kw r ↔ ¬ (kw r.name = true ∨ ctorWidth r.width = 0) := by
  constructor
  · rintro h (h1 | h1)
    · rw [h.name] at h1; cases h1
    · cases hw : r.width with
      | int w => rw [hw] at h1; exact h.width w hw h1
      | param p => rw [hw] at h1; cases h1
      | enum e w l => rw [hw] at h1; exact h.enum e w l hw h1
      | struct a b => rw [hw] at h1; cases h1
  · intro h
    have h1 : kw r.name = false := by
      cases hk : kw r.name with
      | false => rfl
      | true => exact absurd (.inl hk) h
    have h2 : ctorWidth r.width ≠ 0 := fun h' => h (.inr h')
    refine ⟨h1, ?_, ?_, ?_, ?_, ?_⟩
    · intro w hw; rw [hw] at h2; exact h2
    · intro e w l hw; rw [hw] at h2; exact h2
    · intro i t w h'; rw [hv] at h'; cases h'
    · intro i t e w h'; rw [hv] at h'; cases h'
    · intro i t s w h'; rw [hv] at h'; cases h'

theorem legal_port {kw : Nat → Bool} {r : Req} {i : Bool} {t : PType} (hv : askedRole r.how = .port i t)
    (hs : ∀ i t s w, r.how = .port i t → r.width ≠ .struct s w) :
    Legal kw r ↔ ¬ ((∃ e w, r.width = .enum e w true) ∨ kw r.name = true ∨ ctorWidth r.width = 0 ∨
      (t ≠ .data ∧ ctorWidth r.width > 1)) ∨ Legal kw r ∧ ∃ e w l, r.width = .enum e w l ∧ t ≠ .data := by
  constructor
  · intro h
    by_cases he : (∃ e w l, r.width = .enum e w l ∧ t ≠ .data)
    · exact .inr ⟨h, he⟩
    · left
      rintro (⟨e, w, h1⟩ | h1 | h1 | ⟨h1, h2⟩)
      · exact h.loc i t e w hv h1
      · rw [h.name] at h1; cases h1
      · cases hw : r.width with
        | int w => rw [hw] at h1; exact h.width w hw h1
        | param p => rw [hw] at h1; cases h1
        | enum e w l => rw [hw] at h1; exact h.enum e w l hw h1
        | struct a b => rw [hw] at h1; cases h1
      · cases hw : r.width with
        | int w => rw [hw] at h2; exact absurd (h.clock i t w hv h1 hw) (Nat.not_le.2 h2)
        | param p => rw [hw] at h2; exact absurd h2 (by simp [ctorWidth])
        | enum e w l => exact he ⟨e, w, l, hw, h1⟩
        | struct a b => rw [hw] at h2; exact absurd h2 (by simp [ctorWidth])
  · rintro (h | h)
    · have h1 : kw r.name = false := by
        cases hk : kw r.name with
        | false => rfl
        | true => exact absurd (.inr (.inl hk)) h
      have h2 : ctorWidth r.width ≠ 0 := fun h' => h (.inr (.inr (.inl h')))
      refine ⟨h1, ?_, ?_, ?_, ?_, hs⟩
      · intro w hw; rw [hw] at h2; exact h2
      · intro e w l hw; rw [hw] at h2; exact h2
      · intro i' t' w h' ht hw
        rw [hv] at h'
        injection h' with _ h'
        subst h'
        exact Nat.not_lt.1 fun hgt => h (.inr (.inr (.inr ⟨ht, by rw [hw]; exact hgt⟩)))
      · intro i' t' e w _ hw
        exact h (.inl ⟨e, w, hw⟩)
    · exact h.1

/-- A declaration under a new name, with arguments that have an effect, is accepted exactly if it is
legal; then the signal is in the table and is what was asked for, and otherwise nothing changed. -/
theorem declare_partial {kw : Nat → Bool} {pv : Nat → Nat} (hpv : ∀ p, pv p < 2 ^ 32) {st : St} {r : Req}
    (hf : st.sigs r.name = none) (hq : st.ports r.name = false) (hp : Plain r) :
    (Legal kw r ∧ ∃ s st', declare kw pv st r = (st', .ok s) ∧ Asked pv r s ∧ st'.sigs r.name = some s) ∨
    (¬ Legal kw r ∧ ∃ e, declare kw pv st r = (st, .throw e)) := by
  have port : ∀ i t, askedRole r.how = .port i t → (∀ i t s w, r.how = .port i t → r.width ≠ .struct s w) →
      (Legal kw r ∧ ∃ s st', pyPort kw pv st r i t = (st', .ok s) ∧ Asked pv r s ∧ st'.sigs r.name = some s) ∨
      (¬ Legal kw r ∧ ∃ e, pyPort kw pv st r i t = (st, .throw e)) := by
    intro i t hv hs
    have hn : ¬ ∃ e w l, r.width = .enum e w l ∧ t ≠ .data := by
      rintro ⟨e, w, l, hw, ht⟩
      simp only [Plain, hw] at hp
      rcases hp.2.2 with h' | ⟨j, h'⟩
      · rw [hv] at h'; cases h'
      · rw [hv] at h'; injection h' with _ h'; exact ht h'
    have hl := legal_port (kw := kw) hv hs
    rw [pyPort_fresh hpv hf hq hp hv]
    rw [← isLoc_iff] at hl
    by_cases hc : isLoc r.width = true ∨ kw r.name = true ∨ ctorWidth r.width = 0 ∨
        (t ≠ .data ∧ ctorWidth r.width > 1)
    · rw [if_pos hc]
      refine .inr ⟨fun h => ?_, _, rfl⟩
      rcases hl.1 h with h | ⟨_, h⟩
      · exact h hc
      · exact hn h
    · rw [if_neg hc]
      exact .inl ⟨hl.2 (.inl hc), _, _, rfl, wanted_asked pv r, by simp [St.put]⟩
  unfold declare
  cases hh : r.how with
  | var =>
    dsimp only
    have hl := legal_var (kw := kw) hh
    rw [pyVar_fresh hpv hf hp (by rw [hh]; rfl)]
    by_cases hc : kw r.name = true ∨ ctorWidth r.width = 0
    · rw [if_pos (by simpa using hc)]
      exact .inr ⟨fun h => hl.1 h hc, _, rfl⟩
    · rw [if_neg (by simpa using hc)]
      exact .inl ⟨hl.2 hc, _, _, rfl, wanted_asked pv r, by simp [St.put]⟩
  | inout i t =>
    dsimp only
    exact port i t (by rw [hh]; rfl) (by intro _ _ _ _ h; rw [hh] at h; cases h)
  | port i t =>
    dsimp only
    cases hw : r.width with
    | struct a b => exact .inr ⟨fun h => h.struct i t a b hh hw, _, rfl⟩
    | _ => exact port i t (by rw [hh]; rfl) (by intro _ _ _ _ _ h; rw [hw] at h; cases h)

/-- A second declaration of a plain variable with given numbers: it is accepted exactly if the total
number of bits of the signal there is the width of an element asked for, and the sign is the same; the
signal keeps everything but `packed` and `explicit`. -/
theorem again_iff {kw : Nat → Bool} {pv : Nat → Nat} {st : St} {r : Req} {s : Sig} {w : Nat} {l : List Nat}
    (hh : r.how = .var) (hw : r.width = .int w) (hl : r.size = .list (l.map .int)) (hs : st.sigs r.name = some s) :
    declare kw pv st r =
      if total s = w ∧ s.signed = r.signed then
        (st.put r.name { s with packed := r.packed, explicit := r.explicit },
          .ok { s with packed := r.packed, explicit := r.explicit })
      else (st, .throw .var) := by
  have h0 : ∀ (l : List Nat) k, sizeParams k (l.map .int) = [] := by
    intro l
    induction l with
    | nil => intro k; rfl
    | cons x l ih => intro k; simpa [sizeParams] using ih (k + 1)
  simp only [declare, hh, pyVar, hw, hl, hs, filterSize, h0, finish, setSizes, withParam, ctorWidth]
  by_cases a : total s = w <;> by_cases b : s.signed = r.signed <;> simp [a, b]

/-! ### Counterexamples and concrete cases -/

/-- Parameter 0 has the value 8. -/
def vals : Nat → Nat := fun _ => 8
def noKw : Nat → Bool := fun _ => false

theorem vals_lt : ∀ p, vals p < 2 ^ 32 := fun _ => by unfold vals; decide

/-- `g.var("a", 8)` -/
def rScalar : Req := ⟨.var, 1, .int 8, .one (.int 1), false, false, false⟩
/-- `g.var("a", 8, size=4)` -/
def rArray : Req := ⟨.var, 1, .int 8, .one (.int 4), false, false, false⟩
/-- `g.var("a", 8, packed=True)` -/
def rPacked : Req := ⟨.var, 1, .int 8, .one (.int 1), false, true, false⟩
/-- `g.var("e", enum, size=4)` -/
def rEnum : Req := ⟨.var, 2, .enum 0 2 false, .one (.int 4), false, false, false⟩
/-- `g.input("e", enum, PortType.Clock, is_signed=True)` -/
def rEnumClk : Req := ⟨.inout true .clock, 2, .enum 0 1 false, .one (.int 1), true, false, false⟩
/-- `g.var("s", struct, packed=False, explicit_array=True)` -/
def rStruct : Req := ⟨.var, 3, .struct 0 9, .one (.int 2), false, false, true⟩
/-- `g.var("e", enum, size=[P, P])` -/
def rHalf : Req := ⟨.var, 2, .enum 0 2 false, .list [.param 0, .param 0], false, false, false⟩
/-- `g.input("c", P, PortType.Clock)` -/
def rClock : Req := ⟨.inout true .clock, 4, .param 0, .one (.int 1), false, false, false⟩
/-- `g.input("a", 8)` -/
def rInput : Req := ⟨.inout true .data, 1, .int 8, .one (.int 1), false, false, false⟩

def sArray : Sig := ⟨.plain, .var, (8, none), [(4, none)], false, false, false⟩

/-- The array asked for is the scalar declared before. -/
theorem again_size_wrong :
    ∃ st s, declare noKw vals (run noKw vals empty [rScalar]) rArray = (st, .ok s) ∧ s.size = [(1, none)] :=
  ⟨_, _, rfl, rfl⟩

theorem not_AskedClaim : ¬ AskedClaim := by
  intro h
  obtain ⟨st, s, h1, h2⟩ := again_size_wrong
  have := (h noKw vals [rScalar] rArray st s vals_lt h1).size
  rw [h2] at this
  revert this
  decide

/-- An enumeration loses its size; as a port it loses its sign and its type. -/
theorem enum_wrong :
    (∃ st s, declare noKw vals empty rEnum = (st, .ok s) ∧ s.size = [(1, none)]) ∧
    ∃ st s, declare noKw vals empty rEnumClk = (st, .ok s) ∧ s.role = .port true .data ∧ s.signed = false :=
  ⟨⟨_, _, rfl, rfl⟩, ⟨_, _, rfl, rfl, rfl⟩⟩

/-- A structure is packed and no explicit array whatever was asked for. -/
theorem struct_wrong :
    ∃ st s, declare noKw vals empty rStruct = (st, .ok s) ∧ s.packed = true ∧ s.explicit = false :=
  ⟨_, _, rfl, rfl, rfl⟩

/-- A second declaration repacks the variable of the first. -/
theorem again_packs :
    ((run noKw vals empty [rScalar]).sigs 1).map (·.packed) = some false ∧
    ((run noKw vals empty [rScalar, rPacked]).sigs 1).map (·.packed) = some true := ⟨rfl, rfl⟩

/-- A variable declared under the name of a port is the port. -/
theorem var_is_port :
    ∃ st s, declare noKw vals (run noKw vals empty [rInput]) rScalar = (st, .ok s) ∧ s.role = .port true .data :=
  ⟨_, _, rfl, rfl⟩

/-- A port declared under the name of a variable does not outlive the call. -/
theorem port_is_gone : (declare noKw vals (run noKw vals empty [rScalar]) rInput).2 = .ub := rfl

/-- A refused declaration leaves a variable behind. -/
theorem not_AtomicClaim : ¬ AtomicClaim := by
  intro h
  have h1 : (declare noKw vals (run noKw vals empty []) rHalf).2 = .throw .user := rfl
  have h3 := h noKw vals [] rHalf (declare noKw vals (run noKw vals empty []) rHalf).1 .user (by rw [← h1])
  have h2 : ((declare noKw vals (run noKw vals empty []) rHalf).1.sigs rHalf.name).isSome = true := rfl
  rw [h3] at h2
  cases h2

/-- The same array cannot be declared twice. -/
theorem not_AgainClaim : ¬ AgainClaim := by
  intro h
  obtain ⟨st', h⟩ := h noKw vals [] rArray (empty.put 1 sArray) sArray rfl rfl
  have h1 : (declare noKw vals (empty.put 1 sArray) rArray).2 = .throw .var := by decide +kernel
  rw [h] at h1
  cases h1

/-- A clock whose width is a parameter of value 8. -/
theorem not_ClockClaim : ¬ ClockClaim := by
  intro h
  have h' : (run noKw vals empty [rClock]).sigs 4 =
      some ⟨.plain, .port true .clock, (8, some 0), [(1, none)], false, false, false⟩ := by decide +kernel
  have := h noKw vals [rClock] 4 _ true .clock h' rfl (by decide)
  revert this
  decide

/-- `g.input("x", P, size=[2, P], is_signed=True, packed=True)` -/
def rGood : Req := ⟨.inout true .data, 7, .param 0, .list [.int 2, .param 1], true, true, false⟩

example : Plain rGood ∧ Legal noKw rGood ∧ (run noKw vals empty [rScalar]).sigs rGood.name = none ∧
    (run noKw vals empty [rScalar]).ports rGood.name = false := by
  refine ⟨trivial, ⟨rfl, ?_, ?_, ?_, ?_, ?_⟩, rfl, rfl⟩
  · intro w h; cases h
  · intro e w l h; cases h
  · intro i t w h ht; injection h with _ h; exact absurd h.symm ht
  · intro i t e w _ h; cases h
  · intro i t s w h; cases h

example : ((run noKw vals empty [rScalar, rGood]).sigs 7) =
    some ⟨.plain, .port true .data, (8, some 0), [(2, none), (8, some 1)], true, true, false⟩ := by decide +kernel

example : Plain ⟨.inout true .data, 2, .enum 0 1 false, .one (.param 3), false, true, false⟩ :=
  ⟨rfl, ⟨.param 3, .inl rfl, nofun, nofun⟩, .inr ⟨true, rfl⟩⟩

end Kratos.PyDecl
