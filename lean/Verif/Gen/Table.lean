import Verif.Base
import Verif.Text.Digits
import Verif.Util.Map

/-!
# The variable table of a generator (`src/generator.cc`)

Variables live in a heap of objects (`obj`); the generator keeps `vars_` (name → variable) and
`ports_` (a set of names).  A call returns the new state together with its outcome, because an
exception can leave a half-made change behind.

Not modelled here: clock/port types, enum and struct typed variables (they go through the same
two containers), interfaces, packages, debug information.
-/

namespace Kratos.Gen

abbrev Name := List Char

/-- `fmt::format("{0}_{1}", a, b)`. -/
def join (a b : Name) : Name := a ++ '_' :: b

/-- Decimal rendering of a `uint32_t` by `fmt`. -/
def dec (n : Nat) : Name := Text.printNat 10 n

/-- The `while (true)` loop of `Generator::get_unique_variable_name` (src/generator.cc:563-574) and
of `uniquify_generators` (src/pass.cc:74-80): try one candidate per value of a `uint32_t` counter.
`fuel` counts the values not tried yet.  After 2³² attempts the counter has wrapped around and the
loop never ends (a loop without side effects that does not end is undefined in C++: `ub`). -/
def freeFrom (taken : Name → Bool) (mk : Nat → Name) : (fuel : Nat) → (count : Nat) → Res Name
  | 0, _ => .ub
  | f + 1, c => if taken (mk c) then freeFrom taken mk f ((c + 1) % 2 ^ 32) else .ok (mk c)

/-- `Generator::get_unique_variable_name` (src/generator.cc:550-576). -/
def uniqueName (taken : Name → Bool) (pre base : Name) : Res Name :=
  let first := if pre.isEmpty then base else join pre base
  if taken first then freeFrom taken (fun c => join first (dec c)) (2 ^ 32) 0
  else .ok first

/-- What this part of the code knows about a `Var` (src/expr.hh): its `name` field, whether it is a
port (`type() == VarType::PortIO`), element width, array sizes, signedness, and whether any
assignment is attached (`sources()`/`sinks()` non-empty). -/
structure VarObj where
  name : Name
  isPort : Bool
  width : Nat
  size : List Nat
  signed : Bool
  connected : Bool
  deriving DecidableEq, Repr

/-- `Var::width()` (src/expr.hh): element width times all array sizes. -/
def VarObj.totalWidth (v : VarObj) : Nat := v.size.foldl (· * ·) v.width

structure G where
  vars : Map Name Nat
  ports : List Name
  obj : Nat → VarObj
  next : Nat

/-- The calls a user (or a pass) can make on the table. -/
inductive Op where
  | declVar (n : Name) (w : Nat) (sz : List Nat) (sg : Bool)
  | declPacked (n : Name) (w : Nat) (sz : List Nat)
  | declPort (n : Name) (w : Nat) (sz : List Nat) (sg : Bool)
  | rename (old new : Name)
  | setName (v : Nat) (n : Name)
  | removeVar (n : Name)
  | removePort (n : Name)
  | reindex
  /-- Any assignment added to or removed from variable `v` (outside this file). -/
  | connect (v : Nat) (b : Bool)

def updObj (f : Nat → VarObj) (i : Nat) (v : VarObj) : Nat → VarObj := fun j => if j = i then v else f j

/-- Allocating an object and registering it under its name: `std::make_shared` followed by
`vars_.emplace(name, p)`, which keeps an existing entry. -/
def G.alloc (g : G) (v : VarObj) : G :=
  { g with vars := g.vars.emplace v.name g.next, obj := updObj g.obj g.next v, next := g.next + 1 }

/-- The checks of the `Var` constructor (src/expr.cc:872-874). -/
def ctorOk (kw : Name → Bool) (n : Name) (w : Nat) : Bool := !kw n && w != 0

/-- `Generator::var` (src/generator.cc:92-104). -/
def declVar (kw : Name → Bool) (g : G) (n : Name) (w : Nat) (sz : List Nat) (sg : Bool) : G × Res Nat :=
  match g.vars.find n with
  | some v =>
    if (g.obj v).totalWidth != w || (g.obj v).signed != sg then (g, .throw .var) else (g, .ok v)
  | none =>
    if ctorOk kw n w then
      (g.alloc ⟨n, false, w, sz, sg, false⟩, .ok g.next)
    else (g, .throw .user)

/-- `Generator::var_packed` (src/generator.cc:1113-1122) and `Generator::enum_var`
(src/generator.cc:269-275). -/
def declPacked (kw : Name → Bool) (g : G) (n : Name) (w : Nat) (sz : List Nat) : G × Res Nat :=
  if g.vars.has n then (g, .throw .var)
  else if ctorOk kw n w then (g.alloc ⟨n, false, w, sz, false, false⟩, .ok g.next)
  else (g, .throw .user)

/-- `Generator::port` (src/generator.cc:135-142) with `add_port_name` (src/generator.cc:231-236);
the packed-struct and enum variants (144-200, 1093-1100) treat the containers the same way.  The
constructor runs first; the name is looked up in `ports_` only; `vars_.emplace` keeps an existing
variable, in which case the returned reference points to an object owned by nobody. -/
def declPort (kw : Name → Bool) (g : G) (n : Name) (w : Nat) (sz : List Nat) (sg : Bool) : G × Res Nat :=
  if ctorOk kw n w then
    if g.ports.contains n then (g, .throw .var)
    else ({ g.alloc ⟨n, true, w, sz, sg, false⟩ with ports := g.ports ++ [n] }, .ok g.next)
  else (g, .throw .user)

/-- `Generator::rename_var` (src/generator.cc:585-594): extract the node, change its key and the
variable's name, insert it back; `insert` of a node whose key exists destroys the node. -/
def renameVar (g : G) (old new : Name) : G :=
  match g.vars.find old with
  | none => g
  | some v =>
    { g with vars := (g.vars.erase old).emplace new v
             obj := updObj g.obj v { g.obj v with name := new } }

/-- The Python attribute `var.name = value` (python/kratos_expr.cc:444-460): checks the table's
keys, changes the name, does not touch the table. -/
def setName (g : G) (v : Nat) (n : Name) : G × Res Unit :=
  if (g.obj v).name = n then (g, .ok ())
  else if g.vars.has n then (g, .throw .user)
  else ({ g with obj := updObj g.obj v { g.obj v with name := n } }, .ok ())

/-- `Generator::remove_var` (src/generator.cc:1270-1283). -/
def removeVar (g : G) (n : Name) : G × Res Unit :=
  match g.vars.find n with
  | none => (g, .throw .user)
  | some v => if (g.obj v).connected then (g, .throw .user) else ({ g with vars := g.vars.erase n }, .ok ())

/-- `Generator::remove_port` (src/generator.cc:578-583): the name leaves `ports_` before
`remove_var` gets a chance to refuse. -/
def removePort (g : G) (n : Name) : G × Res Unit :=
  if g.ports.contains n then removeVar { g with ports := g.ports.filter (fun m => decide (m ≠ n)) } n
  else (g, .ok ())

/-- `ports.emplace(name)` on a `std::set`. -/
def insertPort (ps : List Name) (n : Name) : List Name := if ps.contains n then ps else ps ++ [n]

/-- `Generator::reindex_vars` (src/generator.cc:596-611). -/
def reindex (g : G) : G :=
  { g with
    vars := g.vars.foldl (fun m e => m.emplace (g.obj e.2).name e.2) []
    ports := g.vars.foldl
      (fun ps e => if (g.obj e.2).isPort then insertPort ps (g.obj e.2).name else ps) [] }

/-- One call: new state and, for the declaring calls, the variable returned. -/
def step (kw : Name → Bool) (g : G) : Op → G × Res (Option Nat)
  | .declVar n w sz sg => ((declVar kw g n w sz sg).1, (declVar kw g n w sz sg).2.map some)
  | .declPacked n w sz => ((declPacked kw g n w sz).1, (declPacked kw g n w sz).2.map some)
  | .declPort n w sz sg => ((declPort kw g n w sz sg).1, (declPort kw g n w sz sg).2.map some)
  | .rename old new => (renameVar g old new, .ok none)
  | .setName v n => ((setName g v n).1, (setName g v n).2.map fun _ => none)
  | .removeVar n => ((removeVar g n).1, (removeVar g n).2.map fun _ => none)
  | .removePort n => ((removePort g n).1, (removePort g n).2.map fun _ => none)
  | .reindex => (reindex g, .ok none)
  | .connect v b => ({ g with obj := updObj g.obj v { g.obj v with connected := b } }, .ok none)

/-- `Generator::get_port` (src/generator.cc:202-206): `vars_.at` throws when the entry is missing;
the `static_pointer_cast<Port>` of something that is not a port is undefined when used. -/
def getPort (g : G) (n : Name) : Res (Option Nat) :=
  if g.ports.contains n then
    match g.vars.find n with
    | none => .throw .outOfRange
    | some v => if (g.obj v).isPort then .ok (some v) else .ub
  else .ok none

/-- A freshly constructed generator. -/
def fresh : G := ⟨[], [], fun _ => ⟨[], false, 0, [], false, false⟩, 0⟩

end Kratos.Gen
