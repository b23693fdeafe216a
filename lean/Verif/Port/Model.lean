import Verif.Base
import Verif.Util.Map
import Verif.Gen.Table

/-!
# Ports: wiring direction, typed assignment, bundles

`Generator::correct_wire_direction`, `wire_ports` (src/generator.cc:815-953), `Port::assign_`
(src/port.cc:41-70), `Var::assign_` (src/expr.cc:894-921), `PortBundleDefinition`
(src/port.cc:218-242).
-/

namespace Kratos.Port

/-- `PortDirection` (src/port.hh:14). -/
inductive Dir | inp | out | inout
  deriving DecidableEq, Repr

/-- The root variable of an operand of `wire` after stripping slices (src/generator.cc:889-898):
a port of generator `gen` (with, for an interface port, `some r` where `r` is
`interface()->is_port()`), or anything else. -/
inductive Root where
  | port (gen : Nat) (d : Dir) (iface : Option Bool)
  | other (gen : Nat)
  deriving DecidableEq, Repr

/-- The surroundings of a `wire` call in generator `self`: the parent of each generator, and
`has_child_generator` of `self`, which compares instance names (src/generator.cc:481-483). -/
structure World where
  self : Nat
  parent : Nat → Option Nat
  inst : Nat → Gen.Name
  kids : List Gen.Name

def World.hasChild (W : World) (g : Nat) : Bool := W.kids.contains (W.inst g)

/-- `check_direction` (src/generator.cc:815-829). -/
def checkDirection (d1 d2 : Dir) (same : Bool) : Res Unit :=
  if d2 = (if same then d1 else if d1 = .inp then .out else .inp) then .ok () else .throw .var

/-- `interface_port_wire` (src/generator.cc:838-848). -/
def ifaceWire (i1 i2 : Option Bool) : Bool :=
  match i1, i2 with
  | some r, none => !r
  | none, some r => !r
  | _, _ => false

/-- `correct_port_direction` (src/generator.cc:831-865): whether port 1 is to be driven, and whether
the pair can be wired at all. -/
def portDirection (W : World) (g1 : Nat) (d1 : Dir) (i1 : Option Bool) (g2 : Nat) (d2 : Dir)
    (i2 : Option Bool) : Res (Bool × Bool) :=
  if g1 = g2 ∧ g1 = W.self then
    (checkDirection d1 d2 (ifaceWire i1 i2)).bind fun _ =>
      .ok (ifaceWire i1 i2 == decide (d1 = .inp), true)
  else if g1 = W.self ∧ W.hasChild g2 = true then
    (checkDirection d1 d2 true).bind fun _ => .ok (decide (d1 ≠ .inp), true)
  else if g2 = W.self ∧ W.hasChild g1 = true then
    (checkDirection d1 d2 true).bind fun _ => .ok (decide (d1 = .inp), true)
  else if W.parent g1 = W.parent g2 ∧ W.parent g1 = some W.self then
    (checkDirection d1 d2 false).bind fun _ => .ok (decide (d1 = .inp), true)
  else .ok (false, false)

/-- The interface flip of the port/variable cases (src/generator.cc:907-913, 927-933). -/
def flipDir (W : World) (i : Option Bool) (gVar : Nat) : Bool :=
  match i with
  | none => false
  | some r => !(r && decide (gVar = W.self))

/-- `Generator::correct_wire_direction` (src/generator.cc:886-953). -/
def wireDirection (W : World) (r1 r2 : Root) : Res (Bool × Bool) :=
  match r1, r2 with
  | .other _, .other _ => .ok (true, true)
  | .port g d i, .other gv =>
    if g = W.self then
      .ok (if flipDir W i gv then decide (d = .inp) else decide (d = .out), true)
    else if W.hasChild g then .ok (decide (d = .inp), true)
    else .throw .var
  | .other gv, .port g d i =>
    if g = W.self then
      .ok (if flipDir W i gv then decide (d = .out) else decide (d = .inp), true)
    else if W.hasChild g then .ok (decide (d = .out), true)
    else .throw .var
  | .port g1 d1 i1, .port g2 d2 i2 => portDirection W g1 d1 i1 g2 d2 i2

/-- `generator.wire(a, b)` (kratos/generator.py:695-706) and `wire_ports` (src/generator.cc:867-884):
the driven and the driving operand of the statement that is added. -/
def wire (W : World) (a b : Root) : Res (Root × Root) :=
  (wireDirection W a b).bind fun r =>
    if r.2 then .ok (if r.1 then (a, b) else (b, a)) else .throw .user

/-! ## Typed assignment -/

/-- `PortType` (src/port.hh:16). -/
inductive PType | data | clock | asyncReset | reset | clockEnable
  deriving DecidableEq, Repr

/-- `VarCastType` (src/expr.hh:69). -/
inductive Cast | signed | unsigned | clock | asyncReset | clockEnable | reset | enum | resize
  deriving DecidableEq, Repr

/-- The right-hand side as `Port::assign_` looks at it (`VarType`, src/expr.hh:67). -/
inductive Rhs where
  | port (t : PType)
  | const
  | cast (c : Cast)
  | other
  deriving DecidableEq, Repr

/-- The casts accepted for a port type (src/port.cc:52-60). -/
def castFor (t : PType) (c : Cast) : Bool :=
  (decide (c = .asyncReset) && decide (t = .asyncReset)) ||
  (if c = .reset ∧ t = .reset then true
   else if c = .clock ∧ t = .clock then true
   else decide (c = .clockEnable) && decide (t = .clockEnable))

/-- `Port::assign_` (src/port.cc:41-70), the typing part. -/
def portAssign (t : PType) (r : Rhs) : Res Unit :=
  match r with
  | .port _ => .ok ()
  | .const => .ok ()
  | .cast c => if t = .data || castFor t c then .ok () else .throw .stmt
  | .other => if t = .data then .ok () else .throw .stmt

/-- What is written on the left when assigning to a port: the port, a cast of it
(`VarCasted::assign_` forwards to the port, src/expr.cc:1036-1039) or a slice of it
(`VarSlice` does not override `assign_`). -/
inductive Access | whole | casted | slice
  deriving DecidableEq, Repr

/-- `left.assign(right)` for a left side based on a port of type `t`, typing part. -/
def assignTyped (t : PType) (a : Access) (r : Rhs) : Res Unit :=
  match a with
  | .whole => portAssign t r
  | .casted => portAssign t r
  | .slice => .ok ()

/-! ## What can be on the left -/

/-- Variables as `Var::assign_` sees them.  `expr c ls` is an `Expr` node: `c` says whether its
operator is `Concat`, `ls` are its operands. -/
inductive V where
  | base
  | port
  | const
  | param
  | iter
  | slice (p : V)
  | cast (p : V)
  | expr (concat : Bool) (l r : V)

/-- `AllConcat` (src/expr.cc:894-902): every expression node below is a concatenation. -/
def V.allConcat : V → Bool
  | .expr c l r => c && l.allConcat && r.allConcat
  | .slice p => p.allConcat
  | .cast p => p.allConcat
  | _ => true

/-- `Var::assign_` (src/expr.cc:904-921) on the left side, `VarCasted::assign_`
(src/expr.cc:1036-1039): is an assignment to `v` accepted? -/
def V.assignable : V → Bool
  | .const => false
  | .expr c l r => (V.expr c l r).allConcat
  | .cast p => p.assignable
  | _ => true

/-! ## Bundles -/

/-- One member of a bundle. -/
structure PortDef where
  width : Nat
  size : Nat
  sgn : Bool
  dir : Dir
  ty : PType
  deriving DecidableEq, Repr

/-- `PortBundleDefinition` (src/port.hh:115-146). -/
structure Bundle where
  name : Gen.Name
  defs : Map Gen.Name PortDef
  flipped : Map Gen.Name PortDef
  deriving DecidableEq

/-- `add_definition` (src/port.cc:218-235): the member is recorded before the direction is
checked. -/
def Bundle.add (b : Bundle) (n : Gen.Name) (p : PortDef) : Bundle × Res Unit :=
  if b.defs.has n then (b, .throw .user)
  else
    let b1 := { b with defs := b.defs.emplace n p }
    match p.dir with
    | .inp => ({ b1 with flipped := b1.flipped.emplace n { p with dir := .out } }, .ok ())
    | .out => ({ b1 with flipped := b1.flipped.emplace n { p with dir := .inp } }, .ok ())
    | .inout => (b1, .throw .user)

/-- `flip` (src/port.cc:237-243); the name is not copied. -/
def Bundle.flip (b : Bundle) : Bundle := ⟨[], b.flipped, b.defs⟩

/-- A bundle instance (`PortBundleRef`, src/port.hh:148-172): the members with the port each one
became. -/
abbrev Ref := Map Gen.Name Root

/-- `PortBundleRef::assign` (src/port.cc:251-275): the statements added so far and the outcome.  The
members are visited in the order of the map; a failure keeps the earlier statements. -/
def bundleLoop (W : World) (other : Ref) : Ref → List (Root × Root) → List (Root × Root) × Res Unit
  | [], acc => (acc, .ok ())
  | (n, p) :: rest, acc =>
    match other.find n with
    | none => (acc, .throw .var)
    | some q =>
      match wire W p q with
      | .ok s => bundleLoop W other rest (acc ++ [s])
      | .throw e => (acc, .throw e)
      | .ub => (acc, .ub)

def bundleAssign (W : World) (self other : Ref) : List (Root × Root) × Res Unit :=
  if self.length = other.length then bundleLoop W other self [] else ([], .throw .user)

end Kratos.Port
