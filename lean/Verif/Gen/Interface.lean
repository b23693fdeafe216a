import Verif.Base

/-!
# Interfaces and modports

`src/interface.cc`, `src/interface.hh`, `Generator::interface` and `Generator::wire_interface`
(`src/generator.cc`), `extract_interface_info` (`src/analysis.cc`) and the interface part of the
module header (`src/codegen.cc`).

An interface is declared by a sequence of calls (`port`, `var`, `modport`, `set_input`,
`set_output`); it is then instantiated in generators, either as a whole or restricted to one of its
modports, wired, and its text is emitted once for the whole design.

Simplifications, common to the module: names are strings and never contain a `.` (so that the
string `interface.modport` is a pair); `std::set` and `std::map` are duplicate-free lists in
insertion order (the order of the emitted items is not part of any statement below); port types are
numbers; widths and sizes are naturals.
-/

namespace Kratos.Iface

/-- `PortDirection` (`src/port.hh`). -/
inductive Dir where | inp | out | inout
  deriving DecidableEq, Repr

/-- `IDefinition::InterfacePortDef` (`src/interface.hh:11`). -/
structure PortDef where
  width : Nat
  size : List Nat
  dir : Dir
  ty : Nat
  deriving DecidableEq, Repr

/-- `IDefinition::InterfaceVarDef` (`src/interface.hh:12`). -/
structure VarDef where
  width : Nat
  size : List Nat
  deriving DecidableEq, Repr

/-- `InterfaceModPortDefinition`: the sets `inputs_` and `outputs_` (`src/interface.hh:99-100`). -/
structure ModDef where
  ins : List String
  outs : List String
  deriving DecidableEq, Repr

/-- `InterfaceDefinition` (`src/interface.hh:69-73`). -/
structure Def where
  name : String
  ports : List (String × PortDef)
  vars : List (String × VarDef)
  mods : List (String × ModDef)
  deriving DecidableEq, Repr

/-- `map.find(name)` on a `std::map`. -/
def get {α : Type} : List (String × α) → String → Option α
  | [], _ => none
  | (k, a) :: l, n => if k = n then some a else get l n

/-- `std::set::emplace`. -/
def put (l : List String) (n : String) : List String := if n ∈ l then l else l ++ [n]

/-- A declaration call on an interface or on one of its modports. -/
inductive Op where
  | port (n : String) (p : PortDef)
  | var (n : String) (v : VarDef)
  | modport (m : String)
  | setIn (m n : String)
  | setOut (m n : String)
  deriving DecidableEq, Repr

/-- The interface with one modport changed: modports are shared objects, a handle reaches the entry
of the map. -/
def setMod (d : Def) (m : String) (f : ModDef → ModDef) : Def :=
  { d with mods := d.mods.map fun e => if e.1 = m then (e.1, f e.2) else e }

/-- `InterfaceDefinition::port` (`src/interface.cc:31-38`), `InterfaceDefinition::var`
(`src/interface.cc:58-64`), `create_modport_def` (`src/interface.cc:10-17`),
`InterfaceModPortDefinition::set_input` (`src/interface.cc:134-148`) and `set_output`
(`src/interface.cc:95-109`).  A call on a modport that does not exist has no handle to be made on;
it is given the outcome `ub`. -/
def step (d : Def) : Op → Res Def
  | .port n p =>
    if (get d.ports n).isSome then .throw .user else .ok { d with ports := d.ports ++ [(n, p)] }
  | .var n v =>
    if (get d.vars n).isSome then .throw .user else .ok { d with vars := d.vars ++ [(n, v)] }
  | .modport m =>
    if (get d.mods m).isSome then .throw .user else .ok { d with mods := d.mods ++ [(m, ⟨[], []⟩)] }
  | .setIn m n =>
    match get d.mods m with
    | none => .ub
    | some _ =>
      match get d.ports n with
      | some p =>
        if p.dir = .inp then .ok (setMod d m fun x => { x with ins := put x.ins n })
        else .throw .user
      | none =>
        if (get d.vars n).isSome then .ok (setMod d m fun x => { x with ins := put x.ins n })
        else .ok d
  | .setOut m n =>
    match get d.mods m with
    | none => .ub
    | some _ =>
      match get d.ports n with
      | some p =>
        if p.dir = .out then .ok (setMod d m fun x => { x with outs := put x.outs n })
        else .throw .user
      | none =>
        if (get d.vars n).isSome then .ok (setMod d m fun x => { x with outs := put x.outs n })
        else .ok d

/-- A sequence of calls; the first exception ends it. -/
def run (d : Def) : List Op → Res Def
  | [] => .ok d
  | o :: os => (step d o).bind fun d' => run d' os

/-- `InterfaceDefinition(name)` (`src/interface.hh:32`). -/
def fresh (name : String) : Def := ⟨name, [], [], []⟩

/-! ## Definitions as seen by their users -/

/-- `IDefinition`: an interface, or one of its modports (`src/interface.hh:8-28`). -/
inductive IDef where
  | full (d : Def)
  | mod (d : Def) (m : String) (md : ModDef)
  deriving DecidableEq, Repr

/-- `def_name` (`src/interface.hh:60`, `src/interface.cc:150-152`). -/
def IDef.defName : IDef → String × Option String
  | .full d => (d.name, none)
  | .mod d m _ => (d.name, some m)

/-- `InterfaceModPortDefinition::ports` (`src/interface.cc:125-130`): the union of the two sets. -/
def ModDef.names (md : ModDef) : List String := md.ins ++ md.outs.filter fun n => n ∉ md.ins

/-- `ports` (`src/interface.cc:66-70`, `125-130`). -/
def IDef.portNames : IDef → List String
  | .full d => d.ports.map (·.1)
  | .mod _ _ md => md.names

/-- `vars` (`src/interface.cc:72-76`, `132`). -/
def IDef.varNames : IDef → List String
  | .full d => d.vars.map (·.1)
  | .mod .. => []

/-- `port(name)` (`src/interface.cc:48-52`, `111-123`); `none` when it throws. -/
def IDef.portOf : IDef → String → Option PortDef
  | .full d, n => get d.ports n
  | .mod d _ md, n =>
    if n ∈ md.ins ∨ n ∈ md.outs then
      match get d.ports n with
      | some p => some p
      | none => (get d.vars n).map fun v =>
          ⟨v.width, v.size, if n ∈ md.ins then .inp else .out, 0⟩
    else none

/-- `var(name)` (`src/interface.cc:78-82`, `121-123`); `none` when it throws. -/
def IDef.varOf : IDef → String → Option VarDef
  | .full d, n => get d.vars n
  | .mod .., _ => none

/-! ## References -/

/-- `InterfaceRef`: the names and directions of its ports, and its variables. -/
structure Ref where
  ports : List (String × Dir)
  vars : List String
  deriving DecidableEq, Repr

/-- The part of `Generator::interface` that fills the reference (`src/generator.cc:753-775`).  A
`port(name)` that throws ends the call. -/
def mkRef (i : IDef) : Res Ref :=
  let rec go : List String → Res (List (String × Dir))
    | [] => .ok []
    | n :: ns =>
      match i.portOf n with
      | none => .throw .user
      | some p => (go ns).bind fun l => .ok ((n, p.dir) :: l)
  (go i.portNames).bind fun l => .ok ⟨l, i.varNames⟩

/-- `InterfaceRef::get_modport_ref` (`src/interface.cc:171-203`) without its cache: the reference to
modport `m` of an instance of `d`.  `is_input` is computed at line 189 from `name`, the name of the
modport, not from `port_name`. -/
def modRef (d : Def) (m : String) : Res Ref :=
  match get d.mods m with
  | none => .throw .user
  | some md =>
    let isInput : Bool := m ∈ md.ins
    let rec go : List String → Res (List (String × Dir))
      | [] => .ok []
      | n :: ns =>
        if (get d.vars n).isSome then
          (go ns).bind fun l => .ok ((n, if isInput then .inp else .out) :: l)
        else
          match get d.ports n with
          | none => .throw .user
          | some p => (go ns).bind fun l => .ok ((n, p.dir) :: l)
    (go md.names).bind fun l => .ok ⟨l, []⟩

/-- Which side of an assignment: a signal of the child's interface, or of the parent's. -/
inductive Asg where
  /-- the child's port is assigned from the parent's signal -/
  | toChild (n : String)
  /-- the parent's signal is assigned from the child's port -/
  | toParent (n : String)
  deriving DecidableEq, Repr

/-- The loop of `Generator::wire_interface` (`src/generator.cc:980-998`), parent and child being
already told apart.  The signal of the parent is its variable of that name if it has one, else its
port of that name. -/
def wire (child parent : Ref) : Res (List Asg) :=
  go child.ports
where
  go : List (String × Dir) → Res (List Asg)
    | [] => .ok []
    | (n, dir) :: l =>
      if n ∈ parent.vars ∨ n ∈ parent.ports.map (·.1) then
        (go l).bind fun r => .ok ((if dir = .inp then Asg.toChild n else Asg.toParent n) :: r)
      else .throw .user

/-- `Generator::correct_wire_direction` for a port of an interface instance that is not itself a
port, and a plain variable, both of the generator doing the wiring (`src/generator.cc:904-915`):
`true` when the port is the assigned side. -/
def drivesPort (dir : Dir) : Bool := dir = .inp

/-! ## Emission -/

/-- A piece of the text of a modport (`src/analysis.cc:1391-1401`). -/
inductive Piece where
  | sig (dir : Dir) (n : String)
  | sep
  deriving DecidableEq, Repr

/-- The two loops over `inputs` and `outputs` with the shared counter (`src/analysis.cc:1392-1400`):
a separator unless the counter has reached the size of `ports`. -/
def pieces (total : Nat) : Nat → List (Dir × String) → List Piece
  | _, [] => []
  | c, (dir, n) :: l =>
    Piece.sig dir n :: ((if c + 1 ≠ total then [Piece.sep] else []) ++ pieces total (c + 1) l)

/-- The text of one modport (`src/analysis.cc:1387-1402`). -/
def emitMod (md : ModDef) : Res (List Piece) :=
  if md.names = [] then .throw .user
  else .ok (pieces md.names.length 0
    (md.ins.map (fun n => (Dir.inp, n)) ++ md.outs.map (fun n => (Dir.out, n))))

/-- The text of an interface (`src/analysis.cc:1358-1404`): header ports, variables, modports. -/
structure Decl where
  name : String
  ports : List (String × PortDef)
  vars : List (String × VarDef)
  mods : List (String × List Piece)
  deriving DecidableEq, Repr

/-- The loop over the modports (`src/analysis.cc:1386`). -/
def emitMods : List (String × ModDef) → Res (List (String × List Piece))
  | [] => .ok []
  | (m, md) :: l => (emitMod md).bind fun p => (emitMods l).bind fun r => .ok ((m, p) :: r)

def emit (d : Def) : Res Decl :=
  (emitMods d.mods).bind fun ms => .ok ⟨d.name, d.ports, d.vars, ms⟩

/-- `a.ports() == b.ports()` on sets. -/
def sameSet (a b : List String) : Bool := a.all (· ∈ b) && b.all (· ∈ a)

/-- The comparison of `update_interface_definition` (`src/analysis.cc:1318-1342`). -/
def same (a b : IDef) : Bool :=
  sameSet b.portNames a.portNames && a.portNames.all (fun n => a.portOf n == b.portOf n) &&
  sameSet b.varNames a.varNames && a.varNames.all (fun n => a.varOf n == b.varOf n)

/-- `InterfaceVisitor` (`src/analysis.cc:1271-1345`): the uses of interfaces in the design, in the
order in which the threads visit them (any order), against the table of definitions by name. -/
def collect : List IDef → List IDef → Res (List IDef)
  | [], t => .ok t
  | u :: us, t =>
    match t.find? (fun r => r.defName = u.defName) with
    | none => collect us (t ++ [u])
    | some r => if same u r then collect us t else .throw .user

/-- The loop of `extract_interface_info` over the table (`src/analysis.cc:1353-1406`): modports are
skipped. -/
def emitAll : List IDef → Res (List Decl)
  | [] => .ok []
  | .mod .. :: l => emitAll l
  | .full d :: l => (emit d).bind fun x => (emitAll l).bind fun r => .ok (x :: r)

/-- `extract_interface_info` (`src/analysis.cc:1347-1409`). -/
def extract (uses : List IDef) : Res (List Decl) := (collect uses []).bind emitAll

/-! ## The names of a generator -/

/-- A key of `Generator::vars_`: a plain name, or `instance.signal`. -/
inductive Key where
  | plain (n : String)
  | field (i n : String)
  deriving DecidableEq, Repr

/-- The naming state of a generator: `vars_` (with whether the entry is a port object), `ports_` and
`interfaces_`. -/
structure Gen where
  vars : List (Key × Bool)
  ports : List Key
  ifaces : List String
  deriving DecidableEq, Repr

def Gen.has (g : Gen) (k : Key) : Bool := g.vars.any fun e => e.1 = k

/-- `unordered_map::emplace`: nothing happens when the key is taken. -/
def Gen.emplace (g : Gen) (k : Key) (port : Bool) : Gen :=
  if g.has k then g else { g with vars := g.vars ++ [(k, port)] }

/-- `Generator::var` (`src/generator.cc:92-104`): an existing variable is returned. -/
def addVar (g : Gen) (n : String) : Gen := g.emplace (.plain n) false

/-- `add_port_name` (`src/generator.cc:231-236`). -/
def addPortName (g : Gen) (k : Key) : Res Gen :=
  if k ∈ g.ports then .throw .var else .ok { g with ports := g.ports ++ [k] }

/-- The ports of an interface (`src/generator.cc:766-774`). -/
def addPorts (i : String) (isPort : Bool) : List String → Gen → Res Gen
  | [], g => .ok g
  | n :: ns, g =>
    if isPort then
      (addPortName g (.field i n)).bind fun g' => addPorts i isPort ns (g'.emplace (.field i n) true)
    else addPorts i isPort ns (g.emplace (.field i n) true)

/-- `Generator::interface` (`src/generator.cc:738-778`); the keyword check is left out. -/
def addIface (g : Gen) (i : String) (d : IDef) (isPort : Bool) : Res Gen :=
  if g.has (.plain i) then .throw .var
  else if i ∈ g.ifaces then .throw .user
  else
    let g1 := d.varNames.foldl (fun g n => g.emplace (.field i n) false) g
    (addPorts i isPort d.portNames g1).bind fun g2 => .ok { g2 with ifaces := g2.ifaces ++ [i] }

/-- `Generator::get_port` (`src/generator.cc:202-206`): the entry of `vars_` is cast to a port. -/
def getPort (g : Gen) (k : Key) : Res (Option Key) :=
  if k ∉ g.ports then .ok none
  else match g.vars.find? (fun e => e.1 = k) with
    | none => .throw .outOfRange
    | some e => if e.2 then .ok (some k) else .ub

/-- The interfaces listed in a module header (`src/codegen.cc:307-325`): walk the port names, and
list the instance of each interface port once. -/
def header : List Key → List String → List String
  | [], acc => acc
  | .plain _ :: l, acc => header l acc
  | .field i _ :: l, acc => header l (if i ∈ acc then acc else acc ++ [i])

/-! ## Specification -/

/-- The signals named by a modport exist, and a port keeps its direction. -/
def Legal (d : Def) : Prop :=
  ∀ m md, (m, md) ∈ d.mods →
    (∀ n ∈ md.ins, (∃ p, (n, p) ∈ d.ports ∧ p.dir = .inp) ∨ ∃ v, (n, v) ∈ d.vars) ∧
    (∀ n ∈ md.outs, (∃ p, (n, p) ∈ d.ports ∧ p.dir = .out) ∨ ∃ v, (n, v) ∈ d.vars)

/-- No name is used twice: not for two ports, two variables or two modports, not for a port and a
variable; and a modport lists a signal once. -/
def Distinct (d : Def) : Prop :=
  (d.ports.map (·.1) ++ d.vars.map (·.1)).Nodup ∧ (d.mods.map (·.1)).Nodup ∧
  ∀ m md, (m, md) ∈ d.mods → (md.ins ++ md.outs).Nodup

/-- What a user expects of every successfully declared interface. -/
def DeclareClaim : Prop :=
  ∀ name ops d, run (fresh name) ops = .ok d → Legal d ∧ Distinct d

/-- The expected text of a modport: its signals with their directions, separated. -/
def spelled (md : ModDef) : List Piece :=
  ((md.ins.map (Piece.sig .inp)) ++ md.outs.map (Piece.sig .out)).intersperse .sep

/-- What a user expects of the direction of the signals of a modport reference. -/
def ModportRefClaim : Prop :=
  ∀ name ops d m md r, run (fresh name) ops = .ok d → Distinct d → (m, md) ∈ d.mods →
    modRef d m = .ok r →
    (∀ n, (n, Dir.inp) ∈ r.ports ↔ n ∈ md.ins) ∧ (∀ n, (n, Dir.out) ∈ r.ports ↔ n ∈ md.outs)

/-- The two definitions have the same ports, with the same shape, and the same variables. -/
def Agree (a b : IDef) : Prop :=
  (∀ n, n ∈ a.portNames ↔ n ∈ b.portNames) ∧ (∀ n ∈ a.portNames, a.portOf n = b.portOf n) ∧
  (∀ n, n ∈ a.varNames ↔ n ∈ b.varNames) ∧ (∀ n ∈ a.varNames, a.varOf n = b.varOf n)

/-- The interface a use belongs to. -/
def IDef.owner : IDef → Def
  | .full d => d
  | .mod d _ _ => d

/-- What a user expects of the emitted interfaces: every interface used, as a whole or through a
modport, is emitted with its ports, its variables and its modports. -/
def EmitClaim : Prop :=
  ∀ uses out, extract uses = .ok out → ∀ u ∈ uses, ∃ x ∈ out, x.name = u.owner.name ∧
    (∀ e, e ∈ x.ports ↔ e ∈ u.owner.ports) ∧ (∀ e, e ∈ x.vars ↔ e ∈ u.owner.vars) ∧
    (∀ m, m ∈ x.mods.map (·.1) ↔ m ∈ u.owner.mods.map (·.1))

end Kratos.Iface
