import Verif.Print.Lists
import Verif.Pass.Kinds
import Verif.Util.Map
import Verif.Text.Digits

/-!
# Functions, tasks and the calls to them

A generator has a table of functions (`Generator::function`, `task`, `dpi_function`,
`builtin_function`, `src/generator.cc:327-361`).  A function has named ports, an optional ordering
of them and, once a return statement is placed, a return handle (`src/stmt.cc:707-846`).  A call
(`FunctionCallVar`, `src/expr.cc:2266-2365`) maps port names to arguments; it is checked when it is
made and becomes text when the module is emitted.  SystemVerilog binds the arguments of that text
to the ports of the emitted declaration (`src/codegen.cc:642-708`) by position.

Names are lists of characters in the order of `std::string` (`<`).  `std::map` keyed by a name is an
association list in that order.  The text of an argument is what `Var::to_string` gives; the
commas between the arguments are left out, so a call is the list of its argument texts.
Not modelled: the statements of the body (see `Verif.Check` for `check_function_return`), the
resizing of a constant that is returned, `Generator::add_function` (a call made on the generator of
constants moves its function), and the second object that `builtin_function` returns for a name
that exists already.
-/

namespace Kratos.Func

open Text

abbrev Name := List Char

/-- `operator<` of `std::string`. -/
def lexLt : Name → Name → Bool
  | [], [] => false
  | [], _ :: _ => true
  | _ :: _, [] => false
  | a :: s, b :: t => decide (a.toNat < b.toNat) || (decide (a = b) && lexLt s t)

/-- `std::map<std::string, V>::emplace`: a key that is present keeps its value. -/
def emplace {V : Type} (k : Name) (v : V) : Map Name V → Map Name V
  | [] => [(k, v)]
  | (k', v') :: m =>
    if k = k' then (k', v') :: m
    else if lexLt k k' then (k, v) :: (k', v') :: m
    else (k', v') :: emplace k v m

/-- A `std::map` filled entry by entry. -/
def ofList {V : Type} (l : List (Name × V)) : Map Name V :=
  l.foldl (fun m e => emplace e.1 e.2 m) []

/-! ## The table of functions -/

/-- The direction of a port of a function; only DPI functions have outputs. -/
inductive Dir where | inp | out
  deriving DecidableEq, Repr

/-- A port of a function (`std::make_shared<Port>(parent_, dir, name, width, 1, …)`,
src/stmt.cc:722-728, 758-766). -/
structure Prt where
  width : Nat
  signed : Bool
  dir : Dir
  deriving DecidableEq, Repr

/-- `FunctionStmtBlock` and its subclasses (src/stmt.hh:364-458). -/
inductive Kind where | plain | task | dpi | builtin
  deriving DecidableEq, Repr

/-- The members of a function (src/stmt.hh:390-397, 430-433): the handle is kept as its width and
sign (src/stmt.cc:712-720). -/
structure Fn where
  kind : Kind
  ports : Map Name Prt
  ordering : Map Name Nat
  handler : Option (Nat × Bool)
  returns : Bool
  retWidth : Nat
  context : Bool
  pureFn : Bool
  deriving DecidableEq, Repr

/-- A new function (src/stmt.hh:394-397, 431-433). -/
def newFn (k : Kind) : Fn := ⟨k, [], [], none, false, 0, false, false⟩

/-- `funcs_` and `func_index_` (src/generator.hh:327-328). -/
structure Gen where
  funcs : Map Name Fn
  index : Map Nat Name
  deriving DecidableEq, Repr

/-- A generator without functions. -/
def empty : Gen := ⟨[], []⟩

/-- `BuiltinFunctionInfo` (src/syntax.hh). -/
structure Info where
  ret : Nat
  min : Nat := 1
  max : Nat := 1
  signed : Bool := false
  deriving DecidableEq, Repr

/-- `builtin_functions_info` (src/syntax.cc:273-286), without the column `synthesizable`. -/
def builtins : List (String × Info) :=
  [("clog2", { ret := 32 }), ("countones", { ret := 32 }), ("onehot", { ret := 1 }),
   ("onehot0", { ret := 1 }), ("isunknown", { ret := 1 }),
   ("display", { ret := 0, min := 1, max := 4294967295 }),
   ("hgdb_assert_fail", { ret := 0, min := 3, max := 4 }),
   ("finish", { ret := 0, min := 0, max := 1 }), ("fopen", { ret := 32, min := 2, max := 2 }),
   ("fclose", { ret := 0 }), ("fscanf", { ret := 32, min := 2, max := 4294967295 }),
   ("urandom", { ret := 32, min := 0, max := 1 }),
   ("random", { ret := 32, min := 0, max := 1, signed := true })]

/-- `get_builtin_function_info` (src/syntax.cc:288-294). -/
def builtinInfo (n : Name) : Option Info :=
  (builtins.find? fun e => decide (e.1.toList = n)).map (·.2)

/-- `Generator::function`, `task`, `dpi_function` (src/generator.cc:327-352). -/
def create (k : Kind) (n : Name) (g : Gen) : Res Gen :=
  if Map.has g.funcs n then .throw .user
  else .ok ⟨emplace n (newFn k) g.funcs, Map.emplace g.index g.funcs.length n⟩

/-- `Generator::builtin_function` (src/generator.cc:354-361); the constructor looks the name up
(src/stmt.cc:785-795). -/
def createBuiltin (n : Name) (g : Gen) : Res Gen :=
  if (builtinInfo n).isNone then .throw .user
  else .ok ⟨emplace n (newFn .builtin) g.funcs, Map.emplace g.index g.funcs.length n⟩

/-- A change of a function of the table. -/
def setFn (g : Gen) (n : Name) (F : Fn) : Gen :=
  { g with funcs := g.funcs.map fun e => if e.1 = n then (n, F) else e }

/-- `FunctionStmtBlock::input` (src/stmt.cc:722-728) and `DPIFunctionStmtBlock::input`,
`output` (758-773): the ordering is recorded for a DPI function. -/
def addPort (F : Fn) (n : Name) (p : Prt) : Fn :=
  { F with
    ordering := if F.kind = .dpi then emplace n F.ordering.length F.ordering else F.ordering
    ports := emplace n p F.ports }

/-- `FunctionStmtBlock::set_port_ordering` (src/stmt.cc:740-748). -/
def setOrdering (F : Fn) (m : Map Name Nat) : Res Fn :=
  if m.length ≠ F.ports.length then .throw .user
  else if m.any fun e => !Map.has F.ports e.1 then .throw .user
  else .ok { F with ordering := m }

/-- `ReturnStmt::set_parent` (src/stmt.cc:820-841): the first one makes the handle, the others are
checked against it (`AssignStmt`, src/stmt.cc:133-175). -/
def placeReturn (F : Fn) (w : Nat) (s : Bool) : Res Fn :=
  match F.handler with
  | none => .ok { F with handler := some (w, s), returns := true }
  | some h =>
    if h.2 ≠ s then .throw .var
    else if h.1 ≠ w then .throw .var
    else .ok { F with returns := true }

/-- The calls of the interface. -/
inductive Op where
  | function (n : Name)
  | task (n : Name)
  | dpi (n : Name)
  | builtin (n : Name)
  | input (f n : Name) (width : Nat) (signed : Bool)
  | output (f n : Name) (width : Nat) (signed : Bool)
  | order (f : Name) (l : List (Name × Nat))
  | orderIndex (f : Name) (l : List (Nat × Name))
  | ret (f : Name) (width : Nat) (signed : Bool)
  | returnWidth (f : Name) (w : Nat)
  | isContext (f : Name) (b : Bool)
  | isPure (f : Name) (b : Bool)
  deriving DecidableEq, Repr

/-- `Generator::get_function` (src/generator.cc:371-374), then a change of it. -/
def withFn (g : Gen) (f : Name) (k : Fn → Res Fn) : Res Gen :=
  match Map.find g.funcs f with
  | none => .throw .user
  | some F => (k F).bind fun F' => .ok (setFn g f F')

/-- One call.  The methods of `DPIFunctionStmtBlock` do not exist on the other classes. -/
def step (g : Gen) : Op → Res Gen
  | .function n => create .plain n g
  | .task n => create .task n g
  | .dpi n => create .dpi n g
  | .builtin n => createBuiltin n g
  | .input f n w s => withFn g f fun F => .ok (addPort F n ⟨w, s, .inp⟩)
  | .output f n w s => withFn g f fun F =>
      if F.kind = .dpi then .ok (addPort F n ⟨w, s, .out⟩) else .throw .user
  | .order f l => withFn g f fun F => setOrdering F (ofList l)
  -- src/stmt.cc:750-756: `result.emplace(name, index)` for every index
  | .orderIndex f l => withFn g f fun F => setOrdering F (ofList (l.map fun e => (e.2, e.1)))
  | .ret f w s => withFn g f fun F => placeReturn F w s
  | .returnWidth f w => withFn g f fun F =>
      if F.kind = .dpi then .ok { F with retWidth := w } else .throw .user
  -- src/stmt.cc:775-783
  | .isContext f b => withFn g f fun F =>
      if F.kind = .dpi then .ok { F with context := b, pureFn := !b } else .throw .user
  | .isPure f b => withFn g f fun F =>
      if F.kind = .dpi then .ok { F with pureFn := b, context := !b } else .throw .user

/-- A history of calls. -/
def run : Gen → List Op → Res Gen
  | g, [] => .ok g
  | g, o :: os => (step g o).bind fun g' => run g' os

/-- The functions that a visitor of the generator meets: `Generator::get_child` for the indices
between the statements and the child generators (src/generator.cc:387-395, src/generator.hh:177). -/
def children (g : Gen) : List (Option Name) :=
  (List.range g.funcs.length).map (Map.find g.index)

/-! ## Calls -/

/-- An argument: its text, width and sign. -/
structure Arg where
  text : Name
  width : Nat
  signed : Bool
  deriving DecidableEq, Repr

/-- `FunctionCallVar` (src/expr.hh:828-858); width and sign are those of the expression. -/
structure Call where
  func : Name
  args : Map Name Arg
  width : Nat
  signed : Bool
  deriving DecidableEq, Repr

/-- The loop over the ports (src/expr.cc:2271-2285). -/
def checkArgs : List (Name × Prt) → Map Name Arg → Res Unit
  | [], _ => .ok ()
  | (n, p) :: ps, args =>
    match Map.find args n with
    | none => .throw .var
    | some a =>
      if p.width ≠ a.width then .throw .var
      else if p.signed ≠ a.signed then .throw .var
      else checkArgs ps args

/-- The width and the sign of a call (src/expr.cc:2286-2317); the constructor starts from one
unsigned bit (2269). -/
def callType (F : Fn) (f : Name) (nargs : Nat) (hasRet : Bool) : Res (Nat × Bool) :=
  if F.handler = none ∧ hasRet = true ∧ F.kind = .plain then .throw .stmt
  else if hasRet = true ∧ F.kind = .builtin then
    match builtinInfo f with
    | none => .ub
    | some i =>
      if i.ret = 0 then .ok (1, false)
      else if nargs < i.min ∨ nargs > i.max then .throw .user
      else .ok (i.ret, i.signed)
  else if hasRet = true ∧ F.kind = .dpi then
    if F.retWidth = 0 then .ok (1, false) else .ok (F.retWidth, false)
  else if hasRet = true then
    match F.handler with
    | some h => .ok h
    | none => .ok (1, false)
  else .ok (1, false)

/-- `Generator::call(name, args, has_return)` (src/generator.cc:294-303) and the constructor of
`FunctionCallVar`. -/
def makeCall (g : Gen) (f : Name) (args : Map Name Arg) (hasRet : Bool) : Res Call :=
  match Map.find g.funcs f with
  | none => .throw .user
  | some F => (checkArgs F.ports args).bind fun _ => (callType F f args.length hasRet).bind fun t =>
      .ok ⟨f, args, t.1, t.2⟩

/-- `Generator::call(name, args)` with named arguments (src/generator.cc:322-325). -/
def callNamed (g : Gen) (f : Name) (args : List (Name × Arg)) : Res Call :=
  makeCall g f (ofList args) true

/-- `func_def->has_return_value()` (src/stmt.hh:371, 441, 456). -/
def hasReturnValue (F : Fn) (f : Name) : Bool :=
  match F.kind with
  | .builtin => match builtinInfo f with
    | some i => decide (i.ret > 0)
    | none => false
  | .task => false
  | _ => F.returns

/-- `mock_args`: the arguments named by their position (src/generator.cc:312-315). -/
def mockArgs : Nat → List Arg → List (Name × Arg)
  | _, [] => []
  | i, a :: l => (printNat 10 i, a) :: mockArgs (i + 1) l

/-- `Generator::call(name, args)` with positional arguments (src/generator.cc:305-320). -/
def callPos (g : Gen) (f : Name) (args : List Arg) : Res Call :=
  match Map.find g.funcs f with
  | none => .throw .user
  | some F =>
    if F.kind ≠ .builtin then .throw .user
    else makeCall g f (ofList (mockArgs 0 args)) (hasReturnValue F f)

/-! ## The text -/

/-- `ordering.at(name)`, where the name is there. -/
def at' (m : Map Name Nat) (n : Name) : Nat := (Map.find m n).getD 0

/-- The order of the ports in the emitted declaration (src/codegen.cc:671-690).  A comparison
throws if a name has no place; a list of one name is not compared. -/
def declOrder (F : Fn) (o : Res (List Name)) : Prop :=
  if F.ordering = [] then o = .ok (Map.keys F.ports)
  else if F.ordering.length ≠ F.ports.length then o = .throw .user
  else if (Map.keys F.ports).all (Map.has F.ordering) then
    Lists.StdSort (fun a b => at' F.ordering a < at' F.ordering b) (Map.keys F.ports) o
  else o = .throw .outOfRange ∨ F.ports.length ≤ 1 ∧ o = .ok (Map.keys F.ports)

/-- What stands for the type in the declaration (src/codegen.cc:643-665): nothing is emitted for a
DPI function or a built-in. -/
inductive Decl where
  | nothing
  | task
  | void
  | logic (width : Nat)
  deriving DecidableEq, Repr

/-- The head of the declaration (src/codegen.cc:642-663); `get_width_str` gives the range
`[width-1:0]`. -/
def declType (F : Fn) : Decl :=
  if F.kind = .dpi ∨ F.kind = .builtin then .nothing
  else if F.kind = .task then .task
  else if F.returns then .logic (match F.handler with | some h => h.1 | none => 32)
  else .void

/-- `indexing` (src/expr.cc:2352-2356): keyed by the *text* of the argument. -/
def indexing (ordering : Map Name Nat) (args : List (Name × Arg)) : Map Name Nat :=
  args.foldl (fun m e => Map.emplace m e.2.text (at' ordering e.1)) []

/-- The texts of the arguments in the order in which the call is printed
(`FunctionCallVar::to_string`, src/expr.cc:2342-2363). -/
def callOrder (F : Fn) (args : Map Name Arg) (o : Res (List Name)) : Prop :=
  if F.ordering = [] then o = .ok (args.map fun e => e.2.text)
  else if (Map.keys args).all (Map.has F.ordering) then
    Lists.StdSort (fun a b => at' (indexing F.ordering args) a < at' (indexing F.ordering args) b)
      (args.map fun e => e.2.text) o
  else o = .throw .outOfRange

/-! ## Specification -/

/-- SystemVerilog binds the k-th argument of the text to the k-th port of the declaration: every
port gets the argument that the call names for it, and nothing is left over. -/
def Binds (args : List (Name × Arg)) (formals : List Name) (actuals : List Name) : Prop :=
  Kinds.All2 (fun n t => ∃ a, (n, a) ∈ args ∧ a.text = t) formals actuals

/-- The histories. -/
def Reach (g : Gen) : Prop := ∃ os, run empty os = .ok g

/-- Arguments of equal text stand next to each other. -/
def Adjacent (l : List Name) : Prop :=
  ∀ (i j k : Nat) (a b c : Name), i < j → j < k → l[i]? = some a → l[j]? = some b → l[k]? = some c → a = c → b = a

/-- The ordering gives no place twice. -/
def Distinct (F : Fn) : Prop :=
  ∀ a b i, (a, i) ∈ F.ordering → (b, i) ∈ F.ordering → a = b

/-- What a user expects of calls: an accepted call is printed so that every port gets its
argument. -/
def BindClaim : Prop :=
  ∀ g F f args c fs ts, Reach g → (f, F) ∈ g.funcs → callNamed g f args = .ok c →
    declOrder F (.ok fs) → callOrder F c.args (.ok ts) → Binds args fs ts

/-- What a user expects of built-ins: the arguments are printed in the order given. -/
def PosClaim : Prop :=
  ∀ g F f args c ts, Reach g → (f, F) ∈ g.funcs → callPos g f args = .ok c →
    callOrder F c.args (.ok ts) → ts = args.map (·.text)

/-- What a user expects of the table: a visitor meets every function exactly once. -/
def ChildrenClaim : Prop :=
  ∀ g, Reach g → (children g).Perm ((Map.keys g.funcs).map some)

/-- What a user expects of an accepted call: its arguments are those of the function. -/
def ArgsClaim : Prop :=
  ∀ g F f args c, Reach g → (f, F) ∈ g.funcs → callNamed g f args = .ok c →
    ∀ n, n ∈ args.map (·.1) ↔ n ∈ F.ports.map (·.1)

/-- What a user expects of a call of a function that is emitted: the expression has the type of
the declaration (`logic [w-1:0]` is unsigned in SystemVerilog). -/
def TypeClaim : Prop :=
  ∀ g F f args c, Reach g → (f, F) ∈ g.funcs → F.kind = .plain ∨ F.kind = .task →
    callNamed g f args = .ok c → ∃ w, declType F = .logic w ∧ c.width = w ∧ c.signed = false

/-- What a user expects of built-ins: a call has as many arguments as the function takes. -/
def ArityClaim : Prop :=
  ∀ g F f args c i, Reach g → (f, F) ∈ g.funcs → callPos g f args = .ok c →
    builtinInfo f = some i → i.min ≤ args.length ∧ args.length ≤ i.max

end Kratos.Func
