import Verif.Opt.Model
import Verif.Util.Clog2

/-!
# Model: finite state machines (`src/fsm.cc`)

Objects live in a `World`: numbered `FSM` and `FSMState` objects, given by total functions plus
counters.  Guards are 1-bit expressions together with the identity of the `Var` object (`next`
compares pointers).  Not modelled here: debug information (the documents are in `Verif/Fsm/Diagram.lean`),
`realized_` (a second `realize` does nothing), and FSMs whose parent links form a cycle (the C++
loops do not terminate on those).
-/

namespace Kratos.Fsm
open Kratos.Ir

abbrev SId := Nat
abbrev FId := Nat

/-- A guard: object identity and expression. -/
structure Guard where
  id : Nat
  e : Expr

/-- The `Var*` stored as the value of an output: null, the output itself, or another value. -/
inductive OutVal where
  | null
  | self
  | val (e : Expr)

/-- An output variable and what is stored for it. -/
structure Out where
  v : VarId
  w : Nat
  x : OutVal

/-- `FSMState`, src/fsm.hh:97-140. -/
structure StateObj where
  name : String
  fsm : FId
  /-- `transitions_` -/
  trans : List (Option Guard × SId)
  /-- `output_values_`, in the order of `output_ordering_` -/
  outs : List Out

/-- `FSM`, src/fsm.hh:10-95. -/
structure FsmObj where
  gen : Nat
  name : String
  parent : Option FId
  /-- `child_fsms_` -/
  kids : List FId
  /-- `states_`: a `std::map`, kept in the order of the names -/
  own : List SId
  /-- `outputs_`: variable and default (`null` when there is none), in iteration order -/
  decl : List Out
  start : Option SId

structure World where
  S : SId → StateObj
  F : FId → FsmObj
  nS : Nat
  nF : Nat

def upd {α : Type} (f : Nat → α) (i : Nat) (a : α) : Nat → α := fun j => if j = i then a else f j

/-! ### Construction -/

/-- `while (fsm && fsm != top) fsm = fsm->parent_fsm();` and the test that follows it
(src/fsm.cc:74-78, 657-661).  `n` bounds the number of steps. -/
def below (W : World) : Nat → FId → FId → Bool
  | 0, _, _ => false
  | n + 1, top, f =>
    if f = top then true
    else match (W.F f).parent with
      | none => false
      | some p => below W n top p

/-- `while (parent->parent_fsm()) parent = parent->parent_fsm();`, src/fsm.cc:655. -/
def root (W : World) : Nat → FId → FId
  | 0, f => f
  | n + 1, f => match (W.F f).parent with
      | none => f
      | some p => root W n p

/-- `Generator::fsm`, src/generator.cc:277-283: the name must be new in the generator. -/
def newFsm (W : World) (gen : Nat) (name : String) : Res World :=
  if (List.range W.nF).any (fun f => (W.F f).gen == gen && (W.F f).name == name) then .throw .user
  else .ok { W with
    F := upd W.F W.nF ⟨gen, name, none, [], [], [], none⟩
    nF := W.nF + 1 }

/-- Insert into a `std::map` keyed by the state name. -/
def insertByName (W : World) (s : SId) (name : String) : List SId → List SId
  | [] => [s]
  | t :: l => if name < (W.S t).name then s :: t :: l else t :: insertByName W s name l

/-- `FSM::add_state`, src/fsm.cc:463-470. -/
def addState (W : World) (f : FId) (name : String) : Res World :=
  if (W.F f).own.any (fun s => (W.S s).name == name) then .throw .user
  else .ok { W with
    S := upd W.S W.nS ⟨name, f, [], []⟩
    F := upd W.F f { W.F f with own := insertByName W W.nS name (W.F f).own }
    nS := W.nS + 1 }

/-- `FSM::add_child_fsm`, src/fsm.cc:46-55.  `child_fsms_` is keyed by name. -/
def addChild (W : World) (p c : FId) : Res World :=
  if (W.F c).gen ≠ (W.F p).gen then .throw .user
  else
    let F1 := upd W.F p { W.F p with
      kids := if (W.F p).kids.any (fun k => (W.F k).name == (W.F c).name) then (W.F p).kids
              else (W.F p).kids ++ [c] }
    .ok { W with F := upd F1 c { F1 c with parent := some p, start := none } }

/-- `FSM::output`, src/fsm.cc:452-462 (`emplace` keeps an existing entry). -/
def declOutput (W : World) (f : FId) (o : Out) : Res World :=
  if (W.F f).decl.any (fun d => d.v == o.v) then .ok W
  else .ok { W with F := upd W.F f { W.F f with decl := (W.F f).decl ++ [o] } }

/-- `FSM::set_start_state`, src/fsm.cc:489-491. -/
def setStart (W : World) (f : FId) (s : SId) : Res World :=
  .ok { W with F := upd W.F f { W.F f with start := some s } }

/-- Same `Var*` in a transition list (`find_match`, src/fsm.cc:668-673). -/
def hasGuard (g : Option Nat) (trans : List (Option Guard × SId)) : Bool :=
  trans.any (fun p => (p.1.map Guard.id) == g)

/-- `FSMState::next`, src/fsm.cc:646-690; `t = none` is a null target.  The climbing loops run at
most `n` steps. -/
def next (n : Nat) (W : World) (s : SId) (t : Option SId) (cond : Option Guard) : Res World :=
  match t with
  | none => .throw .user
  | some t =>
    if below W n (root W n (W.S s).fsm) (W.S t).fsm = false then .throw .user
    else
      let add := { W with S := upd W.S s { W.S s with trans := (W.S s).trans ++ [(cond, t)] } }
      match cond with
      | none => .ok add
      | some g =>
        if hasGuard none (W.S s).trans then .throw .user
        else if g.e.width ≠ 1 then .throw .var
        else if hasGuard (some g.id) (W.S s).trans then .throw .user
        else .ok add

/-- `FSMState::output` on the list of values, src/fsm.cc:699-709. -/
def pushOut (outs : List Out) (o : Out) : Res (List Out) :=
  if outs.any (fun d => d.v == o.v) then .throw .var else .ok (outs ++ [o])

def stateOutput (W : World) (s : SId) (o : Out) : Res World :=
  (pushOut (W.S s).outs o).bind fun l => .ok { W with S := upd W.S s { W.S s with outs := l } }

inductive Call where
  | newFsm (gen : Nat) (name : String)
  | addState (f : FId) (name : String)
  | addChild (p c : FId)
  | declOutput (f : FId) (o : Out)
  | setStart (f : FId) (s : SId)
  | next (n : Nat) (s : SId) (t : Option SId) (cond : Option Guard)
  | stateOutput (s : SId) (o : Out)

def call (W : World) : Call → Res World
  | .newFsm g n => newFsm W g n
  | .addState f n => addState W f n
  | .addChild p c => addChild W p c
  | .declOutput f o => declOutput W f o
  | .setStart f s => setStart W f s
  | .next n s t c => next n W s t c
  | .stateOutput s o => stateOutput W s o

/-! ### Realization -/

/-- The filter of `get_all_child_states(false)` on transition targets, src/fsm.cc:71-81. -/
def succs (W : World) (top : FId) (s : SId) : List SId :=
  ((W.S s).trans.map Prod.snd).filter (fun t => below W (W.nF + 1) top (W.S t).fsm)

/-- `FSM::get_all_child_states(false)`, src/fsm.cc:57-86: breadth-first search with `n` iterations
of the loop allowed; `visited` and `result` have the same elements. -/
def bfs (W : World) (top : FId) : Nat → List SId → List SId → Option (List SId)
  | _, [], res => some res
  | 0, _ :: _, _ => none
  | n + 1, s :: q, res =>
    if s ∈ res then bfs W top n q res
    else bfs W top n (q ++ succs W top s) (res ++ [s])

/-- The states to realize: all own states go into the queue first, src/fsm.cc:63-65. -/
def allStates (W : World) (top : FId) (n : Nat) : Option (List SId) :=
  bfs W top n (W.F top).own []

/-- Name in the enum, src/fsm.cc:107-113. -/
def stateName (W : World) (top : FId) (s : SId) : String :=
  if (W.F top).kids.isEmpty then (W.S s).name
  else (W.F (W.S s).fsm).name ++ "_" ++ (W.S s).name

/-- `raw_def.emplace(state_name, count++)`, src/fsm.cc:114: an existing name keeps its value. -/
def rawDef : List String → Nat → List (String × Nat) → List (String × Nat)
  | [], _, d => d
  | n :: ns, c, d => rawDef ns (c + 1) (if (d.lookup n).isSome then d else d ++ [(n, c)])

/-- Declared outputs without a value get the FSM's default or are an error,
src/fsm.cc:732-742. -/
def fillOutputs : List Out → List Out → Res (List Out)
  | [], outs => .ok outs
  | d :: ds, outs =>
    if outs.any (fun o => o.v == d.v) then fillOutputs ds outs
    else match d.x with
      | .null => .throw .var
      | _ => (pushOut outs d).bind fun outs => fillOutputs ds outs

/-- `FSMState::check_outputs`, src/fsm.cc:730-752. -/
def checkOutputs (decl outs : List Out) : Res (List Out) :=
  (fillOutputs decl outs).bind fun outs =>
    if outs.all (fun o => decl.any (fun d => d.v == o.v)) then .ok outs else .throw .var

/-- The remaining inputs of `realize`: the state variables it creates, and the reset signal. -/
structure Cfg where
  cs : VarId
  ns : VarId
  rst : VarId
  rstW : Nat
  rstIsPort : Bool
  /-- `Port::active_high()` -/
  rstActiveHigh : Option Bool
  /-- `reset_high_` -/
  resetHigh : Bool
  moore : Bool

/-- src/fsm.cc:160-168. -/
def resetLow (c : Cfg) : Bool :=
  c.rstIsPort && (c.rstActiveHigh == some false || !c.resetHigh)

/-- Everything `realize` fixes before it emits statements. -/
structure Plan where
  states : List SId
  /-- number of bits of the state register -/
  w : Nat
  /-- the enum definition -/
  defs : List (String × Nat)
  name : SId → String
  /-- output values after `check_outputs` -/
  outs : SId → List Out

/-- `state_name_mapping.at(t)` followed by `enum_def.get_enum`, src/fsm.cc:355-357. -/
def encode (p : Plan) (t : SId) : Res Nat :=
  if t ∈ p.states then
    match p.defs.lookup (p.name t) with
    | some v => .ok v
    | none => .throw .user
  else .throw .outOfRange

/-- `FSM::get_next_state_stmt`, src/fsm.cc:351-367. -/
def nextStmt (c : Cfg) (p : Plan) (t : SId) : Res Stmt :=
  (encode p t).bind fun v => .ok (.assign false ⟨c.ns, 0, p.w⟩ (.const p.w v))

/-- The argument for output `d`: the stored value, or the output itself when it is null
(src/fsm.cc:375-377). -/
def argExpr (d : Out) : OutVal → Expr
  | .val e => e
  | _ => .var d.v d.w

/-- The arguments of a call to the Mealy output function: one per output of the top FSM
(`get_func_def`, src/fsm.cc:221-240; `get_func_call_stmt`, 368-383).  A missing output or a width
mismatch makes the `FunctionCallStmt` constructor throw (src/stmt.cc:860-877). -/
def callArgs (outs : List Out) : List Out → Res (List (VarId × Nat × Expr))
  | [] => .ok []
  | d :: ds =>
    match outs.find? (fun o => o.v == d.v) with
    | none => .throw .var
    | some o =>
      if (argExpr d o.x).width ≠ d.w then .throw .var
      else (callArgs outs ds).bind fun l => .ok ((d.v, d.w, argExpr d o.x) :: l)

/-- A call statement.  It is the uninterpreted statement number `t`: the call that shows the
outputs of state `t`; its meaning is `Spec.callSem`. -/
def callStmt (W : World) (top : FId) (p : Plan) (t : SId) : Res Stmt :=
  (callArgs (p.outs t) (W.F top).decl).bind fun _ => .ok (.other t)

/-- One `if` of the chain: guard and then-body, src/fsm.cc:289-317. -/
def links (W : World) (top : FId) (c : Cfg) (p : Plan) :
    List (Option Guard × SId) → Res (List (Expr × Stmts))
  | [] => .ok []
  | (none, _) :: l => links W top c p l
  | (some g, t) :: l =>
    (nextStmt c p t).bind fun a =>
    (if c.moore then .ok Stmts.nil
     else (callStmt W top p t).bind fun s => .ok (.cons s .nil)).bind fun rest =>
    (links W top c p l).bind fun ls => .ok ((g.e, .cons a rest) :: ls)

/-- The chain `if … else if … else e`. -/
def chain : List (Expr × Stmts) → Stmts → Stmts
  | [], e => e
  | (g, b) :: l, e => .cons (.ite g b (chain l e)) .nil

/-- Append to the then-body of the last `if`. -/
def addLast (s : Stmts) : List (Expr × Stmts) → List (Expr × Stmts)
  | [] => []
  | [(g, b)] => [(g, b ++ s)]
  | p :: l => p :: addLast s l

/-- `default_state`: the target of the last unconditional transition, src/fsm.cc:283-287. -/
def defaultOf : List (Option Guard × SId) → Option SId
  | [] => none
  | (none, t) :: l => (defaultOf l).orElse (fun _ => some t)
  | (some _, _) :: l => defaultOf l

/-- The body of one case of the transition logic, src/fsm.cc:262-339.  With a default but no guard,
`if_` is a null pointer when its else branch is extended (line 324). -/
def stateBody (W : World) (top : FId) (c : Cfg) (p : Plan) (trans : List (Option Guard × SId)) :
    Res Stmts :=
  match trans with
  | [(none, t)] => (nextStmt c p t).bind fun a => .ok (.cons a .nil)
  | trans =>
    (links W top c p trans).bind fun ls =>
    match defaultOf trans with
    | some t =>
      (nextStmt c p t).bind fun a =>
      if ls.isEmpty then .ub
      else if c.moore then .ok (chain ls (.cons a .nil))
      else (callStmt W top p t).bind fun s =>
        .ok (chain (addLast (.cons s .nil) ls) (.cons a .nil))
    | none => if ls.isEmpty then .throw .user else .ok (chain ls .nil)

/-- All cases: encoding and body of each state. -/
def stateCases (W : World) (top : FId) (c : Cfg) (p : Plan) : List SId → Res (List (Int × Stmts))
  | [] => .ok []
  | s :: l =>
    (encode p s).bind fun v =>
    (stateBody W top c p (W.S s).trans).bind fun b =>
    (stateCases W top c p l).bind fun cs => .ok (((v : Nat), b) :: cs)

/-- `SwitchStmt::body_.size()`. -/
def numCases : Cases → Nat
  | .nil => 0
  | .cons _ _ cs => numCases cs + 1

/-- `is_2_power` on a container size. -/
def sizeIsPow2 (n : Nat) : Bool := Util.is2Power (BitVec.ofNat 64 n)

/-- `FSM::generate_state_transition`, src/fsm.cc:250-349. -/
def genTransition (W : World) (top : FId) (c : Cfg) (p : Plan) : Res Stmts :=
  (stateCases W top c p p.states).bind fun l =>
    let cases := l.foldl (fun cs q => Opt.addCase cs (some q.1) q.2) .nil
    let stay : Stmt := .assign false ⟨c.ns, 0, p.w⟩ (.var c.cs p.w)
    let cases := if sizeIsPow2 (numCases cases) then cases
                 else Opt.addCase cases none (.cons stay .nil)
    .ok (.cons stay (.cons (.switch (.var c.cs p.w) cases) .nil))

/-- Assignments of one state, src/fsm.cc:409-429: null and self values assign nothing. -/
def outStmts : List Out → Stmts
  | [] => .nil
  | ⟨v, w, .val e⟩ :: l => .cons (.assign false ⟨v, 0, w⟩ e) (outStmts l)
  | _ :: l => outStmts l

/-- The cases of the output logic: states with nothing to assign get no case, src/fsm.cc:431-436. -/
def outCases (p : Plan) : List SId → Res (List (Int × Stmts))
  | [] => .ok []
  | s :: l =>
    (encode p s).bind fun v =>
    (outCases p l).bind fun cs =>
      match outStmts (p.outs s) with
      | .nil => .ok cs
      | b => .ok (((v : Nat), b) :: cs)

/-- `FSM::generate_output`, src/fsm.cc:385-441.  The named block of each case has the state's enum
name in it; `add_named_block` (src/generator.cc:1299) rejects a name that is already taken, so two
states with the same enum name and outputs make it throw (as does a state called `default` next to
a default case, which is not modelled). -/
def genOutput (c : Cfg) (p : Plan) (start : SId) : Res Stmts :=
  (outCases p p.states).bind fun l =>
    if (l.map Prod.fst).Nodup then
      let cases := l.foldl (fun cs q => Opt.addCase cs (some q.1) q.2) .nil
      let cases := if sizeIsPow2 p.defs.length then cases
        else match outStmts (p.outs start) with
          | .nil => cases
          | b => Opt.addCase cases none b
      .ok (.cons (.switch (.var c.cs p.w) cases) .nil)
    else .throw .generator

/-- The register block, src/fsm.cc:155-199. -/
def seqStmt (c : Cfg) (p : Plan) (start : Nat) : Stmt :=
  let pred : Expr := if resetLow c then .un .not (.var c.rst c.rstW) else .var c.rst c.rstW
  .ite pred (.cons (.assign true ⟨c.cs, 0, p.w⟩ (.const p.w start)) .nil)
    (.cons (.assign true ⟨c.cs, 0, p.w⟩ (.var c.ns p.w)) .nil)

/-- `check_outputs` of every state, src/fsm.cc:117. -/
def checkAll (W : World) : List SId → Res (List (List Out))
  | [] => .ok []
  | s :: l =>
    (checkOutputs (W.F (W.S s).fsm).decl (W.S s).outs).bind fun o =>
    (checkAll W l).bind fun os => .ok (o :: os)

/-- Position of a state in the list gives its checked outputs. -/
def outsOf (states : List SId) (os : List (List Out)) (s : SId) : List Out :=
  ((states.zip os).lookup s).getD []

structure Realized where
  start : SId
  plan : Plan
  /-- the `always_ff` body -/
  seq : Stmt
  /-- the `always_comb` body computing the next state -/
  comb : Stmts
  /-- the `always_comb` body computing the outputs (Moore only) -/
  out : Stmts

/-- `FSM::realize`, src/fsm.cc:88-217, on the states found by the search.  The width is
`max(1, ceil(log2 n))`. -/
def realize (W : World) (top : FId) (c : Cfg) (states : List SId) : Res Realized :=
  if states.isEmpty then .throw .user
  else match (W.F top).start with
  | none => .throw .user
  | some start =>
    (checkAll W states).bind fun os =>
    let p : Plan :=
      { states := states
        w := max 1 (Util.ceilLog2 states.length)
        defs := rawDef (states.map (stateName W top)) 0 []
        name := stateName W top
        outs := outsOf states os }
    (encode p start).bind fun sv =>
    (genTransition W top c p).bind fun comb =>
    (if c.moore then genOutput c p start else .ok .nil).bind fun out =>
    .ok ⟨start, p, seqStmt c p sv, comb, out⟩

end Kratos.Fsm
