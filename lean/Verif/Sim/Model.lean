import Verif.Ir.Reads
import Verif.Eval.Props
import Verif.Slice.Model
import Verif.Util.Map

/-!
# The simulator

`src/sim.cc`.  Scalars only: `complex_values_` (arrays) is not modelled, nor is a slice indexed by a
variable.  Expressions are unsigned.  `eval()` (src/sim.cc:537-548) takes a reference to the front
of the queue, pops it and then uses it; the model reads the pair before popping.
-/

namespace Kratos.Sim

open Kratos.Ir

abbrev U64 := Eval.U64
abbrev Vals := VarId → Option U64

/-- Unary operators as `eval_unary_op` receives them. -/
def evUn : UnOp → Eval.UnOp
  | .invert => .invert | .minus => .minus | .plus => .plus | .or => .or | .not => .not
  | .and => .and | .xor => .xor

/-- Binary operators as `eval_bin_op` receives them. -/
def evBin : BinOp → Eval.BinOp
  | .add => .add | .minus => .minus | .divide => .divide | .multiply => .multiply | .mod => .mod
  | .lshr => .lshr | .sshr => .sshr | .shl => .shl | .or => .or | .and => .and | .xor => .xor
  | .power => .power | .land => .land | .lor => .lor | .lt => .lt | .gt => .gt | .le => .le
  | .ge => .ge | .eq => .eq | .neq => .neq

/-- `is_unary_op` (src/expr.cc:46-51): reduction `&` is missing; `-x` is built as a `Minus` node
without right operand (src/expr.cc:65-67), which is not in the set either. -/
def isUnary : UnOp → Bool
  | .and => false
  | .minus => false
  | _ => true

/-- How a node is evaluated: its value; the value of the root below a chain of slices; or one of the
operands of a concatenation, with what has been collected so far. -/
inductive Mode where
  | value
  | root
  | spine (acc : U64) (shift : Nat)

/-- The slices between a node and its root, outermost selection first (`get_slice_index`,
src/sim.cc:477-499). -/
def chain : Expr → List (Nat × Nat)
  | .slice e hi lo => chain e ++ [(hi, lo)]
  | _ => []

def rootWidth : Expr → Nat
  | .slice e _ _ => rootWidth e
  | e => e.width

/-- The slice case of `get_value_` (src/sim.cc:238-248). -/
def readSlice (w : Nat) (cs : List (Nat × Nat)) (v : U64) : Res U64 :=
  (Slice.computeHighLow ⟨w, [1], false⟩ cs).bind fun hl =>
    if hl.1 + 1 - hl.2 > w then .throw .user
    else
      if hl.2 / w ≠ 0 then .ub      -- `values[base]` past the end
      else
        (Eval.shr v (hl.2 % w)).bind fun s =>
        (Eval.shl Eval.MASK (hl.1 % w + 1)).bind fun m => .ok (s &&& ~~~ m)

/-- One operand of a concatenation (src/sim.cc:776-784). -/
def concatStep (acc v : U64) (shift : Nat) : Res U64 :=
  (Eval.shl v shift).bind fun s => .ok (acc ||| s)

/-- Finish a node in the mode it is evaluated in. -/
def finish (m : Mode) (r : Res (Option U64)) : Res (Option U64) :=
  match m with
  | .spine acc sh => r.bind fun
    | none => .ok none
    | some v => (concatStep acc v sh).bind fun x => .ok (some x)
  | _ => r

/-- `cond` node (src/sim.cc:808-816): an unknown predicate yields the right operand; an unknown right
operand is dereferenced. -/
def condResult (l : U64) (r p : Option U64) (w : Nat) : Res (Option U64) :=
  match p with
  | none => .ok r
  | some pv =>
    match r with
    | none => .ub
    | some rv => (Eval.evalTernary (pv != 0) l rv w).bind fun x => .ok (some x)

/-- `get_value_` and `eval_expr` on scalars (src/sim.cc:199-279, 766-837). -/
def simE (cpow : U64 → U64 → Res U64) (vals : Vals) : Mode → Expr → Res (Option U64)
  | m, .var v _ => finish m (.ok (vals v))
  | .root, .const _ _ => .ub                 -- get_value_(var) calls itself for ever (src/sim.cc:222-223)
  | m, .const _ c => finish m (.ok (some (BitVec.ofInt 64 c)))
  | .root, .slice e _ _ => simE cpow vals .root e
  | m, .slice e hi lo => finish m ((simE cpow vals .root e).bind fun
      | none => .ok none
      | some v => (readSlice (rootWidth e) (chain (.slice e hi lo)) v).bind fun x => .ok (some x))
  | m, .un op e => finish m ((simE cpow vals .value e).bind fun
      | none => .ok none
      | some v =>
        if isUnary op then
          (Eval.evalUnary v (evUn op) (Expr.un op e).width).bind fun x => .ok (some x)
        else .ok none)
  | m, .bin op l r => finish m ((simE cpow vals .value l).bind fun
      | none => .ok none
      | some a => (simE cpow vals .value r).bind fun
        | none => .ok none
        | some b =>
          (Eval.evalBin cpow a b (evBin op) (Expr.bin op l r).width false).bind fun x => .ok (some x))
  | m, .cond p l r => finish m ((simE cpow vals .value l).bind fun
      | none => .ok none
      | some a => (simE cpow vals .value r).bind fun b =>
          (simE cpow vals .value p).bind fun c => condResult a b c (Expr.cond p l r).width)
  | .spine acc sh, .concat l r => (simE cpow vals (.spine acc sh) r).bind fun
      | none => .ok none
      | some acc' => simE cpow vals (.spine acc' (sh + r.width)) l
  | _, .concat l r => (simE cpow vals (.spine 0 0) r).bind fun
      | none => .ok none
      | some acc' => simE cpow vals (.spine acc' r.width) l
  | m, .extend _ e => finish m (simE cpow vals .value e)
  | m, .dup _ e => finish m ((simE cpow vals .value e).bind fun
      | none => .ok none
      | some _ => .throw .notImpl)

/-- `Simulator::static_evaluate_expr` (src/sim.cc:723-735). -/
def staticEval (cpow : U64 → U64 → Res U64) (e : Expr) : Res U64 :=
  (simE cpow (fun _ => none) .value e).bind fun
    | none => .throw .user
    | some v => if v.toInt ≤ 0 then .throw .user else .ok v

/-! ## Events -/

/-- The variables a change of which re-evaluates an expression (`get_var_deps`,
src/sim.cc:92-119): the condition of a conditional expression is not among them.  For a slice the
code registers the slice object and links it to the bits of its root (src/sim.cc:121-143); here it
depends on the whole root. -/
def exprDeps : Expr → List VarId
  | .var v _ => [v]
  | .const _ _ => []
  | .slice e _ _ => exprDeps e
  | .un _ e => exprDeps e
  | .bin _ l r => exprDeps l ++ exprDeps r
  | .cond _ l r => exprDeps l ++ exprDeps r
  | .concat l r => exprDeps l ++ exprDeps r
  | .extend _ e => exprDeps e
  | .dup _ e => exprDeps e

mutual
/-- `CombinationBlockVisitor` (src/sim.cc:145-181). -/
def stmtDeps : Stmt → List VarId
  | .assign _ _ r => exprDeps r
  | .ite c t e => exprDeps c ++ (stmtsDeps t ++ stmtsDeps e)
  | .switch t cs => exprDeps t ++ casesDeps cs
  | .for_ _ _ _ _ b => stmtsDeps b
  | _ => []
def stmtsDeps : Stmts → List VarId
  | .nil => []
  | .cons s ss => stmtDeps s ++ stmtsDeps ss
def casesDeps : Cases → List VarId
  | .nil => []
  | .cons _ b cs => stmtsDeps b ++ casesDeps cs
end

/-- Processes: continuous assignments (port connections included), `always_comb` and `always_ff`
blocks (edges: true = posedge). -/
inductive Proc where
  | assign (l : LVal) (r : Expr)
  | comb (b : Stmts)
  | seq (evs : List (Bool × VarId)) (b : Stmts)

def Proc.deps : Proc → List VarId
  | .assign _ r => exprDeps r
  | .comb b => stmtsDeps b
  | .seq evs _ => evs.map Prod.snd

/-- A design: the processes, the widths, and the iteration orders of the hash tables: of the
dependents of a variable and of the pending non-blocking values. -/
structure Design where
  procs : List Proc
  width : VarId → Nat
  order : VarId → List Nat
  nbaOrder : List (LVal × U64) → List (LVal × U64)
  cpow : U64 → U64 → Res U64

/-- The hash tables hold what was inserted (`dependency_`, src/sim.cc:58-90), in some order. -/
structure Design.Ok (D : Design) : Prop where
  order : ∀ v p, p ∈ D.order v ↔ ∃ pr, D.procs[p]? = some pr ∧ v ∈ pr.deps
  nba : ∀ l, (D.nbaOrder l).Perm l

/-- Simulator state (src/sim.hh:36-45): values, event queue, `simulation_depth_`. -/
structure S where
  vals : Vals
  q : List (VarId × Nat)
  depth : Nat

def updV (f : Vals) (v : VarId) (x : U64) : Vals := fun y => if y = v then some x else f y

/-- `trigger_event` (src/sim.cc:501-534); `scope` is the combinational block being run. -/
def trigger (D : Design) (scope : Option Nat) (v : VarId) (s : S) : S :=
  { s with
    q := s.q ++ ((D.order v).filter fun p => decide (scope ≠ some p)).map fun p => (v, p)
    depth := s.depth + 1 }

/-- Is one of the low `w` bits different? (src/sim.cc:333-344) -/
def bitsDiffer (w : Nat) (a b : U64) : Bool := (List.range w).any fun i => (a ^^^ b).getLsbD i

/-- `set_value_` on a whole variable (src/sim.cc:329-348). -/
def setWhole (D : Design) (scope : Option Nat) (v : VarId) (x : U64) (s : S) : S :=
  match s.vals v with
  | some old =>
    if old = x then s
    else
      let s' := { s with vals := updV s.vals v x }
      if bitsDiffer (D.width v) x old then trigger D scope v s' else s'
  | none =>
    let s' := { s with vals := updV s.vals v x }
    if D.width v = 0 then s' else trigger D scope v s'

/-- The new word when a slice is written (src/sim.cc:304-318). -/
def writeSlice (w hi lo : Nat) (old value : U64) : Res U64 :=
  (Slice.computeHighLow ⟨w, [1], false⟩ [(hi, lo)]).bind fun hl =>
    if hl.1 + 1 - hl.2 > w then .throw .user
    else if hl.2 / w ≠ 0 then .ub
    else
      (Eval.shr Eval.MASK (hl.1 + 1)).bind fun m0 =>
      (Eval.shr m0 hl.2).bind fun mask =>
      (Eval.shr Eval.MASK (hl.1 - hl.2 + 1)).bind fun vm =>
      (Eval.shl (value &&& vm) hl.2).bind fun x => .ok ((old &&& ~~~ mask) ||| x)

/-- `set_value_` (src/sim.cc:281-348) on a scalar: the whole variable or a slice of it.  A slice
covering the variable is treated as the variable. -/
def setLVal (D : Design) (scope : Option Nat) (l : LVal) (x : U64) (s : S) : Res S :=
  if l.lo = 0 ∧ l.len = D.width l.v then .ok (setWhole D scope l.v x s)
  else
    let old := (s.vals l.v).getD 0
    (writeSlice (D.width l.v) (l.lo + l.len - 1) l.lo old x).bind fun n =>
      let s' := { s with vals := updV s.vals l.v n }
      .ok (if bitsDiffer (D.width l.v) n old then trigger D scope l.v s' else s')

abbrev Nba := List (LVal × U64)

/-- `nba_values_.emplace` (src/sim.cc:633): keeps an existing entry. -/
def nbaAdd (n : Nba) (l : LVal) (x : U64) : Nba :=
  if n.any fun e => decide (e.1 = l) then n else n ++ [(l, x)]

/-- Comparison of a case label (src/sim.cc:668-675). -/
def caseBits (w : Nat) (c : Int) : Res U64 :=
  (Eval.shr Eval.MASK w).bind fun m => .ok (BitVec.ofInt 64 c &&& m)

mutual
/-- `process_stmt` (src/sim.cc:592-690). -/
def run (D : Design) (scope : Option Nat) : Stmt → S × Nba → Res (S × Nba)
  | .assign nb l r, s => (simE D.cpow s.1.vals .value r).bind fun
      | none => .ok s
      | some x =>
        if nb then .ok (s.1, nbaAdd s.2 l x)
        else (setLVal D scope l x s.1).bind fun s' => .ok (s', s.2)
  | .ite c t e, s => (simE D.cpow s.1.vals .value c).bind fun v =>
      if v.any (· != 0) then runs D scope t s else runs D scope e s
  | .switch tgt cs, s => (simE D.cpow s.1.vals .value tgt).bind fun
      | none => runDefault D scope cs s
      | some v => runCases D scope tgt.width v cs .ok s
  | .for_ _ _ _ _ _, _ => .throw .notImpl
  | .ret _, _ => .throw .notImpl
  | .brk, _ => .throw .notImpl
  | .other _, _ => .throw .notImpl
def runs (D : Design) (scope : Option Nat) : Stmts → S × Nba → Res (S × Nba)
  | .nil, s => .ok s
  | .cons x xs, s => (run D scope x s).bind fun s' => runs D scope xs s'
/-- The default case. -/
def runDefault (D : Design) (scope : Option Nat) : Cases → S × Nba → Res (S × Nba)
  | .nil, s => .ok s
  | .cons none b _, s => runs D scope b s
  | .cons (some _) _ cs, s => runDefault D scope cs s
/-- The case loop: first matching label, otherwise the default (`k`: what the default found so far
does). -/
def runCases (D : Design) (scope : Option Nat) (w : Nat) (v : U64) :
    Cases → (S × Nba → Res (S × Nba)) → S × Nba → Res (S × Nba)
  | .nil, k, s => k s
  | .cons none b cs, _, s => runCases D scope w v cs (fun s => runs D scope b s) s
  | .cons (some c) b cs, k, s => (caseBits w c).bind fun bits =>
      if v = bits then runs D scope b s else runCases D scope w v cs k s
end

/-- Writing back the pending values (src/sim.cc:713-717). -/
def commit (D : Design) : List (LVal × U64) → S → Res S
  | [], s => .ok s
  | (l, x) :: r, s => (setLVal D none l x s).bind fun s' => commit D r s'

/-- The edge test of a sequential block (src/sim.cc:692-710): the level of the changed variable after
the change. -/
def triggered (vals : Vals) (evs : List (Bool × VarId)) (v : VarId) : Bool :=
  evs.any fun e => decide (e.2 = v) &&
    match vals e.2 with
    | none => false
    | some x => if e.1 then x != 0 else x == 0

/-- `process_stmt` on a queued process (src/sim.cc:592-650, 692-720). -/
def runProc (D : Design) (p : Nat) (v : VarId) : Proc → S → Res S
  | .assign l r, s => (run D none (.assign false l r) (s, [])).bind fun s' => .ok s'.1
  | .comb b, s => (runs D (some p) b (s, [])).bind fun s' => .ok s'.1
  | .seq evs b, s =>
    if triggered s.vals evs v then
      (runs D none b (s, [])).bind fun s' => commit D (D.nbaOrder s'.2) s'.1
    else .ok s

/-- `MAX_SIMULATION_DEPTH` (src/sim.hh:8). -/
def maxDepth : Nat := 0xFFFFFFFF

/-- The loop of `eval` (src/sim.cc:537-548); `n` bounds the number of rounds. -/
def evalLoop (D : Design) : Nat → S → Res S
  | 0, s => match s.q with
    | [] => .ok s
    | _ => .ub
  | n + 1, s => match s.q with
    | [] => .ok s
    | (v, p) :: q =>
      if s.depth > maxDepth then .throw .user
      else match D.procs[p]? with
        | none => .ub
        | some pr => (runProc D p v pr { s with q := q }).bind fun s' => evalLoop D n s'

/-- `Simulator::eval`. -/
def eval (D : Design) (n : Nat) (s : S) : Res S := evalLoop D n { s with depth := 0 }

/-- `Simulator::set(var, uint64)` (src/sim.cc:556-559): the value is not truncated. -/
def set (D : Design) (n : Nat) (v : VarId) (x : U64) (s : S) : Res S :=
  eval D n (setWhole D none v x s)

/-- A continuous assignment of a plain constant: what `InitValueVisitor` looks for (src/sim.cc:743-752). -/
def isPullUp : Proc → Bool
  | .assign _ (.const _ _) => true
  | _ => false

/-- `init_pull_up_value` (src/sim.cc:759-763), called by the constructor (src/sim.cc:184-195): the
constant assignments `ps` are executed in the order of the visitor; nothing is evaluated yet. -/
def pullUp (D : Design) : List Nat → S → Res S
  | [], s => .ok s
  | p :: ps, s => match D.procs[p]? with
    | none => .ub
    | some pr => (runProc D p 0 pr s).bind fun s' => pullUp D ps s'

end Kratos.Sim
