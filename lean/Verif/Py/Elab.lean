import Verif.Base

/-!
# Python functions as blocks (property C79)

Models how the body of a Python function becomes the statements of an always block (kratos/pyast.py): loops are unrolled or kept
(`StaticElaborationNodeForVisitor`, 86-290), tests are evaluated or kept (`StaticElaborationNodeIfVisitor`, 293-484, and
`LogicOperatorVisitor`, 26-83), and the transformed function is run to create the statements (`Scope`, 818-960,
`__ast_transform_blocks`, 1040-1130).  The single-assignment conversion is C25.

Expressions other than `and`, `or`, `not` and comparisons are opaque: an atom is what Python's `eval` gives for it, depending on what the
names of loop variables stand for.  Simplifications: building a comparison or assignment of variables always succeeds (widths and signs
are C11 and C33); lists left nested by several static `if`s inside each other, which the printer refuses, are taken to be flattened; the
value 0 that names of kept loops get for later iterables (276) is left out; there is no `while`, `continue`, `pass`, or `return`.
-/

namespace Kratos.Elab

/-- What the name of a loop variable stands for: a number or string of an unrolled loop, or the variable of the loop kept from line `ln`. -/
inductive LV where
  | int (k : Int)
  | str (k : Nat)
  | iter (ln : Nat)
  deriving DecidableEq, Repr

/-- Names bound by loops; names bound elsewhere are part of the atoms. -/
abbrev Env := Nat → Option LV

/-- Values of the variables of kept loops, by line. -/
abbrev Iter := Nat → Int

/-- A Python value: a hardware variable or expression (its value depends on kept loops and the state), a `bool`, an `int`, or
something else, with 0 for what counts as false. -/
inductive PyVal (S : Type) where
  | var (f : Iter → S → Int)
  | bool (b : Bool)
  | int (k : Int)
  | other (id : Nat)

/-- An expression: its value, and its value if looked up with local and global names exchanged, as
`eval(src, self.local, self.global_)` does (47, 335, 349, 360). -/
structure Atom (S : Type) where
  val : Env → PyVal S
  seen : Env → PyVal S

inductive Op where
  | eq | ne | lt | gt | le | ge
  deriving DecidableEq, Repr

mutual
/-- Tests.  Written by the user: `atom`, `cmp`, `not`, and `and`/`or` of several (`bl`, `true` for `and`).  Made by the visitors: a
comparison as a method call (`meth`), `r_not()`, and `and_()`/`or_()` of two (`call`). -/
inductive C (S : Type) where
  | atom (a : Atom S)
  | cmp (op : Op) (a b : Atom S)
  | nt (c : C S)
  | bl (conj : Bool) (cs : Cs S)
  | meth (op : Op) (a b : Atom S)
  | rnot (c : C S)
  | call (conj : Bool) (a b : C S)
inductive Cs (S : Type) where
  | nil
  | cons (c : C S) (cs : Cs S)
end

/-- An assignment: the update, if the statement can be created. -/
abbrev Act (S : Type) := Env → Option (Iter → S → S)

/-- The body of a function.  `loop`: `for x in it`, on line `ln`; `it` is the list of values and whether it is a `range`. -/
inductive P (S : Type) where
  | nil
  | act (a : Act S) (rest : P S)
  | ite (c : C S) (t e rest : P S)
  | loop (x ln : Nat) (it : Env → Option (Bool × List LV)) (body rest : P S)
  | brk (rest : P S)

variable {S : Type}

/-! ### Specification: what the function says -/

/-- A value in a state: a number or something else. -/
inductive Num where
  | n (k : Int)
  | o (id : Nat)
  deriving DecidableEq, Repr

def num (ι : Iter) (s : S) : PyVal S → Num
  | .var f => .n (f ι s)
  | .bool b => .n (if b then 1 else 0)
  | .int k => .n k
  | .other id => .o id

def Num.true? : Num → Bool
  | .n k => k != 0
  | .o id => id != 0

/-- Comparisons; things other than numbers are only compared for equality. -/
def Op.holds : Op → Num → Num → Bool
  | .eq, a, b => a == b
  | .ne, a, b => a != b
  | .lt, .n a, .n b => decide (a < b)
  | .gt, .n a, .n b => decide (a > b)
  | .le, .n a, .n b => decide (a ≤ b)
  | .ge, .n a, .n b => decide (a ≥ b)
  | _, _, _ => false

mutual
/-- Whether a test is true in a state. -/
def truth (ι : Iter) (s : S) (env : Env) : C S → Bool
  | .atom a => (num ι s (a.val env)).true?
  | .cmp op a b => op.holds (num ι s (a.val env)) (num ι s (b.val env))
  | .nt c => !truth ι s env c
  | .bl conj cs => if conj then truthAll ι s env cs else truthAny ι s env cs
  | .meth op a b => op.holds (num ι s (a.val env)) (num ι s (b.val env))
  | .rnot c => !truth ι s env c
  | .call conj a b => if conj then truth ι s env a && truth ι s env b else truth ι s env a || truth ι s env b
def truthAll (ι : Iter) (s : S) (env : Env) : Cs S → Bool
  | .nil => true
  | .cons c cs => truth ι s env c && truthAll ι s env cs
def truthAny (ι : Iter) (s : S) (env : Env) : Cs S → Bool
  | .nil => false
  | .cons c cs => truth ι s env c || truthAny ι s env cs
end

/-- No loop is kept when the function is simply run. -/
def noIter : Iter := fun _ => 0

def set (env : Env) (x : Nat) (v : LV) : Env := fun y => if y = x then some v else env y

/-- The result of running statements: the state, the names, and whether `break` was reached. -/
structure Out (S : Type) where
  s : S
  env : Env
  br : Bool

def runL (body : Env → S → Out S) (x : Nat) : List LV → Env → S → Out S
  | [], env, s => ⟨s, env, false⟩
  | v :: vs, env, s =>
    let o := body (set env x v) s
    if o.br then ⟨o.s, o.env, false⟩ else runL body x vs o.env o.s

/-- Running the function. -/
def run : P S → Env → S → Out S
  | .nil, env, s => ⟨s, env, false⟩
  | .act a r, env, s => run r env (match a env with | some f => f noIter s | none => s)
  | .ite c t e r, env, s =>
    let o := if truth noIter s env c then run t env s else run e env s
    if o.br then o else run r o.env o.s
  | .loop x _ it body r, env, s =>
    let o := runL (run body) x (match it env with | some (_, vs) => vs | none => []) env s
    run r o.env o.s
  | .brk _, env, s => ⟨s, env, true⟩

/-! ### Model: tests -/

/-- What `eval` does: a value, the exception for using a variable as a `bool`, or another one. -/
inductive Ev (S : Type) where
  | val (v : PyVal S)
  | conv
  | fail

/-- Truth of a Python value; variables refuse, python/kratos_expr.cc:393-396. -/
def PyVal.truth? : PyVal S → Option Bool
  | .var _ => none
  | .bool b => some b
  | .int k => some (k != 0)
  | .other id => some (id != 0)

def isVar : PyVal S → Bool
  | .var _ => true
  | _ => false

/-- Numbers as far as the bindings accept them. -/
def toNum : PyVal S → Option (Iter → S → Int)
  | .var f => some f
  | .bool b => some fun _ _ => if b then 1 else 0
  | .int k => some fun _ _ => k
  | .other _ => none

def Op.int : Op → Int → Int → Bool
  | .eq, a, b => a == b
  | .ne, a, b => a != b
  | .lt, a, b => decide (a < b)
  | .gt, a, b => decide (b < a)
  | .le, a, b => decide (a ≤ b)
  | .ge, a, b => decide (b ≤ a)

/-- A comparison of two values, python/kratos_expr.cc:293-392: with a variable it is a variable. -/
def compare (op : Op) (a b : PyVal S) : Ev S :=
  if isVar a || isVar b then
    match toNum a, toNum b with
    | some f, some g => .val (.var fun ι s => if op.int (f ι s) (g ι s) then 1 else 0)
    | _, _ => .fail
  else match a, b with
    | .other i, .other j => match op with
      | .eq => .val (.bool (i == j))
      | .ne => .val (.bool (i != j))
      | _ => .fail
    | .other _, _ => match op with
      | .eq => .val (.bool false)
      | .ne => .val (.bool true)
      | _ => .fail
    | _, .other _ => match op with
      | .eq => .val (.bool false)
      | .ne => .val (.bool true)
      | _ => .fail
    | .int j, .int k => .val (.bool (op.int j k))
    | .int j, .bool c => .val (.bool (op.int j (if c then 1 else 0)))
    | .bool b, .int k => .val (.bool (op.int (if b then 1 else 0) k))
    | .bool b, .bool c => .val (.bool (op.int (if b then 1 else 0) (if c then 1 else 0)))
    | _, _ => .fail

/-- A comparison written as a method call on the first operand.  Numbers have no `eq`, and return `NotImplemented` for variables. -/
def method (op : Op) (a b : PyVal S) : Ev S :=
  if isVar a then compare op a b else if isVar b || op == .eq then .fail else compare op a b

mutual
/-- `eval` of a test; `look` gives the values of the atoms. -/
def eval (look : Atom S → PyVal S) : C S → Ev S
  | .atom a => .val (look a)
  | .cmp op a b => compare op (look a) (look b)
  | .nt c => match eval look c with
    | .val v => match v.truth? with
      | some b => .val (.bool !b)
      | none => .conv
    | e => e
  | .bl conj cs => evalL look conj cs
  | .meth op a b => method op (look a) (look b)
  | .rnot c => match eval look c with
    | .val (.var f) => .val (.var fun ι s => if f ι s = 0 then 1 else 0)
    | .val _ => .fail
    | e => e
  | .call conj a b => match eval look a with
    | .val (.var f) => match eval look b with
      | .val (.var g) => .val (.var fun ι s =>
          if (if conj then f ι s != 0 && g ι s != 0 else f ι s != 0 || g ι s != 0) then 1 else 0)
      | .val _ => .fail
      | e => e
    | .val _ => .fail
    | e => e
/-- `and` and `or`: the first value that decides, or the last one.  Of no values it prints as `()`. -/
def evalL (look : Atom S → PyVal S) (conj : Bool) : Cs S → Ev S
  | .nil => .fail
  | .cons c .nil => eval look c
  | .cons c cs => match eval look c with
    | .val v => match v.truth? with
      | some b => if b == conj then evalL look conj cs else .val v
      | none => .conv
    | e => e
end

/-- The comparison with operands exchanged (kratos/pyast.py:367-390). -/
def Op.flip : Op → Op
  | .eq => .eq
  | .ne => .ne
  | .lt => .gt
  | .gt => .lt
  | .le => .ge
  | .ge => .le

mutual
/-- `IfPredicateOpTransformer` (kratos/pyast.py:325-405).  For `not` of something that is not a variable it returns nothing, which
removes the node (330-341). -/
def tr (env : Env) : C S → Res (Option (C S))
  | .nt c => match eval (fun a => a.seen env) c with
    | .val (.var _) => .ok (some (.rnot c))
    | .val _ => .ok none
    | _ => .throw .user
  | .cmp op a b =>
    if isVar (a.seen env) then .ok (some (.meth op a b))
    else if isVar (b.seen env) then .ok (some (.meth op.flip b a))
    else .ok (some (.cmp op a b))
  | .bl conj cs => (trL env cs).map fun cs => some (.bl conj cs)
  | c => .ok (some c)
def trL (env : Env) : Cs S → Res (Cs S)
  | .nil => .ok .nil
  | .cons c cs => (tr env c).bind fun o => (trL env cs).map fun cs => match o with
    | some c => .cons c cs
    | none => cs
end

/-- `concat_ops` (kratos/pyast.py:39-50). -/
def concat (conj : Bool) (c : C S) : Cs S → C S
  | .nil => c
  | .cons d ds => concat conj (.call conj c d) ds

mutual
/-- `LogicOperatorVisitor` (kratos/pyast.py:59-83); only the operands of `and` are checked (52-57). -/
def lg (env : Env) : C S → Res (C S)
  | .bl conj cs => (lgL env conj cs).bind fun
    | .nil => .throw .user
    | .cons c cs => .ok (concat conj c cs)
  | .nt c => .ok (.rnot c)
  | .rnot c => (lg env c).map .rnot
  | c => .ok c
def lgL (env : Env) (conj : Bool) : Cs S → Res (Cs S)
  | .nil => .ok .nil
  | .cons c cs => (lg env c).bind fun c =>
    if conj then match eval (fun a => a.seen env) c with
      | .val (.var _) => (lgL env conj cs).map fun cs => .cons c cs
      | _ => .throw .user
    else (lgL env conj cs).map fun cs => .cons c cs
end

/-- A test after `visit_If`: known, or a hardware expression. -/
inductive Test (S : Type) where
  | known (b : Bool)
  | hw (f : Iter → S → Int)

/-- `visit_If` (kratos/pyast.py:414-447), and the evaluation of the predicate when the statement is created (`IfStmt(target)`, 846). -/
def cond (env : Env) (c : C S) : Res (Test S) :=
  (tr env c).bind fun
    | none => .throw .user
    | some c =>
      let dyn := (lg env c).bind fun c => match eval (fun a => a.val env) c with
        | .val (.var f) => .ok (.hw f)
        | _ => .throw .user
      match eval (fun a => a.val env) c with
      | .val (.bool b) => .ok (.known b)
      | .val (.var _) => dyn
      | .conv => dyn
      | _ => .throw .user

/-! ### Model: statements -/

/-- After the first visitor: loops are unrolled or kept; tests and assignments know what the names stand for. -/
inductive F (S : Type) where
  | nil
  | act (a : Act S) (env : Env) (rest : F S)
  | ite (c : C S) (env : Env) (t e rest : F S)
  | loop (ln : Nat) (vals : List Int) (body rest : F S)
  | brk (rest : F S)

def F.append : F S → F S → F S
  | .nil, g => g
  | .act a env r, g => .act a env (r.append g)
  | .ite c env t e r, g => .ite c env t e (r.append g)
  | .loop ln vals b r, g => .loop ln vals b (r.append g)
  | .brk r, g => .brk (r.append g)

/-- A `break` anywhere, also in a loop inside. -/
def P.hasBrk : P S → Bool
  | .nil => false
  | .act _ r => r.hasBrk
  | .ite _ t e r => t.hasBrk || e.hasBrk || r.hasBrk
  | .loop _ _ _ b r => b.hasBrk || r.hasBrk
  | .brk _ => true

/-- The numbers of a `range`. -/
def ints : List LV → List Int
  | [] => []
  | .int k :: l => k :: ints l
  | _ :: l => ints l

/-- Values of an iterable that are neither numbers nor strings are refused (kratos/pyast.py:224-228). -/
def isIter : LV → Bool
  | .iter _ => true
  | _ => false

/-- The body of an unrolled loop, once per value. -/
def unroll (body : Env → Res (F S)) (env : Env) (x : Nat) : List LV → Res (F S)
  | [] => .ok .nil
  | v :: vs => (body (set env x v)).bind fun f => (unroll body env x vs).map fun g => f.append g

/-- `visit_For` (kratos/pyast.py:207-290).  `keep`: not debugging, no unrolling asked for, and the variable is only used as an index of
hardware (238-239, 127-171).  A target that is the variable of a loop around has been replaced and is refused (230-233). -/
def fv (keep : Nat → Env → Bool) : P S → Env → Res (F S)
  | .nil, _ => .ok .nil
  | .act a r, env => (fv keep r env).map fun r => .act a env r
  | .ite c t e r, env => (fv keep t env).bind fun t => (fv keep e env).bind fun e => (fv keep r env).map fun r => .ite c env t e r
  | .brk r, env => (fv keep r env).map fun r => .brk r
  | .loop x ln it b r, env =>
    if (env x).isSome then .throw .user
    else match it env with
      | none => .throw .user
      | some (rng, vs) =>
        if vs.any isIter then .throw .user
        else if rng && keep ln env then
          (fv keep b (set env x (.iter ln))).bind fun b => (fv keep r env).map fun r => .loop ln (ints vs) b r
        else if b.hasBrk && !vs.isEmpty then .throw .user
        else (unroll (fv keep b) env x vs).bind fun b => (fv keep r env).map fun r => b.append r

/-- After the second visitor: tests are evaluated or hardware. -/
inductive R (S : Type) where
  | nil
  | act (f : Iter → S → S) (rest : R S)
  | ite (p : Iter → S → Int) (t e rest : R S)
  | loop (ln : Nat) (vals : List Int) (body rest : R S)
  | brk (rest : R S)

def R.append : R S → R S → R S
  | .nil, g => g
  | .act f r, g => .act f (r.append g)
  | .ite p t e r, g => .ite p t e (r.append g)
  | .loop ln vals b r, g => .loop ln vals b (r.append g)
  | .brk r, g => .brk (r.append g)

/-- The second visitor (kratos/pyast.py:414-484), and `scope.assign` (893-911). -/
def iv : F S → Res (R S)
  | .nil => .ok .nil
  | .act a env r => match a env with
    | some f => (iv r).map fun r => .act f r
    | none => .throw .user
  | .ite c env t e r => (cond env c).bind fun
    | .known true => (iv t).bind fun t => (iv r).map fun r => t.append r
    | .known false => (iv e).bind fun e => (iv r).map fun r => e.append r
    | .hw p => (iv t).bind fun t => (iv e).bind fun e => (iv r).map fun r => .ite p t e r
  | .loop ln vals b r => (iv b).bind fun b => (iv r).map fun r => .loop ln vals b r
  | .brk r => (iv r).map fun r => .brk r

/-- The statements: kept loops are objects, found by their line. -/
inductive K (S : Type) where
  | nil
  | act (f : Iter → S → S) (rest : K S)
  | ite (p : Iter → S → Int) (t e rest : K S)
  | ref (ln : Nat) (rest : K S)
  | brk (rest : K S)

def K.append : K S → K S → K S
  | .nil, g => g
  | .act f r, g => .act f (r.append g)
  | .ite p t e r, g => .ite p t e (r.append g)
  | .ref ln r, g => .ref ln (r.append g)
  | .brk r, g => .brk (r.append g)

/-- `self.scope.for_stmt[index_num] = for_stmt` (kratos/pyast.py:248-253): the loops the first visitor creates, in order; a line may be
met several times, also in branches that are dropped later. -/
def F.made : F S → List (Nat × List Int)
  | .nil => []
  | .act _ _ r => r.made
  | .ite _ _ t e r => t.made ++ e.made ++ r.made
  | .loop ln vals b r => (ln, vals) :: b.made ++ r.made
  | .brk r => r.made

/-- The last one created on a line stays. -/
def range (ln : Nat) (l : List (Nat × List Int)) : List Int :=
  match l.reverse.find? fun x => x.1 == ln with
  | some x => x.2
  | none => []

def R.strip : R S → K S
  | .nil => .nil
  | .act f r => .act f r.strip
  | .ite p t e r => .ite p t.strip e.strip r.strip
  | .loop ln _ _ r => .ref ln r.strip
  | .brk r => .brk r.strip

/-- `scope.for_(…, index).loop(…)` (kratos/pyast.py:865-891): all statements made for a line are added to the one loop of that line. -/
def R.bodies (ln : Nat) : R S → K S
  | .nil => .nil
  | .act _ r => r.bodies ln
  | .ite _ t e r => ((t.bodies ln).append (e.bodies ln)).append (r.bodies ln)
  | .loop ln' _ b r => ((if ln' = ln then b.strip else .nil).append (b.bodies ln)).append (r.bodies ln)
  | .brk r => r.bodies ln

/-- The loops in a list of statements, without those inside other statements. -/
def K.refs : K S → List Nat
  | .nil => []
  | .act _ r => r.refs
  | .ite _ _ _ r => r.refs
  | .ref ln r => ln :: r.refs
  | .brk r => r.refs

/-- No block holds a loop twice, else `StmtBlock::add_stmt` throws (src/stmt.cc:427-429). -/
def K.single : K S → Bool
  | .nil => true
  | .act _ r => r.single
  | .ite _ t e r => decide t.refs.Nodup && decide e.refs.Nodup && t.single && e.single && r.single
  | .ref _ r => r.single
  | .brk r => r.single

/-- The block: its statements and the loops by line. -/
structure Block (S : Type) where
  top : K S
  range : Nat → List Int
  body : Nat → K S

/-- `transform_stmt_block` (kratos/pyast.py:1186-1250) and adding the statements to the block (kratos/generator.py:635-660). -/
def elab_ (keep : Nat → Env → Bool) (p : P S) : Res (Block S) :=
  (fv keep p fun _ => none).bind fun f => (iv f).bind fun r =>
    let B : Block S := ⟨r.strip, fun ln => range ln f.made, fun ln => r.bodies ln⟩
    if B.top.refs.Nodup ∧ B.top.single = true ∧ ∀ x ∈ f.made, (B.body x.1).refs.Nodup ∧ (B.body x.1).single = true then .ok B
    else .throw .stmt

/-! ### Specification: running a block -/

/-- A loop: its variable takes the values one after the other; `break` ends it. -/
def runIter (body : Iter → S → Option (S × Bool)) (ln : Nat) : List Int → Iter → S → Option S
  | [], _, s => some s
  | v :: vs, ι, s => (body (fun l => if l = ln then v else ι l) s).bind fun o => if o.2 then some o.1 else runIter body ln vs ι o.1

/-- Statements; `sub` runs loops.  The result says whether `break` was reached. -/
def K.exec (sub : Nat → Iter → S → Option S) : K S → Iter → S → Option (S × Bool)
  | .nil, _, s => some (s, false)
  | .act f r, ι, s => r.exec sub ι (f ι s)
  | .ite p t e r, ι, s => ((if p ι s ≠ 0 then t.exec sub ι s else e.exec sub ι s)).bind fun o =>
    if o.2 then some o else r.exec sub ι o.1
  | .ref ln r, ι, s => (sub ln ι s).bind fun s => r.exec sub ι s
  | .brk _, _, s => some (s, true)

/-- Loops nested at most `n` deep. -/
def Block.sub (B : Block S) : Nat → Nat → Iter → S → Option S
  | 0, _, _, _ => none
  | n + 1, ln, ι, s => runIter ((B.body ln).exec (B.sub n)) ln (B.range ln) ι s

/-- Running the block ends with the given state. -/
def Block.Runs (B : Block S) (s s' : S) : Prop := ∃ n0, ∀ n, n0 ≤ n → ∃ b, B.top.exec (B.sub n) noIter s = some (s', b)

/-! ### Specification: what is assumed of the function -/

/-- Variables of kept loops replaced by their values. -/
def LV.res (ι : Iter) : LV → LV
  | .iter ln => .int (ι ln)
  | v => v

def res (ι : Iter) (env : Env) : Env := fun x => (env x).map (LV.res ι)

def apply (o : Option (Iter → S → S)) (ι : Iter) (s : S) : S :=
  match o with
  | some f => f ι s
  | none => s

mutual
/-- All expressions of a test have the property. -/
def C.All (q : Atom S → Prop) : C S → Prop
  | .atom a => q a
  | .cmp _ a b => q a ∧ q b
  | .nt c => c.All q
  | .bl _ cs => cs.All q
  | .meth _ a b => q a ∧ q b
  | .rnot c => c.All q
  | .call _ a b => a.All q ∧ b.All q
def Cs.All (q : Atom S → Prop) : Cs S → Prop
  | .nil => True
  | .cons c cs => c.All q ∧ cs.All q
end

/-- With the variable of a kept loop, an expression denotes what it denotes with the value of the variable (slices by a variable: C08;
arithmetic: C11). -/
def Uniform (env : Env) (a : Atom S) : Prop := ∀ ι s, num ι s (a.val env) = num noIter s (a.val (res ι env))

/-- The same for everything in a function, where it is used. -/
def F.Uniform : F S → Prop
  | .nil => True
  | .act a env r => (∀ ι s, apply (a env) ι s = apply (a (res ι env)) noIter s) ∧ r.Uniform
  | .ite c env t e r => c.All (Elab.Uniform env) ∧ t.Uniform ∧ e.Uniform ∧ r.Uniform
  | .loop _ _ b r => b.Uniform ∧ r.Uniform
  | .brk r => r.Uniform

/-- What is iterated over is known without the variables of kept loops; a `range` is a list of numbers. -/
def P.Static : P S → Prop
  | .nil => True
  | .act _ r => r.Static
  | .ite _ t e r => t.Static ∧ e.Static ∧ r.Static
  | .loop _ _ it b r => (∀ env x, it env = some x → (∀ ι, it (res ι env) = some x) ∧ (x.1 = true → x.2 = (ints x.2).map .int)) ∧
      b.Static ∧ r.Static
  | .brk r => r.Static

/-- Depends on the names in `B` only. -/
def Only {α : Type} (B : List Nat) (f : Env → α) : Prop := ∀ env env', (∀ x ∈ B, env x = env' x) → f env = f env'

/-- Names of loop variables are used inside the loop only. -/
def P.Closed : P S → List Nat → Prop
  | .nil, _ => True
  | .act a r, B => Only B a ∧ r.Closed B
  | .ite c t e r, B => c.All (fun a => Only B a.val) ∧ t.Closed B ∧ e.Closed B ∧ r.Closed B
  | .loop x _ it b r, B => Only B it ∧ b.Closed (x :: B) ∧ r.Closed B
  | .brk r, B => r.Closed B

mutual
/-- No operand of `and` or `or` is `not` of something that is not hardware. -/
def C.NoDrop (env : Env) : C S → Prop
  | .bl _ cs => cs.NoDrop env
  | _ => True
def Cs.NoDrop (env : Env) : Cs S → Prop
  | .nil => True
  | .cons c cs => (∀ d, c = .nt d → ∃ f, eval (fun a => a.seen env) d = .val (.var f)) ∧ c.NoDrop env ∧ cs.NoDrop env
end

def F.NoDrop : F S → Prop
  | .nil => True
  | .act _ _ r => r.NoDrop
  | .ite c env t e r => c.NoDrop env ∧ t.NoDrop ∧ e.NoDrop ∧ r.NoDrop
  | .loop _ _ b r => b.NoDrop ∧ r.NoDrop
  | .brk r => r.NoDrop

/-- Full claim: the block does what the function says. -/
def PyClaim : Prop := ∀ (S : Type) (keep : Nat → Env → Bool) (p : P S) (f : F S) (B : Block S), fv keep p (fun _ => none) = .ok f →
  f.Uniform → p.Static → elab_ keep p = .ok B → ∀ s, B.Runs s (run p (fun _ => none) s).s

/-! ### Proof: tests -/

theorem n_beq (j k : Int) : (Num.n j == Num.n k) = (j == k) := by rw [Bool.eq_iff_iff]; simp

theorem o_beq (j k : Nat) : (Num.o j == Num.o k) = (j == k) := by rw [Bool.eq_iff_iff]; simp

theorem compare_truth {op : Op} {a b v : PyVal S} (h : compare op a b = .val v) (ι : Iter) (s : S) :
    (num ι s v).true? = op.holds (num ι s a) (num ι s b) := by
  have hint : ∀ j k, op.holds (.n j) (.n k) = op.int j k := by
    intro j k
    cases op <;> simp only [Op.holds, Op.int, GT.gt, GE.ge, n_beq, bne]
  have hb : ∀ b : Bool, (Num.n (if b = true then 1 else 0)).true? = b := by intro b; cases b <;> rfl
  have ho : ∀ b : Bool, (num ι s (PyVal.bool b : PyVal S)).true? = b := by intro b; cases b <;> rfl
  simp only [compare] at h
  split at h
  · split at h
    · rename_i f g hf hg
      cases h
      have h1 : num ι s a = .n (f ι s) := by cases a <;> cases hf <;> rfl
      have h2 : num ι s b = .n (g ι s) := by cases b <;> cases hg <;> rfl
      rw [h1, h2, hint]
      exact hb _
    · cases h
  · split at h
    · cases op <;> simp only at h <;> cases h <;> rw [ho] <;> simp only [Op.holds, num, o_beq, bne]
    · rename_i c hc
      cases op <;> simp only at h <;> cases h <;> rw [ho] <;> cases b <;> first
        | rfl
        | exact absurd rfl (hc _)
        | simp_all [isVar]
    · rename_i c hc
      cases op <;> simp only at h <;> cases h <;> rw [ho] <;> cases a <;> first
        | rfl
        | exact absurd rfl (hc _)
        | simp_all [isVar]
    · cases h; rw [ho]; exact (hint _ _).symm
    · cases h; rw [ho]; exact (hint _ _).symm
    · cases h; rw [ho]; exact (hint _ _).symm
    · cases h; rw [ho]; exact (hint _ _).symm
    · cases h

theorem truth?_num {v : PyVal S} {b : Bool} (h : v.truth? = some b) (ι : Iter) (s : S) : (num ι s v).true? = b := by
  cases v <;> cases h
  · cases b <;> rfl
  · rfl
  · rfl

theorem flip_holds (op : Op) (a b : Num) : op.flip.holds b a = op.holds a b := by
  cases op <;> cases a <;> cases b <;> simp only [Op.flip, Op.holds, GT.gt, GE.ge, bne, Bool.beq_comm (α := Num)] <;>
    first | rfl | (rw [Bool.eq_iff_iff]; simp [eq_comm])

mutual
theorem eval_truth {env : Env} : ∀ (c : C S) {v : PyVal S}, eval (fun a => a.val env) c = .val v → ∀ ι s,
    (num ι s v).true? = truth ι s env c
  | .atom a, v, h, ι, s => by cases h; rfl
  | .cmp op a b, v, h, ι, s => by rw [truth]; exact compare_truth h ι s
  | .nt c, v, h, ι, s => by
    rw [eval] at h
    split at h
    · rename_i w hw
      split at h
      · rename_i b hb
        cases h
        rw [truth, ← eval_truth c hw ι s, truth?_num hb]
        cases b <;> rfl
      · cases h
    · rename_i h'; exact absurd h (h' v)
  | .bl conj cs, v, h, ι, s => by
    rw [truth]; exact evalL_truth conj cs h ι s
  | .meth op a b, v, h, ι, s => by
    rw [truth]
    simp only [eval, method] at h
    split at h
    · exact compare_truth h ι s
    · split at h
      · cases h
      · exact compare_truth h ι s
  | .rnot c, v, h, ι, s => by
    rw [eval] at h
    split at h
    · rename_i f hf
      cases h
      rw [truth, ← eval_truth c hf ι s]
      simp only [num, Num.true?]
      by_cases h0 : f ι s = 0 <;> simp [h0]
    · cases h
    · rename_i h'; exact absurd h (h' v)
  | .call conj a b, v, h, ι, s => by
    rw [eval] at h
    split at h
    · rename_i f hf
      split at h
      · rename_i g hg
        cases h
        rw [truth, ← eval_truth a hf ι s, ← eval_truth b hg ι s]
        simp only [num, Num.true?]
        cases conj <;> simp <;> split <;> simp_all
      · cases h
      · rename_i h'; exact absurd h (h' v)
    · cases h
    · rename_i h'; exact absurd h (h' v)
theorem evalL_truth {env : Env} (conj : Bool) : ∀ (cs : Cs S) {v : PyVal S}, evalL (fun a => a.val env) conj cs = .val v → ∀ ι s,
    (num ι s v).true? = if conj then truthAll ι s env cs else truthAny ι s env cs
  | .nil, v, h, ι, s => by cases h
  | .cons c .nil, v, h, ι, s => by
    rw [evalL] at h
    rw [eval_truth c h ι s]
    cases conj <;> simp [truthAll, truthAny]
  | .cons c (.cons d ds), v, h, ι, s => by
    rw [evalL] at h
    · split at h
      · rename_i w hw
        split at h
        · rename_i b hb
          have hc : truth ι s env c = b := by rw [← eval_truth c hw ι s, truth?_num hb]
          split at h
          · rename_i hbc
            have hbc : b = conj := by simpa using hbc
            rw [evalL_truth conj (.cons d ds) h ι s, truthAll.eq_2 ι s env c, truthAny.eq_2 ι s env c, hc, hbc]
            cases conj <;> simp
          · rename_i hbc
            have hbc : b = !conj := by cases b <;> cases conj <;> simp_all
            cases h
            rw [eval_truth c hw ι s, truthAll.eq_2 ι s env c, truthAny.eq_2 ι s env c, hc, hbc]
            cases conj <;> simp
        · cases h
      · rename_i h'; exact absurd h (h' v)
    · nofun
end

theorem concat_truth {env : Env} {ι : Iter} {s : S} {conj : Bool} : ∀ (cs : Cs S) (c : C S), truth ι s env (concat conj c cs) =
    if conj then truth ι s env c && truthAll ι s env cs else truth ι s env c || truthAny ι s env cs
  | .nil, c => by cases conj <;> simp [concat, truthAll, truthAny]
  | .cons d ds, c => by
    rw [concat, concat_truth ds]
    cases conj <;> simp [truth, truthAll, truthAny, Bool.and_assoc, Bool.or_assoc]

mutual
theorem lg_truth {env : Env} : ∀ (c : C S) {c' : C S}, lg env c = .ok c' → ∀ ι s, truth ι s env c' = truth ι s env c
  | .bl conj cs, c', h, ι, s => by
    rw [lg, Res.bind_eq_ok] at h
    obtain ⟨ds, hd, h⟩ := h
    obtain ⟨h1, h2⟩ := lgL_truth conj cs hd ι s
    cases ds with
    | nil => cases h
    | cons d ds =>
      cases h
      rw [concat_truth, truth, ← h1, ← h2, truthAll, truthAny]
  | .nt c, c', h, ι, s => by cases h; rw [truth, truth]
  | .rnot c, c', h, ι, s => by
    rw [lg] at h
    cases hc : lg env c with
    | ok d => rw [hc] at h; cases h; rw [truth, truth, lg_truth c hc ι s]
    | throw e => rw [hc] at h; cases h
    | ub => rw [hc] at h; cases h
  | .atom a, c', h, ι, s => by cases h; rfl
  | .cmp _ _ _, c', h, ι, s => by cases h; rfl
  | .meth _ _ _, c', h, ι, s => by cases h; rfl
  | .call _ _ _, c', h, ι, s => by cases h; rfl
theorem lgL_truth {env : Env} (conj : Bool) : ∀ (cs : Cs S) {cs' : Cs S}, lgL env conj cs = .ok cs' → ∀ ι s,
    truthAll ι s env cs' = truthAll ι s env cs ∧ truthAny ι s env cs' = truthAny ι s env cs
  | .nil, cs', h, ι, s => by cases h; exact ⟨rfl, rfl⟩
  | .cons c cs, cs', h, ι, s => by
    rw [lgL, Res.bind_eq_ok] at h
    obtain ⟨c', hc, h⟩ := h
    have hr : ∃ ds, lgL env conj cs = .ok ds ∧ cs' = .cons c' ds := by
      cases hl : lgL env conj cs with
      | ok ds =>
        rw [hl] at h
        split at h
        · split at h
          · cases h; exact ⟨_, rfl, rfl⟩
          · cases h
        · cases h; exact ⟨_, rfl, rfl⟩
      | throw e => rw [hl] at h; split at h <;> first | (split at h <;> cases h) | cases h
      | ub => rw [hl] at h; split at h <;> first | (split at h <;> cases h) | cases h
    obtain ⟨ds, hl, rfl⟩ := hr
    obtain ⟨h1, h2⟩ := lgL_truth conj cs hl ι s
    rw [truthAll, truthAll, truthAny, truthAny, h1, h2, lg_truth c hc ι s]
    exact ⟨rfl, rfl⟩
end

mutual
theorem tr_truth {env : Env} : ∀ (c : C S) {c' : C S}, tr env c = .ok (some c') → c.NoDrop env → ∀ ι s,
    truth ι s env c' = truth ι s env c
  | .nt c, c', h, _, ι, s => by
    rw [tr] at h
    split at h
    · cases h; rw [truth, truth]
    · cases h
    · cases h
  | .cmp op a b, c', h, _, ι, s => by
    rw [tr] at h
    split at h
    · cases h; rw [truth, truth]
    · split at h
      · cases h; rw [truth, truth, flip_holds]
      · cases h; rfl
  | .bl conj cs, c', h, hd, ι, s => by
    rw [tr] at h
    cases hc : trL env cs with
    | ok ds =>
      rw [hc] at h; cases h
      obtain ⟨h1, h2⟩ := trL_truth cs hc hd ι s
      rw [truth, truth, h1, h2]
    | throw e => rw [hc] at h; cases h
    | ub => rw [hc] at h; cases h
  | .atom _, c', h, _, ι, s => by cases h; rfl
  | .meth _ _ _, c', h, _, ι, s => by cases h; rfl
  | .rnot _, c', h, _, ι, s => by cases h; rfl
  | .call _ _ _, c', h, _, ι, s => by cases h; rfl
theorem trL_truth {env : Env} : ∀ (cs : Cs S) {cs' : Cs S}, trL env cs = .ok cs' → cs.NoDrop env → ∀ ι s,
    truthAll ι s env cs' = truthAll ι s env cs ∧ truthAny ι s env cs' = truthAny ι s env cs
  | .nil, cs', h, _, ι, s => by cases h; exact ⟨rfl, rfl⟩
  | .cons c cs, cs', h, hd, ι, s => by
    rw [Cs.NoDrop] at hd
    rw [trL, Res.bind_eq_ok] at h
    obtain ⟨o, ho, h⟩ := h
    cases hl : trL env cs with
    | ok ds =>
      rw [hl] at h
      obtain ⟨h1, h2⟩ := trL_truth cs hl hd.2.2 ι s
      cases o with
      | some c' =>
        cases h
        rw [truthAll, truthAll, truthAny, truthAny, h1, h2, tr_truth c ho hd.2.1 ι s]
        exact ⟨rfl, rfl⟩
      | none =>
        exfalso
        cases c with
        | nt d =>
          obtain ⟨f, hf⟩ := hd.1 d rfl
          rw [tr, hf] at ho
          cases ho
        | cmp op a b =>
          rw [tr] at ho
          split at ho
          · cases ho
          · split at ho <;> cases ho
        | bl conj cs =>
          rw [tr] at ho
          cases h : trL env cs <;> rw [h] at ho <;> cases ho
        | _ => cases ho
    | throw e => rw [hl] at h; cases h
    | ub => rw [hl] at h; cases h
end

theorem cond_truth {env : Env} {c : C S} {t : Test S} (h : cond env c = .ok t) (hd : c.NoDrop env) (ι : Iter) (s : S) :
    (∀ b, t = .known b → truth ι s env c = b) ∧ ∀ f, t = .hw f → (truth ι s env c = true ↔ f ι s ≠ 0) := by
  rw [cond, Res.bind_eq_ok] at h
  obtain ⟨o, ho, h⟩ := h
  cases o with
  | none => cases h
  | some c1 =>
    have h1 := tr_truth c ho hd ι s
    have hdyn : ∀ {t : Test S}, ((lg env c1).bind fun c => match eval (fun a => a.val env) c with
        | .val (.var f) => .ok (.hw f)
        | _ => .throw .user) = .ok t → (∀ b, t = .known b → truth ι s env c = b) ∧ ∀ f, t = .hw f → (truth ι s env c = true ↔ f ι s ≠ 0) := by
      intro t h
      rw [Res.bind_eq_ok] at h
      obtain ⟨c2, hc2, h⟩ := h
      split at h
      · rename_i f hf
        cases h
        refine ⟨nofun, fun g hg => ?_⟩
        cases hg
        rw [← h1, ← lg_truth c1 hc2 ι s, ← eval_truth c2 hf ι s]
        simp [num, Num.true?]
      · cases h
    simp only at h
    split at h
    · rename_i b hb
      cases h
      refine ⟨fun b' hb' => ?_, nofun⟩
      cases hb'
      rw [← h1, ← eval_truth c1 hb ι s]
      cases b <;> rfl
    · exact hdyn h
    · exact hdyn h
    · cases h

mutual
theorem truth_uniform {env : Env} {ι : Iter} {s : S} : ∀ c : C S, c.All (Uniform env) → truth ι s env c = truth noIter s (res ι env) c
  | .atom a, h => by rw [truth, truth, h ι s]
  | .cmp _ a b, h => by rw [truth, truth, h.1 ι s, h.2 ι s]
  | .nt c, h => by rw [truth, truth, truth_uniform c h]
  | .bl _ cs, h => by rw [truth, truth, (truthL_uniform cs h).1, (truthL_uniform cs h).2]
  | .meth _ a b, h => by rw [truth, truth, h.1 ι s, h.2 ι s]
  | .rnot c, h => by rw [truth, truth, truth_uniform c h]
  | .call _ a b, h => by rw [truth, truth, truth_uniform a h.1, truth_uniform b h.2]
theorem truthL_uniform {env : Env} {ι : Iter} {s : S} : ∀ cs : Cs S, cs.All (Uniform env) →
    truthAll ι s env cs = truthAll noIter s (res ι env) cs ∧ truthAny ι s env cs = truthAny noIter s (res ι env) cs
  | .nil, _ => ⟨rfl, rfl⟩
  | .cons c cs, h => by
    rw [truthAll, truthAll, truthAny, truthAny, truth_uniform c h.1, (truthL_uniform cs h.2).1, (truthL_uniform cs h.2).2]
    exact ⟨rfl, rfl⟩
end

mutual
theorem truth_only {B : List Nat} {env env' : Env} (he : ∀ x ∈ B, env x = env' x) {ι : Iter} {s : S} : ∀ c : C S,
    c.All (fun a => Only B a.val) → truth ι s env c = truth ι s env' c
  | .atom a, h => by rw [truth, truth, h env env' he]
  | .cmp _ a b, h => by rw [truth, truth, h.1 env env' he, h.2 env env' he]
  | .nt c, h => by rw [truth, truth, truth_only he c h]
  | .bl _ cs, h => by rw [truth, truth, (truthL_only he cs h).1, (truthL_only he cs h).2]
  | .meth _ a b, h => by rw [truth, truth, h.1 env env' he, h.2 env env' he]
  | .rnot c, h => by rw [truth, truth, truth_only he c h]
  | .call _ a b, h => by rw [truth, truth, truth_only he a h.1, truth_only he b h.2]
theorem truthL_only {B : List Nat} {env env' : Env} (he : ∀ x ∈ B, env x = env' x) {ι : Iter} {s : S} : ∀ cs : Cs S,
    cs.All (fun a => Only B a.val) → truthAll ι s env cs = truthAll ι s env' cs ∧ truthAny ι s env cs = truthAny ι s env' cs
  | .nil, _ => ⟨rfl, rfl⟩
  | .cons c cs, h => by
    rw [truthAll, truthAll, truthAny, truthAny, truth_only he c h.1, (truthL_only he cs h.2).1, (truthL_only he cs h.2).2]
    exact ⟨rfl, rfl⟩
end

/-! ### Proof: statements -/

/-- Running statements with their loops in place. -/
def iterR (body : Iter → S → S × Bool) (ln : Nat) : List Int → Iter → S → S
  | [], _, s => s
  | v :: vs, ι, s =>
    let o := body (fun l => if l = ln then v else ι l) s
    if o.2 then o.1 else iterR body ln vs ι o.1

def R.exec : R S → Iter → S → S × Bool
  | .nil, _, s => (s, false)
  | .act f r, ι, s => r.exec ι (f ι s)
  | .ite p t e r, ι, s =>
    let o := if p ι s ≠ 0 then t.exec ι s else e.exec ι s
    if o.2 then o else r.exec ι o.1
  | .loop ln vals b r, ι, s => r.exec ι (iterR b.exec ln vals ι s)
  | .brk _, _, s => (s, true)

theorem exec_append : ∀ (r q : R S) (ι : Iter) (s : S), (r.append q).exec ι s =
    if (r.exec ι s).2 then r.exec ι s else q.exec ι (r.exec ι s).1
  | .nil, q, ι, s => rfl
  | .act f r, q, ι, s => exec_append r q ι (f ι s)
  | .ite p t e r, q, ι, s => by
    rw [R.append, R.exec, R.exec]
    generalize (if p ι s ≠ 0 then t.exec ι s else e.exec ι s) = o
    cases ho : o.2 with
    | true => simp [ho]
    | false => simp only [ho, Bool.false_eq_true, if_false]; exact exec_append r q ι o.1
  | .loop ln vals b r, q, ι, s => by
    rw [R.append, R.exec, R.exec]; exact exec_append r q ι _
  | .brk r, q, ι, s => rfl

theorem map_ok {α β : Type} {x : Res α} {f : α → β} {b : β} (h : x.map f = .ok b) : ∃ a, x = .ok a ∧ f a = b := by
  cases x with
  | ok a => exact ⟨a, rfl, by cases h; rfl⟩
  | throw e => cases h
  | ub => cases h

theorem append_assocR : ∀ a b c : R S, (a.append b).append c = a.append (b.append c)
  | .nil, _, _ => rfl
  | .act f r, b, c => by simp only [R.append, append_assocR r]
  | .ite p t e r, b, c => by simp only [R.append, append_assocR r]
  | .loop ln v x r, b, c => by simp only [R.append, append_assocR r]
  | .brk r, b, c => by simp only [R.append, append_assocR r]

theorem iv_append : ∀ (f g : F S) (r : R S), iv (f.append g) = .ok r → ∃ r1 r2, iv f = .ok r1 ∧ iv g = .ok r2 ∧ r = r1.append r2
  | .nil, g, r, h => ⟨.nil, r, rfl, h, rfl⟩
  | .act a env f, g, r, h => by
    rw [F.append, iv] at h
    rw [iv]
    split at h
    · obtain ⟨r', hr, rfl⟩ := map_ok h
      obtain ⟨r1, r2, h1, h2, rfl⟩ := iv_append f g r' hr
      exact ⟨_, r2, by simp only [h1, Res.ok_map]; rfl, h2, rfl⟩
    · cases h
  | .ite c env t e f, g, r, h => by
    rw [F.append, iv, Res.bind_eq_ok] at h
    obtain ⟨T, hT, h⟩ := h
    rw [iv, hT, Res.ok_bind]
    cases T with
    | known b =>
      cases b with
      | true =>
        simp only [Res.bind_eq_ok] at h
        obtain ⟨t', ht, h⟩ := h
        obtain ⟨r', hr, rfl⟩ := map_ok h
        obtain ⟨r1, r2, h1, h2, rfl⟩ := iv_append f g r' hr
        exact ⟨t'.append r1, r2, by simp only [ht, h1, Res.ok_bind, Res.ok_map], h2, (append_assocR _ _ _).symm⟩
      | false =>
        simp only [Res.bind_eq_ok] at h
        obtain ⟨t', ht, h⟩ := h
        obtain ⟨r', hr, rfl⟩ := map_ok h
        obtain ⟨r1, r2, h1, h2, rfl⟩ := iv_append f g r' hr
        exact ⟨t'.append r1, r2, by simp only [ht, h1, Res.ok_bind, Res.ok_map], h2, (append_assocR _ _ _).symm⟩
    | hw p =>
      simp only [Res.bind_eq_ok] at h
      obtain ⟨t', ht, e', he, h⟩ := h
      obtain ⟨r', hr, rfl⟩ := map_ok h
      obtain ⟨r1, r2, h1, h2, rfl⟩ := iv_append f g r' hr
      exact ⟨.ite p t' e' r1, r2, by simp only [ht, he, h1, Res.ok_bind, Res.ok_map], h2, rfl⟩
  | .loop ln vals b f, g, r, h => by
    rw [F.append, iv, Res.bind_eq_ok] at h
    obtain ⟨b', hb, h⟩ := h
    obtain ⟨r', hr, rfl⟩ := map_ok h
    obtain ⟨r1, r2, h1, h2, rfl⟩ := iv_append f g r' hr
    exact ⟨.loop ln vals b' r1, r2, by simp only [iv, hb, h1, Res.ok_bind, Res.ok_map], h2, rfl⟩
  | .brk f, g, r, h => by
    rw [F.append, iv] at h
    obtain ⟨r', hr, rfl⟩ := map_ok h
    obtain ⟨r1, r2, h1, h2, rfl⟩ := iv_append f g r' hr
    exact ⟨.brk r1, r2, by simp only [iv, h1, Res.ok_map], h2, rfl⟩

theorem uniform_append : ∀ f g : F S, (f.append g).Uniform → f.Uniform ∧ g.Uniform
  | .nil, g, h => ⟨trivial, h⟩
  | .act a env f, g, h => ⟨⟨h.1, (uniform_append f g h.2).1⟩, (uniform_append f g h.2).2⟩
  | .ite c env t e f, g, h => ⟨⟨h.1, h.2.1, h.2.2.1, (uniform_append f g h.2.2.2).1⟩, (uniform_append f g h.2.2.2).2⟩
  | .loop ln vals b f, g, h => ⟨⟨h.1, (uniform_append f g h.2).1⟩, (uniform_append f g h.2).2⟩
  | .brk f, g, h => uniform_append f g h

theorem noDrop_append : ∀ f g : F S, (f.append g).NoDrop → f.NoDrop ∧ g.NoDrop
  | .nil, g, h => ⟨trivial, h⟩
  | .act a env f, g, h => noDrop_append f g h
  | .ite c env t e f, g, h => ⟨⟨h.1, h.2.1, h.2.2.1, (noDrop_append f g h.2.2.2).1⟩, (noDrop_append f g h.2.2.2).2⟩
  | .loop ln vals b f, g, h => ⟨⟨h.1, (noDrop_append f g h.2).1⟩, (noDrop_append f g h.2).2⟩
  | .brk f, g, h => noDrop_append f g h

theorem no_break : ∀ (p : P S) (env : Env) (s : S), p.hasBrk = false → (run p env s).br = false
  | .nil, env, s, _ => rfl
  | .act a r, env, s, h => no_break r env _ h
  | .ite c t e r, env, s, h => by
    simp only [P.hasBrk, Bool.or_eq_false_iff] at h
    rw [run]
    have : (if truth noIter s env c = true then run t env s else run e env s).br = false := by
      split
      · exact no_break t env s h.1.1
      · exact no_break e env s h.1.2
    rw [this]
    exact no_break r _ _ h.2
  | .loop x ln it b r, env, s, h => by
    simp only [P.hasBrk, Bool.or_eq_false_iff] at h
    rw [run]
    exact no_break r _ _ h.2
  | .brk r, env, s, h => by cases h

/-- The claim for a program at an environment: what the proof shows for each part. -/
def Sim (p : P S) (B : List Nat) (env : Env) (r : R S) : Prop := ∀ ι env' s, (∀ x ∈ B, env' x = res ι env x) →
  r.exec ι s = ((run p env' s).s, (run p env' s).br) ∧ ∀ x ∈ B, (run p env' s).env x = env' x

theorem set_agree {B : List Nat} {x : Nat} {v : LV} {ι : Iter} {env env' : Env} (h : ∀ y ∈ B, env' y = res ι env y) (v' : LV)
    (hv : v' = v.res ι) : ∀ y ∈ x :: B, set env' x v' y = res ι (set env x v) y := by
  intro y hy
  simp only [set, res]
  split
  · rw [hv]; rfl
  · rename_i hne
    exact h y ((List.mem_cons.1 hy).resolve_left hne)

theorem made_append : ∀ f g : F S, (f.append g).made = f.made ++ g.made
  | .nil, _ => rfl
  | .act _ _ f, g => made_append f g
  | .ite _ _ t e f, g => by simp only [F.append, F.made, made_append f g, List.append_assoc]
  | .loop _ _ b f, g => by simp only [F.append, F.made, made_append f g, List.cons_append, List.append_assoc]
  | .brk f, g => made_append f g

/-- Lines of the loops that are kept. -/
abbrev F.lines (f : F S) : List Nat := f.made.map fun x => x.1

/-- The variables in scope are not of loops inside. -/
def Apart (B : List Nat) (env : Env) (f : F S) : Prop := ∀ y ∈ B, ∀ l, env y = some (.iter l) → l ∉ f.lines

theorem nodup_app {α : Type} {l m : List α} (h : (l ++ m).Nodup) : l.Nodup ∧ m.Nodup := by
  rw [List.nodup_append] at h; exact ⟨h.1, h.2.1⟩

theorem unroll_each {keep : Nat → Env → Bool} {b : P S} {x : Nat} {env : Env} {B : List Nat} : ∀ (vs : List LV) (f : F S),
    (∀ v ∈ vs, isIter v = false) → unroll (fv keep b) env x vs = .ok f → f.lines.Nodup → Apart B env f →
    ∀ v ∈ vs, ∀ f', fv keep b (set env x v) = .ok f' → f'.lines.Nodup ∧ Apart (x :: B) (set env x v) f'
  | v :: vs, f, hi, h, hn, ha, w, hw, f', hf' => by
    rw [unroll, Res.bind_eq_ok] at h
    obtain ⟨f1, h1, h⟩ := h
    obtain ⟨f2, h2, rfl⟩ := map_ok h
    have hm : (f1.append f2).lines = f1.lines ++ f2.lines := by rw [F.lines, made_append, List.map_append]
    rw [hm] at hn
    rcases List.mem_cons.1 hw with rfl | hw
    · rw [h1] at hf'
      cases hf'
      refine ⟨(nodup_app hn).1, fun y hy l hl hmem => ?_⟩
      simp only [set] at hl
      split at hl
      · rw [Option.some.injEq] at hl
        have := hi w List.mem_cons_self
        rw [hl] at this
        cases this
      · rename_i hne
        exact ha y ((List.mem_cons.1 hy).resolve_left hne) l hl (by rw [hm]; exact List.mem_append_left _ hmem)
    · exact unroll_each vs f2 (fun v hv => hi v (List.mem_cons_of_mem _ hv)) h2 (nodup_app hn).2
        (fun y hy l hl hmem => ha y hy l hl (by rw [hm]; exact List.mem_append_right _ hmem)) w hw f' hf'

/-- An unrolled loop. -/
theorem sim_unroll {keep : Nat → Env → Bool} {b : P S} {x : Nat} {B : List Nat} {env : Env} (hx : x ∉ B) (hb : b.hasBrk = false)
    (ih : ∀ v f r, fv keep b (set env x v) = .ok f → f.lines.Nodup ∧ Apart (x :: B) (set env x v) f → f.Uniform → f.NoDrop → iv f = .ok r →
      Sim b (x :: B) (set env x v) r) : ∀ (vs : List LV) (f : F S) (r : R S), (∀ ι, ∀ v ∈ vs, v.res ι = v) →
      (∀ v ∈ vs, ∀ f', fv keep b (set env x v) = .ok f' → f'.lines.Nodup ∧ Apart (x :: B) (set env x v) f') → unroll (fv keep b) env x vs = .ok f → f.Uniform → f.NoDrop →
      iv f = .ok r → ∀ ι env' s, (∀ y ∈ B, env' y = res ι env y) →
      r.exec ι s = ((runL (run b) x vs env' s).s, false) ∧ ∀ y ∈ B, (runL (run b) x vs env' s).env y = env' y
  | [], f, r, _, _, h, _, _, hr, ι, env', s, _ => by
    cases h; cases hr
    exact ⟨rfl, fun y _ => rfl⟩
  | v :: vs, f, r, hv, ha, h, hu, hd, hr, ι, env', s, he => by
    rw [unroll, Res.bind_eq_ok] at h
    obtain ⟨f1, h1, h⟩ := h
    obtain ⟨f2, h2, rfl⟩ := map_ok h
    obtain ⟨r1, r2, hr1, hr2, rfl⟩ := iv_append f1 f2 r hr
    obtain ⟨hu1, hu2⟩ := uniform_append f1 f2 hu
    obtain ⟨hd1, hd2⟩ := noDrop_append f1 f2 hd
    obtain ⟨he1, he2⟩ := ih v f1 r1 h1 (ha v List.mem_cons_self f1 h1) hu1 hd1 hr1 ι (set env' x v) s (set_agree he v (hv ι v List.mem_cons_self).symm)
    have hbr := no_break b (set env' x v) s hb
    rw [hbr] at he1
    have henv : ∀ y ∈ B, (run b (set env' x v) s).env y = env' y := by
      intro y hy
      rw [he2 y (List.mem_cons_of_mem _ hy), set, if_neg]
      rintro rfl
      exact hx hy
    obtain ⟨he3, he4⟩ := sim_unroll hx hb ih vs f2 r2 (fun ι w hw => hv ι w (List.mem_cons_of_mem _ hw))
      (fun w hw => ha w (List.mem_cons_of_mem _ hw)) h2 hu2 hd2 hr2 ι
      (run b (set env' x v) s).env (run b (set env' x v) s).s (fun y hy => by rw [henv y hy]; exact he y hy)
    rw [exec_append, he1, runL]
    simp only [hbr, Bool.false_eq_true, if_false]
    exact ⟨he3, fun y hy => by rw [he4 y hy, henv y hy]⟩

/-- A kept loop. -/
theorem sim_keep {b : P S} {rb : R S} {x ln : Nat} {B : List Nat} {env : Env} (hx : x ∉ B)
    (ih : Sim b (x :: B) (set env x (.iter ln)) rb) (hln : ∀ y ∈ B, env y ≠ some (.iter ln)) : ∀ (vs : List Int) (ι : Iter) (env' : Env) (s : S),
      (∀ y ∈ B, env' y = res ι env y) → iterR rb.exec ln vs ι s = (runL (run b) x (vs.map .int) env' s).s ∧
        ∀ y ∈ B, (runL (run b) x (vs.map .int) env' s).env y = env' y
  | [], ι, env', s, _ => ⟨rfl, fun y _ => rfl⟩
  | v :: vs, ι, env', s, he => by
    have hag : ∀ y ∈ x :: B, set env' x (.int v) y = res (fun l => if l = ln then v else ι l) (set env x (.iter ln)) y := by
      intro y hy
      simp only [set, res]
      split
      · simp [LV.res]
      · rename_i hne
        have hy := (List.mem_cons.1 hy).resolve_left hne
        rw [he y hy, res]
        cases hq : env y with
        | none => rfl
        | some w =>
          cases w with
          | int k => rfl
          | str k => rfl
          | iter l =>
            have : l ≠ ln := by rintro rfl; exact hln y hy hq
            simp [LV.res, this]
    obtain ⟨h1, h2⟩ := ih (fun l => if l = ln then v else ι l) (set env' x (.int v)) s hag
    have henv : ∀ y ∈ B, (run b (set env' x (.int v)) s).env y = env' y := by
      intro y hy
      rw [h2 y (List.mem_cons_of_mem _ hy), set, if_neg]
      rintro rfl
      exact hx hy
    rw [iterR, List.map_cons, runL]
    simp only [h1]
    cases hb : (run b (set env' x (.int v)) s).br with
    | true => simp only [if_true]; exact ⟨trivial, henv⟩
    | false =>
      simp only [Bool.false_eq_true, if_false]
      obtain ⟨h3, h4⟩ := sim_keep hx ih hln vs ι (run b (set env' x (.int v)) s).env (run b (set env' x (.int v)) s).s
        (fun y hy => by rw [henv y hy]; exact he y hy)
      exact ⟨h3, fun y hy => by rw [h4 y hy, henv y hy]⟩

theorem sim {keep : Nat → Env → Bool} : ∀ (p : P S) (B : List Nat) (env : Env) (f : F S) (r : R S), fv keep p env = .ok f → f.Uniform →
    f.NoDrop → f.lines.Nodup → Apart B env f → p.Closed B → p.Static → (∀ x ∈ B, (env x).isSome = true) → iv f = .ok r → Sim p B env r := by
  intro p
  induction p with
  | nil =>
    intro B env f r hf _ _ _ _ _ _ _ hr ι env' s he
    cases hf; cases hr
    exact ⟨rfl, fun x _ => rfl⟩
  | act a q ih =>
    intro B env f r hf hu hd hn ha hc hs hB hr ι env' s he
    obtain ⟨f', hf', rfl⟩ := map_ok hf
    rw [iv] at hr
    split at hr
    · rename_i g hg
      obtain ⟨r', hr', rfl⟩ := map_ok hr
      have h1 : g ι s = (match a env' with | some f => f noIter s | none => s) := by
        have h2 := hu.1 ι s
        rw [hg] at h2
        have h3 : a env' = a (res ι env) := hc.1 _ _ he
        rw [h3]
        exact h2
      have := ih B env f' r' hf' hu.2 hd hn ha hc.2 hs hB hr' ι env' (g ι s) he
      rw [R.exec, run, ← h1]
      exact this
    · cases hr
  | ite c t e q iht ihe ihq =>
    intro B env f r hf hu hd hn ha hc hs hB hr ι env' s he
    simp only [fv, Res.bind_eq_ok] at hf
    obtain ⟨ft, hft, fe, hfe, hf⟩ := hf
    obtain ⟨fq, hfq, rfl⟩ := map_ok hf
    have hm : (F.ite c env ft fe fq).lines = ft.lines ++ fe.lines ++ fq.lines := by
      simp only [F.lines, F.made, List.map_append]
    rw [hm] at hn
    have ht := iht B env ft
    have hnt := nodup_app hn
    have hnt2 := nodup_app hnt.1
    have hat : Apart B env ft := fun y hy l hl h => ha y hy l hl (by rw [hm]; simp [h])
    have hae : Apart B env fe := fun y hy l hl h => ha y hy l hl (by rw [hm]; simp [h])
    have haq : Apart B env fq := fun y hy l hl h => ha y hy l hl (by rw [hm]; simp [h])
    have htr : truth ι s env c = truth noIter s env' c := by
      rw [truth_uniform c hu.1]
      exact (truth_only he c hc.1).symm
    rw [iv, Res.bind_eq_ok] at hr
    obtain ⟨T, hT, hr⟩ := hr
    obtain ⟨hk, hh⟩ := cond_truth hT hd.1 ι s
    rw [run]
    cases T with
    | known b =>
      have hb := hk b rfl
      rw [htr] at hb
      cases b with
      | true =>
        simp only [Res.bind_eq_ok] at hr
        obtain ⟨rt, hrt, hr⟩ := hr
        obtain ⟨rq, hrq, rfl⟩ := map_ok hr
        obtain ⟨h1, h2⟩ := iht B env ft rt hft hu.2.1 hd.2.1 hnt2.1 hat hc.2.1 hs.1 hB hrt ι env' s he
        rw [if_pos hb, exec_append, h1]
        simp only
        cases hbr : (run t env' s).br with
        | true => exact ⟨by rw [if_pos rfl, if_pos rfl, hbr], by rw [if_pos rfl]; exact h2⟩
        | false =>
          obtain ⟨h3, h4⟩ := ihq B env fq rq hfq hu.2.2.2 hd.2.2.2 hnt.2 haq hc.2.2.2 hs.2.2 hB hrq ι (run t env' s).env (run t env' s).s
            (fun x hx => by rw [h2 x hx]; exact he x hx)
          simp only [Bool.false_eq_true, if_false]
          exact ⟨h3, fun x hx => by rw [h4 x hx, h2 x hx]⟩
      | false =>
        simp only [Res.bind_eq_ok] at hr
        obtain ⟨rt, hrt, hr⟩ := hr
        obtain ⟨rq, hrq, rfl⟩ := map_ok hr
        obtain ⟨h1, h2⟩ := ihe B env fe rt hfe hu.2.2.1 hd.2.2.1 hnt2.2 hae hc.2.2.1 hs.2.1 hB hrt ι env' s he
        have hb' : ¬ truth noIter s env' c = true := by rw [hb]; exact Bool.false_ne_true
        rw [if_neg hb', exec_append, h1]
        simp only
        cases hbr : (run e env' s).br with
        | true => exact ⟨by rw [if_pos rfl, if_pos rfl, hbr], by rw [if_pos rfl]; exact h2⟩
        | false =>
          obtain ⟨h3, h4⟩ := ihq B env fq rq hfq hu.2.2.2 hd.2.2.2 hnt.2 haq hc.2.2.2 hs.2.2 hB hrq ι (run e env' s).env (run e env' s).s
            (fun x hx => by rw [h2 x hx]; exact he x hx)
          simp only [Bool.false_eq_true, if_false]
          exact ⟨h3, fun x hx => by rw [h4 x hx, h2 x hx]⟩
    | hw p =>
      simp only [Res.bind_eq_ok] at hr
      obtain ⟨rt, hrt, re, hre, hr⟩ := hr
      obtain ⟨rq, hrq, rfl⟩ := map_ok hr
      have hp := hh p rfl
      rw [htr] at hp
      have h12 : (if p ι s ≠ 0 then rt.exec ι s else re.exec ι s) =
            ((if truth noIter s env' c = true then run t env' s else run e env' s).s,
              (if truth noIter s env' c = true then run t env' s else run e env' s).br) ∧
          ∀ x ∈ B, (if truth noIter s env' c = true then run t env' s else run e env' s).env x = env' x := by
        by_cases hb : truth noIter s env' c = true
        · rw [if_pos hb, if_pos (hp.1 hb)]
          exact iht B env ft rt hft hu.2.1 hd.2.1 hnt2.1 hat hc.2.1 hs.1 hB hrt ι env' s he
        · rw [if_neg hb, if_neg (fun h => hb (hp.2 h))]
          exact ihe B env fe re hfe hu.2.2.1 hd.2.2.1 hnt2.2 hae hc.2.2.1 hs.2.1 hB hre ι env' s he
      obtain ⟨h1, h2⟩ := h12
      rw [R.exec]
      simp only [h1]
      generalize (if truth noIter s env' c = true then run t env' s else run e env' s) = o at h1 h2 ⊢
      cases hbr : o.br with
      | true => exact ⟨by rw [if_pos rfl, if_pos rfl, hbr], by rw [if_pos rfl]; exact h2⟩
      | false =>
        obtain ⟨h3, h4⟩ := ihq B env fq rq hfq hu.2.2.2 hd.2.2.2 hnt.2 haq hc.2.2.2 hs.2.2 hB hrq ι o.env o.s
          (fun x hx => by rw [h2 x hx]; exact he x hx)
        simp only [Bool.false_eq_true, if_false]
        exact ⟨h3, fun x hx => by rw [h4 x hx, h2 x hx]⟩
  | loop x ln it b q ihb ihq =>
    intro B env f r hf hu hd hn ha hc hs hB hr ι env' s he
    simp only [fv] at hf
    split at hf
    · cases hf
    rename_i hx
    have hxB : x ∉ B := fun h => hx (hB x h)
    split at hf
    · cases hf
    rename_i rng vs hit
    obtain ⟨hst, hrg⟩ := hs.1 env _ hit
    have hit' : it env' = some (rng, vs) := by rw [hc.1 env' (res ι env) he]; exact hst ι
    split at hf
    · cases hf
    rename_i hany
    have hni : ∀ v ∈ vs, isIter v = false := by
      intro v hv
      cases hq : isIter v with
      | false => rfl
      | true => exact absurd (List.any_eq_true.2 ⟨v, hv, hq⟩) hany
    rw [run]
    simp only [hit']
    split at hf
    · rename_i hkeep
      rw [Res.bind_eq_ok] at hf
      obtain ⟨fb, hfb, hf⟩ := hf
      obtain ⟨fq, hfq, rfl⟩ := map_ok hf
      rw [iv, Res.bind_eq_ok] at hr
      obtain ⟨rb, hrb, hr⟩ := hr
      obtain ⟨rq, hrq, rfl⟩ := map_ok hr
      have hm : (F.loop ln (ints vs) fb fq).lines = ln :: (fb.lines ++ fq.lines) := by
        simp only [F.lines, F.made, List.map_append, List.map_cons, List.cons_append]
      rw [hm, List.nodup_cons] at hn
      have hnn := nodup_app hn.2
      have hrng : rng = true := by
        cases rng with
        | true => rfl
        | false => cases hkeep
      have hvs : vs = (ints vs).map .int := hrg hrng
      have hab : Apart (x :: B) (set env x (.iter ln)) fb := by
        intro y hy l hl hmem
        simp only [set] at hl
        split at hl
        · rw [Option.some.injEq, LV.iter.injEq] at hl
          subst hl
          exact hn.1 (List.mem_append_left _ hmem)
        · rename_i hne
          exact ha y ((List.mem_cons.1 hy).resolve_left hne) l hl (by rw [hm]; simp [hmem])
      have hBb : ∀ y ∈ x :: B, (set env x (.iter ln) y).isSome = true := by
        intro y hy
        simp only [set]
        split
        · rfl
        · rename_i hne; exact hB y ((List.mem_cons.1 hy).resolve_left hne)
      have hsb := ihb (x :: B) (set env x (.iter ln)) fb rb hfb hu.1 hd.1 hnn.1 hab hc.2.1 hs.2.1 hBb hrb
      obtain ⟨h1, h2⟩ := sim_keep hxB hsb (fun y hy hl => ha y hy ln hl (by rw [hm]; exact List.mem_cons_self)) (ints vs) ι env' s he
      rw [← hvs] at h1 h2
      obtain ⟨h3, h4⟩ := ihq B env fq rq hfq hu.2 hd.2 hnn.2 (fun y hy l hl h => ha y hy l hl (by rw [hm]; simp [h])) hc.2.2 hs.2.2 hB hrq ι
        (runL (run b) x vs env' s).env (runL (run b) x vs env' s).s (fun y hy => by rw [h2 y hy]; exact he y hy)
      rw [R.exec, h1]
      exact ⟨h3, fun y hy => by rw [h4 y hy, h2 y hy]⟩
    · split at hf
      · cases hf
      rename_i hbrk
      rw [Res.bind_eq_ok] at hf
      obtain ⟨fb, hfb, hf⟩ := hf
      obtain ⟨fq, hfq, rfl⟩ := map_ok hf
      obtain ⟨rb, rq, hrb, hrq, rfl⟩ := iv_append fb fq r hr
      obtain ⟨hu1, hu2⟩ := uniform_append fb fq hu
      obtain ⟨hd1, hd2⟩ := noDrop_append fb fq hd
      have hm : (fb.append fq).lines = fb.lines ++ fq.lines := by rw [F.lines, made_append, List.map_append]
      rw [hm] at hn
      have hnn := nodup_app hn
      have hloop : rb.exec ι s = ((runL (run b) x vs env' s).s, false) ∧ ∀ y ∈ B, (runL (run b) x vs env' s).env y = env' y := by
        cases vs with
        | nil => cases hfb; cases hrb; exact ⟨rfl, fun y _ => rfl⟩
        | cons v0 vs0 =>
          have hb : b.hasBrk = false := by simpa using hbrk
          have hab : Apart B env fb := fun y hy l hl h => ha y hy l hl (by rw [hm]; simp [h])
          have heach := unroll_each (v0 :: vs0) fb hni hfb hnn.1 hab
          refine sim_unroll hxB hb (fun v f r h1 h2 h3 h4 h5 => ihb (x :: B) _ f r h1 h3 h4 h2.1 h2.2 hc.2.1 hs.2.1 ?_ h5) (v0 :: vs0) fb rb
            (fun ι v hv => ?_) heach hfb hu1 hd1 hrb ι env' s he
          · intro y hy
            simp only [set]
            split
            · rfl
            · rename_i hne; exact hB y ((List.mem_cons.1 hy).resolve_left hne)
          · have := hni v hv
            cases v with
            | int k => rfl
            | str k => rfl
            | iter l => cases this
      obtain ⟨h1, h2⟩ := hloop
      obtain ⟨h3, h4⟩ := ihq B env fq rq hfq hu2 hd2 hnn.2 (fun y hy l hl h => ha y hy l hl (by rw [hm]; simp [h])) hc.2.2 hs.2.2 hB hrq ι
        (runL (run b) x vs env' s).env (runL (run b) x vs env' s).s (fun y hy => by rw [h2 y hy]; exact he y hy)
      rw [exec_append, h1]
      simp only [Bool.false_eq_true, if_false]
      exact ⟨h3, fun y hy => by rw [h4 y hy, h2 y hy]⟩
  | brk q ih =>
    intro B env f r hf hu hd hn ha hc hs hB hr ι env' s he
    obtain ⟨f', hf', rfl⟩ := map_ok hf
    obtain ⟨r', hr', rfl⟩ := map_ok hr
    exact ⟨rfl, fun x _ => rfl⟩

/-! ### Proof: loop objects -/

/-- The loops that are left. -/
def R.made : R S → List (Nat × List Int)
  | .nil => []
  | .act _ r => r.made
  | .ite _ t e r => t.made ++ e.made ++ r.made
  | .loop ln vals b r => (ln, vals) :: b.made ++ r.made
  | .brk r => r.made

theorem rmade_append : ∀ r q : R S, (r.append q).made = r.made ++ q.made
  | .nil, _ => rfl
  | .act _ r, q => rmade_append r q
  | .ite _ t e r, q => by simp only [R.append, R.made, rmade_append r q, List.append_assoc]
  | .loop _ _ b r, q => by simp only [R.append, R.made, rmade_append r q, List.cons_append, List.append_assoc]
  | .brk r, q => rmade_append r q

theorem iv_made : ∀ (f : F S) (r : R S), iv f = .ok r → r.made.Sublist f.made
  | .nil, r, h => by cases h; exact List.Sublist.slnil
  | .act a env f, r, h => by
    rw [iv] at h
    split at h
    · obtain ⟨r', h', rfl⟩ := map_ok h
      exact iv_made f r' h'
    · cases h
  | .ite c env t e f, r, h => by
    rw [iv, Res.bind_eq_ok] at h
    obtain ⟨T, _, h⟩ := h
    cases T with
    | known b =>
      cases b with
      | true =>
        simp only [Res.bind_eq_ok] at h
        obtain ⟨rt, hrt, h⟩ := h
        obtain ⟨rq, hrq, rfl⟩ := map_ok h
        rw [rmade_append, F.made, List.append_assoc]
        exact (iv_made t rt hrt).append ((iv_made f rq hrq).trans (List.sublist_append_right _ _))
      | false =>
        simp only [Res.bind_eq_ok] at h
        obtain ⟨rt, hrt, h⟩ := h
        obtain ⟨rq, hrq, rfl⟩ := map_ok h
        rw [rmade_append, F.made]
        exact ((iv_made e rt hrt).trans (List.sublist_append_right _ _)).append (iv_made f rq hrq)
    | hw p =>
      simp only [Res.bind_eq_ok] at h
      obtain ⟨rt, hrt, re, hre, h⟩ := h
      obtain ⟨rq, hrq, rfl⟩ := map_ok h
      exact ((iv_made t rt hrt).append (iv_made e re hre)).append (iv_made f rq hrq)
  | .loop ln vals b f, r, h => by
    rw [iv, Res.bind_eq_ok] at h
    obtain ⟨rb, hrb, h⟩ := h
    obtain ⟨rq, hrq, rfl⟩ := map_ok h
    exact ((iv_made b rb hrb).append (iv_made f rq hrq)).cons_cons _
  | .brk f, r, h => by
    obtain ⟨r', h', rfl⟩ := map_ok h
    exact iv_made f r' h'

/-- Every loop left is the object of its line. -/
def R.Good (B : Block S) : R S → Prop
  | .nil => True
  | .act _ r => r.Good B
  | .ite _ t e r => t.Good B ∧ e.Good B ∧ r.Good B
  | .loop ln vals b r => B.range ln = vals ∧ B.body ln = b.strip ∧ b.Good B ∧ r.Good B
  | .brk r => r.Good B

theorem append_nil : ∀ k : K S, k.append .nil = k
  | .nil => rfl
  | .act f r => by rw [K.append, append_nil r]
  | .ite p t e r => by rw [K.append, append_nil r]
  | .ref ln r => by rw [K.append, append_nil r]
  | .brk r => by rw [K.append, append_nil r]

abbrev R.lines (r : R S) : List Nat := r.made.map fun x => x.1

theorem bodies_nil {ln : Nat} : ∀ r : R S, ln ∉ r.lines → r.bodies ln = .nil
  | .nil, _ => rfl
  | .act _ r, h => bodies_nil r h
  | .ite _ t e r, h => by
    simp only [R.lines, R.made, List.map_append, List.mem_append, not_or] at h
    rw [R.bodies, bodies_nil t h.1.1, bodies_nil e h.1.2, bodies_nil r h.2]
    rfl
  | .loop l _ b r, h => by
    simp only [R.lines, R.made, List.map_append, List.map_cons, List.mem_append, List.mem_cons, not_or] at h
    rw [R.bodies, if_neg (fun e => h.1.1 e.symm), bodies_nil b h.1.2, bodies_nil r h.2]
    rfl
  | .brk r, h => bodies_nil r h

theorem good {B : Block S} : ∀ r : R S, r.lines.Nodup → (∀ x ∈ r.made, B.range x.1 = x.2) → (∀ l ∈ r.lines, B.body l = r.bodies l) → r.Good B
  | .nil, _, _, _ => trivial
  | .act _ r, hn, hr, hb => good r hn hr hb
  | .ite _ t e r, hn, hr, hb => by
    have hm : (R.ite ‹_› t e r).lines = t.lines ++ e.lines ++ r.lines := by simp only [R.lines, R.made, List.map_append]
    rw [hm] at hn
    have h1 := List.nodup_append.1 hn
    have h2 := List.nodup_append.1 h1.1
    refine ⟨good t h2.1 (fun x hx => hr x (by simp [R.made, hx])) (fun l hl => ?_), good e h2.2.1 (fun x hx => hr x (by simp [R.made, hx])) (fun l hl => ?_),
      good r h1.2.1 (fun x hx => hr x (by simp [R.made, hx])) (fun l hl => ?_)⟩
    · rw [hb l (by rw [hm]; exact List.mem_append_left _ (List.mem_append_left _ hl)), R.bodies, bodies_nil e (fun h => h2.2.2 l hl l h rfl),
        bodies_nil r (fun h => h1.2.2 l (List.mem_append_left _ hl) l h rfl), append_nil, append_nil]
    · rw [hb l (by rw [hm]; exact List.mem_append_left _ (List.mem_append_right _ hl)), R.bodies, bodies_nil t (fun h => h2.2.2 l h l hl rfl),
        bodies_nil r (fun h => h1.2.2 l (List.mem_append_right _ hl) l h rfl), append_nil]
      rfl
    · rw [hb l (by rw [hm]; exact List.mem_append_right _ hl), R.bodies, bodies_nil t (fun h => h1.2.2 l (List.mem_append_left _ h) l hl rfl),
        bodies_nil e (fun h => h1.2.2 l (List.mem_append_right _ h) l hl rfl)]
      rfl
  | .loop ln vals b r, hn, hr, hb => by
    have hm : (R.loop ln vals b r).lines = ln :: (b.lines ++ r.lines) := by
      simp only [R.lines, R.made, List.map_append, List.map_cons, List.cons_append]
    rw [hm, List.nodup_cons] at hn
    have h1 := List.nodup_append.1 hn.2
    have h2 : ln ∉ b.lines := fun h => hn.1 (List.mem_append_left _ h)
    have h3 : ln ∉ r.lines := fun h => hn.1 (List.mem_append_right _ h)
    refine ⟨hr (ln, vals) (by simp [R.made]), ?_, good b h1.1 (fun x hx => hr x (by simp [R.made, hx])) (fun l hl => ?_),
      good r h1.2.1 (fun x hx => hr x (by simp [R.made, hx])) (fun l hl => ?_)⟩
    · rw [hb ln (by rw [hm]; exact List.mem_cons_self), R.bodies, if_pos rfl, bodies_nil b h2, bodies_nil r h3, append_nil, append_nil]
    · rw [hb l (by rw [hm]; exact List.mem_cons_of_mem _ (List.mem_append_left _ hl)), R.bodies, if_neg (by rintro rfl; exact h2 hl),
        bodies_nil r (fun h => h1.2.2 l hl l h rfl), append_nil]
      rfl
    · rw [hb l (by rw [hm]; exact List.mem_cons_of_mem _ (List.mem_append_right _ hl)), R.bodies, if_neg (by rintro rfl; exact h3 hl),
        bodies_nil b (fun h => h1.2.2 l h l hl rfl)]
      rfl
  | .brk r, hn, hr, hb => good r hn hr hb

def R.depth : R S → Nat
  | .nil => 0
  | .act _ r => r.depth
  | .ite _ t e r => max (max t.depth e.depth) r.depth
  | .loop _ _ b r => max (b.depth + 1) r.depth
  | .brk r => r.depth

theorem runIter_iterR {f : Iter → S → Option (S × Bool)} {g : Iter → S → S × Bool} (h : ∀ ι s, f ι s = some (g ι s)) (ln : Nat) :
    ∀ (vs : List Int) (ι : Iter) (s : S), runIter f ln vs ι s = some (iterR g ln vs ι s)
  | [], _, _ => rfl
  | v :: vs, ι, s => by
    rw [runIter, iterR, h, Option.bind_some]
    split
    · rfl
    · exact runIter_iterR h ln vs ι _

theorem good_exec {B : Block S} : ∀ (r : R S), r.Good B → ∀ n, r.depth ≤ n → ∀ ι s, r.strip.exec (B.sub n) ι s = some (r.exec ι s)
  | .nil, _, _, _, _, _ => rfl
  | .act _ r, h, n, hn, ι, s => good_exec r h n hn ι _
  | .ite p t e r, h, n, hn, ι, s => by
    simp only [R.depth, Nat.max_le] at hn
    rw [R.strip, K.exec, R.exec, good_exec t h.1 n hn.1.1, good_exec e h.2.1 n hn.1.2]
    have : (if p ι s ≠ 0 then some (t.exec ι s) else some (e.exec ι s)) = some (if p ι s ≠ 0 then t.exec ι s else e.exec ι s) := by
      split <;> rfl
    rw [this, Option.bind_some]
    generalize (if p ι s ≠ 0 then t.exec ι s else e.exec ι s) = o
    cases ho : o.2 with
    | true => simp only [ho, if_true]
    | false => simp only [ho, Bool.false_eq_true, if_false]; exact good_exec r h.2.2 n hn.2 ι _
  | .loop ln vals b r, h, n, hn, ι, s => by
    simp only [R.depth, Nat.max_le] at hn
    obtain ⟨h1, h2, h3, h4⟩ := h
    cases n with
    | zero => omega
    | succ n =>
      have hb := good_exec b h3 n (by omega)
      rw [R.strip, K.exec, Block.sub, h1, h2, runIter_iterR hb, Option.bind_some, R.exec]
      exact good_exec r h4 (n + 1) hn.2 ι _
  | .brk r, _, _, _, _, _ => rfl

theorem find_last {ln : Nat} {vals : List Int} : ∀ l : List (Nat × List Int), (l.map fun x => x.1).Nodup → (ln, vals) ∈ l → range ln l = vals := by
  intro l hn hm
  simp only [range]
  split
  · rename_i x hx
    have h1 := List.find?_some hx
    have h2 := List.mem_reverse.1 (List.mem_of_find?_eq_some hx)
    simp only [beq_iff_eq] at h1
    have : x = (ln, vals) := by
      clear hx
      induction l with
      | nil => cases hm
      | cons y l ih =>
        rw [List.map_cons, List.nodup_cons] at hn
        rcases List.mem_cons.1 hm with rfl | hm
        · rcases List.mem_cons.1 h2 with rfl | h2
          · rfl
          · exact absurd (List.mem_map.2 ⟨x, h2, h1⟩) hn.1
        · rcases List.mem_cons.1 h2 with h3 | h2
          · subst h3
            exact absurd (List.mem_map.2 ⟨(ln, vals), by assumption, h1.symm⟩) hn.1
          · exact ih hn.2 (by assumption) h2
    rw [this]
  · rename_i hx
    rw [List.find?_eq_none] at hx
    exact absurd (hx (ln, vals) (List.mem_reverse.2 hm)) (by simp)

/-! ### Property C79 -/

/-- If no operand of `and` or `or` is a dropped `not`, loop variables are used in their loops only, and no line is met twice, the block
does what the function says. -/
theorem py_partial {keep : Nat → Env → Bool} {p : P S} {f : F S} {B : Block S} (hf : fv keep p (fun _ => none) = .ok f) (hu : f.Uniform)
    (hd : f.NoDrop) (hn : (f.made.map fun x => x.1).Nodup) (hc : p.Closed []) (hs : p.Static) (hB : elab_ keep p = .ok B) (s : S) :
    B.Runs s (run p (fun _ => none) s).s := by
  rw [elab_, hf, Res.ok_bind, Res.bind_eq_ok] at hB
  obtain ⟨r, hr, hB⟩ := hB
  simp only at hB
  split at hB
  · cases hB
    obtain ⟨h1, _⟩ := sim p [] _ f r hf hu hd hn (fun y hy => by cases hy) hc hs (fun y hy => by cases hy) hr noIter (fun _ => none) s
      (fun y hy => by cases hy)
    have hsub := iv_made f r hr
    have hg : r.Good ⟨r.strip, fun ln => range ln f.made, fun ln => r.bodies ln⟩ :=
      good r (hn.sublist (hsub.map _)) (fun x hx => find_last _ hn (hsub.mem hx)) (fun _ _ => rfl)
    refine ⟨r.depth, fun n hn => ⟨(run p (fun _ => none) s).br, ?_⟩⟩
    exact (good_exec r hg n hn noIter s).trans (by rw [h1])
  · cases hB

/-! ### A function that meets the hypotheses

The state is two numbers: an input and an output. -/

abbrev St := Int × Int

def lit (v : PyVal St) : Atom St := ⟨fun _ => v, fun _ => v⟩

/-- The input. -/
def inp : Atom St := lit (.var fun _ s => s.1)

def hwFlag : C St := .cmp .eq inp (lit (.int 1))

/-- `out = out * 2 + k`. -/
def put (k : Int) : Act St := fun _ => some fun _ s => (s.1, s.2 * 2 + k)

/-- `out = out * 2 + x` for a loop variable. -/
def putVar (x : Nat) : Act St := fun env => match env x with
  | some (.int k) => some fun _ s => (s.1, s.2 * 2 + k)
  | some (.iter l) => some fun ι s => (s.1, s.2 * 2 + ι l)
  | _ => none

def upTo (n : Nat) : Env → Option (Bool × List LV) := fun _ => some (true, (List.range n).map fun k => .int (Int.ofNat k))

/-- The loop variable is 1. -/
def isOne (x : Nat) : Atom St where
  val env := match env x with
    | some (.int k) => .bool (k == 1)
    | some (.iter l) => .var fun ι _ => if ι l = 1 then 1 else 0
    | _ => .other 0
  seen env := match env x with
    | some (.int k) => .bool (k == 1)
    | some (.iter l) => .var fun ι _ => if ι l = 1 then 1 else 0
    | _ => .other 0

/-- Two loops: the first, on line 5, has a test of its variable and one of the input; the second, on line 9, may be left early. -/
def twoLoops : P St :=
  .loop 0 5 (upTo 3) (.ite (.atom (isOne 0)) (.act (putVar 0) .nil) (.ite (.bl true (.cons hwFlag (.cons (.nt (.atom inp)) .nil))) .nil (.act (put 1) .nil) .nil) .nil)
    (.loop 0 9 (upTo 4) (.ite (.atom (isOne 0)) (.brk .nil) .nil (.act (putVar 0) .nil)) .nil)

/-- The first is unrolled, the second kept. -/
def keep9 : Nat → Env → Bool := fun ln _ => ln == 9

theorem upTo_static (n : Nat) (env : Env) (x : Bool × List LV) (h : upTo n env = some x) :
    (∀ ι, upTo n (res ι env) = some x) ∧ (x.1 = true → x.2 = (ints x.2).map .int) := by
  cases h
  refine ⟨fun _ => rfl, fun _ => ?_⟩
  have : ∀ l : List Nat, ints (l.map fun k => LV.int (Int.ofNat k)) = l.map Int.ofNat := by
    intro l
    induction l with
    | nil => rfl
    | cons a l ih => simp only [List.map_cons, ints, ih]
  simp only [this, List.map_map]
  rfl

example : ∃ f B, fv keep9 twoLoops (fun _ => none) = .ok f ∧ f.Uniform ∧ f.NoDrop ∧ (f.made.map fun x => x.1).Nodup ∧ twoLoops.Closed [] ∧
    twoLoops.Static ∧ elab_ keep9 twoLoops = .ok B ∧ (run twoLoops (fun _ => none) (3, 0)).s = (3, 14) := by
  refine ⟨_, _, rfl, ?_, ?_, ?_, ?_, ?_, rfl, rfl⟩
  · have hf : ∀ env : Env, C.All (Uniform env) hwFlag := fun env => ⟨fun _ _ => rfl, fun _ _ => rfl⟩
    have h1 : ∀ (x : Nat) (v : LV) (ι : Iter) (s : St), apply (putVar x (set (fun _ => none) x v)) ι s =
        apply (putVar x (res ι (set (fun _ => none) x v))) noIter s := by
      intro x v ι s
      simp only [putVar, res, set, if_true, Option.map_some]
      cases v <;> rfl
    have h2 : ∀ (x : Nat) (v : LV), Uniform (set (fun _ => none) x v) (isOne x) := by
      intro x v ι s
      simp only [isOne, res, set, if_true, Option.map_some]
      cases v with
      | int k => rfl
      | str k => rfl
      | iter l => simp only [LV.res, num]; congr 1; by_cases h : ι l = 1 <;> simp [h]
    have h3 : ∀ (env : Env) (ι : Iter) (s : St), apply (put 1 env) ι s = apply (put 1 (res ι env)) noIter s := fun _ _ _ => rfl
    have h4 : ∀ env : Env, C.All (Uniform env) (.bl true (.cons hwFlag (.cons (.nt (.atom inp)) .nil))) :=
      fun env => ⟨hf env, fun _ _ => rfl, trivial⟩
    refine ⟨h2 0 _, ⟨h1 0 _, trivial⟩, ⟨h4 _, trivial, ⟨h3 _, trivial⟩, trivial⟩, h2 0 _, ⟨h1 0 _, trivial⟩, ⟨h4 _, trivial, ⟨h3 _, trivial⟩, trivial⟩,
      h2 0 _, ⟨h1 0 _, trivial⟩, ⟨h4 _, trivial, ⟨h3 _, trivial⟩, trivial⟩, ⟨h2 0 _, trivial, trivial, h1 0 _, trivial⟩, trivial⟩
  · have h : ∀ env : Env, C.NoDrop env (.bl true (.cons hwFlag (.cons (.nt (.atom inp)) .nil))) := by
      intro env
      refine ⟨(fun d hd => by cases hd), trivial, (fun d hd => ?_), trivial, trivial⟩
      cases hd
      exact ⟨_, rfl⟩
    exact ⟨trivial, trivial, ⟨h _, trivial, trivial, trivial⟩, trivial, trivial, ⟨h _, trivial, trivial, trivial⟩, trivial, trivial,
      ⟨h _, trivial, trivial, trivial⟩, ⟨trivial, trivial, trivial, trivial⟩, trivial⟩
  · exact List.nodup_cons.2 ⟨List.not_mem_nil, List.nodup_nil⟩
  · have h1 : Only [0] (putVar 0) := by
      intro env env' h
      simp only [putVar, h 0 List.mem_cons_self]
    have h2 : Only [0] (isOne 0).val := by
      intro env env' h
      simp only [isOne, h 0 List.mem_cons_self]
    exact ⟨fun _ _ _ => rfl, ⟨h2, ⟨h1, trivial⟩, ⟨⟨⟨fun _ _ _ => rfl, fun _ _ _ => rfl⟩, fun _ _ _ => rfl, trivial⟩, trivial, ⟨fun _ _ _ => rfl, trivial⟩, trivial⟩, trivial⟩,
      fun _ _ _ => rfl, ⟨h2, trivial, trivial, h1, trivial⟩, trivial⟩
  · exact ⟨upTo_static 3, ⟨trivial, ⟨trivial, trivial, trivial⟩, trivial⟩, upTo_static 4, ⟨trivial, trivial, trivial⟩, trivial⟩

/-! ### Where the block does something else -/

theorem runs_unique {B : Block S} {s a b : S} (ha : B.Runs s a) (hb : B.Runs s b) : a = b := by
  obtain ⟨n, ha⟩ := ha
  obtain ⟨m, hb⟩ := hb
  obtain ⟨c, ha⟩ := ha (max n m) (Nat.le_max_left _ _)
  obtain ⟨d, hb⟩ := hb (max n m) (Nat.le_max_right _ _)
  rw [ha] at hb
  cases hb
  rfl

/-- `first and not last`, both true while the function is elaborated. -/
def firstNotLast : P St := .ite (.bl true (.cons (.atom (lit (.bool true))) (.cons (.nt (.atom (lit (.bool true)))) .nil))) (.act (put 1) .nil) .nil .nil

/-- `not` of a Python value among the operands of `and` is left out. -/
theorem drop_wrong (keep : Nat → Env → Bool) : ∃ B, elab_ keep firstNotLast = .ok B ∧ B.Runs (0, 0) (0, 1) ∧
    (run firstNotLast (fun _ => none) (0, 0)).s = (0, 0) :=
  ⟨_, rfl, ⟨0, fun _ _ => ⟨_, rfl⟩⟩, rfl⟩

/-- `x == 1 and not flag`. -/
def hwNotFlag : P St := .ite (.bl true (.cons hwFlag (.cons (.nt (.atom (lit (.bool true)))) .nil))) (.act (put 1) .nil) .nil .nil

theorem drop_hw_wrong (keep : Nat → Env → Bool) : ∃ B, elab_ keep hwNotFlag = .ok B ∧ B.Runs (1, 0) (1, 1) ∧
    (run hwNotFlag (fun _ => none) (1, 0)).s = (1, 0) :=
  ⟨_, rfl, ⟨0, fun _ _ => ⟨_, rfl⟩⟩, rfl⟩

/-- `x == 1 and not x`, where `x` is a hardware variable of the function and something else outside: names are looked up outside first. -/
def shadowed : P St := .ite (.bl true (.cons hwFlag (.cons (.nt (.atom ⟨fun _ => .var fun _ s => s.1, fun _ => .int 0⟩)) .nil))) (.act (put 1) .nil) .nil .nil

theorem shadow_wrong (keep : Nat → Env → Bool) : ∃ B, elab_ keep shadowed = .ok B ∧ B.Runs (1, 0) (1, 1) ∧
    (run shadowed (fun _ => none) (1, 0)).s = (1, 0) :=
  ⟨_, rfl, ⟨0, fun _ _ => ⟨_, rfl⟩⟩, rfl⟩

/-- A loop that is unrolled, around a test of hardware around a loop that is kept. -/
def nested : P St := .loop 0 5 (upTo 2) (.ite (.cmp .eq inp ⟨fun env => match env 0 with | some (.int k) => .int k | _ => .other 0,
    fun env => match env 0 with | some (.int k) => .int k | _ => .other 0⟩) (.loop 1 7 (upTo 1) (.act (putVar 0) .nil) .nil) .nil .nil) .nil

/-- Kept loops are found by their line: both copies of the inner loop are one loop with both bodies. -/
theorem line_wrong : ∃ B, elab_ (fun ln _ => ln == 7) nested = .ok B ∧ B.Runs (0, 1) (0, 5) ∧ (run nested (fun _ => none) (0, 1)).s = (0, 2) :=
  ⟨_, rfl, ⟨1, fun n hn => by obtain ⟨m, rfl⟩ : ∃ m, n = m + 1 := ⟨n - 1, by omega⟩; exact ⟨_, rfl⟩⟩, rfl⟩

/-- A loop whose range depends on the unrolled loop around it, in a branch that is known. -/
def inRange : P St := .loop 0 5 (upTo 2) (.ite (.atom (isOne 0)) .nil (.loop 1 7 (fun env => match env 0 with
    | some (.int k) => some (true, if k = 0 then [.int 0, .int 1] else [])
    | _ => none) (.act (putVar 1) .nil) .nil) .nil) .nil

/-- The loop keeps the range it would have in the branch that is left out. -/
theorem range_wrong : ∃ B, elab_ (fun ln _ => ln == 7) inRange = .ok B ∧ B.Runs (0, 1) (0, 1) ∧ (run inRange (fun _ => none) (0, 1)).s = (0, 5) :=
  ⟨_, rfl, ⟨1, fun n hn => by obtain ⟨m, rfl⟩ : ∃ m, n = m + 1 := ⟨n - 1, by omega⟩; exact ⟨_, rfl⟩⟩, rfl⟩

/-- A loop variable used after its loop, a name also known outside with the value 9. -/
def stale : P St := .loop 0 5 (upTo 2) .nil (.act (fun env => match env 0 with
    | some (.int k) => some fun _ s => (s.1, k)
    | _ => some fun _ s => (s.1, 9)) .nil)

theorem stale_wrong : ∃ B, elab_ (fun _ _ => false) stale = .ok B ∧ B.Runs (0, 0) (0, 9) ∧ (run stale (fun _ => none) (0, 0)).s = (0, 1) :=
  ⟨_, rfl, ⟨0, fun _ _ => ⟨_, rfl⟩⟩, rfl⟩

/-- The full claim fails. -/
theorem not_PyClaim : ¬ PyClaim := by
  intro h
  obtain ⟨B, hB, hr, hs⟩ := drop_wrong fun _ _ => false
  have := h St _ firstNotLast _ B rfl ⟨⟨fun _ _ => rfl, fun _ _ => rfl, trivial⟩, ⟨fun _ _ => rfl, trivial⟩, trivial, trivial⟩
    ⟨trivial, trivial, trivial⟩ hB (0, 0)
  rw [hs] at this
  cases runs_unique hr this

/-- `if not flag` with a Python `flag` is refused. -/
theorem not_flag_refused (keep : Nat → Env → Bool) (b : Bool) (t e : P St) {ft fe : F St} (ht : fv keep t (fun _ => none) = .ok ft)
    (he : fv keep e (fun _ => none) = .ok fe) : elab_ keep (.ite (.nt (.atom (lit (.bool b)))) t e .nil) = .throw .user := by
  simp only [elab_, fv, ht, he, Res.ok_bind, Res.ok_map, iv]
  rfl

/-- `x and flag`, with hardware and a Python value, is refused. -/
theorem mixed_refused (keep : Nat → Env → Bool) (b : Bool) (t e : P St) {ft fe : F St} (ht : fv keep t (fun _ => none) = .ok ft)
    (he : fv keep e (fun _ => none) = .ok fe) :
    elab_ keep (.ite (.bl true (.cons (.atom inp) (.cons (.atom (lit (.bool b))) .nil))) t e .nil) = .throw .user := by
  simp only [elab_, fv, ht, he, Res.ok_bind, Res.ok_map, iv]
  rfl

/-- A kept loop inside an unrolled one that runs more than once is refused. -/
theorem nested_refused : elab_ (fun ln _ => ln == 7) (.loop 0 5 (upTo 2) (.loop 1 7 (upTo 2) (.act (putVar 1) .nil) .nil) .nil : P St) =
    .throw .stmt := rfl

end Kratos.Elab
