import Verif.Base

/-!
# Parameter values and what depends on them

Model of src/expr.cc:325-400 (`Var::set_width_param`, `Var::set_size_param`), 1094-1100
(`Const::set_value`), 1175-1200 (`Param::set_value(int64_t)`), 1217-1237 and
src/expr.hh:485-524.

Parameters, variables and parameter expressions are numbered.  What an expression evaluates to
(`Simulator::static_evaluate_expr`, src/sim.cc:723-735) is a parameter of the model: any function
of the values of the parameters it mentions; `none` is the thrown exception (not static or not
positive).  The hash sets are lists, the theorems quantify over every order.  `int64_t` values are
integers.
-/

namespace Kratos.Param

/-- A width or size expression: the parameters in it (`ParamVisitor`) and its value. -/
structure WExpr where
  pars : List Nat
  eval : (Nat → Int) → Option Int
  dep : ∀ v v', (∀ p ∈ pars, v p = v' p) → eval v = eval v'

/-- The parameter `p` itself used as an expression. -/
def WExpr.par (p : Nat) : WExpr where
  pars := [p]
  eval v := if 0 < v p then some (v p) else none
  dep v v' h := by simp [h p (by simp)]

/-- `p + c` -/
def WExpr.plus (p : Nat) (c : Int) : WExpr where
  pars := [p]
  eval v := if 0 < v p + c then some (v p + c) else none
  dep v v' h := by simp [h p (by simp)]

/-- The objects. For a parameter: `value_`, `var_width_`, `is_signed_`, `param_vars_width_`,
`param_vars_size_`, `param_params_`, `parent_param_`.  For a variable: `var_width_`,
`width_param_`, `size_`, `size_param_` and, per dimension, one more than the largest index used by
a slice (0 if none). -/
structure St where
  val : Nat → Int
  pwidth : Nat → Nat
  psgn : Nat → Bool
  widthVars : Nat → List Nat
  sizeVars : Nat → List (Nat × Nat × Nat)
  kids : Nat → List Nat
  parent : Nat → Option Nat
  width : Nat → Int
  widthTie : Nat → Option Nat
  size : Nat → Nat → Int
  sizeTie : Nat → Nat → Option Nat
  used : Nat → Nat → Int

inductive Out where
  | ok | throw | ub
  deriving DecidableEq, Repr

/-- `Const::is_legal`, src/expr.cc:955-973, for the widths where it is defined (see C05). -/
def legal (v : Int) (w : Nat) (s : Bool) : Bool :=
  if s then decide (-(2 ^ (w - 1) : Nat) ≤ v) && decide (v < (2 ^ (w - 1) : Nat))
  else decide (0 ≤ v) && decide (v < (2 ^ w : Nat))

def upd {α : Type} (f : Nat → α) (k : Nat) (a : α) : Nat → α := fun j => if j = k then a else f j

/-- `emplace` into a set. -/
def insert {α : Type} [DecidableEq α] (a : α) (l : List α) : List α := if a ∈ l then l else a :: l

section
variable (E : Nat → WExpr)

/-- `Var::set_size_param(index, param)`, src/expr.cc:355-400, with a parameter expression. -/
def setSize (st : St) (x i e : Nat) : St × Out :=
  match (E e).eval st.val with
  | none => (st, .throw)
  | some d =>
    if d < st.used x i then (st, .throw)
    else ({ st with
      size := upd st.size x (upd (st.size x) i d)
      sizeTie := upd st.sizeTie x (upd (st.sizeTie x) i (some e))
      sizeVars := fun p => if p ∈ (E e).pars then insert (x, i, e) (st.sizeVars p) else st.sizeVars p }, .ok)

/-- The loop over `param_vars_size_`, src/expr.cc:1191-1193. -/
def setSizes (st : St) : List (Nat × Nat × Nat) → St × Out
  | [] => (st, .ok)
  | (x, i, e) :: ts =>
    match setSize E st x i e with
    | (st', .ok) => setSizes st' ts
    | r => r

/-- The loop over `param_params_`, src/expr.cc:1196-1198. -/
def forKids (f : St → Nat → St × Out) (st : St) : List Nat → St × Out
  | [] => (st, .ok)
  | c :: cs =>
    match f st c with
    | (st', .ok) => forKids f st' cs
    | r => r

/-- `Param::set_value(int64_t)`, src/expr.cc:1175-1200.  State changes made before an exception
stay.  `n` bounds the depth of the recursion; running out of it is stack overflow. -/
def setValue : Nat → St → Nat → Int → St × Out
  | 0, st, _, _ => (st, .ub)
  | n + 1, st, p, v =>
    if v ≤ 0 ∧ st.widthVars p ≠ [] then (st, .throw)
    else if legal v (st.pwidth p) (st.psgn p) = false then (st, .throw)
    else
      let st1 := { st with
        val := upd st.val p v
        width := fun x => if x ∈ st.widthVars p then v else st.width x }
      match setSizes E st1 (st.sizeVars p) with
      | (st2, .ok) => forKids (fun s c => setValue n s c v) st2 (st.kids p)
      | r => r

/-- `Param::set_value(const std::shared_ptr<Param> &)`, src/expr.cc:1230-1237. -/
def setParent (n : Nat) (st : St) (c p : Nat) : St × Out :=
  let st1 := { st with
    kids := upd st.kids p (insert c (st.kids p))
    parent := upd st.parent c (some p) }
  setValue E n st1 c (st1.val p)

/-- `Var::set_width_param(param)`, src/expr.cc:325-351. -/
def tieWidth (st : St) (x e : Nat) : St × Out :=
  match (E e).eval st.val with
  | none => (st, .throw)
  | some w => ({ st with
      width := upd st.width x w
      widthTie := upd st.widthTie x (some e)
      widthVars := fun p => if p ∈ (E e).pars then insert x (st.widthVars p) else st.widthVars p }, .ok)

/-- `Var::set_width_param(nullptr)`, src/expr.cc:326-337: it adds the variable again. -/
def untieWidth (st : St) (x : Nat) : St × Out :=
  match st.widthTie x with
  | none => (st, .ok)
  | some e => ({ st with
      widthTie := upd st.widthTie x none
      widthVars := fun p => if p ∈ (E e).pars then insert x (st.widthVars p) else st.widthVars p }, .ok)

/-- `Var::set_size_param(index, nullptr)`, src/expr.cc:361-374. -/
def untieSize (st : St) (x i : Nat) : St × Out :=
  match st.sizeTie x i with
  | none => (st, .ok)
  | some e => ({ st with
      sizeTie := upd st.sizeTie x (upd (st.sizeTie x) i none)
      sizeVars := fun p => if p ∈ (E e).pars then (st.sizeVars p).filter (· ≠ (x, i, e)) else st.sizeVars p }, .ok)

inductive Call where
  | setValue (p : Nat) (v : Int)
  | setParent (c p : Nat)
  | tieWidth (x e : Nat)
  | untieWidth (x : Nat)
  | tieSize (x i e : Nat)
  | untieSize (x i : Nat)

def call (n : Nat) (st : St) : Call → St × Out
  | .setValue p v => setValue E n st p v
  | .setParent c p => setParent E n st c p
  | .tieWidth x e => tieWidth E st x e
  | .untieWidth x => untieWidth E st x
  | .tieSize x i e => setSize E st x i e
  | .untieSize x i => untieSize E st x i

end
end Kratos.Param
