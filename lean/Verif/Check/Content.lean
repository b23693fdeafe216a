import Verif.Seq.Gate

/-!
# The content of a design as the checks see it

The nodes a visitor can meet below a generator (`src/ir.cc:24-52`), with what the checks of `src/analysis.cc` look at.
Simplifications: variables that are not ports are alike; a node reached along several paths is a tree node for each
(the checks below only collect or compare, so that visiting a node once or twice is the same); variables have no slices as
children (the slices of a variable are visited by `visit_root`, and none of the checks below reacts to one).
-/

namespace Kratos.Content

export Kratos.Gate (Role)

/-- Unary operators as far as src/analysis.cc:310 tells them apart: `UNot`, `UInvert`, the others. -/
inductive Op1 where
  | not | invert | other
  deriving DecidableEq, Repr

/-- Kinds of functions (src/stmt.hh:364-458): defined in the design, tasks, imported ones, and system functions. -/
inductive Fn where
  | plain | task | dpi
  | builtin (name : String)
  deriving DecidableEq, Repr

mutual
/-- Expressions (src/expr.hh). `part` is a slice, a slice by a variable or a cast: what it is a part of is not among its
children (`Var::get_child`, src/expr.cc:278-288, is inherited). -/
inductive X where
  | port (p : Nat)
  | leaf
  | un (op : Op1) (a : X)
  | bin (a b : X)
  | cond (p a b : X)
  | concat (xs : Xs)
  | extend (a : X)
  | part (xs : Xs)
  | call (f : Fn) (args : Xs)
inductive Xs where
  | nil
  | cons (x : X) (xs : Xs)
end

mutual
/-- Statements (src/stmt.hh): assignments with or without a delay, conditionals, switches, loops, returns, calls, traced
events, delays, assertions; `other`: comments, raw text, breaks, instantiations. -/
inductive Nd where
  | assign (delayed : Bool) (l r : X)
  | ite (c : X) (t e : Nds)
  | switch (tgt : X) (bodies : Bodies)
  | loop (b : Nds)
  | ret (x : X)
  | callS (f : Fn) (args : Xs)
  | event
  | delay
  | assert (x : X)
  | other
inductive Nds where
  | nil
  | cons (s : Nd) (ss : Nds)
inductive Bodies where
  | nil
  | cons (b : Nds) (bs : Bodies)
end

/-- What an event control can be on (src/stmt.hh:89-95): a port, a cast to a role, something else. -/
inductive Sig where
  | port (p : Nat)
  | cast (t : Role) (v : Nat)
  | var (v : Nat)
  deriving DecidableEq, Repr

/-- `EventControl` (src/stmt.hh:89-104) of kind `Edge`; `pos`: a rising edge. -/
structure Ev where
  pos : Bool
  sig : Sig
  deriving DecidableEq, Repr

/-- `StatementBlockType` (src/stmt.hh:31). A block holds no blocks (src/stmt.cc:421-424), so that these stand at the top
level of a generator only. -/
inductive Kind where
  | comb (general : Bool)
  | seq (evs : List Ev)
  | latch | initial | final
  | func (f : Fn)
  deriving DecidableEq, Repr

/-- A statement at the top level of a generator, or a block. -/
inductive Item where
  | stmt (s : Nd)
  | block (k : Kind) (b : Nds)

mutual
/-- A generator: whether it is external, its statements and functions in the order of src/generator.cc:388-403, and its
child generators. -/
inductive Gen where
  | mk (external : Bool) (items : List Item) (kids : Gens)
inductive Gens where
  | nil
  | cons (g : Gen) (gs : Gens)
end

end Kratos.Content
