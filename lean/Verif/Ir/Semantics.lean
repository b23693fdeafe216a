import Verif.Ir.Syntax

/-!
# Specification: SystemVerilog meaning of expressions and procedural statements

Written from the language standard (IEEE 1800-2017 §11, §12), not from the code: 2-state
values, unsigned expressions, blocking assignments take effect at once, non-blocking
assignments are collected and applied at the end in execution order, `case` runs the first
matching item and `default` only when nothing matches.
-/

namespace Kratos.Ir

abbrev Store := VarId → Nat

/-- Number of set bits among the low `w` bits, modulo 2. -/
def parity : Nat → Nat → Nat
  | 0, _ => 0
  | w + 1, x => (x % 2 + parity w (x / 2)) % 2

def b2n (b : Bool) : Nat := if b then 1 else 0

def UnOp.sem (op : UnOp) (w x : Nat) : Nat :=
  match op with
  | .invert => 2 ^ w - 1 - x
  | .minus => (2 ^ w - x) % 2 ^ w
  | .plus => x
  | .or => b2n (x != 0)
  | .not => b2n (x == 0)
  | .and => b2n (x == 2 ^ w - 1)
  | .xor => parity w x

/-- Two's-complement reading of a `w`-bit pattern (only `>>>` needs it). -/
def BinOp.sem (op : BinOp) (w x y : Nat) : Nat :=
  match op with
  | .add => (x + y) % 2 ^ w
  | .minus => (x + (2 ^ w - y % 2 ^ w)) % 2 ^ w
  | .divide => x / y
  | .multiply => (x * y) % 2 ^ w
  | .mod => x % y
  | .lshr => x / 2 ^ y
  | .sshr => x / 2 ^ y
  | .shl => (x * 2 ^ y) % 2 ^ w
  | .or => x ||| y
  | .and => x &&& y
  | .xor => x ^^^ y
  | .power => (x ^ y) % 2 ^ w
  | .land => b2n (x != 0 && y != 0)
  | .lor => b2n (x != 0 || y != 0)
  | .lt => b2n (x < y)
  | .gt => b2n (x > y)
  | .le => b2n (x ≤ y)
  | .ge => b2n (x ≥ y)
  | .eq => b2n (x == y)
  | .neq => b2n (x != y)

/-- Bit pattern of a constant. -/
def pattern (w : Nat) (v : Int) : Nat := (v % 2 ^ w).toNat

/-- `n` copies of a `w`-bit value. -/
def repl : Nat → Nat → Nat → Nat
  | 0, _, _ => 0
  | n + 1, w, x => repl n w x * 2 ^ w + x

def Expr.eval (σ : Store) : Expr → Nat
  | .var v w => σ v % 2 ^ w
  | .const w v => pattern w v
  | .slice e hi lo => (e.eval σ / 2 ^ lo) % 2 ^ (hi - lo + 1)
  | .un op e => op.sem e.width (e.eval σ)
  | .bin op l r => op.sem l.width (l.eval σ) (r.eval σ)
  | .cond p l r => if p.eval σ ≠ 0 then l.eval σ else r.eval σ
  | .concat l r => l.eval σ * 2 ^ r.width + r.eval σ
  | .extend _ e => e.eval σ
  | .dup n e => repl n e.width (e.eval σ)

/-- Why execution of a block stopped early. -/
inductive Ctl where
  | run
  | brk
  | ret (v : Nat)
  deriving DecidableEq, Repr

structure St where
  /-- current values -/
  val : Store
  /-- pending non-blocking updates, oldest first -/
  nba : List (LVal × Nat)
  ctl : Ctl

/-- Replace bits `lo .. lo+len-1` of `old` by `x`. -/
def setBits (old lo len x : Nat) : Nat :=
  old / 2 ^ (lo + len) * 2 ^ (lo + len) + (x % 2 ^ len) * 2 ^ lo + old % 2 ^ lo

def Store.write (σ : Store) (l : LVal) (x : Nat) : Store :=
  fun v => if v = l.v then setBits (σ v) l.lo l.len x else σ v

/-- The values a `for` loop takes: `start, start+step, …` strictly before `stop`. -/
def iterValues (start stop step : Int) : List Int :=
  if step > 0 then
    (List.range ((stop - start + step - 1) / step).toNat).map (fun (i : Nat) => start + (i : Int) * step)
  else if step < 0 then
    (List.range ((start - stop + (-step) - 1) / (-step)).toNat).map (fun (i : Nat) => start + (i : Int) * step)
  else []

/-- A statement has an effect only while execution is running. -/
def guardRun (st : St) (x : St) : St := if st.ctl = .run then x else st

/-- End of a loop: a `break` is consumed and the loop variable goes out of scope. -/
def endLoop (iv : VarId) (st0 st : St) : St :=
  { val := fun v => if v = iv then st0.val iv else st.val v
    nba := st.nba
    ctl := if st.ctl = .brk then .run else st.ctl }

/-- Set the loop variable (32-bit). -/
def setIter (iv : VarId) (i : Int) (st : St) : St :=
  { st with val := fun v => if v = iv then pattern 32 i else st.val v }

mutual
/-- Big-step execution.  `ι n` is the meaning of the uninterpreted statement `other n`. -/
def Stmt.exec (ι : Nat → St → St) : Stmt → St → St
  | .assign nb l r, st => guardRun st
      (if nb then { st with nba := st.nba ++ [(l, r.eval st.val)] }
       else { st with val := st.val.write l (r.eval st.val) })
  | .ite c t e, st => guardRun st (if c.eval st.val ≠ 0 then t.exec ι st else e.exec ι st)
  | .switch tgt cs, st => guardRun st (cs.exec ι tgt.width (tgt.eval st.val) id st)
  | .for_ iv a b s body, st => guardRun st
      (endLoop iv st ((iterValues a b s).foldl
        (fun st i => guardRun st (body.exec ι (setIter iv i st))) st))
  | .ret e, st => guardRun st { st with ctl := .ret (e.eval st.val) }
  | .brk, st => guardRun st { st with ctl := .brk }
  | .other n, st => guardRun st (ι n st)
def Stmts.exec (ι : Nat → St → St) : Stmts → St → St
  | .nil, st => st
  | .cons s ss, st => ss.exec ι (s.exec ι st)
/-- `cs.exec w v k`: run the first item whose pattern equals `v`; `k` is the default seen so
far, used when no item matches. -/
def Cases.exec (ι : Nat → St → St) : Cases → Nat → Nat → (St → St) → St → St
  | .nil, _, _, k, st => k st
  | .cons none b cs, w, v, _, st => cs.exec ι w v (fun st => b.exec ι st) st
  | .cons (some c) b cs, w, v, k, st =>
      if pattern w c = v then b.exec ι st else cs.exec ι w v k st
end

/-- Apply pending non-blocking updates in order. -/
def St.commit (st : St) : Store := st.nba.foldl (fun σ p => σ.write p.1 p.2) st.val

/-- Two statements / blocks have the same behaviour in every state. -/
def Stmt.Equiv (a b : Stmt) : Prop := ∀ ι st, a.exec ι st = b.exec ι st
def Stmts.Equiv (a b : Stmts) : Prop := ∀ ι st, a.exec ι st = b.exec ι st

end Kratos.Ir
