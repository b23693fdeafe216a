import Verif.Eval.Props
import Verif.Const.Props

/-!
# Narrowing of loop index expressions

A loop variable is 32 bits wide.  Where an expression of loop variables meets a place of another
width (an assignment, an array index, the operand of an operator), the library decides whether the
values fit, by evaluating the expression at a few points, and then rewrites the expression to the
other width.  Model of src/expr.cc:684-700, 726-779, 2115-2242, src/stmt.cc:138-172, 353-362.

Simplifications: scalars; expressions are trees of loop variables, constants, design variables,
resize casts and two-operand operators (no unary operators, concatenations, slices or
parameters); the sharing of a constant between expressions is not modelled (see the model in
`Width/Model.lean`).
-/

namespace Kratos.LoopIndex
open Kratos.Eval (U64 BinOp)
open Kratos.Const (Legal)

/-- The arguments of `ForStmt::ForStmt`, src/stmt.cc:353-362. -/
structure Loop where
  start : Int
  stop : Int
  step : Int
  deriving DecidableEq, Repr

/-- `sign` in src/stmt.cc:357, the signedness of the loop variable. -/
def Loop.sgn (l : Loop) : Bool := decide (l.start < 0) || decide (l.stop < 0)

/-- Expression objects: an `IterVar`, a resizing `VarCasted`, a `Const`, a design variable and an
`Expr`. -/
inductive E where
  | iter (k : Nat)
  | cast (e : E) (w : Nat)
  | const (v : U64) (w : Nat) (s : Bool)
  | var (k : Nat) (w : Nat) (s : Bool)
  | bin (op : BinOp) (l r : E)
  deriving DecidableEq, Repr

/-- `is_relational_op`, src/expr.cc:28-33. -/
def isRel : BinOp → Bool
  | .lt | .gt | .le | .ge | .eq | .neq => true
  | _ => false

/-- `width()`: 32 for a loop variable (src/expr.cc:2119), `Expr::width` (src/expr.cc:806-818). -/
def width : E → Res Nat
  | .iter _ => .ok 32
  | .cast _ w => .ok w
  | .const _ w _ => .ok w
  | .var _ w _ => .ok w
  | .bin op l r =>
    if isRel op then .ok 1
    else (width l).bind fun a => (width r).bind fun b => if a ≠ b then .throw .var else .ok a

/-- `is_signed()`; a cast is created with `false` (src/expr.cc:1018), an operator is signed when
both operands are (src/expr.cc:775-776). -/
def sgn (L : Nat → Loop) : E → Bool
  | .iter k => (L k).sgn
  | .cast _ _ => false
  | .const _ _ s => s
  | .var _ _ s => s
  | .bin _ l r => sgn L l && sgn L r

/-- `IterVar::has_iter_var`, src/expr.cc:2203-2214. -/
def hasIter : E → Bool
  | .iter _ => true
  | .bin _ l r => hasIter l || hasIter r
  | _ => false

/-- `extract_iter_var`, src/expr.cc:2124-2133. -/
def extract : E → List Nat
  | .iter k => [k]
  | .bin _ l r => extract l ++ extract r
  | _ => []

/-- The addresses the function-local static simulator keeps values for. -/
inductive Key where
  | iter (k : Nat)
  | var (k : Nat)
  deriving DecidableEq, Repr

/-- `Simulator::values_` of that simulator. -/
abbrev Vals := Key → Option U64

/-- `Simulator::set_i` with no evaluation, src/sim.cc:561-569: the value is cut to the width of the
variable, which is 32. -/
def setI (vals : Vals) (k : Nat) (v : Int) : Res Vals :=
  (Eval.truncate (BitVec.ofInt 64 v) 32).bind fun x =>
    .ok fun y => if y = .iter k then some x else vals y

/-- `Simulator::eval_expr` and `get_value_` on these expressions, src/sim.cc:197-268, 765-837.  A
cast is an object of its own, for which no value was ever set. -/
def simEval (cpow : U64 → U64 → Res U64) (L : Nat → Loop) (vals : Vals) : E → Res (Option U64)
  | .iter k => .ok (vals (.iter k))
  | .cast _ _ => .ok none
  | .const v _ _ => .ok (some v)
  | .var k _ _ => .ok (vals (.var k))
  | .bin op l r => (simEval cpow L vals l).bind fun a =>
      match a with
      | none => .ok none
      | some a => (simEval cpow L vals r).bind fun b =>
        match b with
        | none => .ok none
        | some b => (width (.bin op l r)).bind fun w =>
          (Eval.evalBin cpow a b op w (sgn L (.bin op l r))).bind fun x => .ok (some x)

/-- Evaluate, convert and compare: src/expr.cc:2165-2170 and 2175-2180 with `convert_value`
(src/expr.cc:2135-2147), which keeps the 64 bits as they are. -/
def fitsNow (cpow : U64 → U64 → Res U64) (L : Nat → Loop) (vals : Vals) (e : E) (t : Nat)
    (s : Bool) : Res Bool :=
  (simEval cpow L vals e).bind fun v =>
    match v with
    | none => .ok false
    | some x => (Const.isLegal x t s).bind fun r => .ok (decide (r = Legal.legal))

/-- `safe_to_resize_`, src/expr.cc:2149-2186.  The queue is a list; what is pushed back after the
recursive call is never read again. -/
def safeLoop (cpow : U64 → U64 → Res U64) (L : Nat → Loop) (e : E) (t : Nat) (s : Bool) :
    List Nat → Vals → Res Bool
  | [], _ =>
    match e with
    | .var _ w _ => .ok (decide (w ≤ t))
    | _ => .ok true
  | k :: ks, vals =>
    (setI vals k (L k).start).bind fun v1 =>
    (fitsNow cpow L v1 e t s).bind fun a =>
    if !a then .ok false
    else (setI v1 k ((L k).stop - 1)).bind fun v2 =>
      (fitsNow cpow L v2 e t s).bind fun b =>
      if !b then .ok false else safeLoop cpow L e t s ks v2

/-- The loop of src/expr.cc:2196-2199: every loop variable starts at its last value. -/
def setAll (L : Nat → Loop) : List Nat → Vals → Res Vals
  | [], vals => .ok vals
  | k :: ks, vals => (setI vals k ((L k).stop - 1)).bind fun v => setAll L ks v

/-- `IterVar::safe_to_resize`, src/expr.cc:2188-2204.  `vals` is what earlier calls left in the
static simulator. -/
def safe (cpow : U64 → U64 → Res U64) (L : Nat → Loop) (vals : Vals) (e : E) (t : Nat) (s : Bool) :
    Res Bool :=
  (setAll L (extract e) vals).bind fun v => safeLoop cpow L e t s (extract e) v

/-- `IterVar::fix_width`, src/expr.cc:2219-2242, which changes the operands of an `Expr` in place:
the object afterwards, and how the call ended.  `Const::set_width`, src/expr.cc:1123-1129. -/
def fixWidth (t : Nat) : E → E × Res Unit
  | .iter k => (.cast (.iter k) t, .ok ())
  | .const v w s =>
    match Const.isLegal v t s with
    | .ok .legal => (.const v t s, .ok ())
    | .ok _ => (.const v w s, .throw .var)
    | .throw x => (.const v w s, .throw x)
    | .ub => (.const v w s, .ub)
  | .bin op l r =>
    match fixWidth t l with
    | (l', .ok ()) => (.bin op l' (fixWidth t r).1, (fixWidth t r).2)
    | (l', x) => (.bin op l' r, x)
  | .cast e w => (.cast e w, .throw .user)
  | .var k w s => (.var k w s, .throw .user)

/-- The end of both callers: the width after the rewriting has to be the requested one
(src/stmt.cc:165, src/expr.cc:692). -/
def finish (w : Nat) (r : E × Res Unit) : E × Res Unit :=
  (r.1, r.2.bind fun _ => (width r.1).bind fun x => if x ≠ w then .throw .var else .ok ())

/-- The width check of `AssignStmt::AssignStmt`, src/stmt.cc:138-172, for a scalar of width `w` and
sign `s` on the left: the right-hand side afterwards and how the call ended. -/
def assign (cpow : U64 → U64 → Res U64) (L : Nat → Loop) (vals : Vals) (w : Nat) (s : Bool)
    (e : E) : E × Res Unit :=
  if s ≠ sgn L e then (e, .throw .var)
  else match width e with
    | .ok we =>
      if w = we then (e, .ok ())
      else match e with
        | .const v cw cs =>
          match Const.isLegal v w s with
          | .ok .legal => finish w (fixWidth w (.const v cw cs))
          | .ok _ => (e, .throw .var)
          | .throw x => (e, .throw x)
          | .ub => (e, .ub)
        | e =>
          if hasIter e then
            match safe cpow L vals e w s with
            | .ok true => finish w (fixWidth w e)
            | .ok false => (e, .throw .var)
            | .throw x => (e, .throw x)
            | .ub => (e, .ub)
          else (e, .throw .var)
    | .throw x => (e, .throw x)
    | .ub => (e, .ub)

/-- The index check of `VarVarSlice::VarVarSlice`, src/expr.cc:684-700, for an index of `req`
bits: the index expression afterwards and how the call ended.  The second call to
`safe_to_resize` (src/expr.cc:694) has no effect besides the answer, which is dropped. -/
def index (cpow : U64 → U64 → Res U64) (L : Nat → Loop) (vals : Vals) (req : Nat) (e : E) :
    E × Res Unit :=
  match width e with
  | .ok we =>
    if req < we then
      if hasIter e then
        match safe cpow L vals e req false with
        | .ok true => finish req (fixWidth req e)
        | .ok false => (e, .throw .var)
        | .throw x => (e, .throw x)
        | .ub => (e, .ub)
      else (e, .throw .var)
    else (e, .ok ())
  | .throw x => (e, .throw x)
  | .ub => (e, .ub)

/-- `Expr::Expr` (src/expr.cc:742-779) for an operator other than a shift, a loop index expression
on the left and the design variable `x` of width `w` and sign `s` on the right; `resize_var`,
src/expr.cc:726-739. -/
def operator (cpow : U64 → U64 → Res U64) (L : Nat → Loop) (vals : Vals) (op : BinOp) (e : E)
    (x w : Nat) (s : Bool) : Res E :=
  (width e).bind fun we =>
    if we = w then .ok (.bin op e (.var x w s))
    else (safe cpow L vals e w s).bind fun a =>
      if a then .ok (.bin op (.cast e w) (.var x w s))
      else if w ≤ we then .ok (.bin op e (.cast (.var x w s) we))
      else .throw .var

/-! ## Specification -/

/-- The loop goes on at `v`: the condition printed by src/codegen.cc:963-965. -/
def Loop.Goes (l : Loop) (v : Int) : Prop := if l.start < l.stop then v < l.stop else l.stop < v

instance (l : Loop) (v : Int) : Decidable (l.Goes v) := by unfold Loop.Goes; infer_instance

/-- `v` is a value the loop variable takes in some iteration. -/
def Loop.Takes (l : Loop) (v : Int) : Prop :=
  ∃ n : Nat, v = l.start + n * l.step ∧ ∀ i : Nat, i ≤ n → l.Goes (l.start + i * l.step)

/-- What the loop variables and the design variables hold. -/
structure Env where
  iter : Nat → Int
  var : Nat → Nat

/-- One iteration of the nest of loops: every loop variable holds one of its values. -/
def Iteration (L : Nat → Loop) (σ : Env) : Prop := ∀ k, (L k).Takes (σ.iter k)

/-- Bits of an expression in SystemVerilog. -/
def bits : E → Nat
  | .iter _ => 32
  | .cast _ w => w
  | .const _ w _ => w
  | .var _ w _ => w
  | .bin op l r =>
    match op with
    | .eq | .neq | .lt | .le | .gt | .ge | .land | .lor => 1
    | _ => max (bits l) (bits r)

/-- SystemVerilog's unsigned operators on `b` bits (a quotient by zero, unknown in SystemVerilog,
is 0 here). -/
def opOn (op : BinOp) (b x y : Nat) : Nat :=
  match op with
  | .add => (x + y) % 2 ^ b
  | .minus => (x + 2 ^ b - y) % 2 ^ b
  | .multiply => (x * y) % 2 ^ b
  | .divide => x / y
  | .mod => x % y
  | .power => (x ^ y) % 2 ^ b
  | .and => x &&& y
  | .or => x ||| y
  | .xor => x ^^^ y
  | .eq => (x == y).toNat
  | .neq => (x != y).toNat
  | .lt => (decide (x < y)).toNat
  | .le => (decide (x ≤ y)).toNat
  | .gt => (decide (y < x)).toNat
  | .ge => (decide (y ≤ x)).toNat
  | .lshr | .sshr => x >>> y
  | .shl => (x <<< y) % 2 ^ b
  | .land => (x != 0 && y != 0).toNat
  | .lor => (x != 0 || y != 0).toNat

/-- The value of an unsigned expression, as SystemVerilog computes it when the place it stands in
is not wider than the expression. -/
def value (σ : Env) : E → Nat
  | .iter k => (σ.iter k % 2 ^ 32).toNat
  | .cast e w => value σ e % 2 ^ w
  | .const v w _ => v.toNat % 2 ^ w
  | .var x w _ => σ.var x % 2 ^ w
  | .bin op l r => opOn op (max (bits l) (bits r)) (value σ l) (value σ r)

/-- An index expression as it is written: loop variables, and constants that took the 32 bits and
the sign of the loop variable they met (src/expr.cc:68-160). -/
def Written : E → Prop
  | .iter _ => True
  | .const v w s => w = 32 ∧ s = false ∧ v.toNat < 2 ^ 32
  | .bin _ l r => Written l ∧ Written r
  | _ => False

/-- The loops never count below zero. -/
def Unsigned (L : Nat → Loop) : Prop := ∀ k, 0 ≤ (L k).start ∧ 0 ≤ (L k).stop

/-- The claim: an accepted assignment of an index expression leaves the value of the expression as
it was, in every iteration. -/
def NarrowClaim : Prop :=
  ∀ (cpow : U64 → U64 → Res U64) (L : Nat → Loop) (vals : Vals) (w : Nat) (e e' : E),
    Unsigned L → Written e → hasIter e = true → assign cpow L vals w false e = (e', .ok ()) →
    ∀ σ, Iteration L σ → value σ e' = value σ e

/-- The other half: an expression whose value fits in every iteration is accepted. -/
def AcceptClaim : Prop :=
  ∀ (cpow : U64 → U64 → Res U64) (L : Nat → Loop) (vals : Vals) (w : Nat) (e : E),
    Unsigned L → Written e → hasIter e = true → 1 ≤ w → w ≤ 32 →
    (∀ σ, Iteration L σ → value σ e < 2 ^ w) → (assign cpow L vals w false e).2 = .ok ()

/-- Sums and products of loop variables and constants. -/
def SumProd : E → Prop
  | .iter _ => True
  | .const v w s => w = 32 ∧ s = false ∧ v.toNat < 2 ^ 32
  | .bin op l r => (op = .add ∨ op = .multiply) ∧ SumProd l ∧ SumProd r
  | _ => False

/-- The number a sum or product stands for, without any wrapping. -/
def exact (f : Nat → Nat) : E → Nat
  | .iter k => f k
  | .const v _ _ => v.toNat
  | .bin .add l r => exact f l + exact f r
  | .bin .multiply l r => exact f l * exact f r
  | _ => 0

/-- Loops that count upwards from a natural number. -/
def Up (L : Nat → Loop) : Prop :=
  ∀ k, 0 ≤ (L k).start ∧ (L k).start < (L k).stop ∧ (L k).stop ≤ 2 ^ 32 ∧ 0 < (L k).step

/-- The last number below the bound of each loop. -/
def last (L : Nat → Loop) (k : Nat) : Nat := ((L k).stop - 1).toNat

/-! ## Lemmas -/

variable {cpow : U64 → U64 → Res U64}

theorem legal_lt {x : U64} {t : Nat} (h : Const.isLegal x t false = .ok .legal) :
    x.toNat < 2 ^ t := by
  unfold Const.isLegal at h
  simp only [Bool.false_eq_true, if_false] at h
  by_cases ht : t = 64
  · subst ht; exact x.isLt
  · simp only [if_neg ht, Eval.shl] at h
    by_cases h64 : t < 64
    · simp only [if_pos h64, Res.ok_bind] at h
      by_cases hc : (1#64 <<< t - 1#64) < x
      · simp [hc] at h
      · have hp : 2 ^ t < 2 ^ 64 := Nat.pow_lt_pow_right (by decide) h64
        have hp0 : 0 < 2 ^ t := Nat.pow_pos (by decide)
        have hx : (1#64 <<< t - 1#64).toNat = 2 ^ t - 1 := by
          rw [BitVec.toNat_sub, BitVec.toNat_shiftLeft]
          simp only [BitVec.toNat_ofNat, Nat.shiftLeft_eq]
          rw [show 1 % 2 ^ 64 = 1 from rfl, Nat.one_mul, Nat.mod_eq_of_lt hp,
            show 2 ^ 64 - 1 + 2 ^ t = (2 ^ t - 1) + 2 ^ 64 from by omega, Nat.add_mod_right]
          exact Nat.mod_eq_of_lt (by omega)
        have : ¬ (1#64 <<< t - 1#64).toNat < x.toNat := fun e => hc (BitVec.lt_def.mpr e)
        omega
    · simp [if_neg h64] at h

theorem lt_legal {x : U64} {t : Nat} (h1 : 1 ≤ t) (h2 : t ≤ 64) (h : x.toNat < 2 ^ t) :
    Const.isLegal x t false = .ok .legal := by
  obtain ⟨r, hr, hi, -⟩ := Const.isLegal_iff h1 h2 false x
  rw [hr, hi.mpr ?_]
  simp only [Const.Representable, Const.number, Bool.false_eq_true, if_false]
  refine ⟨by omega, ?_⟩
  exact_mod_cast h

/-- A loop variable set to a natural number holds it. -/
theorem setI_ok (vals : Vals) (k : Nat) {v : Int} (h0 : 0 ≤ v) (h1 : v < 2 ^ 32) :
    setI vals k v = .ok fun y => if y = .iter k then some (BitVec.ofNat 64 v.toNat) else vals y := by
  obtain ⟨x, hx, hv⟩ := Eval.truncate_mod (w := 32) (by decide) (by decide) (BitVec.ofInt 64 v)
  unfold setI
  rw [hx, Res.ok_bind]
  have : x = BitVec.ofNat 64 v.toNat := by
    apply BitVec.eq_of_toNat_eq
    rw [hv, BitVec.toNat_ofInt, BitVec.toNat_ofNat]
    omega
  rw [this]

/-- The simulator computes a sum or product modulo `2^32`. -/
theorem sim_sum {L : Nat → Loop} (hL : ∀ k, (L k).sgn = false) {vals : Vals} {f : Nat → Nat} :
    ∀ e, SumProd e → (∀ k ∈ extract e, f k < 2 ^ 32 ∧ vals (.iter k) = some (BitVec.ofNat 64 (f k))) →
      width e = .ok 32 ∧ sgn L e = false ∧
      ∃ x, simEval cpow L vals e = .ok (some x) ∧ x.toNat = exact f e % 2 ^ 32 := by
  intro e
  induction e with
  | iter k =>
    intro _ hv
    obtain ⟨h1, h2⟩ := hv k (by simp [extract])
    refine ⟨rfl, hL k, _, by rw [simEval, h2], ?_⟩
    rw [BitVec.toNat_ofNat, exact]
    omega
  | cast e w _ => intro h; exact h.elim
  | var k w s => intro h; exact h.elim
  | const v w s =>
    intro h _
    obtain ⟨rfl, rfl, hv⟩ := h
    exact ⟨rfl, rfl, v, rfl, (Nat.mod_eq_of_lt hv).symm⟩
  | bin op l r ihl ihr =>
    intro h hv
    obtain ⟨ho, hl, hr⟩ := h
    obtain ⟨wl, sl, a, ha, ea⟩ := ihl hl fun k hk => hv k (List.mem_append_left _ hk)
    obtain ⟨wr, sr, b, hb, eb⟩ := ihr hr fun k hk => hv k (List.mem_append_right _ hk)
    have hw : width (.bin op l r) = .ok 32 := by
      rcases ho with rfl | rfl <;> simp [width, isRel, wl, wr]
    have hs : sgn L (.bin op l r) = false := by rw [sgn, sl, Bool.false_and]
    have fa : Eval.Fits 32 a := by unfold Eval.Fits; rw [ea]; exact Nat.mod_lt _ (by decide)
    have fb : Eval.Fits 32 b := by unfold Eval.Fits; rw [eb]; exact Nat.mod_lt _ (by decide)
    have wk : Eval.WidthOk false 32 := ⟨by decide, Or.inl (by decide)⟩
    refine ⟨hw, hs, ?_⟩
    rcases ho with rfl | rfl
    · obtain ⟨x, hx, hm⟩ := Eval.fold_arith (cpow := cpow) wk fa fb (op := .add) rfl
      refine ⟨x, ?_, ?_⟩
      · simp only [simEval, ha, hb, hw, hs, hx, Res.ok_bind]
      · simp only [Eval.denote, Bool.false_eq_true, false_and, if_false] at hm
        rw [exact]
        omega
    · obtain ⟨x, hx, hm⟩ := Eval.fold_arith (cpow := cpow) wk fa fb (op := .multiply) rfl
      refine ⟨x, ?_, ?_⟩
      · simp only [simEval, ha, hb, hw, hs, hx, Res.ok_bind]
      · simp only [Eval.denote, Bool.false_eq_true, false_and, if_false] at hm
        rw [exact]
        have h2 : x.toNat = a.toNat * b.toNat % 2 ^ 32 := by
          have : ((a.toNat : Int) * b.toNat) = ((a.toNat * b.toNat : Nat) : Int) := by simp
          rw [this] at hm
          omega
        rw [h2, ea, eb, ← Nat.mul_mod]

theorem value_sum {σ : Env} {f : Nat → Nat} (hf : ∀ k, σ.iter k = f k ∧ f k < 2 ^ 32) :
    ∀ e, SumProd e → bits e = 32 ∧ value σ e = exact f e % 2 ^ 32 := by
  intro e
  induction e with
  | iter k =>
    intro _
    obtain ⟨h1, h2⟩ := hf k
    refine ⟨rfl, ?_⟩
    rw [value, exact, h1]
    omega
  | cast e w _ => intro h; exact h.elim
  | var k w s => intro h; exact h.elim
  | const v w s =>
    intro h
    obtain ⟨rfl, rfl, hv⟩ := h
    exact ⟨rfl, rfl⟩
  | bin op l r ihl ihr =>
    intro h
    obtain ⟨ho, hl, hr⟩ := h
    obtain ⟨bl, vl⟩ := ihl hl
    obtain ⟨br, vr⟩ := ihr hr
    rcases ho with rfl | rfl
    · refine ⟨by simp [bits, bl, br], ?_⟩
      simp only [value, opOn, bl, br, vl, vr, exact, Nat.max_self]
      exact (Nat.add_mod _ _ _).symm
    · refine ⟨by simp [bits, bl, br], ?_⟩
      simp only [value, opOn, bl, br, vl, vr, exact, Nat.max_self]
      exact (Nat.mul_mod _ _ _).symm

theorem fix_sum {σ : Env} {f : Nat → Nat} (hf : ∀ k, σ.iter k = f k ∧ f k < 2 ^ 32) {t : Nat} :
    ∀ e e', SumProd e → fixWidth t e = (e', .ok ()) →
      bits e' = t ∧ width e' = .ok t ∧ value σ e' = exact f e % 2 ^ t := by
  intro e
  induction e with
  | iter k =>
    intro e' _ h
    simp only [fixWidth, Prod.mk.injEq, and_true] at h
    subst h
    obtain ⟨h1, h2⟩ := hf k
    refine ⟨rfl, rfl, ?_⟩
    have hz : ((f k : Int) % 2 ^ 32).toNat = f k := by omega
    rw [value, value, exact, h1, hz]
  | cast e w _ => intro _ h; exact h.elim
  | var k w s => intro _ h; exact h.elim
  | const v w s =>
    intro e' h hx
    obtain ⟨rfl, rfl, hv⟩ := h
    rw [fixWidth] at hx
    split at hx <;> simp only [Prod.mk.injEq, and_true, reduceCtorEq, and_false] at hx
    subst hx
    exact ⟨rfl, rfl, rfl⟩
  | bin op l r ihl ihr =>
    intro e' h hx
    obtain ⟨ho, hl, hr⟩ := h
    rw [fixWidth] at hx
    split at hx
    · rename_i l' hl'
      simp only [Prod.mk.injEq] at hx
      obtain ⟨rfl, hx⟩ := hx
      obtain ⟨bl, wl, vl⟩ := ihl l' hl hl'
      obtain ⟨br, wr, vr⟩ := ihr (fixWidth t r).1 hr (by rw [← hx])
      rcases ho with rfl | rfl
      · refine ⟨by simp [bits, bl, br], by simp [width, isRel, wl, wr], ?_⟩
        simp only [value, opOn, bl, br, vl, vr, exact, Nat.max_self]
        exact (Nat.add_mod _ _ _).symm
      · refine ⟨by simp [bits, bl, br], by simp [width, isRel, wl, wr], ?_⟩
        simp only [value, opOn, bl, br, vl, vr, exact, Nat.max_self]
        exact (Nat.mul_mod _ _ _).symm
    · rename_i x hno hl'
      simp only [Prod.mk.injEq] at hx
      obtain ⟨rfl, rfl⟩ := hx
      exact (hno rfl).elim

theorem exact_mono {f g : Nat → Nat} (h : ∀ k, f k ≤ g k) : ∀ e, exact f e ≤ exact g e := by
  intro e
  induction e with
  | iter k => exact h k
  | cast e w _ => exact Nat.le_refl _
  | var k w s => exact Nat.le_refl _
  | const v w s => exact Nat.le_refl _
  | bin op l r ihl ihr =>
    cases op <;> simp only [exact, Nat.le_refl]
    · exact Nat.add_le_add ihl ihr
    · exact Nat.mul_le_mul ihl ihr

theorem Up.sgn {L : Nat → Loop} (h : Up L) (k : Nat) : (L k).sgn = false := by
  obtain ⟨h1, h2, -, -⟩ := h k
  have : ¬ (L k).start < 0 := by omega
  have h3 : ¬ (L k).stop < 0 := by omega
  simp [Loop.sgn, this, h3]

theorem Up.last {L : Nat → Loop} (h : Up L) (k : Nat) :
    last L k < 2 ^ 32 ∧ (L k).stop - 1 = LoopIndex.last L k := by
  obtain ⟨h1, h2, h3, -⟩ := h k
  unfold LoopIndex.last
  omega

theorem Up.takes {L : Nat → Loop} (h : Up L) {σ : Env} (hσ : Iteration L σ) (k : Nat) :
    σ.iter k = ((σ.iter k).toNat : Int) ∧ (σ.iter k).toNat ≤ LoopIndex.last L k := by
  obtain ⟨h1, h2, h3, h4⟩ := h k
  obtain ⟨n, hn, hg⟩ := hσ k
  have h5 := hg n (Nat.le_refl _)
  rw [← hn, Loop.Goes, if_pos h2] at h5
  have h6 : 0 ≤ (n : Int) * (L k).step := Int.mul_nonneg (by omega) (by omega)
  unfold LoopIndex.last
  omega

/-- The values the simulator holds once all loop variables are set to their last value. -/
def AtLast (L : Nat → Loop) (ks : List Nat) (vals : Vals) : Prop :=
  ∀ k ∈ ks, vals (.iter k) = some (BitVec.ofNat 64 (last L k))

theorem setI_last {L : Nat → Loop} (h : Up L) {vals v : Vals} {k : Nat}
    (hv : setI vals k ((L k).stop - 1) = .ok v) :
    v (.iter k) = some (BitVec.ofNat 64 (last L k)) ∧
      ∀ j, j ≠ k → v (.iter j) = vals (.iter j) := by
  obtain ⟨h1, h2⟩ := h.last k
  rw [setI_ok vals k (by omega) (by omega)] at hv
  simp only [Res.ok.injEq] at hv
  subst hv
  refine ⟨by dsimp only; rw [if_pos rfl, h2]; rfl, fun j hj => ?_⟩
  dsimp only
  rw [if_neg]
  simpa using hj

theorem setAll_ok {L : Nat → Loop} (h : Up L) :
    ∀ ks vals (done : List Nat), AtLast L done vals →
      ∃ v, setAll L ks vals = .ok v ∧ AtLast L (done ++ ks) v
  | [], vals, done, hd => ⟨vals, rfl, by simpa using hd⟩
  | k :: ks, vals, done, hd => by
    obtain ⟨h1, h2⟩ := h.last k
    obtain ⟨v', hs⟩ : ∃ v', setI vals k ((L k).stop - 1) = .ok v' :=
      ⟨_, setI_ok vals k (by omega) (by omega)⟩
    obtain ⟨hk, ho⟩ := setI_last h hs
    have hd' : AtLast L (done ++ [k]) v' := by
      intro j hj
      by_cases he : j = k
      · subst he; exact hk
      · rw [ho j he]
        refine hd j ?_
        simpa [he] using hj
    obtain ⟨v, hv, ha⟩ := setAll_ok h ks _ _ hd'
    refine ⟨v, by rw [setAll, hs, Res.ok_bind, hv], ?_⟩
    simpa using ha

/-- A positive answer means that the value at the last values was looked at and fits. -/
theorem safe_last {L : Nat → Loop} (h : Up L) {vals : Vals} {e : E} {t : Nat} (he : SumProd e)
    (hi : hasIter e = true) (hs : safe cpow L vals e t false = .ok true) :
    exact (last L) e % 2 ^ 32 < 2 ^ t := by
  obtain ⟨v, hv, ha⟩ := setAll_ok h (extract e) vals [] (fun _ hk => by cases hk)
  rw [List.nil_append] at ha
  unfold safe at hs
  rw [hv, Res.ok_bind] at hs
  have hne : extract e ≠ [] := by
    clear hs hv ha he
    induction e with
    | iter k => simp [extract]
    | bin op l r ihl ihr =>
      simp only [hasIter, Bool.or_eq_true] at hi
      simp only [extract, ne_eq, List.append_eq_nil_iff, not_and]
      rcases hi with hi | hi
      · intro hl; exact absurd hl (ihl hi)
      · intro _; exact ihr hi
    | _ => simp [hasIter] at hi
  cases hks : extract e with
  | nil => exact absurd hks hne
  | cons k ks =>
    rw [hks] at hs
    obtain ⟨h1, h2⟩ := h.last k
    rw [safeLoop] at hs
    simp only [Res.bind_eq_ok] at hs
    obtain ⟨v1, hv1, a, -, hs⟩ := hs
    split at hs
    · simp at hs
    · simp only [Res.bind_eq_ok] at hs
      obtain ⟨v2, hv2, b, hb, hs⟩ := hs
      split at hs
      · simp at hs
      · rename_i hb'
        have hb' : b = true := by simpa using hb'
        subst hb'
        have hv1' : ∀ j, j ≠ k → v1 (.iter j) = v (.iter j) := by
          obtain ⟨g1, g2, g3, -⟩ := h k
          rw [setI_ok v k (by omega) (by omega)] at hv1
          simp only [Res.ok.injEq] at hv1
          subst hv1
          intro j hj
          dsimp only
          rw [if_neg]
          simpa using hj
        obtain ⟨hk, ho⟩ := setI_last h hv2
        have hall : ∀ j ∈ extract e, last L j < 2 ^ 32 ∧
            v2 (.iter j) = some (BitVec.ofNat 64 (last L j)) := by
          intro j hj
          refine ⟨(h.last j).1, ?_⟩
          by_cases hjk : j = k
          · subst hjk; exact hk
          · rw [ho j hjk, hv1' j hjk]; exact ha j hj
        obtain ⟨-, -, x, hx, ex⟩ := sim_sum (cpow := cpow) h.sgn e he hall
        unfold fitsNow at hb
        rw [hx, Res.ok_bind] at hb
        simp only [Res.bind_eq_ok, Res.ok.injEq, decide_eq_true_eq] at hb
        obtain ⟨r, hr, rfl⟩ := hb
        rw [← ex]
        exact legal_lt hr

theorem finish_ok {w : Nat} {r : E × Res Unit} {e' : E} (h : finish w r = (e', .ok ())) :
    r = (e', .ok ()) ∧ width e' = .ok w := by
  unfold finish at h
  simp only [Prod.mk.injEq, Res.bind_eq_ok] at h
  obtain ⟨h1, u, h2, x, h3, h4⟩ := h
  split at h4
  · simp at h4
  · rename_i hx
    have hx : x = w := by simpa using hx
    refine ⟨Prod.ext h1 h2, ?_⟩
    rw [← h1, h3, hx]

/-! ## The theorems -/

section
variable {L : Nat → Loop} {vals : Vals} {e : E}

/-- What the three theorems share: an accepted sum or product is below `2^t` in every iteration. -/
theorem safe_value (h : Up L) (he : SumProd e) (hi : hasIter e = true)
    (hov : exact (last L) e < 2 ^ 32) {t : Nat} (hs : safe cpow L vals e t false = .ok true)
    {σ : Env} (hσ : Iteration L σ) :
    value σ e = exact (fun k => (σ.iter k).toNat) e ∧
      exact (fun k => (σ.iter k).toNat) e < 2 ^ t := by
  have hm := exact_mono (fun k => (h.takes hσ k).2) e
  have hl := safe_last h he hi hs
  rw [Nat.mod_eq_of_lt hov] at hl
  have hf : ∀ k, σ.iter k = ((σ.iter k).toNat : Int) ∧ (σ.iter k).toNat < 2 ^ 32 := fun k =>
    ⟨(h.takes hσ k).1, Nat.lt_of_le_of_lt (h.takes hσ k).2 (h.last k).1⟩
  refine ⟨?_, Nat.lt_of_le_of_lt hm hl⟩
  rw [(value_sum hf e he).2, Nat.mod_eq_of_lt (Nat.lt_of_le_of_lt hm hov)]

theorem fix_value (h : Up L) (he : SumProd e) (hi : hasIter e = true)
    (hov : exact (last L) e < 2 ^ 32) {t : Nat} (hs : safe cpow L vals e t false = .ok true)
    {e' : E} (hf : fixWidth t e = (e', .ok ())) {σ : Env} (hσ : Iteration L σ) :
    bits e' = t ∧ value σ e' = value σ e := by
  obtain ⟨hv, hlt⟩ := safe_value h he hi hov hs hσ
  have hb : ∀ k, σ.iter k = ((σ.iter k).toNat : Int) ∧ (σ.iter k).toNat < 2 ^ 32 := fun k =>
    ⟨(h.takes hσ k).1, Nat.lt_of_le_of_lt (h.takes hσ k).2 (h.last k).1⟩
  obtain ⟨hbits, -, hval⟩ := fix_sum hb e e' he hf
  exact ⟨hbits, by rw [hval, hv, Nat.mod_eq_of_lt hlt]⟩

/-- A sum or product has 32 bits. -/
theorem sum_width (h : Up L) (he : SumProd e) : width e = .ok 32 ∧ bits e = 32 := by
  obtain ⟨hw, -⟩ := sim_sum (cpow := fun _ _ => .ub)
    (vals := fun y => match y with | .iter k => some (BitVec.ofNat 64 (last L k)) | .var _ => none)
    (f := last L) h.sgn e he (fun k _ => ⟨(h.last k).1, rfl⟩)
  exact ⟨hw, (value_sum (σ := ⟨fun k => last L k, fun _ => 0⟩) (f := last L)
    (fun k => ⟨rfl, (h.last k).1⟩) e he).1⟩

/-- **Assignment.**  Over loops that count upwards, an accepted assignment of a sum or product of
loop variables and constants (one that does not overflow 32 bits at the last values) leaves its
value as it was in every iteration, in the width of the place.  Missing from the full claim: subtraction, division, the
bitwise operators and loops that count down, for which the claim is false. -/
theorem assign_partial (h : Up L) (he : SumProd e) (hi : hasIter e = true)
    (hov : exact (last L) e < 2 ^ 32) {w : Nat} {e' : E}
    (ha : assign cpow L vals w false e = (e', .ok ())) {σ : Env} (hσ : Iteration L σ) :
    bits e' = w ∧ value σ e' = value σ e := by
  obtain ⟨hwe, hbe⟩ := sum_width h he
  unfold assign at ha
  split at ha
  · simp at ha
  · split at ha
    · split at ha
      · rename_i we hwe' hw
        rw [hwe] at hwe'
        simp only [Prod.mk.injEq, and_true, Res.ok.injEq] at ha hwe'
        subst ha
        exact ⟨by omega, rfl⟩
      · split at ha
        · simp [hasIter] at hi
        · rw [if_pos hi] at ha
          split at ha
          · rename_i hs
            exact fix_value h he hi hov hs (finish_ok ha).1 hσ
          all_goals simp at ha
    all_goals simp at ha

/-- **Indexing.**  The same for an index that has to have `req` bits. -/
theorem index_partial (h : Up L) (he : SumProd e) (hi : hasIter e = true)
    (hov : exact (last L) e < 2 ^ 32) {req : Nat} {e' : E}
    (ha : index cpow L vals req e = (e', .ok ())) {σ : Env} (hσ : Iteration L σ) :
    bits e' = min req 32 ∧ value σ e' = value σ e := by
  obtain ⟨hwe, hbe⟩ := sum_width h he
  unfold index at ha
  simp only [if_pos hi] at ha
  split at ha
  · split at ha
    · split at ha
      · rename_i we hwe' hlt _ hs
        rw [hwe] at hwe'
        simp only [Res.ok.injEq] at hwe'
        obtain ⟨a, b⟩ := fix_value h he hi hov hs (finish_ok ha).1 hσ
        exact ⟨by omega, b⟩
      all_goals simp at ha
    · rename_i we hwe' hlt
      rw [hwe] at hwe'
      simp only [Prod.mk.injEq, and_true, Res.ok.injEq] at ha hwe'
      subst ha
      exact ⟨by omega, rfl⟩
  all_goals simp at ha

/-- **Operators.**  The same for the two operands of an operator applied to an index expression and
an unsigned design variable. -/
theorem operator_partial (h : Up L) (he : SumProd e) (hi : hasIter e = true)
    (hov : exact (last L) e < 2 ^ 32) {op : BinOp} {x w : Nat} {r : E}
    (ha : operator cpow L vals op e x w false = .ok r) {σ : Env} (hσ : Iteration L σ) :
    ∃ a b, r = .bin op a b ∧ value σ a = value σ e ∧ value σ b = value σ (.var x w false) := by
  unfold operator at ha
  simp only [Res.bind_eq_ok] at ha
  obtain ⟨we, hwe, ha⟩ := ha
  split at ha
  · simp only [Res.ok.injEq] at ha
    exact ⟨_, _, ha.symm, rfl, rfl⟩
  · simp only [Res.bind_eq_ok] at ha
    obtain ⟨a, hs, ha⟩ := ha
    split at ha
    · rename_i hat
      subst hat
      simp only [Res.ok.injEq] at ha
      obtain ⟨hv, hlt⟩ := safe_value h he hi hov hs hσ
      refine ⟨_, _, ha.symm, ?_, rfl⟩
      rw [value, hv, Nat.mod_eq_of_lt hlt]
    · split at ha
      · rename_i hle
        simp only [Res.ok.injEq] at ha
        refine ⟨_, _, ha.symm, rfl, ?_⟩
        rw [value, value]
        refine Nat.mod_eq_of_lt (Nat.lt_of_lt_of_le (Nat.mod_lt _ (Nat.pow_pos (by decide))) ?_)
        exact Nat.pow_le_pow_right (by decide) hle
      · simp at ha

/-! ### What is accepted -/

/-- The values the simulator holds are at most the last ones. -/
def AtMost (L : Nat → Loop) (ks : List Nat) (vals : Vals) : Prop :=
  ∃ f : Nat → Nat, (∀ k, f k ≤ last L k) ∧ ∀ k ∈ ks, vals (.iter k) = some (BitVec.ofNat 64 (f k))

theorem AtMost.set (h : Up L) {ks : List Nat} {vals v : Vals} {k : Nat} {x : Int}
    (hx : 0 ≤ x) (hl : x ≤ last L k) (hm : AtMost L ks vals) (hv : setI vals k x = .ok v) :
    AtMost L ks v := by
  obtain ⟨f, hf, hs⟩ := hm
  have h1 := (h.last k).1
  rw [setI_ok vals k hx (by omega)] at hv
  simp only [Res.ok.injEq] at hv
  subst hv
  refine ⟨fun j => if j = k then x.toNat else f j, fun j => ?_, fun j hj => ?_⟩
  · by_cases he : j = k
    · subst he; simp only [if_pos]; omega
    · simp only [if_neg he]; exact hf j
  · by_cases he : j = k
    · subst he; simp only [if_pos]
    · simp only [if_neg he, Key.iter.injEq]; exact hs j hj

theorem AtMost.fits (h : Up L) (he : SumProd e) {t : Nat} (h1 : 1 ≤ t) (h2 : t ≤ 64)
    (hov : exact (last L) e < 2 ^ 32) (hlt : exact (last L) e < 2 ^ t)
    (hm : AtMost L (extract e) vals) : fitsNow cpow L vals e t false = .ok true := by
  obtain ⟨f, hf, hs⟩ := hm
  obtain ⟨-, -, x, hx, ex⟩ := sim_sum (cpow := cpow) h.sgn e he
    (fun k hk => ⟨Nat.lt_of_le_of_lt (hf k) (h.last k).1, hs k hk⟩)
  have hle := exact_mono hf e
  rw [Nat.mod_eq_of_lt (Nat.lt_of_le_of_lt hle hov)] at ex
  unfold fitsNow
  rw [hx, Res.ok_bind]
  simp only [lt_legal h1 h2 (show x.toNat < 2 ^ t from by omega), Res.ok_bind, decide_true]

theorem safeLoop_true (h : Up L) (he : SumProd e) {t : Nat} (h1 : 1 ≤ t) (h2 : t ≤ 64)
    (hov : exact (last L) e < 2 ^ 32) (hlt : exact (last L) e < 2 ^ t) :
    ∀ ks vals, AtMost L (extract e) vals → safeLoop cpow L e t false ks vals = .ok true
  | [], vals, _ => by
    cases e with
    | var k w s => exact he.elim
    | _ => rfl
  | k :: ks, vals, hm => by
    obtain ⟨g1, g2⟩ := h.last k
    obtain ⟨g3, g4, -, -⟩ := h k
    obtain ⟨v1, hv1⟩ : ∃ v, setI vals k (L k).start = .ok v := ⟨_, setI_ok vals k g3 (by omega)⟩
    have hm1 := hm.set h g3 (by omega) hv1
    obtain ⟨v2, hv2⟩ : ∃ v, setI v1 k ((L k).stop - 1) = .ok v :=
      ⟨_, setI_ok v1 k (by omega) (by omega)⟩
    have hm2 := hm1.set h (by omega) (by omega) hv2
    rw [safeLoop, hv1, Res.ok_bind, hm1.fits h he h1 h2 hov hlt, Res.ok_bind, hv2, Res.ok_bind,
      hm2.fits h he h1 h2 hov hlt, Res.ok_bind]
    exact safeLoop_true h he h1 h2 hov hlt ks v2 hm2

/-- Every constant of the expression can be written in `t` bits. -/
def ConstsFit (t : Nat) : E → Prop
  | .const v _ _ => v.toNat < 2 ^ t
  | .bin _ l r => ConstsFit t l ∧ ConstsFit t r
  | _ => True

theorem fix_ok {t : Nat} (h1 : 1 ≤ t) (h2 : t ≤ 64) :
    ∀ e, SumProd e → ConstsFit t e → (fixWidth t e).2 = .ok () ∧ width (fixWidth t e).1 = .ok t := by
  intro e
  induction e with
  | iter k => intro _ _; exact ⟨rfl, rfl⟩
  | cast e w _ => intro h; exact h.elim
  | var k w s => intro h; exact h.elim
  | const v w s =>
    intro h hc
    obtain ⟨rfl, rfl, -⟩ := h
    simp only [fixWidth, lt_legal h1 h2 hc]
    exact ⟨trivial, rfl⟩
  | bin op l r ihl ihr =>
    intro h hc
    obtain ⟨ho, hl, hr⟩ := h
    obtain ⟨a, b⟩ := ihl hl hc.1
    obtain ⟨c, d⟩ := ihr hr hc.2
    have hp : fixWidth t l = ((fixWidth t l).1, .ok ()) := Prod.ext rfl a
    have hx : fixWidth t (.bin op l r) = (.bin op (fixWidth t l).1 (fixWidth t r).1, .ok ()) := by
      rw [fixWidth, hp]
      exact Prod.ext rfl c
    rw [hx]
    refine ⟨rfl, ?_⟩
    rcases ho with rfl | rfl <;> simp [width, isRel, b, d]

/-- **Acceptance.**  Over loops that count upwards one by one, an assignment of a sum or product
whose value fits in every iteration is accepted, if its constants fit as well.  Missing from the
full claim: other steps and larger constants, for which the claim is false. -/
theorem accept_partial (h : Up L) (hstep : ∀ k, (L k).step = 1) (he : SumProd e)
    (hi : hasIter e = true) (hov : exact (last L) e < 2 ^ 32) {w : Nat} (h1 : 1 ≤ w) (h2 : w ≤ 32)
    (hc : ConstsFit w e) (hfit : ∀ σ, Iteration L σ → value σ e < 2 ^ w) :
    (assign cpow L vals w false e).2 = .ok () := by
  have hlast : Iteration L ⟨fun k => (L k).stop - 1, fun _ => 0⟩ := by
    intro k
    obtain ⟨g1, g2, g3, g4⟩ := h k
    refine ⟨((L k).stop - 1 - (L k).start).toNat, ?_, ?_⟩
    · rw [hstep k]; show (L k).stop - 1 = _; omega
    · intro i hi'
      rw [hstep k, Loop.Goes, if_pos g2]; omega
  have hv := hfit _ hlast
  rw [(value_sum (f := last L) (fun k => ⟨(h.last k).2, (h.last k).1⟩) e he).2,
    Nat.mod_eq_of_lt hov] at hv
  obtain ⟨v, hsv, hal⟩ := setAll_ok h (extract e) vals [] (fun _ hk => by cases hk)
  rw [List.nil_append] at hal
  have hs : safe cpow L vals e w false = .ok true := by
    rw [safe, hsv, Res.ok_bind]
    exact safeLoop_true h he h1 (by omega) hov hv _ _ ⟨last L, fun _ => Nat.le_refl _, hal⟩
  obtain ⟨hw, hsg, -⟩ := sim_sum (cpow := cpow) (vals := v) h.sgn e he
    (fun k hk => ⟨(h.last k).1, hal k hk⟩)
  obtain ⟨fx, fw⟩ := fix_ok h1 (show w ≤ 64 from by omega) e he hc
  have hfin : (finish w (fixWidth w e)).2 = .ok () := by
    simp only [finish, fx, fw, Res.ok_bind, ne_eq, not_true, if_false]
  unfold assign
  rw [hsg, if_neg (by simp), hw]
  dsimp only
  split
  · rfl
  · split
    · simp [hasIter] at hi
    · rw [if_pos hi, hs]
      exact hfin

/-- **A loop variable by itself** is accepted, counting up or down, exactly when its first value and
the number before its bound fit. -/
theorem variable_iff {k : Nat} (hs0 : 0 ≤ (L k).start) (hs1 : (L k).start < 2 ^ 32)
    (he0 : 1 ≤ (L k).stop) (he1 : (L k).stop ≤ 2 ^ 32) {w : Nat} (h1 : 1 ≤ w) (h2 : w < 32) :
    (assign cpow L vals w false (.iter k)).2 = .ok () ↔
      (L k).start < 2 ^ w ∧ (L k).stop - 1 < 2 ^ w := by
  have hsg : sgn L (.iter k) = false := by
    have a1 : ¬ (L k).start < 0 := by omega
    have a2 : ¬ (L k).stop < 0 := by omega
    simp [sgn, Loop.sgn, a1, a2]
  have hcheck : ∀ (vs : Vals) (x : Int), 0 ≤ x → x < 2 ^ 32 →
      vs (.iter k) = some (BitVec.ofNat 64 x.toNat) →
      fitsNow cpow L vs (.iter k) w false = .ok (decide (x < 2 ^ w)) := by
    intro vs x hx hx' hv
    have hn : (BitVec.ofNat 64 x.toNat).toNat = x.toNat := by rw [BitVec.toNat_ofNat]; omega
    unfold fitsNow
    rw [simEval, hv, Res.ok_bind]
    dsimp only
    obtain ⟨r, hr, hri, -⟩ := Const.isLegal_iff h1 (show w ≤ 64 from by omega) false
      (BitVec.ofNat 64 x.toNat)
    rw [hr, Res.ok_bind]
    have : (r = Legal.legal) ↔ (x < 2 ^ w) := by
      rw [hri]
      simp only [Const.Representable, Const.number, Bool.false_eq_true, if_false, hn]
      constructor
      · intro h; have := h.2; omega
      · intro h; exact ⟨by omega, by omega⟩
    simp only [this]
  have hsafe : safe cpow L vals (.iter k) w false
      = .ok (decide ((L k).start < 2 ^ w ∧ (L k).stop - 1 < 2 ^ w)) := by
    simp only [safe, extract, setAll, safeLoop,
      setI_ok _ k (show 0 ≤ (L k).stop - 1 from by omega) (show (L k).stop - 1 < 2 ^ 32 from by omega),
      setI_ok _ k hs0 hs1, Res.ok_bind]
    rw [hcheck _ (L k).start hs0 hs1 (by simp), Res.ok_bind]
    by_cases c1 : (L k).start < 2 ^ w
    · simp only [c1, decide_true, Bool.not_true, Bool.false_eq_true, if_false, true_and]
      rw [hcheck _ ((L k).stop - 1) (by omega) (by omega) (by simp), Res.ok_bind]
      by_cases c2 : (L k).stop - 1 < 2 ^ w <;> simp [c2]
    · simp [c1]
  unfold assign
  rw [hsg, if_neg (by simp)]
  simp only [width, hasIter, if_true]
  rw [if_neg (by omega), hsafe]
  by_cases c : (L k).start < 2 ^ w ∧ (L k).stop - 1 < 2 ^ w
  · simp only [c, and_self, decide_true, finish, fixWidth, width, Res.ok_bind, ne_eq, not_true,
      if_false]
  · simp only [c, decide_false, reduceCtorEq]

/-- The value of an accepted loop variable is unchanged, counting up or down. -/
theorem variable_value {k : Nat} (hs0 : 0 ≤ (L k).start) (hs1 : (L k).start < 2 ^ 32)
    (he0 : 1 ≤ (L k).stop) (he1 : (L k).stop ≤ 2 ^ 32)
    (hstep : (L k).start < (L k).stop ↔ 0 < (L k).step) {w : Nat} (h1 : 1 ≤ w) (h2 : w < 32)
    {e' : E} (ha : assign cpow L vals w false (.iter k) = (e', .ok ())) {σ : Env}
    (hσ : Iteration L σ) : value σ e' = value σ (.iter k) := by
  have hb := (variable_iff (cpow := cpow) (vals := vals) hs0 hs1 he0 he1 h1 h2).mp (by rw [ha])
  have he' : e' = .cast (.iter k) w := by
    unfold assign at ha
    split at ha
    · simp at ha
    · simp only [width, hasIter, if_true] at ha
      rw [if_neg (by omega)] at ha
      split at ha
      · have := (finish_ok ha).1
        simp only [fixWidth, Prod.mk.injEq, and_true] at this
        exact this.symm
      all_goals simp at ha
  subst he'
  obtain ⟨n, hn, hg⟩ := hσ k
  have hgn := hg n (Nat.le_refl _)
  rw [← hn] at hgn
  have hlt : 0 ≤ σ.iter k ∧ σ.iter k < 2 ^ w := by
    unfold Loop.Goes at hgn
    split at hgn
    · rename_i hup
      have : 0 ≤ (n : Int) * (L k).step :=
        Int.mul_nonneg (by omega) (by have := hstep.mp hup; omega)
      omega
    · rename_i hup
      have h3 : (L k).step ≤ 0 := by
        have : ¬ 0 < (L k).step := fun c => hup (hstep.mpr c)
        omega
      have : 0 ≤ (n : Int) * -(L k).step := Int.mul_nonneg (by omega) (by omega)
      rw [Int.mul_neg] at this
      omega
  rw [value]
  have hp : (2 : Int) ^ w < 2 ^ 32 := by exact_mod_cast Nat.pow_lt_pow_right (by decide) h2
  refine Nat.mod_eq_of_lt ?_
  have hz : σ.iter k % 2 ^ 32 = σ.iter k := Int.emod_eq_of_lt hlt.1 (by omega)
  rw [value, hz]
  have : ((2 ^ w : Nat) : Int) = 2 ^ w := by simp
  omega

end

/-! ## Where the code disagrees -/

/-- Nothing remembered by the simulator. -/
def fresh : Vals := fun _ => none

/-- No powers occur below. -/
def noPow : U64 → U64 → Res U64 := fun _ _ => .ub

/-- A 32-bit constant. -/
def lit (v : Nat) : E := .const (BitVec.ofNat 64 v) 32 false

/-- One-dimensional environment for the examples. -/
def at1 (v : Int) : Env := ⟨fun _ => v, fun _ => 0⟩

theorem takes_all {l : Loop} {v : Int} (n : Nat) (h : v = l.start + n * l.step)
    (hg : ∀ i ∈ List.range (n + 1), l.Goes (l.start + (i : Nat) * l.step)) : l.Takes v :=
  ⟨n, h, fun i hi => hg i (List.mem_range.mpr (by omega))⟩

/-- `i * (6 - i)` over `0 ≤ i < 7` is 0 at both ends and 8 at `i = 2`: it is accepted for three
bits, where it becomes 0. -/
theorem middle_wrong :
    ∃ e', assign noPow (fun _ => ⟨0, 7, 1⟩) fresh 3 false
        (.bin .multiply (.iter 0) (.bin .minus (lit 6) (.iter 0))) = (e', .ok ()) ∧
      Loop.Takes ⟨0, 7, 1⟩ 2 ∧
      value (at1 2) (.bin .multiply (.iter 0) (.bin .minus (lit 6) (.iter 0))) = 8 ∧
      value (at1 2) e' = 0 :=
  ⟨_, rfl, takes_all 2 (by decide) (by decide), by decide +kernel, by decide +kernel⟩

/-- With two loop variables the point where both are at their first value is not looked at:
`(7 - i) * (7 - j)` is accepted for three bits, and is 49 there. -/
theorem corner_wrong :
    ∃ e', assign noPow (fun _ => ⟨0, 8, 1⟩) fresh 3 false
        (.bin .multiply (.bin .minus (lit 7) (.iter 0)) (.bin .minus (lit 7) (.iter 1)))
          = (e', .ok ()) ∧
      Loop.Takes ⟨0, 8, 1⟩ 0 ∧
      value (at1 0) (.bin .multiply (.bin .minus (lit 7) (.iter 0)) (.bin .minus (lit 7) (.iter 1)))
        = 49 ∧
      value (at1 0) e' = 1 :=
  ⟨_, rfl, takes_all 0 (by decide) (by decide), by decide +kernel, by decide +kernel⟩

/-- The same for a plain sum over loops that count down: `i + j` over 3, 2 is accepted for two
bits. -/
theorem descending_wrong :
    ∃ e', assign noPow (fun _ => ⟨3, 1, -1⟩) fresh 2 false (.bin .add (.iter 0) (.iter 1))
          = (e', .ok ()) ∧
      Loop.Takes ⟨3, 1, -1⟩ 3 ∧ value (at1 3) (.bin .add (.iter 0) (.iter 1)) = 6 ∧
      value (at1 3) e' = 2 :=
  ⟨_, rfl, takes_all 0 (by decide) (by decide), by decide +kernel, by decide +kernel⟩

/-- A quotient that fits: its operands do not.  `i / 4` over `0 ≤ i < 32` always fits three bits;
the emitted `3'(i) / 3'h4` does not compute it. -/
theorem divide_wrong :
    ∃ e', assign noPow (fun _ => ⟨0, 32, 1⟩) fresh 3 false (.bin .divide (.iter 0) (lit 4))
          = (e', .ok ()) ∧
      Loop.Takes ⟨0, 32, 1⟩ 8 ∧ value (at1 8) (.bin .divide (.iter 0) (lit 4)) = 2 ∧
      value (at1 8) e' = 0 :=
  ⟨_, rfl, takes_all 8 (by decide) (by decide), by decide +kernel, by decide +kernel⟩

/-- A product that wraps at the last value: `i * 65536` over `0 ≤ i ≤ 65536` is 0 at both ends and
is accepted for 17 bits. -/
theorem wrap_wrong :
    ∃ e', assign noPow (fun _ => ⟨0, 65537, 1⟩) fresh 17 false (.bin .multiply (.iter 0) (lit 65536))
          = (e', .ok ()) ∧
      Loop.Takes ⟨0, 65537, 1⟩ 2 ∧ value (at1 2) (.bin .multiply (.iter 0) (lit 65536)) = 131072 ∧
      value (at1 2) e' = 0 :=
  ⟨_, rfl, takes_all 2 (by decide) (by decide), by decide +kernel, by decide +kernel⟩

theorem not_NarrowClaim : ¬ NarrowClaim := by
  intro h
  obtain ⟨e', ha, ht, hv, hv'⟩ := middle_wrong
  have := h noPow (fun _ => ⟨0, 7, 1⟩) fresh 3
    (.bin .multiply (.iter 0) (.bin .minus (lit 6) (.iter 0))) e'
    (fun _ => (by decide : (0 : Int) ≤ 0 ∧ (0 : Int) ≤ 7))
    ⟨trivial, ⟨rfl, rfl, by decide⟩, trivial⟩ rfl ha (at1 2) (fun _ => ht)
  rw [hv, hv'] at this
  cases this

/-- The bound of the loop is looked at, not the last value: `0, 3, 6` fits three bits but a loop
with bound 9 is refused. -/
theorem step_refused :
    (assign noPow (fun _ => ⟨0, 9, 3⟩) fresh 3 false (.iter 0)).2 = .throw .var ∧
      ∀ v, Loop.Takes ⟨0, 9, 3⟩ v → 0 ≤ v ∧ v < 2 ^ 3 := by
  refine ⟨by decide +kernel, ?_⟩
  rintro v ⟨n, rfl, hg⟩
  have h1 := hg n (Nat.le_refl _)
  simp only [Loop.Goes] at h1
  rw [if_pos (by decide)] at h1
  simp only at *
  omega

theorem not_AcceptClaim : ¬ AcceptClaim := by
  intro h
  have := h noPow (fun _ => ⟨0, 9, 3⟩) fresh 3 (.iter 0)
    (fun _ => (by decide : (0 : Int) ≤ 0 ∧ (0 : Int) ≤ 9)) trivial rfl
    (by decide) (by decide) (fun σ hσ => by
      have := step_refused.2 _ (hσ 0)
      rw [value]
      omega)
  rw [step_refused.1] at this
  cases this

/-- A loop down to zero has bound -1 and so is signed; it is refused wherever its width changes,
because the negative bound is looked at as a large number: here by a signed place. -/
theorem down_refused :
    (assign noPow (fun _ => ⟨7, -1, -1⟩) fresh 8 true (.iter 0)).2 = .throw .var ∧
      Loop.Takes ⟨7, -1, -1⟩ 0 ∧ ∀ v, Loop.Takes ⟨7, -1, -1⟩ v → 0 ≤ v ∧ v ≤ 7 := by
  refine ⟨by decide +kernel, takes_all 7 (by decide) (by decide), ?_⟩
  rintro v ⟨n, rfl, hg⟩
  have h1 := hg n (Nat.le_refl _)
  simp only [Loop.Goes] at h1
  rw [if_neg (by decide)] at h1
  simp only at *
  omega

/-- A refused assignment is not without effect: `i - 8` over 8, 9 fits three bits but its constant
does not, and the
attempt leaves an expression with operands of different widths, which is refused from then on even
where it fitted before. -/
theorem refused_changes :
    assign noPow (fun _ => ⟨8, 10, 1⟩) fresh 3 false (.bin .minus (.iter 0) (lit 8)) =
        (.bin .minus (.cast (.iter 0) 3) (lit 8), .throw .var) ∧
    assign noPow (fun _ => ⟨8, 10, 1⟩) fresh 32 false (.bin .minus (.iter 0) (lit 8)) =
        (.bin .minus (.iter 0) (lit 8), .ok ()) ∧
    (assign noPow (fun _ => ⟨8, 10, 1⟩) fresh 32 false
      (.bin .minus (.cast (.iter 0) 3) (lit 8))).2 = .throw .var := by
  refine ⟨?_, ?_, ?_⟩ <;> decide +kernel

/-- An index expression that was used in one place is refused in a place of another width: it was
rewritten for the first one, where it fitted both. -/
theorem second_use_refused :
    assign noPow (fun _ => ⟨0, 2, 1⟩) fresh 3 false (.bin .add (.iter 0) (lit 1)) =
        (.bin .add (.cast (.iter 0) 3) (.const 1 3 false), .ok ()) ∧
    (assign noPow (fun _ => ⟨0, 2, 1⟩) fresh 4 false (.bin .add (.iter 0) (lit 1))).2 = .ok () ∧
    (assign noPow (fun _ => ⟨0, 2, 1⟩) fresh 4 false
      (.bin .add (.cast (.iter 0) 3) (.const 1 3 false))).2 = .throw .var := by
  refine ⟨?_, ?_, ?_⟩ <;> decide +kernel

/-- Only the number of bits of an index is looked at, not the size of the array: a loop up to 7 is
accepted for an array of five elements, which takes a three-bit index. -/
theorem range_unchecked :
    (index noPow (fun _ => ⟨0, 8, 1⟩) fresh 3 (.iter 0)).2 = .ok () ∧ 5 ≤ 2 ^ 3 ∧ ¬ 5 ≤ 2 ^ 2 ∧
      Loop.Takes ⟨0, 8, 1⟩ 7 :=
  ⟨by decide +kernel, by decide, by decide, takes_all 7 (by decide) (by decide)⟩

/-! ## The hypotheses are met -/

/-- `i + 2 * j + 1` over `0 ≤ i, j < 4` in four bits. -/
example : Up (fun _ => ⟨0, 4, 1⟩) ∧
    SumProd (.bin .add (.bin .add (.iter 0) (.bin .multiply (lit 2) (.iter 1))) (lit 1)) ∧
    exact (last fun _ => ⟨0, 4, 1⟩)
      (.bin .add (.bin .add (.iter 0) (.bin .multiply (lit 2) (.iter 1))) (lit 1)) = 10 ∧
    (assign noPow (fun _ => ⟨0, 4, 1⟩) fresh 4 false
      (.bin .add (.bin .add (.iter 0) (.bin .multiply (lit 2) (.iter 1))) (lit 1))).2 = .ok () ∧
    (index noPow (fun _ => ⟨0, 4, 1⟩) fresh 4
      (.bin .add (.bin .add (.iter 0) (.bin .multiply (lit 2) (.iter 1))) (lit 1))).2 = .ok () ∧
    (operator noPow (fun _ => ⟨0, 4, 1⟩) fresh .lt
      (.bin .add (.bin .add (.iter 0) (.bin .multiply (lit 2) (.iter 1))) (lit 1)) 7 4 false).isOk
      = true ∧
    Iteration (fun _ => ⟨0, 4, 1⟩) (at1 3) :=
  ⟨fun _ => (by decide : (0 : Int) ≤ 0 ∧ (0 : Int) < 4 ∧ (4 : Int) ≤ 2 ^ 32 ∧ (0 : Int) < 1),
    ⟨Or.inl rfl, ⟨Or.inl rfl, trivial, Or.inr rfl, ⟨rfl, rfl, by decide⟩, trivial⟩,
    rfl, rfl, by decide⟩, by decide +kernel, by decide +kernel, by decide +kernel, by decide +kernel,
    fun _ => (takes_all 3 (by decide) (by decide) : Loop.Takes ⟨0, 4, 1⟩ 3)⟩

end Kratos.LoopIndex
