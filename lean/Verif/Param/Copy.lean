import Verif.Base
import Verif.Width.Model

/-!
# Copying the definition of a port or variable into another generator

Model of src/expr.cc:404-473 (`check_parent_param`, `copy_var_const_parm`, `Var::copy_meta_data`),
of what it uses of src/expr.cc:325-402 (`set_width_param`, `set_size_param`), 726-790
(`Expr::Expr`), 806-818 (`Expr::width`), src/sim.cc:723-735, 765-835 (`static_evaluate_expr`,
`eval_expr`), and of src/generator.cc:92-113, 131-153 (`Generator::var(const Var &)`,
`Generator::port(const Port &)`), in Python `var_from_def` and `port_from_def`
(kratos/generator.py:463-470).

Parameters are numbered.  Width and size expressions are trees: the copies are made of new
objects, so nothing is shared.  What an operator computes (`eval_bin_op` and so on) is a parameter
`Sem` of the model, and so is `Const::is_legal`.  Values are 64-bit words; expression widths are
natural numbers (below 2^32).  Simplifications: no big numbers, no loop variables, scalars only
inside the expressions; the direction, sign and packing of the variable, which are copied without
conditions, are left out; a variable being copied has no slices yet.
-/

namespace Kratos.Copy

abbrev V := BitVec 64

/-- The operator stored in an `Expr` object.  Only objects of the classes `ConditionalExpr`,
`VarConcat` and `VarExtend` are meant to carry the last three. -/
inductive O where
  | plain (o : Width.Op)
  | cond | concat | extend
  deriving DecidableEq, Repr

/-- The parameters: `value()`, `width()`, `is_signed()`, `parent_param()`, `generator()`. -/
structure Env where
  val : Nat → V
  width : Nat → Nat
  sgn : Nat → Bool
  parent : Nat → Option Nat
  gen : Nat → Nat

/-- Expression objects.  `node1` and `node2` are objects of the class `Expr` itself (`node2` with
the stored `is_signed_`), `cast` a `VarCasted` made by `resize_var`, `cond`, `concat` and `extend`
objects of the three subclasses, `other` any variable or port. -/
inductive Tree where
  | par (p : Nat)
  | lit (v : V) (w : Nat) (s : Bool)
  | cast (t : Tree) (w : Nat)
  | node1 (o : O) (l : Tree)
  | node2 (o : O) (l r : Tree) (s : Bool)
  | cond (c l r : Tree)
  | concat (l r : Tree)
  | extend (l : Tree) (w : Nat)
  | other (w : Nat) (s : Bool)
  deriving DecidableEq, Repr

/-- `is_relational_op(op) || is_reduction_op(op)`, src/expr.cc:28-38. -/
def oneBit : O → Bool
  | .plain o => Width.isRelational o || Width.isReduction o
  | _ => false

/-- src/expr.cc:751-752 -/
def shifts : O → Bool
  | .plain o => Width.isShift o
  | _ => false

/-- Virtual `width()`, src/expr.cc:806-818, src/expr.hh:685, 706. -/
def width (S : Env) : Tree → Res Nat
  | .par p => .ok (S.width p)
  | .lit _ w _ => .ok w
  | .cast _ w => .ok w
  | .node1 o l => if oneBit o then .ok 1 else width S l
  | .node2 o l r _ =>
    if oneBit o then .ok 1
    else (width S l).bind fun a => (width S r).bind fun b => if a ≠ b then .throw .var else .ok a
  | .cond _ l r => (width S l).bind fun a => (width S r).bind fun b => if a ≠ b then .throw .var else .ok a
  | .concat l r => (width S l).bind fun a => (width S r).bind fun b => .ok (a + b)
  | .extend _ w => .ok w
  | .other w _ => .ok w

/-- `is_signed()`; src/expr.cc:778-781, 795-804, 1018, 1337. -/
def sgn (S : Env) : Tree → Bool
  | .par p => S.sgn p
  | .lit _ _ s => s
  | .cast _ _ => false
  | .node1 _ l => sgn S l
  | .node2 _ _ _ s => s
  | .cond _ l r => sgn S l && sgn S r
  | .concat l _ => sgn S l
  | .extend l _ => sgn S l
  | .other _ s => s

/-- `resize_var`, src/expr.cc:727-740. -/
def resize (t : Tree) (w : Nat) : Tree :=
  match t with
  | .lit v _ s => .lit v w s
  | t => .cast t w

/-- `type()` is `ConstValue` or `Parameter`. -/
def isAtom : Tree → Bool
  | .lit .. => true
  | .par _ => true
  | _ => false

/-- `Generator::expr(op, left, right)`, src/generator.cc:208-212, with `Expr::Expr`,
src/expr.cc:742-783.  `safe_to_resize` is true of everything that can occur in a copy
(src/expr.cc:2151-2156: constants, parameters and expressions over them). -/
def mk2 (S : Env) (o : O) (l r : Tree) : Res Tree :=
  (width S l).bind fun a => (width S r).bind fun b =>
    if shifts o && decide (b < a) then .ok (.node2 o l (resize r a) (sgn S l && sgn S r))
    else if a ≠ b then
      if isAtom r then .ok (.node2 o l (resize r a) (sgn S l && sgn S r))
      else .ok (.node2 o (resize l b) r (sgn S l && sgn S r))
    else .ok (.node2 o l r (sgn S l && sgn S r))

/-- `constant(value, width, is_signed)`, src/expr.cc:935-953, 985-989. -/
def mkLit (legal : V → Nat → Bool → Bool) (v : V) (w : Nat) (s : Bool) : Res Tree :=
  if legal v w s then .ok (.lit v w s) else .throw .user

/-- `check_parent_param`, src/expr.cc:404-413, and the choice of the replacement,
src/expr.cc:417-427. -/
def copyPar (S : Env) (legal : V → Nat → Bool → Bool) (g : Nat) (check : Bool) (p : Nat) : Res Tree :=
  match S.parent p with
  | some q =>
    if S.gen q = g then .ok (.par q)
    else if check then .throw .user else mkLit legal (S.val p) (S.width p) (S.sgn p)
  | none => if check then .throw .user else mkLit legal (S.val p) (S.width p) (S.sgn p)

/-- `copy_var_const_parm`, src/expr.cc:415-446. -/
def copy (S : Env) (legal : V → Nat → Bool → Bool) (g : Nat) (check : Bool) : Tree → Res Tree
  | .par p => copyPar S legal g check p
  | .lit v w s => mkLit legal v w s
  | .node1 o l => (copy S legal g check l).bind fun l' => .ok (.node1 o l')
  | .node2 o l r _ => (copy S legal g check l).bind fun l' => (copy S legal g check r).bind fun r' => mk2 S o l' r'
  | .cond _ l r => (copy S legal g check l).bind fun l' => (copy S legal g check r).bind fun r' => mk2 S .cond l' r'
  | .concat l r => (copy S legal g check l).bind fun l' => (copy S legal g check r).bind fun r' => mk2 S .concat l' r'
  | .extend l _ => (copy S legal g check l).bind fun l' => .ok (.node1 .extend l')
  | .cast _ _ => .throw .user
  | .other _ _ => .throw .user

/-- What the simulator computes for an operator: `eval_unary_op`, `eval_bin_op`,
`eval_ternary_op`, the concatenation and extension code of `eval_expr`, and a resizing cast. -/
structure Sem where
  un : Width.Op → V → Nat → Res V
  bin : Width.Op → V → V → Nat → Bool → Res V
  tern : V → V → V → Nat → Res V
  cat : V → V → Nat → Res V
  ext : V → Bool → Nat → Res V
  cast : V → Nat → Res V

/-- `Simulator::eval_expr`, src/sim.cc:765-835, on a parameter expression.  An `Expr` object whose
operator belongs to one of the subclasses is cast to that subclass and fields it does not have are
read: undefined. -/
def eval (S : Env) (M : Sem) : Tree → Res V
  | .par p => .ok (S.val p)
  | .lit v _ _ => .ok v
  | .cast t w => (eval S M t).bind fun a => M.cast a w
  | .node1 (.plain o) l => (eval S M l).bind fun a => (width S (.node1 (.plain o) l)).bind fun w => M.un o a w
  | .node1 _ _ => .ub
  | .node2 (.plain o) l r s =>
    (eval S M l).bind fun a => (eval S M r).bind fun b => (width S (.node2 (.plain o) l r s)).bind fun w => M.bin o a b w s
  | .node2 .cond l r _ => (eval S M l).bind fun _ => (eval S M r).bind fun _ => .ub
  | .node2 _ _ _ _ => .ub
  | .cond c l r =>
    (eval S M l).bind fun a => (eval S M r).bind fun b => (eval S M c).bind fun k => (width S (.cond c l r)).bind fun w => M.tern k a b w
  | .concat l r => (eval S M r).bind fun b => (eval S M l).bind fun a => (width S r).bind fun w => M.cat a b w
  | .extend l w => (eval S M l).bind fun a => M.ext a (sgn S l) w
  | .other _ _ => .throw .user

/-- `Simulator::static_evaluate_expr`, src/sim.cc:723-735. -/
def staticEval (S : Env) (M : Sem) (t : Tree) : Res V :=
  (eval S M t).bind fun v => if v.toInt ≤ 0 then .throw .user else .ok v

/-- The part of a variable the copy is about: `var_width_`, `width_param_`, `size_`,
`size_param_`, `raw_type_param_`. -/
structure Shape where
  width : BitVec 32
  tie : Option Tree
  dims : List (BitVec 32)
  dimTies : List (Nat × Tree)
  raw : Option Nat
  deriving DecidableEq, Repr

/-- Copying an expression and evaluating the copy, src/expr.cc:451-452, 339 and 458-459, 375. -/
def copyEval (S : Env) (M : Sem) (legal : V → Nat → Bool → Bool) (g : Nat) (check : Bool) (t : Tree) : Res (Tree × V) :=
  (copy S legal g check t).bind fun t' => (staticEval S M t').bind fun v => .ok (t', v)

/-- `size_param_[index] = param` -/
def tieDim (i : Nat) (t : Tree) : List (Nat × Tree) → List (Nat × Tree)
  | [] => [(i, t)]
  | (j, u) :: l => if j = i then (i, t) :: l else (j, u) :: tieDim i t l

/-- The loop over the dimensions, src/expr.cc:457-460, with `set_size_param`, 354-402. -/
def copyDims (S : Env) (M : Sem) (legal : V → Nat → Bool → Bool) (g : Nat) (check : Bool) :
    List (Nat × Tree) → Shape → Shape × Res Unit
  | [], n => (n, .ok ())
  | (i, t) :: l, n =>
    match copy S legal g check t with
    | .throw e => (n, .throw e)
    | .ub => (n, .ub)
    | .ok t' =>
      if n.dims.length ≤ i then (n, .throw .user)
      else match staticEval S M t' with
        | .throw e => (n, .throw e)
        | .ub => (n, .ub)
        | .ok v => copyDims S M legal g check l
            { n with dims := n.dims.set i (v.setWidth 32), dimTies := tieDim i t' n.dimTies }

/-- src/expr.cc:462-472 -/
def copyRaw (S : Env) (g : Nat) (old : Option Nat) (n : Shape) : Shape × Res Unit :=
  match old with
  | none => (n, .ok ())
  | some p =>
    match S.parent p with
    | none => (n, .throw .user)
    | some q => if S.gen q = g then ({ n with raw := some q }, .ok ()) else (n, .throw .user)

/-- `Var::copy_meta_data`, src/expr.cc:448-473: the new variable and how the call ended. -/
def copyMeta (S : Env) (M : Sem) (legal : V → Nat → Bool → Bool) (g : Nat) (check : Bool) (old new : Shape) : Shape × Res Unit :=
  let rest (n : Shape) : Shape × Res Unit :=
    match copyDims S M legal g check old.dimTies n with
    | (n', .ok _) => copyRaw S g old.raw n'
    | r => r
  match old.tie with
  | none => rest new
  | some t =>
    match copyEval S M legal g check t with
    | .throw e => (new, .throw e)
    | .ub => (new, .ub)
    | .ok (t', v) => rest { new with width := v.setWidth 32, tie := some t' }

/-- A generator: its number, the names in `ports_` and the objects in `vars_`. -/
structure Gen where
  id : Nat
  ports : List Nat
  vars : List (Nat × Shape)
  deriving DecidableEq, Repr

def find (n : Nat) : List (Nat × Shape) → Option Shape
  | [] => none
  | (m, s) :: l => if m = n then some s else find n l

/-- A new object with the same size and no parameters, src/generator.cc:101, 138, 147-148. -/
def fresh (old : Shape) : Shape where
  width := old.width
  tie := none
  dims := old.dims
  dimTies := []
  raw := none

/-- `Generator::port(const Port &, name, check_param)`, src/generator.cc:131-153, 231-236.  When the name
already belongs to a variable, `emplace` keeps that one, the new port is destroyed on return and
the reference to it is used: undefined. -/
def portFrom (S : Env) (M : Sem) (legal : V → Nat → Bool → Bool) (G : Gen) (old : Shape) (name : Nat) (check : Bool) : Gen × Res Unit :=
  if name ∈ G.ports then (G, .throw .var)
  else match find name G.vars with
    | some _ => ({ G with ports := name :: G.ports }, .ub)
    | none =>
      let r := copyMeta S M legal G.id check old (fresh old)
      ({ G with ports := name :: G.ports, vars := (name, r.1) :: G.vars }, r.2)

/-- `Generator::var(const Var &, name)`, src/generator.cc:92-113, for a name that is not in use: the
second line copies the new variable onto itself. -/
def varFrom (S : Env) (M : Sem) (legal : V → Nat → Bool → Bool) (G : Gen) (old : Shape) (name : Nat) : Gen × Res Unit :=
  let n := fresh old
  let r := copyMeta S M legal G.id true n n
  ({ G with vars := (name, r.1) :: G.vars }, r.2)

/-! ## Specification -/

/-- The parameters an expression mentions. -/
inductive Mentions (p : Nat) : Tree → Prop where
  | par : Mentions p (.par p)
  | cast {t w} : Mentions p t → Mentions p (.cast t w)
  | one {o l} : Mentions p l → Mentions p (.node1 o l)
  | left {o l r s} : Mentions p l → Mentions p (.node2 o l r s)
  | right {o l r s} : Mentions p r → Mentions p (.node2 o l r s)
  | condC {c l r} : Mentions p c → Mentions p (.cond c l r)
  | condL {c l r} : Mentions p l → Mentions p (.cond c l r)
  | condR {c l r} : Mentions p r → Mentions p (.cond c l r)
  | catL {l r} : Mentions p l → Mentions p (.concat l r)
  | catR {l r} : Mentions p r → Mentions p (.concat l r)
  | ext {l w} : Mentions p l → Mentions p (.extend l w)

/-- Unary and binary operators over parameters and constants, whose operands have the same width. -/
inductive Plain (S : Env) : Nat → Bool → Tree → Prop where
  | par (p) : Plain S (S.width p) (S.sgn p) (.par p)
  | lit (v w s) : Plain S w s (.lit v w s)
  | one {o l w s} : Plain S w s l → (Width.isRelational o || Width.isReduction o) = false → Plain S w s (.node1 (.plain o) l)
  | oneBit {o l w s} : Plain S w s l → (Width.isRelational o || Width.isReduction o) = true → Plain S 1 s (.node1 (.plain o) l)
  | two {o l r w s s'} : Plain S w s l → Plain S w s' r → (Width.isRelational o || Width.isReduction o) = false →
      Plain S w (s && s') (.node2 (.plain o) l r (s && s'))
  | twoBit {o l r w s s'} : Plain S w s l → Plain S w s' r → (Width.isRelational o || Width.isReduction o) = true →
      Plain S 1 (s && s') (.node2 (.plain o) l r (s && s'))

/-- The same parameters, with other values. -/
structure Later (S S' : Env) : Prop where
  width : S'.width = S.width
  sgn : S'.sgn = S.sgn
  parent : S'.parent = S.parent
  gen : S'.gen = S.gen

/-- Every parameter set from another parameter has that parameter's value. -/
def Agree (S : Env) : Prop := ∀ p q, S.parent p = some q → S.val p = S.val q

/-- `p` is set from a parameter of `g` declared with the same width and sign. -/
def Linked (S : Env) (g p : Nat) : Prop := ∃ q, S.parent p = some q ∧ S.gen q = g ∧ S.width q = S.width p ∧ S.sgn q = S.sgn p

/-- The constants written in an expression. -/
inductive Writes (v : V) (w : Nat) (s : Bool) : Tree → Prop where
  | lit : Writes v w s (.lit v w s)
  | one {o l} : Writes v w s l → Writes v w s (.node1 o l)
  | left {o l r b} : Writes v w s l → Writes v w s (.node2 o l r b)
  | right {o l r b} : Writes v w s r → Writes v w s (.node2 o l r b)

/-- The width (and every dimension) of the copy is that of the original, whatever values the
parameters take later. -/
def Follows (S : Env) (M : Sem) (old new : Shape) : Prop :=
  (∀ t, old.tie = some t → ∃ t', new.tie = some t' ∧ ∀ S', Later S S' → Agree S' → eval S' M t' = eval S' M t) ∧
  (∀ i t, (i, t) ∈ old.dimTies → ∃ t', (i, t') ∈ new.dimTies ∧ ∀ S', Later S S' → Agree S' → eval S' M t' = eval S' M t)

/-- What a user expects of `port_from_def`: an accepted copy has the shape of the original and
keeps it, the call is never undefined, and a refused copy leaves the generator as it was. -/
def PortClaim : Prop := ∀ (S : Env) (M : Sem) (legal : V → Nat → Bool → Bool) (G : Gen) (old : Shape) (name : Nat),
  Agree S → (∀ o a w, M.un o a w ≠ .ub) → (∀ o a b w s, M.bin o a b w s ≠ .ub) →
    (portFrom S M legal G old name true).2 ≠ .ub ∧
    ((portFrom S M legal G old name true).2 = .ok () → ∃ n, find name (portFrom S M legal G old name true).1.vars = some n ∧ Follows S M old n) ∧
    (∀ e, (portFrom S M legal G old name true).2 = .throw e → (portFrom S M legal G old name true).1 = G)

/-- The same expectation for `var_from_def`. -/
def VarClaim : Prop := ∀ (S : Env) (M : Sem) (legal : V → Nat → Bool → Bool) (G : Gen) (old : Shape) (name : Nat),
  Agree S → find name G.vars = none → (varFrom S M legal G old name).2 = .ok () →
    ∃ n, find name (varFrom S M legal G old name).1.vars = some n ∧ Follows S M old n

/-- Replacing every parameter by the one it is set from. -/
def up (S : Env) : Tree → Tree
  | .par p => .par ((S.parent p).getD p)
  | .node1 o l => .node1 o (up S l)
  | .node2 o l r s => .node2 o (up S l) (up S r) s
  | t => t

/-- Built from parameters, constants and the ordinary operators only. -/
inductive Clean : Tree → Prop where
  | par (p) : Clean (.par p)
  | lit (v w s) : Clean (.lit v w s)
  | one {o l} : Clean l → Clean (.node1 (.plain o) l)
  | two {o l r s} : Clean l → Clean r → Clean (.node2 (.plain o) l r s)

/-- Every width or size expression of the variable is plain, its parameters are set from
parameters of `g` and its constants are legal. -/
structure Tame (S : Env) (legal : V → Nat → Bool → Bool) (g : Nat) (old : Shape) : Prop where
  plain : ∀ t, old.tie = some t ∨ (∃ i, (i, t) ∈ old.dimTies) → ∃ w s, Plain S w s t
  linked : ∀ t, old.tie = some t ∨ (∃ i, (i, t) ∈ old.dimTies) → ∀ p, Mentions p t → Linked S g p
  consts : ∀ t, old.tie = some t ∨ (∃ i, (i, t) ∈ old.dimTies) → ∀ v w s, Writes v w s t → legal v w s = true
  once : (old.dimTies.map (·.1)).Nodup

/-! ## Lemmas -/

theorem plain_width {S : Env} {w : Nat} {s : Bool} {t : Tree} (h : Plain S w s t) : width S t = .ok w ∧ sgn S t = s := by
  induction h with
  | par p => exact ⟨rfl, rfl⟩
  | lit v w s => exact ⟨rfl, rfl⟩
  | one _ ho ih => simp [width, sgn, oneBit, ho, ih]
  | oneBit _ ho ih => simp [width, sgn, oneBit, ho, ih]
  | two _ _ ho ihl ihr => simp [width, sgn, oneBit, ho, ihl, ihr]
  | twoBit _ _ ho ihl ihr => simp [width, sgn, oneBit, ho, ihl, ihr]

theorem plain_later {S S' : Env} (hl : Later S S') {w : Nat} {s : Bool} {t : Tree} (h : Plain S w s t) : Plain S' w s t := by
  induction h with
  | par p => rw [← hl.width, ← hl.sgn]; exact .par p
  | lit v w s => exact .lit v w s
  | one _ ho ih => exact .one ih ho
  | oneBit _ ho ih => exact .oneBit ih ho
  | two _ _ ho ihl ihr => exact .two ihl ihr ho
  | twoBit _ _ ho ihl ihr => exact .twoBit ihl ihr ho

theorem mk2_plain {S : Env} {w : Nat} {s s' : Bool} {l r : Tree} (o : O) (hl : Plain S w s l) (hr : Plain S w s' r) :
    mk2 S o l r = .ok (.node2 o l r (s && s')) := by
  simp [mk2, plain_width hl, plain_width hr]

theorem copy_exact {S : Env} {legal : V → Nat → Bool → Bool} {g : Nat} {check : Bool} {w : Nat} {s : Bool} {t : Tree}
    (h : Plain S w s t) (hp : ∀ p, Mentions p t → Linked S g p) (hc : ∀ v w s, Writes v w s t → legal v w s = true) :
    copy S legal g check t = .ok (up S t) ∧ Plain S w s (up S t) := by
  induction h with
  | par p =>
    obtain ⟨q, hq, hg, hw, hs⟩ := hp p .par
    refine ⟨by simp [copy, copyPar, hq, hg, up], ?_⟩
    rw [up, hq, Option.getD_some, ← hw, ← hs]
    exact .par q
  | lit v w s => exact ⟨by simp [copy, mkLit, hc v w s .lit, up], .lit v w s⟩
  | one _ ho ih =>
    obtain ⟨h1, h2⟩ := ih (fun p m => hp p (.one m)) (fun v w s m => hc v w s (.one m))
    exact ⟨by simp [copy, h1, up], .one h2 ho⟩
  | oneBit _ ho ih =>
    obtain ⟨h1, h2⟩ := ih (fun p m => hp p (.one m)) (fun v w s m => hc v w s (.one m))
    exact ⟨by simp [copy, h1, up], .oneBit h2 ho⟩
  | two _ _ ho ihl ihr =>
    obtain ⟨h1, h2⟩ := ihl (fun p m => hp p (.left m)) (fun v w s m => hc v w s (.left m))
    obtain ⟨h3, h4⟩ := ihr (fun p m => hp p (.right m)) (fun v w s m => hc v w s (.right m))
    exact ⟨by simp [copy, h1, h3, up, mk2_plain _ h2 h4], .two h2 h4 ho⟩
  | twoBit _ _ ho ihl ihr =>
    obtain ⟨h1, h2⟩ := ihl (fun p m => hp p (.left m)) (fun v w s m => hc v w s (.left m))
    obtain ⟨h3, h4⟩ := ihr (fun p m => hp p (.right m)) (fun v w s m => hc v w s (.right m))
    exact ⟨by simp [copy, h1, h3, up, mk2_plain _ h2 h4], .twoBit h2 h4 ho⟩

/-- Two plain trees of the same outline whose leaves have the same values have the same value. -/
theorem up_eval {S : Env} {g : Nat} {M : Sem} {w : Nat} {s : Bool} {t : Tree} (h : Plain S w s t)
    (hp : ∀ p, Mentions p t → Linked S g p) : ∀ S', Later S S' → Agree S' → eval S' M (up S t) = eval S' M t ∧ width S' (up S t) = .ok w := by
  intro S' hl ha
  induction h with
  | par p =>
    obtain ⟨q, hq, hg, hw, hs⟩ := hp p .par
    simp only [up, hq, Option.getD_some, eval, width]
    rw [ha p q (by rw [hl.parent]; exact hq), hl.width, hw]
    exact ⟨rfl, rfl⟩
  | lit v w s => exact ⟨rfl, rfl⟩
  | one hpl ho ih =>
    obtain ⟨h1, h2⟩ := ih (fun p m => hp p (.one m))
    have h3 := (plain_width (plain_later hl hpl)).1
    simp [up, eval, width, oneBit, ho, h1, h2, h3]
  | oneBit hpl ho ih =>
    obtain ⟨h1, h2⟩ := ih (fun p m => hp p (.one m))
    simp [up, eval, width, oneBit, ho, h1]
  | two hpl hpr ho ihl ihr =>
    obtain ⟨h1, h2⟩ := ihl (fun p m => hp p (.left m))
    obtain ⟨h3, h4⟩ := ihr (fun p m => hp p (.right m))
    have h5 := (plain_width (plain_later hl hpl)).1
    have h6 := (plain_width (plain_later hl hpr)).1
    simp [up, eval, width, oneBit, ho, h1, h2, h3, h4, h5, h6]
  | twoBit hpl hpr ho ihl ihr =>
    obtain ⟨h1, h2⟩ := ihl (fun p m => hp p (.left m))
    obtain ⟨h3, h4⟩ := ihr (fun p m => hp p (.right m))
    simp [up, eval, width, oneBit, ho, h1, h3]

theorem Later.refl (S : Env) : Later S S := ⟨rfl, rfl, rfl, rfl⟩

theorem static_ok {S : Env} {M : Sem} {t : Tree} {v : V} (h : staticEval S M t = .ok v) : eval S M t = .ok v ∧ 0 < v.toInt := by
  simp only [staticEval, Res.bind_eq_ok] at h
  obtain ⟨a, ha, h⟩ := h
  by_cases hz : a.toInt ≤ 0
  · simp [hz] at h
  · simp only [hz, if_false, Res.ok.injEq] at h
    subst h
    exact ⟨ha, by omega⟩

theorem mem_tieDim {i j : Nat} {t u : Tree} : ∀ {l : List (Nat × Tree)}, (j, u) ∈ l → j ≠ i → (j, u) ∈ tieDim i t l
  | [], h, _ => by simp at h
  | (k, x) :: l, h, hn => by
    simp only [tieDim]
    by_cases hk : k = i
    · simp only [hk, if_true]
      rcases List.mem_cons.1 h with h | h
      · simp only [Prod.mk.injEq] at h
        exact absurd (h.1.trans hk) hn
      · exact List.mem_cons_of_mem _ h
    · simp only [hk, if_false]
      rcases List.mem_cons.1 h with h | h
      · exact h ▸ List.mem_cons_self ..
      · exact List.mem_cons_of_mem _ (mem_tieDim h hn)

theorem self_tieDim (i : Nat) (t : Tree) : ∀ l : List (Nat × Tree), (i, t) ∈ tieDim i t l
  | [] => by simp [tieDim]
  | (k, x) :: l => by
    simp only [tieDim]
    by_cases hk : k = i
    · simp [hk]
    · simp only [hk, if_false]
      exact List.mem_cons_of_mem _ (self_tieDim i t l)

/-- What an accepted run over the dimensions leaves behind. -/
theorem dims_ok {S : Env} {M : Sem} {legal : V → Nat → Bool → Bool} {g : Nat} {check : Bool} :
    ∀ {l : List (Nat × Tree)} {n n' : Shape}, copyDims S M legal g check l n = (n', .ok ()) → (l.map (·.1)).Nodup →
      n'.width = n.width ∧ n'.tie = n.tie ∧ n'.raw = n.raw ∧ n'.dims.length = n.dims.length ∧
      (∀ i t, (i, t) ∈ l → ∃ t' v, copy S legal g check t = .ok t' ∧ staticEval S M t' = .ok v ∧ (i, t') ∈ n'.dimTies ∧ n'.dims[i]? = some (v.setWidth 32)) ∧
      (∀ i, i ∉ l.map (·.1) → n'.dims[i]? = n.dims[i]?) ∧
      (∀ i t, i ∉ l.map (·.1) → (i, t) ∈ n.dimTies → (i, t) ∈ n'.dimTies)
  | [], n, n', h, _ => by
    simp only [copyDims, Prod.mk.injEq, and_true] at h
    subst h
    exact ⟨rfl, rfl, rfl, rfl, by simp, fun _ _ => rfl, fun _ _ _ h => h⟩
  | (i, t) :: l, n, n', h, hd => by
    simp only [copyDims] at h
    cases hc : copy S legal g check t with
    | throw e => simp [hc] at h
    | ub => simp [hc] at h
    | ok t' =>
      simp only [hc] at h
      by_cases hi : n.dims.length ≤ i
      · simp [hi] at h
      · simp only [hi, if_false] at h
        cases hv : staticEval S M t' with
        | throw e => simp [hv] at h
        | ub => simp [hv] at h
        | ok v =>
          simp only [hv] at h
          simp only [List.map_cons, List.nodup_cons] at hd
          obtain ⟨h1, h2, h3, h4, h5, h6, h7⟩ := dims_ok h hd.2
          refine ⟨h1, h2, h3, by rw [h4]; simp, ?_, ?_, ?_⟩
          · intro j u hm
            rcases List.mem_cons.1 hm with hm | hm
            · simp only [Prod.mk.injEq] at hm
              obtain ⟨rfl, rfl⟩ := hm
              refine ⟨t', v, hc, hv, h7 _ _ hd.1 (self_tieDim ..), ?_⟩
              rw [h6 _ hd.1, List.getElem?_set]
              simp
              omega
            · exact h5 j u hm
          · intro j hj
            simp only [List.map_cons, List.mem_cons, not_or] at hj
            rw [h6 j hj.2, List.getElem?_set]
            simp [Ne.symm hj.1]
          · intro j u hj hm
            simp only [List.map_cons, List.mem_cons, not_or] at hj
            exact h7 j u hj.2 (mem_tieDim hm hj.1)

/-- What an accepted copy leaves behind. -/
theorem meta_ok {S : Env} {M : Sem} {legal : V → Nat → Bool → Bool} {g : Nat} {check : Bool} {old new n : Shape}
    (h : copyMeta S M legal g check old new = (n, .ok ())) (hd : (old.dimTies.map (·.1)).Nodup) :
    (∀ t, old.tie = some t → ∃ t' v, copy S legal g check t = .ok t' ∧ staticEval S M t' = .ok v ∧ n.tie = some t' ∧ n.width = v.setWidth 32) ∧
    (old.tie = none → n.tie = new.tie ∧ n.width = new.width) ∧
    (∀ i t, (i, t) ∈ old.dimTies → ∃ t' v, copy S legal g check t = .ok t' ∧ staticEval S M t' = .ok v ∧ (i, t') ∈ n.dimTies ∧ n.dims[i]? = some (v.setWidth 32)) ∧
    (∀ i, i ∉ old.dimTies.map (·.1) → n.dims[i]? = new.dims[i]?) ∧
    (∀ p, old.raw = some p → ∃ q, S.parent p = some q ∧ S.gen q = g ∧ n.raw = some q) ∧
    (old.raw = none → n.raw = new.raw) := by
  have key : ∀ m, (match copyDims S M legal g check old.dimTies m with
      | (n', .ok _) => copyRaw S g old.raw n'
      | r => r) = (n, .ok ()) →
      n.tie = m.tie ∧ n.width = m.width ∧
      (∀ i t, (i, t) ∈ old.dimTies → ∃ t' v, copy S legal g check t = .ok t' ∧ staticEval S M t' = .ok v ∧ (i, t') ∈ n.dimTies ∧ n.dims[i]? = some (v.setWidth 32)) ∧
      (∀ i, i ∉ old.dimTies.map (·.1) → n.dims[i]? = m.dims[i]?) ∧
      (∀ p, old.raw = some p → ∃ q, S.parent p = some q ∧ S.gen q = g ∧ n.raw = some q) ∧
      (old.raw = none → n.raw = m.raw) := by
    intro m hm
    cases hr : copyDims S M legal g check old.dimTies m with
    | mk n' o =>
      rw [hr] at hm
      cases o with
      | throw e => simp at hm
      | ub => simp at hm
      | ok u =>
        simp only at hm
        obtain ⟨h1, h2, h3, _, h5, h6, _⟩ := dims_ok hr hd
        unfold copyRaw at hm
        cases ho : old.raw with
        | none =>
          simp only [ho, Prod.mk.injEq, and_true] at hm
          subst hm
          exact ⟨h2, h1, h5, h6, fun p hp => (nomatch hp), fun _ => h3⟩
        | some p =>
          simp only [ho] at hm
          cases hq : S.parent p with
          | none => simp [hq] at hm
          | some q =>
            simp only [hq] at hm
            by_cases hg : S.gen q = g
            · simp only [hg, if_true, Prod.mk.injEq, and_true] at hm
              subst hm
              refine ⟨h2, h1, h5, h6, ?_, fun h => (nomatch h)⟩
              intro p' hp'
              cases hp'
              exact ⟨q, hq, hg, rfl⟩
            · simp [hg] at hm
  unfold copyMeta at h
  cases ht : old.tie with
  | none =>
    simp only [ht] at h
    obtain ⟨k1, k2, k3, k4, k5, k6⟩ := key new h
    exact ⟨fun t h => (nomatch h), fun _ => ⟨k1, k2⟩, k3, k4, k5, k6⟩
  | some t =>
    simp only [ht] at h
    cases he : copyEval S M legal g check t with
    | throw e => simp [he] at h
    | ub => simp [he] at h
    | ok r =>
      obtain ⟨t', v⟩ := r
      simp only [he] at h
      obtain ⟨k1, k2, k3, k4, k5, k6⟩ := key _ h
      simp only [copyEval, Res.bind_eq_ok, Res.ok.injEq, Prod.mk.injEq] at he
      obtain ⟨t2, hc, v2, hv, rfl, rfl⟩ := he
      refine ⟨?_, fun h => (nomatch h), k3, k4, k5, k6⟩
      intro u hu
      cases hu
      exact ⟨t2, v2, hc, hv, k1, k2⟩

theorem port_ok {S : Env} {M : Sem} {legal : V → Nat → Bool → Bool} {G G' : Gen} {old : Shape} {name : Nat} {check : Bool}
    (h : portFrom S M legal G old name check = (G', .ok ())) :
    ∃ n, copyMeta S M legal G.id check old (fresh old) = (n, .ok ()) ∧ G' = { G with ports := name :: G.ports, vars := (name, n) :: G.vars } ∧
      name ∉ G.ports ∧ find name G.vars = none := by
  unfold portFrom at h
  by_cases hn : name ∈ G.ports
  · simp [hn] at h
  · simp only [hn, if_false] at h
    cases hf : find name G.vars with
    | some x => simp [hf] at h
    | none =>
      simp only [hf, Prod.mk.injEq] at h
      refine ⟨_, ?_, h.1.symm, hn, rfl⟩
      rw [← h.2]

/-! ## Theorems -/

/-- C121: an accepted copy of a port whose expressions are plain and linked: the copy is tied to the
parent's parameters, follows them for good, and starts with the right width and sizes. -/
theorem follows_partial {S : Env} {M : Sem} {legal : V → Nat → Bool → Bool} {G G' : Gen} {old : Shape} {name : Nat} {check : Bool}
    (ht : Tame S legal G.id old) (ha : Agree S) (h : portFrom S M legal G old name check = (G', .ok ())) :
    ∃ n, find name G'.vars = some n ∧ Follows S M old n ∧
      (∀ t v, old.tie = some t → eval S M t = .ok v → n.width = v.setWidth 32) ∧ (old.tie = none → n.tie = none ∧ n.width = old.width) ∧
      (∀ i t v, (i, t) ∈ old.dimTies → eval S M t = .ok v → n.dims[i]? = some (v.setWidth 32)) ∧
      (∀ i, (∀ t, (i, t) ∉ old.dimTies) → n.dims[i]? = old.dims[i]?) ∧
      (∀ p, old.raw = some p → ∃ q, S.parent p = some q ∧ S.gen q = G.id ∧ n.raw = some q) ∧
      (∀ m, m ≠ name → find m G'.vars = find m G.vars) := by
  obtain ⟨n, hm, hG, hn, hf⟩ := port_ok h
  obtain ⟨k1, k2, k3, k4, k5, k6⟩ := meta_ok hm ht.once
  have copied : ∀ t, (old.tie = some t ∨ ∃ i, (i, t) ∈ old.dimTies) → ∀ t', copy S legal G.id check t = .ok t' →
      ∀ S', Later S S' → Agree S' → eval S' M t' = eval S' M t := by
    intro t hmem t' hc S' hl hag
    obtain ⟨w, s, hp⟩ := ht.plain t hmem
    have he := copy_exact (check := check) hp (ht.linked t hmem) (ht.consts t hmem)
    rw [he.1, Res.ok.injEq] at hc
    subst hc
    exact (up_eval hp (ht.linked t hmem) S' hl hag).1
  refine ⟨n, by simp [hG, find], ⟨?_, ?_⟩, ?_, fun hz => k2 hz, ?_, ?_, k5, ?_⟩
  · intro t hmem
    obtain ⟨t', v, hc, hv, h1, h2⟩ := k1 t hmem
    exact ⟨t', h1, copied t (.inl hmem) t' hc⟩
  · intro i t hmem
    obtain ⟨t', v, hc, hv, h1, h2⟩ := k3 i t hmem
    exact ⟨t', h1, copied t (.inr ⟨i, hmem⟩) t' hc⟩
  · intro t v hmem he
    obtain ⟨t', v', hc, hv, h1, h2⟩ := k1 t hmem
    have := copied t (.inl hmem) t' hc S (Later.refl S) ha
    rw [(static_ok hv).1, he, Res.ok.injEq] at this
    rw [h2, this]
  · intro i t v hmem he
    obtain ⟨t', v', hc, hv, h1, h2⟩ := k3 i t hmem
    have := copied t (.inr ⟨i, hmem⟩) t' hc S (Later.refl S) ha
    rw [(static_ok hv).1, he, Res.ok.injEq] at this
    rw [h2, this]
  · intro i hi
    refine k4 i ?_
    intro hm
    obtain ⟨⟨j, t⟩, hm', rfl⟩ := List.mem_map.1 hm
    exact hi t hm'
  · intro m hmn
    simp [hG, find, Ne.symm hmn]

theorem dims_total {S : Env} {M : Sem} {legal : V → Nat → Bool → Bool} {g : Nat} {check : Bool} :
    ∀ {l : List (Nat × Tree)} {n : Shape}, (∀ i t, (i, t) ∈ l → i < n.dims.length ∧ ∃ t' v, copy S legal g check t = .ok t' ∧ staticEval S M t' = .ok v) →
      ∃ n', copyDims S M legal g check l n = (n', .ok ())
  | [], n, _ => ⟨n, rfl⟩
  | (i, t) :: l, n, h => by
    obtain ⟨hi, t', v, hc, hv⟩ := h i t (List.mem_cons_self ..)
    have hi' : ¬ n.dims.length ≤ i := by omega
    simp only [copyDims, hc, hi', if_false, hv]
    refine dims_total ?_
    intro j u hm
    obtain ⟨hj, h⟩ := h j u (List.mem_cons_of_mem _ hm)
    exact ⟨by simpa using hj, h⟩

/-- C121: such a copy is accepted, whatever `check_param` is, when the values are positive. -/
theorem accepted {S : Env} {M : Sem} {legal : V → Nat → Bool → Bool} {G : Gen} {old : Shape} {name : Nat} {check : Bool}
    (ht : Tame S legal G.id old) (ha : Agree S) (hn : name ∉ G.ports) (hf : find name G.vars = none)
    (hw : ∀ t, old.tie = some t → ∃ v, eval S M t = .ok v ∧ 0 < v.toInt)
    (hd : ∀ i t, (i, t) ∈ old.dimTies → i < old.dims.length ∧ ∃ v, eval S M t = .ok v ∧ 0 < v.toInt)
    (hr : ∀ p, old.raw = some p → ∃ q, S.parent p = some q ∧ S.gen q = G.id) :
    (portFrom S M legal G old name check).2 = .ok () := by
  have one : ∀ t, (old.tie = some t ∨ ∃ i, (i, t) ∈ old.dimTies) → (∃ v, eval S M t = .ok v ∧ 0 < v.toInt) →
      ∃ t' v, copy S legal G.id check t = .ok t' ∧ staticEval S M t' = .ok v := by
    intro t hmem ⟨v, hv, hpos⟩
    obtain ⟨w, s, hp⟩ := ht.plain t hmem
    refine ⟨_, v, (copy_exact hp (ht.linked t hmem) (ht.consts t hmem)).1, ?_⟩
    have hv' := (up_eval (M := M) hp (ht.linked t hmem) S (Later.refl S) ha).1
    rw [hv] at hv'
    have : ¬ v.toInt ≤ 0 := by omega
    simp [staticEval, hv', this]
  have key : ∀ m : Shape, m.dims = old.dims → (match copyDims S M legal G.id check old.dimTies m with
      | (n', .ok _) => copyRaw S G.id old.raw n'
      | r => r).2 = .ok () := by
    intro m hm
    obtain ⟨n', hn'⟩ := dims_total (S := S) (M := M) (legal := legal) (g := G.id) (check := check) (l := old.dimTies) (n := m)
      (fun i t hmem => ⟨hm ▸ (hd i t hmem).1, one t (.inr ⟨i, hmem⟩) (hd i t hmem).2⟩)
    simp only [hn', copyRaw]
    cases ho : old.raw with
    | none => rfl
    | some p =>
      obtain ⟨q, hq, hg⟩ := hr p ho
      simp [hq, hg]
  unfold portFrom
  simp only [hn, if_false, hf]
  unfold copyMeta
  cases hz : old.tie with
  | none => exact key _ rfl
  | some t =>
    obtain ⟨t', v, hc, hv⟩ := one t (.inl hz) (hw t hz)
    simp only [copyEval, hc, Res.ok_bind, hv]
    exact key _ rfl

theorem eval_resize {S : Env} {M : Sem} {t : Tree} {w : Nat} {v : V} (h : eval S M (resize t w) = .ok v) : ∃ u, eval S M t = .ok u := by
  cases t with
  | lit v w s => exact ⟨v, rfl⟩
  | par | cast | node1 | node2 | cond | concat | extend | other =>
    simp only [resize, eval, Res.bind_eq_ok] at h ⊢
    obtain ⟨a, ha, _⟩ := h
    first
      | exact ⟨a, ha⟩
      | exact absurd ha (by simp)

theorem mk2_eval {S : Env} {M : Sem} {o : O} {l r t' : Tree} {v : V} (h : mk2 S o l r = .ok t') (he : eval S M t' = .ok v) :
    (∃ p, o = .plain p) ∧ (∃ a, eval S M l = .ok a) ∧ ∃ b, eval S M r = .ok b := by
  have key : ∀ x y s, t' = .node2 o x y s → (∃ p, o = .plain p) ∧ (∃ a, eval S M x = .ok a) ∧ ∃ b, eval S M y = .ok b := by
    intro x y s hx
    subst hx
    cases o with
    | plain p =>
      simp only [eval, Res.bind_eq_ok] at he
      obtain ⟨a, ha, b, hb, _⟩ := he
      exact ⟨⟨p, rfl⟩, ⟨a, ha⟩, ⟨b, hb⟩⟩
    | cond =>
      simp only [eval, Res.bind_eq_ok] at he
      obtain ⟨a, ha, b, hb, h⟩ := he
      exact (nomatch h)
    | concat => simp [eval] at he
    | extend => simp [eval] at he
  simp only [mk2, Res.bind_eq_ok] at h
  obtain ⟨a, ha, b, hb, h⟩ := h
  by_cases h1 : (shifts o && decide (b < a)) = true
  · simp only [h1, if_true, Res.ok.injEq] at h
    obtain ⟨k1, k2, c, k3⟩ := key _ _ _ h.symm
    exact ⟨k1, k2, eval_resize k3⟩
  · simp only [h1] at h
    by_cases h2 : a ≠ b
    · by_cases h3 : isAtom r = true
      · simp only [h2, h3, ne_eq, not_false_eq_true, if_true, Bool.false_eq_true, if_false, Res.ok.injEq] at h
        obtain ⟨k1, k2, c, k3⟩ := key _ _ _ h.symm
        exact ⟨k1, k2, eval_resize k3⟩
      · simp only [h2, h3, ne_eq, not_false_eq_true, if_true, Bool.false_eq_true, if_false, Res.ok.injEq] at h
        obtain ⟨k1, ⟨c, k2⟩, k3⟩ := key _ _ _ h.symm
        exact ⟨k1, eval_resize k2, k3⟩
    · simp only [h2, Bool.false_eq_true, if_false, Res.ok.injEq] at h
      exact key _ _ _ h.symm

theorem copy_clean {S : Env} {M : Sem} {legal : V → Nat → Bool → Bool} {g : Nat} {check : Bool} :
    ∀ {t t' : Tree} {v : V}, copy S legal g check t = .ok t' → eval S M t' = .ok v → Clean t := by
  intro t
  induction t with
  | par p => intros; exact .par p
  | lit v w s => intros; exact .lit v w s
  | cast t w => intro t' v h; simp [copy] at h
  | other w s => intro t' v h; simp [copy] at h
  | node1 o l ih =>
    intro t' v h he
    simp only [copy, Res.bind_eq_ok, Res.ok.injEq] at h
    obtain ⟨l', hl, rfl⟩ := h
    cases o with
    | plain o =>
      simp only [eval, Res.bind_eq_ok] at he
      obtain ⟨a, ha, _⟩ := he
      exact .one (ih hl ha)
    | cond => simp [eval] at he
    | concat => simp [eval] at he
    | extend => simp [eval] at he
  | node2 o l r s ihl ihr =>
    intro t' v h he
    simp only [copy, Res.bind_eq_ok] at h
    obtain ⟨l', hl, r', hr, h⟩ := h
    obtain ⟨⟨p, rfl⟩, ⟨a, ha⟩, ⟨b, hb⟩⟩ := mk2_eval h he
    exact .two (ihl hl ha) (ihr hr hb)
  | cond c l r _ ihl ihr =>
    intro t' v h he
    simp only [copy, Res.bind_eq_ok] at h
    obtain ⟨l', hl, r', hr, h⟩ := h
    obtain ⟨⟨p, hp⟩, _⟩ := mk2_eval h he
    exact (nomatch hp)
  | concat l r ihl ihr =>
    intro t' v h he
    simp only [copy, Res.bind_eq_ok] at h
    obtain ⟨l', hl, r', hr, h⟩ := h
    obtain ⟨⟨p, hp⟩, _⟩ := mk2_eval h he
    exact (nomatch hp)
  | extend l w ih =>
    intro t' v h he
    simp only [copy, Res.bind_eq_ok, Res.ok.injEq] at h
    obtain ⟨l', hl, rfl⟩ := h
    simp [eval] at he

/-- C121: a copy is accepted only if every expression is made of parameters, constants and ordinary
operators: variables, resized operands, conditionals, concatenations and extensions never are. -/
theorem accepted_clean {S : Env} {M : Sem} {legal : V → Nat → Bool → Bool} {G : Gen} {old : Shape} {name : Nat} {check : Bool}
    (hd : (old.dimTies.map (·.1)).Nodup) (h : (portFrom S M legal G old name check).2 = .ok ()) :
    ∀ t, (old.tie = some t ∨ ∃ i, (i, t) ∈ old.dimTies) → Clean t := by
  obtain ⟨n, hm, -⟩ := port_ok (G' := (portFrom S M legal G old name check).1) (Prod.ext rfl h)
  obtain ⟨k1, k2, k3, -⟩ := meta_ok hm hd
  rintro t (ht | ⟨i, ht⟩)
  · obtain ⟨t', v, hc, hv, _⟩ := k1 t ht
    exact copy_clean hc (static_ok hv).1
  · obtain ⟨t', v, hc, hv, _⟩ := k3 i t ht
    exact copy_clean hc (static_ok hv).1

theorem copy_linked {S : Env} {legal : V → Nat → Bool → Bool} {g : Nat} :
    ∀ {t t' : Tree}, Clean t → copy S legal g true t = .ok t' → ∀ p, Mentions p t → ∃ q, S.parent p = some q ∧ S.gen q = g := by
  intro t t' hcl
  induction hcl generalizing t' with
  | par p =>
    intro h p' hm
    cases hm
    simp only [copy, copyPar] at h
    cases hq : S.parent p with
    | none => simp [hq] at h
    | some q =>
      by_cases hg : S.gen q = g
      · exact ⟨q, rfl, hg⟩
      · simp [hq, hg] at h
  | lit v w s => intro h p hm; cases hm
  | one _ ih =>
    intro h p hm
    simp only [copy, Res.bind_eq_ok] at h
    obtain ⟨l', hl, _⟩ := h
    cases hm with
    | one hm => exact ih hl p hm
  | two _ _ ihl ihr =>
    intro h p hm
    simp only [copy, Res.bind_eq_ok] at h
    obtain ⟨l', hl, r', hr, _⟩ := h
    cases hm with
    | left hm => exact ihl hl p hm
    | right hm => exact ihr hr p hm

/-- C121: with the check on, a copy is accepted only if every parameter of every expression is set
from a parameter of the generator it is copied into. -/
theorem accepted_linked {S : Env} {M : Sem} {legal : V → Nat → Bool → Bool} {G : Gen} {old : Shape} {name : Nat}
    (hd : (old.dimTies.map (·.1)).Nodup) (h : (portFrom S M legal G old name true).2 = .ok ()) :
    ∀ t, (old.tie = some t ∨ ∃ i, (i, t) ∈ old.dimTies) → ∀ p, Mentions p t → ∃ q, S.parent p = some q ∧ S.gen q = G.id := by
  intro t ht
  have hcl := accepted_clean hd h t ht
  obtain ⟨n, hm, -⟩ := port_ok (G' := (portFrom S M legal G old name true).1) (Prod.ext rfl h)
  obtain ⟨k1, k2, k3, -⟩ := meta_ok hm hd
  rcases ht with ht | ⟨i, ht⟩
  · obtain ⟨t', v, hc, _⟩ := k1 t ht
    exact copy_linked hcl hc
  · obtain ⟨t', v, hc, _⟩ := k3 i t ht
    exact copy_linked hcl hc

theorem copy_frozen {S : Env} {M : Sem} {legal : V → Nat → Bool → Bool} {g : Nat} {w : Nat} {s : Bool} {t t' : Tree}
    (h : Plain S w s t) (hp : ∀ p, Mentions p t → ∀ q, S.parent p = some q → S.gen q ≠ g) (hc : copy S legal g false t = .ok t') :
    Plain S w s t' ∧ ∀ S', Later S S' → eval S' M t' = eval S M t := by
  induction h generalizing t' with
  | par p =>
    simp only [copy, copyPar] at hc
    have : mkLit legal (S.val p) (S.width p) (S.sgn p) = .ok t' := by
      cases hq : S.parent p with
      | none => simpa [hq] using hc
      | some q => simpa [hq, hp p .par q hq] using hc
    unfold mkLit at this
    by_cases hl : legal (S.val p) (S.width p) (S.sgn p) = true
    · simp only [hl, if_true, Res.ok.injEq] at this
      subst this
      exact ⟨.lit .., fun _ _ => rfl⟩
    · simp [hl] at this
  | lit v w s =>
    simp only [copy, mkLit] at hc
    by_cases hl : legal v w s = true
    · simp only [hl, if_true, Res.ok.injEq] at hc
      subst hc
      exact ⟨.lit .., fun _ _ => rfl⟩
    · simp [hl] at hc
  | one hpl ho ih =>
    simp only [copy, Res.bind_eq_ok, Res.ok.injEq] at hc
    obtain ⟨l', hl, rfl⟩ := hc
    obtain ⟨h1, h2⟩ := ih (fun p m => hp p (.one m)) hl
    refine ⟨.one h1 ho, fun S' hla => ?_⟩
    simp only [eval, h2 S' hla, width, oneBit, ho, (plain_width hpl).1, (plain_width (plain_later hla h1)).1]
  | oneBit hpl ho ih =>
    simp only [copy, Res.bind_eq_ok, Res.ok.injEq] at hc
    obtain ⟨l', hl, rfl⟩ := hc
    obtain ⟨h1, h2⟩ := ih (fun p m => hp p (.one m)) hl
    refine ⟨.oneBit h1 ho, fun S' hla => ?_⟩
    simp only [eval, h2 S' hla, width, oneBit, ho, if_true]
  | two hpl hpr ho ihl ihr =>
    simp only [copy, Res.bind_eq_ok] at hc
    obtain ⟨l', hl, r', hr, hc⟩ := hc
    obtain ⟨h1, h2⟩ := ihl (fun p m => hp p (.left m)) hl
    obtain ⟨h3, h4⟩ := ihr (fun p m => hp p (.right m)) hr
    rw [mk2_plain _ h1 h3, Res.ok.injEq] at hc
    subst hc
    refine ⟨.two h1 h3 ho, fun S' hla => ?_⟩
    simp [eval, h2 S' hla, h4 S' hla, width, oneBit, ho, (plain_width hpl).1, (plain_width (plain_later hla h1)).1,
      (plain_width hpr).1, (plain_width (plain_later hla h3)).1]
  | twoBit hpl hpr ho ihl ihr =>
    simp only [copy, Res.bind_eq_ok] at hc
    obtain ⟨l', hl, r', hr, hc⟩ := hc
    obtain ⟨h1, h2⟩ := ihl (fun p m => hp p (.left m)) hl
    obtain ⟨h3, h4⟩ := ihr (fun p m => hp p (.right m)) hr
    rw [mk2_plain _ h1 h3, Res.ok.injEq] at hc
    subst hc
    refine ⟨.twoBit h1 h3 ho, fun S' hla => ?_⟩
    simp only [eval, h2 S' hla, h4 S' hla, width, oneBit, ho, if_true]

/-- C121: without the check, a port whose parameters are not set from the new generator is copied with
the width it has now, and keeps that width whatever happens to the parameters. -/
theorem frozen_partial {S : Env} {M : Sem} {legal : V → Nat → Bool → Bool} {G G' : Gen} {old : Shape} {name : Nat} {t : Tree} {w : Nat} {s : Bool}
    (hd : (old.dimTies.map (·.1)).Nodup) (ht : old.tie = some t) (hp : Plain S w s t)
    (hn : ∀ p, Mentions p t → ∀ q, S.parent p = some q → S.gen q ≠ G.id) (h : portFrom S M legal G old name false = (G', .ok ())) :
    ∃ n t' v, find name G'.vars = some n ∧ n.tie = some t' ∧ eval S M t = .ok v ∧ n.width = v.setWidth 32 ∧ ∀ S', Later S S' → eval S' M t' = .ok v := by
  obtain ⟨n, hm, hG, -⟩ := port_ok h
  obtain ⟨t', v, hc, hv, h1, h2⟩ := (meta_ok hm hd).1 t ht
  obtain ⟨-, hk⟩ := copy_frozen (M := M) hp hn hc
  have hv' := (static_ok hv).1
  have := hk S (Later.refl S)
  rw [hv'] at this
  exact ⟨n, t', v, by simp [hG, find], h1, this.symm, h2, fun S' hl => by rw [hk S' hl, ← this]⟩

/-- C121: a variable copied by `var_from_def` is never tied to anything. -/
theorem var_untied (S : Env) (M : Sem) (legal : V → Nat → Bool → Bool) (G : Gen) (old : Shape) (name : Nat) :
    (varFrom S M legal G old name).2 = .ok () ∧ find name (varFrom S M legal G old name).1.vars = some (fresh old) := by
  simp [varFrom, copyMeta, fresh, copyDims, copyRaw, find]

/-- C121: copying a port to a name that already belongs to a variable is undefined. -/
theorem clash_undefined {S : Env} {M : Sem} {legal : V → Nat → Bool → Bool} {G : Gen} {old n : Shape} {name : Nat} {check : Bool}
    (hn : name ∉ G.ports) (hf : find name G.vars = some n) : (portFrom S M legal G old name check).2 = .ub := by
  simp [portFrom, hn, hf]

/-- C121: copying a port to the name of a port is refused and changes nothing. -/
theorem port_clash {S : Env} {M : Sem} {legal : V → Nat → Bool → Bool} {G : Gen} {old : Shape} {name : Nat} {check : Bool}
    (hn : name ∈ G.ports) : portFrom S M legal G old name check = (G, .throw .var) := by
  simp [portFrom, hn]

/-! ## Concrete cases -/

/-- Addition and subtraction modulo 2^w; the other operators are not used below. -/
def M0 : Sem where
  un _ a _ := .ok a
  bin o a b w _ := match o with
    | .add => .ok ((a + b) &&& BitVec.ofNat 64 (2 ^ w - 1))
    | .minus => .ok ((a - b) &&& BitVec.ofNat 64 (2 ^ w - 1))
    | _ => .throw .notImpl
  tern k a b _ := .ok (if k = 0 then b else a)
  cat _ b _ := .ok b
  ext a _ _ := .ok a
  cast a _ := .ok a

def legal0 : V → Nat → Bool → Bool := fun v w s => if s then true else decide (v.toNat < 2 ^ w)

/-- Parameters 1, 3 and 5 of the child (generator 1) set from 0, 2 and nothing; 0 and 2 belong to
generator 0; 2 is declared wider than 3. -/
def S0 : Env where
  val p := if p = 0 ∨ p = 1 then 4 else 9
  width p := if p = 2 then 8 else 4
  sgn _ := false
  parent p := if p = 1 then some 0 else if p = 3 then some 2 else none
  gen p := if p = 0 ∨ p = 2 then 0 else 1

theorem S0_agree : Agree S0 := by
  intro p q h
  simp only [S0] at h ⊢
  by_cases h1 : p = 1
  · simp only [h1, if_true, Option.some.injEq] at h
    subst h1; subst h; rfl
  · by_cases h3 : p = 3
    · simp only [h1, h3, if_false, if_true, Option.some.injEq] at h
      subst h3
      simp at h
      subst h; rfl
    · simp [h1, h3] at h

def G0 : Gen where
  id := 0
  ports := [7]
  vars := [(7, ⟨1, none, [1], [], none⟩), (8, ⟨1, none, [1], [], none⟩)]

/-- `P + 3` with `P` the parameter `p`. -/
def plus3 (p : Nat) : Tree := .node2 (.plain .add) (.par p) (.lit 3 4 false) false

def shape (t : Tree) : Shape := ⟨7, some t, [1], [], none⟩

def both : Shape := ⟨7, some (plus3 1), [4, 2], [(0, .par 1)], none⟩

/-- `follows_partial` and `accepted` apply: width `P + 3`, first dimension `P`. -/
theorem both_tame : Tame S0 legal0 0 both := by
  have pl : ∀ t, both.tie = some t ∨ (∃ i, (i, t) ∈ both.dimTies) → t = plus3 1 ∨ t = .par 1 := by
    rintro t (h | ⟨i, h⟩)
    · simp only [both, Option.some.injEq] at h; exact .inl h.symm
    · simp only [both, List.mem_singleton, Prod.mk.injEq] at h; exact .inr h.2
  have l1 : Linked S0 0 1 := ⟨0, rfl, rfl, rfl, rfl⟩
  refine ⟨?_, ?_, ?_, by decide⟩
  · intro t h
    rcases pl t h with rfl | rfl
    · exact ⟨4, false, .two (s := false) (s' := false) (.par 1) (.lit ..) rfl⟩
    · exact ⟨4, false, .par 1⟩
  · intro t h p hm
    rcases pl t h with rfl | rfl
    · cases hm with
      | left hm => cases hm; exact l1
      | right hm => cases hm
    · cases hm; exact l1
  · intro t h v w s hm
    rcases pl t h with rfl | rfl
    · cases hm with
      | left hm => cases hm
      | right hm => cases hm; decide
    · cases hm

example : portFrom S0 M0 legal0 G0 both 9 true =
    (⟨0, [9, 7], [(9, ⟨7, some (plus3 0), [4, 2], [(0, .par 0)], none⟩), (7, ⟨1, none, [1], [], none⟩), (8, ⟨1, none, [1], [], none⟩)]⟩, .ok ()) := by
  decide +kernel

example : (portFrom S0 M0 legal0 G0 (shape (plus3 5)) 9 false).2 = .ok () := by decide +kernel

/-- A parent parameter declared wider than the child's: `9 + 8` is 1 in the child, 17 in the copy. -/
theorem wider_wrong : ∃ n, portFrom S0 M0 legal0 G0 (shape (.node2 (.plain .add) (.par 3) (.lit 8 4 false) false)) 9 true =
      (⟨0, [9, 7], (9, n) :: G0.vars⟩, .ok ()) ∧ n.width = 17 ∧ staticEval S0 M0 (.node2 (.plain .add) (.par 3) (.lit 8 4 false) false) = .ok 1 := by
  refine ⟨⟨17, some (.node2 (.plain .add) (.par 2) (.lit 8 8 false) false), [1], [], none⟩, ?_, ?_, ?_⟩ <;> decide +kernel

/-- A conditional width is copied into an object of the wrong class and read. -/
theorem conditional_undefined : (portFrom S0 M0 legal0 G0 (shape (.cond (.lit 1 1 false) (.par 1) (.lit 3 4 false))) 9 true).2 = .ub ∧
    staticEval S0 M0 (.cond (.lit 1 1 false) (.par 1) (.lit 3 4 false)) = .ok 4 := by
  constructor <;> decide +kernel

/-- So are concatenations and extensions. -/
theorem concat_undefined : (portFrom S0 M0 legal0 G0 (shape (.concat (.par 1) (.par 1))) 9 true).2 = .ub ∧
    (portFrom S0 M0 legal0 G0 (shape (.extend (.par 1) 8)) 9 true).2 = .ub := by
  constructor <;> decide +kernel

/-- A refused copy leaves the new port in the generator. -/
theorem refused_leaves : ∃ n, portFrom S0 M0 legal0 G0 (shape (plus3 5)) 9 true = (⟨0, [9, 7], (9, n) :: G0.vars⟩, .throw .user) := by
  refine ⟨⟨7, none, [1], [], none⟩, ?_⟩
  decide +kernel

theorem M0_un : ∀ o a w, M0.un o a w ≠ .ub := fun _ _ _ h => nomatch h
theorem M0_bin : ∀ o a b w s, M0.bin o a b w s ≠ .ub := by
  intro o a b w s
  cases o <;> simp [M0]

/-- The full claim about ports is false. -/
theorem not_PortClaim : ¬ PortClaim := by
  intro h
  have := (h S0 M0 legal0 G0 (shape (plus3 5)) 9 S0_agree M0_un M0_bin).2.2 .user (by decide +kernel)
  exact absurd this (by decide +kernel)

/-- The full claim about variables is false: the copy of a variable of width `P` stays as it is
when `P` changes. -/
theorem not_VarClaim : ¬ VarClaim := by
  intro h
  obtain ⟨n, hf, hw, -⟩ := h S0 M0 legal0 G0 (shape (.par 1)) 9 S0_agree rfl (var_untied ..).1
  rw [(var_untied ..).2, Option.some.injEq] at hf
  subst hf
  obtain ⟨t', ht, -⟩ := hw (.par 1) rfl
  exact (nomatch ht)

end Kratos.Copy
