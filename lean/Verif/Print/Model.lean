import Verif.Ir.Syntax
import Verif.Text.Digits

/-!
# Printing of expressions

Model of `expr_to_string` and the `to_string` overrides, src/expr.cc:513-523 (`VarSlice`),
1266-1273 (`VarConcat`), 1361-1363 (`VarExtend`), 1394-1403 (`VarDuplicated`), 1405-1418
(`Const`), 1426-1466 (`expr_to_string`), 1804-1809 (`ConditionalExpr`), src/util.cc:34-92
(`ExprOpStr`).  Text is a list of pieces (tokens and single spaces); `render` gives the
characters.
-/

namespace Kratos.Print
open Kratos.Ir Kratos.Text

/-- A piece of output text. -/
inductive Piece where
  /-- identifier -/
  | id (s : List Char)
  /-- sized literal `w'hV` -/
  | num (w v : Nat)
  /-- plain decimal number -/
  | dec (n : Nat)
  /-- operator or punctuation -/
  | sym (s : List Char)
  /-- one blank -/
  | sp
  deriving DecidableEq, Repr

def Piece.text : Piece → List Char
  | .id s => s
  | .num w v => printNat 10 w ++ '\'' :: 'h' :: printNat 16 v
  | .dec n => printNat 10 n
  | .sym s => s
  | .sp => [' ']

def render : List Piece → List Char
  | [] => []
  | p :: ps => p.text ++ render ps

/-- `ExprOpStr` for unary operators, src/util.cc:34-92. -/
def unStr : UnOp → List Char
  | .invert => ['~'] | .not => ['!'] | .minus => ['-'] | .plus => ['+']
  | .or => ['|'] | .and => ['&'] | .xor => ['^']

/-- `ExprOpStr` for binary operators. -/
def binStr : BinOp → List Char
  | .add => ['+'] | .minus => ['-'] | .divide => ['/'] | .multiply => ['*'] | .mod => ['%']
  | .lshr => ['>','>'] | .sshr => ['>','>','>'] | .shl => ['<','<']
  | .or => ['|'] | .and => ['&'] | .xor => ['^'] | .power => ['*','*']
  | .land => ['&','&'] | .lor => ['|','|']
  | .lt => ['<'] | .gt => ['>'] | .le => ['<','='] | .ge => ['>','='] | .eq => ['=','=']
  | .neq => ['!','=']

/-- The `ExprOp` stored in a node: unary minus is built with `ExprOp::Minus`
(src/expr.cc:64-66), the other unary operators have their own enumerators. -/
inductive Code where
  | un (o : UnOp)
  | bin (o : BinOp)
  deriving DecidableEq, Repr

def unCode : UnOp → Code
  | .minus => .bin .minus
  | o => .un o

/-- Where the expression is printed: by its own `to_string` (`top`), as an operand of a node
with the given operator (`arg`), or as a leading part of an enclosing `VarConcat` (`cat`; the
members of a left-nested concatenation are one flat list in C++). -/
inductive Mode where
  | top
  | arg (c : Code)
  | cat
  deriving DecidableEq, Repr

/-- `expr->op == left->op` decides against parentheses, src/expr.cc:1443, 1451. -/
def bare (m : Mode) (c : Code) : Bool :=
  match m with
  | .arg p => p == c
  | _ => true

def paren (b : Bool) (ps : List Piece) : List Piece :=
  if b then ps else .sym ['('] :: ps ++ [.sym [')']]

/-- `Const::to_string`, src/expr.cc:1405-1418, as tokens (see `constText_eq` for the link to the
character-level model of the same function). -/
def constText (w : Nat) (v : Int) : List Piece :=
  if v < 0 then [.sym ['-'], .num w v.natAbs] else [.num w v.natAbs]

/-- `type() == VarType::Expression`. -/
def isExpr : Expr → Bool
  | .var _ _ | .const _ _ | .slice _ _ _ => false
  | _ => true

def isConcat : Expr → Bool
  | .concat _ _ => true
  | _ => false

/-- `VarSlice::to_string`, src/expr.cc:513-523: what follows the parent's text. -/
def sliceText (pw hi lo : Nat) : List Piece :=
  if hi = lo then
    if hi = 0 ∧ pw = 1 then [] else [.sym ['['], .dec hi, .sym [']']]
  else [.sym ['['], .dec hi, .sym [':'], .dec lo, .sym [']']]

def pr (name : VarId → List Char) : Mode → Expr → List Piece
  | _, .var v _ => [.id (name v)]
  | _, .const w v => constText w v
  | _, .slice e hi lo => pr name .top e ++ sliceText e.width hi lo
  | m, .un op e => paren (bare m (unCode op)) (.sym (unStr op) :: pr name (.arg (unCode op)) e)
  | m, .bin op l r => paren (bare m (.bin op))
      (pr name (.arg (.bin op)) l ++ .sp :: .sym (binStr op) :: .sp :: pr name (.arg (.bin op)) r)
  | m, .cond p l r =>
      paren (match m with | .arg _ => false | _ => true)
        (paren (!isExpr p) (pr name .top p) ++ .sp :: .sym ['?'] :: .sp :: pr name .top l ++
          .sym [':'] :: .sp :: pr name .top r)
  | .cat, .concat l r => pr name .cat l ++ .sym [','] :: .sp :: pr name .top r
  | _, .concat l r =>
      .sym ['{'] :: (pr name .cat l ++ .sym [','] :: .sp :: pr name .top r) ++ [.sym ['}']]
  | _, .extend w e => .dec w :: .sym ['\''] :: .sym ['('] :: pr name .top e ++ [.sym [')']]
  | _, .dup n e => .sym ['{'] :: constText 32 n ++
      (if isConcat e then pr name .top e else .sym ['{'] :: pr name .top e ++ [.sym ['}']]) ++
      [.sym ['}']]

/-- `Var::to_string`. -/
def toText (name : VarId → List Char) (e : Expr) : List Char := render (pr name .top e)

end Kratos.Print
