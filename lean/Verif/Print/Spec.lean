import Verif.Print.Model
import Verif.Ir.Semantics

/-!
# Specification: reading SystemVerilog expressions

A lexer with maximal munch and a parser with the operator precedence and left associativity of
IEEE 1800-2017 Table 11-2.  Unary operators may be repeated (`~~a`), as tools accept.  A
vector identifier may be followed by at most one bit- or part-select.  A number without a size is
32 bits wide.
`Γ` gives the variable and width of each identifier.  The fuel argument of the functions only
makes them structurally recursive: `Reads` asks for a result for all large enough values.
-/

namespace Kratos.Print
open Kratos.Ir Kratos.Text

abbrev Tok := Piece

def isIdStart (c : Char) : Bool :=
  (65 ≤ c.toNat && c.toNat ≤ 90) || (97 ≤ c.toNat && c.toNat ≤ 122) || c.toNat == 95
def isDigit (c : Char) : Bool := 48 ≤ c.toNat && c.toNat ≤ 57
def isIdChar (c : Char) : Bool := isIdStart c || isDigit c || c.toNat == 36

def takeId : List Char → List Char × List Char
  | [] => ([], [])
  | c :: cs => if isIdChar c then
        let p := takeId cs
        (c :: p.1, p.2)
      else ([], c :: cs)

/-- Three-, two- and one-character tokens. -/
def syms3 : List (List Char) :=
  [['>','>','>'], ['<','<','<'], ['=','=','='], ['!','=','='], ['|','-','>'], ['|','=','>'],
   ['&','&','&'], ['<','-','>'], ['-','>','>'], ['<','<','='], ['>','>','=']]
def syms2 : List (List Char) :=
  [['>','>'], ['<','<'], ['=','='], ['!','='], ['<','='], ['>','='], ['&','&'], ['|','|'],
   ['*','*'], ['+','+'], ['-','-'], ['~','&'], ['~','|'], ['~','^'], ['^','~'], ['-','>'],
   ['+',':'], ['-',':'], [':',':'], ['+','='], ['-','='], ['*','='], ['/','='], ['%','='],
   ['&','='], ['|','='], ['^','='], ['(','*'], ['*',')'], ['\'','{'], ['/','/'], ['/','*'],
   [':','='], [':','/'], ['=','>']]
def syms1 : List Char :=
  ['+','-','*','/','%','&','|','^','~','!','<','>','=','?',':','(',')','{','}','[',']',',','\'']

def in3 (a b c : Char) : Bool := syms3.contains [a, b, c]
def in2 (a b : Char) : Bool := syms2.contains [a, b]

/-- Longest operator or punctuation token. -/
def matchSym : List Char → Option (List Char × List Char)
  | a :: b :: c :: r =>
      if in3 a b c then some ([a, b, c], r)
      else if in2 a b then some ([a, b], c :: r)
      else if syms1.contains a then some ([a], b :: c :: r) else none
  | [a, b] => if in2 a b then some ([a, b], [])
      else if syms1.contains a then some ([a], [b]) else none
  | [a] => if syms1.contains a then some ([a], []) else none
  | [] => none

def matchNum (cs : List Char) : Option (Tok × List Char) :=
  let p := takeDigits 10 cs
  match readNat 10 p.1, p.2 with
  | some w, '\'' :: 'h' :: hs =>
      let q := takeDigits 16 hs
      match readNat 16 q.1 with
      | some v => some (.num w v, q.2)
      | none => none
  | some w, r => some (.dec w, r)
  | none, _ => none

/-- One token. -/
def lexOne (cs : List Char) : Option (Tok × List Char) :=
  match cs with
  | [] => none
  | c :: _ =>
    if isIdStart c then
      let p := takeId cs
      some (.id p.1, p.2)
    else if isDigit c then matchNum cs
    else match matchSym cs with
      | some (s, r) => some (.sym s, r)
      | none => none

def lex : Nat → List Char → Option (List Tok)
  | 0, _ => none
  | _ + 1, [] => some []
  | n + 1, ' ' :: cs => lex n cs
  | n + 1, c :: cs => match lexOne (c :: cs) with
      | some (t, r) => match lex n r with
          | some ts => some (t :: ts)
          | none => none
      | none => none

/-- Unary operator tokens. -/
def unTok (s : List Char) : Option UnOp :=
  if s = ['~'] then some .invert else if s = ['!'] then some .not
  else if s = ['-'] then some .minus else if s = ['+'] then some .plus
  else if s = ['|'] then some .or else if s = ['&'] then some .and
  else if s = ['^'] then some .xor else none

/-- Binary operator tokens with their precedence; larger binds tighter (Table 11-2). -/
def binTok (s : List Char) : Option (BinOp × Nat) :=
  if s = ['*','*'] then some (.power, 11)
  else if s = ['*'] then some (.multiply, 10) else if s = ['/'] then some (.divide, 10)
  else if s = ['%'] then some (.mod, 10)
  else if s = ['+'] then some (.add, 9) else if s = ['-'] then some (.minus, 9)
  else if s = ['<','<'] then some (.shl, 8) else if s = ['>','>'] then some (.lshr, 8)
  else if s = ['>','>','>'] then some (.sshr, 8)
  else if s = ['<'] then some (.lt, 7) else if s = ['<','='] then some (.le, 7)
  else if s = ['>'] then some (.gt, 7) else if s = ['>','='] then some (.ge, 7)
  else if s = ['=','='] then some (.eq, 6) else if s = ['!','='] then some (.neq, 6)
  else if s = ['&'] then some (.and, 5) else if s = ['^'] then some (.xor, 4)
  else if s = ['|'] then some (.or, 3) else if s = ['&','&'] then some (.land, 2)
  else if s = ['|','|'] then some (.lor, 1) else none

abbrev PRes := Option (Expr × List Tok)

/-- The bit- or part-select of a vector. -/
def pSelect (v w : Nat) (ts : List Tok) : PRes :=
  match ts with
  | .sym ['['] :: .dec i :: .sym [']'] :: r => some (.slice (.var v w) i i, r)
  | .sym ['['] :: .dec h :: .sym [':'] :: .dec l :: .sym [']'] :: r =>
      some (.slice (.var v w) h l, r)
  | .sym ['['] :: _ => none
  | r => some (.var v w, r)

mutual
/-- Primary with prefix operators. -/
def pUnary (Γ : List Char → Option (VarId × Nat)) : Nat → List Tok → PRes
  | 0, _ => none
  | _ + 1, [] => none
  | n + 1, t :: ts =>
    match t with
    | .id s => match Γ s with
        | some (v, w) => pSelect v w ts
        | none => none
    | .num w v => some (.const w (v % 2 ^ w : Nat), ts)
    | .dec w => match ts with
        | .sym ['\''] :: .sym ['('] :: r => match pExpr Γ n r with
            | some (e, .sym [')'] :: r') => some (.extend w e, r')
            | _ => none
        | _ => some (.const 32 (w % 2 ^ 32 : Nat), ts)
    | .sym s =>
        if s = ['('] then match pExpr Γ n ts with
          | some (e, .sym [')'] :: r) => some (e, r)
          | _ => none
        else if s = ['{'] then match pExpr Γ n ts with
          | some (e, r) => pBrace Γ n e r
          | none => none
        else match unTok s with
          | some op => match pUnary Γ n ts with
              | some (e, r) => some (.un op e, r)
              | none => none
          | none => none
    | .sp => none
/-- After `{ e`: the rest of a concatenation, or a replication if `e` is a constant count. -/
def pBrace (Γ : List Char → Option (VarId × Nat)) : Nat → Expr → List Tok → PRes
  | 0, _, _ => none
  | n + 1, e, ts =>
    match e, ts with
    | .const _ c, .sym ['{'] :: r => match pExpr Γ n r with
        | some (x, r') => match pBrace Γ n x r' with
            | some (y, .sym ['}'] :: r'') => some (.dup c.toNat y, r'')
            | _ => none
        | none => none
    | _, .sym ['}'] :: r => some (e, r)
    | _, .sym [','] :: r => match pExpr Γ n r with
        | some (x, r') => pBrace Γ n (.concat e x) r'
        | none => none
    | _, _ => none
/-- Binary operators of precedence at least `m`. -/
def pBin (Γ : List Char → Option (VarId × Nat)) : Nat → Nat → List Tok → PRes
  | 0, _, _ => none
  | n + 1, m, ts => match pUnary Γ n ts with
      | some (e, r) => pLoop Γ n m e r
      | none => none
/-- Continue a left-associative chain. -/
def pLoop (Γ : List Char → Option (VarId × Nat)) : Nat → Nat → Expr → List Tok → PRes
  | 0, _, _, _ => none
  | n + 1, m, e, ts => match ts with
      | .sym s :: r => match binTok s with
          | some (op, q) =>
              if m ≤ q then match pBin Γ n (q + 1) r with
                | some (e2, r2) => pLoop Γ n m (.bin op e e2) r2
                | none => none
              else some (e, ts)
          | none => some (e, ts)
      | _ => some (e, ts)
/-- Full expression, with the conditional operator. -/
def pExpr (Γ : List Char → Option (VarId × Nat)) : Nat → List Tok → PRes
  | 0, _ => none
  | n + 1, ts => match pBin Γ n 1 ts with
      | some (e, .sym ['?'] :: r) => match pExpr Γ n r with
          | some (l, .sym [':'] :: r1) => match pExpr Γ n r1 with
              | some (x, r2) => some (.cond e l x, r2)
              | none => none
          | _ => none
      | some (e, r) => some (e, r)
      | none => none
end

/-- The text reads as the expression. -/
def Reads (Γ : List Char → Option (VarId × Nat)) (cs : List Char) (e : Expr) : Prop :=
  ∃ ts N, ∀ n ≥ N, lex n cs = some ts ∧ pExpr Γ n ts = some (e, [])

/-- Same width and the same value in every store. -/
def Same (a b : Expr) : Prop := a.width = b.width ∧ ∀ σ : Store, a.eval σ = b.eval σ

/-- A legal identifier. -/
def IsIdent (s : List Char) : Prop :=
  (∃ c cs, s = c :: cs ∧ isIdStart c = true) ∧ ∀ c ∈ s, isIdChar c = true

/-- Every variable of the expression is declared under its printed name. -/
def Declared (Γ : List Char → Option (VarId × Nat)) (name : VarId → List Char) : Expr → Prop
  | .var v w => IsIdent (name v) ∧ Γ (name v) = some (v, w)
  | .const _ _ => True
  | .slice e _ _ => Declared Γ name e
  | .un _ e => Declared Γ name e
  | .bin _ l r => Declared Γ name l ∧ Declared Γ name r
  | .cond p l r => Declared Γ name p ∧ Declared Γ name l ∧ Declared Γ name r
  | .concat l r => Declared Γ name l ∧ Declared Γ name r
  | .extend _ e => Declared Γ name e
  | .dup _ e => Declared Γ name e

/-- Operators for which `a op (b op c)` equals `(a op b) op c`. -/
def assocOp : BinOp → Bool
  | .add | .multiply | .or | .and | .xor | .land | .lor => true
  | _ => false

def isBinOp (op : BinOp) : Expr → Bool
  | .bin o _ _ => o == op
  | _ => false

def isUnOp (op : UnOp) : Expr → Bool
  | .un o _ => o == op
  | _ => false

def isNeg : Expr → Bool
  | .const _ v => v < 0
  | _ => false

def isVar : Expr → Bool
  | .var _ _ => true
  | _ => false

/-- Expressions the printer handles: no right-nested non-associative operator, no unary minus on
a subtraction or on something starting with a minus, no doubled `+`, `&` or `|` reduction, and
selects only of variables (and a 32-bit replication count). -/
def Printable : Expr → Prop
  | .var _ _ => True
  | .const _ _ => True
  | .slice e _ _ => isVar e = true
  | .un op e => Printable e ∧
      (op = .minus → isBinOp .minus e = false ∧ isUnOp .minus e = false ∧ isNeg e = false) ∧
      (op = .plus ∨ op = .and ∨ op = .or → isUnOp op e = false)
  | .bin op l r => Printable l ∧ Printable r ∧ (assocOp op = false → isBinOp op r = false)
  | .cond p l r => Printable p ∧ Printable l ∧ Printable r
  | .concat l r => Printable l ∧ Printable r
  | .extend _ e => Printable e
  | .dup n e => n < 2 ^ 32 ∧ Printable e

end Kratos.Print
