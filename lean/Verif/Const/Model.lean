import Verif.Eval.Model
import Verif.Text.Digits

/-!
# Constants: legality, mutation and printing

Model of src/expr.cc:935-1002, 1094-1129, 1405-1418.  `int64_t` is `BitVec 64`.
-/

namespace Kratos.Const
open Kratos.Eval (U64 MASK shl u32sub)
open Kratos.Text

/-- `Const::ConstantLegal`, src/expr.hh:456. -/
inductive Legal where
  | legal | small | big
  deriving DecidableEq, Repr

/-- `Const::is_legal`, src/expr.cc:955-973. -/
def isLegal (value : U64) (width : Nat) (sgn : Bool) : Res Legal :=
  if sgn then
    (shl MASK (u32sub width 1)).bind fun min =>
      if value.slt min then .ok .small
      else (shl 1#64 (u32sub width 1)).bind fun t =>
        if (t - 1#64).slt value then .ok .big else .ok .legal
  else
    (if width = 64 then .ok MASK else (shl 1#64 width).bind fun t => .ok (t - 1#64)).bind fun max =>
      if max < value then .ok .big else .ok .legal

/-- `Const::value_`, `Var::var_width_`, `Var::is_signed_`. -/
structure KConst where
  value : U64
  width : Nat
  sgn : Bool
  deriving DecidableEq, Repr

/-- `Const::Const`, src/expr.cc:935-953; the base class rejects width 0 first
(src/expr.cc:873). -/
def create (value : U64) (width : Nat) (sgn : Bool) : Res KConst :=
  if width = 0 then .throw .user
  else (isLegal value width sgn).bind fun r =>
    match r with
    | .small => .throw .user
    | .big => if width ≤ 64 then (shl 1#64 width).bind fun _ => .throw .user else .ok ⟨value, width, sgn⟩
    | .legal => .ok ⟨value, width, sgn⟩

/-- `Const::set_value(int64_t)`, src/expr.cc:1094-1100. -/
def setValue (c : KConst) (v : U64) : Res KConst :=
  (isLegal v c.width c.sgn).bind fun r =>
    if r = .legal then .ok { c with value := v } else .throw .var

/-- `Const::set_width`, src/expr.cc:1123-1129. -/
def setWidth (c : KConst) (w : Nat) : Res KConst :=
  (isLegal c.value w c.sgn).bind fun r =>
    if r = .legal then .ok { c with width := w } else .throw .var

/-- Calls that change a constant.  `rawWidth` and `rawSigned` are the Python properties
`c.width = w`, `c.signed = s` (python/kratos_expr.cc:482-495), which assign the fields. -/
inductive Op where
  | setValue (v : U64)
  | setWidth (w : Nat)
  | rawWidth (w : Nat)
  | rawSigned (s : Bool)

/-- One call; an exception leaves the object as it was. `none`: undefined behaviour. -/
def step (c : KConst) : Op → Option KConst
  | .setValue v => match setValue c v with
      | .ok c' => some c'
      | .throw _ => some c
      | .ub => none
  | .setWidth w => match setWidth c w with
      | .ok c' => some c'
      | .throw _ => some c
      | .ub => none
  | .rawWidth w => some { c with width := w }
  | .rawSigned s => some { c with sgn := s }

def run : KConst → List Op → Option KConst
  | c, [] => some c
  | c, o :: os => match step c o with
      | some c' => run c' os
      | none => none

/-- `fmt` `{:X}` of an `int64_t`: sign, then the magnitude. -/
def hexInt (v : U64) : List Char :=
  if v.slt 0 then '-' :: printNat 16 (-v).toNat else printNat 16 v.toNat

/-- `Const::to_string`, src/expr.cc:1405-1418, for constants without `num_bits_`.  `-value_`
overflows (undefined) for the smallest `int64_t`. -/
def toText (c : KConst) : Res (List Char) :=
  if c.sgn && c.value.slt 0 then
    if c.value = BitVec.intMin 64 then .ub
    else .ok ('-' :: (printNat 10 c.width ++ '\'' :: 'h' :: hexInt (-c.value)))
  else .ok (printNat 10 c.width ++ '\'' :: 'h' :: hexInt c.value)

/-- `Const::to_string`, src/expr.cc:1406-1412, for a big constant: the accepted hexadecimal
string is printed as given. -/
def bigText (negative : Bool) (width : Nat) (hex : List Char) : List Char :=
  (if negative then ['-'] else []) ++ (printNat 10 width ++ '\'' :: 'h' :: hex)

/-- Check in `Const::constant(hex_value, …)`, src/expr.cc:994-996. -/
def bigAccepted (hex : List Char) : Bool := hex.all fun c => (digitVal 16 c).isSome

/-- `convert_string_to_int`, src/expr.cc:1102-1112: last character in the low byte.  (A `char`
below 128; `c << idx` is undefined from 8 characters on.) -/
def stringToInt : List Nat → Nat
  | [] => 0
  | c :: cs => c * 2 ^ (8 * cs.length) + stringToInt cs

/-- `Const::set_value(const std::string &)`, src/expr.cc:1114-1121: the guard compares a number
of bits with `sizeof(uint64_t)`, which is 8. -/
def setString (c : KConst) (s : List Nat) : Res KConst :=
  if s.length * 8 > 8 then .throw .var
  else setValue c (BitVec.ofNat 64 (stringToInt s))

end Kratos.Const
