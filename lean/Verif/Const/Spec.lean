import Verif.Const.Model

/-!
# Specification: representable values, Verilog sized literals
-/

namespace Kratos.Const
open Kratos.Eval (U64)
open Kratos.Text

/-- The integer the API argument stands for: the `int64_t` itself for a signed constant, its
64-bit pattern read as unsigned otherwise. -/
def number (sgn : Bool) (v : U64) : Int := if sgn then v.toInt else v.toNat

/-- `z` is a `w`-bit number of the given signedness. -/
def Representable (sgn : Bool) (w : Nat) (z : Int) : Prop :=
  if sgn then -(2 ^ (w - 1)) ≤ z ∧ z < 2 ^ (w - 1) else 0 ≤ z ∧ z < 2 ^ w

instance (sgn w z) : Decidable (Representable sgn w z) := by
  unfold Representable; split <;> infer_instance

/-- Verilog sized hexadecimal literal `<size>'h<digits>` (IEEE 1800-2017 §5.7.1): size and
value; digits beyond the size are dropped. -/
def readLit (cs : List Char) : Option (Nat × Nat) :=
  let p := takeDigits 10 cs
  match readNat 10 p.1, p.2 with
  | some w, '\'' :: 'h' :: hs => match readNat 16 hs with
      | some v => if w = 0 then none else some (w, v % 2 ^ w)
      | none => none
  | _, _ => none

/-- A literal with an optional unary minus: size and bit pattern of the expression. -/
def readSigned : List Char → Option (Nat × Nat)
  | '-' :: cs => match readLit cs with
      | some (w, v) => some (w, (2 ^ w - v) % 2 ^ w)
      | none => none
  | cs => readLit cs

end Kratos.Const
