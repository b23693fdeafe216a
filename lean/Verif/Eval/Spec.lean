import Verif.Eval.Model

/-!
# Specification for constant folding: integers denoted by bit patterns

Independent of `eval.cc`: a `w`-bit pattern denotes a natural number, or, read as
signed, a two's-complement integer.
-/

namespace Kratos.Eval

/-- `v` is a legal `w`-bit operand. -/
def Fits (w : Nat) (v : U64) : Prop := v.toNat < 2 ^ w

instance (w v) : Decidable (Fits w v) := inferInstanceAs (Decidable (_ < _))

/-- The integer a `w`-bit pattern denotes. -/
def denote (sgn : Bool) (w : Nat) (v : U64) : Int :=
  if sgn = true ∧ 2 ^ (w - 1) ≤ v.toNat then (v.toNat : Int) - 2 ^ w else v.toNat

/-- Integer-level meaning of the modular arithmetic operators. -/
def arith : BinOp → Option (Int → Int → Int)
  | .add => some (· + ·)
  | .minus => some (· - ·)
  | .multiply => some (· * ·)
  | _ => none

/-- Bit-level meaning of the bitwise operators. -/
def bitwise : BinOp → Option (Bool → Bool → Bool)
  | .and => some (· && ·)
  | .or => some (· || ·)
  | .xor => some Bool.xor
  | _ => none

/-- Integer-level meaning of the relational operators. -/
def order : BinOp → Option (Int → Int → Bool)
  | .eq => some (fun a b => decide (a = b))
  | .lt => some (fun a b => decide (a < b))
  | .le => some (fun a b => decide (a ≤ b))
  | .gt => some (fun a b => decide (a > b))
  | .ge => some (fun a b => decide (a ≥ b))
  | _ => none

/-- `r` is the 1-bit encoding of the truth value `b`. -/
def IsBool (r : Res U64) (b : Bool) : Prop := r = .ok (if b then 1#64 else 0#64)

instance (r b) : Decidable (IsBool r b) := inferInstanceAs (Decidable (_ = _))

/-- `r` is the `w`-bit pattern congruent to the integer `z` modulo `2^w`. -/
def IsMod (w : Nat) (r : Res U64) (z : Int) : Prop :=
  ∃ v, r = .ok v ∧ (v.toNat : Int) = z % 2 ^ w

end Kratos.Eval
