import Verif.Slice.Model

/-!
# Specification of selections

A region of a packed variable: `off` is its lowest bit, `dims` the dimensions that can still be
indexed (outermost first), `bits` the width of one element.  Element `i` of a packed array
`[d-1:0]…` starts at bit `i * (width of an element)`.
-/

namespace Kratos.Slice

def prod (ds : List Nat) : Nat := ds.foldr (· * ·) 1

structure Region where
  off : Nat
  dims : List Nat
  bits : Nat
  deriving DecidableEq, Repr

def Region.width (g : Region) : Nat := prod g.dims * g.bits

/-- `[h:l]` (an index when `h = l`) of the outermost dimension, or of the bits of an element. -/
def Region.sel (g : Region) (h l : Nat) : Option Region :=
  if h < l then none
  else match g.dims with
    | d :: ds =>
      if h < d then some
        { g with off := g.off + l * (prod ds * g.bits), dims := if h = l then ds else (h - l + 1) :: ds }
      else none
    | [] => if h < g.bits then some { off := g.off + l, dims := [], bits := h - l + 1 } else none

def Region.sels : Region → List (Nat × Nat) → Option Region
  | g, [] => some g
  | g, (h, l) :: cs => match g.sel h l with
      | some g' => g'.sels cs
      | none => none

/-- The declared type: a scalar has no dimension to index. -/
def Root.region (r : Root) : Region :=
  { off := 0, dims := if r.size = [1] ∧ r.explicit = false then [] else r.size, bits := r.w }

/-- A variable the API can declare: positive width and dimensions, total width below 2^32;
`explicit_array` matters only for size 1. -/
structure Root.Ok (r : Root) : Prop where
  w : 1 ≤ r.w
  ne : r.size ≠ []
  dims : ∀ d ∈ r.size, 1 ≤ d
  small : prod r.size * r.w < 2 ^ 32
  expl : r.explicit = true → r.size = [1]

/-- No part-select of an array that has further dimensions below. -/
def NoWideRange : Region → List (Nat × Nat) → Prop
  | _, [] => True
  | g, (h, l) :: cs => (h ≠ l → g.dims.length ≤ 1) ∧ ∀ g', g.sel h l = some g' → NoWideRange g' cs

/-- SystemVerilog packed struct: the first member is the most significant (IEEE 1800-2017 §7.2.1).
`(low, width)` of the members in the order written. -/
def svLayout : List Fld → List (Nat × Nat)
  | [] => []
  | f :: fs => (bitsList fs, f.bits) :: svLayout fs

end Kratos.Slice

namespace Kratos.Slice

/-- All index tuples of an array, last index running fastest. -/
def rowMajor : List Nat → List (List Nat)
  | [] => [[]]
  | d :: ds => (List.range d).flatMap fun i => (rowMajor ds).map (i :: ·)

/-- One index per dimension, each in range. -/
def Below : List Nat → List Nat → Prop
  | [], [] => True
  | i :: t, d :: ds => i < d ∧ Below t ds
  | _, _ => False

end Kratos.Slice
