import Verif.Base

/-!
# Slices of variables, flattened indices, packed structs

`uint32_t` arithmetic wraps: `u32`.
-/

namespace Kratos.Slice

def u32 (n : Nat) : Nat := n % 2 ^ 32
def mul32 (a b : Nat) : Nat := u32 (a * b)

/-- A root variable (`Var`, src/expr.cc:860-875): element width, dimensions (outermost first; one
entry 1 for a scalar), `explicit_array_`.  Width parameters are not modelled. -/
structure Root where
  w : Nat
  size : List Nat
  explicit : Bool
  deriving DecidableEq, Repr

/-- The fields of a `Var`/`VarSlice` that slicing reads: `var_width_`, `size_`, `var_low_`,
`var_high_`, `explicit_array_` (false for a slice), and two values of `num_size_decrease`
(src/expr.cc:474-488): of the object, and of its parent (`none` when it is not a slice). -/
structure Info where
  vw : Nat
  size : List Nat
  low : Nat
  high : Nat
  explicit : Bool
  decr : Nat
  pdecr : Option Nat
  deriving DecidableEq, Repr

/-- `Var::width`, src/expr.cc:53-59. -/
def width (i : Info) : Nat := i.size.foldl mul32 i.vw

/-- The root as an object that can be sliced; `var_low`/`var_high` of a plain variable,
src/expr.hh:204-205. -/
def rootInfo (r : Root) : Info :=
  { vw := r.w, size := r.size, low := 0, high := r.size.foldl mul32 r.w - 1, explicit := r.explicit,
    decr := 0, pdecr := none }

/-- `dropped_dim_size1`, src/expr.cc:502-511. -/
def droppedDim (r : Root) (p : Info) (high low : Nat) : Bool :=
  let diffParent := match p.pdecr with
    | some q => if low = 0 ∧ high = 0 then p.decr != q else true
    | none => true
  low == 0 && high == 0 && decide (1 < r.size.length) &&
    r.size.getLast? == some 1 && diffParent && p.decr == r.size.length - 1

/-- `VarSlice::VarSlice`, src/expr.cc:490-575.  `p` is the parent; packedness is not modelled. -/
def mkSlice (r : Root) (p : Info) (high low : Nat) : Res Info :=
  let dropped := droppedDim r p high low
  let scalar := p.size == [1]
  -- width and dimensions
  (if scalar && p.explicit then
      if high ≠ 0 ∨ low ≠ 0 then .throw .var else .ok (p.vw, [1])
    else if scalar && !dropped then .ok (u32 (high - low + 1), [1])
    else if scalar then .ok (p.vw, [1])
    else if high = low then
      if p.size.length = 1 then .ok (p.vw, [1]) else .ok (p.vw, p.size.tail)
    else .ok (p.vw, p.size.dropLast ++ [u32 (high - low + 1)]) : Res (Nat × List Nat)).bind fun vs =>
  -- position
  let base := p.size.tail.foldl mul32 p.vw
  let lh : Nat × Nat :=
    if p.pdecr = none then
      if scalar && p.explicit then (0, vs.1 - 1)
      else if scalar then (low, high)
      else (mul32 low base, mul32 (high + 1) base - 1)
    else if scalar && !dropped then (u32 (low + p.low), u32 (high + 1 + p.low) - 1)
    else if scalar then (p.low, p.high)
    else (u32 (p.low + mul32 low base), u32 (p.low + mul32 (high + 1) base) - 1)
  .ok { vw := vs.1, size := vs.2, low := lh.1, high := lh.2, explicit := false,
        decr := p.decr + (p.size.length - vs.2.length), pdecr := some p.decr }

/-- `Var::operator[](pair)`, src/expr.cc:183-202: bounds, then a new slice. -/
def select (r : Root) (p : Info) (high low : Nat) : Res Info :=
  if low > high then .throw .var
  else match p.size with
    | [] => .ub
    | d :: ds =>
      if ds = [] ∧ d = 1 then
        if high ≥ width p then .throw .var else mkSlice r p high low
      else if high ≥ d then .throw .var else mkSlice r p high low

/-- A chain of selections `v[h₁,l₁][h₂,l₂]…`. -/
def selects (r : Root) : Info → List (Nat × Nat) → Res Info
  | p, [] => .ok p
  | p, (h, l) :: cs => (select r p h l).bind fun q => selects r q cs

/-- Second loop of `compute_var_high_low`, src/util.cc:198-204: the remaining selections are bits.
Returns `(high, low)`. -/
def simRest : List (Nat × Nat) → Nat → Nat → Nat × Nat
  | [], lo, hi => (hi, lo)
  | (h, l) :: cs, lo, _ => simRest cs (u32 (lo + l)) (u32 (u32 (lo + l) + (h - l)))

/-- First loop of `compute_var_high_low`, src/util.cc:178-196 (bit range of a chain, recomputed by
the simulator); the third argument is what is left of `size()` from `index_to_size` on, so that
`bases[index_to_size]` (lines 170-174) is `b`. -/
def simLoop (w : Nat) : List (Nat × Nat) → List Nat → Nat → Nat → Nat × Nat
  | [], _, lo, hi => (hi, lo)
  | (h, l) :: cs, d :: ds, lo, hi =>
      let b := mul32 (ds.foldr mul32 1) w
      if h > l then
        let lo' := u32 (lo + mul32 (mul32 l b) w)
        simLoop w cs (d :: ds) lo' (u32 (lo' + mul32 (mul32 (h - l + 1) b) w) - 1)
      else if h = l ∧ d > 1 then
        let lo' := u32 (lo + mul32 l b)
        simLoop w cs ds lo' (u32 (lo' + mul32 (h - l + 1) b) - 1)
      else simRest ((h, l) :: cs) lo hi
  | (h, l) :: cs, [], lo, hi => simRest ((h, l) :: cs) lo hi

/-- Whether the C++ indexes `bases` out of bounds: a range (`high > low`) once all dimensions of
size > 1 are consumed (`bases[index_to_size]` with `index_to_size = size`). -/
def simRangeOob : List (Nat × Nat) → List Nat → Bool
  | [], _ => false
  | (h, l) :: cs, ds =>
    match ds with
    | d :: ds' => if h > l then simRangeOob cs ds else if h = l ∧ d > 1 then simRangeOob cs ds' else false
    | [] => decide (h > l)

def computeHighLow (r : Root) (cs : List (Nat × Nat)) : Res (Nat × Nat) :=
  if simRangeOob cs r.size then .ub else .ok (simLoop r.w cs r.size 0 0)

/-! ### Slice cache -/

/-- Entries of `slices_`: the `high`/`low` stored in the slice object and the bits it stands for. -/
structure Entry where
  high : Nat
  low : Nat
  info : Info
  deriving DecidableEq, Repr

/-- `Var::operator[](pair)` with the cache, src/expr.cc:203-231.  `isStruct`: the root is a packed
struct, in which case a selection of a whole element is wrapped in a `PackedSlice` whose own
`high`/`low` are `width-1` and `0` of the wrapped slice; it is that object that is stored.
Returns the position in `slices_` and the new list. -/
def selectCached (isStruct : Bool) (r : Root) (p : Info) (slices : List Entry) (high low : Nat) :
    Res (Nat × List Entry) :=
  if low > high then .throw .var
  else match p.size with
    | [] => .ub
    | d :: ds =>
      if (ds = [] ∧ d = 1 ∧ high ≥ width p) ∨ (¬(ds = [] ∧ d = 1) ∧ high ≥ d) then .throw .var
      else match slices.findIdx? (fun e => e.high == high && e.low == low) with
        | some k => .ok (k, slices)
        | none => (mkSlice r p high low).bind fun q =>
          if isStruct && width q == q.vw then
            (mkSlice r q (width q - 1) 0).bind fun q' =>
              .ok (slices.length, slices ++ [⟨width q - 1, 0, q'⟩])
          else .ok (slices.length, slices ++ [⟨high, low, q⟩])

/-! ### Flattened indices -/

/-- One entry of `get_flatten_slices`, src/util.cc:355-364: digits of `value`, least significant
dimension first. -/
def digits : Nat → List Nat → List Nat
  | _, [] => []
  | value, l :: ls => value % l :: digits (value / l) ls

/-- `get_flatten_slices`, src/util.cc:348-366. -/
def flatten (r : Root) : List (List Nat) :=
  (List.range (r.size.foldl mul32 r.w / r.w)).map fun i => (digits i r.size.reverse).reverse

/-! ### Packed structs -/

/-- `PackedStructFieldDef`, src/expr.hh:536-546: a field is plain or of another struct type. -/
inductive Fld where
  | plain (name : Nat) (w : Nat)
  | sub (name : Nat) (fs : List Fld)

def Fld.name : Fld → Nat
  | .plain n _ => n
  | .sub n _ => n

mutual
/-- `PackedStructFieldDef::bitwidth`, src/expr.cc:1835-1841 (as a natural number). -/
def Fld.bits : Fld → Nat
  | .plain _ w => w
  | .sub _ fs => bitsList fs
/-- `PackedStruct::bitwidth`, src/expr.cc:1876-1882. -/
def bitsList : List Fld → Nat
  | [] => 0
  | f :: fs => f.bits + bitsList fs
end

/-- `PackedSlice::set_up`, src/expr.cc:1916-1943: `(low, high)` relative to the struct, and the
definition found; the first field of that name. -/
def setUp (name : Nat) : Nat → List Fld → Res ((Nat × Nat) × Fld)
  | _, [] => .throw .user
  | low, f :: fs => if f.name = name then .ok ((low, f.bits + low - 1), f) else setUp name (low + f.bits) fs

/-- Member access `v.a.b…`: `VarPackedStruct::operator[]` then `slice_member`
(src/expr.cc:1956-1975, 1982-1989).  Gives absolute `(var_low, var_high)`. -/
def members : Nat → Nat → List Fld → List Nat → Res (Nat × Nat)
  | lo, hi, _, [] => .ok (lo, hi)
  | lo, _, fs, n :: ns => (setUp n 0 fs).bind fun d =>
      let lo' := d.1.1 + lo
      let hi' := d.1.2 + lo
      match d.2 with
      | .plain _ _ => if ns = [] then .ok (lo', hi') else .throw .user
      | .sub _ gs => members lo' hi' gs ns

/-- The members of the `typedef struct packed` text, in the order written
(src/analysis.cc:1104-1118): that of the attributes. -/
def typedefOrder (fs : List Fld) : List Fld := fs

end Kratos.Slice
