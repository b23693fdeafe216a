import Verif.Sim.ExprProps
import Verif.Slice.Lemmas

/-!
# C98: arrays in the simulator

`complex_values_`: one list of 64-bit words for every array variable.  One array is followed; the entries of
different variables are separate.
-/

namespace Kratos.SimArrays

open Kratos.Sim (U64)
open Kratos.Eval (shl shr MASK)

/-! ## Model -/

/-- An array variable: element width, dimensions, `is_packed()`. -/
structure Arr where
  w : Nat
  size : List Nat
  packed : Bool
  deriving DecidableEq, Repr

/-- The number of elements, src/sim.cc:408-410, 420-422. -/
def Arr.count (a : Arr) : Nat := a.size.foldl (fun b s => b * s) 1

/-- `width()` (src/expr.cc:53-59). -/
def Arr.width (a : Arr) : Nat := a.w * a.count

/-- The entry of the array in `complex_values_`. -/
abbrev Cells := Option (List U64)

/-- Parts `i`, `i + 1`, ... of a word: src/sim.cc:449-454. -/
def parts (w : Nat) (v : U64) : Nat → Nat → Res (List U64)
  | _, 0 => .ok []
  | i, n + 1 => (shr v (w * i)).bind fun x => (shl MASK w).bind fun m =>
      (parts w v (i + 1) n).bind fun r => .ok ((x &&& ~~~ m) :: r)

/-- Making the value as long as the array, src/sim.cc:443-459. -/
def fit (a : Arr) (n : Nat) (vs : List U64) : Res (List U64) :=
  if n = vs.length then .ok vs
  else if a.packed then
    match vs with
    | [] => .ub
    | [v] => parts a.w v 0 n
    | _ => .throw .user
  else .throw .user

/-- The bits of one element reported as changed, src/sim.cc:464-472; the mask is a `uint32_t`. -/
def elemBits (w i : Nat) (first : Bool) (old new : U64) : List Nat :=
  ((List.range w).filter fun b => (old ^^^ new).getLsbD b || first).map fun b => b + w * i

/-- The loop over the elements, src/sim.cc:463-474: from element `i` on; undefined when a 32-bit mask is shifted
by 32. -/
def store (w : Nat) (first : Bool) : Nat → List U64 → List U64 → Res (List Nat)
  | i, o :: os, v :: vs =>
    if o ≠ v ∨ first = true then
      if w > 32 then .ub else (store w first (i + 1) os vs).bind fun r => .ok (elemBits w i first o v ++ r)
    else store w first (i + 1) os vs
  | _, _, _ => .ok []

/-- `set_complex_value_` on the variable itself, src/sim.cc:378-475: the new entry and the changed bits. -/
def setWhole (a : Arr) (c : Cells) (vs : List U64) : Res (List U64 × List Nat) :=
  let n := a.count
  if n = 0 then .ub else
  (fit a n vs).bind fun vs' =>
  (store a.w c.isNone 0 (c.getD (List.replicate n 0)) vs').bind fun bits => .ok (vs', bits)

/-- `set_value_` on an element `a[i]...[j]`, src/sim.cc:281-328: the changed bits are counted from the element, and
`m >> bit` is undefined from bit 64 on. -/
def setElem (a : Arr) (c : Cells) (idx : List Nat) (x : U64) : Res (List U64 × List Nat) :=
  let vs := c.getD (List.replicate a.count 0)
  (Slice.computeHighLow ⟨a.w, a.size, false⟩ (idx.map fun i => (i, i))).bind fun hl =>
  if hl.1 + 1 - hl.2 > a.width then .throw .user
  else
    let base := hl.2 / a.w
    let hi := hl.1 - base * a.w
    let lo := hl.2 - base * a.w
    match vs[base]? with
    | none => .ub
    | some v =>
      (shr MASK (hi + 1)).bind fun m0 => (shr m0 lo).bind fun m =>
      (shr MASK (hi - lo + 1)).bind fun vm => (shl (x &&& vm) lo).bind fun y =>
      let v' := (v &&& ~~~ m) ||| y
      if v' = v then .ok (vs.set base v', [])
      else if a.width > 64 then .ub
      else .ok (vs.set base v', (List.range a.width).filter fun b => (v' ^^^ v).getLsbD b)

/-- `get_value_` on an element, src/sim.cc:218-248. -/
def getElem (a : Arr) (c : Cells) (idx : List Nat) : Res (Option U64) :=
  match c with
  | none => .ok none
  | some vs =>
    (Slice.computeHighLow ⟨a.w, a.size, false⟩ (idx.map fun i => (i, i))).bind fun hl =>
    if hl.1 + 1 - hl.2 > a.width then .throw .user
    else match vs[hl.2 / a.w]? with
      | none => .ub
      | some v => (shr v (hl.2 % a.w)).bind fun y => (shl MASK (hl.1 % a.w + 1)).bind fun m => .ok (some (y &&& ~~~ m))

/-- `get_complex_value_` on the variable itself, src/sim.cc:373-376. -/
def getWhole (c : Cells) : Option (List U64) := c

/-- `get_complex_value_` on a part that is itself an array, src/sim.cc:360-372: the end of the range is
`values.end() + high + 1`. -/
def getSub (a : Arr) (c : Cells) (idx : List (Nat × Nat)) : Res (Option (List U64)) :=
  (Slice.computeHighLow ⟨a.w, a.size, false⟩ idx).bind fun hl =>
  if hl.2 % a.w ≠ 0 ∨ hl.1 % a.w ≠ a.w - 1 then .throw .user
  else match c with
    | none => .ok none
    | some _ => .ub

/-- `set_complex_value_` on a part that is itself an array, src/sim.cc:392-417: `low` and `high` are bits, but are
used as positions of elements. -/
def setSub (a : Arr) (c : Cells) (idx : List (Nat × Nat)) (vs : List U64) : Res (List U64) :=
  (Slice.computeHighLow ⟨a.w, a.size, false⟩ idx).bind fun hl =>
  if hl.2 % a.w ≠ 0 ∨ hl.1 % a.w ≠ a.w - 1 then .throw .user
  else match c with
    | none => .throw .outOfRange
    | some old =>
      (fit a a.count vs).bind fun vs' =>
      if hl.1 ≥ old.length then .ub
      else .ok ((List.range old.length).map fun i => if hl.2 ≤ i ∧ i ≤ hl.1 then vs'.getD i 0 else old.getD i 0)

/-- The calls of `set`. -/
inductive Op where
  | whole (vs : List U64)
  | word (x : U64)
  | elem (idx : List Nat) (x : U64)
  deriving DecidableEq, Repr

/-- A single word for the whole array goes through `set_value_`, src/sim.cc:284-287. -/
def step (a : Arr) (c : Cells) : Op → Res Cells
  | .whole vs => (setWhole a c vs).bind fun r => .ok (some r.1)
  | .word x => (setWhole a c [x]).bind fun r => .ok (some r.1)
  | .elem idx x => (setElem a c idx x).bind fun r => .ok (some r.1)

def run (a : Arr) : Cells → List Op → Res Cells
  | c, [] => .ok c
  | c, o :: os => (step a c o).bind fun c' => run a c' os

/-! ## Specification -/

open Kratos.Slice (prod)

/-- Row-major position of an element. -/
def pos : List Nat → List Nat → Nat
  | d :: ds, i :: is => i * prod ds + pos ds is
  | _, _ => 0

def InBounds : List Nat → List Nat → Prop
  | [], [] => True
  | d :: ds, i :: is => i < d ∧ InBounds ds is
  | _, _ => False

/-- What an array holds: numbers. -/
def specStep (a : Arr) (m : Option (List Nat)) : Op → Option (List Nat)
  | .whole vs => some (vs.map fun v => v.toNat)
  | .word x => some ((List.range (prod a.size)).map fun i => x.toNat / 2 ^ (a.w * i) % 2 ^ a.w)
  | .elem idx x => some ((m.getD (List.replicate (prod a.size) 0)).set (pos a.size idx) x.toNat)

def specRun (a : Arr) (m : Option (List Nat)) (os : List Op) : Option (List Nat) := os.foldl (specStep a) m

/-- Values fit, lengths and indices are right; single elements only in arrays of up to 64 bits, single words only
for packed ones of that size. -/
def Legal (a : Arr) : Op → Prop
  | .whole vs => vs.length = prod a.size ∧ ∀ v ∈ vs, v.toNat < 2 ^ a.w
  | .word _ => a.packed = true ∧ a.w * prod a.size ≤ 64
  | .elem idx x => InBounds a.size idx ∧ x.toNat < 2 ^ a.w ∧ a.w * prod a.size ≤ 64

/-- An array: elements of up to 32 bits, dimensions above one, size within `uint32_t`. -/
structure Arr.Ok (a : Arr) : Prop where
  w1 : 1 ≤ a.w
  w32 : a.w ≤ 32
  ne : a.size ≠ []
  dims : ∀ d ∈ a.size, 1 < d
  small : a.w * prod a.size < 2 ^ 32

/-- The claim about values: any legal calls on any array of elements of up to 64 bits. -/
def MemoryClaim : Prop := ∀ (a : Arr) (os : List Op), 1 ≤ a.w → a.w ≤ 64 → (∀ d ∈ a.size, 1 < d) → a.size ≠ [] →
  (∀ o ∈ os, match o with
    | .whole vs => vs.length = prod a.size ∧ ∀ v ∈ vs, v.toNat < 2 ^ a.w
    | .word _ => False
    | .elem idx x => InBounds a.size idx ∧ x.toNat < 2 ^ a.w) →
  ∃ c, run a none os = .ok c ∧ c.map (fun vs => vs.map fun v => v.toNat) = specRun a none os

/-- The claim about events: the reported bits are those that differ. -/
def EventClaim : Prop := ∀ (a : Arr) (vs : List U64) (idx : List Nat) (x : U64) (r : List U64 × List Nat),
  a.Ok → vs.length = prod a.size → InBounds a.size idx → setElem a (some vs) idx x = .ok r →
  ∀ k, k ∈ r.2 ↔ ∃ b, b < a.w ∧ k = b + a.w * pos a.size idx ∧
    (vs.getD (pos a.size idx) 0).getLsbD b ≠ (r.1.getD (pos a.size idx) 0).getLsbD b

/-! ## Proof -/

theorem count_eq (a : Arr) : a.count = prod a.size := by
  have : ∀ (l : List Nat) (b : Nat), l.foldl (fun b s => b * s) b = b * prod l := by
    intro l
    induction l with
    | nil => intro b; simp
    | cons d ds ih => intro b; rw [List.foldl_cons, ih, Slice.prod_cons, Nat.mul_assoc]
  rw [Arr.count, this, Nat.one_mul]

theorem pos_lt : ∀ (ds is : List Nat), InBounds ds is → pos ds is < prod ds
  | [], [], _ => by simp [pos]
  | d :: ds, i :: is, h => by
    have ih := pos_lt ds is h.2
    rw [pos, Slice.prod_cons]
    have : (i + 1) * prod ds ≤ d * prod ds := Nat.mul_le_mul_right _ h.1
    rw [Nat.add_mul, Nat.one_mul] at this
    omega
  | [], _ :: _, h => h.elim
  | _ :: _, [], h => h.elim

theorem rangeOob : ∀ (is ds : List Nat), InBounds ds is → (∀ d ∈ ds, 1 < d) → Slice.simRangeOob (is.map fun i => (i, i)) ds = false
  | [], _, _, _ => rfl
  | i :: is, [], h, _ => h.elim
  | i :: is, d :: ds, h, hd => by
    rw [List.map_cons, Slice.simRangeOob]
    simp only [Nat.lt_irrefl, gt_iff_lt, if_false, true_and, hd d (List.mem_cons_self ..), if_true]
    exact rangeOob is ds h.2 fun x hx => hd x (List.mem_cons_of_mem _ hx)

theorem simLoop_pos (w : Nat) (hw : 1 ≤ w) : ∀ (ds is : List Nat) (lo hi : Nat), InBounds ds is → (∀ d ∈ ds, 1 < d) → ds ≠ [] →
    lo + prod ds * w < 2 ^ 32 →
    Slice.simLoop w (is.map fun i => (i, i)) ds lo hi = (lo + pos ds is * w + w - 1, lo + pos ds is * w)
  | [], _, _, _, _, _, hn, _ => absurd rfl hn
  | d :: ds, [], _, _, h, _, _, _ => h.elim
  | d :: ds, i :: is, lo, hi, h, hd, _, hs => by
    have hds : ∀ x ∈ ds, 1 < x := fun x hx => hd x (List.mem_cons_of_mem _ hx)
    have hpp := Slice.prod_pos (ds := ds) fun x hx => Nat.le_of_lt (hds x hx)
    have h1 : prod (d :: ds) * w = d * (prod ds * w) := by rw [Slice.prod_cons, Nat.mul_assoc]
    have h2 : (i + 1) * (prod ds * w) ≤ d * (prod ds * w) := Nat.mul_le_mul_right _ h.1
    have h3 : (i + 1) * (prod ds * w) = i * (prod ds * w) + prod ds * w := by rw [Nat.add_mul, Nat.one_mul]
    have h5 : 1 * w ≤ prod ds * w := Nat.mul_le_mul_right _ hpp
    have h6 : prod ds * 1 ≤ prod ds * w := Nat.mul_le_mul_left _ hw
    have hb : Slice.mul32 (ds.foldr Slice.mul32 1) w = prod ds * w := by
      rw [Slice.foldr_mul32 ds (fun x hx => Nat.le_of_lt (hds x hx)) (by omega), Slice.mul32, Slice.u32_eq (by omega)]
    have hm : Slice.mul32 i (prod ds * w) = i * (prod ds * w) := by rw [Slice.mul32, Slice.u32_eq (by omega)]
    have hm1 : Slice.mul32 (i - i + 1) (prod ds * w) = prod ds * w := by
      rw [Nat.sub_self, Nat.zero_add, Slice.mul32, Nat.one_mul, Slice.u32_eq (by omega)]
    rw [List.map_cons, Slice.simLoop]
    simp only [Nat.lt_irrefl, gt_iff_lt, if_false, true_and, hd d (List.mem_cons_self ..), if_true, hb, hm, hm1]
    rw [Slice.u32_eq (n := lo + i * (prod ds * w)) (by omega), Slice.u32_eq (n := lo + i * (prod ds * w) + prod ds * w) (by omega)]
    have hpos : pos (d :: ds) (i :: is) * w = i * (prod ds * w) + pos ds is * w := by
      rw [pos, Nat.add_mul, Nat.mul_assoc]
    cases ds with
    | nil =>
      cases is with
      | cons _ _ => exact h.2.elim
      | nil =>
        rw [hpos]
        simp only [List.map_nil, Slice.simLoop, pos, Slice.prod_nil, Nat.one_mul, Nat.zero_mul, Nat.add_zero]
    | cons e es =>
      rw [simLoop_pos w hw (e :: es) is _ _ h.2 hds (by simp) (by omega), hpos]
      simp only [Nat.add_assoc]

theorem highLow {a : Arr} (ok : a.Ok) {idx : List Nat} (h : InBounds a.size idx) :
    Slice.computeHighLow ⟨a.w, a.size, false⟩ (idx.map fun i => (i, i)) = .ok (pos a.size idx * a.w + a.w - 1, pos a.size idx * a.w) := by
  rw [Slice.computeHighLow, rangeOob idx a.size h ok.dims]
  simp only [Bool.false_eq_true, if_false]
  rw [simLoop_pos a.w ok.w1 a.size idx 0 0 h ok.dims ok.ne (by rw [Nat.zero_add, Nat.mul_comm]; exact ok.small)]
  simp only [Nat.zero_add]

theorem pos_div {a : Arr} (ok : a.Ok) (p : Nat) : p * a.w / a.w = p := Nat.mul_div_cancel _ ok.w1

theorem width_ge {a : Arr} (ok : a.Ok) : a.w ≤ a.width := by
  rw [Arr.width, count_eq]
  have := Slice.prod_pos (ds := a.size) fun d hd => Nat.le_of_lt (ok.dims d hd)
  calc a.w = a.w * 1 := (Nat.mul_one _).symm
    _ ≤ _ := Nat.mul_le_mul_left _ this

/-! ### Reading an element -/

theorem getElem_eq {a : Arr} (ok : a.Ok) {idx : List Nat} (h : InBounds a.size idx) {vs : List U64} {v : U64}
    (hv : vs[pos a.size idx]? = some v) (hlt : v.toNat < 2 ^ a.w) : getElem a (some vs) idx = .ok (some v) := by
  have h1 := ok.w1
  have h32 := ok.w32
  have hw := width_ge ok
  simp only [getElem, highLow ok h, Res.ok_bind]
  rw [if_neg (by omega), pos_div ok, hv]
  have e1 : pos a.size idx * a.w % a.w = 0 := Nat.mul_mod_left _ _
  have e2 : (pos a.size idx * a.w + a.w - 1) % a.w = a.w - 1 := by
    rw [show pos a.size idx * a.w + a.w - 1 = (a.w - 1) + pos a.size idx * a.w by omega, Nat.add_mul_mod_self_right]
    exact Nat.mod_eq_of_lt (by omega)
  simp only [e1, e2]
  rw [Eval.shr_ok (by omega), Res.ok_bind, Eval.shl_ok (by omega), Res.ok_bind]
  simp only [Res.ok.injEq, Option.some.injEq]
  apply BitVec.eq_of_toNat_eq
  rw [Sim.not_mask (by omega), BitVec.toNat_ushiftRight, Nat.shiftRight_zero, show a.w - 1 + 1 = a.w by omega]
  exact Nat.mod_eq_of_lt hlt

/-! ### Writing an element -/

theorem mask_write {w : Nat} (h32 : w ≤ 32) {v x : U64} (hv : v.toNat < 2 ^ w) (hx : x.toNat < 2 ^ w) :
    (v &&& ~~~ ((MASK >>> w) >>> 0)) ||| ((x &&& (MASK >>> w)) <<< 0) = x := by
  have big : ∀ (y : U64) (i : Nat), y.toNat < 2 ^ w → w ≤ i → y.getLsbD i = false := by
    intro y i hy hi
    rw [← BitVec.testBit_toNat]
    exact Nat.testBit_lt_two_pow (Nat.lt_of_lt_of_le hy (Nat.pow_le_pow_right (by omega) hi))
  apply BitVec.eq_of_getLsbD_eq
  intro i hi
  simp only [BitVec.ushiftRight_zero, BitVec.shiftLeft_zero, BitVec.getLsbD_or, BitVec.getLsbD_and, BitVec.getLsbD_not,
    BitVec.getLsbD_ushiftRight, MASK, BitVec.getLsbD_allOnes, hi, decide_true, Bool.true_and]
  by_cases h : w + i < 64
  · simp [h]
  · rw [big v i hv (by omega), big x i hx (by omega)]
    simp

theorem setElem_eq {a : Arr} (ok : a.Ok) {idx : List Nat} (h : InBounds a.size idx) {c : Cells} {v x : U64}
    (hv : (c.getD (List.replicate a.count 0))[pos a.size idx]? = some v) (hlt : v.toNat < 2 ^ a.w) (hx : x.toNat < 2 ^ a.w) :
    setElem a c idx x = if x = v then .ok ((c.getD (List.replicate a.count 0)).set (pos a.size idx) x, [])
      else if a.width > 64 then .ub
      else .ok ((c.getD (List.replicate a.count 0)).set (pos a.size idx) x,
        (List.range a.width).filter fun b => (x ^^^ v).getLsbD b) := by
  have h1 := ok.w1
  have h32 := ok.w32
  have hw := width_ge ok
  simp only [setElem, highLow ok h, Res.ok_bind]
  rw [if_neg (by omega), pos_div ok, hv]
  simp only [Nat.sub_self]
  rw [show pos a.size idx * a.w + a.w - 1 - pos a.size idx * a.w + 1 = a.w by omega,
    show pos a.size idx * a.w + a.w - 1 - pos a.size idx * a.w - 0 + 1 = a.w by omega,
    Eval.shr_ok (by omega), Res.ok_bind, Eval.shr_ok (by omega), Res.ok_bind, Res.ok_bind, Eval.shl_ok (by omega), Res.ok_bind,
    mask_write h32 hlt hx]

/-! ### Writing the whole -/

theorem store_ok (w : Nat) (h32 : w ≤ 32) (first : Bool) : ∀ (i : Nat) (os vs : List U64), ∃ bits, store w first i os vs = .ok bits
  | _, [], _ => ⟨[], by simp [store]⟩
  | _, _ :: _, [] => ⟨[], by simp [store]⟩
  | i, o :: os, v :: vs => by
    obtain ⟨bits, hb⟩ := store_ok w h32 first (i + 1) os vs
    rw [store]
    by_cases h : o ≠ v ∨ first = true
    · rw [if_pos h, if_neg (by omega), hb]
      exact ⟨_, rfl⟩
    · rw [if_neg h]
      exact ⟨bits, hb⟩

theorem store_bits (w : Nat) (first : Bool) : ∀ (i : Nat) (os vs : List U64) (bits : List Nat), store w first i os vs = .ok bits →
    os.length = vs.length → ∀ k, k ∈ bits ↔ ∃ (j b : Nat) (o v : U64), os[j]? = some o ∧ vs[j]? = some v ∧ b < w ∧ k = b + w * (i + j) ∧
      (first = true ∨ o.getLsbD b ≠ v.getLsbD b)
  | i, [], [], bits, h, _, k => by
    simp only [store, Res.ok.injEq] at h
    subst h
    constructor
    · intro h; cases h
    · rintro ⟨j, b, o, v, h, _⟩; cases h
  | i, [], _ :: _, _, _, hl, _ => by simp at hl
  | i, _ :: _, [], _, _, hl, _ => by simp at hl
  | i, o :: os, v :: vs, bits, h, hl, k => by
    have hl' : os.length = vs.length := by simpa using hl
    have tail : ∀ r, store w first (i + 1) os vs = .ok r → (k ∈ r ↔ ∃ (j b : Nat) (o' v' : U64), (o :: os)[j + 1]? = some o' ∧
        (v :: vs)[j + 1]? = some v' ∧ b < w ∧ k = b + w * (i + (j + 1)) ∧ (first = true ∨ o'.getLsbD b ≠ v'.getLsbD b)) := by
      intro r hr
      rw [store_bits w first (i + 1) os vs r hr hl' k]
      simp only [List.getElem?_cons_succ, show ∀ j, i + 1 + j = i + (j + 1) by intro j; omega]
    have head : (∃ (b : Nat), b < w ∧ k = b + w * i ∧ (first = true ∨ o.getLsbD b ≠ v.getLsbD b)) ↔ k ∈ elemBits w i first o v := by
      rw [elemBits, List.mem_map]
      constructor
      · rintro ⟨b, hb, hk, hf⟩
        refine ⟨b, ?_, hk.symm⟩
        rw [List.mem_filter, List.mem_range, Bool.or_eq_true, BitVec.getLsbD_xor]
        refine ⟨hb, ?_⟩
        rcases hf with hf | hf
        · exact .inr hf
        · refine .inl ?_
          cases h1 : o.getLsbD b <;> cases h2 : v.getLsbD b <;> simp_all
      · rintro ⟨b, hb, hk⟩
        rw [List.mem_filter, List.mem_range, Bool.or_eq_true, BitVec.getLsbD_xor] at hb
        refine ⟨b, hb.1, hk.symm, ?_⟩
        rcases hb.2 with hf | hf
        · refine .inr fun e => ?_
          rw [e] at hf
          cases h2 : v.getLsbD b <;> simp [h2] at hf
        · exact .inl hf
    have split : (∃ (j b : Nat) (o' v' : U64), (o :: os)[j]? = some o' ∧ (v :: vs)[j]? = some v' ∧ b < w ∧ k = b + w * (i + j) ∧
        (first = true ∨ o'.getLsbD b ≠ v'.getLsbD b)) ↔
        (∃ (b : Nat), b < w ∧ k = b + w * i ∧ (first = true ∨ o.getLsbD b ≠ v.getLsbD b)) ∨
        (∃ (j b : Nat) (o' v' : U64), (o :: os)[j + 1]? = some o' ∧
        (v :: vs)[j + 1]? = some v' ∧ b < w ∧ k = b + w * (i + (j + 1)) ∧ (first = true ∨ o'.getLsbD b ≠ v'.getLsbD b)) := by
      constructor
      · rintro ⟨j, b, o', v', h1, h2, h3, h4, h5⟩
        cases j with
        | zero =>
          cases h1; cases h2
          exact .inl ⟨b, h3, h4, h5⟩
        | succ j => exact .inr ⟨j, b, o', v', h1, h2, h3, h4, h5⟩
      · rintro (⟨b, h3, h4, h5⟩ | ⟨j, b, o', v', h1, h2, h3, h4, h5⟩)
        · exact ⟨0, b, o, v, rfl, rfl, h3, h4, h5⟩
        · exact ⟨j + 1, b, o', v', h1, h2, h3, h4, h5⟩
    rw [split]
    rw [store] at h
    by_cases hc : o ≠ v ∨ first = true
    · rw [if_pos hc] at h
      by_cases hw : w > 32
      · rw [if_pos hw] at h; cases h
      · rw [if_neg hw, Res.bind_eq_ok] at h
        obtain ⟨r, hr, h⟩ := h
        rw [Res.ok.injEq] at h
        subst h
        rw [List.mem_append, ← head, tail r hr]
    · rw [if_neg hc] at h
      rw [tail bits h]
      constructor
      · exact .inr
      · rintro (⟨b, _, _, h5⟩ | h)
        · exfalso
          rcases h5 with h5 | h5
          · exact hc (.inr h5)
          · exact hc (.inl fun e => h5 (by rw [e]))
        · exact h

theorem parts_eq (w : Nat) (h1 : 1 ≤ w) (h32 : w ≤ 32) (v : U64) : ∀ (n i : Nat), w * (i + n) ≤ 64 →
    ∃ r, parts w v i n = .ok r ∧ r.map (fun x => x.toNat) = (List.range' i n).map fun j => v.toNat / 2 ^ (w * j) % 2 ^ w
  | 0, i, _ => ⟨[], rfl, rfl⟩
  | n + 1, i, h => by
    have hm : w * (i + (n + 1)) = w * i + w * n + w := by rw [Nat.mul_add, Nat.mul_add, Nat.mul_one, Nat.add_assoc]
    have hm2 : w * (i + 1 + n) = w * i + w + w * n := by rw [Nat.mul_add, Nat.mul_add, Nat.mul_one]
    obtain ⟨r, hr, he⟩ := parts_eq w h1 h32 v n (i + 1) (by omega)
    refine ⟨(v >>> (w * i) &&& ~~~ (MASK <<< w)) :: r, ?_, ?_⟩
    · rw [parts, Eval.shr_ok (by omega), Res.ok_bind, Eval.shl_ok (by omega), Res.ok_bind, hr, Res.ok_bind]
    · rw [List.map_cons, he, List.range'_succ, List.map_cons, Sim.not_mask (by omega), BitVec.toNat_ushiftRight, Nat.shiftRight_eq_div_pow]

theorem fit_same {a : Arr} {n : Nat} {vs : List U64} (h : n = vs.length) : fit a n vs = .ok vs := by
  simp only [fit, if_pos h]

theorem fit_unpacked {a : Arr} {n : Nat} {vs : List U64} (h : n ≠ vs.length) (hp : a.packed = false) : fit a n vs = .throw .user := by
  simp only [fit, if_neg h, hp, Bool.false_eq_true, if_false]

/-! ### Histories -/

/-- The entry holds these numbers. -/
structure Holds (a : Arr) (c : Cells) (m : Option (List Nat)) : Prop where
  eq : c.map (fun vs => vs.map fun v => v.toNat) = m
  len : ∀ vs, c = some vs → vs.length = prod a.size
  fits : ∀ vs, c = some vs → ∀ v ∈ vs, v.toNat < 2 ^ a.w

theorem count_pos {a : Arr} (ok : a.Ok) : a.count ≠ 0 := by
  rw [count_eq]
  have := Slice.prod_pos (ds := a.size) fun d hd => Nat.le_of_lt (ok.dims d hd)
  omega

theorem setWhole_ok {a : Arr} (ok : a.Ok) {c : Cells} {vs vs' : List U64} (hf : fit a a.count vs = .ok vs') :
    ∃ bits, setWhole a c vs = .ok (vs', bits) := by
  obtain ⟨bits, hb⟩ := store_ok a.w ok.w32 c.isNone 0 (c.getD (List.replicate a.count 0)) vs'
  exact ⟨bits, by simp only [setWhole, if_neg (count_pos ok), hf, Res.ok_bind, hb]⟩

theorem count_gt {a : Arr} (ok : a.Ok) : 1 < prod a.size := by
  match h : a.size, ok.ne, ok.dims with
  | d :: ds, _, hd =>
    have h1 := hd d (List.mem_cons_self ..)
    have h2 := Slice.prod_pos (ds := ds) fun x hx => Nat.le_of_lt (hd x (List.mem_cons_of_mem _ hx))
    rw [Slice.prod_cons]
    calc 1 < d * 1 := by omega
      _ ≤ _ := Nat.mul_le_mul_left _ h2

theorem step_holds {a : Arr} (ok : a.Ok) {c : Cells} {m : Option (List Nat)} (h : Holds a c m) (o : Op) (hl : Legal a o) :
    ∃ c', step a c o = .ok c' ∧ Holds a c' (specStep a m o) := by
  cases o with
  | whole vs =>
    obtain ⟨hlen, hfit⟩ := hl
    obtain ⟨bits, hb⟩ := setWhole_ok ok (c := c) (vs := vs) (vs' := vs) (fit_same (by rw [count_eq, hlen]))
    refine ⟨some vs, by simp only [step, hb, Res.ok_bind], rfl, ?_, ?_⟩
    · intro us hu; cases hu; exact hlen
    · intro us hu; cases hu; exact hfit
  | word x =>
    obtain ⟨hp, hsm⟩ := hl
    have hc1 := count_gt ok
    obtain ⟨r, hr, he⟩ := parts_eq a.w ok.w1 ok.w32 x (prod a.size) 0 (by rw [Nat.zero_add]; exact hsm)
    have hf : fit a a.count [x] = .ok r := by
      rw [fit, if_neg (by rw [count_eq]; simp only [List.length_cons, List.length_nil]; omega), if_pos hp, count_eq]
      exact hr
    obtain ⟨bits, hb⟩ := setWhole_ok ok (c := c) hf
    rw [← List.range_eq_range'] at he
    refine ⟨some r, by simp only [step, hb, Res.ok_bind], ?_, ?_, ?_⟩
    · simp only [Option.map_some, specStep]
      rw [he]
    · intro us hu; cases hu
      have := congrArg List.length he
      simpa using this
    · intro us hu v hv
      cases hu
      have hm := List.mem_map_of_mem (f := fun x : U64 => x.toNat) hv
      rw [he, List.mem_map] at hm
      obtain ⟨j, _, hj⟩ := hm
      have hlt : x.toNat / 2 ^ (a.w * j) % 2 ^ a.w < 2 ^ a.w := Nat.mod_lt _ (Nat.two_pow_pos _)
      omega
  | elem idx x =>
    obtain ⟨hi, hx, hsm⟩ := hl
    have hlen : (c.getD (List.replicate a.count 0)).length = prod a.size := by
      cases c with
      | none => simp [count_eq]
      | some vs => exact h.len vs rfl
    have hfits : ∀ v ∈ c.getD (List.replicate a.count 0), v.toNat < 2 ^ a.w := by
      cases c with
      | none =>
        intro v hv
        rw [Option.getD_none, List.mem_replicate] at hv
        rw [hv.2]
        exact Nat.two_pow_pos _
      | some vs => exact h.fits vs rfl
    have hlt : pos a.size idx < (c.getD (List.replicate a.count 0)).length := by rw [hlen]; exact pos_lt _ _ hi
    have hv := List.getElem?_eq_getElem hlt
    have hset : step a c (.elem idx x) = .ok (some ((c.getD (List.replicate a.count 0)).set (pos a.size idx) x)) := by
      rw [step, setElem_eq ok hi hv (hfits _ (List.getElem_mem hlt)) hx]
      by_cases he : x = (c.getD (List.replicate a.count 0))[pos a.size idx]
      · rw [if_pos he, Res.ok_bind]
      · rw [if_neg he, if_neg (by rw [Arr.width, count_eq]; omega), Res.ok_bind]
    refine ⟨_, hset, ?_, ?_, ?_⟩
    · rw [Option.map_some, List.map_set]
      simp only [specStep, Option.some.injEq]
      rw [← h.eq]
      cases c with
      | none => simp [count_eq]
      | some vs => rfl
    · intro us hu; cases hu
      rw [List.length_set, hlen]
    · intro us hu v hv'
      cases hu
      rcases List.mem_or_eq_of_mem_set hv' with h | h
      · exact hfits v h
      · rw [h]; exact hx

theorem run_holds {a : Arr} (ok : a.Ok) : ∀ (os : List Op) {c : Cells} {m : Option (List Nat)}, Holds a c m → (∀ o ∈ os, Legal a o) →
    ∃ c', run a c os = .ok c' ∧ Holds a c' (specRun a m os)
  | [], c, m, h, _ => ⟨c, rfl, h⟩
  | o :: os, c, m, h, hl => by
    obtain ⟨c1, h1, h2⟩ := step_holds ok h o (hl o (List.mem_cons_self ..))
    obtain ⟨c2, h3, h4⟩ := run_holds ok os h2 fun x hx => hl x (List.mem_cons_of_mem _ hx)
    exact ⟨c2, by rw [run, h1, Res.ok_bind]; exact h3, h4⟩

theorem holds_none (a : Arr) : Holds a none none := ⟨rfl, fun _ h => (by cases h), fun _ h => (by cases h)⟩

/-! ## C98 -/

/-- After any legal calls, the array and each of its elements read back as what was written last. -/
theorem memory_partial (a : Arr) (ok : a.Ok) (os : List Op) (hl : ∀ o ∈ os, Legal a o) :
    ∃ c, run a none os = .ok c ∧ (getWhole c).map (fun vs => vs.map fun v => v.toNat) = specRun a none os ∧
      ∀ idx, InBounds a.size idx → ∃ r, getElem a c idx = .ok r ∧
        r.map (fun v => v.toNat) = (specRun a none os).bind fun m => m[pos a.size idx]? := by
  obtain ⟨c, hc, hh⟩ := run_holds ok os (holds_none a) hl
  refine ⟨c, hc, hh.eq, fun idx hi => ?_⟩
  rw [← hh.eq]
  cases c with
  | none => exact ⟨none, rfl, rfl⟩
  | some vs =>
    have hlt : pos a.size idx < vs.length := by rw [hh.len vs rfl]; exact pos_lt _ _ hi
    refine ⟨some vs[pos a.size idx], getElem_eq ok hi (List.getElem?_eq_getElem hlt) (hh.fits vs rfl _ (List.getElem_mem hlt)), ?_⟩
    simp only [Option.map_some, Option.bind_some, List.getElem?_map, List.getElem?_eq_getElem hlt]

/-- When the array is set as a whole, the bits reported as changed are those that differ, or all of them the first
time. -/
theorem whole_events (a : Arr) (c : Cells) (vs : List U64) (r : List U64 × List Nat) (hn : vs.length = prod a.size)
    (hc : ∀ os, c = some os → os.length = prod a.size) (h : setWhole a c vs = .ok r) (k : Nat) :
    k ∈ r.2 ↔ ∃ (j b : Nat), j < prod a.size ∧ b < a.w ∧ k = b + a.w * j ∧
      ∀ os, c = some os → (os.getD j 0).getLsbD b ≠ (vs.getD j 0).getLsbD b := by
  simp only [setWhole] at h
  split at h
  · cases h
  · rw [fit_same (by rw [count_eq, hn]), Res.ok_bind, Res.bind_eq_ok] at h
    obtain ⟨bits, hb, h⟩ := h
    cases h
    have hol : (c.getD (List.replicate a.count 0)).length = prod a.size := by
      cases c with
      | none => simp [count_eq]
      | some os => exact hc os rfl
    rw [store_bits a.w c.isNone 0 _ vs bits hb (by rw [hol, hn]) k]
    constructor
    · rintro ⟨j, b, o, v, h1, h2, h3, h4, h5⟩
      have hj : j < prod a.size := by rw [← hn]; exact (List.getElem?_eq_some_iff.1 h2).1
      refine ⟨j, b, hj, h3, by rw [h4, Nat.zero_add], fun os he => ?_⟩
      subst he
      rw [List.getD_eq_getElem?_getD, List.getD_eq_getElem?_getD, h2]
      rw [Option.getD_some] at h1
      rw [h1]
      simpa using h5
    · rintro ⟨j, b, hj, hbw, hk, hd⟩
      refine ⟨j, b, _, _, List.getElem?_eq_getElem (by rw [hol]; exact hj), List.getElem?_eq_getElem (by rw [hn]; exact hj), hbw,
        by rw [hk, Nat.zero_add], ?_⟩
      cases c with
      | none => exact .inl rfl
      | some os =>
        refine .inr ?_
        have := hd os rfl
        rw [List.getD_eq_getElem?_getD, List.getD_eq_getElem?_getD,
          List.getElem?_eq_getElem (l := vs) (by rw [hn]; exact hj), List.getElem?_eq_getElem (l := os) (by rw [hc os rfl]; exact hj)] at this
        simpa using this

/-- Setting an element to another value in an array of more than 64 bits is undefined behaviour. -/
theorem element_ub (a : Arr) (ok : a.Ok) (hbig : 64 < a.w * prod a.size) (vs : List U64) (idx : List Nat) (v x : U64)
    (hi : InBounds a.size idx) (hv : vs[pos a.size idx]? = some v) (hvw : v.toNat < 2 ^ a.w) (hx : x.toNat < 2 ^ a.w) (hne : x ≠ v) :
    setElem a (some vs) idx x = .ub := by
  rw [setElem_eq ok hi (c := some vs) hv hvw hx, if_neg hne, if_pos (by rw [Arr.width, count_eq]; exact hbig)]

/-- A part that is an array cannot be read once the array has a value. -/
theorem sub_read_refused (a : Arr) (vs : List U64) (idx : List (Nat × Nat)) (r : Option (List U64)) : getSub a (some vs) idx ≠ .ok r := by
  intro h
  simp only [getSub, Res.bind_eq_ok] at h
  obtain ⟨hl, _, h⟩ := h
  split at h <;> cases h

/-- A part of an unpacked array that is an array cannot be set to its values. -/
theorem sub_write_refused (a : Arr) (c : Cells) (idx : List (Nat × Nat)) (vs : List U64) (hp : a.packed = false)
    (hn : vs.length ≠ prod a.size) (r : List U64) : setSub a c idx vs ≠ .ok r := by
  intro h
  simp only [setSub, Res.bind_eq_ok] at h
  obtain ⟨hl, _, h⟩ := h
  split at h
  · cases h
  · split at h
    · cases h
    · rw [fit_unpacked (by rw [count_eq]; exact fun e => hn e.symm) hp] at h
      cases h

/-! ### Examples and disagreements -/

/-- `logic [7:0] a [3][2]`: set as a whole, then `a[1][1]`, then `a[0][0]`. -/
def sample : Arr := ⟨8, [3, 2], false⟩
def calls : List Op := [.whole [1, 2, 3, 4, 5, 6], .elem [1, 1] 40, .elem [0, 0] 10]
example : sample.Ok := ⟨by decide, by decide, by decide, by decide, by decide +kernel⟩
example : ∀ o ∈ calls, Legal sample o := by
  intro o ho
  simp only [calls, List.mem_cons, List.not_mem_nil, or_false] at ho
  rcases ho with rfl | rfl | rfl
  · refine ⟨rfl, fun v hv => ?_⟩
    simp only [List.mem_cons, List.not_mem_nil, or_false] at hv
    rcases hv with rfl | rfl | rfl | rfl | rfl | rfl <;> decide
  · exact ⟨⟨by decide, by decide, trivial⟩, by decide, by decide⟩
  · exact ⟨⟨by decide, by decide, trivial⟩, by decide, by decide⟩
example : run sample none calls = .ok (some [10, 2, 3, 40, 5, 6]) := by decide +kernel
example : (run sample none calls).bind (fun c => getElem sample c [1, 1]) = .ok (some 40) := by decide +kernel

/-- A packed array set with one word. -/
example : run ⟨8, [3, 2], true⟩ none [.word 0x060504030201] = .ok (some [1, 2, 3, 4, 5, 6]) := by decide +kernel

/-- Setting `a[1][1]` reports bits of `a[0][0]`: what reads `a[1][1]` is not run again. -/
theorem element_event_wrong : setElem sample (some [1, 2, 3, 4, 5, 6]) [1, 1] 5 = .ok ([1, 2, 3, 5, 5, 6], [0]) := by decide +kernel

theorem not_EventClaim : ¬ EventClaim := by
  intro h
  have := (h sample _ [1, 1] 5 _ ⟨by decide, by decide, by decide, by decide, by decide +kernel⟩ rfl ⟨by decide, by decide, trivial⟩
    element_event_wrong 0).1 (by decide)
  obtain ⟨b, hb, hk, _⟩ := this
  have : (0 : Nat) = b + 8 * 3 := hk
  omega

/-- An array of more than 64 bits: `a[0] = 1` after all were zero. -/
theorem large_ub : run ⟨8, [16], false⟩ none [.whole (List.replicate 16 0), .elem [0] 1] = .ub := by decide +kernel

/-- Elements of more than 32 bits cannot be set as a whole. -/
theorem wide_ub : run ⟨40, [2], false⟩ none [.whole [1, 2]] = .ub := by decide +kernel

/-- `a[0]` of a packed `logic [2:0][1:0][1:0] a`, set to 5: elements 0 to 3 are overwritten. -/
theorem sub_write_wrong : setSub ⟨2, [3, 2], true⟩ (some [3, 3, 3, 3, 3, 3]) [(0, 0)] [5] = .ok [1, 1, 0, 0, 3, 3] := by decide +kernel

theorem not_MemoryClaim : ¬ MemoryClaim := by
  intro h
  obtain ⟨c, hc, _⟩ := h ⟨40, [2], false⟩ [.whole [1, 2]] (by decide) (by decide) (by decide) (by decide) (by
    intro o ho
    cases List.mem_singleton.1 ho
    refine ⟨rfl, fun v hv => ?_⟩
    simp only [List.mem_cons, List.not_mem_nil, or_false] at hv
    rcases hv with rfl | rfl <;> decide)
  rw [wide_ub] at hc
  cases hc

end Kratos.SimArrays
