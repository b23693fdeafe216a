import Verif.Ir.Semantics

/-!
# The text of for-loops (property C49)

Models `ForStmt::ForStmt` (src/stmt.cc:353-363), `IterVar::IterVar` (src/expr.cc:2116-2121) and the header printed by
`SystemVerilogCodeGen::stmt_code(ForStmt*)` (src/codegen.cc:944-972).
-/

namespace Kratos.ForText

open Kratos.Ir (pattern iterValues)

/-! ### Model -/

/-- How the loop variable is declared: `int`, `int unsigned` or `genvar`. -/
inductive Decl where
  | int
  | unsigned
  | genvar
  deriving DecidableEq, Repr

/-- What the header says: `for (<decl> i = <start>; i < <stop>; i += <amount>)`, with `>` for `lt = false` and `-=` for `plus = false`. -/
structure Header where
  decl : Decl
  start : Int
  lt : Bool
  stop : Int
  plus : Bool
  amount : Int
  deriving DecidableEq, Repr

/-- Signedness chosen by the constructor, src/stmt.cc:357. -/
def signed (a b : Int) : Bool := decide (a < 0) || decide (b < 0)

/-- src/codegen.cc:949-957. -/
def decl (genvar : Bool) (a b : Int) : Decl := if genvar then .genvar else if signed a b then .int else .unsigned

/-- src/codegen.cc:962-967: the comparison follows the bounds, the update follows the sign of the step. -/
def header (genvar : Bool) (a b s : Int) : Header :=
  { decl := decl genvar a b, start := a, lt := decide (b > a), stop := b, plus := decide (s > 0), amount := s.natAbs }

/-! ### Specification: what a SystemVerilog for-loop does (IEEE 1800-2017 §12.7.1, §6.11.1, §11.4) -/

/-- All three kinds are 32 bits wide; `int` and `genvar` are signed.  The number that a bit pattern stands for. -/
def Decl.read (d : Decl) (x : Nat) : Int := if d ≠ .unsigned ∧ 2147483648 ≤ x then (x : Int) - 4294967296 else x

/-- The condition, for the pattern `x` in the loop variable.  With an unsigned variable the comparison is unsigned. -/
def Header.holds (h : Header) (x : Nat) : Bool :=
  if h.lt then decide (h.decl.read x < h.decl.read (pattern 32 h.stop)) else decide (h.decl.read x > h.decl.read (pattern 32 h.stop))

/-- The update, in 32-bit arithmetic. -/
def Header.next (h : Header) (x : Nat) : Nat :=
  if h.plus then (x + pattern 32 h.amount) % 4294967296 else (x + (4294967296 - pattern 32 h.amount)) % 4294967296

/-- The patterns the variable takes in the iterations of the loop, from `x` on; `none`: not over after `n` tests of the condition. -/
def Header.iterations (h : Header) : Nat → Nat → Option (List Nat)
  | 0, _ => none
  | n + 1, x => if h.holds x then (h.iterations n (h.next x)).map (x :: ·) else some []

/-- The loop runs its body for exactly the values `l` and terminates. -/
def Header.Runs (h : Header) (l : List Int) : Prop := ∃ n, h.iterations n (pattern 32 h.start) = some (l.map (pattern 32))

/-- Full claim (C49): start, start + step, … up to (excluding) the end. -/
def ForClaim : Prop := ∀ (genvar : Bool) (a b s : Int), s ≠ 0 → (header genvar a b s).Runs (iterValues a b s)

/-- Bounds of the declared type. -/
def Decl.lo : Decl → Int
  | .unsigned => 0
  | _ => -2147483648
def Decl.hi : Decl → Int
  | .unsigned => 4294967295
  | _ => 2147483647

/-- The bounds fit the variable, and the step a 32-bit number. -/
structure Fits (genvar : Bool) (a b s : Int) : Prop where
  start : (decl genvar a b).lo ≤ a ∧ a ≤ (decl genvar a b).hi
  stop : (decl genvar a b).lo ≤ b ∧ b ≤ (decl genvar a b).hi
  step : -4294967296 < s ∧ s < 4294967296

/-- The step leads from start to end, and the value at which the loop stops still fits the variable. -/
def Good (genvar : Bool) (a b s : Int) : Prop :=
  a = b ∨ (0 < s ∧ a < b ∧ a + (iterValues a b s).length * s ≤ (decl genvar a b).hi) ∨
    (s < 0 ∧ b < a ∧ (decl genvar a b).lo ≤ a + (iterValues a b s).length * s)

/-! ### Proof -/

theorem cast_pattern (i : Int) : (pattern 32 i : Int) = i % 4294967296 := by
  unfold pattern
  omega

theorem read_pattern (d : Decl) {i : Int} (h1 : d.lo ≤ i) (h2 : i ≤ d.hi) : d.read (pattern 32 i) = i := by
  have e := cast_pattern i
  generalize pattern 32 i = x at *
  unfold Decl.read
  cases d <;> simp only [Decl.lo, Decl.hi] at h1 h2 <;> simp only [ne_eq, reduceCtorEq, not_false_eq_true, not_true_eq_false, true_and, false_and, if_false] <;>
    first | (split <;> omega) | omega

/-- The reading is always within bounds and congruent to the number. -/
theorem read_bounds (d : Decl) (i : Int) : d.lo ≤ d.read (pattern 32 i) ∧ d.read (pattern 32 i) ≤ d.hi ∧ d.read (pattern 32 i) % 4294967296 = i % 4294967296 := by
  have e := cast_pattern i
  generalize pattern 32 i = x at *
  unfold Decl.read
  cases d <;> simp only [Decl.lo, Decl.hi, ne_eq, reduceCtorEq, not_false_eq_true, not_true_eq_false, true_and, false_and, if_false] <;>
    first | (split <;> omega) | omega

theorem next_pattern (genvar : Bool) {a b s : Int} (hs : -4294967296 < s ∧ s < 4294967296) (i : Int) :
    (header genvar a b s).next (pattern 32 i) = pattern 32 (i + s) := by
  unfold Header.next header pattern
  simp only [decide_eq_true_eq]
  split <;> omega

/-- As long as the condition holds, the variable takes the next value. -/
theorem iterations_of (h : Header) (f : Nat → Nat) (hn : ∀ j, h.next (f j) = f (j + 1)) (c : Nat) :
    ∀ k j, k + j = c → (∀ i, j ≤ i → i < c → h.holds (f i) = true) → h.holds (f c) = false → h.iterations (k + 1) (f j) = some ((List.range' j k).map f)
  | 0, j, e, _, hc => by
    have : j = c := by omega
    subst this
    simp [Header.iterations, hc]
  | k + 1, j, e, hj, hc => by
    unfold Header.iterations
    rw [if_pos (hj j (Nat.le_refl j) (by omega)), hn, iterations_of h f hn c k (j + 1) (by omega) (fun i hi => hj i (by omega)) hc]
    rfl

/-- A finished loop: the condition held for the values it ran with and fails for the next one. -/
theorem iterations_inv (h : Header) (f : Nat → Nat) (hn : ∀ j, h.next (f j) = f (j + 1)) :
    ∀ n j l, h.iterations n (f j) = some l → (∀ i, i < l.length → h.holds (f (j + i)) = true) ∧ h.holds (f (j + l.length)) = false
  | 0, _, _, h => by cases h
  | n + 1, j, l, hl => by
    unfold Header.iterations at hl
    split at hl
    · rename_i hh
      rw [hn] at hl
      cases hr : h.iterations n (f (j + 1)) with
      | none => rw [hr] at hl; cases hl
      | some r =>
        rw [hr] at hl
        simp only [Option.map_some, Option.some.injEq] at hl
        subst hl
        obtain ⟨h1, h2⟩ := iterations_inv h f hn n (j + 1) r hr
        refine ⟨fun i hi => ?_, by rw [List.length_cons, show j + (r.length + 1) = j + 1 + r.length by omega]; exact h2⟩
        cases i with
        | zero => exact hh
        | succ i =>
          rw [show j + (i + 1) = j + 1 + i by omega]
          exact h1 i (by simpa using hi)
    · rename_i hh
      cases hl
      exact ⟨fun i hi => absurd hi (Nat.not_lt_zero i), by simpa using hh⟩

theorem up_count {a b s : Int} (hs : 0 < s) (j : Nat) : j < (iterValues a b s).length ↔ a + j * s < b := by
  unfold iterValues
  rw [if_pos hs, List.length_map, List.length_range]
  have : j < ((b - a + s - 1) / s).toNat ↔ (j : Int) + 1 ≤ (b - a + s - 1) / s := by omega
  rw [this, Int.le_ediv_iff_mul_le hs, Int.add_mul]
  omega

theorem down_count {a b s : Int} (hs : s < 0) (j : Nat) : j < (iterValues a b s).length ↔ a + j * s > b := by
  unfold iterValues
  rw [if_neg (by omega), if_pos hs, List.length_map, List.length_range]
  have : j < ((a - b + -s - 1) / -s).toNat ↔ (j : Int) + 1 ≤ (a - b + -s - 1) / -s := by omega
  rw [this, Int.le_ediv_iff_mul_le (by omega), Int.add_mul, Int.mul_neg]
  omega

theorem values_eq (a b s : Int) : iterValues a b s = (List.range (iterValues a b s).length).map fun (j : Nat) => a + (j : Int) * s := by
  unfold iterValues
  split
  · simp
  · split
    · simp
    · simp

theorem empty_same (a s : Int) : (iterValues a a s).length = 0 := by
  rcases Int.lt_trichotomy s 0 with h | h | h
  · have := down_count (a := a) (b := a) h 0
    simp only [Int.natCast_zero, Int.zero_mul] at this
    omega
  · subst h; rfl
  · have := up_count (a := a) (b := a) h 0
    simp only [Int.natCast_zero, Int.zero_mul] at this
    omega

theorem range_width (d : Decl) : d.hi = d.lo + 4294967295 := by cases d <;> rfl

theorem holds_lt {genvar : Bool} {a b s : Int} (hf : Fits genvar a b s) (hab : a < b) (x : Nat) :
    (header genvar a b s).holds x = true ↔ (decl genvar a b).read x < b := by
  unfold Header.holds header
  simp only [gt_iff_lt, hab, decide_true, if_true, decide_eq_true_eq, read_pattern _ hf.stop.1 hf.stop.2]

theorem holds_ge {genvar : Bool} {a b s : Int} (hf : Fits genvar a b s) (hab : b ≤ a) (x : Nat) :
    (header genvar a b s).holds x = true ↔ b < (decl genvar a b).read x := by
  unfold Header.holds header
  have : ¬ (b > a) := by omega
  simp only [this, decide_false, Bool.false_eq_true, if_false, gt_iff_lt, decide_eq_true_eq, read_pattern _ hf.stop.1 hf.stop.2]

/-! ### Property theorems -/

/-- C49, exactly: when the bounds fit the type of the variable, the emitted loop runs for the declared values and terminates if and only if
the step leads from start to end and the value that ends the loop fits the type as well. -/
theorem for_text_iff {genvar : Bool} {a b s : Int} (hf : Fits genvar a b s) : (header genvar a b s).Runs (iterValues a b s) ↔ Good genvar a b s := by
  let f : Nat → Nat := fun j => pattern 32 (a + (j : Int) * s)
  have hn : ∀ j, (header genvar a b s).next (f j) = f (j + 1) := by
    intro j
    show _ = pattern 32 _
    rw [next_pattern genvar hf.step, show a + ((j + 1 : Nat) : Int) * s = a + j * s + s by rw [Int.natCast_add, Int.add_mul]; omega]
  have h0 : pattern 32 (header genvar a b s).start = f 0 := by show pattern 32 a = pattern 32 _; rw [Int.natCast_zero, Int.zero_mul, Int.add_zero]
  have hw := range_width (decl genvar a b)
  obtain ⟨⟨a1, a2⟩, ⟨b1, b2⟩, s1, s2⟩ := hf
  have hf : Fits genvar a b s := ⟨⟨a1, a2⟩, ⟨b1, b2⟩, s1, s2⟩
  constructor
  · rintro ⟨n, hr⟩
    rw [h0] at hr
    obtain ⟨-, hend⟩ := iterations_inv _ f hn n 0 _ hr
    rw [List.length_map, Nat.zero_add] at hend
    generalize hc : (iterValues a b s).length = c at hend
    have hb := read_bounds (decl genvar a b) (a + c * s)
    have hend' : ¬ (header genvar a b s).holds (f c) = true := by rw [hend]; exact Bool.false_ne_true
    unfold Good
    rw [hc]
    rcases Int.lt_trichotomy a b with hab | hab | hab
    · rw [holds_lt hf hab] at hend'
      rcases Int.lt_trichotomy s 0 with hs | hs | hs
      · exfalso
        have := down_count (a := a) (b := b) hs 0
        simp only [Int.natCast_zero, Int.zero_mul] at this
        have e : c = 0 := by omega
        subst e
        rw [← h0] at hend'
        rw [show (header genvar a b s).start = a from rfl, read_pattern _ a1 a2] at hend'
        omega
      · exfalso
        subst hs
        have e : c = 0 := by rw [← hc]; rfl
        subst e
        rw [← h0] at hend'
        rw [show (header genvar a b 0).start = a from rfl, read_pattern _ a1 a2] at hend'
        omega
      · refine .inr (.inl ⟨hs, hab, ?_⟩)
        have hk := up_count (a := a) (b := b) hs (c - 1)
        have hz := up_count (a := a) (b := b) hs 0
        rw [hc] at hk hz
        simp only [Int.natCast_zero, Int.zero_mul] at hz
        have hpos : 0 < c := hz.2 (by omega)
        have hlt := hk.1 (by omega)
        have e : ((c - 1 : Nat) : Int) * s = c * s - s := by
          rw [show ((c - 1 : Nat) : Int) = c - 1 by omega, Int.sub_mul]; omega
        rw [e] at hlt
        have hend'' : ¬ (decl genvar a b).read (pattern 32 (a + c * s)) < b := hend'
        generalize (c : Int) * s = m at *
        generalize (decl genvar a b).read (pattern 32 (a + m)) = r at *
        omega
    · exact .inl hab
    · rw [holds_ge hf (by omega)] at hend'
      rcases Int.lt_trichotomy s 0 with hs | hs | hs
      · refine .inr (.inr ⟨hs, hab, ?_⟩)
        have hk := down_count (a := a) (b := b) hs (c - 1)
        have hz := down_count (a := a) (b := b) hs 0
        rw [hc] at hk hz
        simp only [Int.natCast_zero, Int.zero_mul] at hz
        have hpos : 0 < c := hz.2 (by omega)
        have hlt := hk.1 (by omega)
        have e : ((c - 1 : Nat) : Int) * s = c * s - s := by
          rw [show ((c - 1 : Nat) : Int) = c - 1 by omega, Int.sub_mul]; omega
        rw [e] at hlt
        have hend'' : ¬ b < (decl genvar a b).read (pattern 32 (a + c * s)) := hend'
        generalize (c : Int) * s = m at *
        generalize (decl genvar a b).read (pattern 32 (a + m)) = r at *
        omega
      · exfalso
        subst hs
        have e : c = 0 := by rw [← hc]; rfl
        subst e
        rw [← h0] at hend'
        rw [show (header genvar a b 0).start = a from rfl, read_pattern _ a1 a2] at hend'
        omega
      · exfalso
        have := up_count (a := a) (b := b) hs 0
        simp only [Int.natCast_zero, Int.zero_mul] at this
        have e : c = 0 := by omega
        subst e
        rw [← h0] at hend'
        rw [show (header genvar a b s).start = a from rfl, read_pattern _ a1 a2] at hend'
        omega
  · intro hg
    have hv : (iterValues a b s).map (pattern 32) = (List.range' 0 (iterValues a b s).length).map f := by
      rw [values_eq a b s, List.map_map, List.length_map, List.length_range, List.range_eq_range']; rfl
    refine ⟨(iterValues a b s).length + 1, ?_⟩
    rw [h0, hv]
    generalize hc : (iterValues a b s).length = c
    refine iterations_of _ f hn c c 0 rfl (fun i _ hi => ?_) ?_
    · rcases hg with hg | ⟨hs, hab, hg⟩ | ⟨hs, hab, hg⟩
      · subst hg
        rw [empty_same] at hc
        omega
      · rw [holds_lt hf hab]
        have := (up_count (a := a) (b := b) hs i).1 (hc ▸ hi)
        have hnn : 0 ≤ (i : Int) * s := Int.mul_nonneg (by omega) (by omega)
        show (decl genvar a b).read (pattern 32 _) < b
        rw [read_pattern _ (by omega) (by omega)]
        exact this
      · rw [holds_ge hf (by omega)]
        have := (down_count (a := a) (b := b) hs i).1 (hc ▸ hi)
        have hnn : 0 ≤ (i : Int) * -s := Int.mul_nonneg (by omega) (by omega)
        rw [Int.mul_neg] at hnn
        show b < (decl genvar a b).read (pattern 32 _)
        rw [read_pattern _ (by omega) (by omega)]
        exact this
    · apply Bool.eq_false_iff.2
      rcases hg with hg | ⟨hs, hab, hg⟩ | ⟨hs, hab, hg⟩
      · subst hg
        rw [empty_same] at hc
        subst hc
        rw [← h0, ne_eq, holds_ge hf (Int.le_refl a), show (header genvar a a s).start = a from rfl, read_pattern _ a1 a2]
        omega
      · rw [hc] at hg
        have := (up_count (a := a) (b := b) hs c)
        rw [hc] at this
        have hnn : 0 ≤ (c : Int) * s := Int.mul_nonneg (by omega) (by omega)
        rw [ne_eq, holds_lt hf hab]
        show ¬ (decl genvar a b).read (pattern 32 _) < b
        rw [read_pattern _ (by omega) (by omega)]
        omega
      · rw [hc] at hg
        have := (down_count (a := a) (b := b) hs c)
        rw [hc] at this
        have hnn : 0 ≤ (c : Int) * -s := Int.mul_nonneg (by omega) (by omega)
        rw [Int.mul_neg] at hnn
        rw [ne_eq, holds_ge hf (by omega)]
        show ¬ b < (decl genvar a b).read (pattern 32 _)
        rw [read_pattern _ (by omega) (by omega)]
        omega

/-- C49 for upward loops whose end is not within one step of the largest number of the type. -/
theorem for_up_partial {genvar : Bool} {a b s : Int} (hs : 0 < s) (hab : a ≤ b) (hlo : (decl genvar a b).lo ≤ a)
    (hhi : b + s - 1 ≤ (decl genvar a b).hi) (h32 : s < 4294967296) : (header genvar a b s).Runs (iterValues a b s) := by
  refine (for_text_iff ⟨⟨hlo, by omega⟩, ⟨by omega, by omega⟩, by omega, h32⟩).2 ?_
  rcases Int.lt_or_eq_of_le hab with h | h
  · refine .inr (.inl ⟨hs, h, ?_⟩)
    generalize hc : (iterValues a b s).length = c
    have hz := up_count (a := a) (b := b) hs 0
    have hk := up_count (a := a) (b := b) hs (c - 1)
    rw [hc] at hz hk
    simp only [Int.natCast_zero, Int.zero_mul] at hz
    have hpos : 0 < c := hz.2 (by omega)
    have hlt := hk.1 (by omega)
    rw [show ((c - 1 : Nat) : Int) = c - 1 by omega, Int.sub_mul] at hlt
    omega
  · exact .inl h

/-- C49 for downward loops: the end must not be within one step of the smallest number of the type, which is zero unless a bound is
negative. -/
theorem for_down_partial {genvar : Bool} {a b s : Int} (hs : s < 0) (hab : b ≤ a) (hhi : a ≤ (decl genvar a b).hi)
    (hlo : (decl genvar a b).lo ≤ b + s + 1) (h32 : -4294967296 < s) : (header genvar a b s).Runs (iterValues a b s) := by
  refine (for_text_iff ⟨⟨by omega, hhi⟩, ⟨by omega, by omega⟩, h32, by omega⟩).2 ?_
  rcases Int.lt_or_eq_of_le hab with h | h
  · refine .inr (.inr ⟨hs, h, ?_⟩)
    generalize hc : (iterValues a b s).length = c
    have hz := down_count (a := a) (b := b) hs 0
    have hk := down_count (a := a) (b := b) hs (c - 1)
    rw [hc] at hz hk
    simp only [Int.natCast_zero, Int.zero_mul] at hz
    have hpos : 0 < c := hz.2 (by omega)
    have hlt := hk.1 (by omega)
    rw [show ((c - 1 : Nat) : Int) = c - 1 by omega, Int.sub_mul] at hlt
    omega
  · exact .inl h.symm

theorem decl_bounds (genvar : Bool) (a b : Int) : 2147483647 ≤ (decl genvar a b).hi ∧ (decl genvar a b).lo ≤ 0 ∧
    ((genvar = true ∨ a < 0 ∨ b < 0) → (decl genvar a b).lo = -2147483648) := by
  unfold decl signed
  cases genvar
  · rcases Decidable.em (a < 0) with ha | ha
    · simp [ha, Decl.lo, Decl.hi]
    · rcases Decidable.em (b < 0) with hb | hb
      · simp [ha, hb, Decl.lo, Decl.hi]
      · simp [ha, hb, Decl.lo, Decl.hi]
  · simp [Decl.lo, Decl.hi]

/-- The same in plain numbers: every upward loop whose start, end and last value fit a signed 32-bit number. -/
theorem for_up_int_partial (genvar : Bool) {a b s : Int} (hs : 0 < s) (hab : a ≤ b) (hlo : -2147483648 ≤ a) (hhi : b + s - 1 ≤ 2147483647) (h32 : s ≤ 2147483647) :
    (header genvar a b s).Runs (iterValues a b s) := by
  obtain ⟨h1, h2, h3⟩ := decl_bounds genvar a b
  have h4 : (decl genvar a b).lo ≤ a := by
    rcases Decidable.em (a < 0) with h | h
    · rw [h3 (.inr (.inl h))]; exact hlo
    · omega
  exact for_up_partial hs hab h4 (by omega) (by omega)

/-- Every downward loop whose start, end and last value fit a signed 32-bit number, if it is a generate loop, ends below zero, or cannot
step below zero. -/
theorem for_down_int_partial (genvar : Bool) {a b s : Int} (hs : s < 0) (hab : b ≤ a) (hhi : a ≤ 2147483647) (hlo : -2147483648 ≤ b + s + 1)
    (h32 : -2147483648 ≤ s) (h0 : genvar = true ∨ b < 0 ∨ 0 ≤ b + s + 1) : (header genvar a b s).Runs (iterValues a b s) := by
  obtain ⟨h1, h2, h3⟩ := decl_bounds genvar a b
  have h4 : (decl genvar a b).lo ≤ b + s + 1 := by
    rcases h0 with h | h | h
    · rw [h3 (.inl h)]; exact hlo
    · rw [h3 (.inr (.inr h))]; exact hlo
    · omega
  exact for_down_partial hs hab (by omega) h4 (by omega)

/-- The values of a loop are determined by its header. -/
theorem runs_unique (h : Header) : ∀ n m x l l', h.iterations n x = some l → h.iterations m x = some l' → l = l'
  | 0, _, _, _, _, e, _ => by cases e
  | _ + 1, 0, _, _, _, _, e => by cases e
  | n + 1, m + 1, x, l, l', e, e' => by
    unfold Header.iterations at e e'
    split at e
    · rename_i hx
      rw [if_pos hx] at e'
      obtain ⟨r, hr, rfl⟩ := Option.map_eq_some_iff.1 e
      obtain ⟨r', hr', rfl⟩ := Option.map_eq_some_iff.1 e'
      rw [runs_unique h n m _ r r' hr hr']
    · rename_i hx
      rw [if_neg hx] at e'
      cases e; cases e'; rfl

/-- A step that leads away from the end: the declared sequence is empty, the emitted loop runs its body at least once. -/
theorem wrong_direction {genvar : Bool} {a b s : Int} (hf : Fits genvar a b s) (h : (a < b ∧ s ≤ 0) ∨ (b < a ∧ 0 ≤ s)) :
    iterValues a b s = [] ∧ ∀ n l, (header genvar a b s).iterations n (pattern 32 a) = some l → l ≠ [] := by
  have he : ∀ s b', (a < b' ∧ s ≤ 0) ∨ (b' < a ∧ 0 ≤ s) → iterValues a b' s = [] := by
    intro s b' h
    apply List.eq_nil_of_length_eq_zero
    rcases Int.lt_trichotomy s 0 with hs | hs | hs
    · have := down_count (a := a) (b := b') hs 0
      simp only [Int.natCast_zero, Int.zero_mul] at this
      omega
    · subst hs; rfl
    · have := up_count (a := a) (b := b') hs 0
      simp only [Int.natCast_zero, Int.zero_mul] at this
      omega
  refine ⟨he s b h, fun n l hl => ?_⟩
  cases n with
  | zero => cases hl
  | succ n =>
    unfold Header.iterations at hl
    have hh : (header genvar a b s).holds (pattern 32 a) = true := by
      rcases h with h | h
      · rw [holds_lt hf h.1, read_pattern _ hf.start.1 hf.start.2]; omega
      · rw [holds_ge hf (by omega), read_pattern _ hf.start.1 hf.start.2]; omega
    rw [if_pos hh] at hl
    obtain ⟨r, -, rfl⟩ := Option.map_eq_some_iff.1 hl
    exact fun e => by cases e

/-- `for (int unsigned i = 5; i > 0; i -= 2)` never ends: 5, 3, 1, 4294967295, … -/
theorem down_by_two_forever (n : Nat) : (header false 5 0 (-2)).iterations n (pattern 32 5) = none ∧ iterValues 5 0 (-2) = [5, 3, 1] := by
  refine ⟨?_, by decide⟩
  have key : ∀ n x, x % 2 = 1 → (header false 5 0 (-2)).iterations n x = none := by
    intro n
    induction n with
    | zero => intro _ _; rfl
    | succ n ih =>
      intro x hx
      unfold Header.iterations
      have hd : decl false 5 0 = .unsigned := by decide
      have hf : Fits false 5 0 (-2) := ⟨by decide, by decide, by decide⟩
      have h1 : (header false 5 0 (-2)).holds x = true := by
        rw [holds_ge hf (by decide), hd]
        simp only [Decl.read, ne_eq, not_true_eq_false, false_and, if_false]
        omega
      have h2 : (header false 5 0 (-2)).next x % 2 = 1 := by
        have e : pattern 32 (header false 5 0 (-2)).amount = 2 := by decide
        have e' : (header false 5 0 (-2)).plus = false := by decide
        unfold Header.next
        rw [e, e', if_neg Bool.false_ne_true]
        omega
      rw [if_pos h1, ih _ h2, Option.map_none]
  exact key n _ (by decide)

/-- C49 fails. -/
theorem not_ForClaim : ¬ ForClaim := by
  intro h
  obtain ⟨n, hn⟩ := h false 5 0 (-2) (by decide)
  have := (down_by_two_forever n).1
  rw [show (header false 5 0 (-2)).start = 5 from rfl] at hn
  rw [this] at hn
  cases hn

/-! ### Examples -/

example : header false 0 4 1 = ⟨.unsigned, 0, true, 4, true, 1⟩ := by decide
example : header false 3 (-1) (-1) = ⟨.int, 3, false, -1, false, 1⟩ := by decide
example : (header false 0 10 3).Runs [0, 3, 6, 9] := for_up_partial (by decide) (by decide) (by decide) (by decide) (by decide)
example : (header false 3 (-1) (-1)).Runs [3, 2, 1, 0] := for_down_partial (by decide) (by decide) (by decide) (by decide) (by decide)
/-- As generate-loop the same bounds and step work, because a genvar is signed. -/
example : (header true 5 0 (-2)).Runs [5, 3, 1] := for_down_partial (by decide) (by decide) (by decide) (by decide) (by decide)
/-- Down to 0 by ones is fine: the loop stops at 0 exactly. -/
example : (header false 4 0 (-1)).Runs [4, 3, 2, 1] := for_down_partial (by decide) (by decide) (by decide) (by decide) (by decide)
/-- Down to 0 by twos from an even number is fine too, although `for_down_partial` does not say so. -/
example : (header false 4 0 (-2)).Runs [4, 2] :=
  (for_text_iff (b := 0) (s := -2) ⟨by decide, by decide, by decide⟩).2 (.inr (.inr ⟨by decide, by decide, by decide⟩))
/-- `range(0, 3, -1)` is empty, the loop runs once. -/
example : (header false 0 3 (-1)).iterations 2 0 = some [0] := by decide

end Kratos.ForText
