import Verif.Pass.Enable

/-!
# Merging bit-wise wire assignments (property C16)

Models `MergeWireAssignmentsVisitor`, src/optimize.cc:370-526.  The pass collects, in a block or at the top of a
generator, the assignments whose two sides are slices, groups them by (sliced variable on the left, sliced variable on the
right) and, when a group has as many statements as the left variable has bits, replaces it by one assignment of the whole
variables, put at the end.

Simplified: the new assignment is taken to be accepted; `Var::assign` refuses it for a whole variable of an enumeration type
or a clock or reset port if the other side is of another kind, although it accepted their slices.
-/

namespace Kratos.MergeW

open Kratos.Ir Kratos.Pipe Kratos.Enable

/-! ### Model -/

/-- What a slice selects from its parent variable: constant bounds, an index variable (`VarVarSlice`, one element of `w`
bits), or a slice of a slice. -/
inductive Shape where
  | const (lo len : Nat)
  | dyn (idx : VarId) (w : Nat)
  | nested (lo len : Nat)
  deriving DecidableEq, Repr

/-- A `VarSlice`: its `parent_var` (for `nested`: the root variable) and shape. -/
structure Cut where
  v : VarId
  shape : Shape
  deriving DecidableEq, Repr

/-- A statement of a block or generator: an assignment between two slices, an assignment between two whole variables, or
anything else. -/
inductive Item where
  | cut (nb : Bool) (l r : Cut)
  | whole (nb : Bool) (l r : VarId)
  | other (s : Stmt)

/-- Declared variables: `width()` and `size()` (the array dimensions, `{1}` for a plain vector), src/expr.hh:88-92. -/
structure Decls where
  width : VarId → Nat
  dims : VarId → List Nat

/-- The tests `->type() == VarType::Slice` of src/optimize.cc:446-447. -/
def Cut.nested (c : Cut) : Bool :=
  match c.shape with
  | .nested _ _ => true
  | _ => false

/-- The width and dimension tests of src/optimize.cc:448-451 (only the number of dimensions and the first one are compared). -/
def alike (D : Decls) (a b : VarId) : Bool :=
  D.width a == D.width b && ((D.dims a).length == (D.dims b).length && (D.dims a).headD 0 == (D.dims b).headD 0)

/-- `extract_sliced_stmts` (src/optimize.cc:402-428) followed by the filter and key of src/optimize.cc:438-454. -/
def key (D : Decls) : Item → Option (VarId × VarId)
  | .cut _ l r => if l.nested || (r.nested || !alike D l.v r.v) then none else some (l.v, r.v)
  | _ => none

/-- `slice_vars[k]`. -/
def group (D : Decls) (items : List Item) (k : VarId × VarId) : List Item := items.filter fun it => key D it == some k

/-- `stmts.size() != left->width()`, src/optimize.cc:463. -/
def full (D : Decls) (items : List Item) (k : VarId × VarId) : Bool := (group D items k).length == D.width k.1

/-- The statement is in `stmts_to_remove`. -/
def merged (D : Decls) (items : List Item) (it : Item) : Bool :=
  match key D it with
  | some k => full D items k
  | none => false

/-- `get_stmts_to_remove` with `create_new_assignment` and the removal loop (src/optimize.cc:378-399, 430-505): new
assignments are appended in the order of the map, then the merged statements are removed.  `keys` is the order in which
the pointer-keyed map is traversed; `kind` is the assignment type used (blocking at generator level, that of one statement
of the group in a block). -/
def merge (D : Decls) (keys : List (VarId × VarId)) (kind : VarId × VarId → Bool) (items : List Item) : List Item :=
  items.filter (fun it => !merged D items it) ++ (keys.filter (full D items)).map fun k => .whole (kind k) k.1 k.2

/-- `keys` is a traversal of the map: every key once. -/
def Traversal (D : Decls) (items : List Item) (keys : List (VarId × VarId)) : Prop :=
  keys.Nodup ∧ ∀ k, k ∈ keys ↔ ∃ it ∈ items, key D it = some k

/-! ### Specification -/

/-- A bit of a variable. -/
abbrev Bit := VarId × Nat

/-- First bit and number of bits a slice selects; `σ` gives the values of index variables. -/
def Cut.region (σ : VarId → Nat) (c : Cut) : Nat × Nat :=
  match c.shape with
  | .const lo len => (lo, len)
  | .dyn i w => (σ i * w, w)
  | .nested lo len => (lo, len)

/-- The statement connects bit `s` to bit `d`.  `F` says what statements other than assignments between slices or whole
variables do. -/
def Item.Feeds (D : Decls) (F : Stmt → Bit → Bit → Prop) (σ : VarId → Nat) (d s : Bit) : Item → Prop
  | .cut _ l r => ∃ k, k < (l.region σ).2 ∧ d = (l.v, (l.region σ).1 + k) ∧ s = (r.v, (r.region σ).1 + k)
  | .whole _ l r => ∃ k, k < D.width l ∧ d = (l, k) ∧ s = (r, k)
  | .other st => F st d s

/-- In a block or generator bit `d` is driven by bit `s`. -/
def Drives (D : Decls) (F : Stmt → Bit → Bit → Prop) (σ : VarId → Nat) (items : List Item) (d s : Bit) : Prop :=
  ∃ it ∈ items, it.Feeds D F σ d s

/-- Slices stay inside their variables and are not empty (checked when a slice is made). -/
def Item.InRange (D : Decls) (σ : VarId → Nat) : Item → Prop
  | .cut _ l r => 0 < (l.region σ).2 ∧ (l.region σ).2 = (r.region σ).2 ∧
      (l.region σ).1 + (l.region σ).2 ≤ D.width l.v ∧ (r.region σ).1 + (r.region σ).2 ≤ D.width r.v
  | _ => True

/-- No bit is driven by two assignments (what the driver check, property C26, establishes). -/
def SingleDriver (D : Decls) (F : Stmt → Bit → Bit → Prop) (σ : VarId → Nat) (items : List Item) : Prop :=
  items.Pairwise fun a b => ∀ d s s', a.Feeds D F σ d s → ¬ b.Feeds D F σ d s'

/-- Full claim of C16: in a legal block every bit keeps its driver. -/
def MergeClaim (D : Decls) (items : List Item) : Prop := ∀ (keys : List (VarId × VarId)) (kind : VarId × VarId → Bool)
  (F : Stmt → Bit → Bit → Prop) (σ : VarId → Nat), Traversal D items keys → SingleDriver D F σ items →
  (∀ it ∈ items, it.InRange D σ) → ∀ d s, Drives D F σ (merge D keys kind items) d s ↔ Drives D F σ items d s

/-- An assignment between the same bit positions, with constant bounds. -/
def Straight : Item → Prop
  | .cut _ l r => ∃ lo len, l.shape = .const lo len ∧ r.shape = .const lo len
  | _ => True

/-! ### Proof -/

/-- Pigeonhole: `w` different numbers below `w` are all of them. -/
theorem covers : ∀ (w : Nat) (l : List Nat), l.Nodup → (∀ x ∈ l, x < w) → l.length = w → ∀ i, i < w → i ∈ l
  | 0, _, _, _, _, i, hi => absurd hi (Nat.not_lt_zero i)
  | w + 1, l, hn, hb, hl, i, hi => by
    have hw : w ∈ l := by
      rcases Decidable.em (w ∈ l) with h | h
      · exact h
      · exfalso
        have hlt : ∀ x ∈ l, x < w := fun x hx => by
          have := hb x hx
          rcases Nat.lt_or_ge x w with h1 | h1
          · exact h1
          · have : x = w := by omega
            exact absurd (this ▸ hx) h
        have : l.length ≤ w := by
          have := List.Nodup.length_le_of_subset (l₁ := l) (l₂ := List.range w) hn (fun x hx => List.mem_range.2 (hlt x hx))
          simpa using this
        omega
    rcases Decidable.em (i = w) with rfl | hne
    · exact hw
    · have h2 := covers w (l.erase w) (hn.erase w) (fun x hx => by
          have h1 := hb x (List.mem_of_mem_erase hx)
          have h3 : x ≠ w := fun e => by
            rw [hn.mem_erase_iff] at hx
            exact hx.1 e
          omega) (by rw [List.length_erase_of_mem hw]; omega) i (by omega)
      exact List.mem_of_mem_erase h2

theorem key_some {D : Decls} {it : Item} {k : VarId × VarId} (h : key D it = some k) :
    ∃ nb l r, it = .cut nb l r ∧ l.v = k.1 ∧ r.v = k.2 ∧ D.width l.v = D.width r.v := by
  cases it with
  | cut nb l r =>
    simp only [key] at h
    split at h
    · cases h
    · rename_i hc
      have e := Option.some.inj h
      refine ⟨nb, l, r, rfl, by rw [← e], by rw [← e], ?_⟩
      simp only [Bool.or_eq_true, not_or] at hc
      have h3 : alike D l.v r.v = true := by simpa using hc.2.2
      simp only [alike, Bool.and_eq_true, beq_iff_eq] at h3
      exact h3.1
  | whole _ _ _ => cases h
  | other _ => cases h

/-- First bit written. -/
def start (σ : VarId → Nat) : Item → Nat
  | .cut _ l _ => (l.region σ).1
  | _ => 0

theorem mem_group {D : Decls} {items : List Item} {k : VarId × VarId} {it : Item} : it ∈ group D items k ↔ it ∈ items ∧ key D it = some k := by
  simp [group]

section
variable {D : Decls} {F : Stmt → Bit → Bit → Prop} {σ : VarId → Nat} {items : List Item} {k : VarId × VarId}

theorem feeds_start {it : Item} (hk : key D it = some k) (hi : it.InRange D σ) :
    ∃ s, it.Feeds D F σ (k.1, start σ it) s := by
  obtain ⟨nb, l, r, rfl, h1, h2, _⟩ := key_some hk
  refine ⟨(k.2, (r.region σ).1), 0, hi.1, ?_, ?_⟩
  · rw [h1]; rfl
  · rw [h2]; rfl

theorem starts_nodup (hs : SingleDriver D F σ items) (hi : ∀ it ∈ items, it.InRange D σ) : ((group D items k).map (start σ)).Nodup := by
  have hp : (group D items k).Pairwise fun a b => ∀ d s s', a.Feeds D F σ d s → ¬ b.Feeds D F σ d s' := List.Pairwise.filter _ hs
  rw [List.Nodup, List.pairwise_map]
  refine hp.imp_of_mem ?_
  intro a b ha hb h e
  obtain ⟨ha1, ha2⟩ := mem_group.1 ha
  obtain ⟨hb1, hb2⟩ := mem_group.1 hb
  obtain ⟨s, h1⟩ := feeds_start (F := F) ha2 (hi a ha1)
  obtain ⟨s', h2⟩ := feeds_start (F := F) hb2 (hi b hb1)
  rw [← e] at h2
  exact h _ s s' h1 h2

/-- Every bit of the left variable is the first bit of a statement of a full group. -/
theorem group_covers (hs : SingleDriver D F σ items) (hi : ∀ it ∈ items, it.InRange D σ) (hf : full D items k = true)
    {i : Nat} (hlt : i < D.width k.1) : ∃ it ∈ group D items k, start σ it = i := by
  have h := covers (D.width k.1) ((group D items k).map (start σ)) (starts_nodup hs hi) (fun x hx => by
    obtain ⟨it, h1, rfl⟩ := List.mem_map.1 hx
    obtain ⟨h2, h3⟩ := mem_group.1 h1
    obtain ⟨nb, l, r, rfl, h4, _⟩ := key_some h3
    have h5 := hi _ h2
    have h6 := h5.1
    have h7 := h5.2.2.1
    rw [← h4]
    show (l.region σ).1 < _
    omega) (by rw [List.length_map]; simpa [full] using hf) i hlt
  obtain ⟨it, h1, h2⟩ := List.mem_map.1 h
  exact ⟨it, h1, h2⟩

theorem mem_merge {keys : List (VarId × VarId)} {kind : VarId × VarId → Bool} {it : Item} : it ∈ merge D keys kind items ↔
    (it ∈ items ∧ merged D items it = false) ∨ ∃ k, k ∈ keys ∧ full D items k = true ∧ it = .whole (kind k) k.1 k.2 := by
  simp only [merge, List.mem_append, List.mem_filter, List.mem_map]
  constructor
  · rintro (⟨h1, h2⟩ | ⟨k, ⟨h1, h2⟩, rfl⟩)
    · exact .inl ⟨h1, by simpa using h2⟩
    · exact .inr ⟨k, h1, h2, rfl⟩
  · rintro (⟨h1, h2⟩ | ⟨k, h1, h2, rfl⟩)
    · exact .inl ⟨h1, by simpa using h2⟩
    · exact .inr ⟨k, ⟨h1, h2⟩, rfl⟩

theorem merged_true {it : Item} (h : merged D items it = true) : ∃ k, key D it = some k ∧ full D items k = true := by
  unfold merged at h
  split at h
  · rename_i k hk; exact ⟨k, hk, h⟩
  · cases h

end

/-! ### Property theorems -/

/-- C16, when every merged statement connects the same positions: each bit of every variable has exactly the drivers it had. -/
theorem merge_drivers_partial {D : Decls} {items : List Item}
    (hstr : ∀ it ∈ items, merged D items it = true → Straight it) : MergeClaim D items := by
  intro keys kind F σ ht hs hi d s
  constructor
  · rintro ⟨it, hm, hfeed⟩
    rcases mem_merge.1 hm with ⟨h1, _⟩ | ⟨k, h1, h2, rfl⟩
    · exact ⟨it, h1, hfeed⟩
    · obtain ⟨i, hlt, rfl, rfl⟩ := hfeed
      obtain ⟨it, h3, h4⟩ := group_covers hs hi h2 hlt
      obtain ⟨h5, h6⟩ := mem_group.1 h3
      refine ⟨it, h5, ?_⟩
      have hstr' := hstr it h5 (by simp only [merged, h6]; exact h2)
      have hin := hi it h5
      obtain ⟨nb, l, r, rfl, h7, h8, _⟩ := key_some h6
      obtain ⟨lo, len, e1, e2⟩ := hstr'
      have hlo : lo = i := by simpa [start, Cut.region, e1] using h4
      refine ⟨0, hin.1, ?_, ?_⟩
      · simp only [Cut.region, e1]; rw [h7, hlo]; rfl
      · simp only [Cut.region, e2]; rw [h8, hlo]; rfl
  · rintro ⟨it, hm, hfeed⟩
    rcases Bool.eq_false_or_eq_true (merged D items it) with hmg | hmg
    · have hstr' := hstr it hm hmg
      obtain ⟨k, h1, h2⟩ := merged_true hmg
      refine ⟨.whole (kind k) k.1 k.2, mem_merge.2 (.inr ⟨k, (ht.2 k).2 ⟨it, hm, h1⟩, h2, rfl⟩), ?_⟩
      have hin := hi it hm
      obtain ⟨nb, l, r, rfl, h7, h8, _⟩ := key_some h1
      obtain ⟨lo, len, e1, e2⟩ := hstr'
      obtain ⟨j, hj, rfl, rfl⟩ := hfeed
      simp only [Item.InRange, Cut.region, e1] at hin hj
      refine ⟨lo + j, by rw [← h7]; omega, ?_, ?_⟩
      · simp only [Cut.region, e1]; rw [h7]
      · simp only [Cut.region, e2]; rw [h8]
    · exact ⟨it, mem_merge.2 (.inl ⟨hm, hmg⟩), hfeed⟩

/-- Statements that are not part of a full group stay, in their order, and are followed only by whole-variable assignments. -/
theorem others_kept (D : Decls) (keys : List (VarId × VarId)) (kind : VarId × VarId → Bool) (items : List Item) :
    ∃ new, merge D keys kind items = items.filter (fun it => !merged D items it) ++ new ∧ ∀ it ∈ new, ∃ nb l r, it = .whole nb l r :=
  ⟨_, rfl, fun it h => by
    obtain ⟨k, _, rfl⟩ := List.mem_map.1 h
    exact ⟨_, _, _, rfl⟩⟩

/-- An assignment from a slice of `r` to a slice of `l`. -/
def between (l r : VarId) : Item → Bool
  | .cut _ a b => a.v == l && b.v == r
  | _ => false

/-- Every new assignment is between two variables of the same width and first dimension, and stands for as many statements
as the variable has bits. -/
theorem new_assignments_legal {D : Decls} {keys : List (VarId × VarId)} {kind : VarId × VarId → Bool} {items : List Item} (ht : Traversal D items keys)
    {nb : Bool} {l r : VarId} (h : Item.whole nb l r ∈ merge D keys kind items) (hnew : Item.whole nb l r ∉ items) :
    D.width l = D.width r ∧ (D.dims l).length = (D.dims r).length ∧
      (items.filter (between l r)).length ≥ D.width l := by
  rcases mem_merge.1 h with ⟨h1, _⟩ | ⟨k, h1, h2, e⟩
  · exact absurd h1 hnew
  · injection e with _ e1 e2
    obtain ⟨it, hit, hk⟩ := (ht.2 k).1 h1
    subst e1 e2
    have hlen : (group D items k).length = D.width k.1 := by simpa [full] using h2
    obtain ⟨nb', l', r', rfl, h4, h5, h6⟩ := key_some hk
    refine ⟨by rw [← h4, ← h5]; exact h6, ?_, ?_⟩
    · simp only [key] at hk
      split at hk
      · cases hk
      · rename_i hc
        simp only [Bool.or_eq_true, not_or] at hc
        have h3 : alike D l'.v r'.v = true := by simpa using hc.2.2
        simp only [alike, Bool.and_eq_true, beq_iff_eq] at h3
        rw [← h4, ← h5]
        exact h3.2.1
    · rw [← hlen]
      unfold group
      have : ∀ (L : List Item), (L.filter fun it => key D it == some k).length ≤
          (L.filter (between k.1 k.2)).length := by
        intro L
        induction L with
        | nil => exact Nat.le_refl _
        | cons a L ih =>
          simp only [List.filter_cons]
          rcases Decidable.em (key D a = some k) with ha | ha
          · obtain ⟨_, a1, a2, rfl, h7, h8, _⟩ := key_some ha
            simp only [ha, between, h7, h8, beq_self_eq_true, Bool.and_self, if_true, List.length_cons]
            omega
          · have : (key D a == some k) = false := by simpa using ha
            rw [this]
            simp only [Bool.false_eq_true, if_false]
            split
            · rw [List.length_cons]; omega
            · exact ih
      exact this items

/-! ### What a clocked block computes

The merged assignment is put at the end of the block.  In a block of non-blocking assignments that does not matter. -/

/-- The statement a block executes.  Slices that are not constant are left uninterpreted (`code`). -/
def Item.stmt (D : Decls) (code : Cut → Cut → Nat) : Item → Stmt
  | .cut nb l r =>
    match l.shape, r.shape with
    | .const lo len, .const lo' len' => .assign nb ⟨l.v, lo, len⟩ (.slice (.var r.v (D.width r.v)) (lo' + len' - 1) lo')
    | _, _ => .other (code l r)
  | .whole nb l r => .assign nb ⟨l, 0, D.width l⟩ (.var r (D.width r))
  | .other s => s

/-- The block. -/
def block (D : Decls) (code : Cut → Cut → Nat) (items : List Item) : Stmts := Stmts.ofList (items.map (Item.stmt D code))

theorem setBits_testBit (old lo len x i : Nat) : (setBits old lo len x).testBit i =
    if lo ≤ i ∧ i < lo + len then x.testBit (i - lo) else old.testBit i := by
  have h1 : old % 2 ^ lo < 2 ^ lo := Nat.mod_lt _ (Nat.two_pow_pos _)
  have h2 : x % 2 ^ len < 2 ^ len := Nat.mod_lt _ (Nat.two_pow_pos _)
  have h3 : 2 ^ lo * (x % 2 ^ len) + old % 2 ^ lo < 2 ^ (lo + len) := by
    rw [Nat.pow_add]
    calc 2 ^ lo * (x % 2 ^ len) + old % 2 ^ lo < 2 ^ lo * (x % 2 ^ len) + 2 ^ lo := by omega
      _ = 2 ^ lo * (x % 2 ^ len + 1) := by rw [Nat.mul_add, Nat.mul_one]
      _ ≤ 2 ^ lo * 2 ^ len := Nat.mul_le_mul_left _ h2
  have e : setBits old lo len x = 2 ^ (lo + len) * (old / 2 ^ (lo + len)) + (2 ^ lo * (x % 2 ^ len) + old % 2 ^ lo) := by
    unfold setBits
    rw [Nat.mul_comm (old / 2 ^ (lo + len)), Nat.mul_comm (x % 2 ^ len), Nat.add_assoc]
  rw [e, Nat.testBit_two_pow_mul_add _ h3, Nat.testBit_two_pow_mul_add _ h1]
  rcases Nat.lt_or_ge i (lo + len) with h | h
  · rw [if_pos h]
    rcases Nat.lt_or_ge i lo with h' | h'
    · rw [if_pos h', if_neg (by omega), Nat.testBit_mod_two_pow]; simp [h']
    · rw [if_neg (by omega), if_pos ⟨h', h⟩, Nat.testBit_mod_two_pow]
      have : i - lo < len := by omega
      simp [this]
  · rw [if_neg (by omega), if_neg (by omega), Nat.testBit_div_two_pow]
    congr 1; omega

/-- Prefix the pending updates. -/
def pre (N : List (LVal × Nat)) (st : St) : St := { st with nba := N ++ st.nba }

theorem loop_pre {iv : VarId} {N : List (LVal × Nat)} {f : St → St} (hf : ∀ st, f (pre N st) = pre N (f st)) : ∀ (is : List Int) (st : St),
    is.foldl (fun st i => guardRun st (f (setIter iv i st))) (pre N st) = pre N (is.foldl (fun st i => guardRun st (f (setIter iv i st))) st)
  | [], _ => rfl
  | i :: is, st => by
    rw [List.foldl_cons, List.foldl_cons, ← loop_pre hf is]
    congr 1
    unfold guardRun
    show (if st.ctl = .run then _ else _) = _
    split
    · exact hf (setIter iv i st)
    · rfl

mutual
/-- Execution does not look at the pending updates. -/
theorem pre_stmt (ι : Nat → St → St) (N : List (LVal × Nat)) : ∀ (s : Stmt) (st : St), NbOnly s → s.exec ι (pre N st) = pre N (s.exec ι st)
  | .assign nb l r, st, h => by
    have h : nb = true := h
    subst h
    simp only [Stmt.exec, guardRun, if_true, pre]
    split
    · simp
    · rfl
  | .ite c t e, st, h => by
    simp only [Stmt.exec, guardRun]
    show (if st.ctl = .run then (if c.eval st.val ≠ 0 then _ else _) else _) = _
    split
    · split
      · exact pre_stmts ι N t st h.1
      · exact pre_stmts ι N e st h.2
    · rfl
  | .switch tgt cs, st, h => by
    simp only [Stmt.exec, guardRun]
    show (if st.ctl = .run then cs.exec ι tgt.width (tgt.eval st.val) id (pre N st) else _) = _
    split
    · exact pre_cases ι N cs _ _ id st h (fun _ => rfl)
    · rfl
  | .for_ iv a b s body, st, h => by
    simp only [Stmt.exec, guardRun]
    show (if st.ctl = .run then _ else _) = _
    split
    · have := loop_pre (iv := iv) (N := N) (f := fun st => body.exec ι st) (fun st => pre_stmts ι N body st h) (iterValues a b s) st
      simp only [guardRun] at this
      rw [this]
      rfl
    · rfl
  | .ret e, st, _ => by
    simp only [Stmt.exec, guardRun]
    show (if st.ctl = .run then _ else _) = _
    split <;> rfl
  | .brk, st, _ => by
    simp only [Stmt.exec, guardRun]
    show (if st.ctl = .run then _ else _) = _
    split <;> rfl
  | .other _, _, h => h.elim
theorem pre_stmts (ι : Nat → St → St) (N : List (LVal × Nat)) : ∀ (s : Stmts) (st : St), NbOnlyS s → s.exec ι (pre N st) = pre N (s.exec ι st)
  | .nil, _, _ => by simp only [Stmts.exec]
  | .cons s ss, st, h => by
    simp only [Stmts.exec]
    rw [pre_stmt ι N s st h.1, pre_stmts ι N ss _ h.2]
theorem pre_cases (ι : Nat → St → St) (N : List (LVal × Nat)) : ∀ (cs : Cases) (w v : Nat) (k : St → St) (st : St), NbOnlyC cs →
    (∀ st, k (pre N st) = pre N (k st)) → cs.exec ι w v k (pre N st) = pre N (cs.exec ι w v k st)
  | .nil, _, _, k, st, _, hk => by simpa only [Cases.exec] using hk st
  | .cons none b cs, w, v, k, st, h, _ => by
    simp only [Cases.exec]
    exact pre_cases ι N cs w v _ st h.2 (fun st => pre_stmts ι N b st h.1)
  | .cons (some c) b cs, w, v, k, st, h, hk => by
    simp only [Cases.exec]
    split
    · exact pre_stmts ι N b st h.1
    · exact pre_cases ι N cs w v k st h.2 hk
end

/-- Every pending update is to an allowed variable. -/
def NbaIn (W : VarId → Prop) (st : St) : Prop := ∀ p ∈ st.nba, W p.1.v

theorem loop_nba {W : VarId → Prop} {iv : VarId} {f : St → St} (hf : ∀ st, NbaIn W st → NbaIn W (f st)) : ∀ (is : List Int) (st : St), NbaIn W st →
    NbaIn W (is.foldl (fun st i => guardRun st (f (setIter iv i st))) st)
  | [], _, h => h
  | i :: is, st, h => by
    rw [List.foldl_cons]
    apply loop_nba hf is
    unfold guardRun
    split
    · exact hf _ h
    · exact h

mutual
theorem nba_stmt (ι : Nat → St → St) {R W : VarId → Prop} : ∀ (s : Stmt) (st : St), s.Within R W → NbaIn W st → NbaIn W (s.exec ι st)
  | .assign nb l r, st, h, hn => by
    simp only [Stmt.exec, guardRun]
    split
    · split
      · intro p hp
        rcases List.mem_append.1 hp with hp | hp
        · exact hn p hp
        · rw [List.mem_singleton.1 hp]; exact h.1
      · exact hn
    · exact hn
  | .ite c t e, st, h, hn => by
    simp only [Stmt.exec, guardRun]
    split
    · split
      · exact nba_stmts ι t st h.2.1 hn
      · exact nba_stmts ι e st h.2.2 hn
    · exact hn
  | .switch tgt cs, st, h, hn => by
    simp only [Stmt.exec, guardRun]
    split
    · exact nba_cases ι cs _ _ id st h.2 hn (fun _ h => h)
    · exact hn
  | .for_ iv a b s body, st, h, hn => by
    simp only [Stmt.exec, guardRun]
    split
    · exact loop_nba (iv := iv) (f := fun st => body.exec ι st) (fun st hs => nba_stmts ι body st h.2 hs) (iterValues a b s) st hn
    · exact hn
  | .ret e, st, _, hn => by
    simp only [Stmt.exec, guardRun]
    split <;> exact hn
  | .brk, st, _, hn => by
    simp only [Stmt.exec, guardRun]
    split <;> exact hn
  | .other _, _, h, _ => h.elim
theorem nba_stmts (ι : Nat → St → St) {R W : VarId → Prop} : ∀ (s : Stmts) (st : St), s.Within R W → NbaIn W st → NbaIn W (s.exec ι st)
  | .nil, _, _, hn => by simpa only [Stmts.exec] using hn
  | .cons s ss, st, h, hn => by
    simp only [Stmts.exec]
    exact nba_stmts ι ss _ h.2 (nba_stmt ι s st h.1 hn)
theorem nba_cases (ι : Nat → St → St) {R W : VarId → Prop} : ∀ (cs : Cases) (w v : Nat) (k : St → St) (st : St), cs.Within R W → NbaIn W st →
    (∀ st, NbaIn W st → NbaIn W (k st)) → NbaIn W (cs.exec ι w v k st)
  | .nil, _, _, k, st, _, hn, hk => by simpa only [Cases.exec] using hk st hn
  | .cons none b cs, w, v, k, st, h, hn, _ => by
    simp only [Cases.exec]
    exact nba_cases ι cs w v _ st h.2 hn (fun st hs => nba_stmts ι b st h.1 hs)
  | .cons (some c) b cs, w, v, k, st, h, hn, hk => by
    simp only [Cases.exec]
    split
    · exact nba_stmts ι b st h.1 hn
    · exact nba_cases ι cs w v k st h.2 hn hk
end

/-- The updates a statement schedules when started in `σ`. -/
def upd (ι : Nat → St → St) (σ : Store) (s : Stmt) : List (LVal × Nat) := (s.exec ι ⟨σ, [], .run⟩).nba

theorem exec_upd (ι : Nat → St → St) {s : Stmt} (h : Plain true s) (σ : Store) (N : List (LVal × Nat)) :
    s.exec ι ⟨σ, N, .run⟩ = ⟨σ, N ++ upd ι σ s, .run⟩ := by
  have h1 := pre_stmt ι N s ⟨σ, [], .run⟩ (plain_nb s h)
  have h2 := nb_val ι s ⟨σ, [], .run⟩ (plain_nb s h)
  have h3 := plain_ctl ι true s ⟨σ, [], .run⟩ h rfl
  have e : pre N ⟨σ, [], .run⟩ = (⟨σ, N, .run⟩ : St) := by simp [pre]
  rw [e] at h1
  rw [h1]
  unfold upd
  generalize s.exec ι ⟨σ, [], .run⟩ = r at h2 h3
  cases r
  simp only at h2 h3
  subst h2 h3
  rfl

theorem exec_list (ι : Nat → St → St) (σ : Store) : ∀ (l : List Stmt) (N : List (LVal × Nat)), (∀ s ∈ l, Plain true s) →
    (Stmts.ofList l).exec ι ⟨σ, N, .run⟩ = ⟨σ, N ++ l.flatMap (upd ι σ), .run⟩
  | [], N, _ => by simp [Stmts.ofList, Stmts.exec]
  | s :: l, N, h => by
    simp only [Stmts.ofList, Stmts.exec]
    rw [exec_upd ι (h s (List.mem_cons_self ..)), exec_list ι σ l _ (fun s hs => h s (List.mem_cons_of_mem _ hs)), List.flatMap_cons, List.append_assoc]

/-- Updates to one variable. -/
def only (x : VarId) (L : List (LVal × Nat)) : List (LVal × Nat) := L.filter fun p => p.1.v == x

theorem commit_only (x : VarId) : ∀ (L : List (LVal × Nat)) (σ : Store), (L.foldl (fun σ p => σ.write p.1 p.2) σ) x =
    (only x L).foldl (fun a p => setBits a p.1.lo p.1.len p.2) (σ x)
  | [], _ => rfl
  | p :: L, σ => by
    rw [List.foldl_cons, commit_only x L]
    unfold only
    rw [List.filter_cons]
    rcases Decidable.em (p.1.v = x) with h | h
    · simp [h, Store.write]
    · have : ¬ x = p.1.v := fun e => h e.symm
      simp [h, this, Store.write]

theorem only_none {ι : Nat → St → St} {σ : Store} {x : VarId} {s : Stmt} (h : s.Within (fun _ => True) (fun v => v ≠ x)) : only x (upd ι σ s) = [] := by
  unfold only
  rw [List.filter_eq_nil_iff]
  intro p hp
  have := nba_stmt ι s ⟨σ, [], .run⟩ h (fun _ hh => nomatch hh) p hp
  simpa using this

theorem only_flatMap (ι : Nat → St → St) (σ : Store) (x : VarId) : ∀ (l : List Stmt), only x (l.flatMap (upd ι σ)) = l.flatMap fun s => only x (upd ι σ s)
  | [] => rfl
  | s :: l => by
    rw [List.flatMap_cons, List.flatMap_cons, ← only_flatMap ι σ x l]
    exact List.filter_append ..

theorem flatMap_skip {α β : Type} {f : α → List β} {p : α → Bool} : ∀ {l : List α}, (∀ a ∈ l, p a = false → f a = []) →
    (l.filter p).flatMap f = l.flatMap f
  | [], _ => rfl
  | a :: l, h => by
    have ih := flatMap_skip (f := f) (p := p) (l := l) (fun b hb => h b (List.mem_cons_of_mem _ hb))
    rw [List.filter_cons, List.flatMap_cons]
    rcases Bool.eq_false_or_eq_true (p a) with hp | hp
    · rw [if_pos hp, List.flatMap_cons, ih]
    · rw [if_neg (by rw [hp]; decide), ih, h a (List.mem_cons_self ..) hp, List.nil_append]

theorem flatMap_none {α β : Type} {f : α → List β} : ∀ {l : List α}, (∀ a ∈ l, f a = []) → l.flatMap f = []
  | [], _ => rfl
  | a :: l, h => by
    rw [List.flatMap_cons, h a (List.mem_cons_self ..), flatMap_none (fun b hb => h b (List.mem_cons_of_mem _ hb)), List.nil_append]

theorem flatMap_one {α β : Type} {f : α → List β} {k : α} : ∀ {l : List α}, l.Nodup → k ∈ l → (∀ a ∈ l, a ≠ k → f a = []) → l.flatMap f = f k
  | a :: l, hn, hk, h => by
    rw [List.nodup_cons] at hn
    rw [List.flatMap_cons]
    rcases List.mem_cons.1 hk with rfl | hk
    · rw [flatMap_none (fun b hb => h b (List.mem_cons_of_mem _ hb) (fun e => hn.1 (e ▸ hb))), List.append_nil]
    · rw [h a (List.mem_cons_self ..) (fun e => hn.1 (e ▸ hk)), List.nil_append,
        flatMap_one hn.2 hk (fun b hb => h b (List.mem_cons_of_mem _ hb))]

/-- Writing bits that all agree with `R`. -/
theorem fold_bits (R : Nat) : ∀ (L : List (LVal × Nat)) (a : Nat),
    (∀ p ∈ L, ∀ i, p.1.lo ≤ i → i < p.1.lo + p.1.len → p.2.testBit (i - p.1.lo) = R.testBit i) → ∀ i,
    ((∃ p ∈ L, p.1.lo ≤ i ∧ i < p.1.lo + p.1.len) → (L.foldl (fun a p => setBits a p.1.lo p.1.len p.2) a).testBit i = R.testBit i) ∧
    ((¬ ∃ p ∈ L, p.1.lo ≤ i ∧ i < p.1.lo + p.1.len) → (L.foldl (fun a p => setBits a p.1.lo p.1.len p.2) a).testBit i = a.testBit i)
  | [], a, _, i => ⟨(fun ⟨_, h, _⟩ => nomatch h), fun _ => rfl⟩
  | p :: L, a, h, i => by
    have ih := fold_bits R L (setBits a p.1.lo p.1.len p.2) (fun q hq => h q (List.mem_cons_of_mem _ hq)) i
    rw [List.foldl_cons]
    have hb := setBits_testBit a p.1.lo p.1.len p.2 i
    constructor
    · rintro ⟨q, hq, h1, h2⟩
      rcases Classical.em (∃ p ∈ L, p.1.lo ≤ i ∧ i < p.1.lo + p.1.len) with hL | hL
      · exact ih.1 hL
      · rw [ih.2 hL, hb]
        rcases List.mem_cons.1 hq with rfl | hq
        · rw [if_pos ⟨h1, h2⟩]; exact h _ (List.mem_cons_self ..) i h1 h2
        · exact absurd ⟨q, hq, h1, h2⟩ hL
    · intro hne
      rw [ih.2 (fun ⟨q, hq, hh⟩ => hne ⟨q, List.mem_cons_of_mem _ hq, hh⟩), hb, if_neg (fun hh => hne ⟨p, List.mem_cons_self .., hh⟩)]

/-- C16 for a clocked block: when every merged statement connects equal positions, all assignments are non-blocking, and the
merged variables are written nowhere else in the block, the registers get the same values on every clock edge. -/
theorem merge_clocked_partial {D : Decls} {code : Cut → Cut → Nat} {items : List Item} {keys : List (VarId × VarId)} {kind : VarId × VarId → Bool}
    {F : Stmt → Bit → Bit → Prop} (ht : Traversal D items keys) (hs : SingleDriver D F (fun _ => 0) items)
    (hi : ∀ it ∈ items, it.InRange D (fun _ => 0))
    (hstr : ∀ it ∈ items, merged D items it = true → Straight it) (hplain : ∀ it ∈ items, Plain true (it.stmt D code))
    (hkind : ∀ k, full D items k = true → kind k = true)
    (honly : ∀ k, full D items k = true → (∃ it ∈ items, key D it = some k) → ∀ it ∈ items, key D it ≠ some k →
      (it.stmt D code).Within (fun _ => True) (fun v => v ≠ k.1)) (ι : Nat → St → St) (σ : Store) :
    ((block D code (merge D keys kind items)).exec ι ⟨σ, [], .run⟩).commit = ((block D code items).exec ι ⟨σ, [], .run⟩).commit := by
  unfold block
  rw [exec_list ι σ _ [] (by
    intro s hs
    obtain ⟨it, h1, rfl⟩ := List.mem_map.1 hs
    rcases mem_merge.1 h1 with ⟨h2, _⟩ | ⟨k, _, h3, rfl⟩
    · exact hplain it h2
    · exact fun _ => hkind k h3), exec_list ι σ _ [] (by
    intro s hs
    obtain ⟨it, h1, rfl⟩ := List.mem_map.1 hs
    exact hplain it h1)]
  funext x
  simp only [St.commit, List.nil_append]
  rw [commit_only, commit_only, only_flatMap, only_flatMap, List.flatMap_map, List.flatMap_map]
  unfold merge
  rw [List.flatMap_append, List.flatMap_map]
  -- updates scheduled by a whole assignment
  have hwhole : ∀ k : VarId × VarId, full D items k = true → only x (upd ι σ (Item.stmt D code (.whole (kind k) k.1 k.2))) =
      if k.1 = x then [(⟨k.1, 0, D.width k.1⟩, σ k.2 % 2 ^ D.width k.2)] else [] := by
    intro k hk
    have e : upd ι σ (Item.stmt D code (.whole (kind k) k.1 k.2)) = [(⟨k.1, 0, D.width k.1⟩, σ k.2 % 2 ^ D.width k.2)] := by
      simp [upd, Item.stmt, Stmt.exec, guardRun, hkind k hk, Expr.eval]
    rw [e]
    unfold only
    rw [List.filter_cons]
    rcases Decidable.em (k.1 = x) with h | h <;> simp [h]
  -- updates scheduled by a merged statement
  have hcut : ∀ it ∈ items, ∀ k, key D it = some k → full D items k = true → ∃ lo len, 0 < len ∧ lo + len ≤ D.width k.1 ∧
      D.width k.1 = D.width k.2 ∧ start (fun _ => 0) it = lo ∧
      upd ι σ (it.stmt D code) = [(⟨k.1, lo, len⟩, σ k.2 % 2 ^ D.width k.2 / 2 ^ lo % 2 ^ len)] := by
    intro it hit k hk hf
    have h1 := hstr it hit (by simp only [merged, hk]; exact hf)
    have h2 := hi it hit
    have h3 := hplain it hit
    obtain ⟨nb, l, r, rfl, h4, h5, h6⟩ := key_some hk
    obtain ⟨lo, len, e1, e2⟩ := h1
    simp only [Item.InRange, Cut.region, e1, e2] at h2
    refine ⟨lo, len, h2.1, by rw [← h4]; exact h2.2.2.1, by rw [← h4, ← h5]; exact h6, by simp [start, Cut.region, e1], ?_⟩
    simp only [Item.stmt, e1, e2, Enable.Plain] at h3 ⊢
    have hl : lo + len - 1 - lo + 1 = len := by omega
    simp [upd, Stmt.exec, guardRun, h3 trivial, Expr.eval, h4, h5, hl]
  rcases Classical.em (∃ k, k ∈ keys ∧ full D items k = true ∧ k.1 = x) with ⟨k, hk1, hk2, rfl⟩ | hno
  · -- x is merged
    have hex := (ht.2 k).1 hk1
    have hkept : (items.filter fun it => !merged D items it).flatMap (fun it => only k.1 (upd ι σ (it.stmt D code))) = [] := by
      apply flatMap_none
      intro it hit
      rw [List.mem_filter] at hit
      apply only_none
      apply honly k hk2 hex it hit.1
      intro hk
      have := hit.2
      simp [merged, hk, hk2] at this
    have hnew : (keys.filter (full D items)).flatMap (fun k' => only k.1 (upd ι σ (Item.stmt D code (.whole (kind k') k'.1 k'.2)))) =
        [(⟨k.1, 0, D.width k.1⟩, σ k.2 % 2 ^ D.width k.2)] := by
      rw [flatMap_one (k := k) (List.Nodup.sublist List.filter_sublist ht.1) (List.mem_filter.2 ⟨hk1, hk2⟩)]
      · rw [hwhole k hk2, if_pos rfl]
      · intro k' hk' hne
        obtain ⟨h1, h2⟩ := List.mem_filter.1 hk'
        rw [hwhole k' h2, if_neg]
        intro e
        obtain ⟨it, hit, hkey⟩ := (ht.2 k').1 h1
        have hw := honly k hk2 hex it hit (by rw [hkey]; intro e'; exact hne (Option.some.inj e'))
        obtain ⟨lo, len, _, _, _, _, hu⟩ := hcut it hit k' hkey h2
        have h7 := nba_stmt ι _ ⟨σ, [], .run⟩ hw (fun _ hh => nomatch hh)
        have h8 := h7 (⟨k'.1, lo, len⟩, _) (by
          show _ ∈ upd ι σ (it.stmt D code)
          rw [hu]; exact List.mem_singleton.2 rfl)
        exact h8 e
    rw [hkept, List.nil_append, hnew]
    apply Nat.eq_of_testBit_eq
    intro i
    have hA := fold_bits (σ k.2 % 2 ^ D.width k.2) [(⟨k.1, 0, D.width k.1⟩, σ k.2 % 2 ^ D.width k.2)] (σ k.1) (by
      intro p hp j _ _
      rw [List.mem_singleton.1 hp]; rfl) i
    have hentry : ∀ p ∈ items.flatMap (fun it => only k.1 (upd ι σ (it.stmt D code))), ∃ it ∈ items, key D it = some k ∧ p ∈ upd ι σ (it.stmt D code) := by
      intro p hp
      obtain ⟨it, hit, hp⟩ := List.mem_flatMap.1 hp
      refine ⟨it, hit, ?_, (List.mem_filter.1 hp).1⟩
      rcases Decidable.em (key D it = some k) with h | h
      · exact h
      · rw [only_none (honly k hk2 hex it hit h)] at hp; cases hp
    have hB := fold_bits (σ k.2 % 2 ^ D.width k.2) (items.flatMap (fun it => only k.1 (upd ι σ (it.stmt D code)))) (σ k.1) (by
      intro p hp j h1 h2
      obtain ⟨it, hit, hkey, hp⟩ := hentry p hp
      obtain ⟨lo, len, _, _, _, _, hu⟩ := hcut it hit k hkey hk2
      rw [hu, List.mem_singleton] at hp
      subst hp
      simp only at h1 h2 ⊢
      rw [Nat.testBit_mod_two_pow, Nat.testBit_div_two_pow]
      have h3 : j - lo < len := by omega
      have h4 : j - lo + lo = j := by omega
      simp [h3, h4]) i
    rcases Nat.lt_or_ge i (D.width k.1) with hlt | hge
    · rw [hA.1 ⟨_, List.mem_singleton.2 rfl, Nat.zero_le _, by simpa using hlt⟩]
      obtain ⟨it, hit, hst⟩ := group_covers hs hi hk2 hlt
      obtain ⟨h1, h2⟩ := mem_group.1 hit
      obtain ⟨lo, len, h3, _, _, h4, hu⟩ := hcut it h1 k h2 hk2
      have e : lo = i := by rw [← h4]; exact hst
      exact (hB.1 ⟨(⟨k.1, lo, len⟩, _), List.mem_flatMap.2 ⟨it, h1, List.mem_filter.2 ⟨by rw [hu]; exact List.mem_singleton.2 rfl, by simp⟩⟩,
        Nat.le_of_eq e, by show i < lo + len; omega⟩).symm
    · rw [hA.2 (by rintro ⟨p, hp, _, h2⟩; rw [List.mem_singleton.1 hp] at h2; simp only at h2; omega)]
      refine (hB.2 ?_).symm
      rintro ⟨p, hp, _, h2⟩
      obtain ⟨it, hit, hkey, hp⟩ := hentry p hp
      obtain ⟨lo, len, _, h5, _, _, hu⟩ := hcut it hit k hkey hk2
      rw [hu, List.mem_singleton] at hp
      subst hp
      simp only at h2
      omega
  · -- x is not merged
    rw [flatMap_none (l := keys.filter (full D items)), List.append_nil, flatMap_skip]
    · intro it hit hm
      have hm : merged D items it = true := by simpa using hm
      obtain ⟨k, h1, h2⟩ := merged_true hm
      obtain ⟨lo, len, _, _, _, _, hu⟩ := hcut it hit k h1 h2
      rw [hu]
      unfold only
      rw [List.filter_cons]
      have : k.1 ≠ x := fun e => hno ⟨k, (ht.2 k).2 ⟨it, hit, h1⟩, h2, e⟩
      simp [this]
    · intro k hk
      obtain ⟨h1, h2⟩ := List.mem_filter.1 hk
      rw [hwhole k h2, if_neg (fun e => hno ⟨k, h1, h2, e⟩)]

/-! ### Where the code disagrees -/

/-- Two 2-bit variables. -/
def two : Decls := ⟨fun _ => 2, fun _ => [1]⟩

/-- `v[i]`. -/
def bit (v i : Nat) : Cut := ⟨v, .const i 1⟩

/-- Connect the bits of variable 1 to those of variable 0 the right way round. -/
def copyBits : List Item := [.cut false (bit 0 0) (bit 1 0), .cut false (bit 0 1) (bit 1 1)]

/-- Swap the bits: `l[0] = r[1]; l[1] = r[0]`. -/
def swapBits : List Item := [.cut false (bit 0 0) (bit 1 1), .cut false (bit 0 1) (bit 1 0)]

example : (∀ it ∈ copyBits, merged two copyBits it = true → Straight it) ∧ Traversal two copyBits [(0, 1)] ∧
    merge two [(0, 1)] (fun _ => false) copyBits = [.whole false 0 1] := by
  refine ⟨?_, ⟨by simp, ?_⟩, rfl⟩
  · intro it hit _
    simp only [copyBits, List.mem_cons, List.mem_nil_iff, or_false] at hit
    rcases hit with rfl | rfl
    · exact ⟨0, 1, rfl, rfl⟩
    · exact ⟨1, 1, rfl, rfl⟩
  · intro k
    simp only [copyBits, List.mem_cons, List.mem_nil_iff, or_false, exists_eq_or_imp, exists_eq_left]
    have e1 : key two (.cut false (bit 0 0) (bit 1 0)) = some (0, 1) := rfl
    have e2 : key two (.cut false (bit 0 1) (bit 1 1)) = some (0, 1) := rfl
    rw [e1, e2]
    constructor
    · rintro rfl; exact .inl rfl
    · rintro (h | h) <;> exact (Option.some.inj h).symm

theorem swap_traversal : Traversal two swapBits [(0, 1)] := by
  refine ⟨by simp, fun k => ?_⟩
  simp only [swapBits, List.mem_cons, List.mem_nil_iff, or_false, exists_eq_or_imp, exists_eq_left]
  have e1 : key two (.cut false (bit 0 0) (bit 1 1)) = some (0, 1) := rfl
  have e2 : key two (.cut false (bit 0 1) (bit 1 0)) = some (0, 1) := rfl
  rw [e1, e2]
  constructor
  · rintro rfl; exact .inl rfl
  · rintro (h | h) <;> exact (Option.some.inj h).symm

/-- A legal bit swap becomes a straight copy: the indices of the slices are never compared. -/
theorem swap_lost : merge two [(0, 1)] (fun _ => false) swapBits = [.whole false 0 1] := rfl

theorem not_MergeClaim : ¬ ∀ D items, MergeClaim D items := by
  intro h
  have h1 := (h two swapBits [(0, 1)] (fun _ => false) (fun _ _ _ => False) (fun _ => 0) swap_traversal
    (by
      simp only [SingleDriver, swapBits, List.pairwise_cons, List.mem_cons, List.mem_nil_iff, or_false]
      refine ⟨?_, fun _ hh => hh.elim, List.Pairwise.nil⟩
      rintro a rfl d s s' ⟨j, hj, rfl, _⟩ ⟨j', hj', e, _⟩
      simp only [Cut.region, bit] at hj hj' e
      have := congrArg Prod.snd e
      simp only at this
      omega)
    (by
      intro it hit
      simp only [swapBits, List.mem_cons, List.mem_nil_iff, or_false] at hit
      rcases hit with rfl | rfl <;> simp [Item.InRange, Cut.region, bit, two]) (0, 0) (1, 0)).1
    ⟨.whole false 0 1, by rw [swap_lost]; simp, 0, by simp [two], rfl, rfl⟩
  obtain ⟨it, hit, hf⟩ := h1
  simp only [swapBits, List.mem_cons, List.mem_nil_iff, or_false] at hit
  rcases hit with rfl | rfl
  · obtain ⟨j, hj, e, e'⟩ := hf
    simp only [Cut.region, bit] at hj e e'
    have := congrArg Prod.snd e'
    simp only at this
    omega
  · obtain ⟨j, hj, e, e'⟩ := hf
    simp only [Cut.region, bit] at hj e e'
    have := congrArg Prod.snd e
    simp only at this
    omega

/-- A clocked block: the copy, non-blocking, followed by a register that reads the copied variable. -/
def clocked : List Item := [.cut true (bit 0 0) (bit 1 0), .cut true (bit 0 1) (bit 1 1), .other (.assign true ⟨2, 0, 2⟩ (.var 0 2))]

theorem clocked_traversal : Traversal two clocked [(0, 1)] := by
  refine ⟨by simp, fun k => ?_⟩
  simp only [clocked, List.mem_cons, List.mem_nil_iff, or_false, exists_eq_or_imp, exists_eq_left]
  have e1 : key two (.cut true (bit 0 0) (bit 1 0)) = some (0, 1) := rfl
  have e2 : key two (.cut true (bit 0 1) (bit 1 1)) = some (0, 1) := rfl
  have e3 : key two (.other (.assign true ⟨2, 0, 2⟩ (.var 0 2))) = none := rfl
  rw [e1, e2, e3]
  constructor
  · rintro rfl; exact .inl rfl
  · rintro (h | h | h)
    · exact (Option.some.inj h).symm
    · exact (Option.some.inj h).symm
    · cases h

example (code : Cut → Cut → Nat) (ι : Nat → St → St) (σ : Store) :
    merge two [(0, 1)] (fun _ => true) clocked = [.other (.assign true ⟨2, 0, 2⟩ (.var 0 2)), .whole true 0 1] ∧
    ((block two code (merge two [(0, 1)] (fun _ => true) clocked)).exec ι ⟨σ, [], .run⟩).commit = ((block two code clocked).exec ι ⟨σ, [], .run⟩).commit := by
  refine ⟨rfl, merge_clocked_partial (F := fun _ _ _ => False) clocked_traversal ?_ ?_ ?_ ?_ (fun _ _ => rfl) ?_ ι σ⟩
  · simp only [SingleDriver, clocked, List.pairwise_cons, List.mem_cons, List.mem_nil_iff, or_false]
    refine ⟨?_, ?_, fun _ hh => hh.elim, List.Pairwise.nil⟩
    · rintro a (rfl | rfl) d s s' ⟨j, hj, rfl, _⟩ h
      · obtain ⟨j', hj', e, _⟩ := h
        simp only [Cut.region, bit] at hj hj' e
        have := congrArg Prod.snd e
        simp only at this
        omega
      · exact h
    · rintro a rfl d s s' _ h
      exact h
  · intro it hit
    simp only [clocked, List.mem_cons, List.mem_nil_iff, or_false] at hit
    rcases hit with rfl | rfl | rfl <;> simp [Item.InRange, Cut.region, bit, two]
  · intro it hit _
    simp only [clocked, List.mem_cons, List.mem_nil_iff, or_false] at hit
    rcases hit with rfl | rfl | rfl
    · exact ⟨0, 1, rfl, rfl⟩
    · exact ⟨1, 1, rfl, rfl⟩
    · trivial
  · intro it hit
    simp only [clocked, List.mem_cons, List.mem_nil_iff, or_false] at hit
    rcases hit with rfl | rfl | rfl <;> exact fun _ => rfl
  · intro k _ hex it hit hne
    have hk : k = (0, 1) := by
      have := (clocked_traversal.2 k).2 hex
      simpa using this
    subst hk
    simp only [clocked, List.mem_cons, List.mem_nil_iff, or_false] at hit
    rcases hit with rfl | rfl | rfl
    · exact absurd rfl hne
    · exact absurd rfl hne
    · refine ⟨?_, fun _ _ => trivial⟩
      simp

/-- The same in a combinational block: with blocking assignments the reader ends up before the assignment it should follow. -/
def combinational : List Item := [.cut false (bit 0 0) (bit 1 0), .cut false (bit 0 1) (bit 1 1), .other (.assign false ⟨2, 0, 2⟩ (.var 0 2))]

theorem blocking_reordered (code : Cut → Cut → Nat) : ∃ σ,
    merge two [(0, 1)] (fun _ => false) combinational = [.other (.assign false ⟨2, 0, 2⟩ (.var 0 2)), .whole false 0 1] ∧
    ((block two code combinational).exec (fun _ st => st) ⟨σ, [], .run⟩).val 2 = 3 ∧
    ((block two code (merge two [(0, 1)] (fun _ => false) combinational)).exec (fun _ st => st) ⟨σ, [], .run⟩).val 2 = 0 :=
  ⟨fun v => if v = 1 then 3 else 0, rfl,
    by simp [block, combinational, Item.stmt, bit, Stmts.ofList, Stmts.exec, Stmt.exec, guardRun, Store.write, setBits, Expr.eval, two],
    by
      show ((block two code [.other (.assign false ⟨2, 0, 2⟩ (.var 0 2)), .whole false 0 1]).exec _ _).val 2 = 0
      simp [block, Item.stmt, Stmts.ofList, Stmts.exec, Stmt.exec, guardRun, Store.write, setBits, Expr.eval, two]⟩

/-- Only the number of statements is compared with the width: two whole-variable slices count as two bits, and an unconnected
bit is connected when another bit is connected twice. -/
theorem only_counted : merge two [(0, 1)] (fun _ => false) [.cut false (bit 0 0) (bit 1 0), .cut false (bit 0 0) (bit 1 0)] = [.whole false 0 1] := rfl

end Kratos.MergeW
