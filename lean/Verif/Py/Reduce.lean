import Verif.Width.Props

/-!
# Reducing and concatenating several signals from Python

`reduce_or`, `reduce_and`, `reduce_add`, `reduce_mul` and `concat` of `kratos/util.py:107-134`: `functools.reduce` over
the arguments, on top of the operators and `Var::concat` (`Verif/Width/Model.lean`).

An argument is an object; one list as the only argument is modelled too, several arguments with lists among them and
Python integers as arguments are not. As in `Verif/Width/Model.lean`, `Var::concat` makes a new object where the code may
give back the equal one of an earlier call (`src/expr.cc:255-260`).
-/

namespace Kratos.Reduce
open Kratos.Width

/-- The helpers. -/
inductive Fn where
  | or | and | add | mul
  deriving DecidableEq

/-- The operator a helper hands to `functools.reduce` (`kratos/util.py:115-128`). -/
def Fn.op : Fn → Op
  | .or => .or
  | .and => .and
  | .add => .add
  | .mul => .multiply

/-- `functools.reduce` after the first element. -/
def loop (f : Heap → Nat → Nat → Res (Heap × Nat)) : Heap → Nat → List Nat → Res (Heap × Nat)
  | h, acc, [] => .ok (h, acc)
  | h, acc, b :: bs => (f h acc b).bind fun r => loop f r.1 r.2 bs

/-- What a helper is called with: objects, or one list of objects. -/
inductive Args where
  | objs (l : List Nat)
  | list (l : List Nat)

/-- What a helper returns. -/
inductive Out where
  | obj (i : Nat)
  | list (l : List Nat)
  deriving DecidableEq

/-- `__reduce` (`kratos/util.py:108-112`): without an argument `functools.reduce` raises; a single argument is its
result, and a list of one element is replaced by the element. -/
def reduce (f : Heap → Nat → Nat → Res (Heap × Nat)) (h : Heap) : Args → Res (Heap × Out)
  | .objs [] => .throw .invalidArg
  | .objs (a :: l) => (loop f h a l).bind fun r => .ok (r.1, .obj r.2)
  | .list [a] => .ok (h, .obj a)
  | .list l => .ok (h, .list l)

/-- `reduce_or` and the others (`kratos/util.py:115-128`). -/
def helper (fn : Fn) (h : Heap) (a : Args) : Res (Heap × Out) :=
  reduce (fun h l r => call h (.bin fn.op l r)) h a

/-- `concat` (`kratos/util.py:131-134`). -/
def concat (h : Heap) (a : Args) : Res (Heap × Out) := reduce (fun h l r => call h (.concat l r)) h a

/-! ## Specification -/

/-- The value of an object, for given values of the first `n` objects: the text of an operator on `w`-bit operands
gives the `w`-bit result (IEEE 1800, 11.4). -/
inductive Val (h : Heap) (n : Nat) {w : Nat} (env : Nat → BitVec w) : Nat → BitVec w → Prop where
  | old {i} : i < n → Val h n env i (env i)
  | or {i l r vw s a b} : n ≤ i → h[i]? = some (.op .or l (some r) vw s) → Val h n env l a → Val h n env r b →
      Val h n env i (a ||| b)
  | and {i l r vw s a b} : n ≤ i → h[i]? = some (.op .and l (some r) vw s) → Val h n env l a → Val h n env r b →
      Val h n env i (a &&& b)
  | add {i l r vw s a b} : n ≤ i → h[i]? = some (.op .add l (some r) vw s) → Val h n env l a → Val h n env r b →
      Val h n env i (a + b)
  | mul {i l r vw s a b} : n ≤ i → h[i]? = some (.op .multiply l (some r) vw s) → Val h n env l a → Val h n env r b →
      Val h n env i (a * b)

/-- The product of numbers. -/
def product : List Nat → Nat
  | [] => 1
  | x :: l => x * product l

/-- What the result of a helper means. -/
def Means (fn : Fn) {w : Nat} (vs : List (BitVec w)) (v : BitVec w) : Prop :=
  match fn with
  | .or => ∀ k, v.getLsbD k = true ↔ ∃ x ∈ vs, x.getLsbD k = true
  | .and => ∀ k, k < w → (v.getLsbD k = true ↔ ∀ x ∈ vs, x.getLsbD k = true)
  | .add => v.toNat = (vs.map BitVec.toNat).sum % 2 ^ w
  | .mul => v.toNat = product (vs.map BitVec.toNat) % 2 ^ w

/-- The objects a concatenation with this one on the left holds first: the elements of a concatenation. -/
def parts (h : Heap) (a : Nat) : List Nat :=
  match h[a]? with
  | some (.concat vs _ _) => vs
  | _ => [a]

/-- What a user expects: a list can be handed over like its elements. -/
def ListClaim : Prop :=
  ∀ (fn : Fn) (h : Heap) (l : List Nat) (r : Heap × Out), Built h → helper fn h (.objs l) = .ok r →
    ∃ i h', helper fn h (.list l) = .ok (h', .obj i)

/-! ## Theorems -/

/-- The operation of a helper on values. -/
def Fn.on {w : Nat} : Fn → BitVec w → BitVec w → BitVec w
  | .or, a, b => a ||| b
  | .and, a, b => a &&& b
  | .add, a, b => a + b
  | .mul, a, b => a * b

theorem Fn.means_foldl (fn : Fn) {w : Nat} : ∀ (l : List (BitVec w)) (a : BitVec w) (pre : List (BitVec w)),
    Means fn pre a → Means fn (pre ++ l) (l.foldl fn.on a)
  | [], a, pre, h => by simpa using h
  | b :: l, a, pre, h => by
    have := Fn.means_foldl fn l (fn.on a b) (pre ++ [b]) ?_
    · simpa using this
    · cases fn with
      | or =>
        intro k
        simp only [Fn.on, BitVec.getLsbD_or, Bool.or_eq_true, h k, List.mem_append, List.mem_singleton]
        constructor
        · rintro (⟨x, hx, he⟩ | he)
          · exact ⟨x, .inl hx, he⟩
          · exact ⟨b, .inr rfl, he⟩
        · rintro ⟨x, hx | rfl, he⟩
          · exact .inl ⟨x, hx, he⟩
          · exact .inr he
      | and =>
        intro k hk
        simp only [Fn.on, BitVec.getLsbD_and, Bool.and_eq_true, h k hk, List.mem_append, List.mem_singleton]
        constructor
        · rintro ⟨h1, h2⟩ x (hx | rfl)
          · exact h1 x hx
          · exact h2
        · intro hall
          exact ⟨fun x hx => hall x (.inl hx), hall b (.inr rfl)⟩
      | add =>
        simp only [Means] at h ⊢
        simp only [Fn.on, BitVec.toNat_add, h, List.map_append, List.sum_append, List.map_cons, List.map_nil,
          List.sum_cons, List.sum_nil, Nat.add_zero, Nat.mod_add_mod]
      | mul =>
        have hp : ∀ (l : List Nat) (x : Nat), product (l ++ [x]) = product l * x := by
          intro l x
          induction l with
          | nil => simp [product]
          | cons y l ih => simp [product, ih, Nat.mul_assoc]
        simp only [Means] at h ⊢
        simp only [Fn.on, BitVec.toNat_mul, h, List.map_append, List.map_cons, List.map_nil, hp]
        rw [Nat.mod_mul_mod]

theorem means_one (fn : Fn) {w : Nat} (a : BitVec w) : Means fn [a] a := by
  cases fn with
  | or => intro k; simp
  | and => intro k _; simp
  | add => simp [Means, Nat.mod_eq_of_lt a.isLt]
  | mul => simp [Means, product, Nat.mod_eq_of_lt a.isLt]

/-- One operator on operands of one width. -/
theorem bin_same {h : Heap} {f : Nat → Nat} (hi : Inv h f) (fn : Fn) {l r w : Nat} (hl : l < h.length)
    (hr : r < h.length) (hfl : f l = w) (hfr : f r = w) :
    ∃ vw, call h (.bin fn.op l r) = .ok (h ++ [.op fn.op l (some r) vw (sgn h l && sgn h r)], h.length) ∧
      Inv (h ++ [.op fn.op l (some r) vw (sgn h l && sgn h r)]) (upd f h.length w) := by
  obtain ⟨vw, hvw⟩ := varWidth_ok hl
  have hrel : (isRelational fn.op || isReduction fn.op) = false := by cases fn <;> rfl
  have hsh : isShift fn.op = false := by cases fn <;> rfl
  have hp : plan h fn.op l r = .ok .keep := by
    simp [plan, hi.W hl, hi.W hr, hfl, hfr, hsh]
  refine ⟨vw, ?_, ?_⟩
  · simp [call, mkBin, hp, hvw, hrel]
  · have hne : ∀ k, k < h.length → k ≠ h.length := fun k hk => Nat.ne_of_lt hk
    refine hi.append ?_ ?_
    · intro k hk
      simp only [Node.operands, List.mem_cons, List.not_mem_nil, or_false] at hk
      rcases hk with rfl | rfl
      · exact hl
      · exact hr
    · simp [Local, hrel, upd_self, upd_ne _ (hne l hl), upd_ne _ (hne r hr), hfl, hfr]

theorem Val.mono {h : Heap} {n w : Nat} {env : Nat → BitVec w} {x : Node} {i : Nat} {v : BitVec w}
    (hv : Val h n env i v) : Val (h ++ [x]) n env i v := by
  have up : ∀ {i : Nat} {nd : Node}, h[i]? = some nd → (h ++ [x])[i]? = some nd := by
    intro i nd hn
    rw [List.getElem?_append_left (lt_of_get hn)]
    exact hn
  induction hv with
  | old hi => exact .old hi
  | or hn hg _ _ ih1 ih2 => exact .or hn (up hg) ih1 ih2
  | and hn hg _ _ ih1 ih2 => exact .and hn (up hg) ih1 ih2
  | add hn hg _ _ ih1 ih2 => exact .add hn (up hg) ih1 ih2
  | mul hn hg _ _ ih1 ih2 => exact .mul hn (up hg) ih1 ih2

theorem sgn_append {h : Heap} {x : Node} {i : Nat} (hi : i < h.length) : sgn (h ++ [x]) i = sgn h i := by
  unfold sgn
  rw [List.getElem?_append_left hi]

theorem loop_spec (fn : Fn) {n w : Nat} : ∀ (l : List Nat) (h : Heap) (f : Nat → Nat) (acc : Nat), Inv h f →
    n ≤ h.length → acc < h.length → f acc = w → (∀ b ∈ l, b < n ∧ f b = w) →
    ∃ h' i f', loop (fun h l r => call h (.bin fn.op l r)) h acc l = .ok (h', i) ∧ Inv h' f' ∧ i < h'.length ∧
      f' i = w ∧ (∀ j, j < h.length → h'[j]? = h[j]?) ∧
      (sgn h' i = (sgn h acc && l.all (fun b => sgn h b))) ∧
      ∀ (env : Nat → BitVec w) (a : BitVec w), Val h n env acc a →
        Val h' n env i ((l.map env).foldl fn.on a)
  | [], h, f, acc, hi, _, hacc, hf, _ =>
    ⟨h, acc, f, rfl, hi, hacc, hf, fun _ _ => rfl, by simp, fun _ _ hv => hv⟩
  | b :: l, h, f, acc, hi, hn, hacc, hf, hl => by
    obtain ⟨hb, hfb⟩ := hl b List.mem_cons_self
    have hbl : b < h.length := Nat.lt_of_lt_of_le hb hn
    obtain ⟨vw, hc, hinv⟩ := bin_same hi fn hacc hbl hf hfb
    obtain ⟨h', i, f', e, g1, g2, g3, g4, g5, g6⟩ := loop_spec fn (n := n) (w := w) l
      (h ++ [.op fn.op acc (some b) vw (sgn h acc && sgn h b)]) (upd f h.length w) h.length hinv
      (by simp; omega) (by simp) (upd_self ..) (by
        intro x hx
        obtain ⟨hxn, hxw⟩ := hl x (List.mem_cons_of_mem _ hx)
        exact ⟨hxn, by rw [upd_ne _ (Nat.ne_of_lt (Nat.lt_of_lt_of_le hxn hn)), hxw]⟩)
    refine ⟨h', i, f', ?_, g1, g2, g3, ?_, ?_, ?_⟩
    · simp only [loop, hc, Res.ok_bind]
      exact e
    · intro j hj
      rw [g4 j (by simp; omega), List.getElem?_append_left hj]
    · rw [g5, List.all_cons, ← Bool.and_assoc]
      congr 1
      · simp [sgn]
      · apply Bool.eq_iff_iff.2
        rw [List.all_eq_true, List.all_eq_true]
        constructor
        · intro hx x hm
          rw [← sgn_append (Nat.lt_of_lt_of_le (hl x (List.mem_cons_of_mem _ hm)).1 hn)]
          exact hx x hm
        · intro hx x hm
          rw [sgn_append (Nat.lt_of_lt_of_le (hl x (List.mem_cons_of_mem _ hm)).1 hn)]
          exact hx x hm
    · intro env a hv
      rw [List.map_cons, List.foldl_cons]
      apply g6
      have h1 : Val (h ++ [Node.op fn.op acc (some b) vw (sgn h acc && sgn h b)]) n env acc a := hv.mono
      have h2 : Val (h ++ [Node.op fn.op acc (some b) vw (sgn h acc && sgn h b)]) n env b (env b) := .old hb
      have hg : (h ++ [Node.op fn.op acc (some b) vw (sgn h acc && sgn h b)])[h.length]?
          = some (Node.op fn.op acc (some b) vw (sgn h acc && sgn h b)) := by simp
      cases fn with
      | or => exact .or hn hg h1 h2
      | and => exact .and hn hg h1 h2
      | add => exact .add hn hg h1 h2
      | mul => exact .mul hn hg h1 h2

/-- **C138**: `reduce_or`, `reduce_and`, `reduce_add` and `reduce_mul` of one or more objects of one width give an object
of this width, signed exactly when all of them are, that means the bitwise or, the bitwise and, the sum or the product
of all of them, whatever their values; no other object changes. -/
theorem reduce_means (fn : Fn) {h : Heap} (hb : Built h) {w : Nat} {args : List Nat} (hne : args ≠ [])
    (hw : ∀ a ∈ args, W h a = .ok w) :
    ∃ h' i, helper fn h (.objs args) = .ok (h', .obj i) ∧ (∀ j, j < h.length → h'[j]? = h[j]?) ∧ W h' i = .ok w ∧
      (sgn h' i = true ↔ ∀ a ∈ args, sgn h a = true) ∧
      ∀ env : Nat → BitVec w, ∃ v, Val h' h.length env i v ∧ Means fn (args.map env) v := by
  obtain ⟨f, hi⟩ := hb.inv
  cases args with
  | nil => exact absurd rfl hne
  | cons a l =>
    have hall : ∀ x ∈ a :: l, x < h.length ∧ f x = w := fun x hx => hi.W_eq (hw x hx)
    obtain ⟨ha, hfa⟩ := hall a List.mem_cons_self
    obtain ⟨h', i, f', e, g1, g2, g3, g4, g5, g6⟩ := loop_spec fn (n := h.length) l h f a hi (Nat.le_refl _) ha hfa
      fun x hx => hall x (List.mem_cons_of_mem _ hx)
    refine ⟨h', i, ?_, g4, ?_, ?_, ?_⟩
    · simp only [helper, reduce, e, Res.ok_bind]
    · rw [g1.W g2, g3]
    · rw [g5]
      simp
    · intro env
      refine ⟨_, g6 env (env a) (.old ha), ?_⟩
      have := fn.means_foldl (l.map env) (env a) [env a] (means_one fn _)
      simpa using this

/-- One concatenation. -/
theorem concat_same {h : Heap} {f : Nat → Nat} (hi : Inv h f) {l r : Nat} (hl : l < h.length) (hr : r < h.length)
    (hs : sgn h l = sgn h r) :
    call h (.concat l r) = .ok (h ++ [.concat (parts h l ++ [r]) (f l + f r) (sgn h l)], h.length) ∧
      Inv (h ++ [.concat (parts h l ++ [r]) (f l + f r) (sgn h l)]) (upd f h.length (f l + f r)) := by
  have hne : ∀ k, k < h.length → k ≠ h.length := fun k hk => Nat.ne_of_lt hk
  have hparts : (∀ k ∈ parts h l, k < h.length) ∧ ((parts h l).map f).sum = f l := by
    unfold parts
    split
    · rename_i vs w s hg
      obtain ⟨h1, h2⟩ := hi l _ hg
      exact ⟨fun k hk => Nat.lt_trans (h1 k hk) hl, by rw [h2.1, ← h2.2]⟩
    · simp [hl]
  refine ⟨?_, hi.append ?_ ?_⟩
  · simp only [call, mkConcat, hi.W hl, hi.W hr, Res.ok_bind, hs, bne_self_eq_false, Bool.false_eq_true, if_false]
    unfold parts
    cases h[l]? with
    | none => rfl
    | some nd => cases nd <;> rfl
  · intro k hk
    rcases List.mem_append.1 hk with hk | hk
    · exact hparts.1 k hk
    · rw [List.mem_singleton.1 hk]; exact hr
  · refine ⟨upd_self .., ?_⟩
    rw [List.map_congr_left (g := f)]
    · simp [hparts.2]
    · intro k hk
      apply upd_ne
      rcases List.mem_append.1 hk with hk | hk
      · exact hne k (hparts.1 k hk)
      · rw [List.mem_singleton.1 hk]; exact hne r hr

theorem concat_loop {n : Nat} : ∀ (l : List Nat) (h : Heap) (f : Nat → Nat) (acc : Nat), Inv h f →
    n ≤ h.length → acc < h.length → (∀ b ∈ l, b < n ∧ sgn h b = sgn h acc) →
    ∃ h' i f', loop (fun h l r => call h (.concat l r)) h acc l = .ok (h', i) ∧ Inv h' f' ∧ i < h'.length ∧
      f' i = f acc + (l.map f).sum ∧ (∀ j, j < h.length → h'[j]? = h[j]?) ∧ sgn h' i = sgn h acc ∧
      (l ≠ [] → h'[i]? = some (.concat (parts h acc ++ l) (f acc + (l.map f).sum) (sgn h acc)))
  | [], h, f, acc, hi, _, hacc, _ =>
    ⟨h, acc, f, rfl, hi, hacc, by simp, fun _ _ => rfl, rfl, fun h => absurd rfl h⟩
  | b :: l, h, f, acc, hi, hn, hacc, hl => by
    obtain ⟨hb, hsb⟩ := hl b List.mem_cons_self
    have hbl : b < h.length := Nat.lt_of_lt_of_le hb hn
    obtain ⟨hc, hinv⟩ := concat_same hi hacc hbl hsb.symm
    have hlast : (h ++ [Node.concat (parts h acc ++ [b]) (f acc + f b) (sgn h acc)])[h.length]?
        = some (Node.concat (parts h acc ++ [b]) (f acc + f b) (sgn h acc)) := by simp
    have hsl : sgn (h ++ [Node.concat (parts h acc ++ [b]) (f acc + f b) (sgn h acc)]) h.length = sgn h acc := by
      simp [sgn]
    have hpl : parts (h ++ [Node.concat (parts h acc ++ [b]) (f acc + f b) (sgn h acc)]) h.length
        = parts h acc ++ [b] := by
      generalize parts h acc ++ [b] = vs at hlast
      simp only [parts, hlast]
    have hin : ∀ x ∈ l, x < n := fun x hx => (hl x (List.mem_cons_of_mem _ hx)).1
    obtain ⟨h', i, f', e, g1, g2, g3, g4, g5, g6⟩ := concat_loop (n := n) l
      (h ++ [.concat (parts h acc ++ [b]) (f acc + f b) (sgn h acc)]) (upd f h.length (f acc + f b)) h.length hinv
      (by simp; omega) (by simp) (by
        intro x hx
        obtain ⟨hxn, hxs⟩ := hl x (List.mem_cons_of_mem _ hx)
        exact ⟨hxn, by rw [hsl, sgn_append (Nat.lt_of_lt_of_le hxn hn), hxs]⟩)
    have hmap : (l.map (upd f h.length (f acc + f b))) = l.map f :=
      List.map_congr_left fun x hx => upd_ne _ (Nat.ne_of_lt (Nat.lt_of_lt_of_le (hin x hx) hn))
    rw [upd_self, hmap] at g3 g6
    rw [hsl] at g5 g6
    refine ⟨h', i, f', ?_, g1, g2, ?_, ?_, g5, ?_⟩
    · simp only [loop, hc, Res.ok_bind]
      exact e
    · rw [g3, List.map_cons, List.sum_cons]; omega
    · intro j hj
      rw [g4 j (by simp; omega), List.getElem?_append_left hj]
    · intro _
      cases l with
      | nil =>
        simp only [loop, Res.ok.injEq, Prod.mk.injEq] at e
        rw [← e.1, ← e.2, hlast]
        simp
      | cons c l =>
        rw [g6 (by simp), hpl, List.append_assoc, List.map_cons (a := b), List.sum_cons (a := f b), Nat.add_assoc]
        rfl

/-- **C138**: `concat` of two or more objects of one sign gives one concatenation of all of them, in their order (the
elements of the first, if it is a concatenation), with the sum of their widths and their sign; no other object
changes. -/
theorem concat_parts {h : Heap} (hb : Built h) {a b : Nat} {l : List Nat} {wd : Nat → Nat}
    (hw : ∀ x ∈ a :: b :: l, W h x = .ok (wd x)) (hs : ∀ x ∈ b :: l, sgn h x = sgn h a) :
    ∃ h' i, concat h (.objs (a :: b :: l)) = .ok (h', .obj i) ∧ (∀ j, j < h.length → h'[j]? = h[j]?) ∧
      W h' i = .ok ((a :: b :: l).map wd).sum ∧
      h'[i]? = some (.concat (parts h a ++ b :: l) ((a :: b :: l).map wd).sum (sgn h a)) := by
  obtain ⟨f, hi⟩ := hb.inv
  have hall : ∀ x ∈ a :: b :: l, x < h.length ∧ f x = wd x := fun x hx => hi.W_eq (hw x hx)
  obtain ⟨ha, hfa⟩ := hall a List.mem_cons_self
  obtain ⟨h', i, f', e, g1, g2, g3, g4, g5, g6⟩ := concat_loop (n := h.length) (b :: l) h f a hi (Nat.le_refl _) ha
    fun x hx => ⟨(hall x (List.mem_cons_of_mem _ hx)).1, hs x hx⟩
  have hmap : (b :: l).map f = (b :: l).map wd :=
    List.map_congr_left fun x hx => (hall x (List.mem_cons_of_mem _ hx)).2
  rw [hfa, hmap] at g3
  have g6' := g6 (by simp)
  rw [hfa, hmap] at g6'
  refine ⟨h', i, ?_, g4, ?_, g6'⟩
  · simp only [concat, reduce, e, Res.ok_bind]
  · rw [g1.W g2, g3]; rfl

/-- **C138**: `concat` refuses two signals of different signs. -/
theorem concat_signs {h : Heap} {a b : Nat} {l : List Nat} {r : Heap × Out} (hs : sgn h a ≠ sgn h b) :
    concat h (.objs (a :: b :: l)) ≠ .ok r := by
  intro hr
  simp only [concat, reduce, loop, call, mkConcat, Res.bind_eq_ok] at hr
  obtain ⟨_, ⟨_, ⟨_, _, _, _, hc⟩, _⟩, _⟩ := hr
  rw [if_pos (by simpa using hs)] at hc
  cases hc

/-- **C138**: one object is its own reduction and concatenation, and none is refused. -/
theorem few (fn : Fn) (h : Heap) (a : Nat) :
    helper fn h (.objs [a]) = .ok (h, .obj a) ∧ concat h (.objs [a]) = .ok (h, .obj a) ∧
      (∀ r, helper fn h (.objs []) ≠ .ok r) ∧ ∀ r, concat h (.objs []) ≠ .ok r :=
  ⟨rfl, rfl, nofun, nofun⟩

/-- Two variables of eight bits, the second one signed, and a third like the first. -/
def demo : Heap := [.base 8 false, .base 8 true, .base 8 false]

theorem demo_built : Built demo := by
  refine .step (h := [.base 8 false, .base 8 true]) (c := .base 8 false) (i := 2) ?_ (by decide) (by simp [resizes])
  refine .step (h := [.base 8 false]) (c := .base 8 true) (i := 1) ?_ (by decide) (by simp [resizes])
  exact .step (c := .base 8 false) (i := 0) .nil (by decide) (by simp [resizes])

/-- **C138**, the negation: `reduce_or([a, b])` gives back the list. -/
theorem not_ListClaim : ¬ ListClaim := by
  intro h
  obtain ⟨i, h', e⟩ := h .or demo [0, 2] _ demo_built rfl
  cases e

/-- **C138** (partial): a list of one object can be handed over like the object.
Missing: longer lists, which are given back as they are, see `not_ListClaim`. -/
theorem list_partial (fn : Fn) (h : Heap) (a : Nat) :
    helper fn h (.list [a]) = helper fn h (.objs [a]) ∧ concat h (.list [a]) = concat h (.objs [a]) := ⟨rfl, rfl⟩

/-! ## Cases that meet the hypotheses -/

example : ∃ h' i, helper .add demo (.objs [0, 1, 2, 0]) = .ok (h', .obj i) ∧
    (∀ j, j < demo.length → h'[j]? = demo[j]?) ∧ W h' i = .ok 8 ∧
    (sgn h' i = true ↔ ∀ a ∈ [0, 1, 2, 0], sgn demo a = true) ∧
    ∀ env : Nat → BitVec 8, ∃ v, Val h' demo.length env i v ∧ Means .add ([0, 1, 2, 0].map env) v :=
  reduce_means .add demo_built (by decide) (by decide)

example : ∃ h' i, concat demo (.objs [0, 2, 0]) = .ok (h', .obj i) ∧ (∀ j, j < demo.length → h'[j]? = demo[j]?) ∧
    W h' i = .ok 24 ∧ h'[i]? = some (.concat [0, 2, 0] 24 false) :=
  concat_parts demo_built (wd := fun _ => 8) (by decide) (by decide)

example (r : Heap × Out) : concat demo (.objs [0, 1]) ≠ .ok r := concat_signs (by decide)

end Kratos.Reduce
