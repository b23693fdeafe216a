import Verif.Base

/-!
# Expression objects that are shared (property C123)

Models `Var::concat` and `VarConcat::concat`, src/expr.cc:250-264, 1292-1327, with the table of concatenations each variable keeps,
together with what `Var::move_sink_to` does to expression objects, src/expr.cc:1513-1557, 1581-1597, 1646-1677.  Here expressions are
objects with an identity: `a.concat(b)` hands out the object made before for the same operands, and a replacement changes objects in
place, whoever else holds them.  (Verif/Pass/Replace.lean, C75, has expressions as trees.)

Simplifications: the objects are variables, binary operators and concatenations; variables are one-dimensional; the generator of an
expression (`set_parent`), width parameters and debug lines are left out; the variable that takes the place of another is a variable or
a port, not an expression; `keep_connection` is the call `read` afterwards.
-/

namespace Kratos.Shared

/-! ### Model -/

/-- What an object is: a variable or port; a binary operator (`Expr`, src/expr.hh: `op`, `left`, `right`); a concatenation
(`VarConcat`, src/expr.hh:664-695: the `left` and `right` of `Expr`, and `vars_`). -/
inductive Kind where
  | var
  | bin (o l r : Nat)
  | cat (l r : Nat) (vs : List Nat)
  deriving DecidableEq, Repr

/-- The objects `0 .. n-1` with their width, sign, the concatenations they keep (`concat_vars_`, src/expr.hh:247) and the statements that
read them (`sinks_`); the assignments `0 .. m-1` with their generator and right-hand side. -/
structure St where
  n : Nat
  kind : Nat → Kind
  width : Nat → BitVec 32
  signed : Nat → Bool
  cats : Nat → List Nat
  sinks : Nat → List Nat
  m : Nat
  gen : Nat → Nat
  rhs : Nat → Nat

/-- Nothing has been made yet. -/
def init : St where
  n := 0
  kind := fun _ => .var
  width := fun _ => 0
  signed := fun _ => false
  cats := fun _ => []
  sinks := fun _ => []
  m := 0
  gen := fun _ => 0
  rhs := fun _ => 0

def upd {α : Type} (f : Nat → α) (i : Nat) (x : α) : Nat → α := fun j => if j = i then x else f j

/-- `VarType::Expression`. -/
def isExpr (s : St) (e : Nat) : Bool :=
  match s.kind e with
  | .var => false
  | _ => true

/-- A new object. -/
def alloc (s : St) (k : Kind) (w : BitVec 32) (g : Bool) : St :=
  { s with n := s.n + 1, kind := upd s.kind s.n k, width := upd s.width s.n w, signed := upd s.signed s.n g }

/-- `Var::add_concat_var`, src/expr.hh:165. -/
def keep (s : St) (a c : Nat) : St := { s with cats := upd s.cats a (s.cats a ++ [c]) }

/-- The test of src/expr.cc:257: two elements, and the last one is the argument. -/
def hit (s : St) (b c : Nat) : Bool :=
  match s.kind c with
  | .cat _ _ [_, y] => y == b
  | _ => false

/-- `a.concat(b)`.  `VarConcat::concat`, src/expr.cc:1315-1320 with the constructor 1292-1302, when `a` is itself a concatenation: a new
object, kept by the first element.  Otherwise `Var::concat`, 250-264 with the constructor 1304-1313: an object kept by `a` that passes
the test is used again.  The sign is that of the left operand (795-800). -/
def concat (s : St) (a b : Nat) : Res (St × Nat) :=
  match s.kind a with
  | .cat _ _ vs =>
    if s.signed a ≠ s.signed b then .throw .var
    else match vs with
      | [] => .ub
      | x :: _ => .ok (keep (alloc s (.cat a b (vs ++ [b])) (s.width a + s.width b) (s.signed a)) x s.n, s.n)
  | _ =>
    match (s.cats a).find? (hit s b) with
    | some c => .ok (s, c)
    | none =>
      if s.signed a ≠ s.signed b then .throw .var
      else .ok (keep (alloc s (.cat a b [a, b]) (s.width a + s.width b) (s.signed a)) a s.n, s.n)

/-- An operator on two operands of the same width, src/expr.cc:742-793 (shifts, relational operators and the resizing of constants left
out): always a new object. -/
def binop (s : St) (o a b : Nat) : Res (St × Nat) :=
  if s.width a ≠ s.width b then .throw .var
  else .ok (alloc s (.bin o a b) (s.width a) (s.signed a && s.signed b), s.n)

/-- `Var::add_sink`: a set of statements. -/
def pushSink (s : St) (v k : Nat) : St :=
  { s with sinks := upd s.sinks v (if k ∈ s.sinks v then s.sinks v else s.sinks v ++ [k]) }

/-- `add_sink` passed down, src/expr.cc:1253-1257, 1742-1745.  The first argument bounds the depth. -/
def addSink : Nat → St → Nat → Nat → St
  | 0, s, _, _ => s
  | f + 1, s, k, e =>
    match s.kind e with
    | .var => pushSink s e k
    | .bin _ l r => addSink f (addSink f s k l) k r
    | .cat _ _ vs => vs.foldl (fun s x => addSink f s k x) s

/-- An assignment of generator `g` that reads `e` (src/stmt.cc:205-216: `right_->add_sink`). -/
def read (s : St) (g e : Nat) : St × Nat :=
  (addSink (s.n + 1) { s with m := s.m + 1, gen := upd s.gen s.m g, rhs := upd s.rhs s.m e } s.m e, s.m)

def sub (t n x : Nat) : Nat := if x = t then n else x

/-- `VarConcat::replace_var`, src/expr.cc:1322-1327: `std::find`, the first one only. -/
def replaceVar (t n : Nat) : List Nat → List Nat
  | [] => []
  | x :: xs => if x = t then n :: xs else x :: replaceVar t n xs

/-- `left`, `right` (src/expr.cc:1523-1530) and `vars_` (1540-1543) of one object. -/
def Kind.change (t n : Nat) : Kind → Kind
  | .var => .var
  | .bin o l r => .bin o (sub t n l) (sub t n r)
  | .cat l r vs => .cat (sub t n l) (sub t n r) (replaceVar t n vs)

/-- `change_var_expr`, src/expr.cc:1513-1557, in place: first the operands that are expressions (1516-1521), then the object.
`move_linked_to` (1525, 1529) is called on the new variable with itself and returns at once (1680).  The first argument bounds the
depth: operands were made before the object they are in. -/
def change (t n : Nat) : Nat → St → Nat → St
  | 0, s, _ => s
  | f + 1, s, e =>
    match s.kind e with
    | .var => s
    | .bin _ l r | .cat l r _ =>
      let s1 := if isExpr s l then change t n f s l else s
      let s2 := if isExpr s1 r then change t n f s1 r else s1
      { s2 with kind := upd s2.kind e ((s2.kind e).change t n) }

/-- `stmt_set_right`, src/expr.cc:1581-1597. -/
def setRight (t n : Nat) (s : St) (k : Nat) : Res St :=
  if isExpr s (s.rhs k) then .ok (change t n (s.n + 1) s (s.rhs k))
  else if s.rhs k = t then .ok { s with rhs := upd s.rhs k n }
  else .throw .user

/-- The loop of `move_sink_to`, src/expr.cc:1651-1666. -/
def moveAll (t n g : Nat) : St → List Nat → Res St
  | s, [] => .ok s
  | s, k :: ks =>
    if s.gen k ≠ g then moveAll t n g s ks
    else (setRight t n s k).bind fun s' => moveAll t n g (pushSink s' n k) ks

/-- `Var::move_sink_to`, src/expr.cc:1646-1668. -/
def move (s : St) (t n g : Nat) : Res St :=
  if isExpr s t then .throw .var
  else if isExpr s n then .ub
  else (moveAll t n g s (s.sinks t)).bind fun s' => .ok { s' with sinks := upd s'.sinks t [] }

/-- The calls of a program. -/
inductive Op where
  | var (w : BitVec 32) (g : Bool)
  | bin (o a b : Nat)
  | concat (a b : Nat)
  | read (g e : Nat)
  | move (t n g : Nat)

/-- One call, on objects that exist. -/
def step (s : St) : Op → Res St
  | .var w g => .ok (alloc s .var w g)
  | .bin o a b => if a < s.n ∧ b < s.n then (binop s o a b).bind fun p => .ok p.1 else .ub
  | .concat a b => if a < s.n ∧ b < s.n then (concat s a b).bind fun p => .ok p.1 else .ub
  | .read g e => if e < s.n then .ok (read s g e).1 else .ub
  | .move t n g => if t < s.n ∧ n < s.n then move s t n g else .ub

/-- The states a program can be in: calls one after the other that all return; `P` is what is known of each call. -/
inductive Reach (P : St → Op → Prop) : St → Prop where
  | init : Reach P init
  | step {s o s'} : Reach P s → P s o → step s o = .ok s' → Reach P s'

/-- The calls of a list, one after the other. -/
def run : St → List Op → Res St
  | s, [] => .ok s
  | s, o :: os => (step s o).bind fun s' => run s' os

/-! ### Specification -/

/-- What is written for an object: the name of a variable, an operator between two texts, a list of texts in braces. -/
inductive Text where
  | name (v : Nat)
  | op (o : Nat) (l r : Text)
  | braces (ts : List Text)

mutual
/-- Object `e` is written as the text. -/
inductive Writes (s : St) : Nat → Text → Prop where
  | var {e} : s.kind e = .var → Writes s e (.name e)
  | bin {e o l r a b} : s.kind e = .bin o l r → Writes s l a → Writes s r b → Writes s e (.op o a b)
  | cat {e l r vs ts} : s.kind e = .cat l r vs → WritesAll s vs ts → Writes s e (.braces ts)
inductive WritesAll (s : St) : List Nat → List Text → Prop where
  | nil : WritesAll s [] []
  | cons {e t es ts} : Writes s e t → WritesAll s es ts → WritesAll s (e :: es) (t :: ts)
end

/-- The full claim: whatever was done before, `concat(a, b)` is written with `a` and then `b`. -/
def ConcatClaim : Prop := ∀ s a b s' c ta tb, Reach (fun _ _ => True) s → a < s.n → b < s.n → s.kind a = .var →
  concat s a b = .ok (s', c) → Writes s a ta → Writes s b tb → Writes s' c (.braces [ta, tb])

/-- The full claim: moving the readers of a variable in one generator leaves the statements of the others alone. -/
def LocalClaim : Prop := ∀ s t n g s' k x, Reach (fun _ _ => True) s → t < s.n → n < s.n → move s t n g = .ok s' →
  k < s.m → s.gen k ≠ g → Writes s (s.rhs k) x → Writes s' (s'.rhs k) x

/-- The full claim: a concatenation is as wide as its elements together. -/
def WidthClaim : Prop := ∀ s e l r vs, Reach (fun _ _ => True) s → e < s.n → s.kind e = .cat l r vs →
  s.width e = (vs.map s.width).foldr (· + ·) 0

/-- What an object is made of. -/
inductive Within (s : St) : Nat → Nat → Prop where
  | self (e) : Within s e e
  | binL {e o l r x} : s.kind e = .bin o l r → Within s l x → Within s e x
  | binR {e o l r x} : s.kind e = .bin o l r → Within s r x → Within s e x
  | catL {e l r vs x} : s.kind e = .cat l r vs → Within s l x → Within s e x
  | catR {e l r vs x} : s.kind e = .cat l r vs → Within s r x → Within s e x
  | catV {e l r vs v x} : s.kind e = .cat l r vs → v ∈ vs → Within s v x → Within s e x

/-! ### Lemmas -/

/-- An object after some replacements. -/
inductive Steps (t n : Nat) (k : Kind) : Kind → Prop where
  | refl : Steps t n k k
  | step {k'} : Steps t n k k' → Steps t n k (k'.change t n)

theorem Steps.trans {t n k k' k''} (h : Steps t n k k') (h2 : Steps t n k' k'') : Steps t n k k'' := by
  induction h2 with
  | refl => exact h
  | step _ ih => exact .step ih

@[simp] theorem upd_same {α : Type} (f : Nat → α) (i : Nat) (x : α) : upd f i x i = x := by simp [upd]

theorem upd_ne {α : Type} (f : Nat → α) {i j : Nat} (x : α) (h : j ≠ i) : upd f i x j = f j := by simp [upd, h]

theorem change_frame (t n : Nat) (f : Nat) : ∀ s e, ∃ K, change t n f s e = { s with kind := K } := by
  induction f with
  | zero => exact fun s e => ⟨s.kind, rfl⟩
  | succ f ih =>
    intro s e
    have two : ∀ l r, ∃ K,
        (let s1 := if isExpr s l then change t n f s l else s
         let s2 := if isExpr s1 r then change t n f s1 r else s1
         ({ s2 with kind := upd s2.kind e ((s2.kind e).change t n) } : St)) = { s with kind := K } := by
      intro l r
      dsimp only
      obtain ⟨K1, h1⟩ : ∃ K, (if isExpr s l then change t n f s l else s) = { s with kind := K } := by
        by_cases h : isExpr s l
        · simp only [h, if_true]; exact ih s l
        · simp only [h]; exact ⟨s.kind, rfl⟩
      rw [h1]
      obtain ⟨K2, h2⟩ : ∃ K, (if isExpr { s with kind := K1 } r then change t n f { s with kind := K1 } r
          else { s with kind := K1 }) = { s with kind := K } := by
        by_cases h : isExpr { s with kind := K1 } r
        · simp only [h, if_true]; exact ih { s with kind := K1 } r
        · simp only [h]; exact ⟨K1, rfl⟩
      rw [h2]
      exact ⟨_, rfl⟩
    rw [change]
    split
    · exact ⟨s.kind, rfl⟩
    · exact two _ _
    · exact two _ _

theorem change_steps (t n : Nat) (f : Nat) : ∀ s e x, Steps t n (s.kind x) ((change t n f s e).kind x) := by
  induction f with
  | zero => exact fun s e x => .refl
  | succ f ih =>
    intro s e x
    have two : ∀ l r, Steps t n (s.kind x) (
        (let s1 := if isExpr s l then change t n f s l else s
         let s2 := if isExpr s1 r then change t n f s1 r else s1
         ({ s2 with kind := upd s2.kind e ((s2.kind e).change t n) } : St)).kind x) := by
      intro l r
      dsimp only
      have h1 : Steps t n (s.kind x) ((if isExpr s l then change t n f s l else s).kind x) := by
        split
        · exact ih s l x
        · exact .refl
      generalize (if isExpr s l then change t n f s l else s) = s1 at *
      have h2 : Steps t n (s1.kind x) ((if isExpr s1 r then change t n f s1 r else s1).kind x) := by
        split
        · exact ih s1 r x
        · exact .refl
      generalize (if isExpr s1 r then change t n f s1 r else s1) = s2 at *
      by_cases hx : x = e
      · subst hx
        rw [upd_same]
        exact .step (h1.trans h2)
      · rw [upd_ne _ _ hx]
        exact h1.trans h2
    rw [change]
    split
    · exact .refl
    · exact two _ _
    · exact two _ _

theorem addSink_frame (f : Nat) : ∀ s k e, ∃ S, addSink f s k e = { s with sinks := S } := by
  induction f with
  | zero => exact fun s k e => ⟨s.sinks, rfl⟩
  | succ f ih =>
    intro s k e
    rw [addSink]
    split
    · exact ⟨_, rfl⟩
    · rename_i l r _
      obtain ⟨S, h⟩ := ih s k l
      rw [h]
      exact ih _ k r
    · rename_i vs _
      have : ∀ (vs : List Nat) (s : St), ∃ S, vs.foldl (fun s x => addSink f s k x) s = { s with sinks := S } := by
        intro vs
        induction vs with
        | nil => exact fun s => ⟨s.sinks, rfl⟩
        | cons v vs ihv =>
          intro s
          obtain ⟨S, h⟩ := ih s k v
          obtain ⟨S', h'⟩ := ihv { s with sinks := S }
          exact ⟨S', by rw [List.foldl_cons, h, h']⟩
      exact this vs s

theorem read_frame (s : St) (g e : Nat) : ∃ S, (read s g e).1 =
    { s with m := s.m + 1, gen := upd s.gen s.m g, rhs := upd s.rhs s.m e, sinks := S } := by
  obtain ⟨S, h⟩ := addSink_frame (s.n + 1) { s with m := s.m + 1, gen := upd s.gen s.m g, rhs := upd s.rhs s.m e } s.m e
  exact ⟨S, h⟩

/-- What no replacement changes. -/
structure Same (t n : Nat) (s s' : St) : Prop where
  num : s'.n = s.n
  width : s'.width = s.width
  signed : s'.signed = s.signed
  cats : s'.cats = s.cats
  gen : s'.gen = s.gen
  kind : ∀ x, Steps t n (s.kind x) (s'.kind x)

theorem Same.refl (t n : Nat) (s : St) : Same t n s s := ⟨rfl, rfl, rfl, rfl, rfl, fun _ => .refl⟩

theorem Same.trans {t n s s' s''} (h : Same t n s s') (h2 : Same t n s' s'') : Same t n s s'' :=
  ⟨h2.num.trans h.num, h2.width.trans h.width, h2.signed.trans h.signed, h2.cats.trans h.cats, h2.gen.trans h.gen,
    fun x => (h.kind x).trans (h2.kind x)⟩

theorem change_same (t n f : Nat) (s : St) (e : Nat) : Same t n s (change t n f s e) := by
  have hk := change_steps t n f s e
  obtain ⟨K, h⟩ := change_frame t n f s e
  rw [h] at hk ⊢
  exact ⟨rfl, rfl, rfl, rfl, rfl, hk⟩

theorem setRight_same {t n s k s'} (h : setRight t n s k = .ok s') : Same t n s s' := by
  unfold setRight at h
  split at h
  · cases h
    exact change_same ..
  · split at h
    · cases h
      exact ⟨rfl, rfl, rfl, rfl, rfl, fun _ => .refl⟩
    · cases h

theorem pushSink_same (t n : Nat) (s : St) (v k : Nat) : Same t n s (pushSink s v k) :=
  ⟨rfl, rfl, rfl, rfl, rfl, fun _ => .refl⟩

theorem moveAll_same {t n g} (ks : List Nat) : ∀ {s s'}, moveAll t n g s ks = .ok s' → Same t n s s' := by
  induction ks with
  | nil => intro s s' h; cases h; exact Same.refl ..
  | cons k ks ih =>
    intro s s' h
    rw [moveAll] at h
    split at h
    · exact ih h
    · rw [Res.bind_eq_ok] at h
      obtain ⟨s1, h1, h⟩ := h
      exact ((setRight_same h1).trans (pushSink_same ..)).trans (ih h)

theorem move_cases {s t n g s'} (h : move s t n g = .ok s') : isExpr s t = false ∧ isExpr s n = false ∧
    ∃ s1, moveAll t n g s (s.sinks t) = .ok s1 ∧ s' = { s1 with sinks := upd s1.sinks t [] } := by
  unfold move at h
  split at h
  · cases h
  · split at h
    · cases h
    · rw [Res.bind_eq_ok] at h
      obtain ⟨s1, h1, h⟩ := h
      cases h
      rename_i a b
      exact ⟨by simpa using a, by simpa using b, s1, h1, rfl⟩

theorem move_same {s t n g s'} (h : move s t n g = .ok s') : Same t n s s' := by
  obtain ⟨_, _, s1, h1, rfl⟩ := move_cases h
  have := moveAll_same _ h1
  exact ⟨this.num, this.width, this.signed, this.cats, this.gen, this.kind⟩

theorem Steps.var {t n k} (h : Steps t n .var k) : k = .var := by
  induction h with
  | refl => rfl
  | step _ ih => rw [ih]; rfl

theorem Steps.cat {t n l r vs k} (h : Steps t n (.cat l r vs) k) : ∃ l' r' vs', k = .cat l' r' vs' := by
  induction h with
  | refl => exact ⟨_, _, _, rfl⟩
  | step _ ih => obtain ⟨l', r', vs', rfl⟩ := ih; exact ⟨_, _, _, rfl⟩

theorem Steps.bin {t n o l r k} (h : Steps t n (.bin o l r) k) : ∃ l' r', k = .bin o l' r' := by
  induction h with
  | refl => exact ⟨_, _, rfl⟩
  | step _ ih => obtain ⟨l', r', rfl⟩ := ih; exact ⟨_, _, rfl⟩

theorem Steps.head {t n a l r xs k} (ha : a ≠ t) (h : Steps t n (.cat l r (a :: xs)) k) :
    ∃ l' r' xs', k = .cat l' r' (a :: xs') := by
  induction h with
  | refl => exact ⟨_, _, _, rfl⟩
  | step _ ih =>
    obtain ⟨l', r', xs', rfl⟩ := ih
    exact ⟨_, _, _, by simp only [Kind.change, replaceVar, ha, if_false]; rfl⟩

/-- The objects made are below `n`. -/
structure Bound (s : St) : Prop where
  bin : ∀ e o l r, e < s.n → s.kind e = .bin o l r → l < s.n ∧ r < s.n
  cat : ∀ e l r vs, e < s.n → s.kind e = .cat l r vs → l < s.n ∧ r < s.n ∧ vs ≠ [] ∧ ∀ v ∈ vs, v < s.n
  cats : ∀ a c, c ∈ s.cats a → c < s.n

theorem mem_replaceVar {t n x : Nat} {vs : List Nat} (h : x ∈ replaceVar t n vs) : x ∈ vs ∨ x = n := by
  induction vs with
  | nil => cases h
  | cons v vs ih =>
    rw [replaceVar] at h
    split at h
    · rcases List.mem_cons.1 h with rfl | h
      · exact .inr rfl
      · exact .inl (List.mem_cons_of_mem _ h)
    · rcases List.mem_cons.1 h with rfl | h
      · exact .inl (List.mem_cons_self ..)
      · exact (ih h).imp (List.mem_cons_of_mem _) id

theorem replaceVar_ne_nil {t n : Nat} {vs : List Nat} (h : vs ≠ []) : replaceVar t n vs ≠ [] := by
  cases vs with
  | nil => exact absurd rfl h
  | cons v vs => rw [replaceVar]; split <;> simp

theorem sub_or (t n x : Nat) : sub t n x = x ∨ sub t n x = n := by
  unfold sub; split <;> simp

/-- The operands after some replacements are the old ones or the new variable. -/
theorem Steps.bin_ops {t n o l r k} (h : Steps t n (.bin o l r) k) :
    ∃ l' r', k = .bin o l' r' ∧ (l' = l ∨ l' = n) ∧ (r' = r ∨ r' = n) := by
  induction h with
  | refl => exact ⟨_, _, rfl, .inl rfl, .inl rfl⟩
  | step _ ih =>
    obtain ⟨l', r', rfl, hl, hr⟩ := ih
    refine ⟨_, _, rfl, ?_, ?_⟩
    · rcases sub_or t n l' with h | h <;> rw [h]
      · exact hl
      · exact .inr rfl
    · rcases sub_or t n r' with h | h <;> rw [h]
      · exact hr
      · exact .inr rfl

theorem Steps.cat_ops {t n l r vs k} (h : Steps t n (.cat l r vs) k) :
    ∃ l' r' vs', k = .cat l' r' vs' ∧ (l' = l ∨ l' = n) ∧ (r' = r ∨ r' = n) ∧ (∀ v ∈ vs', v ∈ vs ∨ v = n) ∧
      (vs ≠ [] → vs' ≠ []) := by
  induction h with
  | refl => exact ⟨_, _, _, rfl, .inl rfl, .inl rfl, fun v h => .inl h, id⟩
  | step _ ih =>
    obtain ⟨l', r', vs', rfl, hl, hr, hv, hn⟩ := ih
    refine ⟨_, _, _, rfl, ?_, ?_, ?_, ?_⟩
    · rcases sub_or t n l' with h | h <;> rw [h]
      · exact hl
      · exact .inr rfl
    · rcases sub_or t n r' with h | h <;> rw [h]
      · exact hr
      · exact .inr rfl
    · intro v hm
      rcases mem_replaceVar hm with h | h
      · exact hv v h
      · exact .inr h
    · exact fun h => replaceVar_ne_nil (hn h)

theorem kind_back {t n : Nat} {s s' : St} (h : Same t n s s') {x} :
    (s'.kind x = .var → s.kind x = .var) ∧
    (∀ o l r, s'.kind x = .bin o l r → ∃ l0 r0, s.kind x = .bin o l0 r0 ∧ (l = l0 ∨ l = n) ∧ (r = r0 ∨ r = n)) ∧
    (∀ l r vs, s'.kind x = .cat l r vs → ∃ l0 r0 vs0, s.kind x = .cat l0 r0 vs0 ∧ (l = l0 ∨ l = n) ∧ (r = r0 ∨ r = n) ∧
      (∀ v ∈ vs, v ∈ vs0 ∨ v = n) ∧ (vs0 ≠ [] → vs ≠ [])) := by
  have hk := h.kind x
  cases hs : s.kind x with
  | var =>
    rw [hs] at hk
    have := hk.var
    simp [this]
  | bin o l r =>
    rw [hs] at hk
    obtain ⟨l', r', e, hl, hr⟩ := hk.bin_ops
    rw [e]
    refine ⟨(nomatch ·), ?_, fun _ _ _ h => nomatch h⟩
    intro o1 l1 r1 h1
    cases h1
    exact ⟨l, r, rfl, hl, hr⟩
  | cat l r vs =>
    rw [hs] at hk
    obtain ⟨l', r', vs', e, hl, hr, hv, hn⟩ := hk.cat_ops
    rw [e]
    refine ⟨(nomatch ·), (fun _ _ _ h => nomatch h), ?_⟩
    intro l1 r1 vs1 h1
    cases h1
    exact ⟨l, r, vs, rfl, hl, hr, hv, hn⟩

theorem Bound.alloc {s k w g} (h : Bound s) (hb : ∀ o l r, k = .bin o l r → l < s.n ∧ r < s.n)
    (hc : ∀ l r vs, k = .cat l r vs → l < s.n ∧ r < s.n ∧ vs ≠ [] ∧ ∀ v ∈ vs, v < s.n) : Bound (alloc s k w g) := by
  refine ⟨?_, ?_, ?_⟩
  · intro e o l r he hk
    have he : e < s.n + 1 := he
    show l < s.n + 1 ∧ r < s.n + 1
    by_cases hx : e = s.n
    · subst hx
      obtain ⟨a, b⟩ := hb o l r (by simpa [Shared.alloc] using hk)
      omega
    · obtain ⟨a, b⟩ := h.bin e o l r (by omega) (by simpa [Shared.alloc, upd_ne _ _ hx] using hk)
      omega
  · intro e l r vs he hk
    have he : e < s.n + 1 := he
    show l < s.n + 1 ∧ r < s.n + 1 ∧ vs ≠ [] ∧ ∀ v ∈ vs, v < s.n + 1
    by_cases hx : e = s.n
    · subst hx
      obtain ⟨a, b, c, d⟩ := hc l r vs (by simpa [Shared.alloc] using hk)
      exact ⟨by omega, by omega, c, fun v hv => by have := d v hv; omega⟩
    · obtain ⟨a, b, c, d⟩ := h.cat e l r vs (by omega) (by simpa [Shared.alloc, upd_ne _ _ hx] using hk)
      exact ⟨by omega, by omega, c, fun v hv => by have := d v hv; omega⟩
  · intro a c hc
    have := h.cats a c hc
    show c < s.n + 1
    omega

theorem Bound.keep {s a c} (h : Bound s) (hc : c < s.n) : Bound (keep s a c) := by
  refine ⟨h.bin, h.cat, ?_⟩
  intro x y hy
  show y < s.n
  by_cases hx : x = a
  · subst hx
    simp only [Shared.keep, upd_same, List.mem_append, List.mem_singleton] at hy
    rcases hy with hy | rfl
    · exact h.cats _ _ hy
    · exact hc
  · simp only [Shared.keep, upd_ne _ _ hx] at hy
    exact h.cats _ _ hy

/-- The two ways `concat` returns. -/
theorem concat_cases {s a b s' c} (h : concat s a b = .ok (s', c)) :
    (∃ l r x xs, s.kind a = .cat l r (x :: xs) ∧ c = s.n ∧ s.signed a = s.signed b ∧
      s' = keep (alloc s (.cat a b (x :: xs ++ [b])) (s.width a + s.width b) (s.signed a)) x s.n) ∨
    ((∀ l r vs, s.kind a ≠ .cat l r vs) ∧ (s.cats a).find? (hit s b) = some c ∧ s' = s) ∨
    ((∀ l r vs, s.kind a ≠ .cat l r vs) ∧ (s.cats a).find? (hit s b) = none ∧ c = s.n ∧ s.signed a = s.signed b ∧
      s' = keep (alloc s (.cat a b [a, b]) (s.width a + s.width b) (s.signed a)) a s.n) := by
  unfold concat at h
  split at h
  · rename_i l r vs hk
    split at h
    · cases h
    · rename_i hs
      split at h
      · cases h
      · rename_i x xs
        cases h
        exact .inl ⟨l, r, x, xs, hk, rfl, Classical.not_not.1 hs, rfl⟩
  · rename_i hk
    split at h
    · rename_i c' hc
      cases h
      exact .inr (.inl ⟨fun l r vs => hk l r vs, hc, rfl⟩)
    · rename_i hc
      split at h
      · cases h
      · rename_i hs
        cases h
        exact .inr (.inr ⟨fun l r vs => hk l r vs, hc, rfl, Classical.not_not.1 hs, rfl⟩)

theorem Bound.concat {s a b s' c} (h : Bound s) (ha : a < s.n) (hb : b < s.n) (hc : concat s a b = .ok (s', c)) :
    Bound s' := by
  rcases concat_cases hc with ⟨l, r, x, xs, hk, rfl, _, rfl⟩ | ⟨_, _, rfl⟩ | ⟨_, _, rfl, _, rfl⟩
  · refine (h.alloc (by intro _ _ _ e; cases e) ?_).keep (Nat.lt_succ_self s.n)
    intro l1 r1 vs1 e
    cases e
    obtain ⟨_, _, _, hv⟩ := h.cat a _ _ _ ha hk
    refine ⟨ha, hb, by simp, ?_⟩
    intro v hm
    rcases List.mem_append.1 hm with hm | hm
    · exact hv v hm
    · rw [List.mem_singleton.1 hm]; exact hb
  · exact h
  · refine (h.alloc (by intro _ _ _ e; cases e) ?_).keep (Nat.lt_succ_self s.n)
    intro l1 r1 vs1 e
    cases e
    refine ⟨ha, hb, by simp, ?_⟩
    intro v hm
    simp only [List.mem_cons, List.not_mem_nil, or_false] at hm
    rcases hm with rfl | rfl
    · exact ha
    · exact hb

theorem Bound.same {t n s s'} (h : Bound s) (hs : Same t n s s') (hn : n < s.n) : Bound s' := by
  refine ⟨?_, ?_, ?_⟩
  · intro e o l r he hk
    rw [hs.num] at he ⊢
    obtain ⟨l0, r0, h0, hl, hr⟩ := (kind_back hs).2.1 o l r hk
    obtain ⟨a, b⟩ := h.bin e o l0 r0 he h0
    rcases hl with rfl | rfl <;> rcases hr with rfl | rfl <;> constructor <;> assumption
  · intro e l r vs he hk
    rw [hs.num] at he ⊢
    obtain ⟨l0, r0, vs0, h0, hl, hr, hv, hne⟩ := (kind_back hs).2.2 l r vs hk
    obtain ⟨a, b, c, d⟩ := h.cat e l0 r0 vs0 he h0
    refine ⟨?_, ?_, hne c, ?_⟩
    · rcases hl with rfl | rfl <;> assumption
    · rcases hr with rfl | rfl <;> assumption
    · intro v hm
      rcases hv v hm with h | rfl
      · exact d v h
      · exact hn
  · intro a c hc
    rw [hs.cats] at hc
    rw [hs.num]
    exact h.cats a c hc

theorem Bound.step {s o s'} (h : Bound s) (hs : step s o = .ok s') : Bound s' := by
  cases o with
  | var w g =>
    cases hs
    exact h.alloc (fun _ _ _ e => nomatch e) (fun _ _ _ e => nomatch e)
  | bin o a b =>
    simp only [Shared.step] at hs
    split at hs
    · rename_i hab
      rw [Res.bind_eq_ok] at hs
      obtain ⟨p, hp, hs⟩ := hs
      unfold binop at hp
      split at hp
      · cases hp
      · cases hp; cases hs
        refine h.alloc ?_ (fun _ _ _ e => nomatch e)
        intro o1 l1 r1 e
        cases e
        exact hab
    · cases hs
  | concat a b =>
    simp only [Shared.step] at hs
    split at hs
    · rename_i hab
      rw [Res.bind_eq_ok] at hs
      obtain ⟨p, hp, hs⟩ := hs
      cases hs
      exact h.concat hab.1 hab.2 hp
    · cases hs
  | read g e =>
    simp only [Shared.step] at hs
    split at hs
    · cases hs
      obtain ⟨S, hS⟩ := read_frame s g e
      rw [hS]
      exact ⟨h.bin, h.cat, h.cats⟩
    · cases hs
  | move t n g =>
    simp only [Shared.step] at hs
    split at hs
    · rename_i hab
      exact h.same (move_same hs) hab.2
    · cases hs

theorem reach_bound {P s} (h : Reach P s) : Bound s := by
  induction h with
  | init => exact ⟨fun _ _ _ _ h => absurd h (Nat.not_lt_zero _), fun _ _ _ _ h => absurd h (Nat.not_lt_zero _),
      fun _ _ h => nomatch h⟩
  | step _ _ hs ih => exact ih.step hs

theorem reach_list {P : St → Op → Prop} {ops s s'} (h : Reach P s) (hP : ∀ s, ∀ o ∈ ops, P s o) (hr : run s ops = .ok s') :
    Reach P s' := by
  induction ops generalizing s with
  | nil => cases hr; exact h
  | cons o os ih =>
    rw [run, Res.bind_eq_ok] at hr
    obtain ⟨s1, h1, hr⟩ := hr
    exact ih (.step h (hP s o (List.mem_cons_self ..)) h1) (fun s x hx => hP s x (List.mem_cons_of_mem _ hx)) hr

theorem reach_run {P : St → Op → Prop} (hP : ∀ s o, P s o) {ops s s'} (h : Reach P s) (hr : run s ops = .ok s') :
    Reach P s' := by
  induction ops generalizing s with
  | nil => cases hr; exact h
  | cons o os ih =>
    rw [run, Res.bind_eq_ok] at hr
    obtain ⟨s1, h1, hr⟩ := hr
    exact ih (.step h (hP s o) h1) hr

/-- The concatenations kept by `a` begin with `a`. -/
def Heads (a : Nat) (s : St) : Prop := ∀ c ∈ s.cats a, ∃ l r xs, s.kind c = .cat l r (a :: xs)

theorem Heads.alloc {a s k w g} (h : Heads a s) (hb : Bound s) : Heads a (alloc s k w g) := by
  intro c hc
  have hlt := hb.cats a c hc
  obtain ⟨l, r, xs, hk⟩ := h c hc
  exact ⟨l, r, xs, by simp only [Shared.alloc]; rw [upd_ne _ _ (by omega)]; exact hk⟩

theorem Heads.keep {a s x c} (h : Heads a s) (hx : x = a → ∃ l r xs, s.kind c = .cat l r (a :: xs)) :
    Heads a (keep s x c) := by
  intro y hy
  show ∃ l r xs, s.kind y = .cat l r (a :: xs)
  by_cases hax : a = x
  · subst hax
    simp only [Shared.keep, upd_same, List.mem_append, List.mem_singleton] at hy
    rcases hy with hy | rfl
    · exact h y hy
    · exact hx rfl
  · simp only [Shared.keep, upd_ne _ _ hax] at hy
    exact h y hy

theorem Heads.step {a s o s'} (h : Heads a s) (hb : Bound s) (ho : ∀ n g, o ≠ .move a n g) (hs : step s o = .ok s') :
    Heads a s' := by
  cases o with
  | var w g => cases hs; exact h.alloc hb
  | bin o x y =>
    simp only [Shared.step] at hs
    split at hs
    · rw [Res.bind_eq_ok] at hs
      obtain ⟨p, hp, hs⟩ := hs
      unfold binop at hp
      split at hp
      · cases hp
      · cases hp; cases hs; exact h.alloc hb
    · cases hs
  | concat x y =>
    simp only [Shared.step] at hs
    split at hs
    · rw [Res.bind_eq_ok] at hs
      obtain ⟨p, hp, hs⟩ := hs
      cases hs
      rcases concat_cases hp with ⟨l, r, z, zs, hk, _, _, e⟩ | ⟨_, _, e⟩ | ⟨_, _, _, _, e⟩
      · rw [e]
        refine (h.alloc hb).keep ?_
        rintro rfl
        exact ⟨_, _, _, by simp only [Shared.alloc, upd_same]; rfl⟩
      · rw [e]; exact h
      · rw [e]
        refine (h.alloc hb).keep ?_
        rintro rfl
        exact ⟨_, _, _, by simp only [Shared.alloc, upd_same]; rfl⟩
    · cases hs
  | read g e =>
    simp only [Shared.step] at hs
    split at hs
    · cases hs
      obtain ⟨S, hS⟩ := read_frame s g e
      rw [hS]
      exact h
    · cases hs
  | move t n g =>
    simp only [Shared.step] at hs
    split at hs
    · have hm := move_same hs
      intro c hc
      rw [hm.cats] at hc
      obtain ⟨l, r, xs, hk⟩ := h c hc
      have hst := hm.kind c
      rw [hk] at hst
      exact hst.head (fun e => ho n g (by rw [e]))
    · cases hs

/-- No call moves the readers of `a`. -/
def NotMoved (a : Nat) (_ : St) (o : Op) : Prop := ∀ n g, o ≠ .move a n g

theorem reach_heads {a s} (h : Reach (NotMoved a) s) : Heads a s := by
  induction h with
  | init => exact fun _ h => nomatch h
  | step hr ho hs ih => exact ih.step (reach_bound hr) ho hs

theorem hit_spec {s b c} (h : hit s b c = true) : ∃ l r x, s.kind c = .cat l r [x, b] := by
  unfold hit at h
  split at h
  · rename_i l r x y hk
    exact ⟨l, r, x, by rw [hk, (by simpa using h : y = b)]⟩
  · cases h

/-- The elements `concat` gives its result. -/
theorem concat_elements {a b s s' c} (hr : Reach (NotMoved a) s) (h : concat s a b = .ok (s', c)) :
    (∃ l r l0 r0 vs, s.kind a = .cat l0 r0 vs ∧ s'.kind c = .cat l r (vs ++ [b])) ∨
    ((∀ l r vs, s.kind a ≠ .cat l r vs) ∧ ∃ l r, s'.kind c = .cat l r [a, b]) := by
  rcases concat_cases h with ⟨l, r, x, xs, hk, rfl, _, rfl⟩ | ⟨hk, hf, rfl⟩ | ⟨hk, _, rfl, _, rfl⟩
  · exact .inl ⟨a, b, l, r, _, hk, by simp [keep, alloc]⟩
  · refine .inr ⟨hk, ?_⟩
    obtain ⟨l, r, xs, hc⟩ := reach_heads hr c (List.mem_of_find?_eq_some hf)
    obtain ⟨l2, r2, x, hc2⟩ := hit_spec (List.find?_some hf)
    rw [hc] at hc2
    cases hc2
    exact ⟨_, _, hc⟩
  · exact .inr ⟨hk, a, b, by simp [keep, alloc]⟩

/-- `concat` changes no object that was there. -/
theorem concat_keeps {a b s s' c} (h : concat s a b = .ok (s', c)) (x : Nat) (hx : x < s.n) : s'.kind x = s.kind x := by
  rcases concat_cases h with ⟨l, r, y, ys, hk, rfl, _, rfl⟩ | ⟨hk, hf, rfl⟩ | ⟨hk, _, rfl, _, rfl⟩
  · simp only [keep, alloc]; rw [upd_ne _ _ (by omega)]
  · rfl
  · simp only [keep, alloc]; rw [upd_ne _ _ (by omega)]

theorem within_lt {s e x} (hb : Bound s) (h : Within s e x) (he : e < s.n) : x < s.n := by
  induction h with
  | self => exact he
  | binL hk _ ih => exact ih (hb.bin _ _ _ _ he hk).1
  | binR hk _ ih => exact ih (hb.bin _ _ _ _ he hk).2
  | catL hk _ ih => exact ih (hb.cat _ _ _ _ he hk).1
  | catR hk _ ih => exact ih (hb.cat _ _ _ _ he hk).2.1
  | catV hk hv _ ih => exact ih ((hb.cat _ _ _ _ he hk).2.2.2 _ hv)

mutual
theorem writes_same {s s' : St} {e : Nat} {t : Text} (h : Writes s e t) (hs : ∀ x, Within s e x → s'.kind x = s.kind x) :
    Writes s' e t := by
  cases h with
  | var hk => exact .var (by rw [hs e (.self e)]; exact hk)
  | bin hk hl hr =>
    exact .bin (by rw [hs e (.self e)]; exact hk) (writes_same hl fun x hx => hs x (.binL hk hx))
      (writes_same hr fun x hx => hs x (.binR hk hx))
  | cat hk hv =>
    exact .cat (by rw [hs e (.self e)]; exact hk) (writesAll_same hv fun v hm x hx => hs x (.catV hk hm hx))
theorem writesAll_same {s s' : St} {es : List Nat} {ts : List Text} (h : WritesAll s es ts)
    (hs : ∀ v ∈ es, ∀ x, Within s v x → s'.kind x = s.kind x) : WritesAll s' es ts := by
  cases h with
  | nil => exact .nil
  | cons h1 h2 =>
    exact .cons (writes_same h1 (hs _ (List.mem_cons_self ..)))
      (writesAll_same h2 fun v hm => hs v (List.mem_cons_of_mem _ hm))
end

theorem WritesAll.snoc {s : St} : ∀ {es : List Nat} {ts : List Text} {e t}, WritesAll s es ts → Writes s e t →
    WritesAll s (es ++ [e]) (ts ++ [t])
  | [], _, _, _, .nil, h => .cons h .nil
  | _ :: _, _, _, _, .cons h1 h2, h => .cons h1 (h2.snoc h)

/-! ### Properties -/

/-- C123: after every history in which the readers of `a` were not moved, `concat(a, b)` is written with `a` and then `b` in braces; a
concatenation is continued; everything written before is written as before. -/
theorem concat_partial {a b s s' c ta tb} (hr : Reach (NotMoved a) s) (ha : a < s.n) (hb : b < s.n)
    (h : concat s a b = .ok (s', c)) (hta : Writes s a ta) (htb : Writes s b tb) :
    ((∀ l r vs, s.kind a ≠ .cat l r vs) → Writes s' c (.braces [ta, tb])) ∧
    (∀ ts, ta = .braces ts → Writes s' c (.braces (ts ++ [tb]))) ∧
    (∀ e t, e < s.n → Writes s e t → Writes s' e t) := by
  have bd := reach_bound hr
  have keepW : ∀ e t, e < s.n → Writes s e t → Writes s' e t := fun e t he hw =>
    writes_same hw fun x hx => concat_keeps h x (within_lt bd hx he)
  refine ⟨?_, ?_, keepW⟩
  · intro hk
    rcases concat_elements hr h with ⟨_, _, l0, r0, vs, h0, _⟩ | ⟨_, l, r, hc⟩
    · exact absurd h0 (hk _ _ _)
    · exact .cat hc (.cons (keepW a ta ha hta) (.cons (keepW b tb hb htb) .nil))
  · rintro ts rfl
    cases hta with
    | cat hk hv =>
      rename_i l0 r0 vs
      rcases concat_elements hr h with ⟨l, r, l1, r1, vs1, h0, hc⟩ | ⟨hn, _⟩
      · rw [hk] at h0
        cases h0
        refine .cat hc (WritesAll.snoc ?_ (keepW b tb hb htb))
        exact writesAll_same hv fun v hm x hx =>
          concat_keeps h x (within_lt bd hx ((bd.cat a _ _ _ ha hk).2.2.2 v hm))
      · exact absurd hk (hn _ _ _)

/-! #### Moving readers elsewhere -/

theorem isExpr_same {t n : Nat} {s s' : St} (h : Same t n s s') (x : Nat) : isExpr s' x = isExpr s x := by
  have hk := h.kind x
  unfold isExpr
  cases hs : s.kind x with
  | var => rw [hs] at hk; rw [hk.var]
  | bin o l r => rw [hs] at hk; obtain ⟨_, _, e⟩ := hk.bin; rw [e]
  | cat l r vs => rw [hs] at hk; obtain ⟨_, _, _, e⟩ := hk.cat; rw [e]

theorem isExpr_var {s : St} {x} (h : isExpr s x = false) : s.kind x = .var := by
  unfold isExpr at h
  split at h
  · assumption
  · cases h

theorem within_var {s : St} {e x} (h : Within s e x) (he : s.kind e = .var) : x = e := by
  cases h with
  | self => rfl
  | binL hk _ => rw [he] at hk; cases hk
  | binR hk _ => rw [he] at hk; cases hk
  | catL hk _ => rw [he] at hk; cases hk
  | catR hk _ => rw [he] at hk; cases hk
  | catV hk _ _ => rw [he] at hk; cases hk

/-- Replacements put no expression into another one. -/
theorem within_back {t n : Nat} {s s' : St} (h : Same t n s s') (hn : isExpr s n = false) {e x} (hw : Within s' e x)
    (hx : isExpr s x = true) : Within s e x := by
  have viaN : ∀ {y}, Within s' y x → y = n → False := by
    intro y hy e
    subst e
    have := within_var hy (isExpr_var (by rw [isExpr_same h]; exact hn))
    subst this
    rw [hn] at hx
    cases hx
  induction hw with
  | self => exact .self _
  | binL hk hw ih =>
    obtain ⟨l0, r0, h0, hl, hr⟩ := (kind_back h).2.1 _ _ _ hk
    rcases hl with rfl | e
    · exact .binL h0 (ih hx viaN)
    · exact (viaN hw e).elim
  | binR hk hw ih =>
    obtain ⟨l0, r0, h0, hl, hr⟩ := (kind_back h).2.1 _ _ _ hk
    rcases hr with rfl | e
    · exact .binR h0 (ih hx viaN)
    · exact (viaN hw e).elim
  | catL hk hw ih =>
    obtain ⟨l0, r0, vs0, h0, hl, hr, hv, _⟩ := (kind_back h).2.2 _ _ _ hk
    rcases hl with rfl | e
    · exact .catL h0 (ih hx viaN)
    · exact (viaN hw e).elim
  | catR hk hw ih =>
    obtain ⟨l0, r0, vs0, h0, hl, hr, hv, _⟩ := (kind_back h).2.2 _ _ _ hk
    rcases hr with rfl | e
    · exact .catR h0 (ih hx viaN)
    · exact (viaN hw e).elim
  | catV hk hm hw ih =>
    obtain ⟨l0, r0, vs0, h0, hl, hr, hv, _⟩ := (kind_back h).2.2 _ _ _ hk
    rcases hv _ hm with hm0 | e
    · exact .catV h0 hm0 (ih hx viaN)
    · exact (viaN hw e).elim

/-- What `change_var_expr` changes is part of the expression. -/
theorem change_touches {t n : Nat} (f : Nat) : ∀ {s : St} {e x}, isExpr s n = false →
    (change t n f s e).kind x ≠ s.kind x → isExpr s x = true ∧ Within s e x := by
  induction f with
  | zero => intro s e x _ h; exact absurd rfl h
  | succ f ih =>
    intro s e x hn h
    have two : ∀ l r, (∀ y, Within s l y → Within s e y) → (∀ y, Within s r y → Within s e y) → isExpr s e = true →
        (let s1 := if isExpr s l then change t n f s l else s
         let s2 := if isExpr s1 r then change t n f s1 r else s1
         ({ s2 with kind := upd s2.kind e ((s2.kind e).change t n) } : St)).kind x ≠ s.kind x →
        isExpr s x = true ∧ Within s e x := by
      intro l r hl hr he hx
      dsimp only at hx
      by_cases hxe : x = e
      · subst hxe; exact ⟨he, .self _⟩
      · rw [upd_ne _ _ hxe] at hx
        have same1 : Same t n s (if isExpr s l then change t n f s l else s) := by
          split
          · exact change_same ..
          · exact Same.refl ..
        by_cases h1 : (if isExpr s l then change t n f s l else s).kind x = s.kind x
        · generalize (if isExpr s l then change t n f s l else s) = s1 at *
          by_cases hre : isExpr s1 r
          · rw [if_pos hre, ← h1] at hx
            obtain ⟨a, b⟩ := ih (by rw [isExpr_same same1]; exact hn) hx
            rw [isExpr_same same1] at a
            exact ⟨a, hr x (within_back same1 hn b a)⟩
          · rw [if_neg hre] at hx
            exact absurd h1 hx
        · by_cases hle : isExpr s l
          · rw [if_pos hle] at h1
            obtain ⟨a, b⟩ := ih hn h1
            exact ⟨a, hl x b⟩
          · rw [if_neg hle] at h1
            exact absurd rfl h1
    rw [change] at h
    split at h
    · exact absurd rfl h
    · rename_i hk
      exact two _ _ (fun y hy => .binL hk hy) (fun y hy => .binR hk hy) (by simp [isExpr, hk]) h
    · rename_i hk
      exact two _ _ (fun y hy => .catL hk hy) (fun y hy => .catR hk hy) (by simp [isExpr, hk]) h

/-- Only statements of the generator get a new right-hand side, and it is the new variable. -/
theorem moveAll_rhs {t n g} (ks : List Nat) : ∀ {s s'}, moveAll t n g s ks = .ok s' → ∀ k,
    s'.rhs k = s.rhs k ∨ (s.gen k = g ∧ isExpr s (s.rhs k) = false ∧ s'.rhs k = n) := by
  induction ks with
  | nil => intro s s' h k; cases h; exact .inl rfl
  | cons j ks ih =>
    intro s s' h k
    rw [moveAll] at h
    split at h
    · exact ih h k
    · rename_i hg
      rw [Res.bind_eq_ok] at h
      obtain ⟨s1, h1, h⟩ := h
      have sm := setRight_same h1
      have hk := ih h k
      have hg1 : (pushSink s1 n j).gen = s.gen := sm.gen
      have hr1 : (pushSink s1 n j).rhs = s1.rhs := rfl
      have he1 : ∀ x, isExpr (pushSink s1 n j) x = isExpr s x := fun x => isExpr_same (sm.trans (pushSink_same ..)) x
      rw [hg1, hr1, he1] at hk
      unfold setRight at h1
      split at h1
      · cases h1
        obtain ⟨K, hK⟩ := change_frame t n (s.n + 1) s (s.rhs j)
        rw [hK] at hk
        exact hk
      · rename_i hne
        split at h1
        · rename_i ht
          cases h1
          by_cases hkj : k = j
          · subst hkj
            right
            refine ⟨Classical.not_not.1 hg, by simpa using hne, ?_⟩
            rcases hk with hk | hk
            · rw [hk]; simp
            · exact hk.2.2
          · simpa [upd_ne _ _ hkj] using hk
        · cases h1

theorem moveAll_touches {t n g} (ks : List Nat) : ∀ {s s'}, isExpr s n = false → moveAll t n g s ks = .ok s' → ∀ x,
    s'.kind x ≠ s.kind x → isExpr s x = true ∧ ∃ k ∈ ks, s.gen k = g ∧ Within s (s.rhs k) x := by
  induction ks with
  | nil => intro s s' _ h x hx; cases h; exact absurd rfl hx
  | cons j ks ih =>
    intro s s' hn h x hx
    rw [moveAll] at h
    split at h
    · obtain ⟨a, k, hk, b⟩ := ih hn h x hx
      exact ⟨a, k, List.mem_cons_of_mem _ hk, b⟩
    · rename_i hg
      rw [Res.bind_eq_ok] at h
      obtain ⟨s1, h1, h⟩ := h
      have sm : Same t n s (pushSink s1 n j) := (setRight_same h1).trans (pushSink_same ..)
      by_cases hx1 : (pushSink s1 n j).kind x = s.kind x
      · rw [← hx1] at hx
        obtain ⟨a, k, hk, b, c⟩ := ih (by rw [isExpr_same sm]; exact hn) h x hx
        rw [isExpr_same sm] at a
        rw [sm.gen] at b
        have c := within_back sm hn c a
        refine ⟨a, k, List.mem_cons_of_mem _ hk, b, ?_⟩
        have hr : (pushSink s1 n j).rhs k = s.rhs k ∨ ((pushSink s1 n j).rhs k = n) := by
          have := moveAll_rhs (t := t) (n := n) (g := g) [j] (s := s) (s' := pushSink s1 n j)
            (by rw [moveAll, if_neg hg, h1]; rfl) k
          rcases this with h | h
          · exact .inl h
          · exact .inr h.2.2
        rcases hr with hr | hr
        · rw [hr] at c; exact c
        · rw [hr] at c
          have := within_var c (isExpr_var hn)
          subst this
          rw [hn] at a
          cases a
      · have hx1 : s1.kind x ≠ s.kind x := hx1
        unfold setRight at h1
        split at h1
        · cases h1
          obtain ⟨a, b⟩ := change_touches _ hn hx1
          exact ⟨a, j, List.mem_cons_self .., Classical.not_not.1 hg, b⟩
        · split at h1
          · cases h1; exact absurd rfl hx1
          · cases h1

/-- C123: moving the readers of a variable in generator `g` leaves a statement of another generator as it is written, if it shares no
expression object with the statements of `g` that read the variable. -/
theorem others_keep_partial {s t n g s' k x} (h : move s t n g = .ok s') (hk : s.gen k ≠ g)
    (hs : ∀ j ∈ s.sinks t, s.gen j = g → ∀ y, isExpr s y = true → Within s (s.rhs k) y → ¬ Within s (s.rhs j) y)
    (hw : Writes s (s.rhs k) x) : Writes s' (s'.rhs k) x := by
  obtain ⟨_, hn, s1, h1, rfl⟩ := move_cases h
  have hr : s1.rhs k = s.rhs k := by
    rcases moveAll_rhs _ h1 k with h | h
    · exact h
    · exact absurd h.1 hk
  show Writes { s1 with sinks := upd s1.sinks t [] } (s1.rhs k) x
  rw [hr]
  refine writes_same hw ?_
  intro y hy
  show s1.kind y = s.kind y
  refine Classical.byContradiction fun hne => ?_
  obtain ⟨a, j, hj, b, c⟩ := moveAll_touches _ hn h1 y hne
  exact hs j hj b y a hy c

/-! #### The object handed out again -/

def Kind.hits (b : Nat) : Kind → Bool
  | .cat _ _ [_, y] => y == b
  | _ => false

theorem hit_eq (s : St) (b c : Nat) : hit s b c = (s.kind c).hits b := by
  unfold hit Kind.hits
  split <;> simp_all

theorem hits_change {t n b : Nat} (ht : t ≠ b) (hn : n ≠ b) (k : Kind) : (k.change t n).hits b = k.hits b := by
  cases k with
  | var => rfl
  | bin => rfl
  | cat l r vs =>
    match vs with
    | [] => rfl
    | [x] =>
      simp only [Kind.change, replaceVar]
      split <;> rfl
    | [x, y] =>
      simp only [Kind.change, replaceVar]
      split
      · rfl
      · split
        · rename_i h
          subst h
          simp only [Kind.hits, beq_eq_false_iff_ne.2 ht, beq_eq_false_iff_ne.2 hn]
        · rfl
    | x :: y :: z :: zs =>
      simp only [Kind.change, replaceVar]
      split
      · rfl
      · split
        · rfl
        · split <;> rfl

theorem Steps.hits {t n b k k'} (ht : t ≠ b) (hn : n ≠ b) (h : Steps t n k k') : k'.hits b = k.hits b := by
  induction h with
  | refl => rfl
  | step _ ih => rw [hits_change ht hn, ih]

/-- A pair after some replacements. -/
theorem Steps.pair {t n l r b k} (htb : t ≠ b) (h : Steps t n (.cat l r [t, b]) k) :
    ∃ l' r', k = .cat l' r' [t, b] ∨ k = .cat l' r' [n, b] := by
  induction h with
  | refl => exact ⟨_, _, .inl rfl⟩
  | step _ ih =>
    obtain ⟨l', r', rfl | rfl⟩ := ih
    · exact ⟨_, _, .inr (by simp only [Kind.change, replaceVar, if_true]; rfl)⟩
    · by_cases hnt : n = t
      · exact ⟨_, _, .inr (by simp only [Kind.change, replaceVar, hnt, if_true]; rfl)⟩
      · exact ⟨_, _, .inr (by simp only [Kind.change, replaceVar, hnt, Ne.symm htb, if_false]; rfl)⟩

theorem Steps.done {t n l r b k} (htb : t ≠ b) (h : Steps t n (.cat l r [n, b]) k) : ∃ l' r', k = .cat l' r' [n, b] := by
  induction h with
  | refl => exact ⟨_, _, rfl⟩
  | step _ ih =>
    obtain ⟨l', r', rfl⟩ := ih
    by_cases hnt : n = t
    · exact ⟨_, _, by simp only [Kind.change, replaceVar, hnt, if_true]; rfl⟩
    · exact ⟨_, _, by simp only [Kind.change, replaceVar, hnt, Ne.symm htb, if_false]; rfl⟩

/-- `change_var_expr` on a pair. -/
theorem change_pair {t n b f s e l r} (htb : t ≠ b) (h : s.kind e = .cat l r [t, b] ∨ s.kind e = .cat l r [n, b]) :
    ∃ l' r', (change t n (f + 1) s e).kind e = .cat l' r' [n, b] := by
  have key : ∀ vs, s.kind e = .cat l r vs → ∃ k, Steps t n (s.kind e) k ∧ (change t n (f + 1) s e).kind e = k.change t n := by
    intro vs hk
    rw [change, hk]
    dsimp only
    have h1 : Steps t n (s.kind e) ((if isExpr s l then change t n f s l else s).kind e) := by
      split
      · exact change_steps ..
      · exact .refl
    generalize (if isExpr s l then change t n f s l else s) = s1 at *
    have h2 : Steps t n (s1.kind e) ((if isExpr s1 r then change t n f s1 r else s1).kind e) := by
      split
      · exact change_steps ..
      · exact .refl
    generalize (if isExpr s1 r then change t n f s1 r else s1) = s2 at *
    rw [hk] at h1
    exact ⟨_, h1.trans h2, by rw [upd_same]⟩
  have fin : ∀ k : Kind, (∃ l' r', k = .cat l' r' [t, b] ∨ k = .cat l' r' [n, b]) → ∃ l' r', k.change t n = .cat l' r' [n, b] := by
    rintro k ⟨l', r', rfl | rfl⟩
    · exact ⟨_, _, by simp only [Kind.change, replaceVar, if_true]; rfl⟩
    · exact Steps.done (l := l') (r := r') htb (.step .refl)
  rcases h with h | h
  · obtain ⟨k, hk, e1⟩ := key _ h
    rw [e1]
    rw [h] at hk
    exact fin k (hk.pair htb)
  · obtain ⟨k, hk, e1⟩ := key _ h
    rw [e1]
    rw [h] at hk
    obtain ⟨l', r', e2⟩ := hk.done htb
    exact fin k ⟨l', r', .inr e2⟩

theorem moveAll_pair {t n g b c k} (htb : t ≠ b) (ks : List Nat) : ∀ {s s'}, moveAll t n g s ks = .ok s' → k ∈ ks → s.gen k = g →
    s.rhs k = c → (∃ l r, s.kind c = .cat l r [t, b] ∨ s.kind c = .cat l r [n, b]) → ∃ l r, s'.kind c = .cat l r [n, b] := by
  induction ks with
  | nil => intro s s' _ hm; cases hm
  | cons j ks ih =>
    intro s s' h hm hg hr hk
    have hc : isExpr s c = true := by
      obtain ⟨l, r, hk | hk⟩ := hk <;> simp [isExpr, hk]
    rw [moveAll] at h
    split at h
    · rename_i hgj
      rcases List.mem_cons.1 hm with rfl | hm
      · exact absurd hg hgj
      · exact ih h hm hg hr hk
    · rename_i hgj
      rw [Res.bind_eq_ok] at h
      obtain ⟨s1, h1, h⟩ := h
      have sm : Same t n s (pushSink s1 n j) := (setRight_same h1).trans (pushSink_same ..)
      by_cases hkj : k = j
      · subst hkj
        unfold setRight at h1
        rw [hr, hc, if_pos rfl] at h1
        cases h1
        obtain ⟨l, r, hk⟩ := hk
        obtain ⟨l', r', hd⟩ := change_pair (f := s.n) htb hk
        have st := (moveAll_same ks h).kind c
        have : (pushSink (change t n (s.n + 1) s c) n k).kind c = .cat l' r' [n, b] := hd
        rw [this] at st
        exact st.done htb
      · have hm : k ∈ ks := (List.mem_cons.1 hm).resolve_left hkj
        refine ih h hm (by rw [sm.gen]; exact hg) ?_ ?_
        · have := moveAll_rhs (t := t) (n := n) (g := g) [j] (s := s) (s' := pushSink s1 n j)
            (by rw [moveAll, if_neg hgj, h1]; rfl) k
          rcases this with h | h
          · rw [h]; exact hr
          · rw [hr, hc] at h; exact absurd h.2.1 (by simp)
        · have st := sm.kind c
          obtain ⟨l, r, hk | hk⟩ := hk
          · rw [hk] at st; exact st.pair htb
          · rw [hk] at st
            obtain ⟨l', r', e⟩ := st.done htb
            exact ⟨l', r', .inr e⟩

theorem addSink_keeps {f : Nat} : ∀ {s k e v j}, j ∈ s.sinks v → j ∈ (addSink f s k e).sinks v := by
  induction f with
  | zero => exact fun h => h
  | succ f ih =>
    intro s k e v j h
    rw [addSink]
    split
    · show j ∈ upd s.sinks e _ v
      by_cases hv : v = e
      · subst hv
        rw [upd_same]
        split
        · exact h
        · exact List.mem_append_left _ h
      · rw [upd_ne _ _ hv]; exact h
    · exact ih (ih h)
    · rename_i vs _
      have : ∀ (vs : List Nat) (s : St), j ∈ s.sinks v → j ∈ (vs.foldl (fun s x => addSink f s k x) s).sinks v := by
        intro vs
        induction vs with
        | nil => exact fun s h => h
        | cons x vs ihv => exact fun s h => ihv _ (ih h)
      exact this vs s h

theorem read_sinks {s g c l r a b} (hc : s.kind c = .cat l r [a, b]) (ha : s.kind a = .var) (hn : c < s.n) :
    (read s g c).2 ∈ (read s g c).1.sinks a := by
  obtain ⟨p, hp⟩ : ∃ p, s.n = p + 1 := ⟨s.n - 1, by omega⟩
  unfold read
  dsimp only
  rw [hp, addSink]
  dsimp only
  rw [hc]
  dsimp only [List.foldl_cons, List.foldl_nil]
  refine addSink_keeps ?_
  rw [addSink]
  dsimp only
  rw [ha]
  dsimp only [pushSink]
  rw [upd_same]
  split
  · assumption
  · simp

/-- C123, what happens instead: a program that concatenates `a` and `b`, reads the result in `g` and then moves the readers of `a` to `n`
there, gets the same object the next time it concatenates `a` and `b`; it is written with `n` and `b`. -/
theorem stale {a b n g s s1 c s3 tb} (hr : Reach (NotMoved a) s) (ha : a < s.n) (hb : b < s.n) (hka : s.kind a = .var)
    (hab : a ≠ b) (hnb : n ≠ b) (hc : concat s a b = .ok (s1, c)) (hm : move (read s1 g c).1 a n g = .ok s3)
    (htb : Writes s3 b tb) : concat s3 a b = .ok (s3, c) ∧ Writes s3 c (.braces [.name n, tb]) := by
  have bd := reach_bound hr
  have bd1 : Bound s1 := bd.concat ha hb hc
  have hncat : ∀ l r vs, s.kind a ≠ .cat l r vs := by rw [hka]; exact fun _ _ _ h => nomatch h
  have hka1 : s1.kind a = .var := by rw [concat_keeps hc a ha]; exact hka
  obtain ⟨l, r, hk1⟩ : ∃ l r, s1.kind c = .cat l r [a, b] := by
    rcases concat_elements hr hc with ⟨_, _, _, _, _, h, _⟩ | ⟨_, h⟩
    · exact absurd h (hncat _ _ _)
    · exact h
  have hfind : (s1.cats a).find? (hit s1 b) = some c ∧ c < s1.n := by
    rcases concat_cases hc with ⟨_, _, _, _, h, _⟩ | ⟨_, hf, rfl⟩ | ⟨_, hf, rfl, _, e⟩
    · exact absurd h (hncat _ _ _)
    · exact ⟨hf, bd.cats a c (List.mem_of_find?_eq_some hf)⟩
    · have hcats : s1.cats a = s.cats a ++ [s.n] := by rw [e]; simp [keep, alloc]
      have hlt : s.n < s1.n := by rw [e]; exact Nat.lt_succ_self _
      refine ⟨?_, hlt⟩
      rw [hcats, List.find?_append]
      have hnone : (s.cats a).find? (hit s1 b) = none := by
        rw [List.find?_eq_none] at hf ⊢
        intro x hx
        have := hf x hx
        rw [hit_eq, concat_keeps hc x (bd.cats a x hx), ← hit_eq]
        exact this
      rw [hnone, Option.none_or, List.find?_cons_of_pos]
      rw [hit_eq, hk1]
      simp [Kind.hits]
  obtain ⟨_, hn, s2, h2, rfl⟩ := move_cases hm
  have hs := read_sinks (g := g) hk1 hka1 hfind.2
  obtain ⟨S, hS⟩ := read_frame s1 g c
  have hk2 : (read s1 g c).2 = s1.m := rfl
  obtain ⟨l3, r3, hk3⟩ := moveAll_pair (k := s1.m) (c := c) hab _ h2 hs (by rw [hS]; simp) (by rw [hS]; simp)
    ⟨l, r, .inl (by rw [hS]; exact hk1)⟩
  have sm := moveAll_same _ h2
  have hk0 : ∀ x, (read s1 g c).1.kind x = s1.kind x := by rw [hS]; exact fun _ => rfl
  have hcats : s2.cats = s1.cats := by rw [sm.cats, hS]
  have hka3 : s2.kind a = .var := by
    have := sm.kind a
    rw [hk0, hka1] at this
    exact this.var
  have hn3 : s2.kind n = .var := by
    have := sm.kind n
    rw [isExpr_var hn] at this
    exact this.var
  constructor
  · unfold concat
    rw [show ({ s2 with sinks := upd s2.sinks a [] } : St).kind a = .var from hka3]
    dsimp only
    have : (s2.cats a).find? (hit ({ s2 with sinks := upd s2.sinks a [] } : St) b) = some c := by
      rw [← hfind.1, hcats]
      congr 1
      funext x
      rw [hit_eq, hit_eq]
      have := (sm.kind x).hits hab hnb
      rw [hk0] at this
      exact this
    rw [this]
  · exact .cat hk3 (.cons (.var hn3) (.cons htb .nil))

/-! #### Widths -/

/-- Readers are only moved to variables of the same width and sign. -/
def SameShape (s : St) : Op → Prop
  | .move t n _ => s.width t = s.width n ∧ s.signed t = s.signed n
  | _ => True

/-- The widths and signs of the objects made. -/
structure Shaped (s : St) : Prop where
  bin : ∀ e o l r, e < s.n → s.kind e = .bin o l r → s.width e = s.width l ∧ s.width e = s.width r ∧
    s.signed e = (s.signed l && s.signed r)
  cat : ∀ e l r vs, e < s.n → s.kind e = .cat l r vs → s.width e = (vs.map s.width).foldr (· + ·) 0 ∧
    ∀ v ∈ vs, s.signed v = s.signed e

theorem map_upd {α : Type} {f : Nat → α} {i x} {vs : List Nat} (h : ∀ v ∈ vs, v < i) : vs.map (upd f i x) = vs.map f :=
  List.map_congr_left fun v hv => upd_ne _ _ (by have := h v hv; omega)

theorem Shaped.alloc {s k w g} (h : Shaped s) (bd : Bound s)
    (hb : ∀ o l r, k = .bin o l r → (l < s.n ∧ r < s.n) ∧ w = s.width l ∧ w = s.width r ∧ g = (s.signed l && s.signed r))
    (hc : ∀ l r vs, k = .cat l r vs → (∀ v ∈ vs, v < s.n) ∧ w = (vs.map s.width).foldr (· + ·) 0 ∧ ∀ v ∈ vs, s.signed v = g) :
    Shaped (alloc s k w g) := by
  refine ⟨?_, ?_⟩
  · intro e o l r he hk
    have he : e < s.n + 1 := he
    by_cases hx : e = s.n
    · subst hx
      obtain ⟨⟨a, b⟩, c, d, f⟩ := hb o l r (by simpa [Shared.alloc] using hk)
      simp only [Shared.alloc, upd_same]
      rw [upd_ne _ _ (by omega), upd_ne _ _ (by omega), upd_ne _ _ (by omega), upd_ne _ _ (by omega)]
      exact ⟨c, d, f⟩
    · have hk : s.kind e = .bin o l r := by simpa [Shared.alloc, upd_ne _ _ hx] using hk
      obtain ⟨a, b⟩ := bd.bin e o l r (by omega) hk
      simp only [Shared.alloc]
      rw [upd_ne _ _ (by omega), upd_ne _ _ (by omega), upd_ne _ _ (by omega), upd_ne _ _ (by omega), upd_ne _ _ (by omega),
        upd_ne _ _ (by omega)]
      exact h.bin e o l r (by omega) hk
  · intro e l r vs he hk
    have he : e < s.n + 1 := he
    by_cases hx : e = s.n
    · subst hx
      obtain ⟨a, b, c⟩ := hc l r vs (by simpa [Shared.alloc] using hk)
      simp only [Shared.alloc, upd_same]
      rw [map_upd a]
      refine ⟨b, ?_⟩
      intro v hv
      rw [upd_ne _ _ (by have := a v hv; omega)]
      exact c v hv
    · have hk : s.kind e = .cat l r vs := by simpa [Shared.alloc, upd_ne _ _ hx] using hk
      obtain ⟨_, _, _, a⟩ := bd.cat e l r vs (by omega) hk
      obtain ⟨b, c⟩ := h.cat e l r vs (by omega) hk
      simp only [Shared.alloc]
      rw [map_upd a, upd_ne _ _ hx]
      refine ⟨b, ?_⟩
      intro v hv
      rw [upd_ne _ _ (by have := a v hv; omega), upd_ne _ _ hx]
      exact c v hv

theorem sum_append (ws : List (BitVec 32)) (w : BitVec 32) :
    (ws ++ [w]).foldr (· + ·) 0 = ws.foldr (· + ·) 0 + w := by
  induction ws with
  | nil => simp
  | cons x xs ih => simp only [List.cons_append, List.foldr_cons, ih, BitVec.add_assoc]

theorem Shaped.concat {s a b s' c} (h : Shaped s) (bd : Bound s) (ha : a < s.n) (hb : b < s.n)
    (hc : concat s a b = .ok (s', c)) : Shaped s' := by
  rcases concat_cases hc with ⟨l, r, x, xs, hk, rfl, hsg, rfl⟩ | ⟨_, _, rfl⟩ | ⟨_, _, rfl, hsg, rfl⟩
  · have : Shaped (Shared.alloc s (.cat a b (x :: xs ++ [b])) (s.width a + s.width b) (s.signed a)) := by
      refine h.alloc bd (fun _ _ _ e => nomatch e) ?_
      intro l1 r1 vs1 e
      cases e
      obtain ⟨_, _, _, hv⟩ := bd.cat a _ _ _ ha hk
      obtain ⟨hw, hs⟩ := h.cat a _ _ _ ha hk
      refine ⟨?_, ?_, ?_⟩
      · intro v hm
        rcases List.mem_append.1 hm with hm | hm
        · exact hv v hm
        · rw [List.mem_singleton.1 hm]; exact hb
      · rw [List.map_append, List.map_singleton, sum_append, ← hw]
      · intro v hm
        rcases List.mem_append.1 hm with hm | hm
        · exact hs v hm
        · rw [List.mem_singleton.1 hm]; exact hsg.symm
    exact ⟨this.bin, this.cat⟩
  · exact h
  · have : Shaped (Shared.alloc s (.cat a b [a, b]) (s.width a + s.width b) (s.signed a)) := by
      refine h.alloc bd (fun _ _ _ e => nomatch e) ?_
      intro l1 r1 vs1 e
      cases e
      refine ⟨?_, by simp, ?_⟩
      · intro v hm
        simp only [List.mem_cons, List.not_mem_nil, or_false] at hm
        rcases hm with rfl | rfl
        · exact ha
        · exact hb
      · intro v hm
        simp only [List.mem_cons, List.not_mem_nil, or_false] at hm
        rcases hm with rfl | rfl
        · rfl
        · exact hsg.symm
    exact ⟨this.bin, this.cat⟩

theorem sum_replaceVar {t n : Nat} {w : Nat → BitVec 32} (h : w t = w n) (vs : List Nat) :
    ((replaceVar t n vs).map w).foldr (· + ·) 0 = (vs.map w).foldr (· + ·) 0 := by
  induction vs with
  | nil => rfl
  | cons v vs ih =>
    rw [replaceVar]
    split
    · rename_i hv
      subst hv
      simp only [List.map_cons, List.foldr_cons, h]
    · simp only [List.map_cons, List.foldr_cons, ih]

theorem sub_eq {α : Type} {t n : Nat} {w : Nat → α} (h : w t = w n) (x : Nat) : w (sub t n x) = w x := by
  unfold sub
  split
  · rename_i e; rw [e, h]
  · rfl

theorem mem_replaceVar_signed {t n : Nat} {w : Nat → Bool} {g : Bool} (h : w t = w n) {vs : List Nat} (hv : ∀ v ∈ vs, w v = g) :
    ∀ v ∈ replaceVar t n vs, w v = g := by
  induction vs with
  | nil => intro v hm; cases hm
  | cons x xs ih =>
    intro v hm
    rw [replaceVar] at hm
    split at hm
    · rename_i e
      rcases List.mem_cons.1 hm with rfl | hm
      · rw [← h, ← e]; exact hv x (List.mem_cons_self ..)
      · exact hv v (List.mem_cons_of_mem _ hm)
    · rcases List.mem_cons.1 hm with rfl | hm
      · exact hv v (List.mem_cons_self ..)
      · exact ih (fun v hv' => hv v (List.mem_cons_of_mem _ hv')) v hm

/-- The shape of one object. -/
def KindShape (width : Nat → BitVec 32) (signed : Nat → Bool) (w : BitVec 32) (g : Bool) : Kind → Prop
  | .var => True
  | .bin _ l r => w = width l ∧ w = width r ∧ g = (signed l && signed r)
  | .cat _ _ vs => w = (vs.map width).foldr (· + ·) 0 ∧ ∀ v ∈ vs, signed v = g

theorem Steps.shape {t n : Nat} {width signed w g k k'} (hw : width t = width n) (hg : signed t = signed n)
    (h : Steps t n k k') (hk : KindShape width signed w g k) : KindShape width signed w g k' := by
  induction h with
  | refl => exact hk
  | @step k1 _ ih =>
    cases k1 with
    | var => trivial
    | bin o l r =>
      obtain ⟨a, b, c⟩ := ih
      exact ⟨by rw [sub_eq hw]; exact a, by rw [sub_eq hw]; exact b, by rw [sub_eq hg, sub_eq hg]; exact c⟩
    | cat l r vs =>
      obtain ⟨a, b⟩ := ih
      exact ⟨by rw [sum_replaceVar hw]; exact a, mem_replaceVar_signed hg b⟩

theorem Shaped.same {t n s s'} (h : Shaped s) (hs : Same t n s s') (hw : s.width t = s.width n)
    (hg : s.signed t = s.signed n) : Shaped s' := by
  have key : ∀ e, e < s.n → KindShape s.width s.signed (s.width e) (s.signed e) (s'.kind e) := by
    intro e he
    refine (hs.kind e).shape hw hg ?_
    cases hk : s.kind e with
    | var => trivial
    | bin o l r => exact h.bin e o l r he hk
    | cat l r vs => exact h.cat e l r vs he hk
  refine ⟨?_, ?_⟩
  · intro e o l r he hk
    rw [hs.num] at he
    have := key e he
    rw [hk] at this
    rw [hs.width, hs.signed]
    exact this
  · intro e l r vs he hk
    rw [hs.num] at he
    have := key e he
    rw [hk] at this
    rw [hs.width, hs.signed]
    exact this

theorem reach_shaped {s} (h : Reach SameShape s) : Shaped s := by
  induction h with
  | init => exact ⟨fun _ _ _ _ h => absurd h (Nat.not_lt_zero _), fun _ _ _ _ h => absurd h (Nat.not_lt_zero _)⟩
  | step hr ho hs ih =>
    have bd := reach_bound hr
    rename_i s o s'
    cases o with
    | var w g =>
      cases hs
      exact ih.alloc bd (fun _ _ _ e => nomatch e) (fun _ _ _ e => nomatch e)
    | bin o a b =>
      simp only [step] at hs
      split at hs
      · rename_i hab
        rw [Res.bind_eq_ok] at hs
        obtain ⟨p, hp, hs⟩ := hs
        unfold binop at hp
        split at hp
        · cases hp
        · rename_i hw
          cases hp; cases hs
          refine ih.alloc bd ?_ (fun _ _ _ e => nomatch e)
          intro o1 l1 r1 e
          cases e
          exact ⟨hab, rfl, Classical.not_not.1 hw, rfl⟩
      · cases hs
    | concat a b =>
      simp only [step] at hs
      split at hs
      · rename_i hab
        rw [Res.bind_eq_ok] at hs
        obtain ⟨p, hp, hs⟩ := hs
        cases hs
        exact ih.concat bd hab.1 hab.2 hp
      · cases hs
    | read g e =>
      simp only [step] at hs
      split at hs
      · cases hs
        obtain ⟨S, hS⟩ := read_frame s g e
        rw [hS]
        exact ⟨ih.bin, ih.cat⟩
      · cases hs
    | move t n g =>
      simp only [step] at hs
      split at hs
      · exact ih.same (move_same hs) ho.1 ho.2
      · cases hs

/-- C123: after every history in which readers were only moved to variables of the same width and sign, a concatenation is as wide as
its elements together, and has their sign. -/
theorem width_partial {s e l r vs} (hr : Reach SameShape s) (he : e < s.n) (hk : s.kind e = .cat l r vs) :
    s.width e = (vs.map s.width).foldr (· + ·) 0 ∧ ∀ v ∈ vs, s.signed v = s.signed e :=
  (reach_shaped hr).cat e l r vs he hk

/-- C123: two things that are no concatenations and have different signs are not concatenated, whatever was done before (with readers
moved only to variables of the same width and sign). -/
theorem mixed_refused {s a b} (hr : Reach SameShape s) (hm : Reach (NotMoved a) s) (h : s.signed a ≠ s.signed b) :
    ∀ s' c, concat s a b ≠ .ok (s', c) := by
  intro s' c hc
  rcases concat_cases hc with ⟨l, r, x, xs, hk, rfl, hsg, rfl⟩ | ⟨_, hf, rfl⟩ | ⟨_, _, rfl, hsg, rfl⟩
  · exact h hsg
  · have hlt := (reach_bound hr).cats a c (List.mem_of_find?_eq_some hf)
    obtain ⟨l, r, xs, hk⟩ := reach_heads hm c (List.mem_of_find?_eq_some hf)
    obtain ⟨l2, r2, x, hk2⟩ := hit_spec (List.find?_some hf)
    rw [hk] at hk2
    cases hk2
    obtain ⟨_, hs⟩ := width_partial hr hlt hk
    exact h ((hs a (by simp)).trans (hs b (by simp)).symm)
  · exact h hsg

/-! #### The full claims are false -/

/-- Variables 0, 1 and 2; `{0, 1}` (object 3) is read in generator 0; the readers of 0 are moved to 2. -/
def moved : List Op := [.var 8 false, .var 8 false, .var 8 false, .concat 0 1, .read 0 3, .move 0 2 0]

/-- C123: the full claim is false of the code. -/
theorem not_ConcatClaim : ¬ ConcatClaim := by
  intro h
  obtain ⟨s, hs⟩ : ∃ s, run init moved = .ok s := ⟨_, rfl⟩
  have hr := reach_run (P := fun _ _ => True) (fun _ _ => trivial) .init hs
  cases hs
  have hw := h _ 0 1 _ 3 (.name 0) (.name 1) hr (by decide) (by decide) rfl rfl (.var rfl) (.var rfl)
  cases hw with
  | cat hk hv =>
    cases hk
    cases hv with
    | cons h1 _ => cases h1

/-- Two generators read `{0, 1}`, each having concatenated it for itself. -/
def twice : List Op := [.var 8 false, .var 8 false, .var 8 false, .concat 0 1, .read 0 3, .concat 0 1, .read 1 3]

/-- C123: the full claim is false of the code. -/
theorem not_LocalClaim : ¬ LocalClaim := by
  intro h
  obtain ⟨s, hs⟩ : ∃ s, run init twice = .ok s := ⟨_, rfl⟩
  have hr := reach_run (P := fun _ _ => True) (fun _ _ => trivial) .init hs
  cases hs
  have hw := h _ 0 2 0 _ 1 (.braces [.name 0, .name 1]) hr (by decide) (by decide) rfl (by decide) (by decide)
    (.cat rfl (.cons (.var rfl) (.cons (.var rfl) .nil)))
  cases hw with
  | cat hk hv =>
    cases hk
    cases hv with
    | cons h1 _ => cases h1

/-- As `moved`, with a new variable of another width. -/
def narrower : List Op := [.var 8 false, .var 8 false, .var 4 false, .concat 0 1, .read 0 3, .move 0 2 0]

/-- C123: the full claim is false of the code. -/
theorem not_WidthClaim : ¬ WidthClaim := by
  intro h
  obtain ⟨s, hs⟩ : ∃ s, run init narrower = .ok s := ⟨_, rfl⟩
  have hr := reach_run (P := fun _ _ => True) (fun _ _ => trivial) .init hs
  cases hs
  have := h _ 3 2 1 [2, 1] hr (by decide) rfl
  exact absurd this (by decide +kernel)

/-! #### Cases that meet the hypotheses -/

/-- As `moved`, and then `{1, 0}` is asked for: the readers of 1 have not been moved. -/
example : ∃ s s' c, Reach (NotMoved 1) s ∧ 1 < s.n ∧ 0 < s.n ∧ concat s 1 0 = .ok (s', c) ∧ Writes s 1 (.name 1) ∧
    Writes s 0 (.name 0) ∧ Writes s' c (.braces [.name 1, .name 0]) := by
  refine ⟨_, _, 4, reach_list (ops := moved) .init ?_ rfl, by decide, by decide, rfl, .var rfl, .var rfl,
    .cat rfl (.cons (.var rfl) (.cons (.var rfl) .nil))⟩
  intro s o ho n g e
  subst e
  simp [moved] at ho

/-- A concatenation of three. -/
example : ∃ s s' c, Reach (NotMoved 3) s ∧ 3 < s.n ∧ concat s 3 2 = .ok (s', c) ∧
    Writes s 3 (.braces [.name 0, .name 1]) ∧ Writes s' c (.braces [.name 0, .name 1, .name 2]) := by
  refine ⟨_, _, 4, reach_list (ops := [.var 8 false, .var 8 false, .var 8 false, .concat 0 1]) .init ?_ rfl, by decide, rfl,
    .cat rfl (.cons (.var rfl) (.cons (.var rfl) .nil)),
    .cat rfl (.cons (.var rfl) (.cons (.var rfl) (.cons (.var rfl) .nil)))⟩
  intro s o ho n g e
  subst e
  simp at ho

/-- What a pair of variables is made of. -/
theorem within_pair {s : St} {e a b z} (he : s.kind e = .cat a b [a, b]) (ha : s.kind a = .var) (hb : s.kind b = .var)
    (h : Within s e z) (hz : isExpr s z = true) : z = e := by
  have leaf : ∀ {x}, s.kind x = .var → Within s x z → False := by
    intro x hx hw
    have := within_var hw hx
    subst this
    simp [isExpr, hx] at hz
  cases h with
  | self => rfl
  | binL hk _ => rw [he] at hk; cases hk
  | binR hk _ => rw [he] at hk; cases hk
  | catL hk h => rw [he] at hk; cases hk; exact (leaf ha h).elim
  | catR hk h => rw [he] at hk; cases hk; exact (leaf hb h).elim
  | catV hk hm h =>
    rw [he] at hk
    cases hk
    simp only [List.mem_cons, List.not_mem_nil, or_false] at hm
    rcases hm with rfl | rfl
    · exact (leaf ha h).elim
    · exact (leaf hb h).elim

/-- Generators 0 and 1 read `{0, 1}` and `{1, 0}`: two objects. -/
def apart : List Op := [.var 8 false, .var 8 false, .var 8 false, .concat 0 1, .read 0 3, .concat 1 0, .read 1 4]

example : ∃ s s', run init apart = .ok s ∧ move s 0 2 0 = .ok s' ∧ s.gen 1 ≠ 0 ∧ s.sinks 0 = [0, 1] ∧
    (∀ j ∈ s.sinks 0, s.gen j = 0 → ∀ y, isExpr s y = true → Within s (s.rhs 1) y → ¬ Within s (s.rhs j) y) ∧
    Writes s (s.rhs 1) (.braces [.name 1, .name 0]) ∧ Writes s' (s'.rhs 0) (.braces [.name 2, .name 1]) := by
  refine ⟨_, _, rfl, rfl, by decide, rfl, ?_, .cat rfl (.cons (.var rfl) (.cons (.var rfl) .nil)),
    .cat rfl (.cons (.var rfl) (.cons (.var rfl) .nil))⟩
  intro j hj hg y hy h1 h0
  have e0 : j = 0 := by
    have : j = 0 ∨ j = 1 := by
      have hj : j ∈ [0, 1] := hj
      simpa using hj
    rcases this with rfl | rfl
    · rfl
    · exact absurd hg (by decide)
  subst e0
  have a := within_pair (a := 1) (b := 0) rfl rfl rfl h1 hy
  have b := within_pair (a := 0) (b := 1) rfl rfl rfl h0 hy
  rw [a] at b
  exact absurd b (by decide)

/-- The hypotheses of `stale`. -/
example : ∃ s s1 c s3, Reach (NotMoved 0) s ∧ 0 < s.n ∧ 1 < s.n ∧ s.kind 0 = .var ∧ concat s 0 1 = .ok (s1, c) ∧
    move (read s1 7 c).1 0 2 7 = .ok s3 ∧ Writes s3 1 (.name 1) := by
  refine ⟨_, _, _, _, reach_list (ops := [.var 8 false, .var 8 false, .var 8 false]) .init ?_ rfl, by decide, by decide, rfl, rfl, rfl,
    .var rfl⟩
  intro s o ho n g e
  subst e
  simp at ho

/-- The hypotheses of `width_partial`: after `moved` object 3 is 16 bits wide. -/
example : ∃ s, Reach SameShape s ∧ 3 < s.n ∧ s.kind 3 = .cat 2 1 [2, 1] ∧ s.width 3 = 16 := by
  have h5 : Reach SameShape _ := reach_list (s' := _)
    (ops := [.var 8 false, .var 8 false, .var 8 false, .concat 0 1, .read 0 3]) .init (by
      intro s o ho
      simp at ho
      rcases ho with rfl | rfl | rfl <;> trivial) rfl
  exact ⟨_, .step (o := .move 0 2 0) h5 ⟨rfl, rfl⟩ rfl, by decide, rfl, by decide +kernel⟩

/-- The hypotheses of `mixed_refused`. -/
example : ∃ s, Reach SameShape s ∧ Reach (NotMoved 0) s ∧ s.signed 0 ≠ s.signed 1 ∧ concat s 0 1 = .throw .var := by
  refine ⟨_, reach_list (ops := [.var 8 false, .var 8 true]) .init ?_ rfl, reach_list (ops := [.var 8 false, .var 8 true]) .init ?_ rfl,
    by decide, rfl⟩
  · intro s o ho
    simp at ho
    rcases ho with rfl | rfl <;> trivial
  · intro s o ho n g e
    subst e
    simp at ho

end Kratos.Shared
