import Verif.Pass.Replace

/-!
# C96: the drivers and readers recorded for a variable

`Var::sources()` and `Var::sinks()`: every pass and check works on these lists.  They are filled when a
statement gets its first parent and are emptied again by `unwire` and `clear`.  Expressions are those of
C75.  Slices keep lists of their own, which are not modelled; neither is what happens after an exception.
-/

namespace Kratos.Registry

open Kratos.Replace

/-! ## Model -/

/-- `sources_` or `sinks_` of all variables: does the variable's set hold the statement?
src/expr.hh:242-243. -/
abbrev Sets := Nat → Nat → Bool

/-- `emplace` and `erase`, src/expr.hh:151-164. -/
def put (f : Sets) (v i : Nat) : Sets := fun v' i' => if v' = v ∧ i' = i then true else f v' i'
def del (f : Sets) (v i : Nat) : Sets := fun v' i' => if v' = v ∧ i' = i then false else f v' i'

mutual
/-- `add_sink`: `Var` src/expr.hh:163, `Expr` src/expr.cc:1742-1745, `VarSlice` 1752-1755, `VarVarSlice`
703-706, `ConditionalExpr` 1792-1796, `VarConcat` 1253-1257, `VarExtend` 1351, `VarDuplicated` 1384,
`VarCasted` 1073, `FunctionCallVar` 2320-2323.  Constants and parameters keep no lists. -/
def addSink (i : Nat) : E → Sets → Sets
  | .var v, k => put k v i
  | .const _, k => k
  | .param _, k => k
  | .sl e _ _, k => addSink i e k
  | .ix e x, k => addSink i x (addSink i e k)
  | .un _ a, k => addSink i a k
  | .bin _ a b, k => addSink i b (addSink i a k)
  | .cat xs, k => addSinks i xs k
  | .ext _ a, k => addSink i a k
  | .dup _ a, k => addSink i a k
  | .ite c a b, k => addSink i b (addSink i a (addSink i c k))
  | .cast _ a, k => addSink i a k
  | .call _ xs, k => addSinks i xs k
def addSinks (i : Nat) : Es → Sets → Sets
  | .nil, k => k
  | .cons x xs, k => addSinks i xs (addSink i x k)
end

/-- Both families of sets. -/
structure Regs where
  src : Sets
  snk : Sets

mutual
/-- `add_source`: `Var` src/expr.hh:164, `VarSlice` src/expr.cc:1757-1760, `VarVarSlice` 708-711, `VarConcat`
1241-1245, `VarCasted` 1074-1076; `Const` 1131-1134, `VarExtend` 1345-1349 and `VarDuplicated` 1386-1388
throw.  Other expressions only note it themselves. -/
def addSource (i : Nat) : E → Regs → Res Regs
  | .var v, k => .ok ⟨put k.src v i, k.snk⟩
  | .const _, _ => .throw .var
  | .param _, _ => .throw .var
  | .sl e _ _, k => addSource i e k
  | .ix e x, k => (addSource i e k).bind fun k' => .ok ⟨k'.src, addSink i x k'.snk⟩
  | .cat xs, k => addSources i xs k
  | .ext _ _, _ => .throw .stmt
  | .dup _ _, _ => .throw .stmt
  | .cast _ a, k => addSource i a k
  | _, k => .ok k
def addSources (i : Nat) : Es → Regs → Res Regs
  | .nil, k => .ok k
  | .cons x xs, k => (addSource i x k).bind fun k' => addSources i xs k'
end

mutual
/-- `remove_source`: `Var` src/expr.hh:157, `VarSlice` src/expr.cc:1762-1765, `VarVarSlice` 718-721 (which
also calls `remove_source`, not `remove_sink`, on the index), `VarConcat` 1247-1251, `VarDuplicated`
1390-1392, `VarCasted` src/expr.hh:315-317. -/
def removeSource (i : Nat) : E → Regs → Regs
  | .var v, k => ⟨del k.src v i, k.snk⟩
  | .sl e _ _, k => removeSource i e k
  | .ix e x, k => removeSource i x (removeSource i e k)
  | .cat xs, k => removeSources i xs k
  | .dup _ a, k => removeSource i a k
  | .cast _ a, k => removeSource i a k
  | _, k => k
def removeSources (i : Nat) : Es → Regs → Regs
  | .nil, k => k
  | .cons x xs, k => removeSources i xs (removeSource i x k)
end

mutual
/-- `remove_sink`: `Var` src/expr.hh:151, `Expr` src/expr.cc:1747-1750, `VarSlice` 1767-1770 (which calls
`remove_source` on the variable), `VarVarSlice` 713-716, `ConditionalExpr` 1798-1802, `VarConcat`
1259-1263, `VarExtend` 1353, `VarCasted` src/expr.hh:307-309, `FunctionCallVar` 2336-2340. -/
def removeSink (i : Nat) : E → Regs → Regs
  | .var v, k => ⟨k.src, del k.snk v i⟩
  | .const _, k => k
  | .param _, k => k
  | .sl e _ _, k => removeSource i e k
  | .ix e x, k => removeSink i x (removeSource i e k)
  | .un _ a, k => removeSink i a k
  | .bin _ a b, k => removeSink i b (removeSink i a k)
  | .cat xs, k => removeSinks i xs k
  | .ext _ a, k => removeSink i a k
  | .dup _ a, k => removeSink i a k
  | .ite c a b, k => removeSink i b (removeSink i a (removeSink i c k))
  | .cast _ a, k => removeSink i a k
  | .call _ xs, k => removeSinks i xs k
def removeSinks (i : Nat) : Es → Regs → Regs
  | .nil, k => k
  | .cons x xs, k => removeSinks i xs (removeSink i x k)
end

/-- An `AssignStmt`; `held`: it has a parent. -/
structure Stm where
  left : E
  right : E
  held : Bool
  deriving DecidableEq, Repr

/-- What statements are put into: a generator, the body of a block or of a branch, or an `if`/`case` for
the stand-in of what it tests. -/
structure Body where
  gen : Bool
  items : List Nat
  deriving DecidableEq, Repr

/-- All statements and bodies.  `unwired` is not in the code: the statements `unwire` was used on. -/
structure Db where
  stms : List Stm
  bodies : List Body
  regs : Regs
  unwired : List Nat

def empty : Db := ⟨[], [], ⟨fun _ _ => false, fun _ _ => false⟩, []⟩

/-- The calls. -/
inductive Op where
  /-- `left.assign(right)` -/
  | assign (l r : E)
  /-- a new generator or a new body -/
  | body (gen : Bool)
  /-- `add_stmt` -/
  | add (b i : Nat)
  /-- `remove_stmt` -/
  | remove (b i : Nat)
  /-- `unwire` -/
  | unwire (b : Nat) (x y : E)
  /-- `clear` -/
  | clear (b : Nat)
  /-- a new `if` or `case` (in a new body), or `set_predicate` and `set_target` -/
  | test (b : Nat) (l r : E)

/-- `AssignStmt::set_parent`, src/stmt.cc:206-216, with a parent. -/
def place (i : Nat) (s : Stm) (d : Db) : Res Db :=
  if s.held then .ok d
  else (addSource i s.left ⟨d.regs.src, addSink i s.right d.regs.snk⟩).bind fun k =>
    .ok { d with stms := d.stms.set i { s with held := true }, regs := k }

/-- `AssignStmt::clear`, src/stmt.cc:224-229. -/
def unplace (d : Db) (i : Nat) : Db :=
  match d.stms[i]? with
  | none => d
  | some s => { d with stms := d.stms.set i { s with held := false },
                       regs := removeSink i s.right (removeSource i s.left d.regs) }

/-- The search of `unwire`, src/generator.cc:1001-1009.  Expressions are compared by their structure;
in the code these are pointers to variables or to slices, of which there is one object each. -/
def wires (d : Db) (x y : E) (i : Nat) : Bool :=
  match d.stms[i]? with
  | none => false
  | some s => decide ((s.left = x ∧ s.right = y) ∨ (s.right = x ∧ s.left = y))

def setItems (d : Db) (b : Nat) (bd : Body) (items : List Nat) : Db :=
  { d with bodies := d.bodies.set b { bd with items := items } }

/-- Calls on things that do not exist are not possible and do nothing here. -/
def step (d : Db) : Op → Res Db
  /- `AssignStmt`, src/stmt.cc:134-137; whether it is legal is C33 and C68 -/
  | .assign l r => .ok { d with stms := d.stms ++ [⟨l, r, false⟩] }
  | .body g => .ok { d with bodies := d.bodies ++ [⟨g, []⟩] }
  /- src/stmt.cc:420-447, src/generator.cc:545-548 -/
  | .add b i => match d.bodies[b]?, d.stms[i]? with
    | some bd, some s =>
      if bd.gen = false ∧ i ∈ bd.items then .throw .stmt
      else (place i s d).bind fun d' => .ok (setItems d' b bd (bd.items ++ [i]))
    | _, _ => .ok d
  /- src/stmt.cc:463-466, src/generator.cc:625-634 -/
  | .remove b i => match d.bodies[b]? with
    | some bd => .ok (setItems d b bd (bd.items.erase i))
    | none => .ok d
  /- src/generator.cc:999-1019 -/
  | .unwire b x y => match d.bodies[b]? with
    | some bd =>
      match bd.items.find? (wires d x y) with
      | none => .ok d
      | some i => match d.stms[i]? with
        | none => .ok d
        | some s => .ok { setItems d b bd (bd.items.erase i) with
            regs := removeSink i s.right (removeSource i s.left d.regs), unwired := i :: d.unwired }
    | none => .ok d
  /- `StmtBlock::clear`, src/stmt.cc:449-454 -/
  | .clear b => match d.bodies[b]? with
    | some bd => if bd.gen then .ok d else .ok (setItems (bd.items.foldl unplace d) b bd [])
    | none => .ok d
  /- src/stmt.cc:239-252, 530-539: the old stand-in is cleared, the new one gets its parent -/
  | .test b l r => match d.bodies[b]? with
    | some bd =>
      if bd.gen then .ok d else
      let d1 := setItems (bd.items.foldl unplace d) b bd []
      let i := d1.stms.length
      (place i ⟨l, r, false⟩ { d1 with stms := d1.stms ++ [⟨l, r, false⟩] }).bind fun d2 =>
        .ok { d2 with bodies := d2.bodies.set b ⟨false, [i]⟩ }
    | none => .ok d

def run : Db → List Op → Res Db
  | d, [] => .ok d
  | d, o :: os => (step d o).bind fun d' => run d' os

/-! ## Specification -/

mutual
/-- An assignment to the expression changes the variable. -/
inductive Writes (v : Nat) : E → Prop
  | var : Writes v (.var v)
  | sl {e hi lo} : Writes v e → Writes v (.sl e hi lo)
  | ix {e x} : Writes v e → Writes v (.ix e x)
  | cat {xs} : WritesL v xs → Writes v (.cat xs)
  | cast {k e} : Writes v e → Writes v (.cast k e)
inductive WritesL (v : Nat) : Es → Prop
  | head {x xs} : Writes v x → WritesL v (.cons x xs)
  | tail {x xs} : WritesL v xs → WritesL v (.cons x xs)
end

mutual
/-- An assignment to the expression reads the variable to find the place. -/
inductive Picks (v : Nat) : E → Prop
  | sl {e hi lo} : Picks v e → Picks v (.sl e hi lo)
  | ix {e x} : Picks v e → Picks v (.ix e x)
  | index {e x} : Mentions v x → Picks v (.ix e x)
  | cat {xs} : PicksL v xs → Picks v (.cat xs)
  | cast {k e} : Picks v e → Picks v (.cast k e)
inductive PicksL (v : Nat) : Es → Prop
  | head {x xs} : Picks v x → PicksL v (.cons x xs)
  | tail {x xs} : PicksL v xs → PicksL v (.cons x xs)
end

def Reads (v : Nat) (s : Stm) : Prop := Mentions v s.right ∨ Picks v s.left

/-- The statement is in the design. -/
def In (d : Db) (i : Nat) : Prop := ∃ b ∈ d.bodies, i ∈ b.items

/-- The sets are exact. -/
def Exact (d : Db) : Prop := ∀ v i,
  (d.regs.src v i = true ↔ In d i ∧ ∃ s, d.stms[i]? = some s ∧ Writes v s.left) ∧
  (d.regs.snk v i = true ↔ In d i ∧ ∃ s, d.stms[i]? = some s ∧ Reads v s)

/-- The claim. -/
def ExactClaim : Prop := ∀ os d, run empty os = .ok d → Exact d

/-- A statement is added only when it is nowhere, and not after `unwire`. -/
def CarefulOp (d : Db) : Op → Prop
  | .add _ i => ¬ In d i ∧ i ∉ d.unwired
  | _ => True

mutual
/-- No slice in the expression. -/
def Flat : E → Prop
  | .var _ | .const _ | .param _ => True
  | .sl _ _ _ | .ix _ _ => False
  | .un _ a | .ext _ a | .dup _ a | .cast _ a => Flat a
  | .bin _ a b => Flat a ∧ Flat b
  | .ite c a b => Flat c ∧ Flat a ∧ Flat b
  | .cat xs | .call _ xs => FlatL xs
def FlatL : Es → Prop
  | .nil => True
  | .cons x xs => Flat x ∧ FlatL xs
end

/-- `remove_stmt` is not used, and what is unwired or cleared reads no slices and has no index on the
left. -/
def TidyOp (d : Db) : Op → Prop
  | .remove _ _ => False
  | .unwire b x y => ∀ bd, d.bodies[b]? = some bd → ∀ i ∈ bd.items, ∀ s, d.stms[i]? = some s →
      (s.left = x ∧ s.right = y) ∨ (s.right = x ∧ s.left = y) → Flat s.right ∧ ∀ v, ¬ Picks v s.left
  | .clear b | .test b _ _ => ∀ bd, d.bodies[b]? = some bd → ∀ i ∈ bd.items, ∀ s, d.stms[i]? = some s →
      Flat s.right ∧ ∀ v, ¬ Picks v s.left
  | _ => True

/-- A history all of whose calls satisfy a condition on the state they are made in. -/
def Always (P : Db → Op → Prop) : Db → List Op → Prop
  | _, [] => True
  | d, o :: os => P d o ∧ ∀ d', step d o = .ok d' → Always P d' os

/-! ## Proof -/

theorem put_iff {f : Sets} {v i v' i' : Nat} : put f v i v' i' = true ↔ f v' i' = true ∨ (i' = i ∧ v' = v) := by
  unfold put
  split
  · rename_i h; simp [h]
  · rename_i h
    constructor
    · exact .inl
    · rintro (h' | ⟨h1, h2⟩)
      · exact h'
      · exact absurd ⟨h2, h1⟩ h

theorem del_iff {f : Sets} {v i v' i' : Nat} : del f v i v' i' = true ↔ f v' i' = true ∧ ¬ (v' = v ∧ i' = i) := by
  unfold del
  split
  · rename_i h; simp [h]
  · rename_i h; simp [h]

mutual
theorem addSink_iff (i : Nat) : ∀ (e : E) (k : Sets) (v j : Nat),
    addSink i e k v j = true ↔ k v j = true ∨ (j = i ∧ Mentions v e)
  | .var u, k, v, j => by rw [addSink, put_iff, mentions_var]; simp only [eq_comm]
  | .const _, k, v, j => by rw [addSink]; simp [mentions_const]
  | .param _, k, v, j => by rw [addSink]; simp [mentions_param]
  | .sl e _ _, k, v, j => by rw [addSink, addSink_iff i e, mentions_sl]
  | .ix e x, k, v, j => by
    rw [addSink, addSink_iff i x, addSink_iff i e, mentions_ix, or_assoc, ← and_or_left]
  | .un _ a, k, v, j => by rw [addSink, addSink_iff i a, mentions_un]
  | .bin _ a b, k, v, j => by
    rw [addSink, addSink_iff i b, addSink_iff i a, mentions_bin, or_assoc, ← and_or_left]
  | .cat xs, k, v, j => by rw [addSink, addSinks_iff i xs, mentions_cat]
  | .ext _ a, k, v, j => by rw [addSink, addSink_iff i a, mentions_ext]
  | .dup _ a, k, v, j => by rw [addSink, addSink_iff i a, mentions_dup]
  | .ite c a b, k, v, j => by
    rw [addSink, addSink_iff i b, addSink_iff i a, addSink_iff i c, mentions_ite, or_assoc, or_assoc, ← and_or_left, ← and_or_left]
  | .cast _ a, k, v, j => by rw [addSink, addSink_iff i a, mentions_cast]
  | .call _ xs, k, v, j => by rw [addSink, addSinks_iff i xs, mentions_call]
theorem addSinks_iff (i : Nat) : ∀ (xs : Es) (k : Sets) (v j : Nat),
    addSinks i xs k v j = true ↔ k v j = true ∨ (j = i ∧ MentionsL v xs)
  | .nil, k, v, j => by rw [addSinks]; simp [mentionsL_nil]
  | .cons x xs, k, v, j => by
    rw [addSinks, addSinks_iff i xs, addSink_iff i x, mentionsL_cons, or_assoc, ← and_or_left]
end

theorem writes_var {v u : Nat} : Writes v (.var u) ↔ v = u := ⟨fun h => by cases h; rfl, fun h => h ▸ .var⟩
theorem writes_sl {v : Nat} {e : E} {hi lo : Nat} : Writes v (.sl e hi lo) ↔ Writes v e := ⟨fun h => by cases h; assumption, .sl⟩
theorem writes_ix {v : Nat} {e x : E} : Writes v (.ix e x) ↔ Writes v e := ⟨fun h => by cases h; assumption, .ix⟩
theorem writes_cat {v : Nat} {xs : Es} : Writes v (.cat xs) ↔ WritesL v xs := ⟨fun h => by cases h; assumption, .cat⟩
theorem writes_cast {v k : Nat} {e : E} : Writes v (.cast k e) ↔ Writes v e := ⟨fun h => by cases h; assumption, .cast⟩
theorem writesL_cons {v : Nat} {x : E} {xs : Es} : WritesL v (.cons x xs) ↔ Writes v x ∨ WritesL v xs :=
  ⟨fun h => by cases h with
    | head h => exact .inl h
    | tail h => exact .inr h, fun h => h.elim .head .tail⟩
theorem picks_sl {v : Nat} {e : E} {hi lo : Nat} : Picks v (.sl e hi lo) ↔ Picks v e := ⟨fun h => by cases h; assumption, .sl⟩
theorem picks_ix {v : Nat} {e x : E} : Picks v (.ix e x) ↔ Picks v e ∨ Mentions v x :=
  ⟨fun h => by cases h with
    | ix h => exact .inl h
    | index h => exact .inr h, fun h => h.elim .ix .index⟩
theorem picks_cat {v : Nat} {xs : Es} : Picks v (.cat xs) ↔ PicksL v xs := ⟨fun h => by cases h; assumption, .cat⟩
theorem picks_cast {v k : Nat} {e : E} : Picks v (.cast k e) ↔ Picks v e := ⟨fun h => by cases h; assumption, .cast⟩
theorem picksL_cons {v : Nat} {x : E} {xs : Es} : PicksL v (.cons x xs) ↔ Picks v x ∨ PicksL v xs :=
  ⟨fun h => by cases h with
    | head h => exact .inl h
    | tail h => exact .inr h, fun h => h.elim .head .tail⟩

/-- What `add_source` does. -/
def Added (i : Nat) (W P : Nat → Prop) (k k' : Regs) : Prop := ∀ v j,
  (k'.src v j = true ↔ k.src v j = true ∨ (j = i ∧ W v)) ∧ (k'.snk v j = true ↔ k.snk v j = true ∨ (j = i ∧ P v))

mutual
theorem addSource_ok (i : Nat) : ∀ (e : E) (k k' : Regs), addSource i e k = .ok k' →
    Added i (fun v => Writes v e) (fun v => Picks v e) k k'
  | .var u, k, k', h => by
    cases h
    intro v j
    refine ⟨by dsimp only; rw [put_iff, writes_var], ⟨.inl, ?_⟩⟩
    rintro (h | ⟨_, h⟩)
    · exact h
    · cases h
  | .const _, k, k', h => by cases h
  | .param _, k, k', h => by cases h
  | .sl e _ _, k, k', h => by
    have := addSource_ok i e k k' h
    intro v j
    dsimp only
    rw [writes_sl, picks_sl]; exact this v j
  | .ix e x, k, k', h => by
    simp only [addSource, Res.bind_eq_ok, Res.ok.injEq] at h
    obtain ⟨k1, h1, rfl⟩ := h
    have := addSource_ok i e k k1 h1
    intro v j
    dsimp only
    rw [writes_ix, picks_ix, addSink_iff, (this v j).2, or_assoc, ← and_or_left]
    exact ⟨(this v j).1, Iff.rfl⟩
  | .un _ a, k, k', h => by
    cases h
    intro v j
    constructor <;> (constructor; exact .inl; rintro (h | ⟨_, h⟩); exact h; cases h)
  | .bin _ a b, k, k', h => by
    cases h
    intro v j
    constructor <;> (constructor; exact .inl; rintro (h | ⟨_, h⟩); exact h; cases h)
  | .cat xs, k, k', h => by
    have := addSources_ok i xs k k' h
    intro v j
    dsimp only
    rw [writes_cat, picks_cat]; exact this v j
  | .ext _ a, k, k', h => by cases h
  | .dup _ a, k, k', h => by cases h
  | .ite c a b, k, k', h => by
    cases h
    intro v j
    constructor <;> (constructor; exact .inl; rintro (h | ⟨_, h⟩); exact h; cases h)
  | .cast _ a, k, k', h => by
    have := addSource_ok i a k k' h
    intro v j
    dsimp only
    rw [writes_cast, picks_cast]; exact this v j
  | .call _ xs, k, k', h => by
    cases h
    intro v j
    constructor <;> (constructor; exact .inl; rintro (h | ⟨_, h⟩); exact h; cases h)
theorem addSources_ok (i : Nat) : ∀ (xs : Es) (k k' : Regs), addSources i xs k = .ok k' →
    Added i (fun v => WritesL v xs) (fun v => PicksL v xs) k k'
  | .nil, k, k', h => by
    cases h
    intro v j
    constructor <;> (constructor; exact .inl; rintro (h | ⟨_, h⟩); exact h; cases h)
  | .cons x xs, k, k', h => by
    simp only [addSources, Res.bind_eq_ok] at h
    obtain ⟨k1, h1, h2⟩ := h
    have a := addSource_ok i x k k1 h1
    have b := addSources_ok i xs k1 k' h2
    intro v j
    dsimp only
    rw [writesL_cons, picksL_cons, (b v j).1, (b v j).2, (a v j).1, (a v j).2, or_assoc, or_assoc, ← and_or_left, ← and_or_left]
    exact ⟨Iff.rfl, Iff.rfl⟩
end

/-- What removals do: nothing new, and nothing to other statements. -/
def Less (i : Nat) (k k' : Regs) : Prop := ∀ v j,
  (k'.src v j = true → k.src v j = true) ∧ (k'.snk v j = true → k.snk v j = true) ∧
  (j ≠ i → k'.src v j = k.src v j ∧ k'.snk v j = k.snk v j)

theorem Less.refl {i : Nat} {k : Regs} : Less i k k := fun _ _ => ⟨id, id, fun _ => ⟨rfl, rfl⟩⟩
theorem Less.trans {i : Nat} {k k1 k2 : Regs} (h : Less i k k1) (h' : Less i k1 k2) : Less i k k2 := fun v j =>
  ⟨fun x => (h v j).1 ((h' v j).1 x), fun x => (h v j).2.1 ((h' v j).2.1 x), fun x =>
    ⟨((h' v j).2.2 x).1.trans ((h v j).2.2 x).1, ((h' v j).2.2 x).2.trans ((h v j).2.2 x).2⟩⟩

theorem less_src {i v : Nat} {k : Regs} : Less i k ⟨del k.src v i, k.snk⟩ := fun v' j =>
  ⟨fun h => (del_iff.1 h).1, id, fun hj => ⟨by
    show del k.src v i v' j = _
    unfold del
    rw [if_neg (fun h => hj h.2)], rfl⟩⟩
theorem less_snk {i v : Nat} {k : Regs} : Less i k ⟨k.src, del k.snk v i⟩ := fun v' j =>
  ⟨id, fun h => (del_iff.1 h).1, fun hj => ⟨rfl, by
    show del k.snk v i v' j = _
    unfold del
    rw [if_neg (fun h => hj h.2)]⟩⟩

mutual
theorem removeSource_less (i : Nat) : ∀ (e : E) (k : Regs), Less i k (removeSource i e k)
  | .var _, _ => less_src
  | .sl e _ _, k => removeSource_less i e k
  | .ix e x, k => (removeSource_less i e k).trans (removeSource_less i x _)
  | .cat xs, k => removeSources_less i xs k
  | .dup _ a, k => removeSource_less i a k
  | .cast _ a, k => removeSource_less i a k
  | .const _, _ => .refl
  | .param _, _ => .refl
  | .un _ _, _ => .refl
  | .bin _ _ _, _ => .refl
  | .ext _ _, _ => .refl
  | .ite _ _ _, _ => .refl
  | .call _ _, _ => .refl
theorem removeSources_less (i : Nat) : ∀ (xs : Es) (k : Regs), Less i k (removeSources i xs k)
  | .nil, _ => .refl
  | .cons x xs, k => (removeSource_less i x k).trans (removeSources_less i xs _)
end

mutual
theorem removeSink_less (i : Nat) : ∀ (e : E) (k : Regs), Less i k (removeSink i e k)
  | .var _, _ => less_snk
  | .const _, _ => .refl
  | .param _, _ => .refl
  | .sl e _ _, k => removeSource_less i e k
  | .ix e x, k => (removeSource_less i e k).trans (removeSink_less i x _)
  | .un _ a, k => removeSink_less i a k
  | .bin _ a b, k => (removeSink_less i a k).trans (removeSink_less i b _)
  | .cat xs, k => removeSinks_less i xs k
  | .ext _ a, k => removeSink_less i a k
  | .dup _ a, k => removeSink_less i a k
  | .ite c a b, k => ((removeSink_less i c k).trans (removeSink_less i a _)).trans (removeSink_less i b _)
  | .cast _ a, k => removeSink_less i a k
  | .call _ xs, k => removeSinks_less i xs k
theorem removeSinks_less (i : Nat) : ∀ (xs : Es) (k : Regs), Less i k (removeSinks i xs k)
  | .nil, _ => .refl
  | .cons x xs, k => (removeSink_less i x k).trans (removeSinks_less i xs _)
end

/-- Removing a driver removes it everywhere. -/
theorem Less.src_false {i v j : Nat} {k k' : Regs} (h : Less i k k') (hf : k.src v j = false) : k'.src v j = false := by
  cases hx : k'.src v j with
  | false => rfl
  | true => rw [(h v j).1 hx] at hf; cases hf
theorem Less.snk_false {i v j : Nat} {k k' : Regs} (h : Less i k k') (hf : k.snk v j = false) : k'.snk v j = false := by
  cases hx : k'.snk v j with
  | false => rfl
  | true => rw [(h v j).2.1 hx] at hf; cases hf

mutual
theorem removeSource_writes (i : Nat) {v : Nat} : ∀ (e : E) (k : Regs), Writes v e → (removeSource i e k).src v i = false
  | .var u, k, h => by
    cases h
    show del k.src v i v i = false
    unfold del
    rw [if_pos ⟨rfl, rfl⟩]
  | .sl e _ _, k, h => removeSource_writes i e k (writes_sl.1 h)
  | .ix e x, k, h => (removeSource_less i x _).src_false (removeSource_writes i e k (writes_ix.1 h))
  | .cat xs, k, h => removeSources_writes i xs k (writes_cat.1 h)
  | .cast _ a, k, h => removeSource_writes i a k (writes_cast.1 h)
  | .const _, _, h => by cases h
  | .param _, _, h => by cases h
  | .un _ _, _, h => by cases h
  | .bin _ _ _, _, h => by cases h
  | .ext _ _, _, h => by cases h
  | .dup _ _, _, h => by cases h
  | .ite _ _ _, _, h => by cases h
  | .call _ _, _, h => by cases h
theorem removeSources_writes (i : Nat) {v : Nat} : ∀ (xs : Es) (k : Regs), WritesL v xs → (removeSources i xs k).src v i = false
  | .nil, _, h => by cases h
  | .cons x xs, k, h => by
    rw [removeSources]
    rcases writesL_cons.1 h with h | h
    · exact (removeSources_less i xs _).src_false (removeSource_writes i x k h)
    · exact removeSources_writes i xs _ h
end

mutual
theorem removeSink_flat (i : Nat) {v : Nat} : ∀ (e : E) (k : Regs), Flat e → Mentions v e → (removeSink i e k).snk v i = false
  | .var u, k, _, h => by
    cases h
    show del k.snk v i v i = false
    unfold del
    rw [if_pos ⟨rfl, rfl⟩]
  | .const _, _, _, h => by cases h
  | .param _, _, _, h => by cases h
  | .sl _ _ _, _, hf, _ => by simp [Flat] at hf
  | .ix _ _, _, hf, _ => by simp [Flat] at hf
  | .un _ a, k, hf, h => removeSink_flat i a k (by simpa [Flat] using hf) (mentions_un.1 h)
  | .bin _ a b, k, hf, h => by
    rw [Flat] at hf
    rw [removeSink]
    rcases mentions_bin.1 h with h | h
    · exact (removeSink_less i b _).snk_false (removeSink_flat i a k hf.1 h)
    · exact removeSink_flat i b _ hf.2 h
  | .cat xs, k, hf, h => removeSinks_flat i xs k (by simpa [Flat] using hf) (mentions_cat.1 h)
  | .ext _ a, k, hf, h => removeSink_flat i a k (by simpa [Flat] using hf) (mentions_ext.1 h)
  | .dup _ a, k, hf, h => removeSink_flat i a k (by simpa [Flat] using hf) (mentions_dup.1 h)
  | .ite c a b, k, hf, h => by
    rw [Flat] at hf
    rw [removeSink]
    rcases mentions_ite.1 h with h | h | h
    · exact (removeSink_less i b _).snk_false ((removeSink_less i a _).snk_false (removeSink_flat i c k hf.1 h))
    · exact (removeSink_less i b _).snk_false (removeSink_flat i a _ hf.2.1 h)
    · exact removeSink_flat i b _ hf.2.2 h
  | .cast _ a, k, hf, h => removeSink_flat i a k (by simpa [Flat] using hf) (mentions_cast.1 h)
  | .call _ xs, k, hf, h => removeSinks_flat i xs k (by simpa [Flat] using hf) (mentions_call.1 h)
theorem removeSinks_flat (i : Nat) {v : Nat} : ∀ (xs : Es) (k : Regs), FlatL xs → MentionsL v xs → (removeSinks i xs k).snk v i = false
  | .nil, _, _, h => by cases h
  | .cons x xs, k, hf, h => by
    rw [FlatL] at hf
    rw [removeSinks]
    rcases mentionsL_cons.1 h with h | h
    · exact (removeSinks_less i xs _).snk_false (removeSink_flat i x k hf.1 h)
    · exact removeSinks_flat i xs _ hf.2 h
end

theorem in_iff {d : Db} {i : Nat} : In d i ↔ ∃ (b : Nat) (bd : Body), d.bodies[b]? = some bd ∧ i ∈ bd.items := by
  constructor
  · rintro ⟨bd, hm, hi⟩
    obtain ⟨b, hb⟩ := List.getElem?_of_mem hm
    exact ⟨b, bd, hb, hi⟩
  · rintro ⟨b, bd, hb, hi⟩
    exact ⟨bd, List.mem_of_getElem? hb, hi⟩

/-- The statement keeps its sides. -/
def Keeps (d d' : Db) : Prop := ∀ (i : Nat) (s : Stm), d.stms[i]? = some s →
  ∃ s' : Stm, d'.stms[i]? = some s' ∧ s'.left = s.left ∧ s'.right = s.right

theorem Keeps.refl {d : Db} : Keeps d d := fun _ s h => ⟨s, h, rfl, rfl⟩
theorem Keeps.trans {d d1 d2 : Db} (h : Keeps d d1) (h' : Keeps d1 d2) : Keeps d d2 := fun i s hs => by
  obtain ⟨s1, h1, hl, hr⟩ := h i s hs
  obtain ⟨s2, h2, hl', hr'⟩ := h' i s1 h1
  exact ⟨s2, h2, hl'.trans hl, hr'.trans hr⟩

theorem keeps_set {d d' : Db} {i : Nat} {s : Stm} {h : Bool} (hs : d.stms[i]? = some s)
    (he : d'.stms = d.stms.set i { s with held := h }) : Keeps d d' := fun j t ht => by
  rw [he]
  have hi : i < d.stms.length := (List.getElem?_eq_some_iff.1 hs).1
  rcases Nat.decEq i j with hj | rfl
  · exact ⟨t, by rw [List.getElem?_set_ne hj]; exact ht, rfl, rfl⟩
  · rw [hs, Option.some.injEq] at ht
    subst ht
    exact ⟨{ s with held := h }, by rw [List.getElem?_set_self hi], rfl, rfl⟩

/-- Whatever is registered is so of the statement. -/
def Sound (d : Db) : Prop := ∀ v i,
  (d.regs.src v i = true → ∃ s, d.stms[i]? = some s ∧ Writes v s.left) ∧
  (d.regs.snk v i = true → ∃ s, d.stms[i]? = some s ∧ Reads v s)

theorem sound_less {d d' : Db} (hs : Sound d) (hk : Keeps d d')
    (h : ∀ v j, (d'.regs.src v j = true → d.regs.src v j = true) ∧ (d'.regs.snk v j = true → d.regs.snk v j = true)) : Sound d' := by
  intro v i
  constructor
  · intro hv
    obtain ⟨s, h1, h2⟩ := (hs v i).1 ((h v i).1 hv)
    obtain ⟨s', h3, hl, _⟩ := hk i s h1
    exact ⟨s', h3, hl ▸ h2⟩
  · intro hv
    obtain ⟨s, h1, h2⟩ := (hs v i).2 ((h v i).2 hv)
    obtain ⟨s', h3, hl, hr⟩ := hk i s h1
    refine ⟨s', h3, ?_⟩
    unfold Reads at h2 ⊢
    rw [hl, hr]; exact h2

/-! ### `place` and `unplace` -/

theorem place_ok {i : Nat} {s : Stm} {d d' : Db} (hs : d.stms[i]? = some s) (h : place i s d = .ok d') :
    d'.bodies = d.bodies ∧ d'.unwired = d.unwired ∧ d'.stms = d.stms.set i { s with held := true } ∧
    ((s.held = true ∧ d'.regs = d.regs) ∨
      (s.held = false ∧ Added i (fun v => Writes v s.left) (fun v => Reads v s) d.regs d'.regs)) := by
  unfold place at h
  by_cases hh : s.held = true
  · rw [if_pos hh, Res.ok.injEq] at h
    subst h
    refine ⟨rfl, rfl, ?_, .inl ⟨hh, rfl⟩⟩
    have : ({ s with held := true } : Stm) = s := by cases s; simp only at hh; rw [hh]
    rw [this]
    refine List.ext_getElem? fun j => ?_
    have hi : i < d.stms.length := (List.getElem?_eq_some_iff.1 hs).1
    rcases Nat.decEq i j with hj | rfl
    · rw [List.getElem?_set_ne hj]
    · rw [List.getElem?_set_self hi, hs]
  · rw [if_neg hh, Res.bind_eq_ok] at h
    obtain ⟨k, hk, h⟩ := h
    simp only [Res.ok.injEq] at h
    subst h
    refine ⟨rfl, rfl, rfl, .inr ⟨by simpa using hh, ?_⟩⟩
    have ha := addSource_ok i _ _ _ hk
    intro v j
    refine ⟨(ha v j).1, ?_⟩
    rw [(ha v j).2]
    dsimp only
    rw [addSink_iff, or_assoc, ← and_or_left]
    exact Iff.rfl

theorem unplace_bodies (d : Db) (i : Nat) : (unplace d i).bodies = d.bodies ∧ (unplace d i).unwired = d.unwired := by
  unfold unplace
  split <;> exact ⟨rfl, rfl⟩

theorem unplace_less (d : Db) (i : Nat) : Less i d.regs (unplace d i).regs := by
  unfold unplace
  split
  · exact .refl
  · exact (removeSource_less i _ _).trans (removeSink_less i _ _)

theorem unplace_keeps (d : Db) (i : Nat) : Keeps d (unplace d i) := by
  unfold unplace
  split
  · exact .refl
  · rename_i s hs
    exact keeps_set hs rfl

theorem unplace_other {d : Db} {i j : Nat} (h : i ≠ j) : (unplace d i).stms[j]? = d.stms[j]? := by
  unfold unplace
  split
  · rfl
  · exact List.getElem?_set_ne h

theorem unplace_self {d : Db} {i : Nat} {s : Stm} (h : (unplace d i).stms[i]? = some s) : s.held = false := by
  unfold unplace at h
  split at h
  · rename_i hn; rw [hn] at h; cases h
  · rename_i t ht
    rw [List.getElem?_set_self (List.getElem?_eq_some_iff.1 ht).1, Option.some.injEq] at h
    rw [← h]

theorem unplace_length (d : Db) (i : Nat) : (unplace d i).stms.length = d.stms.length := by
  unfold unplace
  split
  · rfl
  · exact List.length_set

/-- Nothing is registered for the statement. -/
def Gone (i : Nat) (k : Regs) : Prop := ∀ v, k.src v i = false ∧ k.snk v i = false

theorem removed_gone {d : Db} {i : Nat} {s : Stm} (hs : Sound d) (h : d.stms[i]? = some s) (hf : Flat s.right)
    (hp : ∀ v, ¬ Picks v s.left) : Gone i (removeSink i s.right (removeSource i s.left d.regs)) := by
  intro v
  constructor
  · by_cases hw : Writes v s.left
    · exact (removeSink_less i _ _).src_false (removeSource_writes i _ _ hw)
    · refine (removeSink_less i _ _).src_false ((removeSource_less i _ _).src_false ?_)
      cases hx : d.regs.src v i with
      | false => rfl
      | true =>
        obtain ⟨t, ht, hw'⟩ := (hs v i).1 hx
        rw [h, Option.some.injEq] at ht
        exact absurd (ht ▸ hw') hw
  · by_cases hm : Mentions v s.right
    · exact removeSink_flat i _ _ hf hm
    · refine (removeSink_less i _ _).snk_false ((removeSource_less i _ _).snk_false ?_)
      cases hx : d.regs.snk v i with
      | false => rfl
      | true =>
        obtain ⟨t, ht, hw'⟩ := (hs v i).2 hx
        rw [h, Option.some.injEq] at ht
        subst ht
        exact hw'.elim (fun x => absurd x hm) (fun x => absurd x (hp v))

theorem unplace_gone {d : Db} {i : Nat} (hs : Sound d)
    (ht : ∀ s, d.stms[i]? = some s → Flat s.right ∧ ∀ v, ¬ Picks v s.left) : Gone i (unplace d i).regs := by
  unfold unplace
  split
  · rename_i hn
    intro v
    constructor
    · cases hx : d.regs.src v i with
      | false => rfl
      | true => obtain ⟨t, ht, _⟩ := (hs v i).1 hx; rw [hn] at ht; cases ht
    · cases hx : d.regs.snk v i with
      | false => rfl
      | true => obtain ⟨t, ht, _⟩ := (hs v i).2 hx; rw [hn] at ht; cases ht
  · rename_i s h
    exact removed_gone hs h (ht s h).1 (ht s h).2

/-- Clearing a list of statements. -/
structure Cleared (L : List Nat) (d d' : Db) : Prop where
  bodies : d'.bodies = d.bodies
  unwired : d'.unwired = d.unwired
  len : d'.stms.length = d.stms.length
  keeps : Keeps d d'
  less : ∀ v j, (d'.regs.src v j = true → d.regs.src v j = true) ∧ (d'.regs.snk v j = true → d.regs.snk v j = true)
  other : ∀ j, j ∉ L → d'.stms[j]? = d.stms[j]? ∧ ∀ v, d'.regs.src v j = d.regs.src v j ∧ d'.regs.snk v j = d.regs.snk v j
  held : ∀ j ∈ L, ∀ s, d'.stms[j]? = some s → s.held = false
  gone : Sound d → (∀ i ∈ L, ∀ s, d.stms[i]? = some s → Flat s.right ∧ ∀ v, ¬ Picks v s.left) → ∀ j ∈ L, Gone j d'.regs

theorem cleared : ∀ (L : List Nat) (d : Db), Cleared L d (L.foldl unplace d)
  | [], d => ⟨rfl, rfl, rfl, .refl, fun _ _ => ⟨id, id⟩, fun _ _ => ⟨rfl, fun _ => ⟨rfl, rfl⟩⟩,
      fun _ h => (by cases h), fun _ _ _ h => (by cases h)⟩
  | i :: L, d => by
    have h := cleared L (unplace d i)
    rw [List.foldl_cons]
    have hl := unplace_less d i
    refine ⟨h.bodies.trans (unplace_bodies d i).1, h.unwired.trans (unplace_bodies d i).2,
      h.len.trans (unplace_length d i), (unplace_keeps d i).trans h.keeps,
      fun v j => ⟨fun x => (hl v j).1 ((h.less v j).1 x), fun x => (hl v j).2.1 ((h.less v j).2 x)⟩, ?_, ?_, ?_⟩
    · intro j hj
      rw [List.mem_cons, not_or] at hj
      refine ⟨(h.other j hj.2).1.trans (unplace_other (fun e => hj.1 e.symm)), fun v => ?_⟩
      exact ⟨((h.other j hj.2).2 v).1.trans ((hl v j).2.2 hj.1).1, ((h.other j hj.2).2 v).2.trans ((hl v j).2.2 hj.1).2⟩
    · intro j hj s hs
      by_cases hm : j ∈ L
      · exact h.held j hm s hs
      · rw [(h.other j hm).1] at hs
        rcases List.mem_cons.1 hj with rfl | hj
        · exact unplace_self hs
        · exact absurd hj hm
    · intro hs ht j hj
      have hsd : Sound (unplace d i) := sound_less hs (unplace_keeps d i) fun v j => ⟨(hl v j).1, (hl v j).2.1⟩
      rcases List.mem_cons.1 hj with rfl | hj
      · have hg := unplace_gone hs (ht j (List.mem_cons_self ..))
        intro v
        constructor
        · cases hx : (L.foldl unplace (unplace d j)).regs.src v j with
          | false => rfl
          | true => exact absurd ((h.less v j).1 hx) (by rw [(hg v).1]; decide)
        · cases hx : (L.foldl unplace (unplace d j)).regs.snk v j with
          | false => rfl
          | true => exact absurd ((h.less v j).2 hx) (by rw [(hg v).2]; decide)
      · refine h.gone hsd (fun k hk s hs' => ?_) j hj
        have hkl : k < d.stms.length := by
          have := (List.getElem?_eq_some_iff.1 hs').1
          rwa [unplace_length] at this
        obtain ⟨s', h1, h2, h3⟩ := unplace_keeps d i k _ (List.getElem?_eq_getElem hkl)
        rw [hs', Option.some.injEq] at h1
        subst h1
        have := ht k (List.mem_cons_of_mem _ hk) _ (List.getElem?_eq_getElem hkl)
        rw [h2, h3]
        exact this

/-! ### The bodies -/

/-- A statement is in one place only. -/
structure Shape (bs : List Body) : Prop where
  nodup : ∀ (b : Nat) (x : Body), bs[b]? = some x → x.items.Nodup
  disj : ∀ (b c : Nat) (x y : Body) (i : Nat), bs[b]? = some x → bs[c]? = some y → i ∈ x.items → i ∈ y.items → b = c

theorem set_cases {bs : List Body} {b c : Nat} {x y : Body} (h : (bs.set b x)[c]? = some y) :
    (c = b ∧ y = x) ∨ (c ≠ b ∧ bs[c]? = some y) := by
  rcases Nat.decEq b c with hj | rfl
  · rw [List.getElem?_set_ne hj] at h
    exact .inr ⟨fun e => hj e.symm, h⟩
  · by_cases hl : b < bs.length
    · rw [List.getElem?_set_self hl, Option.some.injEq] at h
      exact .inl ⟨rfl, h.symm⟩
    · rw [List.getElem?_eq_none (by rw [List.length_set]; omega)] at h
      cases h

theorem shape_set {bs : List Body} (hs : Shape bs) {b : Nat} {bd x : Body} (hb : bs[b]? = some bd) (hn : x.items.Nodup)
    (hi : ∀ i ∈ x.items, i ∈ bd.items ∨ ∀ (c : Nat) (y : Body), bs[c]? = some y → i ∉ y.items) : Shape (bs.set b x) := by
  constructor
  · intro c y hc
    rcases set_cases hc with ⟨_, rfl⟩ | ⟨_, hc⟩
    · exact hn
    · exact hs.nodup c y hc
  · intro c c' y y' i h1 h2 m1 m2
    rcases set_cases h1 with ⟨e1, rfl⟩ | ⟨n1, h1'⟩ <;> rcases set_cases h2 with ⟨e2, rfl⟩ | ⟨n2, h2'⟩
    · rw [e1, e2]
    · rcases hi i m1 with m | m
      · exact absurd (hs.disj _ _ _ _ i hb h2' m m2).symm n2
      · exact absurd m2 (m _ _ h2')
    · rcases hi i m2 with m | m
      · exact absurd (hs.disj _ _ _ _ i hb h1' m m1).symm n1
      · exact absurd m1 (m _ _ h1')
    · exact hs.disj _ _ _ _ i h1' h2' m1 m2

theorem in_set {d d' : Db} {b i : Nat} {bd x : Body} (hb : d.bodies[b]? = some bd) (he : d'.bodies = d.bodies.set b x) :
    In d' i ↔ i ∈ x.items ∨ ∃ (c : Nat) (y : Body), c ≠ b ∧ d.bodies[c]? = some y ∧ i ∈ y.items := by
  rw [in_iff, he]
  constructor
  · rintro ⟨c, y, hc, hm⟩
    rcases set_cases hc with ⟨_, rfl⟩ | ⟨n, hc⟩
    · exact .inl hm
    · exact .inr ⟨c, y, n, hc, hm⟩
  · rintro (hm | ⟨c, y, n, hc, hm⟩)
    · exact ⟨b, x, List.getElem?_set_self (List.getElem?_eq_some_iff.1 hb).1, hm⟩
    · exact ⟨c, y, by rw [List.getElem?_set_ne (fun e => n e.symm)]; exact hc, hm⟩

/-! ### Soundness of every history -/

theorem sound_add {d d' : Db} {i : Nat} {s : Stm} (hs : Sound d) (hi : d.stms[i]? = some s) (h : place i s d = .ok d') : Sound d' := by
  obtain ⟨_, _, hst, hr⟩ := place_ok hi h
  have hk : Keeps d d' := keeps_set hi hst
  rcases hr with ⟨_, hr⟩ | ⟨_, ha⟩
  · exact sound_less hs hk fun v j => by rw [hr]; exact ⟨id, id⟩
  · obtain ⟨s', h1, hl, hr'⟩ := hk i s hi
    have hb := hs
    intro v j
    constructor
    · intro hv
      rcases (ha v j).1.1 hv with hv | ⟨rfl, hw⟩
      · obtain ⟨t, h2, h3⟩ := (hs v j).1 hv
        obtain ⟨t', h4, h5, _⟩ := hk j t h2
        exact ⟨t', h4, h5 ▸ h3⟩
      · exact ⟨s', h1, hl ▸ hw⟩
    · intro hv
      rcases (ha v j).2.1 hv with hv | ⟨rfl, hw⟩
      · obtain ⟨t, h2, h3⟩ := (hs v j).2 hv
        obtain ⟨t', h4, h5, h6⟩ := hk j t h2
        refine ⟨t', h4, ?_⟩
        unfold Reads at h3 ⊢
        rw [h5, h6]; exact h3
      · refine ⟨s', h1, ?_⟩
        unfold Reads at hw ⊢
        rw [hl, hr']; exact hw

theorem test_eq {d : Db} {b : Nat} {bd : Body} {l r : E} (hb : d.bodies[b]? = some bd) (hg : bd.gen = false) :
    step d (.test b l r) = (step d (.clear b)).bind fun d1 => (step d1 (.assign l r)).bind fun d2 =>
      step d2 (.add b d1.stms.length) := by
  have hc := cleared bd.items d
  have hbl : b < d.bodies.length := (List.getElem?_eq_some_iff.1 hb).1
  simp only [step, hb, hg, Bool.false_eq_true, if_false, Res.ok_bind, setItems, hc.bodies,
    List.getElem?_set_self hbl, List.getElem?_append_right (Nat.le_refl _), Nat.sub_self, List.getElem?_cons_zero,
    List.not_mem_nil, and_false, List.nil_append]

theorem sound_step : ∀ (o : Op) {d d' : Db}, Sound d → step d o = .ok d' → Sound d'
  | .assign l r, d, d', hs, h => by
    cases h
    refine sound_less hs (fun i s hi => ⟨s, ?_, rfl, rfl⟩) fun v j => ⟨id, id⟩
    exact List.getElem?_append_left (List.getElem?_eq_some_iff.1 hi).1 ▸ hi
  | .body g, d, d', hs, h => by cases h; exact hs
  | .add b i, d, d', hs, h => by
    simp only [step] at h
    split at h
    · rename_i bd s hb hi
      split at h
      · cases h
      · simp only [Res.bind_eq_ok, Res.ok.injEq] at h
        obtain ⟨d1, h1, rfl⟩ := h
        have := sound_add hs hi h1
        exact this
    · cases h; exact hs
  | .remove b i, d, d', hs, h => by
    simp only [step] at h
    split at h <;> (cases h; exact hs)
  | .unwire b x y, d, d', hs, h => by
    simp only [step] at h
    split at h
    · split at h
      · cases h; exact hs
      · rename_i i _
        split at h
        · cases h; exact hs
        · rename_i s _
          cases h
          have hl := (removeSource_less i s.left d.regs).trans (removeSink_less i s.right _)
          exact sound_less hs (fun i s hi => ⟨s, hi, rfl, rfl⟩) fun v j => ⟨(hl v j).1, (hl v j).2.1⟩
    · cases h; exact hs
  | .clear b, d, d', hs, h => by
    simp only [step] at h
    split at h
    · rename_i bd hb
      split at h
      · cases h; exact hs
      · cases h
        have hc := cleared bd.items d
        exact sound_less hs hc.keeps hc.less
    · cases h; exact hs
  | .test b l r, d, d', hs, h => by
    cases hb : d.bodies[b]? with
    | none => simp only [step, hb] at h; cases h; exact hs
    | some bd =>
      cases hg : bd.gen with
      | true => simp only [step, hb, hg, if_true] at h; cases h; exact hs
      | false =>
        rw [test_eq hb hg, Res.bind_eq_ok] at h
        obtain ⟨d1, h1, h⟩ := h
        rw [Res.bind_eq_ok] at h
        obtain ⟨d2, h2, h⟩ := h
        exact sound_step (.add b d1.stms.length) (sound_step (.assign l r) (sound_step (.clear b) hs h1) h2) h
termination_by o => match o with | .test .. => 1 | _ => 0

theorem sound_run : ∀ (os : List Op) {d d' : Db}, Sound d → run d os = .ok d' → Sound d'
  | [], _, _, hs, h => by cases h; exact hs
  | o :: os, _, _, hs, h => by
    simp only [run, Res.bind_eq_ok] at h
    obtain ⟨d1, h1, h⟩ := h
    exact sound_run os (sound_step o hs h1) h

theorem sound_empty : Sound empty := fun _ _ => ⟨fun h => (by cases h), fun h => (by cases h)⟩

/-! ### Completeness of careful histories -/

structure Inv (d : Db) : Prop where
  shape : Shape d.bodies
  placed : ∀ i, In d i → ∃ s : Stm, d.stms[i]? = some s ∧ s.held = true ∧ i ∉ d.unwired
  full : ∀ (i : Nat) (s : Stm), d.stms[i]? = some s → s.held = true → i ∉ d.unwired →
    ∀ v, (Writes v s.left → d.regs.src v i = true) ∧ (Reads v s → d.regs.snk v i = true)
  known : ∀ i ∈ d.unwired, i < d.stms.length

theorem inv_empty : Inv empty := by
  refine ⟨⟨fun b x h => (by cases h), fun b c x y i h => (by cases h)⟩, fun i h => ?_, fun i s h => (by cases h), fun i h => (by cases h)⟩
  obtain ⟨_, h, _⟩ := h
  cases h

theorem inv_assign {d : Db} {l r : E} (h : Inv d) : Inv { d with stms := d.stms ++ [⟨l, r, false⟩] } := by
  refine ⟨h.shape, fun i hi => ?_, fun i s hs hh hu => ?_, fun i hi => ?_⟩
  · obtain ⟨s, h1, h2⟩ := h.placed i hi
    exact ⟨s, (List.getElem?_append_left (List.getElem?_eq_some_iff.1 h1).1).trans h1, h2⟩
  · by_cases hl : i < d.stms.length
    · rw [List.getElem?_append_left hl] at hs
      exact h.full i s hs hh hu
    · rw [List.getElem?_append_right (by omega)] at hs
      have hz : i - d.stms.length = 0 := by
        have := (List.getElem?_eq_some_iff.1 hs).1
        simp only [List.length_cons, List.length_nil] at this
        omega
      rw [hz, List.getElem?_cons_zero, Option.some.injEq] at hs
      rw [← hs] at hh
      cases hh
  · have := h.known i hi
    simp only [List.length_append, List.length_cons, List.length_nil]
    omega

theorem append_body {bs : List Body} {g : Bool} {b : Nat} {x : Body} (h : (bs ++ [⟨g, []⟩])[b]? = some x) :
    bs[b]? = some x ∨ x.items = [] := by
  by_cases hl : b < bs.length
  · rw [List.getElem?_append_left hl] at h; exact .inl h
  · rw [List.getElem?_append_right (by omega)] at h
    have hz : b - bs.length = 0 := by
      have := (List.getElem?_eq_some_iff.1 h).1
      simp only [List.length_cons, List.length_nil] at this
      omega
    rw [hz, List.getElem?_cons_zero, Option.some.injEq] at h
    exact .inr (by rw [← h])

theorem in_body {d : Db} {g : Bool} {i : Nat} : In { d with bodies := d.bodies ++ [⟨g, []⟩] } i ↔ In d i := by
  constructor
  · rintro ⟨x, hx, hi⟩
    rcases List.mem_append.1 hx with hx | hx
    · exact ⟨x, hx, hi⟩
    · rw [List.mem_singleton.1 hx] at hi; cases hi
  · rintro ⟨x, hx, hi⟩
    exact ⟨x, List.mem_append_left _ hx, hi⟩

theorem inv_body {d : Db} {g : Bool} (h : Inv d) : Inv { d with bodies := d.bodies ++ [⟨g, []⟩] } := by
  refine ⟨⟨fun b x hb => ?_, fun b c x y i h1 h2 m1 m2 => ?_⟩, fun i hi => h.placed i (in_body.1 hi), h.full, h.known⟩
  · rcases append_body hb with hb | hb
    · exact h.shape.nodup b x hb
    · rw [hb]; exact List.nodup_nil
  · rcases append_body h1 with h1 | h1
    · rcases append_body h2 with h2 | h2
      · exact h.shape.disj b c x y i h1 h2 m1 m2
      · rw [h2] at m2; cases m2
    · rw [h1] at m1; cases m1

theorem inv_add {d d1 : Db} {b i : Nat} {bd : Body} {s : Stm} (h : Inv d) (hb : d.bodies[b]? = some bd) (hi : d.stms[i]? = some s)
    (hn : ¬ In d i) (hu : i ∉ d.unwired) (hp : place i s d = .ok d1) : Inv (setItems d1 b bd (bd.items ++ [i])) := by
  obtain ⟨e1, e2, e3, hr⟩ := place_ok hi hp
  have hil : i < d.stms.length := (List.getElem?_eq_some_iff.1 hi).1
  have hmem : ∀ (c : Nat) (y : Body), d.bodies[c]? = some y → i ∉ y.items := fun c y hc hm => hn (in_iff.2 ⟨c, y, hc, hm⟩)
  have hbs : (setItems d1 b bd (bd.items ++ [i])).bodies = d.bodies.set b { bd with items := bd.items ++ [i] } := by
    show d1.bodies.set b _ = _
    rw [e1]
  have hin : ∀ j, In (setItems d1 b bd (bd.items ++ [i])) j → In d j ∨ j = i := by
    intro j hj
    rcases (in_set hb hbs).1 hj with hj | ⟨c, y, _, hc, hm⟩
    · rcases List.mem_append.1 hj with hj | hj
      · exact .inl (in_iff.2 ⟨b, bd, hb, hj⟩)
      · exact .inr (List.mem_singleton.1 hj)
    · exact .inl (in_iff.2 ⟨c, y, hc, hm⟩)
  refine ⟨?_, fun j hj => ?_, fun j t hj hh hju v => ?_, fun j hj => ?_⟩
  · rw [hbs]
    refine shape_set h.shape hb ?_ fun j hj => ?_
    · refine List.nodup_append.2 ⟨h.shape.nodup b bd hb, by simp, fun x hx y hy e => ?_⟩
      rw [List.mem_singleton.1 hy] at e
      exact hmem b bd hb (e ▸ hx)
    · rcases List.mem_append.1 hj with hj | hj
      · exact .inl hj
      · rw [List.mem_singleton.1 hj]; exact .inr hmem
  · show ∃ s : Stm, d1.stms[j]? = some s ∧ s.held = true ∧ j ∉ d1.unwired
    rw [e3, e2]
    rcases Nat.decEq i j with hne | rfl
    · rw [List.getElem?_set_ne hne]
      rcases hin j hj with hj | rfl
      · exact h.placed j hj
      · exact absurd rfl hne
    · exact ⟨_, List.getElem?_set_self hil, rfl, hu⟩
  · have hj' : d1.stms[j]? = some t := hj
    have hju' : j ∉ d.unwired := by rw [← e2]; exact hju
    show (Writes v t.left → d1.regs.src v j = true) ∧ (Reads v t → d1.regs.snk v j = true)
    rw [e3] at hj'
    have hold : ∀ t : Stm, d.stms[j]? = some t → t.held = true →
        (Writes v t.left → d1.regs.src v j = true) ∧ (Reads v t → d1.regs.snk v j = true) := by
      intro t ht hth
      have hf := h.full j t ht hth hju' v
      rcases hr with ⟨_, hr⟩ | ⟨_, ha⟩
      · rw [hr]; exact hf
      · exact ⟨fun hw => (ha v j).1.2 (.inl (hf.1 hw)), fun hw => (ha v j).2.2 (.inl (hf.2 hw))⟩
    rcases Nat.decEq i j with hne | rfl
    · rw [List.getElem?_set_ne hne] at hj'
      exact hold t hj' hh
    · rw [List.getElem?_set_self hil, Option.some.injEq] at hj'
      subst hj'
      rcases hr with ⟨hh', hr⟩ | ⟨_, ha⟩
      · have := hold s hi hh'
        unfold Reads at this ⊢
        exact this
      · refine ⟨fun hw => (ha v i).1.2 (.inr ⟨rfl, hw⟩), fun hw => (ha v i).2.2 (.inr ⟨rfl, ?_⟩)⟩
        unfold Reads at hw ⊢
        exact hw
  · have hj' : j ∈ d1.unwired := hj
    rw [e2] at hj'
    show j < d1.stms.length
    rw [e3, List.length_set]
    exact h.known j hj'

theorem in_clear {d d1 : Db} {b i : Nat} {bd : Body} (h : Shape d.bodies) (hb : d.bodies[b]? = some bd) (e : d1.bodies = d.bodies) :
    In (setItems d1 b bd []) i ↔ In d i ∧ i ∉ bd.items := by
  have hbs : (setItems d1 b bd []).bodies = d.bodies.set b { bd with items := [] } := by
    show d1.bodies.set b _ = _
    rw [e]
  rw [in_set hb hbs]
  constructor
  · rintro (hm | ⟨c, y, n, hc, hm⟩)
    · cases hm
    · exact ⟨in_iff.2 ⟨c, y, hc, hm⟩, fun hi => n (h.disj _ _ _ _ i hc hb hm hi)⟩
  · rintro ⟨hi, hn⟩
    obtain ⟨c, y, hc, hm⟩ := in_iff.1 hi
    refine .inr ⟨c, y, fun e => ?_, hc, hm⟩
    subst e
    rw [hb, Option.some.injEq] at hc
    exact hn (hc ▸ hm)

theorem inv_clear {d : Db} {b : Nat} {bd : Body} (h : Inv d) (hb : d.bodies[b]? = some bd) :
    Inv (setItems (bd.items.foldl unplace d) b bd []) := by
  have hc := cleared bd.items d
  refine ⟨?_, fun j hj => ?_, fun j t hj hh hju v => ?_, fun j hj => ?_⟩
  · show Shape ((bd.items.foldl unplace d).bodies.set b _)
    rw [hc.bodies]
    exact shape_set h.shape hb List.nodup_nil fun j hj => by cases hj
  · obtain ⟨h1, h2⟩ := (in_clear h.shape hb hc.bodies).1 hj
    show ∃ s : Stm, (bd.items.foldl unplace d).stms[j]? = some s ∧ s.held = true ∧ j ∉ (bd.items.foldl unplace d).unwired
    rw [hc.unwired, (hc.other j h2).1]
    exact h.placed j h1
  · have hj' : (bd.items.foldl unplace d).stms[j]? = some t := hj
    show (Writes v t.left → (bd.items.foldl unplace d).regs.src v j = true) ∧ (Reads v t → (bd.items.foldl unplace d).regs.snk v j = true)
    by_cases hm : j ∈ bd.items
    · rw [hc.held j hm t hj'] at hh; cases hh
    · rw [(hc.other j hm).1] at hj'
      rw [((hc.other j hm).2 v).1, ((hc.other j hm).2 v).2]
      exact h.full j t hj' hh (by rw [← hc.unwired]; exact hju) v
  · show j < (bd.items.foldl unplace d).stms.length
    rw [hc.len]
    refine h.known j ?_
    rw [← hc.unwired]; exact hj

theorem in_erase {d d' : Db} {b i j : Nat} {bd : Body} (h : Shape d.bodies) (hb : d.bodies[b]? = some bd) (hi : i ∈ bd.items)
    (e : d'.bodies = d.bodies.set b { bd with items := bd.items.erase i }) : In d' j ↔ In d j ∧ j ≠ i := by
  rw [in_set hb e]
  have hnd := h.nodup b bd hb
  constructor
  · rintro (hm | ⟨c, y, n, hc, hm⟩)
    · have := (hnd.mem_erase_iff).1 hm
      exact ⟨in_iff.2 ⟨b, bd, hb, this.2⟩, this.1⟩
    · exact ⟨in_iff.2 ⟨c, y, hc, hm⟩, fun e => n (h.disj _ _ _ _ j hc hb hm (e ▸ hi))⟩
  · rintro ⟨hj, hn⟩
    obtain ⟨c, y, hc, hm⟩ := in_iff.1 hj
    by_cases e : c = b
    · subst e
      rw [hb, Option.some.injEq] at hc
      subst hc
      exact .inl ((hnd.mem_erase_iff).2 ⟨hn, hm⟩)
    · exact .inr ⟨c, y, e, hc, hm⟩

theorem inv_unwire {d : Db} {b i : Nat} {bd : Body} {s : Stm} (h : Inv d) (hb : d.bodies[b]? = some bd) (hi : i ∈ bd.items)
    (hs : d.stms[i]? = some s) : Inv { setItems d b bd (bd.items.erase i) with
            regs := removeSink i s.right (removeSource i s.left d.regs), unwired := i :: d.unwired } := by
  have hl := (removeSource_less i s.left d.regs).trans (removeSink_less i s.right _)
  refine ⟨?_, fun j hj => ?_, fun j t hj hh hju v => ?_, fun j hj => ?_⟩
  · exact shape_set h.shape hb ((h.shape.nodup b bd hb).sublist List.erase_sublist) fun j hj => .inl (List.mem_of_mem_erase hj)
  · obtain ⟨h1, h2⟩ := (in_erase (d := d) h.shape hb hi rfl).1 hj
    obtain ⟨s, h3, h4, h5⟩ := h.placed j h1
    exact ⟨s, h3, h4, fun hm => (List.mem_cons.1 hm).elim h2 h5⟩
  · rw [List.mem_cons, not_or] at hju
    have := h.full j t hj hh hju.2 v
    refine ⟨fun hw => ?_, fun hw => ?_⟩
    · show (removeSink i s.right (removeSource i s.left d.regs)).src v j = true
      rw [((hl v j).2.2 hju.1).1]; exact this.1 hw
    · show (removeSink i s.right (removeSource i s.left d.regs)).snk v j = true
      rw [((hl v j).2.2 hju.1).2]; exact this.2 hw
  · rcases List.mem_cons.1 hj with rfl | hj
    · exact (List.getElem?_eq_some_iff.1 hs).1
    · exact h.known j hj

theorem inv_remove {d : Db} {b i : Nat} {bd : Body} (h : Inv d) (hb : d.bodies[b]? = some bd) :
    Inv (setItems d b bd (bd.items.erase i)) := by
  refine ⟨?_, fun j hj => ?_, h.full, h.known⟩
  · exact shape_set h.shape hb ((h.shape.nodup b bd hb).sublist List.erase_sublist) fun j hj => .inl (List.mem_of_mem_erase hj)
  · refine h.placed j ?_
    rcases (in_set (d := d) hb rfl).1 hj with hj | ⟨c, y, _, hc, hm⟩
    · exact in_iff.2 ⟨b, bd, hb, List.mem_of_mem_erase hj⟩
    · exact in_iff.2 ⟨c, y, hc, hm⟩

theorem inv_step : ∀ (o : Op) {d d' : Db}, Inv d → CarefulOp d o → step d o = .ok d' → Inv d'
  | .assign l r, d, d', hs, _, h => by cases h; exact inv_assign hs
  | .body g, d, d', hs, _, h => by cases h; exact inv_body hs
  | .add b i, d, d', hs, hc, h => by
    simp only [step] at h
    split at h
    · rename_i bd s hb hi
      split at h
      · cases h
      · simp only [Res.bind_eq_ok, Res.ok.injEq] at h
        obtain ⟨d1, h1, rfl⟩ := h
        exact inv_add hs hb hi hc.1 hc.2 h1
    · cases h; exact hs
  | .remove b i, d, d', hs, _, h => by
    simp only [step] at h
    split at h
    · rename_i bd hb; cases h; exact inv_remove hs hb
    · cases h; exact hs
  | .unwire b x y, d, d', hs, _, h => by
    simp only [step] at h
    split at h
    · rename_i bd hb
      split at h
      · cases h; exact hs
      · rename_i i hi
        split at h
        · cases h; exact hs
        · rename_i s hst
          cases h
          exact inv_unwire hs hb (List.mem_of_find?_eq_some hi) hst
    · cases h; exact hs
  | .clear b, d, d', hs, _, h => by
    simp only [step] at h
    split at h
    · rename_i bd hb
      split at h
      · cases h; exact hs
      · cases h
        exact inv_clear hs hb
    · cases h; exact hs
  | .test b l r, d, d', hs, _, h => by
    cases hb : d.bodies[b]? with
    | none => simp only [step, hb] at h; cases h; exact hs
    | some bd =>
      cases hg : bd.gen with
      | true => simp only [step, hb, hg, if_true] at h; cases h; exact hs
      | false =>
        rw [test_eq hb hg, Res.bind_eq_ok] at h
        obtain ⟨d1, h1, h⟩ := h
        rw [Res.bind_eq_ok] at h
        obtain ⟨d2, h2, h⟩ := h
        have i1 := inv_step (.clear b) hs trivial h1
        have i2 := inv_step (.assign l r) i1 trivial h2
        cases h2
        refine inv_step (.add b d1.stms.length) i2 ⟨fun hin => ?_, fun hu => ?_⟩ h
        · obtain ⟨s, hs', _⟩ := i1.placed d1.stms.length hin
          have := (List.getElem?_eq_some_iff.1 hs').1
          omega
        · have := i1.known _ hu
          omega
termination_by o => match o with | .test .. => 1 | _ => 0

theorem inv_run : ∀ (os : List Op) {d d' : Db}, Inv d → Always CarefulOp d os → run d os = .ok d' → Inv d'
  | [], _, _, hs, _, h => by cases h; exact hs
  | o :: os, _, _, hs, hc, h => by
    simp only [run, Res.bind_eq_ok] at h
    obtain ⟨d1, h1, h⟩ := h
    exact inv_run os (inv_step o hs hc.1 h1) (hc.2 d1 h1) h

/-! ### Nothing left over -/

/-- Only statements in the design are registered. -/
def Only (d : Db) : Prop := ∀ v i, (d.regs.src v i = true → In d i) ∧ (d.regs.snk v i = true → In d i)

theorem only_clear {d : Db} {b : Nat} {bd : Body} (h : Inv d) (hs : Sound d) (ho : Only d) (hb : d.bodies[b]? = some bd)
    (ht : ∀ i ∈ bd.items, ∀ s, d.stms[i]? = some s → Flat s.right ∧ ∀ v, ¬ Picks v s.left) :
    Only (setItems (bd.items.foldl unplace d) b bd []) := by
  have hc := cleared bd.items d
  intro v j
  rw [in_clear h.shape hb hc.bodies]
  constructor
  · intro hx
    have hx' : (bd.items.foldl unplace d).regs.src v j = true := hx
    refine ⟨(ho v j).1 ((hc.less v j).1 hx'), fun hm => ?_⟩
    rw [(hc.gone hs ht j hm v).1] at hx'
    cases hx'
  · intro hx
    have hx' : (bd.items.foldl unplace d).regs.snk v j = true := hx
    refine ⟨(ho v j).2 ((hc.less v j).2 hx'), fun hm => ?_⟩
    rw [(hc.gone hs ht j hm v).2] at hx'
    cases hx'

theorem only_add {d d1 : Db} {b i : Nat} {bd : Body} {s : Stm} (ho : Only d) (hb : d.bodies[b]? = some bd) (hi : d.stms[i]? = some s)
    (hp : place i s d = .ok d1) : Only (setItems d1 b bd (bd.items ++ [i])) := by
  obtain ⟨e1, e2, e3, hr⟩ := place_ok hi hp
  have hbs : (setItems d1 b bd (bd.items ++ [i])).bodies = d.bodies.set b { bd with items := bd.items ++ [i] } := by
    show d1.bodies.set b _ = _
    rw [e1]
  have hin : ∀ j, In d j ∨ j = i → In (setItems d1 b bd (bd.items ++ [i])) j := by
    intro j hj
    rw [in_set hb hbs]
    rcases hj with hj | rfl
    · obtain ⟨c, y, hc, hm⟩ := in_iff.1 hj
      by_cases e : c = b
      · subst e
        rw [hb, Option.some.injEq] at hc
        subst hc
        exact .inl (List.mem_append_left _ hm)
      · exact .inr ⟨c, y, e, hc, hm⟩
    · exact .inl (List.mem_append_right _ (List.mem_singleton.2 rfl))
  intro v j
  constructor
  · intro hx
    have hx' : d1.regs.src v j = true := hx
    rcases hr with ⟨_, hr⟩ | ⟨_, ha⟩
    · rw [hr] at hx'; exact hin j (.inl ((ho v j).1 hx'))
    · rcases (ha v j).1.1 hx' with hx' | hx'
      · exact hin j (.inl ((ho v j).1 hx'))
      · exact hin j (.inr hx'.1)
  · intro hx
    have hx' : d1.regs.snk v j = true := hx
    rcases hr with ⟨_, hr⟩ | ⟨_, ha⟩
    · rw [hr] at hx'; exact hin j (.inl ((ho v j).2 hx'))
    · rcases (ha v j).2.1 hx' with hx' | hx'
      · exact hin j (.inl ((ho v j).2 hx'))
      · exact hin j (.inr hx'.1)

theorem only_step : ∀ (o : Op) {d d' : Db}, Inv d → Sound d → Only d → TidyOp d o → step d o = .ok d' → Only d'
  | .assign l r, d, d', hi, hs, ho, _, h => by cases h; exact ho
  | .body g, d, d', hi, hs, ho, _, h => by
    cases h
    intro v i
    rw [in_body]
    exact ho v i
  | .add b i, d, d', hi, hs, ho, ht, h => by
    simp only [step] at h
    split at h
    · rename_i bd s hb hi
      split at h
      · cases h
      · simp only [Res.bind_eq_ok, Res.ok.injEq] at h
        obtain ⟨d1, h1, rfl⟩ := h
        exact only_add ho hb hi h1
    · cases h; exact ho
  | .remove b i, d, d', hi, hs, ho, ht, h => ht.elim
  | .unwire b x y, d, d', hi, hs, ho, ht, h => by
    simp only [step] at h
    split at h
    · rename_i bd hb
      split at h
      · cases h; exact ho
      · rename_i i hf
        split at h
        · cases h; exact ho
        · rename_i s hst
          cases h
          have hm := List.mem_of_find?_eq_some hf
          have hw := List.find?_some hf
          unfold wires at hw
          rw [hst] at hw
          have htt := ht bd hb i hm s hst (of_decide_eq_true hw)
          have hg := removed_gone hs hst htt.1 htt.2
          have hl := (removeSource_less i s.left d.regs).trans (removeSink_less i s.right _)
          intro v j
          rw [in_erase (d := d) hi.shape hb hm rfl]
          refine ⟨fun hx => ⟨(ho v j).1 ((hl v j).1 hx), fun e => ?_⟩, fun hx => ⟨(ho v j).2 ((hl v j).2.1 hx), fun e => ?_⟩⟩
          · subst e
            have hx' : (removeSink j s.right (removeSource j s.left d.regs)).src v j = true := hx
            rw [(hg v).1] at hx'; cases hx'
          · subst e
            have hx' : (removeSink j s.right (removeSource j s.left d.regs)).snk v j = true := hx
            rw [(hg v).2] at hx'; cases hx'
    · cases h; exact ho
  | .clear b, d, d', hi, hs, ho, ht, h => by
    simp only [step] at h
    split at h
    · rename_i bd hb
      split at h
      · cases h; exact ho
      · cases h
        exact only_clear hi hs ho hb (ht bd hb)
    · cases h; exact ho
  | .test b l r, d, d', hi, hs, ho, ht, h => by
    cases hb : d.bodies[b]? with
    | none => simp only [step, hb] at h; cases h; exact ho
    | some bd =>
      cases hg : bd.gen with
      | true => simp only [step, hb, hg, if_true] at h; cases h; exact ho
      | false =>
        rw [test_eq hb hg, Res.bind_eq_ok] at h
        obtain ⟨d1, h1, h⟩ := h
        rw [Res.bind_eq_ok] at h
        obtain ⟨d2, h2, h⟩ := h
        have i1 := inv_step (.clear b) hi trivial h1
        have s1 := sound_step (.clear b) hs h1
        have o1 := only_step (.clear b) hi hs ho ht h1
        exact only_step (.add b d1.stms.length) (inv_step (.assign l r) i1 trivial h2) (sound_step (.assign l r) s1 h2)
          (only_step (.assign l r) i1 s1 o1 trivial h2) trivial h
termination_by o => match o with | .test .. => 1 | _ => 0

theorem only_run : ∀ (os : List Op) {d d' : Db}, Inv d → Sound d → Only d → Always CarefulOp d os → Always TidyOp d os →
    run d os = .ok d' → Only d'
  | [], _, _, _, _, ho, _, _, h => by cases h; exact ho
  | o :: os, _, _, hi, hs, ho, hc, ht, h => by
    simp only [run, Res.bind_eq_ok] at h
    obtain ⟨d1, h1, h⟩ := h
    exact only_run os (inv_step o hi hc.1 h1) (sound_step o hs h1) (only_step o hi hs ho ht.1 h1) (hc.2 d1 h1) (ht.2 d1 h1) h

/-! ## C96 -/

/-- After any calls whatever, a statement recorded as a driver of a variable writes it, and one recorded as a
reader reads it. -/
theorem registry_sound (os : List Op) (d : Db) (h : run empty os = .ok d) (v i : Nat) :
    (d.regs.src v i = true → ∃ s, d.stms[i]? = some s ∧ Writes v s.left) ∧
    (d.regs.snk v i = true → ∃ s, d.stms[i]? = some s ∧ Reads v s) :=
  sound_run os sound_empty h v i

/-- If statements are added only when they are nowhere and were not unwired, every statement in the design is
recorded for all it writes and all it reads. -/
theorem registry_complete_partial (os : List Op) (d : Db) (hc : Always CarefulOp empty os) (h : run empty os = .ok d)
    (v i : Nat) (s : Stm) (hi : In d i) (hs : d.stms[i]? = some s) :
    (Writes v s.left → d.regs.src v i = true) ∧ (Reads v s → d.regs.snk v i = true) := by
  have hv := inv_run os inv_empty hc h
  obtain ⟨s', h1, h2, h3⟩ := hv.placed i hi
  rw [hs, Option.some.injEq] at h1
  exact hv.full i s hs (h1 ▸ h2) h3 v

/-- If moreover no statement is removed except by `unwire` and `clear`, and those read no slices and have no
index on the left, the recorded drivers and readers are exact. -/
theorem registry_exact_partial (os : List Op) (d : Db) (hc : Always CarefulOp empty os) (ht : Always TidyOp empty os)
    (h : run empty os = .ok d) : Exact d := by
  have ho : Only d := only_run os inv_empty sound_empty (fun _ _ => ⟨fun h => (by cases h), fun h => (by cases h)⟩) hc ht h
  have hs := sound_run os sound_empty h
  intro v i
  refine ⟨⟨fun hx => ⟨(ho v i).1 hx, (hs v i).1 hx⟩, ?_⟩, ⟨fun hx => ⟨(ho v i).2 hx, (hs v i).2 hx⟩, ?_⟩⟩
  · rintro ⟨hi, s, h1, h2⟩
    exact (registry_complete_partial os d hc h v i s hi h1).1 h2
  · rintro ⟨hi, s, h1, h2⟩
    exact (registry_complete_partial os d hc h v i s hi h1).2 h2

/-! ### Examples and disagreements -/

/-- The drivers and readers recorded for the first variables. -/
def shown (r : Res Db) (v i : Nat) : Option (Bool × Bool) :=
  match r with
  | .ok d => some (d.regs.src v i, d.regs.snk v i)
  | _ => none

/-- `a[i] = b + c` in a block, `if (b)`, then its predicate changed to `c`; `d = c` wired and unwired. -/
def sample : List Op := [.body false, .assign (.ix (.var 0) (.var 1)) (.bin 0 (.var 2) (.var 3)), .add 0 0,
  .body false, .test 1 (.var 9) (.var 2), .test 1 (.var 9) (.var 3),
  .body true, .assign (.var 4) (.var 3), .add 2 3, .unwire 2 (.var 3) (.var 4)]

instance (d : Db) (i : Nat) : Decidable (In d i) := inferInstanceAs (Decidable (∃ b ∈ d.bodies, i ∈ b.items))

theorem always_cons {P : Db → Op → Prop} {d d' : Db} {o : Op} {os : List Op} (h : P d o) (hs : step d o = .ok d')
    (ha : Always P d' os) : Always P d (o :: os) :=
  ⟨h, fun d1 h1 => by rw [hs, Res.ok.injEq] at h1; exact h1 ▸ ha⟩

example : Always CarefulOp empty sample := by
  refine always_cons trivial rfl (always_cons trivial rfl (always_cons ⟨?_, ?_⟩ rfl (always_cons trivial rfl
    (always_cons trivial rfl (always_cons trivial rfl (always_cons trivial rfl (always_cons trivial rfl
    (always_cons ⟨?_, ?_⟩ rfl (always_cons trivial rfl trivial))))))))) <;> decide +kernel

example : Always TidyOp empty sample := by
  refine always_cons trivial rfl (always_cons trivial rfl (always_cons trivial rfl (always_cons trivial rfl
    (always_cons ?_ rfl (always_cons ?_ rfl (always_cons trivial rfl (always_cons trivial rfl
    (always_cons trivial rfl (always_cons ?_ rfl trivial)))))))))
  · intro bd hb i hi
    cases hb
    cases hi
  · intro bd hb i hi s hs
    cases hb
    rcases List.mem_singleton.1 hi with rfl
    cases hs
    exact ⟨trivial, fun v h => by cases h⟩
  · intro bd hb i hi s hs _
    cases hb
    rcases List.mem_singleton.1 hi with rfl
    cases hs
    exact ⟨trivial, fun v h => by cases h⟩

/-- `a` is written and not read, `i`, `b` and `c` are read, the old test and the unwired statement are gone. -/
example : [0, 1, 2, 3].map (fun v => shown (run empty sample) v 0) =
    [some (true, false), some (false, true), some (false, true), some (false, true)] := by decide +kernel
example : [(2, 1), (3, 2), (9, 2), (3, 3), (4, 3)].map (fun p => shown (run empty sample) p.1 p.2) =
    [some (false, false), some (false, true), some (true, false), some (false, false), some (false, false)] := by decide +kernel

/-- `a = b`, added and removed with `remove_stmt`: still a driver of `a` and a reader of `b`. -/
def removed : List Op := [.body true, .assign (.var 0) (.var 1), .add 0 0, .remove 0 0]
theorem remove_wrong : shown (run empty removed) 0 0 = some (true, false) ∧ shown (run empty removed) 1 0 = some (false, true) ∧
    (run empty removed).map (fun d => d.bodies) = .ok [⟨true, []⟩] := by decide +kernel

/-- `a = b[3:0]` wired and unwired: still a reader of `b`. -/
theorem slice_wrong : shown (run empty [.body true, .assign (.var 0) (.sl (.var 1) 3 0), .add 0 0,
    .unwire 0 (.var 0) (.sl (.var 1) 3 0)]) 1 0 = some (false, true) := by decide +kernel

/-- `a[i] = b` in a block that is then cleared: still a reader of `i`. -/
theorem index_wrong : shown (run empty [.body false, .assign (.ix (.var 0) (.var 1)) (.var 2), .add 0 0, .clear 0]) 1 0 =
    some (false, true) := by decide +kernel

/-- A statement unwired and added again is in the design but not recorded. -/
def again : List Op := [.body true, .assign (.var 0) (.var 1), .add 0 0, .unwire 0 (.var 0) (.var 1), .add 0 0]
theorem again_lost : shown (run empty again) 0 0 = some (false, false) ∧
    (run empty again).map (fun d => d.bodies) = .ok [⟨true, [0]⟩] := by decide +kernel

/-- A statement in two blocks, one of which is cleared, is in the design but not recorded. -/
def shared : List Op := [.body false, .body false, .assign (.var 0) (.var 1), .add 0 0, .add 1 0, .clear 0]
theorem shared_lost : shown (run empty shared) 0 0 = some (false, false) ∧
    (run empty shared).map (fun d => d.bodies) = .ok [⟨false, []⟩, ⟨false, [0]⟩] := by decide +kernel

theorem not_ExactClaim : ¬ ExactClaim := by
  intro h
  have hx := ((h removed _ rfl) 0 0).1.1 rfl
  obtain ⟨b, hb, hi⟩ := hx.1
  rcases List.mem_singleton.1 hb with rfl
  cases hi

end Kratos.Registry
