import Verif.Base

/-!
# Replacing a variable in the statements that use it (property C75)

Models `Var::move_src_to`, `Var::move_sink_to` and what they call, src/expr.cc:1487-1677.  `decouple_generator_ports` uses them to
route the port of a child through a new variable of the parent; the FSM, pipeline and fan-out passes use them too.

Simplifications: expressions are trees.  In the code they are objects that may be shared between statements and are changed in place;
every statement of the generator that shares one is itself in the list of statements walked over, and a second visit finds nothing left
to replace (`again`); what becomes of objects shared with statements of other generators is in Verif/Pass/Shared.lean (C123).  `move_linked_to` (src/expr.cc:1679-1718) is called on the new variable with itself as argument and returns at once
(1680).  The width parameter handed on (1629-1632, 1662-1665) is left out.
-/

namespace Kratos.Replace

/-! ### Model -/

mutual
/-- Expressions, src/expr.hh: variables and ports; constants; parameters and loop variables; `VarSlice`/`PackedSlice`; `VarVarSlice`;
unary and binary `Expr`; `VarConcat` (its `vars_`); `VarExtend` (its `parent_`, which is what is printed); `VarDuplicated`;
`ConditionalExpr`; `VarCasted`; `FunctionCallVar`. -/
inductive E where
  | var (v : Nat)
  | const (k : Int)
  | param (p : Nat)
  | sl (e : E) (hi lo : Nat)
  | ix (e i : E)
  | un (o : Nat) (a : E)
  | bin (o : Nat) (a b : E)
  | cat (xs : Es)
  | ext (w : Nat) (a : E)
  | dup (k : Nat) (a : E)
  | ite (c a b : E)
  | cast (k : Nat) (a : E)
  | call (f : Nat) (args : Es)
inductive Es where
  | nil
  | cons (x : E) (xs : Es)
end

deriving instance DecidableEq, Repr for E, Es

/-- `set_slice_var_parent`, src/expr.cc:1487-1511: walks up through slices; if the variable at the end is the target, the slices are
taken again from the new variable (`slice_var`, src/expr.hh:367, 412), with the same indices. -/
def rebuild (t : Nat) (n : E) : E → Option E
  | .var v => if v = t then some n else none
  | .sl e hi lo => (rebuild t n e).map fun e' => .sl e' hi lo
  | .ix e i => (rebuild t n e).map fun e' => .ix e' i
  | _ => none

/-- Where an expression stands below the one being changed: a `left` or `right`, an element of a concatenation, what a `VarExtend`
prints, the condition of a `ConditionalExpr`. -/
inductive Pos where
  | operand | element | extended | condition
  deriving DecidableEq, Repr

/-- `VarConcat::replace_var`, src/expr.cc:1322-1327: the first element that is the target. -/
def replaceFirst (t : Nat) (n : E) : Es → Es
  | .nil => .nil
  | .cons x xs => if x = .var t then .cons n xs else .cons x (replaceFirst t n xs)

mutual
/-- `change_var_expr`, src/expr.cc:1513-1557, for the operands of an expression.  Operands that are expressions are changed in place
(1516-1521), direct references and slices are replaced in `left` and `right` only (1523-1538): the list a concatenation prints is
updated by `replace_var` (1540-1543), what a `VarExtend` prints is not, and a slice in a condition is replaced in a local copy of the
pointer (1547, 1552-1553). -/
def chg (t : Nat) (n : E) (p : Pos) : E → E
  | .var v => if v = t ∧ (p = .operand ∨ p = .condition) then n else .var v
  | .const k => .const k
  | .param k => .param k
  | .sl e hi lo => if p = .operand then (rebuild t n (.sl e hi lo)).getD (.sl e hi lo) else .sl e hi lo
  | .ix e i => if p = .operand then (rebuild t n (.ix e i)).getD (.ix e i) else .ix e i
  | .un o a => .un o (chg t n .operand a)
  | .bin o a b => .bin o (chg t n .operand a) (chg t n .operand b)
  | .cat xs => .cat (replaceFirst t n (chgs t n xs))
  | .ext w a => .ext w (chg t n .extended a)
  | .dup k a => .dup k (chg t n .operand a)
  | .ite c a b => .ite (chg t n .condition c) (chg t n .operand a) (chg t n .operand b)
  | .cast k a => .cast k a
  | .call f as => .call f as
def chgs (t : Nat) (n : E) : Es → Es
  | .nil => .nil
  | .cons x xs => .cons (chg t n .element x) (chgs t n xs)
end

/-- `set_slice_var_parent` with `check_target`, src/expr.cc:1497-1502. -/
def rebuildOr (t : Nat) (n : E) (e : E) : Res E :=
  match rebuild t n e with
  | some e' => .ok e'
  | none => .throw .user

/-- `change_cast_parent` and `change_var_parent`, src/expr.cc:1561-1579, on what a cast is applied to. -/
def castParent (t : Nat) (n : E) : E → Res E
  | .var v => .ok (if v = t then n else .var v)
  | .const k => .ok (.const k)
  | .param k => .ok (.param k)
  | .call f as => .ok (.call f as)
  | .sl e hi lo => rebuildOr t n (.sl e hi lo)
  | .ix e i => rebuildOr t n (.ix e i)
  | .cast k a => (castParent t n a).map fun a' => .cast k a'
  | e => .ok (chg t n .operand e)

/-- `stmt_set_right` and `stmt_set_left`, src/expr.cc:1581-1613.  A function call has the type of a plain variable
(src/expr.cc:2266-2269). -/
def setSide (t : Nat) (n : E) : E → Res E
  | .var v => if v = t then .ok n else .throw .user
  | .const _ => .throw .user
  | .call _ _ => .throw .user
  | .param k => .ok (.param k)
  | .sl e hi lo => rebuildOr t n (.sl e hi lo)
  | .ix e i => rebuildOr t n (.ix e i)
  | .cast k a => (castParent t n a).map fun a' => .cast k a'
  | e => .ok (chg t n .operand e)

/-- `VarType::Expression`. -/
def E.isExpr : E → Bool
  | .un _ _ | .bin _ _ _ | .cat _ | .ext _ _ | .dup _ _ | .ite _ _ _ => true
  | _ => false

mutual
/-- The variables to which `add_sink` is passed down when the expression is on the right, src/expr.cc:703-706, 1073, 1253-1257,
1351, 1384, 1742-1755, 1792-1796, 2320-2323. -/
def E.sinkOf (t : Nat) : E → Bool
  | .var v => v == t
  | .const _ => false
  | .param _ => false
  | .sl e _ _ => e.sinkOf t
  | .ix e i => e.sinkOf t || i.sinkOf t
  | .un _ a => a.sinkOf t
  | .bin _ a b => a.sinkOf t || b.sinkOf t
  | .cat xs => xs.sinkOf t
  | .ext _ a => a.sinkOf t
  | .dup _ a => a.sinkOf t
  | .ite c a b => c.sinkOf t || a.sinkOf t || b.sinkOf t
  | .cast _ a => a.sinkOf t
  | .call _ as => as.sinkOf t
def Es.sinkOf (t : Nat) : Es → Bool
  | .nil => false
  | .cons x xs => x.sinkOf t || xs.sinkOf t
end

mutual
/-- `add_source` of what stands on the left, as far as readers go: the index of a slice is one, src/expr.cc:708-711, 1074, 1241-1245. -/
def E.indexSink (t : Nat) : E → Bool
  | .sl e _ _ => e.indexSink t
  | .ix e i => e.indexSink t || i.sinkOf t
  | .cast _ a => a.indexSink t
  | .cat xs => xs.indexSink t
  | _ => false
def Es.indexSink (t : Nat) : Es → Bool
  | .nil => false
  | .cons x xs => x.indexSink t || xs.indexSink t
end

/-- What the statement is: an assignment, or the stand-in `predicate_stmt_`/`target_stmt_` of an `if` or `case`
(src/stmt.cc:239-242, 531-533). -/
inductive Kind where
  | assign | test
  deriving DecidableEq, Repr

/-- A statement with the generator it is in.  `shown` is what is printed: the right-hand side itself for an assignment; for a test the
predicate, a second pointer to the same expression. -/
structure St where
  gen : Nat
  kind : Kind
  left : E
  right : E
  shown : E
  deriving DecidableEq, Repr

/-- `var->sinks()`. -/
def St.isSink (t : Nat) (s : St) : Bool := s.right.sinkOf t || (s.kind == .assign && s.left.indexSink t)

/-- One turn of the loop of `move_sink_to`, src/expr.cc:1651-1655.  `shown` follows if it is the same pointer or the same object. -/
def moveOne (t : Nat) (n : E) (g : Nat) (s : St) : Res St :=
  if s.gen = g ∧ s.isSink t = true then
    (setSide t n s.right).map fun r =>
      { s with right := r, shown := if s.kind = .assign ∨ s.right.isExpr = true then r else s.shown }
  else .ok s

/-- `Var::move_sink_to` without the connection, src/expr.cc:1646-1668. -/
def moveSinks (t : Nat) (n : E) (g : Nat) : List St → Res (List St)
  | [] => .ok []
  | s :: ss => (moveOne t n g s).bind fun s' => (moveSinks t n g ss).map fun ss' => s' :: ss'

/-! ### Specification -/

mutual
/-- The reference `t` occurs in the text of an expression. -/
inductive Mentions (t : Nat) : E → Prop
  | var : Mentions t (.var t)
  | sl {e hi lo} : Mentions t e → Mentions t (.sl e hi lo)
  | ix {e i} : Mentions t e → Mentions t (.ix e i)
  | index {e i} : Mentions t i → Mentions t (.ix e i)
  | un {o a} : Mentions t a → Mentions t (.un o a)
  | binL {o a b} : Mentions t a → Mentions t (.bin o a b)
  | binR {o a b} : Mentions t b → Mentions t (.bin o a b)
  | cat {xs} : MentionsL t xs → Mentions t (.cat xs)
  | ext {w a} : Mentions t a → Mentions t (.ext w a)
  | dup {k a} : Mentions t a → Mentions t (.dup k a)
  | cond {c a b} : Mentions t c → Mentions t (.ite c a b)
  | thn {c a b} : Mentions t a → Mentions t (.ite c a b)
  | els {c a b} : Mentions t b → Mentions t (.ite c a b)
  | cast {k a} : Mentions t a → Mentions t (.cast k a)
  | call {f as} : MentionsL t as → Mentions t (.call f as)
inductive MentionsL (t : Nat) : Es → Prop
  | head {x xs} : Mentions t x → MentionsL t (.cons x xs)
  | tail {x xs} : MentionsL t xs → MentionsL t (.cons x xs)
end

mutual
/-- Every reference to `t` replaced by `n`. -/
def subst (t : Nat) (n : E) : E → E
  | .var v => if v = t then n else .var v
  | .const k => .const k
  | .param k => .param k
  | .sl e hi lo => .sl (subst t n e) hi lo
  | .ix e i => .ix (subst t n e) (subst t n i)
  | .un o a => .un o (subst t n a)
  | .bin o a b => .bin o (subst t n a) (subst t n b)
  | .cat xs => .cat (substs t n xs)
  | .ext w a => .ext w (subst t n a)
  | .dup k a => .dup k (subst t n a)
  | .ite c a b => .ite (subst t n c) (subst t n a) (subst t n b)
  | .cast k a => .cast k (subst t n a)
  | .call f as => .call f (substs t n as)
def substs (t : Nat) (n : E) : Es → Es
  | .nil => .nil
  | .cons x xs => .cons (subst t n x) (substs t n xs)
end

/-- Full claim: whenever the call succeeds, every statement of the generator reads as before with the old variable replaced by the
new one. -/
def ReplaceClaim : Prop := ∀ (t m g : Nat) (ss ss' : List St), moveSinks t (.var m) g ss = .ok ss' →
  ss'.map (fun s => s.shown) = ss.map (fun s => if s.gen = g then subst t (.var m) s.shown else s.shown)

/-- Second half: it succeeds. -/
def MovableClaim : Prop := ∀ (t m g : Nat) (ss : List St), ∃ ss', moveSinks t (.var m) g ss = .ok ss'

/-- A slice, a slice of it, … of `t`, with indices that do not mention `t`. -/
inductive Sliced (t : Nat) : E → Prop
  | var : Sliced t (.var t)
  | sl {e hi lo} : Sliced t e → Sliced t (.sl e hi lo)
  | ix {e i} : Sliced t e → ¬ Mentions t i → Sliced t (.ix e i)

/-- Number of elements that are `t` itself. -/
def occurs (t : Nat) : Es → Nat
  | .nil => 0
  | .cons x xs => (if x = .var t then 1 else 0) + occurs t xs

mutual
/-- The references of an operand that are found.  `b`: direct references count; `s`: slices count. -/
def Found (t : Nat) (b s : Bool) : E → Prop
  | .var v => v = t → b = true
  | .const _ => True
  | .param _ => True
  | .sl e hi lo => ¬ Mentions t e ∨ (s = true ∧ Sliced t (.sl e hi lo))
  | .ix e i => (¬ Mentions t e ∧ ¬ Mentions t i) ∨ (s = true ∧ Sliced t (.ix e i))
  | .un _ a => Found t true true a
  | .bin _ a b' => Found t true true a ∧ Found t true true b'
  | .cat xs => occurs t xs ≤ 1 ∧ Founds t xs
  | .ext _ a => Found t false false a
  | .dup _ a => Found t true true a
  | .ite c a b' => Found t true false c ∧ Found t true true a ∧ Found t true true b'
  | .cast _ a => ¬ Mentions t a
  | .call _ as => ¬ MentionsL t as
def Founds (t : Nat) : Es → Prop
  | .nil => True
  | .cons x xs => (x = .var t ∨ Found t false false x) ∧ Founds t xs
end

/-- What a cast may stand on: in addition to operands, casts at the outside. -/
def FoundCast (t : Nat) : E → Prop
  | .cast _ a => FoundCast t a
  | e => Found t true true e

/-! ### Proof -/

section
variable {t : Nat} {n : E}

theorem mentions_sl {e : E} {hi lo : Nat} : Mentions t (.sl e hi lo) ↔ Mentions t e :=
  ⟨fun h => by cases h; assumption, .sl⟩

theorem mentions_ix {e i : E} : Mentions t (.ix e i) ↔ Mentions t e ∨ Mentions t i :=
  ⟨fun h => by cases h with
    | ix h => exact .inl h
    | index h => exact .inr h, fun h => h.elim .ix .index⟩

theorem mentions_un {o : Nat} {a : E} : Mentions t (.un o a) ↔ Mentions t a := ⟨fun h => by cases h; assumption, .un⟩
theorem mentions_ext {o : Nat} {a : E} : Mentions t (.ext o a) ↔ Mentions t a := ⟨fun h => by cases h; assumption, .ext⟩
theorem mentions_dup {o : Nat} {a : E} : Mentions t (.dup o a) ↔ Mentions t a := ⟨fun h => by cases h; assumption, .dup⟩
theorem mentions_cast {o : Nat} {a : E} : Mentions t (.cast o a) ↔ Mentions t a := ⟨fun h => by cases h; assumption, .cast⟩
theorem mentions_cat {xs : Es} : Mentions t (.cat xs) ↔ MentionsL t xs := ⟨fun h => by cases h; assumption, .cat⟩
theorem mentions_call {f : Nat} {xs : Es} : Mentions t (.call f xs) ↔ MentionsL t xs := ⟨fun h => by cases h; assumption, .call⟩
theorem mentions_bin {o : Nat} {a b : E} : Mentions t (.bin o a b) ↔ Mentions t a ∨ Mentions t b :=
  ⟨fun h => by cases h with
    | binL h => exact .inl h
    | binR h => exact .inr h, fun h => h.elim .binL .binR⟩
theorem mentions_ite {c a b : E} : Mentions t (.ite c a b) ↔ Mentions t c ∨ Mentions t a ∨ Mentions t b :=
  ⟨fun h => by cases h with
    | cond h => exact .inl h
    | thn h => exact .inr (.inl h)
    | els h => exact .inr (.inr h), fun h => h.elim .cond fun h => h.elim .thn .els⟩
theorem mentionsL_cons {x : E} {xs : Es} : MentionsL t (.cons x xs) ↔ Mentions t x ∨ MentionsL t xs :=
  ⟨fun h => by cases h with
    | head h => exact .inl h
    | tail h => exact .inr h, fun h => h.elim .head .tail⟩
theorem mentions_var {v : Nat} : Mentions t (.var v) ↔ v = t := ⟨fun h => by cases h; rfl, fun h => h ▸ .var⟩
theorem mentions_const {k : Int} : ¬ Mentions t (.const k) := fun h => by cases h
theorem mentions_param {k : Nat} : ¬ Mentions t (.param k) := fun h => by cases h
theorem mentionsL_nil : ¬ MentionsL t .nil := fun h => by cases h

mutual
theorem subst_of_not : ∀ e : E, ¬ Mentions t e → subst t n e = e
  | .var v, h => by rw [subst, if_neg (fun hv => h (mentions_var.2 hv))]
  | .const _, _ => rfl
  | .param _, _ => rfl
  | .sl e _ _, h => by rw [subst, subst_of_not e (fun h' => h (.sl h'))]
  | .ix e i, h => by rw [subst, subst_of_not e (fun h' => h (.ix h')), subst_of_not i (fun h' => h (.index h'))]
  | .un _ a, h => by rw [subst, subst_of_not a (fun h' => h (.un h'))]
  | .bin _ a b, h => by rw [subst, subst_of_not a (fun h' => h (.binL h')), subst_of_not b (fun h' => h (.binR h'))]
  | .cat xs, h => by rw [subst, substs_of_not xs (fun h' => h (.cat h'))]
  | .ext _ a, h => by rw [subst, subst_of_not a (fun h' => h (.ext h'))]
  | .dup _ a, h => by rw [subst, subst_of_not a (fun h' => h (.dup h'))]
  | .ite c a b, h => by
    rw [subst, subst_of_not c (fun h' => h (.cond h')), subst_of_not a (fun h' => h (.thn h')), subst_of_not b (fun h' => h (.els h'))]
  | .cast _ a, h => by rw [subst, subst_of_not a (fun h' => h (.cast h'))]
  | .call _ xs, h => by rw [subst, substs_of_not xs (fun h' => h (.call h'))]
theorem substs_of_not : ∀ xs : Es, ¬ MentionsL t xs → substs t n xs = xs
  | .nil, _ => rfl
  | .cons x xs, h => by rw [substs, subst_of_not x (fun h' => h (.head h')), substs_of_not xs (fun h' => h (.tail h'))]
end

mutual
/-- After a substitution by something that does not mention the variable, nothing does. -/
theorem not_mentions_subst (hn : ¬ Mentions t n) : ∀ e : E, ¬ Mentions t (subst t n e)
  | .var v => by
    rw [subst]; split
    · exact hn
    · exact fun h => absurd (mentions_var.1 h) (by assumption)
  | .const _ => mentions_const
  | .param _ => mentions_param
  | .sl e _ _ => fun h => not_mentions_subst hn e (mentions_sl.1 h)
  | .ix e i => fun h => (mentions_ix.1 h).elim (not_mentions_subst hn e) (not_mentions_subst hn i)
  | .un _ a => fun h => not_mentions_subst hn a (mentions_un.1 h)
  | .bin _ a b => fun h => (mentions_bin.1 h).elim (not_mentions_subst hn a) (not_mentions_subst hn b)
  | .cat xs => fun h => not_mentionsL_substs hn xs (mentions_cat.1 h)
  | .ext _ a => fun h => not_mentions_subst hn a (mentions_ext.1 h)
  | .dup _ a => fun h => not_mentions_subst hn a (mentions_dup.1 h)
  | .ite c a b => fun h => (mentions_ite.1 h).elim (not_mentions_subst hn c)
      fun h => h.elim (not_mentions_subst hn a) (not_mentions_subst hn b)
  | .cast _ a => fun h => not_mentions_subst hn a (mentions_cast.1 h)
  | .call _ xs => fun h => not_mentionsL_substs hn xs (mentions_call.1 h)
theorem not_mentionsL_substs (hn : ¬ Mentions t n) : ∀ xs : Es, ¬ MentionsL t (substs t n xs)
  | .nil => mentionsL_nil
  | .cons x xs => fun h => (mentionsL_cons.1 h).elim (not_mentions_subst hn x) (not_mentionsL_substs hn xs)
end

theorem sliced_mentions : ∀ e : E, Sliced t e → Mentions t e
  | _, .var => .var
  | _, .sl h => .sl (sliced_mentions _ h)
  | _, .ix h _ => .ix (sliced_mentions _ h)

theorem rebuild_sliced : ∀ e : E, Sliced t e → rebuild t n e = some (subst t n e)
  | _, .var => by simp [rebuild, subst]
  | _, .sl h => by simp [rebuild, subst, rebuild_sliced _ h]
  | _, .ix h hi => by simp [rebuild, subst, rebuild_sliced _ h, subst_of_not _ hi]

theorem rebuild_none : ∀ e : E, ¬ Mentions t e → rebuild t n e = none
  | .var v, h => by rw [rebuild, if_neg (fun hv => h (mentions_var.2 hv))]
  | .const _, _ => rfl
  | .param _, _ => rfl
  | .sl e _ _, h => by rw [rebuild, rebuild_none e (fun h' => h (.sl h'))]; rfl
  | .ix e i, h => by rw [rebuild, rebuild_none e (fun h' => h (.ix h'))]; rfl
  | .un _ a, h => rfl
  | .bin _ a b, h => rfl
  | .cat xs, h => rfl
  | .ext _ a, h => rfl
  | .dup _ a, h => rfl
  | .ite c a b, h => rfl
  | .cast _ a, h => rfl
  | .call _ xs, h => rfl

/-- What is rebuilt and not a slice of the target with clean indices still mentions it. -/
theorem rebuild_some_mentions : ∀ (e e' : E), rebuild t n e = some e' → ¬ Sliced t e → Mentions t e'
  | .var v, e', h, hs => by
    rw [rebuild] at h; split at h
    · rename_i hv; subst hv; exact absurd .var hs
    · cases h
  | .sl e hi lo, e', h, hs => by
    simp only [rebuild, Option.map_eq_some_iff] at h
    obtain ⟨x, hx, rfl⟩ := h
    exact .sl (rebuild_some_mentions e x hx (fun h' => hs (.sl h')))
  | .ix e i, e', h, hs => by
    simp only [rebuild, Option.map_eq_some_iff] at h
    obtain ⟨x, hx, rfl⟩ := h
    by_cases hi : Mentions t i
    · exact .index hi
    · exact .ix (rebuild_some_mentions e x hx (fun h' => hs (.ix h' hi)))
  | .const _, _, h, _ => by cases h
  | .param _, _, h, _ => by cases h
  | .un _ a, _, h, _ => by cases h
  | .bin _ a b, _, h, _ => by cases h
  | .cat xs, _, h, _ => by cases h
  | .ext _ a, _, h, _ => by cases h
  | .dup _ a, _, h, _ => by cases h
  | .ite c a b, _, h, _ => by cases h
  | .cast _ a, _, h, _ => by cases h
  | .call _ xs, _, h, _ => by cases h

/-- Flags of `Found` for a position. -/
def Pos.b : Pos → Bool
  | .operand | .condition => true
  | _ => false
def Pos.s : Pos → Bool
  | .operand => true
  | _ => false

theorem Pos.b_iff {p : Pos} : p.b = true ↔ (p = .operand ∨ p = .condition) := by cases p <;> simp [Pos.b]
theorem Pos.s_iff {p : Pos} : p.s = true ↔ p = .operand := by cases p <;> simp [Pos.s]

theorem getD_rebuild_sliced {e : E} (h : Sliced t e) : (rebuild t n e).getD e = subst t n e := by rw [rebuild_sliced e h]; rfl

mutual
theorem chg_found : ∀ (e : E) (p : Pos), Found t p.b p.s e → chg t n p e = subst t n e
  | .var v, p, h => by
    rw [chg, subst]
    by_cases hv : v = t
    · rw [if_pos ⟨hv, Pos.b_iff.1 (h hv)⟩, if_pos hv]
    · rw [if_neg (fun x => hv x.1), if_neg hv]
  | .const _, _, _ => rfl
  | .param _, _, _ => rfl
  | .sl e hi lo, p, h => by
    rw [chg]
    rcases h with h | ⟨hs, h⟩
    · have hm : ¬ Mentions t (.sl e hi lo) := fun h' => h (mentions_sl.1 h')
      rw [rebuild_none _ hm, subst_of_not _ hm]; simp
    · rw [if_pos (Pos.s_iff.1 hs), getD_rebuild_sliced h]
  | .ix e i, p, h => by
    rw [chg]
    rcases h with h | ⟨hs, h⟩
    · have hm : ¬ Mentions t (.ix e i) := fun h' => (mentions_ix.1 h').elim h.1 h.2
      rw [rebuild_none _ hm, subst_of_not _ hm]; simp
    · rw [if_pos (Pos.s_iff.1 hs), getD_rebuild_sliced h]
  | .un _ a, _, h => by rw [chg, subst, chg_found a .operand h]
  | .bin _ a b, _, h => by rw [chg, subst, chg_found a .operand h.1, chg_found b .operand h.2]
  | .cat xs, _, h => by rw [chg, subst, chgs_found xs h.2 h.1]
  | .ext _ a, _, h => by rw [chg, subst, chg_found a .extended h]
  | .dup _ a, _, h => by rw [chg, subst, chg_found a .operand h]
  | .ite c a b, _, h => by rw [chg, subst, chg_found c .condition h.1, chg_found a .operand h.2.1, chg_found b .operand h.2.2]
  | .cast _ a, _, h => by rw [chg, subst, subst_of_not a h]
  | .call _ xs, _, h => by rw [chg, subst, substs_of_not xs h]
theorem chgs_found : ∀ (xs : Es), Founds t xs → occurs t xs ≤ 1 → replaceFirst t n (chgs t n xs) = substs t n xs
  | .nil, _, _ => rfl
  | .cons x xs, h, ho => by
    rw [chgs, substs]
    by_cases hx : x = .var t
    · subst hx
      have h0 : occurs t xs = 0 := by
        have : occurs t (.cons (.var t) xs) = 1 + occurs t xs := by rw [occurs, if_pos rfl]
        omega
      have : chg t n .element (.var t) = .var t := by rw [chg, if_neg (by simp)]
      rw [this, replaceFirst, if_pos rfl, chgs_clean xs h.2 h0]
      simp [subst]
    · have hf : Found t false false x := h.1.resolve_left hx
      have hc := chg_found x .element hf
      have ho' : occurs t xs ≤ 1 := by rw [occurs, if_neg hx] at ho; omega
      rw [replaceFirst, if_neg, hc, chgs_found xs h.2 ho']
      intro he
      exact hx (chg_var x he)
theorem chgs_clean : ∀ (xs : Es), Founds t xs → occurs t xs = 0 → chgs t n xs = substs t n xs
  | .nil, _, _ => rfl
  | .cons x xs, h, ho => by
    have hx : x ≠ .var t := fun hx => by rw [occurs, if_pos hx] at ho; omega
    have h0 : occurs t xs = 0 := by rw [occurs] at ho; omega
    rw [chgs, substs, chg_found x .element (h.1.resolve_left hx), chgs_clean xs h.2 h0]
theorem chg_var : ∀ (x : E), chg t n .element x = .var t → x = .var t
  | .var v, h => by rw [chg, if_neg (by simp)] at h; exact h
  | .const _, h => by cases h
  | .param _, h => by cases h
  | .sl e hi lo, h => by rw [chg, if_neg (by simp)] at h; exact h
  | .ix e i, h => by rw [chg, if_neg (by simp)] at h; exact h
  | .un _ a, h => by cases h
  | .bin _ a b, h => by cases h
  | .cat xs, h => by cases h
  | .ext _ a, h => by cases h
  | .dup _ a, h => by cases h
  | .ite c a b, h => by cases h
  | .cast _ a, h => by cases h
  | .call _ xs, h => by cases h
end

/-- An element other than the variable itself that mentions it. -/
inductive Other (t : Nat) : Es → Prop
  | head {x xs} : x ≠ .var t → Mentions t x → Other t (.cons x xs)
  | tail {x xs} : Other t xs → Other t (.cons x xs)

theorem replaceFirst_other : ∀ (xs : Es), Other t xs → MentionsL t (replaceFirst t n xs)
  | .cons x xs, .head hx hm => by rw [replaceFirst, if_neg hx]; exact .head hm
  | .cons x xs, .tail h => by
    rw [replaceFirst]
    split
    · exact .tail (other_mentions xs h)
    · exact .tail (replaceFirst_other xs h)
where
  other_mentions : ∀ (xs : Es), Other t xs → MentionsL t xs
  | .cons _ _, .head _ hm => .head hm
  | .cons _ _, .tail h => .tail (other_mentions _ h)

theorem occurs_mentions : ∀ (xs : Es), 1 ≤ occurs t xs → MentionsL t xs
  | .nil, h => by simp [occurs] at h
  | .cons x xs, h => by
    by_cases hx : x = .var t
    · subst hx; exact .head .var
    · rw [occurs, if_neg hx] at h; exact .tail (occurs_mentions xs (by omega))

theorem replaceFirst_twice : ∀ (xs : Es), 2 ≤ occurs t xs → MentionsL t (replaceFirst t n xs)
  | .nil, h => by simp [occurs] at h
  | .cons x xs, h => by
    rw [replaceFirst]
    by_cases hx : x = .var t
    · rw [occurs, if_pos hx] at h
      rw [if_pos hx]; exact .tail (occurs_mentions xs (by omega))
    · rw [occurs, if_neg hx] at h
      rw [if_neg hx]; exact .tail (replaceFirst_twice xs (by omega))

theorem occurs_chgs : ∀ (xs : Es), occurs t (chgs t n xs) = occurs t xs
  | .nil => rfl
  | .cons x xs => by
    rw [chgs, occurs, occurs, occurs_chgs xs]
    by_cases hx : x = .var t
    · subst hx
      have : chg t n .element (.var t) = .var t := by rw [chg, if_neg (by simp)]
      rw [this]
    · rw [if_neg hx, if_neg (fun h => hx (chg_var x h))]

mutual
/-- A reference that is not found is still there. -/
theorem chg_lost : ∀ (e : E) (p : Pos), ¬ Found t p.b p.s e → Mentions t (chg t n p e)
  | .var v, p, h => by
    have hv : v = t := Classical.byContradiction fun hv => h fun hv' => absurd hv' hv
    have hp : ¬ (p = .operand ∨ p = .condition) := fun hp => h fun _ => Pos.b_iff.2 hp
    rw [chg, if_neg (fun x => hp x.2), hv]; exact .var
  | .const _, _, h => absurd trivial h
  | .param _, _, h => absurd trivial h
  | .sl e hi lo, p, h => by
    have hm : Mentions t e := Classical.byContradiction fun hm => h (.inl hm)
    rw [chg]
    by_cases hp : p = .operand
    · rw [if_pos hp]
      have hs : ¬ Sliced t (.sl e hi lo) := fun hs => h (.inr ⟨Pos.s_iff.2 hp, hs⟩)
      cases hr : rebuild t n (.sl e hi lo) with
      | none => exact .sl hm
      | some e' => exact rebuild_some_mentions _ e' hr hs
    · rw [if_neg hp]; exact .sl hm
  | .ix e i, p, h => by
    have hm : Mentions t (.ix e i) := Classical.byContradiction fun hm => h (.inl ⟨fun h' => hm (.ix h'), fun h' => hm (.index h')⟩)
    rw [chg]
    by_cases hp : p = .operand
    · rw [if_pos hp]
      have hs : ¬ Sliced t (.ix e i) := fun hs => h (.inr ⟨Pos.s_iff.2 hp, hs⟩)
      cases hr : rebuild t n (.ix e i) with
      | none => exact hm
      | some e' => exact rebuild_some_mentions _ e' hr hs
    · rw [if_neg hp]; exact hm
  | .un _ a, _, h => by rw [chg]; exact .un (chg_lost a .operand h)
  | .bin _ a b, _, h => by
    rw [chg]
    by_cases ha : Found t true true a
    · exact .binR (chg_lost b .operand fun hb => h ⟨ha, hb⟩)
    · exact .binL (chg_lost a .operand ha)
  | .cat xs, _, h => by
    rw [chg]
    refine .cat ?_
    by_cases ho : occurs t xs ≤ 1
    · exact replaceFirst_other _ (chgs_lost xs fun hf => h ⟨ho, hf⟩)
    · exact replaceFirst_twice _ (by rw [occurs_chgs]; omega)
  | .ext _ a, _, h => by rw [chg]; exact .ext (chg_lost a .extended h)
  | .dup _ a, _, h => by rw [chg]; exact .dup (chg_lost a .operand h)
  | .ite c a b, _, h => by
    rw [chg]
    by_cases hc : Found t true false c
    · by_cases ha : Found t true true a
      · exact .els (chg_lost b .operand fun hb => h ⟨hc, ha, hb⟩)
      · exact .thn (chg_lost a .operand ha)
    · exact .cond (chg_lost c .condition hc)
  | .cast _ a, _, h => by rw [chg]; exact .cast (Classical.byContradiction h)
  | .call _ xs, _, h => by rw [chg]; exact .call (Classical.byContradiction h)
theorem chgs_lost : ∀ (xs : Es), ¬ Founds t xs → Other t (chgs t n xs)
  | .nil, h => absurd trivial h
  | .cons x xs, h => by
    rw [chgs]
    by_cases hx : x = .var t ∨ Found t false false x
    · exact .tail (chgs_lost xs fun hf => h ⟨hx, hf⟩)
    · have h1 : x ≠ .var t := fun h' => hx (.inl h')
      have h2 : ¬ Found t false false x := fun h' => hx (.inr h')
      exact .head (fun h' => h1 (chg_var x h')) (chg_lost x .element h2)
end

theorem castParent_found : ∀ (e : E), FoundCast t e → Mentions t e → castParent t n e = .ok (subst t n e)
  | .var v, _, h => by rw [mentions_var] at h; subst h; simp [castParent, subst]
  | .const _, _, h => absurd h mentions_const
  | .param _, _, h => absurd h mentions_param
  | .call _ xs, hf, h => absurd (mentions_call.1 h) hf
  | .sl e hi lo, hf, h => by
    rcases hf with hf | hf
    · exact absurd (mentions_sl.1 h) hf
    · rw [castParent, rebuildOr, rebuild_sliced _ hf.2]
  | .ix e i, hf, h => by
    rcases hf with hf | hf
    · exact absurd (mentions_ix.1 h) (fun h' => h'.elim hf.1 hf.2)
    · rw [castParent, rebuildOr, rebuild_sliced _ hf.2]
  | .cast k a, hf, h => by rw [castParent, castParent_found a hf (mentions_cast.1 h)]; rfl
  | .un o a, hf, _ => congrArg Res.ok (chg_found (.un o a) .operand hf)
  | .bin o a b, hf, _ => congrArg Res.ok (chg_found (.bin o a b) .operand hf)
  | .cat xs, hf, _ => congrArg Res.ok (chg_found (.cat xs) .operand hf)
  | .ext w a, hf, _ => congrArg Res.ok (chg_found (.ext w a) .operand hf)
  | .dup k a, hf, _ => congrArg Res.ok (chg_found (.dup k a) .operand hf)
  | .ite c a b, hf, _ => congrArg Res.ok (chg_found (.ite c a b) .operand hf)

theorem setSide_found (e : E) (hf : FoundCast t e) (h : Mentions t e) : setSide t n e = .ok (subst t n e) := by
  cases e with
  | var v => rw [mentions_var] at h; subst h; simp [setSide, subst]
  | const k => exact absurd h mentions_const
  | param k => exact absurd h mentions_param
  | call f xs => exact absurd (mentions_call.1 h) hf
  | sl e hi lo => exact castParent_found (.sl e hi lo) hf h
  | ix e i => exact castParent_found (.ix e i) hf h
  | cast k a => exact castParent_found (.cast k a) hf h
  | un o a => exact castParent_found (.un o a) hf h
  | bin o a b => exact castParent_found (.bin o a b) hf h
  | cat xs => exact castParent_found (.cat xs) hf h
  | ext w a => exact castParent_found (.ext w a) hf h
  | dup k a => exact castParent_found (.dup k a) hf h
  | ite c a b => exact castParent_found (.ite c a b) hf h

theorem rebuildOr_lost {e e' : E} (hs : ¬ Sliced t e) (h : rebuildOr t n e = .ok e') : Mentions t e' := by
  rw [rebuildOr] at h
  cases hr : rebuild t n e with
  | none => rw [hr] at h; cases h
  | some x => rw [hr] at h; cases h; exact rebuild_some_mentions e _ hr hs

theorem castParent_lost : ∀ (e e' : E), ¬ FoundCast t e → castParent t n e = .ok e' → Mentions t e'
  | .var v, _, hf, _ => absurd (fun _ => rfl) hf
  | .const _, _, hf, _ => absurd trivial hf
  | .param _, _, hf, _ => absurd trivial hf
  | .call f xs, _, hf, h => by cases h; exact .call (Classical.byContradiction hf)
  | .sl e hi lo, _, hf, h => rebuildOr_lost (fun hs => hf (.inr ⟨rfl, hs⟩)) h
  | .ix e i, _, hf, h => rebuildOr_lost (fun hs => hf (.inr ⟨rfl, hs⟩)) h
  | .cast k a, e', hf, h => by
    rw [castParent] at h
    cases hc : castParent t n a with
    | ok a' => rw [hc] at h; cases h; exact .cast (castParent_lost a a' hf hc)
    | throw x => rw [hc] at h; cases h
    | ub => rw [hc] at h; cases h
  | .un o a, _, hf, h => by cases h; exact chg_lost (.un o a) .operand hf
  | .bin o a b, _, hf, h => by cases h; exact chg_lost (.bin o a b) .operand hf
  | .cat xs, _, hf, h => by cases h; exact chg_lost (.cat xs) .operand hf
  | .ext w a, _, hf, h => by cases h; exact chg_lost (.ext w a) .operand hf
  | .dup k a, _, hf, h => by cases h; exact chg_lost (.dup k a) .operand hf
  | .ite c a b, _, hf, h => by cases h; exact chg_lost (.ite c a b) .operand hf

theorem setSide_lost (e e' : E) (hf : ¬ FoundCast t e) (h : setSide t n e = .ok e') : Mentions t e' := by
  cases e with
  | var v => exact absurd (fun _ => rfl) hf
  | const k => exact absurd trivial hf
  | param k => exact absurd trivial hf
  | call f xs => cases h
  | sl e hi lo => exact castParent_lost (.sl e hi lo) e' hf h
  | ix e i => exact castParent_lost (.ix e i) e' hf h
  | cast k a => exact castParent_lost (.cast k a) e' hf h
  | un o a => exact castParent_lost (.un o a) e' hf h
  | bin o a b => exact castParent_lost (.bin o a b) e' hf h
  | cat xs => exact castParent_lost (.cat xs) e' hf h
  | ext w a => exact castParent_lost (.ext w a) e' hf h
  | dup k a => exact castParent_lost (.dup k a) e' hf h
  | ite c a b => exact castParent_lost (.ite c a b) e' hf h

mutual
theorem sinkOf_iff : ∀ e : E, e.sinkOf t = true ↔ Mentions t e
  | .var v => by rw [E.sinkOf, mentions_var]; simp
  | .const _ => by simp [E.sinkOf, mentions_const]
  | .param _ => by simp [E.sinkOf, mentions_param]
  | .sl e _ _ => by rw [E.sinkOf, mentions_sl, sinkOf_iff e]
  | .ix e i => by rw [E.sinkOf, mentions_ix, Bool.or_eq_true, sinkOf_iff e, sinkOf_iff i]
  | .un _ a => by rw [E.sinkOf, mentions_un, sinkOf_iff a]
  | .bin _ a b => by rw [E.sinkOf, mentions_bin, Bool.or_eq_true, sinkOf_iff a, sinkOf_iff b]
  | .cat xs => by rw [E.sinkOf, mentions_cat, sinksOf_iff xs]
  | .ext _ a => by rw [E.sinkOf, mentions_ext, sinkOf_iff a]
  | .dup _ a => by rw [E.sinkOf, mentions_dup, sinkOf_iff a]
  | .ite c a b => by
    rw [E.sinkOf, mentions_ite, Bool.or_eq_true, Bool.or_eq_true, sinkOf_iff a, sinkOf_iff b, sinkOf_iff c, or_assoc]
  | .cast _ a => by rw [E.sinkOf, mentions_cast, sinkOf_iff a]
  | .call _ xs => by rw [E.sinkOf, mentions_call, sinksOf_iff xs]
theorem sinksOf_iff : ∀ xs : Es, xs.sinkOf t = true ↔ MentionsL t xs
  | .nil => by simp [Es.sinkOf, mentionsL_nil]
  | .cons x xs => by rw [Es.sinkOf, mentionsL_cons, Bool.or_eq_true, sinkOf_iff x, sinksOf_iff xs]
end

end

/-! ### Properties -/

/-- **C75, exactness on one expression.**  When the call succeeds on a statement that reads the old variable, the new text has no
reference to it if and only if all references were in places that are looked at; and then it is the old text with the new variable in
place of the old one. -/
theorem replace_exact (t : Nat) (n e e' : E) (hn : ¬ Mentions t n) (hm : Mentions t e) (h : setSide t n e = .ok e') :
    (¬ Mentions t e' ↔ FoundCast t e) ∧ (FoundCast t e → e' = subst t n e) := by
  have h2 : FoundCast t e → e' = subst t n e := fun hf => by
    rw [setSide_found e hf hm] at h; cases h; rfl
  exact ⟨⟨fun hx => Classical.byContradiction fun hf => hx (setSide_lost e e' hf h), fun hf => h2 hf ▸ not_mentions_subst hn e⟩, h2⟩

/-- **C75, refusals.**  If all references are in places that are looked at, the call succeeds. -/
theorem replace_ok (t : Nat) (n e : E) (hm : Mentions t e) (hf : FoundCast t e) : setSide t n e = .ok (subst t n e) :=
  setSide_found e hf hm

/-- A statement of which the printed text is what is changed: assignments, and tests of expressions that are what the stand-in reads. -/
structure Clean (t g : Nat) (s : St) : Prop where
  found : s.gen = g → FoundCast t s.right
  same : s.shown = s.right
  left : s.gen = g → s.kind = .assign → s.left.indexSink t = true → Mentions t s.right
  direct : s.gen = g → s.kind = .test → Mentions t s.right → s.right.isExpr = true

theorem moveOne_clean {t g : Nat} {n : E} {s : St} (hc : Clean t g s) :
    ∃ s', moveOne t n g s = .ok s' ∧ s'.shown = (if s.gen = g then subst t n s.shown else s.shown) ∧
      s'.gen = s.gen ∧ s'.kind = s.kind ∧ s'.left = s.left := by
  rw [moveOne]
  by_cases hg : s.gen = g
  · by_cases hs : s.isSink t = true
    · have hm : Mentions t s.right := by
        rw [St.isSink, Bool.or_eq_true, sinkOf_iff] at hs
        rcases hs with hs | hs
        · exact hs
        · rw [Bool.and_eq_true] at hs
          exact hc.left hg (by simpa using hs.1) hs.2
      rw [if_pos ⟨hg, hs⟩, replace_ok t n s.right hm (hc.found hg)]
      refine ⟨_, rfl, ?_, rfl, rfl, rfl⟩
      have : s.kind = .assign ∨ s.right.isExpr = true := by
        cases hk : s.kind with
        | assign => exact .inl rfl
        | test => exact .inr (hc.direct hg hk hm)
      simp only
      rw [if_pos this, if_pos hg, hc.same]
    · rw [if_neg (fun x => hs x.2)]
      have hm : ¬ Mentions t s.right := fun hm => hs (by rw [St.isSink, (sinkOf_iff _).2 hm]; rfl)
      refine ⟨s, rfl, ?_, rfl, rfl, rfl⟩
      rw [if_pos hg, hc.same, subst_of_not _ hm]
  · rw [if_neg (fun x => hg x.1)]
    exact ⟨s, rfl, by rw [if_neg hg], rfl, rfl, rfl⟩

/-- **C75 (partial).**  If in every statement of the generator the references to the old variable are in places that are looked at,
the call succeeds and every statement reads as before with the new variable in place of the old one. -/
theorem replace_partial (t m g : Nat) : ∀ ss : List St, (∀ s ∈ ss, Clean t g s) →
    ∃ ss', moveSinks t (.var m) g ss = .ok ss' ∧
      ss'.map (fun s => s.shown) = ss.map (fun s => if s.gen = g then subst t (.var m) s.shown else s.shown)
  | [], _ => ⟨[], rfl, rfl⟩
  | s :: ss, h => by
    obtain ⟨s', h1, h2, _⟩ := moveOne_clean (n := .var m) (h s List.mem_cons_self)
    obtain ⟨ss', h3, h4⟩ := replace_partial t m g ss fun x hx => h x (List.mem_cons_of_mem _ hx)
    refine ⟨s' :: ss', ?_, ?_⟩
    · rw [moveSinks, h1, Res.ok_bind, h3]; rfl
    · simp only [List.map_cons, h2, h4]

/-- Statements of other generators are never touched, and left-hand sides never change. -/
theorem replace_frame (t g : Nat) (n : E) : ∀ ss ss' : List St, moveSinks t n g ss = .ok ss' →
    ss'.map (fun s => (s.gen, s.kind, s.left)) = ss.map (fun s => (s.gen, s.kind, s.left)) ∧
    ∀ s ∈ ss, s.gen ≠ g → s ∈ ss'
  | [], ss', h => by cases h; exact ⟨rfl, fun s hs => by cases hs⟩
  | s :: ss, ss', h => by
    rw [moveSinks, Res.bind_eq_ok] at h
    obtain ⟨s', hs, h⟩ := h
    cases hr : moveSinks t n g ss with
    | throw e => rw [hr] at h; cases h
    | ub => rw [hr] at h; cases h
    | ok r =>
      rw [hr] at h; cases h
      obtain ⟨h1, h2⟩ := replace_frame t g n ss r hr
      have hs' : (s'.gen, s'.kind, s'.left) = (s.gen, s.kind, s.left) ∧ (s.gen ≠ g → s' = s) := by
        rw [moveOne] at hs
        split at hs
        · rename_i hc
          cases hx : setSide t n s.right with
          | ok e => rw [hx] at hs; cases hs; exact ⟨rfl, fun hg => absurd hc.1 hg⟩
          | throw e => rw [hx] at hs; cases hs
          | ub => rw [hx] at hs; cases hs
        · cases hs; exact ⟨rfl, fun _ => rfl⟩
      refine ⟨by simp only [List.map_cons, h1, hs'.1], fun x hx hg => ?_⟩
      rcases List.mem_cons.1 hx with rfl | hx
      · rw [hs'.2 hg]; exact List.mem_cons_self
      · exact List.mem_cons_of_mem _ (h2 x hx hg)

/-- A second visit changes nothing: an expression shared by two statements is changed once. -/
theorem again (t : Nat) (n e : E) (hn : ¬ Mentions t n) (hf : FoundCast t e) (hm : Mentions t e) (hx : e.isExpr = true) :
    ∃ e', setSide t n e = .ok e' ∧ (e'.isExpr = true → setSide t n e' = .ok e') := by
  refine ⟨_, replace_ok t n e hm hf, fun hx' => ?_⟩
  have hnm := not_mentions_subst hn e
  have hfx : Found t true true (subst t n e) := by
    by_cases h : Found t true true (subst t n e)
    · exact h
    · exact absurd (not_found_mentions _ _ _ h) hnm
  generalize subst t n e = e' at *
  have hch : chg t n .operand e' = e' := by
    have := chg_found (n := n) e' .operand hfx
    rw [this, subst_of_not _ hnm]
  cases e' <;> first | (simp [E.isExpr] at hx'; done) | (simp only [setSide]; rw [hch])
where
  not_found_mentions {t : Nat} : ∀ (e : E) (b s : Bool), ¬ Found t b s e → Mentions t e
  | .var v, b, s, h => mentions_var.2 (Classical.byContradiction fun hv => h fun h' => absurd h' hv)
  | .const _, _, _, h => absurd trivial h
  | .param _, _, _, h => absurd trivial h
  | .sl _ _ _, _, _, h => .sl (Classical.byContradiction fun hm => h (.inl hm))
  | .ix e i, _, _, h => Classical.byContradiction fun hm => h (.inl ⟨fun h' => hm (.ix h'), fun h' => hm (.index h')⟩)
  | .un _ a, _, _, h => .un (not_found_mentions a _ _ h)
  | .bin _ a b, _, _, h => by
    by_cases ha : Found t true true a
    · exact .binR (not_found_mentions b _ _ fun hb => h ⟨ha, hb⟩)
    · exact .binL (not_found_mentions a _ _ ha)
  | .cat xs, _, _, h => by
    by_cases ho : occurs t xs ≤ 1
    · exact .cat (not_founds_mentions xs fun hf => h ⟨ho, hf⟩)
    · exact .cat (occurs_mentions xs (by omega))
  | .ext _ a, _, _, h => .ext (not_found_mentions a _ _ h)
  | .dup _ a, _, _, h => .dup (not_found_mentions a _ _ h)
  | .ite c a b, _, _, h => by
    by_cases hc : Found t true false c
    · by_cases ha : Found t true true a
      · exact .els (not_found_mentions b _ _ fun hb => h ⟨hc, ha, hb⟩)
      · exact .thn (not_found_mentions a _ _ ha)
    · exact .cond (not_found_mentions c _ _ hc)
  | .cast _ a, _, _, h => .cast (Classical.byContradiction h)
  | .call _ xs, _, _, h => .call (Classical.byContradiction h)
  not_founds_mentions {t : Nat} : ∀ (xs : Es), ¬ Founds t xs → MentionsL t xs
  | .nil, h => absurd trivial h
  | .cons x xs, h => by
    by_cases hx : x = .var t ∨ Found t false false x
    · exact .tail (not_founds_mentions xs fun hf => h ⟨hx, hf⟩)
    · exact .head (not_found_mentions x _ _ fun h' => hx (.inr h'))

/-! ### Examples and disagreements -/

/-- `y = (out[3] + a) | {b, out}` and `if (!out)` are in the partial theorem's scope: found, and replaced. -/
example : ∀ s ∈ [(⟨0, .assign, .var 9, .bin 1 (.bin 0 (.sl (.var 1) 3 3) (.var 5)) (.cat (.cons (.var 6) (.cons (.var 1) .nil))),
      .bin 1 (.bin 0 (.sl (.var 1) 3 3) (.var 5)) (.cat (.cons (.var 6) (.cons (.var 1) .nil)))⟩ : St),
    ⟨0, .test, .var 100, .un 0 (.var 1), .un 0 (.var 1)⟩], Clean 1 0 s := by
  intro s hs
  simp only [List.mem_cons, List.not_mem_nil, or_false] at hs
  rcases hs with rfl | rfl
  · refine ⟨fun _ => ⟨⟨.inr ⟨rfl, .sl .var⟩, fun h => by simp at h⟩, ?_, .inr ?_, .inl rfl, trivial⟩, rfl, ?_, ?_⟩
    · simp [occurs]
    · intro h; cases h
    · intro _ _ h; simp [E.indexSink] at h
    · intro _ h; simp at h
  · refine ⟨fun _ _ => rfl, rfl, ?_, ?_⟩
    · intro _ h; simp at h
    · intro _ _ _; rfl

example : moveSinks 1 (.var 7) 0
    [⟨0, .assign, .var 9, .bin 1 (.bin 0 (.sl (.var 1) 3 3) (.var 5)) (.cat (.cons (.var 6) (.cons (.var 1) .nil))),
      .bin 1 (.bin 0 (.sl (.var 1) 3 3) (.var 5)) (.cat (.cons (.var 6) (.cons (.var 1) .nil)))⟩] =
    .ok [⟨0, .assign, .var 9, .bin 1 (.bin 0 (.sl (.var 7) 3 3) (.var 5)) (.cat (.cons (.var 6) (.cons (.var 7) .nil))),
      .bin 1 (.bin 0 (.sl (.var 7) 3 3) (.var 5)) (.cat (.cons (.var 6) (.cons (.var 7) .nil)))⟩] := by decide +kernel

/-- `y = e` in the parent (generator 0). -/
def asn (e : E) : St := ⟨0, .assign, .var 9, e, e⟩

/-- What the one statement `y = e` prints after port 1 has been replaced by variable 7. -/
def after (e : E) : Res (List E) := (moveSinks 1 (.var 7) 0 [asn e]).map fun ss => ss.map fun s => s.shown

/-- An extended variable keeps printing the old one: `y = 8'(out)`. -/
theorem extend_lost : after (.ext 8 (.var 1)) = .ok [.ext 8 (.var 1)] := by decide +kernel

/-- So does a slice in the condition of a ternary expression: `y = out[0] ? a : b`. -/
theorem condition_lost : after (.ite (.sl (.var 1) 0 0) (.var 5) (.var 6)) = .ok [.ite (.sl (.var 1) 0 0) (.var 5) (.var 6)] := by
  decide +kernel

/-- A slice in a concatenation: `y = {out[0], a}`. -/
theorem concat_lost : after (.cat (.cons (.sl (.var 1) 0 0) (.cons (.var 5) .nil))) =
    .ok [.cat (.cons (.sl (.var 1) 0 0) (.cons (.var 5) .nil))] := by decide +kernel

/-- The second occurrence in a concatenation: `y = {out, out}`. -/
theorem second_lost : after (.cat (.cons (.var 1) (.cons (.var 1) .nil))) =
    .ok [.cat (.cons (.var 7) (.cons (.var 1) .nil))] := by decide +kernel

/-- A cast inside an expression: `y = signed'(out) + a`. -/
theorem cast_lost : after (.bin 0 (.cast 0 (.var 1)) (.var 5)) = .ok [.bin 0 (.cast 0 (.var 1)) (.var 5)] := by decide +kernel

/-- An index inside an expression: `y = mem[out] + a`. -/
theorem index_lost : after (.bin 0 (.ix (.var 4) (.var 1)) (.var 5)) = .ok [.bin 0 (.ix (.var 4) (.var 1)) (.var 5)] := by
  decide +kernel

/-- A slice of an expression: `y = (out + a)[3:0]` inside another. -/
theorem slice_lost : after (.un 0 (.sl (.bin 0 (.var 1) (.var 5)) 3 0)) = .ok [.un 0 (.sl (.bin 0 (.var 1) (.var 5)) 3 0)] := by
  decide +kernel

/-- A test of the variable itself: `if (out)`. -/
theorem test_lost : (moveSinks 1 (.var 7) 0 [⟨0, .test, .var 100, .var 1, .var 1⟩]).map (fun ss => ss.map fun s => s.shown) =
    .ok [.var 1] := by decide +kernel

/-- **C75, as stated: false.** -/
theorem not_ReplaceClaim : ¬ ReplaceClaim := by
  intro h
  have := h 1 7 0 [asn (.ext 8 (.var 1))] [asn (.ext 8 (.var 1))] (by decide +kernel)
  revert this
  decide +kernel

/-- Reading a memory at an address given by the variable is refused: `y = mem[out]` stops with "Target not found". -/
theorem index_refused : moveSinks 1 (.var 7) 0 [asn (.ix (.var 4) (.var 1))] = .throw .user := by decide +kernel

/-- So are `mem[out] = a` and `y = f(out)`. -/
theorem left_refused : moveSinks 1 (.var 7) 0 [⟨0, .assign, .ix (.var 4) (.var 1), .var 5, .var 5⟩] = .throw .user := by decide +kernel
theorem call_refused : moveSinks 1 (.var 7) 0 [asn (.call 0 (.cons (.var 1) .nil))] = .throw .user := by decide +kernel

/-- **C75, second half, as stated: false.** -/
theorem not_MovableClaim : ¬ MovableClaim := by
  intro h
  obtain ⟨ss', h⟩ := h 1 7 0 [asn (.ix (.var 4) (.var 1))]
  rw [index_refused] at h
  cases h

mutual
/-- The signals an expression denotes where it is printed: inside module `g` a name is the signal of `g` with that name
(`Stream::var_str`, src/codegen.cc:170-175, prints a bare name for expressions whose generator is `g`). -/
def resolve (here : Nat → Nat) : E → E
  | .var v => .var (here v)
  | .const k => .const k
  | .param k => .param k
  | .sl e hi lo => .sl (resolve here e) hi lo
  | .ix e i => .ix (resolve here e) (resolve here i)
  | .un o a => .un o (resolve here a)
  | .bin o a b => .bin o (resolve here a) (resolve here b)
  | .cat xs => .cat (resolves here xs)
  | .ext w a => .ext w (resolve here a)
  | .dup k a => .dup k (resolve here a)
  | .ite c a b => .ite (resolve here c) (resolve here a) (resolve here b)
  | .cast k a => .cast k (resolve here a)
  | .call f as => .call f (resolves here as)
def resolves (here : Nat → Nat) : Es → Es
  | .nil => .nil
  | .cons x xs => .cons (resolve here x) (resolves here xs)
end

/-- **C75, consequence.**  The parent has a signal 2 of its own with the name of the child's port 1.  `y = 8'(child.out)` is printed
as `y = 8'(out)` (the changed expression belongs to the parent, src/expr.cc:820-824, 1556) and now reads the parent's signal. -/
theorem captured_wrong : ∃ ss', moveSinks 1 (.var 7) 0 [asn (.ext 8 (.var 1))] = .ok ss' ∧
    ss'.map (fun s => resolve (fun v => if v = 1 then 2 else v) s.shown) = [.ext 8 (.var 2)] :=
  ⟨[asn (.ext 8 (.var 1))], by decide +kernel, by decide +kernel⟩

mutual
/-- An expression that mentions only signals that are found under their own name is printed as what it is. -/
theorem resolve_self (here : Nat → Nat) : ∀ e : E, (∀ v, Mentions v e → here v = v) → resolve here e = e
  | .var v, h => by rw [resolve, h v .var]
  | .const _, _ => rfl
  | .param _, _ => rfl
  | .sl e _ _, h => by rw [resolve, resolve_self here e fun v hv => h v (.sl hv)]
  | .ix e i, h => by rw [resolve, resolve_self here e fun v hv => h v (.ix hv), resolve_self here i fun v hv => h v (.index hv)]
  | .un _ a, h => by rw [resolve, resolve_self here a fun v hv => h v (.un hv)]
  | .bin _ a b, h => by rw [resolve, resolve_self here a fun v hv => h v (.binL hv), resolve_self here b fun v hv => h v (.binR hv)]
  | .cat xs, h => by rw [resolve, resolves_self here xs fun v hv => h v (.cat hv)]
  | .ext _ a, h => by rw [resolve, resolve_self here a fun v hv => h v (.ext hv)]
  | .dup _ a, h => by rw [resolve, resolve_self here a fun v hv => h v (.dup hv)]
  | .ite c a b, h => by
    rw [resolve, resolve_self here c fun v hv => h v (.cond hv), resolve_self here a fun v hv => h v (.thn hv),
      resolve_self here b fun v hv => h v (.els hv)]
  | .cast _ a, h => by rw [resolve, resolve_self here a fun v hv => h v (.cast hv)]
  | .call _ xs, h => by rw [resolve, resolves_self here xs fun v hv => h v (.call hv)]
theorem resolves_self (here : Nat → Nat) : ∀ xs : Es, (∀ v, MentionsL v xs → here v = v) → resolves here xs = xs
  | .nil, _ => rfl
  | .cons x xs, h => by rw [resolves, resolve_self here x fun v hv => h v (.head hv), resolves_self here xs fun v hv => h v (.tail hv)]
end

end Kratos.Replace
