import Verif.Pass.Decouple

/-!
# C91: replacing, removing and disconnecting instances

`Generator::replace` (src/generator.cc:1124-1199), `Generator::remove_child_generator`
(src/generator.cc:437-469) and `Generator::unwire` (src/generator.cc:1000-1019).  The table of children
is modelled in `Gen/Children` (C42); here it is about the statements.  Expressions, statements and the
replacement of one variable in one statement are those of C75 (`Pass/Replace`).

The variables in whose `sources()` and `sinks()` a statement is are taken to be those that its
expressions pass it to when it is built (`sourceOf`, `isSink`).  Sets of statements are walked over in
the order of the list.
-/

namespace Kratos.Swap

open Kratos.Replace Kratos.Decouple

/-! ## Model -/

inductive Dir where
  | input | output | both
  deriving DecidableEq, Repr

/-- A port of a child: its name, the variable it is, and what `replace` compares. -/
structure Prt where
  name : String
  var : Nat
  dir : Dir
  width : Nat
  size : List Nat
  signed : Bool
  ptype : Nat
  deriving DecidableEq, Repr

/-- The loop of `Var::move_src_to` (src/expr.cc:1615-1634) without the connection: the statements of the
generator that drive `t` get the new variable on the left.  An exception leaves the statements before
it changed. -/
def moveL (t m g : Nat) : List St → List St × Res Unit
  | [] => ([], .ok ())
  | s :: ss =>
    if s.gen = g ∧ s.kind = .assign ∧ E.sourceOf t s.left = true then
      match setSide t (.var m) s.left with
      | .ok l => ({ s with left := l } :: (moveL t m g ss).1, (moveL t m g ss).2)
      | .throw e => (s :: ss, .throw e)
      | .ub => (s :: ss, .ub)
    else (s :: (moveL t m g ss).1, (moveL t m g ss).2)

/-- The loop of `Var::move_sink_to` (src/expr.cc:1646-1668), one statement at a time by
`Replace.moveOne`. -/
def moveR (t m g : Nat) : List St → List St × Res Unit
  | [] => ([], .ok ())
  | s :: ss =>
    match moveOne t (.var m) g s with
    | .ok s' => (s' :: (moveR t m g ss).1, (moveR t m g ss).2)
    | .throw e => (s :: ss, .throw e)
    | .ub => (s :: ss, .ub)

/-- src/generator.cc:1183-1193. -/
def movePort (d : Dir) (t m g : Nat) (ss : List St) : List St × Res Unit :=
  match d with
  | .input => moveL t m g ss
  | .output => moveR t m g ss
  | .both =>
    match (moveL t m g ss).2 with
    | .ok _ => moveR t m g (moveL t m g ss).1
    | e => ((moveL t m g ss).1, e)

/-- src/generator.cc:1161-1180. -/
def sameType (o n : Prt) : Bool :=
  o.size == n.size && o.width == n.width && o.signed == n.signed && o.ptype == n.ptype && o.dir == n.dir

/-- `new_child->get_port(port_name)`. -/
def portOf (nm : String) : List Prt → Option Prt
  | [] => none
  | p :: ps => if p.name = nm then some p else portOf nm ps

/-- The loop over the ports of the old child in the order of their names (`std::set`): each one is
checked and moved before the next one is checked, src/generator.cc:1152-1194. -/
def swapLoop (new : List Prt) (g : Nat) : List Prt → List St → List St × Res Unit
  | [], ss => (ss, .ok ())
  | o :: os, ss =>
    match portOf o.name new with
    | none => (ss, .throw .var)
    | some n =>
      if sameType o n then
        match (movePort o.dir o.var n.var g ss).2 with
        | .ok _ => swapLoop new g os (movePort o.dir o.var n.var g ss).1
        | e => ((movePort o.dir o.var n.var g ss).1, e)
      else (ss, .throw .var)

/-- `Generator::replace`, src/generator.cc:1124-1199, of a child that exists, in generator `g`.
`move_src_to` and `move_sink_to` clear the sets of the old ports (src/expr.cc:1634, 1667), so that
`remove_child_generator` (1197) finds no statement to remove. -/
def replace (old new : List Prt) (g : Nat) (ss : List St) : List St × Res Unit :=
  if old.length = new.length then swapLoop new g old ss else (ss, .throw .var)

/-- What `remove_child_generator` does for one port, src/generator.cc:446-465: the statements that drive
an input, the statements that read any other port, of whatever generator, are taken out of where they
stand.  The stand-in of a test is not in the bodies of its `if` or `case` (src/stmt.cc:274-287,
601-610), so that nothing happens for it. -/
def dropPort (ss : List St) (p : Prt) : List St :=
  match p.dir with
  | .input => ss.filter fun s => !(s.kind == .assign && E.sourceOf p.var s.left)
  | _ => ss.filter fun s => !(s.kind == .assign && s.isSink p.var)

/-- `Generator::remove_child_generator`, src/generator.cc:437-469. -/
def remove (ports : List Prt) (ss : List St) : List St := ports.foldl dropPort ss

/-- `Generator::unwire`, src/generator.cc:1000-1019, on the statements that stand directly in the
generator; the arguments are variables or slices, of which there is one object each. -/
def unwire (a b : E) : List St → List St
  | [] => []
  | s :: ss =>
    if s.kind = .assign ∧ ((s.left = a ∧ s.right = b) ∨ (s.right = a ∧ s.left = b)) then ss
    else s :: unwire a b ss

/-! ## Specification -/

/-- The port of the new child with the name of the old port that `v` is. -/
def swapped (old new : List Prt) (v : Nat) : Nat :=
  match old.find? fun o => o.var = v with
  | none => v
  | some o => ((new.find? fun n => n.name = o.name).map (·.var)).getD v

/-- A statement of `g` with every variable replaced. -/
def rename (f : Nat → Nat) (g : Nat) (s : St) : St :=
  if s.gen = g then { s with left := resolve f s.left, right := resolve f s.right, shown := resolve f s.shown } else s

/-- The two children have the same interface. -/
def SameInterface (old new : List Prt) : Prop :=
  old.length = new.length ∧
  ∀ o ∈ old, ∃ n ∈ new, n.name = o.name ∧ n.dir = o.dir ∧ n.width = o.width ∧ n.size = o.size ∧
    n.signed = o.signed ∧ n.ptype = o.ptype

/-- Whenever the call is accepted, the statements of the parent are as before with the new child's ports
in the place of the old child's; ... -/
def SwapClaim : Prop := ∀ (old new : List Prt) (g : Nat) (ss : List St),
  (replace old new g ss).2 = .ok () → (replace old new g ss).1 = ss.map (rename (swapped old new) g)

/-- ... children with the same interface are accepted; ... -/
def AcceptClaim : Prop := ∀ (old new : List Prt) (g : Nat) (ss : List St),
  SameInterface old new → (replace old new g ss).2 = .ok ()

/-- ... a call that is refused changes nothing; ... -/
def RefuseClaim : Prop := ∀ (old new : List Prt) (g : Nat) (ss : List St),
  (replace old new g ss).2 ≠ .ok () → (replace old new g ss).1 = ss

/-- ... and removing a child leaves the statements of the parent that have nothing to do with it, and
everything in other generators. -/
def RemoveClaim : Prop := ∀ (ports : List Prt) (g : Nat) (ss : List St),
  (∀ s ∈ remove ports ss, s.gen = g → ∀ p ∈ ports, ¬ Mentions p.var s.left ∧ ¬ Mentions p.var s.shown) ∧
  (∀ s ∈ ss, s.gen ≠ g → s ∈ remove ports ss)

/-- What is needed of the design: every port is another variable; the parent drives inputs and reads
outputs only; in places in which `move_src_to` and `move_sink_to` look (C75). -/
structure Usable (old new : List Prt) (g : Nat) (ss : List St) : Prop where
  vars : (old.map (·.var)).Nodup
  fresh : ∀ n ∈ new, ∀ o ∈ old, n.var ≠ o.var
  left : ∀ s ∈ ss, s.gen = g → ∀ o ∈ old, Mentions o.var s.left →
    o.dir ≠ .output ∧ s.kind = .assign ∧ E.sourceOf o.var s.left = true ∧ FoundCast o.var s.left
  right : ∀ s ∈ ss, s.gen = g → ∀ o ∈ old, Mentions o.var s.right →
    o.dir ≠ .input ∧ FoundCast o.var s.right ∧ (s.kind = .test → s.right.isExpr = true)
  shown : ∀ s ∈ ss, s.gen = g → s.shown = s.right

/-! ## Proof: expressions -/

section
variable {t m u : Nat}

mutual
theorem mentions_subst (h1 : u ≠ t) (h2 : u ≠ m) : ∀ e : E, Mentions u (subst t (.var m) e) ↔ Mentions u e
  | .var v => by
    rw [subst]; split
    · rename_i hv
      rw [mentions_var, mentions_var]
      constructor
      · intro h; exact absurd h.symm h2
      · intro h; exact absurd (h.symm.trans hv) h1
    · rfl
  | .const _ => Iff.rfl
  | .param _ => Iff.rfl
  | .sl e _ _ => by rw [subst, mentions_sl, mentions_sl, mentions_subst h1 h2 e]
  | .ix e i => by rw [subst, mentions_ix, mentions_ix, mentions_subst h1 h2 e, mentions_subst h1 h2 i]
  | .un _ a => by rw [subst, mentions_un, mentions_un, mentions_subst h1 h2 a]
  | .bin _ a b => by rw [subst, mentions_bin, mentions_bin, mentions_subst h1 h2 a, mentions_subst h1 h2 b]
  | .cat xs => by rw [subst, mentions_cat, mentions_cat, mentionsL_substs h1 h2 xs]
  | .ext _ a => by rw [subst, mentions_ext, mentions_ext, mentions_subst h1 h2 a]
  | .dup _ a => by rw [subst, mentions_dup, mentions_dup, mentions_subst h1 h2 a]
  | .ite c a b => by
    rw [subst, mentions_ite, mentions_ite, mentions_subst h1 h2 c, mentions_subst h1 h2 a, mentions_subst h1 h2 b]
  | .cast _ a => by rw [subst, mentions_cast, mentions_cast, mentions_subst h1 h2 a]
  | .call _ xs => by rw [subst, mentions_call, mentions_call, mentionsL_substs h1 h2 xs]
theorem mentionsL_substs (h1 : u ≠ t) (h2 : u ≠ m) : ∀ xs : Es, MentionsL u (substs t (.var m) xs) ↔ MentionsL u xs
  | .nil => Iff.rfl
  | .cons x xs => by
    rw [substs, mentionsL_cons, mentionsL_cons, mentions_subst h1 h2 x, mentionsL_substs h1 h2 xs]
end

theorem sliced_subst (h1 : u ≠ t) (h2 : u ≠ m) : ∀ e : E, Sliced u e → Sliced u (subst t (.var m) e)
  | _, .var => by rw [subst, if_neg h1]; exact .var
  | _, .sl h => by rw [subst]; exact .sl (sliced_subst h1 h2 _ h)
  | _, .ix h hi => by
    rw [subst]; exact .ix (sliced_subst h1 h2 _ h) (fun hm => hi ((mentions_subst h1 h2 _).1 hm))

theorem subst_eq_var (h1 : u ≠ t) (h2 : u ≠ m) (x : E) : subst t (.var m) x = .var u ↔ x = .var u := by
  cases x with
  | var v =>
    rw [subst]; split
    · rename_i hv
      constructor
      · intro h; cases h; exact absurd rfl h2
      · intro h; cases h; exact absurd hv h1
    · rfl
  | _ => simp [subst]

theorem occurs_subst (h1 : u ≠ t) (h2 : u ≠ m) : ∀ xs : Es, occurs u (substs t (.var m) xs) = occurs u xs
  | .nil => rfl
  | .cons x xs => by
    rw [substs, occurs, occurs, occurs_subst h1 h2 xs]
    by_cases h : x = .var u
    · rw [if_pos h, if_pos ((subst_eq_var h1 h2 x).2 h)]
    · rw [if_neg h, if_neg (fun h' => h ((subst_eq_var h1 h2 x).1 h'))]

mutual
theorem found_subst (h1 : u ≠ t) (h2 : u ≠ m) : ∀ (e : E) (b s : Bool), Found u b s e → Found u b s (subst t (.var m) e)
  | .var v, b, s, h => by
    rw [subst]; split
    · rename_i hv
      show m = u → b = true
      intro hm; exact absurd hm.symm h2
    · exact h
  | .const _, _, _, _ => trivial
  | .param _, _, _, _ => trivial
  | .sl e hi lo, b, s, h => by
    rcases h with h | ⟨h, h'⟩
    · exact .inl fun hm => h ((mentions_subst h1 h2 e).1 hm)
    · exact .inr ⟨h, sliced_subst h1 h2 _ h'⟩
  | .ix e i, b, s, h => by
    rcases h with ⟨ha, hb⟩ | ⟨h, h'⟩
    · exact .inl ⟨fun hm => ha ((mentions_subst h1 h2 e).1 hm), fun hm => hb ((mentions_subst h1 h2 i).1 hm)⟩
    · exact .inr ⟨h, sliced_subst h1 h2 _ h'⟩
  | .un _ a, _, _, h => found_subst h1 h2 a true true h
  | .bin _ a b, _, _, h => ⟨found_subst h1 h2 a true true h.1, found_subst h1 h2 b true true h.2⟩
  | .cat xs, _, _, h => ⟨by rw [occurs_subst h1 h2]; exact h.1, founds_subst h1 h2 xs h.2⟩
  | .ext _ a, _, _, h => found_subst h1 h2 a false false h
  | .dup _ a, _, _, h => found_subst h1 h2 a true true h
  | .ite c a b, _, _, h =>
    ⟨found_subst h1 h2 c true false h.1, found_subst h1 h2 a true true h.2.1, found_subst h1 h2 b true true h.2.2⟩
  | .cast _ a, _, _, h => fun hm => h ((mentions_subst h1 h2 a).1 hm)
  | .call _ xs, _, _, h => fun hm => h ((mentionsL_substs h1 h2 xs).1 hm)
theorem founds_subst (h1 : u ≠ t) (h2 : u ≠ m) : ∀ xs : Es, Founds u xs → Founds u (substs t (.var m) xs)
  | .nil, _ => trivial
  | .cons x xs, h =>
    ⟨h.1.elim (fun hx => .inl ((subst_eq_var h1 h2 x).2 hx)) (fun hx => .inr (found_subst h1 h2 x false false hx)),
      founds_subst h1 h2 xs h.2⟩
end

theorem foundCast_subst (h1 : u ≠ t) (h2 : u ≠ m) : ∀ e : E, FoundCast u e → FoundCast u (subst t (.var m) e)
  | .cast _ a, h => foundCast_subst h1 h2 a h
  | .var v, h => by
    have := found_subst h1 h2 (.var v) true true h
    rw [subst] at this ⊢
    split <;> rename_i hv <;> simp only [hv, if_true, if_false] at this <;> exact this
  | .const _, h => h
  | .param _, h => h
  | .sl e hi lo, h => found_subst h1 h2 (.sl e hi lo) true true h
  | .ix e i, h => found_subst h1 h2 (.ix e i) true true h
  | .un o a, h => found_subst h1 h2 (.un o a) true true h
  | .bin o a b, h => found_subst h1 h2 (.bin o a b) true true h
  | .cat xs, h => found_subst h1 h2 (.cat xs) true true h
  | .ext w a, h => found_subst h1 h2 (.ext w a) true true h
  | .dup k a, h => found_subst h1 h2 (.dup k a) true true h
  | .ite c a b, h => found_subst h1 h2 (.ite c a b) true true h
  | .call f xs, h => found_subst h1 h2 (.call f xs) true true h

mutual
theorem sourceOf_subst (h1 : u ≠ t) : ∀ e : E, E.sourceOf u e = true → E.sourceOf u (subst t (.var m) e) = true
  | .var v, h => by
    have hv : v = u := by simpa [E.sourceOf] using h
    rw [subst, if_neg (by rw [hv]; exact h1)]; exact h
  | .sl e _ _, h => sourceOf_subst h1 e h
  | .ix e _, h => sourceOf_subst h1 e h
  | .cast _ e, h => sourceOf_subst h1 e h
  | .cat xs, h => sourcesOf_subst h1 xs h
  | .const _, h => by cases h
  | .param _, h => by cases h
  | .un _ _, h => by cases h
  | .bin _ _ _, h => by cases h
  | .ext _ _, h => by cases h
  | .dup _ _, h => by cases h
  | .ite _ _ _, h => by cases h
  | .call _ _, h => by cases h
theorem sourcesOf_subst (h1 : u ≠ t) : ∀ xs : Es, Es.sourceOf u xs = true → Es.sourceOf u (substs t (.var m) xs) = true
  | .nil, h => by cases h
  | .cons x xs, h => by
    rw [Es.sourceOf, Bool.or_eq_true] at h
    rw [substs, Es.sourceOf, Bool.or_eq_true]
    exact h.imp (sourceOf_subst h1 x) (sourcesOf_subst h1 xs)
end

theorem isExpr_subst (e : E) (h : e.isExpr = true) : (subst t (.var m) e).isExpr = true := by
  cases e <;> first | rfl | (cases h)

theorem sliced_noIndex : ∀ e : E, Sliced u e → e.indexSink u = false
  | _, .var => rfl
  | .sl e _ _, .sl h => by rw [E.indexSink]; exact sliced_noIndex e h
  | .ix e i, .ix h hi => by
    rw [E.indexSink, sliced_noIndex _ h, Bool.false_or]
    cases hs : i.sinkOf u with
    | false => rfl
    | true => exact absurd ((sinkOf_iff i).1 hs) hi

theorem noIndex_of_not {e : E} (h : ¬ Mentions u e) : e.indexSink u = false := by
  cases hs : e.indexSink u with
  | false => rfl
  | true => exact absurd (indexSink_mentions e hs) h

mutual
theorem found_noIndex : ∀ (e : E) (b s : Bool), Found u b s e → e.indexSink u = false
  | .var _, _, _, _ => rfl
  | .const _, _, _, _ => rfl
  | .param _, _, _, _ => rfl
  | .sl e hi lo, _, _, h => by
    rcases h with h | ⟨_, h⟩
    · exact noIndex_of_not (fun hm => h (mentions_sl.1 hm))
    · exact sliced_noIndex _ h
  | .ix e i, _, _, h => by
    rcases h with ⟨ha, hb⟩ | ⟨_, h⟩
    · exact noIndex_of_not (fun hm => (mentions_ix.1 hm).elim ha hb)
    · exact sliced_noIndex _ h
  | .un _ _, _, _, _ => rfl
  | .bin _ _ _, _, _, _ => rfl
  | .cat xs, _, _, h => founds_noIndex xs h.2
  | .ext _ _, _, _, _ => rfl
  | .dup _ _, _, _, _ => rfl
  | .ite _ _ _, _, _, _ => rfl
  | .cast _ a, _, _, h => noIndex_of_not (fun hm => h (mentions_cast.1 hm))
  | .call _ _, _, _, _ => rfl
theorem founds_noIndex : ∀ xs : Es, Founds u xs → xs.indexSink u = false
  | .nil, _ => rfl
  | .cons x xs, h => by
    rw [Es.indexSink, founds_noIndex xs h.2, Bool.or_false]
    rcases h.1 with rfl | hx
    · rfl
    · exact found_noIndex x false false hx
end

theorem foundCast_noIndex : ∀ e : E, FoundCast u e → e.indexSink u = false
  | .cast _ a, h => foundCast_noIndex a h
  | .var v, h => found_noIndex (.var v) true true h
  | .const k, h => found_noIndex (.const k) true true h
  | .param k, h => found_noIndex (.param k) true true h
  | .sl e hi lo, h => found_noIndex (.sl e hi lo) true true h
  | .ix e i, h => found_noIndex (.ix e i) true true h
  | .un o a, h => found_noIndex (.un o a) true true h
  | .bin o a b, h => found_noIndex (.bin o a b) true true h
  | .cat xs, h => found_noIndex (.cat xs) true true h
  | .ext w a, h => found_noIndex (.ext w a) true true h
  | .dup k a, h => found_noIndex (.dup k a) true true h
  | .ite c a b, h => found_noIndex (.ite c a b) true true h
  | .call f xs, h => found_noIndex (.call f xs) true true h

mutual
theorem resolve_subst {f f' : Nat → Nat} (hm : f' m = m) (ht : f t = m) (hv : ∀ v, v ≠ t → f v = f' v) :
    ∀ e : E, resolve f' (subst t (.var m) e) = resolve f e
  | .var v => by
    rw [subst]; split
    · rename_i h; rw [resolve, resolve, hm, h, ht]
    · rename_i h; rw [resolve, resolve, hv v h]
  | .const _ => rfl
  | .param _ => rfl
  | .sl e _ _ => by rw [subst, resolve, resolve, resolve_subst hm ht hv e]
  | .ix e i => by rw [subst, resolve, resolve, resolve_subst hm ht hv e, resolve_subst hm ht hv i]
  | .un _ a => by rw [subst, resolve, resolve, resolve_subst hm ht hv a]
  | .bin _ a b => by rw [subst, resolve, resolve, resolve_subst hm ht hv a, resolve_subst hm ht hv b]
  | .cat xs => by rw [subst, resolve, resolve, resolves_subst hm ht hv xs]
  | .ext _ a => by rw [subst, resolve, resolve, resolve_subst hm ht hv a]
  | .dup _ a => by rw [subst, resolve, resolve, resolve_subst hm ht hv a]
  | .ite c a b => by
    rw [subst, resolve, resolve, resolve_subst hm ht hv c, resolve_subst hm ht hv a, resolve_subst hm ht hv b]
  | .cast _ a => by rw [subst, resolve, resolve, resolve_subst hm ht hv a]
  | .call _ xs => by rw [subst, resolve, resolve, resolves_subst hm ht hv xs]
theorem resolves_subst {f f' : Nat → Nat} (hm : f' m = m) (ht : f t = m) (hv : ∀ v, v ≠ t → f v = f' v) :
    ∀ xs : Es, resolves f' (substs t (.var m) xs) = resolves f xs
  | .nil => rfl
  | .cons x xs => by rw [substs, resolves, resolves, resolve_subst hm ht hv x, resolves_subst hm ht hv xs]
end

mutual
theorem subst_id : ∀ e : E, subst t (.var t) e = e
  | .var v => by
    rw [subst]; split
    · rename_i h; rw [h]
    · rfl
  | .const _ => rfl
  | .param _ => rfl
  | .sl e _ _ => by rw [subst, subst_id e]
  | .ix e i => by rw [subst, subst_id e, subst_id i]
  | .un _ a => by rw [subst, subst_id a]
  | .bin _ a b => by rw [subst, subst_id a, subst_id b]
  | .cat xs => by rw [subst, substs_id xs]
  | .ext _ a => by rw [subst, subst_id a]
  | .dup _ a => by rw [subst, subst_id a]
  | .ite c a b => by rw [subst, subst_id c, subst_id a, subst_id b]
  | .cast _ a => by rw [subst, subst_id a]
  | .call _ xs => by rw [subst, substs_id xs]
theorem substs_id : ∀ xs : Es, substs t (.var t) xs = xs
  | .nil => rfl
  | .cons x xs => by rw [substs, subst_id x, substs_id xs]
end

mutual
theorem not_mentions_resolve {f : Nat → Nat} (h : ∀ v, f v ≠ u) : ∀ e : E, ¬ Mentions u (resolve f e)
  | .var v => fun hm => h v (mentions_var.1 hm)
  | .const _ => mentions_const
  | .param _ => mentions_param
  | .sl e _ _ => fun hm => not_mentions_resolve h e (mentions_sl.1 hm)
  | .ix e i => fun hm => (mentions_ix.1 hm).elim (not_mentions_resolve h e) (not_mentions_resolve h i)
  | .un _ a => fun hm => not_mentions_resolve h a (mentions_un.1 hm)
  | .bin _ a b => fun hm => (mentions_bin.1 hm).elim (not_mentions_resolve h a) (not_mentions_resolve h b)
  | .cat xs => fun hm => not_mentionsL_resolves h xs (mentions_cat.1 hm)
  | .ext _ a => fun hm => not_mentions_resolve h a (mentions_ext.1 hm)
  | .dup _ a => fun hm => not_mentions_resolve h a (mentions_dup.1 hm)
  | .ite c a b => fun hm => (mentions_ite.1 hm).elim (not_mentions_resolve h c)
      fun hm => hm.elim (not_mentions_resolve h a) (not_mentions_resolve h b)
  | .cast _ a => fun hm => not_mentions_resolve h a (mentions_cast.1 hm)
  | .call _ xs => fun hm => not_mentionsL_resolves h xs (mentions_call.1 hm)
theorem not_mentionsL_resolves {f : Nat → Nat} (h : ∀ v, f v ≠ u) : ∀ xs : Es, ¬ MentionsL u (resolves f xs)
  | .nil => mentionsL_nil
  | .cons x xs => fun hm => (mentionsL_cons.1 hm).elim (not_mentions_resolve h x) (not_mentionsL_resolves h xs)
end

end

/-! ## Proof: one port -/

/-- Both sides of the statements of `g`. -/
def both (t m g : Nat) (s : St) : St :=
  if s.gen = g then
    { s with left := subst t (.var m) s.left, right := subst t (.var m) s.right, shown := subst t (.var m) s.shown }
  else s

theorem moveL_ok {t m g : Nat} : ∀ ss : List St,
    (∀ s ∈ ss, s.gen = g → Mentions t s.left → s.kind = .assign ∧ E.sourceOf t s.left = true ∧ FoundCast t s.left) →
    moveL t m g ss = (ss.map fun s => if s.gen = g then { s with left := subst t (.var m) s.left } else s, .ok ())
  | [], _ => rfl
  | s :: ss, h => by
    have ih := moveL_ok (m := m) ss fun x hx => h x (List.mem_cons_of_mem _ hx)
    rw [moveL, ih]
    by_cases hh : s.gen = g ∧ s.kind = .assign ∧ E.sourceOf t s.left = true
    · rw [if_pos hh]
      have hm := sourceOf_mentions _ hh.2.2
      rw [setSide_found _ (h s List.mem_cons_self hh.1 hm).2.2 hm]
      simp only [List.map_cons, if_pos hh.1]
    · rw [if_neg hh]
      simp only [List.map_cons]
      by_cases hg : s.gen = g
      · have hm : ¬ Mentions t s.left := fun hm =>
          hh ⟨hg, (h s List.mem_cons_self hg hm).1, (h s List.mem_cons_self hg hm).2.1⟩
        rw [if_pos hg, subst_of_not _ hm]
      · rw [if_neg hg]

theorem moveR_ok {t m g : Nat} : ∀ ss : List St,
    (∀ s ∈ ss, s.gen = g → Mentions t s.right → FoundCast t s.right ∧ (s.kind = .test → s.right.isExpr = true)) →
    (∀ s ∈ ss, s.gen = g → s.left.indexSink t = false) → (∀ s ∈ ss, s.gen = g → s.shown = s.right) →
    moveR t m g ss = (ss.map fun s => if s.gen = g then
      { s with right := subst t (.var m) s.right, shown := subst t (.var m) s.shown } else s, .ok ())
  | [], _, _, _ => rfl
  | s :: ss, h, hi, hs => by
    have ih := moveR_ok (m := m) ss (fun x hx => h x (List.mem_cons_of_mem _ hx))
      (fun x hx => hi x (List.mem_cons_of_mem _ hx)) (fun x hx => hs x (List.mem_cons_of_mem _ hx))
    have h1 : moveOne t (.var m) g s = .ok (if s.gen = g then
        { s with right := subst t (.var m) s.right, shown := subst t (.var m) s.shown } else s) := by
      rw [moveOne]
      by_cases hg : s.gen = g
      · rw [if_pos hg]
        by_cases hm : Mentions t s.right
        · have hk : s.isSink t = true := by rw [St.isSink, (sinkOf_iff _).2 hm]; rfl
          obtain ⟨hf, ht⟩ := h s List.mem_cons_self hg hm
          rw [if_pos ⟨hg, hk⟩, setSide_found _ hf hm, Res.ok_map]
          have : s.kind = .assign ∨ s.right.isExpr = true := by
            cases hk : s.kind with
            | assign => exact .inl rfl
            | test => exact .inr (ht hk)
          rw [if_pos this, hs s List.mem_cons_self hg]
        · have hk : s.isSink t = false := by
            rw [St.isSink, hi s List.mem_cons_self hg]
            cases hx : s.right.sinkOf t with
            | true => exact absurd ((sinkOf_iff _).1 hx) hm
            | false => simp
          rw [if_neg (by rw [hk]; simp)]
          rw [hs s List.mem_cons_self hg, subst_of_not _ hm]
          have := hs s List.mem_cons_self hg
          cases s; simp_all
      · rw [if_neg (fun x => hg x.1), if_neg hg]
    rw [moveR, h1, ih]
    rfl

theorem movePort_ok {old new : List Prt} {o : Prt} {os : List Prt} {g m : Nat} {ss : List St}
    (ho : old = o :: os) (hu : Usable old new g ss) :
    movePort o.dir o.var m g ss = (ss.map (both o.var m g), .ok ()) := by
  subst ho
  have hl := fun s hs hg => hu.left s hs hg o List.mem_cons_self
  have hr := fun s hs hg => hu.right s hs hg o List.mem_cons_self
  have hL := moveL_ok (t := o.var) (m := m) (g := g) ss fun s hs hg hm => (hl s hs hg hm).2
  have hidx : ∀ s ∈ ss, s.gen = g → s.left.indexSink o.var = false := by
    intro s hs hg
    by_cases hm : Mentions o.var s.left
    · exact foundCast_noIndex _ (hl s hs hg hm).2.2.2
    · exact noIndex_of_not hm
  cases hd : o.dir with
  | input =>
    show moveL o.var m g ss = _
    rw [hL]
    refine congrArg (·, _) (List.map_congr_left fun s hs => ?_)
    rw [both]
    by_cases hg : s.gen = g
    · have hn : ¬ Mentions o.var s.right := fun hm => (hr s hs hg hm).1 hd
      rw [if_pos hg, if_pos hg, hu.shown s hs hg, subst_of_not _ hn]
    · rw [if_neg hg, if_neg hg]
  | output =>
    show moveR o.var m g ss = _
    rw [moveR_ok ss (fun s hs hg hm => (hr s hs hg hm).2) hidx hu.shown]
    refine congrArg (·, _) (List.map_congr_left fun s hs => ?_)
    rw [both]
    by_cases hg : s.gen = g
    · have hn : ¬ Mentions o.var s.left := fun hm => (hl s hs hg hm).1 hd
      rw [if_pos hg, if_pos hg, subst_of_not _ hn]
    · rw [if_neg hg, if_neg hg]
  | both =>
    show (match (moveL o.var m g ss).2 with
      | .ok _ => moveR o.var m g (moveL o.var m g ss).1
      | e => ((moveL o.var m g ss).1, e)) = _
    rw [hL]
    simp only
    have key : ∀ x ∈ ss.map (fun s => if s.gen = g then { s with left := subst o.var (.var m) s.left } else s),
        ∃ s ∈ ss, x.gen = s.gen ∧ x.kind = s.kind ∧ x.right = s.right ∧ x.shown = s.shown ∧
          (s.gen = g → x.left = subst o.var (.var m) s.left) := by
      intro x hx
      obtain ⟨s, hs, rfl⟩ := List.mem_map.1 hx
      refine ⟨s, hs, ?_⟩
      split
      · exact ⟨rfl, rfl, rfl, rfl, fun _ => rfl⟩
      · rename_i hg; exact ⟨rfl, rfl, rfl, rfl, fun h => absurd h hg⟩
    rw [moveR_ok]
    · rw [List.map_map]
      refine congrArg (·, _) (List.map_congr_left fun s hs => ?_)
      simp only [Function.comp_apply, both]
      by_cases hg : s.gen = g
      · simp only [if_pos hg]
      · simp only [if_neg hg]
    · intro x hx hg hm
      obtain ⟨s, hs, h1, h2, h3, h4, h5⟩ := key x hx
      rw [h3] at hm ⊢; rw [h2]
      exact (hr s hs (h1 ▸ hg) hm).2
    · intro x hx hg
      obtain ⟨s, hs, h1, h2, h3, h4, h5⟩ := key x hx
      rw [h5 (h1 ▸ hg)]
      by_cases hmv : m = o.var
      · have : subst o.var (.var m) s.left = s.left := by
          rw [hmv]; exact subst_id _
        rw [this]; exact hidx s hs (h1 ▸ hg)
      · exact noIndex_of_not (not_mentions_subst (fun hm => hmv (mentions_var.1 hm)) _)
    · intro x hx hg
      obtain ⟨s, hs, h1, h2, h3, h4, h5⟩ := key x hx
      rw [h4, h3]; exact hu.shown s hs (h1 ▸ hg)

/-! ## Proof: all ports -/

theorem portOf_mem {nm : String} {ps : List Prt} {n : Prt} (h : portOf nm ps = some n) : n ∈ ps ∧ n.name = nm := by
  induction ps with
  | nil => cases h
  | cons p ps ih =>
    rw [portOf] at h
    split at h
    · rename_i hp; cases h; exact ⟨List.mem_cons_self, hp⟩
    · exact ⟨List.mem_cons_of_mem _ (ih h).1, (ih h).2⟩

theorem portOf_find (nm : String) (ps : List Prt) : portOf nm ps = ps.find? fun n => n.name = nm := by
  induction ps with
  | nil => rfl
  | cons p ps ih =>
    rw [portOf, List.find?_cons]
    by_cases h : p.name = nm
    · simp [h]
    · simp [h, ih]

theorem sameType_iff {o n : Prt} : sameType o n = true ↔
    n.dir = o.dir ∧ n.width = o.width ∧ n.size = o.size ∧ n.signed = o.signed ∧ n.ptype = o.ptype := by
  simp only [sameType, Bool.and_eq_true, beq_iff_eq]
  constructor
  · rintro ⟨⟨⟨⟨a, b⟩, c⟩, d⟩, e⟩; exact ⟨e.symm, b.symm, a.symm, c.symm, d.symm⟩
  · rintro ⟨a, b, c, d, e⟩; exact ⟨⟨⟨⟨c.symm, b.symm⟩, d.symm⟩, e.symm⟩, a.symm⟩

theorem usable_step {o : Prt} {os new : List Prt} {g m : Nat} {ss : List St}
    (hu : Usable (o :: os) new g ss) (hm : ∀ p ∈ os, p.var ≠ m) :
    Usable os new g (ss.map (both o.var m g)) := by
  have hnd := List.nodup_cons.1 hu.vars
  have hne : ∀ p ∈ os, p.var ≠ o.var := fun p hp he => hnd.1 (by
    have := List.mem_map_of_mem (f := fun x : Prt => x.var) hp
    simp only at this ⊢; rw [← he]; exact this)
  have key : ∀ x ∈ ss.map (both o.var m g), x.gen = g → ∃ s ∈ ss, s.gen = g ∧ x.kind = s.kind ∧
      x.left = subst o.var (.var m) s.left ∧ x.right = subst o.var (.var m) s.right ∧
      x.shown = subst o.var (.var m) s.shown := by
    intro x hx hg
    obtain ⟨s, hs, rfl⟩ := List.mem_map.1 hx
    rw [both] at hg ⊢
    split at hg
    · rename_i h
      rw [if_pos h]
      exact ⟨s, hs, h, rfl, rfl, rfl, rfl⟩
    · rename_i h; exact absurd hg h
  refine ⟨hnd.2, fun n hn p hp => hu.fresh n hn p (List.mem_cons_of_mem _ hp), ?_, ?_, ?_⟩
  · intro x hx hg p hp hme
    obtain ⟨s, hs, hsg, hk, hl, hr, hsh⟩ := key x hx hg
    rw [hl] at hme ⊢
    obtain ⟨a, b, c, d⟩ := hu.left s hs hsg p (List.mem_cons_of_mem _ hp) ((mentions_subst (hne p hp) (hm p hp) _).1 hme)
    exact ⟨a, by rw [hk]; exact b, sourceOf_subst (hne p hp) _ c, foundCast_subst (hne p hp) (hm p hp) _ d⟩
  · intro x hx hg p hp hme
    obtain ⟨s, hs, hsg, hk, hl, hr, hsh⟩ := key x hx hg
    rw [hr] at hme ⊢
    obtain ⟨a, b, c⟩ := hu.right s hs hsg p (List.mem_cons_of_mem _ hp) ((mentions_subst (hne p hp) (hm p hp) _).1 hme)
    exact ⟨a, foundCast_subst (hne p hp) (hm p hp) _ b, fun ht => isExpr_subst _ (c (by rw [← hk]; exact ht))⟩
  · intro x hx hg
    obtain ⟨s, hs, hsg, hk, hl, hr, hsh⟩ := key x hx hg
    rw [hr, hsh, hu.shown s hs hsg]

theorem swapped_nil (new : List Prt) (v : Nat) : swapped [] new v = v := rfl

theorem swapped_head (o : Prt) (os new : List Prt) (n : Prt) (h : portOf o.name new = some n) :
    swapped (o :: os) new o.var = n.var := by
  rw [portOf_find] at h
  simp [swapped, h]

theorem swapped_tail (o : Prt) (os new : List Prt) (v : Nat) (h : v ≠ o.var) :
    swapped (o :: os) new v = swapped os new v := by
  have : ¬ o.var = v := fun h' => h h'.symm
  simp [swapped, this]

theorem swapped_new (os new : List Prt) (v : Nat) (h : ∀ o ∈ os, o.var ≠ v) : swapped os new v = v := by
  have : os.find? (fun o => o.var = v) = none := by
    rw [List.find?_eq_none]
    intro o ho; simpa using h o ho
  simp [swapped, this]

theorem rename_both (o : Prt) (os new : List Prt) (n : Prt) (g : Nat) (hn : portOf o.name new = some n)
    (hf : ∀ p ∈ os, p.var ≠ n.var) (s : St) :
    rename (swapped os new) g (both o.var n.var g s) = rename (swapped (o :: os) new) g s := by
  have hr := resolve_subst (f' := swapped os new) (f := swapped (o :: os) new) (t := o.var) (m := n.var)
    (swapped_new os new _ hf) (swapped_head o os new n hn) (fun v hv => swapped_tail o os new v hv)
  rw [both]
  by_cases hg : s.gen = g
  · rw [if_pos hg, rename, rename, if_pos hg, if_pos hg, hr, hr, hr]
  · rw [if_neg hg, rename, rename, if_neg hg, if_neg hg]

theorem rename_id (new : List Prt) (g : Nat) (s : St) : rename (swapped [] new) g s = s := by
  have h : ∀ e : E, resolve (swapped [] new) e = e := fun e => resolve_self _ e fun v _ => swapped_nil new v
  rw [rename]; split
  · rw [h, h, h]
  · rfl

theorem loop_ok (new : List Prt) (g : Nat) : ∀ (old : List Prt) (ss : List St), Usable old new g ss →
    (∀ o ∈ old, ∃ n, portOf o.name new = some n ∧ sameType o n = true) →
    swapLoop new g old ss = (ss.map (rename (swapped old new) g), .ok ())
  | [], ss, _, _ => by
    rw [swapLoop]
    refine congrArg (·, _) ?_
    rw [show rename (swapped [] new) g = id from funext fun s => rename_id new g s, List.map_id]
  | o :: os, ss, hu, h => by
    obtain ⟨n, hn, ht⟩ := h o List.mem_cons_self
    have hmem := (portOf_mem hn).1
    have hne : ∀ p ∈ os, p.var ≠ n.var := fun p hp he => hu.fresh n hmem p (List.mem_cons_of_mem _ hp) he.symm
    rw [swapLoop, hn]
    simp only
    rw [if_pos ht, movePort_ok rfl hu]
    simp only
    rw [loop_ok new g os _ (usable_step hu hne) fun p hp => h p (List.mem_cons_of_mem _ hp), List.map_map]
    refine congrArg (·, _) (List.map_congr_left fun s _ => ?_)
    exact rename_both o os new n g hn hne s

/-! ## The properties -/

/-- An accepted call had children with the same interface. -/
theorem accepted_same (old new : List Prt) (g : Nat) (ss : List St) (h : (replace old new g ss).2 = .ok ()) :
    SameInterface old new := by
  rw [replace] at h
  split at h
  · rename_i hl
    refine ⟨hl, ?_⟩
    clear hl
    induction old generalizing ss with
    | nil => intro o ho; cases ho
    | cons o os ih =>
      rw [swapLoop] at h
      cases hn : portOf o.name new with
      | none => rw [hn] at h; cases h
      | some n =>
        rw [hn] at h
        simp only at h
        split at h
        · rename_i ht
          intro p hp
          rcases List.mem_cons.1 hp with rfl | hp
          · exact ⟨n, (portOf_mem hn).1, (portOf_mem hn).2, sameType_iff.1 ht⟩
          · cases hr : (movePort o.dir o.var n.var g ss).2 with
            | ok x => rw [hr] at h; exact ih _ h p hp
            | throw e => rw [hr] at h; cases h
            | ub => rw [hr] at h; cases h
        · cases h
  · cases h

/-- In a design whose parent drives the inputs and reads the outputs of the old child in places that are
looked at, children with the same interface are accepted, and every statement is as before with the new
child's ports in the place of the old child's.  Missing: reading an input, tests and the places of C75,
`input_lost`, `test_lost`. -/
theorem swap_partial (old new : List Prt) (g : Nat) (ss : List St) (hu : Usable old new g ss)
    (hnames : (new.map (·.name)).Nodup) (hi : SameInterface old new) :
    replace old new g ss = (ss.map (rename (swapped old new) g), .ok ()) := by
  rw [replace, if_pos hi.1]
  refine loop_ok new g old ss hu fun o ho => ?_
  obtain ⟨n, hn, hname, ht⟩ := hi.2 o ho
  have : ∀ (ps : List Prt), (ps.map (·.name)).Nodup → n ∈ ps → portOf o.name ps = some n := by
    intro ps
    induction ps with
    | nil => intro _ h; cases h
    | cons p ps ih =>
      intro hnd hmem
      rw [portOf]
      rcases List.mem_cons.1 hmem with rfl | hmem
      · rw [if_pos hname]
      · rw [if_neg, ih (List.nodup_cons.1 hnd).2 hmem]
        intro hp
        exact (List.nodup_cons.1 hnd).1 (by
          have := List.mem_map_of_mem (f := fun x : Prt => x.name) hmem
          simp only at this ⊢; rw [hp, ← hname]; exact this)
  exact ⟨n, this new hnames hn, sameType_iff.2 ht⟩

/-- After it no statement of the parent mentions a port of the old child. -/
theorem swap_gone (old new : List Prt) (g : Nat) (ss : List St) (hu : Usable old new g ss)
    (hnames : (new.map (·.name)).Nodup) (hi : SameInterface old new) :
    ∀ s ∈ (replace old new g ss).1, s.gen = g → ∀ o ∈ old, ¬ Mentions o.var s.left ∧ ¬ Mentions o.var s.shown := by
  rw [swap_partial old new g ss hu hnames hi]
  intro s hs hg o ho
  obtain ⟨x, hx, rfl⟩ := List.mem_map.1 hs
  rw [rename] at hg ⊢
  split at hg
  · rename_i h
    rw [if_pos h]
    have : ∀ v, swapped old new v ≠ o.var := by
      intro v hv
      rw [swapped] at hv
      split at hv
      · rename_i hnone
        rw [List.find?_eq_none] at hnone
        exact hnone o ho (by simpa using hv.symm)
      · rename_i q hq
        obtain ⟨n, hn, hname, _⟩ := hi.2 q (List.mem_of_find?_eq_some hq)
        cases hf : new.find? fun n => n.name = q.name with
        | none =>
          rw [List.find?_eq_none] at hf
          exact hf n hn (by simpa using hname)
        | some k =>
          rw [hf] at hv
          exact hu.fresh k (List.mem_of_find?_eq_some hf) o ho hv
    exact ⟨not_mentions_resolve this _, not_mentions_resolve this _⟩
  · rename_i h; exact absurd hg h

/-- Statements of other generators are never changed, accepted or not. -/
theorem swap_frame (old new : List Prt) (g : Nat) (ss : List St) (i : Nat) (s : St) (hs : ss[i]? = some s)
    (hg : s.gen ≠ g) : (replace old new g ss).1[i]? = some s := by
  have hL : ∀ (t m : Nat) (l : List St) (i : Nat), l[i]? = some s → (moveL t m g l).1[i]? = some s := by
    intro t m l
    induction l with
    | nil => intro i h; simp at h
    | cons x xs ih =>
      intro i h
      rw [moveL]
      cases i with
      | zero =>
        simp only [List.getElem?_cons_zero, Option.some.injEq] at h
        subst h
        rw [if_neg (fun hh => hg hh.1)]; rfl
      | succ i =>
        simp only [List.getElem?_cons_succ] at h
        split
        · split <;> simp [h, ih i h]
        · simp [ih i h]
  have hR : ∀ (t m : Nat) (l : List St) (i : Nat), l[i]? = some s → (moveR t m g l).1[i]? = some s := by
    intro t m l
    induction l with
    | nil => intro i h; simp at h
    | cons x xs ih =>
      intro i h
      rw [moveR]
      cases i with
      | zero =>
        simp only [List.getElem?_cons_zero, Option.some.injEq] at h
        subst h
        have : moveOne t (.var m) g x = .ok x := by rw [moveOne, if_neg (fun hh => hg hh.1)]
        rw [this]; rfl
      | succ i =>
        simp only [List.getElem?_cons_succ] at h
        split <;> simp [h, ih i h]
  have hP : ∀ (d : Dir) (t m : Nat) (l : List St) (i : Nat), l[i]? = some s → (movePort d t m g l).1[i]? = some s := by
    intro d t m l i h
    cases d with
    | input => exact hL t m l i h
    | output => exact hR t m l i h
    | both =>
      rw [movePort]
      split
      · exact hR t m _ i (hL t m l i h)
      · exact hL t m l i h
  rw [replace]
  split
  · rename_i hlen
    clear hlen hL hR
    induction old generalizing ss with
    | nil => exact hs
    | cons o os ih =>
      rw [swapLoop]
      split
      · exact hs
      · split
        · split
          · exact ih _ (hP _ _ _ _ _ hs)
          · exact hP _ _ _ _ _ hs
        · exact hs
  · exact hs

/-- A child with another number of ports is refused and nothing is changed. -/
theorem count_refused (old new : List Prt) (g : Nat) (ss : List St) (h : old.length ≠ new.length) :
    replace old new g ss = (ss, .throw .var) := by
  rw [replace, if_neg h]

/-- What is left after removing a child: no assignment drives one of its inputs or reads one of its other
ports; what mentions none of its ports is still there. -/
theorem remove_partial (ports : List Prt) (ss : List St) :
    (∀ s ∈ remove ports ss, s.kind = .assign → ∀ p ∈ ports,
      (p.dir = .input → E.sourceOf p.var s.left = false) ∧ (p.dir ≠ .input → ¬ Mentions p.var s.right)) ∧
    (∀ s ∈ ss, (∀ p ∈ ports, ¬ Mentions p.var s.left ∧ ¬ Mentions p.var s.right) → s ∈ remove ports ss) := by
  have hsub : ∀ (ports : List Prt) (ss : List St), ∀ s ∈ remove ports ss, s ∈ ss := by
    intro ports
    induction ports with
    | nil => intro ss s hs; exact hs
    | cons p ps ih =>
      intro ss s hs
      have := ih _ s hs
      rw [dropPort] at this
      split at this <;> exact (List.mem_filter.1 this).1
  constructor
  · induction ports generalizing ss with
    | nil => intro s _ _ p hp; cases hp
    | cons q qs ih =>
      intro s hs hk p hp
      rcases List.mem_cons.1 hp with rfl | hp
      · have hm : s ∈ dropPort ss p := hsub qs _ s hs
        rw [dropPort] at hm
        constructor
        · intro hd
          rw [hd] at hm
          have := (List.mem_filter.1 hm).2
          rw [hk] at this
          simpa using this
        · intro hd hme
          have h2 : (!(s.kind == .assign && s.isSink p.var)) = true := by
            split at hm
            · rename_i h; exact absurd h hd
            · exact (List.mem_filter.1 hm).2
          rw [hk, St.isSink, (sinkOf_iff _).2 hme] at h2
          cases h2
      · exact ih _ s hs hk p hp
  · intro s hs h
    induction ports generalizing ss with
    | nil => exact hs
    | cons p ps ih =>
      refine ih _ ?_ fun q hq => h q (List.mem_cons_of_mem _ hq)
      obtain ⟨hl, hr⟩ := h p List.mem_cons_self
      rw [dropPort]
      split
      · refine List.mem_filter.2 ⟨hs, ?_⟩
        have : E.sourceOf p.var s.left = false := by
          cases hx : E.sourceOf p.var s.left with
          | false => rfl
          | true => exact absurd (sourceOf_mentions _ hx) hl
        rw [this]; simp
      · refine List.mem_filter.2 ⟨hs, ?_⟩
        have h1 : s.right.sinkOf p.var = false := by
          cases hx : s.right.sinkOf p.var with
          | false => rfl
          | true => exact absurd ((sinkOf_iff _).1 hx) hr
        rw [St.isSink, h1, noIndex_of_not hl]; simp

/-- `unwire` takes out the first connection of the two, in either direction, and nothing else. -/
theorem unwire_exact (a b : E) (ss : List St) :
    (∃ pre s post, ss = pre ++ s :: post ∧ unwire a b ss = pre ++ post ∧ s.kind = .assign ∧
      ((s.left = a ∧ s.right = b) ∨ (s.left = b ∧ s.right = a)) ∧
      ∀ x ∈ pre, x.kind = .assign → ¬ ((x.left = a ∧ x.right = b) ∨ (x.left = b ∧ x.right = a))) ∨
    (unwire a b ss = ss ∧
      ∀ x ∈ ss, x.kind = .assign → ¬ ((x.left = a ∧ x.right = b) ∨ (x.left = b ∧ x.right = a))) := by
  induction ss with
  | nil => exact .inr ⟨rfl, fun x hx => by cases hx⟩
  | cons s ss ih =>
    rw [unwire]
    by_cases h : s.kind = .assign ∧ ((s.left = a ∧ s.right = b) ∨ (s.right = a ∧ s.left = b))
    · rw [if_pos h]
      exact .inl ⟨[], s, ss, rfl, rfl, h.1, h.2.imp id fun x => ⟨x.2, x.1⟩, fun x hx => by cases hx⟩
    · rw [if_neg h]
      have hs : s.kind = .assign → ¬ ((s.left = a ∧ s.right = b) ∨ (s.left = b ∧ s.right = a)) :=
        fun hk hx => h ⟨hk, hx.imp id fun x => ⟨x.2, x.1⟩⟩
      rcases ih with ⟨pre, x, post, h1, h2, h3, h4, h5⟩ | ⟨h1, h2⟩
      · refine .inl ⟨s :: pre, x, post, by rw [h1]; rfl, by rw [h2]; rfl, h3, h4, fun y hy => ?_⟩
        rcases List.mem_cons.1 hy with rfl | hy
        · exact hs
        · exact h5 y hy
      · refine .inr ⟨by rw [h1], fun y hy => ?_⟩
        rcases List.mem_cons.1 hy with rfl | hy
        · exact hs
        · exact h2 y hy

/-! ## Where the claims fail -/

/-- Two children with an input and an output: ports 1, 2 and 11, 12. -/
def exOld : List Prt := [⟨"in", 1, .input, 4, [1], false, 0⟩, ⟨"out", 2, .output, 4, [1], false, 0⟩]
def exNew : List Prt := [⟨"in", 11, .input, 4, [1], false, 0⟩, ⟨"out", 12, .output, 4, [1], false, 0⟩]
/-- A child whose output has another width. -/
def exWide : List Prt := [⟨"in", 11, .input, 4, [1], false, 0⟩, ⟨"out", 12, .output, 8, [1], false, 0⟩]

/-- `old.in = a`, `b = ~old.out`. -/
def exStmts : List St :=
  [⟨0, .assign, .var 1, .var 20, .var 20⟩, ⟨0, .assign, .var 21, .un 0 (.var 2), .un 0 (.var 2)⟩]

/-- A call refused because of the second port has moved the first one: `old` is still the instance, and
its input is not driven any more. -/
theorem refused_wrong : replace exOld exWide 0 exStmts =
    ([⟨0, .assign, .var 11, .var 20, .var 20⟩, ⟨0, .assign, .var 21, .un 0 (.var 2), .un 0 (.var 2)⟩], .throw .var) := by
  decide +kernel

theorem not_RefuseClaim : ¬ RefuseClaim := by
  intro h
  have := h exOld exWide 0 exStmts (by rw [refused_wrong]; intro h; cases h)
  rw [refused_wrong] at this
  revert this
  decide +kernel

/-- A statement of the parent that reads the child's input still reads the input of the child that is
gone. -/
theorem input_lost : replace exOld exNew 0 [⟨0, .assign, .var 1, .var 20, .var 20⟩, ⟨0, .assign, .var 22, .var 1, .var 1⟩] =
    ([⟨0, .assign, .var 11, .var 20, .var 20⟩, ⟨0, .assign, .var 22, .var 1, .var 1⟩], .ok ()) := by decide +kernel

/-- `if (old.out)` still tests the output of the child that is gone. -/
theorem test_lost : (replace exOld exNew 0 [⟨0, .test, .var 100, .var 2, .var 2⟩]).2 = .ok () ∧
    (replace exOld exNew 0 [⟨0, .test, .var 100, .var 2, .var 2⟩]).1.map (fun s => s.shown) = [.var 2] := by
  decide +kernel

theorem not_SwapClaim : ¬ SwapClaim := by
  intro h
  have := h exOld exNew 0 _ (by rw [input_lost])
  rw [input_lost] at this
  revert this
  decide +kernel

/-- An output used as the index of a slice makes the call throw. -/
theorem index_refused : (replace exOld exNew 0 [⟨0, .assign, .var 21, .ix (.var 20) (.var 2), .ix (.var 20) (.var 2)⟩]).2 =
    .throw .user := by decide +kernel

theorem not_AcceptClaim : ¬ AcceptClaim := by
  intro h
  have := h exOld exNew 0 [⟨0, .assign, .var 21, .ix (.var 20) (.var 2), .ix (.var 20) (.var 2)⟩] (by
    refine ⟨rfl, fun o ho => ?_⟩
    rcases List.mem_cons.1 ho with rfl | ho
    · exact ⟨_, List.mem_cons_self, rfl, rfl, rfl, rfl, rfl, rfl⟩
    · rcases List.mem_cons.1 ho with rfl | ho
      · exact ⟨_, List.mem_cons_of_mem _ List.mem_cons_self, rfl, rfl, rfl, rfl, rfl, rfl⟩
      · cases ho)
  rw [index_refused] at this
  cases this

/-- Removing a child deletes the statement of the child itself (generator 1) that reads its own output;
a child added somewhere else afterwards is not what it was. -/
theorem inner_lost : remove exOld [⟨1, .assign, .var 30, .var 2, .var 2⟩, ⟨0, .assign, .var 1, .var 20, .var 20⟩] = [] := by
  decide +kernel

/-- `if (old.out)` and `x = old.in` stay in the parent of a removed child. -/
theorem mention_wrong : remove exOld [⟨0, .test, .var 100, .var 2, .var 2⟩, ⟨0, .assign, .var 22, .var 1, .var 1⟩] =
    [⟨0, .test, .var 100, .var 2, .var 2⟩, ⟨0, .assign, .var 22, .var 1, .var 1⟩] := by decide +kernel

theorem not_RemoveClaim : ¬ RemoveClaim := by
  intro h
  have := (h exOld 0 [⟨1, .assign, .var 30, .var 2, .var 2⟩, ⟨0, .assign, .var 1, .var 20, .var 20⟩]).2
    ⟨1, .assign, .var 30, .var 2, .var 2⟩ List.mem_cons_self (by decide)
  rw [inner_lost] at this
  cases this

/-! ## Examples -/

example : Usable exOld exNew 0 exStmts ∧ (exNew.map (·.name)).Nodup ∧ SameInterface exOld exNew := by
  refine ⟨⟨by decide +kernel, by decide +kernel, ?_, ?_, by decide +kernel⟩, by decide +kernel, rfl, ?_⟩
  · intro s hs hg o ho hm
    simp only [exStmts, exOld, List.mem_cons, List.not_mem_nil, or_false] at hs ho
    rcases hs with rfl | rfl <;> rcases ho with rfl | rfl <;> have := mentions_var.1 hm <;>
      first
      | (exfalso; revert this; decide)
      | exact ⟨by decide, rfl, by decide +kernel, fun _ => rfl⟩
  · intro s hs hg o ho hm
    simp only [exStmts, exOld, List.mem_cons, List.not_mem_nil, or_false] at hs ho
    rcases hs with rfl | rfl <;> rcases ho with rfl | rfl
    · exact absurd (mentions_var.1 hm) (by decide)
    · exact absurd (mentions_var.1 hm) (by decide)
    · exact absurd (mentions_var.1 (mentions_un.1 hm)) (by decide)
    · exact ⟨by decide, fun _ => rfl, fun _ => rfl⟩
  · intro o ho
    rcases List.mem_cons.1 ho with rfl | ho
    · exact ⟨_, List.mem_cons_self, rfl, rfl, rfl, rfl, rfl, rfl⟩
    · rcases List.mem_cons.1 ho with rfl | ho
      · exact ⟨_, List.mem_cons_of_mem _ List.mem_cons_self, rfl, rfl, rfl, rfl, rfl, rfl⟩
      · cases ho

example : replace exOld exNew 0 exStmts =
    ([⟨0, .assign, .var 11, .var 20, .var 20⟩, ⟨0, .assign, .var 21, .un 0 (.var 12), .un 0 (.var 12)⟩], .ok ()) := by
  decide +kernel

example : remove exOld (exStmts ++ [⟨0, .assign, .var 23, .var 24, .var 24⟩]) = [⟨0, .assign, .var 23, .var 24, .var 24⟩] := by
  decide +kernel

end Kratos.Swap
