import Verif.Stmt.Registry

/-!
# C115: the ports a port is connected to

Model of `Port::connected_from`, `Port::connected_to` and `Port::connected` (src/port.cc:82-129) over the drivers and readers of C96.
A set is a list; its order and repetitions mean nothing.
-/

namespace Kratos.Connected

open Kratos.Replace Kratos.Registry

/-! ## Model -/

/-- `PortDirection`, src/port.hh. -/
inductive Dir where
  | input | output | inout
  deriving DecidableEq, Repr

/-- `direction_` and `generator_` of a port. -/
structure Info where
  dir : Dir
  gen : Nat
  deriving DecidableEq, Repr

/-- Which variables are ports. -/
abbrev Ports := Nat → Option Info

mutual
/-- What `PortVisitor` meets, src/port.cc:82-86, src/ir.cc:24-40: the children of an expression are its operands (src/expr.hh:651-652,
680-685, 708-709, 735-736), those of a slice or a cast or a call are its own slices (src/expr.cc:278-287). -/
def seen : E → List Nat
  | .var v => [v]
  | .const _ => []
  | .param _ => []
  | .sl _ _ _ => []
  | .ix _ _ => []
  | .un _ a => seen a
  | .bin _ a b => seen a ++ seen b
  | .cat xs => seens xs
  | .ext _ a => seen a
  | .dup _ a => seen a
  | .ite c a b => seen c ++ (seen a ++ seen b)
  | .cast _ _ => []
  | .call _ _ => []
def seens : Es → List Nat
  | .nil => []
  | .cons x xs => seen x ++ seens xs
end

/-- The statements of `sources_` or `sinks_`. -/
def stmtsOf (d : Db) (set : Sets) (p : Nat) : List Stm :=
  (List.range d.stms.length).filterMap fun i => if set p i then d.stms[i]? else none

/-- A port with the direction, of another generator. -/
def other (P : Ports) (dir : Dir) (g : Nat) (q : Nat) : Bool :=
  match P q with
  | some i => decide (i.dir = dir) && decide (i.gen ≠ g)
  | none => false

/-- src/port.cc:88-103 -/
def connectedFrom (P : Ports) (d : Db) (p : Nat) (i : Info) : List Nat :=
  if i.dir = .output then []
  else (stmtsOf d d.regs.src p).flatMap fun s => (seen s.right).filter (other P .output i.gen)

/-- src/port.cc:113-128 -/
def connectedTo (P : Ports) (d : Db) (p : Nat) (i : Info) : List Nat :=
  if i.dir = .input then []
  else (stmtsOf d d.regs.snk p).flatMap fun s => (seen s.left).filter (other P .input i.gen)

/-- src/port.cc:105-111 -/
def connected (d : Db) (p : Nat) (i : Info) : Bool :=
  if i.dir = .input then !(stmtsOf d d.regs.src p).isEmpty else !(stmtsOf d d.regs.snk p).isEmpty

/-! ## Specification -/

/-- A statement of the design passes the first variable, or something computed from it, to the second. -/
def Link (d : Db) (p q : Nat) : Prop := ∃ i s, In d i ∧ d.stms[i]? = some s ∧ Mentions p s.right ∧ Writes q s.left

/-- An output of one generator and an input of another. -/
def OutIn (P : Ports) (p q : Nat) : Prop := ∃ g g', P p = some ⟨.output, g⟩ ∧ P q = some ⟨.input, g'⟩ ∧ g ≠ g'

/-- C115 in full: an input port is connected from the outputs of other generators that are passed to it, and an output port is connected to
the inputs of other generators to which it is passed. -/
def ConnectedClaim : Prop :=
  ∀ os d P, run empty os = .ok d → ∀ p i q,
    (P p = some i → i.dir = .input → (q ∈ connectedFrom P d p i ↔ OutIn P q p ∧ Link d q p)) ∧
    (P p = some i → i.dir = .output → (q ∈ connectedTo P d p i ↔ OutIn P p q ∧ Link d p q))

mutual
/-- No slice, index, cast or call in the expression. -/
inductive Plain : E → Prop
  | var {v} : Plain (.var v)
  | const {k} : Plain (.const k)
  | param {k} : Plain (.param k)
  | un {o a} : Plain a → Plain (.un o a)
  | bin {o a b} : Plain a → Plain b → Plain (.bin o a b)
  | cat {xs} : PlainL xs → Plain (.cat xs)
  | ext {w a} : Plain a → Plain (.ext w a)
  | dup {k a} : Plain a → Plain (.dup k a)
  | ite {c a b} : Plain c → Plain a → Plain b → Plain (.ite c a b)
inductive PlainL : Es → Prop
  | nil : PlainL .nil
  | cons {x xs} : Plain x → PlainL xs → PlainL (.cons x xs)
end

mutual
/-- A variable, or variables side by side. -/
inductive Whole : E → Prop
  | var {v} : Whole (.var v)
  | cat {xs} : WholeL xs → Whole (.cat xs)
inductive WholeL : Es → Prop
  | nil : WholeL .nil
  | cons {x xs} : Whole x → WholeL xs → WholeL (.cons x xs)
end

/-! ## Proof -/

mutual
theorem seen_mentions {v : Nat} : ∀ {e : E}, v ∈ seen e → Mentions v e
  | .var u, h => by rcases List.mem_singleton.1 h with rfl; exact .var
  | .un _ a, h => .un (seen_mentions (e := a) h)
  | .bin _ a b, h => by
    rcases List.mem_append.1 h with h | h
    · exact .binL (seen_mentions h)
    · exact .binR (seen_mentions h)
  | .cat xs, h => .cat (seens_mentions (xs := xs) h)
  | .ext _ a, h => .ext (seen_mentions (e := a) h)
  | .dup _ a, h => .dup (seen_mentions (e := a) h)
  | .ite c a b, h => by
    rcases List.mem_append.1 h with h | h
    · exact .cond (seen_mentions h)
    · rcases List.mem_append.1 h with h | h
      · exact .thn (seen_mentions h)
      · exact .els (seen_mentions h)
theorem seens_mentions {v : Nat} : ∀ {xs : Es}, v ∈ seens xs → MentionsL v xs
  | .cons x xs, h => by
    rcases List.mem_append.1 h with h | h
    · exact .head (seen_mentions h)
    · exact .tail (seens_mentions h)
end

mutual
theorem mentions_seen {v : Nat} : ∀ {e : E}, Plain e → Mentions v e → v ∈ seen e
  | _, .var, h => by cases h; exact List.mem_singleton.2 rfl
  | _, .const, h => by cases h
  | _, .param, h => by cases h
  | _, .un p, h => by cases h with | un h => rw [seen]; exact mentions_seen p h
  | _, .bin p q, h => by
    cases h with
    | binL h => exact List.mem_append_left _ (mentions_seen p h)
    | binR h => exact List.mem_append_right _ (mentions_seen q h)
  | _, .cat p, h => by cases h with | cat h => exact mentions_seens p h
  | _, .ext p, h => by cases h with | ext h => rw [seen]; exact mentions_seen p h
  | _, .dup p, h => by cases h with | dup h => rw [seen]; exact mentions_seen p h
  | _, .ite p q r, h => by
    cases h with
    | cond h => exact List.mem_append_left _ (mentions_seen p h)
    | thn h => exact List.mem_append_right _ (List.mem_append_left _ (mentions_seen q h))
    | els h => exact List.mem_append_right _ (List.mem_append_right _ (mentions_seen r h))
theorem mentions_seens {v : Nat} : ∀ {xs : Es}, PlainL xs → MentionsL v xs → v ∈ seens xs
  | _, .nil, h => by cases h
  | _, .cons p q, h => by
    cases h with
    | head h => exact List.mem_append_left _ (mentions_seen p h)
    | tail h => exact List.mem_append_right _ (mentions_seens q h)
end

mutual
theorem whole_seen {v : Nat} : ∀ {e : E}, Whole e → (v ∈ seen e ↔ Writes v e) ∧ ¬ Picks v e
  | _, .var => ⟨by rw [writes_var]; exact List.mem_singleton, fun h => by cases h⟩
  | _, .cat p => by
    rw [writes_cat, picks_cat]
    exact wholes_seen p
theorem wholes_seen {v : Nat} : ∀ {xs : Es}, WholeL xs → (v ∈ seens xs ↔ WritesL v xs) ∧ ¬ PicksL v xs
  | _, .nil => ⟨⟨fun h => (nomatch h), fun h => by cases h⟩, fun h => by cases h⟩
  | _, .cons p q => by
    obtain ⟨h1, h2⟩ := whole_seen (v := v) p
    obtain ⟨h3, h4⟩ := wholes_seen (v := v) q
    rw [writesL_cons, picksL_cons]
    exact ⟨List.mem_append.trans (or_congr h1 h3), fun h => h.elim h2 h4⟩
end

theorem mem_stmtsOf {d : Db} {set : Sets} {p : Nat} {s : Stm} : s ∈ stmtsOf d set p ↔ ∃ i, set p i = true ∧ d.stms[i]? = some s := by
  unfold stmtsOf
  rw [List.mem_filterMap]
  constructor
  · rintro ⟨i, _, h⟩
    split at h
    · exact ⟨i, by assumption, h⟩
    · cases h
  · rintro ⟨i, h, hs⟩
    refine ⟨i, ?_, by rw [if_pos h, hs]⟩
    rw [List.mem_range]
    exact (List.getElem?_eq_some_iff.1 hs).1

theorem other_iff {P : Ports} {dir : Dir} {g q : Nat} : other P dir g q = true ↔ ∃ g', P q = some ⟨dir, g'⟩ ∧ g' ≠ g := by
  unfold other
  cases h : P q with
  | none => simp
  | some i =>
    obtain ⟨x, y⟩ := i
    simp only [Bool.and_eq_true, decide_eq_true_eq, Option.some.injEq, Info.mk.injEq]
    constructor
    · rintro ⟨rfl, h⟩
      exact ⟨y, ⟨rfl, rfl⟩, h⟩
    · rintro ⟨g', ⟨rfl, rfl⟩, h⟩
      exact ⟨rfl, h⟩

theorem mem_from {P : Ports} {d : Db} {p q : Nat} {i : Info} : q ∈ connectedFrom P d p i ↔
    i.dir ≠ .output ∧ (∃ s, s ∈ stmtsOf d d.regs.src p ∧ q ∈ seen s.right) ∧ ∃ g', P q = some ⟨.output, g'⟩ ∧ g' ≠ i.gen := by
  unfold connectedFrom
  split
  · next h => simp [h]
  · next h =>
    simp only [List.mem_flatMap, List.mem_filter, other_iff]
    constructor
    · rintro ⟨s, h1, h2, h3⟩
      exact ⟨h, ⟨s, h1, h2⟩, h3⟩
    · rintro ⟨_, ⟨s, h1, h2⟩, h3⟩
      exact ⟨s, h1, h2, h3⟩

theorem mem_to {P : Ports} {d : Db} {p q : Nat} {i : Info} : q ∈ connectedTo P d p i ↔
    i.dir ≠ .input ∧ (∃ s, s ∈ stmtsOf d d.regs.snk p ∧ q ∈ seen s.left) ∧ ∃ g', P q = some ⟨.input, g'⟩ ∧ g' ≠ i.gen := by
  unfold connectedTo
  split
  · next h => simp [h]
  · next h =>
    simp only [List.mem_flatMap, List.mem_filter, other_iff]
    constructor
    · rintro ⟨s, h1, h2, h3⟩
      exact ⟨h, ⟨s, h1, h2⟩, h3⟩
    · rintro ⟨_, ⟨s, h1, h2⟩, h3⟩
      exact ⟨s, h1, h2, h3⟩

/-! ## Theorems -/

/-- After any calls whatever, a port in `connected_from` of an input is an output of another generator, and there is an assignment, in the
design or removed from it, that passes it to the port. -/
theorem from_sound (os : List Op) (d : Db) (h : run empty os = .ok d) (P : Ports) (p q : Nat) (i : Info) (hp : P p = some i) (hi : i.dir = .input)
    (hq : q ∈ connectedFrom P d p i) : OutIn P q p ∧ ∃ s ∈ d.stms, Mentions q s.right ∧ Writes p s.left := by
  obtain ⟨_, ⟨s, hs, hm⟩, g', hg, hne⟩ := mem_from.1 hq
  obtain ⟨k, hk, hs⟩ := mem_stmtsOf.1 hs
  obtain ⟨s', hs', hw⟩ := (registry_sound os d h p k).1 hk
  rw [hs, Option.some.injEq] at hs'
  subst hs'
  obtain ⟨x, g⟩ := i
  cases hi
  exact ⟨⟨g', g, hg, hp, hne⟩, s, List.mem_of_getElem? hs, seen_mentions hm, hw⟩

/-- C115 for `connected_from`, partial: with the histories of C96, and if what drives the port reads no slices, casts and calls. -/
theorem from_partial (os : List Op) (d : Db) (hc : Always CarefulOp empty os) (ht : Always TidyOp empty os) (h : run empty os = .ok d)
    (P : Ports) (p : Nat) (i : Info) (hp : P p = some i) (hi : i.dir = .input) (hpl : ∀ s ∈ d.stms, Writes p s.left → Plain s.right) (q : Nat) :
    q ∈ connectedFrom P d p i ↔ OutIn P q p ∧ Link d q p := by
  have hx := registry_exact_partial os d hc ht h
  obtain ⟨x, g⟩ := i
  cases hi
  rw [mem_from]
  constructor
  · rintro ⟨_, ⟨s, hs, hm⟩, g', hg, hne⟩
    obtain ⟨k, hk, hs⟩ := mem_stmtsOf.1 hs
    obtain ⟨hin, s', hs', hw⟩ := (hx p k).1.1 hk
    rw [hs, Option.some.injEq] at hs'
    subst hs'
    exact ⟨⟨g', g, hg, hp, hne⟩, k, s, hin, hs, seen_mentions hm, hw⟩
  · rintro ⟨⟨g1, g2, h1, h2, hne⟩, k, s, hin, hs, hm, hw⟩
    rw [hp, Option.some.injEq, Info.mk.injEq] at h2
    obtain ⟨_, rfl⟩ := h2
    refine ⟨by simp, ⟨s, mem_stmtsOf.2 ⟨k, (hx p k).1.2 ⟨hin, s, hs, hw⟩, hs⟩, ?_⟩, g1, h1, hne⟩
    exact mentions_seen (hpl s (List.mem_of_getElem? hs) hw) hm

/-- C115 for `connected_to`, partial: if what reads the port assigns to whole variables. -/
theorem to_partial (os : List Op) (d : Db) (hc : Always CarefulOp empty os) (ht : Always TidyOp empty os) (h : run empty os = .ok d)
    (P : Ports) (p : Nat) (i : Info) (hp : P p = some i) (hi : i.dir = .output) (hpl : ∀ s ∈ d.stms, Reads p s → Whole s.left) (q : Nat) :
    q ∈ connectedTo P d p i ↔ OutIn P p q ∧ Link d p q := by
  have hx := registry_exact_partial os d hc ht h
  obtain ⟨x, g⟩ := i
  cases hi
  rw [mem_to]
  constructor
  · rintro ⟨_, ⟨s, hs, hm⟩, g', hg, hne⟩
    obtain ⟨k, hk, hs⟩ := mem_stmtsOf.1 hs
    obtain ⟨hin, s', hs', hr⟩ := (hx p k).2.1 hk
    rw [hs, Option.some.injEq] at hs'
    subst hs'
    have hw := hpl s (List.mem_of_getElem? hs) hr
    exact ⟨⟨g, g', hp, hg, Ne.symm hne⟩, k, s, hin, hs, hr.resolve_right (whole_seen hw).2, (whole_seen hw).1.1 hm⟩
  · rintro ⟨⟨g1, g2, h1, h2, hne⟩, k, s, hin, hs, hm, hw⟩
    rw [hp, Option.some.injEq, Info.mk.injEq] at h1
    obtain ⟨_, rfl⟩ := h1
    refine ⟨by simp, ⟨s, mem_stmtsOf.2 ⟨k, (hx p k).2.2 ⟨hin, s, hs, Or.inl hm⟩, hs⟩, ?_⟩, g2, h2, Ne.symm hne⟩
    exact (whole_seen (hpl s (List.mem_of_getElem? hs) (Or.inl hm))).1.2 hw

/-- `connected`: an input is written, another port is read. -/
theorem connected_partial (os : List Op) (d : Db) (hc : Always CarefulOp empty os) (ht : Always TidyOp empty os) (h : run empty os = .ok d)
    (p : Nat) (i : Info) : connected d p i = true ↔
      if i.dir = .input then ∃ k s, In d k ∧ d.stms[k]? = some s ∧ Writes p s.left else ∃ k s, In d k ∧ d.stms[k]? = some s ∧ Reads p s := by
  have hx := registry_exact_partial os d hc ht h
  have ne : ∀ l : List Stm, (!l.isEmpty) = true ↔ ∃ s, s ∈ l := by
    intro l
    cases l with
    | nil => simp
    | cons a l => simp only [List.isEmpty_cons, Bool.not_false, true_iff]; exact ⟨a, List.mem_cons_self⟩
  unfold connected
  split
  · rw [ne]
    constructor
    · rintro ⟨s, hs⟩
      obtain ⟨k, hk, hs⟩ := mem_stmtsOf.1 hs
      obtain ⟨hin, s', hs', hw⟩ := (hx p k).1.1 hk
      exact ⟨k, s', hin, hs', hw⟩
    · rintro ⟨k, s, hin, hs, hw⟩
      exact ⟨s, mem_stmtsOf.2 ⟨k, (hx p k).1.2 ⟨hin, s, hs, hw⟩, hs⟩⟩
  · rw [ne]
    constructor
    · rintro ⟨s, hs⟩
      obtain ⟨k, hk, hs⟩ := mem_stmtsOf.1 hs
      obtain ⟨hin, s', hs', hw⟩ := (hx p k).2.1 hk
      exact ⟨k, s', hin, hs', hw⟩
    · rintro ⟨k, s, hin, hs, hw⟩
      exact ⟨s, mem_stmtsOf.2 ⟨k, (hx p k).2.2 ⟨hin, s, hs, hw⟩, hs⟩⟩

/-- Both directions agree. -/
theorem dual_partial (os : List Op) (d : Db) (hc : Always CarefulOp empty os) (ht : Always TidyOp empty os) (h : run empty os = .ok d)
    (P : Ports) (p q : Nat) (i j : Info) (hp : P p = some i) (hq : P q = some j) (hi : i.dir = .output) (hj : j.dir = .input)
    (h1 : ∀ s ∈ d.stms, Reads p s → Whole s.left) (h2 : ∀ s ∈ d.stms, Writes q s.left → Plain s.right) :
    q ∈ connectedTo P d p i ↔ p ∈ connectedFrom P d q j := by
  rw [to_partial os d hc ht h P p i hp hi h1, from_partial os d hc ht h P q j hq hj h2]

/-! ## Examples and witnesses -/

/-- Outputs 0 and 1 of generators 1 and 2, inputs 2 and 3 of generator 3, output 4 of generator 0. -/
def ports : Ports := fun v =>
  match v with
  | 0 => some ⟨.output, 1⟩
  | 1 => some ⟨.output, 2⟩
  | 2 => some ⟨.input, 3⟩
  | 3 => some ⟨.input, 3⟩
  | 4 => some ⟨.output, 0⟩
  | _ => none

def froms (os : List Op) (p : Nat) (i : Info) : Option (List Nat) :=
  match run empty os with
  | .ok d => some (connectedFrom ports d p i)
  | _ => none
def tos (os : List Op) (p : Nat) (i : Info) : Option (List Nat) :=
  match run empty os with
  | .ok d => some (connectedTo ports d p i)
  | _ => none

/-- `in2 = out0 & out1`, `in3 = out0`, `out4 = out1`. -/
def sample : List Op := [.body true, .assign (.var 2) (.bin 0 (.var 0) (.var 1)), .add 0 0, .assign (.var 3) (.var 0), .add 0 1,
  .assign (.var 4) (.var 1), .add 0 2]
example : froms sample 2 ⟨.input, 3⟩ = some [0, 1] ∧ tos sample 0 ⟨.output, 1⟩ = some [2, 3] ∧ tos sample 1 ⟨.output, 2⟩ = some [2] := by
  decide +kernel

example : Always CarefulOp empty sample ∧ Always TidyOp empty sample := by
  constructor
  · refine always_cons trivial rfl (always_cons trivial rfl (always_cons ⟨?_, ?_⟩ rfl (always_cons trivial rfl (always_cons ⟨?_, ?_⟩ rfl
      (always_cons trivial rfl (always_cons ⟨?_, ?_⟩ rfl trivial)))))) <;> decide +kernel
  · exact always_cons trivial rfl (always_cons trivial rfl (always_cons trivial rfl (always_cons trivial rfl (always_cons trivial rfl
      (always_cons trivial rfl (always_cons trivial rfl trivial))))))

/-- `in2 = out0[3:0]`: the output is connected to the input, the input is not connected from the output. -/
def sliced : List Op := [.body true, .assign (.var 2) (.sl (.var 0) 3 0), .add 0 0]
theorem slice_hidden : tos sliced 0 ⟨.output, 1⟩ = some [2] ∧ froms sliced 2 ⟨.input, 3⟩ = some [] := by decide +kernel

/-- `in2[3:0] = out0`: the other way round. -/
def part : List Op := [.body true, .assign (.sl (.var 2) 3 0) (.var 0), .add 0 0]
theorem part_hidden : tos part 0 ⟨.output, 1⟩ = some [] ∧ froms part 2 ⟨.input, 3⟩ = some [0] := by decide +kernel

/-- `in2 = clock(out0)`. -/
theorem cast_hidden : froms [.body true, .assign (.var 2) (.cast 0 (.var 0)), .add 0 0] 2 ⟨.input, 3⟩ = some [] := by decide +kernel

/-- `{in2, x[out0]} = y`: the index is reported as connected to the input. -/
theorem index_reported : tos [.body true, .assign (.cat (.cons (.var 2) (.cons (.ix (.var 8) (.var 0)) .nil))) (.var 9), .add 0 0] 0 ⟨.output, 1⟩ =
    some [2] := by decide +kernel

/-- `in2 = out0`, removed with `remove_stmt`: still connected. -/
theorem removed_reported : froms [.body true, .assign (.var 2) (.var 0), .add 0 0, .remove 0 0] 2 ⟨.input, 3⟩ = some [0] := by decide +kernel

theorem not_ConnectedClaim : ¬ ConnectedClaim := by
  intro hcl
  have hs := slice_hidden.2
  unfold froms at hs
  split at hs
  · next d hd =>
    have := ((hcl sliced d ports hd 2 ⟨.input, 3⟩ 0).1 rfl rfl).2 ⟨⟨1, 3, rfl, rfl, by decide⟩, 0, ⟨.var 2, .sl (.var 0) 3 0, true⟩, ?_, ?_, .sl .var, .var⟩
    · rw [Option.some.injEq] at hs
      rw [hs] at this
      cases this
    · cases hd
      decide +kernel
    · cases hd
      rfl
  · cases hs

end Kratos.Connected
