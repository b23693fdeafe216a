import Verif.Base

/-!
# The table from lines of a module to lines of the user's program

`extract_debug_info` and `extract_debug_info_gen` (`src/debug.cc:712-801`): after the text of a module
was made and every object knows the line it was printed on (C51), the objects reached from the module
are visited (`IRVisitor::visit_content`, `src/ir.cc:139-172`, `IRVisitor::visit_root`,
`src/ir.cc:24-39`) and their positions in the user's program are put into a table by line.
`extract_debug_info` does so for all generators of a design (`IRVisitor::visit_generator_root`,
`src/ir.cc:93-99`), by module name.

Simplified: an object is visited whenever it is reached, not only the first time (the second visit
changes nothing: the table keeps the first entry of a line); a position in the user's program is of an
arbitrary type.
-/

namespace Kratos.LineTable

/-- The kinds of objects, by the `visit` that `accept` calls. -/
inductive K where
  | var | expr | enumVar | enumConst | port
  | assign | switch | seq | comb | inst | ifs | call | func | ret
  | const | param | slice | forLoop | scoped | initial | latch | assert | raw | comment | ifInst
  deriving DecidableEq

/-- The kinds for which `DebugInfoVisitor` has a `visit` (`src/debug.cc:715-738`). -/
def visits : K → Bool
  | .var | .expr | .enumVar | .enumConst | .port => true
  | .assign | .switch | .seq | .comb | .inst | .ifs | .call | .func | .ret => true
  | _ => false

/-- An object: its kind, the module it is printed in, the line there (`verilog_ln`, 0 for none) and its
positions in the user's program (`fn_name_ln`). -/
structure Obj (I : Type) where
  kind : K
  home : Nat
  line : Nat
  info : List I

mutual
/-- An object with its children (`get_child`). -/
inductive Tree (I : Type) where
  | node (o : Obj I) (cs : Trees I)

inductive Trees (I : Type) where
  | nil
  | cons (t : Tree I) (ts : Trees I)
end

variable {I : Type}

/-- `std::map<uint32_t, …>` -/
abbrev Table (I : Type) := Nat → Option (List I)

/-- `emplace` -/
def emplace (t : Table I) (n : Nat) (i : List I) : Table I :=
  fun k => if k = n then (match t n with | some j => some j | none => some i) else t k

/-- `add_info` of a statement and of a variable (`src/debug.cc:743-755`): the latter looks whether the
line is free, `emplace` does so anyway. -/
def addInfo (t : Table I) (o : Obj I) : Table I :=
  if visits o.kind ∧ o.info ≠ [] ∧ o.line ≠ 0 then emplace t o.line o.info else t

mutual
/-- `IRVisitor::visit_root` (`src/ir.cc:24-39`): the object, then its children. -/
def visitRoot (t : Table I) : Tree I → Table I
  | .node o cs => visitRoots (addInfo t o) cs

def visitRoots (t : Table I) : Trees I → Table I
  | .nil => t
  | .cons x xs => visitRoots (visitRoot t x) xs
end

/-- A generator: module name, positions, statements, variables in the order of their names, functions,
children. -/
structure Gen (I : Type) where
  name : List Char
  info : List I
  stmts : Trees I
  vars : List (Obj I)
  funcs : Trees I

/-- What `GeneratorDebugVisitor::visit` computes for one generator (`src/debug.cc:764-769`) with
`visit_content` (`src/ir.cc:139-172`). -/
def tableOf (g : Gen I) : Table I :=
  visitRoots (g.vars.foldl addInfo (visitRoots (emplace (fun _ => none) 1 g.info) g.stmts)) g.funcs

/-- `GeneratorDebugVisitor::visit` (`src/debug.cc:761-771`) -/
def visitGen (r : List Char → Option (Table I)) (g : Gen I) : List Char → Option (Table I) :=
  if (r g.name).isSome then r
  else if g.info ≠ [] then fun n => if n = g.name then some (tableOf g) else r n
  else r

/-- `extract_debug_info` (`src/debug.cc:782-787`); `gs`: the generators of the design, each before its
children. -/
def extract (gs : List (Gen I)) : List Char → Option (Table I) := gs.foldl visitGen fun _ => none

/-- `extract_debug_info_gen` (`src/debug.cc:789-801`): refused if there is no table. -/
def extractGen (g : Gen I) : Res (Table I) :=
  match visitGen (fun _ => none) g g.name with
  | some t => .ok t
  | none => .throw .user

/-! ## Specification -/

mutual
/-- The object is in the tree. -/
inductive In (o : Obj I) : Tree I → Prop
  | root (cs : Trees I) : In o (.node o cs)
  | child (p : Obj I) {cs : Trees I} : Ins o cs → In o (.node p cs)

inductive Ins (o : Obj I) : Trees I → Prop
  | here {t : Tree I} (ts : Trees I) : In o t → Ins o (.cons t ts)
  | there (t : Tree I) {ts : Trees I} : Ins o ts → Ins o (.cons t ts)
end

/-- The object is reached from the generator: in a statement, as a variable or in a function. -/
def Reached (g : Gen I) (o : Obj I) : Prop := Ins o g.stmts ∨ o ∈ g.vars ∨ Ins o g.funcs

/-- What a user expects: an entry of the table of module `m` is the position of something printed on
that line of `m`, or of the generator on line 1. -/
def SoundClaim (I : Type) : Prop :=
  ∀ (m : Nat) (g : Gen I) (n : Nat) (i : List I), tableOf g n = some i →
    n = 1 ∧ i = g.info ∨ ∃ o, Reached g o ∧ o.home = m ∧ o.line = n ∧ o.info = i

/-- What a user expects: what is printed on a line of the module, alone, and has a position in the
user's program, has it in the table. -/
def CompleteClaim (I : Type) : Prop :=
  ∀ (m : Nat) (g : Gen I) (o : Obj I), Reached g o → o.home = m → o.line ≠ 0 → o.line ≠ 1 → o.info ≠ [] →
    (∀ p, Reached g p → p.home = m → p.line = o.line → p = o) → tableOf g o.line = some o.info

/-- The objects with a `visit`. -/
def Noted (o : Obj I) : Prop :=
  o.kind ∈ [K.var, .expr, .enumVar, .enumConst, .port, .assign, .switch, .seq, .comb, .inst, .ifs, .call,
    .func, .ret]

/-! ## Theorems -/

mutual
def flat : Tree I → List (Obj I)
  | .node o cs => o :: flats cs

def flats : Trees I → List (Obj I)
  | .nil => []
  | .cons x xs => flat x ++ flats xs
end

mutual
theorem visitRoot_flat (t : Table I) : ∀ x : Tree I, visitRoot t x = (flat x).foldl addInfo t
  | .node o cs => by simp [visitRoot, flat, visitRoots_flat _ cs]

theorem visitRoots_flat (t : Table I) : ∀ x : Trees I, visitRoots t x = (flats x).foldl addInfo t
  | .nil => rfl
  | .cons x xs => by simp [visitRoots, flats, visitRoot_flat _ x, visitRoots_flat _ xs]
end

mutual
theorem mem_flat (o : Obj I) : ∀ x : Tree I, o ∈ flat x ↔ In o x
  | .node p cs => by
    simp only [flat, List.mem_cons, mem_flats o cs]
    constructor
    · rintro (rfl | h)
      · exact .root _
      · exact .child _ h
    · intro h
      cases h with
      | root => exact .inl rfl
      | child _ h => exact .inr h

theorem mem_flats (o : Obj I) : ∀ x : Trees I, o ∈ flats x ↔ Ins o x
  | .nil => by simp only [flats, List.not_mem_nil, false_iff]; exact nofun
  | .cons x xs => by
    simp only [flats, List.mem_append, mem_flat o x, mem_flats o xs]
    constructor
    · rintro (h | h)
      · exact .here _ h
      · exact .there _ h
    · intro h
      cases h with
      | here _ h => exact .inl h
      | there _ h => exact .inr h
end

/-- The visited objects in order. -/
def order (g : Gen I) : List (Obj I) := flats g.stmts ++ (g.vars ++ flats g.funcs)

theorem tableOf_order (g : Gen I) :
    tableOf g = (order g).foldl addInfo (emplace (fun _ => none) 1 g.info) := by
  simp [tableOf, order, visitRoots_flat]

theorem mem_order (g : Gen I) (o : Obj I) : o ∈ order g ↔ Reached g o := by
  simp [order, Reached, mem_flats]

/-- The object puts itself into the table. -/
def Puts (o : Obj I) : Prop := visits o.kind = true ∧ o.info ≠ [] ∧ o.line ≠ 0

theorem addInfo_some {t : Table I} {n : Nat} {i : List I} (h : t n = some i) (o : Obj I) :
    addInfo t o n = some i := by
  unfold addInfo emplace
  split
  · by_cases hn : n = o.line
    · subst hn; simp [h]
    · simp [hn, h]
  · exact h

theorem addInfo_none {t : Table I} {n : Nat} (h : t n = none) (o : Obj I) :
    (Puts o ∧ o.line = n → addInfo t o n = some o.info) ∧
    (¬ (Puts o ∧ o.line = n) → addInfo t o n = none) := by
  unfold addInfo emplace Puts
  constructor
  · rintro ⟨hp, rfl⟩
    simp [hp, h]
  · intro hp
    by_cases hv : visits o.kind = true ∧ o.info ≠ [] ∧ o.line ≠ 0
    · rw [if_pos hv]
      have : n ≠ o.line := fun hn => hp ⟨hv, hn.symm⟩
      simp [this, h]
    · rw [if_neg hv]; exact h

theorem fold_some {l : List (Obj I)} : ∀ {t : Table I} {n : Nat} {i : List I}, t n = some i →
    l.foldl addInfo t n = some i := by
  induction l with
  | nil => intro t n i h; exact h
  | cons o l ih => intro t n i h; exact ih (addInfo_some h o)

/-- The table after the visits: the first object on a line wins. -/
theorem fold_iff {l : List (Obj I)} : ∀ {t : Table I} {n : Nat} {i : List I}, t n = none →
    (l.foldl addInfo t n = some i ↔ ∃ a o b, l = a ++ o :: b ∧ Puts o ∧ o.line = n ∧ o.info = i ∧
      ∀ p ∈ a, ¬ (Puts p ∧ p.line = n)) := by
  induction l with
  | nil =>
    intro t n i h
    constructor
    · intro h'
      rw [List.foldl_nil, h] at h'
      cases h'
    · rintro ⟨a, o, b, h', _⟩
      cases a <;> cases h'
  | cons o l ih =>
    intro t n i h
    by_cases hp : Puts o ∧ o.line = n
    · have ho := (addInfo_none h o).1 hp
      rw [List.foldl_cons, fold_some ho]
      constructor
      · intro hi
        injection hi with hi
        exact ⟨[], o, l, rfl, hp.1, hp.2, hi, nofun⟩
      · rintro ⟨a, o', b, hl, h1, h2, h3, h4⟩
        cases a with
        | nil =>
          injection hl with hl _
          rw [hl, h3]
        | cons x a =>
          injection hl with hl _
          exact absurd (hl ▸ hp) (h4 x List.mem_cons_self)
    · have ho := (addInfo_none h o).2 hp
      rw [List.foldl_cons, ih ho]
      constructor
      · rintro ⟨a, o', b, rfl, h1, h2, h3, h4⟩
        refine ⟨o :: a, o', b, rfl, h1, h2, h3, ?_⟩
        intro p hm
        rcases List.mem_cons.1 hm with rfl | hm
        · exact hp
        · exact h4 p hm
      · rintro ⟨a, o', b, hl, h1, h2, h3, h4⟩
        cases a with
        | nil =>
          injection hl with hl _
          exact absurd (hl ▸ ⟨h1, h2⟩) hp
        | cons x a =>
          injection hl with hx hl
          exact ⟨a, o', b, hl, h1, h2, h3, fun p hm => h4 p (List.mem_cons_of_mem _ hm)⟩

/-- The table starts with the generator on line 1. -/
theorem first_line (g : Gen I) : tableOf g 1 = some g.info := by
  rw [tableOf_order]
  exact fold_some (by simp [emplace])

theorem visits_iff (o : Obj I) : visits o.kind = true ↔ Noted o := by
  unfold Noted
  cases o.kind <;> decide

/-- An entry of the table below line 1 is the position of the first object, in the order of the visits,
that is on that line and has a position. -/
theorem entry_iff (g : Gen I) (n : Nat) (i : List I) (hn : n ≠ 1) :
    tableOf g n = some i ↔ ∃ a o b, order g = a ++ o :: b ∧ Noted o ∧ n ≠ 0 ∧ i ≠ [] ∧ o.line = n ∧ o.info = i ∧
      ∀ p ∈ a, p.line = n → p.info ≠ [] → ¬ Noted p := by
  rw [tableOf_order, fold_iff (by simp [emplace, hn])]
  constructor
  · rintro ⟨a, o, b, h1, ⟨h2, h3, h4⟩, rfl, rfl, h5⟩
    exact ⟨a, o, b, h1, (visits_iff o).1 h2, h4, h3, rfl, rfl,
      fun p hp hl hi hk => h5 p hp ⟨⟨(visits_iff p).2 hk, hi, by rw [hl]; exact h4⟩, hl⟩⟩
  · rintro ⟨a, o, b, h1, h2, h3, h4, rfl, rfl, h5⟩
    exact ⟨a, o, b, h1, ⟨(visits_iff o).2 h2, h4, h3⟩, rfl, rfl,
      fun p hp ⟨⟨hk, hi, _⟩, hl⟩ => h5 p hp hl hi ((visits_iff p).1 hk)⟩

/-- If everything reached from a module is printed in it, an entry of its table is the position of
something printed on that line. -/
theorem sound_partial {m : Nat} {g : Gen I} (hh : ∀ o, Reached g o → o.home = m) {n : Nat} {i : List I}
    (h : tableOf g n = some i) :
    n = 1 ∧ i = g.info ∨ ∃ o, Reached g o ∧ o.home = m ∧ o.line = n ∧ o.info = i := by
  by_cases hn : n = 1
  · subst hn
    rw [first_line] at h
    injection h with h
    exact .inl ⟨rfl, h.symm⟩
  · obtain ⟨a, o, b, h1, _, _, _, h5, h6, _⟩ := (entry_iff g n i hn).1 h
    have hr : Reached g o := (mem_order g o).1 (by rw [h1]; simp)
    exact .inr ⟨o, hr, hh o hr, h5, h6⟩

/-- Whatever has a position, a line other than the first and one of the noted kinds leaves an entry on
its line, its own one if nothing else with a position is reached on a line of that number. -/
theorem complete_partial {g : Gen I} {o : Obj I} (hr : Reached g o) (hk : Noted o) (h0 : o.line ≠ 0)
    (h1 : o.line ≠ 1) (hi : o.info ≠ []) :
    (∃ i, tableOf g o.line = some i) ∧
    ((∀ p, Reached g p → p.line = o.line → p.info ≠ [] → p.info = o.info) → tableOf g o.line = some o.info) := by
  have hm := (mem_order g o).2 hr
  have he : ∃ i, tableOf g o.line = some i := by
    cases ht : tableOf g o.line with
    | some i => exact ⟨i, rfl⟩
    | none =>
      exfalso
      obtain ⟨s, e, hse⟩ := List.append_of_mem hm
      have h := tableOf_order g
      rw [hse, List.foldl_append, List.foldl_cons] at h
      have hp : Puts o := ⟨(visits_iff o).2 hk, hi, h0⟩
      have : ∃ i, addInfo (s.foldl addInfo (emplace (fun _ => none) 1 g.info)) o o.line = some i := by
        cases hs : s.foldl addInfo (emplace (fun _ => none) 1 g.info) o.line with
        | some i => exact ⟨i, addInfo_some hs o⟩
        | none => exact ⟨_, (addInfo_none hs o).1 ⟨hp, rfl⟩⟩
      obtain ⟨i, hi'⟩ := this
      rw [h, fold_some hi'] at ht
      cases ht
  refine ⟨he, fun hu => ?_⟩
  obtain ⟨i, hti⟩ := he
  obtain ⟨a, p, b, e1, _, _, e4, e5, e6, _⟩ := (entry_iff g _ i h1).1 hti
  have hp : Reached g p := (mem_order g p).1 (by rw [e1]; simp)
  rw [hti, ← e6, hu p hp e5 (by rw [e6]; exact e4)]

/-- The tables of a design: the one of a name is that of the first generator of that name with a
position, and generators without a position have none. -/
theorem extract_iff (gs : List (Gen I)) (nm : List Char) (t : Table I) :
    extract gs nm = some t ↔
      ∃ a g b, gs = a ++ g :: b ∧ g.name = nm ∧ g.info ≠ [] ∧ t = tableOf g ∧
        ∀ x ∈ a, x.name = nm → x.info = [] := by
  have key : ∀ (gs : List (Gen I)) (r : List Char → Option (Table I)),
      gs.foldl visitGen r nm = some t ↔ r nm = some t ∨ r nm = none ∧
        ∃ a g b, gs = a ++ g :: b ∧ g.name = nm ∧ g.info ≠ [] ∧ t = tableOf g ∧
          ∀ x ∈ a, x.name = nm → x.info = [] := by
    intro gs
    induction gs with
    | nil =>
      intro r
      constructor
      · exact .inl
      · rintro (h | ⟨_, a, g, b, h, _⟩)
        · exact h
        · cases a <;> cases h
    | cons g gs ih =>
      intro r
      rw [List.foldl_cons, ih]
      by_cases hp : g.name = nm ∧ g.info ≠ [] ∧ r nm = none
      · obtain ⟨h1, h2, h3⟩ := hp
        have : visitGen r g nm = some (tableOf g) := by simp [visitGen, h1, h2, h3]
        rw [this, h3]
        constructor
        · rintro (h | ⟨h, _⟩)
          · injection h with h
            exact .inr ⟨rfl, [], g, gs, rfl, h1, h2, h.symm, nofun⟩
          · cases h
        · rintro (h | ⟨_, a, g', b, e, e1, e2, e3, e4⟩)
          · cases h
          · cases a with
            | nil => injection e with e _; exact .inl (by rw [e, e3])
            | cons x a => injection e with e _; exact absurd (e4 x List.mem_cons_self (e ▸ h1)) (e ▸ h2)
      · have : visitGen r g nm = r nm := by
          unfold visitGen
          by_cases hs : (r g.name).isSome = true
          · rw [if_pos hs]
          · rw [if_neg hs]
            by_cases hi : g.info ≠ []
            · rw [if_pos hi]
              by_cases hn : nm = g.name
              · subst hn
                exact absurd ⟨rfl, hi, by simpa using hs⟩ hp
              · simp [hn]
            · rw [if_neg hi]
        rw [this]
        constructor
        · rintro (h | ⟨h, a, g', b, rfl, e1, e2, e3, e4⟩)
          · exact .inl h
          · refine .inr ⟨h, g :: a, g', b, rfl, e1, e2, e3, ?_⟩
            intro x hx hn
            rcases List.mem_cons.1 hx with rfl | hx
            · exact Classical.byContradiction fun hi => hp ⟨hn, hi, h⟩
            · exact e4 x hx hn
        · rintro (h | ⟨h, a, g', b, e, e1, e2, e3, e4⟩)
          · exact .inl h
          · cases a with
            | nil => injection e with e _; exact absurd ⟨e ▸ e1, e ▸ e2, h⟩ hp
            | cons x a =>
              injection e with _ e
              exact .inr ⟨h, a, g', b, e, e1, e2, e3, fun y hy => e4 y (List.mem_cons_of_mem _ hy)⟩
  unfold extract
  rw [key gs _]
  simp

/-- The table of one generator is refused exactly if the generator has no position. -/
theorem extractGen_iff (g : Gen I) :
    (g.info ≠ [] → extractGen g = .ok (tableOf g)) ∧ (g.info = [] → extractGen g = .throw .user) := by
  constructor
  · intro h; simp [extractGen, visitGen, h]
  · intro h; simp [extractGen, visitGen, h]

/-! ### Counterexamples and concrete cases -/

/-- A port of module 1, declared on line 3 there. -/
def kidPort : Obj Nat := ⟨.port, 1, 3, [700]⟩
/-- A variable of module 0, declared on line 2. -/
def ownVar : Obj Nat := ⟨.var, 0, 2, [20]⟩
/-- `assign own = kid.port` on line 5. -/
def useKid : Tree Nat := .node ⟨.assign, 0, 5, [50]⟩ (.cons (.node ownVar .nil) (.cons (.node kidPort .nil) .nil))
/-- A statement on line 3. -/
def onThree : Tree Nat := .node ⟨.assign, 0, 3, [30]⟩ .nil
def loop : Obj Nat := ⟨.forLoop, 0, 7, [70]⟩

def parent : Gen Nat where
  name := ['p']
  info := [1]
  stmts := .cons useKid (.cons onThree (.cons (.node loop .nil) .nil))
  vars := [ownVar]
  funcs := .nil

/-- The statement on line 3 is hidden by the declaration of the port on line 3 of another module. -/
theorem foreign_hides : tableOf parent 3 = some [700] ∧ tableOf parent 2 = some [20] ∧
    tableOf parent 5 = some [50] ∧ tableOf parent 7 = none := by decide

theorem not_SoundClaim : ¬ SoundClaim Nat := by
  intro h
  rcases h 0 parent 3 [700] foreign_hides.1 with ⟨h, _⟩ | ⟨o, hr, hh, hl, hi⟩
  · cases h
  · have hm := (mem_order parent o).2 hr
    have : order parent = [⟨.assign, 0, 5, [50]⟩, ownVar, kidPort, ⟨.assign, 0, 3, [30]⟩, loop, ownVar] := rfl
    rw [this] at hm
    simp only [List.mem_cons, List.not_mem_nil, or_false] at hm
    rcases hm with rfl | rfl | rfl | rfl | rfl | rfl <;> simp_all [ownVar, kidPort, loop]

/-- A loop is never in the table. -/
theorem not_CompleteClaim : ¬ CompleteClaim Nat := by
  intro h
  have := h 0 parent loop ((mem_order parent loop).1 (by simp [order, parent, flats, flat])) rfl
    (by decide) (by decide) (by decide) (by
      intro p hr hh hl
      have hm := (mem_order parent p).2 hr
      have : order parent = [⟨.assign, 0, 5, [50]⟩, ownVar, kidPort, ⟨.assign, 0, 3, [30]⟩, loop, ownVar] := rfl
      rw [this] at hm
      simp only [List.mem_cons, List.not_mem_nil, or_false] at hm
      rcases hm with rfl | rfl | rfl | rfl | rfl | rfl <;> simp_all [ownVar, kidPort, loop])
  revert this
  decide

def alone : Gen Nat where
  name := ['q']
  info := [1]
  stmts := .cons onThree (.cons (.node ⟨.ifs, 0, 4, [40, 41]⟩ (.cons (.node ownVar .nil) .nil)) .nil)
  vars := [ownVar]
  funcs := .nil

theorem alone_order : order alone = [⟨.assign, 0, 3, [30]⟩, ⟨.ifs, 0, 4, [40, 41]⟩, ownVar, ownVar] := rfl

example : (∀ o, Reached alone o → o.home = 0) ∧ tableOf alone 4 = some [40, 41] ∧ tableOf alone 2 = some [20] := by
  refine ⟨?_, by decide, by decide⟩
  intro o hr
  have hm := (mem_order alone o).2 hr
  rw [alone_order] at hm
  simp only [List.mem_cons, List.not_mem_nil, or_false] at hm
  rcases hm with rfl | rfl | rfl | rfl <;> rfl

example : tableOf alone 2 = some ownVar.info :=
  (complete_partial (o := ownVar) ((mem_order alone _).1 (by simp [alone_order])) (by simp [Noted, ownVar]) (by decide)
    (by decide) (by decide)).2 (by
    intro p hr hl hi
    have hm := (mem_order alone p).2 hr
    rw [alone_order] at hm
    simp only [List.mem_cons, List.not_mem_nil, or_false] at hm
    rcases hm with rfl | rfl | rfl | rfl <;> simp_all [ownVar])

example : (extract [parent, alone, parent] ['q']).isSome = true ∧ (extract [parent, alone] ['r']).isSome = false := by
  decide

end Kratos.LineTable
