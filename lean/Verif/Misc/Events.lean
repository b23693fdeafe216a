import Verif.Base

/-!
# The events of a design

`Event::fire` and the methods of the statement it gives (`src/event.cc:12-19`, `src/stmt.hh:594-629`,
`src/stmt.cc:1012-1052`), which can be chained in any order, and `extract_event_info`
(`src/event.cc:21-64`), which lists the events of a design by `IRVisitor::visit_root` (`src/ir.cc:24-40`).

A statement may be in more than one block: `add_stmt` (`src/stmt.cc:420-446`) only refuses what is
already in the same block, and `Stmt::clone` (`src/stmt.cc:96-98`) gives the event itself, so that a
cloned block shares its events with the original.  Events are numbered; only they can be shared in the
model.  Skipping a statement that was visited before, as `visit_root` does, skips nothing but events
that were visited before.  Names, transactions, fields and variables are numbers; the name 0 is the empty
string.  Not modelled: positions, the variables that are children of statements.
-/

namespace Kratos.Events

/-- `StatementBlockType` -/
inductive Blk where
  | seq | comb | init | latch | func | scope
  deriving DecidableEq

/-- The nodes below a generator.  `stmt`: if, for and switch statements with their blocks, in the order
of `get_child`; `gen`: the statements, the functions and the child generators, in this order
(`src/generator.cc:388-402`). -/
inductive Node where
  | gen (ext : Bool) (kids : List Node)
  | block (b : Blk) (kids : List Node)
  | stmt (kids : List Node)
  | event (i : Nat)
  | other

/-- What `parent()` gives on the way up from an event: a generator, or a statement, which may be a block. -/
inductive Up where
  | gen
  | stmt (b : Option Blk)
  deriving DecidableEq

/-- `std::map` with `emplace`: the first value stays. -/
def emplace (m : Nat → Option Nat) (k v : Nat) : Nat → Option Nat :=
  match m k with
  | some _ => m
  | none => fun k' => if k' = k then some v else m k'

/-- `EventTracingStmt` (`src/stmt.hh:620-628`). -/
structure Ev where
  name : Nat
  fields : Nat → Option Nat
  transaction : Nat
  action : Nat
  values : Nat → Option Nat

/-- `EventActionType` (`src/stmt.hh:591`). -/
def aStart : Nat := 1
def aEnd : Nat := 2

/-- `Event::fire` (`src/event.cc:12-19`), with the fields in the order of the map. -/
def fire (name : Nat) (fields : List (Nat × Nat)) : Ev where
  name := name
  fields := fields.foldl (fun m f => emplace m f.1 f.2) (fun _ => none)
  transaction := 0
  action := 0
  values := fun _ => none

/-- The methods; `belongs` is also `transaction @ event`. -/
inductive Call where
  | starts
  | startsIn (t : Nat)
  | terminates
  | terminatesIn (t : Nat)
  | belongs (t : Nat)
  | matching (field var : Nat)

/-- `terminates`, `belongs`, `starts`, `matches` (`src/stmt.cc:1024-1052`). -/
def call (e : Ev) : Call → Ev
  | .starts => { e with action := e.action ||| aStart }
  | .startsIn t => { e with transaction := t, action := e.action ||| aStart }
  | .terminates => { e with action := e.action ||| aEnd }
  | .terminatesIn t => { e with transaction := t, action := e.action ||| aEnd }
  | .belongs t => { e with transaction := t }
  | .matching f v => { e with values := emplace e.values f v }

def calls (e : Ev) (cs : List Call) : Ev := cs.foldl call e

/-- The loop of `add_info` (`src/event.cc:30-44`). -/
def combinational : List Up → Bool
  | [] => true
  | .gen :: _ => true
  | .stmt (some .seq) :: _ => false
  | .stmt _ :: l => combinational l

/-- `EventInfo` (`src/event.hh:28-37`). -/
structure Info where
  name : Nat
  transaction : Nat
  combinational : Bool
  action : Nat
  fields : Nat → Option Nat
  stmt : Nat

/-- `add_info` (`src/event.cc:46-55`). -/
def info (ev : Nat → Ev) (above : Nat → List Up) (i : Nat) : Info :=
  ⟨(ev i).name, (ev i).transaction, combinational (above i), (ev i).action, (ev i).fields, i⟩

mutual
/-- `visit_root` (`src/ir.cc:24-40`): the events in the order they are met; an external generator has no
children (`src/generator.hh:176-178`). -/
def visit (seen : List Nat) : Node → List Nat
  | .gen ext kids => if ext then seen else visitAll seen kids
  | .block _ kids => visitAll seen kids
  | .stmt kids => visitAll seen kids
  | .event i => if i ∈ seen then seen else seen ++ [i]
  | .other => seen

def visitAll (seen : List Nat) : List Node → List Nat
  | [] => seen
  | n :: ns => visitAll (visit seen n) ns
end

/-- `extract_event_info` (`src/event.cc:60-64`). -/
def extract (ev : Nat → Ev) (above : Nat → List Up) (top : Node) : List Info :=
  (visit [] top).map (info ev above)

/-! ## Specification -/

/-- The event is somewhere in a design, but not in what is imported. -/
inductive Occurs (i : Nat) : Node → Prop
  | event : Occurs i (.event i)
  | gen {kids n} : n ∈ kids → Occurs i n → Occurs i (.gen false kids)
  | block {b kids n} : n ∈ kids → Occurs i n → Occurs i (.block b kids)
  | stmt {kids n} : n ∈ kids → Occurs i n → Occurs i (.stmt kids)

/-- A place of an event, with what is around it, innermost first. -/
inductive Place (i : Nat) : Node → List Up → Prop
  | event : Place i (.event i) []
  | gen {kids n l} : n ∈ kids → Place i n l → Place i (.gen false kids) (l ++ [.gen])
  | block {b kids n l} : n ∈ kids → Place i n l → Place i (.block b kids) (l ++ [.stmt (some b)])
  | stmt {kids n l} : n ∈ kids → Place i n l → Place i (.stmt kids) (l ++ [.stmt none])

/-- Statements: nothing in them is a generator. -/
inductive IsStmt : Node → Prop
  | event {i} : IsStmt (.event i)
  | other : IsStmt .other
  | block {b kids} : (∀ n ∈ kids, IsStmt n) → IsStmt (.block b kids)
  | stmt {kids} : (∀ n ∈ kids, IsStmt n) → IsStmt (.stmt kids)

/-- A design: generators hold statements and generators. -/
inductive Design : Node → Prop
  | mk {ext kids} : (∀ n ∈ kids, ¬ IsStmt n → Design n) → Design (.gen ext kids)

/-- The event is inside an `always_ff` block. -/
inductive InFF (i : Nat) : Node → Prop
  | here {kids n} : n ∈ kids → Occurs i n → InFF i (.block .seq kids)
  | gen {kids n} : n ∈ kids → InFF i n → InFF i (.gen false kids)
  | block {b kids n} : n ∈ kids → InFF i n → InFF i (.block b kids)
  | stmt {kids n} : n ∈ kids → InFF i n → InFF i (.stmt kids)

/-- The event is under an `always_comb` block or directly under a generator: it happens whenever its
conditions hold. -/
inductive InComb (i : Nat) : Node → Prop
  | here {kids n} : n ∈ kids → Occurs i n → InComb i (.block .comb kids)
  | top {kids} : .event i ∈ kids → InComb i (.gen false kids)
  | gen {kids n} : n ∈ kids → InComb i n → InComb i (.gen false kids)

mutual
/-- The events in the order of the text, with repetition. -/
def text : Node → List Nat
  | .gen ext kids => bif ext then [] else textAll kids
  | .block _ kids => textAll kids
  | .stmt kids => textAll kids
  | .event i => [i]
  | .other => []

def textAll : List Node → List Nat
  | [] => []
  | n :: ns => text n ++ textAll ns
end

/-- `parent()` of every event leads up from one of its places. -/
def Homed (above : Nat → List Up) (top : Node) : Prop :=
  ∀ i, Occurs i top → Place i top (above i)

/-- What a user expects: an event in two places is listed for each of them. -/
def EachClaim : Prop :=
  ∀ (ev : Nat → Ev) (above : Nat → List Up) (top : Node), Design top → Homed above top →
    (extract ev above top).map (·.stmt) = text top

/-- What a user expects: the events reported as combinational are those of combinational code. -/
def CombClaim : Prop :=
  ∀ (ev : Nat → Ev) (above : Nat → List Up) (top : Node), Design top → Homed above top → (text top).Nodup →
    ∀ x ∈ extract ev above top, x.combinational = true → InComb x.stmt top

/-- What a user expects: the value a field is matched with is the one given last. -/
def LastMatchClaim : Prop :=
  ∀ (e : Ev) (cs : List Call) (f v : Nat), (calls e (cs ++ [.matching f v])).values f = some v

/-! ## Theorems -/

theorem emplace_get (m : Nat → Option Nat) (k v x : Nat) :
    emplace m k v x = if x = k ∧ m k = none then some v else m x := by
  unfold emplace
  cases h : m k with
  | none =>
    by_cases hx : x = k
    · simp [hx]
    · simp [hx]
  | some y => simp

theorem emplace_fold (l : List (Nat × Nat)) : ∀ (m : Nat → Option Nat) (x v : Nat),
    (l.foldl (fun m f => emplace m f.1 f.2) m) x = some v ↔
      m x = some v ∨ m x = none ∧ ∃ a b, l = a ++ (x, v) :: b ∧ ∀ p ∈ a, p.1 ≠ x := by
  induction l with
  | nil => intro m x v; simp
  | cons p l ih =>
    intro m x v
    obtain ⟨k, w⟩ := p
    simp only [List.foldl_cons, ih, emplace_get]
    by_cases hx : x = k
    · subst hx
      cases hm : m x with
      | none =>
        simp only [and_self, if_true, Option.some.injEq, reduceCtorEq, false_and, or_false, true_and, false_or]
        constructor
        · rintro rfl
          exact ⟨[], l, rfl, by simp⟩
        · rintro ⟨a, b, h, h'⟩
          cases a with
          | nil => simp at h; exact h.1
          | cons q a =>
            simp at h
            exact absurd (by rw [← h.1]) (h' q (by simp))
      | some y => simp
    · simp only [hx, false_and, if_false]
      constructor
      · rintro (h | ⟨h, a, b, h1, h2⟩)
        · exact .inl h
        · refine .inr ⟨h, (k, w) :: a, b, by simp [h1], ?_⟩
          intro p hp
          rcases List.mem_cons.1 hp with rfl | hp
          · exact fun h => hx h.symm
          · exact h2 p hp
      · rintro (h | ⟨h, a, b, h1, h2⟩)
        · exact .inl h
        · refine .inr ⟨h, ?_⟩
          cases a with
          | nil => simp at h1; exact absurd h1.1.1.symm hx
          | cons q a =>
            simp at h1
            exact ⟨a, b, h1.2, fun p hp => h2 p (by simp [hp])⟩

/-- **The fields of an event are those it was fired with.** -/
theorem fields_exact (n : Nat) {fs : List (Nat × Nat)} (hd : (fs.map (·.1)).Nodup) (cs : List Call) (x v : Nat) :
    (calls (fire n fs) cs).name = n ∧ ((calls (fire n fs) cs).fields x = some v ↔ (x, v) ∈ fs) := by
  have hk : ∀ (cs : List Call) (e : Ev), (calls e cs).fields = e.fields ∧ (calls e cs).name = e.name := by
    intro cs
    induction cs with
    | nil => intro e; exact ⟨rfl, rfl⟩
    | cons c cs ih =>
      intro e
      obtain ⟨h1, h2⟩ := ih (call e c)
      have h1' : (calls e (c :: cs)).fields = (call e c).fields := h1
      have h2' : (calls e (c :: cs)).name = (call e c).name := h2
      rw [h1', h2']
      cases c <;> exact ⟨rfl, rfl⟩
  refine ⟨(hk cs _).2, ?_⟩
  rw [(hk cs _).1]
  simp only [fire, emplace_fold, reduceCtorEq, true_and, false_or]
  constructor
  · rintro ⟨a, b, rfl, -⟩
    simp
  · intro h
    obtain ⟨a, b, rfl⟩ := List.append_of_mem h
    refine ⟨a, b, rfl, ?_⟩
    rintro p hp rfl
    simp only [List.map_append, List.map_cons] at hd
    exact (List.nodup_append.1 hd).2.2 _ (List.mem_map_of_mem hp) _ (by simp) rfl

/-- **An event starts (ends) a transaction iff it was told to, in whatever order.** -/
theorem action_exact (n : Nat) (fs : List (Nat × Nat)) (cs : List Call) :
    ((calls (fire n fs) cs).action.testBit 0 = true ↔ .starts ∈ cs ∨ ∃ t, .startsIn t ∈ cs) ∧
    ((calls (fire n fs) cs).action.testBit 1 = true ↔ .terminates ∈ cs ∨ ∃ t, .terminatesIn t ∈ cs) ∧
    (calls (fire n fs) cs).action < 4 := by
  have b11 : Nat.testBit 1 1 = false := by decide
  have b21 : Nat.testBit 2 1 = true := by decide
  have hk : ∀ (cs : List Call) (e : Ev), e.action < 4 →
      ((calls e cs).action.testBit 0 = true ↔ e.action.testBit 0 = true ∨ .starts ∈ cs ∨ ∃ t, .startsIn t ∈ cs) ∧
      ((calls e cs).action.testBit 1 = true ↔ e.action.testBit 1 = true ∨ .terminates ∈ cs ∨ ∃ t, .terminatesIn t ∈ cs) ∧
      (calls e cs).action < 4 := by
    intro cs
    induction cs with
    | nil => intro e he; simp [calls, he]
    | cons c cs ih =>
      intro e he
      have hlt : (call e c).action < 4 := by
        cases c <;> simp only [call, aStart, aEnd] <;> first
          | exact he
          | exact Nat.or_lt_two_pow (n := 2) he (by decide)
      obtain ⟨h1, h2, h3⟩ := ih (call e c) hlt
      have e1 : (calls e (c :: cs)) = calls (call e c) cs := rfl
      rw [e1, h1, h2]
      refine ⟨?_, ?_, h3⟩
      · cases c <;> simp [call, aStart, aEnd]
      · cases c <;> simp [call, aStart, aEnd, Nat.testBit_or, b11, b21]
  have := hk cs (fire n fs) (by simp [fire])
  simpa [fire] using this

/-- The transaction a call names. -/
def names : Call → Option Nat
  | .startsIn t | .terminatesIn t | .belongs t => some t
  | _ => none

/-- **The transaction of an event is the last one named, or none.** -/
theorem transaction_exact (n : Nat) (fs : List (Nat × Nat)) (cs : List Call) :
    (∃ a c b t, cs = a ++ c :: b ∧ names c = some t ∧ (∀ d ∈ b, names d = none) ∧
      (calls (fire n fs) cs).transaction = t) ∨
    ((∀ d ∈ cs, names d = none) ∧ (calls (fire n fs) cs).transaction = 0) := by
  have hk : ∀ (cs : List Call) (e : Ev),
      (∃ a c b t, cs = a ++ c :: b ∧ names c = some t ∧ (∀ d ∈ b, names d = none) ∧ (calls e cs).transaction = t) ∨
      ((∀ d ∈ cs, names d = none) ∧ (calls e cs).transaction = e.transaction) := by
    intro cs
    induction cs with
    | nil => intro e; exact .inr ⟨by simp, rfl⟩
    | cons c cs ih =>
      intro e
      have e1 : (calls e (c :: cs)) = calls (call e c) cs := rfl
      rw [e1]
      rcases ih (call e c) with ⟨a, d, b, t, h1, h2, h3, h4⟩ | ⟨h1, h2⟩
      · exact .inl ⟨c :: a, d, b, t, by simp [h1], h2, h3, h4⟩
      · cases hc : names c with
        | some t =>
          refine .inl ⟨[], c, cs, t, rfl, hc, h1, ?_⟩
          rw [h2]
          cases c <;> simp [names] at hc <;> subst hc <;> rfl
        | none =>
          refine .inr ⟨?_, ?_⟩
          · intro d hd
            rcases List.mem_cons.1 hd with rfl | hd
            · exact hc
            · exact h1 d hd
          · rw [h2]
            cases c <;> simp [names] at hc <;> rfl
  exact hk cs _

/-- **A field is matched with the value it was first given.** -/
theorem values_exact (n : Nat) (fs : List (Nat × Nat)) (cs : List Call) (f v : Nat) :
    (calls (fire n fs) cs).values f = some v ↔
      ∃ a b, cs = a ++ .matching f v :: b ∧ ∀ w, .matching f w ∉ a := by
  have hk : ∀ (cs : List Call) (e : Ev), (calls e cs).values f = some v ↔
      e.values f = some v ∨ e.values f = none ∧ ∃ a b, cs = a ++ .matching f v :: b ∧ ∀ w, .matching f w ∉ a := by
    intro cs
    induction cs with
    | nil => intro e; simp [calls]
    | cons c cs ih =>
      intro e
      have e1 : (calls e (c :: cs)) = calls (call e c) cs := rfl
      rw [e1, ih]
      have skip : (∀ w, c ≠ .matching f w) → (call e c).values f = e.values f →
          (((call e c).values f = some v ∨ (call e c).values f = none ∧ ∃ a b, cs = a ++ .matching f v :: b ∧ ∀ w, .matching f w ∉ a) ↔
          (e.values f = some v ∨ e.values f = none ∧ ∃ a b, c :: cs = a ++ .matching f v :: b ∧ ∀ w, .matching f w ∉ a)) := by
        intro hc hv
        rw [hv]
        refine or_congr Iff.rfl (and_congr Iff.rfl ⟨?_, ?_⟩)
        · rintro ⟨a, b, rfl, h⟩
          refine ⟨c :: a, b, rfl, ?_⟩
          intro w hw
          rcases List.mem_cons.1 hw with hw | hw
          · exact hc w hw.symm
          · exact h w hw
        · rintro ⟨a, b, h1, h⟩
          cases a with
          | nil => simp at h1; exact absurd h1.1 (hc v)
          | cons q a =>
            simp at h1
            exact ⟨a, b, h1.2, fun w hw => h w (by simp [hw])⟩
      by_cases hc : ∃ w, c = .matching f w
      · obtain ⟨w, rfl⟩ := hc
        simp only [call, emplace_get, true_and]
        cases he : e.values f with
        | some y => simp
        | none =>
          simp only [if_true, Option.some.injEq, reduceCtorEq, false_and, or_false, true_and, false_or]
          constructor
          · rintro rfl
            exact ⟨[], cs, rfl, by simp⟩
          · rintro ⟨a, b, h1, h⟩
            cases a with
            | nil => simp at h1; exact h1.1
            | cons q a =>
              simp at h1
              exact absurd (by rw [← h1.1]; simp) (h w)
      · refine skip (fun w hw => hc ⟨w, hw⟩) ?_
        cases c with
        | matching f' w =>
          have : f ≠ f' := by
            rintro rfl
            exact hc ⟨w, rfl⟩
          simp [call, emplace_get, this]
        | _ => rfl
  have := hk cs (fire n fs)
  simpa [fire] using this

/-- With the visited events first, the text without what was there before. -/
def Firsts (seen l out : List Nat) : Prop :=
  (seen.Nodup → out.Nodup) ∧ (∀ i, i ∈ out ↔ i ∈ seen ∨ i ∈ l) ∧
  ∃ new, out = seen ++ new ∧
    ∀ a x b, new = a ++ x :: b → ∃ l1 l2, l = l1 ++ x :: l2 ∧ ∀ y ∈ l1, y ∈ seen ∨ y ∈ a

theorem Firsts.refl (seen : List Nat) : Firsts seen [] seen :=
  ⟨id, by simp, [], by simp, by simp⟩

theorem Firsts.trans {s l1 m l2 o : List Nat} (h1 : Firsts s l1 m) (h2 : Firsts m l2 o) : Firsts s (l1 ++ l2) o := by
  obtain ⟨n1, m1, a1, e1, o1⟩ := h1
  obtain ⟨n2, m2, a2, e2, o2⟩ := h2
  refine ⟨fun h => n2 (n1 h), fun i => by rw [m2, m1, List.mem_append]; exact or_assoc, a1 ++ a2, by rw [e2, e1, List.append_assoc], ?_⟩
  intro a x b h
  rcases List.append_eq_append_iff.1 h with ⟨c, hc1, hc2⟩ | ⟨c, hc1, hc2⟩
  · -- `a = a1 ++ c`
    obtain ⟨p, q, hp, hq⟩ := o2 c x b hc2
    refine ⟨l1 ++ p, q, by rw [hp, List.append_assoc], ?_⟩
    intro y hy
    rcases List.mem_append.1 hy with hy | hy
    · have : y ∈ m := (m1 y).2 (.inr hy)
      rw [e1] at this
      rcases List.mem_append.1 this with h | h
      · exact .inl h
      · exact .inr (by rw [hc1]; simp [h])
    · rcases hq y hy with h | h
      · rw [e1] at h
        rcases List.mem_append.1 h with h | h
        · exact .inl h
        · exact .inr (by rw [hc1]; simp [h])
      · exact .inr (by rw [hc1]; simp [h])
  · -- `a1 = a ++ c`
    cases c with
    | nil =>
      simp at hc1 hc2
      obtain ⟨p, q, hp, hq⟩ := o2 [] x b (by simpa using hc2.symm)
      refine ⟨l1 ++ p, q, by rw [hp, List.append_assoc], ?_⟩
      intro y hy
      have hin : y ∈ m := by
        rcases List.mem_append.1 hy with hy | hy
        · exact (m1 y).2 (.inr hy)
        · rcases hq y hy with h | h
          · exact h
          · simp at h
      rw [e1, hc1] at hin
      exact List.mem_append.1 hin
    | cons z c =>
      simp at hc2
      obtain ⟨rfl, hc2⟩ := hc2
      obtain ⟨p, q, hp, hq⟩ := o1 a x c hc1
      exact ⟨p, q ++ l2, by rw [hp]; simp, hq⟩

mutual
theorem visit_firsts (n : Node) (seen : List Nat) : Firsts seen (text n) (visit seen n) := by
  match n with
  | .gen ext kids =>
    cases ext with
    | false => simpa [visit, text] using visitAll_firsts kids seen
    | true => simpa [visit, text] using Firsts.refl seen
  | .block b kids => simpa [visit, text] using visitAll_firsts kids seen
  | .stmt kids => simpa [visit, text] using visitAll_firsts kids seen
  | .event i =>
    simp only [visit, text]
    by_cases h : i ∈ seen
    · rw [if_pos h]
      refine ⟨id, ?_, [], by simp, by simp⟩
      intro j
      constructor
      · exact .inl
      · rintro (hj | hj)
        · exact hj
        · simp at hj; subst hj; exact h
    · rw [if_neg h]
      refine ⟨?_, by simp, [i], rfl, ?_⟩
      · intro hn
        rw [List.nodup_append]
        exact ⟨hn, by simp, by intro a ha b hb hab; simp at hb; subst hb hab; exact h ha⟩
      · intro a x b hx
        cases a with
        | nil => simp at hx; exact ⟨[], [], by simp [hx.1], by simp⟩
        | cons y a => simp at hx
  | .other => simpa [visit, text] using Firsts.refl seen

theorem visitAll_firsts (ns : List Node) (seen : List Nat) : Firsts seen (textAll ns) (visitAll seen ns) := by
  match ns with
  | [] => simpa [visitAll, textAll] using Firsts.refl seen
  | n :: ns =>
    simp only [visitAll, textAll]
    exact (visit_firsts n seen).trans (visitAll_firsts ns _)
end

theorem mem_textAll {i : Nat} {ns : List Node} : i ∈ textAll ns ↔ ∃ n ∈ ns, i ∈ text n := by
  induction ns with
  | nil => simp [textAll]
  | cons n ns ih => simp [textAll, ih]

theorem occurs_text {i : Nat} {n : Node} (h : Occurs i n) : i ∈ text n := by
  induction h with
  | event => simp [text]
  | gen h _ ih => simp only [text, cond_false]; exact mem_textAll.2 ⟨_, h, ih⟩
  | block h _ ih => simp only [text]; exact mem_textAll.2 ⟨_, h, ih⟩
  | stmt h _ ih => simp only [text]; exact mem_textAll.2 ⟨_, h, ih⟩

mutual
theorem text_occurs {i : Nat} (n : Node) (h : i ∈ text n) : Occurs i n := by
  match n with
  | .gen ext kids =>
    cases ext with
    | false =>
      simp only [text, cond_false] at h
      obtain ⟨n, hn, ho⟩ := textAll_occurs kids h
      exact .gen hn ho
    | true => simp [text] at h
  | .block b kids =>
    simp only [text] at h
    obtain ⟨n, hn, ho⟩ := textAll_occurs kids h
    exact .block hn ho
  | .stmt kids =>
    simp only [text] at h
    obtain ⟨n, hn, ho⟩ := textAll_occurs kids h
    exact .stmt hn ho
  | .event j => simp [text] at h; subst h; exact .event
  | .other => simp [text] at h

theorem textAll_occurs {i : Nat} (ns : List Node) (h : i ∈ textAll ns) : ∃ n ∈ ns, Occurs i n := by
  match ns with
  | [] => simp [textAll] at h
  | n :: ns =>
    simp only [textAll] at h
    rcases List.mem_append.1 h with h | h
    · exact ⟨n, by simp, text_occurs n h⟩
    · obtain ⟨m, hm, ho⟩ := textAll_occurs ns h
      exact ⟨m, by simp [hm], ho⟩
end

/-- **The list has every event of the design once, in the order in which they are first met.** -/
theorem extract_partial (ev : Nat → Ev) (above : Nat → List Up) (top : Node) :
    ((extract ev above top).map (·.stmt)).Nodup ∧
    (∀ i, i ∈ (extract ev above top).map (·.stmt) ↔ Occurs i top) ∧
    (∀ a x b, extract ev above top = a ++ x :: b → ∃ l1 l2, text top = l1 ++ x.stmt :: l2 ∧ ∀ y ∈ l1, y ∈ a.map (·.stmt)) := by
  have hs : (extract ev above top).map (·.stmt) = visit [] top := by
    simp only [extract, List.map_map]
    have : ((fun x : Info => x.stmt) ∘ info ev above) = id := rfl
    rw [this, List.map_id]
  obtain ⟨h1, h2, new, h3, h4⟩ := visit_firsts top []
  simp only [List.nil_append] at h3
  refine ⟨by rw [hs]; exact h1 List.nodup_nil, ?_, ?_⟩
  · intro i
    rw [hs, h2]
    simp only [List.not_mem_nil, false_or]
    exact ⟨text_occurs top, occurs_text⟩
  · intro a x b h
    have h' : new = a.map (·.stmt) ++ x.stmt :: b.map (·.stmt) := by
      rw [← h3, ← hs, h]
      simp
    obtain ⟨l1, l2, e, hy⟩ := h4 _ _ _ h'
    exact ⟨l1, l2, e, fun y hy' => by simpa using hy y hy'⟩

/-- **If no event is in two places, the list is that of the text.** -/
theorem extract_text {ev : Nat → Ev} {above : Nat → List Up} {top : Node} (hn : (text top).Nodup) :
    (extract ev above top).map (·.stmt) = text top := by
  obtain ⟨h1, h2, h3⟩ := extract_partial ev above top
  have hl : ∀ (l t : List Nat), (∀ i, i ∈ l ↔ i ∈ t) → t.Nodup → l.Nodup →
      (∀ a x b, l = a ++ x :: b → ∃ t1 t2, t = t1 ++ x :: t2 ∧ ∀ y ∈ t1, y ∈ a) → l = t := by
    intro l
    induction l with
    | nil =>
      intro t h _ _ _
      cases t with
      | nil => rfl
      | cons y t => exact absurd ((h y).2 (by simp)) (by simp)
    | cons x l ih =>
      intro t h ht hl ho
      obtain ⟨t1, t2, rfl, h1⟩ := ho [] x l rfl
      have : t1 = [] := by
        cases t1 with
        | nil => rfl
        | cons y t1 => exact absurd (h1 y (by simp)) (by simp)
      subst this
      simp only [List.nil_append] at h ht ho ⊢
      rw [List.nodup_cons] at ht hl
      congr 1
      refine ih t2 ?_ ht.2 hl.2 ?_
      · intro i
        constructor
        · intro hi
          rcases List.mem_cons.1 ((h i).1 (List.mem_cons_of_mem _ hi)) with rfl | h'
          · exact absurd hi hl.1
          · exact h'
        · intro hi
          rcases List.mem_cons.1 ((h i).2 (List.mem_cons_of_mem _ hi)) with rfl | h'
          · exact absurd hi ht.1
          · exact h'
      · intro a z b hab
        obtain ⟨t1, t3, e, hy⟩ := ho (x :: a) z b (by simp [hab])
        cases t1 with
        | nil =>
          simp at e
          exact absurd (by rw [hab, ← e.1]; simp) hl.1
        | cons w t1 =>
          simp at e
          refine ⟨t1, t3, e.2, ?_⟩
          intro y hy'
          rcases List.mem_cons.1 (hy y (by simp [hy'])) with rfl | h'
          · exact absurd (by rw [e.2]; simp [hy']) ht.1
          · exact h'
  refine hl _ _ ?_ hn h1 ?_
  · intro i
    rw [h2]
    exact ⟨occurs_text, text_occurs top⟩
  · intro a x b h
    obtain ⟨a', b', e, ha, hb⟩ := List.map_eq_append_iff.1 h
    obtain ⟨x', b'', e', hx, hb'⟩ := List.map_eq_cons_iff.1 hb
    obtain ⟨l1, l2, e2, hy⟩ := h3 a' x' b'' (by rw [e, e'])
    exact ⟨l1, l2, by rw [e2, hx], fun y hy' => by rw [← ha]; exact hy y hy'⟩

theorem combinational_append_stmt (l : List Up) (b : Option Blk) (hl : .gen ∉ l) :
    combinational (l ++ [.stmt b]) = false ↔ combinational l = false ∨ b = some .seq := by
  induction l with
  | nil =>
    cases b with
    | none => simp [combinational]
    | some b => cases b <;> simp [combinational]
  | cons u l ih =>
    simp only [List.mem_cons, not_or] at hl
    cases u with
    | gen => exact absurd rfl hl.1
    | stmt c =>
      cases c with
      | none => simpa [combinational] using ih hl.2
      | some c => cases c <;> simp [combinational, ih hl.2]

theorem combinational_append_gen (l : List Up) : combinational (l ++ [.gen]) = combinational l := by
  induction l with
  | nil => rfl
  | cons u l ih =>
    cases u with
    | gen => rfl
    | stmt c =>
      cases c with
      | none => simpa [combinational] using ih
      | some c => cases c <;> simp [combinational, ih]

theorem place_occurs {i : Nat} {n : Node} {l : List Up} (h : Place i n l) : Occurs i n := by
  induction h with
  | event => exact .event
  | gen h _ ih => exact .gen h ih
  | block h _ ih => exact .block h ih
  | stmt h _ ih => exact .stmt h ih

theorem place_stmt {i : Nat} {n : Node} (hs : IsStmt n) {l : List Up} (h : Place i n l) : .gen ∉ l := by
  induction h with
  | event => simp
  | gen h _ ih => cases hs
  | block h _ ih => cases hs with | block hk => simp [ih (hk _ h)]
  | stmt h _ ih => cases hs with | stmt hk => simp [ih (hk _ h)]

/-- The places with a sequential block around them. -/
theorem place_ff {i : Nat} {n : Node} (hs : IsStmt n) {l : List Up} (h : Place i n l) :
    combinational l = false → InFF i n := by
  induction h with
  | event => intro h; cases h
  | gen h _ ih => cases hs
  | block h hp ih =>
    cases hs with
    | block hk =>
      intro hc
      rcases (combinational_append_stmt _ _ (place_stmt (hk _ h) hp)).1 hc with hc | hc
      · exact .block h (ih (hk _ h) hc)
      · cases hc; exact .here h (place_occurs hp)
  | stmt h hp ih =>
    cases hs with
    | stmt hk =>
      intro hc
      rcases (combinational_append_stmt _ _ (place_stmt (hk _ h) hp)).1 hc with hc | hc
      · exact .stmt h (ih (hk _ h) hc)
      · cases hc

theorem place_ff_design {i : Nat} {n : Node} (hd : Design n) {l : List Up} (h : Place i n l) :
    combinational l = false → InFF i n := by
  induction h with
  | event => cases hd
  | @gen kids m l h hp ih =>
    cases hd with
    | mk hk =>
      intro hc
      rw [combinational_append_gen] at hc
      by_cases hs : IsStmt m
      · exact .gen h (place_ff hs hp hc)
      · exact .gen h (ih (hk _ h hs) hc)
  | block h hp ih => cases hd
  | stmt h hp ih => cases hd

theorem occurs_place {i : Nat} {n : Node} (h : Occurs i n) : ∃ l, Place i n l := by
  induction h with
  | event => exact ⟨_, .event⟩
  | gen h _ ih => exact ih.elim fun l hl => ⟨_, .gen h hl⟩
  | block h _ ih => exact ih.elim fun l hl => ⟨_, .block h hl⟩
  | stmt h _ ih => exact ih.elim fun l hl => ⟨_, .stmt h hl⟩

theorem ff_place {i : Nat} {n : Node} (hs : IsStmt n) (h : InFF i n) :
    ∃ l, Place i n l ∧ combinational l = false := by
  induction h with
  | @here kids n hn ho =>
    cases hs with
    | block hk =>
      obtain ⟨l, hl⟩ := occurs_place ho
      exact ⟨_, .block hn hl, (combinational_append_stmt _ _ (place_stmt (hk _ hn) hl)).2 (.inr rfl)⟩
  | gen hn _ ih => cases hs
  | block hn _ ih =>
    cases hs with
    | block hk =>
      obtain ⟨l, hl, hc⟩ := ih (hk _ hn)
      exact ⟨_, .block hn hl, (combinational_append_stmt _ _ (place_stmt (hk _ hn) hl)).2 (.inl hc)⟩
  | stmt hn _ ih =>
    cases hs with
    | stmt hk =>
      obtain ⟨l, hl, hc⟩ := ih (hk _ hn)
      exact ⟨_, .stmt hn hl, (combinational_append_stmt _ _ (place_stmt (hk _ hn) hl)).2 (.inl hc)⟩

theorem ff_place_design {i : Nat} {n : Node} (hd : Design n) (h : InFF i n) :
    ∃ l, Place i n l ∧ combinational l = false := by
  induction h with
  | here hn ho => cases hd
  | @gen kids m hn hf ih =>
    cases hd with
    | mk hk =>
      by_cases hs : IsStmt m
      · obtain ⟨l, hl, hc⟩ := ff_place hs hf
        exact ⟨_, .gen hn hl, by rw [combinational_append_gen]; exact hc⟩
      · obtain ⟨l, hl, hc⟩ := ih (hk _ hn hs)
        exact ⟨_, .gen hn hl, by rw [combinational_append_gen]; exact hc⟩
  | block hn _ ih => cases hd
  | stmt hn _ ih => cases hd

theorem textAll_nodup {ns : List Node} (h : (textAll ns).Nodup) {n : Node} (hn : n ∈ ns) : (text n).Nodup := by
  induction ns with
  | nil => simp at hn
  | cons x ns ih =>
    simp only [textAll, List.nodup_append] at h
    rcases List.mem_cons.1 hn with rfl | hn
    · exact h.1
    · exact ih h.2.1 hn

theorem textAll_same {ns : List Node} (h : (textAll ns).Nodup) {n m : Node} {i : Nat} (hn : n ∈ ns) (hm : m ∈ ns)
    (hi : i ∈ text n) (hj : i ∈ text m) : n = m := by
  induction ns with
  | nil => simp at hn
  | cons x ns ih =>
    simp only [textAll, List.nodup_append] at h
    rcases List.mem_cons.1 hn with rfl | hn'
    · rcases List.mem_cons.1 hm with rfl | hm'
      · rfl
      · exact absurd rfl (h.2.2 i hi i (mem_textAll.2 ⟨m, hm', hj⟩))
    · rcases List.mem_cons.1 hm with rfl | hm'
      · exact absurd rfl (h.2.2 i hj i (mem_textAll.2 ⟨n, hn', hi⟩))
      · exact ih h.2.1 hn' hm'

theorem place_unique {i : Nat} {n : Node} {l : List Up} (h : Place i n l) :
    ∀ {l'}, (text n).Nodup → Place i n l' → l = l' := by
  induction h with
  | event => intro l' _ h; cases h; rfl
  | gen hm hp ih =>
    intro l' hn h
    simp only [text, cond_false] at hn
    cases h with
    | gen hm' hp' =>
      cases textAll_same hn hm hm' (occurs_text (place_occurs hp)) (occurs_text (place_occurs hp'))
      rw [ih (textAll_nodup hn hm) hp']
  | block hm hp ih =>
    intro l' hn h
    simp only [text] at hn
    cases h with
    | block hm' hp' =>
      cases textAll_same hn hm hm' (occurs_text (place_occurs hp)) (occurs_text (place_occurs hp'))
      rw [ih (textAll_nodup hn hm) hp']
  | stmt hm hp ih =>
    intro l' hn h
    simp only [text] at hn
    cases h with
    | stmt hm' hp' =>
      cases textAll_same hn hm hm' (occurs_text (place_occurs hp)) (occurs_text (place_occurs hp'))
      rw [ih (textAll_nodup hn hm) hp']

/-- **If no event is in two places, the flag says whether it is in an `always_ff` block.** -/
theorem flag_partial {ev : Nat → Ev} {above : Nat → List Up} {top : Node} (hd : Design top) (hh : Homed above top)
    {x : Info} (hx : x ∈ extract ev above top) (hu : (text top).Nodup) :
    x.combinational = false ↔ InFF x.stmt top := by
  have ho : Occurs x.stmt top := ((extract_partial ev above top).2.1 _).1 (List.mem_map_of_mem hx)
  obtain ⟨i, hi, rfl⟩ := List.mem_map.1 hx
  have hp := hh _ ho
  show combinational (above i) = false ↔ _
  constructor
  · exact place_ff_design hd hp
  · intro h
    obtain ⟨l, hl, hc⟩ := ff_place_design hd h
    have he : l = above i := place_unique hl hu hp
    rw [← he]
    exact hc

/-- **What is said of an event is what was asked for.** -/
theorem entry_exact {ev : Nat → Ev} {above : Nat → List Up} {top : Node} {x : Info} (hx : x ∈ extract ev above top) :
    x.name = (ev x.stmt).name ∧ x.transaction = (ev x.stmt).transaction ∧ x.action = (ev x.stmt).action ∧
      x.fields = (ev x.stmt).fields := by
  obtain ⟨i, hi, rfl⟩ := List.mem_map.1 hx
  exact ⟨rfl, rfl, rfl, rfl⟩

/-! ## Examples and counterexamples -/

/-- `event 0` in an `always_comb` under an if, `event 1` in an `always_ff` of a child. -/
def ex1 : Node :=
  .gen false [.block .comb [.stmt [.block .scope [.event 0], .block .scope []]], .gen false [.block .seq [.other, .event 1]]]

def ex1Above : Nat → List Up
  | 0 => [.stmt (some .scope), .stmt none, .stmt (some .comb), .gen]
  | _ => [.stmt (some .seq), .gen, .gen]

def exEv : Nat → Ev := fun i => calls (fire (10 + i) [(1, 2), (3, 4)]) [.starts, .belongs 7, .matching 1 5, .matching 1 6]

theorem ex1_design : Design ex1 := by
  refine .mk ?_
  intro n hn
  simp only [List.mem_cons, List.not_mem_nil, or_false] at hn
  rcases hn with rfl | rfl
  · refine fun h => absurd (.block ?_) h
    intro n hn
    simp only [List.mem_cons, List.not_mem_nil, or_false] at hn
    subst hn
    refine .stmt ?_
    intro n hn
    simp only [List.mem_cons, List.not_mem_nil, or_false] at hn
    rcases hn with rfl | rfl
    · exact .block (by intro n hn; simp at hn; subst hn; exact .event)
    · exact .block (by simp)
  · refine fun _ => .mk ?_
    intro n hn
    simp only [List.mem_cons, List.not_mem_nil, or_false] at hn
    subst hn
    refine fun h => absurd (.block ?_) h
    intro n hn
    simp only [List.mem_cons, List.not_mem_nil, or_false] at hn
    rcases hn with rfl | rfl
    · exact .other
    · exact .event

theorem ex1_homed : Homed ex1Above ex1 := by
  intro i hi
  have : i ∈ text ex1 := occurs_text hi
  have : i = 0 ∨ i = 1 := by simpa [ex1, text, textAll] using this
  rcases this with rfl | rfl
  · exact .gen (n := .block .comb [.stmt [.block .scope [.event 0], .block .scope []]])
      (l := [.stmt (some .scope), .stmt none, .stmt (some .comb)]) (by simp)
      (.block (n := .stmt [.block .scope [.event 0], .block .scope []]) (l := [.stmt (some .scope), .stmt none]) (by simp)
        (.stmt (n := .block .scope [.event 0]) (l := [.stmt (some .scope)]) (by simp) (.block (l := []) (by simp) .event)))
  · exact .gen (n := .gen false [.block .seq [.other, .event 1]]) (l := [.stmt (some .seq), .gen]) (by simp)
      (.gen (n := .block .seq [.other, .event 1]) (l := [.stmt (some .seq)]) (by simp) (.block (n := .event 1) (l := []) (by simp) .event))

example : (extract exEv ex1Above ex1).map (fun x => (x.stmt, x.name, x.transaction, x.combinational, x.action)) =
    [(0, 10, 7, true, 1), (1, 11, 7, false, 1)] := by decide +kernel

example : Design ex1 ∧ Homed ex1Above ex1 ∧ (text ex1).Nodup := ⟨ex1_design, ex1_homed, by decide +kernel⟩

/-- One event in an `always_comb` and, cloned, in an `always_ff`. -/
def ex2 : Node := .gen false [.block .comb [.event 0], .block .seq [.event 0]]

def ex2Above : Nat → List Up := fun _ => [.stmt (some .seq), .gen]

theorem two_blocks_design (b c : Blk) (i j : Nat) : Design (.gen false [.block b [.event i], .block c [.event j]]) := by
  refine .mk ?_
  intro n hn
  simp only [List.mem_cons, List.not_mem_nil, or_false] at hn
  rcases hn with rfl | rfl
  · exact fun h => absurd (.block (by intro n hn; simp at hn; subst hn; exact .event)) h
  · exact fun h => absurd (.block (by intro n hn; simp at hn; subst hn; exact .event)) h

/-- An event shared by two blocks is listed once. -/
theorem not_EachClaim : ¬ EachClaim := by
  intro h
  have := h exEv ex2Above ex2 (two_blocks_design _ _ _ _) (by
    intro i hi
    have : i ∈ text ex2 := occurs_text hi
    have : i = 0 := by simpa [ex2, text, textAll] using this
    subst this
    exact .gen (n := .block .seq [.event 0]) (l := [.stmt (some .seq)]) (by simp) (.block (l := []) (by simp) .event))
  revert this
  decide +kernel

/-- An event in an `initial` block. -/
def ex3 : Node := .gen false [.block .init [.event 0], .block .seq [.event 1]]

def ex3Above : Nat → List Up
  | 0 => [.stmt (some .init), .gen]
  | _ => [.stmt (some .seq), .gen]

/-- The events of initial blocks, latches and functions are reported as combinational. -/
theorem not_CombClaim : ¬ CombClaim := by
  intro h
  have := h exEv ex3Above ex3 (two_blocks_design _ _ _ _) (by
    intro i hi
    have : i ∈ text ex3 := occurs_text hi
    have : i = 0 ∨ i = 1 := by simpa [ex3, text, textAll] using this
    rcases this with rfl | rfl
    · exact .gen (n := .block .init [.event 0]) (l := [.stmt (some .init)]) (by simp) (.block (l := []) (by simp) .event)
    · exact .gen (n := .block .seq [.event 1]) (l := [.stmt (some .seq)]) (by simp) (.block (l := []) (by simp) .event))
    (by decide +kernel) (info exEv ex3Above 0) (by simp [extract, ex3, visit, visitAll]) rfl
  have h2 : InComb 0 ex3 := this
  cases h2 with
  | top h => simp at h
  | gen hn h =>
    simp only [List.mem_cons, List.not_mem_nil, or_false] at hn
    rcases hn with rfl | rfl <;> cases h

theorem not_LastMatchClaim : ¬ LastMatchClaim := by
  intro h
  have := h (fire 0 []) [.matching 1 2] 1 3
  revert this
  decide +kernel

end Kratos.Events
