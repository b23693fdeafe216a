import Verif.Base

/-!
# C119: frontend variables handed down to the statements below

Model of `propagate_scope_variable` (src/debug.cc:111-136) and of `add_scope_variable` of the statements (src/stmt.cc:76-81, 325-330, 475-481,
634-640): what a breakpoint in a nested statement shows is what its `scope_context` has.
-/

namespace Kratos.Propagate

/-! ## Model -/

/-- What a name stands for: a variable of the design or a text (src/stmt.hh:84). -/
structure Binding where
  rtl : Bool
  value : String
  deriving DecidableEq, Repr

/-- `scope_context_`: a map; each name occurs once.  The order is not used. -/
abbrev Ctx := List (String × Binding)

/-- Statements: `loop` is a `ForStmt`, `leaf` everything without statements inside, `block` all kinds of blocks. -/
inductive Kind where
  | leaf | cond | switch | block | loop
  deriving DecidableEq, Repr

/-- A list of statements: the first one, with its context and the statements inside, and the others.  The statements inside of `cond` are its
two blocks, inside of `switch` the blocks of the cases, inside of `loop` its block. -/
inductive Ss where
  | nil
  | node (k : Kind) (ctx : Ctx) (kids rest : Ss)
  deriving DecidableEq, Repr

/-- `Stmt::add_scope_variable` (src/stmt.cc:76-81) without override. -/
def add (c : Ctx) (e : String × Binding) : Ctx := if c.any fun x => x.1 = e.1 then c else c ++ [e]

/-- `add_scope_variable` of all statements of a list: conditionals (src/stmt.cc:325-330), blocks (475-481) and switches (634-640) hand it on;
loops do not have their own (src/stmt.hh:230-262). -/
def addAll (e : String × Binding) : Ss → Ss
  | .nil => .nil
  | .node k c kids rest => .node k (add c e) (if k = .loop then kids else addAll e kids) (addAll e rest)

/-- The loops of src/debug.cc:113-130: every variable is added to the blocks below. -/
def hand (c : Ctx) (kids : Ss) : Ss := c.foldl (fun s e => addAll e s) kids

def Ss.size : Ss → Nat
  | .nil => 0
  | .node _ _ kids rest => kids.size + rest.size + 1

theorem addAll_size (e : String × Binding) : ∀ s, (addAll e s).size = s.size
  | .nil => rfl
  | .node k c kids rest => by
    unfold addAll
    show (if k = Kind.loop then kids else addAll e kids).size + (addAll e rest).size + 1 = _
    rw [addAll_size e rest]
    split
    · rfl
    · rw [addAll_size e kids]; rfl

theorem hand_size : ∀ (c : Ctx) (s : Ss), (hand c s).size = s.size
  | [], _ => rfl
  | e :: c, s => by
    show (hand c (addAll e s)).size = _
    rw [hand_size c, addAll_size]

/-- `PropagateScopeVisitor` under `visit_root` (src/ir.cc:24-40): a statement first, then the statements inside. -/
def propagate : Ss → Ss
  | .nil => .nil
  | .node k c kids rest =>
    .node k c (propagate (if k = .cond ∨ k = .switch then hand c kids else kids)) (propagate rest)
termination_by s => s.size
decreasing_by
  · show _ < kids.size + rest.size + 1
    split
    · rw [hand_size]; omega
    · omega
  · show _ < kids.size + rest.size + 1
    omega

/-! ## Specification -/

/-- What a name stands for in a context. -/
def look (c : Ctx) (n : String) : Option Binding := (c.find? fun e => e.1 = n).map (·.2)

/-- What a name stands for in the first context that has it. -/
def first (l : List Ctx) (n : String) : Option Binding := l.findSome? fun c => look c n

/-- What every statement shows, in order. -/
def shown : Ss → List (String → Option Binding)
  | .nil => []
  | .node _ c kids rest => look c :: (shown kids ++ shown rest)

/-- What it should show: its own names, then those of the statements around it, the nearest first. -/
def nearest (around : List Ctx) : Ss → List (String → Option Binding)
  | .nil => []
  | .node _ c kids rest => first (c :: around) :: (nearest (c :: around) kids ++ nearest around rest)

/-- C119 in full. -/
def ScopeClaim : Prop := ∀ s, shown (propagate s) = nearest [] s

/-- What it does show: its own names, then those of the conditionals and switches around it, up to a loop, the outermost first. -/
def outermost (around : List Ctx) : Ss → List (String → Option Binding)
  | .nil => []
  | .node k c kids rest =>
    first (c :: around) ::
      (outermost (match k with
        | .cond | .switch => around ++ [c]
        | .block | .leaf => around
        | .loop => []) kids ++ outermost around rest)

/-- Only conditionals and switches have names for the statements inside, there are no loops, and no name gets another meaning inside of a
statement that has it. -/
def Clear (around : List Ctx) : Ss → Prop
  | .nil => True
  | .node k c kids rest =>
    k ≠ .loop ∧ (kids ≠ .nil → k = .block → c = []) ∧ (kids ≠ .nil → k = .leaf → c = []) ∧
    (kids ≠ .nil → ∀ n b, look c n = some b → ∀ d ∈ around, look d n = none ∨ look d n = some b) ∧
    Clear (c :: around) kids ∧ Clear around rest

/-! ## Proof -/

theorem look_append (a b : Ctx) (n : String) : look (a ++ b) n = (look a n).or (look b n) := by
  unfold look
  rw [List.find?_append]
  cases List.find? (fun e => decide (e.fst = n)) a <;> simp

theorem look_single (e : String × Binding) (n : String) : look [e] n = if e.1 = n then some e.2 else none := by
  unfold look
  by_cases h : e.1 = n
  · simp [List.find?, h]
  · simp [List.find?, h]

theorem look_add (c : Ctx) (e : String × Binding) (n : String) : look (add c e) n = (look c n).or (look [e] n) := by
  unfold add
  split
  · rename_i h
    obtain ⟨x, hx, hxe⟩ := List.any_eq_true.1 h
    rw [look_single]
    by_cases hn : e.1 = n
    · rw [if_pos hn]
      have : ∃ y, c.find? (fun z => z.1 = n) = some y := by
        cases hf : c.find? fun z => z.1 = n with
        | some y => exact ⟨y, rfl⟩
        | none =>
          have := List.find?_eq_none.1 hf x hx
          simp only [decide_eq_true_eq] at this hxe
          exact absurd (hxe.trans hn) this
      obtain ⟨y, hy⟩ := this
      unfold look
      rw [hy]
      rfl
    · rw [if_neg hn]
      cases look c n <;> rfl
  · rw [look_append]

/-- Adding several names. -/
def adds (c P : Ctx) : Ctx := P.foldl add c

theorem look_adds : ∀ (P c : Ctx) (n : String), look (adds c P) n = (look c n).or (look P n)
  | [], c, n => by
    show look c n = _
    cases look c n <;> rfl
  | e :: P, c, n => by
    show look (adds (add c e) P) n = _
    rw [look_adds P, look_add]
    have : look (e :: P) n = (look [e] n).or (look P n) := look_append [e] P n
    rw [this]
    cases look c n <;> simp

theorem adds_append (c P Q : Ctx) : adds (adds c P) Q = adds c (P ++ Q) := by
  unfold adds
  rw [List.foldl_append]

/-- `hand` at once. -/
def over (P : Ctx) : Ss → Ss
  | .nil => .nil
  | .node k c kids rest => .node k (adds c P) (if k = .loop then kids else over P kids) (over P rest)

theorem over_nil : ∀ s, over [] s = s
  | .nil => rfl
  | .node k c kids rest => by
    unfold over
    rw [over_nil kids, over_nil rest]
    simp [adds]

theorem over_over (P Q : Ctx) : ∀ s, over Q (over P s) = over (P ++ Q) s
  | .nil => rfl
  | .node k c kids rest => by
    simp only [over]
    rw [over_over P Q rest, adds_append]
    split
    · rfl
    · rw [over_over P Q kids]

theorem addAll_over (e : String × Binding) : ∀ s, addAll e s = over [e] s
  | .nil => rfl
  | .node k c kids rest => by
    simp only [over, addAll]
    rw [addAll_over e rest, addAll_over e kids]
    rfl

theorem hand_over : ∀ (P : Ctx) (s : Ss), hand P s = over P s
  | [], s => (over_nil s).symm
  | e :: P, s => by
    show hand P (addAll e s) = _
    rw [hand_over P, addAll_over, over_over]
    rfl

theorem propagate_node (k : Kind) (c : Ctx) (kids rest : Ss) : propagate (.node k c kids rest) =
    .node k c (propagate (if k = .cond ∨ k = .switch then over c kids else kids)) (propagate rest) := by
  rw [propagate, hand_over]

theorem first_cons (c : Ctx) (l : List Ctx) (n : String) : first (c :: l) n = (look c n).or (first l n) := by
  unfold first
  rw [List.findSome?_cons]
  cases look c n <;> rfl

theorem first_append (l m : List Ctx) (n : String) : first (l ++ m) n = (first l n).or (first m n) := by
  unfold first
  rw [List.findSome?_append]

theorem first_single (c : Ctx) (n : String) : first [c] n = look c n := by
  rw [first_cons]
  cases look c n <;> rfl

theorem shown_over : ∀ (s : Ss) (P : Ctx) (l : List Ctx), (∀ n, look P n = first l n) → shown (propagate (over P s)) = outermost l s
  | .nil, P, l, h => by
    unfold over
    rw [propagate]
    rfl
  | .node k c kids rest, P, l, h => by
    rw [over, propagate_node]
    have hr := shown_over rest P l h
    have h0 : look (adds c P) = first (c :: l) := by
      funext n
      rw [look_adds, h, first_cons]
    simp only [shown, outermost]
    rw [hr, h0]
    congr 2
    cases k with
    | cond =>
      simp only [reduceCtorEq, if_false, true_or, if_true, or_false]
      rw [over_over]
      refine shown_over kids _ _ fun n => ?_
      rw [look_append, look_adds, h, first_append, first_single]
      cases first l n <;> cases look c n <;> rfl
    | switch =>
      simp only [reduceCtorEq, if_false, or_true, if_true]
      rw [over_over]
      refine shown_over kids _ _ fun n => ?_
      rw [look_append, look_adds, h, first_append, first_single]
      cases first l n <;> cases look c n <;> rfl
    | block =>
      simp only [reduceCtorEq, if_false, or_false]
      exact shown_over kids P l h
    | leaf =>
      simp only [reduceCtorEq, if_false, or_false]
      exact shown_over kids P l h
    | loop =>
      simp only [reduceCtorEq, if_false, or_false, if_true]
      have := shown_over kids [] [] fun _ => rfl
      rw [over_nil] at this
      exact this

/-! ## Theorems -/

/-- Exactly what every statement shows behind the pass: its own meaning of a name, or that of the outermost conditional or switch around it that
has one, up to the nearest loop. -/
theorem propagate_exact (s : Ss) : shown (propagate s) = outermost [] s := by
  have := shown_over s [] [] fun _ => rfl
  rwa [over_nil] at this

theorem outermost_nearest : ∀ (s : Ss) (l m : List Ctx), (∀ n, first l n = first m n) → (∀ n b, first m n = some b → ∀ d ∈ m, look d n = none ∨ look d n = some b) →
    Clear m s → outermost l s = nearest m s
  | .nil, _, _, _, _, _ => rfl
  | .node k c kids rest, l, m, h, hm, hc => by
    obtain ⟨h1, h2, h3, h4, h5, h6⟩ := hc
    simp only [outermost, nearest]
    rw [outermost_nearest rest l m h hm h6]
    have e0 : first (c :: l) = first (c :: m) := by
      funext n
      rw [first_cons, first_cons, h]
    rw [e0]
    congr 2
    by_cases hk : kids = .nil
    · subst hk
      rfl
    have hm' : ∀ n b, first (c :: m) n = some b → ∀ d ∈ c :: m, look d n = none ∨ look d n = some b := by
      intro n b hb d hd
      rw [first_cons] at hb
      cases hl : look c n with
      | some b' =>
        rw [hl] at hb
        have hb : b' = b := by simpa using hb
        subst hb
        rcases List.mem_cons.1 hd with rfl | hd
        · exact Or.inr hl
        · exact h4 hk n b' hl d hd
      | none =>
        rw [hl] at hb
        rcases List.mem_cons.1 hd with rfl | hd
        · exact Or.inl hl
        · exact hm n b (by simpa using hb) d hd
    have hin : ∀ n, first (l ++ [c]) n = first (c :: m) n := by
      intro n
      rw [first_append, first_single, first_cons, h]
      cases hl : look c n with
      | none => cases first m n <;> rfl
      | some b =>
        cases hf : first m n with
        | none => rfl
        | some b' =>
          have : ∃ d ∈ m, look d n = some b' := by
            unfold first at hf
            exact List.exists_of_findSome?_eq_some hf
          obtain ⟨d, hd, hdl⟩ := this
          rcases h4 hk n b hl d hd with hx | hx
          · rw [hdl] at hx; cases hx
          · rw [hdl] at hx
            simp only [Option.some.injEq] at hx
            simp [hx]
    have hskip : c = [] → ∀ n, first l n = first (c :: m) n := by
      rintro rfl n
      rw [first_cons, h]
      rfl
    cases k with
    | cond => exact outermost_nearest kids _ _ hin hm' h5
    | switch => exact outermost_nearest kids _ _ hin hm' h5
    | block => exact outermost_nearest kids _ _ (hskip (h2 hk rfl)) hm' h5
    | leaf => exact outermost_nearest kids _ _ (hskip (h3 hk rfl)) hm' h5
    | loop => exact absurd rfl h1

/-- C119, partial: without loops, and if no name gets another meaning inside of a statement that has it, every statement shows its own names and
those of the statements around it, the nearest first.  What is missing is false: `shadow_wrong`, `loop_lost`. -/
theorem propagate_partial (s : Ss) (h : Clear [] s) : shown (propagate s) = nearest [] s := by
  rw [propagate_exact]
  exact outermost_nearest s [] [] (fun _ => rfl) (fun _ _ _ d hd => (nomatch hd)) h

/-- Names a statement has keep their meaning. -/
theorem own_kept (k : Kind) (c : Ctx) (kids rest : Ss) : (shown (propagate (.node k c kids rest))).head? = some (look c) := by
  rw [propagate_node]
  rfl

/-- The pass adds no statement and removes none. -/
theorem shown_length (s : Ss) : (shown (propagate s)).length = (nearest [] s).length := by
  rw [propagate_exact]
  have : ∀ (s : Ss) (l m : List Ctx), (outermost l s).length = (nearest m s).length := by
    intro s
    induction s with
    | nil => intros; rfl
    | node k c kids rest ih1 ih2 =>
      intro l m
      simp only [outermost, nearest, List.length_cons, List.length_append]
      rw [ih1 _ (c :: m), ih2 l m]
  exact this s [] []

/-! ## Examples and witnesses -/

def one (v : String) : Ctx := [("i", ⟨false, v⟩)]

/-- `if (a) { if (b) { x = 1; } }`, `i` is 1 at the outer and 2 at the inner conditional: the assignment shows 1. -/
def shadowed : Ss := .node .cond (one "1") (.node .block [] (.node .cond (one "2") (.node .block [] (.node .leaf [] .nil .nil) .nil) .nil) .nil) .nil

theorem shadow_wrong : (shown (propagate shadowed)).map (fun f => (f "i").map (·.value)) = [some "1", some "1", some "2", some "1", some "1"] ∧
    (nearest [] shadowed).map (fun f => (f "i").map (·.value)) = [some "1", some "1", some "2", some "2", some "2"] := by
  rw [propagate_exact]
  decide +kernel

/-- `if (a) for (...) x = 1;`: the assignment does not show the names of the conditional. -/
def looped : Ss := .node .cond (one "1") (.node .block [] (.node .loop [] (.node .block [] (.node .leaf [] .nil .nil) .nil) .nil) .nil) .nil

theorem loop_lost : (shown (propagate looped)).map (fun f => (f "i").map (·.value)) = [some "1", some "1", some "1", none, none] := by
  rw [propagate_exact]
  decide +kernel

theorem not_ScopeClaim : ¬ ScopeClaim := by
  intro h
  have := h shadowed
  have e := shadow_wrong
  rw [this, e.2] at e
  exact absurd e.1 (by decide)

/-- The hypotheses are met: nested conditionals with different names, one repeated with the same meaning. -/
def nested : Ss := .node .cond (one "1") (.node .block [] (.node .switch [("j", ⟨true, "x"⟩), ("i", ⟨false, "1"⟩)]
  (.node .block [] (.node .leaf [("k", ⟨false, "3"⟩)] .nil .nil) .nil) .nil) .nil) .nil

theorem look_none (n : String) : look [] n = none := rfl

example : shown (propagate nested) = nearest [] nested := by
  apply propagate_partial
  simp only [Clear, nested, reduceCtorEq, ne_eq, not_false_eq_true, not_true_eq_false, false_implies, true_implies, implies_true, and_true, true_and,
    List.mem_cons, List.not_mem_nil, or_false, look_none]
  intro n b hb d hd
  rcases hd with rfl | rfl
  · exact Or.inl rfl
  · by_cases hi : "i" = n
    · subst hi
      exact Or.inr hb
    · exact Or.inl (by simp [look, one, List.find?, hi])

end Kratos.Propagate
