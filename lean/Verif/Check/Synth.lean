import Verif.Check.Resets

/-!
# C74: the check for content that cannot be synthesized

`check_non_synthesizable_content` (src/analysis.cc:224-275).
-/

namespace Kratos.Content

/-! ## The model -/

/-- `builtin_functions_info` (src/syntax.cc:273-286): the system functions, and whether a synthesis tool understands them. -/
def builtins : List (String × Bool) :=
  [("clog2", true), ("countones", true), ("onehot", true), ("onehot0", true), ("isunknown", true), ("display", false),
   ("hgdb_assert_fail", false), ("finish", false), ("fopen", false), ("fclose", false), ("fscanf", false), ("urandom", false),
   ("random", false)]

/-- `is_task` (src/stmt.hh:388, 446, 454, src/stmt.cc:812-815): "all builtin functions are tasks". -/
def Fn.isTask : Fn → Bool
  | .task => true
  | .builtin _ => true
  | _ => false

/-- `SynthesizableVisitor::visit(FunctionCallVar*)` (src/analysis.cc:232-237). -/
def Fn.flagX (f : Fn) : Bool := f == .dpi || f.isTask

/-- `SynthesizableVisitor::visit(FunctionCallStmt*)` (src/analysis.cc:239-249). -/
def Fn.flagS : Fn → Bool
  | .dpi => true
  | .builtin n => match builtins.lookup n with
    | some synth => !synth
    | none => false
  | _ => false

mutual
/-- The nodes found in an expression: children of `Expr` (src/expr.hh:651-652), `ConditionalExpr` (735-736), `VarConcat` (680-683),
`VarExtend` (708-709); a `FunctionCallVar` has the children of a variable, so that its arguments are not visited. -/
def X.flags : X → Bool
  | .un _ a => X.flags a
  | .bin a b => X.flags a || X.flags b
  | .cond p a b => X.flags p || (X.flags a || X.flags b)
  | .concat xs => Xs.flags xs
  | .extend a => X.flags a
  | .call f _ => f.flagX
  | .port _ => false
  | .leaf => false
  | .part _ => false
def Xs.flags : Xs → Bool
  | .nil => false
  | .cons x xs => X.flags x || Xs.flags xs
end

mutual
/-- The nodes found in a statement. Returns, calls, assertions and delays have no children (src/stmt.hh:55-56), and a delay statement
accepts no visitor (src/stmt.hh:54). -/
def Nd.flags : Nd → Bool
  | .assign d l r => d || (X.flags l || X.flags r)
  | .ite c t e => X.flags c || (Nds.flags t || Nds.flags e)
  | .switch x bs => X.flags x || Bodies.flags bs
  | .loop b => Nds.flags b
  | .callS f _ => f.flagS
  | .event => true
  | .ret _ => false
  | .delay => false
  | .assert _ => false
  | .other => false
def Nds.flags : Nds → Bool
  | .nil => false
  | .cons s ss => Nd.flags s || Nds.flags ss
def Bodies.flags : Bodies → Bool
  | .nil => false
  | .cons b bs => Nds.flags b || Bodies.flags bs
end

/-- The block itself (src/analysis.cc:253-257). -/
def Kind.flag : Kind → Bool
  | .initial => true
  | .comb general => general
  | _ => false

def Item.flags : Item → Bool
  | .stmt s => s.flags
  | .block k b => k.flag || b.flags

mutual
def Gen.flags : Gen → Bool
  | .mk ext items kids => !ext && (items.any Item.flags || Gens.flags kids)
def Gens.flags : Gens → Bool
  | .nil => false
  | .cons g gs => Gen.flags g || Gens.flags gs
end

/-- `check_non_synthesizable_content` (src/analysis.cc:265-275). -/
def checkSynth (g : Gen) : Res Unit := if g.flags then .throw .user else .ok ()

/-! ## Specification -/

mutual
/-- A call of `f` occurs somewhere in the expression; `hidden`: also inside arguments, slices and casts. -/
inductive X.Calls (hidden : Bool) (f : Fn) : X → Prop
  | here {xs} : X.Calls hidden f (.call f xs)
  | arg {g xs} : hidden = true → Xs.Calls hidden f xs → X.Calls hidden f (.call g xs)
  | part {xs} : hidden = true → Xs.Calls hidden f xs → X.Calls hidden f (.part xs)
  | un {op a} : X.Calls hidden f a → X.Calls hidden f (.un op a)
  | left {a b} : X.Calls hidden f a → X.Calls hidden f (.bin a b)
  | right {a b} : X.Calls hidden f b → X.Calls hidden f (.bin a b)
  | test {p a b} : X.Calls hidden f p → X.Calls hidden f (.cond p a b)
  | yes {p a b} : X.Calls hidden f a → X.Calls hidden f (.cond p a b)
  | no {p a b} : X.Calls hidden f b → X.Calls hidden f (.cond p a b)
  | concat {xs} : Xs.Calls hidden f xs → X.Calls hidden f (.concat xs)
  | extend {a} : X.Calls hidden f a → X.Calls hidden f (.extend a)
inductive Xs.Calls (hidden : Bool) (f : Fn) : Xs → Prop
  | head {x xs} : X.Calls hidden f x → Xs.Calls hidden f (.cons x xs)
  | tail {x xs} : Xs.Calls hidden f xs → Xs.Calls hidden f (.cons x xs)
end

mutual
/-- `s` occurs in the statement (itself, or in a branch or body of it). -/
inductive Nd.In (s : Nd) : Nd → Prop
  | here : Nd.In s s
  | then_ {c t e} : Nds.In s t → Nd.In s (.ite c t e)
  | else_ {c t e} : Nds.In s e → Nd.In s (.ite c t e)
  | switch {x bs} : Bodies.In s bs → Nd.In s (.switch x bs)
  | loop {b} : Nds.In s b → Nd.In s (.loop b)
inductive Nds.In (s : Nd) : Nds → Prop
  | head {a ss} : Nd.In s a → Nds.In s (.cons a ss)
  | tail {a ss} : Nds.In s ss → Nds.In s (.cons a ss)
inductive Bodies.In (s : Nd) : Bodies → Prop
  | head {a ss} : Nds.In s a → Bodies.In s (.cons a ss)
  | tail {a ss} : Bodies.In s ss → Bodies.In s (.cons a ss)
end

def Item.In (s : Nd) : Item → Prop
  | .stmt t => s.In t
  | .block _ b => b.In s

/-- A statement of the design. -/
def Gen.Holds (g : Gen) (s : Nd) : Prop := ∃ i, g.Has i ∧ i.In s

/-- The expressions of a statement. -/
def Nd.exprs : Nd → List X
  | .assign _ l r => [l, r]
  | .ite c _ _ => [c]
  | .switch x _ => [x]
  | .ret x => [x]
  | .assert x => [x]
  | _ => []

/-- Functions no synthesis tool can implement: imported ones and the system functions for simulation. -/
def Fn.Sim (f : Fn) : Prop := f = .dpi ∨ ∃ n, f = .builtin n ∧ (n, false) ∈ builtins

/-- The design has content for simulation only. -/
def Gen.SimOnly (g : Gen) : Prop :=
  (∃ l r, g.Holds (.assign true l r)) ∨ g.Holds .delay ∨ g.Holds .event ∨
  (∃ b, g.Has (.block .initial b)) ∨ (∃ b, g.Has (.block .final b)) ∨ (∃ b, g.Has (.block (.comb true) b)) ∨
  (∃ f xs, f.Sim ∧ g.Holds (.callS f xs)) ∨ (∃ f g' xs, f.Sim ∧ xs.Calls true f ∧ g.Holds (.callS g' xs)) ∨
  ∃ f s x, f.Sim ∧ g.Holds s ∧ x ∈ s.exprs ∧ x.Calls true f

/-- Accepted designs have no content for simulation only. -/
def SynthClaim : Prop := ∀ g, checkSynth g = .ok () → ¬ g.SimOnly

/-- Only designs with such content are refused. -/
def SynthRefusalClaim : Prop := ∀ g, checkSynth g ≠ .ok () → g.SimOnly

/-! ## Proofs -/

mutual
theorem x_flags : ∀ x : X, x.flags = true ↔ ∃ f : Fn, f.flagX = true ∧ x.Calls false f
  | .un _ a => by
    simp only [X.flags, x_flags a]
    exact ⟨fun ⟨f, h, hc⟩ => ⟨f, h, .un hc⟩, fun ⟨f, h, hc⟩ => by cases hc with | un hc => exact ⟨f, h, hc⟩⟩
  | .bin a b => by
    simp only [X.flags, Bool.or_eq_true, x_flags a, x_flags b]
    constructor
    · rintro (⟨f, h, hc⟩ | ⟨f, h, hc⟩)
      · exact ⟨f, h, .left hc⟩
      · exact ⟨f, h, .right hc⟩
    · rintro ⟨f, h, hc⟩
      cases hc with
      | left hc => exact .inl ⟨f, h, hc⟩
      | right hc => exact .inr ⟨f, h, hc⟩
  | .cond p a b => by
    simp only [X.flags, Bool.or_eq_true, x_flags p, x_flags a, x_flags b]
    constructor
    · rintro (⟨f, h, hc⟩ | ⟨f, h, hc⟩ | ⟨f, h, hc⟩)
      · exact ⟨f, h, .test hc⟩
      · exact ⟨f, h, .yes hc⟩
      · exact ⟨f, h, .no hc⟩
    · rintro ⟨f, h, hc⟩
      cases hc with
      | test hc => exact .inl ⟨f, h, hc⟩
      | yes hc => exact .inr (.inl ⟨f, h, hc⟩)
      | no hc => exact .inr (.inr ⟨f, h, hc⟩)
  | .concat xs => by
    simp only [X.flags, xs_flags xs]
    exact ⟨fun ⟨f, h, hc⟩ => ⟨f, h, .concat hc⟩, fun ⟨f, h, hc⟩ => by cases hc with | concat hc => exact ⟨f, h, hc⟩⟩
  | .extend a => by
    simp only [X.flags, x_flags a]
    exact ⟨fun ⟨f, h, hc⟩ => ⟨f, h, .extend hc⟩, fun ⟨f, h, hc⟩ => by cases hc with | extend hc => exact ⟨f, h, hc⟩⟩
  | .call f xs => by
    simp only [X.flags]
    constructor
    · exact fun h => ⟨f, h, .here⟩
    · rintro ⟨g, h, hc⟩
      cases hc with
      | here => exact h
      | arg h _ => cases h
  | .port _ => ⟨nofun, fun ⟨_, _, h⟩ => (nomatch h)⟩
  | .leaf => ⟨nofun, fun ⟨_, _, h⟩ => (nomatch h)⟩
  | .part _ => ⟨nofun, fun ⟨_, _, h⟩ => by cases h with | part h _ => cases h⟩
theorem xs_flags : ∀ x : Xs, x.flags = true ↔ ∃ f : Fn, f.flagX = true ∧ x.Calls false f
  | .nil => ⟨nofun, fun ⟨_, _, h⟩ => (nomatch h)⟩
  | .cons x xs => by
    simp only [Xs.flags, Bool.or_eq_true, x_flags x, xs_flags xs]
    constructor
    · rintro (⟨f, h, hc⟩ | ⟨f, h, hc⟩)
      · exact ⟨f, h, .head hc⟩
      · exact ⟨f, h, .tail hc⟩
    · rintro ⟨f, h, hc⟩
      cases hc with
      | head hc => exact .inl ⟨f, h, hc⟩
      | tail hc => exact .inr ⟨f, h, hc⟩
end

/-- The statements reported, apart from what they contain. -/
def Nd.Bad (s : Nd) : Prop :=
  (∃ l r, s = .assign true l r) ∨ s = .event ∨ (∃ f xs, s = .callS f xs ∧ f.flagS = true) ∨
  ∃ x f, x ∈ s.exprs ∧ (∀ y, s ≠ .ret y) ∧ (∀ y, s ≠ .assert y) ∧ f.flagX = true ∧ x.Calls false f

theorem own (s : Nd) (h : s.Bad) : s.flags = true := by
  rcases h with ⟨l, r, rfl⟩ | rfl | ⟨f, xs, rfl, h⟩ | ⟨x, f, hx, h1, h2, hf, hc⟩
  · simp [Nd.flags]
  · rfl
  · exact h
  · have hx' := (x_flags x).mpr ⟨f, hf, hc⟩
    cases s with
    | assign d l r =>
      simp only [Nd.exprs, List.mem_cons, List.not_mem_nil, or_false] at hx
      rcases hx with rfl | rfl <;> simp [Nd.flags, hx']
    | ite c t e =>
      simp only [Nd.exprs, List.mem_singleton] at hx
      subst hx
      simp [Nd.flags, hx']
    | switch c t =>
      simp only [Nd.exprs, List.mem_singleton] at hx
      subst hx
      simp [Nd.flags, hx']
    | ret y => exact absurd rfl (h1 y)
    | assert y => exact absurd rfl (h2 y)
    | loop b => cases hx
    | callS f xs => cases hx
    | event => cases hx
    | delay => cases hx
    | other => cases hx

mutual
theorem nd_flags : ∀ s : Nd, s.flags = true ↔ ∃ t, Nd.In t s ∧ t.Bad
  | .assign d l r => by
    constructor
    · intro h
      simp only [Nd.flags, Bool.or_eq_true] at h
      refine ⟨_, .here, ?_⟩
      rcases h with h | h | h
      · rw [h]; exact .inl ⟨l, r, rfl⟩
      · obtain ⟨f, hf, hc⟩ := (x_flags l).mp h
        exact .inr (.inr (.inr ⟨l, f, by simp [Nd.exprs], nofun, nofun, hf, hc⟩))
      · obtain ⟨f, hf, hc⟩ := (x_flags r).mp h
        exact .inr (.inr (.inr ⟨r, f, by simp [Nd.exprs], nofun, nofun, hf, hc⟩))
    · rintro ⟨t, ht, hb⟩
      cases ht
      exact own _ hb
  | .ite c t e => by
    constructor
    · intro h
      simp only [Nd.flags, Bool.or_eq_true] at h
      rcases h with h | h | h
      · obtain ⟨f, hf, hc⟩ := (x_flags c).mp h
        exact ⟨_, .here, .inr (.inr (.inr ⟨c, f, by simp [Nd.exprs], nofun, nofun, hf, hc⟩))⟩
      · obtain ⟨s, hs, hb⟩ := (nds_flags t).mp h
        exact ⟨s, .then_ hs, hb⟩
      · obtain ⟨s, hs, hb⟩ := (nds_flags e).mp h
        exact ⟨s, .else_ hs, hb⟩
    · rintro ⟨s, hs, hb⟩
      cases hs with
      | here => exact own _ hb
      | then_ hs => simp [Nd.flags, (nds_flags t).mpr ⟨s, hs, hb⟩]
      | else_ hs => simp [Nd.flags, (nds_flags e).mpr ⟨s, hs, hb⟩]
  | .switch x bs => by
    constructor
    · intro h
      simp only [Nd.flags, Bool.or_eq_true] at h
      rcases h with h | h
      · obtain ⟨f, hf, hc⟩ := (x_flags x).mp h
        exact ⟨_, .here, .inr (.inr (.inr ⟨x, f, by simp [Nd.exprs], nofun, nofun, hf, hc⟩))⟩
      · obtain ⟨s, hs, hb⟩ := (bodies_flags bs).mp h
        exact ⟨s, .switch hs, hb⟩
    · rintro ⟨s, hs, hb⟩
      cases hs with
      | here => exact own _ hb
      | switch hs => simp [Nd.flags, (bodies_flags bs).mpr ⟨s, hs, hb⟩]
  | .loop b => by
    constructor
    · intro h
      obtain ⟨s, hs, hb⟩ := (nds_flags b).mp h
      exact ⟨s, .loop hs, hb⟩
    · rintro ⟨s, hs, hb⟩
      cases hs with
      | here => exact own _ hb
      | loop hs => exact (nds_flags b).mpr ⟨s, hs, hb⟩
  | .callS f xs => by
    constructor
    · intro h
      exact ⟨_, .here, .inr (.inr (.inl ⟨f, xs, rfl, h⟩))⟩
    · rintro ⟨s, hs, hb⟩
      cases hs
      exact own _ hb
  | .event => ⟨fun _ => ⟨_, .here, .inr (.inl rfl)⟩, fun _ => rfl⟩
  | .ret x => ⟨nofun, fun ⟨s, hs, hb⟩ => by cases hs; exact own _ hb⟩
  | .delay => ⟨nofun, fun ⟨s, hs, hb⟩ => by cases hs; exact own _ hb⟩
  | .assert x => ⟨nofun, fun ⟨s, hs, hb⟩ => by cases hs; exact own _ hb⟩
  | .other => ⟨nofun, fun ⟨s, hs, hb⟩ => by cases hs; exact own _ hb⟩
theorem nds_flags : ∀ s : Nds, s.flags = true ↔ ∃ t, Nds.In t s ∧ t.Bad
  | .nil => ⟨nofun, fun ⟨_, h, _⟩ => (nomatch h)⟩
  | .cons s ss => by
    simp only [Nds.flags, Bool.or_eq_true, nd_flags s, nds_flags ss]
    constructor
    · rintro (⟨t, h, hb⟩ | ⟨t, h, hb⟩)
      · exact ⟨t, .head h, hb⟩
      · exact ⟨t, .tail h, hb⟩
    · rintro ⟨t, h, hb⟩
      cases h with
      | head h => exact .inl ⟨t, h, hb⟩
      | tail h => exact .inr ⟨t, h, hb⟩
theorem bodies_flags : ∀ s : Bodies, s.flags = true ↔ ∃ t, Bodies.In t s ∧ t.Bad
  | .nil => ⟨nofun, fun ⟨_, h, _⟩ => (nomatch h)⟩
  | .cons s ss => by
    simp only [Bodies.flags, Bool.or_eq_true, nds_flags s, bodies_flags ss]
    constructor
    · rintro (⟨t, h, hb⟩ | ⟨t, h, hb⟩)
      · exact ⟨t, .head h, hb⟩
      · exact ⟨t, .tail h, hb⟩
    · rintro ⟨t, h, hb⟩
      cases h with
      | head h => exact .inl ⟨t, h, hb⟩
      | tail h => exact .inr ⟨t, h, hb⟩
end

mutual
theorem gen_flags : ∀ g : Gen, g.flags = true ↔ ∃ i, g.Has i ∧ i.flags = true
  | .mk true items kids => ⟨nofun, fun ⟨_, h, _⟩ => (nomatch h)⟩
  | .mk false items kids => by
    simp only [Gen.flags, Bool.not_false, Bool.true_and, Bool.or_eq_true, List.any_eq_true, gens_flags kids]
    constructor
    · rintro (⟨t, h, hb⟩ | ⟨t, h, hb⟩)
      · exact ⟨t, .here h, hb⟩
      · exact ⟨t, .inside h, hb⟩
    · rintro ⟨t, h, hb⟩
      cases h with
      | here h => exact .inl ⟨t, h, hb⟩
      | inside h => exact .inr ⟨t, h, hb⟩
theorem gens_flags : ∀ g : Gens, g.flags = true ↔ ∃ i, g.Has i ∧ i.flags = true
  | .nil => ⟨nofun, fun ⟨_, h, _⟩ => (nomatch h)⟩
  | .cons g gs => by
    simp only [Gens.flags, Bool.or_eq_true, gen_flags g, gens_flags gs]
    constructor
    · rintro (⟨t, h, hb⟩ | ⟨t, h, hb⟩)
      · exact ⟨t, .head h, hb⟩
      · exact ⟨t, .tail h, hb⟩
    · rintro ⟨t, h, hb⟩
      cases h with
      | head h => exact .inl ⟨t, h, hb⟩
      | tail h => exact .inr ⟨t, h, hb⟩
end

theorem item_flags (i : Item) : i.flags = true ↔
    (∃ b, i = .block .initial b) ∨ (∃ b, i = .block (.comb true) b) ∨ ∃ s, i.In s ∧ s.Bad := by
  cases i with
  | stmt s => simp [Item.flags, Item.In, nd_flags]
  | block k b =>
    simp only [Item.flags, Bool.or_eq_true, nds_flags, Item.In]
    cases k with
    | comb g => cases g <;> simp [Kind.flag]
    | initial => simp [Kind.flag]
    | _ => simp [Kind.flag]

theorem check_synth (g : Gen) : checkSynth g ≠ .ok () ↔
    (∃ b, g.Has (.block .initial b)) ∨ (∃ b, g.Has (.block (.comb true) b)) ∨ ∃ s, g.Holds s ∧ s.Bad := by
  unfold checkSynth
  have : (if g.flags = true then (.throw .user : Res Unit) else .ok ()) ≠ .ok () ↔ g.flags = true := by
    split <;> simp_all
  rw [this, gen_flags]
  constructor
  · rintro ⟨i, hi, hf⟩
    rcases (item_flags i).mp hf with ⟨b, rfl⟩ | ⟨b, rfl⟩ | ⟨s, hs, hb⟩
    · exact .inl ⟨b, hi⟩
    · exact .inr (.inl ⟨b, hi⟩)
    · exact .inr (.inr ⟨s, ⟨i, hi, hs⟩, hb⟩)
  · rintro (⟨b, hi⟩ | ⟨b, hi⟩ | ⟨s, ⟨i, hi, hs⟩, hb⟩)
    · exact ⟨_, hi, (item_flags _).mpr (.inl ⟨b, rfl⟩)⟩
    · exact ⟨_, hi, (item_flags _).mpr (.inr (.inl ⟨b, rfl⟩))⟩
    · exact ⟨_, hi, (item_flags _).mpr (.inr (.inr ⟨s, hs, hb⟩))⟩

/-- The names of the table are different, so that looking one up and being in the table agree. -/
theorem flagS_iff (f : Fn) : f.flagS = true ↔ f.Sim := by
  cases f with
  | dpi => exact ⟨fun _ => .inl rfl, fun _ => rfl⟩
  | plain => exact ⟨nofun, by rintro (h | ⟨n, h, _⟩) <;> cases h⟩
  | task => exact ⟨nofun, by rintro (h | ⟨n, h, _⟩) <;> cases h⟩
  | builtin n =>
    have key : (n, false) ∈ builtins ↔ builtins.lookup n = some false := by
      constructor
      · intro h
        simp only [builtins, List.mem_cons, Prod.mk.injEq, List.not_mem_nil, or_false] at h
        simp only [Bool.false_eq_true, and_false, and_true, false_or] at h
        rcases h with h | h | h | h | h | h | h | h <;> (subst h; decide)
      · intro h
        obtain ⟨l1, l2, h, _⟩ := List.lookup_eq_some_iff.mp h
        rw [h]
        simp
    have : Fn.Sim (.builtin n) ↔ (n, false) ∈ builtins := by
      constructor
      · rintro (h | ⟨m, h, hm⟩)
        · cases h
        · cases h; exact hm
      · exact fun h => .inr ⟨n, rfl, h⟩
    rw [this, key]
    simp only [Fn.flagS]
    cases builtins.lookup n with
    | none => simp
    | some b => cases b <;> simp

theorem calls_hidden {f : Fn} {x : X} : X.Calls false f x → X.Calls true f x := go f x
where
  go (f : Fn) : ∀ x : X, X.Calls false f x → X.Calls true f x
    | .un _ a, .un h => .un (go f a h)
    | .bin a _, .left h => .left (go f a h)
    | .bin _ b, .right h => .right (go f b h)
    | .cond p _ _, .test h => .test (go f p h)
    | .cond _ a _, .yes h => .yes (go f a h)
    | .cond _ _ b, .no h => .no (go f b h)
    | .concat xs, .concat h => .concat (gos f xs h)
    | .extend a, .extend h => .extend (go f a h)
    | .call _ _, .here => .here
  gos (f : Fn) : ∀ x : Xs, Xs.Calls false f x → Xs.Calls true f x
    | .cons x _, .head h => .head (go f x h)
    | .cons _ xs, .tail h => .tail (gos f xs h)

/-! ## C74 -/

/-- **C74** (`_partial`: final blocks, delay statements and calls that are not visited are missing, see the witnesses below). In an
accepted design, of any size, no assignment has a delay, no event is traced, there are no initial and no general-purpose blocks, and
no imported or simulation-only function is called as a statement or in the visible part of an expression of an assignment, a
condition or a switch. -/
theorem synth_partial {g : Gen} (h : checkSynth g = .ok ()) :
    (∀ l r, ¬ g.Holds (.assign true l r)) ∧ ¬ g.Holds .event ∧ (∀ b, ¬ g.Has (.block .initial b)) ∧
    (∀ b, ¬ g.Has (.block (.comb true) b)) ∧ (∀ f xs, f.Sim → ¬ g.Holds (.callS f xs)) ∧
    ∀ f s x, f.Sim → g.Holds s → x ∈ s.exprs → (∀ y, s ≠ .ret y) → (∀ y, s ≠ .assert y) → ¬ x.Calls false f := by
  have h' := (not_congr (check_synth g)).mp (by simp [h])
  refine ⟨fun l r hs => h' ?_, fun hs => h' ?_, fun b hb => h' (.inl ⟨b, hb⟩), fun b hb => h' (.inr (.inl ⟨b, hb⟩)),
    fun f xs hf hs => h' ?_, fun f s x hf hs hx h1 h2 hc => h' ?_⟩
  · exact .inr (.inr ⟨_, hs, .inl ⟨l, r, rfl⟩⟩)
  · exact .inr (.inr ⟨_, hs, .inr (.inl rfl)⟩)
  · exact .inr (.inr ⟨_, hs, .inr (.inr (.inl ⟨f, xs, rfl, (flagS_iff f).mpr hf⟩))⟩)
  · refine .inr (.inr ⟨_, hs, .inr (.inr (.inr ⟨x, f, hx, h1, h2, ?_, hc⟩))⟩)
    rcases hf with rfl | ⟨n, rfl, _⟩ <;> rfl

/-- **C74** (`_partial`): a refused design has content for simulation only, or calls a task or a system function that is fine for
synthesis in an expression. -/
theorem synth_refused_partial {g : Gen} (h : checkSynth g ≠ .ok ()) :
    g.SimOnly ∨ ∃ f s x, f.isTask = true ∧ g.Holds s ∧ x ∈ s.exprs ∧ x.Calls false f := by
  rcases (check_synth g).mp h with ⟨b, hb⟩ | ⟨b, hb⟩ | ⟨s, hs, hb⟩
  · exact .inl (.inr (.inr (.inr (.inl ⟨b, hb⟩))))
  · exact .inl (.inr (.inr (.inr (.inr (.inr (.inl ⟨b, hb⟩))))))
  · rcases hb with ⟨l, r, rfl⟩ | rfl | ⟨f, xs, rfl, hf⟩ | ⟨x, f, hx, _, _, hf, hc⟩
    · exact .inl (.inl ⟨l, r, hs⟩)
    · exact .inl (.inr (.inr (.inl hs)))
    · exact .inl (.inr (.inr (.inr (.inr (.inr (.inr (.inl ⟨f, xs, (flagS_iff f).mp hf, hs⟩)))))))
    · simp only [Fn.flagX, Bool.or_eq_true, beq_iff_eq] at hf
      rcases hf with hf | hf
      · exact .inl (.inr (.inr (.inr (.inr (.inr (.inr (.inr (.inr ⟨f, s, x, .inl hf, hs, hx, calls_hidden hc⟩))))))))
      · exact .inr ⟨f, s, x, hf, hs, hx, hc⟩

example : checkSynth (.mk false [.stmt (.assign false .leaf (.un .invert (.port 1)))] .nil) = .ok () := rfl
example : checkSynth (.mk false [.block .latch (.cons (.ite .leaf .nil (.cons (.callS (.builtin "display") .nil) .nil)) .nil)] .nil) ≠ .ok () := nofun

def one (s : Nd) : Gen := .mk false [.stmt s] .nil

theorem one_holds (s : Nd) : (one s).Holds s := ⟨.stmt s, .here (List.mem_cons_self ..), .here⟩

/-- **C74**: accepted designs with content for simulation only: a final block, a delay statement, an imported function in a return
value, in an argument of a call, under a slice, and in an assertion. -/
theorem synth_missed :
    (checkSynth (.mk false [.block .final .nil] .nil) = .ok () ∧ (Gen.mk false [.block .final .nil] .nil).SimOnly) ∧
    (checkSynth (one .delay) = .ok () ∧ (one .delay).SimOnly) ∧
    (∀ s ∈ [Nd.ret (.call .dpi .nil), .assert (.call .dpi .nil), .assign false .leaf (.call .plain (.cons (.call .dpi .nil) .nil)),
        .assign false .leaf (.part (.cons (.call .dpi .nil) .nil))], checkSynth (one s) = .ok () ∧ (one s).SimOnly) := by
  refine ⟨⟨rfl, .inr (.inr (.inr (.inr (.inl ⟨.nil, .here (List.mem_cons_self ..)⟩))))⟩, ⟨rfl, .inr (.inl (one_holds _))⟩, ?_⟩
  have last : ∀ (s : Nd) (x : X), x ∈ s.exprs → x.Calls true .dpi → (one s).SimOnly := fun s x hx hc =>
    .inr (.inr (.inr (.inr (.inr (.inr (.inr (.inr ⟨.dpi, s, x, .inl rfl, one_holds s, hx, hc⟩)))))))
  intro s hs
  simp only [List.mem_cons, List.not_mem_nil, or_false] at hs
  rcases hs with rfl | rfl | rfl | rfl
  · exact ⟨rfl, last _ _ (List.mem_singleton.mpr rfl) .here⟩
  · exact ⟨rfl, last _ _ (List.mem_singleton.mpr rfl) .here⟩
  · exact ⟨rfl, last _ _ (List.mem_cons_of_mem _ (List.mem_singleton.mpr rfl)) (.arg rfl (.head .here))⟩
  · exact ⟨rfl, last _ _ (List.mem_cons_of_mem _ (List.mem_singleton.mpr rfl)) (.part rfl (.head .here))⟩

theorem not_SynthClaim : ¬ SynthClaim := fun h => h _ synth_missed.1.1 synth_missed.1.2

/-- **C74**: `a = $clog2(b)` is refused, although the table of system functions has `clog2` as synthesizable. -/
theorem not_SynthRefusalClaim : ¬ SynthRefusalClaim := by
  intro h
  have hs := h (one (.assign false .leaf (.call (.builtin "clog2") .nil))) nofun
  have only : ∀ s, (one (.assign false .leaf (.call (.builtin "clog2") .nil))).Holds s → s = .assign false .leaf (.call (.builtin "clog2") .nil) := by
    rintro s ⟨i, hi, hs⟩
    cases hi with
    | here hi =>
      cases List.mem_singleton.mp hi
      cases hs
      rfl
    | inside h => cases h
  have blocks : ∀ k b, ¬ (one (.assign false .leaf (.call (.builtin "clog2") .nil))).Has (.block k b) := by
    intro k b h
    cases h with
    | here h => cases List.mem_singleton.mp h
    | inside h => cases h
  have clog : ¬ Fn.Sim (.builtin "clog2") := by
    rintro (h | ⟨n, h, hn⟩)
    · cases h
    · cases h
      revert hn
      decide
  rcases hs with ⟨l, r, h⟩ | h | h | ⟨b, h⟩ | ⟨b, h⟩ | ⟨b, h⟩ | ⟨f, xs, _, h⟩ | ⟨f, g, xs, _, _, h⟩ | ⟨f, s, x, hf, h, hx, hc⟩
  · cases only _ h
  · cases only _ h
  · cases only _ h
  · exact blocks _ _ h
  · exact blocks _ _ h
  · exact blocks _ _ h
  · cases only _ h
  · cases only _ h
  · rw [only _ h] at hx
    simp only [Nd.exprs, List.mem_cons, List.not_mem_nil, or_false] at hx
    rcases hx with rfl | rfl
    · cases hc
    · cases hc with
      | here => exact clog hf
      | arg _ h => cases h

end Kratos.Content
