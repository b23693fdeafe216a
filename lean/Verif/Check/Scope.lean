import Verif.Base

/-!
# C107: the check that assignments use only signals that exist where they stand

Model of `MixedAssignmentVisitor::check_var_parent` and `has_non_port` (src/analysis.cc:164-216),
with the generator that `Expr::set_parent` computes for an expression (src/expr.cc:820-844).
The kinds of assignment, which the same pass compares, are C30.  Casts are written as slices: both
have the generator of what they are made from; the check looks through slices only, so a cast on a
side of an assignment is not modelled.
-/

namespace Kratos.Scope

/-! ## Model -/

inductive Kind where
  | input | output | inout
  | base
  | param
  deriving DecidableEq, Repr

/-- The tree of generators: `Generator::parent`. -/
abbrev Tree := Nat → Option Nat

/-- What can stand on a side of an assignment. -/
inductive E where
  | const
  | sig (gen : Nat) (kind : Kind) (name : Nat)
  | slice (e : E)
  | un (e : E)
  | bin (l r : E)
  deriving DecidableEq, Repr

/-- `Var::generator()`: the generator of constants, none, or a generator of the design. -/
inductive G where
  | const
  | null
  | gen (n : Nat)
  deriving DecidableEq, Repr

def isPort : Kind → Bool
  | .input | .output | .inout => true
  | _ => false

/-- `type() == VarType::PortIO` -/
def portType : E → Bool
  | .sig _ k _ => isPort k
  | _ => false

/-- A generator pointer of a parent. -/
def up (t : Tree) (n : Nat) : G := match t n with
  | some p => .gen p
  | none => .null

/-- `Expr::set_parent` (src/expr.cc:820-844) with two operands. -/
def join (t : Tree) (l r : G) (lp rp : Bool) : Res G :=
  if l = .const then .ok r
  else if r = .const ∨ r = .null then .ok l
  else if l = r then .ok l
  else match r with
    | .gen rg =>
        if l = up t rg ∧ rp = true then .ok l
        else match l with
          | .gen lg => if up t lg = up t rg ∧ lp = true ∧ rp = true then .ok (up t lg) else .ok r
          | _ => .ub
    | _ => .ub

def genOf (t : Tree) : E → Res G
  | .const => .ok .const
  | .sig g _ _ => .ok (.gen g)
  | .slice e => genOf t e
  | .un e => genOf t e
  | .bin l r => (genOf t l).bind fun a => (genOf t r).bind fun b => join t a b (portType l) (portType r)

/-- `has_non_port` (src/analysis.cc:164-176). -/
def hasNonPort (ctx : Nat) : E → Bool
  | .const => false
  | .sig g k _ => decide (g ≠ ctx) && !isPort k
  | .slice e => hasNonPort ctx e
  | .un e => hasNonPort ctx e
  | .bin l r => hasNonPort ctx l || hasNonPort ctx r

/-- The variable on the left-hand side, behind its slices. -/
structure Dst where
  gen : Nat
  kind : Kind
  deriving DecidableEq, Repr

/-- `check_var_parent` (src/analysis.cc:178-216); the visited generator is the one of the variable
on the left-hand side. -/
def check (t : Tree) (d : Dst) (e : E) : Res Unit :=
  (genOf t e).bind fun
    | .const => .ok ()
    | .null => .ub
    | .gen g =>
        if d.gen = g then .ok ()
        else if d.kind = .input then
          if .gen g ≠ up t d.gen ∧ up t g ≠ up t d.gen then .throw .var else .ok ()
        else if (up t g ≠ .gen d.gen ∧ up t g ≠ up t d.gen) ∨ hasNonPort d.gen e = true then .throw .var
        else .ok ()

/-! ## Specification -/

/-- The signals of an expression. -/
inductive Uses : E → Nat → Kind → Prop
  | sig (g k n) : Uses (.sig g k n) g k
  | slice {e g k} : Uses e g k → Uses (.slice e) g k
  | un {e g k} : Uses e g k → Uses (.un e) g k
  | left {l r g k} : Uses l g k → Uses (.bin l r) g k
  | right {l r g k} : Uses r g k → Uses (.bin l r) g k

/-- The module in which the assignment is written: the parent for an input, else the own module. -/
def WrittenIn (t : Tree) (d : Dst) (c : Nat) : Prop :=
  (d.kind = .input ∧ t d.gen = some c) ∨ (d.kind ≠ .input ∧ d.gen = c)

/-- A signal can be named in a module: it is declared there, or it is a port of an instance
there. -/
def Visible (t : Tree) (c g : Nat) (k : Kind) : Prop :=
  g = c ∨ (t g = some c ∧ (k = .input ∨ k = .output ∨ k = .inout))

/-- All signals of the right-hand side can be named where the assignment is written. -/
def Legal (t : Tree) (d : Dst) (e : E) : Prop :=
  ∃ c, WrittenIn t d c ∧ ∀ g k, Uses e g k → Visible t c g k

/-- A tree: no generator is its own ancestor, as far as two steps go. -/
def Proper (t : Tree) : Prop := ∀ g p, t g = some p → p ≠ g ∧ t p ≠ some g

/-- C107 in full: the check accepts the legal assignments and no others. -/
def ScopeClaim : Prop :=
  ∀ t d e, Proper t → (∃ c, WrittenIn t d c) → (check t d e = .ok () ↔ Legal t d e)

/-! ## Legal assignments are accepted -/

/-- The generator of an expression over visible signals. -/
theorem gen_legal (t : Tree) (c : Nat) : ∀ e, (∀ g k, Uses e g k → Visible t c g k) →
    ∃ x, genOf t e = .ok x ∧ (x = .const ∨ ∃ g, x = .gen g ∧ (g = c ∨ t g = some c)) := by
  intro e
  induction e with
  | const => intro _; exact ⟨_, rfl, Or.inl rfl⟩
  | sig g k n =>
    intro h
    refine ⟨_, rfl, Or.inr ⟨g, rfl, ?_⟩⟩
    rcases h g k (.sig g k n) with h | h
    · exact Or.inl h
    · exact Or.inr h.1
  | slice e ih => intro h; exact ih fun g k u => h g k (.slice u)
  | un e ih => intro h; exact ih fun g k u => h g k (.un u)
  | bin l r ihl ihr =>
    intro h
    obtain ⟨a, ha, ha'⟩ := ihl fun g k u => h g k (.left u)
    obtain ⟨b, hb, hb'⟩ := ihr fun g k u => h g k (.right u)
    simp only [genOf, ha, hb, Res.ok_bind]
    rcases ha' with rfl | ⟨ga, rfl, ha'⟩
    · exact ⟨b, by simp [join], hb'⟩
    rcases hb' with rfl | ⟨gb, rfl, hb'⟩
    · exact ⟨_, by simp [join], Or.inr ⟨ga, rfl, ha'⟩⟩
    unfold join
    rw [if_neg (by simp), if_neg (by simp)]
    by_cases e1 : G.gen ga = G.gen gb
    · rw [if_pos e1]; exact ⟨_, rfl, Or.inr ⟨ga, rfl, ha'⟩⟩
    rw [if_neg e1]
    simp only
    by_cases e2 : G.gen ga = up t gb ∧ portType r = true
    · rw [if_pos e2]; exact ⟨_, rfl, Or.inr ⟨ga, rfl, ha'⟩⟩
    rw [if_neg e2]
    by_cases e3 : up t ga = up t gb ∧ portType l = true ∧ portType r = true
    · rw [if_pos e3]
      rcases ha' with rfl | ha'
      · rcases hb' with rfl | hb'
        · exact absurd rfl e1
        · exact absurd ⟨by simp [up, hb'], e3.2.2⟩ e2
      · exact ⟨_, rfl, Or.inr ⟨c, by simp [up, ha'], Or.inl rfl⟩⟩
    · rw [if_neg e3]; exact ⟨_, rfl, Or.inr ⟨gb, rfl, hb'⟩⟩

theorem hasNonPort_iff (ctx : Nat) : ∀ e, hasNonPort ctx e = true ↔
    ∃ g k, Uses e g k ∧ g ≠ ctx ∧ (k = .base ∨ k = .param) := by
  intro e
  induction e with
  | const => simp only [hasNonPort, Bool.false_eq_true, false_iff]; rintro ⟨_, _, u, _⟩; cases u
  | sig g k n =>
    simp only [hasNonPort, Bool.and_eq_true, decide_eq_true_eq, Bool.not_eq_true']
    constructor
    · rintro ⟨h1, h2⟩; exact ⟨g, k, .sig g k n, h1, by cases k <;> simp_all [isPort]⟩
    · rintro ⟨_, _, u, h1, h2⟩; cases u; exact ⟨h1, by rcases h2 with rfl | rfl <;> rfl⟩
  | slice e ih =>
    simp only [hasNonPort, ih]
    constructor
    · rintro ⟨g, k, u, h⟩; exact ⟨g, k, .slice u, h⟩
    · rintro ⟨g, k, u, h⟩; cases u with | slice u => exact ⟨g, k, u, h⟩
  | un e ih =>
    simp only [hasNonPort, ih]
    constructor
    · rintro ⟨g, k, u, h⟩; exact ⟨g, k, .un u, h⟩
    · rintro ⟨g, k, u, h⟩; cases u with | un u => exact ⟨g, k, u, h⟩
  | bin l r ihl ihr =>
    simp only [hasNonPort, Bool.or_eq_true, ihl, ihr]
    constructor
    · rintro (⟨g, k, u, h⟩ | ⟨g, k, u, h⟩)
      · exact ⟨g, k, .left u, h⟩
      · exact ⟨g, k, .right u, h⟩
    · rintro ⟨g, k, u, h⟩
      cases u with
      | left u => exact Or.inl ⟨g, k, u, h⟩
      | right u => exact Or.inr ⟨g, k, u, h⟩

/-- C107, one half: no legal assignment is refused, whatever the expression. -/
theorem legal_accepted (t : Tree) (d : Dst) (e : E) (h : Legal t d e) : check t d e = .ok () := by
  obtain ⟨c, hw, hv⟩ := h
  obtain ⟨x, hx, hx'⟩ := gen_legal t c e hv
  simp only [check, hx, Res.ok_bind]
  rcases hx' with rfl | ⟨g, rfl, hg⟩
  · rfl
  simp only
  by_cases e1 : d.gen = g
  · rw [if_pos e1]
  rw [if_neg e1]
  rcases hw with ⟨hk, hp⟩ | ⟨hk, rfl⟩
  · rw [if_pos hk, if_neg]
    rintro ⟨h1, h2⟩
    rcases hg with rfl | hg
    · exact h1 (by simp [up, hp])
    · exact h2 (by simp [up, hp, hg])
  · rw [if_neg hk, if_neg]
    rintro (⟨h1, _⟩ | h)
    · rcases hg with rfl | hg
      · exact e1 rfl
      · exact h1 (by simp [up, hg])
    · obtain ⟨g', k, u, h1, h2⟩ := (hasNonPort_iff _ _).1 h
      rcases hv g' k u with h3 | ⟨_, h3⟩
      · exact h1 h3
      · rcases h2 with rfl | rfl <;> simp at h3

/-! ## What is accepted -/

/-- A signal, or a slice of a slice … of a signal. -/
inductive Single : E → Prop
  | sig (g k n) : Single (.sig g k n)
  | slice {e} : Single e → Single (.slice e)

theorem single_gen (t : Tree) {e : E} (h : Single e) : ∃ g k, genOf t e = .ok (.gen g) ∧ Uses e g k ∧
    ∀ g' k', Uses e g' k' → g' = g ∧ k' = k := by
  induction h with
  | sig g k n => exact ⟨g, k, rfl, .sig g k n, by intro g' k' u; cases u; exact ⟨rfl, rfl⟩⟩
  | slice _ ih =>
    obtain ⟨g, k, h1, h2, h3⟩ := ih
    exact ⟨g, k, h1, .slice h2, by intro g' k' u; cases u with | slice u => exact h3 g' k' u⟩

/-- The generator of a sibling, or a second top. -/
def Sibling (t : Tree) (a b : Nat) : Prop := t a = t b

theorem up_inj {t : Tree} {a b : Nat} : up t a = up t b ↔ t a = t b := by
  unfold up
  cases t a <;> cases t b <;> simp

theorem up_gen {t : Tree} {a p : Nat} : up t a = .gen p ↔ t a = some p := by
  unfold up
  cases t a <;> simp

/-- C107, the other half, partial: a single signal (or part of one) that is accepted for a variable
or an output, and that is not of a sibling, is legal.  What is missing is false: `sibling_accepted`,
`input_hidden`, `expression_hidden`. -/
theorem accepted_partial (t : Tree) (d : Dst) (e : E) (hs : Single e) (hd : d.kind ≠ .input)
    (hsib : ∀ g k, Uses e g k → g ≠ d.gen → ¬ Sibling t g d.gen) (h : check t d e = .ok ()) : Legal t d e := by
  obtain ⟨g, k, h1, h2, h3⟩ := single_gen t hs
  simp only [check, h1, Res.ok_bind] at h
  refine ⟨d.gen, Or.inr ⟨hd, rfl⟩, ?_⟩
  intro g' k' u
  obtain ⟨rfl, rfl⟩ := h3 g' k' u
  by_cases e1 : d.gen = g'
  · exact Or.inl e1.symm
  rw [if_neg e1, if_neg hd] at h
  by_cases e2 : (up t g' ≠ .gen d.gen ∧ up t g' ≠ up t d.gen) ∨ hasNonPort d.gen e = true
  · rw [if_pos e2] at h; cases h
  · simp only [not_or, Classical.not_and_iff_not_or_not, ne_eq, Classical.not_not] at e2
    obtain ⟨h4 | h4, h5⟩ := e2
    · refine Or.inr ⟨up_gen.1 h4, ?_⟩
      have : ¬ (k' = .base ∨ k' = .param) := fun hk => h5 ((hasNonPort_iff _ _).2 ⟨g', k', h2, Ne.symm e1, hk⟩)
      cases k' <;> simp_all
    · exact absurd (up_inj.1 h4) (hsib g' k' u (Ne.symm e1))

/-- C107 for an input, partial: every single port (or part of one) that is accepted belongs to the
parent or to an instance there.  What is missing is false: `input_hidden`. -/
theorem accepted_input_partial (t : Tree) (d : Dst) (e : E) (hs : Single e) (hd : d.kind = .input) (c : Nat)
    (hc : t d.gen = some c) (hp : ∀ g k, Uses e g k → k ≠ .base ∧ k ≠ .param) (h : check t d e = .ok ()) :
    Legal t d e := by
  obtain ⟨g, k, h1, h2, h3⟩ := single_gen t hs
  simp only [check, h1, Res.ok_bind] at h
  refine ⟨c, Or.inl ⟨hd, hc⟩, ?_⟩
  intro g' k' u
  obtain ⟨rfl, rfl⟩ := h3 g' k' u
  have hport : k' = .input ∨ k' = .output ∨ k' = .inout := by
    have := hp g' k' u
    cases k' <;> simp_all
  by_cases e1 : d.gen = g'
  · exact Or.inr ⟨by rw [← e1, hc], hport⟩
  rw [if_neg e1, if_pos hd] at h
  by_cases e2 : G.gen g' ≠ up t d.gen ∧ up t g' ≠ up t d.gen
  · rw [if_pos e2] at h; cases h
  · simp only [Classical.not_and_iff_not_or_not, ne_eq, Classical.not_not] at e2
    rcases e2 with e2 | e2
    · left
      have := up_gen.1 e2.symm
      rw [hc] at this
      exact (Option.some.inj this).symm
    · exact Or.inr ⟨by rw [up_inj.1 e2, hc], hport⟩

/-! ## Witnesses: generator 0 contains 1 and 2, and 1 contains 3 -/

def tree : Tree
  | 1 => some 0
  | 2 => some 0
  | 3 => some 1
  | _ => none

theorem tree_proper : Proper tree := by
  intro g p h
  unfold tree at h
  split at h <;> cases h <;> simp [tree]

theorem not_legal {t : Tree} {d : Dst} {e : E} {c g : Nat} {k : Kind} (hw : ∀ c', WrittenIn t d c' → c' = c)
    (hu : Uses e g k) (hv : ¬ Visible t c g k) : ¬ Legal t d e := by
  rintro ⟨c', h1, h2⟩
  have := hw c' h1
  subst this
  exact hv (h2 g k hu)

/-- An output of instance 2 is accepted for a variable inside instance 1. -/
theorem sibling_accepted : check tree ⟨1, .base⟩ (.sig 2 .output 0) = .ok () ∧
    ¬ Legal tree ⟨1, .base⟩ (.sig 2 .output 0) :=
  ⟨by decide, not_legal (c := 1) (by rintro c' (⟨h, _⟩ | ⟨_, h⟩); cases h; exact h.symm) (.sig 2 .output 0)
    (by simp [Visible, tree])⟩

/-- A variable inside instance 2 is accepted for an input of instance 1. -/
theorem input_hidden : check tree ⟨1, .input⟩ (.sig 2 .base 0) = .ok () ∧
    ¬ Legal tree ⟨1, .input⟩ (.sig 2 .base 0) :=
  ⟨by decide, not_legal (c := 0) (by
    rintro c' (⟨_, h⟩ | ⟨h, _⟩)
    · simpa [tree] using h.symm
    · exact absurd rfl h) (.sig 2 .base 0) (by simp [Visible])⟩

/-- In an expression with a variable of the module, a variable inside an instance is accepted. -/
theorem expression_hidden : check tree ⟨1, .base⟩ (.bin (.sig 3 .base 0) (.sig 1 .base 1)) = .ok () ∧
    ¬ Legal tree ⟨1, .base⟩ (.bin (.sig 3 .base 0) (.sig 1 .base 1)) :=
  ⟨by decide, not_legal (c := 1) (by rintro c' (⟨h, _⟩ | ⟨_, h⟩); cases h; exact h.symm) (.left (.sig 3 .base 0))
    (by simp [Visible])⟩

theorem not_ScopeClaim : ¬ ScopeClaim := by
  intro h
  exact sibling_accepted.2 ((h tree ⟨1, .base⟩ (.sig 2 .output 0) tree_proper ⟨1, Or.inr ⟨by simp, rfl⟩⟩).1 sibling_accepted.1)

/-- A legal assignment with a variable and ports of two instances. -/
example : Legal tree ⟨0, .base⟩ (.bin (.bin (.sig 1 .output 0) (.sig 2 .output 1)) (.slice (.sig 0 .base 2))) := by
  refine ⟨0, Or.inr ⟨by simp, rfl⟩, ?_⟩
  intro g k u
  cases u with
  | left u => cases u with
    | left u => cases u; exact Or.inr ⟨rfl, by simp⟩
    | right u => cases u; exact Or.inr ⟨rfl, by simp⟩
  | right u => cases u with | slice u => cases u; exact Or.inl rfl

/-- A variable of a child is refused. -/
example : check tree ⟨1, .base⟩ (.sig 3 .base 0) = .throw .var := by decide

/-- The hypotheses of `accepted_partial`. -/
example : Single (.slice (.sig 3 .output 0)) ∧ check tree ⟨1, .base⟩ (.slice (.sig 3 .output 0)) = .ok () ∧
    ∀ g k, Uses (.slice (.sig 3 .output 0)) g k → g ≠ 1 → ¬ Sibling tree g 1 := by
  refine ⟨.slice (.sig _ _ _), by decide, ?_⟩
  intro g k u _
  cases u with | slice u => cases u; simp [Sibling, tree]

/-- The hypotheses of `accepted_input_partial`. -/
example : Single (.sig 2 .output 0) ∧ tree 1 = some 0 ∧ check tree ⟨1, .input⟩ (.sig 2 .output 0) = .ok () :=
  ⟨.sig _ _ _, rfl, by decide⟩

end Kratos.Scope
