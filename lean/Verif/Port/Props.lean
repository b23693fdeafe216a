import Verif.Port.Model

/-! C40 wiring direction, C57 bundles, C65 typed port assignment, C68 assignable left sides. -/

namespace Kratos.Port

/-! ## C40: specification -/

/-- Seen from inside `self`: the operand is something `self` may drive.  Own inputs and instance
outputs are driven elsewhere.  A port of an interface instantiated in `self` (not received as a port)
counts as an instance port. -/
def Drivable (W : World) : Root → Prop
  | .other g => g = W.self
  | .port g d i =>
    (g = W.self ∧ i ≠ some false ∧ d ≠ .inp) ∨
    (g = W.self ∧ i = some false ∧ d ≠ .out) ∨
    (W.parent g = some W.self ∧ g ≠ W.self ∧ d ≠ .out)

/-- The operand can be read inside `self`: own variables and ports, and what an instance puts out. -/
def Readable (W : World) : Root → Prop
  | .other g => g = W.self
  | .port g d i =>
    (g = W.self ∧ i ≠ some false) ∨
    (g = W.self ∧ i = some false ∧ d ≠ .inp) ∨
    (W.parent g = some W.self ∧ g ≠ W.self ∧ d ≠ .inp)

/-- The full claim: an accepted `wire` drives something drivable from something readable, and the
order of the arguments does not matter (when a port is involved). -/
def WireClaim : Prop :=
  (∀ W a b l r, wire W a b = .ok (l, r) → Drivable W l ∧ Readable W r) ∧
  (∀ W a b, (∃ g d i, a = .port g d i) → ∀ l r, wire W a b = .ok (l, r) → wire W b a = .ok (l, r))

/-- Instances are what the table says: a generator has the instance name of a child exactly when it
is a child (the state kept by C42), and nothing instantiates itself. -/
structure World.Ok (W : World) : Prop where
  kids : ∀ g, W.hasChild g = true ↔ W.parent g = some W.self
  strict : W.parent W.self ≠ some W.self

/-- Plain ports and variables of `self`. -/
def Root.plain (W : World) : Root → Prop
  | .other g => g = W.self
  | .port _ _ i => i = none

def Root.directed : Root → Prop
  | .other _ => True
  | .port _ d _ => d ≠ .inout

/-- C40, the part that holds.  Without interface ports, with variables of the generator itself and
with faithful instance names, whatever the directions, the hierarchy and the argument order: what
`wire` drives can be driven and what it reads can be read. -/
theorem wire_sound_partial (W : World) (hW : W.Ok) (a b l r : Root) (ha : a.plain W) (hb : b.plain W)
    (h : wire W a b = .ok (l, r)) : Drivable W l ∧ Readable W r := by
  have hk := hW.kids
  have hs := hW.strict
  simp only [wire, Res.bind_eq_ok] at h
  obtain ⟨⟨x, y⟩, h1, h⟩ := h
  cases a with
  | other ga =>
    cases b with
    | other gb =>
      simp only [wireDirection, Res.ok.injEq, Prod.mk.injEq] at h1
      obtain ⟨rfl, rfl⟩ := h1
      simp only [if_true, Res.ok.injEq, Prod.mk.injEq] at h
      obtain ⟨rfl, rfl⟩ := h
      exact ⟨ha, hb⟩
    | port g d i =>
      simp only [Root.plain] at ha hb
      subst hb
      simp only [wireDirection, flipDir] at h1
      have hne : W.hasChild g = true → g ≠ W.self := by
        intro hc e; rw [hk, e] at hc; exact hs hc
      split at h1
      · rename_i hg
        simp only [Res.ok.injEq, Prod.mk.injEq] at h1
        obtain ⟨rfl, rfl⟩ := h1
        cases d <;> simp at h <;> obtain ⟨rfl, rfl⟩ := h <;>
          simp [Drivable, Readable, ha, hg]
      · split at h1
        · rename_i hg hc
          simp only [Res.ok.injEq, Prod.mk.injEq] at h1
          obtain ⟨rfl, rfl⟩ := h1
          have hp := (hk g).1 hc
          cases d <;> simp at h <;> obtain ⟨rfl, rfl⟩ := h <;>
            simp [Drivable, Readable, ha, hg, hp]
        · cases h1
  | port g1 d1 i1 =>
    cases b with
    | other gb =>
      simp only [Root.plain] at ha hb
      subst ha
      simp only [wireDirection, flipDir] at h1
      split at h1
      · rename_i hg
        simp only [Res.ok.injEq, Prod.mk.injEq] at h1
        obtain ⟨rfl, rfl⟩ := h1
        cases d1 <;> simp at h <;> obtain ⟨rfl, rfl⟩ := h <;>
          simp [Drivable, Readable, hb, hg]
      · split at h1
        · rename_i hg hc
          simp only [Res.ok.injEq, Prod.mk.injEq] at h1
          obtain ⟨rfl, rfl⟩ := h1
          have hp := (hk g1).1 hc
          cases d1 <;> simp at h <;> obtain ⟨rfl, rfl⟩ := h <;>
            simp [Drivable, Readable, hb, hg, hp]
        · cases h1
    | port g2 d2 i2 =>
      simp only [Root.plain] at ha hb
      subst ha; subst hb
      simp only [wireDirection, portDirection, ifaceWire, checkDirection] at h1
      split at h1
      · rename_i hg
        obtain ⟨rfl, rfl⟩ := hg
        cases d1 <;> cases d2 <;> simp at h1 <;> obtain ⟨rfl, rfl⟩ := h1 <;>
          simp at h <;> obtain ⟨rfl, rfl⟩ := h <;> simp [Drivable, Readable]
      · split at h1
        · rename_i hn hg
          obtain ⟨rfl, hc⟩ := hg
          have hp := (hk g2).1 hc
          have hne : g2 ≠ W.self := fun e => hs (e ▸ hp)
          cases d1 <;> cases d2 <;> simp at h1 <;> obtain ⟨rfl, rfl⟩ := h1 <;>
            simp at h <;> obtain ⟨rfl, rfl⟩ := h <;> simp [Drivable, Readable, hp, hne]
        · split at h1
          · rename_i _ _ hg
            obtain ⟨rfl, hc⟩ := hg
            have hp := (hk g1).1 hc
            have hne : g1 ≠ W.self := fun e => hs (e ▸ hp)
            cases d1 <;> cases d2 <;> simp at h1 <;> obtain ⟨rfl, rfl⟩ := h1 <;>
              simp at h <;> obtain ⟨rfl, rfl⟩ := h <;> simp [Drivable, Readable, hp, hne]
          · split at h1
            · rename_i _ _ _ hg
              obtain ⟨he, hp⟩ := hg
              have hp2 : W.parent g2 = some W.self := he ▸ hp
              have hne1 : g1 ≠ W.self := fun e => hs (e ▸ hp)
              have hne2 : g2 ≠ W.self := fun e => hs (e ▸ hp2)
              cases d1 <;> cases d2 <;> simp at h1 <;> obtain ⟨rfl, rfl⟩ := h1 <;>
                simp at h <;> obtain ⟨rfl, rfl⟩ := h <;> simp [Drivable, Readable, hp, hp2, hne1, hne2]
            · simp only [Res.ok.injEq, Prod.mk.injEq] at h1
              obtain ⟨rfl, rfl⟩ := h1
              simp at h

/-- Same restrictions, no `inout`: swapping the arguments gives the same statement, and rejection
does not depend on the order either. -/
theorem wire_order_partial (W : World) (hW : W.Ok) (a b : Root) (hp : ∃ g d i, a = .port g d i)
    (ha : a.plain W) (hb : b.plain W) (da : a.directed) (db : b.directed) (l r : Root) :
    wire W a b = .ok (l, r) ↔ wire W b a = .ok (l, r) := by
  obtain ⟨g1, d1, i1, rfl⟩ := hp
  have hk := hW.kids
  have hs := hW.strict
  simp only [Root.plain] at ha
  subst ha
  cases b with
  | other gb =>
    simp only [wire, wireDirection, flipDir]
    simp only [Root.directed] at da
    by_cases hg : g1 = W.self
    · cases d1 <;> simp [hg] at da ⊢
    · by_cases hc : W.hasChild g1 = true
      · cases d1 <;> simp [hg, hc] at da ⊢
      · simp [hg, hc]
  | port g2 d2 i2 =>
    simp only [Root.plain] at hb
    subst hb
    simp only [Root.directed] at da db
    have hc1 : W.hasChild g1 = true → g1 ≠ W.self := by
      intro hc e; rw [hk, e] at hc; exact hs hc
    have hc2 : W.hasChild g2 = true → g2 ≠ W.self := by
      intro hc e; rw [hk, e] at hc; exact hs hc
    simp only [wire, wireDirection, portDirection, ifaceWire, checkDirection]
    by_cases e1 : g1 = W.self
    · by_cases e2 : g2 = W.self
      · cases d1 <;> cases d2 <;> simp [e1, e2] at da db ⊢
      · by_cases h2 : W.hasChild g2 = true
        · have : W.self ≠ g2 := fun e => e2 e.symm
          cases d1 <;> cases d2 <;> simp [e1, e2, h2, this] at da db ⊢
        · have : W.self ≠ g2 := fun e => e2 e.symm
          have hpn : ¬ W.parent g1 = some W.self := by rw [e1]; exact hs
          have hpn2 : ¬ W.parent g2 = some W.self := fun h => h2 ((hk g2).2 h)
          have hpn1 : ¬ W.parent W.self = some W.self := hs
          simp [e1, e2, h2, this, hpn2, hpn1]
    · by_cases e2 : g2 = W.self
      · have : W.self ≠ g1 := fun e => e1 e.symm
        by_cases h1 : W.hasChild g1 = true
        · cases d1 <;> cases d2 <;> simp [e1, e2, h1, this] at da db ⊢
        · have hpn1 : ¬ W.parent g1 = some W.self := fun h => h1 ((hk g1).2 h)
          simp [e1, e2, h1, this, hpn1, hs]
      · by_cases hp : W.parent g1 = W.parent g2 ∧ W.parent g1 = some W.self
        · have hp' : W.parent g2 = W.parent g1 ∧ W.parent g2 = some W.self :=
            ⟨hp.1.symm, hp.1 ▸ hp.2⟩
          have q1 := hp.2
          have q2 := hp'.2
          cases d1 <;> cases d2 <;> simp [e1, e2, q1, q2] at da db ⊢
        · have hp' : ¬ (W.parent g2 = W.parent g1 ∧ W.parent g2 = some W.self) :=
            fun h => hp ⟨h.1.symm, h.1 ▸ h.2⟩
          simp [e1, e2, hp, hp']

/-- Two operands that are both only readable (own input with own input, two instance outputs, own
input with an instance output) or both only drivable from outside are rejected in any order. -/
theorem wire_rejects (W : World) (hW : W.Ok) (a b : Root) (ha : a.plain W) (hb : b.plain W)
    (h : ¬ (Drivable W a ∧ Readable W b) ∧ ¬ (Drivable W b ∧ Readable W a)) :
    ∀ l r, wire W a b ≠ .ok (l, r) := by
  intro l r hw
  have hs := wire_sound_partial W hW a b l r ha hb hw
  simp only [wire, Res.bind_eq_ok] at hw
  obtain ⟨x, _, hw⟩ := hw
  split at hw
  · split at hw <;> simp at hw <;> obtain ⟨rfl, rfl⟩ := hw
    · exact h.1 hs
    · exact h.2 hs
  · cases hw

/-! ### What fails -/

/-- Generator 0 with instance 1 named `a`; generator 2, elsewhere in the design, is also named `a`. -/
def W0 : World where
  self := 0
  parent := fun g => if g = 1 then some 0 else if g = 2 then some 3 else none
  inst := fun g => if g = 1 ∨ g = 2 then ['a'] else ['m']
  kids := [['a']]

/-- The instance test compares names only: a port of a foreign instance is wired. -/
theorem foreign_instance_wired :
    wire W0 (.other 0) (.port 2 .inp none) = .ok (.port 2 .inp none, .other 0) ∧
    ¬ Drivable W0 (.port 2 .inp none) := by
  refine ⟨by decide, ?_⟩
  simp [Drivable, W0]

/-- Two variables are wired whatever generators they belong to. -/
theorem foreign_variables_wired : wire W0 (.other 2) (.other 3) = .ok (.other 2, .other 3) ∧
    ¬ Drivable W0 (.other 2) := by
  refine ⟨by decide, by simp [Drivable, W0]⟩

/-- A port of an interface instantiated in the generator, given as the second argument, is treated
as if it were the first: the generator's own input ends up driven. -/
theorem interface_second_drives_input :
    wire W0 (.port 0 .inp none) (.port 0 .inp (some false)) =
      .ok (.port 0 .inp none, .port 0 .inp (some false)) ∧
    ¬ Drivable W0 (.port 0 .inp none) := by
  refine ⟨by decide, by simp [Drivable, W0]⟩

/-- With an inout port the order of the arguments matters. -/
theorem inout_order_matters :
    wire W0 (.port 0 .inout none) (.port 0 .inp none) = .ok (.port 0 .inout none, .port 0 .inp none) ∧
    wire W0 (.port 0 .inp none) (.port 0 .inout none) = .throw .var := by decide

theorem not_WireClaim : ¬ WireClaim := by
  intro h
  exact foreign_variables_wired.2 (h.1 _ _ _ _ _ foreign_variables_wired.1).1

theorem not_WireClaim_order : ¬ ∀ W a b, (∃ g d i, a = Root.port g d i) → ∀ l r,
    wire W a b = .ok (l, r) → wire W b a = .ok (l, r) := by
  intro h
  have := h W0 _ _ ⟨0, .inout, none, rfl⟩ _ _ inout_order_matters.1
  rw [inout_order_matters.2] at this
  cases this

/-- A world meeting the hypotheses of the partial theorems: 0 with instances 1 and 2. -/
def W1 : World where
  self := 0
  parent := fun g => if g = 1 ∨ g = 2 then some 0 else none
  inst := fun g => if g = 1 then ['a'] else if g = 2 then ['b'] else ['m']
  kids := [['a'], ['b']]

theorem W1_ok : W1.Ok := by
  refine ⟨?_, by decide⟩
  intro g
  by_cases h1 : g = 1
  · subst h1; decide
  · by_cases h2 : g = 2
    · subst h2; decide
    · simp [World.hasChild, W1, h1, h2]

example : wire W1 (.port 1 .inp none) (.port 2 .out none) = .ok (.port 1 .inp none, .port 2 .out none) := by decide
example : wire W1 (.port 2 .out none) (.port 1 .inp none) = .ok (.port 1 .inp none, .port 2 .out none) := by decide
example : wire W1 (.port 0 .inp none) (.port 1 .inp none) = .ok (.port 1 .inp none, .port 0 .inp none) := by decide
example : wire W1 (.port 0 .inp none) (.port 1 .out none) = .throw .var := by decide

/-! ## C65: typed assignment -/

/-- The cast that goes with a port type. -/
def CastTo : PType → Cast → Prop
  | .clock, .clock => True
  | .asyncReset, .asyncReset => True
  | .reset, .reset => True
  | .clockEnable, .clockEnable => True
  | _, _ => False

/-- The full claim: a clock, reset or enable port only takes constants, ports of the same type and
explicit casts to the type. -/
def TypingClaim : Prop :=
  ∀ t a r, t ≠ .data → assignTyped t a r = .ok () →
    r = .const ∨ r = .port t ∨ ∃ c, r = .cast c ∧ CastTo t c

/-- Any port is accepted, whatever its type. -/
theorem data_port_drives_clock : assignTyped .clock .whole (.port .data) = .ok () := by decide

/-- Assigning to a slice of the port skips the check. -/
theorem slice_skips_typing : assignTyped .clock .slice .other = .ok () := by decide

theorem not_TypingClaim : ¬ TypingClaim := by
  intro h
  rcases h .clock .whole (.port .data) (by decide) data_port_drives_clock with h | h | ⟨c, h, _⟩
  · cases h
  · cases h
  · cases h

/-- C65, the part that holds: for a right side that is not a port, assigning to the whole port is
accepted exactly for constants and the fitting cast; data ports accept everything. -/
theorem typing_partial (t : PType) (a : Access) (ha : a ≠ .slice) (r : Rhs) (hr : ∀ p, r ≠ .port p) :
    assignTyped t a r = .ok () ↔ t = .data ∨ r = .const ∨ ∃ c, r = .cast c ∧ CastTo t c := by
  have hpa : assignTyped t a r = portAssign t r := by cases a <;> simp_all [assignTyped]
  rw [hpa]
  cases r with
  | port p => exact absurd rfl (hr p)
  | const => simp [portAssign]
  | cast c => cases t <;> cases c <;> simp [portAssign, castFor, CastTo]
  | other => cases t <;> simp [portAssign]

example : assignTyped .clock .whole (.cast .clock) = .ok () ∧
    assignTyped .clock .whole (.cast .reset) = .throw .stmt ∧
    assignTyped .reset .whole .other = .throw .stmt := by decide

/-! ## C68: what may stand on the left -/

/-- SystemVerilog variable lvalues: a variable or port, a part of one, or a concatenation of
lvalues.  (A cast on the left is dropped: the statement assigns the variable below it.) -/
inductive Lvalue : V → Prop
  | base : Lvalue .base
  | port : Lvalue .port
  | iter : Lvalue .iter
  | slice {p} : Lvalue p → Lvalue (.slice p)
  | cast {p} : Lvalue p → Lvalue (.cast p)
  | concat {l r} : Lvalue l → Lvalue r → Lvalue (.expr true l r)

/-- The full claim: assignments are accepted exactly to lvalues. -/
def LvalueClaim : Prop := ∀ v : V, v.assignable = true ↔ Lvalue v

theorem parameter_assignable : V.param.assignable = true ∧ ¬ Lvalue .param :=
  ⟨rfl, fun h => by cases h⟩

theorem constant_slice_assignable : (V.slice .const).assignable = true ∧ ¬ Lvalue (.slice .const) :=
  ⟨rfl, fun h => by cases h with | slice h => cases h⟩

theorem sum_slice_assignable : (V.slice (.expr false .base .base)).assignable = true ∧
    ¬ Lvalue (.slice (.expr false .base .base)) :=
  ⟨rfl, fun h => by cases h with | slice h => cases h⟩

theorem constant_in_concat_assignable : (V.expr true .base .const).assignable = true ∧
    ¬ Lvalue (.expr true .base .const) :=
  ⟨rfl, fun h => by cases h with | concat _ h => cases h⟩

theorem not_LvalueClaim : ¬ LvalueClaim := by
  intro h
  exact parameter_assignable.2 ((h _).1 parameter_assignable.1)

/-- Every lvalue is accepted. -/
theorem lvalue_accepted {v : V} (h : Lvalue v) : v.assignable = true := by
  have hac : ∀ v, Lvalue v → v.allConcat = true := by
    intro v h
    induction h with
    | base => rfl
    | port => rfl
    | iter => rfl
    | slice _ ih => exact ih
    | cast _ ih => exact ih
    | concat _ _ ih1 ih2 => simp [V.allConcat, ih1, ih2]
  induction h with
  | base => rfl
  | port => rfl
  | iter => rfl
  | slice _ _ => rfl
  | cast _ ih => exact ih
  | concat h1 h2 _ _ => exact hac _ (.concat h1 h2)

/-- No constant, no parameter anywhere, and slices are taken of variables only. -/
def V.varsOnly : V → Bool
  | .const => false
  | .param => false
  | .slice p => match p with
    | .expr .. => false
    | .cast _ => false
    | p => p.varsOnly
  | .cast p => p.varsOnly
  | .expr _ l r => l.varsOnly && r.varsOnly
  | _ => true

theorem varsOnly_slice (p : V) : (V.slice p).varsOnly = true → p.allConcat = true := by
  induction p with
  | slice q ih => intro h; exact ih (by simpa [V.varsOnly] using h)
  | cast q _ => intro h; simp [V.varsOnly] at h
  | expr c l r _ _ => intro h; simp [V.varsOnly] at h
  | _ => intro _; rfl

/-- C68, the part that holds: among terms built from variables and ports, with slices of variables
only, exactly the lvalues are accepted; constants and all other operators are refused. -/
theorem lvalue_partial (v : V) (hv : v.varsOnly = true) : v.assignable = true ↔ Lvalue v := by
  refine ⟨?_, lvalue_accepted⟩
  have hs : ∀ v : V, v.varsOnly = true → v.allConcat = true → Lvalue v := by
    intro v
    induction v with
    | base => intros; exact .base
    | port => intros; exact .port
    | iter => intros; exact .iter
    | const => intro h; simp [V.varsOnly] at h
    | param => intro h; simp [V.varsOnly] at h
    | slice p ih =>
      intro h1 h2
      refine .slice (ih ?_ h2)
      cases p <;> simp_all [V.varsOnly]
    | cast p ih => intro h1 h2; exact .cast (ih h1 h2)
    | expr c l r ih1 ih2 =>
      intro h1 h2
      simp only [V.varsOnly, Bool.and_eq_true] at h1
      simp only [V.allConcat, Bool.and_eq_true] at h2
      obtain ⟨⟨rfl, h2⟩, h3⟩ := h2
      exact .concat (ih1 h1.1 h2) (ih2 h1.2 h3)
  intro ha
  induction v with
  | base => exact .base
  | port => exact .port
  | iter => exact .iter
  | const => simp [V.varsOnly] at hv
  | param => simp [V.varsOnly] at hv
  | slice p _ =>
    exact hs _ hv (varsOnly_slice p hv)
  | cast p ih => exact .cast (ih hv ha)
  | expr c l r _ _ => exact hs _ hv ha

/-- A term is a constant, possibly cast. -/
inductive ConstTerm : V → Prop
  | const : ConstTerm .const
  | cast {p} : ConstTerm p → ConstTerm (.cast p)

/-- A constant, however often cast, is refused; and so is any operator other than concatenation. -/
theorem constants_refused {v : V} (h : ConstTerm v) : v.assignable = false := by
  induction h with
  | const => rfl
  | cast _ ih => exact ih

theorem operators_refused (l r : V) : (V.expr false l r).assignable = false := rfl

example : (V.expr true .base (.slice .port)).assignable = true ∧ (V.expr false .base .port).assignable = false ∧
    V.const.assignable = false := ⟨rfl, rfl, rfl⟩

/-! ## C57: bundles -/

/-- Bundles reachable by declaring members (`add_definition`), starting empty. -/
inductive Built (nm : Gen.Name) (P : PortDef → Prop) : Bundle → Prop
  | empty : Built nm P ⟨nm, [], []⟩
  | add {b n p} : Built nm P b → P p → Built nm P (b.add n p).1

def opposite : Dir → Dir
  | .inp => .out
  | .out => .inp
  | .inout => .inout

/-- The full claim: after any sequence of declarations (accepted or refused) the flipped bundle has
the same name and members with opposite directions, and flipping twice gives the bundle back. -/
def FlipClaim : Prop :=
  ∀ nm b, Built nm (fun _ => True) b →
    b.flip.name = nm ∧ b.flip.flip = b ∧
    ∀ n, b.flip.defs.find n = (b.defs.find n).map fun p => { p with dir := opposite p.dir }

/-- A refused inout member stays in the bundle but not in the flipped one. -/
theorem refused_inout_kept :
    let b := (Bundle.add ⟨['b'], [], []⟩ ['x'] ⟨1, 1, false, .inout, .data⟩)
    b.2 = .throw .user ∧ b.1.defs.has ['x'] = true ∧ b.1.flip.defs.has ['x'] = false := by decide

/-- The flipped bundle has no name. -/
theorem flip_forgets_name : (Bundle.flip ⟨['b'], [], []⟩).name = [] := rfl

theorem not_FlipClaim : ¬ FlipClaim := by
  intro h
  have := (h ['b'] _ .empty).1
  rw [flip_forgets_name] at this
  cases this

/-- C57, the part that holds: for every sequence of in/out declarations (refused duplicates
included) every member is flipped, nothing else changes, and flipping twice restores the members. -/
theorem flip_partial (nm : Gen.Name) (b : Bundle) (h : Built nm (fun p => p.dir ≠ .inout) b) :
    (∀ n, b.flip.defs.find n = (b.defs.find n).map fun p => { p with dir := opposite p.dir }) ∧
    (∀ n p, b.defs.find n = some p → p.dir ≠ .inout) ∧
    b.flip.flip.defs = b.defs ∧ b.flip.flip.flip.defs = b.flip.defs := by
  have key : (∀ n, b.flipped.find n = (b.defs.find n).map fun p => { p with dir := opposite p.dir }) ∧
      (∀ n p, b.defs.find n = some p → p.dir ≠ .inout) := by
    induction h with
    | empty => exact ⟨by simp [Map.find], by simp [Map.find]⟩
    | @add b n p hb hp ih =>
      obtain ⟨ih1, ih2⟩ := ih
      unfold Bundle.add
      split
      · exact ⟨ih1, ih2⟩
      · rename_i hn
        have hnone : b.defs.find n = none := by
          simpa [Map.has] using hn
        have hfn : b.flipped.find n = none := by rw [ih1, hnone]; rfl
        have h2 : ∀ k q, (b.defs.emplace n p).find k = some q → q.dir ≠ .inout := by
          intro k q hq
          rw [Map.find_emplace] at hq
          split at hq
          · rw [hnone] at hq; simp at hq; subst hq; exact hp
          · exact ih2 k q hq
        cases hd : p.dir with
        | inout => exact absurd hd hp
        | inp =>
          refine ⟨?_, h2⟩
          intro k
          simp only [Map.find_emplace, hnone, hfn]
          by_cases e : k = n
          · simp [e, opposite, hd]
          · simp [e, ih1]
        | out =>
          refine ⟨?_, h2⟩
          intro k
          simp only [Map.find_emplace, hnone, hfn]
          by_cases e : k = n
          · simp [e, opposite, hd]
          · simp [e, ih1]
  exact ⟨key.1, key.2, rfl, rfl⟩

/-- Duplicate members are refused without a change. -/
theorem duplicate_refused (b : Bundle) (n : Gen.Name) (p : PortDef) (h : b.defs.has n = true) :
    b.add n p = (b, .throw .user) := by
  simp [Bundle.add, h]

/-- A bundle with an input and an output. -/
def demoBundle : Bundle :=
  ((Bundle.add (Bundle.add ⟨['b'], [], []⟩ ['x'] ⟨8, 1, false, .inp, .data⟩).1 ['y'] ⟨1, 1, true, .out, .clock⟩)).1

example : Built ['b'] (fun p => p.dir ≠ .inout) demoBundle :=
  .add (.add .empty (by decide)) (by decide)
example : demoBundle.flip.defs.find ['x'] = some ⟨8, 1, false, .out, .data⟩ := by decide

/-! ### Assigning one bundle to another -/

theorem bundleLoop_ok (W : World) (o : Ref) : ∀ (l : Ref) acc out, bundleLoop W o l acc = (out, .ok ()) →
    ∃ ss, out = acc ++ ss ∧ ss.length = l.length ∧
      ∀ i (h : i < l.length), ∃ q, o.find l[i].1 = some q ∧ (ss[i]?).map Res.ok = some (wire W l[i].2 q) := by
  intro l
  induction l with
  | nil => intro acc out h; simp [bundleLoop] at h; exact ⟨[], by simp [h]⟩
  | cons a rest ih =>
    obtain ⟨n, p⟩ := a
    intro acc out h
    unfold bundleLoop at h
    split at h
    · simp at h
    · rename_i q hq
      split at h
      · rename_i s hs
        obtain ⟨ss, he, hl, hi⟩ := ih _ _ h
        refine ⟨s :: ss, by simp [he], by simp [hl], ?_⟩
        intro i hlt
        cases i with
        | zero => exact ⟨q, hq, by simp [hs]⟩
        | succ i =>
          obtain ⟨q', h1, h2⟩ := hi i (by simpa using hlt)
          exact ⟨q', by simpa using h1, by simpa using h2⟩
      · simp at h
      · simp at h

/-- Bundle assignment, when it succeeds: both bundles have exactly the same members, and there is one
statement per member, the one `wire` makes of the two ports of that name. -/
theorem bundle_assign (W : World) (a b : Ref) (ha : (a.map Prod.fst).Nodup) (hb : (b.map Prod.fst).Nodup)
    (out : List (Root × Root)) (h : bundleAssign W a b = (out, .ok ())) :
    (∀ n, n ∈ a.map Prod.fst ↔ n ∈ b.map Prod.fst) ∧ out.length = a.length ∧
    ∀ i (h : i < a.length), ∃ q, b.find a[i].1 = some q ∧ (out[i]?).map Res.ok = some (wire W a[i].2 q) := by
  unfold bundleAssign at h
  split at h
  · rename_i hlen
    obtain ⟨ss, he, hl, hi⟩ := bundleLoop_ok W b a [] out h
    simp only [List.nil_append] at he
    subst he
    have sub : ∀ n ∈ a.map Prod.fst, n ∈ b.map Prod.fst := by
      intro n hn
      obtain ⟨x, hx, rfl⟩ := List.mem_map.1 hn
      obtain ⟨i, hi', rfl⟩ := List.getElem_of_mem hx
      obtain ⟨q, hq, _⟩ := hi i hi'
      exact List.mem_map.2 ⟨_, Map.mem_of_find hq, rfl⟩
    refine ⟨fun n => ⟨sub n, fun hn => ?_⟩, hl, hi⟩
    apply Classical.byContradiction
    intro hna
    have := nodup_subset_length (l := n :: a.map Prod.fst) (m := b.map Prod.fst)
      (List.nodup_cons.2 ⟨hna, ha⟩) (by
        intro x hx
        rcases List.mem_cons.1 hx with rfl | hx
        · exact hn
        · exact sub x hx)
    simp at this
    omega
  · simp at h

/-- A failing assignment is not undone: the members wired before the failure stay wired. -/
theorem bundle_assign_not_atomic :
    bundleAssign W1 [(['x'], .port 1 .inp none), (['y'], .port 1 .inp none)]
        [(['x'], .port 2 .out none), (['y'], .port 2 .inp none)] =
      ([(.port 1 .inp none, .port 2 .out none)], .throw .var) := by decide

example : bundleAssign W1 [(['x'], .port 1 .inp none), (['y'], .port 1 .out none)]
        [(['x'], .port 2 .out none), (['y'], .port 2 .inp none)] =
      ([(.port 1 .inp none, .port 2 .out none), (.port 2 .inp none, .port 1 .out none)], .ok ()) := by decide

end Kratos.Port
