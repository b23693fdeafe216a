import Verif.Check.Content

/-!
# C72, C73: the polarity of resets and sensitivity lists

`check_active_high` (src/analysis.cc:277-394), `check_always_sensitivity` (src/analysis.cc:1461-1501) and
`remove_async_reset` (src/formal.cc:7-53).
-/

namespace Kratos.Content

/-! ## The model -/

/-- `Port::active_high()` and `Port::port_type()` of the ports of the design. -/
structure Ports where
  role : Nat → Role
  high : Nat → Option Bool

/-- `reset_map_` (src/analysis.cc:382). -/
abbrev Seen := Nat → Option Bool

/-- The port an `if` is on and the polarity it expects (src/analysis.cc:288-290, 308-313). -/
def predTest : X → Option (Nat × Bool)
  | .port p => some (p, true)
  | .un .not (.port p) => some (p, false)
  | .un .invert (.port p) => some (p, false)
  | _ => none

/-- `ActiveVisitor::visit(IfStmt*)` for a condition on port `p` expecting `pos` (src/analysis.cc:291-307, 314-333). -/
def onTest (P : Ports) (m : Seen) (p : Nat) (pos : Bool) : Res Unit :=
  match P.role p with
  | .asyncReset =>
    match m p with
    | none => .throw .var
    | some h => if h = pos then .ok () else .throw .var
  | .reset => if (m p).isSome then .throw .var else .ok ()
  | _ => .ok ()

/-- `ActiveVisitor::visit(SequentialStmtBlock*)` for one event control (src/analysis.cc:343-376). -/
def onSens (P : Ports) (m : Seen) (p : Nat) (pos : Bool) : Res Seen :=
  match P.role p with
  | .asyncReset =>
    if (P.high p).isSome && P.high p != some pos then .throw .var
    else
      match m p with
      | some h => if h = pos then .ok m else .throw .var
      | none => .ok fun q => if q = p then some pos else m q
  | .reset => .throw .var
  | _ => .ok m

mutual
/-- `visit_root_s` over a statement (src/ir.cc:42-52): only conditionals do anything. -/
def Nd.active (P : Ports) (m : Seen) : Nd → Res Unit
  | .ite c t e =>
    ((match predTest c with | some (p, pos) => onTest P m p pos | none => .ok ())).bind fun _ =>
      (Nds.active P m t).bind fun _ => Nds.active P m e
  | .switch _ bs => Bodies.active P m bs
  | .loop b => Nds.active P m b
  | _ => .ok ()
def Nds.active (P : Ports) (m : Seen) : Nds → Res Unit
  | .nil => .ok ()
  | .cons s ss => (Nd.active P m s).bind fun _ => Nds.active P m ss
def Bodies.active (P : Ports) (m : Seen) : Bodies → Res Unit
  | .nil => .ok ()
  | .cons b bs => (Nds.active P m b).bind fun _ => Bodies.active P m bs
end

/-- The event controls of a block, in turn (src/analysis.cc:340-378); only ports count. -/
def sensAll (P : Ports) (m : Seen) : List Ev → Res Seen
  | [] => .ok m
  | ⟨pos, .port p⟩ :: es => (onSens P m p pos).bind fun m => sensAll P m es
  | _ :: es => sensAll P m es

/-- A top-level statement or block. -/
def Item.active (P : Ports) (m : Seen) : Item → Res Seen
  | .stmt s => (s.active P m).bind fun _ => .ok m
  | .block (.seq evs) b => (sensAll P m evs).bind fun m => (b.active P m).bind fun _ => .ok m
  | .block _ b => (b.active P m).bind fun _ => .ok m

/-- All top-level statements. -/
def itemsActive (P : Ports) (m : Seen) : List Item → Res Seen
  | [] => .ok m
  | i :: is => (i.active P m).bind fun m => itemsActive P m is

mutual
/-- A generator: nothing of an external one is visited (src/generator.hh:176-178, src/generator.cc:1074-1080). -/
def Gen.active (P : Ports) (m : Seen) : Gen → Res Seen
  | .mk ext items kids => if ext then .ok m else (itemsActive P m items).bind fun m => Gens.active P m kids
def Gens.active (P : Ports) (m : Seen) : Gens → Res Seen
  | .nil => .ok m
  | .cons g gs => (Gen.active P m g).bind fun m => Gens.active P m gs
end

/-- `check_active_high` (src/analysis.cc:391-394). -/
def checkActive (P : Ports) (g : Gen) : Res Unit := (g.active P fun _ => none).bind fun _ => .ok ()

/-- The test on an event control of `SensitivityVisitor` (src/analysis.cc:1464-1494). -/
def Ev.legal (P : Ports) (e : Ev) : Bool :=
  match e.sig with
  | .port p => P.role p == .clock || P.role p == .asyncReset
  | .cast t _ => t == .clock || t == .asyncReset
  | .var _ => false

/-- `SensitivityVisitor` on a top-level statement. -/
def Item.sensitivity (P : Ports) : Item → Res Unit
  | .block (.seq evs) _ => if evs.all (Ev.legal P) then .ok () else .throw .stmt
  | _ => .ok ()

def itemsSensitivity (P : Ports) : List Item → Res Unit
  | [] => .ok ()
  | i :: is => (i.sensitivity P).bind fun _ => itemsSensitivity P is

mutual
def Gen.sensitivity (P : Ports) : Gen → Res Unit
  | .mk ext items kids => if ext then .ok () else (itemsSensitivity P items).bind fun _ => Gens.sensitivity P kids
def Gens.sensitivity (P : Ports) : Gens → Res Unit
  | .nil => .ok ()
  | .cons g gs => (Gen.sensitivity P g).bind fun _ => Gens.sensitivity P gs
end

/-- `check_always_sensitivity` (src/analysis.cc:1498-1501). -/
def checkSensitivity (P : Ports) (g : Gen) : Res Unit := g.sensitivity P

/-- The test of src/formal.cc:20-38. -/
def Ev.isAsync (P : Ports) (e : Ev) : Bool :=
  match e.sig with
  | .port p => P.role p == .asyncReset
  | .cast t _ => t == .asyncReset
  | .var _ => false

/-- One top-level statement (src/formal.cc:12-42). -/
def Item.removeAsync (P : Ports) : Item → Item
  | .block (.seq evs) b => .block (.seq (evs.filter fun e => !e.isAsync P)) b
  | i => i

/-- `rst_ports` of one top-level statement (src/formal.cc:27). -/
def Item.resets (P : Ports) : Item → List Nat
  | .block (.seq evs) _ => evs.filterMap fun e =>
      match e.sig with
      | .port p => if P.role p = .asyncReset then some p else none
      | _ => none
  | _ => []

mutual
/-- `AsyncVisitor` over all generators (src/formal.cc:50-53): external ones too (`accept_generator`, src/generator.hh:172). -/
def Gen.removeAsync (P : Ports) : Gen → Gen
  | .mk ext items kids => .mk ext (items.map (Item.removeAsync P)) (Gens.removeAsync P kids)
def Gens.removeAsync (P : Ports) : Gens → Gens
  | .nil => .nil
  | .cons g gs => .cons (Gen.removeAsync P g) (Gens.removeAsync P gs)
end

mutual
def Gen.resets (P : Ports) : Gen → List Nat
  | .mk _ items kids => items.flatMap (Item.resets P) ++ Gens.resets P kids
def Gens.resets (P : Ports) : Gens → List Nat
  | .nil => []
  | .cons g gs => Gen.resets P g ++ Gens.resets P gs
end

/-- The new port types (src/formal.cc:44-46). -/
def newPorts (P : Ports) (g : Gen) : Ports :=
  { P with role := fun p => if p ∈ g.resets P then .reset else P.role p }

/-! ## Specification -/

/-- The condition asks whether (one-bit) port `p` is `b`: it is the port itself, or its negation, logical or bitwise. -/
inductive Asks (p : Nat) : Bool → X → Prop
  | plain : Asks p true (.port p)
  | not : Asks p false (.un .not (.port p))
  | invert : Asks p false (.un .invert (.port p))

mutual
/-- An `if` somewhere in the statement asks for port `p` being `b`. -/
inductive Nd.Tests (p : Nat) (b : Bool) : Nd → Prop
  | here {c t e} : Asks p b c → Nd.Tests p b (.ite c t e)
  | then_ {c t e} : Nds.Tests p b t → Nd.Tests p b (.ite c t e)
  | else_ {c t e} : Nds.Tests p b e → Nd.Tests p b (.ite c t e)
  | switch {x bs} : Bodies.Tests p b bs → Nd.Tests p b (.switch x bs)
  | loop {ss} : Nds.Tests p b ss → Nd.Tests p b (.loop ss)
inductive Nds.Tests (p : Nat) (b : Bool) : Nds → Prop
  | head {s ss} : Nd.Tests p b s → Nds.Tests p b (.cons s ss)
  | tail {s ss} : Nds.Tests p b ss → Nds.Tests p b (.cons s ss)
inductive Bodies.Tests (p : Nat) (b : Bool) : Bodies → Prop
  | head {s ss} : Nds.Tests p b s → Bodies.Tests p b (.cons s ss)
  | tail {s ss} : Bodies.Tests p b ss → Bodies.Tests p b (.cons s ss)
end

mutual
/-- `i` is a top-level statement or block of a module below `g` that is not external. -/
inductive Gen.Has (i : Item) : Gen → Prop
  | here {items kids} : i ∈ items → Gen.Has i (.mk false items kids)
  | inside {items kids} : Gens.Has i kids → Gen.Has i (.mk false items kids)
inductive Gens.Has (i : Item) : Gens → Prop
  | head {g gs} : Gen.Has i g → Gens.Has i (.cons g gs)
  | tail {g gs} : Gens.Has i gs → Gens.Has i (.cons g gs)
end

/-- Port `p` with edge `b` is in the sensitivity list of the block. -/
def Item.Sens (p : Nat) (b : Bool) : Item → Prop
  | .block (.seq evs) _ => ⟨b, .port p⟩ ∈ evs
  | _ => False

def Item.Tests (p : Nat) (b : Bool) : Item → Prop
  | .stmt s => s.Tests p b
  | .block _ ss => ss.Tests p b

/-- Some always_ff block of the design is triggered by edge `b` of `p`. -/
def Gen.Sens (p : Nat) (b : Bool) (g : Gen) : Prop := ∃ i, g.Has i ∧ i.Sens p b

/-- Some `if` of the design asks whether `p` is `b`. -/
def Gen.Tests (p : Nat) (b : Bool) (g : Gen) : Prop := ∃ i, g.Has i ∧ i.Tests p b

/-! ### The full claims -/

/-- An asynchronous reset tested in an always_ff block is in the sensitivity list of that block. -/
def OwnListClaim : Prop := ∀ P g, checkActive P g = .ok () → ∀ evs b p pol, g.Has (.block (.seq evs) b) → b.Tests p pol →
  P.role p = .asyncReset → ⟨pol, .port p⟩ ∈ evs

/-- Resets that are wired together are used with one polarity (`wires`: pairs of connected ports). -/
def WiresClaim : Prop := ∀ P g, checkActive P g = .ok () → ∀ (wires : List (Nat × Nat)) p q b c, (p, q) ∈ wires →
  P.role p = .asyncReset → P.role q = .asyncReset → g.Sens p b → g.Sens q c → b = c

/-- A reset is tested with the polarity it is declared with. -/
def DeclaredClaim : Prop := ∀ P g, checkActive P g = .ok () → ∀ p b d, (P.role p = .asyncReset ∨ P.role p = .reset) →
  P.high p = some d → g.Tests p b → b = d

/-- The verdict does not depend on the order in which blocks were added. -/
def OrderClaim : Prop := ∀ P ext items items' kids, items.Perm items' → checkActive P (.mk ext items kids) = .ok () →
  checkActive P (.mk ext items' kids) = .ok ()

/-! ## Proofs: the visit as a list of uses -/

/-- One thing the visitor reacts to. -/
inductive Use where
  | sens (p : Nat) (pos : Bool)
  | test (p : Nat) (pos : Bool)
  deriving DecidableEq

mutual
def Nd.uses : Nd → List Use
  | .ite c t e => (match predTest c with | some (p, pos) => [Use.test p pos] | none => []) ++ (Nds.uses t ++ Nds.uses e)
  | .switch _ bs => Bodies.uses bs
  | .loop b => Nds.uses b
  | _ => []
def Nds.uses : Nds → List Use
  | .nil => []
  | .cons s ss => Nd.uses s ++ Nds.uses ss
def Bodies.uses : Bodies → List Use
  | .nil => []
  | .cons b bs => Nds.uses b ++ Bodies.uses bs
end

def Ev.use : Ev → Option Use
  | ⟨pos, .port p⟩ => some (.sens p pos)
  | _ => none

def Item.uses : Item → List Use
  | .stmt s => s.uses
  | .block (.seq evs) b => evs.filterMap Ev.use ++ b.uses
  | .block _ b => b.uses

mutual
def Gen.uses : Gen → List Use
  | .mk ext items kids => if ext then [] else items.flatMap Item.uses ++ Gens.uses kids
def Gens.uses : Gens → List Use
  | .nil => []
  | .cons g gs => Gen.uses g ++ Gens.uses gs
end

def run (P : Ports) (m : Seen) : List Use → Res Seen
  | [] => .ok m
  | .sens p pos :: us => (onSens P m p pos).bind fun m => run P m us
  | .test p pos :: us => (onTest P m p pos).bind fun _ => run P m us

theorem run_append (P : Ports) : ∀ (m : Seen) (us vs : List Use), run P m (us ++ vs) = (run P m us).bind fun m => run P m vs
  | m, [], vs => rfl
  | m, .sens p pos :: us, vs => by
    simp only [List.cons_append, run]
    cases onSens P m p pos with
    | ok m' => exact run_append P m' us vs
    | throw e => rfl
    | ub => rfl
  | m, .test p pos :: us, vs => by
    simp only [List.cons_append, run]
    cases onTest P m p pos with
    | ok m' => exact run_append P m us vs
    | throw e => rfl
    | ub => rfl

/-- The outcome of a part of the visit that does not change the map. -/
def keep (m : Seen) (r : Res Unit) : Res Seen := r.bind fun _ => .ok m

theorem keep_bind (m : Seen) (r s : Res Unit) : (keep m r).bind (fun m' => keep m' s) = keep m (r.bind fun _ => s) := by
  cases r <;> rfl

mutual
theorem nd_run (P : Ports) (m : Seen) : ∀ s : Nd, run P m s.uses = keep m (s.active P m)
  | .ite c t e => by
    have ht := nds_run P m t
    have he := nds_run P m e
    simp only [Nd.uses, Nd.active, run_append]
    cases hc : predTest c with
    | none =>
      simp only [run, Res.ok_bind, ht]
      cases Nds.active P m t with
      | ok u => simp only [keep, Res.ok_bind, he]
      | throw e => rfl
      | ub => rfl
    | some x =>
      obtain ⟨p, pos⟩ := x
      simp only [run]
      cases onTest P m p pos with
      | ok u =>
        simp only [Res.ok_bind, ht]
        cases Nds.active P m t with
        | ok u => simp only [keep, Res.ok_bind, he]
        | throw e => rfl
        | ub => rfl
      | throw e => rfl
      | ub => rfl
  | .switch _ bs => by simp only [Nd.uses, Nd.active]; exact bodies_run P m bs
  | .loop b => by simp only [Nd.uses, Nd.active]; exact nds_run P m b
  | .assign _ _ _ => rfl
  | .ret _ => rfl
  | .callS _ _ => rfl
  | .event => rfl
  | .delay => rfl
  | .assert _ => rfl
  | .other => rfl
theorem nds_run (P : Ports) (m : Seen) : ∀ s : Nds, run P m s.uses = keep m (s.active P m)
  | .nil => rfl
  | .cons s ss => by
    simp only [Nds.uses, Nds.active, run_append, nd_run P m s]
    cases Nd.active P m s with
    | ok u => simp only [keep, Res.ok_bind, nds_run P m ss]
    | throw e => rfl
    | ub => rfl
theorem bodies_run (P : Ports) (m : Seen) : ∀ s : Bodies, run P m s.uses = keep m (s.active P m)
  | .nil => rfl
  | .cons s ss => by
    simp only [Bodies.uses, Bodies.active, run_append, nds_run P m s]
    cases Nds.active P m s with
    | ok u => simp only [keep, Res.ok_bind, bodies_run P m ss]
    | throw e => rfl
    | ub => rfl
end

theorem sensAll_run (P : Ports) : ∀ (evs : List Ev) (m : Seen), run P m (evs.filterMap Ev.use) = sensAll P m evs
  | [], m => rfl
  | ⟨pos, .port p⟩ :: es, m => by
    simp only [List.filterMap_cons, Ev.use, run, sensAll]
    cases onSens P m p pos with
    | ok m' => exact sensAll_run P es m'
    | throw e => rfl
    | ub => rfl
  | ⟨pos, .cast t v⟩ :: es, m => by
    simp only [List.filterMap_cons, Ev.use, sensAll]
    exact sensAll_run P es m
  | ⟨pos, .var v⟩ :: es, m => by
    simp only [List.filterMap_cons, Ev.use, sensAll]
    exact sensAll_run P es m

theorem item_run (P : Ports) (m : Seen) (i : Item) : run P m i.uses = i.active P m := by
  cases i with
  | stmt s => exact nd_run P m s
  | block k b =>
    cases k with
    | seq evs =>
      simp only [Item.uses, Item.active, run_append, sensAll_run]
      cases sensAll P m evs with
      | ok m' => exact nds_run P m' b
      | throw e => rfl
      | ub => rfl
    | comb g => exact nds_run P m b
    | latch => exact nds_run P m b
    | initial => exact nds_run P m b
    | final => exact nds_run P m b
    | func f => exact nds_run P m b

theorem items_run (P : Ports) : ∀ (is : List Item) (m : Seen), run P m (is.flatMap Item.uses) = itemsActive P m is
  | [], m => rfl
  | i :: is, m => by
    simp only [List.flatMap_cons, itemsActive, run_append, item_run]
    cases i.active P m with
    | ok m' => exact items_run P is m'
    | throw e => rfl
    | ub => rfl

mutual
theorem gen_run (P : Ports) : ∀ (g : Gen) (m : Seen), run P m g.uses = g.active P m
  | .mk true items kids, m => by simp [Gen.uses, Gen.active, run]
  | .mk false items kids, m => by
    simp only [Gen.uses, Gen.active, Bool.false_eq_true, if_false, run_append, items_run]
    cases itemsActive P m items with
    | ok m' => exact gens_run P kids m'
    | throw e => rfl
    | ub => rfl
theorem gens_run (P : Ports) : ∀ (g : Gens) (m : Seen), run P m g.uses = g.active P m
  | .nil, m => rfl
  | .cons g gs, m => by
    simp only [Gens.uses, Gens.active, run_append, gen_run P g m]
    cases Gen.active P m g with
    | ok m' => exact gens_run P gs m'
    | throw e => rfl
    | ub => rfl
end

/-! ### The uses of a design are its occurrences -/

theorem predTest_iff {p : Nat} {b : Bool} (c : X) : predTest c = some (p, b) ↔ Asks p b c := by
  constructor
  · intro h
    unfold predTest at h
    split at h
    · cases h; exact .plain
    · cases h; exact .not
    · cases h; exact .invert
    · cases h
  · intro h
    cases h <;> rfl

mutual
theorem nd_uses {p : Nat} {b : Bool} : ∀ s : Nd, Use.test p b ∈ s.uses ↔ s.Tests p b
  | .ite c t e => by
    simp only [Nd.uses, List.mem_append, nds_uses t, nds_uses e]
    constructor
    · rintro (h | h | h)
      · cases hc : predTest c with
        | none => rw [hc] at h; exact absurd h List.not_mem_nil
        | some x =>
          rw [hc] at h
          obtain ⟨q, d⟩ := x
          simp only [List.mem_singleton, Use.test.injEq] at h
          rw [← h.1, ← h.2] at hc
          exact .here ((predTest_iff c).mp hc)
      · exact .then_ h
      · exact .else_ h
    · intro h
      cases h with
      | here h => rw [(predTest_iff c).mpr h]; exact .inl (List.mem_singleton.mpr rfl)
      | then_ h => exact .inr (.inl h)
      | else_ h => exact .inr (.inr h)
  | .switch x bs => by
    simp only [Nd.uses, bodies_uses bs]
    exact ⟨.switch, fun h => by cases h with | switch h => exact h⟩
  | .loop b => by
    simp only [Nd.uses, nds_uses b]
    exact ⟨.loop, fun h => by cases h with | loop h => exact h⟩
  | .assign _ _ _ => ⟨nofun, nofun⟩
  | .ret _ => ⟨nofun, nofun⟩
  | .callS _ _ => ⟨nofun, nofun⟩
  | .event => ⟨nofun, nofun⟩
  | .delay => ⟨nofun, nofun⟩
  | .assert _ => ⟨nofun, nofun⟩
  | .other => ⟨nofun, nofun⟩
theorem nds_uses {p : Nat} {b : Bool} : ∀ s : Nds, Use.test p b ∈ s.uses ↔ s.Tests p b
  | .nil => ⟨nofun, nofun⟩
  | .cons s ss => by
    simp only [Nds.uses, List.mem_append, nd_uses s, nds_uses ss]
    constructor
    · rintro (h | h)
      · exact .head h
      · exact .tail h
    · intro h
      cases h with
      | head h => exact .inl h
      | tail h => exact .inr h
theorem bodies_uses {p : Nat} {b : Bool} : ∀ s : Bodies, Use.test p b ∈ s.uses ↔ s.Tests p b
  | .nil => ⟨nofun, nofun⟩
  | .cons s ss => by
    simp only [Bodies.uses, List.mem_append, nds_uses s, bodies_uses ss]
    constructor
    · rintro (h | h)
      · exact .head h
      · exact .tail h
    · intro h
      cases h with
      | head h => exact .inl h
      | tail h => exact .inr h
end

mutual
theorem nd_no_sens {p : Nat} {b : Bool} : ∀ s : Nd, Use.sens p b ∉ s.uses
  | .ite c t e => by
    simp only [Nd.uses, List.mem_append, nds_no_sens t, nds_no_sens e, or_false]
    cases hc : predTest c with
    | none => exact List.not_mem_nil
    | some x => simp
  | .switch x bs => by simp only [Nd.uses]; exact bodies_no_sens bs
  | .loop b => by simp only [Nd.uses]; exact nds_no_sens b
  | .assign _ _ _ => nofun
  | .ret _ => nofun
  | .callS _ _ => nofun
  | .event => nofun
  | .delay => nofun
  | .assert _ => nofun
  | .other => nofun
theorem nds_no_sens {p : Nat} {b : Bool} : ∀ s : Nds, Use.sens p b ∉ s.uses
  | .nil => nofun
  | .cons s ss => by simp only [Nds.uses, List.mem_append, nd_no_sens s, nds_no_sens ss, or_false, not_false_eq_true]
theorem bodies_no_sens {p : Nat} {b : Bool} : ∀ s : Bodies, Use.sens p b ∉ s.uses
  | .nil => nofun
  | .cons s ss => by simp only [Bodies.uses, List.mem_append, nds_no_sens s, bodies_no_sens ss, or_false, not_false_eq_true]
end

theorem mem_use {p : Nat} {b : Bool} {evs : List Ev} : Use.sens p b ∈ evs.filterMap Ev.use ↔ (⟨b, .port p⟩ : Ev) ∈ evs := by
  simp only [List.mem_filterMap]
  constructor
  · rintro ⟨⟨pos, s⟩, h, hu⟩
    cases s with
    | port q => simp only [Ev.use, Option.some.injEq, Use.sens.injEq] at hu; rw [← hu.1, ← hu.2]; exact h
    | cast t v => cases hu
    | var v => cases hu
  · intro h
    exact ⟨_, h, rfl⟩

theorem no_test_use {p : Nat} {b : Bool} {evs : List Ev} : Use.test p b ∉ evs.filterMap Ev.use := by
  simp only [List.mem_filterMap, not_exists, not_and]
  rintro ⟨pos, s⟩ _
  cases s <;> simp [Ev.use]

theorem item_sens {p : Nat} {b : Bool} (i : Item) : Use.sens p b ∈ i.uses ↔ i.Sens p b := by
  cases i with
  | stmt s => exact ⟨fun h => absurd h (nd_no_sens s), fun h => h.elim⟩
  | block k ss =>
    cases k with
    | seq evs =>
      simp only [Item.uses, Item.Sens, List.mem_append, nds_no_sens ss, or_false, mem_use]
    | comb g => exact ⟨fun h => absurd h (nds_no_sens ss), fun h => h.elim⟩
    | latch => exact ⟨fun h => absurd h (nds_no_sens ss), fun h => h.elim⟩
    | initial => exact ⟨fun h => absurd h (nds_no_sens ss), fun h => h.elim⟩
    | final => exact ⟨fun h => absurd h (nds_no_sens ss), fun h => h.elim⟩
    | func f => exact ⟨fun h => absurd h (nds_no_sens ss), fun h => h.elim⟩

theorem item_tests {p : Nat} {b : Bool} (i : Item) : Use.test p b ∈ i.uses ↔ i.Tests p b := by
  cases i with
  | stmt s => exact nd_uses s
  | block k ss =>
    cases k with
    | seq evs => simp only [Item.uses, Item.Tests, List.mem_append, no_test_use, false_or, nds_uses]
    | comb g => exact nds_uses ss
    | latch => exact nds_uses ss
    | initial => exact nds_uses ss
    | final => exact nds_uses ss
    | func f => exact nds_uses ss

mutual
theorem gen_uses {u : Use} : ∀ g : Gen, u ∈ g.uses ↔ ∃ i, g.Has i ∧ u ∈ i.uses
  | .mk true items kids => by
    simp only [Gen.uses, if_true, List.not_mem_nil, false_iff, not_exists, not_and]
    intro i h
    cases h
  | .mk false items kids => by
    simp only [Gen.uses, Bool.false_eq_true, if_false, List.mem_append, List.mem_flatMap, gens_uses kids]
    constructor
    · rintro (⟨i, hi, hu⟩ | ⟨i, hi, hu⟩)
      · exact ⟨i, .here hi, hu⟩
      · exact ⟨i, .inside hi, hu⟩
    · rintro ⟨i, hi, hu⟩
      cases hi with
      | here h => exact .inl ⟨i, h, hu⟩
      | inside h => exact .inr ⟨i, h, hu⟩
theorem gens_uses {u : Use} : ∀ g : Gens, u ∈ g.uses ↔ ∃ i, g.Has i ∧ u ∈ i.uses
  | .nil => ⟨nofun, fun ⟨_, h, _⟩ => nomatch h⟩
  | .cons g gs => by
    simp only [Gens.uses, List.mem_append, gen_uses g, gens_uses gs]
    constructor
    · rintro (⟨i, hi, hu⟩ | ⟨i, hi, hu⟩)
      · exact ⟨i, .head hi, hu⟩
      · exact ⟨i, .tail hi, hu⟩
    · rintro ⟨i, hi, hu⟩
      cases hi with
      | head h => exact .inl ⟨i, h, hu⟩
      | tail h => exact .inr ⟨i, h, hu⟩
end

theorem gen_sens {p : Nat} {b : Bool} (g : Gen) : Use.sens p b ∈ g.uses ↔ g.Sens p b := by
  rw [gen_uses]
  exact ⟨fun ⟨i, h, hu⟩ => ⟨i, h, (item_sens i).mp hu⟩, fun ⟨i, h, hu⟩ => ⟨i, h, (item_sens i).mpr hu⟩⟩

theorem gen_tests {p : Nat} {b : Bool} (g : Gen) : Use.test p b ∈ g.uses ↔ g.Tests p b := by
  rw [gen_uses]
  exact ⟨fun ⟨i, h, hu⟩ => ⟨i, h, (item_tests i).mp hu⟩, fun ⟨i, h, hu⟩ => ⟨i, h, (item_tests i).mpr hu⟩⟩

/-! ### What the list of uses must be like -/

/-- Accepted, starting from the map `m`. -/
structure Fine (P : Ports) (m : Seen) (us : List Use) : Prop where
  sync : ∀ p b, Use.sens p b ∈ us → P.role p ≠ .reset
  declared : ∀ p b, Use.sens p b ∈ us → P.role p = .asyncReset → P.high p = none ∨ P.high p = some b
  start : ∀ p b, Use.sens p b ∈ us → P.role p = .asyncReset → m p = none ∨ m p = some b
  one : ∀ p b c, Use.sens p b ∈ us → Use.sens p c ∈ us → P.role p = .asyncReset → b = c
  before : ∀ pre p b post, us = pre ++ Use.test p b :: post → P.role p = .asyncReset → m p = some b ∨ Use.sens p b ∈ pre

/-- The map holds asynchronous resets only. -/
def Inv (P : Ports) (m : Seen) : Prop := ∀ p b, m p = some b → P.role p = .asyncReset

theorem run_iff (P : Ports) : ∀ (us : List Use) (m : Seen), Inv P m → ((∃ m', run P m us = .ok m') ↔ Fine P m us)
  | [], m, _ => by
    constructor
    · intro _
      exact ⟨nofun, nofun, nofun, nofun, fun pre p b post h => by cases pre <;> cases h⟩
    · intro _
      exact ⟨m, rfl⟩
  | .test p pos :: us, m, hm => by
    have ih := run_iff P us m hm
    simp only [run, onTest]
    have cut : ∀ pre q b post, Use.test p pos :: us = pre ++ Use.test q b :: post →
        (pre = [] ∧ p = q ∧ pos = b ∧ us = post) ∨ ∃ pre', pre = Use.test p pos :: pre' ∧ us = pre' ++ Use.test q b :: post := by
      intro pre q b post h
      cases pre with
      | nil =>
        simp only [List.nil_append, List.cons.injEq, Use.test.injEq] at h
        exact .inl ⟨rfl, h.1.1, h.1.2, h.2⟩
      | cons x pre' =>
        simp only [List.cons_append, List.cons.injEq] at h
        exact .inr ⟨pre', by rw [h.1], h.2⟩
    have both : Fine P m us → (P.role p = .asyncReset → m p = some pos) → Fine P m (.test p pos :: us) := by
      intro f hp
      refine ⟨fun q b h => ?_, fun q b h => ?_, fun q b h => ?_, fun q b c h h' => ?_, fun pre q b post h hr => ?_⟩
      · exact f.sync q b (by simpa using h)
      · exact f.declared q b (by simpa using h)
      · exact f.start q b (by simpa using h)
      · exact f.one q b c (by simpa using h) (by simpa using h')
      · rcases cut pre q b post h with ⟨_, h1, h2, _⟩ | ⟨pre', h1, h2⟩
        · subst h1; subst h2; exact .inl (hp hr)
        · rcases f.before pre' q b post h2 hr with h | h
          · exact .inl h
          · exact .inr (by rw [h1]; exact List.mem_cons_of_mem _ h)
    have back : Fine P m (.test p pos :: us) → Fine P m us ∧ (P.role p = .asyncReset → m p = some pos) := by
      intro f
      refine ⟨⟨fun q b h => ?_, fun q b h => ?_, fun q b h => ?_, fun q b c h h' => ?_, fun pre q b post h hr => ?_⟩, fun hr => ?_⟩
      · exact f.sync q b (List.mem_cons_of_mem _ h)
      · exact f.declared q b (List.mem_cons_of_mem _ h)
      · exact f.start q b (List.mem_cons_of_mem _ h)
      · exact f.one q b c (List.mem_cons_of_mem _ h) (List.mem_cons_of_mem _ h')
      · rcases f.before (.test p pos :: pre) q b post (by rw [h]; rfl) hr with h | h
        · exact .inl h
        · exact .inr (by simpa using h)
      · rcases f.before [] p pos us rfl hr with h | h
        · exact h
        · exact absurd h List.not_mem_nil
    have okCase : (P.role p = .asyncReset → m p = some pos) → ((∃ m', run P m us = .ok m') ↔ Fine P m (.test p pos :: us)) :=
      fun hp => ⟨fun h => both (ih.mp h) hp, fun h => ih.mpr (back h).1⟩
    cases hr : P.role p with
    | asyncReset =>
      simp only
      cases hmp : m p with
      | none =>
        simp only [Res.throw_bind]
        refine ⟨fun ⟨_, h⟩ => (nomatch h), fun h => ?_⟩
        have := (back h).2 hr
        rw [hmp] at this
        cases this
      | some h =>
        simp only
        by_cases hh : h = pos
        · simp only [if_pos hh, Res.ok_bind]
          exact okCase fun _ => by rw [hmp, hh]
        · simp only [if_neg hh, Res.throw_bind]
          refine ⟨fun ⟨_, h⟩ => (nomatch h), fun h => ?_⟩
          have := (back h).2 hr
          rw [hmp] at this
          injection this with this
          exact absurd this hh
    | reset =>
      have : m p = none := by
        cases hmp : m p with
        | none => rfl
        | some b => have := hm p b hmp; rw [hr] at this; cases this
      simp only [this, Option.isSome_none, Bool.false_eq_true, if_false, Res.ok_bind]
      exact okCase fun h => by rw [hr] at h; cases h
    | data => simp only [Res.ok_bind]; exact okCase fun h => by rw [hr] at h; cases h
    | clock => simp only [Res.ok_bind]; exact okCase fun h => by rw [hr] at h; cases h
    | clockEnable => simp only [Res.ok_bind]; exact okCase fun h => by rw [hr] at h; cases h
    | valid => simp only [Res.ok_bind]; exact okCase fun h => by rw [hr] at h; cases h
  | .sens p pos :: us, m, hm => by
    simp only [run, onSens]
    have cut : ∀ pre q b post, Use.sens p pos :: us = pre ++ Use.test q b :: post →
        ∃ pre', pre = Use.sens p pos :: pre' ∧ us = pre' ++ Use.test q b :: post := by
      intro pre q b post h
      cases pre with
      | nil => simp at h
      | cons x pre' =>
        simp only [List.cons_append, List.cons.injEq] at h
        exact ⟨pre', by rw [h.1], h.2⟩
    -- a use of a signal that is neither kind of reset
    have plain : P.role p ≠ .asyncReset → P.role p ≠ .reset → (Fine P m us ↔ Fine P m (.sens p pos :: us)) := by
      intro h1 h2
      constructor
      · intro f
        refine ⟨fun q b h => ?_, fun q b h hr => ?_, fun q b h hr => ?_, fun q b c h h' hr => ?_, fun pre q b post h hr => ?_⟩
        · rcases List.mem_cons.mp h with h | h
          · injection h with hq hb; rw [hq]; exact h2
          · exact f.sync q b h
        · rcases List.mem_cons.mp h with h | h
          · injection h with hq hb; rw [hq] at hr; exact absurd hr h1
          · exact f.declared q b h hr
        · rcases List.mem_cons.mp h with h | h
          · injection h with hq hb; rw [hq] at hr; exact absurd hr h1
          · exact f.start q b h hr
        · rcases List.mem_cons.mp h with h | h
          · injection h with hq hb; rw [hq] at hr; exact absurd hr h1
          · rcases List.mem_cons.mp h' with h' | h'
            · injection h' with hq hb; rw [hq] at hr; exact absurd hr h1
            · exact f.one q b c h h' hr
        · obtain ⟨pre', e1, e2⟩ := cut pre q b post h
          rcases f.before pre' q b post e2 hr with h | h
          · exact .inl h
          · exact .inr (by rw [e1]; exact List.mem_cons_of_mem _ h)
      · intro f
        refine ⟨fun q b h => f.sync q b (List.mem_cons_of_mem _ h), fun q b h => f.declared q b (List.mem_cons_of_mem _ h),
          fun q b h => f.start q b (List.mem_cons_of_mem _ h),
          fun q b c h h' => f.one q b c (List.mem_cons_of_mem _ h) (List.mem_cons_of_mem _ h'), fun pre q b post h hr => ?_⟩
        rcases f.before (.sens p pos :: pre) q b post (by rw [h]; rfl) hr with h | h
        · exact .inl h
        · rcases List.mem_cons.mp h with h | h
          · injection h with hq hb; rw [hq] at hr; exact absurd hr h1
          · exact .inr h
    cases hr : P.role p with
    | asyncReset =>
      simp only
      by_cases hd : ((P.high p).isSome && P.high p != some pos) = true
      · simp only [if_pos hd, Res.throw_bind]
        refine ⟨fun ⟨_, h⟩ => (nomatch h), fun f => ?_⟩
        rcases f.declared p pos (List.mem_cons_self ..) hr with h | h
        · rw [h] at hd; simp at hd
        · rw [h] at hd; simp at hd
      · simp only [if_neg hd]
        have hdecl : P.high p = none ∨ P.high p = some pos := by
          cases hh : P.high p with
          | none => exact .inl rfl
          | some d =>
            rw [hh] at hd
            simp only [Option.isSome_some, Bool.true_and, bne_iff_ne, ne_eq, Option.some.injEq, Decidable.not_not] at hd
            rw [hd]; exact .inr rfl
        -- from the map that knows `p`
        have step : ∀ m' : Seen, m' p = some pos → (∀ q, q ≠ p → m' q = m q) → (m p = none ∨ m p = some pos) →
            (Fine P m' us ↔ Fine P m (.sens p pos :: us)) := by
          intro m' h1 h2 h3
          constructor
          · intro f
            have eqp : ∀ b, Use.sens p b ∈ us → b = pos := by
              intro b hb
              rcases f.start p b hb hr with h | h
              · rw [h1] at h; cases h
              · rw [h1] at h; injection h with h; exact h.symm
            refine ⟨fun q b h => ?_, fun q b h hq => ?_, fun q b h hq => ?_, fun q b c h h' hq => ?_, fun pre q b post h hq => ?_⟩
            · rcases List.mem_cons.mp h with h | h
              · injection h with e1 _; rw [e1, hr]; nofun
              · exact f.sync q b h
            · rcases List.mem_cons.mp h with h | h
              · injection h with e1 e2; rw [e1, e2]; exact hdecl
              · exact f.declared q b h hq
            · by_cases e : q = p
              · rcases List.mem_cons.mp h with h | h
                · injection h with e1 e2; rw [e1, e2]; exact h3
                · rw [e] at h ⊢; rw [eqp b h]; exact h3
              · rcases List.mem_cons.mp h with h | h
                · injection h with e1 e2; exact absurd e1 e
                · rw [← h2 q e]; exact f.start q b h hq
            · by_cases e : q = p
              · subst e
                have hb : b = pos := by
                  rcases List.mem_cons.mp h with h | h
                  · injection h
                  · exact eqp b h
                have hc : c = pos := by
                  rcases List.mem_cons.mp h' with h | h
                  · injection h
                  · exact eqp c h
                rw [hb, hc]
              · rcases List.mem_cons.mp h with h | h
                · injection h with e1 e2; exact absurd e1 e
                · rcases List.mem_cons.mp h' with h' | h'
                  · injection h' with e1 e2; exact absurd e1 e
                  · exact f.one q b c h h' hq
            · obtain ⟨pre', e1, e2⟩ := cut pre q b post h
              rcases f.before pre' q b post e2 hq with h | h
              · by_cases e : q = p
                · rw [e, h1] at h
                  injection h with h
                  exact .inr (by rw [e1, e, h]; exact List.mem_cons_self ..)
                · rw [h2 q e] at h; exact .inl h
              · exact .inr (by rw [e1]; exact List.mem_cons_of_mem _ h)
          · intro f
            refine ⟨fun q b h => f.sync q b (List.mem_cons_of_mem _ h), fun q b h => f.declared q b (List.mem_cons_of_mem _ h),
              fun q b h hq => ?_, fun q b c h h' => f.one q b c (List.mem_cons_of_mem _ h) (List.mem_cons_of_mem _ h'),
              fun pre q b post h hq => ?_⟩
            · by_cases e : q = p
              · subst e
                rw [h1, f.one q b pos (List.mem_cons_of_mem _ h) (List.mem_cons_self ..) hq]
                exact .inr rfl
              · rw [h2 q e]; exact f.start q b (List.mem_cons_of_mem _ h) hq
            · rcases f.before (.sens p pos :: pre) q b post (by rw [h]; rfl) hq with h' | h'
              · by_cases e : q = p
                · subst e
                  rcases h3 with h3 | h3
                  · rw [h3] at h'; cases h'
                  · rw [h3] at h'; injection h' with h'; rw [h1, h']; exact .inl rfl
                · rw [h2 q e]; exact .inl h'
              · rcases List.mem_cons.mp h' with h' | h'
                · injection h' with e1 e2; rw [e1, e2, h1]; exact .inl rfl
                · exact .inr h'
        cases hmp : m p with
        | none =>
          simp only [Res.ok_bind]
          have hi : Inv P fun q => if q = p then some pos else m q := by
            intro q b h
            by_cases e : q = p
            · rw [e]; exact hr
            · simp only [if_neg e] at h; exact hm q b h
          rw [run_iff P us _ hi]
          exact step _ (if_pos rfl) (fun q e => if_neg e) (.inl hmp)
        | some h =>
          simp only
          by_cases hh : h = pos
          · simp only [if_pos hh, Res.ok_bind]
            rw [run_iff P us m hm]
            exact step m (by rw [hmp, hh]) (fun _ _ => rfl) (.inr (by rw [hmp, hh]))
          · simp only [if_neg hh, Res.throw_bind]
            refine ⟨fun ⟨_, h⟩ => (nomatch h), fun f => ?_⟩
            rcases f.start p pos (List.mem_cons_self ..) hr with h' | h'
            · rw [hmp] at h'; cases h'
            · rw [hmp] at h'; injection h' with h'; exact absurd h' hh
    | reset =>
      simp only [Res.throw_bind]
      refine ⟨fun ⟨_, h⟩ => (nomatch h), fun f => ?_⟩
      exact absurd hr (f.sync p pos (List.mem_cons_self ..))
    | data =>
      simp only [Res.ok_bind]
      exact (run_iff P us m hm).trans (plain (by rw [hr]; nofun) (by rw [hr]; nofun))
    | clock =>
      simp only [Res.ok_bind]
      exact (run_iff P us m hm).trans (plain (by rw [hr]; nofun) (by rw [hr]; nofun))
    | clockEnable =>
      simp only [Res.ok_bind]
      exact (run_iff P us m hm).trans (plain (by rw [hr]; nofun) (by rw [hr]; nofun))
    | valid =>
      simp only [Res.ok_bind]
      exact (run_iff P us m hm).trans (plain (by rw [hr]; nofun) (by rw [hr]; nofun))

theorem check_iff (P : Ports) (g : Gen) : checkActive P g = .ok () ↔ Fine P (fun _ => none) g.uses := by
  rw [← run_iff P g.uses _ (fun p b h => by cases h), gen_run]
  unfold checkActive
  cases g.active P fun _ => none with
  | ok m => simp
  | throw e => simp
  | ub => simp

/-! ## C72 -/

/-- **C72** (`_partial`: of the claims `OwnListClaim`, `WiresClaim`, `DeclaredClaim` and `OrderClaim` above this leaves out what is
false of the code). In an accepted design, of any size: a synchronous reset triggers nothing; an asynchronous reset triggers
always with one and the same edge, that of its declaration; and it is tested only with the polarity of that edge, never
without being a trigger somewhere. -/
theorem polarity_partial {P : Ports} {g : Gen} (h : checkActive P g = .ok ()) :
    (∀ p b, P.role p = .reset → ¬ g.Sens p b) ∧
    (∀ p b, P.role p = .asyncReset → g.Sens p b →
      (∀ d, P.high p = some d → d = b) ∧ (∀ c, g.Sens p c → c = b) ∧ ∀ c, g.Tests p c → c = b) ∧
    ∀ p b, P.role p = .asyncReset → g.Tests p b → g.Sens p b := by
  have f := (check_iff P g).mp h
  have tests : ∀ p b, P.role p = .asyncReset → g.Tests p b → g.Sens p b := by
    intro p b hr ht
    obtain ⟨pre, post, e⟩ := List.append_of_mem ((gen_tests g).mpr ht)
    rcases f.before pre p b post e hr with h | h
    · cases h
    · exact (gen_sens g).mp (by rw [e]; exact List.mem_append_left _ h)
  refine ⟨fun p b hr hs => f.sync p b ((gen_sens g).mpr hs) hr, fun p b hr hs => ⟨fun d hd => ?_, fun c hc => ?_, fun c hc => ?_⟩, tests⟩
  · rcases f.declared p b ((gen_sens g).mpr hs) hr with h | h
    · rw [h] at hd; cases hd
    · rw [h] at hd; injection hd with hd; exact hd.symm
  · exact f.one p c b ((gen_sens g).mpr hc) ((gen_sens g).mpr hs) hr
  · exact f.one p c b ((gen_sens g).mpr (tests p c hr hc)) ((gen_sens g).mpr hs) hr

/-- **C72**, exactly which designs are accepted: besides the conditions of `polarity_partial`, every test of an asynchronous reset
comes after a block triggered by it, in the order of the visit (`g.uses`). -/
theorem polarity_exact (P : Ports) (g : Gen) : checkActive P g = .ok () ↔
    (∀ p b, g.Sens p b → P.role p ≠ .reset) ∧
    (∀ p b, g.Sens p b → P.role p = .asyncReset → P.high p = none ∨ P.high p = some b) ∧
    (∀ p b c, g.Sens p b → g.Sens p c → P.role p = .asyncReset → b = c) ∧
    ∀ pre p b post, g.uses = pre ++ Use.test p b :: post → P.role p = .asyncReset → Use.sens p b ∈ pre := by
  rw [check_iff]
  constructor
  · intro f
    refine ⟨fun p b h => f.sync p b ((gen_sens g).mpr h), fun p b h => f.declared p b ((gen_sens g).mpr h),
      fun p b c h h' => f.one p b c ((gen_sens g).mpr h) ((gen_sens g).mpr h'), fun pre p b post h hr => ?_⟩
    rcases f.before pre p b post h hr with h | h
    · cases h
    · exact h
  · rintro ⟨h1, h2, h3, h4⟩
    exact ⟨fun p b h => h1 p b ((gen_sens g).mp h), fun p b h => h2 p b ((gen_sens g).mp h), fun _ _ _ _ => .inl rfl,
      fun p b c h h' => h3 p b c ((gen_sens g).mp h) ((gen_sens g).mp h'), fun pre p b post h hr => .inr (h4 pre p b post h hr)⟩

/-! ### Witnesses: port 0 is the clock, 1 and 2 are resets -/

def asyncs : Ports := ⟨fun p => if p = 0 then .clock else .asyncReset, fun _ => none⟩

/-- `always_ff @(posedge clk, posedge p) if (p) …`. -/
def block (p : Nat) (pos : Bool) : Item :=
  .block (.seq [⟨true, .port 0⟩, ⟨pos, .port p⟩]) (.cons (.ite (if pos then .port p else .un .invert (.port p)) .nil .nil) .nil)

/-- `always_ff @(posedge clk) if (rst) …`, with `rst` an asynchronous reset. -/
def bare : Item := .block (.seq [⟨true, .port 0⟩]) (.cons (.ite (.port 1) .nil .nil) .nil)

example : checkActive asyncs (.mk false [block 1 true, block 2 false] .nil) = .ok () := rfl
example : checkActive asyncs (.mk false [block 1 true, block 1 false] .nil) ≠ .ok () := nofun

/-- **C72**: the second block tests the reset without being triggered by it, and is accepted. -/
theorem not_OwnListClaim : ¬ OwnListClaim := by
  intro h
  have := h asyncs (.mk false [block 1 true, bare] .nil) rfl _ _ 1 true (.here (List.mem_cons_of_mem _ (List.mem_cons_self ..)))
    (.head (.here .plain)) rfl
  simp at this

/-- **C72**: a module uses its reset as active high, its child, wired to it, as active low. -/
theorem not_WiresClaim : ¬ WiresClaim := by
  intro h
  have := h asyncs (.mk false [block 1 true] (.cons (.mk false [block 2 false] .nil) .nil)) rfl [(1, 2)] 1 2 true false
    (List.mem_cons_self ..) rfl rfl ⟨block 1 true, .here (List.mem_cons_self ..), by simp [block, Item.Sens]⟩
    ⟨block 2 false, .inside (.head (.here (List.mem_cons_self ..))), by simp [block, Item.Sens]⟩
  cases this

/-- **C72**: a synchronous reset declared active low is tested as active high. -/
theorem not_DeclaredClaim : ¬ DeclaredClaim := by
  intro h
  have := h ⟨fun p => if p = 0 then .clock else .reset, fun _ => some false⟩ (.mk false [bare] .nil) rfl 1 true false (.inr rfl) rfl
    ⟨bare, .here (List.mem_cons_self ..), .head (.here .plain)⟩
  cases this

/-- **C72**: the block that tests the reset only is refused when it comes first. -/
theorem not_OrderClaim : ¬ OrderClaim := by
  intro h
  have := h asyncs false [block 1 true, bare] [bare, block 1 true] .nil (List.Perm.swap ..) rfl
  cases this

/-! ## C73: sensitivity lists and the removal of asynchronous resets -/

theorem items_sensitivity (P : Ports) : ∀ is : List Item, itemsSensitivity P is = .ok () ↔
    ∀ evs b, Item.block (.seq evs) b ∈ is → ∀ e ∈ evs, e.legal P = true
  | [] => ⟨fun _ => nofun, fun _ => rfl⟩
  | i :: is => by
    simp only [itemsSensitivity, Res.bind_eq_ok, items_sensitivity P is, List.mem_cons]
    constructor
    · rintro ⟨⟨⟩, h1, h2⟩ evs b (h | h)
      · rw [← h] at h1
        simp only [Item.sensitivity] at h1
        split at h1
        · rename_i h; exact List.all_eq_true.mp h
        · cases h1
      · exact h2 evs b h
    · intro h
      refine ⟨(), ?_, fun evs b hb => h evs b (.inr hb)⟩
      cases i with
      | stmt s => rfl
      | block k b =>
        cases k with
        | seq evs => exact if_pos (List.all_eq_true.mpr (h evs b (.inl rfl)))
        | _ => rfl

mutual
theorem gen_sensitivity (P : Ports) : ∀ g : Gen, g.sensitivity P = .ok () ↔
    ∀ evs b, g.Has (.block (.seq evs) b) → ∀ e ∈ evs, e.legal P = true
  | .mk true items kids => ⟨fun _ _ _ h => (nomatch h), fun _ => rfl⟩
  | .mk false items kids => by
    simp only [Gen.sensitivity, Bool.false_eq_true, if_false, Res.bind_eq_ok, gens_sensitivity P kids]
    constructor
    · rintro ⟨⟨⟩, h1, h2⟩ evs b h
      cases h with
      | here h => exact (items_sensitivity P items).mp h1 evs b h
      | inside h => exact h2 evs b h
    · intro h
      exact ⟨(), (items_sensitivity P items).mpr fun evs b hb => h evs b (.here hb), fun evs b hb => h evs b (.inside hb)⟩
theorem gens_sensitivity (P : Ports) : ∀ g : Gens, g.sensitivity P = .ok () ↔
    ∀ evs b, g.Has (.block (.seq evs) b) → ∀ e ∈ evs, e.legal P = true
  | .nil => ⟨fun _ _ _ h => (nomatch h), fun _ => rfl⟩
  | .cons g gs => by
    simp only [Gens.sensitivity, Res.bind_eq_ok, gen_sensitivity P g, gens_sensitivity P gs]
    constructor
    · rintro ⟨⟨⟩, h1, h2⟩ evs b h
      cases h with
      | head h => exact h1 evs b h
      | tail h => exact h2 evs b h
    · intro h
      exact ⟨(), fun evs b hb => h evs b (.head hb), fun evs b hb => h evs b (.tail hb)⟩
end

/-- **C73**: `check_always_sensitivity` accepts a design iff every trigger of every always_ff block is a clock or an asynchronous
reset, as a port or by a cast. -/
theorem sensitivity_exact (P : Ports) (g : Gen) : checkSensitivity P g = .ok () ↔
    ∀ evs b, g.Has (.block (.seq evs) b) → ∀ e ∈ evs, (∃ p, e.sig = .port p ∧ (P.role p = .clock ∨ P.role p = .asyncReset)) ∨
      ∃ t v, e.sig = .cast t v ∧ (t = .clock ∨ t = .asyncReset) := by
  unfold checkSensitivity
  rw [gen_sensitivity]
  have : ∀ e : Ev, e.legal P = true ↔ ((∃ p, e.sig = .port p ∧ (P.role p = .clock ∨ P.role p = .asyncReset)) ∨
      ∃ t v, e.sig = .cast t v ∧ (t = .clock ∨ t = .asyncReset)) := by
    rintro ⟨pos, s⟩
    cases s <;> simp [Ev.legal]
  simp only [this]

mutual
theorem has_removed (P : Ports) {j : Item} : ∀ g : Gen, (g.removeAsync P).Has j ↔ ∃ i, g.Has i ∧ j = i.removeAsync P
  | .mk true items kids => ⟨nofun, fun ⟨_, h, _⟩ => nomatch h⟩
  | .mk false items kids => by
    simp only [Gen.removeAsync]
    constructor
    · intro h
      cases h with
      | here h =>
        obtain ⟨i, hi, e⟩ := List.mem_map.mp h
        exact ⟨i, .here hi, e.symm⟩
      | inside h =>
        obtain ⟨i, hi, e⟩ := (has_removeds P kids).mp h
        exact ⟨i, .inside hi, e⟩
    · rintro ⟨i, hi, e⟩
      cases hi with
      | here h => exact .here (List.mem_map.mpr ⟨i, h, e.symm⟩)
      | inside h => exact .inside ((has_removeds P kids).mpr ⟨i, h, e⟩)
theorem has_removeds (P : Ports) {j : Item} : ∀ g : Gens, (g.removeAsync P).Has j ↔ ∃ i, g.Has i ∧ j = i.removeAsync P
  | .nil => ⟨nofun, fun ⟨_, h, _⟩ => nomatch h⟩
  | .cons g gs => by
    simp only [Gens.removeAsync]
    constructor
    · intro h
      cases h with
      | head h =>
        obtain ⟨i, hi, e⟩ := (has_removed P g).mp h
        exact ⟨i, .head hi, e⟩
      | tail h =>
        obtain ⟨i, hi, e⟩ := (has_removeds P gs).mp h
        exact ⟨i, .tail hi, e⟩
    · rintro ⟨i, hi, e⟩
      cases hi with
      | head h => exact .head ((has_removed P g).mpr ⟨i, h, e⟩)
      | tail h => exact .tail ((has_removeds P gs).mpr ⟨i, h, e⟩)
end

mutual
theorem has_resets (P : Ports) {p : Nat} {i : Item} (hp : p ∈ i.resets P) : ∀ g : Gen, g.Has i → p ∈ g.resets P
  | .mk true _ _, h => nomatch h
  | .mk false items kids, h => by
    simp only [Gen.resets, List.mem_append, List.mem_flatMap]
    cases h with
    | here h => exact .inl ⟨i, h, hp⟩
    | inside h => exact .inr (has_resetss P hp kids h)
theorem has_resetss (P : Ports) {p : Nat} {i : Item} (hp : p ∈ i.resets P) : ∀ g : Gens, g.Has i → p ∈ g.resets P
  | .nil, h => nomatch h
  | .cons g gs, h => by
    simp only [Gens.resets, List.mem_append]
    cases h with
    | head h => exact .inl (has_resets P hp g h)
    | tail h => exact .inr (has_resetss P hp gs h)
end

theorem sens_resets (P : Ports) {p : Nat} {b : Bool} {g : Gen} (h : g.Sens p b) (hr : P.role p = .asyncReset) : p ∈ g.resets P := by
  obtain ⟨i, hi, hs⟩ := h
  refine has_resets P ?_ g hi
  cases i with
  | stmt s => exact hs.elim
  | block k ss =>
    cases k with
    | seq evs =>
      simp only [Item.Sens] at hs
      simp only [Item.resets, List.mem_filterMap]
      exact ⟨_, hs, by simp only [hr, if_true]⟩
    | _ => exact hs.elim

theorem item_removed_sens (P : Ports) {p : Nat} {b : Bool} (i : Item) : (i.removeAsync P).Sens p b ↔ i.Sens p b ∧ P.role p ≠ .asyncReset := by
  cases i with
  | stmt s => exact ⟨nofun, nofun⟩
  | block k ss =>
    cases k with
    | seq evs => simp [Item.removeAsync, Item.Sens, List.mem_filter, Ev.isAsync]
    | _ => exact ⟨nofun, nofun⟩

theorem item_removed_tests (P : Ports) {p : Nat} {b : Bool} (i : Item) : (i.removeAsync P).Tests p b ↔ i.Tests p b := by
  cases i with
  | stmt s => exact Iff.rfl
  | block k ss => cases k <;> exact Iff.rfl

theorem removed_sens (P : Ports) {p : Nat} {b : Bool} (g : Gen) : (g.removeAsync P).Sens p b ↔ g.Sens p b ∧ P.role p ≠ .asyncReset := by
  constructor
  · rintro ⟨j, hj, hs⟩
    obtain ⟨i, hi, e⟩ := (has_removed P g).mp hj
    rw [e, item_removed_sens] at hs
    exact ⟨⟨i, hi, hs.1⟩, hs.2⟩
  · rintro ⟨⟨i, hi, hs⟩, hr⟩
    exact ⟨_, (has_removed P g).mpr ⟨i, hi, rfl⟩, (item_removed_sens P i).mpr ⟨hs, hr⟩⟩

theorem removed_tests (P : Ports) {p : Nat} {b : Bool} (g : Gen) : (g.removeAsync P).Tests p b ↔ g.Tests p b := by
  constructor
  · rintro ⟨j, hj, hs⟩
    obtain ⟨i, hi, e⟩ := (has_removed P g).mp hj
    rw [e, item_removed_tests] at hs
    exact ⟨i, hi, hs⟩
  · rintro ⟨i, hi, hs⟩
    exact ⟨_, (has_removed P g).mpr ⟨i, hi, rfl⟩, (item_removed_tests P i).mpr hs⟩

/-- **C73**: after `remove_async_reset` a design accepted by both checks is still accepted by both, and all triggers are clocks. -/
theorem remove_async_clocks {P : Ports} {g : Gen} (h1 : checkActive P g = .ok ()) (h2 : checkSensitivity P g = .ok ()) :
    checkActive (newPorts P g) (g.removeAsync P) = .ok () ∧ checkSensitivity (newPorts P g) (g.removeAsync P) = .ok () ∧
    ∀ evs b, (g.removeAsync P).Has (.block (.seq evs) b) → ∀ e ∈ evs, (∃ p, e.sig = .port p ∧ (newPorts P g).role p = .clock) ∨
      ∃ v, e.sig = .cast .clock v := by
  have clocks : ∀ evs b, (g.removeAsync P).Has (.block (.seq evs) b) → ∀ e ∈ evs, (∃ p, e.sig = .port p ∧ (newPorts P g).role p = .clock) ∨
      ∃ v, e.sig = .cast .clock v := by
    intro evs b hb e he
    obtain ⟨i, hi, hij⟩ := (has_removed P g).mp hb
    cases i with
    | stmt s => cases hij
    | block k ss =>
      cases k with
      | seq evs' =>
        simp only [Item.removeAsync, Item.block.injEq, Kind.seq.injEq] at hij
        rw [hij.1] at he
        obtain ⟨he1, he2⟩ := List.mem_filter.mp he
        rcases (sensitivity_exact P g).mp h2 evs' ss hi e he1 with ⟨p, hp, hr⟩ | ⟨t, v, ht, hr⟩
        · have hr' : P.role p = .clock := by
            rcases hr with hr | hr
            · exact hr
            · simp [Ev.isAsync, hp, hr] at he2
          refine .inl ⟨p, hp, ?_⟩
          show (if p ∈ g.resets P then (.reset : Role) else P.role p) = .clock
          rw [if_neg, hr']
          intro hm
          have : ∀ g : Gen, p ∈ g.resets P → P.role p = .asyncReset := resets_role P
          rw [this g hm] at hr'
          cases hr'
        · refine .inr ⟨v, ?_⟩
          rcases hr with hr | hr
          · rw [ht, hr]
          · simp [Ev.isAsync, ht, hr] at he2
      | _ => cases hij
  refine ⟨?_, ?_, clocks⟩
  · rw [polarity_exact]
    have hnot : ∀ p b, (g.removeAsync P).Sens p b → (newPorts P g).role p = .clock := by
      rintro p b ⟨j, hj, hs⟩
      cases j with
      | stmt s => exact hs.elim
      | block k ss =>
        cases k with
        | seq evs =>
          rcases clocks evs ss hj _ hs with ⟨q, hq, hr⟩ | ⟨v, hv⟩
          · injection hq with hq; rw [hq]; exact hr
          · cases hv
        | _ => exact hs.elim
    refine ⟨fun p b hs => ?_, fun p b hs hr => ?_, fun p b c hs _ hr => ?_, fun pre p b post hu hr => ?_⟩
    · rw [hnot p b hs]; nofun
    · rw [hnot p b hs] at hr; cases hr
    · rw [hnot p b hs] at hr; cases hr
    · have ht : g.Tests p b := (removed_tests P g).mp ((gen_tests _).mp (by rw [hu]; simp))
      have hr' : P.role p = .asyncReset := by
        have : (if p ∈ g.resets P then (.reset : Role) else P.role p) = .asyncReset := hr
        split at this
        · cases this
        · exact this
      have hs := (polarity_partial h1).2.2 p b hr' ht
      have : (if p ∈ g.resets P then (.reset : Role) else P.role p) = .asyncReset := hr
      rw [if_pos (sens_resets P hs hr')] at this
      cases this
  · rw [sensitivity_exact]
    intro evs b hb e he
    rcases clocks evs b hb e he with ⟨p, hp, hr⟩ | ⟨v, hv⟩
    · exact .inl ⟨p, hp, .inl hr⟩
    · exact .inr ⟨_, v, hv, .inl rfl⟩
where
  resets_role (P : Ports) {p : Nat} : ∀ g : Gen, p ∈ g.resets P → P.role p = .asyncReset
    | .mk _ items kids, h => by
      simp only [Gen.resets, List.mem_append, List.mem_flatMap] at h
      rcases h with ⟨i, _, h⟩ | h
      · cases i with
        | stmt s => cases h
        | block k ss =>
          cases k with
          | seq evs =>
            simp only [Item.resets, List.mem_filterMap] at h
            obtain ⟨e, _, he⟩ := h
            split at he
            · split at he
              · rename_i hr; injection he with he; rw [← he]; exact hr
              · cases he
            · cases he
          | _ => cases h
      · exact resets_roles P kids h
  resets_roles (P : Ports) {p : Nat} : ∀ g : Gens, p ∈ g.resets P → P.role p = .asyncReset
    | .nil, h => by cases h
    | .cons g gs, h => by
      simp only [Gens.resets, List.mem_append] at h
      rcases h with h | h
      · exact resets_role P g h
      · exact resets_roles P gs h

/-! ### Behaviour of a block -/

/-- The signals before and after a moment show edge `e`. -/
def Ev.Fires (e : Ev) (old new : Sig → Bool) : Prop := old e.sig = !e.pos ∧ new e.sig = e.pos

/-- A block with triggers `evs` runs `body` when one of them fires. -/
def Steps (evs : List Ev) (body : (Sig → Bool) → S → S) (old new : Sig → Bool) (s s' : S) : Prop :=
  ((∃ e ∈ evs, e.Fires old new) ∧ s' = body new s) ∨ ((¬ ∃ e ∈ evs, e.Fires old new) ∧ s' = s)

/-- The registers after a history of signal values. -/
inductive Runs (evs : List Ev) (body : (Sig → Bool) → S → S) : (Sig → Bool) → S → List (Sig → Bool) → S → Prop
  | nil {o s} : Runs evs body o s [] s
  | cons {o s n s' h t} : Steps evs body o n s s' → Runs evs body n s' h t → Runs evs body o s (n :: h) t

/-- In the history, an edge of an asynchronous reset never comes without an edge of another trigger. -/
def Aligned (P : Ports) (evs : List Ev) : (Sig → Bool) → List (Sig → Bool) → Prop
  | _, [] => True
  | o, n :: h => ((∃ e ∈ evs, e.isAsync P = true ∧ e.Fires o n) → ∃ e ∈ evs, e.isAsync P = false ∧ e.Fires o n) ∧ Aligned P evs n h

theorem fires_filter (P : Ports) (evs : List Ev) (o n : Sig → Bool) :
    (∃ e ∈ evs.filter fun e => !e.isAsync P, e.Fires o n) ↔ ∃ e ∈ evs, e.isAsync P = false ∧ e.Fires o n := by
  simp [List.mem_filter, and_assoc]

/-- **C73**: `remove_async_reset` on a block does not change its registers in any history in which the resets change together with a
clock edge. -/
theorem remove_async_aligned (P : Ports) (evs : List Ev) (body : (Sig → Bool) → S → S) : ∀ (h : List (Sig → Bool)) (o : Sig → Bool) (s t : S),
    Aligned P evs o h → (Runs (evs.filter fun e => !e.isAsync P) body o s h t ↔ Runs evs body o s h t)
  | [], o, s, t, _ => ⟨fun h => by cases h; exact .nil, fun h => by cases h; exact .nil⟩
  | n :: h, o, s, t, ha => by
    have key : (∃ e ∈ evs.filter fun e => !e.isAsync P, e.Fires o n) ↔ ∃ e ∈ evs, e.Fires o n := by
      rw [fires_filter]
      constructor
      · rintro ⟨e, he, _, hf⟩; exact ⟨e, he, hf⟩
      · rintro ⟨e, he, hf⟩
        cases hx : e.isAsync P with
        | false => exact ⟨e, he, hx, hf⟩
        | true => exact ha.1 ⟨e, he, hx, hf⟩
    constructor
    · intro hr
      cases hr with
      | cons h1 h2 =>
        refine .cons ?_ ((remove_async_aligned P evs body h n _ t ha.2).mp h2)
        unfold Steps at h1 ⊢
        rwa [key] at h1
    · intro hr
      cases hr with
      | cons h1 h2 =>
        refine .cons ?_ ((remove_async_aligned P evs body h n _ t ha.2).mpr h2)
        unfold Steps at h1 ⊢
        rwa [key]

/-- **C73**: and at a moment in which only asynchronous resets change, nothing happens any more. -/
theorem remove_async_ignored (P : Ports) (evs : List Ev) (body : (Sig → Bool) → S → S) {o n : Sig → Bool} {s s' : S}
    (hq : ∀ e ∈ evs, e.isAsync P = false → ¬ e.Fires o n) (h : Steps (evs.filter fun e => !e.isAsync P) body o n s s') : s' = s := by
  rcases h with ⟨h, _⟩ | ⟨_, h⟩
  · obtain ⟨e, he, hx, hf⟩ := (fires_filter P evs o n).mp h
    exact absurd hf (hq e he hx)
  · exact h

example : Aligned asyncs [⟨true, .port 0⟩, ⟨true, .port 1⟩] (fun _ => false) [fun _ => true] :=
  ⟨fun _ => ⟨⟨true, .port 0⟩, List.mem_cons_self .., rfl, rfl, rfl⟩, trivial⟩

/-- Wired ports have one type, and every block has a trigger: the rest of the claim on `remove_async_reset`. -/
def WiredTypesClaim : Prop := ∀ P g (wires : List (Nat × Nat)), checkActive P g = .ok () → checkSensitivity P g = .ok () →
  (∀ w ∈ wires, P.role w.1 = P.role w.2) → ∀ w ∈ wires, (newPorts P g).role w.1 = (newPorts P g).role w.2

def TriggerClaim : Prop := ∀ P g, checkActive P g = .ok () → checkSensitivity P g = .ok () → ∀ evs b,
  (g.removeAsync P).Has (.block (.seq evs) b) → evs ≠ []

/-- **C73**: the port of a parent without registers of its own stays an asynchronous reset, while that of its child becomes synchronous. -/
theorem not_WiredTypesClaim : ¬ WiredTypesClaim := by
  intro h
  have := h asyncs (.mk false [] (.cons (.mk false [block 2 true] .nil) .nil)) [(1, 2)] rfl rfl
    (fun w hw => by cases List.mem_singleton.mp hw; rfl) (1, 2) (List.mem_cons_self ..)
  cases this

/-- **C73**: a block triggered by a reset alone is left without a trigger. -/
theorem not_TriggerClaim : ¬ TriggerClaim := by
  intro h
  exact h asyncs (.mk false [.block (.seq [⟨true, .port 1⟩]) .nil] .nil) rfl rfl _ _
    ((has_removed asyncs _).mpr ⟨_, .here (List.mem_cons_self ..), rfl⟩) rfl

end Kratos.Content
