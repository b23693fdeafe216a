import Verif.Pass.Drivers

/-!
# C28: the connectivity check (src/analysis.cc:1503-1594, src/ir.cc:94-100)

Targets and sources of variables are those of `Verif.Pass.Drivers`. The unordered sets of sources and of bits are lists:
the order of the sources stands for any iteration order. Errors carry no text. Bit indices are natural numbers; the code's
`uint32_t` loop variable does not wrap for widths below 2^32.
-/

namespace Kratos.Conn

open Kratos.Drv (Src Tgt VarId sources bits mem_bits)

inductive Dir where
  | inp | out | inout
  deriving DecidableEq, Repr

structure Port where
  var : VarId
  width : Nat
  dir : Dir
  deriving DecidableEq, Repr

/-- `unordered_set::emplace` for each bit. -/
def put : List Nat → List Nat → List Nat
  | set, [] => set
  | set, i :: is => put (if i ∈ set then set else i :: set) is

/-- Left sides of type `VarType::Slice`. A `part` that covers a variable is the variable itself or a slice of all its bits:
`whole` tells which. -/
def isSlice (whole : Bool) : Tgt → Bool
  | .part _ _ _ => !whole
  | .dyn _ _ _ => true
  | .dynPart _ _ _ => true
  | .castPart _ _ _ => true
  | .cast _ _ _ => false
  | .concat _ _ => false

/-- The bits counted for a slice whose root is the port (src/analysis.cc:1524-1532). -/
def sliceBits (w : Nat) (t : Tgt) : List Nat := if t.byVar then bits 0 (w - 1) else bits t.range.1 t.range.2

/-- `connected` (src/analysis.cc:1503-1546): the flag and the set of bits. -/
def loop (whole : Src → Bool) (p : Port) : List Src → List Nat → Res (Bool × List Nat)
  | [], set => .ok (false, set)
  | s :: ss, set =>
    if isSlice (whole s) s.left then
      if s.left.root ≠ some p.var then
        if s.left.byVar then loop whole p ss set else .throw .var
      else loop whole p ss (put set (sliceBits p.width s.left))
    else .ok (true, put set (List.range p.width))

def connected (whole : Src → Bool) (p : Port) (srcs : List Src) : Res (Bool × List Nat) :=
  (loop whole p srcs []).bind fun r => .ok (r.1 && decide (r.2.length = p.width), r.2)

/-- The loop of src/analysis.cc:1571-1586. -/
def report (p : Port) (set : List Nat) : Res Unit := if (List.range p.width).all (· ∈ set) then .ok () else .throw .stmt

/-- src/analysis.cc:1562-1586: one port. -/
def checkPort (whole : Src → Bool) (top : Bool) (srcs : Port → List Src) (p : Port) : Res Unit :=
  if p.dir = .inp ∧ top = true then .ok ()
  else (connected whole p (srcs p)).bind fun r => if r.1 then .ok () else report p r.2

/-- Run a check on each element. -/
def all (f : Port → Res Unit) : List Port → Res Unit
  | [] => .ok ()
  | p :: ps => (f p).bind fun _ => all f ps

mutual
/-- A generator: `external() || is_stub()`, its ports and its child generators. -/
inductive Gen where
  | node (skip : Bool) (ports : List Port) (kids : Gens)
inductive Gens where
  | nil
  | cons (g : Gen) (gs : Gens)
end

mutual
/-- `visit_generator_root` with `GeneratorConnectivityVisitor::visit` (src/ir.cc:94-100, src/analysis.cc:1552-1589); the
Boolean is `is_top_level_`. -/
def visit (whole : Src → Bool) (srcs : Port → List Src) : Gen → Bool → Res Bool
  | .node skip ports kids, top =>
    if skip then visits whole srcs kids top
    else (all (checkPort whole top srcs) ports).bind fun _ => visits whole srcs kids false
def visits (whole : Src → Bool) (srcs : Port → List Src) : Gens → Bool → Res Bool
  | .nil, top => .ok top
  | .cons g gs, top => (visit whole srcs g top).bind fun top => visits whole srcs gs top
end

/-- `verify_generator_connectivity` (src/analysis.cc:1591-1594). -/
def verify (whole : Src → Bool) (srcs : Port → List Src) (g : Gen) : Res Unit := (visit whole srcs g true).bind fun _ => .ok ()

/-! ### Specification -/

mutual
/-- The generators at or below a generator. -/
inductive Below : Gen → Gen → Prop
  | self {g} : Below g g
  | kid {skip ports kids h} : BelowS kids h → Below (.node skip ports kids) h
inductive BelowS : Gens → Gen → Prop
  | head {g gs h} : Below g h → BelowS (.cons g gs) h
  | tail {g gs h} : BelowS gs h → BelowS (.cons g gs) h
end

/-- The generators strictly below a generator. -/
inductive Under : Gen → Gen → Prop
  | kid {skip ports kids h} : BelowS kids h → Under (.node skip ports kids) h

/-- Ports that must be driven: outputs (and bidirectional ports) of the top module, and every port of the modules below,
except those of external modules and stubs. -/
inductive Required (g : Gen) : Port → Prop
  | top {ports kids p} : g = .node false ports kids → p ∈ ports → p.dir ≠ .inp → Required g p
  | below {ports kids p} : Under g (.node false ports kids) → p ∈ ports → Required g p

/-- Some statement of the design may assign the bit. -/
def Driven (stmts : List Src) (p : Port) (i : Nat) : Prop := ∃ s ∈ stmts, s.left.MayDrive p.var i

/-- An assignment to a variable itself assigns all its bits. -/
def WholeOk (w : VarId → Nat) (whole : Src → Bool) (stmts : List Src) : Prop := ∀ s ∈ stmts, whole s = true → ∃ v, s.left = .part v 0 (w v - 1) ∧ 0 < w v

/-- Full claim of C28: the check accepts exactly the designs where every bit of every port that must be driven has a
driver. The sources of a port are the statements that assign (part of) it, in any order. -/
def ConnectivityClaim : Prop := ∀ (w : VarId → Nat) (whole : Src → Bool) (stmts : List Src) (srcs : Port → List Src) (g : Gen),
  WholeOk w whole stmts → (∀ p, Required g p → w p.var = p.width) → (∀ p, (srcs p).Perm (sources stmts p.var)) →
  (verify whole srcs g = .ok () ↔ ∀ p, Required g p → ∀ i, i < p.width → Driven stmts p i)

/-! ### One port -/

theorem mem_put : ∀ (is set : List Nat) (b : Nat), b ∈ put set is ↔ b ∈ set ∨ b ∈ is
  | [], set, b => by simp [put]
  | i :: is, set, b => by
    rw [put, mem_put is]
    split
    · rename_i h
      constructor
      · rintro (h' | h')
        · exact .inl h'
        · exact .inr (List.mem_cons_of_mem _ h')
      · rintro (h' | h')
        · exact .inl h'
        · rcases List.mem_cons.1 h' with e | h'
          · exact .inl (e ▸ h)
          · exact .inr h'
    · simp only [List.mem_cons]
      constructor
      · rintro ((h' | h') | h')
        · exact .inr (.inl h')
        · exact .inl h'
        · exact .inr (.inr h')
      · rintro (h' | h' | h')
        · exact .inl (.inr h')
        · exact .inl (.inl h')
        · exact .inr h'

/-- The bits counted for one source. -/
def counted (whole : Src → Bool) (p : Port) (s : Src) (b : Nat) : Prop :=
  if isSlice (whole s) s.left then s.left.root = some p.var ∧ b ∈ sliceBits p.width s.left else b < p.width

theorem loop_ok {whole : Src → Bool} {p : Port} : ∀ (ss : List Src) (set : List Nat) (r : Bool × List Nat), loop whole p ss set = .ok r →
    (∀ b ∈ r.2, b ∈ set ∨ ∃ s ∈ ss, counted whole p s b) ∧ (r.1 = true → ∀ b, b < p.width → b ∈ r.2) ∧
    (r.1 = false → ∀ b, (b ∈ set ∨ ∃ s ∈ ss, counted whole p s b) → b ∈ r.2)
  | [], set, r, h => by
    cases h
    exact ⟨fun b hb => .inl hb, nofun, fun _ b hb => hb.elim id fun ⟨_, h, _⟩ => nomatch h⟩
  | s :: ss, set, r, h => by
    unfold loop at h
    split at h
    · rename_i hs
      split at h
      · rename_i hr
        split at h
        · obtain ⟨h1, h2, h3⟩ := loop_ok ss set r h
          refine ⟨fun b hb => (h1 b hb).imp id fun ⟨x, hx, hc⟩ => ⟨x, List.mem_cons_of_mem _ hx, hc⟩, h2, fun hf b hb => h3 hf b ?_⟩
          rcases hb with hb | ⟨x, hx, hc⟩
          · exact .inl hb
          · rcases List.mem_cons.1 hx with e | hx
            · rw [e, counted, if_pos hs] at hc
              exact absurd hc.1 hr
            · exact .inr ⟨x, hx, hc⟩
        · cases h
      · rename_i hr
        obtain ⟨h1, h2, h3⟩ := loop_ok ss _ r h
        have hroot : s.left.root = some p.var := Classical.not_not.1 hr
        refine ⟨fun b hb => ?_, h2, fun hf b hb => h3 hf b ?_⟩
        · rcases h1 b hb with hb | ⟨x, hx, hc⟩
          · rcases (mem_put _ _ _).1 hb with hb | hb
            · exact .inl hb
            · exact .inr ⟨s, List.mem_cons_self .., by rw [counted, if_pos hs]; exact ⟨hroot, hb⟩⟩
          · exact .inr ⟨x, List.mem_cons_of_mem _ hx, hc⟩
        · rcases hb with hb | ⟨x, hx, hc⟩
          · exact .inl ((mem_put _ _ _).2 (.inl hb))
          · rcases List.mem_cons.1 hx with e | hx
            · rw [e, counted, if_pos hs] at hc
              exact .inl ((mem_put _ _ _).2 (.inr hc.2))
            · exact .inr ⟨x, hx, hc⟩
    · rename_i hs
      cases h
      refine ⟨fun b hb => ?_, fun _ b hb => (mem_put _ _ _).2 (.inr (List.mem_range.2 hb)), nofun⟩
      rcases (mem_put _ _ _).1 hb with hb | hb
      · exact .inl hb
      · exact .inr ⟨s, List.mem_cons_self .., by rw [counted, if_neg hs]; exact List.mem_range.1 hb⟩

/-- The loop throws only on parts of casts. -/
theorem loop_total {whole : Src → Bool} {p : Port} : ∀ (ss : List Src) (set : List Nat), (∀ s ∈ ss, isSlice (whole s) s.left = true → s.left.root = some p.var) →
    ∃ r, loop whole p ss set = .ok r
  | [], set, _ => ⟨_, rfl⟩
  | s :: ss, set, h => by
    unfold loop
    have hs := h s (List.mem_cons_self ..)
    have ih := fun set => loop_total ss set (fun x hx => h x (List.mem_cons_of_mem _ hx))
    split
    · rename_i hsl
      rw [if_neg (Classical.not_not.2 (hs hsl))]
      exact ih _
    · exact ⟨_, rfl⟩

/-- The verdict on a port: it is accepted when every bit is counted for some source. -/
theorem port_ok {whole : Src → Bool} {p : Port} {srcs : Port → List Src} {top : Bool} (hreq : ¬ (p.dir = .inp ∧ top = true)) :
    (checkPort whole top srcs p = .ok () → ∀ i, i < p.width → ∃ s ∈ srcs p, counted whole p s i) ∧
    (∀ r, loop whole p (srcs p) [] = .ok r → (∀ i, i < p.width → ∃ s ∈ srcs p, counted whole p s i) → checkPort whole top srcs p = .ok ()) := by
  unfold checkPort
  rw [if_neg hreq]
  constructor
  · intro h i hi
    rw [Res.bind_eq_ok] at h
    obtain ⟨r, hr, h⟩ := h
    unfold connected at hr
    rw [Res.bind_eq_ok] at hr
    obtain ⟨q, hq, hr⟩ := hr
    cases hr
    obtain ⟨h1, h2, h3⟩ := loop_ok _ _ q hq
    have hmem : i ∈ q.2 := by
      cases hb : q.1 with
      | true => exact h2 hb i hi
      | false =>
        simp only [hb, Bool.false_and, Bool.false_eq_true, if_false, report] at h
        split at h
        · rename_i ha
          have := List.all_eq_true.1 ha i (List.mem_range.2 hi)
          exact of_decide_eq_true this
        · cases h
    rcases h1 i hmem with hm | hm
    · cases hm
    · exact hm
  · intro q hq h
    obtain ⟨h1, h2, h3⟩ := loop_ok _ _ q hq
    simp only [connected, hq, Res.ok_bind]
    split
    · rfl
    · unfold report
      rw [if_pos]
      rw [List.all_eq_true]
      intro i hi
      refine decide_eq_true ?_
      cases hb : q.1 with
      | true => exact h2 hb i (List.mem_range.1 hi)
      | false => exact h3 hb i (.inr (h i (List.mem_range.1 hi)))

/-! ### The hierarchy -/

theorem all_ok {f : Port → Res Unit} : ∀ (ps : List Port), all f ps = .ok () ↔ ∀ p ∈ ps, f p = .ok ()
  | [] => ⟨fun _ _ h => (nomatch h), fun _ => rfl⟩
  | p :: ps => by
    rw [all, Res.bind_eq_ok, List.forall_mem_cons, ← all_ok ps]
    exact ⟨fun ⟨_, h, h'⟩ => ⟨h, h'⟩, fun ⟨h, h'⟩ => ⟨(), h, h'⟩⟩

mutual
/-- Once the flag is off every port below is checked as a port of an instance. -/
theorem visit_false (whole : Src → Bool) (srcs : Port → List Src) : ∀ (g : Gen), (visit whole srcs g false = .ok false ↔
      ∀ ports kids p, Below g (.node false ports kids) → p ∈ ports → checkPort whole false srcs p = .ok ()) ∧
      ∀ t, visit whole srcs g false = .ok t → t = false
  | .node skip ports kids => by
    obtain ⟨h1, h2⟩ := visits_false whole srcs kids
    cases skip with
    | true =>
      simp only [visit, if_true]
      refine ⟨h1.trans ⟨fun h ps ks p hb hp => ?_, fun h ps ks p hb hp => h ps ks p (.kid hb) hp⟩, h2⟩
      cases hb with
      | kid hb => exact h ps ks p hb hp
    | false =>
      simp only [visit, Bool.false_eq_true, if_false]
      constructor
      · rw [Res.bind_eq_ok]
        constructor
        · rintro ⟨_, ha, hv⟩ ps ks p hb hp
          cases hb with
          | self => exact (all_ok ports).1 ha p hp
          | kid hb => exact h1.1 hv ps ks p hb hp
        · intro h
          exact ⟨(), (all_ok ports).2 fun p hp => h ports kids p .self hp, h1.2 fun ps ks p hb hp => h ps ks p (.kid hb) hp⟩
      · intro t ht
        rw [Res.bind_eq_ok] at ht
        obtain ⟨_, _, ht⟩ := ht
        exact h2 t ht
theorem visits_false (whole : Src → Bool) (srcs : Port → List Src) : ∀ (gs : Gens), (visits whole srcs gs false = .ok false ↔
      ∀ ports kids p, BelowS gs (.node false ports kids) → p ∈ ports → checkPort whole false srcs p = .ok ()) ∧
      ∀ t, visits whole srcs gs false = .ok t → t = false
  | .nil => by
    refine ⟨⟨fun _ ps ks p hb => (nomatch hb), fun _ => by simp only [visits]⟩, fun t h => ?_⟩
    simp only [visits, Res.ok.injEq] at h
    exact h.symm
  | .cons g gs => by
    obtain ⟨h1, h2⟩ := visit_false whole srcs g
    obtain ⟨h3, h4⟩ := visits_false whole srcs gs
    simp only [visits]
    constructor
    · rw [Res.bind_eq_ok]
      constructor
      · rintro ⟨t, hg, hgs⟩ ps ks p hb hp
        have := h2 t hg
        subst this
        cases hb with
        | head hb => exact h1.1 hg ps ks p hb hp
        | tail hb => exact h3.1 hgs ps ks p hb hp
      · intro h
        exact ⟨false, h1.2 fun ps ks p hb hp => h ps ks p (.head hb) hp, h3.2 fun ps ks p hb hp => h ps ks p (.tail hb) hp⟩
    · intro t ht
      rw [Res.bind_eq_ok] at ht
      obtain ⟨t', hg, ht⟩ := ht
      have := h2 t' hg
      subst this
      exact h4 t ht
end

/-- With a top module that is neither external nor a stub, exactly the required ports are looked at. -/
theorem verify_iff {whole : Src → Bool} {srcs : Port → List Src} {ports : List Port} {kids : Gens} :
    verify whole srcs (.node false ports kids) = .ok () ↔
      (∀ p ∈ ports, checkPort whole true srcs p = .ok ()) ∧ ∀ ps ks p, Under (.node false ports kids) (.node false ps ks) → p ∈ ps → checkPort whole false srcs p = .ok () := by
  obtain ⟨h1, h2⟩ := visits_false whole srcs kids
  unfold verify
  simp only [visit, Bool.false_eq_true, if_false]
  rw [Res.bind_eq_ok]
  constructor
  · rintro ⟨t, h, _⟩
    rw [Res.bind_eq_ok] at h
    obtain ⟨_, ha, hv⟩ := h
    have := h2 t hv
    subst this
    refine ⟨(all_ok ports).1 ha, fun ps ks p hu hp => ?_⟩
    cases hu with
    | kid hb => exact h1.1 hv ps ks p hb hp
  · rintro ⟨ha, hv⟩
    refine ⟨false, ?_, rfl⟩
    rw [Res.bind_eq_ok]
    exact ⟨(), (all_ok ports).2 ha, h1.2 fun ps ks p hb hp => hv ps ks p (.kid hb) hp⟩

/-! ### C28 -/

/-- Constant slices and whole variables, and slices by a variable of a whole variable of width `w v`. -/
def Simple (w : VarId → Nat) : Tgt → Prop
  | .part _ _ _ => True
  | .dyn v lo hi => lo = 0 ∧ hi + 1 = w v
  | _ => False

theorem counted_simple {w : VarId → Nat} {whole : Src → Bool} {p : Port} {s : Src} (hs : Simple w s.left) (hw : w p.var = p.width)
    (hok : whole s = true → ∃ v, s.left = .part v 0 (w v - 1) ∧ 0 < w v) (hv : p.var ∈ s.left.vars) (i : Nat) :
    counted whole p s i ↔ s.left.MayDrive p.var i := by
  cases hl : s.left with
  | part v lo hi =>
    cases hwh : whole s with
    | true =>
      obtain ⟨v', e, hpos⟩ := hok hwh
      rw [hl] at e hv
      cases e
      have hv : p.var = v := by simpa [Tgt.vars] using hv
      subst hv
      simp only [counted, hl, hwh, isSlice, Bool.not_true, Bool.false_eq_true, if_false]
      constructor
      · intro h
        exact .part (Nat.zero_le _) (by omega)
      · intro h
        cases h with
        | part h1 h2 => omega
    | false =>
    simp only [counted, hl, hwh, isSlice, Bool.not_false, if_true, Tgt.root, sliceBits, Tgt.byVar, Tgt.range, Bool.false_eq_true, if_false, mem_bits, Option.some.injEq]
    constructor
    · rintro ⟨rfl, h1, h2⟩
      exact .part h1 h2
    · intro h
      cases h with
      | part h1 h2 => exact ⟨rfl, h1, h2⟩
  | dyn v lo hi =>
    rw [hl] at hs
    obtain ⟨h0, h1⟩ := hs
    simp only [counted, hl, isSlice, if_true, Tgt.root, sliceBits, Tgt.byVar, mem_bits, Option.some.injEq]
    constructor
    · rintro ⟨rfl, h2, h3⟩
      exact .dyn (by omega) (by omega)
    · intro h
      cases h with
      | dyn h2 h3 => exact ⟨rfl, by omega, by omega⟩
  | dynPart v lo hi => rw [hl] at hs; exact hs.elim
  | cast v lo hi => rw [hl] at hs; exact hs.elim
  | castPart v lo hi => rw [hl] at hs; exact hs.elim
  | concat l r => rw [hl] at hs; exact hs.elim

theorem drives_vars {t : Tgt} {v : VarId} {i : Nat} (h : t.MayDrive v i) : v ∈ t.vars := by
  induction h with
  | part => exact List.mem_singleton.2 rfl
  | dyn => exact List.mem_singleton.2 rfl
  | dynPart => exact List.mem_singleton.2 rfl
  | cast => exact List.mem_singleton.2 rfl
  | castPart => exact List.mem_singleton.2 rfl
  | left _ ih => exact List.mem_append.2 (.inl ih)
  | right _ ih => exact List.mem_append.2 (.inr ih)

theorem driven_iff {stmts : List Src} {srcs : List Src} {p : Port} (h : srcs.Perm (sources stmts p.var)) (i : Nat) :
    Driven stmts p i ↔ ∃ s ∈ srcs, s.left.MayDrive p.var i := by
  constructor
  · rintro ⟨s, hs, hd⟩
    exact ⟨s, h.mem_iff.2 (List.mem_filter.2 ⟨hs, decide_eq_true (drives_vars hd)⟩), hd⟩
  · rintro ⟨s, hs, hd⟩
    exact ⟨s, (List.mem_filter.1 (h.mem_iff.1 hs)).1, hd⟩

/-- C28, partial: with left sides that are variables, constant slices and slices by a variable of a whole variable, and a
top module that is neither external nor a stub, the check accepts exactly when every bit of every required port has a
driver, in whatever order the sources are visited.
Missing: concatenations and casts on the left (`not_ConnectivityClaim`, `cast_part_refused`), slices by a variable inside
part of a variable, and an external module at the top (`external_top`). -/
theorem connectivity_partial {stmts : List Src} {srcs : Port → List Src} {ports : List Port} {kids : Gens} {w : VarId → Nat} {whole : Src → Bool}
    (hok : WholeOk w whole stmts) (hsrc : ∀ p, (srcs p).Perm (sources stmts p.var)) (hw : ∀ p, Required (.node false ports kids) p → w p.var = p.width)
    (hs : ∀ s ∈ stmts, Simple w s.left) :
    verify whole srcs (.node false ports kids) = .ok () ↔
      ∀ p, Required (.node false ports kids) p → ∀ i, i < p.width → Driven stmts p i := by
  have key : ∀ p top, w p.var = p.width → ¬ (p.dir = .inp ∧ top = true) → (checkPort whole top srcs p = .ok () ↔ ∀ i, i < p.width → Driven stmts p i) := by
    intro p top hwp hreq
    have hsim : ∀ s ∈ srcs p, Simple w s.left := fun s hm => hs s (List.mem_filter.1 ((hsrc p).mem_iff.1 hm)).1
    have hd : ∀ i, (∃ s ∈ srcs p, counted whole p s i) ↔ Driven stmts p i := fun i => by
      rw [driven_iff (hsrc p) i]
      exact exists_congr fun s => and_congr_right fun hm => counted_simple (hsim s hm) hwp (hok s (List.mem_filter.1 ((hsrc p).mem_iff.1 hm)).1)
        (of_decide_eq_true (List.mem_filter.1 ((hsrc p).mem_iff.1 hm)).2) i
    obtain ⟨h1, h2⟩ := port_ok (whole := whole) (srcs := srcs) hreq
    constructor
    · intro h i hi
      exact (hd i).1 (h1 h i hi)
    · intro h
      obtain ⟨r, hr⟩ := loop_total (whole := whole) (p := p) (srcs p) [] (fun s hm hsl => by
        have hv : p.var ∈ s.left.vars := of_decide_eq_true (List.mem_filter.1 ((hsrc p).mem_iff.1 hm)).2
        have := hsim s hm
        cases hl : s.left <;> rw [hl] at hv this <;> simp only [Tgt.vars, List.mem_singleton, Simple] at hv this <;> simp [Tgt.root, hv])
      exact h2 r hr fun i hi => (hd i).2 (h i hi)
  rw [verify_iff]
  constructor
  · rintro ⟨h1, h2⟩ p hp
    have hwp := hw p hp
    cases hp with
    | top e hp hd =>
      cases e
      exact (key p true hwp (fun h => hd h.1)).1 (h1 p hp)
    | below hu hp => exact (key p false hwp (fun h => nomatch h.2)).1 (h2 _ _ p hu hp)
  · intro h
    refine ⟨fun p hp => ?_, fun ps ks p hu hp => (key p false (hw p (.below hu hp)) (fun h => nomatch h.2)).2 (h p (.below hu hp))⟩
    by_cases hd : p.dir = .inp
    · simp [checkPort, hd]
    · exact (key p true (hw p (.top rfl hp hd)) (fun h => hd h.1)).2 (h p (.top rfl hp hd))

/-- The bits lie in the variable. -/
def InRange (w : VarId → Nat) : Tgt → Prop
  | .part v _ hi => hi < w v
  | .dyn v _ hi => hi < w v
  | .cast v _ hi => hi < w v
  | .concat l r => InRange w l ∧ InRange w r
  | .dynPart _ _ _ => False
  | .castPart _ _ _ => False

theorem inrange_lt {w : VarId → Nat} {t : Tgt} {v : VarId} {i : Nat} (h : t.MayDrive v i) : InRange w t → i < w v := by
  induction h with
  | part _ h2 => exact fun h => Nat.lt_of_le_of_lt h2 h
  | dyn _ h2 => exact fun h => Nat.lt_of_le_of_lt h2 h
  | dynPart => exact fun h => h.elim
  | cast _ h2 => exact fun h => Nat.lt_of_le_of_lt h2 h
  | castPart => exact fun h => h.elim
  | left _ ih => exact fun h => ih h.1
  | right _ ih => exact fun h => ih h.2

/-- C28, the other half for every kind of left side but parts of casts and of slices by a variable: a design in which every
bit of every required port has a driver is accepted. -/
theorem connected_accepted {stmts : List Src} {srcs : Port → List Src} {ports : List Port} {kids : Gens} {w : VarId → Nat} {whole : Src → Bool}
    (hok : WholeOk w whole stmts) (hsrc : ∀ p, (srcs p).Perm (sources stmts p.var)) (hw : ∀ p, Required (.node false ports kids) p → w p.var = p.width)
    (hs : ∀ s ∈ stmts, InRange w s.left)
    (h : ∀ p, Required (.node false ports kids) p → ∀ i, i < p.width → Driven stmts p i) :
    verify whole srcs (.node false ports kids) = .ok () := by
  have key : ∀ p top, Required (.node false ports kids) p → ¬ (p.dir = .inp ∧ top = true) → checkPort whole top srcs p = .ok () := by
    intro p top hp hreq
    have hr : ∀ s ∈ srcs p, InRange w s.left := fun s hm => hs s (List.mem_filter.1 ((hsrc p).mem_iff.1 hm)).1
    obtain ⟨_, h2⟩ := port_ok (whole := whole) (srcs := srcs) hreq
    obtain ⟨r, hrr⟩ := loop_total (whole := whole) (p := p) (srcs p) [] (fun s hm hsl => by
      have hv : p.var ∈ s.left.vars := of_decide_eq_true (List.mem_filter.1 ((hsrc p).mem_iff.1 hm)).2
      have := hr s hm
      cases hl : s.left <;> rw [hl] at hv this hsl <;> simp only [Tgt.vars, List.mem_singleton, InRange, isSlice] at hv this hsl <;> simp_all [Tgt.root])
    refine h2 r hrr fun i hi => ?_
    obtain ⟨s, hm, hd⟩ := (driven_iff (hsrc p) i).1 (h p hp i hi)
    refine ⟨s, hm, ?_⟩
    have hrs := hr s hm
    cases hl : s.left with
    | part v lo hi' =>
      rw [hl] at hd
      cases hd with
      | part h1 h2 =>
        cases hwh : whole s with
        | true => simpa [counted, hl, hwh, isSlice] using hi
        | false => simp only [counted, hl, hwh, isSlice, Bool.not_false, if_true, Tgt.root, sliceBits, Tgt.byVar, Tgt.range, Bool.false_eq_true, if_false, mem_bits]; exact ⟨trivial, h1, h2⟩
    | dyn v lo hi' =>
      rw [hl] at hd
      cases hd with
      | dyn h1 h2 => simp only [counted, hl, isSlice, if_true, Tgt.root, sliceBits, Tgt.byVar, mem_bits]; exact ⟨trivial, by omega, by omega⟩
    | dynPart v lo hi' => rw [hl] at hrs; exact hrs.elim
    | castPart v lo hi' => rw [hl] at hrs; exact hrs.elim
    | cast v lo hi' => simpa [counted, hl, isSlice] using hi
    | concat l r => simpa [counted, hl, isSlice] using hi
  rw [verify_iff]
  refine ⟨fun p hp => ?_, fun ps ks p hu hp => key p false (.below hu hp) (fun h => nomatch h.2)⟩
  by_cases hd : p.dir = .inp
  · simp [checkPort, hd]
  · exact key p true (.top rfl hp hd) (fun h => hd h.1)

/-! ### Examples and counterexamples -/

def stmt (id : Nat) (t : Tgt) : Src := ⟨id, t, .const, .blocking, []⟩

/-- Output 0 (four bits) driven in two halves, instance input 1 driven whole. -/
def exStmts : List Src := [stmt 0 (.part 0 0 1), stmt 1 (.part 0 2 3), stmt 2 (.part 1 0 0)]
def exGen : Gen := .node false [⟨0, 4, .out⟩, ⟨2, 1, .inp⟩] (.cons (.node false [⟨1, 1, .inp⟩] .nil) .nil)

example : verify (fun _ => false) (fun p => sources exStmts p.var) exGen = .ok () := by decide +kernel
example : ∀ s ∈ exStmts, Simple (fun v => if v = 0 then 4 else 1) s.left := by
  intro s hs
  simp only [exStmts, List.mem_cons, List.not_mem_nil, or_false] at hs
  rcases hs with rfl | rfl | rfl <;> trivial
example : ∀ p, Required exGen p → (fun v => if v = 0 then 4 else 1 : VarId → Nat) p.var = p.width := by
  intro p hp
  cases hp with
  | top e hp hd =>
    cases e
    simp only [List.mem_cons, List.not_mem_nil, or_false] at hp
    rcases hp with rfl | rfl <;> rfl
  | below hu hp =>
    cases hu with
    | kid hb =>
      cases hb with
      | head hb =>
        cases hb with
        | self =>
          simp only [List.mem_cons, List.not_mem_nil, or_false] at hp
          rw [hp]; rfl
        | kid hb => cases hb
      | tail hb => cases hb
/-- The third statement assigns the variable itself. -/
example : WholeOk (fun v => if v = 0 then 4 else 1) (fun s => s.id == 2) exStmts := by
  intro s hs h
  simp only [exStmts, List.mem_cons, List.not_mem_nil, or_false] at hs
  rcases hs with rfl | rfl | rfl
  · cases h
  · cases h
  · exact ⟨1, rfl, by decide⟩
/-- One half missing: refused. -/
example : verify (fun _ => false) (fun p => sources (exStmts.drop 1) p.var) exGen = .throw .stmt := by decide +kernel

/-- `{a[0], b} = …` : bit 1 of output `a` floats, the check accepts. -/
def concatStmts : List Src := [stmt 0 (.concat (.part 0 0 0) (.part 1 0 3))]
def concatGen : Gen := .node false [⟨0, 2, .out⟩] .nil

theorem not_ConnectivityClaim : ¬ ConnectivityClaim := by
  intro h
  have h1 : verify (fun _ => false) (fun p => sources concatStmts p.var) concatGen = .ok () := by decide +kernel
  obtain ⟨s, hs, hd⟩ := (h (fun _ => 2) (fun _ => false) concatStmts _ concatGen (fun _ _ h => nomatch h) (fun p hp => by
    cases hp with
    | top e hp hd => cases e; rw [List.mem_singleton.1 hp]
    | below hu hp => cases hu with | kid hb => cases hb) (fun _ => .refl _)).1 h1 ⟨0, 2, .out⟩ (.top rfl (List.mem_singleton.2 rfl) (by decide)) 1 (by decide)
  rw [concatStmts, List.mem_singleton] at hs
  subst hs
  cases hd with
  | left h => cases h; contradiction
  | right h => cases h

/-- A part of a cast on the left is refused with an internal error although the bit is driven. -/
theorem cast_part_refused : verify (fun _ => false) (fun p => sources [stmt 0 (.castPart 0 0 0)] p.var) (.node false [⟨0, 1, .out⟩] .nil) = .throw .var ∧
    Driven [stmt 0 (.castPart 0 0 0)] ⟨0, 1, .out⟩ 0 :=
  ⟨by decide +kernel, _, List.mem_singleton.2 rfl, .castPart (Nat.le_refl _) (Nat.le_refl _)⟩

/-- Below an external module at the top, the first ordinary module counts as the top: its floating input is accepted. -/
theorem external_top : verify (fun _ => false) (fun p => sources [] p.var) (.node true [] (.cons (.node false [⟨0, 1, .inp⟩] .nil) .nil)) = .ok () ∧
    Required (.node true [] (.cons (.node false [⟨0, 1, .inp⟩] .nil) .nil)) ⟨0, 1, .inp⟩ :=
  ⟨by decide +kernel, .below (.kid (.head .self)) (List.mem_singleton.2 rfl)⟩

end Kratos.Conn
