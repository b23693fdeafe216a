import Verif.Pass.Fanout

/-!
# Removing pass-through modules (property C23, second half)

Models `RemovePassThroughVisitor`, src/optimize.cc:277-368, and the part of `Generator::remove_child_generator` it relies on
(src/generator.cc:437-470), for one instance in its parent.
-/

namespace Kratos.PassT

open Kratos.Fanout

/-! ### Model -/

/-- The instance: its ports in the order of `get_port_names`, the number of variables that are not ports (`get_vars`), its
assignments (in blocks too) and `stmts_count()`, the number of statements at its top.  `cloned` and `known`:
`is_cloned()` and whether the definition it is cloned from was found to be pass-through. -/
structure Child where
  ports : List (VarId × Dir)
  vars : Nat
  stmts : List Asn
  count : Nat
  cloned : Bool
  known : Bool

/-- `Var::sources()`. -/
def sources (B : List Asn) (v : VarId) : List Asn := B.filter fun s => s.lhs == v

/-- `src->type() == VarType::PortIO`, src/optimize.cc:350-351. -/
def portRhs (isPort : VarId → Bool) (s : Asn) : Bool :=
  match s.rhs with
  | .var u => isPort u
  | .expr _ _ => false

/-- The test of one port, src/optimize.cc:339-354. -/
def portOk (isPort : VarId → Bool) (B : List Asn) (p : VarId × Dir) : Bool :=
  if p.2 = .inp then (sinks B p.1).length == 1
  else
    match sources B p.1 with
    | [s] => portRhs isPort s
    | _ => false

/-- `is_pass_through`, src/optimize.cc:316-356.  `P` are the assignments of the parent. -/
def isPass (isPort : VarId → Bool) (P : List Asn) (c : Child) : Bool :=
  if c.cloned then c.known
  else c.vars == 0 && (c.ports.length % 2 == 0 && (c.count == c.ports.length / 2 && c.ports.all (portOk isPort (P ++ c.stmts))))

/-- Replace reads of `o` by reads of `w` (`move_sink_to`, src/expr.cc:1646-1677; its omissions are the subject of other properties). -/
def Rhs.swap (o w : VarId) : Rhs → Rhs
  | .var u => .var (if u = o then w else u)
  | .expr rs t => .expr (rs.map fun u => if u = o then w else u) t

/-- What happens to an assignment of the parent when input `p`, copied by the instance to `next`, becomes variable `w`
(`move_src_to` and `move_sink_to`, src/optimize.cc:308-310).  When `next` is a slice only readers of that very slice object move;
readers of the port itself do not. -/
def subst (p w : VarId) (next : Option VarId) (s : Asn) : Asn :=
  { s with lhs := if s.lhs = p then w else s.lhs,
           rhs := match next with
             | some o => Rhs.swap o w s.rhs
             | none => s.rhs }

/-- One port, src/optimize.cc:291-311.  `w` is the new variable. -/
def movePort (C : List Asn) (w : VarId → VarId) (P : List Asn) (p : VarId × Dir) : Res (List Asn) :=
  if p.2 = .inp then
    match sinks (P ++ C) p.1 with
    | s :: _ => .ok (P.map (subst p.1 (w p.1) (if s.part.isNone then some s.lhs else none)))
    | [] => .ub
  else .ok P

/-- The loop over the ports. -/
def movePorts (C : List Asn) (w : VarId → VarId) : List Asn → List (VarId × Dir) → Res (List Asn)
  | P, [] => .ok P
  | P, p :: ps => (movePort C w P p).bind fun P' => movePorts C w P' ps

/-- `remove_child_generator`, src/generator.cc:437-470: assignments that still read one of its outputs go with it. -/
def dropReaders (c : Child) (P : List Asn) : List Asn :=
  P.filter fun s => c.ports.all fun p => p.2 == .inp || !s.rhs.reads p.1

/-- `RemovePassThroughVisitor::visit` for one instance, src/optimize.cc:279-314. -/
def visit (isPort : VarId → Bool) (w : VarId → VarId) (P : List Asn) (c : Child) : Res (Option (List Asn)) :=
  if isPass isPort P c then
    if c.cloned then .throw .user
    else (movePorts c.stmts w P c.ports).map fun P' => some (dropReaders c P')
  else .ok none

/-! ### Specification -/

/-- What an assignment sees: the sources carried by the variables it reads. -/
def Sees (I : Info) (B : List Asn) (s : Asn) (x : Source) : Prop := ∃ u, s.rhs.reads u = true ∧ Carries I B u x

/-- `v` is a port of the instance. -/
def Child.port (c : Child) (v : VarId) : Prop := ∃ d, (v, d) ∈ c.ports

/-- `A` is the parent without the instance: every assignment of the parent is still there and sees the same sources; it assigns
what it assigned, unless that was a port of the instance; and every other variable carries what it carried. -/
structure Same (I : Info) (c : Child) (w : VarId → VarId) (P A : List Asn) : Prop where
  kept : ∀ s ∈ P, ∃ s' ∈ A, s'.id = s.id ∧ s'.place = s.place ∧ s'.part = s.part ∧ (¬ c.port s.lhs → s'.lhs = s.lhs) ∧
    ∀ x, Sees I A s' x ↔ Sees I (P ++ c.stmts) s x
  only : ∀ s' ∈ A, ∃ s ∈ P, s'.id = s.id ∧ s'.place = s.place ∧ s'.part = s.part ∧ (s'.lhs = s.lhs ∨ ∃ p, s.lhs = p ∧ c.port p ∧ s'.lhs = w p)
  same : ∀ v, ¬ c.port v → (∀ p, c.port p → v ≠ w p) → ∀ x, Carries I A v x ↔ Carries I (P ++ c.stmts) v x

/-- Legal surroundings: ports have different names, input ports of the instance are driven by the parent only and read by the
instance only, its outputs are driven by the instance only, the statements of the instance use its ports only (the stand-in
statement of an `if` condition assigns an auxiliary variable), the new variables are new, and the ports of the instance are not ports of the parent. -/
structure Around (I : Info) (w : VarId → VarId) (P : List Asn) (c : Child) : Prop where
  names : (c.ports.map (·.1)).Nodup
  reads : ∀ s ∈ P, ∀ p, (p, Dir.inp) ∈ c.ports → s.rhs.reads p = false
  writes : ∀ s ∈ P, ∀ p d, (p, d) ∈ c.ports → d ≠ .inp → s.lhs ≠ p
  inside : ∀ s ∈ c.stmts, (s.place = .loose ∨ ∃ d, (s.lhs, d) ∈ c.ports ∧ d ≠ .inp) ∧ ∀ u, s.rhs.reads u = true → c.port u
  fresh : ∀ p, c.port p → (∀ s ∈ P, s.lhs ≠ w p ∧ s.rhs.reads (w p) = false) ∧ ¬ c.port (w p) ∧ I.dir (w p) = none
  inj : ∀ p p', c.port p → c.port p' → w p = w p' → p = p'
  apart : ∀ p, c.port p → I.dir p = none

/-- Full claim (second half of C23): what is removed was a pass-through. -/
def PassClaim : Prop := ∀ (I : Info) (isPort : VarId → Bool) (w : VarId → VarId) (P A : List Asn) (c : Child), Around I w P c →
  visit isPort w P c = .ok (some A) → Same I c w P A

/-- All statements of the instance stand at its top and assign whole ports. -/
structure Flat (c : Child) : Prop where
  top : ∀ s ∈ c.stmts, s.place = .top
  whole : ∀ s ∈ c.stmts, s.part = none
  count : c.count = c.stmts.length

/-! ### Proof -/

/-- Pigeonhole: as many different elements as the list has are all of it. -/
theorem subset_of_length {α : Type} [DecidableEq α] {l₁ l₂ : List α} (hn : l₁.Nodup) (hs : ∀ a ∈ l₁, a ∈ l₂) (hl : l₂.length ≤ l₁.length) : ∀ a ∈ l₂, a ∈ l₁ := by
  intro a ha
  rcases Decidable.em (a ∈ l₁) with h | h
  · exact h
  · exfalso
    have h1 := List.Nodup.length_le_of_subset (l₁ := l₁) (l₂ := l₂.erase a) hn (fun b hb =>
      (List.mem_erase_of_ne (fun e : b = a => h (e ▸ hb))).2 (hs b hb))
    rw [List.length_erase_of_mem ha] at h1
    have h2 : 0 < l₂.length := List.length_pos_of_mem ha
    omega

theorem sources_one {B : List Asn} {v : VarId} {s : Asn} (h : sources B v = [s]) : s ∈ B ∧ s.lhs = v ∧ ∀ t ∈ B, t.lhs = v → t = s := by
  have hs : s ∈ sources B v := by rw [h]; exact List.mem_singleton.2 rfl
  obtain ⟨h1, h2⟩ := List.mem_filter.1 hs
  refine ⟨h1, by simpa using h2, fun t ht e => ?_⟩
  have : t ∈ sources B v := List.mem_filter.2 ⟨ht, by simpa using e⟩
  rw [h] at this
  exact List.mem_singleton.1 this

/-- What the test establishes for an instance with flat statements: a one-to-one wiring of inputs to outputs. -/
structure Wiring (c : Child) : Prop where
  ins : ∀ p, (p, Dir.inp) ∈ c.ports → ∃ s ∈ c.stmts, s.rhs = .var p ∧ sinks c.stmts p = [s]
  outs : ∀ s ∈ c.stmts, (∃ p, (p, Dir.inp) ∈ c.ports ∧ s.rhs = .var p) ∧ ∀ t ∈ c.stmts, t.lhs = s.lhs → t = s
  all : ∀ o d, (o, d) ∈ c.ports → d ≠ .inp → ∃ s ∈ c.stmts, s.lhs = o

theorem same_dir {c : Child} (hn : (c.ports.map (·.1)).Nodup) {v : VarId} {d d' : Dir} (h : (v, d) ∈ c.ports) (h' : (v, d') ∈ c.ports) : d = d' := by
  rw [List.Nodup, List.pairwise_map] at hn
  generalize c.ports = l at *
  induction l with
  | nil => cases h
  | cons a l ih =>
    rw [List.pairwise_cons] at hn
    rcases List.mem_cons.1 h with e | h <;> rcases List.mem_cons.1 h' with e' | h'
    · rw [← e] at e'; injection e' with _ e'; exact e'.symm
    · exact absurd (by rw [← e]) (hn.1 _ h')
    · exact absurd (by rw [← e']) (hn.1 _ h)
    · exact ih hn.2 h h'

theorem Around.outs {I : Info} {w : VarId → VarId} {P : List Asn} {c : Child} (R : Around I w P c) (F : Flat c) (s : Asn) (hs : s ∈ c.stmts) :
    ∃ d, (s.lhs, d) ∈ c.ports ∧ d ≠ .inp := by
  rcases (R.inside s hs).1 with h | h
  · rw [F.top s hs] at h; cases h
  · exact h

theorem wiring {I : Info} {isPort : VarId → Bool} {w : VarId → VarId} {P : List Asn} {c : Child} (hc : c.cloned = false) (h : isPass isPort P c = true)
    (R : Around I w P c) (F : Flat c) : Wiring c := by
  unfold isPass at h
  rw [hc] at h
  simp only [Bool.false_eq_true, if_false, Bool.and_eq_true, beq_iff_eq, List.all_eq_true] at h
  obtain ⟨_, heven, hcount, hall⟩ := h
  rw [F.count] at hcount
  -- inputs
  have hin : ∀ p, (p, Dir.inp) ∈ c.ports → ∃ s, sinks (P ++ c.stmts) p = [s] ∧ s ∈ c.stmts ∧ s.rhs.reads p = true ∧ sinks c.stmts p = [s] := by
    intro p hp
    have h1 := hall _ hp
    simp only [portOk, if_true, beq_iff_eq] at h1
    obtain ⟨s, hs⟩ := List.length_eq_one_iff.1 h1
    obtain ⟨h2, h3, _⟩ := sinks_one hs
    have hP : sinks P p = [] := by
      rw [sinks, List.filter_eq_nil_iff]
      intro t ht
      rw [R.reads t ht p hp]
      exact Bool.false_ne_true
    have hsplit : sinks (P ++ c.stmts) p = sinks P p ++ sinks c.stmts p := List.filter_append ..
    rw [hP, List.nil_append] at hsplit
    rcases List.mem_append.1 h2 with h2 | h2
    · rw [R.reads s h2 p hp] at h3; cases h3
    · exact ⟨s, hs, h2, h3, hsplit ▸ hs⟩
  -- outputs
  have hout : ∀ o d, (o, d) ∈ c.ports → d ≠ .inp → ∃ s, sources (P ++ c.stmts) o = [s] ∧ s ∈ c.stmts ∧ s.lhs = o ∧ (∃ u, s.rhs = .var u) ∧
      ∀ t ∈ c.stmts, t.lhs = o → t = s := by
    intro o d ho hd
    have h1 := hall _ ho
    simp only [portOk, hd, if_false] at h1
    split at h1
    · rename_i s hs
      obtain ⟨h2, h3, h4⟩ := sources_one hs
      refine ⟨s, hs, ?_, h3, ?_, fun t ht e => h4 t (List.mem_append.2 (.inr ht)) e⟩
      · rcases List.mem_append.1 h2 with h2 | h2
        · exact absurd h3 (R.writes s h2 o d ho hd)
        · exact h2
      · unfold portRhs at h1
        split at h1
        · rename_i u hu; exact ⟨u, hu⟩
        · cases h1
    · cases h1
  -- every statement copies one variable into an output
  have hstmt : ∀ s ∈ c.stmts, (∃ u, s.rhs = .var u) ∧ ∀ t ∈ c.stmts, t.lhs = s.lhs → t = s := by
    intro s hs
    obtain ⟨d, h1, h2⟩ := R.outs F s hs
    obtain ⟨s', _, h3, h4, h5, h6⟩ := hout _ d h1 h2
    have := h6 s hs rfl
    subst this
    exact ⟨h5, h6⟩
  -- counting
  let ins := (c.ports.filter fun q => decide (q.2 = Dir.inp)).map (·.1)
  let outs := (c.ports.filter fun q => !decide (q.2 = Dir.inp)).map (·.1)
  have hmi : ∀ p, p ∈ ins → (p, Dir.inp) ∈ c.ports := by
    intro p hp
    obtain ⟨⟨p', d⟩, h1, rfl⟩ := List.mem_map.1 hp
    obtain ⟨h2, h3⟩ := List.mem_filter.1 h1
    have h3 : d = Dir.inp := by simpa using h3
    subst h3
    exact h2
  have hmo : ∀ o, o ∈ outs → ∃ d, (o, d) ∈ c.ports ∧ d ≠ .inp := by
    intro o ho
    obtain ⟨⟨o', d⟩, h1, rfl⟩ := List.mem_map.1 ho
    obtain ⟨h2, h3⟩ := List.mem_filter.1 h1
    have h3 : d ≠ Dir.inp := by simpa using h3
    exact ⟨d, h2, h3⟩
  have hni : ins.Nodup := R.names.sublist (List.filter_sublist.map _)
  have hno : outs.Nodup := R.names.sublist (List.filter_sublist.map _)
  have hlen : ins.length + outs.length = c.ports.length := by
    simp only [ins, outs, List.length_map]
    generalize c.ports = l
    induction l with
    | nil => rfl
    | cons a l ih =>
      simp only [List.filter_cons]
      cases decide (a.2 = Dir.inp) <;> simp <;> omega
  let dflt : Asn := ⟨0, .top, 0, none, .var 0⟩
  let f : VarId → Asn := fun p => (sinks c.stmts p).headD dflt
  let g : VarId → Asn := fun o => (sources (P ++ c.stmts) o).headD dflt
  have hf : ∀ p, (p, Dir.inp) ∈ c.ports → f p ∈ c.stmts ∧ (f p).rhs = .var p := by
    intro p hp
    obtain ⟨s, _, h2, h3, h4⟩ := hin p hp
    have e : f p = s := by simp only [f, h4, List.headD_cons]
    rw [e]
    obtain ⟨u, hu⟩ := (hstmt s h2).1
    refine ⟨h2, ?_⟩
    rw [hu] at h3 ⊢
    have : u = p := by simpa [Rhs.reads] using h3
    rw [this]
  have hg : ∀ o d, (o, d) ∈ c.ports → d ≠ .inp → g o ∈ c.stmts ∧ (g o).lhs = o := by
    intro o d ho hd
    obtain ⟨s, h1, h2, h3, _⟩ := hout o d ho hd
    have e : g o = s := by simp only [g, h1, List.headD_cons]
    rw [e]
    exact ⟨h2, h3⟩
  have hfn : (ins.map f).Nodup := by
    rw [List.Nodup, List.pairwise_map]
    refine List.Pairwise.imp_of_mem ?_ hni
    intro a b ha hb hne e
    have h1 := (hf a (hmi a ha)).2
    have h2 := (hf b (hmi b hb)).2
    rw [e, h2] at h1
    injection h1 with h1
    exact hne h1.symm
  have hgn : (outs.map g).Nodup := by
    rw [List.Nodup, List.pairwise_map]
    refine List.Pairwise.imp_of_mem ?_ hno
    intro a b ha hb hne e
    obtain ⟨da, h1, h2⟩ := hmo a ha
    obtain ⟨db, h3, h4⟩ := hmo b hb
    have h5 := (hg a da h1 h2).2
    have h6 := (hg b db h3 h4).2
    rw [e, h6] at h5
    exact hne h5.symm
  have hfs : ∀ a ∈ ins.map f, a ∈ c.stmts := by
    intro a ha
    obtain ⟨p, hp, rfl⟩ := List.mem_map.1 ha
    exact (hf p (hmi p hp)).1
  have hgs : ∀ a ∈ outs.map g, a ∈ c.stmts := by
    intro a ha
    obtain ⟨o, ho, rfl⟩ := List.mem_map.1 ha
    obtain ⟨d, h1, h2⟩ := hmo o ho
    exact (hg o d h1 h2).1
  have hl1 := List.Nodup.length_le_of_subset hfn hfs
  have hl2 := List.Nodup.length_le_of_subset hgn hgs
  rw [List.length_map] at hl1 hl2
  have hcov := subset_of_length hfn hfs (by rw [List.length_map]; omega)
  refine ⟨fun p hp => ?_, fun s hs => ⟨?_, (hstmt s hs).2⟩, fun o d ho hd => ?_⟩
  · obtain ⟨s, _, h2, h3, h4⟩ := hin p hp
    refine ⟨s, h2, ?_, h4⟩
    obtain ⟨u, hu⟩ := (hstmt s h2).1
    rw [hu] at h3 ⊢
    have : u = p := by simpa [Rhs.reads] using h3
    rw [this]
  · obtain ⟨p, hp, rfl⟩ := List.mem_map.1 (hcov s hs)
    exact ⟨p, hmi p hp, (hf p (hmi p hp)).2⟩
  · exact ⟨g o, hg o d ho hd⟩

theorem swap_reads {o w : VarId} {r : Rhs} {u : VarId} : (Rhs.swap o w r).reads u = true ↔
    (r.reads u = true ∧ u ≠ o) ∨ (r.reads o = true ∧ u = w) := by
  cases r with
  | var a =>
    simp only [Rhs.swap, Rhs.reads, beq_iff_eq]
    rcases Decidable.em (a = o) with e | e
    · rw [if_pos e]
      constructor
      · intro h; exact .inr ⟨e, h.symm⟩
      · rintro (⟨h1, h2⟩ | ⟨_, h⟩)
        · exact absurd (h1.symm.trans e) h2
        · exact h.symm
    · rw [if_neg e]
      constructor
      · intro h; exact .inl ⟨h, fun h2 => e (h.trans h2)⟩
      · rintro (⟨h1, _⟩ | ⟨h, _⟩)
        · exact h1
        · exact absurd h e
  | expr rs t =>
    simp only [Rhs.swap, Rhs.reads, List.contains_iff_mem, List.mem_map]
    constructor
    · rintro ⟨a, ha, h⟩
      rcases Decidable.em (a = o) with e | e
      · rw [if_pos e] at h; exact .inr ⟨e ▸ ha, h.symm⟩
      · rw [if_neg e] at h; exact .inl ⟨h ▸ ha, h ▸ e⟩
    · rintro (⟨h1, h2⟩ | ⟨h1, h2⟩)
      · exact ⟨u, h1, if_neg h2⟩
      · exact ⟨o, h1, by rw [if_pos rfl]; exact h2.symm⟩

theorem subst_copy {p w o : VarId} {s : Asn} {u : VarId} : Copy (subst p w (some o) s) u ↔ ∃ a, Copy s a ∧ u = if a = o then w else a := by
  simp only [Copy, subst]
  constructor
  · rintro ⟨h1, h2, h3⟩
    cases hr : s.rhs with
    | var a =>
      rw [hr] at h3
      simp only [Rhs.swap] at h3
      injection h3 with h3
      exact ⟨a, ⟨h1, h2, rfl⟩, h3.symm⟩
    | expr rs t => rw [hr] at h3; simp [Rhs.swap] at h3
  · rintro ⟨a, ⟨h1, h2, h3⟩, rfl⟩
    exact ⟨h1, h2, by rw [h3]; rfl⟩

/-- The situation when one input port is replaced. -/
structure Turn (I : Info) (c : Child) (P : List Asn) (p w : VarId) (s : Asn) : Prop where
  wire : Wiring c
  names : (c.ports.map (·.1)).Nodup
  inside : ∀ s ∈ c.stmts, (∃ d, (s.lhs, d) ∈ c.ports ∧ d ≠ .inp)
  flat : Flat c
  port : (p, Dir.inp) ∈ c.ports
  stmt : s ∈ c.stmts
  copies : s.rhs = .var p
  sole : sinks c.stmts p = [s]
  reads : ∀ t ∈ P, ∀ p', (p', Dir.inp) ∈ c.ports → t.rhs.reads p' = false
  writes : ∀ t ∈ P, ∀ o d, (o, d) ∈ c.ports → d ≠ .inp → t.lhs ≠ o
  fresh : ∀ t ∈ P, t.lhs ≠ w ∧ t.rhs.reads w = false
  new : ¬ c.port w
  dirw : I.dir w = none
  apart : ∀ v, c.port v → I.dir v = none

section
variable {I : Info} {c : Child} {P : List Asn} {p w : VarId} {s : Asn}

theorem Turn.in_ne_out (T : Turn I c P p w s) {a : VarId} (ha : (a, Dir.inp) ∈ c.ports) {t : Asn} (ht : t ∈ c.stmts) : a ≠ t.lhs := by
  rintro rfl
  obtain ⟨d, h1, h2⟩ := T.inside t ht
  exact h2 (same_dir T.names h1 ha)

theorem Turn.child_reads (T : Turn I c P p w s) {t : Asn} (ht : t ∈ c.stmts) {u : VarId} (h : t.rhs.reads u = true) : (u, Dir.inp) ∈ c.ports := by
  obtain ⟨⟨a, h1, h2⟩, _⟩ := T.wire.outs t ht
  rw [h2] at h
  have : a = u := by simpa [Rhs.reads] using h
  exact this ▸ h1

theorem Turn.step_copy (T : Turn I c P p w s) {x : Source} {B : List Asn} (h : Carries I (B ++ c.stmts) p x) : Carries I (B ++ c.stmts) s.lhs x :=
  .copy (List.mem_append.2 (.inr T.stmt)) ⟨.inl (T.flat.top s T.stmt), T.flat.whole s T.stmt, T.copies⟩ h

theorem Turn.sole_reader (T : Turn I c P p w s) {t : Asn} (ht : t ∈ c.stmts) (h : t.rhs.reads p = true) : t = s := (sinks_one T.sole).2.2 t ht h

theorem turn_back (T : Turn I c P p w s) {v : VarId} {x : Source} (h : Carries I (P.map (subst p w (some s.lhs)) ++ c.stmts) v x) :
    (v ≠ w → Carries I (P ++ c.stmts) v x) ∧ (v = w → Carries I (P ++ c.stmts) p x) := by
  induction h with
  | @input v hv =>
    exact ⟨fun _ => .input hv, fun e => by rw [e, T.dirw] at hv; cases hv⟩
  | @stmt t' ht hl hn =>
    rcases List.mem_append.1 ht with ht | ht
    · obtain ⟨t, h1, rfl⟩ := List.mem_map.1 ht
      have hc : Carries I (P ++ c.stmts) t.lhs (.stmt t.id t.part) :=
        .stmt (List.mem_append.2 (.inl h1)) hl (fun u hu => hn _ (subst_copy.2 ⟨u, hu, rfl⟩))
      show ((if t.lhs = p then w else t.lhs) ≠ w → _) ∧ ((if t.lhs = p then w else t.lhs) = w → _)
      rcases Decidable.em (t.lhs = p) with e | e
      · simp only [e, if_true]
        exact ⟨fun hh => absurd rfl hh, fun _ => e ▸ hc⟩
      · simp only [subst, if_neg e]
        exact ⟨fun _ => hc, fun hh => absurd hh (T.fresh t h1).1⟩
    · refine ⟨fun _ => .stmt (List.mem_append.2 (.inr ht)) hl hn, fun e => ?_⟩
      obtain ⟨d, h1, _⟩ := T.inside _ ht
      exact absurd ⟨d, e ▸ h1⟩ T.new
  | @copy t' u x ht hc _ ih =>
    rcases List.mem_append.1 ht with ht | ht
    · obtain ⟨t, h1, rfl⟩ := List.mem_map.1 ht
      obtain ⟨a, ha, rfl⟩ := subst_copy.1 hc
      have hcarry : Carries I (P ++ c.stmts) t.lhs x := by
        refine .copy (List.mem_append.2 (.inl h1)) ha ?_
        rcases Decidable.em (a = s.lhs) with e | e
        · rw [e]
          exact T.step_copy (ih.2 (if_pos e))
        · rw [if_neg e] at ih
          refine ih.1 (fun e' => ?_)
          have := (T.fresh t h1).2
          rw [ha.2.2, ← e'] at this
          simp [Rhs.reads] at this
      show ((if t.lhs = p then w else t.lhs) ≠ w → _) ∧ ((if t.lhs = p then w else t.lhs) = w → _)
      rcases Decidable.em (t.lhs = p) with e | e
      · simp only [e, if_true]
        exact ⟨fun hh => absurd rfl hh, fun _ => e ▸ hcarry⟩
      · simp only [subst, if_neg e]
        exact ⟨fun _ => hcarry, fun hh => absurd hh (T.fresh t h1).1⟩
    · constructor
      · intro _
        refine .copy (List.mem_append.2 (.inr ht)) hc (ih.1 (fun e => ?_))
        have := T.child_reads ht (u := u) (by rw [hc.2.2]; simp [Rhs.reads])
        exact T.new ⟨_, e ▸ this⟩
      · intro e
        obtain ⟨d, h1, _⟩ := T.inside _ ht
        exact absurd ⟨d, e ▸ h1⟩ T.new

theorem turn_forth (T : Turn I c P p w s) {v : VarId} {x : Source} (h : Carries I (P ++ c.stmts) v x) :
    (v ≠ p → v ≠ s.lhs → Carries I (P.map (subst p w (some s.lhs)) ++ c.stmts) v x) ∧
    (v = p ∨ v = s.lhs → Carries I (P.map (subst p w (some s.lhs)) ++ c.stmts) w x) := by
  obtain ⟨ds, hs1, hs2⟩ := T.inside s T.stmt
  induction h with
  | @input v hv =>
    refine ⟨fun _ _ => .input hv, ?_⟩
    rintro (rfl | rfl)
    · rw [T.apart _ ⟨_, T.port⟩] at hv; cases hv
    · rw [T.apart _ ⟨_, hs1⟩] at hv; cases hv
  | @stmt t ht hl hn =>
    rcases List.mem_append.1 ht with ht | ht
    · have hmem : subst p w (some s.lhs) t ∈ P.map (subst p w (some s.lhs)) ++ c.stmts := List.mem_append.2 (.inl (List.mem_map.2 ⟨t, ht, rfl⟩))
      have hc : Carries I (P.map (subst p w (some s.lhs)) ++ c.stmts) (if t.lhs = p then w else t.lhs) (.stmt t.id t.part) :=
        .stmt hmem hl (fun u hu => by
          obtain ⟨a, ha, _⟩ := subst_copy.1 hu
          exact hn a ha)
      constructor
      · intro h1 _
        rw [if_neg h1] at hc
        exact hc
      · rintro (e | e)
        · rw [if_pos e] at hc
          exact hc
        · exact absurd e (T.writes t ht _ ds hs1 hs2)
    · obtain ⟨⟨a, _, h2⟩, _⟩ := T.wire.outs t ht
      exact absurd ⟨.inl (T.flat.top t ht), T.flat.whole t ht, h2⟩ (hn a)
  | @copy t u x ht hc _ ih =>
    rcases List.mem_append.1 ht with ht | ht
    · have hmem : subst p w (some s.lhs) t ∈ P.map (subst p w (some s.lhs)) ++ c.stmts := List.mem_append.2 (.inl (List.mem_map.2 ⟨t, ht, rfl⟩))
      have hup : u ≠ p := by
        rintro rfl
        have := T.reads t ht _ T.port
        rw [hc.2.2] at this
        simp [Rhs.reads] at this
      have hcarry : Carries I (P.map (subst p w (some s.lhs)) ++ c.stmts) (if t.lhs = p then w else t.lhs) x := by
        refine .copy hmem (subst_copy.2 ⟨u, hc, rfl⟩) ?_
        rcases Decidable.em (u = s.lhs) with e | e
        · rw [if_pos e]; exact ih.2 (.inr e)
        · rw [if_neg e]; exact ih.1 hup e
      constructor
      · intro h1 _
        rw [if_neg h1] at hcarry
        exact hcarry
      · rintro (e | e)
        · rw [if_pos e] at hcarry
          exact hcarry
        · exact absurd e (T.writes t ht _ ds hs1 hs2)
    · have hu : (u, Dir.inp) ∈ c.ports := T.child_reads ht (by rw [hc.2.2]; simp [Rhs.reads])
      have huo : u ≠ s.lhs := T.in_ne_out hu T.stmt
      constructor
      · intro _ h2
        refine .copy (List.mem_append.2 (.inr ht)) hc (ih.1 (fun e => ?_) huo)
        have : t = s := T.sole_reader ht (by rw [hc.2.2, e]; simp [Rhs.reads])
        exact h2 (this ▸ rfl)
      · rintro (e | e)
        · exact absurd e.symm (T.in_ne_out T.port ht)
        · have hts : s = t := (T.wire.outs t ht).2 s T.stmt e.symm
          have hup : u = p := by
            have h1 := T.copies
            rw [hts, hc.2.2] at h1
            injection h1
          exact ih.2 (.inl hup)

/-- An assignment of the parent sees the same sources after a port is replaced. -/
theorem turn_sees (T : Turn I c P p w s) {t : Asn} (ht : t ∈ P) (x : Source) :
    Sees I (P.map (subst p w (some s.lhs)) ++ c.stmts) (subst p w (some s.lhs) t) x ↔ Sees I (P ++ c.stmts) t x := by
  constructor
  · rintro ⟨u, hr, hc⟩
    rcases swap_reads.1 hr with ⟨h1, h2⟩ | ⟨h1, rfl⟩
    · refine ⟨u, h1, (turn_back T hc).1 (fun e => ?_)⟩
      have := (T.fresh t ht).2
      rw [← e, h1] at this
      cases this
    · exact ⟨s.lhs, h1, T.step_copy ((turn_back T hc).2 rfl)⟩
  · rintro ⟨u, hr, hc⟩
    rcases Decidable.em (u = s.lhs) with e | e
    · exact ⟨w, swap_reads.2 (.inr ⟨e ▸ hr, rfl⟩), (turn_forth T hc).2 (.inr e)⟩
    · refine ⟨u, swap_reads.2 (.inl ⟨hr, e⟩), (turn_forth T hc).1 (fun e' => ?_) e⟩
      have := T.reads t ht _ T.port
      rw [← e', hr] at this
      cases this

end

/-- Facts about the parent kept while the ports are replaced one after another; `todo` are the ports to come. -/
structure State (I : Info) (c : Child) (w : VarId → VarId) (P : List Asn) (todo : List (VarId × Dir)) : Prop where
  reads : ∀ t ∈ P, ∀ p, (p, Dir.inp) ∈ c.ports → t.rhs.reads p = false
  writes : ∀ t ∈ P, ∀ o d, (o, d) ∈ c.ports → d ≠ .inp → t.lhs ≠ o
  fresh : ∀ q ∈ todo, ∀ t ∈ P, t.lhs ≠ w q.1 ∧ t.rhs.reads (w q.1) = false
  done : ∀ o d, (o, d) ∈ c.ports → d ≠ .inp → (∀ q ∈ todo, q.2 = .inp → ∀ s ∈ c.stmts, s.lhs = o → s.rhs ≠ .var q.1) →
    ∀ t ∈ P, t.rhs.reads o = false

/-- What one or several replacements do. -/
structure Moved (I : Info) (c : Child) (w : VarId → VarId) (P P' : List Asn) : Prop where
  kept : ∀ s ∈ P, ∃ s' ∈ P', s'.id = s.id ∧ s'.place = s.place ∧ s'.part = s.part ∧ (¬ c.port s.lhs → s'.lhs = s.lhs) ∧
    ∀ x, Sees I (P' ++ c.stmts) s' x ↔ Sees I (P ++ c.stmts) s x
  only : ∀ s' ∈ P', ∃ s ∈ P, s'.id = s.id ∧ s'.place = s.place ∧ s'.part = s.part ∧ (s'.lhs = s.lhs ∨ ∃ p, s.lhs = p ∧ c.port p ∧ s'.lhs = w p)
  same : ∀ v, ¬ c.port v → (∀ p, c.port p → v ≠ w p) → ∀ x, Carries I (P' ++ c.stmts) v x ↔ Carries I (P ++ c.stmts) v x

theorem moves {I : Info} {c : Child} {w : VarId → VarId} (W : Wiring c) (hn : (c.ports.map (·.1)).Nodup)
    (hi : ∀ s ∈ c.stmts, ∃ d, (s.lhs, d) ∈ c.ports ∧ d ≠ .inp) (F : Flat c)
    (hnew : ∀ p, c.port p → ¬ c.port (w p) ∧ I.dir (w p) = none) (hinj : ∀ p p', c.port p → c.port p' → w p = w p' → p = p')
    (hap : ∀ p, c.port p → I.dir p = none) : ∀ (todo : List (VarId × Dir)) (P P' : List Asn), (∀ q ∈ todo, q ∈ c.ports) → (todo.map (·.1)).Nodup →
    State I c w P todo → movePorts c.stmts w P todo = .ok P' → Moved I c w P P' ∧ State I c w P' []
  | [], P, P', _, _, S, h => by
    have : P = P' := Res.ok.inj h
    subst this
    exact ⟨⟨fun s hs => ⟨s, hs, rfl, rfl, rfl, fun _ => rfl, fun _ => Iff.rfl⟩, fun s hs => ⟨s, hs, rfl, rfl, rfl, .inl rfl⟩, fun _ _ _ _ => Iff.rfl⟩, S⟩
  | q :: todo, P, P', hsub, hnd, S, h => by
    simp only [movePorts, Res.bind_eq_ok] at h
    obtain ⟨P1, h1, h⟩ := h
    rw [List.map_cons, List.nodup_cons] at hnd
    have hq := hsub q (List.mem_cons_self ..)
    unfold movePort at h1
    split at h1
    · rename_i hdir
      obtain ⟨p, d⟩ := q
      simp only at hdir
      subst hdir
      obtain ⟨s, hs, hcp, hsole⟩ := W.ins p hq
      have hP : sinks P p = [] := by
        rw [sinks, List.filter_eq_nil_iff]
        intro t ht
        rw [S.reads t ht p hq]
        exact Bool.false_ne_true
      have hsplit : sinks (P ++ c.stmts) p = sinks P p ++ sinks c.stmts p := List.filter_append ..
      rw [hP, List.nil_append, hsole] at hsplit
      have hpart : s.part.isNone = true := by rw [F.whole s hs]; rfl
      simp only [hsplit, hpart, if_true] at h1
      have h1 := (Res.ok.inj h1).symm
      subst h1
      have T : Turn I c P p (w p) s := ⟨W, hn, hi, F, hq, hs, hcp, hsole, S.reads, S.writes, S.fresh (p, .inp) (List.mem_cons_self ..),
        (hnew p ⟨_, hq⟩).1, (hnew p ⟨_, hq⟩).2, hap⟩
      have hport : c.port p := ⟨_, hq⟩
      have S1 : State I c w (P.map (subst p (w p) (some s.lhs))) todo := by
        refine ⟨?_, ?_, ?_, ?_⟩
        · intro t' ht' p' hp'
          obtain ⟨t, ht, rfl⟩ := List.mem_map.1 ht'
          cases hh : (subst p (w p) (some s.lhs) t).rhs.reads p' with
          | false => rfl
          | true =>
            rcases swap_reads.1 hh with ⟨h3, _⟩ | ⟨_, e⟩
            · rw [S.reads t ht p' hp'] at h3; exact h3.symm
            · exact absurd ⟨_, e ▸ hp'⟩ (hnew p hport).1
        · intro t' ht' o d ho hd
          obtain ⟨t, ht, rfl⟩ := List.mem_map.1 ht'
          show (if t.lhs = p then w p else t.lhs) ≠ o
          split
          · intro e; exact (hnew p hport).1 ⟨_, e ▸ ho⟩
          · exact S.writes t ht o d ho hd
        · intro q' hq' t' ht'
          obtain ⟨t, ht, rfl⟩ := List.mem_map.1 ht'
          have hold := S.fresh q' (List.mem_cons_of_mem _ hq') t ht
          have hne : w p ≠ w q'.1 := fun e => by
            have := hinj p q'.1 hport ⟨_, hsub q' (List.mem_cons_of_mem _ hq')⟩ e
            exact hnd.1 (this ▸ List.mem_map.2 ⟨q', hq', rfl⟩)
          constructor
          · show (if t.lhs = p then w p else t.lhs) ≠ w q'.1
            split
            · exact hne
            · exact hold.1
          · cases hh : (subst p (w p) (some s.lhs) t).rhs.reads (w q'.1) with
            | false => rfl
            | true =>
              rcases swap_reads.1 hh with ⟨h3, _⟩ | ⟨_, e⟩
              · rw [hold.2] at h3; exact h3.symm
              · exact absurd e.symm hne
        · intro o d ho hd hlater t' ht'
          obtain ⟨t, ht, rfl⟩ := List.mem_map.1 ht'
          cases hh : (subst p (w p) (some s.lhs) t).rhs.reads o with
          | false => rfl
          | true =>
            rcases swap_reads.1 hh with ⟨h3, hne⟩ | ⟨_, e⟩
            · have hold := S.done o d ho hd (by
                intro q' hq' hd' s' hs' e'
                rcases List.mem_cons.1 hq' with rfl | hq'
                · intro hv
                  apply hne
                  have : s' = s := T.sole_reader hs' (by rw [hv]; simp [Rhs.reads])
                  rw [← e', this]
                · exact hlater q' hq' hd' s' hs' e') t ht
              rw [hold] at h3; exact h3.symm
            · exact absurd ⟨_, e ▸ ho⟩ (hnew p hport).1
      obtain ⟨M, S'⟩ := moves W hn hi F hnew hinj hap todo _ P' (fun q' hq' => hsub q' (List.mem_cons_of_mem _ hq')) hnd.2 S1 h
      obtain ⟨ds, hs1, hs2⟩ := hi s hs
      refine ⟨⟨?_, ?_, ?_⟩, S'⟩
      · intro t ht
        obtain ⟨t2, m1, m2, m3, m4, m5, m6⟩ := M.kept _ (List.mem_map.2 ⟨t, ht, rfl⟩)
        refine ⟨t2, m1, m2, m3, m4, fun hnp => ?_, fun x => (m6 x).trans (turn_sees T ht x)⟩
        have hne : t.lhs ≠ p := fun e => hnp (e ▸ hport)
        have e1 : (subst p (w p) (some s.lhs) t).lhs = t.lhs := if_neg hne
        rw [m5 (by rw [e1]; exact hnp), e1]
      · intro t2 ht2
        obtain ⟨t1, m1, m2, m3, m4, m5⟩ := M.only t2 ht2
        obtain ⟨t, ht, rfl⟩ := List.mem_map.1 m1
        refine ⟨t, ht, m2, m3, m4, ?_⟩
        rcases Decidable.em (t.lhs = p) with e | e
        · have e1 : (subst p (w p) (some s.lhs) t).lhs = w p := if_pos e
          rw [e1] at m5
          right
          refine ⟨p, e, hport, ?_⟩
          rcases m5 with m5 | ⟨p', m5, m6, _⟩
          · exact m5
          · exact absurd (m5 ▸ m6) (hnew p hport).1
        · have e1 : (subst p (w p) (some s.lhs) t).lhs = t.lhs := if_neg e
          rw [e1] at m5
          exact m5
      · intro v hv hw x
        refine (M.same v hv hw x).trans ⟨fun hc => (turn_back T hc).1 (hw p hport), fun hc => (turn_forth T hc).1 (fun e => hv (e ▸ hport)) (fun e => hv ⟨_, e ▸ hs1⟩)⟩
    · rename_i hdir
      have h1 := Res.ok.inj h1
      subst h1
      have S1 : State I c w P todo := ⟨S.reads, S.writes, fun q' hq' => S.fresh q' (List.mem_cons_of_mem _ hq'), fun o d ho hd hl => S.done o d ho hd (by
        intro q' hq' hd'
        rcases List.mem_cons.1 hq' with rfl | hq'
        · exact absurd hd' hdir
        · exact hl q' hq' hd')⟩
      exact moves W hn hi F hnew hinj hap todo P P' (fun q' hq' => hsub q' (List.mem_cons_of_mem _ hq')) hnd.2 S1 h

/-- Once the parent reads no port of the instance, the statements of the instance do not matter. -/
theorem drop_child {I : Info} {c : Child} {P : List Asn} (hi : ∀ s ∈ c.stmts, ∃ d, (s.lhs, d) ∈ c.ports ∧ d ≠ .inp)
    (hr : ∀ t ∈ P, ∀ v, c.port v → t.rhs.reads v = false) {v : VarId} (hv : ¬ c.port v) (x : Source) : Carries I P v x ↔ Carries I (P ++ c.stmts) v x := by
  constructor
  · intro h
    clear hv
    induction h with
    | input h => exact .input h
    | stmt h1 h2 h3 => exact .stmt (List.mem_append.2 (.inl h1)) h2 h3
    | copy h1 h2 _ ih => exact .copy (List.mem_append.2 (.inl h1)) h2 ih
  · intro h
    induction h with
    | input h => exact .input h
    | stmt h1 h2 h3 =>
      rcases List.mem_append.1 h1 with h1 | h1
      · exact .stmt h1 h2 h3
      · obtain ⟨d, h4, _⟩ := hi _ h1
        exact absurd ⟨d, h4⟩ hv
    | @copy t u x h1 h2 _ ih =>
      rcases List.mem_append.1 h1 with h1 | h1
      · refine .copy h1 h2 (ih (fun hp => ?_))
        have := hr t h1 u hp
        rw [h2.2.2] at this
        simp [Rhs.reads] at this
      · obtain ⟨d, h4, _⟩ := hi _ h1
        exact absurd ⟨d, h4⟩ hv

/-! ### Property theorems -/

/-- C23, pass-through modules: when the statements of the removed instance stand at its top and assign whole ports, every assignment
of the parent survives and sees the same sources, and every other variable carries what it carried. -/
theorem pass_through_partial {I : Info} {isPort : VarId → Bool} {w : VarId → VarId} {P A : List Asn} {c : Child} (R : Around I w P c) (F : Flat c)
    (h : visit isPort w P c = .ok (some A)) : Same I c w P A := by
  unfold visit at h
  split at h
  · rename_i hp
    split at h
    · cases h
    · rename_i hcl
      have hcl : c.cloned = false := by simpa using hcl
      have W := wiring hcl hp R F
      cases hm : movePorts c.stmts w P c.ports with
      | throw e => rw [hm] at h; cases h
      | ub => rw [hm] at h; cases h
      | ok P' =>
        rw [hm] at h
        simp only [Res.ok_map] at h
        have h := Option.some.inj (Res.ok.inj h)
        have hi : ∀ s ∈ c.stmts, ∃ d, (s.lhs, d) ∈ c.ports ∧ d ≠ .inp := fun s hs => R.outs F s hs
        obtain ⟨M, S⟩ := moves W R.names hi F (fun p hp => (R.fresh p hp).2) R.inj R.apart c.ports P P' (fun _ h => h) R.names
          ⟨R.reads, R.writes, fun q hq => (R.fresh q.1 ⟨_, hq⟩).1, fun o d ho hd hl t ht => by
            exfalso
            obtain ⟨s, hs, e⟩ := W.all o d ho hd
            obtain ⟨⟨p, hp, hv⟩, _⟩ := W.outs s hs
            exact hl (p, .inp) hp rfl s hs e hv⟩ hm
        have hr : ∀ t ∈ P', ∀ v, c.port v → t.rhs.reads v = false := by
          rintro t ht v ⟨d, hd⟩
          rcases Decidable.em (d = .inp) with rfl | hne
          · exact S.reads t ht v hd
          · exact S.done v d hd hne (fun _ hh => nomatch hh) t ht
        have hA : A = P' := by
          rw [← h]
          unfold dropReaders
          rw [List.filter_eq_self]
          intro t ht
          rw [List.all_eq_true]
          rintro ⟨v, d⟩ hv
          simp [hr t ht v ⟨d, hv⟩]
        subst hA
        have hd : ∀ v, ¬ c.port v → ∀ x, Carries I A v x ↔ Carries I (A ++ c.stmts) v x := fun v hv x => drop_child hi hr hv x
        refine ⟨?_, M.only, fun v hv hw x => (hd v hv x).trans (M.same v hv hw x)⟩
        intro s hs
        obtain ⟨s', m1, m2, m3, m4, m5, m6⟩ := M.kept s hs
        refine ⟨s', m1, m2, m3, m4, m5, fun x => Iff.trans ?_ (m6 x)⟩
        constructor
        · rintro ⟨u, h1, h2⟩
          have hu : ¬ c.port u := fun hp => by rw [hr s' m1 u hp] at h1; cases h1
          exact ⟨u, h1, (hd u hu x).1 h2⟩
        · rintro ⟨u, h1, h2⟩
          have hu : ¬ c.port u := fun hp => by rw [hr s' m1 u hp] at h1; cases h1
          exact ⟨u, h1, (hd u hu x).2 h2⟩
  · cases h

/-- An instance with a clone of a removed definition makes the pass fail. -/
theorem clone_refused (isPort : VarId → Bool) (w : VarId → VarId) (P : List Asn) (c : Child) (h1 : c.cloned = true) (h2 : c.known = true) :
    visit isPort w P c = .throw .user := by
  have : isPass isPort P c = true := by unfold isPass; rw [if_pos h1]; exact h2
  unfold visit
  rw [if_pos this, if_pos h1]

/-! ### Examples -/

/-- Variables 10 and 11 are inputs of the parent, 12 and 13 its outputs. -/
def info : Info := ⟨fun v => decide (10 ≤ v), fun _ => false, fun v => if v = 10 ∨ v = 11 then some .inp else if v = 12 ∨ v = 13 then some .out else none⟩

theorem info_none (v : Nat) (h : v ≤ 9 ∨ 14 ≤ v) : info.dir v = none := by
  show (if v = 10 ∨ v = 11 then some Dir.inp else if v = 12 ∨ v = 13 then some Dir.out else none) = none
  rw [if_neg (by omega), if_neg (by omega)]

/-- Two inputs (1, 2) and two outputs (3, 4), crossed. -/
def crossed : Child := ⟨[(1, .inp), (2, .inp), (3, .out), (4, .out)], 0, [cp 50 3 2, cp 51 4 1], 2, false, false⟩

/-- The parent: connects the inputs to its own, and uses the outputs in a copy and in an expression. -/
def parent : List Asn := [cp 60 1 10, ⟨61, .top, 2, none, .expr [10, 11] 5⟩, cp 62 12 3, ⟨63, .block, 13, none, .expr [4, 3] 6⟩]

def fresh (v : VarId) : VarId := v + 100

theorem crossed_run : visit (fun v => decide (1 ≤ v ∧ v ≤ 4)) fresh parent crossed =
    .ok (some [cp 60 101 10, ⟨61, .top, 102, none, .expr [10, 11] 5⟩, cp 62 12 102, ⟨63, .block, 13, none, .expr [101, 102] 6⟩]) := rfl

theorem port_le {c : Child} {n : Nat} (h : ∀ q ∈ c.ports, q.1 ≤ n) {v : VarId} : c.port v → v ≤ n := by
  rintro ⟨d, hd⟩
  exact h _ hd

theorem crossed_around : Around info fresh parent crossed := by
  have hp : ∀ v : Nat, crossed.port v → v ≤ 4 := fun v => port_le (n := 4) (by decide)
  refine ⟨by decide, ?_, ?_, ?_, ?_, ?_, ?_⟩
  · intro s hs p hp
    simp only [crossed, List.mem_cons, Prod.mk.injEq, List.not_mem_nil, or_false, reduceCtorEq, and_false, and_true] at hp
    simp only [parent, List.mem_cons, List.not_mem_nil, or_false] at hs
    rcases hs with rfl | rfl | rfl | rfl <;> rcases hp with rfl | rfl <;> rfl
  · intro s hs p d hp hd
    simp only [crossed, List.mem_cons, Prod.mk.injEq, List.not_mem_nil, or_false] at hp
    simp only [parent, List.mem_cons, List.not_mem_nil, or_false] at hs
    rcases hp with ⟨rfl, rfl⟩ | ⟨rfl, rfl⟩ | ⟨rfl, rfl⟩ | ⟨rfl, rfl⟩
    · exact absurd rfl hd
    · exact absurd rfl hd
    · rcases hs with rfl | rfl | rfl | rfl <;> decide
    · rcases hs with rfl | rfl | rfl | rfl <;> decide
  · intro s hs
    simp only [crossed, List.mem_cons, List.not_mem_nil, or_false] at hs
    rcases hs with rfl | rfl
    · refine ⟨.inr ⟨.out, by decide, by decide⟩, fun u hu => ?_⟩
      have : 2 = u := by simpa [cp, Rhs.reads] using hu
      exact ⟨.inp, this ▸ by decide⟩
    · refine ⟨.inr ⟨.out, by decide, by decide⟩, fun u hu => ?_⟩
      have : 1 = u := by simpa [cp, Rhs.reads] using hu
      exact ⟨.inp, this ▸ by decide⟩
  · intro (p : Nat) h
    have hle := hp p h
    refine ⟨?_, fun h2 => ?_, ?_⟩
    · intro s hs
      simp only [parent, List.mem_cons, List.not_mem_nil, or_false] at hs
      rcases hs with rfl | rfl | rfl | rfl <;> simp [cp, fresh, Rhs.reads] <;> omega
    · have : p + 100 ≤ 4 := hp _ h2
      omega
    · exact info_none (p + 100) (by omega)
  · intro (p : Nat) (p' : Nat) _ _ h
    exact Nat.add_right_cancel h
  · intro (p : Nat) h
    have := hp p h
    exact info_none p (by omega)

example : Same info crossed fresh parent [cp 60 101 10, ⟨61, .top, 102, none, .expr [10, 11] 5⟩, cp 62 12 102, ⟨63, .block, 13, none, .expr [101, 102] 6⟩] :=
  pass_through_partial crossed_around ⟨by decide, by decide, rfl⟩ crossed_run

/-- A latch: inputs `d` (1) and `en` (2), outputs `q` (3) and `qq` (4); `always_latch if (en) q = d;` and `assign qq = q;`.  The
stand-in statement of the condition (52) assigns the auxiliary variable 9. -/
def latch : Child := ⟨[(1, .inp), (2, .inp), (3, .out), (4, .out)], 0, [⟨50, .block, 3, none, .var 1⟩, cp 51 4 3, ⟨52, .loose, 9, none, .var 2⟩], 2, false, false⟩

def latchParent : List Asn := [cp 60 1 10, cp 61 2 11, cp 62 12 3, cp 63 13 4]

/-- It is removed: `q` becomes a plain copy of `d`, and output 13 of the parent is left without a driver. -/
theorem latch_removed : visit (fun v => decide (1 ≤ v ∧ v ≤ 4)) fresh latchParent latch = .ok (some [cp 60 101 10, cp 61 102 11, cp 62 12 101]) := rfl

theorem latch_around : Around info fresh latchParent latch := by
  have hp : ∀ v : Nat, latch.port v → v ≤ 4 := fun v => port_le (n := 4) (by decide)
  refine ⟨by decide, ?_, ?_, ?_, ?_, ?_, ?_⟩
  · intro s hs p hp
    simp only [latch, List.mem_cons, Prod.mk.injEq, List.not_mem_nil, or_false, reduceCtorEq, and_false, and_true] at hp
    simp only [latchParent, List.mem_cons, List.not_mem_nil, or_false] at hs
    rcases hs with rfl | rfl | rfl | rfl <;> rcases hp with rfl | rfl <;> rfl
  · intro s hs p d hp hd
    simp only [latch, List.mem_cons, Prod.mk.injEq, List.not_mem_nil, or_false] at hp
    simp only [latchParent, List.mem_cons, List.not_mem_nil, or_false] at hs
    rcases hp with ⟨rfl, rfl⟩ | ⟨rfl, rfl⟩ | ⟨rfl, rfl⟩ | ⟨rfl, rfl⟩
    · exact absurd rfl hd
    · exact absurd rfl hd
    · rcases hs with rfl | rfl | rfl | rfl <;> decide
    · rcases hs with rfl | rfl | rfl | rfl <;> decide
  · intro s hs
    simp only [latch, List.mem_cons, List.not_mem_nil, or_false] at hs
    rcases hs with rfl | rfl | rfl
    · refine ⟨.inr ⟨.out, by decide, by decide⟩, fun u hu => ?_⟩
      have : 1 = u := by simpa [Rhs.reads] using hu
      exact ⟨.inp, this ▸ by decide⟩
    · refine ⟨.inr ⟨.out, by decide, by decide⟩, fun u hu => ?_⟩
      have : 3 = u := by simpa [cp, Rhs.reads] using hu
      exact ⟨.out, this ▸ by decide⟩
    · refine ⟨.inl rfl, fun u hu => ?_⟩
      have : 2 = u := by simpa [Rhs.reads] using hu
      exact ⟨.inp, this ▸ by decide⟩
  · intro (p : Nat) h
    have hle := hp p h
    refine ⟨?_, fun h2 => ?_, ?_⟩
    · intro s hs
      simp only [latchParent, List.mem_cons, List.not_mem_nil, or_false] at hs
      rcases hs with rfl | rfl | rfl | rfl <;> simp [cp, fresh, Rhs.reads] <;> omega
    · have : p + 100 ≤ 4 := hp _ h2
      omega
    · exact info_none (p + 100) (by omega)
  · intro (p : Nat) (p' : Nat) _ _ h
    exact Nat.add_right_cancel h
  · intro (p : Nat) h
    have := hp p h
    exact info_none p (by omega)

/-- The full claim is false: a module with a latch is taken for a pass-through. -/
theorem not_PassClaim : ¬ PassClaim := by
  intro h
  have hs := h info _ fresh latchParent _ latch latch_around latch_removed
  obtain ⟨s', h1, h2, _⟩ := hs.kept (cp 63 13 4) (by decide)
  have : ∀ t ∈ [cp 60 101 10, cp 61 102 11, cp 62 12 101], t.id ≠ 63 := by decide
  exact this s' h1 h2

/-- A one-bit output assigned through a slice (`out[0] = in`): the module is removed, and so is every assignment that read the output. -/
theorem slice_lost : visit (fun v => decide (1 ≤ v ∧ v ≤ 4)) fresh [cp 60 1 10, cp 62 12 3] ⟨[(1, .inp), (3, .out)], 0, [⟨50, .top, 3, some (0, 0), .var 1⟩], 1, false, false⟩ =
    .ok (some [cp 60 101 10]) := rfl

end Kratos.PassT
