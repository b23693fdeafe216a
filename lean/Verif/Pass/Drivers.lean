import Verif.Pass.Kinds

/-!
# C29, C30, C31: checks on the drivers of a variable (src/analysis.cc:130-162, 665-840)

A source of a variable is an assignment statement registered with it (`Var::sources()`), together with the chain of
statements around it. The container of sources is an unordered set: the list order stands for any iteration order.
-/

namespace Kratos.Drv

open Kratos.Kinds (AKind)

abbrev VarId := Nat

/-- Left sides. Bit positions are those of `var_low()`/`var_high()`, relative to the whole variable (property C07). -/
inductive Tgt where
  /-- a variable of the design, or constant slices of it -/
  | part (v : VarId) (lo hi : Nat)
  /-- a slice by another variable; `lo`, `hi` cover everything it can select (src/expr.cc:660-676) -/
  | dyn (v : VarId) (lo hi : Nat)
  /-- a constant part of such a slice -/
  | dynPart (v : VarId) (lo hi : Nat)
  /-- a cast variable -/
  | cast (v : VarId) (lo hi : Nat)
  /-- a slice of a cast: `get_var_root_parent` stops at the cast (src/expr.cc:594-608) -/
  | castPart (v : VarId) (lo hi : Nat)
  /-- a concatenation -/
  | concat (l r : Tgt)
  deriving DecidableEq, Repr

/-- The variables an assignment to the target is registered with: `add_source` (src/expr.cc:708, 1074, 1241-1245,
src/expr.hh:164). -/
def Tgt.vars : Tgt → List VarId
  | .part v _ _ => [v]
  | .dyn v _ _ => [v]
  | .dynPart v _ _ => [v]
  | .cast v _ _ => [v]
  | .castPart v _ _ => [v]
  | .concat l r => l.vars ++ r.vars

/-- `get_var_root_parent()`, if it is a variable of the design. -/
def Tgt.root : Tgt → Option VarId
  | .part v _ _ => some v
  | .dyn v _ _ => some v
  | .dynPart v _ _ => some v
  | .cast v _ _ => some v
  | .castPart _ _ _ => none
  | .concat _ _ => none

/-- `var_low()`, `var_high()`. -/
def Tgt.range : Tgt → Nat × Nat
  | .part _ lo hi => (lo, hi)
  | .dyn _ lo hi => (lo, hi)
  | .dynPart _ lo hi => (lo, hi)
  | .cast _ lo hi => (lo, hi)
  | .castPart _ lo hi => (lo, hi)
  | .concat _ _ => (0, 0)

/-- `sliced_by_var()` of a slice. -/
def Tgt.byVar : Tgt → Bool
  | .dyn _ _ _ => true
  | _ => false

/-- A statement around another: its identity, whether it is a `for`, and its block type if it is a top-level block. -/
inductive Block where
  | comb | seq | latch | other
  deriving DecidableEq, Repr

structure Anc where
  id : Nat
  isFor : Bool
  block : Option Block
  deriving DecidableEq, Repr

/-- Right sides: variables (`whole`), parts of variables, constants, and operators. -/
inductive Rhs where
  | whole (v : VarId)
  | sliceOf (v : VarId)
  | const
  | un (e : Rhs)
  | bin (l r : Rhs)
  | cond (c l r : Rhs)
  deriving DecidableEq, Repr

/-- An assignment statement in its place; `around` lists the statements around it from the inside out, and is empty at the
top level. -/
structure Src where
  id : Nat
  left : Tgt
  right : Rhs
  kind : AKind
  around : List Anc
  deriving DecidableEq, Repr

/-- `stmt->parent()`: the generator is `none`. -/
def Src.parent (s : Src) : Option Anc := s.around.head?

/-- `non_gen_root_parent` (src/analysis.cc:780-793): the outermost statement, possibly the assignment itself. -/
def Src.process (s : Src) : Nat := (s.around.getLast?.map (·.id)).getD s.id

/-- The limit of src/analysis.cc:788. -/
def tooDeep (s : Src) : Bool := decide (10001 < s.around.length)

/-- `has_for_loop` (src/analysis.cc:702-712). -/
def Src.inFor (s : Src) : Bool := s.around.any (·.isFor)

/-- Block type of the outermost statement. -/
def Src.blockType (s : Src) : Option Block := s.around.getLast?.bind (·.block)

/-! ### `check_mixed_assignment` -/

/-- The loop of `checkout_assignment` (src/analysis.cc:144-162) without the scope check. -/
def mixed (v : VarId) : List Src → AKind → Res Unit
  | [], _ => .ok ()
  | s :: ss, t =>
    if s.left.root ≠ some v then mixed v ss t
    else if t = .undefined then mixed v ss s.kind
    else if t ≠ s.kind then .throw .stmt
    else mixed v ss t

/-- `checkout_assignment` for variable `v`. -/
def checkMixed (v : VarId) (srcs : List Src) : Res Unit := mixed v srcs .undefined

/-! ### `check_multiple_driver` -/

/-- `share_root` (src/analysis.cc:683-700) for two parents: the sets hold every node but the outermost of the chain. -/
def shareRoot (a b : List Anc) : Bool := a.dropLast.any fun x => b.dropLast.any fun y => x.id == y.id

/-- The first driver recorded for a bit. -/
abbrev Ref := Src

/-- The decision of src/analysis.cc:736-766 for a second driver `s` of a bit first driven by `r`. -/
def clash (s : Src) (r : Ref) : Bool :=
  if s.process ≠ r.process then true
  else if s.parent = r.parent then
    match s.blockType with
    | some .comb => false
    | some .latch => false
    | _ => true
  else
    match s.blockType with
    | some .seq => !shareRoot s.around r.around
    | _ => false

/-- The loop over the bits (src/analysis.cc:727-776). -/
def drive (s : Src) : List Nat → (Nat → Option Ref) → Res (Nat → Option Ref)
  | [], p => .ok p
  | i :: is, p =>
    match p i with
    | some r => if tooDeep s then .throw .user else if clash s r then .throw .stmt else drive s is p
    | none => if tooDeep s then .throw .user else drive s is fun j => if j = i then some s else p j

/-- The bits `lo … hi`. -/
def bits (lo hi : Nat) : List Nat := (List.range (hi + 1)).filter (lo ≤ ·)

/-- Sources that are not looked at (src/analysis.cc:717-724). -/
def skipped (v : VarId) (s : Src) : Bool := s.inFor || decide (s.left.root ≠ some v) || s.left.byVar

/-- The loop over the sources (src/analysis.cc:716-777). -/
def multi (v : VarId) : List Src → (Nat → Option Ref) → Res Unit
  | [], _ => .ok ()
  | s :: ss, p =>
    if skipped v s then multi v ss p
    else (drive s (bits s.left.range.1 s.left.range.2) p).bind fun p => multi v ss p

/-- `MultipleDriverVisitor::check_var` (src/analysis.cc:714-778). -/
def checkMulti (v : VarId) (srcs : List Src) : Res Unit := multi v srcs fun _ => none

/-! ### `check_combinational_loop` -/

/-- `has_var` (src/analysis.cc:829-837): the condition of a ternary is not looked at, and neither are slices. -/
def hasVar (v : VarId) : Rhs → Bool
  | .whole x => decide (x = v)
  | .sliceOf _ => false
  | .const => false
  | .un e => hasVar v e
  | .bin l r => hasVar v l || hasVar v r
  | .cond _ l r => hasVar v l || hasVar v r

/-- `CombinationalLoopVisitor::check_var` (src/analysis.cc:815-827). -/
def checkLoop (v : VarId) (srcs : List Src) : Res Unit :=
  if srcs.any (fun s => decide (s.kind = .blocking) && hasVar v s.right && s.around.isEmpty) then .throw .stmt else .ok ()

/-! ### `VerifyAssignmentVisitor::check_var` -/

/-- src/analysis.cc:59-90: wire assignments and assignments in blocks. -/
def checkWire (srcs : List Src) : Res Unit :=
  if srcs.any (fun s => s.around.isEmpty) && srcs.any (fun s => !s.around.isEmpty) then .throw .stmt else .ok ()

/-! ### Specification -/

/-- The statements of a design that assign (part of) `v`. -/
def sources (all : List Src) (v : VarId) : List Src := all.filter fun s => v ∈ s.left.vars

/-- Bits an assignment to the target may change. For a part of a slice by a variable that can be any bit. -/
inductive Tgt.MayDrive : Tgt → VarId → Nat → Prop
  | part {v lo hi b} : lo ≤ b → b ≤ hi → MayDrive (.part v lo hi) v b
  | dyn {v lo hi b} : lo ≤ b → b ≤ hi → MayDrive (.dyn v lo hi) v b
  | dynPart {v lo hi b} : MayDrive (.dynPart v lo hi) v b
  | cast {v lo hi b} : lo ≤ b → b ≤ hi → MayDrive (.cast v lo hi) v b
  | castPart {v lo hi b} : lo ≤ b → b ≤ hi → MayDrive (.castPart v lo hi) v b
  | left {l r v b} : MayDrive l v b → MayDrive (.concat l r) v b
  | right {l r v b} : MayDrive r v b → MayDrive (.concat l r) v b

/-- Two assignments run in the same process: both inside the same outermost statement, or they are the same. -/
def SameProcess (s t : Src) : Prop := s.process = t.process

/-- Full claim of C29. -/
def SingleDriver (all : List Src) : Prop := ∀ s ∈ all, ∀ t ∈ all, ∀ v b, s.left.MayDrive v b → t.left.MayDrive v b → SameProcess s t

/-- Full claim of C30. -/
def OneKind (all : List Src) : Prop := ∀ s ∈ all, ∀ t ∈ all, ∀ v, v ∈ s.left.vars → v ∈ t.left.vars → s.kind = t.kind

/-- The variables an expression reads. -/
inductive Rhs.Reads : Rhs → VarId → Prop
  | whole {v} : Reads (.whole v) v
  | sliceOf {v} : Reads (.sliceOf v) v
  | un {e v} : Reads e v → Reads (.un e) v
  | binL {l r v} : Reads l v → Reads (.bin l r) v
  | binR {l r v} : Reads r v → Reads (.bin l r) v
  | condC {c l r v} : Reads c v → Reads (.cond c l r) v
  | condL {c l r v} : Reads l v → Reads (.cond c l r) v
  | condR {c l r v} : Reads r v → Reads (.cond c l r) v

/-- `x` depends combinationally on `y`. -/
inductive Depends (all : List Src) : VarId → VarId → Prop
  | one {s x y} : s ∈ all → s.kind = .blocking → s.around = [] → x ∈ s.left.vars → s.right.Reads y → Depends all x y
  | trans {x y z} : Depends all x y → Depends all y z → Depends all x z

/-- Full claim of C31 (for continuous assignments). -/
def NoLoop (all : List Src) : Prop := ∀ v, ¬ Depends all v v

/-! ### C30 -/

theorem mixed_ok {v : VarId} : ∀ (ss : List Src) (t : AKind), mixed v ss t = .ok () → (t ≠ .undefined → ∀ s ∈ ss, s.left.root = some v → s.kind = t) ∧
    ∀ s ∈ ss, ∀ s' ∈ ss, s.left.root = some v → s'.left.root = some v → s.kind = .undefined ∨ s'.kind = .undefined ∨ s.kind = s'.kind
  | [], _, _ => ⟨(fun _ _ h => nomatch h), (fun _ h => nomatch h)⟩
  | s :: ss, t, h => by
    unfold mixed at h
    split at h
    · rename_i hr
      obtain ⟨h1, h2⟩ := mixed_ok ss t h
      refine ⟨fun ht x hx hxv => ?_, fun x hx y hy hxv hyv => ?_⟩
      · rcases List.mem_cons.1 hx with e | hx
        · rw [e] at hxv; exact absurd hxv hr
        · exact h1 ht x hx hxv
      · rcases List.mem_cons.1 hx with e | hx
        · rw [e] at hxv; exact absurd hxv hr
        rcases List.mem_cons.1 hy with e | hy
        · rw [e] at hyv; exact absurd hyv hr
        exact h2 x hx y hy hxv hyv
    split at h
    · rename_i hr ht
      obtain ⟨h1, h2⟩ := mixed_ok ss s.kind h
      refine ⟨fun ht' => absurd ht ht', fun x hx y hy hxv hyv => ?_⟩
      rcases List.mem_cons.1 hx with e | hx <;> rcases List.mem_cons.1 hy with e' | hy
      · rw [e, e']; exact Or.inr (Or.inr rfl)
      · rw [e]
        by_cases hs : s.kind = .undefined
        · exact Or.inl hs
        · exact Or.inr (Or.inr (h1 hs y hy hyv).symm)
      · rw [e']
        by_cases hs : s.kind = .undefined
        · exact Or.inr (Or.inl hs)
        · exact Or.inr (Or.inr (h1 hs x hx hxv))
      · exact h2 x hx y hy hxv hyv
    split at h
    · cases h
    · rename_i hr ht hk
      obtain ⟨h1, h2⟩ := mixed_ok ss t h
      have hk : t = s.kind := by simpa using hk
      have key : ∀ x ∈ s :: ss, x.left.root = some v → x.kind = t := by
        intro x hx hxv
        rcases List.mem_cons.1 hx with e | hx
        · rw [e]; exact hk.symm
        · exact h1 ht x hx hxv
      exact ⟨fun _ => key, fun x hx y hy hxv hyv => Or.inr (Or.inr ((key x hx hxv).trans (key y hy hyv).symm))⟩

/-- **C30, partial**: if the check accepts, no variable has one blocking and one non-blocking assignment, in whatever order the
assignments are visited. Missing: assignments to concatenations and to parts of casts are not compared
(`concat_not_checked`). -/
theorem one_kind_partial {all : List Src} {v : VarId} {srcs : List Src} (hp : srcs.Perm (sources all v)) (h : checkMixed v srcs = .ok ()) :
    ∀ s ∈ all, ∀ t ∈ all, s.left.root = some v → t.left.root = some v → s.kind = .blocking → t.kind ≠ .nonBlocking := by
  intro s hs t ht hsv htv hsk htk
  have hm : ∀ x ∈ all, x.left.root = some v → x ∈ srcs := by
    intro x hx hxv
    refine hp.mem_iff.2 (List.mem_filter.2 ⟨hx, decide_eq_true ?_⟩)
    cases hl : x.left <;> rw [hl] at hxv <;> simp only [Tgt.root, Option.some.injEq, reduceCtorEq] at hxv <;> simp [Tgt.vars, hxv]
  rcases (mixed_ok srcs .undefined h).2 s (hm s hs hsv) t (hm t ht htv) hsv htv with e | e | e
  · rw [hsk] at e; cases e
  · rw [htk] at e; cases e
  · rw [hsk, htk] at e; cases e

/-- **C30**: the check refuses only when two assignments to the variable have different kinds. -/
theorem mixed_rejects {v : VarId} : ∀ (srcs : List Src), (∀ s ∈ srcs, ∀ t ∈ srcs, s.left.root = some v → t.left.root = some v → s.kind = t.kind) →
    checkMixed v srcs = .ok () := by
  have key : ∀ (ss : List Src) (t : AKind), (∀ s ∈ ss, s.left.root = some v → s.kind = t) → mixed v ss t = .ok () := by
    intro ss
    induction ss with
    | nil => intro t _; rfl
    | cons s ss ih =>
      intro t h
      unfold mixed
      split
      · exact ih t fun x hx => h x (List.mem_cons_of_mem _ hx)
      rename_i hr
      have hk := h s (List.mem_cons_self ..) (by simpa using hr)
      have ih' := ih t fun x hx => h x (List.mem_cons_of_mem _ hx)
      split
      · rw [hk]; exact ih'
      split
      · rename_i hne; exact absurd hk.symm hne
      · exact ih'
  intro srcs h
  unfold checkMixed
  induction srcs with
  | nil => rfl
  | cons s ss ih =>
    unfold mixed
    split
    · exact ih fun x hx y hy => h x (List.mem_cons_of_mem _ hx) y (List.mem_cons_of_mem _ hy)
    · rename_i hr
      rw [if_pos rfl]
      refine key ss s.kind fun x hx hxv => ?_
      exact h x (List.mem_cons_of_mem _ hx) s (List.mem_cons_self ..) hxv (by simpa using hr)

/-! ### C29 -/

theorem mem_bits {lo hi b : Nat} : b ∈ bits lo hi ↔ lo ≤ b ∧ b ≤ hi := by
  simp only [bits, List.mem_filter, List.mem_range, decide_eq_true_eq]; omega

/-- Recorded drivers stay, and every driven bit has a recorded driver of the same process. -/
theorem drive_ok {s : Src} : ∀ (is : List Nat) (p p' : Nat → Option Ref), drive s is p = .ok p' →
    (∀ i r, p i = some r → p' i = some r) ∧ (∀ i ∈ is, ∃ r, p' i = some r ∧ r.process = s.process)
  | [], p, p', h => by
    simp only [drive, Res.ok.injEq] at h
    subst h
    exact ⟨fun _ _ h => h, fun _ h => nomatch h⟩
  | i :: is, p, p', h => by
    unfold drive at h
    split at h
    · rename_i r hr
      split at h
      · cases h
      split at h
      · cases h
      · rename_i hc
        obtain ⟨h1, h2⟩ := drive_ok is p p' h
        refine ⟨h1, fun j hj => ?_⟩
        rcases List.mem_cons.1 hj with e | hj
        · refine ⟨r, by rw [e]; exact h1 i r hr, ?_⟩
          unfold clash at hc
          by_cases hp : s.process ≠ r.process
          · rw [if_pos hp] at hc; exact absurd rfl hc
          · exact (by simpa using hp : s.process = r.process).symm
        · exact h2 j hj
    · rename_i hr
      split at h
      · cases h
      obtain ⟨h1, h2⟩ := drive_ok is _ p' h
      refine ⟨fun j r hj => h1 j r ?_, fun j hj => ?_⟩
      · show (if j = i then _ else _) = _
        rw [if_neg (fun e => by rw [e, hr] at hj; cases hj)]
        exact hj
      · rcases List.mem_cons.1 hj with e | hj
        · exact ⟨s, by rw [e]; exact h1 i s (if_pos rfl), rfl⟩
        · exact h2 j hj

theorem multi_ok {v : VarId} : ∀ (ss : List Src) (p : Nat → Option Ref), multi v ss p = .ok () → ∃ p' : Nat → Option Ref,
    (∀ i r, p i = some r → p' i = some r) ∧
    ∀ s ∈ ss, skipped v s = false → ∀ b, s.left.range.1 ≤ b → b ≤ s.left.range.2 → ∃ r, p' b = some r ∧ r.process = s.process
  | [], p, _ => ⟨p, fun _ _ h => h, fun _ h => nomatch h⟩
  | s :: ss, p, h => by
    unfold multi at h
    split at h
    · rename_i hs
      obtain ⟨p', h1, h2⟩ := multi_ok ss p h
      refine ⟨p', h1, fun x hx hn => ?_⟩
      rcases List.mem_cons.1 hx with e | hx
      · rw [e, hs] at hn; cases hn
      · exact h2 x hx hn
    · simp only [Res.bind_eq_ok] at h
      obtain ⟨q, hq, h⟩ := h
      obtain ⟨p', h1, h2⟩ := multi_ok ss q h
      obtain ⟨h3, h4⟩ := drive_ok _ p q hq
      refine ⟨p', fun i r hi => h1 i r (h3 i r hi), fun x hx hn b hlo hhi => ?_⟩
      rcases List.mem_cons.1 hx with e | hx
      · obtain ⟨r, hr, hrp⟩ := h4 b (mem_bits.2 (by rw [e] at hlo hhi; exact ⟨hlo, hhi⟩))
        exact ⟨r, h1 b r hr, by rw [e]; exact hrp⟩
      · exact h2 x hx hn b hlo hhi

/-- Assignments whose left side is a variable, a cast variable or constant slices of a variable, outside `for` loops. -/
def Plain (s : Src) : Prop := s.inFor = false ∧ ((∃ v lo hi, s.left = .part v lo hi) ∨ ∃ v lo hi, s.left = .cast v lo hi)

/-- **C29, partial**: if the check accepts, no bit of the variable is assigned by two plain assignments in different
processes, in whatever order the assignments are visited. Missing: assignments in `for` loops, to slices by variables,
to concatenations and to parts of casts (`concat_two_drivers`, `for_two_drivers`, `dyn_two_drivers`). -/
theorem single_driver_partial {all : List Src} {v : VarId} {srcs : List Src} (hp : srcs.Perm (sources all v)) (h : checkMulti v srcs = .ok ()) :
    ∀ s ∈ all, ∀ t ∈ all, Plain s → Plain t → ∀ b, s.left.MayDrive v b → t.left.MayDrive v b → SameProcess s t := by
  obtain ⟨p', -, h2⟩ := multi_ok srcs _ h
  have key : ∀ s ∈ all, Plain s → ∀ b, s.left.MayDrive v b → ∃ r, p' b = some r ∧ r.process = s.process := by
    rintro s hs ⟨hf, hpl⟩ b hb
    have hsrc : v ∈ s.left.vars → s ∈ srcs := fun hv => hp.mem_iff.2 (List.mem_filter.2 ⟨hs, decide_eq_true hv⟩)
    rcases hpl with ⟨x, lo, hi, e⟩ | ⟨x, lo, hi, e⟩ <;> rw [e] at hb <;>
    · have hlo : lo ≤ b := by cases hb; assumption
      have hhi : b ≤ hi := by cases hb; assumption
      have hv : x = v := by cases hb; rfl
      subst hv
      refine h2 s (hsrc (by rw [e]; simp [Tgt.vars])) (by simp [skipped, hf, e, Tgt.root, Tgt.byVar]) b ?_ ?_
      · rw [e]; exact hlo
      · rw [e]; exact hhi
  intro s hs t ht hps hpt b hbs hbt
  obtain ⟨r, hr, h3⟩ := key s hs hps b hbs
  obtain ⟨r', hr', h4⟩ := key t ht hpt b hbt
  rw [hr] at hr'
  injection hr' with hr'
  unfold SameProcess
  rw [← h3, ← h4, hr']

/-- **C29**: in combinational blocks and latches the check refuses nothing but a bit driven from two processes. -/
theorem comb_accepted {v : VarId} {srcs : List Src} (hc : ∀ s ∈ srcs, s.blockType = some .comb ∨ s.blockType = some .latch) (hd : ∀ s ∈ srcs, s.around.length ≤ 10001)
    (h : ∀ s ∈ srcs, ∀ t ∈ srcs, ∀ b, s.left.range.1 ≤ b → b ≤ s.left.range.2 → t.left.range.1 ≤ b → b ≤ t.left.range.2 → SameProcess s t) :
    checkMulti v srcs = .ok () := by
  have hclash : ∀ s ∈ srcs, ∀ r : Ref, s.process = r.process → clash s r = false := by
    intro s hs r hr
    unfold clash
    rw [if_neg (by simp [hr])]
    rcases hc s hs with e | e <;> rw [e] <;> simp
  have hdrive : ∀ s ∈ srcs, ∀ (is : List Nat) (p : Nat → Option Ref),
      (∀ i r, p i = some r → r ∈ srcs ∧ r.left.range.1 ≤ i ∧ i ≤ r.left.range.2) → (∀ i ∈ is, s.left.range.1 ≤ i ∧ i ≤ s.left.range.2) →
      ∃ p', drive s is p = .ok p' ∧ ∀ i r, p' i = some r → r ∈ srcs ∧ r.left.range.1 ≤ i ∧ i ≤ r.left.range.2 := by
    intro s hs is
    have hnd : tooDeep s = false := by have := hd s hs; unfold tooDeep; exact decide_eq_false (by omega)
    induction is with
    | nil => intro p hp _; exact ⟨p, rfl, hp⟩
    | cons i is ih =>
      intro p hp hi
      have hi0 := hi i (List.mem_cons_self ..)
      unfold drive
      split
      · rename_i r hr
        obtain ⟨h1, h2, h3⟩ := hp i r hr
        rw [hnd, if_neg Bool.false_ne_true, hclash s hs r (h s hs r h1 i hi0.1 hi0.2 h2 h3), if_neg Bool.false_ne_true]
        exact ih p hp fun j hj => hi j (List.mem_cons_of_mem _ hj)
      · rw [hnd, if_neg Bool.false_ne_true]
        refine ih _ (fun j r hj => ?_) fun j hj => hi j (List.mem_cons_of_mem _ hj)
        by_cases e : j = i
        · simp only [e, if_true, Option.some.injEq] at hj
          rw [← hj, e]; exact ⟨hs, hi0⟩
        · simp only [e, if_false] at hj
          exact hp j r hj
  have hmulti : ∀ (ss : List Src) (p : Nat → Option Ref), (∀ s ∈ ss, s ∈ srcs) →
      (∀ i r, p i = some r → r ∈ srcs ∧ r.left.range.1 ≤ i ∧ i ≤ r.left.range.2) → multi v ss p = .ok () := by
    intro ss
    induction ss with
    | nil => intro p _ _; rfl
    | cons s ss ih =>
      intro p hs hp
      unfold multi
      split
      · exact ih p (fun x hx => hs x (List.mem_cons_of_mem _ hx)) hp
      · obtain ⟨p', h1, h2⟩ := hdrive s (hs s (List.mem_cons_self ..)) (bits s.left.range.1 s.left.range.2) p hp fun i hi => mem_bits.1 hi
        rw [h1, Res.ok_bind]
        exact ih p' (fun x hx => hs x (List.mem_cons_of_mem _ hx)) h2
  exact hmulti srcs _ (fun _ h => h) fun _ _ h => nomatch h

/-! ### C31 -/

/-- Reading the whole variable through operators and branches of ternaries only. -/
inductive Rhs.Direct : Rhs → VarId → Prop
  | whole {v} : Direct (.whole v) v
  | un {e v} : Direct e v → Direct (.un e) v
  | binL {l r v} : Direct l v → Direct (.bin l r) v
  | binR {l r v} : Direct r v → Direct (.bin l r) v
  | condL {c l r v} : Direct l v → Direct (.cond c l r) v
  | condR {c l r v} : Direct r v → Direct (.cond c l r) v

theorem hasVar_iff (v : VarId) : ∀ e, hasVar v e = true ↔ e.Direct v
  | .whole x => by
    simp only [hasVar, decide_eq_true_eq]
    exact ⟨fun h => h ▸ .whole, fun h => by cases h; rfl⟩
  | .sliceOf _ => ⟨fun h => (by cases h), fun h => (by cases h)⟩
  | .const => ⟨fun h => (by cases h), fun h => (by cases h)⟩
  | .un e => ⟨fun h => .un ((hasVar_iff v e).1 h), fun h => by cases h with | un h => exact (hasVar_iff v e).2 h⟩
  | .bin l r => by
    simp only [hasVar, Bool.or_eq_true, hasVar_iff v l, hasVar_iff v r]
    exact ⟨fun h => h.elim .binL .binR, fun h => by cases h with | binL h => exact Or.inl h | binR h => exact Or.inr h⟩
  | .cond c l r => by
    simp only [hasVar, Bool.or_eq_true, hasVar_iff v l, hasVar_iff v r]
    exact ⟨fun h => h.elim .condL .condR, fun h => by cases h with | condL h => exact Or.inl h | condR h => exact Or.inr h⟩

/-- **C31, partial**: the check accepts exactly when no continuous assignment to the variable reads the whole variable
directly. Missing: loops through other variables (`two_step_loop`), through slices (`slice_loop`) and through ternary
conditions (`condition_loop`). -/
theorem no_loop_partial {all : List Src} {v : VarId} {srcs : List Src} (hp : srcs.Perm (sources all v)) :
    checkLoop v srcs = .ok () ↔ ∀ s ∈ all, s.kind = .blocking → s.around = [] → v ∈ s.left.vars → ¬ s.right.Direct v := by
  unfold checkLoop
  constructor
  · intro h s hs hk ha hv hd
    rw [if_pos] at h
    · cases h
    refine List.any_eq_true.2 ⟨s, hp.mem_iff.2 (List.mem_filter.2 ⟨hs, decide_eq_true hv⟩), ?_⟩
    simp [hk, ha, (hasVar_iff v s.right).2 hd]
  · intro h
    rw [if_neg]
    intro hany
    obtain ⟨s, hs, hb⟩ := List.any_eq_true.1 hany
    have hs := List.mem_filter.1 (hp.mem_iff.1 hs)
    simp only [Bool.and_eq_true, decide_eq_true_eq, List.isEmpty_iff] at hb
    exact h s hs.1 hb.1.1 hb.2 (of_decide_eq_true hs.2) ((hasVar_iff v s.right).1 hb.1.2)

theorem direct_reads {e : Rhs} {v : VarId} (h : e.Direct v) : e.Reads v := by
  induction h with
  | whole => exact .whole
  | un _ ih => exact .un ih
  | binL _ ih => exact .binL ih
  | binR _ ih => exact .binR ih
  | condL _ ih => exact .condL ih
  | condR _ ih => exact .condR ih

/-- **C31**: a design that is refused has a loop. -/
theorem loop_rejected_rightly {all : List Src} {v : VarId} {srcs : List Src} (hp : srcs.Perm (sources all v)) (h : checkLoop v srcs ≠ .ok ()) : ¬ NoLoop all := by
  intro hn
  refine h ((no_loop_partial hp).2 fun s hs hk ha hv hd => ?_)
  exact hn v (.one hs hk ha hv (direct_reads hd))

/-! ### Wires and blocks (part of C33) -/

/-- An accepted variable is either driven by continuous assignments only or inside blocks only. -/
theorem wire_xor_block {all : List Src} {v : VarId} {srcs : List Src} (hp : srcs.Perm (sources all v)) :
    checkWire srcs = .ok () ↔ ¬ ∃ s ∈ all, ∃ t ∈ all, v ∈ s.left.vars ∧ v ∈ t.left.vars ∧ s.around = [] ∧ t.around ≠ [] := by
  have hm : ∀ s, s ∈ srcs ↔ s ∈ all ∧ v ∈ s.left.vars := fun s => by
    rw [hp.mem_iff, sources, List.mem_filter, decide_eq_true_eq]
  unfold checkWire
  constructor
  · rintro h ⟨s, hs, t, ht, hsv, htv, hs0, ht0⟩
    rw [if_pos] at h
    · cases h
    rw [Bool.and_eq_true]
    exact ⟨List.any_eq_true.2 ⟨s, (hm s).2 ⟨hs, hsv⟩, by simp [hs0]⟩, List.any_eq_true.2 ⟨t, (hm t).2 ⟨ht, htv⟩, by simp [ht0]⟩⟩
  · intro h
    rw [if_neg]
    intro hb
    rw [Bool.and_eq_true] at hb
    obtain ⟨s, hs, hs0⟩ := List.any_eq_true.1 hb.1
    obtain ⟨t, ht, ht0⟩ := List.any_eq_true.1 hb.2
    refine h ⟨s, ((hm s).1 hs).1, t, ((hm t).1 ht).1, ((hm s).1 hs).2, ((hm t).1 ht).2, by simpa using hs0, by simpa using ht0⟩

/-! ### Examples and failures -/

/-- `assign v[hi:lo] = …`. -/
def wire (id : Nat) (l : Tgt) (r : Rhs) : Src := ⟨id, l, r, .blocking, []⟩

/-- An assignment directly inside top-level block `b`. -/
def inBlock (id : Nat) (l : Tgt) (k : AKind) (b : Nat) (ty : Block) : Src := ⟨id, l, .const, k, [⟨b, false, some ty⟩]⟩

/-- Every check on every variable of a design. -/
def accepts (f : VarId → List Src → Res Unit) (all : List Src) (vs : List VarId) : Prop := ∀ v ∈ vs, f v (sources all v) = .ok ()

instance (f : VarId → List Src → Res Unit) (all : List Src) (vs : List VarId) : Decidable (accepts f all vs) := inferInstanceAs (Decidable (∀ v ∈ vs, _))

example : accepts checkMulti [wire 0 (.part 7 0 3) .const, wire 1 (.part 7 4 7) .const] [7] ∧
    Plain (wire 0 (.part 7 0 3) .const) := ⟨by decide, rfl, Or.inl ⟨_, _, _, rfl⟩⟩
example : checkMulti 7 [wire 0 (.part 7 0 4) .const, wire 1 (.part 7 4 7) .const] = .throw .stmt := rfl
/-- Two assignments to one bit in different branches of a sequential block. -/
example : checkMulti 7 [⟨0, .part 7 0 0, .const, .nonBlocking, [⟨3, false, none⟩, ⟨4, false, none⟩, ⟨5, false, some .seq⟩]⟩,
    ⟨1, .part 7 0 0, .const, .nonBlocking, [⟨6, false, none⟩, ⟨4, false, none⟩, ⟨5, false, some .seq⟩]⟩] = .ok () := rfl
example : checkMulti 7 [inBlock 0 (.part 7 0 0) .nonBlocking 5 .seq, inBlock 1 (.part 7 0 0) .nonBlocking 5 .seq] = .throw .stmt := rfl
example : checkMulti 7 [inBlock 0 (.part 7 0 0) .blocking 5 .comb, inBlock 1 (.part 7 0 0) .blocking 5 .comb] = .ok () := rfl
example : checkMixed 7 [inBlock 0 (.part 7 0 0) .blocking 5 .comb, inBlock 1 (.part 7 1 1) .nonBlocking 6 .seq] = .throw .stmt := rfl
example : checkLoop 7 [wire 0 (.part 7 0 3) (.bin (.whole 7) .const)] = .throw .stmt := rfl
example : checkWire [wire 0 (.part 7 0 3) .const, inBlock 1 (.part 7 4 7) .blocking 5 .comb] = .throw .stmt := rfl

/-- `assign {a, b} = …` and `assign a = …`. -/
def concatDesign : List Src := [wire 0 (.concat (.part 1 0 0) (.part 2 0 0)) .const, wire 1 (.part 1 0 0) .const]

theorem concat_two_drivers : accepts checkMulti concatDesign [1, 2] ∧ ¬ SingleDriver concatDesign := by
  refine ⟨by decide, fun h => ?_⟩
  have := h _ (List.mem_cons_self ..) _ (List.mem_cons_of_mem _ (List.mem_cons_self ..)) 1 0 (.left (.part (Nat.le_refl _) (Nat.le_refl _))) (.part (Nat.le_refl _) (Nat.le_refl _))
  exact absurd this (by unfold SameProcess; decide)

/-- An assignment in a `for` loop of one block, and one in another block. -/
def forDesign : List Src := [⟨0, .part 1 0 0, .const, .blocking, [⟨2, true, none⟩, ⟨3, false, some .comb⟩]⟩, inBlock 1 (.part 1 0 0) .blocking 4 .comb]

theorem for_two_drivers : accepts checkMulti forDesign [1] ∧ ¬ SingleDriver forDesign := by
  refine ⟨by decide, fun h => ?_⟩
  have := h _ (List.mem_cons_self ..) _ (List.mem_cons_of_mem _ (List.mem_cons_self ..)) 1 0 (.part (Nat.le_refl _) (Nat.le_refl _)) (.part (Nat.le_refl _) (Nat.le_refl _))
  exact absurd this (by unfold SameProcess; decide)

/-- `assign a[i] = …` and `assign a = …`. -/
def dynDesign : List Src := [wire 0 (.dyn 1 0 7) .const, wire 1 (.part 1 0 7) .const]

theorem dyn_two_drivers : accepts checkMulti dynDesign [1] ∧ ¬ SingleDriver dynDesign := by
  refine ⟨by decide, fun h => ?_⟩
  have := h _ (List.mem_cons_self ..) _ (List.mem_cons_of_mem _ (List.mem_cons_self ..)) 1 0 (.dyn (Nat.le_refl _) (by decide)) (.part (Nat.le_refl _) (by decide))
  exact absurd this (by unfold SameProcess; decide)

/-- `{a, b} = …` in a combinational block and `a <= …` in a sequential block. -/
def mixedDesign : List Src := [inBlock 0 (.concat (.part 1 0 0) (.part 2 0 0)) .blocking 5 .comb, inBlock 1 (.part 1 0 0) .nonBlocking 6 .seq]

theorem concat_not_checked : accepts checkMixed mixedDesign [1, 2] ∧ ¬ OneKind mixedDesign := by
  refine ⟨by decide, fun h => ?_⟩
  exact absurd (h _ (List.mem_cons_self ..) _ (List.mem_cons_of_mem _ (List.mem_cons_self ..)) 1 (by decide) (by decide)) (by decide)

/-- `assign a = b; assign b = a`. -/
def twoStep : List Src := [wire 0 (.part 1 0 0) (.whole 2), wire 1 (.part 2 0 0) (.whole 1)]

theorem two_step_loop : accepts checkLoop twoStep [1, 2] ∧ ¬ NoLoop twoStep :=
  ⟨by decide, fun h => h 1 (.trans (.one (List.mem_cons_self ..) rfl rfl (by decide) .whole)
    (.one (List.mem_cons_of_mem _ (List.mem_cons_self ..)) rfl rfl (by decide) .whole))⟩

/-- `assign a = {a[0], …}` and the like. -/
theorem slice_loop : accepts checkLoop [wire 0 (.part 1 0 0) (.un (.sliceOf 1))] [1] ∧ ¬ NoLoop [wire 0 (.part 1 0 0) (.un (.sliceOf 1))] :=
  ⟨by decide, fun h => h 1 (.one (List.mem_cons_self ..) rfl rfl (by decide) (.un .sliceOf))⟩

/-- `assign a = a ? b : c`. -/
theorem condition_loop : accepts checkLoop [wire 0 (.part 1 0 0) (.cond (.whole 1) (.whole 2) (.whole 3))] [1] ∧
    ¬ NoLoop [wire 0 (.part 1 0 0) (.cond (.whole 1) (.whole 2) (.whole 3))] :=
  ⟨by decide, fun h => h 1 (.one (List.mem_cons_self ..) rfl rfl (by decide) (.condC .whole))⟩

end Kratos.Drv
