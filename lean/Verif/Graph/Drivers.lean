import Verif.Graph.Visitor

/-!
# C135: which variables drive a variable

`find_driver_signal` of src/debug.cc, with the visitor of C47.
-/

namespace Kratos.Drivers

open Kratos.Graph

/-! ### Model -/

/-- The nodes the visitor meets. Lists named `sl` are the slices made of a node. -/
inductive Node where
  /-- a variable, also of an interface (src/expr.hh:184) -/
  | base (sl : List Nat)
  /-- a cast (src/expr.hh:281-338) -/
  | cast (parent : Nat) (sl : List Nat)
  /-- src/expr.hh:810-826 -/
  | enumVar (sl : List Nat)
  /-- src/port.hh:35-37 -/
  | port
  /-- src/expr.hh:343-395 -/
  | slice (parent : Nat) (sl : List Nat)
  /-- a slice at a variable index (src/expr.hh:400-425) -/
  | vslice (parent index : Nat) (sl : List Nat)
  /-- operators, concatenation, extension, repetition, conditional (src/expr.hh:636-755) -/
  | op (args : List Nat)
  /-- a function call in an expression (src/expr.hh:828-860) -/
  | call (args : List Nat)
  /-- a constant or parameter -/
  | const (sl : List Nat)
  | assign (left right : Nat)
  /-- other statements and generators -/
  | other (kids : List Nat)
deriving DecidableEq

/-- `child_count` and `get_child`: src/expr.cc:278-288 (slices), src/port.hh:36-37, src/expr.hh:651, 680-683, 708-709, 735,
src/stmt.cc:198-205. A cast, a slice and a call have no operands among their children. -/
def kidsOf : Node → List Nat
  | .base sl => sl
  | .cast _ sl => sl
  | .enumVar sl => sl
  | .port => []
  | .slice _ sl => sl
  | .vslice _ _ sl => sl
  | .op args => args
  | .call _ => []
  | .const sl => sl
  | .assign l r => [l, r]
  | .other ks => ks

/-- `accept` calls `visit(Var *)`: the nodes that do not override it (src/expr.hh:184). -/
def isVar : Node → Bool
  | .base _ => true
  | .cast _ _ => true
  | _ => false

/-- `VarType::Base` among those (src/debug.cc:86-90). -/
def isBase : Node → Bool
  | .base _ => true
  | _ => false

def isConst : Node → Bool
  | .const _ => true
  | _ => false

/-- `set.merge` (src/debug.cc:101). -/
def merge (a b : List Nat) : List Nat := a ++ b.filter fun x => !a.contains x

/-- `get_source_var` (src/debug.cc:97-102). -/
def getSource (H : Nat → Node) (f r : Nat) (acc : List Nat) : Res (List Nat) :=
  if isConst (H r) then .ok acc
  else (visitRoot (fun n => kidsOf (H n)) f r ([], [])).bind fun s => .ok (merge acc (s.2.filter fun n => isBase (H n)))

/-- The loop over `sources()` (src/debug.cc:72-76). -/
def getSources (H : Nat → Node) (f : Nat) : List Nat → List Nat → Res (List Nat)
  | [], acc => .ok acc
  | s :: ss, acc => match H s with
    | .assign _ r => (getSource H f r acc).bind fun acc => getSources H f ss acc
    | _ => .ub

abbrev Map := List (Nat × List Nat)

/-- `VarSourceVisitor::visit(Var *)` (src/debug.cc:70-77); `map_[var]` makes the entry with the first source. -/
def visitVar (H : Nat → Node) (srcs : Nat → List Nat) (f v : Nat) (m : Map) : Res Map :=
  if m.any fun e => decide (e.1 = v) then .ok m
  else if srcs v = [] then .ok m
  else (getSources H f (srcs v) []).bind fun us => .ok (m ++ [(v, us)])

/-- `find_driver_signal` (src/debug.cc:105-108). `srcs v` is `sources()`, in any order. -/
def findDrivers (H : Nat → Node) (srcs : Nat → List Nat) (f top : Nat) : Res Map :=
  (visitRoot (fun n => kidsOf (H n)) f top ([], [])).bind fun s =>
    each (visitVar H srcs f) (s.2.filter fun n => isVar (H n)) []

/-! ### Specification -/

/-- Evaluating the expression `e` reads the variable `u`. -/
inductive Reads (H : Nat → Node) : Nat → Nat → Prop where
  | base {u sl} : H u = .base sl → Reads H u u
  | enumVar {u sl} : H u = .enumVar sl → Reads H u u
  | port {u} : H u = .port → Reads H u u
  | cast {e p sl u} : H e = .cast p sl → Reads H p u → Reads H e u
  | slice {e p sl u} : H e = .slice p sl → Reads H p u → Reads H e u
  | sliced {e p i sl u} : H e = .vslice p i sl → Reads H p u → Reads H e u
  | index {e p i sl u} : H e = .vslice p i sl → Reads H i u → Reads H e u
  | op {e as a u} : H e = .op as → a ∈ as → Reads H a u → Reads H e u
  | call {e as a u} : H e = .call as → a ∈ as → Reads H a u → Reads H e u

/-- Assigning to `e` changes the variable `v`. -/
inductive Changes (H : Nat → Node) : Nat → Nat → Prop where
  | base {v sl} : H v = .base sl → Changes H v v
  | enumVar {v sl} : H v = .enumVar sl → Changes H v v
  | port {v} : H v = .port → Changes H v v
  | cast {e p sl v} : H e = .cast p sl → Changes H p v → Changes H e v
  | slice {e p sl v} : H e = .slice p sl → Changes H p v → Changes H e v
  | sliced {e p i sl v} : H e = .vslice p i sl → Changes H p v → Changes H e v
  | concat {e as a v} : H e = .op as → a ∈ as → Changes H a v → Changes H e v

/-- An expression of variables, constants and operators only. -/
inductive Plain (H : Nat → Node) : Nat → Prop where
  | base {e sl} : H e = .base sl → Plain H e
  | const {e sl} : H e = .const sl → Plain H e
  | op {e as} : H e = .op as → (∀ a ∈ as, Plain H a) → Plain H e

/-- Is it an expression? -/
def Expression : Node → Prop
  | .assign _ _ => False
  | .other _ => False
  | _ => True

/-- The slices made of a node. -/
def Slices : Node → List Nat
  | .base sl => sl
  | .cast _ sl => sl
  | .enumVar sl => sl
  | .slice _ sl => sl
  | .vslice _ _ sl => sl
  | .const sl => sl
  | _ => []

/-- A design with the nodes `l`. -/
structure Design (H : Nat → Node) (srcs : Nat → List Nat) (l : List Nat) : Prop where
  closed : ∀ a ∈ l, ∀ b ∈ kidsOf (H a), b ∈ l
  acyclic : ∀ n, ¬ Path (fun n => kidsOf (H n)) n n
  slices : ∀ n s, s ∈ Slices (H n) → ∃ sl, H s = .slice n sl ∨ ∃ i, H s = .vslice n i sl
  args : ∀ n as, H n = .op as → ∀ a ∈ as, Expression (H a)
  sources : ∀ v s, s ∈ srcs v → ∃ lft r, H s = .assign lft r ∧ r ∈ l ∧ Expression (H r)

/-- `s` is an assignment of the design. -/
def Assigns (H : Nat → Node) (top s lft r : Nat) : Prop := Reach (fun n => kidsOf (H n)) top s ∧ H s = .assign lft r

/-- The sources of a variable are the assignments that change it. -/
def Linked (H : Nat → Node) (srcs : Nat → List Nat) (top : Nat) : Prop :=
  ∀ v s, s ∈ srcs v ↔ ∃ lft r, Assigns H top s lft r ∧ Changes H lft v

/-- **Full claim C135**: every variable read by an assignment to `v` is reported as driving `v`. -/
def DriverClaim : Prop := ∀ H srcs l top f m, Design H srcs l → top ∈ l → l.length < f → Linked H srcs top →
  findDrivers H srcs f top = .ok m → ∀ s lft r v u, Assigns H top s lft r → Changes H lft v → Reads H r u →
    ∃ us, (v, us) ∈ m ∧ u ∈ us

/-! ### Proofs -/

theorem mem_merge {a b : List Nat} {x : Nat} : x ∈ merge a b ↔ x ∈ a ∨ x ∈ b := by
  simp only [merge, List.mem_append, List.mem_filter, Bool.not_eq_true', List.contains_eq_mem, decide_eq_false_iff_not]
  constructor
  · rintro (h | ⟨h, _⟩)
    · exact Or.inl h
    · exact Or.inr h
  · rintro (h | h)
    · exact Or.inl h
    · by_cases e : x ∈ a
      · exact Or.inl e
      · exact Or.inr ⟨h, e⟩

theorem nodup_merge {a b : List Nat} (ha : a.Nodup) (hb : b.Nodup) : (merge a b).Nodup := by
  refine List.nodup_append.2 ⟨ha, hb.filter _, ?_⟩
  rintro x hx y hy rfl
  simp only [List.mem_filter, Bool.not_eq_true', List.contains_eq_mem, decide_eq_false_iff_not] at hy
  exact hy.2 hx

abbrev kids (H : Nat → Node) : Nat → List Nat := fun n => kidsOf (H n)

/-- What one right side contributes. -/
def Part (H : Nat → Node) (s u : Nat) : Prop :=
  ∃ lft r, H s = .assign lft r ∧ isConst (H r) = false ∧ Reach (kids H) r u ∧ isBase (H u) = true

theorem getSource_spec {H : Nat → Node} {srcs : Nat → List Nat} {l : List Nat} (hD : Design H srcs l) {f : Nat} (hf : l.length < f) {r : Nat} (hr : r ∈ l)
    {acc : List Nat} (ha : acc.Nodup) : ∃ us, getSource H f r acc = .ok us ∧ us.Nodup ∧
      ∀ u, u ∈ us ↔ u ∈ acc ∨ (isConst (H r) = false ∧ Reach (kids H) r u ∧ isBase (H u) = true) := by
  unfold getSource
  cases hc : isConst (H r) with
  | true => exact ⟨acc, by simp, ha, fun u => by simp⟩
  | false =>
    obtain ⟨s, h1, h2, _, h3, _⟩ := visits_once_partial (kids H) l hD.closed r hr (hD.acyclic r) f hf
    refine ⟨_, by simp only [Bool.false_eq_true, if_false]; rw [h1]; rfl, nodup_merge ha (h2.filter _), fun u => ?_⟩
    rw [mem_merge, List.mem_filter, h3]
    simp

theorem getSources_spec {H : Nat → Node} {srcs : Nat → List Nat} {l : List Nat} (hD : Design H srcs l) {f : Nat} (hf : l.length < f) :
    ∀ (ss acc : List Nat), (∀ s ∈ ss, ∃ v, s ∈ srcs v) → acc.Nodup → ∃ us, getSources H f ss acc = .ok us ∧ us.Nodup ∧
      ∀ u, u ∈ us ↔ u ∈ acc ∨ ∃ s ∈ ss, Part H s u
  | [], acc, _, ha => ⟨acc, rfl, ha, fun u => by simp⟩
  | s :: ss, acc, hs, ha => by
    obtain ⟨v, hv⟩ := hs s (List.mem_cons_self ..)
    obtain ⟨lft, r, h1, h2, _⟩ := hD.sources v s hv
    obtain ⟨us1, h3, h4, h5⟩ := getSource_spec hD hf h2 ha
    obtain ⟨us, h6, h7, h8⟩ := getSources_spec hD hf ss us1 (fun s' hs' => hs s' (List.mem_cons_of_mem _ hs')) h4
    refine ⟨us, by simp only [getSources, h1, h3, Res.ok_bind, h6], h7, fun u => ?_⟩
    rw [h8, h5]
    constructor
    · rintro ((h | h) | ⟨s', hs', h⟩)
      · exact Or.inl h
      · exact Or.inr ⟨s, List.mem_cons_self .., lft, r, h1, h⟩
      · exact Or.inr ⟨s', List.mem_cons_of_mem _ hs', h⟩
    · rintro (h | ⟨s', hs', h⟩)
      · exact Or.inl (Or.inl h)
      · rcases List.mem_cons.1 hs' with rfl | hs'
        · obtain ⟨lft', r', h1', h⟩ := h
          rw [h1] at h1'
          injection h1' with _ h1'
          subst h1'
          exact Or.inl (Or.inr h)
        · exact Or.inr ⟨s', hs', h⟩

/-- The map after visiting the variables `vs`. -/
structure Good (H : Nat → Node) (srcs : Nat → List Nat) (vs : List Nat) (m : Map) : Prop where
  keys : ∀ v, (∃ us, (v, us) ∈ m) ↔ v ∈ vs ∧ srcs v ≠ []
  once : (m.map Prod.fst).Nodup
  vals : ∀ v us, (v, us) ∈ m → us.Nodup ∧ ∀ u, u ∈ us ↔ ∃ s ∈ srcs v, Part H s u

theorem visitVar_spec {H : Nat → Node} {srcs : Nat → List Nat} {l : List Nat} (hD : Design H srcs l) {f : Nat} (hf : l.length < f) {v : Nat} {vs : List Nat}
    {m : Map} (hm : Good H srcs vs m) : ∃ m', visitVar H srcs f v m = .ok m' ∧ Good H srcs (vs ++ [v]) m' := by
  unfold visitVar
  have anyk : (m.any fun e => decide (e.1 = v)) = true ↔ ∃ us, (v, us) ∈ m := by
    simp only [List.any_eq_true, decide_eq_true_eq]
    constructor
    · rintro ⟨⟨a, us⟩, h, rfl⟩; exact ⟨us, h⟩
    · rintro ⟨us, h⟩; exact ⟨_, h, rfl⟩
  split
  · rename_i h
    have h := (hm.keys v).1 (anyk.1 h)
    refine ⟨m, rfl, ⟨fun w => ?_, hm.once, hm.vals⟩⟩
    rw [hm.keys, List.mem_append, List.mem_singleton]
    constructor
    · exact fun ⟨a, b⟩ => ⟨Or.inl a, b⟩
    · rintro ⟨a | rfl, b⟩
      · exact ⟨a, b⟩
      · exact h
  · rename_i hno
    split
    · rename_i he
      refine ⟨m, rfl, ⟨fun w => ?_, hm.once, hm.vals⟩⟩
      rw [hm.keys, List.mem_append, List.mem_singleton]
      constructor
      · exact fun ⟨a, b⟩ => ⟨Or.inl a, b⟩
      · rintro ⟨a | rfl, b⟩
        · exact ⟨a, b⟩
        · exact absurd he b
    · rename_i hne
      obtain ⟨us, h1, h2, h3⟩ := getSources_spec hD hf (srcs v) [] (fun s hs => ⟨v, hs⟩) List.nodup_nil
      refine ⟨m ++ [(v, us)], by rw [h1]; rfl, ⟨fun w => ?_, ?_, ?_⟩⟩
      · simp only [List.mem_append, List.mem_singleton, Prod.mk.injEq]
        constructor
        · rintro ⟨ws, h | ⟨rfl, _⟩⟩
          · have := (hm.keys w).1 ⟨ws, h⟩; exact ⟨Or.inl this.1, this.2⟩
          · exact ⟨Or.inr rfl, hne⟩
        · rintro ⟨a | rfl, b⟩
          · obtain ⟨ws, h⟩ := (hm.keys w).2 ⟨a, b⟩; exact ⟨ws, Or.inl h⟩
          · exact ⟨us, Or.inr ⟨rfl, rfl⟩⟩
      · rw [List.map_append]
        refine List.nodup_append.2 ⟨hm.once, by simp, ?_⟩
        rintro x hx y hy rfl
        simp only [List.map_cons, List.map_nil, List.mem_singleton] at hy
        subst hy
        obtain ⟨⟨a, ws⟩, hw, rfl⟩ := List.mem_map.1 hx
        exact hno (anyk.2 ⟨ws, hw⟩)
      · intro w ws hw
        rcases List.mem_append.1 hw with hw | hw
        · exact hm.vals w ws hw
        · injection List.mem_singleton.1 hw with e1 e2
          subst e1; subst e2
          exact ⟨h2, fun u => by rw [h3]; simp⟩

theorem each_spec {H : Nat → Node} {srcs : Nat → List Nat} {l : List Nat} (hD : Design H srcs l) {f : Nat} (hf : l.length < f) :
    ∀ (ws vs : List Nat) (m : Map), Good H srcs vs m → ∃ m', each (visitVar H srcs f) ws m = .ok m' ∧ Good H srcs (vs ++ ws) m'
  | [], vs, m, h => ⟨m, rfl, by simpa using h⟩
  | w :: ws, vs, m, h => by
    obtain ⟨m1, h1, g1⟩ := visitVar_spec hD hf h (v := w)
    obtain ⟨m2, h2, g2⟩ := each_spec hD hf ws (vs ++ [w]) m1 g1
    exact ⟨m2, by simp only [each, h1, Res.ok_bind, h2], by simpa using g2⟩

theorem find_spec {H : Nat → Node} {srcs : Nat → List Nat} {l : List Nat} (hD : Design H srcs l) {f top : Nat} (hf : l.length < f) (ht : top ∈ l) :
    ∃ m vs, findDrivers H srcs f top = .ok m ∧ Good H srcs vs m ∧ ∀ v, v ∈ vs ↔ Reach (kids H) top v ∧ isVar (H v) = true := by
  obtain ⟨s, h1, _, _, h3, _⟩ := visits_once_partial (kids H) l hD.closed top ht (hD.acyclic top) f hf
  obtain ⟨m, h4, h5⟩ := each_spec hD hf (s.2.filter fun n => isVar (H n)) [] [] ⟨fun v => by simp, List.nodup_nil, fun v us h => by cases h⟩
  refine ⟨m, _, by unfold findDrivers; rw [h1]; exact h4, h5, fun v => ?_⟩
  rw [List.nil_append, List.mem_filter, h3]

/-! ### From children to reading -/

theorem reach_head {k : Nat → List Nat} {a b : Nat} (h : Reach k a b) : b = a ∨ ∃ c ∈ k a, Reach k c b := by
  rcases h with h | h
  · exact Or.inl h
  · right
    induction h with
    | one h => exact ⟨_, h, Or.inl rfl⟩
    | more _ h ih =>
      obtain ⟨c, hc, h'⟩ := ih
      refine ⟨c, hc, Or.inr ?_⟩
      rcases h' with rfl | h'
      · exact .one h
      · exact .more h' h

theorem reach_cons {k : Nat → List Nat} {a b c : Nat} (h : b ∈ k a) (h' : Reach k b c) : Reach k a c := by
  rcases h' with rfl | h'
  · exact Or.inr (.one h)
  · exact Or.inr (h'.cons h)

/-- Reaching along paths, the step first. -/
inductive Down (k : Nat → List Nat) : Nat → Nat → Prop where
  | here {a} : Down k a a
  | step {a b c} : b ∈ k a → Down k b c → Down k a c

theorem Down.snoc {k : Nat → List Nat} {a b c : Nat} (h : Down k a b) (hc : c ∈ k b) : Down k a c := by
  induction h with
  | here => exact .step hc .here
  | step h _ ih => exact .step h (ih hc)

theorem reach_down {k : Nat → List Nat} {a b : Nat} (h : Reach k a b) : Down k a b := by
  rcases h with rfl | h
  · exact .here
  · induction h with
    | one h => exact .step h .here
    | more _ h ih => exact ih.snoc h

theorem slice_only {H : Nat → Node} {srcs : Nat → List Nat} {l : List Nat} (hD : Design H srcs l) {a u : Nat} (h : Down (kids H) a u) :
    ∀ n, a ∈ Slices (H n) → isBase (H u) = false := by
  induction h with
  | here =>
    intro n hn
    obtain ⟨sl, h | ⟨i, h⟩⟩ := hD.slices n _ hn <;> rw [h] <;> rfl
  | @step a b c hb _ ih =>
    intro n hn
    refine ih a ?_
    obtain ⟨sl, h | ⟨i, h⟩⟩ := hD.slices n _ hn <;> simp only [kids, h, kidsOf] at hb <;> simpa [h, Slices] using hb

theorem down_reads {H : Nat → Node} {srcs : Nat → List Nat} {l : List Nat} (hD : Design H srcs l) {e u : Nat} (h : Down (kids H) e u) :
    Expression (H e) → isBase (H u) = true → Reads H e u := by
  induction h with
  | @here a =>
    intro _ hb
    cases hn : H a with
    | base sl => exact .base hn
    | _ => rw [hn] at hb; cases hb
  | @step a b c hb hd ih =>
    intro he hu
    have no : b ∈ Slices (H a) → Reads H a c := fun hs => by
      have := slice_only hD hd a hs
      rw [hu] at this
      cases this
    cases hn : H a with
    | op as =>
      simp only [kids, hn, kidsOf] at hb
      exact .op hn hb (ih (hD.args a as hn b hb) hu)
    | assign x y => rw [hn] at he; exact he.elim
    | other ks => rw [hn] at he; exact he.elim
    | port => simp [kids, hn, kidsOf] at hb
    | call as => simp [kids, hn, kidsOf] at hb
    | _ =>
      refine no ?_
      simp only [kids, hn, kidsOf] at hb
      simpa [hn, Slices] using hb

theorem plain_reach {H : Nat → Node} {e u : Nat} (hp : Plain H e) : Reads H e u → Reach (kids H) e u ∧ isBase (H u) = true := by
  induction hp with
  | @base e sl he =>
    intro h
    cases h <;> simp_all [isBase, Reach]
  | @const e sl he =>
    intro h
    cases h <;> simp_all
  | @op e as he _ ih =>
    intro h
    cases h with
    | @op _ as' a _ he' ha h =>
      rw [he] at he'
      injection he' with he'
      subst he'
      obtain ⟨h1, h2⟩ := ih a ha h
      exact ⟨reach_cons (by simp [kids, he, kidsOf, ha]) h1, h2⟩
    | _ => simp_all

theorem plain_not_const {H : Nat → Node} {e u : Nat} (h : Reads H e u) : isConst (H e) = false := by
  cases h <;> simp_all [isConst]

/-- **C135, it ends**: the function returns, and tells each variable once. -/
theorem find_ends {H : Nat → Node} {srcs : Nat → List Nat} {l : List Nat} (hD : Design H srcs l) {f top : Nat} (hf : l.length < f) (ht : top ∈ l) :
    ∃ m, findDrivers H srcs f top = .ok m ∧ (m.map Prod.fst).Nodup ∧ ∀ v us, (v, us) ∈ m → us.Nodup := by
  obtain ⟨m, vs, h1, h2, _⟩ := find_spec hD hf ht
  exact ⟨m, h1, h2.once, fun v us h => (h2.vals v us h).1⟩

/-- **C135, soundness**: what is reported as driving `v` is read by one of the sources of `v`, and `v` is a
variable of the design or a cast of one. -/
theorem reported_reads {H : Nat → Node} {srcs : Nat → List Nat} {l : List Nat} (hD : Design H srcs l) {f top : Nat} (hf : l.length < f) (ht : top ∈ l)
    {m : Map} (h : findDrivers H srcs f top = .ok m) {v : Nat} {us : List Nat} (hv : (v, us) ∈ m) :
    srcs v ≠ [] ∧ Reach (kids H) top v ∧ ((∃ sl, H v = .base sl) ∨ ∃ w sl, H v = .cast w sl) ∧ ∀ u ∈ us, (∃ sl, H u = .base sl) ∧ ∃ s ∈ srcs v, ∃ lft r, H s = .assign lft r ∧ Reads H r u := by
  obtain ⟨m', vs, h1, h2, h3⟩ := find_spec hD hf ht
  rw [h] at h1
  injection h1 with h1
  subst h1
  have hk := (h2.keys v).1 ⟨us, hv⟩
  refine ⟨hk.2, ((h3 v).1 hk.1).1, ?_, fun u hu => ?_⟩
  · have h4 := ((h3 v).1 hk.1).2
    cases hn : H v with
    | base sl => exact Or.inl ⟨sl, rfl⟩
    | cast w sl => exact Or.inr ⟨w, sl, rfl⟩
    | _ => rw [hn] at h4; cases h4
  obtain ⟨s, hs, lft, r, h4, h5, h6, h7⟩ := ((h2.vals v us hv).2 u).1 hu
  obtain ⟨lft', r', h8, _, h9⟩ := hD.sources v s hs
  rw [h4] at h8
  injection h8 with _ h8
  subst h8
  refine ⟨?_, s, hs, lft, r, h4, down_reads hD (reach_down h6) h9 h7⟩
  cases hn : H u with
  | base sl => exact ⟨sl, rfl⟩
  | _ => rw [hn] at h7; cases h7

/-- **C135, completeness for plain assignments**: if a variable occurs in the design by itself, everything read by a right side of variables,
constants and operators is reported for it. -/
theorem plain_reported_partial {H : Nat → Node} {srcs : Nat → List Nat} {l : List Nat} (hD : Design H srcs l) {f top : Nat} (hf : l.length < f) (ht : top ∈ l)
    {m : Map} (h : findDrivers H srcs f top = .ok m) {v : Nat} {sl : List Nat} (hb : H v = .base sl) (hv : Reach (kids H) top v)
    {s lft r : Nat} (hs : s ∈ srcs v) (ha : H s = .assign lft r) (hp : Plain H r) {u : Nat} (hr : Reads H r u) :
    ∃ us, (v, us) ∈ m ∧ u ∈ us := by
  obtain ⟨m', vs, h1, h2, h3⟩ := find_spec hD hf ht
  rw [h] at h1
  injection h1 with h1
  subst h1
  obtain ⟨us, hu⟩ := (h2.keys v).2 ⟨(h3 v).2 ⟨hv, by rw [hb]; rfl⟩, fun e => by rw [e] at hs; cases hs⟩
  obtain ⟨h4, h5⟩ := plain_reach hp hr
  exact ⟨us, hu, ((h2.vals v us hu).2 u).2 ⟨s, hs, lft, r, ha, plain_not_const hr, h4, h5⟩⟩

/-- **C135, plain designs**: an assignment of a plain expression to a whole variable. -/
theorem driver_partial {H : Nat → Node} {srcs : Nat → List Nat} {l : List Nat} (hD : Design H srcs l) {f top : Nat} (hf : l.length < f) (ht : top ∈ l)
    (hL : Linked H srcs top) {m : Map} (h : findDrivers H srcs f top = .ok m) {s v r u : Nat} {sl : List Nat} (hs : Assigns H top s v r)
    (hb : H v = .base sl) (hp : Plain H r) (hr : Reads H r u) : ∃ us, (v, us) ∈ m ∧ u ∈ us := by
  have hv : Reach (kids H) top v := by
    rcases hs.1 with e | e
    · exact Or.inr (.one (by subst e; simp [kids, hs.2, kidsOf]))
    · exact Or.inr (.more e (by show v ∈ kidsOf (H s); rw [hs.2]; simp [kidsOf]))
  exact plain_reported_partial hD hf ht h hb hv ((hL v s).2 ⟨v, r, hs, .base hb⟩) hs.2 hp hr

/-! ### Examples, and where the full claim fails -/

/-- `a = b + d[0]` and `c[1] = b`, `e = signed'(b)`, an output `o = b`. -/
def demoH : Nat → Node
  | 0 => .other [1, 2, 3, 4]
  | 1 => .assign 10 20
  | 2 => .assign 15 11
  | 3 => .assign 13 16
  | 4 => .assign 17 11
  | 10 => .base []        -- a
  | 11 => .base []        -- b
  | 12 => .base [15]      -- c
  | 13 => .base []        -- e
  | 14 => .base [21]      -- d
  | 15 => .slice 12 []    -- c[1]
  | 16 => .cast 11 []
  | 17 => .port           -- o
  | 20 => .op [11, 21]
  | 21 => .slice 14 []    -- d[0]
  | _ => .const []

def demoSrcs : Nat → List Nat
  | 10 => [1]
  | 12 => [2]
  | 13 => [3]
  | 17 => [4]
  | _ => []

def demoNodes : List Nat := [0, 1, 2, 3, 4, 10, 11, 12, 13, 14, 15, 16, 17, 20, 21]

/-- `d` does not drive `a`, `c` and `o` have no drivers, and nothing drives `e`. -/
theorem demo_find : findDrivers demoH demoSrcs 16 0 = .ok [(10, [11]), (13, [])] := by decide +kernel

theorem demo_kids_lt : ∀ a b, b ∈ kidsOf (demoH a) → (a < 5 ∧ a < b ∧ (b < 5 → a = 0)) ∨ (a = 12 ∧ b = 15) ∨ (a = 14 ∧ b = 21) ∨ (a = 20 ∧ (b = 11 ∨ b = 21)) := by
  intro a b h
  unfold demoH at h
  split at h <;> simp [kidsOf] at h <;> omega

theorem demo_acyclic : ∀ n, ¬ Path (fun n => kidsOf (demoH n)) n n := by
  have rank : ∃ k : Nat → Nat, ∀ a b, b ∈ kidsOf (demoH a) → k a < k b :=
    ⟨fun n => if n = 0 then 0 else if n < 5 then 1 else if n = 20 then 2 else if n = 12 ∨ n = 14 then 3 else 4, fun a b h => by
      have := demo_kids_lt a b h
      dsimp only
      unfold demoH at h
      split at h <;> simp [kidsOf] at h <;> (try rcases h with rfl | rfl | rfl | rfl) <;> (try rcases h with rfl | rfl) <;> (try subst h) <;> decide⟩
  obtain ⟨k, hk⟩ := rank
  have : ∀ a b, Path (fun n => kidsOf (demoH n)) a b → k a < k b := by
    intro a b h
    induction h with
    | one h => exact hk _ _ h
    | more _ h ih => exact Nat.lt_trans ih (hk _ _ h)
  exact fun n h => Nat.lt_irrefl _ (this n n h)

theorem demo_design : Design demoH demoSrcs demoNodes where
  closed := by decide
  acyclic := demo_acyclic
  slices := by
    intro n s h
    unfold demoH at h
    split at h <;> simp [Slices] at h <;> subst h
    · exact ⟨[], Or.inl rfl⟩
    · exact ⟨[], Or.inl rfl⟩
  args := by
    intro n as h a ha
    unfold demoH at h
    split at h <;> cases h
    simp at ha
    rcases ha with rfl | rfl <;> trivial
  sources := by
    intro v s h
    unfold demoSrcs at h
    split at h <;> simp at h <;> subst h
    · exact ⟨10, 20, rfl, by decide, trivial⟩
    · exact ⟨15, 11, rfl, by decide, trivial⟩
    · exact ⟨13, 16, rfl, by decide, trivial⟩
    · exact ⟨17, 11, rfl, by decide, trivial⟩

theorem demo_assign {s lft r : Nat} (h : demoH s = .assign lft r) :
    (s = 1 ∧ lft = 10 ∧ r = 20) ∨ (s = 2 ∧ lft = 15 ∧ r = 11) ∨ (s = 3 ∧ lft = 13 ∧ r = 16) ∨ (s = 4 ∧ lft = 17 ∧ r = 11) := by
  unfold demoH at h
  split at h <;> cases h <;> simp

theorem demo_changes_base {e v : Nat} {sl : List Nat} (he : demoH e = .base sl) (h : Changes demoH e v) : v = e := by
  cases h <;> simp_all

theorem demo_linked : Linked demoH demoSrcs 0 := by
  intro v s
  constructor
  · intro h
    unfold demoSrcs at h
    split at h <;> simp at h <;> subst h
    · exact ⟨10, 20, ⟨Or.inr (.one (by decide)), rfl⟩, .base rfl⟩
    · exact ⟨15, 11, ⟨Or.inr (.one (by decide)), rfl⟩, .slice rfl (.base rfl)⟩
    · exact ⟨13, 16, ⟨Or.inr (.one (by decide)), rfl⟩, .base rfl⟩
    · exact ⟨17, 11, ⟨Or.inr (.one (by decide)), rfl⟩, .port rfl⟩
  · rintro ⟨lft, r, ⟨_, h⟩, hc⟩
    rcases demo_assign h with ⟨rfl, rfl, rfl⟩ | ⟨rfl, rfl, rfl⟩ | ⟨rfl, rfl, rfl⟩ | ⟨rfl, rfl, rfl⟩
    · rw [demo_changes_base rfl hc]; decide
    · cases hc with
      | slice h hc =>
        injection h with h _
        subst h
        rw [demo_changes_base rfl hc]; decide
      | _ h => cases h
    · rw [demo_changes_base rfl hc]; decide
    · cases hc with
      | port h => decide
      | _ h => cases h

/-- Read through a slice: not reported. -/
theorem slice_not_reported : Assigns demoH 0 1 10 20 ∧ Reads demoH 20 14 ∧ ∀ m us, findDrivers demoH demoSrcs 16 0 = .ok m → (10, us) ∈ m → 14 ∉ us := by
  refine ⟨⟨Or.inr (.one (by decide)), rfl⟩, .op rfl (a := 21) (by decide) (.slice rfl (.base rfl)), fun m us h hm => ?_⟩
  rw [demo_find] at h
  injection h with h
  subst h
  simp at hm
  subst hm
  decide

/-- Assigned through a slice: the variable is not in the result. -/
theorem slice_target_missing : Assigns demoH 0 2 15 11 ∧ Changes demoH 15 12 ∧ ∀ m us, findDrivers demoH demoSrcs 16 0 = .ok m → (12, us) ∉ m := by
  refine ⟨⟨Or.inr (.one (by decide)), rfl⟩, .slice rfl (.base rfl), fun m us h hm => ?_⟩
  rw [demo_find] at h
  injection h with h
  subst h
  simp at hm

/-- Read through a cast: not reported. -/
theorem cast_not_reported : Assigns demoH 0 3 13 16 ∧ Reads demoH 16 11 ∧ ∀ m us, findDrivers demoH demoSrcs 16 0 = .ok m → (13, us) ∈ m → us = [] := by
  refine ⟨⟨Or.inr (.one (by decide)), rfl⟩, .cast rfl (.base rfl), fun m us h hm => ?_⟩
  rw [demo_find] at h
  injection h with h
  subst h
  simp at hm
  exact hm

/-- Ports are never in the result. -/
theorem port_missing : Assigns demoH 0 4 17 11 ∧ Changes demoH 17 17 ∧ ∀ m us, findDrivers demoH demoSrcs 16 0 = .ok m → (17, us) ∉ m := by
  refine ⟨⟨Or.inr (.one (by decide)), rfl⟩, .port rfl, fun m us h hm => ?_⟩
  rw [demo_find] at h
  injection h with h
  subst h
  simp at hm

theorem not_DriverClaim : ¬ DriverClaim := by
  intro h
  obtain ⟨h1, h2, h3⟩ := slice_target_missing
  obtain ⟨us, hu, _⟩ := h demoH demoSrcs demoNodes 0 16 _ demo_design (by decide) (by decide) demo_linked demo_find 2 15 11 12 11 h1 h2 (.base rfl)
  exact h3 _ us demo_find hu

/-- `a = b + b`, then `d = a`. -/
def plainH : Nat → Node
  | 0 => .other [1, 2]
  | 1 => .assign 10 20
  | 2 => .assign 12 10
  | 10 => .base []
  | 11 => .base []
  | 12 => .base []
  | 20 => .op [11, 11]
  | _ => .const []

/-- A case of `driver_partial`. -/
example : Plain plainH 20 ∧ Reads plainH 20 11 ∧ Assigns plainH 0 1 10 20 ∧
    findDrivers plainH (fun v => if v = 10 then [1] else if v = 12 then [2] else []) 9 0 = .ok [(10, [11]), (12, [10])] :=
  ⟨.op rfl fun a ha => .base (sl := []) (by simp at ha; subst ha; rfl), .op rfl (a := 11) (by decide) (.base rfl), ⟨Or.inr (.one (by decide)), rfl⟩, by decide +kernel⟩

end Kratos.Drivers
