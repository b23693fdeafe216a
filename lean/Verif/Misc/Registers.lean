import Verif.Pass.Kinds
import Verif.Misc.Handles

/-!
# C116: the names of the registers

Model of `extract_register_names` and `extract_var_names` (src/analysis.cc:1410-1459), over `fix_assignment_type` (C24).  The assignments
recorded for a variable are those of the design that write it (C96).  Instances in generate loops and variables without a table entry are
not modelled.
-/

namespace Kratos.Registers

open Kratos.Kinds Kratos.Hnd

abbrev Str := Kratos.Text.Str

/-! ## Model -/

mutual
/-- The assignments of a statement with their kinds. -/
def nodeAssigns : Node → List (AKind × Nat)
  | .assign k n => [(k, n)]
  | .group _ kids => assigns kids
def assigns : Nodes → List (AKind × Nat)
  | .nil => []
  | .cons s ss => nodeAssigns s ++ assigns ss
end

mutual
/-- A generator with its instance name, its variables in the order of `get_all_var_names` (src/generator.cc:537-543) and its children. -/
inductive Inst where
  | mk (name : Str) (vars : List (Str × Nat)) (kids : Insts)
inductive Insts where
  | nil
  | cons (i : Inst) (is : Insts)
end

/-- `Var::sources()`: the kinds of the assignments that write the variable.  `writes n` are the variables written by the assignment. -/
def sources (writes : Nat → List Nat) (d : List Gen) (v : Nat) : List AKind :=
  d.flatMap fun g => g.items.flatMap fun i => (assigns i.body).filterMap fun p => if (writes p.2).contains v then some p.1 else none

/-- The test of `GeneratorVarVisitor`, src/analysis.cc:1422-1434, for the set in its order: only the first assignment is looked at. -/
def picked (registersOnly : Bool) (srcs : List AKind) : Bool :=
  if registersOnly then
    match srcs with
    | [] => false
    | k :: _ => decide (k = .nonBlocking)
  else true

mutual
/-- `visit_generator_root` (src/ir.cc:94-100) with `GeneratorVarVisitor::visit` (src/analysis.cc:1414-1435). -/
def visit (pick : Nat → Bool) (path : List Str) : Inst → List Str
  | .mk name vars kids =>
    (vars.filter fun x => pick x.2).map (fun x => varHandle false (plain (path ++ [name])) x.1) ++ visits pick (path ++ [name]) kids
def visits (pick : Nat → Bool) (path : List Str) : Insts → List Str
  | .nil => []
  | .cons i is => visit pick path i ++ visits pick path is
end

/-- `extract_register_names`, src/analysis.cc:1444-1453; `order` is the order of the sets. -/
def registerNames (order : Nat → List AKind → List AKind) (writes : Nat → List Nat) (d : List Gen) (top : Inst) : Res (List Str) :=
  (fixAssignmentType d).bind fun d' => .ok (visit (fun v => picked true (order v (sources writes d' v))) [] top)

/-- `extract_var_names`, src/analysis.cc:1455-1459. -/
def varNames (top : Inst) : List Str := visit (fun _ => picked false []) [] top

/-! ## Specification -/

/-- The iteration order of a set. -/
def IsOrder (order : Nat → List AKind → List AKind) : Prop := ∀ v l x, x ∈ order v l ↔ x ∈ l

mutual
/-- The variables below an instance, with the names on the way to them. -/
def below : Inst → List (List Str × Nat)
  | .mk name vars kids => (vars.map fun x => ([name, x.1], x.2)) ++ (belows kids).map fun x => (name :: x.1, x.2)
def belows : Insts → List (List Str × Nat)
  | .nil => []
  | .cons i is => below i ++ belows is
end

/-- Names separated by dots. -/
def dotted : List Str → Str
  | [] => []
  | [n] => n
  | n :: ns => n ++ '.' :: dotted ns

/-- The variable is written by an assignment in a place of this kind. -/
def WrittenIn (P : Place → Prop) (writes : Nat → List Nat) (d : List Gen) (v : Nat) : Prop :=
  ∃ g ∈ d, ∃ i ∈ g.items, P i.place ∧ ∃ p ∈ assigns i.body, v ∈ writes p.2

def Clock : Place → Prop
  | .seq _ => True
  | _ => False

mutual
/-- Instance names are identifiers. -/
def Named : Inst → Prop
  | .mk name _ kids => Ident name ∧ NamedL kids
def NamedL : Insts → Prop
  | .nil => True
  | .cons i is => Named i ∧ NamedL is
end

open Classical in
/-- C116 in full: the names of the registers are the full names of the variables written in clocked blocks. -/
def RegisterClaim : Prop :=
  ∀ order writes d top names, IsOrder order → Named top → registerNames order writes d top = .ok names →
    names = ((below top).filter fun x => decide (WrittenIn Clock writes d x.2)).map fun x => dotted x.1

/-! ## Proof -/

mutual
def nodeIds : Node → List Nat
  | .assign _ n => [n]
  | .group _ kids => ids kids
def ids : Nodes → List Nat
  | .nil => []
  | .cons s ss => nodeIds s ++ ids ss
end

mutual
theorem nodeIds_shape : ∀ s : Node, nodeIds s.shape = nodeIds s
  | .assign _ _ => rfl
  | .group _ kids => by rw [Node.shape, nodeIds, nodeIds, ids_shape kids]
theorem ids_shape : ∀ s : Nodes, ids s.shape = ids s
  | .nil => rfl
  | .cons s ss => by rw [Nodes.shape, ids, ids, nodeIds_shape s, ids_shape ss]
end

mutual
theorem node_unzip : ∀ s : Node, (nodeAssigns s).map Prod.fst = s.kinds ∧ (nodeAssigns s).map Prod.snd = nodeIds s
  | .assign _ _ => ⟨rfl, rfl⟩
  | .group _ kids => by
    rw [nodeAssigns, Node.kinds, nodeIds]
    exact nodes_unzip kids
theorem nodes_unzip : ∀ s : Nodes, (assigns s).map Prod.fst = s.kinds ∧ (assigns s).map Prod.snd = ids s
  | .nil => ⟨rfl, rfl⟩
  | .cons s ss => by
    obtain ⟨h1, h2⟩ := node_unzip s
    obtain ⟨h3, h4⟩ := nodes_unzip ss
    rw [assigns, Nodes.kinds, ids, List.map_append, List.map_append, h1, h2, h3, h4]
    exact ⟨rfl, rfl⟩
end

theorem pairs_map {α β γ : Type} (f : α → γ) : ∀ (l : List (α × β)) (m : List (γ × β)), m.map Prod.fst = (l.map Prod.fst).map f → m.map Prod.snd = l.map Prod.snd →
    m = l.map fun p => (f p.1, p.2)
  | [], [], _, _ => rfl
  | [], _ :: _, h, _ => by cases h
  | _ :: _, [], h, _ => by cases h
  | a :: l, b :: m, h1, h2 => by
    simp only [List.map_cons, List.cons.injEq] at h1 h2 ⊢
    exact ⟨Prod.ext h1.1 h2.1, pairs_map f l m h1.2 h2.2⟩

theorem fixed_assigns {i i' : Item} (h : Fixed i i') : assigns i'.body = (assigns i.body).map fun p => (result i.place p.1, p.2) := by
  apply pairs_map
  · rw [(nodes_unzip _).1, (nodes_unzip _).1, h.kinds]
  · rw [(nodes_unzip _).2, (nodes_unzip _).2, ← ids_shape i'.body, h.shape, ids_shape]

theorem All2.mem_left {α β : Type} {R : α → β → Prop} {l : List α} {m : List β} (h : All2 R l m) : ∀ a ∈ l, ∃ b ∈ m, R a b := by
  induction h with
  | nil => intro b hb; cases hb
  | cons h1 _ ih =>
    intro b hb
    rcases List.mem_cons.1 hb with e | hb
    · exact ⟨_, List.mem_cons_self .., e ▸ h1⟩
    · obtain ⟨a, ha, h⟩ := ih b hb
      exact ⟨a, List.mem_cons_of_mem _ ha, h⟩

theorem mem_sources {writes : Nat → List Nat} {d : List Gen} {v : Nat} {k : AKind} :
    k ∈ sources writes d v ↔ ∃ g ∈ d, ∃ i ∈ g.items, ∃ p ∈ assigns i.body, v ∈ writes p.2 ∧ p.1 = k := by
  unfold sources
  simp only [List.mem_flatMap, List.mem_filterMap]
  constructor
  · rintro ⟨g, hg, i, hi, p, hp, h⟩
    split at h
    · next hc =>
      cases h
      exact ⟨g, hg, i, hi, p, hp, by simpa using hc, rfl⟩
    · cases h
  · rintro ⟨g, hg, i, hi, p, hp, hv, rfl⟩
    exact ⟨g, hg, i, hi, p, hp, by rw [if_pos (by simpa using hv)]⟩

/-- The kinds recorded after the pass. -/
theorem sources_fixed {writes : Nat → List Nat} {d d' : List Gen} (h : fixAssignmentType d = .ok d')
    (hn : ∀ g ∈ d, g.cloned = false ∧ g.external = false) {v : Nat} {k : AKind} :
    k ∈ sources writes d' v ↔ ∃ g ∈ d, ∃ i ∈ g.items, ∃ p ∈ assigns i.body, v ∈ writes p.2 ∧ result i.place p.1 = k := by
  rw [mem_sources]
  have ha := fixed h
  constructor
  · rintro ⟨g', hg', i', hi', p', hp', hv, rfl⟩
    obtain ⟨g, hg, hr⟩ := ha.mem_right g' hg'
    obtain ⟨i, hi, hf⟩ := (hr.items (hn g hg).1 (hn g hg).2).mem_right i' hi'
    rw [fixed_assigns hf] at hp'
    obtain ⟨p, hp, rfl⟩ := List.mem_map.1 hp'
    exact ⟨g, hg, i, hi, p, hp, hv, rfl⟩
  · rintro ⟨g, hg, i, hi, p, hp, hv, rfl⟩
    obtain ⟨g', hg', hr⟩ := All2.mem_left ha g hg
    obtain ⟨i', hi', hf⟩ := All2.mem_left (hr.items (hn g hg).1 (hn g hg).2) i hi
    refine ⟨g', hg', i', hi', (result i.place p.1, p.2), ?_, hv, rfl⟩
    rw [fixed_assigns hf]
    exact List.mem_map.2 ⟨p, hp, rfl⟩

theorem dotted_join : ∀ ns : List Str, dotted ns = Kratos.Text.join ['.'] ns
  | [] => rfl
  | [n] => rfl
  | n :: m :: ns => by
    rw [dotted, dotted_join (m :: ns), join_cons_cons]
    simp

theorem belows_path (pre : List Str) (f : List Str → Str) (l : List (List Str × Nat)) (name : Str) (q : Nat → Bool) :
    ((l.map fun x => (name :: x.1, x.2)).filter fun x => q x.2).map (fun x => f (pre ++ x.1)) =
      (l.filter fun x => q x.2).map fun x => f (pre ++ [name] ++ x.1) := by
  rw [List.filter_map, List.map_map]
  have : ((fun x : List Str × Nat => q x.2) ∘ fun x : List Str × Nat => (name :: x.1, x.2)) = fun x => q x.2 := rfl
  rw [this]
  apply List.map_congr_left
  intro x _
  show f (pre ++ name :: x.1) = f (pre ++ [name] ++ x.1)
  rw [List.append_assoc]
  rfl

mutual
theorem visit_eq (q : Nat → Bool) : ∀ (t : Inst) (path : List Str), Named t → (∀ n ∈ path, Ident n) →
    visit q path t = ((below t).filter fun x => q x.2).map fun x => dotted (path ++ x.1)
  | .mk name vars kids, path, hn, hp => by
    have hp' : ∀ n ∈ path ++ [name], Ident n := by
      intro n h
      rcases List.mem_append.1 h with h | h
      · exact hp n h
      · rcases List.mem_singleton.1 h with rfl
        exact hn.1
    rw [visit, below, List.filter_append, List.map_append, visits_eq q kids (path ++ [name]) hn.2 hp', belows_path path dotted]
    congr 1
    rw [List.filter_map, List.map_map]
    have : ((fun x : List Str × Nat => q x.2) ∘ fun x : Str × Nat => ([name, x.1], x.2)) = fun x => q x.2 := rfl
    rw [this]
    apply List.map_congr_left
    intro x _
    show varHandle false (plain (path ++ [name])) x.1 = dotted (path ++ [name, x.1])
    rw [varHandle_plain x.1 (by simp) hp', dotted_join, List.append_assoc]
    rfl
theorem visits_eq (q : Nat → Bool) : ∀ (t : Insts) (path : List Str), NamedL t → (∀ n ∈ path, Ident n) →
    visits q path t = ((belows t).filter fun x => q x.2).map fun x => dotted (path ++ x.1)
  | .nil, _, _, _ => rfl
  | .cons i is, path, hn, hp => by
    rw [visits, belows, List.filter_append, List.map_append, visit_eq q i path hn.1 hp, visits_eq q is path hn.2 hp]
end

/-! ## Theorems -/

/-- `extract_var_names` lists every variable of every instance, by its full name. -/
theorem var_names (top : Inst) (h : Named top) : varNames top = (below top).map fun x => dotted x.1 := by
  unfold varNames
  rw [visit_eq _ top [] h (fun _ h => nomatch h)]
  congr 1
  exact List.filter_eq_self.2 fun _ _ => rfl

theorem result_clock {i : Place} (hs : i ≠ .seq false) (hc : Clock i) {k : AKind} (hk : k = .undefined ∨ k = .nonBlocking) : result i k = .nonBlocking := by
  cases i with
  | seq c =>
    cases c with
    | true => rcases hk with rfl | rfl <;> rfl
    | false => exact absurd rfl hs
  | _ => exact hc.elim

theorem result_other {i : Place} (hc : ¬ Clock i) {k : AKind} (hk : k ≠ .nonBlocking) : result i k ≠ .nonBlocking := by
  unfold result
  split
  · cases i with
    | seq c => exact absurd trivial hc
    | _ => simp
  · exact hk

open Classical in
/-- C116, partial: if nothing is cloned or external, all clocked blocks are checked, nothing written in a clocked block is written elsewhere,
and no assignment elsewhere was made non-blocking by the user, then exactly the variables written in clocked blocks are listed, whatever the
order of the sets.  What is missing is false: `initial_hides`, `unchecked_hidden`, `cloned_hidden`. -/
theorem registers_partial (order : Nat → List AKind → List AKind) (ho : IsOrder order) (writes : Nat → List Nat) (d : List Gen) (top : Inst)
    (ht : Named top) (names : List Str) (h : registerNames order writes d top = .ok names)
    (hn : ∀ g ∈ d, g.cloned = false ∧ g.external = false) (hs : ∀ g ∈ d, ∀ i ∈ g.items, i.place ≠ .seq false)
    (hm : ∀ v, WrittenIn Clock writes d v → ¬ WrittenIn (fun p => ¬ Clock p) writes d v)
    (hu : ∀ g ∈ d, ∀ i ∈ g.items, ¬ Clock i.place → ∀ p ∈ assigns i.body, p.1 ≠ .nonBlocking) :
    names = ((below top).filter fun x => decide (WrittenIn Clock writes d x.2)).map fun x => dotted x.1 := by
  unfold registerNames at h
  simp only [Res.bind_eq_ok] at h
  obtain ⟨d', hd, h⟩ := h
  cases h
  have key : ∀ v, picked true (order v (sources writes d' v)) = decide (WrittenIn Clock writes d v) := by
    intro v
    by_cases hw : WrittenIn Clock writes d v
    · rw [decide_eq_true hw]
      have hall : ∀ k ∈ order v (sources writes d' v), k = .nonBlocking := by
        intro k hk
        obtain ⟨g, hg, i, hi, p, hp, hv, rfl⟩ := (sources_fixed hd hn).1 ((ho v _ k).1 hk)
        have hc : Clock i.place := Classical.byContradiction fun hc => hm v hw ⟨g, hg, i, hi, hc, p, hp, hv⟩
        apply result_clock (hs g hg i hi) hc
        obtain ⟨g', hg', hr⟩ := All2.mem_left (fixed hd) g hg
        obtain ⟨i', hi', hf⟩ := All2.mem_left (hr.items (hn g hg).1 (hn g hg).2) i hi
        have hs' := hs g hg i hi
        cases hpl : i.place with
        | seq c =>
          cases c with
          | true =>
            have := hf.agreed (Or.inr (Or.inr hpl)) p.1 (by rw [← (nodes_unzip _).1]; exact List.mem_map.2 ⟨p, hp, rfl⟩)
            rw [hpl] at this
            exact this
          | false => exact absurd hpl hs'
        | _ => rw [hpl] at hc; exact hc.elim
      have hne : order v (sources writes d' v) ≠ [] := by
        obtain ⟨g, hg, i, hi, _, p, hp, hv⟩ := hw
        have := (ho v _ _).2 ((sources_fixed (writes := writes) (v := v) hd hn).2 ⟨g, hg, i, hi, p, hp, hv, rfl⟩)
        intro e
        rw [e] at this
        cases this
      cases e : order v (sources writes d' v) with
      | nil => exact absurd e hne
      | cons k ks =>
        have := hall k (by rw [e]; exact List.mem_cons_self)
        subst this
        rfl
    · rw [decide_eq_false hw]
      cases e : order v (sources writes d' v) with
      | nil => rfl
      | cons k ks =>
        obtain ⟨g, hg, i, hi, p, hp, hv, rfl⟩ := (sources_fixed hd hn).1 ((ho v _ k).1 (by rw [e]; exact List.mem_cons_self))
        have hc : ¬ Clock i.place := fun hc => hw ⟨g, hg, i, hi, hc, p, hp, hv⟩
        have := result_other hc (hu g hg i hi hc p hp)
        show decide _ = false
        exact decide_eq_false this
  rw [visit_eq _ top [] ht (fun _ h => nomatch h)]
  simp only [key, List.nil_append]

/-! ## Examples and witnesses -/

/-- `top` with variables `a` and `q`, and a child `u` with `r`. -/
def tree : Inst := .mk "top".toList [("a".toList, 0), ("q".toList, 1)] (.cons (.mk "u".toList [("r".toList, 2)] .nil) .nil)

/-- Assignment `n` writes variable `n`. -/
def wr : Nat → List Nat := fun n => [n]

def one (p : Place) (n : Nat) : Item := ⟨p, .cons (.assign .undefined n) .nil⟩

example : registerNames (fun _ l => l) wr [⟨false, false, [one .top 0, one (.seq true) 1]⟩, ⟨false, false, [one (.seq true) 2]⟩] tree =
    .ok ["top.q".toList, "top.u.r".toList] := by decide +kernel
example : varNames tree = ["top.a".toList, "top.q".toList, "top.u.r".toList] := by decide +kernel

/-- A register with an initial value: whether it is found depends on the order of the set. -/
def withInit : List Gen := [⟨false, false, [one .initial 1, one (.seq true) 1]⟩]
theorem initial_hides : registerNames (fun _ l => l) wr withInit tree = .ok [] ∧
    registerNames (fun _ l => l.reverse) wr withInit tree = .ok ["top.q".toList] := by decide +kernel

/-- A clocked block with `check_assignment=false`. -/
theorem unchecked_hidden : registerNames (fun _ l => l) wr [⟨false, false, [one (.seq false) 1]⟩] tree = .ok [] := by decide +kernel

/-- A cloned generator. -/
theorem cloned_hidden : registerNames (fun _ l => l) wr [⟨true, false, [one (.seq true) 1]⟩] tree = .ok [] := by decide +kernel

theorem not_RegisterClaim : ¬ RegisterClaim := by
  intro h
  have ht : Named tree := by
    refine ⟨⟨?_, ?_, ?_⟩, ⟨⟨?_, ?_, ?_⟩, trivial⟩, trivial⟩ <;> decide
  have hw : WrittenIn Clock wr withInit 1 :=
    ⟨⟨false, false, [one .initial 1, one (.seq true) 1]⟩, List.mem_singleton.2 rfl, one (.seq true) 1, by simp, trivial, (.undefined, 1),
      List.mem_singleton.2 rfl, List.mem_singleton.2 rfl⟩
  have := h (fun _ l => l) wr withInit tree [] (fun _ _ _ => Iff.rfl) ht initial_hides.1
  have hm : (["top".toList, "q".toList], 1) ∈ (below tree).filter fun x => @decide (WrittenIn Clock wr withInit x.2) (Classical.propDecidable _) :=
    List.mem_filter.2 ⟨by simp [below, tree], by simp [hw]⟩
  have hx := List.mem_map_of_mem (f := fun x : List Str × Nat => dotted x.1) hm
  rw [← this] at hx
  cases hx

/-- The hypotheses of `registers_partial`. -/
def clean : List Gen := [⟨false, false, [one .top 0, one (.seq true) 1]⟩]
example : (∀ g ∈ clean, g.cloned = false ∧ g.external = false) ∧ (∀ g ∈ clean, ∀ i ∈ g.items, i.place ≠ .seq false) ∧
    (∀ v, WrittenIn Clock wr clean v → ¬ WrittenIn (fun p => ¬ Clock p) wr clean v) ∧ WrittenIn Clock wr clean 1 := by
  refine ⟨by simp [clean], by simp [clean, one], ?_, ?_⟩
  · rintro v ⟨g, hg, i, hi, hc, p, hp, hv⟩ ⟨g', hg', i', hi', hc', p', hp', hv'⟩
    simp only [clean, List.mem_singleton] at hg hg'
    subst hg hg'
    simp only [List.mem_cons, List.not_mem_nil, or_false] at hi hi'
    rcases hi with rfl | rfl
    · exact hc
    · rcases hi' with rfl | rfl
      · simp only [one, assigns, nodeAssigns, List.append_nil, List.mem_singleton] at hp hp'
        subst hp hp'
        simp only [wr, List.mem_singleton] at hv hv'
        omega
      · exact hc' trivial
  · exact ⟨_, List.mem_singleton.2 rfl, one (.seq true) 1, by simp, trivial, (.undefined, 1), List.mem_singleton.2 rfl, List.mem_singleton.2 rfl⟩

end Kratos.Registers
