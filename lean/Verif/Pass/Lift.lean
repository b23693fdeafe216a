import Verif.Pass.Decouple

/-!
# Instances turned into a generate loop (property C78)

Models `lift_genvar_instances` (`LiftGenVarInstanceVisitor`, src/transform.cc:500-700) for one group of instances of one module in one
parent, after instantiation.  Expressions and their meaning are those of `Verif.Pass.Replace` and `Verif.Pass.Decouple`.

Simplifications: two nets have the same name (`to_string`) exactly if they are the same expression.  The other groups of a parent are
handled one after the other in the same way.
-/

namespace Kratos.Lift

open Kratos.Replace Kratos.Decouple

/-! ### Model -/

/-- A port of an instance, by its name, and what it is connected to; an output that nobody reads is connected to nothing. -/
structure Conn where
  name : Nat
  out : Bool
  net : Option E
  deriving DecidableEq, Repr

abbrev Inst := List Conn

/-- The parent: the group of instances, the other instances, and the assignments (what is assigned, what is read). -/
structure Par where
  insts : List Inst
  others : List Inst
  asns : List (E × E)
  deriving DecidableEq, Repr

/-- An instance reads the variable. -/
def Inst.reads (v : Nat) (i : Inst) : Nat :=
  (i.filter fun c => !c.out && (match c.net with | some e => e.sinkOf v | none => false)).length

/-- `sinks()` of a variable: the left-hand sides of the statements that read it, and the number of inputs of instances connected to it. -/
def readers (P : Par) (v : Nat) : List E × Nat :=
  ((P.asns.filter fun a => a.2.sinkOf v || a.1.indexSink v).map fun a => a.1,
    ((P.insts ++ P.others).map (Inst.reads v)).foldr (· + ·) 0)

/-- What counts as connected, src/transform.cc:545-561: an output connected to a variable with one reader that assigns to a part of
something counts as connected to that part. -/
def netOf (P : Par) (c : Conn) (e : E) : E :=
  match c.out, e with
  | true, .var v =>
    match readers P v with
    | ([l], 0) => if isSlice l then l else .var v
    | _ => .var v
  | _, e => e

/-- The entry for one port, src/transform.cc:547-571: the variable, and the index if it is a part; nothing for a range.  An unconnected
output dereferences the end of the set (552).  A slice by a variable has `high` and `low` 0 (src/expr.cc:648). -/
def entry (P : Par) (c : Conn) : Res (Option (E × Option Nat)) :=
  match c.net with
  | none => .ub
  | some e =>
    match netOf P c e with
    | .sl p hi lo => .ok (if hi = lo then some (p, some hi) else none)
    | .ix p _ => .ok (some (p, some 0))
    | n => .ok (some (n, none))

/-- The loops over instances and ports; a range ends them, src/transform.cc:541-573. -/
def scan (P : Par) : List Conn → Res (Option (List (Nat × E × Option Nat)))
  | [] => .ok (some [])
  | c :: cs => (entry P c).bind fun
    | none => .ok none
    | some x => (scan P cs).map fun r => r.map fun r => (c.name, x) :: r

/-- `port_mapping[port_name][name].emplace(index)`, or `= {}` for a whole variable, src/transform.cc:568-570. -/
def note (k : E) (i : Option Nat) : List (E × List Nat) → List (E × List Nat)
  | [] => [(k, match i with | some i => [i] | none => [])]
  | (k', l) :: m =>
    if k' = k then (k', match i with | some i => if i ∈ l then l else l ++ [i] | none => []) :: m
    else (k', l) :: note k i m

/-- `port_mapping[name]`. -/
def info (p : Nat) (es : List (Nat × E × Option Nat)) : List (E × List Nat) :=
  es.foldl (fun m x => if x.1 = p then note x.2.1 x.2.2 m else m) []

/-- The test on one port, src/transform.cc:576-597. -/
def okPort (n : Nat) (m : List (E × List Nat)) : Bool :=
  match m with
  | [(_, l)] => l == [] || (l.length == n && (List.range n).all fun i => decide (i ∈ l))
  | _ => false

/-- The connection of a port in the loop, src/transform.cc:629-640: a variable, or the element of it with the index of the loop.  What
is not a variable of the parent is looked up as a null pointer. -/
def target (m : List (E × List Nat)) : Res (Nat × Bool) :=
  match m with
  | (.var v, l) :: _ => .ok (v, !(l == []))
  | _ => .ub

/-- The loop: number of turns, and for each port the variable and whether its element is taken. -/
structure Loop where
  turns : Nat
  ports : List (Nat × Nat × Bool)
  deriving DecidableEq, Repr

/-- `visit` for one group, src/transform.cc:522-533: no loop for one instance, or if the check fails.  The assignments stay. -/
def lift (P : Par) : Res (Option Loop) :=
  if P.insts.length ≤ 1 then .ok none
  else (scan P (P.insts.flatten)).bind fun
    | none => .ok none
    | some es =>
      let names := (P.insts.headD []).map fun c => c.name
      if names.all (fun p => okPort P.insts.length (info p es)) = true then
        (Kinds.mapRes (fun p => (target (info p es)).map fun t => (p, t)) names).map fun ps => some ⟨P.insts.length, ps⟩
      else .ok none

/-- The characters all instance names begin with, src/transform.cc:665-680. -/
def common : List Char → List (List Char) → List Char
  | [], _ => []
  | c :: cs, ns => if ns.all (fun n => n.head? == some c) = true then c :: common cs (ns.map List.tail) else []

/-- Underscores at the end are removed, src/transform.cc:683-685; the last character of an empty string is asked for. -/
def strip : List Char → Res (List Char)
  | [] => .ub
  | c :: cs => if (c :: cs).getLast? = some '_' then strip ((c :: cs).dropLast) else .ok (c :: cs)
termination_by l => l.length

/-- `find_common_instance_name`, src/transform.cc:663-692.  The test for an empty name (687) comes after it has been indexed. -/
def blockName (ref : List Char) (ns : List (List Char)) : Res (List Char) := strip (common ref ns)

/-! ### Specification -/

/-- What a port of an instance is connected to. -/
def Inst.value {V : Type} (O : Ops V) (ρ : Nat → V) (i : Inst) (p : Nat) : Option V :=
  (i.find? fun c => c.name == p).bind fun c => c.net.map (ev O ρ)

/-- The same in turn `k` of the loop. -/
def Loop.value {V : Type} (O : Ops V) (ρ : Nat → V) (l : Loop) (k p : Nat) : Option V :=
  (l.ports.find? fun x => x.1 == p).map fun x => if x.2.2 then O.sl k k (ρ x.2.1) else ρ x.2.1

/-- All instances of the group do what the module does (`M`, a relation between the values of its ports), and the assignments hold.
Values may be whole histories. -/
def Par.Sat {V : Type} (O : Ops V) (M : (Nat → Option V) → Prop) (ρ : Nat → V) (P : Par) : Prop :=
  (∀ i ∈ P.insts, M (i.value O ρ)) ∧ ∀ a ∈ P.asns, ev O ρ a.1 = ev O ρ a.2

/-- The same with the loop. -/
def Loop.Sat {V : Type} (O : Ops V) (M : (Nat → Option V) → Prop) (ρ : Nat → V) (P : Par) (l : Loop) : Prop :=
  (∀ k, k < l.turns → M (l.value O ρ k)) ∧ ∀ a ∈ P.asns, ev O ρ a.1 = ev O ρ a.2

/-- The instances are of one module: the same ports, with different names. -/
structure Same (P : Par) : Prop where
  names : ∀ i ∈ P.insts, ∀ j ∈ P.insts, (i.map fun c => c.name) = j.map fun c => c.name
  nodup : ∀ i ∈ P.insts, (i.map fun c => c.name).Nodup

/-- Full claim: the loop says the same as the instances. -/
def LiftClaim : Prop := ∀ (P : Par) (l : Loop), Same P → lift P = .ok (some l) →
  ∀ {V : Type} (O : Ops V) (M : (Nat → Option V) → Prop) (ρ : Nat → V), P.Sat O M ρ ↔ l.Sat O M ρ P

/-- What is missing: all ports of an instance use the same index, and it is a number; a port is connected to parts in all instances or
in none; and an output counted as connected through a wire is connected to a plain copy of it. -/
structure Aligned (P : Par) : Prop where
  index : ∀ i ∈ P.insts, ∃ k, ∀ c ∈ i, ∀ e, c.net = some e → match netOf P c e with
    | .sl _ hi _ => hi = k
    | .ix _ _ => False
    | _ => True
  kind : ∀ i ∈ P.insts, ∀ j ∈ P.insts, ∀ c ∈ i, ∀ d ∈ j, c.name = d.name → ∀ e f, c.net = some e → d.net = some f →
    isSlice (netOf P c e) = isSlice (netOf P d f)
  copy : ∀ i ∈ P.insts, ∀ c ∈ i, ∀ v, c.net = some (.var v) → netOf P c (.var v) ≠ .var v → ∀ a ∈ P.asns,
    (Mentions v a.1 ∨ Mentions v a.2) → a.2 = .var v

/-! ### Proof: the table of ports -/

theorem note_key {k : E} {i : Option Nat} : ∀ m : List (E × List Nat), ∃ y ∈ note k i m, y.1 = k ∧ ∀ j, i = some j → j ∈ y.2
  | [] => ⟨_, List.mem_cons_self, rfl, by rintro j rfl; exact List.mem_cons_self⟩
  | (k', l) :: m => by
    simp only [note]; split
    · rename_i hk
      refine ⟨_, List.mem_cons_self, hk, ?_⟩
      rintro j rfl
      simp only
      split
      · assumption
      · exact List.mem_append_right _ List.mem_cons_self
    · obtain ⟨y, hy, h⟩ := note_key m
      exact ⟨y, List.mem_cons_of_mem _ hy, h⟩

theorem note_keeps {k : E} {i : Option Nat} : ∀ (m : List (E × List Nat)) (y : E × List Nat), y ∈ m →
    ∃ y' ∈ note k i m, y'.1 = y.1 ∧ (i ≠ none → ∀ j ∈ y.2, j ∈ y'.2)
  | (k', l) :: m, y, hy => by
    simp only [note]; split
    · rcases List.mem_cons.1 hy with rfl | hy
      · refine ⟨_, List.mem_cons_self, rfl, fun hi j hj => ?_⟩
        cases i with
        | none => exact absurd rfl hi
        | some i =>
          simp only
          split
          · exact hj
          · exact List.mem_append_left _ hj
      · exact ⟨y, List.mem_cons_of_mem _ hy, rfl, fun _ j hj => hj⟩
    · rcases List.mem_cons.1 hy with rfl | hy
      · exact ⟨_, List.mem_cons_self, rfl, fun _ j hj => hj⟩
      · obtain ⟨y', hy', h⟩ := note_keeps m y hy
        exact ⟨y', List.mem_cons_of_mem _ hy', h⟩

theorem note_from {k : E} {i : Option Nat} : ∀ (m : List (E × List Nat)) (y : E × List Nat), y ∈ note k i m →
    ∀ j ∈ y.2, (∃ z ∈ m, z.1 = y.1 ∧ j ∈ z.2) ∨ (y.1 = k ∧ i = some j)
  | [], y, hy, j, hj => by
    simp only [note] at hy
    rw [List.mem_singleton.1 hy] at hj ⊢
    cases i with
    | none => cases hj
    | some i => rw [List.mem_singleton.1 hj]; exact .inr ⟨rfl, rfl⟩
  | (k', l) :: m, y, hy, j, hj => by
    simp only [note] at hy; split at hy
    · rename_i hk
      rcases List.mem_cons.1 hy with rfl | hy
      · cases i with
        | none => cases hj
        | some i =>
          simp only at hj
          split at hj
          · exact .inl ⟨_, List.mem_cons_self, rfl, hj⟩
          · rcases List.mem_append.1 hj with hj | hj
            · exact .inl ⟨_, List.mem_cons_self, rfl, hj⟩
            · rw [List.mem_singleton.1 hj]; exact .inr ⟨hk, rfl⟩
      · exact .inl ⟨y, List.mem_cons_of_mem _ hy, rfl, hj⟩
    · rcases List.mem_cons.1 hy with rfl | hy
      · exact .inl ⟨_, List.mem_cons_self, rfl, hj⟩
      · exact (note_from m y hy j hj).imp (fun ⟨z, hz, h⟩ => ⟨z, List.mem_cons_of_mem _ hz, h⟩) id

theorem note_nodup {k : E} {i : Option Nat} : ∀ (m : List (E × List Nat)), (∀ y ∈ m, y.2.Nodup) → ∀ y ∈ note k i m, y.2.Nodup
  | [], _, y, hy => by
    simp only [note] at hy
    rw [List.mem_singleton.1 hy]
    cases i <;> simp
  | (k', l) :: m, h, y, hy => by
    have hl : l.Nodup := h _ List.mem_cons_self
    simp only [note] at hy; split at hy
    · rcases List.mem_cons.1 hy with rfl | hy
      · cases i with
        | none => exact List.nodup_nil
        | some i =>
          simp only
          split
          · exact hl
          · rename_i hi
            rw [List.nodup_append]
            exact ⟨hl, by simp, fun a ha b hb => by rw [List.mem_singleton.1 hb]; rintro rfl; exact hi ha⟩
      · exact h y (List.mem_cons_of_mem _ hy)
    · rcases List.mem_cons.1 hy with rfl | hy
      · exact hl
      · exact note_nodup m (fun z hz => h z (List.mem_cons_of_mem _ hz)) y hy

structure Tab (p : Nat) (es : List (Nat × E × Option Nat)) (m : List (E × List Nat)) : Prop where
  key : ∀ x ∈ es, x.1 = p → ∃ y ∈ m, y.1 = x.2.1
  from_ : ∀ y ∈ m, ∀ j ∈ y.2, (p, y.1, some j) ∈ es
  nodup : ∀ y ∈ m, y.2.Nodup
  all : (∀ x ∈ es, x.1 = p → x.2.2 ≠ none) → ∀ k j, (p, k, some j) ∈ es → ∃ y ∈ m, y.1 = k ∧ j ∈ y.2

theorem tab_step {p : Nat} : ∀ (es es0 : List (Nat × E × Option Nat)) (m : List (E × List Nat)), Tab p es0 m →
    Tab p (es0 ++ es) (es.foldl (fun m x => if x.1 = p then note x.2.1 x.2.2 m else m) m)
  | [], es0, m, h => by rw [List.append_nil]; exact h
  | x :: es, es0, m, h => by
    have : es0 ++ x :: es = (es0 ++ [x]) ++ es := by simp
    rw [this, List.foldl_cons]
    refine tab_step es (es0 ++ [x]) _ ?_
    split
    · rename_i hx
      constructor
      · intro z hz hzp
        rcases List.mem_append.1 hz with hz | hz
        · obtain ⟨y, hy, he⟩ := h.key z hz hzp
          obtain ⟨y', hy', he', _⟩ := note_keeps (k := x.2.1) (i := x.2.2) m y hy
          exact ⟨y', hy', he'.trans he⟩
        · rw [List.mem_singleton.1 hz]
          obtain ⟨y, hy, he, _⟩ := note_key (k := x.2.1) (i := x.2.2) m
          exact ⟨y, hy, he⟩
      · intro y hy j hj
        rcases note_from m y hy j hj with ⟨z, hz, he, hj'⟩ | ⟨he, hi⟩
        · rw [← he]; exact List.mem_append_left _ (h.from_ z hz j hj')
        · refine List.mem_append_right _ (List.mem_singleton.2 ?_)
          obtain ⟨x1, x2, x3⟩ := x
          simp only at he hi hx
          rw [he, hi, hx]
      · exact note_nodup m h.nodup
      · intro hall k j hkj
        rcases List.mem_append.1 hkj with hkj | hkj
        · obtain ⟨y, hy, he, hj⟩ := h.all (fun z hz => hall z (List.mem_append_left _ hz)) k j hkj
          obtain ⟨y', hy', he', hj'⟩ := note_keeps (k := x.2.1) (i := x.2.2) m y hy
          exact ⟨y', hy', he'.trans he, hj' (hall x (List.mem_append_right _ List.mem_cons_self) hx) j hj⟩
        · have := List.mem_singleton.1 hkj
          obtain ⟨y, hy, he, hj⟩ := note_key (k := x.2.1) (i := x.2.2) m
          exact ⟨y, hy, by rw [he, ← this], hj j (by rw [← this])⟩
    · rename_i hx
      constructor
      · intro z hz hzp
        rcases List.mem_append.1 hz with hz | hz
        · exact h.key z hz hzp
        · rw [List.mem_singleton.1 hz] at hzp; exact absurd hzp hx
      · exact fun y hy j hj => List.mem_append_left _ (h.from_ y hy j hj)
      · exact h.nodup
      · intro hall k j hkj
        rcases List.mem_append.1 hkj with hkj | hkj
        · exact h.all (fun z hz => hall z (List.mem_append_left _ hz)) k j hkj
        · have := List.mem_singleton.1 hkj
          exact absurd (by rw [← this]) hx

theorem tab (p : Nat) (es : List (Nat × E × Option Nat)) : Tab p es (info p es) := by
  have := tab_step (p := p) es [] [] ⟨fun x hx => (by cases hx), fun y hy => (by cases hy), fun y hy => (by cases hy),
    fun _ k j h => (by cases h)⟩
  exact this

theorem scan_spec {P : Par} : ∀ (cs : List Conn) (es : List (Nat × E × Option Nat)), scan P cs = .ok (some es) →
    (∀ c ∈ cs, ∃ x, entry P c = .ok (some x) ∧ (c.name, x) ∈ es) ∧ ∀ y ∈ es, ∃ c ∈ cs, c.name = y.1 ∧ entry P c = .ok (some y.2)
  | [], es, h => by
    cases h
    exact ⟨fun c hc => (by cases hc), fun y hy => (by cases hy)⟩
  | c :: cs, es, h => by
    rw [scan, Res.bind_eq_ok] at h
    obtain ⟨o, ho, h⟩ := h
    cases o with
    | none => cases h
    | some x =>
      simp only at h
      obtain ⟨r, hr, he⟩ := map_ok h
      cases r with
      | none => cases he
      | some r =>
        cases he
        obtain ⟨h1, h2⟩ := scan_spec cs r hr
        refine ⟨fun d hd => ?_, fun y hy => ?_⟩
        · rcases List.mem_cons.1 hd with rfl | hd
          · exact ⟨x, ho, List.mem_cons_self⟩
          · obtain ⟨x', hx', hm⟩ := h1 d hd
            exact ⟨x', hx', List.mem_cons_of_mem _ hm⟩
        · rcases List.mem_cons.1 hy with rfl | hy
          · exact ⟨c, List.mem_cons_self, rfl, ho⟩
          · obtain ⟨d, hd, h⟩ := h2 y hy
            exact ⟨d, List.mem_cons_of_mem _ hd, h⟩

theorem find_conn : ∀ (i : Inst) (c : Conn), (i.map fun c => c.name).Nodup → c ∈ i → i.find? (fun d => d.name == c.name) = some c
  | d :: i, c, hn, hc => by
    rw [List.map_cons, List.nodup_cons] at hn
    rcases List.mem_cons.1 hc with rfl | hc
    · simp
    · rw [List.find?_cons]
      have : (d.name == c.name) = false := by
        rw [beq_eq_false_iff_ne]
        intro he
        exact hn.1 (he ▸ List.mem_map_of_mem hc)
      rw [this]
      exact find_conn i c hn.2 hc

theorem range_of {n : Nat} {l : List Nat} (hl : l.length = n) (ha : ∀ i, i < n → i ∈ l) : ∀ x ∈ l, x < n := by
  intro x hx
  refine Nat.lt_of_not_le fun hx' => ?_
  have h1 : (x :: List.range n).Nodup := by
    rw [List.nodup_cons]
    exact ⟨fun h => Nat.lt_irrefl _ (Nat.lt_of_lt_of_le (List.mem_range.1 h) hx'), List.nodup_range⟩
  have h2 := List.Nodup.length_le_of_subset (l₂ := l) h1 (fun y hy => by
    rcases List.mem_cons.1 hy with rfl | hy
    · exact hx
    · exact ha y (List.mem_range.1 hy))
  simp only [List.length_cons, List.length_range, hl] at h2
  omega

theorem ports_spec {es : List (Nat × E × Option Nat)} : ∀ (names : List Nat) (ps : List (Nat × Nat × Bool)),
    Kinds.mapRes (fun p => (target (info p es)).map fun t => (p, t)) names = .ok ps → ∀ p,
    (p ∈ names → ∃ t, target (info p es) = .ok t ∧ ps.find? (fun x => x.1 == p) = some (p, t)) ∧
      (p ∉ names → ps.find? (fun x => x.1 == p) = none)
  | [], ps, h, p => by
    cases h
    exact ⟨fun h => (by cases h), fun _ => rfl⟩
  | q :: names, ps, h, p => by
    simp only [Kinds.mapRes, Res.bind_eq_ok] at h
    obtain ⟨a, h1, m, h2, h⟩ := h
    cases h
    obtain ⟨t, ht, rfl⟩ := map_ok h1
    obtain ⟨h3, h4⟩ := ports_spec names m h2 p
    rcases Nat.decEq q p with hq | rfl
    · have hb : (q == p) = false := beq_eq_false_iff_ne.2 hq
      refine ⟨fun hp => ?_, fun hp => ?_⟩
      · obtain ⟨t', h5, h6⟩ := h3 ((List.mem_cons.1 hp).resolve_left (Ne.symm hq))
        exact ⟨t', h5, by simp only [List.find?_cons, hb]; exact h6⟩
      · simp only [List.find?_cons, hb]
        exact h4 fun h => hp (List.mem_cons_of_mem _ h)
    · exact ⟨fun _ => ⟨t, ht, by simp⟩, fun h => absurd List.mem_cons_self h⟩

/-- What an output is followed to: the only reader. -/
theorem netOf_cases (P : Par) (c : Conn) (e : E) : netOf P c e = e ∨
    ∃ v, isSlice (netOf P c e) = true ∧ e = .var v ∧ netOf P c e ≠ .var v ∧
      ∃ a ∈ P.asns, a.1 = netOf P c e ∧ (Mentions v a.1 ∨ Mentions v a.2) := by
  simp only [netOf]
  split
  · rename_i v ho
    split
    · rename_i l hr
      split
      · rename_i hl
        refine .inr ⟨v, hl, rfl, ?_, ?_⟩
        · rintro rfl; cases hl
        · have h : (P.asns.filter fun a => a.2.sinkOf v || a.1.indexSink v).map (fun a => a.1) = [l] := by
            have := congrArg Prod.fst hr
            exact this
          have : l ∈ (P.asns.filter fun a => a.2.sinkOf v || a.1.indexSink v).map (fun a => a.1) := by rw [h]; exact List.mem_cons_self
          obtain ⟨a, ha, he⟩ := List.mem_map.1 this
          obtain ⟨ha, hb⟩ := List.mem_filter.1 ha
          rw [Bool.or_eq_true] at hb
          exact ⟨a, ha, he, hb.elim (fun h => .inr ((sinkOf_iff _).1 h)) fun h => .inl (indexSink_mentions _ h)⟩
      · exact .inl rfl
    · exact .inl rfl
  · exact .inl rfl

variable {V : Type} {O : Ops V} {ρ : Nat → V}

theorem ev_netOf {P : Par} (hA : Aligned P) (hs : ∀ a ∈ P.asns, ev O ρ a.1 = ev O ρ a.2) {i : Inst} (hi : i ∈ P.insts) {c : Conn}
    (hc : c ∈ i) {e : E} (he : c.net = some e) : ev O ρ (netOf P c e) = ev O ρ e := by
  rcases netOf_cases P c e with h | ⟨v, _, rfl, hn, a, ha, he', hm⟩
  · rw [h]
  · rw [← he', hs a ha, hA.copy i hi c hc v he hn a ha hm]

/-- The index of a net agrees with `k`. -/
def At (k : Nat) (e : E) : Prop := match e with
  | .sl _ hi _ => hi = k
  | .ix _ _ => False
  | _ => True

theorem entry_some {P : Par} {c : Conn} {x : E × Option Nat} (h : entry P c = .ok (some x)) : ∃ e, c.net = some e ∧
    ((∃ q k, netOf P c e = .sl q k k ∧ x = (q, some k)) ∨ (∃ q j, netOf P c e = .ix q j) ∨
      (isSlice (netOf P c e) = false ∧ x = (netOf P c e, none))) := by
  simp only [entry] at h
  split at h
  · cases h
  · rename_i e he
    refine ⟨e, he, ?_⟩
    split at h
    · rename_i q hi lo hn
      split at h
      · rename_i hl; subst hl; cases h; exact .inl ⟨_, _, hn, rfl⟩
      · cases h
    · rename_i q j hn; exact .inr (.inl ⟨_, _, hn⟩)
    · rename_i h1 h2
      cases h
      refine .inr (.inr ⟨?_, rfl⟩)
      cases hq : netOf P c e with
      | sl q a b => exact absurd hq (h1 _ _ _)
      | ix q a => exact absurd hq (h2 _ _)
      | _ => rfl

/-- What is known about a port once the check has succeeded. -/
theorem port_spec {P : Par} {es : List (Nat × E × Option Nat)} (hA : Aligned P) (hsc : scan P P.insts.flatten = .ok (some es))
    {p : Nat} {v : Nat} {b : Bool} (hok : okPort P.insts.length (info p es) = true) (ht : target (info p es) = .ok (v, b)) :
    (∀ i ∈ P.insts, ∀ c ∈ i, c.name = p → ∀ k, (∀ e, c.net = some e → At k (netOf P c e)) → ∃ e, c.net = some e ∧
      (b = false → netOf P c e = .var v) ∧ (b = true → netOf P c e = .sl (.var v) k k ∧ k < P.insts.length)) ∧
    (b = true → ∀ k, k < P.insts.length → ∃ i ∈ P.insts, ∃ c ∈ i, ∃ e, c.net = some e ∧ netOf P c e = .sl (.var v) k k) := by
  have hT := tab p es
  obtain ⟨hs1, hs2⟩ := scan_spec _ _ hsc
  have hin : ∀ c ∈ P.insts.flatten, ∃ i ∈ P.insts, c ∈ i := fun c hc => List.mem_flatten.1 hc
  have hno : ∀ i ∈ P.insts, ∀ c ∈ i, ∀ e q j, c.net = some e → netOf P c e ≠ .ix q j := by
    intro i hi c hc e q j he hq
    obtain ⟨k, hk⟩ := hA.index i hi
    have := hk c hc e he
    rw [hq] at this
    exact this
  generalize info p es = m at hok ht hT
  match m, ht with
  | [], ht => cases ht
  | (.var w, l) :: m', ht =>
    cases ht
    simp only [okPort] at hok
    split at hok
    case h_2 => cases hok
    rename_i l' heq
    injection heq with h1 h2
    injection h1 with h3 h4
    subst h2 h4
    have hkey : ∀ i ∈ P.insts, ∀ c ∈ i, c.name = p → ∃ x, entry P c = .ok (some x) ∧ (p, x) ∈ es ∧ x.1 = .var v := by
      intro i hi c hc hp
      obtain ⟨x, hx, hm⟩ := hs1 c (List.mem_flatten.2 ⟨i, hi, hc⟩)
      rw [hp] at hm
      obtain ⟨y, hy, he⟩ := hT.key _ hm rfl
      rw [List.mem_singleton.1 hy] at he
      exact ⟨x, hx, hm, he.symm⟩
    by_cases hl : l = []
    · subst hl
      refine ⟨fun i hi c hc hp k hk => ?_, fun h => by cases h⟩
      obtain ⟨x, hx, hm, hx1⟩ := hkey i hi c hc hp
      obtain ⟨e, he, h | ⟨q, j, h⟩ | ⟨h, h'⟩⟩ := entry_some hx
      · obtain ⟨q, k', hn, rfl⟩ := h
        exfalso
        have hall : ∀ z ∈ es, z.1 = p → z.2.2 ≠ none := by
          intro z hz hzp
          obtain ⟨d, hd, hdn, hde⟩ := hs2 z hz
          obtain ⟨j, hj, hdj⟩ := hin d hd
          obtain ⟨f, hf, h | ⟨q, j', h⟩ | ⟨h, h'⟩⟩ := entry_some hde
          · obtain ⟨_, _, _, h⟩ := h; rw [h]; nofun
          · exact absurd h (hno j hj d hdj f q j' hf)
          · have := hA.kind i hi j hj c hc d hdj (by rw [hp, hdn, hzp]) e f he hf
            rw [h, hn] at this
            cases this
        obtain ⟨y, hy, _, hky⟩ := hT.all hall _ _ hm
        rw [List.mem_singleton.1 hy] at hky
        cases hky
      · exact absurd h (hno i hi c hc e q j he)
      · refine ⟨e, he, fun _ => ?_, fun h => by cases h⟩
        rw [h'] at hx1
        exact hx1
    · have hb : (!(l == [])) = true := by
        cases l with
        | nil => exact absurd rfl hl
        | cons a l => rfl
      have hok' : l.length = P.insts.length ∧ ∀ i, i < P.insts.length → i ∈ l := by
        cases l with
        | nil => exact absurd rfl hl
        | cons a l => simpa using hok
      have hfrom : ∀ j ∈ l, ∃ i ∈ P.insts, ∃ c ∈ i, c.name = p ∧ ∃ e, c.net = some e ∧ netOf P c e = .sl (.var v) j j := by
        intro j hj
        obtain ⟨d, hd, hdn, hde⟩ := hs2 _ (hT.from_ _ List.mem_cons_self j hj)
        obtain ⟨i, hi, hdi⟩ := hin d hd
        obtain ⟨f, hf, h | ⟨q, j', h⟩ | ⟨h, h'⟩⟩ := entry_some hde
        · obtain ⟨q, k, hn, h⟩ := h
          simp only [Prod.mk.injEq, Option.some.injEq] at h
          obtain ⟨rfl, rfl⟩ := h
          exact ⟨i, hi, d, hdi, hdn, f, hf, hn⟩
        · exact absurd h (hno i hi d hdi f q j' hf)
        · have := congrArg Prod.snd h'
          cases this
      refine ⟨fun i hi c hc hp k hk => ?_, fun _ k hk => ?_⟩
      · obtain ⟨x, hx, hm, hx1⟩ := hkey i hi c hc hp
        obtain ⟨a, ha⟩ := List.exists_mem_of_ne_nil l hl
        obtain ⟨j, hj, d, hdj, hdn, f, hf, hdf⟩ := hfrom a ha
        obtain ⟨e, he, h | ⟨q, j', h⟩ | ⟨h, h'⟩⟩ := entry_some hx
        · obtain ⟨q, k', hn, rfl⟩ := h
          have hkk := hk e he
          rw [hn] at hkk
          cases (show k' = k from hkk)
          cases (show q = .var v from hx1)
          refine ⟨e, he, fun h => (by rw [hb] at h; cases h), fun _ => ⟨hn, ?_⟩⟩
          have hall : ∀ z ∈ es, z.1 = p → z.2.2 ≠ none := by
            intro z hz hzp
            obtain ⟨d, hd, hdn, hde⟩ := hs2 z hz
            obtain ⟨j, hj, hdj⟩ := hin d hd
            obtain ⟨f, hf, h | ⟨q, j', h⟩ | ⟨h, h'⟩⟩ := entry_some hde
            · obtain ⟨_, _, _, h⟩ := h; rw [h]; nofun
            · exact absurd h (hno j hj d hdj f q j' hf)
            · have := hA.kind i hi j hj c hc d hdj (by rw [hp, hdn, hzp]) e f he hf
              rw [h, hn] at this
              cases this
          obtain ⟨y, hy, _, hky⟩ := hT.all hall _ _ hm
          rw [List.mem_singleton.1 hy] at hky
          exact range_of hok'.1 hok'.2 _ hky
        · exact absurd h (hno i hi c hc e q j' he)
        · have := hA.kind i hi j hj c hc d hdj (by rw [hp, hdn]) e f he hf
          rw [h, hdf] at this
          cases this
      · obtain ⟨i, hi, c, hc, _, e, he, h⟩ := hfrom k (hok'.2 k hk)
        exact ⟨i, hi, c, hc, e, he, h⟩
  | (.const _, _) :: _, ht => cases ht
  | (.param _, _) :: _, ht => cases ht
  | (.sl _ _ _, _) :: _, ht => cases ht
  | (.ix _ _, _) :: _, ht => cases ht
  | (.un _ _, _) :: _, ht => cases ht
  | (.bin _ _ _, _) :: _, ht => cases ht
  | (.cat _, _) :: _, ht => cases ht
  | (.ext _ _, _) :: _, ht => cases ht
  | (.dup _ _, _) :: _, ht => cases ht
  | (.ite _ _ _, _) :: _, ht => cases ht
  | (.cast _ _, _) :: _, ht => cases ht
  | (.call _ _, _) :: _, ht => cases ht

/-- What a successful lift says. -/
theorem lift_ok {P : Par} {l : Loop} (h : lift P = .ok (some l)) : 1 < P.insts.length ∧ l.turns = P.insts.length ∧
    ∃ es, scan P P.insts.flatten = .ok (some es) ∧
      (∀ p ∈ (P.insts.headD []).map (fun c => c.name), okPort P.insts.length (info p es) = true) ∧
      Kinds.mapRes (fun p => (target (info p es)).map fun t => (p, t)) ((P.insts.headD []).map fun c => c.name) = .ok l.ports := by
  simp only [lift] at h
  split at h
  · cases h
  · rename_i hn
    rw [Res.bind_eq_ok] at h
    obtain ⟨o, ho, h⟩ := h
    cases o with
    | none => cases h
    | some es =>
      simp only at h
      split at h
      · rename_i hk
        obtain ⟨ps, hps, he⟩ := map_ok h
        cases he
        exact ⟨Nat.lt_of_not_le hn, rfl, es, ho, fun p hp => List.all_eq_true.1 hk p hp, hps⟩
      · cases h

theorem value_none {i : Inst} {p : Nat} (h : p ∉ i.map fun c => c.name) : i.value O ρ p = none := by
  have : i.find? (fun c => c.name == p) = none := by
    rw [List.find?_eq_none]
    intro c hc he
    exact h (List.mem_map.2 ⟨c, hc, by simpa using he⟩)
  rw [Inst.value, this]; rfl

/-- The instance whose ports are at index `k` is turn `k` of the loop. -/
theorem value_eq {P : Par} {l : Loop} (hS : Same P) (hA : Aligned P) (h : lift P = .ok (some l))
    (hs : ∀ a ∈ P.asns, ev O ρ a.1 = ev O ρ a.2) {i : Inst} (hi : i ∈ P.insts) {k : Nat}
    (hk : ∀ c ∈ i, ∀ e, c.net = some e → At k (netOf P c e)) : i.value O ρ = l.value O ρ k := by
  obtain ⟨_, _, es, hsc, hok, hps⟩ := lift_ok h
  have hnm : (i.map fun c => c.name) = (P.insts.headD []).map fun c => c.name := by
    cases hP : P.insts with
    | nil => rw [hP] at hi; cases hi
    | cons j js => exact hS.names i hi j (by rw [hP]; exact List.mem_cons_self)
  funext p
  obtain ⟨h1, h2⟩ := ports_spec _ _ hps p
  by_cases hp : p ∈ i.map fun c => c.name
  · obtain ⟨⟨v, b⟩, ht, hf⟩ := h1 (hnm ▸ hp)
    obtain ⟨c, hc, hcp⟩ := List.mem_map.1 hp
    obtain ⟨e, he, h3, h4⟩ := (port_spec hA hsc (hok p (hnm ▸ hp)) ht).1 i hi c hc hcp k (hk c hc)
    have hfc := find_conn i c (hS.nodup i hi) hc
    rw [hcp] at hfc
    rw [Inst.value, hfc, Loop.value, hf]
    simp only [Option.bind_some, he, Option.map_some, Option.some.injEq]
    rw [← ev_netOf hA hs hi hc he]
    cases b with
    | false => rw [h3 rfl]; simp [ev]
    | true => rw [(h4 rfl).1]; simp [ev]
  · rw [value_none hp, Loop.value, h2 (hnm ▸ hp)]; rfl

/-- **C78, partial**: the loop says the same as the instances it replaces, if the ports of every instance use one index (`Aligned`). -/
theorem lift_partial {P : Par} {l : Loop} (hS : Same P) (hA : Aligned P) (h : lift P = .ok (some l)) (M : (Nat → Option V) → Prop) :
    P.Sat O M ρ ↔ l.Sat O M ρ P := by
  obtain ⟨hn, hturn, es, hsc, hok, hps⟩ := lift_ok h
  have key : (∀ a ∈ P.asns, ev O ρ a.1 = ev O ρ a.2) →
      ((∀ i ∈ P.insts, ∃ k, k < P.insts.length ∧ i.value O ρ = l.value O ρ k) ∧
        ∀ k, k < P.insts.length → ∃ i ∈ P.insts, i.value O ρ = l.value O ρ k) := by
    intro hs
    obtain ⟨i0, hi0⟩ : ∃ i0, i0 ∈ P.insts := List.exists_mem_of_length_pos (by omega)
    have hnm : ∀ i ∈ P.insts, (i.map fun c => c.name) = (P.insts.headD []).map fun c => c.name := by
      intro i hi
      cases hP : P.insts with
      | nil => rw [hP] at hi; cases hi
      | cons j js => exact hS.names i hi j (by rw [hP]; exact List.mem_cons_self)
    by_cases hw : ∃ p ∈ (P.insts.headD []).map (fun c => c.name), ∃ v, target (info p es) = .ok (v, true)
    · obtain ⟨p, hp, v, ht⟩ := hw
      obtain ⟨h1, h2⟩ := port_spec hA hsc (hok p hp) ht
      refine ⟨fun i hi => ?_, fun k hk => ?_⟩
      · obtain ⟨k, hk⟩ := hA.index i hi
        obtain ⟨c, hc, hcp⟩ := List.mem_map.1 (hnm i hi ▸ hp)
        obtain ⟨e, he, _, h3⟩ := h1 i hi c hc hcp k (hk c hc)
        exact ⟨k, (h3 rfl).2, value_eq hS hA h hs hi hk⟩
      · obtain ⟨i, hi, c, hc, e, he, hne⟩ := h2 rfl k hk
        obtain ⟨k', hk'⟩ := hA.index i hi
        have := hk' c hc e he
        rw [hne] at this
        cases (show k = k' from this)
        exact ⟨i, hi, value_eq hS hA h hs hi hk'⟩
    · have hsame : ∀ k k', l.value O ρ k = l.value O ρ k' := by
        intro k k'
        funext p
        obtain ⟨h1, h2⟩ := ports_spec _ _ hps p
        by_cases hp : p ∈ (P.insts.headD []).map fun c => c.name
        · obtain ⟨⟨v, b⟩, ht, hf⟩ := h1 hp
          cases b with
          | true => exact absurd ⟨p, hp, v, ht⟩ hw
          | false => rw [Loop.value, Loop.value, hf]; rfl
        · rw [Loop.value, Loop.value, h2 hp]; rfl
      have hval : ∀ i ∈ P.insts, ∀ k, i.value O ρ = l.value O ρ k := by
        intro i hi k
        obtain ⟨k', hk'⟩ := hA.index i hi
        rw [value_eq hS hA h hs hi hk', hsame k' k]
      exact ⟨fun i hi => ⟨0, by omega, hval i hi 0⟩, fun k _ => ⟨i0, hi0, hval i0 hi0 k⟩⟩
  constructor
  · rintro ⟨h1, hs⟩
    refine ⟨fun k hk => ?_, hs⟩
    obtain ⟨i, hi, he⟩ := (key hs).2 k (hturn ▸ hk)
    rw [← he]; exact h1 i hi
  · rintro ⟨h1, hs⟩
    refine ⟨fun i hi => ?_, hs⟩
    obtain ⟨k, hk, he⟩ := (key hs).1 i hi
    rw [he]; exact h1 k (hturn ▸ hk)

/-- The loop has one turn per instance and connects exactly the ports of the module. -/
theorem lift_shape {P : Par} {l : Loop} (h : lift P = .ok (some l)) : l.turns = P.insts.length ∧
    (l.ports.map fun x => x.1) = (P.insts.headD []).map fun c => c.name := by
  obtain ⟨_, h1, es, _, _, hps⟩ := lift_ok h
  refine ⟨h1, ?_⟩
  generalize l.ports = ps at hps
  generalize (P.insts.headD []).map (fun c => c.name) = ns at hps
  induction ns generalizing ps with
  | nil => cases hps; rfl
  | cons n ns ih =>
    simp only [Kinds.mapRes, Res.bind_eq_ok] at hps
    obtain ⟨a, h2, m, h3, hps⟩ := hps
    cases hps
    obtain ⟨t, _, rfl⟩ := map_ok h2
    rw [List.map_cons, ih m h3]

/-- An output that counts as connected through a wire is connected to the part directly, but the assignment from the wire stays: the
part is driven by the loop and by the assignment. -/
theorem driven_twice_wrong {P : Par} {l : Loop} (hS : Same P) (hA : Aligned P) (h : lift P = .ok (some l)) {i : Inst} (hi : i ∈ P.insts)
    {c : Conn} (hc : c ∈ i) {w : Nat} (hw : c.net = some (.var w)) (hf : netOf P c (.var w) ≠ .var w) :
    ∃ v k, (.sl (.var v) k k, .var w) ∈ P.asns ∧ k < l.turns ∧ l.ports.find? (fun x => x.1 == c.name) = some (c.name, v, true) := by
  obtain ⟨_, hturn, es, hsc, hok, hps⟩ := lift_ok h
  have hnm : (i.map fun c => c.name) = (P.insts.headD []).map fun c => c.name := by
    cases hP : P.insts with
    | nil => rw [hP] at hi; cases hi
    | cons j js => exact hS.names i hi j (by rw [hP]; exact List.mem_cons_self)
  have hp : c.name ∈ (P.insts.headD []).map fun c => c.name := hnm ▸ List.mem_map_of_mem hc
  obtain ⟨⟨v, b⟩, ht, hfind⟩ := (ports_spec _ _ hps c.name).1 hp
  obtain ⟨k, hk⟩ := hA.index i hi
  obtain ⟨e, he, h1, h2⟩ := (port_spec hA hsc (hok _ hp) ht).1 i hi c hc rfl k (hk c hc)
  rw [hw] at he
  cases he
  rcases netOf_cases P c (.var w) with hn | ⟨v', hsl, hv, _, ⟨a1, a2⟩, ha, he', hm⟩
  · exact absurd hn hf
  · cases hv
    have h3 := hA.copy i hi c hc w hw hf _ ha hm
    simp only at h3 he'
    subst h3
    cases b with
    | true => exact ⟨v, k, by rw [← (h2 rfl).1, ← he']; exact ha, hturn ▸ (h2 rfl).2, hfind⟩
    | false =>
      rw [h1 rfl] at hsl
      cases hsl

/-- The first output of the first instance is read by nobody: undefined behaviour. -/
theorem unconnected_ub {P : Par} {c : Conn} {i j : Inst} {is : List Inst} (h : P.insts = (c :: i) :: j :: is) (hc : c.net = none) :
    lift P = .ub := by
  simp only [lift, h, List.length_cons, List.flatten_cons, List.cons_append, scan, entry, hc, Res.ub_bind]
  rw [if_neg (by omega)]

/-! ### Where the claim is false -/

/-- The loop for a parent, as instances: what turn `k` is connected to. -/
def loopNets (P : Par) : Res (Option (Nat × List (Nat × Nat × Bool))) := (lift P).map fun o => o.map fun l => (l.turns, l.ports)

/-- `in` is port 0, `out` is port 1; the first instance goes from `a[0]` to `b[1]`, the second from `a[1]` to `b[0]`. -/
def exSwap : Par := ⟨[[⟨0, false, some (.sl (.var 10) 0 0)⟩, ⟨1, true, some (.sl (.var 11) 1 1)⟩],
  [⟨0, false, some (.sl (.var 10) 1 1)⟩, ⟨1, true, some (.sl (.var 11) 0 0)⟩]], [], []⟩

/-- The loop goes from `a[i]` to `b[i]`. -/
theorem swapped_wrong : loopNets exSwap = .ok (some (2, [(0, 10, true), (1, 11, true)])) := by decide +kernel

/-- The outputs go to wires 20 and 21, and the parent has `b[0] = ~x20; b[1] = ~x21`. -/
def exFollow : Par := ⟨[[⟨0, false, some (.sl (.var 10) 0 0)⟩, ⟨1, true, some (.var 20)⟩],
  [⟨0, false, some (.sl (.var 10) 1 1)⟩, ⟨1, true, some (.var 21)⟩]], [],
  [(.sl (.var 11) 0 0, .un 0 (.var 20)), (.sl (.var 11) 1 1, .un 0 (.var 21))]⟩

/-- The loop drives `b[i]` without the negation. -/
theorem follow_wrong : loopNets exFollow = .ok (some (2, [(0, 10, true), (1, 11, true)])) := by decide +kernel

/-- The first instance reads `a[x]`, the second `a[1]`. -/
def exVarIndex : Par := ⟨[[⟨0, false, some (.ix (.var 10) (.var 12))⟩, ⟨1, true, some (.sl (.var 11) 0 0)⟩],
  [⟨0, false, some (.sl (.var 10) 1 1)⟩, ⟨1, true, some (.sl (.var 11) 1 1)⟩]], [], []⟩

/-- The loop reads `a[0]` instead of `a[x]`. -/
theorem var_index_wrong : loopNets exVarIndex = .ok (some (2, [(0, 10, true), (1, 11, true)])) := by decide +kernel

/-- The first instance reads `a[0]`, the second all of `a`. -/
def exMixed : Par := ⟨[[⟨0, false, some (.sl (.var 10) 0 0)⟩, ⟨1, true, some (.sl (.var 11) 0 0)⟩],
  [⟨0, false, some (.var 10)⟩, ⟨1, true, some (.sl (.var 11) 1 1)⟩]], [], []⟩

/-- Every turn of the loop reads all of `a`. -/
theorem mixed_wrong : loopNets exMixed = .ok (some (2, [(0, 10, false), (1, 11, true)])) := by decide +kernel

/-- Both instances read the same constant: no variable has that name. -/
theorem constant_ub : lift ⟨[[⟨0, false, some (.const 1)⟩], [⟨0, false, some (.const 1)⟩]], [], []⟩ = .ub := by decide +kernel

/-- Both instances read elements of an element, `a[0][0]` and `a[0][1]`. -/
theorem nested_ub : lift ⟨[[⟨0, false, some (.sl (.sl (.var 10) 0 0) 0 0)⟩], [⟨0, false, some (.sl (.sl (.var 10) 0 0) 1 1)⟩]], [], []⟩ =
    .ub := by decide +kernel

/-- Slices select bits; everything else does not matter. -/
def bits : Ops Nat where
  const k := k.toNat
  param k := k
  sl hi lo x := x / 2 ^ lo % 2 ^ (hi + 1 - lo)
  ix a _ := a
  un _ a := 1 - a
  bin _ a _ := a
  cat _ := 0
  ext _ a := a
  dup _ a := a
  ite _ a _ := a
  cast _ a := a
  call _ _ := 0

theorem not_LiftClaim : ¬LiftClaim := by
  intro h
  have := h exSwap ⟨2, [(0, 10, true), (1, 11, true)]⟩ ⟨by decide, by decide⟩ (by decide +kernel) bits (fun σ => σ 0 = σ 1) (fun _ => 1)
  have h2 := this.2 ⟨by
    intro k hk
    match k, hk with
    | 0, _ => decide
    | 1, _ => decide, fun a ha => by cases ha⟩
  exact absurd (h2.1 _ List.mem_cons_self) (by decide)

/-! ### Names of the blocks -/

theorem common_iff : ∀ (r : List Char) (ns : List (List Char)) (b : List Char), b <+: common r ns ↔ b <+: r ∧ ∀ n ∈ ns, b <+: n := by
  intro r
  induction r with
  | nil =>
    intro ns b
    rw [common]
    refine ⟨fun h => ?_, fun h => h.1⟩
    rw [List.prefix_nil] at h
    subst h
    exact ⟨List.nil_prefix, fun n _ => List.nil_prefix⟩
  | cons c cs ih =>
    intro ns b
    cases b with
    | nil => exact ⟨fun _ => ⟨List.nil_prefix, fun n _ => List.nil_prefix⟩, fun _ => List.nil_prefix⟩
    | cons d b =>
      simp only [common]
      split
      · rename_i hall
        rw [List.all_eq_true] at hall
        rw [List.cons_prefix_cons, List.cons_prefix_cons, ih]
        constructor
        · rintro ⟨rfl, h1, h2⟩
          refine ⟨⟨rfl, h1⟩, fun n hn => ?_⟩
          have := hall n hn
          cases n with
          | nil => cases this
          | cons x n =>
            simp only [List.head?_cons, beq_iff_eq, Option.some.injEq] at this
            subst this
            rw [List.cons_prefix_cons]
            exact ⟨rfl, h2 n (List.mem_map.2 ⟨_, hn, rfl⟩)⟩
        · rintro ⟨⟨rfl, h1⟩, h2⟩
          refine ⟨rfl, h1, fun m hm => ?_⟩
          obtain ⟨n, hn, rfl⟩ := List.mem_map.1 hm
          have := h2 n hn
          cases n with
          | nil => rw [List.prefix_nil] at this; cases this
          | cons x n => exact (List.cons_prefix_cons.1 this).2
      · rename_i hall
        refine ⟨fun h => (by rw [List.prefix_nil] at h; cases h), fun ⟨h1, h2⟩ => ?_⟩
        refine absurd (List.all_eq_true.2 fun n hn => ?_) hall
        have := h2 n hn
        cases n with
        | nil => rw [List.prefix_nil] at this; cases this
        | cons x n =>
          rw [← (List.cons_prefix_cons.1 h1).1, (List.cons_prefix_cons.1 this).1]
          simp

theorem strip_spec : ∀ (n : Nat) (l : List Char), l.length = n → (strip l = .ub ∧ ∀ x ∈ l, x = '_') ∨
    ∃ b k, strip l = .ok b ∧ b ≠ [] ∧ b.getLast? ≠ some '_' ∧ l = b ++ List.replicate k '_'
  | 0, l, h => by
    cases l with
    | nil => exact .inl ⟨by rw [strip], fun x hx => by cases hx⟩
    | cons _ _ => cases h
  | n + 1, l, h => by
    cases l with
    | nil => cases h
    | cons c cs =>
      rw [strip]
      split
      · rename_i hl
        have hdl : (c :: cs) = (c :: cs).dropLast ++ ['_'] := by
          rw [List.getLast?_eq_some_getLast (by nofun), Option.some.injEq] at hl
          rw [← hl]
          exact (List.dropLast_concat_getLast (by nofun)).symm
        rcases strip_spec n ((c :: cs).dropLast) (by simp at h ⊢; exact h) with ⟨h1, h2⟩ | ⟨b, k, h1, h2, h3, h4⟩
        · refine .inl ⟨h1, fun x hx => ?_⟩
          rw [hdl] at hx
          rcases List.mem_append.1 hx with hx | hx
          · exact h2 x hx
          · exact List.mem_singleton.1 hx
        · refine .inr ⟨b, k + 1, h1, h2, h3, ?_⟩
          rw [hdl, h4, List.append_assoc, List.replicate_succ']
      · rename_i hl
        exact .inr ⟨_, 0, rfl, by nofun, hl, by simp⟩

/-- A block name is the longest beginning of all instance names that does not end in an underscore. -/
theorem blockName_ok {r : List Char} {ns : List (List Char)} {b : List Char} (h : blockName r ns = .ok b) :
    b ≠ [] ∧ b.getLast? ≠ some '_' ∧ b <+: r ∧ (∀ n ∈ ns, b <+: n) ∧
      ∀ p, p <+: r → (∀ n ∈ ns, p <+: n) → p.getLast? ≠ some '_' → p <+: b := by
  rw [blockName] at h
  rcases strip_spec _ _ rfl with ⟨h1, _⟩ | ⟨b', k, h1, h2, h3, h4⟩
  · rw [h1] at h; cases h
  · rw [h1] at h; cases h
    have hb := (common_iff r ns b).1 (h4 ▸ List.prefix_append _ _)
    refine ⟨h2, h3, hb.1, hb.2, fun p hp hpn hl => ?_⟩
    have := (common_iff r ns p).2 ⟨hp, hpn⟩
    rw [h4] at this
    clear hp hpn h4 hb h1 h2 h3
    induction k with
    | zero => simpa using this
    | succ k ih =>
      rw [List.replicate_succ', ← List.append_assoc] at this
      rcases List.prefix_concat_iff.1 this with he | h
      · rw [he] at hl; simp at hl
      · exact ih h

/-- There is none, and the code reads before the beginning of an empty string, exactly if the names begin with nothing but underscores
in common. -/
theorem blockName_ub {r : List Char} {ns : List (List Char)} : blockName r ns = .ub ↔
    ∀ p, p <+: r → (∀ n ∈ ns, p <+: n) → ∀ x ∈ p, x = '_' := by
  rw [blockName]
  constructor
  · intro h p hp hpn x hx
    rcases strip_spec _ _ rfl with ⟨_, h2⟩ | ⟨b', k, h1, h2, h3, h4⟩
    · exact h2 x (((common_iff r ns p).2 ⟨hp, hpn⟩).subset hx)
    · rw [h1] at h; cases h
  · intro h
    rcases strip_spec _ _ rfl with ⟨h1, h2⟩ | ⟨b', k, h1, h2, h3, h4⟩
    · exact h1
    · have hb := (common_iff r ns b').1 (h4 ▸ List.prefix_append _ _)
      have := h b' hb.1 hb.2
      exfalso
      cases hq : b'.getLast? with
      | none => exact h2 (List.getLast?_eq_none_iff.1 hq)
      | some x => rw [this x (List.mem_of_getLast? hq)] at hq; exact h3 hq

/-- Instances `a0` and `b0`. -/
theorem no_common_name_ub : blockName "a0".toList ["b0".toList] = .ub := blockName_ub.2 (by
  intro p hp hpn x hx
  have hq := hpn _ List.mem_cons_self
  cases p with
  | nil => cases hx
  | cons y p =>
    have h1 := (List.cons_prefix_cons.1 hp).1
    have h2 := (List.cons_prefix_cons.1 hq).1
    rw [h1] at h2
    exact absurd h2 (by decide))

/-! ### Examples -/

/-- tests/test_generator.py, `test_gen_inst_lift`, for two instances: `a[i]` to wire `20 + i`, `b[i]` from that wire; one clock. -/
def exGood : Par := ⟨[[⟨0, false, some (.sl (.var 10) 0 0)⟩, ⟨1, true, some (.var 20)⟩, ⟨2, false, some (.var 13)⟩],
  [⟨0, false, some (.sl (.var 10) 1 1)⟩, ⟨1, true, some (.var 21)⟩, ⟨2, false, some (.var 13)⟩]], [],
  [(.sl (.var 11) 0 0, .var 20), (.sl (.var 11) 1 1, .var 21)]⟩

example : loopNets exGood = .ok (some (2, [(0, 10, true), (1, 11, true), (2, 13, false)])) := by decide +kernel

theorem exGood_aligned : Aligned exGood := by
  refine ⟨?_, ?_, ?_⟩
  · intro i hi
    simp only [exGood, List.mem_cons, List.not_mem_nil, or_false] at hi
    rcases hi with rfl | rfl
    · refine ⟨0, fun c hc e he => ?_⟩
      simp only [List.mem_cons, List.not_mem_nil, or_false] at hc
      rcases hc with rfl | rfl | rfl <;> cases he
      · exact rfl
      · exact rfl
      · exact trivial
    · refine ⟨1, fun c hc e he => ?_⟩
      simp only [List.mem_cons, List.not_mem_nil, or_false] at hc
      rcases hc with rfl | rfl | rfl <;> cases he
      · exact rfl
      · exact rfl
      · exact trivial
  · intro i hi j hj c hc d hd hn e f he hf
    simp only [exGood, List.mem_cons, List.not_mem_nil, or_false] at hi hj
    rcases hi with rfl | rfl <;> rcases hj with rfl | rfl <;>
      (simp only [List.mem_cons, List.not_mem_nil, or_false] at hc hd
       rcases hc with rfl | rfl | rfl <;> rcases hd with rfl | rfl | rfl <;> first
        | (cases hn; done)
        | (cases he; cases hf; decide +kernel))
  · intro i hi c hc v hv hne a ha hm
    simp only [exGood, List.mem_cons, List.not_mem_nil, or_false] at hi ha
    rcases hi with rfl | rfl <;>
      (simp only [List.mem_cons, List.not_mem_nil, or_false] at hc
       rcases hc with rfl | rfl | rfl <;> cases hv <;> rcases ha with rfl | rfl <;> first
        | rfl
        | exact absurd hm (by rw [mentions_dec, mentions_dec]; decide)
        | exact absurd rfl hne)

example (M : (Nat → Option Nat) → Prop) (ρ : Nat → Nat) : exGood.Sat bits M ρ ↔
    (⟨2, [(0, 10, true), (1, 11, true), (2, 13, false)]⟩ : Loop).Sat bits M ρ exGood :=
  lift_partial ⟨by decide, by decide⟩ exGood_aligned (by decide +kernel) M

example : blockName "child_0".toList ["child_1".toList] = .ok "child".toList := by
  simp [blockName, common, strip]

end Kratos.Lift
