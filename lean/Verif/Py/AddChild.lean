import Verif.Base

/-!
# Instantiating with keyword arguments (property C130)

`parent.add_child(name, child, port=signal, ..., param=value, ...)` of the Python class
(`kratos/generator.py:798-851`): the child is added, the parameters named are set, and the ports named
are wired.  With the look-ups `gen.ports[...]`, `gen.vars[...]`, `gen.params` (`kratos/generator.py:146-208`)
and the replay of calls on a copy (`kratos/generator.py:920-926`).

What wiring two signals does (C31, C32) is arbitrary: `E.wire a b` is the statements that are added and the exception
raised, if any.  So is what setting a parameter does, and what the library says to the instance (C42).  Debug information
and comments are left out, and so are keywords that are Python arguments of the call itself (`comment`, `python_only`).
-/

namespace Kratos.AddChild

abbrev Name := Nat

/-- What can be wired. -/
inductive Obj where
  | var (i : Nat)
  | bundle (i : Nat)
  | iface (i : Nat)
  deriving DecidableEq, Repr

/-- A keyword's value: an object, a number, or a string. -/
inductive Arg where
  | obj (o : Obj)
  | num (k : Int)
  | str (n : Name)
  deriving DecidableEq, Repr

/-- The tables of a generator. -/
structure Tables where
  ports : Name → Option Nat
  vars : Name → Option Nat
  bundles : Name → Option Nat
  ifaces : Name → Option Nat
  params : Name → Bool

/-- What the library does.  `param k v`: the exception raised by `params[k].value = v`, if any. -/
structure Env (St : Type) where
  wire : Obj → Arg → List St × Option Err
  param : Name → Arg → Option Err
  add : Name → Option Err

/-- The parent and the child as far as they change: the instances in Python's dictionary, those of the library, the values
of the child's parameters, the statements of the parent, and the calls written down for later. -/
structure S (St : Type) where
  py : List Name
  core : List Name
  vals : Name → Option Arg
  stmts : List St
  later : List Name

/-! ### Model -/

/-- `PortProxy.__getitem__` (`kratos/generator.py:150-159`). -/
def Tables.port (T : Tables) (n : Name) : Res Obj :=
  match T.bundles n with
  | some b => .ok (.bundle b)
  | none => match T.ifaces n with
    | some i => .ok (.iface i)
    | none => match T.ports n with
      | some p => .ok (.var p)
      | none => .throw .user

/-- `VarProxy.__getitem__` (`kratos/generator.py:195-199`). -/
def Tables.var (T : Tables) (n : Name) : Res Obj :=
  match T.vars n with
  | some v => .ok (.var v)
  | none => .throw .user

/-- Finding what a string stands for (`kratos/generator.py:842-846`); `in self.ports` asks `has_port`
(`kratos/generator.py:164-165`). -/
def resolve (T : Tables) : Arg → Res Arg
  | .str n => if (T.ports n).isSome then (T.port n).bind fun o => .ok (.obj o)
    else (T.var n).bind fun o => .ok (.obj o)
  | a => .ok a

variable {St : Type}

/-- The first loop (`kratos/generator.py:833-835`). -/
def setParams (E : Env St) (C : Tables) : List (Name × Arg) → S St → S St × Option Err
  | [], s => (s, none)
  | (k, v) :: ks, s =>
    if C.params k then
      match E.param k v with
      | some e => (s, some e)
      | none => setParams E C ks { s with vals := fun n => if n = k then some v else s.vals n }
    else setParams E C ks s

/-- The second loop (`kratos/generator.py:838-848`). -/
def wireAll (E : Env St) (P C : Tables) : List (Name × Arg) → S St → S St × Option Err
  | [], s => (s, none)
  | (k, v) :: ks, s =>
    if C.params k then wireAll E P C ks s
    else match resolve P v with
      | .throw e => (s, some e)
      | .ub => (s, none)
      | .ok a => match C.port k with
        | .throw e => (s, some e)
        | .ub => (s, none)
        | .ok o =>
          let s := { s with stmts := s.stmts ++ (E.wire o a).1 }
          match (E.wire o a).2 with
          | some e => (s, some e)
          | none => wireAll E P C ks s

/-- `add_child_generator` (`kratos/generator.py:798-848`). -/
def addChild (E : Env St) (P C : Tables) (cloned pythonOnly : Bool) (inst : Name)
    (kargs : List (Name × Arg)) (s : S St) : S St × Option Err :=
  if cloned then ({ s with later := s.later ++ [inst] }, none)
  else if inst ∈ s.py then (s, some .user)
  else
    let s := { s with py := s.py ++ [inst] }
    if pythonOnly then (s, none)
    else match E.add inst with
      | some e => (s, some e)
      | none =>
        let s := { s with core := s.core ++ [inst] }
        match setParams E C kargs s with
        | (s, some e) => (s, some e)
        | (s, none) => wireAll E P C kargs s

/-- The replay of one call written down (`kratos/generator.py:923-924`): only the instance name and the generator were
written down (`kratos/generator.py:801-802`). -/
def replay (E : Env St) (P C : Tables) (s : S St) (inst : Name) : S St × Option Err :=
  addChild E P C false false inst [] s

/-! ### Specification -/

/-- What a keyword's value stands for in the parent: itself, or for a string the port or variable of that name. -/
def Means (P : Tables) (v : Arg) (a : Arg) : Prop :=
  match v with
  | .str n => (∃ p, P.ports n = some p ∧ P.bundles n = none ∧ P.ifaces n = none ∧ a = .obj (.var p)) ∨
      (∃ p b, P.ports n = some p ∧ P.bundles n = some b ∧ a = .obj (.bundle b)) ∨
      (∃ p i, P.ports n = some p ∧ P.bundles n = none ∧ P.ifaces n = some i ∧ a = .obj (.iface i)) ∨
      (∃ x, P.ports n = none ∧ P.vars n = some x ∧ a = .obj (.var x))
  | v => a = v

/-- What a name stands for among the ports of a child. -/
def Named (C : Tables) (k : Name) (o : Obj) : Prop :=
  (∃ b, C.bundles k = some b ∧ o = .bundle b) ∨
  (∃ i, C.bundles k = none ∧ C.ifaces k = some i ∧ o = .iface i) ∨
  (∃ p, C.bundles k = none ∧ C.ifaces k = none ∧ C.ports k = some p ∧ o = .var p)

/-- The keywords that do not name a parameter, with what is wired to what, in order. -/
inductive Wires (P C : Tables) : List (Name × Arg) → List (Obj × Arg) → Prop
  | nil : Wires P C [] []
  | param {k v ks l} : C.params k = true → Wires P C ks l → Wires P C ((k, v) :: ks) l
  | wire {k v ks l o a} : C.params k = false → Named C k o → Means P v a → Wires P C ks l →
    Wires P C ((k, v) :: ks) ((o, a) :: l)

/-- A call either does everything or nothing. -/
def AtomicClaim : Prop :=
  ∀ (E : Env Nat) (P C : Tables) (inst : Name) (kargs : List (Name × Arg)) (s s' : S Nat) (e : Err),
    addChild E P C false false inst kargs s = (s', some e) →
    s'.py = s.py ∧ s'.core = s.core ∧ s'.stmts = s.stmts

/-- A call on a copy that is accepted does, when the copy becomes a generator, what it would have done on the original. -/
def DeferredClaim : Prop :=
  ∀ (E : Env Nat) (P C : Tables) (inst : Name) (kargs : List (Name × Arg)) (s s' : S Nat),
    addChild E P C true false inst kargs s = (s', none) →
    (replay E P C { s' with later := [] } inst).1.stmts = (addChild E P C false false inst kargs s).1.stmts

/-- Each keyword that names a port of the child is wired, whenever the call is accepted. -/
def AllWiredClaim : Prop :=
  ∀ (E : Env Nat) (P C : Tables) (pythonOnly : Bool) (inst : Name) (kargs : List (Name × Arg)) (s s' : S Nat)
    (k : Name) (o o' : Obj),
    addChild E P C false pythonOnly inst kargs s = (s', none) → (k, .obj o') ∈ kargs → Named C k o →
    ∀ x ∈ (E.wire o (.obj o')).1, x ∈ s'.stmts

/-- A string stands for what `parent.ports[...]` finds, if it finds something. -/
def StringClaim : Prop :=
  ∀ (P : Tables) (n : Name) (o : Obj), Named P n o → Means P (.str n) (.obj o)

/-! ### Proofs -/

theorem port_ok {T : Tables} {n o} : T.port n = .ok o ↔ Named T n o := by
  simp only [Tables.port, Named]
  cases hb : T.bundles n with
  | some b => simp [eq_comm]
  | none =>
    cases hi : T.ifaces n with
    | some i => simp [eq_comm]
    | none => cases hp : T.ports n <;> simp [eq_comm]

theorem port_cases (T : Tables) (n) : (∃ o, T.port n = .ok o) ∨ T.port n = .throw .user := by
  simp only [Tables.port]
  split
  · exact .inl ⟨_, rfl⟩
  · split
    · exact .inl ⟨_, rfl⟩
    · split
      · exact .inl ⟨_, rfl⟩
      · exact .inr rfl

theorem resolve_ok {P : Tables} {v a} : resolve P v = .ok a ↔ Means P v a := by
  cases v with
  | obj o => simp [resolve, Means, eq_comm]
  | num k => simp [resolve, Means, eq_comm]
  | str n =>
    simp only [resolve, Means]
    cases hp : P.ports n with
    | some p =>
      simp only [Option.isSome_some, if_true, Tables.port, hp]
      cases hb : P.bundles n with
      | some b => simp [eq_comm]
      | none =>
        cases hi : P.ifaces n with
        | some i => simp [eq_comm]
        | none => simp [eq_comm]
    | none =>
      simp only [Option.isSome_none, Bool.false_eq_true, if_false, Tables.var]
      cases hv : P.vars n with
      | some x => simp [eq_comm]
      | none => simp

theorem resolve_cases (P : Tables) (v) : (∃ a, resolve P v = .ok a) ∨ resolve P v = .throw .user := by
  cases v with
  | obj o => exact .inl ⟨_, rfl⟩
  | num k => exact .inl ⟨_, rfl⟩
  | str n =>
    simp only [resolve]
    split
    · rcases port_cases P n with ⟨o, h⟩ | h
      · exact .inl ⟨_, by simp [h]; rfl⟩
      · exact .inr (by simp [h])
    · simp only [Tables.var]
      split
      · exact .inl ⟨_, rfl⟩
      · exact .inr rfl

theorem setParams_frame {E : Env St} {C : Tables} (ks : List (Name × Arg)) (s : S St) :
    (setParams E C ks s).1.py = s.py ∧ (setParams E C ks s).1.core = s.core ∧
    (setParams E C ks s).1.stmts = s.stmts ∧ (setParams E C ks s).1.later = s.later := by
  induction ks generalizing s with
  | nil => exact ⟨rfl, rfl, rfl, rfl⟩
  | cons kv ks ih =>
    obtain ⟨k, v⟩ := kv
    simp only [setParams]
    split
    · split
      · exact ⟨rfl, rfl, rfl, rfl⟩
      · exact ih _
    · exact ih _

theorem setParams_vals {E : Env St} {C : Tables} (ks : List (Name × Arg)) (s : S St)
    (hn : (ks.map (·.1)).Nodup) (h : (setParams E C ks s).2 = none) (n : Name) :
    (∀ v, (n, v) ∈ ks → C.params n = true → (setParams E C ks s).1.vals n = some v) ∧
    ((∀ v, (n, v) ∉ ks) ∨ C.params n = false → (setParams E C ks s).1.vals n = s.vals n) := by
  induction ks generalizing s with
  | nil => exact ⟨fun v h => (by simp at h), fun _ => rfl⟩
  | cons kv ks ih =>
    obtain ⟨k, v⟩ := kv
    simp only [List.map_cons, List.nodup_cons, List.mem_map, not_exists, not_and] at hn
    obtain ⟨hk, hn⟩ := hn
    simp only [setParams] at h ⊢
    by_cases hc : C.params k
    · rw [if_pos hc] at h ⊢
      cases he : E.param k v with
      | some e => rw [he] at h; cases h
      | none =>
        rw [he] at h
        dsimp only at h ⊢
        obtain ⟨h1, h2⟩ := ih _ hn h
        constructor
        · intro w hw hp
          rcases List.mem_cons.1 hw with hw | hw
          · cases hw
            rw [h2 (.inl fun w hw => hk (n, w) hw rfl)]
            simp
          · exact h1 w hw hp
        · intro hx
          have hne : n ≠ k := by
            rintro rfl
            rcases hx with hx | hx
            · exact hx v (by simp)
            · rw [hc] at hx; cases hx
          rw [h2 (hx.imp (fun hx w hw => hx w (List.mem_cons_of_mem _ hw)) id)]
          simp [hne]
    · rw [if_neg hc] at h ⊢
      obtain ⟨h1, h2⟩ := ih _ hn h
      constructor
      · intro w hw hp
        rcases List.mem_cons.1 hw with hw | hw
        · cases hw; exact absurd hp hc
        · exact h1 w hw hp
      · intro hx
        exact h2 (hx.imp (fun hx w hw => hx w (List.mem_cons_of_mem _ hw)) id)

theorem setParams_ok_iff {E : Env St} {C : Tables} (ks : List (Name × Arg)) (s : S St) :
    (setParams E C ks s).2 = none ↔ ∀ k v, (k, v) ∈ ks → C.params k = true → E.param k v = none := by
  induction ks generalizing s with
  | nil => simp [setParams]
  | cons kv ks ih =>
    obtain ⟨k, v⟩ := kv
    simp only [setParams]
    by_cases hc : C.params k
    · rw [if_pos hc]
      cases he : E.param k v with
      | some e =>
        constructor
        · intro h; cases h
        · intro h; rw [h k v (by simp) hc] at he; cases he
      | none =>
        rw [ih]
        constructor
        · intro h a b hm hp
          rcases List.mem_cons.1 hm with hm | hm
          · cases hm; exact he
          · exact h a b hm hp
        · exact fun h a b hm hp => h a b (List.mem_cons_of_mem _ hm) hp
    · rw [if_neg hc, ih]
      constructor
      · intro h a b hm hp
        rcases List.mem_cons.1 hm with hm | hm
        · cases hm; exact absurd hp hc
        · exact h a b hm hp
      · exact fun h a b hm hp => h a b (List.mem_cons_of_mem _ hm) hp

theorem wireAll_frame {E : Env St} {P C : Tables} (ks : List (Name × Arg)) (s : S St) :
    (wireAll E P C ks s).1.py = s.py ∧ (wireAll E P C ks s).1.core = s.core ∧
    (wireAll E P C ks s).1.vals = s.vals ∧ (wireAll E P C ks s).1.later = s.later := by
  induction ks generalizing s with
  | nil => exact ⟨rfl, rfl, rfl, rfl⟩
  | cons kv ks ih =>
    obtain ⟨k, v⟩ := kv
    simp only [wireAll]
    split
    · exact ih _
    · split
      · exact ⟨rfl, rfl, rfl, rfl⟩
      · exact ⟨rfl, rfl, rfl, rfl⟩
      · split
        · exact ⟨rfl, rfl, rfl, rfl⟩
        · exact ⟨rfl, rfl, rfl, rfl⟩
        · split
          · exact ⟨rfl, rfl, rfl, rfl⟩
          · exact ih _

theorem Named.unique {C : Tables} {k o o'} (h : Named C k o) (h' : Named C k o') : o = o' := by
  rw [← port_ok] at h h'
  rw [h] at h'; cases h'; rfl

theorem Means.unique {P : Tables} {v a a'} (h : Means P v a) (h' : Means P v a') : a = a' := by
  rw [← resolve_ok] at h h'
  rw [h] at h'; cases h'; rfl

theorem wireAll_ok_iff {E : Env St} {P C : Tables} (ks : List (Name × Arg)) (s : S St) :
    (wireAll E P C ks s).2 = none ↔
    ∃ l, Wires P C ks l ∧ (∀ w ∈ l, (E.wire w.1 w.2).2 = none) := by
  induction ks generalizing s with
  | nil => exact ⟨fun _ => ⟨[], .nil, by simp⟩, fun _ => rfl⟩
  | cons kv ks ih =>
    obtain ⟨k, v⟩ := kv
    simp only [wireAll]
    by_cases hc : C.params k
    · rw [if_pos hc, ih]
      constructor
      · rintro ⟨l, hl, he⟩
        exact ⟨l, .param hc hl, he⟩
      · rintro ⟨l, hl, he⟩
        cases hl with
        | param _ hl => exact ⟨l, hl, he⟩
        | wire h _ _ _ => rw [hc] at h; cases h
    · rw [if_neg hc]
      rcases resolve_cases P v with ⟨a, ha⟩ | ha
      · rcases port_cases C k with ⟨o, ho⟩ | ho
        · simp only [ha, ho]
          cases hw : (E.wire o a).2 with
          | some e =>
            constructor
            · intro h; cases h
            · rintro ⟨l, hl, he⟩
              cases hl with
              | param h _ => exact absurd h hc
              | wire _ hn hm _ =>
                obtain rfl := hn.unique (port_ok.1 ho)
                obtain rfl := hm.unique (resolve_ok.1 ha)
                have := he _ (List.mem_cons_self ..)
                rw [hw] at this; cases this
          | none =>
            dsimp only
            rw [ih]
            constructor
            · rintro ⟨l, hl, he⟩
              refine ⟨(o, a) :: l, .wire (by simpa using hc) (port_ok.1 ho) (resolve_ok.1 ha) hl, ?_⟩
              intro w hm
              rcases List.mem_cons.1 hm with rfl | hm
              · exact hw
              · exact he w hm
            · rintro ⟨l, hl, he⟩
              cases hl with
              | param h _ => exact absurd h hc
              | wire _ hn hm hl => exact ⟨_, hl, fun w hw => he w (List.mem_cons_of_mem _ hw)⟩
        · simp only [ha, ho]
          constructor
          · intro h; cases h
          · rintro ⟨l, hl, he⟩
            cases hl with
            | param h _ => exact absurd h hc
            | wire _ hn _ _ => rw [port_ok.2 hn] at ho; cases ho
      · simp only [ha]
        constructor
        · intro h; cases h
        · rintro ⟨l, hl, he⟩
          cases hl with
          | param h _ => exact absurd h hc
          | wire _ _ hm _ => rw [resolve_ok.2 hm] at ha; cases ha

theorem wireAll_stmts {E : Env St} {P C : Tables} (ks : List (Name × Arg)) (s : S St) (l)
    (h : (wireAll E P C ks s).2 = none) (hl : Wires P C ks l) :
    (wireAll E P C ks s).1.stmts = s.stmts ++ l.flatMap fun w => (E.wire w.1 w.2).1 := by
  induction hl generalizing s with
  | nil => simp [wireAll]
  | param hp _ ih =>
    simp only [wireAll, if_pos hp] at h ⊢
    exact ih _ h
  | @wire k v ks l o a hp hn hm _ ih =>
    have hp' : ¬ C.params k = true := by simp [hp]
    simp only [wireAll, if_neg hp', resolve_ok.2 hm, port_ok.2 hn] at h ⊢
    cases hw : (E.wire o a).2 with
    | some e => rw [hw] at h; cases h
    | none =>
      rw [hw] at h
      dsimp only at h ⊢
      rw [ih _ h]
      simp

/-- Wiring stops at the first keyword that cannot be wired, and what was wired before stays. -/
theorem wireAll_prefix {E : Env St} {P C : Tables} (ks : List (Name × Arg)) (s : S St) :
    ∃ t, (wireAll E P C ks s).1.stmts = s.stmts ++ t := by
  induction ks generalizing s with
  | nil => exact ⟨[], by simp [wireAll]⟩
  | cons kv ks ih =>
    obtain ⟨k, v⟩ := kv
    simp only [wireAll]
    split
    · exact ih _
    · split
      · exact ⟨[], by simp⟩
      · exact ⟨[], by simp⟩
      · split
        · exact ⟨[], by simp⟩
        · exact ⟨[], by simp⟩
        · split
          · exact ⟨_, rfl⟩
          · obtain ⟨t, ht⟩ := ih _
            exact ⟨_, ht.trans (List.append_assoc ..)⟩

/-! ### Properties -/

/-- **When the call is accepted.**  The instance is new, the library takes it, the parameters named accept their values, and every
other keyword names something among the ports of the child and has a value that can be wired to it. -/
theorem addChild_ok_iff {E : Env St} {P C : Tables} {inst : Name} {kargs : List (Name × Arg)} {s : S St} :
    (addChild E P C false false inst kargs s).2 = none ↔
    inst ∉ s.py ∧ E.add inst = none ∧
    (∀ k v, (k, v) ∈ kargs → C.params k = true → E.param k v = none) ∧
    ∃ l, Wires P C kargs l ∧ ∀ w ∈ l, (E.wire w.1 w.2).2 = none := by
  simp only [addChild, Bool.false_eq_true, if_false]
  by_cases hi : inst ∈ s.py
  · simp [hi]
  · rw [if_neg hi]
    cases ha : E.add inst with
    | some e => simp
    | none =>
      simp only
      generalize hs : ({ s with py := s.py ++ [inst], core := s.core ++ [inst] } : S St) = s0
      rw [← setParams_ok_iff (E := E) (C := C) kargs s0]
      cases hp : setParams E C kargs s0 with
      | mk s1 e =>
        cases e with
        | some e => simp
        | none => simp only [wireAll_ok_iff]; simp [hi]

/-- **What an accepted call does.**  The instance is there, each parameter named has the value given and the others keep theirs, and the
statements added are those of wiring, in the order of the keywords, each port named to what was given for it. -/
theorem addChild_does {E : Env St} {P C : Tables} {inst : Name} {kargs : List (Name × Arg)} {s : S St}
    (hn : (kargs.map (·.1)).Nodup) (h : (addChild E P C false false inst kargs s).2 = none) :
    (addChild E P C false false inst kargs s).1.py = s.py ++ [inst] ∧
    (addChild E P C false false inst kargs s).1.core = s.core ++ [inst] ∧
    (addChild E P C false false inst kargs s).1.later = s.later ∧
    (∀ n v, (n, v) ∈ kargs → C.params n = true →
      (addChild E P C false false inst kargs s).1.vals n = some v) ∧
    (∀ n, (∀ v, (n, v) ∉ kargs) ∨ C.params n = false →
      (addChild E P C false false inst kargs s).1.vals n = s.vals n) ∧
    ∃ l, Wires P C kargs l ∧ (addChild E P C false false inst kargs s).1.stmts =
      s.stmts ++ l.flatMap fun w => (E.wire w.1 w.2).1 := by
  obtain ⟨hi, ha, hp, l, hl, hw⟩ := addChild_ok_iff.1 h
  simp only [addChild, Bool.false_eq_true, if_false, if_neg hi, ha] at h ⊢
  generalize hs : ({ s with py := s.py ++ [inst], core := s.core ++ [inst] } : S St) = s0 at h ⊢
  have hp' := (setParams_ok_iff (E := E) (C := C) kargs s0).2 hp
  have hf := setParams_frame (E := E) (C := C) kargs s0
  have hv := setParams_vals (E := E) (C := C) kargs s0 hn hp'
  cases hx : setParams E C kargs s0 with
  | mk s1 e =>
    rw [hx] at h hf hv hp'
    simp only at hp' hf hv
    subst hp'
    dsimp only at h ⊢
    obtain ⟨f1, f2, f3, f4⟩ := wireAll_frame (E := E) (P := P) (C := C) kargs s1
    subst hs
    refine ⟨f1.trans hf.1, f2.trans hf.2.1, f4.trans hf.2.2.2, ?_, ?_, l, hl, ?_⟩
    · intro n v hm hc; rw [f3]; exact (hv n).1 v hm hc
    · intro n hx; rw [f3]; exact (hv n).2 hx
    · rw [wireAll_stmts kargs s1 l h hl, hf.2.2.1]

/-- **What a refused call leaves behind.**  Nothing is undone: the statements of the parent are those from before and those of the
keywords already wired, and if the instance was new it is in Python's table. -/
theorem addChild_refused {E : Env St} {P C : Tables} {inst : Name} {kargs : List (Name × Arg)} {s : S St} {e}
    (h : (addChild E P C false false inst kargs s).2 = some e) :
    (∃ t, (addChild E P C false false inst kargs s).1.stmts = s.stmts ++ t) ∧
    (inst ∈ s.py → (addChild E P C false false inst kargs s).1 = s) ∧
    (inst ∉ s.py → (addChild E P C false false inst kargs s).1.py = s.py ++ [inst] ∧
      (addChild E P C false false inst kargs s).1.core = s.core ++ (if E.add inst = none then [inst] else [])) := by
  simp only [addChild, Bool.false_eq_true, if_false] at h ⊢
  by_cases hi : inst ∈ s.py
  · simp only [if_pos hi]
    exact ⟨⟨[], by simp⟩, fun _ => trivial, fun hn => absurd hi hn⟩
  · simp only [if_neg hi] at h ⊢
    cases ha : E.add inst with
    | some e' => exact ⟨⟨[], by simp⟩, fun hi' => absurd hi' hi, fun _ => ⟨by simp, by simp⟩⟩
    | none =>
      rw [ha] at h
      dsimp only at h ⊢
      generalize hs : ({ s with py := s.py ++ [inst], core := s.core ++ [inst] } : S St) = s0 at h ⊢
      have hf := setParams_frame (E := E) (C := C) kargs s0
      cases hx : setParams E C kargs s0 with
      | mk s1 e1 =>
        rw [hx] at h hf
        subst hs
        dsimp only at hf
        cases e1 with
        | some e1 => exact ⟨⟨[], by simp [hf.2.2.1]⟩, fun hi' => absurd hi' hi, fun _ => ⟨hf.1, by simp [hf.2.1]⟩⟩
        | none =>
          dsimp only
          obtain ⟨t, ht⟩ := wireAll_prefix (E := E) (P := P) (C := C) kargs s1
          obtain ⟨f1, f2, f3, f4⟩ := wireAll_frame (E := E) (P := P) (C := C) kargs s1
          exact ⟨⟨t, by rw [ht, hf.2.2.1]⟩, fun hi' => absurd hi' hi,
            fun _ => ⟨f1.trans hf.1, by rw [f2, hf.2.1]; simp⟩⟩

/-! ### Witnesses -/

/-- A child with ports 1 and 2, a parameter 3, and a name 4 that is a port and a parameter. -/
def child : Tables where
  ports n := if n = 1 then some 11 else if n = 2 then some 12 else if n = 4 then some 14 else none
  vars n := if n = 1 then some 11 else if n = 2 then some 12 else if n = 4 then some 14 else none
  bundles _ := none
  ifaces _ := none
  params n := n = 3 || n = 4

/-- A parent with port 1, variables 1 and 5, and bundle 6. -/
def parent : Tables where
  ports n := if n = 1 then some 21 else none
  vars n := if n = 1 then some 21 else if n = 5 then some 25 else none
  bundles n := if n = 6 then some 26 else none
  ifaces _ := none
  params _ := false

/-- Wiring adds one statement, and refuses numbers. -/
def env : Env Nat where
  wire o a := match o, a with
    | .var i, .obj (.var j) => ([100 * i + j], none)
    | _, _ => ([], some .user)
  param _ _ := none
  add _ := none

def start : S Nat where
  py := [7]
  core := [7]
  vals _ := none
  stmts := [1]
  later := []

/-- `add_child("c", child, p1="p1", param=8, p2="v5")`. -/
def kargs : List (Name × Arg) := [(1, .str 1), (3, .num 8), (2, .str 5)]

example : (kargs.map (·.1)).Nodup := by decide
example : (addChild env parent child false false 9 kargs start).2 = none := by decide +kernel
example : (addChild env parent child false false 9 kargs start).1.stmts = [1, 1121, 1225] := by decide +kernel
example : (addChild env parent child false false 9 kargs start).1.vals 3 = some (.num 8) := by decide +kernel

/-- **Not atomic.**  The first port is wired and the second refused: the instance and the wire stay. -/
theorem not_AtomicClaim : ¬ AtomicClaim := by
  intro h
  have := (h env parent child 9 [(1, .str 1), (2, .num 0)] start _ .user rfl).2.2
  revert this; decide +kernel

/-- **Wiring is lost on copies.** -/
theorem not_DeferredClaim : ¬ DeferredClaim := by
  intro h
  have := h env parent child 9 kargs start _ rfl
  revert this; decide +kernel

/-- On a copy, whatever the keywords are, the replay adds the instance and no statement. -/
theorem deferred_unwired {E : Env St} {P C : Tables} {inst : Name} {kargs : List (Name × Arg)} {s : S St} :
    (addChild E P C true false inst kargs s).2 = none ∧
    (addChild E P C true false inst kargs s).1.later = s.later ++ [inst] ∧
    (replay E P C (addChild E P C true false inst kargs s).1 inst).1.stmts = s.stmts ∧
    (inst ∉ s.py → E.add inst = none →
      (replay E P C (addChild E P C true false inst kargs s).1 inst).1.core = s.core ++ [inst]) := by
  refine ⟨rfl, rfl, ?_, ?_⟩
  · simp only [replay, addChild, if_true, Bool.false_eq_true, if_false]
    split
    · rfl
    · split
      · rfl
      · simp [setParams, wireAll]
  · intro hi ha
    simp [replay, addChild, hi, ha, setParams, wireAll]

/-- **Keywords can be ignored.**  With `python_only` they are, and so is the port of a name that is also a parameter. -/
theorem not_AllWiredClaim : ¬ AllWiredClaim := by
  intro h
  have := h env parent child true 9 [(1, .obj (.var 5))] start _ 1 (.var 11) (.var 5) rfl (by simp)
    (.inr (.inr ⟨11, rfl, rfl, rfl, rfl⟩)) 1105 (by simp [env])
  revert this; decide +kernel

theorem param_hides_port :
    ∃ s', addChild env parent child false false 9 [(4, .obj (.var 5))] start = (s', none) ∧ s'.stmts = start.stmts :=
  ⟨_, rfl, by decide +kernel⟩

theorem Wires.mem {P C : Tables} {ks l} (h : Wires P C ks l) {k v} (hm : (k, v) ∈ ks) (hp : C.params k = false) :
    ∃ o a, (o, a) ∈ l ∧ Named C k o ∧ Means P v a := by
  induction h with
  | nil => simp at hm
  | param hc _ ih =>
    rcases List.mem_cons.1 hm with hm | hm
    · cases hm; rw [hp] at hc; cases hc
    · exact ih hm
  | wire hc hn hme _ ih =>
    rcases List.mem_cons.1 hm with hm | hm
    · cases hm; exact ⟨_, _, List.mem_cons_self .., hn, hme⟩
    · obtain ⟨o, a, h1, h2⟩ := ih hm
      exact ⟨o, a, List.mem_cons_of_mem _ h1, h2⟩

/-- **Keywords are wired.**  `AllWiredClaim` without `python_only` and for names that are not parameters too. -/
theorem all_wired_partial {E : Env St} {P C : Tables} {inst : Name} {kargs : List (Name × Arg)} {s : S St}
    {k : Name} {o o' : Obj} (hn : (kargs.map (·.1)).Nodup)
    (h : (addChild E P C false false inst kargs s).2 = none) (hk : (k, .obj o') ∈ kargs) (hp : C.params k = false)
    (ho : Named C k o) :
    ∀ x ∈ (E.wire o (.obj o')).1, x ∈ (addChild E P C false false inst kargs s).1.stmts := by
  intro x hx
  obtain ⟨-, -, -, -, -, l, hl, hs⟩ := addChild_does hn h
  obtain ⟨o1, a1, hm, hn1, hm1⟩ := hl.mem hk hp
  obtain rfl := hn1.unique ho
  have : a1 = .obj o' := hm1
  subst this
  rw [hs]
  exact List.mem_append_right _ (List.mem_flatMap.2 ⟨_, hm, hx⟩)

/-- **A string cannot name a bundle.**  `parent.ports[...]` would find it. -/
theorem not_StringClaim : ¬ StringClaim := by
  intro h
  have := h parent 6 (.bundle 26) (.inl ⟨26, rfl, rfl⟩)
  simp [Means, parent] at this

/-- A string names a port or variable, if there is one of that name. -/
theorem string_partial {P : Tables} {n : Name} {o : Obj} (hp : (P.ports n).isSome) (h : Named P n o) :
    Means P (.str n) (.obj o) := by
  rw [← resolve_ok]
  simp [resolve, hp, port_ok.2 h]

end Kratos.AddChild
