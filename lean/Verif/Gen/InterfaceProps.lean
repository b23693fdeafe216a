import Verif.Gen.Interface

/-! # Interfaces and modports: theorems -/

namespace Kratos.Iface

/-! ## Association lists -/

section get
variable {α : Type}

theorem get_mem {l : List (String × α)} {n : String} {a : α} (h : get l n = some a) :
    (n, a) ∈ l := by
  induction l with
  | nil => simp [get] at h
  | cons x l ih =>
    obtain ⟨k, b⟩ := x
    simp only [get] at h
    split at h
    · rename_i hk; cases h; subst hk; simp
    · exact List.mem_cons_of_mem _ (ih h)

theorem get_none {l : List (String × α)} {n : String} : get l n = none ↔ n ∉ l.map (·.1) := by
  induction l with
  | nil => simp [get]
  | cons x l ih =>
    obtain ⟨k, b⟩ := x
    simp only [get]
    split
    · rename_i hk; subst hk; simp
    · rename_i hk
      rw [ih]
      simp only [List.map_cons, List.mem_cons, not_or]
      exact ⟨fun h => ⟨fun e => hk e.symm, h⟩, fun h => h.2⟩

theorem get_isSome {l : List (String × α)} {n : String} :
    (get l n).isSome = true ↔ n ∈ l.map (·.1) := by
  have := get_none (l := l) (n := n)
  cases h : get l n with
  | none => simp only [h, true_iff] at this; simpa using this
  | some a =>
    have := get_mem h
    simp only [Option.isSome_some, true_iff]
    exact List.mem_map.mpr ⟨_, this, rfl⟩

theorem get_of_mem {l : List (String × α)} {n : String} {a : α} (hd : (l.map (·.1)).Nodup)
    (h : (n, a) ∈ l) : get l n = some a := by
  induction l with
  | nil => cases h
  | cons x l ih =>
    obtain ⟨k, b⟩ := x
    simp only [List.map_cons, List.nodup_cons] at hd
    simp only [get]
    rcases List.mem_cons.mp h with e | h
    · cases e; simp
    · split
      · rename_i hk
        exact absurd (List.mem_map.mpr ⟨_, h, hk.symm⟩) hd.1
      · exact ih hd.2 h

end get

theorem mem_put {l : List String} {n k : String} : k ∈ put l n ↔ k ∈ l ∨ k = n := by
  unfold put
  split
  · rename_i h
    exact ⟨Or.inl, fun h' => h'.elim id (fun e => e ▸ h)⟩
  · simp

theorem nodup_put {l : List String} {n : String} (h : l.Nodup) : (put l n).Nodup := by
  unfold put
  split
  · exact h
  · rename_i hn
    rw [List.nodup_append]
    refine ⟨h, by simp, ?_⟩
    intro a ha b hb e
    simp only [List.mem_singleton] at hb
    exact hn (hb ▸ e ▸ ha)

theorem setMod_keys (d : Def) (m : String) (f : ModDef → ModDef) :
    (setMod d m f).mods.map (·.1) = d.mods.map (·.1) := by
  simp only [setMod, List.map_map]
  refine List.map_congr_left fun e _ => ?_
  simp only [Function.comp]
  split <;> rfl

theorem mem_setMod {d : Def} {m : String} {f : ModDef → ModDef} {k : String} {md : ModDef} :
    (k, md) ∈ (setMod d m f).mods ↔
      (k ≠ m ∧ (k, md) ∈ d.mods) ∨ (k = m ∧ ∃ md', (k, md') ∈ d.mods ∧ md = f md') := by
  simp only [setMod, List.mem_map]
  constructor
  · rintro ⟨⟨k', md'⟩, he, h⟩
    split at h
    · rename_i hk
      cases h
      exact Or.inr ⟨hk, md', he, rfl⟩
    · rename_i hk
      cases h
      exact Or.inl ⟨hk, he⟩
  · rintro (⟨hk, he⟩ | ⟨rfl, md', he, rfl⟩)
    · exact ⟨_, he, by simp [hk]⟩
    · exact ⟨_, he, by simp⟩

/-! ## Declarations -/

/-- The name was declared, as a port or as a variable, by one of the calls. -/
def Declared (ops : List Op) (n : String) : Prop := (∃ p, Op.port n p ∈ ops) ∨ ∃ v, Op.var n v ∈ ops

/-- The call occurs after a declaration of the signal it names. -/
def Effective (ops : List Op) (o : Op) (n : String) : Prop :=
  ∃ a b, ops = a ++ o :: b ∧ Declared a n

theorem effective_snoc {ops : List Op} {o x : Op} {n : String} :
    Effective (ops ++ [o]) x n ↔ Effective ops x n ∨ (o = x ∧ Declared ops n) := by
  constructor
  · rintro ⟨a, b, h, hd⟩
    rcases List.eq_nil_or_concat b with rfl | ⟨b', y, rfl⟩
    · obtain ⟨h1, h2⟩ := List.append_inj' h (by simp)
      subst h1
      cases h2
      exact Or.inr ⟨rfl, hd⟩
    · left
      refine ⟨a, b', ?_, hd⟩
      have h' : ops ++ [o] = (a ++ x :: b') ++ [y] := by simpa using h
      exact (List.append_inj' h' rfl).1
  · rintro (⟨a, b, rfl, hd⟩ | ⟨rfl, hd⟩)
    · exact ⟨a, b ++ [o], by simp, hd⟩
    · exact ⟨ops, [], by simp, hd⟩

/-- What the calls made so far left in the definition. -/
structure Hist (ops : List Op) (d : Def) : Prop where
  ports : ∀ n p, (n, p) ∈ d.ports ↔ Op.port n p ∈ ops
  vars : ∀ n v, (n, v) ∈ d.vars ↔ Op.var n v ∈ ops
  mods : ∀ m, m ∈ d.mods.map (·.1) ↔ Op.modport m ∈ ops
  ins : ∀ m n, (∃ md, (m, md) ∈ d.mods ∧ n ∈ md.ins) ↔ Effective ops (.setIn m n) n
  outs : ∀ m n, (∃ md, (m, md) ∈ d.mods ∧ n ∈ md.outs) ↔ Effective ops (.setOut m n) n
  nports : (d.ports.map (·.1)).Nodup
  nvars : (d.vars.map (·.1)).Nodup
  nmods : (d.mods.map (·.1)).Nodup
  nsig : ∀ m md, (m, md) ∈ d.mods → md.ins.Nodup ∧ md.outs.Nodup
  legal : Legal d

theorem nodup_snoc {α : Type} {l : List (String × α)} {n : String} {a : α}
    (h : (l.map (·.1)).Nodup) (hn : n ∉ l.map (·.1)) : ((l ++ [(n, a)]).map (·.1)).Nodup := by
  simp only [List.map_append, List.map_cons, List.map_nil]
  rw [List.nodup_append]
  refine ⟨h, by simp, ?_⟩
  intro x hx y hy e
  simp only [List.mem_singleton] at hy
  exact hn (hy ▸ e ▸ hx)

theorem declared_of {ops : List Op} {d : Def} (H : Hist ops d) {n : String} :
    Declared ops n ↔ n ∈ d.ports.map (·.1) ∨ n ∈ d.vars.map (·.1) := by
  constructor
  · rintro (⟨p, h⟩ | ⟨v, h⟩)
    · exact Or.inl (List.mem_map.mpr ⟨_, (H.ports n p).mpr h, rfl⟩)
    · exact Or.inr (List.mem_map.mpr ⟨_, (H.vars n v).mpr h, rfl⟩)
  · rintro (h | h)
    · obtain ⟨⟨k, p⟩, he, rfl⟩ := List.mem_map.mp h
      exact Or.inl ⟨p, (H.ports _ _).mp he⟩
    · obtain ⟨⟨k, v⟩, he, rfl⟩ := List.mem_map.mp h
      exact Or.inr ⟨v, (H.vars _ _).mp he⟩

/-- The effect of a `set_input` that names a known signal. -/
theorem hist_setIn {ops : List Op} {d : Def} (H : Hist ops d) {m n : String}
    (hm : m ∈ d.mods.map (·.1))
    (hn : (∃ p, (n, p) ∈ d.ports ∧ p.dir = .inp) ∨ ∃ v, (n, v) ∈ d.vars) :
    Hist (ops ++ [.setIn m n]) (setMod d m fun x => { x with ins := put x.ins n }) := by
  have hdecl : Declared ops n := by
    rw [declared_of H]
    rcases hn with ⟨p, h, _⟩ | ⟨v, h⟩
    · exact Or.inl (List.mem_map.mpr ⟨_, h, rfl⟩)
    · exact Or.inr (List.mem_map.mpr ⟨_, h, rfl⟩)
  refine ⟨?_, ?_, ?_, ?_, ?_, H.nports, H.nvars, ?_, ?_, ?_⟩
  · intro n' p; simpa [setMod] using H.ports n' p
  · intro n' p; simpa [setMod] using H.vars n' p
  · intro m'; rw [setMod_keys]; simpa using H.mods m'
  · intro m' n'
    rw [effective_snoc, ← H.ins]
    constructor
    · rintro ⟨md, h, hn'⟩
      replace h := mem_setMod.mp h
      rcases h with ⟨_, h⟩ | ⟨rfl, md', h, rfl⟩
      · exact Or.inl ⟨md, h, hn'⟩
      · rcases mem_put.mp hn' with h' | rfl
        · exact Or.inl ⟨md', h, h'⟩
        · exact Or.inr ⟨rfl, hdecl⟩
    · rintro (⟨md, h, hn'⟩ | ⟨e, _⟩)
      · by_cases e : m' = m
        · exact ⟨_, mem_setMod.mpr (Or.inr ⟨e, md, h, rfl⟩), mem_put.mpr (Or.inl hn')⟩
        · exact ⟨md, mem_setMod.mpr (Or.inl ⟨e, h⟩), hn'⟩
      · cases e
        obtain ⟨⟨k, md⟩, he, rfl⟩ := List.mem_map.mp hm
        exact ⟨_, mem_setMod.mpr (Or.inr ⟨rfl, md, he, rfl⟩), mem_put.mpr (Or.inr rfl)⟩
  · intro m' n'
    rw [effective_snoc, ← H.outs]
    constructor
    · rintro ⟨md, h, hn'⟩
      replace h := mem_setMod.mp h
      rcases h with ⟨_, h⟩ | ⟨rfl, md', h, rfl⟩
      · exact Or.inl ⟨md, h, hn'⟩
      · exact Or.inl ⟨md', h, hn'⟩
    · rintro (⟨md, h, hn'⟩ | ⟨e, _⟩)
      · by_cases e : m' = m
        · exact ⟨_, mem_setMod.mpr (Or.inr ⟨e, md, h, rfl⟩), hn'⟩
        · exact ⟨md, mem_setMod.mpr (Or.inl ⟨e, h⟩), hn'⟩
      · cases e
  · rw [setMod_keys]; exact H.nmods
  · intro m' md h
    replace h := mem_setMod.mp h
    rcases h with ⟨_, h⟩ | ⟨_, md', h, rfl⟩
    · exact H.nsig _ _ h
    · exact ⟨nodup_put (H.nsig _ _ h).1, (H.nsig _ _ h).2⟩
  · intro m' md h
    replace h := mem_setMod.mp h
    rcases h with ⟨_, h⟩ | ⟨_, md', h, rfl⟩
    · exact H.legal _ _ h
    · refine ⟨fun k hk => ?_, (H.legal _ _ h).2⟩
      rcases mem_put.mp hk with hk | rfl
      · exact (H.legal _ _ h).1 k hk
      · exact hn

/-- The effect of a `set_output` that names a known signal. -/
theorem hist_setOut {ops : List Op} {d : Def} (H : Hist ops d) {m n : String}
    (hm : m ∈ d.mods.map (·.1))
    (hn : (∃ p, (n, p) ∈ d.ports ∧ p.dir = .out) ∨ ∃ v, (n, v) ∈ d.vars) :
    Hist (ops ++ [.setOut m n]) (setMod d m fun x => { x with outs := put x.outs n }) := by
  have hdecl : Declared ops n := by
    rw [declared_of H]
    rcases hn with ⟨p, h, _⟩ | ⟨v, h⟩
    · exact Or.inl (List.mem_map.mpr ⟨_, h, rfl⟩)
    · exact Or.inr (List.mem_map.mpr ⟨_, h, rfl⟩)
  refine ⟨?_, ?_, ?_, ?_, ?_, H.nports, H.nvars, ?_, ?_, ?_⟩
  · intro n' p; simpa [setMod] using H.ports n' p
  · intro n' p; simpa [setMod] using H.vars n' p
  · intro m'; rw [setMod_keys]; simpa using H.mods m'
  · intro m' n'
    rw [effective_snoc, ← H.ins]
    constructor
    · rintro ⟨md, h, hn'⟩
      replace h := mem_setMod.mp h
      rcases h with ⟨_, h⟩ | ⟨rfl, md', h, rfl⟩
      · exact Or.inl ⟨md, h, hn'⟩
      · exact Or.inl ⟨md', h, hn'⟩
    · rintro (⟨md, h, hn'⟩ | ⟨e, _⟩)
      · by_cases e : m' = m
        · exact ⟨_, mem_setMod.mpr (Or.inr ⟨e, md, h, rfl⟩), hn'⟩
        · exact ⟨md, mem_setMod.mpr (Or.inl ⟨e, h⟩), hn'⟩
      · cases e
  · intro m' n'
    rw [effective_snoc, ← H.outs]
    constructor
    · rintro ⟨md, h, hn'⟩
      replace h := mem_setMod.mp h
      rcases h with ⟨_, h⟩ | ⟨rfl, md', h, rfl⟩
      · exact Or.inl ⟨md, h, hn'⟩
      · rcases mem_put.mp hn' with h' | rfl
        · exact Or.inl ⟨md', h, h'⟩
        · exact Or.inr ⟨rfl, hdecl⟩
    · rintro (⟨md, h, hn'⟩ | ⟨e, _⟩)
      · by_cases e : m' = m
        · exact ⟨_, mem_setMod.mpr (Or.inr ⟨e, md, h, rfl⟩), mem_put.mpr (Or.inl hn')⟩
        · exact ⟨md, mem_setMod.mpr (Or.inl ⟨e, h⟩), hn'⟩
      · cases e
        obtain ⟨⟨k, md⟩, he, rfl⟩ := List.mem_map.mp hm
        exact ⟨_, mem_setMod.mpr (Or.inr ⟨rfl, md, he, rfl⟩), mem_put.mpr (Or.inr rfl)⟩
  · rw [setMod_keys]; exact H.nmods
  · intro m' md h
    replace h := mem_setMod.mp h
    rcases h with ⟨_, h⟩ | ⟨_, md', h, rfl⟩
    · exact H.nsig _ _ h
    · exact ⟨(H.nsig _ _ h).1, nodup_put (H.nsig _ _ h).2⟩
  · intro m' md h
    replace h := mem_setMod.mp h
    rcases h with ⟨_, h⟩ | ⟨_, md', h, rfl⟩
    · exact H.legal _ _ h
    · refine ⟨(H.legal _ _ h).1, fun k hk => ?_⟩
      rcases mem_put.mp hk with hk | rfl
      · exact (H.legal _ _ h).2 k hk
      · exact hn

/-- A `set_input` or `set_output` of an unknown name changes nothing. -/
theorem hist_ignored {ops : List Op} {d : Def} (H : Hist ops d) {m n : String} {o : Op}
    (ho : o = .setIn m n ∨ o = .setOut m n) (hp : n ∉ d.ports.map (·.1))
    (hv : n ∉ d.vars.map (·.1)) : Hist (ops ++ [o]) d := by
  have hnd : ¬ Declared ops n := fun h => ((declared_of H).mp h).elim hp hv
  refine ⟨?_, ?_, ?_, ?_, ?_, H.nports, H.nvars, H.nmods, H.nsig, H.legal⟩
  · intro n' p; rcases ho with rfl | rfl <;> simpa using H.ports n' p
  · intro n' p; rcases ho with rfl | rfl <;> simpa using H.vars n' p
  · intro m'; rcases ho with rfl | rfl <;> simpa using H.mods m'
  · intro m' n'
    rw [effective_snoc, ← H.ins]
    refine ⟨Or.inl, fun h => h.elim id fun ⟨e, hd⟩ => ?_⟩
    rcases ho with rfl | rfl
    · cases e; exact absurd hd hnd
    · cases e
  · intro m' n'
    rw [effective_snoc, ← H.outs]
    refine ⟨Or.inl, fun h => h.elim id fun ⟨e, hd⟩ => ?_⟩
    rcases ho with rfl | rfl
    · cases e
    · cases e; exact absurd hd hnd

theorem legal_mono {d d' : Def} (h : Legal d) (hm : d'.mods = d.mods)
    (hp : ∀ e ∈ d.ports, e ∈ d'.ports) (hv : ∀ e ∈ d.vars, e ∈ d'.vars) : Legal d' := by
  intro m md hmd
  rw [hm] at hmd
  refine ⟨fun n hn => ?_, fun n hn => ?_⟩
  · rcases (h m md hmd).1 n hn with ⟨p, a, b⟩ | ⟨v, a⟩
    · exact Or.inl ⟨p, hp _ a, b⟩
    · exact Or.inr ⟨v, hv _ a⟩
  · rcases (h m md hmd).2 n hn with ⟨p, a, b⟩ | ⟨v, a⟩
    · exact Or.inl ⟨p, hp _ a, b⟩
    · exact Or.inr ⟨v, hv _ a⟩

theorem hist_step {ops : List Op} {d d' : Def} {o : Op} (H : Hist ops d) (h : step d o = .ok d') :
    Hist (ops ++ [o]) d' := by
  cases o with
  | port n p =>
    simp only [step] at h
    split at h
    · cases h
    · rename_i hn
      cases h
      rw [get_isSome] at hn
      refine ⟨?_, ?_, ?_, ?_, ?_, nodup_snoc H.nports hn, H.nvars, H.nmods, H.nsig, ?_⟩
      · intro n' p'
        simp only [List.mem_append, H.ports, List.mem_singleton, Op.port.injEq, Prod.mk.injEq]
      · intro n' v; simpa using H.vars n' v
      · intro m; simpa using H.mods m
      · intro m n'
        rw [effective_snoc, ← H.ins]
        exact ⟨Or.inl, fun h => h.elim id fun ⟨e, _⟩ => by cases e⟩
      · intro m n'
        rw [effective_snoc, ← H.outs]
        exact ⟨Or.inl, fun h => h.elim id fun ⟨e, _⟩ => by cases e⟩
      · exact legal_mono H.legal rfl (fun e he => List.mem_append_left _ he) (fun e he => he)
  | var n v =>
    simp only [step] at h
    split at h
    · cases h
    · rename_i hn
      cases h
      rw [get_isSome] at hn
      refine ⟨?_, ?_, ?_, ?_, ?_, H.nports, nodup_snoc H.nvars hn, H.nmods, H.nsig, ?_⟩
      · intro n' v; simpa using H.ports n' v
      · intro n' p'
        simp only [List.mem_append, H.vars, List.mem_singleton, Op.var.injEq, Prod.mk.injEq]
      · intro m; simpa using H.mods m
      · intro m n'
        rw [effective_snoc, ← H.ins]
        exact ⟨Or.inl, fun h => h.elim id fun ⟨e, _⟩ => by cases e⟩
      · intro m n'
        rw [effective_snoc, ← H.outs]
        exact ⟨Or.inl, fun h => h.elim id fun ⟨e, _⟩ => by cases e⟩
      · exact legal_mono H.legal rfl (fun e he => he) (fun e he => List.mem_append_left _ he)
  | modport m =>
    simp only [step] at h
    split at h
    · cases h
    · rename_i hn
      cases h
      rw [get_isSome] at hn
      refine ⟨?_, ?_, ?_, ?_, ?_, H.nports, H.nvars, nodup_snoc H.nmods hn, ?_, ?_⟩
      · intro n' v; simpa using H.ports n' v
      · intro n' v; simpa using H.vars n' v
      · intro m'
        simp only [List.map_append, List.map_cons, List.map_nil, List.mem_append, H.mods,
          List.mem_singleton, Op.modport.injEq]
      · intro m' n'
        rw [effective_snoc, ← H.ins]
        constructor
        · rintro ⟨md, h, hn'⟩
          rcases List.mem_append.mp h with h | h
          · exact Or.inl ⟨md, h, hn'⟩
          · simp only [List.mem_singleton, Prod.mk.injEq] at h
            rw [h.2] at hn'; cases hn'
        · rintro (⟨md, h, hn'⟩ | ⟨e, _⟩)
          · exact ⟨md, List.mem_append_left _ h, hn'⟩
          · cases e
      · intro m' n'
        rw [effective_snoc, ← H.outs]
        constructor
        · rintro ⟨md, h, hn'⟩
          rcases List.mem_append.mp h with h | h
          · exact Or.inl ⟨md, h, hn'⟩
          · simp only [List.mem_singleton, Prod.mk.injEq] at h
            rw [h.2] at hn'; cases hn'
        · rintro (⟨md, h, hn'⟩ | ⟨e, _⟩)
          · exact ⟨md, List.mem_append_left _ h, hn'⟩
          · cases e
      · intro m' md h
        rcases List.mem_append.mp h with h | h
        · exact H.nsig _ _ h
        · simp only [List.mem_singleton, Prod.mk.injEq] at h
          rw [h.2]; exact ⟨List.nodup_nil, List.nodup_nil⟩
      · intro m' md h
        rcases List.mem_append.mp h with h | h
        · exact H.legal _ _ h
        · simp only [List.mem_singleton, Prod.mk.injEq] at h
          rw [h.2]
          exact ⟨fun n hn => (by cases hn), fun n hn => (by cases hn)⟩
  | setIn m n =>
    simp only [step] at h
    split at h
    · cases h
    · rename_i md hmd
      have hm : m ∈ d.mods.map (·.1) := List.mem_map.mpr ⟨_, get_mem hmd, rfl⟩
      split at h
      · rename_i p hp
        split at h
        · rename_i hdir
          cases h
          exact hist_setIn H hm (Or.inl ⟨p, get_mem hp, hdir⟩)
        · cases h
      · rename_i hp
        split at h
        · rename_i hv
          cases h
          obtain ⟨⟨k, v⟩, he, rfl⟩ := List.mem_map.mp (get_isSome.mp hv)
          exact hist_setIn H hm (Or.inr ⟨v, he⟩)
        · rename_i hv
          cases h
          exact hist_ignored H (Or.inl rfl) (get_none.mp hp) (fun h => hv (get_isSome.mpr h))
  | setOut m n =>
    simp only [step] at h
    split at h
    · cases h
    · rename_i md hmd
      have hm : m ∈ d.mods.map (·.1) := List.mem_map.mpr ⟨_, get_mem hmd, rfl⟩
      split at h
      · rename_i p hp
        split at h
        · rename_i hdir
          cases h
          exact hist_setOut H hm (Or.inl ⟨p, get_mem hp, hdir⟩)
        · cases h
      · rename_i hp
        split at h
        · rename_i hv
          cases h
          obtain ⟨⟨k, v⟩, he, rfl⟩ := List.mem_map.mp (get_isSome.mp hv)
          exact hist_setOut H hm (Or.inr ⟨v, he⟩)
        · rename_i hv
          cases h
          exact hist_ignored H (Or.inr rfl) (get_none.mp hp) (fun h => hv (get_isSome.mpr h))

theorem hist_run {ops : List Op} : ∀ {pre : List Op} {d d' : Def}, Hist pre d →
    run d ops = .ok d' → Hist (pre ++ ops) d' := by
  induction ops with
  | nil => intro pre d d' H h; cases h; simpa using H
  | cons o ops ih =>
    intro pre d d' H h
    simp only [run, Res.bind_eq_ok] at h
    obtain ⟨d1, h1, h2⟩ := h
    simpa using ih (hist_step H h1) h2

theorem hist_fresh (name : String) : Hist [] (fresh name) := by
  refine ⟨?_, ?_, ?_, ?_, ?_, by simp [fresh], by simp [fresh], by simp [fresh], ?_, ?_⟩
  · simp [fresh]
  · simp [fresh]
  · simp [fresh]
  · intro m n
    exact ⟨fun ⟨_, h, _⟩ => (by cases h), fun ⟨a, b, h, _⟩ => (by simp at h)⟩
  · intro m n
    exact ⟨fun ⟨_, h, _⟩ => (by cases h), fun ⟨a, b, h, _⟩ => (by simp at h)⟩
  · intro m md h; cases h
  · intro m md h; cases h

theorem hist_of_run {name : String} {ops : List Op} {d : Def} (h : run (fresh name) ops = .ok d) :
    Hist ops d := by simpa using hist_run (hist_fresh name) h

theorem run_name {ops : List Op} : ∀ {d d' : Def}, run d ops = .ok d' → d'.name = d.name := by
  induction ops with
  | nil => intro d d' h; cases h; rfl
  | cons o ops ih =>
    intro d d' h
    simp only [run, Res.bind_eq_ok] at h
    obtain ⟨d1, h1, h2⟩ := h
    rw [ih h2]
    cases o <;> simp only [step] at h1 <;> repeat' split at h1
    all_goals first | cases h1; rfl | cases h1

/-- C81: an interface that was declared without an exception has exactly the ports, the variables
and the modports that were declared, under the given name; a modport lists as an input (output)
exactly the signals set as such after their declaration; what it lists exists, and a port is listed
with its own direction. -/
theorem declare_partial {name : String} {ops : List Op} {d : Def}
    (h : run (fresh name) ops = .ok d) :
    d.name = name ∧
    (∀ n p, (n, p) ∈ d.ports ↔ Op.port n p ∈ ops) ∧
    (∀ n v, (n, v) ∈ d.vars ↔ Op.var n v ∈ ops) ∧
    (∀ m, m ∈ d.mods.map (·.1) ↔ Op.modport m ∈ ops) ∧
    (∀ m n, (∃ md, (m, md) ∈ d.mods ∧ n ∈ md.ins) ↔ Effective ops (.setIn m n) n) ∧
    (∀ m n, (∃ md, (m, md) ∈ d.mods ∧ n ∈ md.outs) ↔ Effective ops (.setOut m n) n) ∧
    (d.ports.map (·.1)).Nodup ∧ (d.vars.map (·.1)).Nodup ∧ (d.mods.map (·.1)).Nodup ∧
    (∀ m md, (m, md) ∈ d.mods → md.ins.Nodup ∧ md.outs.Nodup) ∧ Legal d := by
  have H := hist_of_run h
  exact ⟨run_name h, H.ports, H.vars, H.mods, H.ins, H.outs, H.nports, H.nvars, H.nmods, H.nsig,
    H.legal⟩

/-- C81: declaring stops with an exception exactly at a call that repeats a name of the same kind or
that sets a port against its direction. -/
theorem step_throws_iff {d : Def} {o : Op} {e : Err} :
    step d o = .throw e ↔ e = .user ∧
      match o with
      | .port n _ => ∃ p, get d.ports n = some p
      | .var n _ => ∃ v, get d.vars n = some v
      | .modport m => ∃ x, get d.mods m = some x
      | .setIn m n => ∃ x p, get d.mods m = some x ∧ get d.ports n = some p ∧ p.dir ≠ .inp
      | .setOut m n => ∃ x p, get d.mods m = some x ∧ get d.ports n = some p ∧ p.dir ≠ .out := by
  cases o with
  | port n p =>
    simp only [step]
    cases get d.ports n <;> simp [eq_comm]
  | var n p =>
    simp only [step]
    cases get d.vars n <;> simp [eq_comm]
  | modport n =>
    simp only [step]
    cases get d.mods n <;> simp [eq_comm]
  | setIn m n =>
    simp only [step]
    cases get d.mods m with
    | none => simp
    | some x =>
      cases get d.ports n with
      | none => cases get d.vars n <;> simp
      | some p => by_cases h : p.dir = .inp <;> simp [h, eq_comm (a := e)]
  | setOut m n =>
    simp only [step]
    cases get d.mods m with
    | none => simp
    | some x =>
      cases get d.ports n with
      | none => cases get d.vars n <;> simp
      | some p => by_cases h : p.dir = .out <;> simp [h, eq_comm (a := e)]

/-- The `Config` interface of `tests/test_interface.py`, with one modport. -/
def configOps : List Op :=
  [.var "read" ⟨8, [1]⟩, .var "write" ⟨8, [1]⟩, .port "clk" ⟨1, [1], .inp, 1⟩, .modport "R",
   .setIn "R" "read", .setOut "R" "write", .setIn "R" "clk"]

def config : Def :=
  ⟨"Config", [("clk", ⟨1, [1], .inp, 1⟩)], [("read", ⟨8, [1]⟩), ("write", ⟨8, [1]⟩)],
    [("R", ⟨["read", "clk"], ["write"]⟩)]⟩

theorem config_run : run (fresh "Config") configOps = .ok config := by decide +kernel

example : Legal config := (declare_partial config_run).2.2.2.2.2.2.2.2.2.2

/-- C81: a signal can be listed both as an input and as an output of a modport, and one name can be
both a port and a variable. -/
theorem not_DeclareClaim : ¬ DeclareClaim := by
  intro h
  have := (h "I" [.var "a" ⟨1, [1]⟩, .modport "M", .setIn "M" "a", .setOut "M" "a"]
    ⟨"I", [], [("a", ⟨1, [1]⟩)], [("M", ⟨["a"], ["a"]⟩)]⟩ (by decide +kernel)).2.2.2 "M" _
      (List.mem_singleton.mpr rfl)
  revert this
  decide

/-- C81: an interface accepts a port and a variable of the same name; a modport may then list as an
input a name that is an output port. -/
theorem clash_wrong :
    ∃ d, run (fresh "I") [.var "a" ⟨1, [1]⟩, .modport "M", .setIn "M" "a",
        .port "a" ⟨1, [1], .out, 0⟩] = .ok d ∧
      (IDef.mod d "M" ⟨["a"], []⟩).portOf "a" = some ⟨1, [1], .out, 0⟩ ∧
      ("M", ⟨["a"], []⟩) ∈ d.mods :=
  ⟨⟨"I", [("a", ⟨1, [1], .out, 0⟩)], [("a", ⟨1, [1]⟩)], [("M", ⟨["a"], []⟩)]⟩,
    by decide +kernel, by decide +kernel, List.mem_singleton.mpr rfl⟩

/-- C81: a misspelt signal name in `set_input` is accepted and lost. -/
theorem misspelt_lost :
    run (fresh "I") [.var "read" ⟨1, [1]⟩, .modport "M", .setIn "M" "raed"] =
      .ok ⟨"I", [], [("read", ⟨1, [1]⟩)], [("M", ⟨[], []⟩)]⟩ := by decide +kernel

/-- C81: a bidirectional port can be listed by no modport. -/
theorem inout_refused (d : Def) (m n : String) (x : ModDef) (p : PortDef)
    (hm : get d.mods m = some x) (hp : get d.ports n = some p) (hd : p.dir = .inout) :
    step d (.setIn m n) = .throw .user ∧ step d (.setOut m n) = .throw .user := by
  simp [step, hm, hp, hd]

/-! ## References to a modport -/

theorem mem_names {md : ModDef} {n : String} : n ∈ md.names ↔ n ∈ md.ins ∨ n ∈ md.outs := by
  simp only [ModDef.names, List.mem_append, List.mem_filter, decide_eq_true_eq]
  by_cases h : n ∈ md.ins <;> simp [h]

theorem mkRef_go {i : IDef} {ns : List String} {l : List (String × Dir)}
    (h : mkRef.go i ns = .ok l) :
    ∀ n dir, (n, dir) ∈ l ↔ n ∈ ns ∧ ∃ p, i.portOf n = some p ∧ p.dir = dir := by
  induction ns generalizing l with
  | nil => cases h; simp
  | cons k ns ih =>
    simp only [mkRef.go] at h
    split at h
    · cases h
    · rename_i p hp
      simp only [Res.bind_eq_ok] at h
      obtain ⟨l', h1, h2⟩ := h
      cases h2
      intro n dir
      simp only [List.mem_cons, Prod.mk.injEq, ih h1]
      constructor
      · rintro (⟨rfl, rfl⟩ | ⟨h, h'⟩)
        · exact ⟨Or.inl rfl, p, hp, rfl⟩
        · exact ⟨Or.inr h, h'⟩
      · rintro ⟨rfl | h, p', hp', rfl⟩
        · rw [hp] at hp'; cases hp'; exact Or.inl ⟨rfl, rfl⟩
        · exact Or.inr ⟨h, p', hp', rfl⟩

theorem mkRef_total {i : IDef} {ns : List String} (h : ∀ n ∈ ns, ∃ p, i.portOf n = some p) :
    ∃ l, mkRef.go i ns = .ok l := by
  induction ns with
  | nil => exact ⟨[], rfl⟩
  | cons k ns ih =>
    obtain ⟨p, hp⟩ := h k (by simp)
    obtain ⟨l, hl⟩ := ih fun n hn => h n (by simp [hn])
    exact ⟨(k, p.dir) :: l, by simp [mkRef.go, hp, hl]⟩

theorem not_both {d : Def} (hD : Distinct d) {n : String} (h1 : n ∈ d.ports.map (·.1))
    (h2 : n ∈ d.vars.map (·.1)) : False :=
  (List.nodup_append.mp hD.1).2.2 _ h1 _ h2 rfl

/-- A signal of a modport has the direction the modport gives it. -/
theorem portOf_dir {d : Def} {m : String} {md : ModDef} (hL : Legal d) (hD : Distinct d)
    (hm : (m, md) ∈ d.mods) {n : String} {p : PortDef} (hp : (IDef.mod d m md).portOf n = some p) :
    p.dir = .inp ∧ n ∈ md.ins ∨ p.dir = .out ∧ n ∈ md.outs := by
  obtain ⟨hd1, hd2, hd3⟩ := hD
  have hnp : (d.ports.map (·.1)).Nodup := (List.nodup_append.mp hd1).1
  have hdis := (List.nodup_append.mp (hd3 m md hm)).2.2
  simp only [IDef.portOf] at hp
  split at hp
  · rename_i hmem
    split at hp
    · rename_i q hq
      cases hp
      have hnot : ∀ v, (n, v) ∉ d.vars := fun v hv =>
        not_both ⟨hd1, hd2, hd3⟩ (List.mem_map.mpr ⟨_, get_mem hq, rfl⟩) (List.mem_map.mpr ⟨_, hv, rfl⟩)
      rcases hmem with h | h
      · rcases (hL m md hm).1 n h with ⟨p', hp', hdir⟩ | ⟨v, hv⟩
        · rw [get_of_mem hnp hp'] at hq; cases hq
          exact Or.inl ⟨hdir, h⟩
        · exact absurd hv (hnot v)
      · rcases (hL m md hm).2 n h with ⟨p', hp', hdir⟩ | ⟨v, hv⟩
        · rw [get_of_mem hnp hp'] at hq; cases hq
          exact Or.inr ⟨hdir, h⟩
        · exact absurd hv (hnot v)
    · cases hv : get d.vars n with
      | none => rw [hv] at hp; cases hp
      | some v =>
        rw [hv] at hp
        cases hp
        by_cases h : n ∈ md.ins
        · exact Or.inl ⟨by simp [h], h⟩
        · exact Or.inr ⟨by simp [h], hmem.resolve_left h⟩
  · cases hp

/-- C81: a modport instantiated as the interface of a child has a port for each signal it lists, in
the direction in which it lists it. -/
theorem modport_port_partial {name : String} {ops : List Op} {d : Def} {m : String} {md : ModDef}
    (h : run (fresh name) ops = .ok d) (hD : Distinct d) (hm : (m, md) ∈ d.mods) :
    ∃ r, mkRef (.mod d m md) = .ok r ∧ r.vars = [] ∧
      (∀ n, (n, Dir.inp) ∈ r.ports ↔ n ∈ md.ins) ∧ (∀ n, (n, Dir.out) ∈ r.ports ↔ n ∈ md.outs) ∧
      ∀ n, (n, Dir.inout) ∉ r.ports := by
  have hL := (hist_of_run h).legal
  have hdis := (List.nodup_append.mp (hD.2.2 m md hm)).2.2
  have htot : ∀ n ∈ md.names, ∃ p, (IDef.mod d m md).portOf n = some p := by
    intro n hn
    rw [mem_names] at hn
    simp only [IDef.portOf, if_pos hn]
    have hdecl : n ∈ d.ports.map (·.1) ∨ n ∈ d.vars.map (·.1) := by
      rcases hn with hn | hn
      · rcases (hL m md hm).1 n hn with ⟨p, a, _⟩ | ⟨v, a⟩
        · exact Or.inl (List.mem_map.mpr ⟨_, a, rfl⟩)
        · exact Or.inr (List.mem_map.mpr ⟨_, a, rfl⟩)
      · rcases (hL m md hm).2 n hn with ⟨p, a, _⟩ | ⟨v, a⟩
        · exact Or.inl (List.mem_map.mpr ⟨_, a, rfl⟩)
        · exact Or.inr (List.mem_map.mpr ⟨_, a, rfl⟩)
    cases hp : get d.ports n with
    | some p => exact ⟨p, rfl⟩
    | none =>
      have hv := get_isSome.mpr (hdecl.resolve_left (get_none.mp hp))
      cases hv' : get d.vars n with
      | none => rw [hv'] at hv; cases hv
      | some v => exact ⟨_, rfl⟩
  obtain ⟨l, hl⟩ := mkRef_total htot
  refine ⟨⟨l, []⟩, by simp [mkRef, IDef.portNames, hl, IDef.varNames], rfl, ?_, ?_, ?_⟩
  · intro n
    simp only [mkRef_go hl, mem_names]
    constructor
    · rintro ⟨_, p, hp, hdir⟩
      rcases portOf_dir hL hD hm hp with ⟨_, h⟩ | ⟨h', _⟩
      · exact h
      · rw [hdir] at h'; cases h'
    · intro hn
      obtain ⟨p, hp⟩ := htot n (mem_names.mpr (Or.inl hn))
      refine ⟨Or.inl hn, p, hp, ?_⟩
      rcases portOf_dir hL hD hm hp with ⟨h, _⟩ | ⟨_, h⟩
      · exact h
      · exact absurd rfl (hdis n hn n h)
  · intro n
    simp only [mkRef_go hl, mem_names]
    constructor
    · rintro ⟨_, p, hp, hdir⟩
      rcases portOf_dir hL hD hm hp with ⟨h', _⟩ | ⟨_, h⟩
      · rw [hdir] at h'; cases h'
      · exact h
    · intro hn
      obtain ⟨p, hp⟩ := htot n (mem_names.mpr (Or.inr hn))
      refine ⟨Or.inr hn, p, hp, ?_⟩
      rcases portOf_dir hL hD hm hp with ⟨_, h⟩ | ⟨h, _⟩
      · exact absurd rfl (hdis n h n hn)
      · exact h
  · intro n hn
    obtain ⟨_, p, hp, hdir⟩ := (mkRef_go hl n _).mp hn
    rcases portOf_dir hL hD hm hp with ⟨h, _⟩ | ⟨h, _⟩ <;> rw [hdir] at h <;> cases h

example : mkRef (.mod config "R" ⟨["read", "clk"], ["write"]⟩) =
    .ok ⟨[("read", .inp), ("clk", .inp), ("write", .out)], []⟩ := by decide +kernel

theorem modRef_go {d : Def} {b : Bool} {ns : List String} {l : List (String × Dir)}
    (h : modRef.go d b ns = .ok l) :
    ∀ n dir, (n, dir) ∈ l ↔ n ∈ ns ∧
      ((∃ v, get d.vars n = some v) ∧ dir = (if b then .inp else .out) ∨
       get d.vars n = none ∧ ∃ p, get d.ports n = some p ∧ p.dir = dir) := by
  induction ns generalizing l with
  | nil => cases h; simp
  | cons k ns ih =>
    simp only [modRef.go] at h
    split at h
    · rename_i hv
      simp only [Res.bind_eq_ok] at h
      obtain ⟨l', h1, h2⟩ := h
      cases h2
      obtain ⟨v, hv⟩ := Option.isSome_iff_exists.mp hv
      intro n dir
      simp only [List.mem_cons, Prod.mk.injEq, ih h1]
      constructor
      · rintro (⟨rfl, rfl⟩ | ⟨h, h'⟩)
        · exact ⟨Or.inl rfl, Or.inl ⟨⟨v, hv⟩, rfl⟩⟩
        · exact ⟨Or.inr h, h'⟩
      · rintro ⟨rfl | h, h'⟩
        · rcases h' with ⟨_, rfl⟩ | ⟨h', _⟩
          · exact Or.inl ⟨rfl, rfl⟩
          · rw [hv] at h'; cases h'
        · exact Or.inr ⟨h, h'⟩
    · rename_i hv
      have hv : get d.vars k = none := by simpa using hv
      split at h
      · cases h
      · rename_i p hp
        simp only [Res.bind_eq_ok] at h
        obtain ⟨l', h1, h2⟩ := h
        cases h2
        intro n dir
        simp only [List.mem_cons, Prod.mk.injEq, ih h1]
        constructor
        · rintro (⟨rfl, rfl⟩ | ⟨h, h'⟩)
          · exact ⟨Or.inl rfl, Or.inr ⟨hv, p, hp, rfl⟩⟩
          · exact ⟨Or.inr h, h'⟩
        · rintro ⟨rfl | h, h'⟩
          · rcases h' with ⟨⟨v, h'⟩, _⟩ | ⟨_, q, hq, rfl⟩
            · rw [hv] at h'; cases h'
            · rw [hp] at hq; cases hq; exact Or.inl ⟨rfl, rfl⟩
          · exact Or.inr ⟨h, h'⟩

/-- C81: a reference to a modport of an instance lists the right signals; it has the direction of
the signals that are ports right, and gives all the signals that are variables the same direction:
input if the modport lists a signal named like itself as an input, output otherwise. -/
theorem modport_ref_partial {name : String} {ops : List Op} {d : Def} {m : String} {md : ModDef}
    {r : Ref} (h : run (fresh name) ops = .ok d) (hD : Distinct d) (hm : (m, md) ∈ d.mods)
    (hr : modRef d m = .ok r) :
    (∀ n, n ∈ r.ports.map (·.1) ↔ n ∈ md.ins ∨ n ∈ md.outs) ∧
    (∀ n dir, n ∈ d.ports.map (·.1) →
      ((n, dir) ∈ r.ports ↔ (dir = .inp ∧ n ∈ md.ins) ∨ (dir = .out ∧ n ∈ md.outs))) ∧
    (∀ n dir, n ∈ d.vars.map (·.1) →
      ((n, dir) ∈ r.ports ↔ (n ∈ md.ins ∨ n ∈ md.outs) ∧
        ((m ∈ md.ins ∧ dir = .inp) ∨ (m ∉ md.ins ∧ dir = .out)))) := by
  have hL := (hist_of_run h).legal
  have hnp : (d.ports.map (·.1)).Nodup := (List.nodup_append.mp hD.1).1
  have hnm := get_of_mem hD.2.1 hm
  simp only [modRef, hnm, Res.bind_eq_ok] at hr
  obtain ⟨l, hl, hr⟩ := hr
  cases hr
  have key := modRef_go hl
  have hdecl : ∀ n, n ∈ md.ins ∨ n ∈ md.outs →
      (∃ v, get d.vars n = some v) ∨ get d.vars n = none ∧ ∃ p, get d.ports n = some p := by
    intro n hn
    have hdecl : n ∈ d.ports.map (·.1) ∨ n ∈ d.vars.map (·.1) := by
      rcases hn with hn | hn
      · rcases (hL m md hm).1 n hn with ⟨p, a, _⟩ | ⟨v, a⟩
        · exact Or.inl (List.mem_map.mpr ⟨_, a, rfl⟩)
        · exact Or.inr (List.mem_map.mpr ⟨_, a, rfl⟩)
      · rcases (hL m md hm).2 n hn with ⟨p, a, _⟩ | ⟨v, a⟩
        · exact Or.inl (List.mem_map.mpr ⟨_, a, rfl⟩)
        · exact Or.inr (List.mem_map.mpr ⟨_, a, rfl⟩)
    cases hv : get d.vars n with
    | some v => exact Or.inl ⟨v, rfl⟩
    | none =>
      have := hdecl.resolve_right (get_none.mp hv)
      obtain ⟨p, hp⟩ := Option.isSome_iff_exists.mp (get_isSome.mpr this)
      exact Or.inr ⟨rfl, p, hp⟩
  refine ⟨fun n => ?_, fun n dir hn => ?_, fun n dir hn => ?_⟩
  · constructor
    · intro hn
      obtain ⟨⟨k, dir⟩, he, rfl⟩ := List.mem_map.mp hn
      exact mem_names.mp ((key k dir).mp he).1
    · intro hn
      rcases hdecl n hn with ⟨v, hv⟩ | ⟨hv, p, hp⟩
      · exact List.mem_map.mpr ⟨(n, _), (key n _).mpr ⟨mem_names.mpr hn, Or.inl ⟨⟨v, hv⟩, rfl⟩⟩, rfl⟩
      · exact List.mem_map.mpr ⟨(n, _), (key n _).mpr ⟨mem_names.mpr hn, Or.inr ⟨hv, p, hp, rfl⟩⟩,
          rfl⟩
  · have hv : get d.vars n = none := get_none.mpr fun h => not_both hD hn h
    obtain ⟨p, hp⟩ := Option.isSome_iff_exists.mp (get_isSome.mpr hn)
    have hno : ∀ v, (n, v) ∉ d.vars := fun v hv' => not_both hD hn (List.mem_map.mpr ⟨_, hv', rfl⟩)
    have hin : n ∈ md.ins → p.dir = .inp := by
      intro h
      rcases (hL m md hm).1 n h with ⟨p', a, b⟩ | ⟨v, a⟩
      · rw [get_of_mem hnp a] at hp; cases hp; exact b
      · exact absurd a (hno v)
    have hout : n ∈ md.outs → p.dir = .out := by
      intro h
      rcases (hL m md hm).2 n h with ⟨p', a, b⟩ | ⟨v, a⟩
      · rw [get_of_mem hnp a] at hp; cases hp; exact b
      · exact absurd a (hno v)
    rw [key, mem_names]
    constructor
    · rintro ⟨hmem, ⟨⟨v, hv'⟩, _⟩ | ⟨_, q, hq, rfl⟩⟩
      · rw [hv] at hv'; cases hv'
      · rw [hp] at hq; cases hq
        rcases hmem with h | h
        · exact Or.inl ⟨hin h, h⟩
        · exact Or.inr ⟨hout h, h⟩
    · rintro (⟨rfl, h⟩ | ⟨rfl, h⟩)
      · exact ⟨Or.inl h, Or.inr ⟨hv, p, hp, hin h⟩⟩
      · exact ⟨Or.inr h, Or.inr ⟨hv, p, hp, hout h⟩⟩
  · obtain ⟨v, hv⟩ := Option.isSome_iff_exists.mp (get_isSome.mpr hn)
    rw [key, mem_names]
    constructor
    · rintro ⟨hmem, ⟨_, rfl⟩ | ⟨hv', _⟩⟩
      · refine ⟨hmem, ?_⟩
        by_cases hi : m ∈ md.ins <;> simp [hi]
      · rw [hv] at hv'; cases hv'
    · rintro ⟨hmem, hdir⟩
      refine ⟨hmem, Or.inl ⟨⟨v, hv⟩, ?_⟩⟩
      rcases hdir with ⟨hi, rfl⟩ | ⟨hi, rfl⟩ <;> simp [hi]

theorem config_distinct : Distinct config := by
  refine ⟨by decide, by decide, ?_⟩
  intro m md h
  simp only [config, List.mem_singleton, Prod.mk.injEq] at h
  rw [h.2]; decide

theorem config_modRef :
    modRef config "R" = .ok ⟨[("read", .out), ("clk", .inp), ("write", .out)], []⟩ := by
  decide +kernel

/-- C81: the reference to a modport turns its inputs into outputs. -/
theorem not_ModportRefClaim : ¬ ModportRefClaim := by
  intro h
  have := ((h "Config" configOps config "R" ⟨["read", "clk"], ["write"]⟩ _ config_run
    config_distinct (by simp [config]) config_modRef).1 "read").mpr (by decide)
  revert this
  decide

/-- C81: consequently, wiring a variable of the parent to an input of a modport of one of its
instances drives the variable instead of the input. -/
theorem modport_wire_wrong :
    ∃ r, modRef config "R" = .ok r ∧ ("read", Dir.out) ∈ r.ports ∧ drivesPort .out = false ∧
      "read" ∈ ["read", "clk"] ∧ ("R", (⟨["read", "clk"], ["write"]⟩ : ModDef)) ∈ config.mods :=
  ⟨_, config_modRef, by decide, rfl, by decide, by simp [config]⟩

/-! ## Wiring -/

/-- C81: wiring the interface of a child to one of the parent succeeds exactly when the parent has a
signal for each port of the child. It then makes one assignment per port, in order: a port that is
an input is assigned from the signal of that name, and for any other port the signal is assigned
from the port. -/
theorem wire_iff {child parent : Ref} {l : List Asg} :
    wire child parent = .ok l ↔
      (∀ n ∈ child.ports.map (·.1), n ∈ parent.vars ∨ ∃ dir, (n, dir) ∈ parent.ports) ∧
      l = child.ports.map fun e => if e.2 = .inp then Asg.toChild e.1 else Asg.toParent e.1 := by
  unfold wire
  generalize child.ports = ps
  induction ps generalizing l with
  | nil => simp [wire.go, eq_comm]
  | cons e ps ih =>
    obtain ⟨n, dir⟩ := e
    have hp : n ∈ parent.ports.map (·.1) ↔ ∃ dir, (n, dir) ∈ parent.ports := by simp
    simp only [wire.go]
    split
    · rename_i hn
      rw [hp] at hn
      simp only [Res.bind_eq_ok, ih, Res.ok.injEq, List.map_cons, List.forall_mem_cons]
      constructor
      · rintro ⟨r, ⟨h1, rfl⟩, rfl⟩
        exact ⟨⟨hn, h1⟩, rfl⟩
      · rintro ⟨⟨_, h1⟩, rfl⟩
        exact ⟨_, ⟨h1, rfl⟩, rfl⟩
    · rename_i hn
      rw [hp] at hn
      refine ⟨nofun, fun h => absurd (h.1 n (by simp)) hn⟩

example : wire ⟨[("read", .inp), ("clk", .inp), ("write", .out)], []⟩
    ⟨[("clk", .inp)], ["read", "write"]⟩ =
    .ok [.toChild "read", .toChild "clk", .toParent "write"] := by decide +kernel

/-- C81: a bidirectional port is wired as an output. -/
theorem inout_wrong : wire ⟨[("pad", .inout)], []⟩ ⟨[("pad", .inout)], []⟩ = .ok [.toParent "pad"] :=
  by decide +kernel

/-- C81: wiring two interfaces that have only variables makes no assignment at all. -/
theorem variables_wire_lost (child parent : Ref) (h : child.ports = []) :
    wire child parent = .ok [] := by
  rw [wire_iff]; simp [h]

/-! ## The text of a modport -/

theorem pieces_iff (total : Nat) (l : List (Dir × String)) : ∀ c,
    pieces total c l = (l.map fun e => Piece.sig e.1 e.2).intersperse .sep ↔
      l = [] ∨ c + l.length = total := by
  induction l with
  | nil => intro c; simp [pieces]
  | cons e l ih =>
    intro c
    obtain ⟨dir, n⟩ := e
    cases l with
    | nil =>
      simp only [pieces, List.map_cons, List.map_nil, List.intersperse, List.append_nil,
        List.length_singleton, reduceCtorEq, false_or, List.cons.injEq, true_and]
      by_cases h : c + 1 = total <;> simp [h]
    | cons e' l =>
      have ih' := ih (c + 1)
      rw [pieces]
      simp only [List.map_cons, List.intersperse, reduceCtorEq, false_or, List.cons.injEq, true_and,
        List.length_cons] at ih' ⊢
      by_cases h : c + 1 = total
      · have : ¬ c + (l.length + 1 + 1) = total := by omega
        simp [h, this, pieces]
      · simp only [ne_eq, h, not_false_eq_true, if_true, List.cons_append, List.nil_append,
          List.cons.injEq, true_and]
        rw [ih']
        omega

theorem names_length_le (md : ModDef) : md.names.length ≤ md.ins.length + md.outs.length := by
  simp only [ModDef.names, List.length_append]
  have := List.length_filter_le (fun n => decide (n ∉ md.ins)) md.outs
  omega

theorem names_length_iff (md : ModDef) :
    md.ins.length + md.outs.length = md.names.length ↔ ∀ n ∈ md.outs, n ∉ md.ins := by
  simp only [ModDef.names, List.length_append]
  constructor
  · intro h
    have h' : (md.outs.filter fun n => decide (n ∉ md.ins)).length = md.outs.length := by omega
    rw [List.length_filter_eq_length_iff] at h'
    intro n hn
    simpa using h' n hn
  · intro h
    have : (md.outs.filter fun n => decide (n ∉ md.ins)) = md.outs :=
      List.filter_eq_self.mpr fun n hn => by simpa using h n hn
    rw [this]

/-- C81: the text of a modport is refused exactly when it lists no signal; otherwise it is the list
of its inputs and outputs, separated, exactly when no signal is listed in both directions. -/
theorem modport_text_iff (md : ModDef) :
    (emitMod md = .throw .user ↔ md.ins = [] ∧ md.outs = []) ∧
    (emitMod md = .ok (spelled md) ↔
      ¬ (md.ins = [] ∧ md.outs = []) ∧ ∀ n ∈ md.outs, n ∉ md.ins) := by
  have hnil : md.names = [] ↔ md.ins = [] ∧ md.outs = [] := by
    constructor
    · intro h
      have : ∀ n, ¬ (n ∈ md.ins ∨ n ∈ md.outs) := fun n hn => by
        have := mem_names.mpr hn; rw [h] at this; cases this
      exact ⟨List.eq_nil_iff_forall_not_mem.mpr fun n hn => this n (Or.inl hn),
        List.eq_nil_iff_forall_not_mem.mpr fun n hn => this n (Or.inr hn)⟩
    · rintro ⟨h1, h2⟩; simp [ModDef.names, h1, h2]
  have hsp : spelled md = ((md.ins.map (fun n => (Dir.inp, n)) ++
      md.outs.map (fun n => (Dir.out, n))).map fun e => Piece.sig e.1 e.2).intersperse .sep := by
    simp [spelled, Function.comp_def]
  simp only [emitMod, ← hnil]
  split
  · rename_i h; simp [h]
  · rename_i h
    refine ⟨by simp [h], ?_⟩
    simp only [Res.ok.injEq, hsp, pieces_iff]
    rw [← names_length_iff]
    simp only [h, not_false_eq_true, true_and, List.append_eq_nil_iff, List.map_eq_nil_iff,
      List.length_append, List.length_map, Nat.zero_add]
    constructor
    · rintro (h' | h')
      · exact absurd (hnil.mpr h') h
      · exact h'
    · exact Or.inr

/-- C81: with a signal listed in both directions the text is malformed: `input aoutput a`. -/
theorem both_text_wrong :
    emitMod ⟨["a"], ["a"]⟩ = .ok [.sig .inp "a", .sig .out "a", .sep] := by decide +kernel

/-- C81: an interface is not emitted when one of its modports lists nothing. -/
theorem empty_modport_refused :
    ∃ d, run (fresh "I") [.var "a" ⟨1, [1]⟩, .modport "M"] = .ok d ∧
      extract [.full d] = .throw .user :=
  ⟨⟨"I", [], [("a", ⟨1, [1]⟩)], [("M", ⟨[], []⟩)]⟩, by decide +kernel, by decide +kernel⟩

theorem emitMods_eq {l : List (String × ModDef)}
    (h : ∀ m md, (m, md) ∈ l → emitMod md = .ok (spelled md)) :
    emitMods l = .ok (l.map fun e => (e.1, spelled e.2)) := by
  induction l with
  | nil => rfl
  | cons e l ih =>
    obtain ⟨m, md⟩ := e
    simp [emitMods, h m md (by simp), ih fun m md hm => h m md (by simp [hm])]

/-- C81: the text of an interface has its ports, its variables and its modports, each spelled as
declared, provided each modport lists something and no signal in both directions. -/
theorem emit_partial {d : Def} (hD : Distinct d)
    (hne : ∀ m md, (m, md) ∈ d.mods → ¬ (md.ins = [] ∧ md.outs = [])) :
    emit d = .ok ⟨d.name, d.ports, d.vars, d.mods.map fun e => (e.1, spelled e.2)⟩ := by
  rw [emit, emitMods_eq, Res.ok_bind]
  intro m md hm
  refine (modport_text_iff md).2.mpr ⟨hne m md hm, fun n hn hi => ?_⟩
  exact (List.nodup_append.mp (hD.2.2 m md hm)).2.2 n hi n hn rfl

example : emit config = .ok ⟨"Config", config.ports, config.vars,
    [("R", [.sig .inp "read", .sep, .sig .inp "clk", .sep, .sig .out "write"])]⟩ := by
  decide +kernel

/-! ## The interfaces of a design -/

theorem sameSet_iff {a b : List String} : sameSet a b = true ↔ ∀ n, n ∈ a ↔ n ∈ b := by
  simp only [sameSet, Bool.and_eq_true, List.all_eq_true, decide_eq_true_eq]
  exact ⟨fun h n => ⟨h.1 n, h.2 n⟩, fun h => ⟨fun n => (h n).mp, fun n => (h n).mpr⟩⟩

theorem same_iff {a b : IDef} : same a b = true ↔ Agree a b := by
  simp only [same, Bool.and_eq_true, sameSet_iff, List.all_eq_true, beq_iff_eq, Agree]
  constructor
  · rintro ⟨⟨⟨h1, h2⟩, h3⟩, h4⟩
    exact ⟨fun n => (h1 n).symm, h2, fun n => (h3 n).symm, h4⟩
  · rintro ⟨h1, h2, h3, h4⟩
    exact ⟨⟨⟨fun n => (h1 n).symm, h2⟩, fun n => (h3 n).symm⟩, h4⟩

theorem Agree.refl (a : IDef) : Agree a a := ⟨fun _ => Iff.rfl, fun _ _ => rfl, fun _ => Iff.rfl,
  fun _ _ => rfl⟩

theorem Agree.symm {a b : IDef} (h : Agree a b) : Agree b a :=
  ⟨fun n => (h.1 n).symm, fun n hn => (h.2.1 n ((h.1 n).mpr hn)).symm, fun n => (h.2.2.1 n).symm,
    fun n hn => (h.2.2.2 n ((h.2.2.1 n).mpr hn)).symm⟩

theorem Agree.trans {a b c : IDef} (h : Agree a b) (h' : Agree b c) : Agree a c :=
  ⟨fun n => (h.1 n).trans (h'.1 n),
    fun n hn => (h.2.1 n hn).trans (h'.2.1 n ((h.1 n).mp hn)),
    fun n => (h.2.2.1 n).trans (h'.2.2.1 n),
    fun n hn => (h.2.2.2 n hn).trans (h'.2.2.2 n ((h.2.2.1 n).mp hn))⟩

theorem collect_sound {uses : List IDef} : ∀ {t t' : List IDef}, collect uses t = .ok t' →
    (t.map IDef.defName).Nodup →
    (t'.map IDef.defName).Nodup ∧ (∀ r ∈ t', r ∈ t ∨ r ∈ uses) ∧ (∀ r ∈ t, r ∈ t') ∧
    ∀ u ∈ uses, ∃ r ∈ t', r.defName = u.defName ∧ Agree u r := by
  induction uses with
  | nil => intro t t' h hn; cases h; exact ⟨hn, fun r h => Or.inl h, fun r h => h, by simp⟩
  | cons u us ih =>
    intro t t' h hn
    simp only [collect] at h
    split at h
    · rename_i hf
      have hnew : ∀ r ∈ t, r.defName ≠ u.defName := by
        intro r hr
        have := List.find?_eq_none.mp hf r hr
        simpa using this
      have hn' : ((t ++ [u]).map IDef.defName).Nodup := by
        simp only [List.map_append, List.map_cons, List.map_nil]
        rw [List.nodup_append]
        refine ⟨hn, by simp, ?_⟩
        intro x hx y hy e
        simp only [List.mem_singleton] at hy
        obtain ⟨r, hr, rfl⟩ := List.mem_map.mp hx
        exact hnew r hr (e.trans hy)
      obtain ⟨a, b, c, e⟩ := ih h hn'
      refine ⟨a, ?_, fun r hr => c r (List.mem_append_left _ hr), ?_⟩
      · intro r hr
        rcases b r hr with h | h
        · rcases List.mem_append.mp h with h | h
          · exact Or.inl h
          · exact Or.inr (by simp at h; simp [h])
        · exact Or.inr (List.mem_cons_of_mem _ h)
      · intro x hx
        rcases List.mem_cons.mp hx with rfl | hx
        · exact ⟨x, c x (by simp), rfl, Agree.refl x⟩
        · exact e x hx
    · rename_i r hf
      split at h
      · rename_i hs
        obtain ⟨a, b, c, e⟩ := ih h hn
        refine ⟨a, fun r hr => (b r hr).imp id (List.mem_cons_of_mem _), c, ?_⟩
        intro x hx
        rcases List.mem_cons.mp hx with rfl | hx
        · refine ⟨r, c r (List.mem_of_find?_eq_some hf), ?_, same_iff.mp hs⟩
          simpa using List.find?_some hf
        · exact e x hx
      · cases h

theorem collect_total {uses : List IDef} : ∀ {t : List IDef},
    (∀ u ∈ uses, ∀ r ∈ uses ++ t, r.defName = u.defName → Agree u r) →
    ∃ t', collect uses t = .ok t' := by
  induction uses with
  | nil => intro t _; exact ⟨t, rfl⟩
  | cons u us ih =>
    intro t h
    simp only [collect]
    split
    · apply ih
      intro x hx r hr he
      refine h x (List.mem_cons_of_mem _ hx) r ?_ he
      simp only [List.mem_append, List.mem_singleton, List.mem_cons] at hr ⊢
      rcases hr with hr | hr | hr
      · exact Or.inl (Or.inr hr)
      · exact Or.inr hr
      · exact Or.inl (Or.inl (by simpa using hr))
    · rename_i r hf
      have hr : r.defName = u.defName := by simpa using List.find?_some hf
      have := h u (by simp) r (List.mem_append_right _ (List.mem_of_find?_eq_some hf)) hr
      rw [if_pos (same_iff.mpr this)]
      apply ih
      intro x hx r hr he
      refine h x (List.mem_cons_of_mem _ hx) r ?_ he
      simp only [List.mem_append, List.mem_cons] at hr ⊢
      exact hr.imp Or.inr id

theorem uniq {t : List IDef} (hn : (t.map IDef.defName).Nodup) {ra rb : IDef} (hra : ra ∈ t)
    (hrb : rb ∈ t) (heq : ra.defName = rb.defName) : ra = rb := by
  induction t with
  | nil => cases hra
  | cons x t ih =>
    simp only [List.map_cons, List.nodup_cons] at hn
    rcases List.mem_cons.mp hra with rfl | hra' <;> rcases List.mem_cons.mp hrb with rfl | hrb'
    · rfl
    · exact absurd (List.mem_map.mpr ⟨_, hrb', heq.symm⟩) hn.1
    · exact absurd (List.mem_map.mpr ⟨_, hra', heq⟩) hn.1
    · exact ih hn.2 hra' hrb'

/-- C81: in whatever order the uses are visited, the interfaces of a design are accepted exactly
when any two uses of the same name agree on the ports, with their shape, and on the variables. -/
theorem collect_iff (uses : List IDef) :
    (∃ t, collect uses [] = .ok t) ↔
      ∀ a ∈ uses, ∀ b ∈ uses, a.defName = b.defName → Agree a b := by
  constructor
  · rintro ⟨t, h⟩ a ha b hb e
    obtain ⟨hn, _, _, hc⟩ := collect_sound h (by simp)
    obtain ⟨ra, hra, ea, aa⟩ := hc a ha
    obtain ⟨rb, hrb, eb, ab⟩ := hc b hb
    have heq : ra.defName = rb.defName := ea.trans (e.trans eb.symm)
    have : ra = rb := uniq hn hra hrb heq
    exact aa.trans (this ▸ ab.symm)
  · intro h
    exact collect_total fun u hu r hr e => h u hu r (by simpa using hr) e.symm

theorem emitAll_ok {t : List IDef} {out : List Decl} (h : emitAll t = .ok out) :
    (∀ d, IDef.full d ∈ t → ∃ x ∈ out, emit d = .ok x) ∧
    (∀ x ∈ out, ∃ d, IDef.full d ∈ t ∧ emit d = .ok x) := by
  induction t generalizing out with
  | nil => cases h; simp
  | cons u t ih =>
    cases u with
    | mod d m md =>
      simp only [emitAll] at h
      obtain ⟨a, b⟩ := ih h
      refine ⟨fun d hd => a d (by simpa using hd), fun x hx => ?_⟩
      obtain ⟨d, hd, e⟩ := b x hx
      exact ⟨d, List.mem_cons_of_mem _ hd, e⟩
    | full d =>
      simp only [emitAll, Res.bind_eq_ok, Res.ok.injEq] at h
      obtain ⟨x, hx, r, hr, rfl⟩ := h
      obtain ⟨a, b⟩ := ih hr
      refine ⟨fun d' hd => ?_, fun y hy => ?_⟩
      · rcases List.mem_cons.mp hd with e | hd
        · cases e; exact ⟨x, by simp, hx⟩
        · obtain ⟨y, hy, e⟩ := a d' hd
          exact ⟨y, List.mem_cons_of_mem _ hy, e⟩
      · rcases List.mem_cons.mp hy with rfl | hy
        · exact ⟨d, by simp, hx⟩
        · obtain ⟨d', hd, e⟩ := b y hy
          exact ⟨d', List.mem_cons_of_mem _ hd, e⟩

theorem emit_fields {d : Def} {x : Decl} (h : emit d = .ok x) :
    x.name = d.name ∧ x.ports = d.ports ∧ x.vars = d.vars := by
  simp only [emit, Res.bind_eq_ok, Res.ok.injEq] at h
  obtain ⟨ms, _, rfl⟩ := h
  exact ⟨rfl, rfl, rfl⟩

theorem agree_mem {a b : Def} (ha : (a.ports.map (·.1)).Nodup ∧ (a.vars.map (·.1)).Nodup)
    (hb : (b.ports.map (·.1)).Nodup ∧ (b.vars.map (·.1)).Nodup) (h : Agree (.full a) (.full b)) :
    (∀ e, e ∈ b.ports ↔ e ∈ a.ports) ∧ ∀ e, e ∈ b.vars ↔ e ∈ a.vars := by
  obtain ⟨h1, h2, h3, h4⟩ := h
  simp only [IDef.portNames, IDef.varNames, IDef.portOf, IDef.varOf] at h1 h2 h3 h4
  refine ⟨fun ⟨n, p⟩ => ⟨fun he => ?_, fun he => ?_⟩, fun ⟨n, p⟩ => ⟨fun he => ?_, fun he => ?_⟩⟩
  · have hn := (h1 n).mpr (List.mem_map.mpr ⟨_, he, rfl⟩)
    exact get_mem ((h2 n hn).trans (get_of_mem hb.1 he))
  · have hn : n ∈ a.ports.map (·.1) := List.mem_map.mpr ⟨_, he, rfl⟩
    exact get_mem ((h2 n hn).symm.trans (get_of_mem ha.1 he))
  · have hn := (h3 n).mpr (List.mem_map.mpr ⟨_, he, rfl⟩)
    exact get_mem ((h4 n hn).trans (get_of_mem hb.2 he))
  · have hn : n ∈ a.vars.map (·.1) := List.mem_map.mpr ⟨_, he, rfl⟩
    exact get_mem ((h4 n hn).symm.trans (get_of_mem ha.2 he))

/-- C81: when the interfaces of a design are emitted, every interface used as a whole is emitted
under its name with its ports and its variables, and nothing else is emitted. -/
theorem extract_partial {uses : List IDef} {out : List Decl} (h : extract uses = .ok out)
    (hr : ∀ d, IDef.full d ∈ uses → ∃ name ops, run (fresh name) ops = .ok d) :
    (∀ d, IDef.full d ∈ uses → ∃ x ∈ out, x.name = d.name ∧
      (∀ e, e ∈ x.ports ↔ e ∈ d.ports) ∧ (∀ e, e ∈ x.vars ↔ e ∈ d.vars)) ∧
    (∀ x ∈ out, ∃ d, IDef.full d ∈ uses ∧ emit d = .ok x) := by
  simp only [extract, Res.bind_eq_ok] at h
  obtain ⟨t, ht, ho⟩ := h
  obtain ⟨_, hfrom, _, hc⟩ := collect_sound ht (by simp)
  obtain ⟨a, b⟩ := emitAll_ok ho
  have nod : ∀ d, IDef.full d ∈ uses →
      (d.ports.map (·.1)).Nodup ∧ (d.vars.map (·.1)).Nodup := by
    intro d hd
    obtain ⟨name, ops, hrun⟩ := hr d hd
    exact ⟨(hist_of_run hrun).nports, (hist_of_run hrun).nvars⟩
  refine ⟨fun d hd => ?_, fun x hx => ?_⟩
  · obtain ⟨r, hrt, hname, hag⟩ := hc _ hd
    cases r with
    | mod d' m md => simp [IDef.defName] at hname
    | full d' =>
      have hd' : IDef.full d' ∈ uses := (hfrom _ hrt).resolve_left (by simp)
      obtain ⟨x, hx, he⟩ := a d' hrt
      obtain ⟨e1, e2, e3⟩ := emit_fields he
      have hm := agree_mem (nod d hd) (nod d' hd') hag
      refine ⟨x, hx, ?_, ?_, ?_⟩
      · rw [e1]; simpa [IDef.defName] using hname
      · rw [e2]; exact hm.1
      · rw [e3]; exact hm.2
  · obtain ⟨d, hd, e⟩ := b x hx
    exact ⟨d, (hfrom _ hd).resolve_left (by simp), e⟩

example : ∃ out, extract [.full config, .mod config "R" ⟨["read", "clk"], ["write"]⟩, .full config]
    = .ok out ∧ out.length = 1 :=
  ⟨[⟨"Config", config.ports, config.vars,
    [("R", [.sig .inp "read", .sep, .sig .inp "clk", .sep, .sig .out "write"])]⟩],
    by decide +kernel, rfl⟩

/-- C81: of two interfaces of the same name that differ in their modports only, one loses its
modports. -/
theorem modports_lost :
    ∃ a b out, run (fresh "I") [.var "x" ⟨1, [1]⟩, .modport "M", .setIn "M" "x"] = .ok a ∧
      run (fresh "I") [.var "x" ⟨1, [1]⟩, .modport "N", .setOut "N" "x"] = .ok b ∧
      extract [.full a, .full b, .mod b "N" ⟨[], ["x"]⟩] = .ok out ∧
      ∀ x ∈ out, "N" ∉ x.mods.map (·.1) :=
  ⟨⟨"I", [], [("x", ⟨1, [1]⟩)], [("M", ⟨["x"], []⟩)]⟩,
   ⟨"I", [], [("x", ⟨1, [1]⟩)], [("N", ⟨[], ["x"]⟩)]⟩,
   [⟨"I", [], [("x", ⟨1, [1]⟩)], [("M", [.sig .inp "x"])]⟩],
   by decide +kernel, by decide +kernel, by decide +kernel, by decide +kernel⟩

/-- C81: an interface of which a design uses only modports is not emitted at all. -/
theorem modport_only_lost : extract [.mod config "R" ⟨["read", "clk"], ["write"]⟩] = .ok [] := by
  decide +kernel

theorem not_EmitClaim : ¬ EmitClaim := by
  intro h
  obtain ⟨x, hx, _⟩ := h _ _ modport_only_lost _ (List.mem_singleton.mpr rfl)
  cases hx

/-! ## Names in a generator -/

/-- The instances listed in a module header, after walking the port names. -/
theorem mem_header {l : List Key} : ∀ {acc : List String} {i : String},
    i ∈ header l acc ↔ i ∈ acc ∨ ∃ n, Key.field i n ∈ l := by
  induction l with
  | nil => intro acc i; simp [header]
  | cons k l ih =>
    intro acc i
    cases k with
    | plain n => simp [header, ih]
    | field j n =>
      simp only [header, ih, List.mem_cons]
      constructor
      · rintro (h | ⟨n', h⟩)
        · split at h
          · exact Or.inl h
          · rcases List.mem_append.mp h with h | h
            · exact Or.inl h
            · simp only [List.mem_singleton] at h
              subst h
              exact Or.inr ⟨n, Or.inl rfl⟩
        · exact Or.inr ⟨n', Or.inr h⟩
      · rintro (h | ⟨n', h | h⟩)
        · left; split
          · exact h
          · exact List.mem_append_left _ h
        · cases h
          left; split
          · assumption
          · simp
        · exact Or.inr ⟨n', h⟩

theorem nodup_header {l : List Key} : ∀ {acc : List String}, acc.Nodup → (header l acc).Nodup := by
  induction l with
  | nil => intro acc h; simpa [header] using h
  | cons k l ih =>
    intro acc h
    cases k with
    | plain n => simpa [header] using ih h
    | field j n =>
      simp only [header]
      apply ih
      split
      · exact h
      · rename_i hj
        rw [List.nodup_append]
        refine ⟨h, by simp, ?_⟩
        intro a ha b hb e
        simp only [List.mem_singleton] at hb
        exact hj (hb ▸ e ▸ ha)

theorem emplace_ports (g : Gen) (k : Key) (b : Bool) : (g.emplace k b).ports = g.ports := by
  unfold Gen.emplace; split <;> rfl

theorem emplace_ifaces (g : Gen) (k : Key) (b : Bool) : (g.emplace k b).ifaces = g.ifaces := by
  unfold Gen.emplace; split <;> rfl

theorem emplaces_keep (i : String) (ns : List String) : ∀ g : Gen,
    (ns.foldl (fun g n => g.emplace (.field i n) false) g).ports = g.ports ∧
    (ns.foldl (fun g n => g.emplace (.field i n) false) g).ifaces = g.ifaces := by
  induction ns with
  | nil => intro g; exact ⟨rfl, rfl⟩
  | cons n ns ih =>
    intro g
    simp only [List.foldl_cons, ih, emplace_ports, emplace_ifaces, and_self]

theorem addPorts_ports {i : String} {isPort : Bool} {ns : List String} : ∀ {g g' : Gen},
    addPorts i isPort ns g = .ok g' → g'.ifaces = g.ifaces ∧
      ∀ k, k ∈ g'.ports ↔ k ∈ g.ports ∨ (isPort = true ∧ ∃ n ∈ ns, k = .field i n) := by
  induction ns with
  | nil => intro g g' h; cases h; simp
  | cons n ns ih =>
    intro g g' h
    simp only [addPorts] at h
    split at h
    · rename_i hp
      simp only [Res.bind_eq_ok] at h
      obtain ⟨g1, h1, h2⟩ := h
      obtain ⟨a, b⟩ := ih h2
      simp only [addPortName] at h1
      split at h1
      · cases h1
      · cases h1
        rw [emplace_ifaces] at a
        refine ⟨a, fun k => ?_⟩
        rw [b, emplace_ports]
        simp only [List.mem_append, List.mem_cons, List.not_mem_nil, or_false, hp, true_and]
        constructor
        · rintro ((h | h) | ⟨m, hm, h⟩)
          · exact Or.inl h
          · exact Or.inr ⟨n, Or.inl rfl, h⟩
          · exact Or.inr ⟨m, Or.inr hm, h⟩
        · rintro (h | ⟨m, rfl | hm, h⟩)
          · exact Or.inl (Or.inl h)
          · exact Or.inl (Or.inr h)
          · exact Or.inr ⟨m, hm, h⟩
    · rename_i hp
      obtain ⟨a, b⟩ := ih h
      rw [emplace_ifaces] at a
      refine ⟨a, fun k => ?_⟩
      rw [b, emplace_ports]
      simp [hp]

/-- C81: the header of a module lists each of its port interfaces once, and no other instance; but
only if it has at least one port. -/
theorem header_partial {g g' : Gen} {i : String} {d : IDef} {isPort : Bool}
    (h : addIface g i d isPort = .ok g') (hg : ∀ n, Key.field i n ∉ g.ports) :
    (i ∈ header g'.ports [] ↔ isPort = true ∧ d.portNames ≠ []) ∧
    (header g'.ports []).count i ≤ 1 ∧
    ∀ j, j ≠ i → (j ∈ header g'.ports [] ↔ j ∈ header g.ports []) := by
  simp only [addIface] at h
  split at h
  · cases h
  · split at h
    · cases h
    · simp only [Res.bind_eq_ok, Res.ok.injEq] at h
      obtain ⟨g2, h2, rfl⟩ := h
      obtain ⟨_, hp⟩ := addPorts_ports h2
      have hk := (emplaces_keep i d.varNames g).1
      refine ⟨?_, ?_, ?_⟩
      · simp only [mem_header, hp, hk]
        constructor
        · rintro (h | ⟨n, h | ⟨hp', m, hm, e⟩⟩)
          · cases h
          · exact absurd h (hg n)
          · exact ⟨hp', fun e => by rw [e] at hm; cases hm⟩
        · rintro ⟨hp', hne⟩
          obtain ⟨n, hn⟩ := List.exists_mem_of_ne_nil _ hne
          exact Or.inr ⟨n, Or.inr ⟨hp', n, hn, rfl⟩⟩
      · exact List.nodup_iff_count.mp (nodup_header List.nodup_nil) i
      · intro j hj
        simp only [mem_header, hp, hk]
        constructor
        · rintro (h | ⟨n, h | ⟨_, m, _, e⟩⟩)
          · cases h
          · exact Or.inr ⟨n, h⟩
          · cases e; exact absurd rfl hj
        · rintro (h | ⟨n, h⟩)
          · cases h
          · exact Or.inr ⟨n, Or.inl h⟩

/-- C81: a port interface that has only variables is missing from the header of its module. -/
theorem variables_header_lost :
    ∃ d g, run (fresh "I") [.var "x" ⟨1, [1]⟩] = .ok d ∧
      addIface ⟨[], [], []⟩ "bus" (.full d) true = .ok g ∧ "bus" ∈ g.ifaces ∧
      header g.ports [] = [] :=
  ⟨⟨"I", [], [("x", ⟨1, [1]⟩)], []⟩, ⟨[(.field "bus" "x", false)], [], ["bus"]⟩,
   by decide +kernel, by decide +kernel, by decide, by decide +kernel⟩

/-- C81: an interface is refused when its name is taken by a variable, a port or an interface. -/
theorem name_refused (g : Gen) (i : String) (d : IDef) (isPort : Bool)
    (h : (∃ b, (Key.plain i, b) ∈ g.vars) ∨ i ∈ g.ifaces) :
    ∃ e, addIface g i d isPort = .throw e := by
  unfold addIface
  by_cases h1 : g.has (.plain i) = true
  · exact ⟨_, by rw [if_pos h1]⟩
  · rw [if_neg h1]
    rcases h with ⟨b, hb⟩ | h
    · exact absurd (List.any_eq_true.mpr ⟨_, hb, by simp⟩) h1
    · exact ⟨_, by rw [if_pos h]⟩

/-- C81: but a variable may take the name of an interface, which declares the name twice. -/
theorem name_reuse_wrong :
    ∃ g, addIface ⟨[], [], []⟩ "bus" (.full config) false = .ok g ∧
      "bus" ∈ (addVar g "bus").ifaces ∧ (addVar g "bus").has (.plain "bus") = true :=
  ⟨⟨[(.field "bus" "read", false), (.field "bus" "write", false), (.field "bus" "clk", true)], [],
    ["bus"]⟩, by decide +kernel, by decide +kernel, by decide +kernel⟩

/-- C81: with a name that is both a port and a variable of a port interface, reading the port
through the generator is undefined. -/
theorem clash_ub :
    ∃ d g, run (fresh "I") [.var "a" ⟨1, [1]⟩, .port "a" ⟨1, [1], .inp, 0⟩] = .ok d ∧
      addIface ⟨[], [], []⟩ "bus" (.full d) true = .ok g ∧
      getPort g (.field "bus" "a") = .ub :=
  ⟨⟨"I", [("a", ⟨1, [1], .inp, 0⟩)], [("a", ⟨1, [1]⟩)], []⟩,
   ⟨[(.field "bus" "a", false)], [.field "bus" "a"], ["bus"]⟩,
   by decide +kernel, by decide +kernel, by decide +kernel⟩

end Kratos.Iface
