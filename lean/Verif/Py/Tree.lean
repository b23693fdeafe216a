import Verif.Gen.ChildrenProps

/-!
# The instance table of the Python interface

`Generator.__getitem__`, `add_child_generator`, `remove_child_generator`, `replace` and the
attribute `instance_name` of kratos/generator.py keep a dictionary of children and a parent
reference of their own beside the tables of the library.  Model of kratos/generator.py:283-332,
798-881.  The library side is the model of `Verif/Gen/Children.lean`.  Left out: copies
(`is_cloned`), `python_only`, the wiring given as keyword arguments, comments and debug
information.
-/

namespace Kratos.PyTree
open Kratos.Gen

/-- The library's tables, `self.__child_generator` and `self.__parent` of every generator. -/
structure S where
  core : Forest
  kids : Nat → Map Name Nat
  parent : Nat → Option Nat

/-- `add_child_generator`, kratos/generator.py:798-829: the dictionary and the parent are set
before the library is called; the assignment to `instance_name` of the library object
(python/kratos_generator.cc:241-251) comes before the insertion. -/
def add (s : S) (p : Nat) (n : Name) (c : Nat) : S × Res Unit :=
  if (s.kids p).has n then (s, .throw .user)
  else
    let s1 : S := { s with kids := updN s.kids p ((s.kids p).put n c),
                           parent := updN s.parent c (some p) }
    match setInstName s.core c n with
    | (F, .ok ()) => ({ s1 with core := (addChild F p n c).1 }, (addChild F p n c).2)
    | (F, x) => ({ s1 with core := F }, x)

/-- The setter of `instance_name`, kratos/generator.py:326-333.  `pop` removes the entry before the
assertion compares it. -/
def rename (s : S) (c : Nat) (n : Name) : S × Res Unit :=
  match s.parent c with
  | none => ({ s with core := (setInstName s.core c n).1 }, (setInstName s.core c n).2)
  | some p =>
    match (s.kids p).find (s.core.inst c) with
    | none => (s, .throw .outOfRange)
    | some x =>
      if x ≠ c then
        ({ s with kids := updN s.kids p ((s.kids p).erase (s.core.inst c)) }, .throw .user)
      else
        ({ s with kids := updN s.kids p (((s.kids p).erase (s.core.inst c)).put n c),
                  core := (setInstName s.core c n).1 }, (setInstName s.core c n).2)

/-- `replace`, kratos/generator.py:864-872; `ok` says whether the ports of the two agree. -/
def replace (s : S) (p : Nat) (n : Name) (c : Nat) (ok : Bool) : S × Res Unit :=
  if !(s.kids p).has n then (s, .throw .user)
  else
    match replaceChild s.core p n c ok with
    | (F, .ok ()) => ({ s with core := F, kids := updN s.kids p ((s.kids p).put n c) }, .ok ())
    | (F, x) => ({ s with core := F }, x)

/-- `remove_child_generator`, kratos/generator.py:853-862. -/
def remove (s : S) (p c : Nat) : S × Res Unit :=
  if !(s.kids p).has (s.core.inst c) then (s, .throw .user)
  else ({ s with kids := updN s.kids p ((s.kids p).erase (s.core.inst c)),
                 core := removeChild s.core p c }, .ok ())

/-- `p[n]`, kratos/generator.py:284-294. -/
def getItem (s : S) (p : Nat) (n : Name) : Res Nat :=
  match (s.kids p).find n with
  | none => .throw .user
  | some c => .ok c

/-- The calls of the Python interface. -/
inductive Op where
  | add (p : Nat) (n : Name) (c : Nat)
  | rename (c : Nat) (n : Name)
  | replace (p : Nat) (n : Name) (c : Nat) (ok : Bool)
  | remove (p c : Nat)
  deriving DecidableEq, Repr

def step (s : S) : Op → S × Res Unit
  | .add p n c => add s p n c
  | .rename c n => rename s c n
  | .replace p n c ok => replace s p n c ok
  | .remove p c => remove s p c

/-- The state after a history of calls; an exception is caught by the user and does not end it. -/
def run (s : S) : List Op → S
  | [] => s
  | o :: os => run (step s o).1 os

/-- Generators just made: each has some instance name, none has a parent. -/
def start (inst : Nat → Name) : S := ⟨bare inst, fun _ => [], fun _ => none⟩

/-! ## Specification -/

/-- What `get_child_generator` of the library says (src/generator.cc:429-433). -/
def Holds (s : S) (p : Nat) (n : Name) (c : Nat) : Prop := (s.core.kids p).find n = some c

/-- Python finds under a name exactly the instance the library holds under it. -/
def InStep (s : S) : Prop := ∀ p n c, getItem s p n = .ok c ↔ Holds s p n c

/-- All calls of the history return without an exception. -/
def Quiet (s : S) : List Op → Prop
  | [] => True
  | o :: os => (step s o).2 = .ok () ∧ Quiet (step s o).1 os

/-- The claim: after any history of calls that returned, the two agree. -/
def TableClaim : Prop :=
  ∀ (inst : Nat → Name) (os : List Op), Quiet (start inst) os → InStep (run (start inst) os)

/-- The second claim: the same when some calls raised exceptions. -/
def RaisingClaim : Prop :=
  ∀ (inst : Nat → Name) (os : List Op), InStep (run (start inst) os)

/-- `c` has been given to a parent in the calls so far. -/
def Placed (c : Nat) (past : List Op) : Prop :=
  ∃ o ∈ past, (∃ p n, o = .add p n c) ∨ ∃ p n ok, o = .replace p n c ok

/-- `c` came in by `replace` in the calls so far. -/
def CameByReplace (c : Nat) (past : List Op) : Prop := ∃ p n ok, Op.replace p n c ok ∈ past

/-- Orderly use in one call: only a generator without parent is placed; only a child is removed from
a parent; what is renamed is a child that was not put in by `replace`, to a name no sibling has, or
was never placed. -/
def Orderly (past : List Op) (s : S) : Op → Prop
  | .add _ _ c => s.core.parent c = none
  | .replace _ _ c _ => s.core.parent c = none
  | .remove p c => s.core.parent c = some p
  | .rename c n =>
    ¬ Placed c past ∨
    (¬ CameByReplace c past ∧ ∃ p, s.core.parent c = some p ∧ ∀ d, ¬ Holds s p n d)

/-- Orderly use in every call of a history that follows `past`. -/
def OrderlyAll (past : List Op) (s : S) : List Op → Prop
  | [] => True
  | o :: os => Orderly past s o ∧ OrderlyAll (past ++ [o]) (step s o).1 os

/-! ## The invariant -/

structure Inv (past : List Op) (s : S) : Prop where
  sib : Sib s.core
  same : ∀ p n, (s.kids p).find n = (s.core.kids p).find n
  mine : ∀ c p, ¬ CameByReplace c past → s.core.parent c = some p → s.parent c = some p
  never : ∀ c, ¬ Placed c past → s.core.parent c = none ∧ s.parent c = none

theorem CameByReplace.more {c : Nat} {past : List Op} (o : Op) (h : CameByReplace c past) :
    CameByReplace c (past ++ [o]) := by
  obtain ⟨p, n, ok, h⟩ := h
  exact ⟨p, n, ok, List.mem_append_left _ h⟩

theorem Placed.more {c : Nat} {past : List Op} (o : Op) (h : Placed c past) :
    Placed c (past ++ [o]) := by
  obtain ⟨x, hx, h⟩ := h
  exact ⟨x, List.mem_append_left _ hx, h⟩

theorem placed_add (p : Nat) (n : Name) (c : Nat) (past : List Op) :
    Placed c (past ++ [.add p n c]) :=
  ⟨_, List.mem_append_right _ List.mem_cons_self, .inl ⟨p, n, rfl⟩⟩

theorem placed_replace (p : Nat) (n : Name) (c : Nat) (ok : Bool) (past : List Op) :
    Placed c (past ++ [.replace p n c ok]) :=
  ⟨_, List.mem_append_right _ List.mem_cons_self, .inr ⟨p, n, ok, rfl⟩⟩

theorem came_replace (p : Nat) (n : Name) (c : Nat) (ok : Bool) (past : List Op) :
    CameByReplace c (past ++ [.replace p n c ok]) :=
  ⟨p, n, ok, List.mem_append_right _ List.mem_cons_self⟩

theorem Inv.more {past : List Op} {s : S} (h : Inv past s) (o : Op) : Inv (past ++ [o]) s :=
  ⟨h.sib, h.same, fun c p hc => h.mine c p fun x => hc (x.more o),
    fun c hc => h.never c fun x => hc (x.more o)⟩

theorem Inv.has {past : List Op} {s : S} (h : Inv past s) (p : Nat) (n : Name) :
    (s.kids p).has n = (s.core.kids p).has n := by
  unfold Map.has; rw [h.same]

theorem free_of {F : Forest} (h : Sib F) {c : Nat} (hc : F.parent c = none) : Free F c := by
  intro p n hf
  rw [h.par p n c hf] at hc
  cases hc

theorem find_none {m : Map Name Nat} {n : Name} (h : ¬ m.has n = true) : m.find n = none := by
  unfold Map.has at h
  cases hf : m.find n with
  | none => rfl
  | some x => rw [hf] at h; exact absurd rfl h

theorem inv_add {past : List Op} {s : S} (h : Inv past s) {p : Nat} {n : Name} {c : Nat}
    (hc : s.core.parent c = none) : Inv (past ++ [.add p n c]) (add s p n c).1 := by
  unfold add
  split
  · exact h.more _
  · rename_i hn
    have hset : setInstName s.core c n = ({ s.core with inst := updN s.core.inst c n }, .ok ()) := by
      unfold setInstName; rw [hc]
    have hsib : Sib { s.core with inst := updN s.core.inst c n } := by
      have := h.sib.step (.setName c n) trivial
      rw [fstep, hset] at this
      exact this
    have hfree : Free { s.core with inst := updN s.core.inst c n } c := free_of hsib hc
    have hcn : ¬ (s.core.kids p).has n = true := by rw [← h.has]; exact hn
    have hadd : (addChild { s.core with inst := updN s.core.inst c n } p n c).1 =
        { inst := updN (updN s.core.inst c n) c n,
          kids := updN s.core.kids p ((s.core.kids p).emplace n c),
          parent := updN s.core.parent c (some p),
          order := updN s.core.order p (s.core.order p ++ [n]) } := by
      unfold addChild
      simp only [if_neg hcn]
    have hsib2 := hsib.add p n hfree
    rw [hset]
    simp only
    refine ⟨hsib2, ?_, ?_, ?_⟩
    · intro q m
      simp only [hadd]
      by_cases hq : q = p
      · subst hq
        rw [updN_self, updN_self, Map.find_put, Map.find_emplace, find_none hcn, h.same]
        rfl
      · rw [updN_ne _ _ hq, updN_ne _ _ hq, h.same]
    · intro d q hd hp
      simp only [hadd] at hp ⊢
      by_cases hdc : d = c
      · subst hdc
        rw [updN_self] at hp ⊢
        exact hp
      · rw [updN_ne _ _ hdc] at hp ⊢
        exact h.mine d q (fun x => hd (x.more _)) hp
    · intro d hd
      have hdc : d ≠ c := by rintro rfl; exact hd (placed_add p n d past)
      simp only [hadd]
      rw [updN_ne _ _ hdc, updN_ne _ _ hdc]
      exact h.never d fun x => hd (x.more _)

theorem inv_rename {past : List Op} {s : S} (h : Inv past s) {c : Nat} {n : Name}
    (ho : Orderly past s (.rename c n)) : Inv (past ++ [.rename c n]) (rename s c n).1 := by
  have hsib : Sib (setInstName s.core c n).1 := h.sib.step (.setName c n) trivial
  rcases ho with hp | ⟨hr, p, hp, hfree⟩
  · obtain ⟨h1, h2⟩ := h.never c hp
    have hset : setInstName s.core c n = ({ s.core with inst := updN s.core.inst c n }, .ok ()) := by
      unfold setInstName; rw [h1]
    rw [hset] at hsib
    unfold rename
    rw [h2]
    simp only [hset]
    exact (Inv.more (s := { s with core := { s.core with inst := updN s.core.inst c n } })
      ⟨hsib, h.same, h.mine, h.never⟩ _)
  · have hown := h.sib.reg p c hp
    have hnone : (s.core.kids p).find n = none := by
      cases hf : (s.core.kids p).find n with
      | none => rfl
      | some d => exact absurd hf (hfree d)
    have hnh : ¬ (s.core.kids p).has n = true := by simp [Map.has, hnone]
    have hin : s.core.inst c ∈ s.core.order p := by rw [h.sib.same]; simp [Map.has, hown]
    have hset : (setInstName s.core c n).1 =
        { s.core with kids := updN s.core.kids p (((s.core.kids p).erase (s.core.inst c)).emplace n c),
                      order := updN s.core.order p ((s.core.order p).replace (s.core.inst c) n),
                      inst := updN s.core.inst c n } := by
      unfold setInstName renameChild
      simp only [hp, hown, if_neg hnh, List.contains_iff_mem.2 hin, if_true]
    unfold rename
    simp only [h.mine c p hr hp, h.same, hown, ne_eq, not_true, if_false]
    refine ⟨hsib, ?_, ?_, ?_⟩
    · intro q m
      simp only [hset]
      by_cases hq : q = p
      · subst hq
        rw [updN_self, updN_self, Map.find_put, Map.find_emplace, Map.find_erase, Map.find_erase,
          Map.find_erase, h.same, hnone]
        by_cases hm : m = n
        · subst hm; simp
        · simp [hm]
      · rw [updN_ne _ _ hq, updN_ne _ _ hq, h.same]
    · intro d q hd hq
      simp only [hset] at hq
      exact h.mine d q (fun x => hd (x.more _)) hq
    · intro d hd
      simp only [hset]
      exact h.never d fun x => hd (x.more _)

theorem inv_replace {past : List Op} {s : S} (h : Inv past s) {p : Nat} {n : Name} {c : Nat}
    {ok : Bool} (hc : s.core.parent c = none) :
    Inv (past ++ [.replace p n c ok]) (replace s p n c ok).1 := by
  unfold replace
  split
  · exact h.more _
  · rename_i hn
    have hn : (s.core.kids p).has n = true := by rw [← h.has]; simpa using hn
    obtain ⟨old, hold⟩ : ∃ old, (s.core.kids p).find n = some old := by
      simp only [Map.has, Option.isSome_iff_exists] at hn; exact hn
    have hpar := h.sib.par p n old hold
    have hown := h.sib.own p n old hold
    have hne : old ≠ c := by rintro rfl; rw [hpar] at hc; cases hc
    have hsafe : (FOp.replace p n c ok).safe s.core := by
      refine ⟨free_of h.sib hc, fun o ho => ?_⟩
      rw [hold] at ho
      simp only [Option.some.injEq] at ho
      subst ho
      exact hne
    have hsib := h.sib.step _ hsafe
    cases ok with
    | false =>
      have hr : replaceChild s.core p n c false =
          ({ s.core with inst := updN s.core.inst c n }, .throw .var) := by
        simp [replaceChild, hold]
      rw [fstep, hr] at hsib
      rw [hr]
      exact (Inv.more (s := { s with core := { s.core with inst := updN s.core.inst c n } })
        ⟨hsib, h.same, h.mine, h.never⟩ _)
    | true =>
      have hin : n ∈ s.core.order p := by rw [h.sib.same]; exact hn
      have hr : replaceChild s.core p n c true =
          ({ inst := updN (updN s.core.inst c n) c n,
             kids := updN (updN s.core.kids p ((s.core.kids p).erase n)) p
               (((s.core.kids p).erase n).emplace n c),
             parent := updN (updN s.core.parent old none) c (some p),
             order := updN (updN s.core.order p ((s.core.order p).erase n)) p
               (((s.core.order p).erase n) ++ [n]) }, .ok ()) := by
        have hio : updN s.core.inst c n old = n := by rw [updN_ne _ _ hne]; exact hown
        have hhas : ((s.core.kids p).erase n).has n = false := by simp [has_erase]
        simp only [replaceChild, hold, if_true, removeChild, hio, List.contains_iff_mem.2 hin,
          addChild, updN_self, hhas, Bool.false_eq_true, if_false]
      rw [fstep, hr] at hsib
      rw [hr]
      simp only at hsib ⊢
      refine ⟨hsib, ?_, ?_, ?_⟩
      · intro q m
        simp only
        by_cases hq : q = p
        · subst hq
          rw [updN_self, updN_self, Map.find_put, Map.find_emplace, Map.find_erase, Map.find_erase,
            h.same]
          by_cases hm : m = n <;> simp [hm]
        · rw [updN_ne _ _ hq, updN_ne _ _ hq, updN_ne _ _ hq, h.same]
      · intro d q hd hq
        have hdc : d ≠ c := by rintro rfl; exact hd (came_replace p n d true past)
        simp only at hq
        rw [updN_ne _ _ hdc] at hq
        by_cases hdo : d = old
        · subst hdo; rw [updN_self] at hq; cases hq
        · rw [updN_ne _ _ hdo] at hq
          exact h.mine d q (fun x => hd (x.more _)) hq
      · intro d hd
        have hdc : d ≠ c := by rintro rfl; exact hd (placed_replace p n d true past)
        obtain ⟨a, b⟩ := h.never d fun x => hd (x.more _)
        simp only
        rw [updN_ne _ _ hdc]
        by_cases hdo : d = old
        · subst hdo; rw [updN_self]; exact ⟨rfl, b⟩
        · rw [updN_ne _ _ hdo]; exact ⟨a, b⟩

theorem inv_remove {past : List Op} {s : S} (h : Inv past s) {p c : Nat}
    (hc : s.core.parent c = some p) : Inv (past ++ [.remove p c]) (remove s p c).1 := by
  have hown := h.sib.reg p c hc
  have hin : s.core.inst c ∈ s.core.order p := by rw [h.sib.same]; simp [Map.has, hown]
  have hsib := (h.sib.remove (p := p) (c := c) hown).1
  have hr : removeChild s.core p c =
      { s.core with order := updN s.core.order p ((s.core.order p).erase (s.core.inst c)),
                    kids := updN s.core.kids p ((s.core.kids p).erase (s.core.inst c)),
                    parent := updN s.core.parent c none } := by
    unfold removeChild
    rw [if_pos (List.contains_iff_mem.2 hin)]
  unfold remove
  split
  · exact h.more _
  · rw [hr] at hsib ⊢
    refine ⟨hsib, ?_, ?_, ?_⟩
    · intro q m
      simp only
      by_cases hq : q = p
      · subst hq
        rw [updN_self, updN_self, Map.find_erase, Map.find_erase, h.same]
      · rw [updN_ne _ _ hq, updN_ne _ _ hq, h.same]
    · intro d q hd hq
      simp only at hq
      by_cases hdc : d = c
      · subst hdc; rw [updN_self] at hq; cases hq
      · rw [updN_ne _ _ hdc] at hq
        exact h.mine d q (fun x => hd (x.more _)) hq
    · intro d hd
      obtain ⟨a, b⟩ := h.never d fun x => hd (x.more _)
      simp only
      by_cases hdc : d = c
      · subst hdc; rw [updN_self]; exact ⟨rfl, b⟩
      · rw [updN_ne _ _ hdc]; exact ⟨a, b⟩

theorem inv_step {past : List Op} {s : S} (h : Inv past s) {o : Op} (ho : Orderly past s o) :
    Inv (past ++ [o]) (step s o).1 := by
  cases o with
  | add p n c => exact inv_add h ho
  | rename c n => exact inv_rename h ho
  | replace p n c ok => exact inv_replace h ho
  | remove p c => exact inv_remove h ho

theorem inv_run : ∀ (os past : List Op) (s : S), Inv past s → OrderlyAll past s os →
    Inv (past ++ os) (run s os)
  | [], past, s, h, _ => by
    rw [List.append_nil, run]; exact h
  | o :: os, past, s, h, ho => by
    have := inv_run os (past ++ [o]) _ (inv_step h ho.1) ho.2
    rw [run]
    simpa using this

theorem inv_start (inst : Nat → Name) : Inv [] (start inst) :=
  ⟨sib_bare inst, fun _ _ => rfl, fun _ _ _ h => (by cases h), fun _ _ => ⟨rfl, rfl⟩⟩

/-! ## The theorems -/

/-- **The tables agree.**  After any orderly history, whether or not its calls raised exceptions,
Python finds under a name exactly the instance the library holds under it, and that instance has
the name and the parent.  Missing from the full claim: renaming what came in by `replace`, renaming
to a name that is taken, and renaming what was removed or replaced, for which it is false. -/
theorem lookup_partial (inst : Nat → Name) (os : List Op)
    (ho : OrderlyAll [] (start inst) os) :
    InStep (run (start inst) os) ∧
      ∀ p n c, getItem (run (start inst) os) p n = .ok c →
        (run (start inst) os).core.inst c = n ∧ (run (start inst) os).core.parent c = some p := by
  have h := inv_run os [] _ (inv_start inst) ho
  have hin : InStep (run (start inst) os) := by
    intro p n c
    unfold getItem Holds
    rw [h.same]
    cases (Map.find ((run (start inst) os).core.kids p) n) <;> simp
  refine ⟨hin, fun p n c hc => ?_⟩
  have hf : ((run (start inst) os).core.kids p).find n = some c := (hin p n c).mp hc
  exact ⟨h.sib.own p n c hf, h.sib.par p n c hf⟩

/-- What looking up `m` in `q` should give once `o` has been done in `s`. -/
def lookupAfter (s : S) (o : Op) (q : Nat) (m : Name) : Res Nat :=
  match o with
  | .add p n c => if q = p ∧ m = n then .ok c else getItem s q m
  | .replace p n c _ => if q = p ∧ m = n then .ok c else getItem s q m
  | .remove p c =>
    if q = p ∧ m = s.core.inst c then .throw .user
    else getItem s q m
  | .rename c n =>
    if s.core.parent c = some q ∧ m = n then .ok c
    else if s.core.parent c = some q ∧ m = s.core.inst c
    then .throw .user
    else getItem s q m

/-- What the calls do to the lookups, in an orderly history: a call that returns has the effect it
is named after, on its own name only. -/
theorem effects_partial (inst : Nat → Name) (os : List Op) (ho : OrderlyAll [] (start inst) os)
    (o : Op) (h : Orderly os (run (start inst) os) o)
    (hok : (step (run (start inst) os) o).2 = .ok ()) (q : Nat) (m : Name) :
    getItem (step (run (start inst) os) o).1 q m =
      lookupAfter (run (start inst) os) o q m := by
  have hi := inv_run os [] _ (inv_start inst) ho
  rw [List.nil_append] at hi
  clear ho
  generalize run (start inst) os = s at *
  unfold lookupAfter
  cases o with
  | add p n c =>
    simp only [step, add] at hok ⊢
    split at hok
    · simp at hok
    · rename_i hn
      have hc : s.core.parent c = none := h
      have hset : setInstName s.core c n = ({ s.core with inst := updN s.core.inst c n }, .ok ()) := by
        unfold setInstName; rw [hc]
      rw [if_neg hn, hset]
      simp only [getItem]
      by_cases hq : q = p
      · subst hq
        rw [updN_self, Map.find_put]
        by_cases hm : m = n <;> simp [hm]
      · rw [updN_ne _ _ hq]; simp [hq]
  | replace p n c ok =>
    simp only [step, replace] at hok ⊢
    split at hok
    · simp at hok
    · rename_i hn
      rw [if_neg hn]
      split at hok
      · rename_i F hF
        simp only [getItem]
        by_cases hq : q = p
        · subst hq
          rw [updN_self, Map.find_put]
          by_cases hm : m = n <;> simp [hm]
        · rw [updN_ne _ _ hq]; simp [hq]
      · rename_i F x hx hF
        simp only at hok
        exact absurd hok (fun e => hx (by subst e; rfl))
  | remove p c =>
    simp only [step, remove] at hok ⊢
    split at hok
    · simp at hok
    · rename_i hn
      rw [if_neg hn]
      simp only [getItem]
      by_cases hq : q = p
      · subst hq
        rw [updN_self, Map.find_erase]
        by_cases hm : m = s.core.inst c <;> simp [hm]
      · rw [updN_ne _ _ hq]; simp [hq]
  | rename c n =>
    rcases h with hp | ⟨hr, p, hp, hfree⟩
    · obtain ⟨h1, h2⟩ := hi.never c hp
      simp only [step, rename, h2, h1, getItem, reduceCtorEq, false_and, if_false]
    · have hown := hi.sib.reg p c hp
      have hm1 := hi.mine c p hr hp
      simp only [step, rename, hm1, hi.same, hown, ne_eq, not_true, if_false, hp, getItem,
        Option.some.injEq]
      by_cases hq : q = p
      · subst hq
        rw [updN_self, Map.find_put, Map.find_erase, hi.same]
        by_cases hm : m = n
        · simp [hm]
        · by_cases hm2 : m = s.core.inst c
          · subst hm2; simp [hm]
          · simp [hm, hm2]
      · have hq' : ¬ p = q := fun e => hq e.symm
        rw [updN_ne _ _ hq]; simp [hq', hi.same]

/-- When a call of an orderly history should return. -/
def Welcome (s : S) : Op → Prop
  | .add p n _ => ∀ d, ¬ Holds s p n d
  | .replace p n _ ok => ok = true ∧ ∃ d, Holds s p n d
  | .remove _ _ => True
  | .rename _ _ => True

theorem has_holds {past : List Op} {s : S} (h : Inv past s) (p : Nat) (n : Name) :
    (s.kids p).has n = true ↔ ∃ d, Holds s p n d := by
  rw [h.has]; unfold Map.has Holds; rw [Option.isSome_iff_exists]

/-- In an orderly history a call returns exactly when its name is free, or taken, as it has to be:
a refusal by either table comes with the refusal by the other. -/
theorem returns_iff_partial (inst : Nat → Name) (os : List Op)
    (ho : OrderlyAll [] (start inst) os) (o : Op) (h : Orderly os (run (start inst) os) o) :
    (step (run (start inst) os) o).2 = .ok () ↔ Welcome (run (start inst) os) o := by
  have hi := inv_run os [] _ (inv_start inst) ho
  rw [List.nil_append] at hi
  clear ho
  generalize run (start inst) os = s at *
  cases o with
  | add p n c =>
    have hc : s.core.parent c = none := h
    have hset : setInstName s.core c n = ({ s.core with inst := updN s.core.inst c n }, .ok ()) := by
      unfold setInstName; rw [hc]
    have hh := has_holds hi p n
    simp only [step, add, hset, Welcome]
    by_cases hn : (s.kids p).has n = true
    · obtain ⟨d, hd⟩ := hh.mp hn
      simp only [if_pos hn]
      exact ⟨fun e => (by cases e), fun e => absurd hd (e d)⟩
    · have hcn : ¬ (s.core.kids p).has n = true := by rw [← hi.has]; exact hn
      simp only [if_neg hn, addChild, if_neg hcn]
      exact ⟨fun _ d hd => hn (hh.mpr ⟨d, hd⟩), fun _ => trivial⟩
  | replace p n c ok =>
    have hc : s.core.parent c = none := h
    have hh := has_holds hi p n
    simp only [step, replace, Welcome]
    by_cases hn : (s.kids p).has n = true
    · obtain ⟨d, hd⟩ := hh.mp hn
      have hd' : (s.core.kids p).find n = some d := hd
      have hown := hi.sib.own p n d hd
      have hpar := hi.sib.par p n d hd
      have hne : d ≠ c := by rintro rfl; rw [hpar] at hc; cases hc
      have hin : n ∈ s.core.order p := by rw [hi.sib.same, ← hi.has]; exact hn
      have hio : updN s.core.inst c n d = n := by rw [updN_ne _ _ hne]; exact hown
      have hhas : ((s.core.kids p).erase n).has n = false := by simp [has_erase]
      cases ok with
      | false => simp [hn, replaceChild, hd']
      | true =>
        simp only [hn, Bool.not_true, Bool.false_eq_true, if_false, replaceChild, hd', if_true,
          removeChild, hio, List.contains_iff_mem.2 hin, addChild, updN_self, hhas]
        exact ⟨fun _ => ⟨trivial, d, hd⟩, fun _ => trivial⟩
    · have : (s.kids p).has n = false := by simpa using hn
      simp only [this, Bool.not_false, if_true]
      exact ⟨fun e => (by cases e), fun e => absurd (hh.mpr e.2) hn⟩
  | remove p c =>
    have hown := hi.sib.reg p c h
    have : (s.kids p).has (s.core.inst c) = true := (has_holds hi _ _).mpr ⟨c, hown⟩
    simp [step, remove, this, Welcome]
  | rename c n =>
    rcases h with hp | ⟨hr, p, hp, hfree⟩
    · obtain ⟨h1, h2⟩ := hi.never c hp
      simp [step, rename, h2, setInstName, h1, Welcome]
    · have hown := hi.sib.reg p c hp
      have hm1 := hi.mine c p hr hp
      have hnone : (s.core.kids p).find n = none := by
        cases hf : (s.core.kids p).find n with
        | none => rfl
        | some d => exact absurd hf (hfree d)
      have hnh : ¬ (s.core.kids p).has n = true := by simp [Map.has, hnone]
      have hin : s.core.inst c ∈ s.core.order p := by rw [hi.sib.same]; simp [Map.has, hown]
      simp [step, rename, hm1, hi.same, hown, setInstName, renameChild, hp, if_neg hnh, hin, Welcome]

/-! ## Where the code disagrees -/

/-- Names of the generators when they are made. -/
def fresh : Nat → Name := fun _ => ['m']

/-- A generator put in by `replace` does not know its parent: renaming it reaches the library only,
and no call raises. -/
theorem replaced_rename_wrong :
    Quiet (start fresh) [.add 0 ['a'] 1, .replace 0 ['a'] 2 true, .rename 2 ['b']] ∧
    getItem (run (start fresh) [.add 0 ['a'] 1, .replace 0 ['a'] 2 true, .rename 2 ['b']]) 0 ['a'] = .ok 2 ∧
    getItem (run (start fresh) [.add 0 ['a'] 1, .replace 0 ['a'] 2 true, .rename 2 ['b']]) 0 ['b']
      = .throw .user ∧
    Holds (run (start fresh) [.add 0 ['a'] 1, .replace 0 ['a'] 2 true, .rename 2 ['b']]) 0 ['b'] 2 :=
  ⟨⟨rfl, rfl, rfl, trivial⟩, rfl, rfl, rfl⟩

theorem not_TableClaim : ¬ TableClaim := by
  intro h
  obtain ⟨hq, ha, hb, hh⟩ := replaced_rename_wrong
  have := (h fresh _ hq 0 ['b'] 2).mpr hh
  rw [hb] at this
  cases this

/-- Renaming to the name of a sibling raises an exception, but Python has lost the sibling: both
names it finds belong to one generator's history, and `b` is now the wrong one. -/
theorem clash_wrong :
    (step (run (start fresh) [.add 0 ['a'] 1, .add 0 ['b'] 2]) (.rename 1 ['b'])).2 = .throw .generator ∧
    getItem (run (start fresh) [.add 0 ['a'] 1, .add 0 ['b'] 2, .rename 1 ['b']]) 0 ['b'] = .ok 1 ∧
    Holds (run (start fresh) [.add 0 ['a'] 1, .add 0 ['b'] 2, .rename 1 ['b']]) 0 ['b'] 2 ∧
    getItem (run (start fresh) [.add 0 ['a'] 1, .add 0 ['b'] 2, .rename 1 ['b']]) 0 ['a'] = .throw .user :=
  ⟨rfl, rfl, rfl, rfl⟩

theorem not_RaisingClaim : ¬ RaisingClaim := by
  intro h
  obtain ⟨-, h1, h2, -⟩ := clash_wrong
  have := (h fresh _ 0 ['b'] 2).mpr h2
  rw [h1] at this
  cases this

/-- A generator that was removed still refers to its parent: renaming it raises an exception, and
Python loses the child that has taken its name. -/
theorem removed_lost :
    (step (run (start fresh) [.add 0 ['a'] 1, .remove 0 1, .add 0 ['a'] 2]) (.rename 1 ['x'])).2
      = .throw .user ∧
    getItem (run (start fresh) [.add 0 ['a'] 1, .remove 0 1, .add 0 ['a'] 2, .rename 1 ['x']]) 0 ['a']
      = .throw .user ∧
    Holds (run (start fresh) [.add 0 ['a'] 1, .remove 0 1, .add 0 ['a'] 2, .rename 1 ['x']]) 0 ['a'] 2 :=
  ⟨rfl, rfl, rfl⟩

/-- The same for a generator that was replaced. -/
theorem replaced_lost :
    (step (run (start fresh) [.add 0 ['a'] 1, .replace 0 ['a'] 2 true]) (.rename 1 ['x'])).2
      = .throw .user ∧
    getItem (run (start fresh) [.add 0 ['a'] 1, .replace 0 ['a'] 2 true, .rename 1 ['x']]) 0 ['a']
      = .throw .user ∧
    Holds (run (start fresh) [.add 0 ['a'] 1, .replace 0 ['a'] 2 true, .rename 1 ['x']]) 0 ['a'] 2 :=
  ⟨rfl, rfl, rfl⟩

/-- A removed generator cannot be renamed at all, although it is free. -/
theorem removed_refused :
    (step (run (start fresh) [.add 0 ['a'] 1, .remove 0 1]) (.rename 1 ['x'])).2 = .throw .outOfRange ∧
    (run (start fresh) [.add 0 ['a'] 1, .remove 0 1]).core.parent 1 = none :=
  ⟨rfl, rfl⟩

/-- Removing a generator from a parent that is not its own removes the child of that name. -/
theorem foreign_wrong :
    Quiet (start fresh) [.add 0 ['a'] 1, .add 5 ['a'] 2, .remove 0 2] ∧
    getItem (run (start fresh) [.add 0 ['a'] 1, .add 5 ['a'] 2, .remove 0 2]) 0 ['a'] = .throw .user ∧
    getItem (run (start fresh) [.add 0 ['a'] 1, .add 5 ['a'] 2, .remove 0 2]) 5 ['a'] = .ok 2 ∧
    (run (start fresh) [.add 0 ['a'] 1, .add 5 ['a'] 2, .remove 0 2]).core.parent 2 = none :=
  ⟨⟨rfl, rfl, rfl, trivial⟩, rfl, rfl, rfl⟩

/-- An orderly history: children come, are renamed, replaced, removed and come back, and one call
raises. -/
example : OrderlyAll [] (start fresh)
    [.add 0 ['a'] 1, .add 0 ['b'] 2, .rename 1 ['c'], .replace 0 ['b'] 3 true, .remove 0 1, .add 3 ['c'] 1,
     .add 0 ['b'] 4] := by
  refine ⟨rfl, rfl, Or.inr ⟨?_, 0, rfl, ?_⟩, rfl, rfl, rfl, rfl, trivial⟩
  · rintro ⟨p, n, ok, h⟩
    simp at h
  · intro d hd
    cases hd

end Kratos.PyTree
