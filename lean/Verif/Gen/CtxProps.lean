import Verif.Gen.Ctx
import Verif.Gen.TableProps

/-!
# C41 and C43: the context's index, and uniquification
-/

namespace Kratos.Gen

/-! ## C41 -/

def COp.valid (c : Ctx) : COp → Prop
  | .clone g => g < c.next
  | .add g => g < c.next
  | .remove g => g < c.next
  | .rename g _ => g < c.next
  | .setExternal g _ => g < c.next
  | _ => True

/-- The generators that belong to the context after a call, from the user's point of view: those
created by `generator(name)` or handed to `add`, and not removed since. -/
def belongs (kw : Name → Bool) (c : Ctx) (reg : Nat → Bool) : COp → Nat → Bool
  | .create n => fun g => reg g || (!kw n && decide (g = c.next))
  | .add g' => fun g => reg g || decide (g = g')
  | .remove g' => fun g => reg g && decide (g ≠ g')
  | .clear => fun _ => false
  | _ => reg

/-- Every history of calls satisfying `P`, with the set of generators belonging to the context. -/
inductive CReach (kw : Name → Bool) (P : Ctx → (Nat → Bool) → COp → Prop) : Ctx → (Nat → Bool) → Prop
  | init : CReach kw P emptyCtx (fun _ => false)
  | step {c : Ctx} {reg : Nat → Bool} {o : COp} : CReach kw P c reg → o.valid c → P c reg o →
      CReach kw P (cstep kw c o) (belongs kw c reg o)

/-- Looking a name up returns exactly the generators of the context that carry it. -/
def IndexOk (c : Ctx) (reg : Nat → Bool) : Prop :=
  ∀ n g, g ∈ c.lookup n ↔ reg g = true ∧ c.name g = n

/-- C41 as stated. -/
def IndexClaim : Prop := ∀ kw c reg, CReach kw (fun _ _ _ => True) c reg → IndexOk c reg

/-- No generator of the context is renamed to, or from, the empty name. -/
def COp.safe (c : Ctx) (reg : Nat → Bool) : COp → Prop
  | .rename g n => reg g = true → n ≠ [] ∧ c.name g ≠ []
  | _ => True

structure Idx (c : Ctx) (reg : Nat → Bool) : Prop where
  keys : c.modules.keys.Nodup
  nodup : ∀ n, (c.lookup n).Nodup
  index : ∀ n g, g ∈ c.lookup n ↔ reg g = true ∧ c.name g = n
  bound : ∀ g, reg g = true → g < c.next

theorem insertSet_mem (l : List Nat) (g x : Nat) : x ∈ insertSet l g ↔ x ∈ l ∨ x = g := by
  unfold insertSet
  split
  · next h =>
    constructor
    · exact .inl
    · rintro (h' | rfl)
      · exact h'
      · exact List.contains_iff_mem.1 h
  · simp

theorem insertSet_nodup {l : List Nat} (h : l.Nodup) (g : Nat) : (insertSet l g).Nodup := by
  unfold insertSet
  split
  · exact h
  · next hc =>
    rw [List.nodup_append]
    refine ⟨h, by simp, ?_⟩
    intro a ha b hb e
    simp only [List.mem_cons, List.not_mem_nil, or_false] at hb
    subst hb; subst e
    exact hc (List.contains_iff_mem.2 ha)

theorem lookup_emplaceMod (m : Map Name (List Nat)) (n : Name) (g : Nat) (k : Name) :
    ((emplaceMod m n g).find k).getD [] =
      if k = n then insertSet ((m.find n).getD []) g else (m.find k).getD [] := by
  unfold emplaceMod
  rw [Map.find_put]
  split <;> rfl

theorem nodup_emplaceMod {m : Map Name (List Nat)} (h : m.keys.Nodup) (n : Name) (g : Nat) :
    (emplaceMod m n g).keys.Nodup := Map.nodup_put h _ _

theorem idx_init : Idx emptyCtx (fun _ => false) :=
  ⟨by simp [emptyCtx, Map.keys], by simp [emptyCtx, Ctx.lookup, Map.find],
   by simp [emptyCtx, Ctx.lookup, Map.find], by simp⟩

/-- Renaming a generator of the context between non-empty names. -/
theorem Idx.rename {c : Ctx} {reg : Nat → Bool} (h : Idx c reg) {g : Nat} {new : Name}
    (hg : reg g = true) (hn : new ≠ []) (ho : c.name g ≠ []) :
    ∃ c', changeName c g new = (c', .ok ()) ∧ Idx c' reg ∧ c'.name = updN c.name g new ∧
      (∀ k, c'.modules.has k = (c.modules.has k || decide (k = new))) ∧ c'.ext = c.ext ∧
      c'.modules.length ≤ c.modules.length + 1 := by
  have hin : g ∈ c.lookup (c.name g) := (h.index _ _).2 ⟨hg, rfl⟩
  obtain ⟨l, hl⟩ : ∃ l, c.modules.find (c.name g) = some l := by
    cases hf : c.modules.find (c.name g) with
    | none => simp [Ctx.lookup, hf] at hin
    | some l => exact ⟨l, rfl⟩
  have hlk : c.lookup (c.name g) = l := by simp [Ctx.lookup, hl]
  rw [hlk] at hin
  have e1 : new.isEmpty = false := by cases new <;> simp_all
  have e2 : (c.name g).isEmpty = false := by cases hc : c.name g <;> simp_all
  have hcont : l.contains g = true := List.contains_iff_mem.2 hin
  have hnd : l.Nodup := by rw [← hlk]; exact h.nodup _
  refine ⟨{ c with modules := emplaceMod (c.modules.put (c.name g) (l.erase g)) new g,
                   name := updN c.name g new }, ?_, ?_, rfl, ?_, rfl, ?_⟩
  · unfold changeName
    simp only [e1, e2, Bool.or_self, Bool.false_eq_true, if_false, hl]
    rw [if_pos hcont]
  · -- the set found under `k` after the first half
    have hmid : ∀ k x, x ∈ (((c.modules.put (c.name g) (l.erase g)).find k).getD []) ↔
        x ≠ g ∧ x ∈ c.lookup k := by
      intro k x
      rw [Map.find_put]
      by_cases hk : k = c.name g
      · subst hk
        simp only [if_true, Option.getD_some, hlk]
        rw [hnd.mem_erase_iff]
      · simp only [hk, if_false]
        show x ∈ c.lookup k ↔ _
        constructor
        · intro hx
          refine ⟨?_, hx⟩
          rintro rfl
          exact hk ((h.index _ _).1 hx).2.symm
        · exact fun hx => hx.2
    have hmidn : ∀ k, (((c.modules.put (c.name g) (l.erase g)).find k).getD []).Nodup := by
      intro k
      rw [Map.find_put]
      split
      · exact hnd.erase _
      · exact h.nodup k
    refine ⟨nodup_emplaceMod (Map.nodup_put h.keys _ _) _ _, ?_, ?_, h.bound⟩
    · intro k
      simp only [Ctx.lookup, lookup_emplaceMod]
      split
      · exact insertSet_nodup (hmidn _) _
      · exact hmidn k
    · intro k x
      simp only [Ctx.lookup, lookup_emplaceMod]
      by_cases hk : k = new
      · subst hk
        simp only [if_true, insertSet_mem, hmid, h.index, updN]
        by_cases hx : x = g
        · subst hx; simp [hg]
        · simp [hx]
      · simp only [hk, if_false, hmid, h.index, updN]
        by_cases hx : x = g
        · subst hx; simp [Ne.symm hk]
        · simp [hx]
  · intro k
    simp only [Map.has, emplaceMod, Map.find_put]
    by_cases hk : k = new
    · simp [hk]
    · simp only [hk, if_false, decide_false, Bool.or_false]
      split
      · next e => subst e; simp [hl]
      · rfl
  · have hhas : c.modules.has (c.name g) = true := by simp [Map.has, hl]
    simp only [emplaceMod, Map.length_put, hhas, if_true]
    split <;> omega

/-- Renaming a generator that does not belong to the context leaves the index alone. -/
theorem Idx.rename_other {c : Ctx} {reg : Nat → Bool} (h : Idx c reg) {g : Nat} (new : Name)
    (hg : reg g = false) : Idx (changeName c g new).1 reg := by
  unfold changeName
  have hno : ∀ n, g ∉ c.lookup n := by
    intro n hin
    have := ((h.index n g).1 hin).1
    rw [hg] at this; cases this
  split
  · refine ⟨h.keys, h.nodup, ?_, h.bound⟩
    intro n x
    show x ∈ c.lookup n ↔ _
    rw [h.index]
    simp only [updN]
    by_cases hx : x = g
    · subst hx; simp [hg]
    · simp [hx]
  · split
    · exact h
    · next l hl =>
      split
      · next hc =>
        exfalso
        apply hno (c.name g)
        simp only [Ctx.lookup, hl, Option.getD_some]
        exact List.contains_iff_mem.1 hc
      · exact h

theorem Idx.alloc {c : Ctx} {reg : Nat → Bool} (h : Idx c reg) (n : Name) (e : Bool) (p : Option Nat) :
    Idx { c with name := updN c.name c.next n, ext := updN c.ext c.next e,
                 cloneOf := updN c.cloneOf c.next p, next := c.next + 1 } reg := by
  refine ⟨h.keys, h.nodup, ?_, fun g hg => Nat.lt_succ_of_lt (h.bound g hg)⟩
  intro k x
  show x ∈ c.lookup k ↔ _
  rw [h.index]
  simp only [updN]
  by_cases hx : x = c.next
  · subst hx
    have : reg c.next = false := by
      rw [Bool.eq_false_iff]; intro hr
      exact Nat.lt_irrefl _ (h.bound _ hr)
    simp [this]
  · simp [hx]

theorem Idx.add {c : Ctx} {reg : Nat → Bool} (h : Idx c reg) (g : Nat) (hb : g < c.next) :
    Idx { c with modules := emplaceMod c.modules (c.name g) g } (fun x => reg x || decide (x = g)) := by
  refine ⟨nodup_emplaceMod h.keys _ _, ?_, ?_, ?_⟩
  · intro k
    simp only [Ctx.lookup, lookup_emplaceMod]
    split
    · exact insertSet_nodup (h.nodup _) _
    · exact h.nodup k
  · intro k x
    simp only [Ctx.lookup, lookup_emplaceMod]
    by_cases hk : k = c.name g
    · subst hk
      simp only [if_true, insertSet_mem]
      show x ∈ c.lookup (c.name g) ∨ _ ↔ _
      rw [h.index]
      by_cases hx : x = g
      · subst hx; simp
      · simp [hx]
    · simp only [hk, if_false]
      show x ∈ c.lookup k ↔ _
      rw [h.index]
      by_cases hx : x = g
      · subst hx; simp [Ne.symm hk]
      · simp [hx]
  · intro x hx
    simp only [Bool.or_eq_true, decide_eq_true_eq] at hx
    rcases hx with hx | rfl
    · exact h.bound x hx
    · exact hb

theorem Idx.remove {c : Ctx} {reg : Nat → Bool} (h : Idx c reg) (g : Nat) :
    Idx (remove c g) (fun x => reg x && decide (x ≠ g)) := by
  have hb : ∀ x, (reg x && decide (x ≠ g)) = true → x < c.next := by
    intro x hx
    simp only [Bool.and_eq_true] at hx
    exact h.bound x hx.1
  unfold Gen.remove
  cases hl : c.modules.find (c.name g) with
  | none =>
    refine ⟨h.keys, h.nodup, ?_, hb⟩
    intro k x
    rw [h.index]
    by_cases hx : x = g
    · subst hx
      have : reg x = false := by
        rw [Bool.eq_false_iff]
        intro hr
        have := (h.index (c.name x) x).2 ⟨hr, rfl⟩
        simp [Ctx.lookup, hl] at this
      simp [this]
    · simp [hx]
  | some l =>
    have hlk : c.lookup (c.name g) = l := by simp [Ctx.lookup, hl]
    have hnd : l.Nodup := by rw [← hlk]; exact h.nodup _
    refine ⟨Map.nodup_put h.keys _ _, ?_, ?_, hb⟩
    · intro k
      simp only [Ctx.lookup, Map.find_put]
      split
      · exact hnd.erase _
      · exact h.nodup k
    · intro k x
      simp only [Ctx.lookup, Map.find_put]
      by_cases hk : k = c.name g
      · subst hk
        simp only [if_true, Option.getD_some, hnd.mem_erase_iff]
        rw [← hlk, h.index]
        by_cases hx : x = g <;> simp [hx]
      · simp only [hk, if_false]
        show x ∈ c.lookup k ↔ _
        rw [h.index]
        by_cases hx : x = g
        · subst hx; simp [Ne.symm hk]
        · simp [hx]

theorem Idx.step {kw : Name → Bool} {c : Ctx} {reg : Nat → Bool} (h : Idx c reg) (o : COp)
    (hv : o.valid c) (hs : o.safe c reg) : Idx (cstep kw c o) (belongs kw c reg o) := by
  cases o with
  | create n =>
    simp only [cstep, Gen.create, belongs]
    split
    · next hk => simpa [hk] using h
    · next hk =>
      have h1 := h.alloc n false none
      have h2 := h1.add c.next (Nat.lt_succ_self _)
      have e : (updN c.name c.next n) c.next = n := by simp [updN]
      simp only [e] at h2
      simpa [hk] using h2
  | createEmpty => exact h.alloc [] false none
  | clone g => exact h.alloc (c.name g) true (some g)
  | add g => exact h.add g hv
  | remove g => exact h.remove g
  | rename g n =>
    cases hr : reg g with
    | true =>
      obtain ⟨hn, ho⟩ := hs hr
      obtain ⟨c', he, hi, -⟩ := h.rename hr hn ho
      simp only [cstep, he]
      exact hi
    | false => exact h.rename_other n hr
  | setExternal g b => exact ⟨h.keys, h.nodup, h.index, h.bound⟩
  | clear =>
    exact ⟨by simp [cstep, Map.keys], by simp [cstep, Ctx.lookup, Map.find],
      by simp [cstep, Ctx.lookup, Map.find, belongs], by simp [belongs]⟩

theorem idx_reach {kw : Name → Bool} {c : Ctx} {reg : Nat → Bool}
    (h : CReach kw (fun c reg o => o.safe c reg) c reg) : Idx c reg := by
  induction h with
  | init => exact idx_init
  | step _ hv hs ih => exact ih.step _ hv hs

/-- **C41** for every history in which no generator of the context is renamed to or from the empty
name.  Missing: those renamings (`empty_name_breaks_index`). -/
theorem index_partial (kw : Name → Bool) (c : Ctx) (reg : Nat → Bool)
    (h : CReach kw (fun c reg o => o.safe c reg) c reg) : IndexOk c reg :=
  (idx_reach h).index

/-- No generator is returned twice, and none under two names. -/
theorem index_once (kw : Name → Bool) (c : Ctx) (reg : Nat → Bool)
    (h : CReach kw (fun c reg o => o.safe c reg) c reg) :
    (∀ n, (c.lookup n).Nodup) ∧ ∀ n n' g, g ∈ c.lookup n → g ∈ c.lookup n' → n = n' := by
  have hi := idx_reach h
  exact ⟨hi.nodup, fun n n' g h1 h2 => (((hi.index _ _).1 h1).2).symm.trans ((hi.index _ _).1 h2).2⟩

def cops (kw : Name → Bool) : Ctx → (Nat → Bool) → List COp → Ctx × (Nat → Bool)
  | c, reg, [] => (c, reg)
  | c, reg, o :: os => cops kw (cstep kw c o) (belongs kw c reg o) os

theorem creach_cops {kw : Name → Bool} {P : Ctx → (Nat → Bool) → COp → Prop} :
    ∀ (os : List COp) (c : Ctx) (reg : Nat → Bool), CReach kw P c reg →
      (∀ c reg o, o ∈ os → P c reg o) →
      (∀ i (h : i < os.length), (os[i]).valid (cops kw c reg (os.take i)).1) →
      CReach kw P (cops kw c reg os).1 (cops kw c reg os).2
  | [], _, _, h, _, _ => h
  | o :: os, c, reg, h, hP, hv => by
    refine creach_cops os _ _ (CReach.step h (hv 0 (by simp)) (hP _ _ _ List.mem_cons_self))
      (fun c' r' o' ho => hP c' r' o' (List.mem_cons_of_mem _ ho)) ?_
    intro i hi
    have := hv (i + 1) (by simp; omega)
    simpa [cops] using this

/-- A generator renamed to the empty name stays listed under its old name. -/
theorem empty_name_breaks_index :
    let s := cops noKw emptyCtx (fun _ => false) [.create nA, .rename 0 []]
    s.2 0 = true ∧ s.1.name 0 = [] ∧ s.1.lookup nA = [0] ∧ s.1.lookup [] = [] := by
  refine ⟨?_, ?_, ?_, ?_⟩ <;> decide +kernel

/-- **C41**, negation of the full claim. -/
theorem not_IndexClaim : ¬ IndexClaim := by
  intro h
  have hr : CReach noKw (fun _ _ _ => True) _ _ :=
    creach_cops [.create nA, .rename 0 []] emptyCtx (fun _ => false) CReach.init
      (fun _ _ _ _ => trivial) (by
        intro i hi
        match i, hi with
        | 0, _ => trivial
        | 1, _ => show 0 < _; decide +kernel)
  have := (h _ _ _ hr nA 0).1 (by decide +kernel)
  have h2 := this.2
  revert h2
  decide +kernel

/-! ## C43 -/

/-! ### The reordering of tracked generators -/

theorem reorderStep_perm (t : Nat → Bool) (s : List Nat × List Nat) (x : Nat) :
    ((reorderStep t s x).1 ++ (reorderStep t s x).2).Perm (s.1 ++ s.2 ++ [x]) := by
  unfold reorderStep
  obtain ⟨a, b⟩ := s
  split
  · cases b with
    | nil => simp
    | cons u us =>
      simp only [List.append_assoc]
      apply List.Perm.append_left
      -- [x] ++ (us ++ [u]) ~ (u :: us) ++ [x]
      calc ([x] ++ (us ++ [u])).Perm ((us ++ [u]) ++ [x]) := List.perm_append_comm
        _ |>.Perm ((u :: us) ++ [x]) := by
          apply List.Perm.append_right
          exact (List.perm_append_singleton u us)
  · simp

theorem reorder_foldl_perm (t : Nat → Bool) : ∀ (l : List Nat) (s : List Nat × List Nat),
    ((l.foldl (reorderStep t) s).1 ++ (l.foldl (reorderStep t) s).2).Perm (s.1 ++ s.2 ++ l)
  | [], s => by simp
  | x :: l, s => by
    have := reorder_foldl_perm t l (reorderStep t s x)
    refine this.trans ?_
    have h2 := (reorderStep_perm t s x).append_right l
    simpa using h2

/-- The reordering loses and duplicates nothing. -/
theorem reorder_perm (t : Nat → Bool) (l : List Nat) : (reorder t l).Perm l := by
  have := reorder_foldl_perm t l ([], [])
  simpa [reorder] using this

theorem reorder_foldl_sorted (t : Nat → Bool) : ∀ (l : List Nat) (s : List Nat × List Nat),
    (∀ x ∈ s.1, t x = true) → (∀ x ∈ s.2, t x = false) →
    (∀ x ∈ (l.foldl (reorderStep t) s).1, t x = true) ∧
    (∀ x ∈ (l.foldl (reorderStep t) s).2, t x = false)
  | [], s, h1, h2 => ⟨h1, h2⟩
  | x :: l, s, h1, h2 => by
    simp only [List.foldl_cons]
    apply reorder_foldl_sorted t l
    · unfold reorderStep
      obtain ⟨a, b⟩ := s
      split
      · next hx =>
        cases b <;>
        · intro y hy
          simp only [List.mem_append, List.mem_cons, List.not_mem_nil, or_false] at hy
          rcases hy with hy | rfl
          · exact h1 y hy
          · exact hx
      · exact h1
    · unfold reorderStep
      obtain ⟨a, b⟩ := s
      split
      · cases b with
        | nil => simp
        | cons u us =>
          intro y hy
          simp only [List.mem_append, List.mem_cons, List.not_mem_nil, or_false] at hy
          rcases hy with hy | rfl
          · exact h2 y (by simp [hy])
          · exact h2 y (by simp)
      · next hx =>
        intro y hy
        simp only [List.mem_append, List.mem_cons, List.not_mem_nil, or_false] at hy
        rcases hy with hy | rfl
        · exact h2 y hy
        · simpa using hx

/-- Tracked generators come before all others. -/
theorem reorder_tracked_first (t : Nat → Bool) (l : List Nat) :
    ∃ xs ys, reorder t l = xs ++ ys ∧ (∀ x ∈ xs, t x = true) ∧ ∀ y ∈ ys, t y = false := by
  obtain ⟨h1, h2⟩ := reorder_foldl_sorted t l ([], []) (by simp) (by simp)
  exact ⟨_, _, rfl, h1, h2⟩

/-! ### One name -/

theorem unqName_inj {n : Name} {a b : Nat} (h : unqName n a = unqName n b) : a = b := by
  unfold unqName at h
  have := List.append_cancel_left h
  simp only [List.cons.injEq, true_and] at this
  exact dec_inj this

theorem unqName_ne_nil (n : Name) (k : Nat) : unqName n k ≠ [] := by simp [unqName]

/-- If the loop has not ended after `f` steps, the `f` candidates starting at `c` are all taken
(the counter wraps around at 2³²). -/
theorem freeFrom_all (taken : Name → Bool) (mk : Nat → Name) : ∀ (f c : Nat), c < 2 ^ 32 →
    (∀ r, freeFrom taken mk f c ≠ .ok r) → ∀ i, i < f → taken (mk ((c + i) % 2 ^ 32)) = true
  | 0, c, _, _, i, h2 => by omega
  | f + 1, c, hc, h, i, h2 => by
    simp only [freeFrom] at h
    cases ht : taken (mk c) with
    | false => rw [ht] at h; exact absurd rfl (h (mk c))
    | true =>
      rw [ht] at h
      simp only [if_true] at h
      cases i with
      | zero => rw [Nat.add_zero, Nat.mod_eq_of_lt hc]; exact ht
      | succ j =>
        have := freeFrom_all taken mk f ((c + 1) % 2 ^ 32) (Nat.mod_lt _ (by omega)) h j (by omega)
        have e : ((c + 1) % 2 ^ 32 + j) % 2 ^ 32 = (c + (j + 1)) % 2 ^ 32 := by omega
        rwa [e] at this

theorem freeFrom_terminates' {V : Type} (m : Map Name V) (mk : Nat → Name)
    (hinj : ∀ a b, mk a = mk b → a = b) (hlen : m.length < 2 ^ 32) (c : Nat) (hc : c < 2 ^ 32) :
    ∃ r, freeFrom m.has mk (2 ^ 32) c = .ok r := by
  rcases Classical.em (∃ r, freeFrom m.has mk (2 ^ 32) c = .ok r) with h | h
  · exact h
  · exfalso
    have hall := freeFrom_all m.has mk (2 ^ 32) c hc (fun r hr => h ⟨r, hr⟩)
    have hnd : ((List.range (2 ^ 32)).map mk).Nodup := by
      apply List.nodup_iff_pairwise_ne.2
      rw [List.pairwise_map]
      have := List.nodup_iff_pairwise_ne.1 (List.nodup_range (n := 2 ^ 32))
      exact this.imp fun hne e => hne (hinj _ _ e)
    have hsub : (List.range (2 ^ 32)).map mk ⊆ m.keys := by
      intro x hx
      obtain ⟨i, hi, rfl⟩ := List.mem_map.1 hx
      rw [List.mem_range] at hi
      have := hall ((i + (2 ^ 32 - c)) % 2 ^ 32) (Nat.mod_lt _ (by omega))
      have e : (c + (i + (2 ^ 32 - c)) % 2 ^ 32) % 2 ^ 32 = i := by omega
      rw [e] at this
      exact Map.has_iff.1 this
    have := nodup_subset_length hnd hsub
    rw [List.length_map, List.length_range] at this
    unfold Map.keys at this
    rw [List.length_map] at this
    omega

theorem Idx.name_key {c : Ctx} {reg : Nat → Bool} (h : Idx c reg) {g : Nat} (hg : reg g = true) :
    c.modules.has (c.name g) = true := by
  have := (h.index (c.name g) g).2 ⟨hg, rfl⟩
  unfold Ctx.lookup at this
  unfold Map.has
  cases hf : c.modules.find (c.name g) with
  | none => simp [hf] at this
  | some l => rfl

/-- What the loop over the generators `gs` of one name `n` does. -/
theorem uniqInsts_spec {hash : Map Nat Nat} {n : Name} {reg : Nat → Bool} (hn : n ≠ []) :
    ∀ (gs : List Nat) (nm : Map Nat Nat) (news : List Name) (c c' : Ctx),
    Idx c reg → gs.Nodup → (∀ g ∈ gs, reg g = true ∧ c.name g = n) →
    (∀ h r, nm.find h = some r → reg r = true ∧ r ∉ gs ∧ c.name r ≠ []) →
    (∀ h1 h2 r1 r2, nm.find h1 = some r1 → nm.find h2 = some r2 → c.name r1 = c.name r2 → h1 = h2) →
    (news = [] ↔ nm = []) →
    uniqInsts hash n gs nm news c = .ok c' →
    Idx c' reg ∧ c'.ext = c.ext ∧ (∀ m, c.modules.has m = true → c'.modules.has m = true) ∧
    (∀ g, g ∉ gs ∨ hash.find g = none → c'.name g = c.name g) ∧
    ∃ f : Nat → Name,
      (∀ h r, nm.find h = some r → f h = c.name r) ∧
      (∀ g ∈ gs, ∀ h, hash.find g = some h → c'.name g = f h) ∧
      (∀ h1 h2, (nm.find h1 ≠ none ∨ ∃ g ∈ gs, hash.find g = some h1) →
        (nm.find h2 ≠ none ∨ ∃ g ∈ gs, hash.find g = some h2) → f h1 = f h2 → h1 = h2) ∧
      (∀ h, nm.find h = none → (∃ g ∈ gs, hash.find g = some h) →
        f h ≠ [] ∧ (f h = n ∨ c.modules.has (f h) = false)) ∧
      (nm = [] → ∀ g0 gs', gs.filter (fun g => (hash.find g).isSome) = g0 :: gs' → c'.name g0 = n)
  | [], nm, news, c, c', hi, _, _, hr, hinj, _, hok => by
    simp only [uniqInsts, Res.ok.injEq] at hok
    subst hok
    refine ⟨hi, rfl, fun _ h => h, fun _ _ => rfl, fun h => ((nm.find h).map c.name).getD [], ?_, ?_, ?_, ?_, ?_⟩
    · intro h r hf; simp [hf]
    · intro g hg; cases hg
    · intro h1 h2 d1 d2 he
      have d1 : nm.find h1 ≠ none := by simpa using d1
      have d2 : nm.find h2 ≠ none := by simpa using d2
      cases e1 : nm.find h1 with
      | none => exact absurd e1 d1
      | some r1 =>
        cases e2 : nm.find h2 with
        | none => exact absurd e2 d2
        | some r2 =>
          simp only [e1, e2, Option.map_some, Option.getD_some] at he
          exact hinj h1 h2 r1 r2 e1 e2 he
    · rintro h - ⟨g, hg, -⟩; cases hg
    · intro _ g0 gs' he; simp at he
  | g :: gs, nm, news, c, c', hi, hnd, hgs, hr, hinj, hnews, hok => by
    rw [List.nodup_cons] at hnd
    obtain ⟨hgn, hnd⟩ := hnd
    obtain ⟨hgr, hgname⟩ := hgs g List.mem_cons_self
    have hgs' : ∀ x ∈ gs, reg x = true ∧ c.name x = n := fun x hx => hgs x (List.mem_cons_of_mem _ hx)
    have hno : c.name g ≠ [] := by rw [hgname]; exact hn
    simp only [uniqInsts] at hok
    cases hh : hash.find g with
    | none =>
      rw [hh] at hok
      simp only at hok
      have hr' : ∀ h r, nm.find h = some r → reg r = true ∧ r ∉ gs ∧ c.name r ≠ [] := fun h r hf =>
        ⟨(hr h r hf).1, fun hin => (hr h r hf).2.1 (List.mem_cons_of_mem _ hin), (hr h r hf).2.2⟩
      obtain ⟨h1, h2, h3, h4, f, f1, f2, f3, f4, f5⟩ :=
        uniqInsts_spec hn gs nm news c c' hi hnd hgs' hr' hinj hnews hok
      have red : ∀ h, (∃ x ∈ g :: gs, hash.find x = some h) → ∃ x ∈ gs, hash.find x = some h := by
        rintro h ⟨x, hx, hxh⟩
        rcases List.mem_cons.1 hx with rfl | hx
        · rw [hh] at hxh; cases hxh
        · exact ⟨x, hx, hxh⟩
      refine ⟨h1, h2, h3, ?_, f, f1, ?_, ?_, ?_, ?_⟩
      · intro x hx
        apply h4
        rcases hx with hx | hx
        · exact .inl fun h => hx (List.mem_cons_of_mem _ h)
        · exact .inr hx
      · intro x hx h hxh
        rcases List.mem_cons.1 hx with rfl | hx
        · rw [hh] at hxh; cases hxh
        · exact f2 x hx h hxh
      · intro a b da db
        exact f3 a b (da.imp_right (red a)) (db.imp_right (red b))
      · intro h hnone hex
        exact f4 h hnone (red h hex)
      · intro hnm g0 gs0 he
        rw [List.filter_cons] at he
        simp only [hh, Option.isSome_none, Bool.false_eq_true, if_false] at he
        exact f5 hnm g0 gs0 he
    | some h =>
      rw [hh] at hok
      simp only at hok
      cases hm : nm.find h with
      | some r =>
        rw [hm] at hok
        simp only at hok
        obtain ⟨hrr, hrn, hrne⟩ := hr h r hm
        have hrg : r ≠ g := fun e => hrn (e ▸ List.mem_cons_self)
        obtain ⟨c1, he, hi1, hname, hkeys, hext, -⟩ := hi.rename hgr hrne hno
        rw [he] at hok
        simp only [Res.ok_bind] at hok
        have hnm1 : ∀ x, x ≠ g → c1.name x = c.name x := by
          intro x hx; rw [hname]; simp [updN, hx]
        have hng : c1.name g = c.name r := by rw [hname]; simp [updN]
        have hr1 : ∀ a x, nm.find a = some x → reg x = true ∧ x ∉ gs ∧ c1.name x ≠ [] := by
          intro a x hf
          obtain ⟨p1, p2, p3⟩ := hr a x hf
          have : x ≠ g := fun e => p2 (e ▸ List.mem_cons_self)
          exact ⟨p1, fun hin => p2 (List.mem_cons_of_mem _ hin), by rw [hnm1 x this]; exact p3⟩
        have hrepr : ∀ a x, nm.find a = some x → c1.name x = c.name x := by
          intro a x hf
          apply hnm1
          exact fun e => (hr a x hf).2.1 (e ▸ List.mem_cons_self)
        obtain ⟨h1, h2, h3, h4, f, f1, f2, f3, f4, f5⟩ :=
          uniqInsts_spec hn gs nm news c1 c' hi1 hnd
            (fun x hx => ⟨(hgs' x hx).1, by
              rw [hnm1 x (fun e => hgn (e ▸ hx))]; exact (hgs' x hx).2⟩)
            hr1
            (fun a b x y ha hb e => hinj a b x y ha hb (by rwa [hrepr a x ha, hrepr b y hb] at e))
            hnews hok
        have red : ∀ a, (nm.find a ≠ none ∨ ∃ x ∈ g :: gs, hash.find x = some a) →
            (nm.find a ≠ none ∨ ∃ x ∈ gs, hash.find x = some a) := by
          rintro a (ha | ⟨x, hx, hxh⟩)
          · exact .inl ha
          · rcases List.mem_cons.1 hx with rfl | hx
            · rw [hh] at hxh
              simp only [Option.some.injEq] at hxh
              subst hxh
              exact .inl (by rw [hm]; simp)
            · exact .inr ⟨x, hx, hxh⟩
        refine ⟨h1, h2.trans hext, ?_, ?_, f, ?_, ?_, ?_, ?_, ?_⟩
        · intro m hmk
          apply h3
          rw [hkeys, hmk]; rfl
        · intro x hx
          have hxg : x ≠ g := by
            rintro rfl
            rcases hx with hx | hx
            · exact hx List.mem_cons_self
            · rw [hh] at hx; cases hx
          rw [← hnm1 x hxg]
          apply h4
          rcases hx with hx | hx
          · exact .inl fun h => hx (List.mem_cons_of_mem _ h)
          · exact .inr hx
        · intro a x ha
          rw [f1 a x ha, hrepr a x ha]
        · intro x hx a hxa
          rcases List.mem_cons.1 hx with rfl | hx
          · rw [hh] at hxa
            simp only [Option.some.injEq] at hxa
            subst hxa
            rw [h4 x (.inl hgn), hng, f1 h r hm, hrepr h r hm]
          · exact f2 x hx a hxa
        · intro a b da db
          exact f3 a b (red a da) (red b db)
        · rintro a hnone ⟨x, hx, hxh⟩
          rcases List.mem_cons.1 hx with rfl | hx
          · rw [hh] at hxh
            simp only [Option.some.injEq] at hxh
            subst hxh
            rw [hm] at hnone; cases hnone
          · obtain ⟨q1, q2⟩ := f4 a hnone ⟨x, hx, hxh⟩
            refine ⟨q1, q2.imp_right fun q => ?_⟩
            rw [hkeys] at q
            simp only [Bool.or_eq_false_iff] at q
            exact q.1
        · intro hnil
          rw [hnil] at hm
          simp [Map.find] at hm
      | none =>
        rw [hm] at hok
        simp only at hok
        -- the common part: `g` becomes the representative of `h`, possibly under a new name
        have main : ∀ (c1 : Ctx) (news1 : List Name), Idx c1 reg → c1.ext = c.ext →
            (∀ x, x ≠ g → c1.name x = c.name x) →
            (∀ m, c.modules.has m = true → c1.modules.has m = true) → c1.name g ≠ [] →
            (∀ a x, nm.find a = some x → c1.name g ≠ c.name x) →
            (c1.name g = n ∨ c.modules.has (c1.name g) = false) →
            (nm = [] → c1.name g = n) → news1 ≠ [] →
            uniqInsts hash n gs (nm.emplace h g) news1 c1 = .ok c' →
            Idx c' reg ∧ c'.ext = c.ext ∧ (∀ m, c.modules.has m = true → c'.modules.has m = true) ∧
            (∀ x, x ∉ g :: gs ∨ hash.find x = none → c'.name x = c.name x) ∧
            ∃ f : Nat → Name,
              (∀ h r, nm.find h = some r → f h = c.name r) ∧
              (∀ x ∈ g :: gs, ∀ a, hash.find x = some a → c'.name x = f a) ∧
              (∀ h1 h2, (nm.find h1 ≠ none ∨ ∃ x ∈ g :: gs, hash.find x = some h1) →
                (nm.find h2 ≠ none ∨ ∃ x ∈ g :: gs, hash.find x = some h2) → f h1 = f h2 → h1 = h2) ∧
              (∀ a, nm.find a = none → (∃ x ∈ g :: gs, hash.find x = some a) →
                f a ≠ [] ∧ (f a = n ∨ c.modules.has (f a) = false)) ∧
              (nm = [] → ∀ g0 gs', (g :: gs).filter (fun x => (hash.find x).isSome) = g0 :: gs' →
                c'.name g0 = n) := by
          intro c1 news1 hi1 hext hsame hmono hne hdist hshape hfirst hnews1 hok1
          have hfe : ∀ a, (nm.emplace h g).find a = if a = h then some g else nm.find a := by
            intro a; rw [Map.find_emplace, hm]; rfl
          have hrepr : ∀ a x, nm.find a = some x → x ≠ g ∧ c1.name x = c.name x := by
            intro a x hf
            have hx : x ≠ g := fun e => (hr a x hf).2.1 (e ▸ List.mem_cons_self)
            exact ⟨hx, hsame x hx⟩
          obtain ⟨h1, h2, h3, h4, f, f1, f2, f3, f4, f5⟩ :=
            uniqInsts_spec hn gs (nm.emplace h g) news1 c1 c' hi1 hnd
              (fun x hx => ⟨(hgs' x hx).1, by
                rw [hsame x (fun e => hgn (e ▸ hx))]; exact (hgs' x hx).2⟩)
              (by
                intro a x hf
                rw [hfe] at hf
                split at hf
                · simp at hf; subst hf; exact ⟨hgr, hgn, hne⟩
                · obtain ⟨p1, p2, p3⟩ := hr a x hf
                  exact ⟨p1, fun hin => p2 (List.mem_cons_of_mem _ hin), by
                    rw [(hrepr a x hf).2]; exact p3⟩)
              (by
                intro a b x y ha hb e
                rw [hfe] at ha hb
                split at ha <;> split at hb
                · next e1 e2 => rw [e1, e2]
                · simp at ha; subst ha
                  rw [(hrepr b y hb).2] at e
                  exact absurd e (hdist b y hb)
                · simp at hb; subst hb
                  rw [(hrepr a x ha).2] at e
                  exact absurd e.symm (hdist a x ha)
                · exact hinj a b x y ha hb (by rwa [(hrepr a x ha).2, (hrepr b y hb).2] at e))
              ⟨fun e => absurd e hnews1, fun e => by have := hfe h; rw [e] at this; simp [Map.find] at this⟩ hok1
          have fg : f h = c1.name g := f1 h g (by rw [hfe]; simp)
          have red : ∀ a, (nm.find a ≠ none ∨ ∃ x ∈ g :: gs, hash.find x = some a) →
              ((nm.emplace h g).find a ≠ none ∨ ∃ x ∈ gs, hash.find x = some a) := by
            rintro a (ha | ⟨x, hx, hxh⟩)
            · left; rw [hfe]; split
              · simp
              · exact ha
            · rcases List.mem_cons.1 hx with rfl | hx
              · rw [hh] at hxh
                simp only [Option.some.injEq] at hxh
                subst hxh
                left; rw [hfe]; simp
              · exact .inr ⟨x, hx, hxh⟩
          refine ⟨h1, h2.trans hext, fun m hmk => h3 m (hmono m hmk), ?_, f, ?_, ?_, ?_, ?_, ?_⟩
          · intro x hx
            have hxg : x ≠ g := by
              rintro rfl
              rcases hx with hx | hx
              · exact hx List.mem_cons_self
              · rw [hh] at hx; cases hx
            rw [← hsame x hxg]
            apply h4
            rcases hx with hx | hx
            · exact .inl fun h => hx (List.mem_cons_of_mem _ h)
            · exact .inr hx
          · intro a x ha
            have hah : a ≠ h := by rintro rfl; rw [hm] at ha; cases ha
            rw [f1 a x (by rw [hfe]; simp [hah, ha]), (hrepr a x ha).2]
          · intro x hx a hxa
            rcases List.mem_cons.1 hx with rfl | hx
            · rw [hh] at hxa
              simp only [Option.some.injEq] at hxa
              subst hxa
              rw [h4 x (.inl hgn), fg]
            · exact f2 x hx a hxa
          · intro a b da db
            exact f3 a b (red a da) (red b db)
          · rintro a hnone ⟨x, hx, hxh⟩
            by_cases hah : a = h
            · subst hah
              rw [fg]
              exact ⟨hne, hshape⟩
            · rcases List.mem_cons.1 hx with rfl | hx
              · rw [hh] at hxh
                simp only [Option.some.injEq] at hxh
                exact absurd hxh.symm hah
              · obtain ⟨q1, q2⟩ := f4 a (by rw [hfe]; simp [hah, hnone]) ⟨x, hx, hxh⟩
                refine ⟨q1, q2.imp_right fun q => ?_⟩
                rw [Bool.eq_false_iff] at q ⊢
                exact fun hq => q (hmono _ hq)
          · intro hnil g0 gs0 he
            rw [List.filter_cons] at he
            simp only [hh, Option.isSome_some, if_true, List.cons.injEq] at he
            rw [← he.1, h4 g (.inl hgn)]
            exact hfirst hnil
        split at hok
        · next hemp =>
          have hnil : news = [] := List.isEmpty_iff.1 hemp
          have hnm : nm = [] := hnews.1 hnil
          refine main c [c.name g] hi rfl (fun _ _ => rfl) (fun _ h => h) hno ?_ (.inl hgname)
            (fun _ => hgname) (by simp) hok
          intro a x hf
          rw [hnm] at hf
          simp [Map.find] at hf
        · next hemp =>
          rw [Res.bind_eq_ok] at hok
          obtain ⟨new, hfree, hok⟩ := hok
          obtain ⟨hfresh, k, hk⟩ := freeFrom_ok _ _ _ _ _ hfree
          have hnew : new ≠ [] := by rw [hk]; exact unqName_ne_nil n k
          obtain ⟨c1, he, hi1, hname, hkeys, hext, -⟩ := hi.rename hgr hnew hno
          rw [he] at hok
          simp only [Res.ok_bind] at hok
          have hng : c1.name g = new := by rw [hname]; simp [updN]
          refine main c1 (insertPort news new) hi1 hext (fun x hx => by rw [hname]; simp [updN, hx])
            (fun m hmk => by rw [hkeys, hmk]; rfl) (by rw [hng]; exact hnew) ?_
            (.inr (by rw [hng]; exact hfresh)) ?_ ?_ hok
          · intro a x hf e
            have := hi.name_key (hr a x hf).1
            rw [← e, hng, hfresh] at this
            cases this
          · intro hnm
            exact absurd (List.isEmpty_iff.2 (hnews.2 hnm)) hemp
          · unfold insertPort
            split
            · intro e; rw [e] at hemp; simp at hemp
            · simp

/-! ### All names -/

theorem filter_ext_mem {c : Ctx} {l : List Nat} {g : Nat} :
    g ∈ l.filter (fun g => !c.ext g) ↔ g ∈ l ∧ c.ext g = false := by
  simp

/-- A generator the pass takes part in: it belongs to the context, is not external and has a hash. -/
def Takes (c : Ctx) (reg : Nat → Bool) (hash : Map Nat Nat) (g h : Nat) : Prop :=
  reg g = true ∧ c.ext g = false ∧ hash.find g = some h

/-- What the body of the loop does for one name. -/
theorem uniqName_spec {hash : Map Nat Nat} {tracked : Option (Nat → Bool)} {ord : List Nat → List Nat}
    (hord : ∀ l, (ord l).Perm l) {n : Name} {reg : Nat → Bool} (hn : n ≠ []) {c c' : Ctx} (hi : Idx c reg)
    (hok : uniqName hash tracked ord c n = .ok c') :
    Idx c' reg ∧ c'.ext = c.ext ∧ (∀ m, c.modules.has m = true → c'.modules.has m = true) ∧
    (∀ g, ¬ (reg g = true ∧ c.name g = n ∧ c.ext g = false ∧ hash.find g ≠ none) → c'.name g = c.name g) ∧
    (∀ g h, Takes c reg hash g h → c.name g = n →
      c'.name g ≠ [] ∧ (c'.name g = n ∨ c.modules.has (c'.name g) = false)) ∧
    (∀ g1 h1 g2 h2, Takes c reg hash g1 h1 → c.name g1 = n → Takes c reg hash g2 h2 → c.name g2 = n →
      (c'.name g1 = c'.name g2 ↔ h1 = h2)) ∧
    ((∃ g h, Takes c reg hash g h ∧ c.name g = n) →
      ∃ g h, Takes c reg hash g h ∧ c.name g = n ∧ c'.name g = n ∧
        (∀ t, tracked = some t → (∃ g h, Takes c reg hash g h ∧ c.name g = n ∧ t g = true) → t g = true)) := by
  unfold uniqName at hok
  simp only at hok
  generalize hin : (ord (c.lookup n)).filter (fun g => !c.ext g) = insts at hok
  have hmem : ∀ g, g ∈ insts ↔ reg g = true ∧ c.name g = n ∧ c.ext g = false := by
    intro g
    rw [← hin, filter_ext_mem, (hord _).mem_iff, hi.index]
    constructor
    · rintro ⟨⟨a, b⟩, d⟩; exact ⟨a, b, d⟩
    · rintro ⟨a, b, d⟩; exact ⟨⟨a, b⟩, d⟩
  have hnd : insts.Nodup := by
    rw [← hin]
    exact List.Sublist.nodup List.filter_sublist ((hord _).nodup_iff.2 (hi.nodup n))
  split at hok
  · next hlen =>
    simp only [Res.ok.injEq] at hok
    subst hok
    obtain ⟨g0, hg0⟩ := List.length_eq_one_iff.1 hlen
    have huniq : ∀ g h, Takes c reg hash g h → c.name g = n → g = g0 := by
      intro g h ht hg
      have := (hmem g).2 ⟨ht.1, hg, ht.2.1⟩
      rw [hg0] at this
      simpa using this
    refine ⟨hi, rfl, fun _ h => h, fun _ _ => rfl, ?_, ?_, ?_⟩
    · intro g h _ hg; exact ⟨by rw [hg]; exact hn, .inl hg⟩
    · intro g1 h1 g2 h2 t1 e1 t2 e2
      have := huniq g1 h1 t1 e1
      have := huniq g2 h2 t2 e2
      subst g1; subst g2
      have a := t1.2.2
      rw [t2.2.2] at a
      simp only [Option.some.injEq] at a
      simp [a]
    · rintro ⟨g, h, ht, hg⟩
      refine ⟨g, h, ht, hg, hg, ?_⟩
      rintro t - ⟨g', h', ht', hg', htr⟩
      rw [huniq g h ht hg, ← huniq g' h' ht' hg']
      exact htr
  · generalize hl : arrange tracked insts = l at hok
    have hperm : l.Perm insts := by
      rw [← hl]; unfold arrange; split
      · exact reorder_perm _ _
      · exact .refl _
    have hlm : ∀ g, g ∈ l ↔ reg g = true ∧ c.name g = n ∧ c.ext g = false := fun g =>
      (hperm.mem_iff).trans (hmem g)
    obtain ⟨h1, h2, h3, h4, f, f1, f2, f3, f4, f5⟩ :=
      uniqInsts_spec hn l [] [] c c' hi (hperm.nodup_iff.2 hnd)
        (fun g hg => ⟨((hlm g).1 hg).1, ((hlm g).1 hg).2.1⟩)
        (by intro h r hf; simp [Map.find] at hf) (by intro a b x y hf; simp [Map.find] at hf)
        ⟨fun _ => rfl, fun _ => rfl⟩ hok
    have tk : ∀ g h, Takes c reg hash g h → c.name g = n → g ∈ l :=
      fun g h ht hg => (hlm g).2 ⟨ht.1, hg, ht.2.1⟩
    refine ⟨h1, h2, h3, ?_, ?_, ?_, ?_⟩
    · intro g hg
      apply h4
      rcases Classical.em (g ∈ l) with hin | hin
      · right
        obtain ⟨a, b, d⟩ := (hlm g).1 hin
        rcases Classical.em (hash.find g = none) with e | e
        · exact e
        · exact absurd ⟨a, b, d, e⟩ hg
      · exact .inl hin
    · intro g h ht hg
      have := f4 h rfl ⟨g, tk g h ht hg, ht.2.2⟩
      rw [← f2 g (tk g h ht hg) h ht.2.2] at this
      exact this
    · intro g1 a1 g2 a2 t1 e1 t2 e2
      rw [f2 g1 (tk g1 a1 t1 e1) a1 t1.2.2, f2 g2 (tk g2 a2 t2 e2) a2 t2.2.2]
      constructor
      · exact f3 a1 a2 (.inr ⟨g1, tk g1 a1 t1 e1, t1.2.2⟩) (.inr ⟨g2, tk g2 a2 t2 e2, t2.2.2⟩)
      · rintro rfl; rfl
    · rintro ⟨g, h, ht, hg⟩
      have hgin : g ∈ l.filter (fun x => (hash.find x).isSome) := by
        rw [List.mem_filter]
        exact ⟨tk g h ht hg, by rw [ht.2.2]; rfl⟩
      obtain ⟨g0, gs', hfil⟩ := List.exists_cons_of_ne_nil (List.ne_nil_of_mem hgin)
      have hg0 : g0 ∈ l.filter (fun x => (hash.find x).isSome) := by rw [hfil]; exact List.mem_cons_self
      rw [List.mem_filter] at hg0
      obtain ⟨a, b, d⟩ := (hlm g0).1 hg0.1
      obtain ⟨h0, hh0⟩ := Option.isSome_iff_exists.1 hg0.2
      refine ⟨g0, h0, ⟨a, d, hh0⟩, b, f5 rfl g0 gs' hfil, ?_⟩
      rintro t ht' ⟨g', h', ht1, hg1, htr⟩
      rw [ht'] at hl
      simp only [arrange] at hl
      obtain ⟨xs, ys, he, hxs, hys⟩ := reorder_tracked_first t insts
      rw [hl] at he
      rw [he, List.filter_append] at hfil
      have hin' : g' ∈ xs.filter (fun x => (hash.find x).isSome) := by
        rw [List.mem_filter]
        refine ⟨?_, by rw [ht1.2.2]; rfl⟩
        have := tk g' h' ht1 hg1
        rw [he] at this
        rcases List.mem_append.1 this with h | h
        · exact h
        · rw [hys g' h] at htr; cases htr
      obtain ⟨z, zs, hz⟩ := List.exists_cons_of_ne_nil (List.ne_nil_of_mem hin')
      rw [hz] at hfil
      simp only [List.cons_append, List.cons.injEq] at hfil
      rw [← hfil.1]
      apply hxs
      have : z ∈ xs.filter (fun x => (hash.find x).isSome) := by rw [hz]; exact List.mem_cons_self
      exact (List.mem_filter.1 this).1

/-- State of the loop over names: `done` are the names handled, `rest` those to come. -/
structure UInv (c0 : Ctx) (reg : Nat → Bool) (hash : Map Nat Nat) (tracked : Option (Nat → Bool))
    (rest : List Name) (c : Ctx) : Prop where
  idx : Idx c reg
  ext : c.ext = c0.ext
  mono : ∀ m, c0.modules.has m = true → c.modules.has m = true
  keep : ∀ g, ¬ (reg g = true ∧ c0.ext g = false ∧ hash.find g ≠ none) → c.name g = c0.name g
  todo : ∀ g, c0.name g ∈ rest → c.name g = c0.name g
  shape : ∀ g h, Takes c0 reg hash g h →
    c.name g ≠ [] ∧ (c.name g = c0.name g ∨ c0.modules.has (c.name g) = false)
  same : ∀ g1 h1 g2 h2, Takes c0 reg hash g1 h1 → Takes c0 reg hash g2 h2 →
    c0.name g1 ∉ rest → c0.name g2 ∉ rest →
    (c.name g1 = c.name g2 ↔ c0.name g1 = c0.name g2 ∧ h1 = h2)
  kept : ∀ n, n ∉ rest → (∃ g h, Takes c0 reg hash g h ∧ c0.name g = n) →
    ∃ g h, Takes c0 reg hash g h ∧ c0.name g = n ∧ c.name g = n ∧
      (∀ t, tracked = some t → (∃ g h, Takes c0 reg hash g h ∧ c0.name g = n ∧ t g = true) → t g = true)

theorem uniquify_step {hash : Map Nat Nat} {tracked : Option (Nat → Bool)} {ord : List Nat → List Nat}
    (hord : ∀ l, (ord l).Perm l) {c0 : Ctx} {reg : Nat → Bool}
    (hne : ∀ g, reg g = true → c0.name g ≠ []) {n : Name} {ns : List Name} {c c1 : Ctx}
    (hnd : (n :: ns).Nodup) (hkeys : ∀ m ∈ n :: ns, c0.modules.has m = true)
    (hu : UInv c0 reg hash tracked (n :: ns) c) (h1 : uniqName hash tracked ord c n = .ok c1) :
    UInv c0 reg hash tracked ns c1 := by
  rw [List.nodup_cons] at hnd
  have tkc : ∀ g h, Takes c0 reg hash g h ↔ Takes c reg hash g h := by
    intro g h; unfold Takes; rw [hu.ext]
  have hnk := hkeys n List.mem_cons_self
  -- which generators carry `n` now
  have cur : ∀ g, reg g = true → (c.name g = n ↔ c0.name g = n) := by
    intro g hg
    constructor
    · intro e
      rcases Classical.em (∃ h, Takes c0 reg hash g h) with ⟨h, ht⟩ | hno
      · rcases (hu.shape g h ht).2 with e' | e'
        · rw [← e', e]
        · rw [e, hnk] at e'; cases e'
      · rw [← hu.keep g, e]
        rintro ⟨a, b, d⟩
        obtain ⟨h, hh⟩ := Option.ne_none_iff_exists'.1 d
        exact hno ⟨h, a, b, hh⟩
    · intro e
      rw [hu.todo g (by rw [e]; exact List.mem_cons_self), e]
  by_cases hempty : n = []
  · -- nobody carries the empty name: nothing happens
    have hnone : ∀ g, ¬ (reg g = true ∧ c.name g = n ∧ c.ext g = false) := by
      rintro g ⟨a, b, -⟩
      exact hne g a (((cur g a).1 b).trans hempty)
    have hl : (ord (c.lookup n)).filter (fun g => !c.ext g) = [] := by
      rw [List.filter_eq_nil_iff]
      intro g hg
      rw [(hord _).mem_iff, hu.idx.index] at hg
      simp only [Bool.not_eq_true', Bool.not_eq_false]
      rcases Bool.eq_false_or_eq_true (c.ext g) with e | e
      · exact e
      · exact absurd ⟨hg.1, hg.2, e⟩ (hnone g)
    have : c1 = c := by
      unfold uniqName at h1
      rw [hl] at h1
      cases tracked <;> simp [uniqInsts, arrange, reorder] at h1 <;> exact h1.symm
    subst this
    have hnot : ∀ g h, Takes c0 reg hash g h → c0.name g ≠ n := by
      intro g h ht e
      exact hne g ht.1 (e.trans hempty)
    exact ⟨hu.idx, hu.ext, hu.mono, hu.keep, fun g hg => hu.todo g (List.mem_cons_of_mem _ hg), hu.shape,
      fun g1 a1 g2 a2 t1 t2 n1 n2 => hu.same g1 a1 g2 a2 t1 t2
        (by simp only [List.mem_cons, not_or]; exact ⟨hnot g1 a1 t1, n1⟩)
        (by simp only [List.mem_cons, not_or]; exact ⟨hnot g2 a2 t2, n2⟩),
      fun m hm hex => hu.kept m (by
        simp only [List.mem_cons, not_or]
        obtain ⟨g, h, ht, e⟩ := hex
        exact ⟨fun e' => hnot g h ht (e.trans e'), hm⟩) hex⟩
  · obtain ⟨s1, s2, s3, s4, s5, s6, s7⟩ := uniqName_spec hord hempty hu.idx h1
    have keepn : ∀ g, reg g = true → c0.name g ≠ n → c1.name g = c.name g := by
      intro g hg hgn
      apply s4
      rintro ⟨-, e, -⟩
      exact hgn ((cur g hg).1 e)
    refine ⟨s1, s2.trans hu.ext, fun m hm => s3 m (hu.mono m hm), ?_, ?_, ?_, ?_, ?_⟩
    · intro g hg
      rw [s4 g, hu.keep g hg]
      rintro ⟨a, -, b, d⟩
      rw [hu.ext] at b
      exact hg ⟨a, b, d⟩
    · intro g hg
      have hgn : c0.name g ≠ n := fun e => hnd.1 (e ▸ hg)
      have := hu.todo g (List.mem_cons_of_mem _ hg)
      rcases Bool.eq_false_or_eq_true (reg g) with hr | hr
      · rw [keepn g hr hgn, this]
      · rw [s4 g (by rw [hr]; simp), this]
    · intro g h ht
      by_cases hgn : c0.name g = n
      · obtain ⟨p1, p2⟩ := s5 g h ((tkc g h).1 ht) ((cur g ht.1).2 hgn)
        refine ⟨p1, ?_⟩
        rcases p2 with p2 | p2
        · exact .inl (p2.trans hgn.symm)
        · right
          rw [Bool.eq_false_iff] at p2 ⊢
          exact fun hh => p2 (hu.mono _ hh)
      · rw [keepn g ht.1 hgn]
        exact hu.shape g h ht
    · -- a handled generator never meets a generator of the current name
      have cross : ∀ g1 a1 g2 a2, Takes c0 reg hash g1 a1 → Takes c0 reg hash g2 a2 →
          c0.name g1 = n → c0.name g2 ≠ n → c1.name g1 ≠ c1.name g2 := by
        intro g1 a1 g2 a2 t1 t2 e1 e2 he
        rw [keepn g2 t2.1 e2] at he
        rcases (s5 g1 a1 ((tkc g1 a1).1 t1) ((cur g1 t1.1).2 e1)).2 with p | p
        · rw [p] at he
          exact e2 ((cur g2 t2.1).1 he.symm)
        · rw [he] at p
          have := hu.idx.name_key t2.1
          rw [p] at this; cases this
      intro g1 a1 g2 a2 t1 t2 n1 n2
      by_cases e1 : c0.name g1 = n <;> by_cases e2 : c0.name g2 = n
      · rw [s6 g1 a1 g2 a2 ((tkc g1 a1).1 t1) ((cur g1 t1.1).2 e1) ((tkc g2 a2).1 t2) ((cur g2 t2.1).2 e2)]
        simp [e1, e2]
      · constructor
        · intro he; exact absurd he (cross g1 a1 g2 a2 t1 t2 e1 e2)
        · rintro ⟨he, -⟩; exact absurd (he.symm.trans e1) e2
      · constructor
        · intro he; exact absurd he.symm (cross g2 a2 g1 a1 t2 t1 e2 e1)
        · rintro ⟨he, -⟩; exact absurd (he.trans e2) e1
      · rw [keepn g1 t1.1 e1, keepn g2 t2.1 e2]
        exact hu.same g1 a1 g2 a2 t1 t2 (by simp only [List.mem_cons, not_or]; exact ⟨e1, n1⟩)
          (by simp only [List.mem_cons, not_or]; exact ⟨e2, n2⟩)
    · intro m hm hex
      by_cases hmn : m = n
      · subst hmn
        obtain ⟨g, h, ht, e⟩ := hex
        obtain ⟨g', h', ht', e', k', tr⟩ := s7 ⟨g, h, (tkc g h).1 ht, (cur g ht.1).2 e⟩
        refine ⟨g', h', (tkc g' h').2 ht', (cur g' ht'.1).1 e', k', ?_⟩
        rintro t ht'' ⟨x, y, tx, ex, hx⟩
        exact tr t ht'' ⟨x, y, (tkc x y).1 tx, (cur x tx.1).2 ex, hx⟩
      · obtain ⟨g, h, ht, e, k, tr⟩ := hu.kept m (by simp only [List.mem_cons, not_or]; exact ⟨hmn, hm⟩) hex
        exact ⟨g, h, ht, e, by rw [keepn g ht.1 (by rw [e]; exact hmn)]; exact k, tr⟩

theorem uniquify_inv {hash : Map Nat Nat} {tracked : Option (Nat → Bool)} {ord : List Nat → List Nat}
    (hord : ∀ l, (ord l).Perm l) {c0 : Ctx} {reg : Nat → Bool}
    (hne : ∀ g, reg g = true → c0.name g ≠ []) :
    ∀ (rest : List Name) (c c' : Ctx), rest.Nodup → (∀ n ∈ rest, c0.modules.has n = true) →
      UInv c0 reg hash tracked rest c → uniquify hash tracked ord rest c = .ok c' →
      UInv c0 reg hash tracked [] c'
  | [], c, c', _, _, hu, hok => by
    simp only [uniquify, Res.ok.injEq] at hok
    subst hok
    exact hu
  | n :: ns, c, c', hnd, hkeys, hu, hok => by
    simp only [uniquify, Res.bind_eq_ok] at hok
    obtain ⟨c1, h1, hok⟩ := hok
    exact uniquify_inv hord hne ns c1 c' (List.nodup_cons.1 hnd).2
      (fun m hm => hkeys m (List.mem_cons_of_mem _ hm)) (uniquify_step hord hne hnd hkeys hu h1) hok

theorem uinv_start {c0 : Ctx} {reg : Nat → Bool} {hash : Map Nat Nat} {tracked : Option (Nat → Bool)} (h0 : Idx c0 reg)
    (hne : ∀ g, reg g = true → c0.name g ≠ []) {rest : List Name} (hall : ∀ g, reg g = true → c0.name g ∈ rest) :
    UInv c0 reg hash tracked rest c0 :=
  ⟨h0, rfl, fun _ h => h, fun _ _ => rfl, fun _ _ => rfl, fun g _ ht => ⟨hne g ht.1, .inl rfl⟩,
   fun g1 _ _ _ t1 _ n1 _ => absurd (hall g1 t1.1) n1,
   fun n hn hex => by
    obtain ⟨g, h, ht, e⟩ := hex
    exact absurd (e ▸ hall g ht.1) hn⟩

/-- **C43.**  For every reachable context (no renaming to or from the empty name), every assignment
of hashes, with or without tracking, and every iteration order of the two containers: after
uniquification two generators that take part have the same module name exactly when they had the
same name and have equal hashes; a changed name is one no generator of the context had; generators
that do not take part keep their name; of the generators of one name, one keeps it, a tracked one if
there is one; and the index is still exact. -/
theorem uniquify_names_partial (kw : Name → Bool) (hash : Map Nat Nat) (tracked : Option (Nat → Bool))
    (ord : List Nat → List Nat) (hord : ∀ l, (ord l).Perm l) (c : Ctx) (reg : Nat → Bool)
    (hreach : CReach kw (fun c reg o => o.safe c reg) c reg) (hne : ∀ g, reg g = true → c.name g ≠ [])
    (names : List Name) (hnames : names.Perm c.modules.keys) (c' : Ctx)
    (hok : uniquify hash tracked ord names c = .ok c') :
    (∀ g1 h1 g2 h2, Takes c reg hash g1 h1 → Takes c reg hash g2 h2 →
      (c'.name g1 = c'.name g2 ↔ c.name g1 = c.name g2 ∧ h1 = h2)) ∧
    (∀ g h, Takes c reg hash g h → c'.name g ≠ c.name g → ∀ g', reg g' = true → c.name g' ≠ c'.name g) ∧
    (∀ g, ¬ (∃ h, Takes c reg hash g h) → c'.name g = c.name g) ∧
    (∀ g h, Takes c reg hash g h → ∃ g' h', Takes c reg hash g' h' ∧ c.name g' = c.name g ∧
      c'.name g' = c.name g ∧ (∀ t, tracked = some t → t g = true → t g' = true)) ∧
    IndexOk c' reg := by
  have h0 := idx_reach hreach
  have hall : ∀ g, reg g = true → c.name g ∈ names := by
    intro g hg
    rw [hnames.mem_iff]
    exact Map.has_iff.1 (h0.name_key hg)
  have hu := uniquify_inv hord hne names c c' (hnames.nodup_iff.2 h0.keys)
    (fun n hn => Map.has_iff.2 (hnames.mem_iff.1 hn)) (uinv_start h0 hne hall) hok
  refine ⟨fun g1 h1 g2 h2 t1 t2 => hu.same g1 h1 g2 h2 t1 t2 (by simp) (by simp), ?_, ?_, ?_, hu.idx.index⟩
  · intro g h ht hch g' hg' e
    rcases (hu.shape g h ht).2 with p | p
    · exact hch p
    · have := h0.name_key hg'
      rw [e, p] at this; cases this
  · intro g hg
    apply hu.keep
    rintro ⟨a, b, d⟩
    obtain ⟨h, hh⟩ := Option.ne_none_iff_exists'.1 d
    exact hg ⟨h, a, b, hh⟩
  · intro g h ht
    obtain ⟨g', h', ht', e', k', tr⟩ := hu.kept (c.name g) (by simp) ⟨g, h, ht, rfl⟩
    exact ⟨g', h', ht', e', k', fun t e1 e2 => tr t e1 ⟨g, h, ht, rfl, e2⟩⟩

/-! ### The pass returns -/

theorem uniqInsts_ok {hash : Map Nat Nat} {n : Name} {reg : Nat → Bool} (hn : n ≠ []) :
    ∀ (gs : List Nat) (nm : Map Nat Nat) (news : List Name) (c : Ctx),
    Idx c reg → gs.Nodup → (∀ g ∈ gs, reg g = true ∧ c.name g = n) →
    (∀ h r, nm.find h = some r → reg r = true ∧ r ∉ gs ∧ c.name r ≠ []) →
    c.modules.length + gs.length < 2 ^ 32 →
    ∃ c', uniqInsts hash n gs nm news c = .ok c' ∧ c'.modules.length ≤ c.modules.length + gs.length
  | [], _, _, c, _, _, _, _, _ => ⟨c, rfl, by simp⟩
  | g :: gs, nm, news, c, hi, hnd, hgs, hr, hlen => by
    rw [List.nodup_cons] at hnd
    obtain ⟨hgn, hnd⟩ := hnd
    obtain ⟨hgr, hgname⟩ := hgs g List.mem_cons_self
    have hno : c.name g ≠ [] := by rw [hgname]; exact hn
    simp only [List.length_cons] at hlen
    have hgs' : ∀ x ∈ gs, reg x = true ∧ c.name x = n := fun x hx => hgs x (List.mem_cons_of_mem _ hx)
    have hr' : ∀ h r, nm.find h = some r → reg r = true ∧ r ∉ gs ∧ c.name r ≠ [] := fun h r hf =>
      ⟨(hr h r hf).1, fun hin => (hr h r hf).2.1 (List.mem_cons_of_mem _ hin), (hr h r hf).2.2⟩
    have hrg : ∀ h r, nm.find h = some r → r ≠ g := fun h r hf e => (hr h r hf).2.1 (e ▸ List.mem_cons_self)
    simp only [uniqInsts]
    cases hh : hash.find g with
    | none =>
      obtain ⟨c', h1, h2⟩ := uniqInsts_ok hn gs nm news c hi hnd hgs' hr' (by omega)
      exact ⟨c', h1, by simp only [List.length_cons]; omega⟩
    | some h =>
      simp only
      -- continuing after `g` was renamed to a non-empty name
      have go : ∀ (new : Name) (nm1 : Map Nat Nat) (news1 : List Name), new ≠ [] →
          (∀ a x, nm1.find a = some x → x = g ∨ nm.find a = some x) →
          ∃ c', ((changeName c g new).2.bind fun _ => uniqInsts hash n gs nm1 news1 (changeName c g new).1) = .ok c' ∧
            c'.modules.length ≤ c.modules.length + (gs.length + 1) := by
        intro new nm1 news1 hnew hnm1
        obtain ⟨c1, he, hi1, hname, hkeys, hext, hl⟩ := hi.rename hgr hnew hno
        rw [he]
        simp only [Res.ok_bind]
        have hsame : ∀ x, x ≠ g → c1.name x = c.name x := by intro x hx; rw [hname]; simp [updN, hx]
        obtain ⟨c', h1, h2⟩ := uniqInsts_ok hn gs nm1 news1 c1 hi1 hnd
          (fun x hx => ⟨(hgs' x hx).1, by rw [hsame x (fun e => hgn (e ▸ hx))]; exact (hgs' x hx).2⟩)
          (by
            intro a x hf
            rcases hnm1 a x hf with rfl | hf
            · exact ⟨hgr, hgn, by rw [hname]; simpa [updN] using hnew⟩
            · exact ⟨(hr' a x hf).1, (hr' a x hf).2.1, by rw [hsame x (hrg a x hf)]; exact (hr' a x hf).2.2⟩)
          (by omega)
        exact ⟨c', h1, by omega⟩
      cases hm : nm.find h with
      | some r => exact go (c.name r) nm news (hr h r hm).2.2 (fun a x hf => .inr hf)
      | none =>
        simp only
        have hem : ∀ a x, (nm.emplace h g).find a = some x → x = g ∨ nm.find a = some x := by
          intro a x hf
          rw [Map.find_emplace, hm] at hf
          split at hf
          · simp at hf; exact .inl hf.symm
          · exact .inr hf
        split
        · obtain ⟨c', h1, h2⟩ := uniqInsts_ok hn gs (nm.emplace h g) [c.name g] c hi hnd hgs'
            (by
              intro a x hf
              rcases hem a x hf with rfl | hf
              · exact ⟨hgr, hgn, hno⟩
              · exact hr' a x hf) (by omega)
          exact ⟨c', h1, by simp only [List.length_cons]; omega⟩
        · obtain ⟨new, hfree⟩ := freeFrom_terminates' c.modules (unqName n) (fun a b e => unqName_inj e)
            (by omega) ((news.length - 1) % 2 ^ 32) (Nat.mod_lt _ (by omega))
          rw [hfree]
          simp only [Res.ok_bind]
          obtain ⟨-, k, hk⟩ := freeFrom_ok _ _ _ _ _ hfree
          exact go new _ _ (by rw [hk]; exact unqName_ne_nil n k) hem

theorem uniquify_ok {hash : Map Nat Nat} {tracked : Option (Nat → Bool)} {ord : List Nat → List Nat}
    (hord : ∀ l, (ord l).Perm l) {c0 : Ctx} {reg : Nat → Bool} (h0 : Idx c0 reg)
    (hne : ∀ g, reg g = true → c0.name g ≠ []) :
    ∀ (rest : List Name) (c : Ctx), rest.Nodup → (∀ n ∈ rest, c0.modules.has n = true) →
      UInv c0 reg hash tracked rest c →
      c.modules.length + (rest.map fun n => (c0.lookup n).length).sum < 2 ^ 32 →
      ∃ c', uniquify hash tracked ord rest c = .ok c'
  | [], c, _, _, _, _ => ⟨c, rfl⟩
  | n :: ns, c, hnd, hkeys, hu, hlen => by
    have hnd' := hnd
    rw [List.nodup_cons] at hnd
    simp only [List.map_cons, List.sum_cons] at hlen
    have hnk := hkeys n List.mem_cons_self
    have cur : ∀ g, reg g = true → (c.name g = n ↔ c0.name g = n) := by
      intro g hg
      constructor
      · intro e
        rcases Classical.em (∃ h, Takes c0 reg hash g h) with ⟨h, ht⟩ | hno
        · rcases (hu.shape g h ht).2 with e' | e'
          · rw [← e', e]
          · rw [e, hnk] at e'; cases e'
        · rw [← hu.keep g, e]
          rintro ⟨a, b, d⟩
          obtain ⟨h, hh⟩ := Option.ne_none_iff_exists'.1 d
          exact hno ⟨h, a, b, hh⟩
      · intro e
        rw [hu.todo g (by rw [e]; exact List.mem_cons_self), e]
    have hsub : ∀ g, g ∈ (ord (c.lookup n)).filter (fun g => !c.ext g) → reg g = true ∧ c.name g = n := by
      intro g hg
      rw [List.mem_filter, (hord _).mem_iff, hu.idx.index] at hg
      exact hg.1
    have hndi : ((ord (c.lookup n)).filter (fun g => !c.ext g)).Nodup :=
      List.Sublist.nodup List.filter_sublist ((hord _).nodup_iff.2 (hu.idx.nodup n))
    have hle : ((ord (c.lookup n)).filter (fun g => !c.ext g)).length ≤ (c0.lookup n).length := by
      apply nodup_subset_length hndi
      intro g hg
      obtain ⟨a, b⟩ := hsub g hg
      exact (h0.index n g).2 ⟨a, (cur g a).1 b⟩
    have hone : ∃ c1, uniqName hash tracked ord c n = .ok c1 ∧
        c1.modules.length ≤ c.modules.length + (c0.lookup n).length := by
      unfold uniqName
      simp only
      generalize hin : (ord (c.lookup n)).filter (fun g => !c.ext g) = insts at hsub hndi hle
      split
      · exact ⟨c, rfl, by omega⟩
      · by_cases hempty : n = []
        · have : insts = [] := by
            apply List.eq_nil_iff_forall_not_mem.2
            intro g hg
            obtain ⟨a, b⟩ := hsub g hg
            exact hne g a (((cur g a).1 b).trans hempty)
          subst this
          refine ⟨c, ?_, by omega⟩
          cases tracked <;> simp [uniqInsts, arrange, reorder]
        · have hp : (arrange tracked insts).Perm insts := by
            unfold arrange; split
            · exact reorder_perm _ _
            · exact .refl _
          have hpl := hp.length_eq
          obtain ⟨c1, h1, h2⟩ := uniqInsts_ok (hash := hash) hempty (arrange tracked insts) [] [] c hu.idx
            (hp.nodup_iff.2 hndi) (fun g hg => hsub g (hp.mem_iff.1 hg))
            (by intro h r hf; simp [Map.find] at hf) (by omega)
          exact ⟨c1, h1, by omega⟩
    obtain ⟨c1, h1, h2⟩ := hone
    simp only [uniquify, h1, Res.ok_bind]
    have step : UInv c0 reg hash tracked ns c1 :=
      uniquify_step hord hne hnd' hkeys hu h1
    exact uniquify_ok hord h0 hne ns c1 hnd.2 (fun m hm => hkeys m (List.mem_cons_of_mem _ hm)) step (by omega)

/-- **C43.**  The pass always returns, as long as the names and generators of the context number
fewer than 2³² together. -/
theorem uniquify_terminates (kw : Name → Bool) (hash : Map Nat Nat) (tracked : Option (Nat → Bool))
    (ord : List Nat → List Nat) (hord : ∀ l, (ord l).Perm l) (c : Ctx) (reg : Nat → Bool)
    (hreach : CReach kw (fun c reg o => o.safe c reg) c reg) (hne : ∀ g, reg g = true → c.name g ≠ [])
    (names : List Name) (hnames : names.Perm c.modules.keys)
    (hlen : c.modules.length + (names.map fun n => (c.lookup n).length).sum < 2 ^ 32) :
    ∃ c', uniquify hash tracked ord names c = .ok c' := by
  have h0 := idx_reach hreach
  have hall : ∀ g, reg g = true → c.name g ∈ names := by
    intro g hg
    rw [hnames.mem_iff]
    exact Map.has_iff.1 (h0.name_key hg)
  exact uniquify_ok hord h0 hne names c (hnames.nodup_iff.2 h0.keys)
    (fun n hn => Map.has_iff.2 (hnames.mem_iff.1 hn)) (uinv_start h0 hne hall) hlen

/-! ### A clone does not follow its definition -/

/-- Two different modules named `a`, and a clone of the second: uniquification renames the second
to `a_unq0`, and its clone, which is instantiated under its own module name, is still called `a`. -/
theorem clone_left_behind :
    let s := cops noKw emptyCtx (fun _ => false) [.create nA, .create nA, .clone 1]
    s.1.cloneOf 2 = some 1 ∧ s.1.name 2 = s.1.name 1 ∧
    ∃ c', uniquify [(0, 10), (1, 11)] none id s.1.modules.keys s.1 = .ok c' ∧
      c'.name 1 = unqName nA 0 ∧ c'.name 2 = nA ∧ c'.name 0 = nA := by
  refine ⟨by decide +kernel, by decide +kernel, ?_⟩
  obtain ⟨c', h, a, b, d⟩ : ∃ c', uniquify [(0, 10), (1, 11)] none id
      (cops noKw emptyCtx (fun _ => false) [.create nA, .create nA, .clone 1]).1.modules.keys
      (cops noKw emptyCtx (fun _ => false) [.create nA, .create nA, .clone 1]).1 = .ok c' ∧
      c'.name 1 = unqName nA 0 ∧ c'.name 2 = nA ∧ c'.name 0 = nA := ⟨_, rfl, rfl, rfl, rfl⟩
  exact ⟨c', h, a, b, d⟩

/-! ### The hypotheses are met -/

/-- Four generators: `a` three times (hashes 7, 8, 7) and one already called `a_unq0`. -/
def uctx : Ctx × (Nat → Bool) := cops noKw emptyCtx (fun _ => false)
  [.create nA, .create nA, .create nA, .create (unqName nA 0)]

theorem uctx_reach : CReach noKw (fun c reg o => o.safe c reg) uctx.1 uctx.2 := by
  refine creach_cops _ emptyCtx (fun _ => false) CReach.init ?_ ?_
  · intro c reg o ho
    simp only [List.mem_cons, List.not_mem_nil, or_false] at ho
    rcases ho with rfl | rfl | rfl | rfl <;> trivial
  · intro i hi
    match i, hi with
    | 0, _ => trivial
    | 1, _ => trivial
    | 2, _ => trivial
    | 3, _ => trivial

def uhash : Map Nat Nat := [(0, 7), (1, 8), (2, 7), (3, 9)]

example : Takes uctx.1 uctx.2 uhash 0 7 ∧ Takes uctx.1 uctx.2 uhash 1 8 := by
  refine ⟨⟨?_, ?_, ?_⟩, ⟨?_, ?_, ?_⟩⟩ <;> decide +kernel

example : uctx.1.modules.length + (uctx.1.modules.keys.map fun n => (uctx.1.lookup n).length).sum < 2 ^ 32 := by
  decide +kernel

example : (uniquify uhash none id uctx.1.modules.keys uctx.1).map (fun c => [c.name 0, c.name 1, c.name 2, c.name 3])
    = .ok [nA, unqName nA 1, nA, unqName nA 0] := by
  decide +kernel

example : (uniquify uhash (some fun g => g == 1) id uctx.1.modules.keys uctx.1).map
    (fun c => [c.name 0, c.name 1, c.name 2, c.name 3]) = .ok [unqName nA 1, nA, unqName nA 1, unqName nA 0] := by
  decide +kernel

example : ∀ g, uctx.2 g = true → uctx.1.name g ≠ [] := by
  intro g hg
  have hb := (idx_reach uctx_reach).bound g hg
  have : uctx.1.next = 4 := by decide +kernel
  rw [this] at hb
  match g, hb with
  | 0, _ => decide +kernel
  | 1, _ => decide +kernel
  | 2, _ => decide +kernel
  | 3, _ => decide +kernel

end Kratos.Gen
