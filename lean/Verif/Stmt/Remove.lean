import Verif.Stmt.HeapProps

/-!
# C133: removing statements

The heap of C64 with what a generator keeps for removing statements in a batch.
-/

namespace Kratos.Remove

open Kratos.Heap

/-! ### One statement -/

/-- The statements, and for every generator `use_stmts_remove_cache_` and `stmts_remove_cache_` (a set, kept
here as a list of which only the members matter) (src/generator.hh:283; src/generator.cc:623-645). -/
structure S where
  heap : Heap
  caching : Nat → Bool
  pending : Nat → List Nat

/-- `Generator::remove_stmt` (src/generator.cc:625-634). -/
def genRemove (x : S) (g s : Nat) : S :=
  if x.caching g then { x with pending := upd x.pending g (s :: x.pending g) }
  else { x with heap := removeStmt x.heap g s }

/-- `IfStmt::remove_stmt` (src/stmt.cc:274-287). -/
def ifRemove (h : Heap) (t e s : Nat) : Heap :=
  if (h.stmts t).contains s then removeStmt h t s
  else if (h.stmts e).contains s then removeStmt h e s
  else h

/-- `SwitchStmt::remove_stmt` (src/stmt.cc:601-610) with `remove_switch_case(c, stmt)` (593-599): every case is
looked at. The loop leaves the statements of a case as soon as it has erased one of them. The cases
are visited by address in the library, here by insertion. -/
def switchRemove (s : Nat) : Heap → List (Option Nat × Nat) → Heap
  | h, [] => h
  | h, (_, b) :: cs => switchRemove s (if (h.stmts b).contains s then removeStmt h b s else h) cs

/-- `p.remove_stmt(s)`: the virtual functions (src/stmt.hh:74 for statements that hold none, and for loops;
src/stmt.cc:463-466 for blocks) and the one of generators. -/
def removeIn (x : S) (p s : Nat) : Res S :=
  match x.heap.kind p with
  | .free => .ub
  | .gen => .ok (genRemove x p s)
  | .leaf _ _ => .ok x
  | .block _ => .ok { x with heap := removeStmt x.heap p s }
  | .ifS t e => .ok { x with heap := ifRemove x.heap t e s }
  | .forS _ _ => .ok x
  | .switchS => .ok { x with heap := switchRemove s x.heap (x.heap.cases p) }

/-- `Stmt::remove_from_parent` (src/stmt.cc:83-94). -/
def removeFromParent (x : S) (s : Nat) : Res S :=
  match x.heap.parent s with
  | none => .ok x
  | some p => removeIn x p s

/-- `remove_stmt_from_parent` (src/util.cc:236-268). -/
def removeStmtFromParent (x : S) (s : Nat) : Res S :=
  match x.heap.parent s with
  | none => .ok x
  | some p => match x.heap.kind p with
    | .leaf _ _ => .throw .stmt
    | .forS _ _ => .throw .stmt
    | _ => removeIn x p s

/-! ### Specification -/

/-- `q` is a list of statements that belongs to `p`: that of the block or generator itself, of a branch of the `if`, or of
a case of the `switch`. -/
inductive ListOf (h : Heap) (p : Nat) : Nat → Prop where
  | block {t} : h.kind p = .block t → ListOf h p p
  | gen : h.kind p = .gen → ListOf h p p
  | thenB {t e} : h.kind p = .ifS t e → ListOf h p t
  | elseB {t e} : h.kind p = .ifS t e → ListOf h p e
  | case {k b} : h.kind p = .switchS → (k, b) ∈ h.cases p → ListOf h p b

/-- Nothing but statement lists differs, and those only in that `s` is gone from the lists selected. -/
structure GoneFrom (h h' : Heap) (s : Nat) (sel : Nat → Prop) : Prop where
  gone : ∀ q, sel q → h'.stmts q = (h.stmts q).filter (· != s)
  kept : ∀ q, ¬ sel q → h'.stmts q = h.stmts q
  kind : h'.kind = h.kind
  cases : h'.cases = h.cases
  parent : h'.parent = h.parent

/-- No generator collects removals. -/
def Direct (h : Heap) (x : S) : Prop := x.heap = h ∧ ∀ g, x.caching g = false

/-- The full claim: whatever has been done before, `s.remove_from_parent()` takes the statement out of the design. -/
def RemoveClaim : Prop := ∀ f os x x' s, Direct (after f os) x → removeFromParent x s = .ok x' →
  GoneFrom x.heap x'.heap s (fun _ => True)

/-! ### Invariants of careful histories -/

def holder : Kind → Bool
  | .block _ => true
  | .gen => true
  | _ => false

/-- Where lists of statements are. -/
structure Typed (h : Heap) : Prop where
  lists : ∀ n, h.stmts n ≠ [] → holder (h.kind n) = true
  ifs : ∀ n t e, h.kind n = .ifS t e → isBlock (h.kind t) = true ∧ isBlock (h.kind e) = true
  fors : ∀ n b g, h.kind n = .forS b g → isBlock (h.kind b) = true
  cases : ∀ n k b, (k, b) ∈ h.cases n → isBlock (h.kind b) = true
  free : ∀ n, h.next ≤ n → h.kind n = .free
  nodup : ∀ n, (h.stmts n).Nodup

theorem Typed.withP {h : Heap} (ht : Typed h) (P : Nat → Option Nat) : Typed (h.withP P) :=
  ⟨ht.lists, ht.ifs, ht.fors, ht.cases, ht.free, ht.nodup⟩

theorem holder_of_block {k : Kind} (h : isBlock k = true) : holder k = true := by
  cases k <;> simp_all [isBlock, holder]

theorem Typed.push {h : Heap} (ht : Typed h) {b s : Nat} (hb : holder (h.kind b) = true) (hs : s ∉ h.stmts b) :
    Typed (h.push b s) where
  lists n hn := by
    by_cases e : n = b
    · subst e; exact hb
    · exact ht.lists n (by simpa [Heap.push, upd, e] using hn)
  ifs := ht.ifs
  fors := ht.fors
  cases := ht.cases
  free := ht.free
  nodup n := by
    by_cases e : n = b
    · subst e
      simp only [Heap.push, upd, if_true]
      rw [List.nodup_append]
      refine ⟨ht.nodup n, by simp, ?_⟩
      intro a ha c hc
      simp only [List.mem_singleton] at hc
      subst hc
      intro e; subst e; exact hs ha
    · simpa [Heap.push, upd, e] using ht.nodup n

theorem Typed.addStmt {h : Heap} (ht : Typed h) {f b s : Nat} (hb : isBlock (h.kind b) = true) : Typed (addStmt f h b s).1 := by
  obtain ⟨P, hP⟩ := setParent_shape f h s b
  unfold Heap.addStmt
  split
  · exact ht
  split
  · exact ht
  split
  · exact ht
  rename_i h2 _
  have hs : s ∉ h.stmts b := by simpa [List.contains_iff_mem] using h2
  split
  · rename_i h' _ e
    rw [e] at hP
    simp only at hP
    subst hP
    exact (ht.withP P).push (holder_of_block hb) hs
  · rename_i h' r _ e
    rw [e] at hP
    simp only at hP
    subst hP
    exact ht.withP P

theorem Typed.alloc {h : Heap} (ht : Typed h) (k : Kind)
    (hi : ∀ t e, k = .ifS t e → isBlock (h.kind t) = true ∧ isBlock (h.kind e) = true)
    (hf : ∀ b g, k = .forS b g → isBlock (h.kind b) = true) : Typed (h.alloc k) := by
  have keep : ∀ n, isBlock (h.kind n) = true → isBlock ((h.alloc k).kind n) = true := by
    intro n hn
    have : n ≠ h.next := by
      intro e
      rw [e, ht.free _ (Nat.le_refl _)] at hn
      cases hn
    simpa [Heap.alloc, upd, this] using hn
  refine ⟨?_, ?_, ?_, ?_, ?_, ?_⟩
  · intro n hn
    by_cases e : n = h.next
    · simp [Heap.alloc, upd, e] at hn
    · simp only [Heap.alloc, upd, e, if_false] at hn ⊢
      exact ht.lists n hn
  · intro n t e hn
    by_cases e' : n = h.next
    · simp only [Heap.alloc, upd, e', if_true] at hn
      exact ⟨keep _ (hi t e hn).1, keep _ (hi t e hn).2⟩
    · simp only [Heap.alloc, upd, e', if_false] at hn
      exact ⟨keep _ (ht.ifs n t e hn).1, keep _ (ht.ifs n t e hn).2⟩
  · intro n b g hn
    by_cases e' : n = h.next
    · simp only [Heap.alloc, upd, e', if_true] at hn
      exact keep _ (hf b g hn)
    · simp only [Heap.alloc, upd, e', if_false] at hn
      exact keep _ (ht.fors n b g hn)
  · intro n k' b hn
    by_cases e' : n = h.next
    · simp [Heap.alloc, upd, e'] at hn
    · simp only [Heap.alloc, upd, e', if_false] at hn
      exact keep _ (ht.cases n k' b hn)
  · intro n hn
    simp only [Heap.alloc] at hn ⊢
    rw [upd_ne _ _ (by omega)]
    exact ht.free n (by omega)
  · intro n
    by_cases e' : n = h.next
    · simp [Heap.alloc, upd, e']
    · simpa [Heap.alloc, upd, e'] using ht.nodup n

theorem Typed.newCase {h : Heap} (ht : Typed h) (sw : Nat) (c : Option Nat) : Typed (newCase h sw c) := by
  have keep : ∀ n, isBlock (h.kind n) = true → isBlock ((Heap.newCase h sw c).kind n) = true := by
    intro n hn
    have : n ≠ h.next := by
      intro e
      rw [e, ht.free _ (Nat.le_refl _)] at hn
      cases hn
    simpa [Heap.newCase, upd, this] using hn
  refine ⟨?_, ?_, ?_, ?_, ?_, ?_⟩
  · intro n hn
    by_cases e : n = h.next
    · simp [Heap.newCase, upd, e] at hn
    · simp only [Heap.newCase, upd, e, if_false] at hn ⊢
      exact ht.lists n hn
  · intro n t e hn
    by_cases e' : n = h.next
    · simp [Heap.newCase, upd, e'] at hn
    · simp only [Heap.newCase, upd, e', if_false] at hn
      exact ⟨keep _ (ht.ifs n t e hn).1, keep _ (ht.ifs n t e hn).2⟩
  · intro n b g hn
    by_cases e' : n = h.next
    · simp [Heap.newCase, upd, e'] at hn
    · simp only [Heap.newCase, upd, e', if_false] at hn
      exact keep _ (ht.fors n b g hn)
  · intro n k' b hn
    have hold : (k', b) ∈ h.cases n ∨ (b = h.next) ∨ (k', b) ∈ h.cases sw := by
      simp only [Heap.newCase, upd] at hn
      split at hn
      · rcases List.mem_append.1 hn with h1 | h1
        · exact Or.inr (Or.inr h1)
        · simp only [List.mem_singleton, Prod.mk.injEq] at h1
          exact Or.inr (Or.inl h1.2)
      · split at hn
        · simp at hn
        · exact Or.inl hn
    rcases hold with h1 | h1 | h1
    · exact keep _ (ht.cases n k' b h1)
    · subst h1; simp [Heap.newCase, upd, isBlock]
    · exact keep _ (ht.cases sw k' b h1)
  · intro n hn
    simp only [Heap.newCase] at hn ⊢
    rw [upd_ne _ _ (by omega)]
    exact ht.free n (by omega)
  · intro n
    by_cases e' : n = h.next
    · simp [Heap.newCase, upd, e']
    · simpa [Heap.newCase, upd, e'] using ht.nodup n

theorem Typed.setP {h : Heap} (ht : Typed h) (n p : Nat) : Typed (h.setP n p) :=
  ⟨ht.lists, ht.ifs, ht.fors, ht.cases, ht.free, ht.nodup⟩

theorem Typed.newIf {h : Heap} (ht : Typed h) : Typed (newIf h) := by
  unfold Heap.newIf
  refine ((((ht.alloc (.block .scope) (by simp) (by simp)).setP _ _).alloc (.block .scope) (by simp) (by simp)).setP _ _).alloc _ ?_ (by simp)
  intro t e he
  simp only [Kind.ifS.injEq] at he
  obtain ⟨rfl, rfl⟩ := he
  constructor <;> simp [Heap.alloc, Heap.setP, upd, isBlock]

theorem Typed.newFor {h : Heap} (ht : Typed h) (g : Bool) : Typed (newFor h g) := by
  unfold Heap.newFor
  refine ((ht.alloc (.block .scope) (by simp) (by simp)).setP _ _).alloc _ (by simp) ?_
  intro b g' he
  simp only [Kind.forS.injEq] at he
  obtain ⟨rfl, rfl⟩ := he
  simp [Heap.alloc, Heap.setP, upd, isBlock]

theorem nodup_set {l : List Nat} (hl : l.Nodup) {s : Nat} (hs : s ∉ l) (i : Nat) : (l.set i s).Nodup := by
  induction l generalizing i with
  | nil => simp
  | cons a l ih =>
    rw [List.nodup_cons] at hl
    rw [List.mem_cons, not_or] at hs
    cases i with
    | zero => simp only [List.set_cons_zero, List.nodup_cons]; exact ⟨hs.2, hl.2⟩
    | succ i =>
      simp only [List.set_cons_succ, List.nodup_cons]
      refine ⟨fun hm => ?_, ih hl.2 hs.2 i⟩
      rcases List.mem_or_eq_of_mem_set hm with h1 | h1
      · exact hl.1 h1
      · exact hs.1 h1.symm

theorem Typed.erase {h : Heap} (ht : Typed h) (b s : Nat) : Typed (removeStmt h b s) where
  lists n hn := by
    by_cases e : n = b
    · subst e
      refine ht.lists n fun h0 => hn ?_
      simp [removeStmt, upd, h0]
    · exact ht.lists n (by simpa [removeStmt, upd, e] using hn)
  ifs := ht.ifs
  fors := ht.fors
  cases := ht.cases
  free := ht.free
  nodup n := by
    by_cases e : n = b
    · subst e; simpa [removeStmt, upd] using (ht.nodup n).erase s
    · simpa [removeStmt, upd, e] using ht.nodup n

theorem Typed.step {h : Heap} (ht : Typed h) {f : Nat} {o : Op} (hc : Careful h o) : Typed (step f h o).1 := by
  cases o with
  | newGen => exact ht.alloc _ (by simp) (by simp)
  | newLeaf a i => exact ht.alloc _ (by simp) (by simp)
  | newBlock t => exact ht.alloc _ (by simp) (by simp)
  | newIf => exact ht.newIf
  | newFor g => exact ht.newFor g
  | newSwitch => exact ht.alloc _ (by simp) (by simp)
  | addStmt b s =>
    simp only [Heap.step]
    split
    · rename_i hb; exact ht.addStmt hb
    · exact ht
  | addThen i s =>
    simp only [Heap.step]
    split
    · rename_i t e hk; exact ht.addStmt (ht.ifs i t e hk).1
    · exact ht
  | addElse i s =>
    simp only [Heap.step]
    split
    · rename_i t e hk; exact ht.addStmt (ht.ifs i t e hk).2
    · exact ht
  | forAdd i s =>
    simp only [Heap.step]
    split
    · rename_i b g hk; exact ht.addStmt (ht.fors i b g hk)
    · exact ht
  | addCase sw c s =>
    simp only [Heap.step]
    split
    · obtain ⟨P, hP⟩ := setParent_shape f h s sw
      unfold Heap.addCase
      split
      · rename_i h' _ e
        rw [e] at hP
        simp only at hP
        subst hP
        have hk : isBlock (h.kind s) = false := hc.2
        have hs : s < h.next := hc.1.there.2
        have hcb : ∀ r, Heap.caseBody (h.withP P) sw c = r → Typed (if isBlock (r.1.kind s) then
            eachS (fun h x => Heap.addStmt f h r.2 x) r.1 (r.1.stmts s) else Heap.addStmt f r.1 r.2 s).1 := ?_
        · exact hcb _ rfl
        intro r hr
        subst hr
        unfold Heap.caseBody
        split
        · rename_i b hf
          obtain ⟨k, hm⟩ := findCase_mem _ c _ b hf
          simp only
          rw [if_neg (by simp [Heap.withP, hk])]
          exact (ht.withP P).addStmt ((ht.withP P).cases sw k b hm)
        · simp only
          have : isBlock ((Heap.newCase (h.withP P) sw c).kind s) = false := by
            simp only [Heap.newCase, Heap.withP]
            rw [upd_ne _ _ (by omega)]
            exact hk
          rw [if_neg (by simp [this])]
          exact ((ht.withP P).newCase sw c).addStmt (by simp [Heap.newCase, Heap.withP, upd, isBlock])
      · rename_i h' r _ e
        rw [e] at hP
        simp only at hP
        subst hP
        exact ht.withP P
    · exact ht
  | addGen g s =>
    simp only [Heap.step]
    split
    · rename_i hg
      obtain ⟨P, hP⟩ := setParent_shape f h s g
      unfold Heap.addGen
      have hd : s ∉ h.stmts g := fun hm => hc.detached g (.stmt hm)
      split
      · rename_i h' _ e
        rw [e] at hP
        simp only at hP
        subst hP
        exact (ht.withP P).push (by simp [Heap.withP, hg, holder]) hd
      · rename_i h' r _ e
        rw [e] at hP
        simp only at hP
        subst hP
        exact ht.withP P
    · exact ht
  | remove b s => exact ht.erase b s
  | removeCase sw c =>
    refine ⟨ht.lists, ht.ifs, ht.fors, ?_, ht.free, ht.nodup⟩
    intro n k b hm
    have hm : (k, b) ∈ upd h.cases sw ((h.cases sw).filter fun e => decide (e.1 ≠ c)) n := hm
    by_cases e : n = sw
    · subst e; rw [upd_same] at hm; exact ht.cases n k b (List.mem_filter.1 hm).1
    · rw [upd_ne _ _ e] at hm; exact ht.cases n k b hm
  | setChild b i s =>
    simp only [Heap.step]
    split
    · rename_i hb
      unfold Heap.setChild
      split
      · obtain ⟨P, hP⟩ := setParent_shape f { h with stmts := upd h.stmts b ((h.stmts b).set i s) } s b
        rw [hP]
        refine Typed.withP (h := { h with stmts := upd h.stmts b ((h.stmts b).set i s) }) ⟨?_, ht.ifs, ht.fors, ht.cases, ht.free, ?_⟩ P
        · intro n hn
          by_cases e : n = b
          · subst e; exact holder_of_block hb
          · exact ht.lists n (by simpa [upd, e] using hn)
        · intro n
          by_cases e : n = b
          · subst e
            have hd : s ∉ h.stmts n := fun hm => hc.detached n (.stmt hm)
            simpa [upd] using nodup_set (ht.nodup n) hd i
          · simpa [upd, e] using ht.nodup n
      · exact ht
    · exact ht
  | setConst c v => exact ⟨ht.lists, ht.ifs, ht.fors, ht.cases, ht.free, ht.nodup⟩

theorem reached_typed {f : Nat} {h : Heap} (hr : Reached f h) : Typed h := by
  induction hr with
  | start => exact ⟨fun _ h => absurd rfl h, by simp [empty], by simp [empty], by simp [empty], fun _ _ => rfl, by simp [empty]⟩
  | call _ hc _ ih => exact ih.step hc

/-! ### Removing from a given statement or generator -/

theorem filter_self {l : List Nat} {s : Nat} (h : s ∉ l) : l.filter (· != s) = l := by
  rw [List.filter_eq_self]
  intro a ha
  simp only [bne_iff_ne]
  intro e; subst e; exact h ha

theorem gone_removeStmt {h : Heap} (ht : Typed h) (b s : Nat) : GoneFrom h (removeStmt h b s) s (· = b) where
  gone q hq := by
    subst hq
    simp only [removeStmt, upd, if_true]
    rw [List.Nodup.erase_eq_filter (ht.nodup q)]
  kept q hq := by simp [removeStmt, upd, hq]
  kind := rfl
  cases := rfl
  parent := rfl

theorem gone_mono {h h' : Heap} {s : Nat} {A B : Nat → Prop} (hg : GoneFrom h h' s A)
    (hAB : ∀ q, A q → B q) (hB : ∀ q, B q → ¬ A q → s ∉ h.stmts q) : GoneFrom h h' s B where
  gone q hq := by
    by_cases e : A q
    · exact hg.gone q e
    · rw [hg.kept q e, filter_self (hB q hq e)]
  kept q hq := hg.kept q fun e => hq (hAB q e)
  kind := hg.kind
  cases := hg.cases
  parent := hg.parent

theorem gone_refl (h : Heap) (s : Nat) : GoneFrom h h s (fun _ => False) :=
  ⟨fun _ h => h.elim, fun _ _ => rfl, rfl, rfl, rfl⟩

theorem gone_switch (s : Nat) : ∀ (cs : List (Option Nat × Nat)) (h : Heap), Typed h →
    GoneFrom h (switchRemove s h cs) s (fun q => ∃ k, (k, q) ∈ cs)
  | [], h, _ => by
    refine ⟨fun q hq => ?_, fun _ _ => rfl, rfl, rfl, rfl⟩
    obtain ⟨k, hk⟩ := hq
    cases hk
  | (k, b) :: cs, h, ht => by
    simp only [switchRemove]
    have h1 : GoneFrom h (if (h.stmts b).contains s then removeStmt h b s else h) s (· = b) := by
      split
      · exact gone_removeStmt ht b s
      · rename_i hc
        exact gone_mono (gone_refl h s) (fun q hq => hq.elim) (fun q hq _ => by subst hq; simpa [List.contains_iff_mem] using hc)
    have ht' : Typed (if (h.stmts b).contains s then removeStmt h b s else h) := by
      split
      · exact ht.erase b s
      · exact ht
    have h2 := gone_switch s cs _ ht'
    refine ⟨fun q hq => ?_, fun q hq => ?_, h2.kind.trans h1.kind, h2.cases.trans h1.cases, h2.parent.trans h1.parent⟩
    · by_cases e : ∃ k', (k', q) ∈ cs
      · rw [h2.gone q e]
        by_cases eb : q = b
        · rw [h1.gone q eb, List.filter_filter]; simp
        · rw [h1.kept q eb]
      · rw [h2.kept q e]
        refine h1.gone q ?_
        obtain ⟨k', hk⟩ := hq
        rcases List.mem_cons.1 hk with e1 | e1
        · exact (Prod.mk.inj e1).2
        · exact absurd ⟨k', e1⟩ e
    · rw [h2.kept q fun ⟨k', hk⟩ => hq ⟨k', List.mem_cons_of_mem _ hk⟩, h1.kept q]
      intro e
      exact hq ⟨k, by rw [e]; exact List.mem_cons_self ..⟩

/-- **C133, removing from a container**: after a careful history, `p.remove_stmt(s)` on a generator, block, `if` or
`switch` takes `s` out of its lists of statements, keeps the others in order, and changes nothing else. -/
theorem remove_in {f : Nat} {h : Heap} (hr : Reached f h) {x x' : S} (hx : Direct h x) {p s : Nat}
    (hok : removeIn x p s = .ok x') : GoneFrom h x'.heap s (ListOf h p) ∧ ∀ g, x'.caching g = false := by
  have ht := reached_typed hr
  obtain ⟨rfl, hcache⟩ := hx
  unfold removeIn at hok
  cases hk : x.heap.kind p with
  | free => rw [hk] at hok; cases hok
  | gen =>
    rw [hk] at hok
    simp only [genRemove, hcache p, Bool.false_eq_true, if_false, Res.ok.injEq] at hok
    subst hok
    refine ⟨gone_mono (gone_removeStmt ht p s) (fun q hq => by subst hq; exact .gen hk) (fun q hq hn => ?_), hcache⟩
    cases hq with
    | block h1 => exact absurd rfl hn
    | gen h1 => exact absurd rfl hn
    | thenB h1 => rw [hk] at h1; cases h1
    | elseB h1 => rw [hk] at h1; cases h1
    | case h1 _ => rw [hk] at h1; cases h1
  | block t =>
    rw [hk] at hok
    simp only [Res.ok.injEq] at hok
    subst hok
    refine ⟨gone_mono (gone_removeStmt ht p s) (fun q hq => by subst hq; exact .block hk) (fun q hq hn => ?_), hcache⟩
    cases hq with
    | block h1 => exact absurd rfl hn
    | gen h1 => exact absurd rfl hn
    | thenB h1 => rw [hk] at h1; cases h1
    | elseB h1 => rw [hk] at h1; cases h1
    | case h1 _ => rw [hk] at h1; cases h1
  | leaf a i =>
    rw [hk] at hok
    simp only [Res.ok.injEq] at hok
    subst hok
    refine ⟨gone_mono (gone_refl _ s) (fun q hq => hq.elim) (fun q hq _ => ?_), hcache⟩
    cases hq with
    | block h1 => rw [hk] at h1; cases h1
    | gen h1 => rw [hk] at h1; cases h1
    | thenB h1 => rw [hk] at h1; cases h1
    | elseB h1 => rw [hk] at h1; cases h1
    | case h1 _ => rw [hk] at h1; cases h1
  | forS b g =>
    rw [hk] at hok
    simp only [Res.ok.injEq] at hok
    subst hok
    refine ⟨gone_mono (gone_refl _ s) (fun q hq => hq.elim) (fun q hq _ => ?_), hcache⟩
    cases hq with
    | block h1 => rw [hk] at h1; cases h1
    | gen h1 => rw [hk] at h1; cases h1
    | thenB h1 => rw [hk] at h1; cases h1
    | elseB h1 => rw [hk] at h1; cases h1
    | case h1 _ => rw [hk] at h1; cases h1
  | switchS =>
    rw [hk] at hok
    simp only [Res.ok.injEq] at hok
    subst hok
    refine ⟨gone_mono (gone_switch s _ _ ht) (fun q hq => ?_) (fun q hq hn => ?_), hcache⟩
    · obtain ⟨k, hm⟩ := hq
      exact .case hk hm
    · cases hq with
      | block h1 => rw [hk] at h1; cases h1
      | gen h1 => rw [hk] at h1; cases h1
      | thenB h1 => rw [hk] at h1; cases h1
      | elseB h1 => rw [hk] at h1; cases h1
      | case h1 hm => exact absurd ⟨_, hm⟩ hn
  | ifS t e =>
    rw [hk] at hok
    simp only [Res.ok.injEq] at hok
    subst hok
    refine ⟨?_, hcache⟩
    have one := (tree_partial hr).2.1
    simp only [ifRemove]
    split
    · rename_i hc
      have hc : s ∈ x.heap.stmts t := by simpa [List.contains_iff_mem] using hc
      refine gone_mono (gone_removeStmt ht t s) (fun q hq => by subst hq; exact .thenB hk) (fun q hq hn hm => ?_)
      exact hn (one q t s (.stmt hm) (.stmt hc))
    · rename_i hc1
      have hc1 : s ∉ x.heap.stmts t := by simpa [List.contains_iff_mem] using hc1
      have only : ∀ q, ListOf x.heap p q → q ≠ e → s ∉ x.heap.stmts q := by
        intro q hq hn
        cases hq with
        | block h1 => rw [hk] at h1; cases h1
        | gen h1 => rw [hk] at h1; cases h1
        | thenB h1 => rw [hk] at h1; cases h1; exact hc1
        | elseB h1 => rw [hk] at h1; cases h1; exact absurd rfl hn
        | case h1 _ => rw [hk] at h1; cases h1
      split
      · exact gone_mono (gone_removeStmt ht e s) (fun q hq => by subst hq; exact .elseB hk) only
      · rename_i hc2
        have hc2 : s ∉ x.heap.stmts e := by simpa [List.contains_iff_mem] using hc2
        refine gone_mono (gone_refl _ s) (fun q hq => hq.elim) (fun q hq _ => ?_)
        by_cases e' : q = e
        · rw [e']; exact hc2
        · exact only q hq e'

/-- **C133, partial**: after every careful history, `s.remove_from_parent()` on a statement that stands in a block, branch,
case or generator succeeds and takes it out of the design: the list that had it keeps the others in
order, and nothing else changes. Missing: a statement directly inside a loop that has been added (`loop_kept`) and histories that add a
statement twice (`shared_kept`, `twice_kept`). -/
theorem remove_partial {f : Nat} {h : Heap} (hr : Reached f h) {x : S} (hx : Direct h x) {s q : Nat} (hs : s ∈ h.stmts q)
    (hl : ∀ l g, h.kind l = .forS q g → h.parent s ≠ some l) :
    ∃ x', removeFromParent x s = .ok x' ∧ removeStmtFromParent x s = .ok x' ∧ GoneFrom h x'.heap s (fun _ => True) ∧
      ∀ q', s ∉ x'.heap.stmts q' := by
  have ht := reached_typed hr
  have one := (tree_partial hr).2.1
  have hpar : h.parent s = some q := by
    rcases (tree_partial hr).1 q s (.stmt hs) with h1 | ⟨l, g, h1, h2⟩
    · exact h1
    · exact absurd h2 (hl l g h1)
  have hq := ht.lists q (List.ne_nil_of_mem hs)
  have key : ∃ x', removeIn x q s = .ok x' ∧ removeFromParent x s = .ok x' ∧ removeStmtFromParent x s = .ok x' ∧ ListOf h q q := by
    obtain ⟨rfl, hcache⟩ := hx
    unfold removeFromParent removeStmtFromParent
    rw [hpar]
    simp only [removeIn]
    cases hk : x.heap.kind q with
    | gen => exact ⟨_, rfl, rfl, rfl, .gen hk⟩
    | block t => exact ⟨_, rfl, rfl, rfl, .block hk⟩
    | free => rw [hk] at hq; cases hq
    | leaf a i => rw [hk] at hq; cases hq
    | ifS t e => rw [hk] at hq; cases hq
    | forS b g => rw [hk] at hq; cases hq
    | switchS => rw [hk] at hq; cases hq
  obtain ⟨x', h1, h2, h3, h4⟩ := key
  have hg := (remove_in hr hx h1).1
  have hall : GoneFrom h x'.heap s (fun _ => True) := by
    refine gone_mono hg (fun _ _ => trivial) (fun q' _ hn hm => hn ?_)
    rw [one q' q s (.stmt hm) (.stmt hs)]
    exact h4
  refine ⟨x', h2, h3, hall, fun q' hm => ?_⟩
  rw [hall.gone q' trivial] at hm
  simpa using (List.mem_filter.1 hm).2

/-! ### How it fails -/

/-- A statement whose parent is a loop: nothing happens, and the other function throws. -/
theorem loop_kept {x : S} {s l b : Nat} {g : Bool} (hp : x.heap.parent s = some l) (hk : x.heap.kind l = .forS b g) :
    removeFromParent x s = .ok x ∧ removeStmtFromParent x s = .throw .stmt := by
  simp [removeFromParent, removeStmtFromParent, hp, removeIn, hk]

def direct (h : Heap) : S := ⟨h, fun _ => false, fun _ => []⟩

/-- … which a history reaches: the assignment stays in the loop. -/
theorem loop_reached : ∃ x', removeFromParent (direct (after 9 [.newBlock .combinational, .newFor false, .newLeaf (some .blocking) false,
    .forAdd 2 3, .addStmt 0 2])) 3 = .ok x' ∧ x'.heap.stmts 1 = [3] := ⟨_, rfl, by decide⟩

/-- A statement in two blocks stays in the first. -/
theorem shared_kept : ∃ x', removeFromParent (direct (after 9 [.newBlock .combinational, .newBlock .combinational,
    .newLeaf (some .blocking) false, .addStmt 0 2, .addStmt 1 2])) 2 = .ok x' ∧ x'.heap.stmts 0 = [2] ∧ x'.heap.stmts 1 = [] :=
  ⟨_, rfl, by decide, by decide⟩

/-- A statement that is twice in a generator stays there once. -/
theorem twice_kept : ∃ x', removeFromParent (direct (after 9 [.newGen, .newBlock .combinational, .addGen 0 1, .addGen 0 1])) 1 = .ok x' ∧
    x'.heap.stmts 0 = [1] := ⟨_, rfl, by decide⟩

theorem not_RemoveClaim : ¬ RemoveClaim := by
  intro hc
  obtain ⟨x', h1, h2, _⟩ := shared_kept
  have := (hc 9 _ (direct _) x' 2 ⟨rfl, fun _ => rfl⟩ h1).gone 0 trivial
  rw [h2] at this
  revert this
  decide

/-- The hypotheses of `remove_partial` are met: an assignment in a block. -/
example : ∃ h, Reached 9 h ∧ 1 ∈ h.stmts 0 ∧ ∀ l g, h.kind l = .forS 0 g → h.parent 1 ≠ some l := by
  refine ⟨after 9 [.newBlock .combinational, .newLeaf (some .blocking) false, .addStmt 0 1], ?_, by decide, ?_⟩
  · refine .call (o := .addStmt 0 1) (.call (o := .newLeaf (some .blocking) false) (.call (o := .newBlock .combinational) .start trivial (by decide)) trivial (by decide)) ?_ (by decide)
    have hno : ∀ q x, ¬ Holds (step 9 (step 9 empty (.newBlock .combinational)).1 (.newLeaf (some .blocking) false)).1 q x := by
      intro q x hx
      have h1 := (holds_alloc_plain (k := .leaf (some .blocking) false) (by simp) (by simp) hx).2
      have h2 := (holds_alloc_plain (h := empty) (k := .block .combinational) (by simp) (by simp) h1).2
      cases h2 with
      | stmt h => cases h
      | thenB h => cases h
      | elseB h => cases h
      | loop h => cases h
      | case h => cases h
    refine ⟨fun q hq => hno _ _ hq, by decide, fun hb => ?_, by decide⟩
    cases hb with
    | one h => exact hno _ _ h
    | more h _ => exact hno _ _ h
  · intro l g hk hp
    have : (after 9 [.newBlock .combinational, .newLeaf (some .blocking) false, .addStmt 0 1]).parent 1 = some 0 := by decide
    rw [this] at hp
    cases hp
    revert hk
    have : (after 9 [.newBlock .combinational, .newLeaf (some .blocking) false, .addStmt 0 1]).kind 0 = .block .combinational := by decide
    rw [this]
    intro hk
    cases hk

/-! ### Removing in a batch -/

/-- What a generator keeps. -/
structure G where
  stmts : List Nat
  caching : Bool
  pending : List Nat
  deriving DecidableEq

/-- Calls on a generator while a pass runs. `add` is `Generator::add_stmt` when it is accepted (src/generator.cc:545-548). -/
inductive BOp where
  | add (s : Nat)
  | rem (s : Nat)
  | cache (v : Bool)
  | flush
  deriving DecidableEq

/-- `Generator::remove_stmt` (src/generator.cc:625-634), `set_use_stmt_remove_cache` (623), `clear_remove_stmt_cache` (636-645). -/
def bstep (x : G) : BOp → G
  | .add s => { x with stmts := x.stmts ++ [s] }
  | .rem s => if x.caching then { x with pending := s :: x.pending } else { x with stmts := x.stmts.erase s }
  | .cache v => { x with caching := v }
  | .flush => { x with stmts := x.stmts.filter (fun s => !x.pending.contains s), pending := [] }

def brun (x : G) (os : List BOp) : G := os.foldl bstep x

/-- `create_module_instantiation` (src/transform.cc:280-292 with `GeneratorStmtCacheVisitor`, 261-278) for one generator. -/
def instBatch (os : List BOp) : List BOp := [.cache true] ++ os ++ [.cache false, .flush]

/-- `optimize_passthrough_assignment` (src/optimize.cc:1357-1410). -/
def passBatch (os : List BOp) : List BOp := [.cache true] ++ os ++ [.flush, .cache false]

/-- What the heap of the first part keeps for a generator. -/
def S.gen (x : S) (g : Nat) : G := ⟨x.heap.stmts g, x.caching g, x.pending g⟩

/-- The two models of removing from a generator agree, and other generators are not concerned. -/
theorem genRemove_gen (x : S) (g s g' : Nat) :
    (genRemove x g s).gen g' = if g' = g then bstep (x.gen g) (.rem s) else x.gen g' := by
  unfold genRemove
  cases hc : x.caching g with
  | true => by_cases e : g' = g <;> simp [S.gen, bstep, hc, upd, e]
  | false => by_cases e : g' = g <;> simp [S.gen, bstep, hc, removeStmt, upd, e]

/-- The statements a list of calls adds, in order. -/
def adds : List BOp → List Nat
  | [] => []
  | .add s :: os => s :: adds os
  | _ :: os => adds os

/-- Adding and removing only. -/
def Plain (os : List BOp) : Prop := ∀ o ∈ os, (∃ s, o = .add s) ∨ ∃ s, o = .rem s

/-- The full claim: removing in a batch gives what removing at once gives. -/
def BatchClaim : Prop := ∀ l os, Plain os → (brun ⟨l, false, []⟩ (instBatch os)).stmts = (brun ⟨l, false, []⟩ os).stmts

/-- No statement is added after it was removed. -/
def NoReturn (os : List BOp) : Prop := ∀ (a b : List BOp) (s : Nat), os = a ++ .add s :: b → .rem s ∉ a

theorem brun_append (x : G) (a b : List BOp) : brun x (a ++ b) = brun (brun x a) b := by simp [brun]

theorem cached : ∀ (os : List BOp) (l p : List Nat), Plain os →
    ∃ p', brun ⟨l, true, p⟩ os = ⟨l ++ adds os, true, p'⟩ ∧ ∀ s, s ∈ p' ↔ s ∈ p ∨ .rem s ∈ os
  | [], l, p, _ => ⟨p, by simp [brun, adds], by simp⟩
  | o :: os, l, p, h => by
    have h' : Plain os := fun o ho => h o (List.mem_cons_of_mem _ ho)
    rcases h o (List.mem_cons_self ..) with ⟨s, rfl⟩ | ⟨s, rfl⟩
    · obtain ⟨p', h1, h2⟩ := cached os (l ++ [s]) p h'
      refine ⟨p', ?_, fun t => ?_⟩
      · show brun ⟨l ++ [s], true, p⟩ os = _
        rw [h1]; simp [adds]
      · rw [h2 t]; simp
    · obtain ⟨p', h1, h2⟩ := cached os l (s :: p) h'
      refine ⟨p', ?_, fun t => ?_⟩
      · show brun ⟨l, true, s :: p⟩ os = _
        rw [h1]; simp [adds]
      · rw [h2 t]
        simp only [List.mem_cons, BOp.rem.injEq]
        constructor
        · rintro ((h | h) | h)
          · exact Or.inr (Or.inl h)
          · exact Or.inl h
          · exact Or.inr (Or.inr h)
        · rintro (h | h | h)
          · exact Or.inl (Or.inr h)
          · exact Or.inl (Or.inl h)
          · exact Or.inr h

/-- **C133, a batch**: whatever is added and removed meanwhile, at the end the statements are the old and the new ones in
order, without any that was removed at any time; nothing stays in the batch, and removing is immediate again. Both passes agree. -/
theorem batch (l : List Nat) (os : List BOp) (h : Plain os) :
    (brun ⟨l, false, []⟩ (instBatch os)).stmts = (l ++ adds os).filter (fun s => decide (.rem s ∉ os)) ∧
    (brun ⟨l, false, []⟩ (instBatch os)).caching = false ∧ (brun ⟨l, false, []⟩ (instBatch os)).pending = [] ∧
    brun ⟨l, false, []⟩ (passBatch os) = brun ⟨l, false, []⟩ (instBatch os) := by
  obtain ⟨p, h1, h2⟩ := cached os l [] h
  have e1 : brun ⟨l, false, []⟩ (instBatch os) = ⟨(l ++ adds os).filter (fun s => !p.contains s), false, []⟩ := by
    rw [instBatch, brun_append, brun_append]
    show brun (brun ⟨l, true, []⟩ os) _ = _
    rw [h1]; rfl
  have e2 : brun ⟨l, false, []⟩ (passBatch os) = ⟨(l ++ adds os).filter (fun s => !p.contains s), false, []⟩ := by
    rw [passBatch, brun_append, brun_append]
    show brun (brun ⟨l, true, []⟩ os) _ = _
    rw [h1]; rfl
  rw [e1, e2]
  refine ⟨List.filter_congr fun s _ => ?_, rfl, rfl, rfl⟩
  have := h2 s
  simp only [List.not_mem_nil, false_or] at this
  by_cases hm : s ∈ p
  · simp [hm, this.1 hm]
  · have hn : .rem s ∉ os := fun h => hm (this.2 h)
    simp [hm, hn]

theorem atOnce : ∀ (os : List BOp) (l : List Nat), Plain os → NoReturn os → (l ++ adds os).Nodup →
    (brun ⟨l, false, []⟩ os).stmts = (l ++ adds os).filter (fun s => decide (.rem s ∉ os))
  | [], l, _, _, _ => by
    simp only [brun, adds, List.foldl_nil, List.append_nil]
    rw [List.filter_eq_self.2]
    simp
  | o :: os, l, h, hn, hd => by
    have h' : Plain os := fun o ho => h o (List.mem_cons_of_mem _ ho)
    have hn' : NoReturn os := fun a b s e hm => hn (o :: a) b s (by rw [e]; rfl) (List.mem_cons_of_mem _ hm)
    rcases h o (List.mem_cons_self ..) with ⟨s, rfl⟩ | ⟨s, rfl⟩
    · show (brun ⟨l ++ [s], false, []⟩ os).stmts = _
      have e : l ++ [s] ++ adds os = l ++ adds (.add s :: os) := by simp [adds]
      rw [atOnce os (l ++ [s]) h' hn' (by rw [e]; exact hd), e]
      refine List.filter_congr fun t _ => ?_
      simp
    · show (brun ⟨l.erase s, false, []⟩ os).stmts = _
      have e : adds (.rem s :: os) = adds os := rfl
      rw [e] at hd ⊢
      have hl : l.Nodup := (List.nodup_append.1 hd).1
      have hsa : s ∉ adds os := by
        intro hm
        have : ∀ (os : List BOp), s ∈ adds os → .add s ∈ os := by
          intro os
          induction os with
          | nil => intro h; cases h
          | cons o os ih =>
            intro hm
            cases o with
            | add t =>
              simp only [adds, List.mem_cons] at hm
              rcases hm with rfl | hm
              · exact List.mem_cons_self ..
              · exact List.mem_cons_of_mem _ (ih hm)
            | rem t => exact List.mem_cons_of_mem _ (ih hm)
            | cache v => exact List.mem_cons_of_mem _ (ih hm)
            | flush => exact List.mem_cons_of_mem _ (ih hm)
        obtain ⟨a, b, hab⟩ := List.append_of_mem (this os hm)
        exact hn (.rem s :: a) b s (by rw [hab]; rfl) (List.mem_cons_self ..)
      have hd' : (l.erase s ++ adds os).Nodup := by
        rw [List.nodup_append] at hd ⊢
        exact ⟨hl.erase s, hd.2.1, fun a ha b hb => hd.2.2 a (List.mem_of_mem_erase ha) b hb⟩
      rw [atOnce os (l.erase s) h' hn' hd', List.Nodup.erase_eq_filter hl, List.filter_append, List.filter_append, List.filter_filter]
      congr 1
      · refine List.filter_congr fun t _ => ?_
        by_cases e1 : t = s <;> simp [e1]
      · refine List.filter_congr fun t ht => ?_
        have : t ≠ s := fun e => hsa (e ▸ ht)
        simp [this]

/-- **C133, batches, partial**: if no statement is there twice and none is added after it was removed, removing in a batch gives what removing at
once gives. Missing: statements there twice (`batch_twice`) and statements that come back (`batch_return`). -/
theorem batch_partial (l : List Nat) (os : List BOp) (h : Plain os) (hd : (l ++ adds os).Nodup) (hn : NoReturn os) :
    (brun ⟨l, false, []⟩ (instBatch os)).stmts = (brun ⟨l, false, []⟩ os).stmts := by
  rw [(batch l os h).1, atOnce os l h hn hd]

/-- The hypotheses are met. -/
example : Plain [.add 3, .rem 1, .rem 3, .add 4] ∧ ([1, 2] ++ adds [.add 3, .rem 1, .rem 3, .add 4]).Nodup ∧
    (brun ⟨[1, 2], false, []⟩ (instBatch [.add 3, .rem 1, .rem 3, .add 4])).stmts = [2, 4] := by
  refine ⟨?_, by decide, by decide⟩
  intro o ho
  simp only [List.mem_cons, List.not_mem_nil, or_false] at ho
  rcases ho with rfl | rfl | rfl | rfl <;> simp

/-- A statement that is twice in a generator goes twice in a batch. -/
theorem batch_twice : (brun ⟨[1, 1], false, []⟩ (instBatch [.rem 1])).stmts = [] ∧ (brun ⟨[1, 1], false, []⟩ [.rem 1]).stmts = [1] := by
  decide

/-- A statement that is removed and put at the end is lost in a batch. -/
theorem batch_return : (brun ⟨[1, 2], false, []⟩ (instBatch [.rem 1, .add 1])).stmts = [2] ∧
    (brun ⟨[1, 2], false, []⟩ [.rem 1, .add 1]).stmts = [2, 1] := by
  decide

theorem not_BatchClaim : ¬ BatchClaim := by
  intro h
  have := h [1, 2] [.rem 1, .add 1] (by
    intro o ho
    simp only [List.mem_cons, List.not_mem_nil, or_false] at ho
    rcases ho with rfl | rfl
    · exact Or.inr ⟨1, rfl⟩
    · exact Or.inl ⟨1, rfl⟩)
  rw [batch_return.1, batch_return.2] at this
  cases this

end Kratos.Remove
