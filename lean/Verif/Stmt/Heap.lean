import Verif.Base

/-!
# C64: building statement trees

Statements are objects with identity, so the model is a heap: numbers are addresses, `kind` says what is stored there,
`parent` is the parent pointer. Generators are addresses too.
-/

namespace Kratos.Heap

/-- `AssignmentType` (src/stmt.hh:30). -/
inductive AType where
  | blocking | nonBlocking | undefined
  deriving DecidableEq, Repr

/-- `StatementBlockType` (src/stmt.hh:31). -/
inductive BType where
  | combinational | sequential | scope | function | initial | latch | final
  deriving DecidableEq, Repr

/-- What an address holds. `leaf` is a statement without statements inside: an assignment (`some type`) or anything
else; `inst` marks module instantiations. The auxiliary assignment an `if` or `switch` keeps for its
condition is not modelled. -/
inductive Kind where
  | free
  | gen
  | leaf (asg : Option AType) (inst : Bool)
  | block (t : BType)
  | ifS (t e : Nat)
  | forS (body : Nat) (genvar : Bool)
  | switchS
  deriving DecidableEq, Repr

/-- The heap. `stmts` is `stmts_` of a block or generator; `cases` is `body_` of a switch: constants (by address,
`none` for the default) with their blocks, here in the order of insertion; `cval` is the value of a
constant. -/
structure Heap where
  next : Nat
  kind : Nat → Kind
  stmts : Nat → List Nat
  cases : Nat → List (Option Nat × Nat)
  cval : Nat → BitVec 64
  parent : Nat → Option Nat

def empty : Heap := ⟨0, fun _ => .free, fun _ => [], fun _ => [], fun _ => 0#64, fun _ => none⟩

def upd {β : Type} (f : Nat → β) (a : Nat) (b : β) : Nat → β := fun x => if x = a then b else f x

def Heap.setP (h : Heap) (n p : Nat) : Heap := { h with parent := upd h.parent n (some p) }

/-- A loop whose body may throw. -/
def eachS (f : Heap → Nat → Heap × Res Unit) (h : Heap) : List Nat → Heap × Res Unit
  | [] => (h, .ok ())
  | x :: xs => match f h x with
    | (h, .ok _) => eachS f h xs
    | (h, r) => (h, r)

def isInst : Kind → Bool
  | .leaf _ b => b
  | _ => false

/-- The check of `ForStmt::set_parent` when the parent is no statement (src/stmt.cc:365-381). -/
def forAtTop (h : Heap) (n p b : Nat) (g : Bool) : Heap × Res Unit :=
  if !g || !(h.stmts b).all (fun s => isInst (h.kind s)) then (h, .throw .user) else (h.setP n p, .ok ())

/-- `set_parent` of the statement classes (src/stmt.hh:49; src/stmt.cc:207-216 `AssignStmt`, 307-312 `IfStmt`, 364-391
`ForStmt`, 456-461 `StmtBlock`, 541-546 `SwitchStmt`). It walks the whole subtree; the depth is bounded by `fuel`, and
running out of it (the C++ stack, on a cyclic structure) is `ub`. The registration of sources and sinks by
`AssignStmt::set_parent` is not part of this model. -/
def setParent : (fuel : Nat) → Heap → (n p : Nat) → Heap × Res Unit
  | 0, h, _, _ => (h, .ub)
  | f + 1, h, n, p => match h.kind n with
    | .free => (h, .ub)
    | .gen => (h, .ub)
    | .leaf _ _ => (h.setP n p, .ok ())
    | .block _ => eachS (fun h x => setParent f h x n) (h.setP n p) (h.stmts n)
    | .ifS t e => eachS (fun h x => setParent f h x n) (h.setP n p) [t, e]
    | .switchS => eachS (fun h x => setParent f h x n) (h.setP n p) ((h.cases n).map (·.2))
    | .forS b g =>
      if h.kind p = .gen then forAtTop h n p b g
      else eachS (fun h x => setParent f h x n) (h.setP n p) (h.stmts b)

def isBlock : Kind → Bool
  | .block _ => true
  | _ => false

/-- The assignment check of `StmtBlock::add_stmt` (src/stmt.cc:431-444). -/
def assignOk : Kind → Kind → Bool
  | .block .combinational, .leaf (some .nonBlocking) _ => false
  | .block .sequential, .leaf (some .blocking) _ => false
  | _, _ => true

/-- `stmts_.emplace_back`. -/
def Heap.push (h : Heap) (b s : Nat) : Heap := { h with stmts := upd h.stmts b (h.stmts b ++ [s]) }

/-- `StmtBlock::add_stmt` (src/stmt.cc:420-447). -/
def addStmt (fuel : Nat) (h : Heap) (b s : Nat) : Heap × Res Unit :=
  if isBlock (h.kind s) then (h, .throw .stmt)
  else if (h.stmts b).contains s then (h, .throw .stmt)
  else if !assignOk (h.kind b) (h.kind s) then (h, .throw .stmt)
  else match setParent fuel h s b with
    | (h, .ok _) => (h.push b s, .ok ())
    | (h, r) => (h, r)

/-- `Generator::add_stmt` (src/generator.cc:545-548). -/
def addGen (fuel : Nat) (h : Heap) (g s : Nat) : Heap × Res Unit :=
  match setParent fuel h s g with
  | (h, .ok _) => (h.push g s, .ok ())
  | (h, r) => (h, r)

/-- `StmtBlock::remove_stmt` (src/stmt.cc:463-466) and `Generator::remove_stmt` without the cache
(src/generator.cc:625-634). The parent pointer stays. -/
def removeStmt (h : Heap) (b s : Nat) : Heap := { h with stmts := upd h.stmts b ((h.stmts b).erase s) }

/-- `StmtBlock::set_child` (src/stmt.cc:468-473). -/
def setChild (fuel : Nat) (h : Heap) (b i s : Nat) : Heap × Res Unit :=
  if i < (h.stmts b).length then setParent fuel { h with stmts := upd h.stmts b ((h.stmts b).set i s) } s b
  else (h, .ok ())

/-- The comparison of `add_switch_case` (src/stmt.cc:553). -/
def sameCase (h : Heap) : Option Nat → Option Nat → Bool
  | none, none => true
  | some a, some b => h.cval a == h.cval b
  | _, _ => false

/-- The block of a case (src/stmt.cc:552-557). -/
def findCase (h : Heap) (c : Option Nat) : List (Option Nat × Nat) → Option Nat
  | [] => none
  | (k, b) :: cs => if sameCase h c k then some b else findCase h c cs

/-- A new scope block for a case (src/stmt.cc:558-562). -/
def newCase (h : Heap) (sw : Nat) (c : Option Nat) : Heap :=
  { h with next := h.next + 1, kind := upd h.kind h.next (.block .scope),
           stmts := upd h.stmts h.next [], cases := upd (upd h.cases h.next []) sw (h.cases sw ++ [(c, h.next)]),
           parent := upd h.parent h.next (some sw) }

/-- The block of the case, made if needed. -/
def caseBody (h : Heap) (sw : Nat) (c : Option Nat) : Heap × Nat :=
  match findCase h c (h.cases sw) with
  | some b => (h, b)
  | none => (newCase h sw c, h.next)

/-- `SwitchStmt::add_switch_case` (src/stmt.cc:548-574). -/
def addCase (fuel : Nat) (h : Heap) (sw : Nat) (c : Option Nat) (s : Nat) : Heap × Res Unit :=
  match setParent fuel h s sw with
  | (h, .ok _) =>
    let (h, b) := caseBody h sw c
    if isBlock (h.kind s) then eachS (fun h x => addStmt fuel h b x) h (h.stmts s) else addStmt fuel h b s
  | (h, r) => (h, r)

/-- `SwitchStmt::remove_switch_case(c)` (src/stmt.cc:588-592): by address. -/
def removeCase (h : Heap) (sw : Nat) (c : Option Nat) : Heap :=
  { h with cases := upd h.cases sw ((h.cases sw).filter fun e => decide (e.1 ≠ c)) }

/-- Allocation of a node with no statements in it. -/
def Heap.alloc (h : Heap) (k : Kind) : Heap :=
  { h with next := h.next + 1, kind := upd h.kind h.next k, stmts := upd h.stmts h.next [],
           cases := upd h.cases h.next [], parent := upd h.parent h.next none }

/-- `IfStmt::IfStmt` (src/stmt.cc:231-243): the two bodies, then the statement itself. -/
def newIf (h : Heap) : Heap :=
  let t := h.next
  let i := h.next + 2
  (((h.alloc (.block .scope)).setP t i).alloc (.block .scope) |>.setP (t + 1) i).alloc (.ifS t (t + 1))

/-- `ForStmt::ForStmt` (src/stmt.cc:353-362). -/
def newFor (h : Heap) (g : Bool) : Heap :=
  ((h.alloc (.block .scope)).setP h.next (h.next + 1)).alloc (.forS h.next g)

/-- The calls. Statement kinds are checked by the C++ type system: a call on an address of another kind is `ub`. -/
inductive Op where
  | newGen
  | newLeaf (a : Option AType) (inst : Bool)
  | newBlock (t : BType)
  | newIf
  | newFor (genvar : Bool)
  | newSwitch
  | addStmt (b s : Nat)
  | addThen (i s : Nat)
  | addElse (i s : Nat)
  | forAdd (f s : Nat)
  | addCase (sw : Nat) (c : Option Nat) (s : Nat)
  | addGen (g s : Nat)
  | remove (b s : Nat)
  | removeCase (sw : Nat) (c : Option Nat)
  | setChild (b i s : Nat)
  | setConst (c : Nat) (v : BitVec 64)

def step (fuel : Nat) (h : Heap) : Op → Heap × Res Unit
  | .newGen => (h.alloc .gen, .ok ())
  | .newLeaf a i => (h.alloc (.leaf a i), .ok ())
  | .newBlock t => (h.alloc (.block t), .ok ())
  | .newIf => (newIf h, .ok ())
  | .newFor g => (newFor h g, .ok ())
  | .newSwitch => (h.alloc .switchS, .ok ())
  | .addStmt b s => if isBlock (h.kind b) then addStmt fuel h b s else (h, .ub)
  | .addThen i s => match h.kind i with
    | .ifS t _ => addStmt fuel h t s
    | _ => (h, .ub)
  | .addElse i s => match h.kind i with
    | .ifS _ e => addStmt fuel h e s
    | _ => (h, .ub)
  | .forAdd f s => match h.kind f with
    | .forS b _ => addStmt fuel h b s
    | _ => (h, .ub)
  | .addCase sw c s => if h.kind sw = .switchS then addCase fuel h sw c s else (h, .ub)
  | .addGen g s => if h.kind g = .gen then addGen fuel h g s else (h, .ub)
  | .remove b s => (removeStmt h b s, .ok ())
  | .removeCase sw c => (removeCase h sw c, .ok ())
  | .setChild b i s => if isBlock (h.kind b) then setChild fuel h b i s else (h, .ub)
  | .setConst c v => ({ h with cval := upd h.cval c v }, .ok ())

/-- The heap after a history of calls. A call that throws leaves what it has done so far. -/
def after (fuel : Nat) : List Op → Heap := List.foldl (fun h o => (step fuel h o).1) empty

/-! ### Specification -/

/-- `q` holds `x`: as one of its statements, as a branch or loop body, or as the block of a case. -/
inductive Holds (h : Heap) : (q x : Nat) → Prop where
  | stmt {q x} : x ∈ h.stmts q → Holds h q x
  | thenB {q t e} : h.kind q = .ifS t e → Holds h q t
  | elseB {q t e} : h.kind q = .ifS t e → Holds h q e
  | loop {q b g} : h.kind q = .forS b g → Holds h q b
  | case {q k b} : (k, b) ∈ h.cases q → Holds h q b

/-- Below, in any number of steps (at least one). -/
inductive Below (h : Heap) : (q x : Nat) → Prop where
  | one {q x} : Holds h q x → Below h q x
  | more {q m x} : Holds h q m → Below h m x → Below h q x

/-- The parent pointer of everything held points to its holder. -/
def ParentsOk (h : Heap) : Prop := ∀ q x, Holds h q x → h.parent x = some q

/-- … except that statements in a loop body may point to the loop instead of the block in between. -/
def ParentsOkUpToLoops (h : Heap) : Prop := ∀ q x, Holds h q x →
  h.parent x = some q ∨ ∃ f g, h.kind f = .forS q g ∧ h.parent x = some f

def OneHolder (h : Heap) : Prop := ∀ q q' x, Holds h q x → Holds h q' x → q = q'

def NoCycle (h : Heap) : Prop := ∀ x, ¬ Below h x x

/-- No block contains a statement twice. -/
def NoTwice (h : Heap) : Prop := ∀ b t, h.kind b = .block t → (h.stmts b).Nodup

/-- The value a case stands for. -/
def caseValue (h : Heap) (c : Option Nat) : Option (BitVec 64) := c.map h.cval

/-- A switch has at most one block per case value. -/
def OneBody (h : Heap) : Prop := ∀ sw, ((h.cases sw).map fun e => caseValue h e.1).Nodup

/-- Full claim of C64 for a state. -/
def TreeClaim (h : Heap) : Prop := ParentsOk h ∧ OneHolder h ∧ NoCycle h ∧ NoTwice h ∧ OneBody h

/-! ### `set_parent` changes parent pointers only, and only to holders -/

/-- A loop around the block that holds `x`. -/
def ForGrand (h : Heap) (q x : Nat) : Prop := ∃ b g, h.kind q = .forS b g ∧ x ∈ h.stmts b

/-- What `set_parent` may have done to parent pointers. -/
def Touched (h : Heap) (n p : Nat) (P : Nat → Option Nat) : Prop := ∀ x, P x = h.parent x ∨ (x = n ∧ P x = some p) ∨
  ∃ q, (Holds h q x ∨ ForGrand h q x) ∧ P x = some q

/-- The heap with other parent pointers. -/
def Heap.withP (h : Heap) (P : Nat → Option Nat) : Heap := { h with parent := P }

theorem holds_withP {h : Heap} {P : Nat → Option Nat} {q x : Nat} : Holds (h.withP P) q x ↔ Holds h q x := by
  constructor
  · intro H
    cases H with
    | stmt h => exact .stmt h
    | thenB h => exact .thenB h
    | elseB h => exact .elseB h
    | loop h => exact .loop h
    | case h => exact .case h
  · intro H
    cases H with
    | stmt h => exact .stmt h
    | thenB h => exact .thenB h
    | elseB h => exact .elseB h
    | loop h => exact .loop h
    | case h => exact .case h

/-- Parent pointers changed to holders only. -/
def Inner (h : Heap) (P Q : Nat → Option Nat) : Prop :=
  ∀ x, Q x = P x ∨ ∃ q, (Holds h q x ∨ ForGrand h q x) ∧ Q x = some q

theorem eachS_spec (h : Heap) (n : Nat) (f : Heap → Nat → Heap × Res Unit)
    (hf : ∀ P x, (Holds h n x ∨ ForGrand h n x) → ∃ Q, (f (h.withP P) x).1 = h.withP Q ∧ Inner h P Q) :
    ∀ (xs : List Nat) (P : Nat → Option Nat), (∀ x ∈ xs, Holds h n x ∨ ForGrand h n x) →
      ∃ Q, (eachS f (h.withP P) xs).1 = h.withP Q ∧ Inner h P Q
  | [], P, _ => ⟨P, rfl, fun _ => Or.inl rfl⟩
  | x :: xs, P, hx => by
    obtain ⟨Q, h1, h2⟩ := hf P x (hx x (List.mem_cons_self ..))
    simp only [eachS]
    split
    · rename_i h' _ e
      rw [e] at h1
      simp only at h1
      rw [h1]
      obtain ⟨R, h3, h4⟩ := eachS_spec h n f hf xs Q (fun y hy => hx y (List.mem_cons_of_mem _ hy))
      refine ⟨R, h3, fun y => ?_⟩
      rcases h4 y with h | h
      · rcases h2 y with h' | h'
        · exact Or.inl (h.trans h')
        · obtain ⟨q, hq, hq'⟩ := h'
          exact Or.inr ⟨q, hq, h.trans hq'⟩
      · exact Or.inr h
    · rename_i h' r _ e
      rw [e] at h1
      exact ⟨Q, h1, h2⟩

/-- The result of `set_parent`. -/
theorem setParent_spec : ∀ (f : Nat) (h : Heap) (n p : Nat), ∃ P, (setParent f h n p).1 = h.withP P ∧
    Touched h n p P ∧ ((setParent f h n p).2 = .ok () → P n = some p ∨ ∃ q, (Holds h q n ∨ ForGrand h q n) ∧ P n = some q)
  | 0, h, n, p => ⟨h.parent, rfl, fun _ => Or.inl rfl, fun h => by cases h⟩
  | f + 1, h, n, p => by
    have top : ∀ (xs : List Nat), (∀ x ∈ xs, Holds h n x ∨ ForGrand h n x) →
        ∃ P, (eachS (fun h x => setParent f h x n) (h.setP n p) xs).1 = h.withP P ∧ Touched h n p P ∧
          ((eachS (fun h x => setParent f h x n) (h.setP n p) xs).2 = .ok () → P n = some p ∨ ∃ q, (Holds h q n ∨ ForGrand h q n) ∧ P n = some q) := by
      intro xs hx
      obtain ⟨Q, h1, h2⟩ := eachS_spec h n (fun h x => setParent f h x n) (by
        intro P x hx
        obtain ⟨Q, h1, h2, _⟩ := setParent_spec f (h.withP P) x n
        refine ⟨Q, h1, fun y => ?_⟩
        rcases h2 y with h | ⟨rfl, h⟩ | ⟨q, hq, h⟩
        · exact Or.inl h
        · exact Or.inr ⟨n, hx, h⟩
        · exact Or.inr ⟨q, hq.imp holds_withP.1 id, h⟩) xs (upd h.parent n (some p)) hx
      refine ⟨Q, h1, fun y => ?_, fun _ => ?_⟩
      · rcases h2 y with h | h
        · by_cases e : y = n
          · subst e
            exact Or.inr (Or.inl ⟨rfl, by rw [h]; simp [upd]⟩)
          · exact Or.inl (by rw [h]; simp [upd, e])
        · exact Or.inr (Or.inr h)
      · rcases h2 n with h | h
        · exact Or.inl (by rw [h]; simp [upd])
        · exact Or.inr h
    have leaf : ∃ P, (h.setP n p, Res.ok ()).1 = h.withP P ∧ Touched h n p P ∧
          ((h.setP n p, Res.ok ()).2 = Res.ok () → P n = some p ∨ ∃ q, (Holds h q n ∨ ForGrand h q n) ∧ P n = some q) := by
      obtain ⟨P, h1, h2, h3⟩ := top [] (fun _ h => nomatch h)
      exact ⟨P, h1, h2, fun _ => h3 rfl⟩
    have same : ∀ r : Res Unit, r ≠ .ok () → ∃ P, (h, r).1 = h.withP P ∧ Touched h n p P ∧
          ((h, r).2 = Res.ok () → P n = some p ∨ ∃ q, (Holds h q n ∨ ForGrand h q n) ∧ P n = some q) := fun r hr =>
      ⟨h.parent, rfl, fun _ => Or.inl rfl, fun h => absurd h hr⟩
    unfold setParent
    split
    · exact same _ (by simp)
    · exact same _ (by simp)
    · exact leaf
    · exact top _ (fun x hx => Or.inl (.stmt hx))
    · rename_i t e hk
      refine top _ (fun x hx => Or.inl ?_)
      simp only [List.mem_cons, List.not_mem_nil, or_false] at hx
      rcases hx with rfl | rfl
      · exact .thenB hk
      · exact .elseB hk
    · refine top _ (fun x hx => Or.inl ?_)
      obtain ⟨⟨k, b⟩, hm, rfl⟩ := List.mem_map.1 hx
      exact .case hm
    · rename_i b g hk
      split
      · unfold forAtTop
        split
        · exact same _ (by simp)
        · exact leaf
      · exact top _ (fun x hx => Or.inr ⟨b, g, hk, hx⟩)

end Kratos.Heap
