import Verif.Opt.Props
import Verif.Pass.Kinds

/-!
# Removing assertions and events (property C80)

Models `remove_assertion` (src/debug.cc:565-602) and `remove_event_stmts` (src/event.cc:66-111).  Both drop one kind of statement from the
blocks they visit and then run `remove_empty_block` (C15).  Statements are those of `Verif.Ir`; the kind to be removed is a set of
`other` statements.  Simplification: an assertion or event is one statement without inner structure, and a block directly inside a
block is spliced into it.
-/

namespace Kratos.Asrt
open Kratos.Ir Kratos.Opt

/-- `StatementBlockType` of the blocks of a generator (src/stmt.hh:33). -/
inductive Kind where
  | comb
  | seq
  | latch
  | initial
  | final
  deriving DecidableEq, Repr

/-- A statement of a generator: a plain one, or a block.  `n` is the number of event controls of the block. -/
inductive Item where
  | stmt (s : Stmt)
  | block (k : Kind) (n : Nat) (b : Stmts)

/-- A generator: statements and functions. -/
structure Design where
  items : List Item
  funcs : List Stmts

/-! ### Model -/

section
variable (rm : Nat → Bool)

mutual
/-- The blocks inside a statement are `ScopedStmtBlock`s and all are visited (`visit(ScopedStmtBlock*)`, src/debug.cc:580). -/
def dropS : Stmt → Stmt
  | .ite c t e => .ite c (dropB t) (dropB e)
  | .switch tgt cs => .switch tgt (dropC cs)
  | .for_ iv a b s body => .for_ iv a b s (dropB body)
  | .assign nb l r => .assign nb l r
  | .ret e => .ret e
  | .brk => .brk
  | .other n => .other n
/-- `process_block` (src/debug.cc:584-595, src/event.cc:89-103), and the same for the blocks below. -/
def dropB : Stmts → Stmts
  | .nil => .nil
  | .cons s ss => match s with
    | .other n => if rm n then dropB ss else .cons (.other n) (dropB ss)
    | s => .cons (dropS s) (dropB ss)
def dropC : Cases → Cases
  | .nil => .nil
  | .cons k b cs => .cons k (dropB b) (dropC cs)
end

/-- A block that is not processed itself: initial, final, latch and function blocks have no `visit` here (src/debug.cc:580-582). -/
def inner : Stmts → Stmts
  | .nil => .nil
  | .cons s ss => .cons (dropS rm s) (inner ss)

/-- `visit(Generator*)` (src/debug.cc:567-578) and the blocks.  `mis`: for a clocked block `remove_assertion` also reads its event controls
as statements (`child_count`, `get_child`, src/debug.cc:585-588, src/stmt.cc:512-520), which is undefined; `mis` says whether what it reads
looks like an assertion.  `remove_event_stmts` does not do this (`mis := false`). -/
def visit (mis : Bool) : List Item → Res (List Item)
  | [] => .ok []
  | .stmt (.other n) :: l => if rm n then visit mis l else (visit mis l).map fun l => .stmt (.other n) :: l
  | .stmt s :: l => (visit mis l).map fun l => .stmt (dropS rm s) :: l
  | .block k n b :: l => match k with
    | .comb => (visit mis l).map fun l => .block k n (dropB rm b) :: l
    | .seq => if mis && n != 0 then .ub else (visit mis l).map fun l => .block k n (dropB rm b) :: l
    | _ => (visit mis l).map fun l => .block k n (inner rm b) :: l
end

/-- `remove_empty_block` on a generator (src/optimize.cc:928-938): functions are not looked at. -/
def prune : List Item → Res (List Item)
  | [] => .ok []
  | .stmt s :: l => (removeEmptyStmt s).bind fun o => (prune l).map fun l => match o with
    | some s => .stmt s :: l
    | none => l
  | .block k n b :: l => (removeEmpty b).bind fun b => (prune l).map fun l => if b.isEmpty then l else .block k n b :: l

/-- `remove_assertion`, `remove_event_stmts` (src/debug.cc:597-602, src/event.cc:106-111). -/
def remove (rm : Nat → Bool) (mis : Bool) (D : Design) : Res Design :=
  (visit rm mis D.items).bind fun l => (prune l).map fun l => ⟨l, D.funcs.map (inner rm)⟩

/-! ### Specification -/

/-- What is removed has no effect. -/
def Silent (rm : Nat → Bool) (ι : Nat → St → St) : Prop := ∀ n, rm n = true → ∀ st, ι n st = st

/-- Same effect, apart from what is removed. -/
def Same (rm : Nat → Bool) (a b : Stmts) : Prop := ∀ ι, Silent rm ι → ∀ st, a.exec ι st = b.exec ι st

/-- The second list is the first one, statement by statement with the same effect, without statements that have none. -/
inductive Rest (rm : Nat → Bool) : List Item → List Item → Prop
  | nil : Rest rm [] []
  | stmt {s s' l l'} (h : Same rm (.cons s .nil) (.cons s' .nil)) (t : Rest rm l l') : Rest rm (.stmt s :: l) (.stmt s' :: l')
  | goneStmt {s l l'} (h : Same rm (.cons s .nil) .nil) (t : Rest rm l l') : Rest rm (.stmt s :: l) l'
  | block {k n b b' l l'} (h : Same rm b b') (t : Rest rm l l') : Rest rm (.block k n b :: l) (.block k n b' :: l')
  | goneBlock {k n b l l'} (h : Same rm b .nil) (t : Rest rm l l') : Rest rm (.block k n b :: l) l'

/-- None is left in a block, at any depth. -/
def Free (rm : Nat → Bool) (b : Stmts) : Prop := AllB (fun s => ∀ n, s = .other n → rm n = false) b

def Item.Free (rm : Nat → Bool) : Item → Prop
  | .stmt s => Asrt.Free rm (.cons s .nil)
  | .block _ _ b => Asrt.Free rm b

mutual
/-- Nothing is left of a statement: it is removed, or a `case` without anything left. -/
def goneS (rm : Nat → Bool) : Stmt → Bool
  | .other n => rm n
  | .switch _ cs => goneC rm cs
  | _ => false
def goneB (rm : Nat → Bool) : Stmts → Bool
  | .nil => true
  | .cons s ss => goneS rm s && goneB rm ss
def goneC (rm : Nat → Bool) : Cases → Bool
  | .nil => true
  | .cons _ b cs => goneB rm b && goneC rm cs
end

mutual
/-- Some `if`, not inside a loop, has nothing left in either branch. -/
def bareS (rm : Nat → Bool) : Stmt → Bool
  | .ite _ t e => bareB rm t || bareB rm e || (goneB rm t && goneB rm e)
  | .switch _ cs => bareC rm cs
  | _ => false
def bareB (rm : Nat → Bool) : Stmts → Bool
  | .nil => false
  | .cons s ss => bareS rm s || bareB rm ss
def bareC (rm : Nat → Bool) : Cases → Bool
  | .nil => false
  | .cons _ b cs => bareB rm b || bareC rm cs
end

def Item.bare (rm : Nat → Bool) : Item → Bool
  | .stmt s => bareS rm s
  | .block _ _ b => bareB rm b

/-- Some labelled case has nothing left. -/
def goneLabel (rm : Nat → Bool) : Cases → Bool
  | .nil => false
  | .cons none _ cs => goneLabel rm cs
  | .cons (some _) b cs => goneB rm b || goneLabel rm cs

/-- Where pruning is right (as in C15): an `if` whose then-branch has nothing left has a one-bit condition, and only plain statements
in its else-branch, not all of them removed; `case` labels differ, and none loses its body next to a default. -/
def Fit (rm : Nat → Bool) : Stmt → Prop
  | .ite c t e => (goneB rm t = true → c.WF ∧ c.width = 1 ∧ allPlain e = true ∧ goneB rm e = false)
  | .switch tgt cs => (labels tgt.width cs).Nodup ∧ (hasDefault cs = true → goneLabel rm cs = false ∧ oneDefault cs = true)
  | _ => True

def Item.Fit (rm : Nat → Bool) : Item → Prop
  | .stmt s => AllS (Asrt.Fit rm) s
  | .block _ _ b => AllB (Asrt.Fit rm) b

/-- Full claim: everything else stays, and none is left. -/
def RemoveClaim : Prop := ∀ (rm : Nat → Bool) (D : Design), ∃ D', remove rm false D = .ok D' ∧ Rest rm D.items D'.items ∧
  (∀ x ∈ D'.items, x.Free rm) ∧ (∀ b ∈ D'.funcs, Free rm b)

/-! ### Proof -/

variable {rm : Nat → Bool}

mutual
theorem dropS_exec {ι : Nat → St → St} (hι : Silent rm ι) : ∀ (s : Stmt) (st : St), (dropS rm s).exec ι st = s.exec ι st
  | .ite c t e, st => by
    simp only [dropS, Stmt.exec, dropB_exec hι t, dropB_exec hι e]
  | .switch tgt cs, st => by simp only [dropS, Stmt.exec, dropC_exec hι cs]
  | .for_ iv a b s body, st => by simp only [dropS, Stmt.exec, dropB_exec hι body]
  | .assign .., _ => rfl
  | .ret _, _ => rfl
  | .brk, _ => rfl
  | .other _, _ => rfl
theorem dropB_exec {ι : Nat → St → St} (hι : Silent rm ι) : ∀ (b : Stmts) (st : St), (dropB rm b).exec ι st = b.exec ι st
  | .nil, _ => rfl
  | .cons (.other n) ss, st => by
    simp only [dropB]
    rw [Stmts.exec_cons]
    split
    · rename_i h
      rw [dropB_exec hι ss, Stmt.exec, hι n h]
      simp [guardRun]
    · rw [Stmts.exec_cons, dropB_exec hι ss]
  | .cons (.ite c t e) ss, st => by simp only [dropB]; rw [Stmts.exec_cons, Stmts.exec_cons, dropS_exec hι, dropB_exec hι ss]
  | .cons (.switch tgt cs) ss, st => by simp only [dropB]; rw [Stmts.exec_cons, Stmts.exec_cons, dropS_exec hι, dropB_exec hι ss]
  | .cons (.for_ iv a b s body) ss, st => by simp only [dropB]; rw [Stmts.exec_cons, Stmts.exec_cons, dropS_exec hι, dropB_exec hι ss]
  | .cons (.assign nb l r) ss, st => by simp only [dropB]; rw [Stmts.exec_cons, Stmts.exec_cons, dropS_exec hι, dropB_exec hι ss]
  | .cons (.ret e) ss, st => by simp only [dropB]; rw [Stmts.exec_cons, Stmts.exec_cons, dropS_exec hι, dropB_exec hι ss]
  | .cons .brk ss, st => by simp only [dropB]; rw [Stmts.exec_cons, Stmts.exec_cons, dropS_exec hι, dropB_exec hι ss]
theorem dropC_exec {ι : Nat → St → St} (hι : Silent rm ι) : ∀ (cs : Cases) (w v : Nat) (k : St → St) (st : St),
    (dropC rm cs).exec ι w v k st = cs.exec ι w v k st
  | .nil, _, _, _, _ => rfl
  | .cons none b cs, w, v, k, st => by
    simp only [dropC, Cases.exec, dropB_exec hι b, dropC_exec hι cs]
  | .cons (some c) b cs, w, v, k, st => by simp only [dropC, Cases.exec, dropB_exec hι b, dropC_exec hι cs]
end

theorem inner_exec {ι : Nat → St → St} (hι : Silent rm ι) : ∀ (b : Stmts) (st : St), (inner rm b).exec ι st = b.exec ι st
  | .nil, _ => rfl
  | .cons s ss, st => by rw [inner, Stmts.exec_cons, Stmts.exec_cons, dropS_exec hι, inner_exec hι ss]

/-- Every statement is an `other` one or not. -/
theorem dropB_cons (s : Stmt) (ss : Stmts) : (∃ n, s = .other n ∧ rm n = true ∧ dropB rm (.cons s ss) = dropB rm ss) ∨
    ((∀ n, s = .other n → rm n = false) ∧ dropB rm (.cons s ss) = .cons (dropS rm s) (dropB rm ss)) := by
  cases s with
  | other n =>
    simp only [dropB, dropS]
    cases h : rm n with
    | true => exact .inl ⟨n, rfl, h, by simp⟩
    | false => exact .inr ⟨fun m hm => by cases hm; exact h, by simp⟩
  | ite c t e => exact .inr ⟨fun m hm => by (cases hm), by simp only [dropB]⟩
  | switch c t => exact .inr ⟨fun m hm => by (cases hm), by simp only [dropB]⟩
  | for_ iv a b s body => exact .inr ⟨fun m hm => by (cases hm), by simp only [dropB]⟩
  | assign nb l r => exact .inr ⟨fun m hm => by (cases hm), by simp only [dropB]⟩
  | ret e => exact .inr ⟨fun m hm => by (cases hm), by simp only [dropB]⟩
  | brk => exact .inr ⟨fun m hm => by (cases hm), by simp only [dropB]⟩

mutual
theorem free_dropS : ∀ s : Stmt, (∀ n, s = .other n → rm n = false) → AllS (fun s => ∀ n, s = .other n → rm n = false) (dropS rm s)
  | .ite c t e, _ => ⟨nofun, free_dropB t, free_dropB e⟩
  | .switch tgt cs, _ => ⟨nofun, free_dropC cs⟩
  | .for_ iv a b s body, _ => ⟨nofun, free_dropB body⟩
  | .assign .., _ => nofun
  | .ret _, _ => nofun
  | .brk, _ => nofun
  | .other n, h => h
theorem free_dropB : ∀ b : Stmts, Free rm (dropB rm b)
  | .nil => trivial
  | .cons s ss => by
    rcases dropB_cons (rm := rm) s ss with ⟨n, _, _, h⟩ | ⟨h1, h2⟩
    · rw [h]; exact free_dropB ss
    · rw [h2]; exact ⟨free_dropS s h1, free_dropB ss⟩
theorem free_dropC : ∀ cs : Cases, AllC (fun s => ∀ n, s = .other n → rm n = false) (dropC rm cs)
  | .nil => trivial
  | .cons _ b cs => ⟨free_dropB b, free_dropC cs⟩
end

/-! Pruning adds nothing. -/

abbrev NoRm (rm : Nat → Bool) (s : Stmt) : Prop := ∀ n, s = .other n → rm n = false

theorem free_clearC : ∀ cs : Cases, AllC (NoRm rm) (clearCases cs)
  | .nil => trivial
  | .cons _ _ cs => ⟨trivial, free_clearC cs⟩

theorem free_clear : ∀ b : Stmts, AllB (NoRm rm) b → AllB (NoRm rm) (clearAll b)
  | .nil, _ => trivial
  | .cons s ss, h => by
    refine ⟨?_, free_clear ss h.2⟩
    cases s with
    | ite c t e => exact ⟨nofun, trivial, trivial⟩
    | switch tgt cs => exact ⟨nofun, free_clearC cs⟩
    | for_ iv a b s body => exact ⟨nofun, trivial⟩
    | assign nb l r => exact h.1
    | ret e => exact h.1
    | brk => exact h.1
    | other n => exact h.1

mutual
theorem free_pruneS : ∀ (s s' : Stmt), AllS (NoRm rm) s → removeEmptyStmt s = .ok (some s') → AllS (NoRm rm) s'
  | .ite c t e, s', h, hr => by
    simp only [removeEmptyStmt, Res.bind_eq_ok] at hr
    obtain ⟨t', ht, e', he, hr⟩ := hr
    split at hr
    · split at hr
      · cases hr
      · cases hr
        exact ⟨nofun, free_clear _ (free_pruneB e e' h.2.2 he), trivial⟩
    · cases hr
      exact ⟨nofun, free_pruneB t t' h.2.1 ht, free_pruneB e e' h.2.2 he⟩
  | .switch tgt cs, s', h, hr => by
    simp only [removeEmptyStmt, Res.bind_eq_ok] at hr
    obtain ⟨cs', hcs, hr⟩ := hr
    split at hr
    · cases hr
    · cases hr
      exact ⟨nofun, free_pruneC cs cs' h.2 hcs⟩
  | .for_ iv a b s body, s', h, hr => by cases hr; exact h
  | .assign .., s', h, hr => by cases hr; exact h
  | .ret _, s', h, hr => by cases hr; exact h
  | .brk, s', h, hr => by cases hr; exact h
  | .other _, s', h, hr => by cases hr; exact h
theorem free_pruneB : ∀ (b b' : Stmts), AllB (NoRm rm) b → removeEmpty b = .ok b' → AllB (NoRm rm) b'
  | .nil, b', _, hr => by cases hr; trivial
  | .cons s ss, b', h, hr => by
    simp only [removeEmpty, Res.bind_eq_ok] at hr
    obtain ⟨o, ho, ss', hss, hr⟩ := hr
    cases o with
    | none => cases hr; exact free_pruneB ss _ h.2 hss
    | some s' => cases hr; exact ⟨free_pruneS s s' h.1 ho, free_pruneB ss _ h.2 hss⟩
theorem free_pruneC : ∀ (cs cs' : Cases), AllC (NoRm rm) cs → removeEmptyCases cs = .ok cs' → AllC (NoRm rm) cs'
  | .nil, cs', _, hr => by cases hr; trivial
  | .cons k b cs, cs', h, hr => by
    simp only [removeEmptyCases, Res.bind_eq_ok] at hr
    obtain ⟨b', hb, cs1, hcs, hr⟩ := hr
    split at hr
    · cases hr; exact free_pruneC cs _ h.2 hcs
    · cases hr; exact ⟨free_pruneB b b' h.1 hb, free_pruneC cs _ h.2 hcs⟩
end

/-! When pruning crashes. -/

mutual
theorem pruneS : ∀ s : Stmt, NoRm rm s → (bareS rm s = true ∧ removeEmptyStmt (dropS rm s) = .ub) ∨
    (bareS rm s = false ∧ ∃ o, removeEmptyStmt (dropS rm s) = .ok o ∧ o.isNone = goneS rm s)
  | .ite c t e, _ => by
    rw [dropS, removeEmptyStmt, bareS]
    rcases pruneB t with ⟨h1, h2⟩ | ⟨h1, t', h2, h3⟩
    · exact .inl ⟨by rw [h1]; rfl, by rw [h2]; rfl⟩
    · rcases pruneB e with ⟨h4, h5⟩ | ⟨h4, e', h5, h6⟩
      · exact .inl ⟨by rw [h1, h4]; rfl, by rw [h2, h5]; rfl⟩
      · rw [h2, h5, h1, h4, ← h3, ← h6, Res.ok_bind, Res.ok_bind]
        cases ht : t'.isEmpty with
        | false => exact .inr ⟨rfl, _, rfl, rfl⟩
        | true =>
          cases he : e'.isEmpty with
          | false => exact .inr ⟨rfl, _, rfl, rfl⟩
          | true => exact .inl ⟨rfl, rfl⟩
  | .switch tgt cs, _ => by
    rw [dropS, removeEmptyStmt, bareS, goneS]
    rcases pruneC cs with ⟨h1, h2⟩ | ⟨h1, cs', h2, h3⟩
    · exact .inl ⟨h1, by rw [h2]; rfl⟩
    · refine .inr ⟨h1, ?_⟩
      rw [h2, ← h3, Res.ok_bind]
      cases cs'.isEmpty with
      | true => exact ⟨_, rfl, rfl⟩
      | false => exact ⟨_, rfl, rfl⟩
  | .for_ iv a b s body, _ => .inr ⟨rfl, _, rfl, rfl⟩
  | .assign .., _ => .inr ⟨rfl, _, rfl, rfl⟩
  | .ret _, _ => .inr ⟨rfl, _, rfl, rfl⟩
  | .brk, _ => .inr ⟨rfl, _, rfl, rfl⟩
  | .other n, h => .inr ⟨rfl, _, rfl, (h n rfl).symm⟩
theorem pruneB : ∀ b : Stmts, (bareB rm b = true ∧ removeEmpty (dropB rm b) = .ub) ∨
    (bareB rm b = false ∧ ∃ b', removeEmpty (dropB rm b) = .ok b' ∧ b'.isEmpty = goneB rm b)
  | .nil => .inr ⟨rfl, _, rfl, rfl⟩
  | .cons s ss => by
    rcases dropB_cons (rm := rm) s ss with ⟨n, hs, hn, h⟩ | ⟨h1, h2⟩
    · rw [h]
      subst hs
      simp only [bareB, goneB, bareS, goneS, hn, Bool.true_and, Bool.false_or]
      exact pruneB ss
    · rw [h2, removeEmpty, bareB, goneB]
      rcases pruneS s h1 with ⟨h3, h4⟩ | ⟨h3, o, h4, h5⟩
      · exact .inl ⟨by rw [h3]; rfl, by rw [h4]; rfl⟩
      · rcases pruneB ss with ⟨h6, h7⟩ | ⟨h6, b', h7, h8⟩
        · exact .inl ⟨by rw [h3, h6]; rfl, by rw [h4, h7]; rfl⟩
        · refine .inr ⟨by rw [h3, h6]; rfl, ?_⟩
          rw [h4, h7, ← h5, ← h8, Res.ok_bind, Res.ok_bind]
          cases o with
          | none => exact ⟨b', rfl, rfl⟩
          | some s' => exact ⟨_, rfl, rfl⟩
theorem pruneC : ∀ cs : Cases, (bareC rm cs = true ∧ removeEmptyCases (dropC rm cs) = .ub) ∨
    (bareC rm cs = false ∧ ∃ cs', removeEmptyCases (dropC rm cs) = .ok cs' ∧ cs'.isEmpty = goneC rm cs)
  | .nil => .inr ⟨rfl, _, rfl, rfl⟩
  | .cons k b cs => by
    rw [dropC, removeEmptyCases, bareC, goneC]
    rcases pruneB b with ⟨h1, h2⟩ | ⟨h1, b', h2, h3⟩
    · exact .inl ⟨by rw [h1]; rfl, by rw [h2]; rfl⟩
    · rcases pruneC cs with ⟨h4, h5⟩ | ⟨h4, cs', h5, h6⟩
      · exact .inl ⟨by rw [h1, h4]; rfl, by rw [h2, h5]; rfl⟩
      · refine .inr ⟨by rw [h1, h4]; rfl, ?_⟩
        rw [h2, h5, ← h3, ← h6, Res.ok_bind, Res.ok_bind]
        cases b'.isEmpty with
        | true => exact ⟨cs', rfl, rfl⟩
        | false => exact ⟨_, rfl, rfl⟩
end

theorem prune_inner : ∀ b : Stmts, (bareB rm b = true ∧ removeEmpty (inner rm b) = .ub) ∨
    (bareB rm b = false ∧ ∃ b', removeEmpty (inner rm b) = .ok b')
  | .nil => .inr ⟨rfl, _, rfl⟩
  | .cons s ss => by
    rw [inner, removeEmpty, bareB]
    have hs : (bareS rm s = true ∧ removeEmptyStmt (dropS rm s) = .ub) ∨ (bareS rm s = false ∧ ∃ o, removeEmptyStmt (dropS rm s) = .ok o) := by
      rcases Classical.em (∃ n, s = .other n) with ⟨n, rfl⟩ | hne
      · exact .inr ⟨rfl, _, rfl⟩
      · rcases pruneS (rm := rm) s (fun n h => absurd ⟨n, h⟩ hne) with h | ⟨h1, o, h2, _⟩
        · exact .inl h
        · exact .inr ⟨h1, o, h2⟩
    rcases hs with ⟨h3, h4⟩ | ⟨h3, o, h4⟩
    · exact .inl ⟨by rw [h3]; rfl, by rw [h4]; rfl⟩
    · rcases prune_inner ss with ⟨h6, h7⟩ | ⟨h6, b', h7⟩
      · exact .inl ⟨by rw [h3, h6]; rfl, by rw [h4, h7]; rfl⟩
      · refine .inr ⟨by rw [h3, h6]; rfl, ?_⟩
        rw [h4, h7, Res.ok_bind, Res.ok_bind]
        cases o with
        | none => exact ⟨b', rfl⟩
        | some s' => exact ⟨_, rfl⟩

/-! Where pruning is right. -/

theorem plain_drop : ∀ b : Stmts, allPlain b = true → allPlain (dropB rm b) = true
  | .nil, _ => rfl
  | .cons s ss, h => by
    simp only [allPlain, Bool.and_eq_true] at h
    rcases dropB_cons (rm := rm) s ss with ⟨n, _, _, h2⟩ | ⟨_, h2⟩
    · rw [h2]; exact plain_drop ss h.2
    · rw [h2, allPlain, plain_drop ss h.2, Bool.and_true]
      cases s <;> first | rfl | simp [plain] at h

theorem labels_drop (w : Nat) : ∀ cs : Cases, labels w (dropC rm cs) = labels w cs
  | .nil => rfl
  | .cons none _ cs => labels_drop w cs
  | .cons (some _) _ cs => by simp only [dropC, labels, labels_drop w cs]

theorem default_drop : ∀ cs : Cases, hasDefault (dropC rm cs) = hasDefault cs
  | .nil => rfl
  | .cons none _ cs => rfl
  | .cons (some _) _ cs => default_drop cs

theorem one_drop : ∀ cs : Cases, oneDefault (dropC rm cs) = oneDefault cs
  | .nil => rfl
  | .cons none _ cs => by simp only [dropC, oneDefault, default_drop]
  | .cons (some _) _ cs => one_drop cs

mutual
theorem hollowS_drop : ∀ s : Stmt, NoRm rm s → AllS (Fit rm) s → hollowS (dropS rm s) = goneS rm s
  | .ite c t e, _, h => by
    rw [dropS, hollowS, hollowB_drop t h.2.1, hollowB_drop e h.2.2, goneS]
    · cases ht : goneB rm t with
      | false => rfl
      | true => rw [(h.1 ht).2.2.2]; rfl
    · nofun
    · nofun
  | .switch tgt cs, _, h => by rw [dropS, hollowS, goneS, hollowC_drop cs h.2]
  | .for_ .., _, _ => rfl
  | .assign .., _, _ => rfl
  | .ret _, _, _ => rfl
  | .brk, _, _ => rfl
  | .other n, h, _ => (h n rfl).symm
theorem hollowB_drop : ∀ b : Stmts, AllB (Fit rm) b → hollowB (dropB rm b) = goneB rm b
  | .nil, _ => rfl
  | .cons s ss, h => by
    rcases dropB_cons (rm := rm) s ss with ⟨n, hs, hn, h2⟩ | ⟨h1, h2⟩
    · subst hs
      rw [h2, hollowB_drop ss h.2]
      simp only [goneB, goneS, hn, Bool.true_and]
    · rw [h2, hollowB, goneB, hollowS_drop s h1 h.1, hollowB_drop ss h.2]
theorem hollowC_drop : ∀ cs : Cases, AllC (Fit rm) cs → hollowC (dropC rm cs) = goneC rm cs
  | .nil, _ => rfl
  | .cons _ b cs, h => by rw [dropC, hollowC, goneC, hollowB_drop b h.1, hollowC_drop cs h.2]
end

theorem hollowLabel_drop : ∀ cs : Cases, AllC (Fit rm) cs → hollowLabel (dropC rm cs) = goneLabel rm cs
  | .nil, _ => rfl
  | .cons none _ cs, h => hollowLabel_drop cs h.2
  | .cons (some _) b cs, h => by rw [dropC, hollowLabel, goneLabel, hollowB_drop b h.1, hollowLabel_drop cs h.2]

mutual
theorem prunableS : ∀ s : Stmt, AllS (Fit rm) s → AllS Prunable (dropS rm s)
  | .ite c t e, h => by
    refine ⟨?_, prunableB t h.2.1, prunableB e h.2.2⟩
    intro ht
    rw [hollowB_drop t h.2.1] at ht
    obtain ⟨h1, h2, h3, h4⟩ := h.1 ht
    exact ⟨h1, h2, plain_drop e h3, by rw [hollowB_drop e h.2.2]; exact h4⟩
  | .switch tgt cs, h => by
    refine ⟨⟨by rw [labels_drop]; exact h.1.1, fun hd => ?_⟩, prunableC cs h.2⟩
    rw [default_drop] at hd
    rw [hollowLabel_drop cs h.2, one_drop]
    exact h.1.2 hd
  | .for_ iv a b s body, h => ⟨trivial, prunableB body h.2⟩
  | .assign .., _ => trivial
  | .ret _, _ => trivial
  | .brk, _ => trivial
  | .other n, _ => trivial
theorem prunableB : ∀ b : Stmts, AllB (Fit rm) b → AllB Prunable (dropB rm b)
  | .nil, _ => trivial
  | .cons s ss, h => by
    rcases dropB_cons (rm := rm) s ss with ⟨_, _, _, h2⟩ | ⟨h1, h2⟩
    · rw [h2]; exact prunableB ss h.2
    · rw [h2]; exact ⟨prunableS s h.1, prunableB ss h.2⟩
theorem prunableC : ∀ cs : Cases, AllC (Fit rm) cs → AllC Prunable (dropC rm cs)
  | .nil, _ => trivial
  | .cons _ b cs, h => ⟨prunableB b h.1, prunableC cs h.2⟩
end

theorem prunable_inner : ∀ b : Stmts, AllB (Fit rm) b → AllB Prunable (inner rm b)
  | .nil, _ => trivial
  | .cons s ss, h => ⟨prunableS s h.1, prunable_inner ss h.2⟩

/-! ### Property C80 -/

/-- What `visit` makes of an item. -/
def dropI (rm : Nat → Bool) : Item → Option Item
  | .stmt (.other n) => if rm n then none else some (.stmt (.other n))
  | .stmt s => some (.stmt (dropS rm s))
  | .block k n b => some (.block k n (if k = .comb ∨ k = .seq then dropB rm b else inner rm b))

theorem map_filter {α β : Type} (o : Option β) (l : List α) (f : α → Option β) (a : α) (h : f a = o) :
    (a :: l).filterMap f = o.toList ++ l.filterMap f := by
  cases o <;> simp [h]

theorem visit_ok {mis : Bool} : ∀ l : List Item, (∀ n b, .block .seq n b ∈ l → mis = false ∨ n = 0) → visit rm mis l = .ok (l.filterMap (dropI rm))
  | [], _ => rfl
  | .stmt s :: l, h => by
    have ih := visit_ok l fun n b hm => h n b (List.mem_cons_of_mem _ hm)
    cases s with
    | other n =>
      rw [visit, ih, List.filterMap_cons, dropI]
      cases rm n <;> rfl
    | _ => rw [visit, ih] <;> first | rfl | nofun
  | .block k n b :: l, h => by
    have ih := visit_ok l fun n b hm => h n b (List.mem_cons_of_mem _ hm)
    cases k with
    | seq =>
      rw [visit, ih, if_neg]
      · rfl
      · rcases h n b List.mem_cons_self with h | h <;> simp [h]
    | _ => simp only [visit, ih]; rfl

theorem same_drop (b : Stmts) : Same rm b (dropB rm b) := fun _ hι st => (dropB_exec hι b st).symm

theorem same_inner (b : Stmts) : Same rm b (inner rm b) := fun _ hι st => (inner_exec hι b st).symm

theorem Same.trans {a b c : Stmts} (h : Same rm a b) (k : b.Equiv c) : Same rm a c := fun ι hι st => (h ι hι st).trans (k ι st)

/-- If pruning is right everywhere, everything else is kept and nothing to be removed is left in the statements of the generator and in
combinational and clocked blocks. -/
theorem remove_partial {D : Design} {mis : Bool} (hm : ∀ n b, .block .seq n b ∈ D.items → mis = false ∨ n = 0) (hf : ∀ x ∈ D.items, x.Fit rm) :
    ∃ D', remove rm mis D = .ok D' ∧ Rest rm D.items D'.items ∧ Kinds.All2 (Same rm) D.funcs D'.funcs ∧
      (∀ x ∈ D'.items, (∀ k n b, x = .block k n b → k = .comb ∨ k = .seq) → x.Free rm) := by
  have key : ∀ l : List Item, (∀ x ∈ l, x.Fit rm) → ∃ l', prune (l.filterMap (dropI rm)) = .ok l' ∧ Rest rm l l' ∧
      (∀ x ∈ l', (∀ k n b, x = .block k n b → k = .comb ∨ k = .seq) → x.Free rm) := by
    intro l hf
    induction l with
    | nil => exact ⟨[], rfl, .nil, fun x hx => by cases hx⟩
    | cons x l ih =>
      obtain ⟨l', h1, h2, h3⟩ := ih fun y hy => hf y (List.mem_cons_of_mem _ hy)
      have hx := hf x List.mem_cons_self
      cases x with
      | stmt s =>
        rcases Classical.em (∃ n, s = .other n ∧ rm n = true) with ⟨n, rfl, hn⟩ | hne
        · refine ⟨l', ?_, .goneStmt ?_ h2, h3⟩
          · rw [List.filterMap_cons, dropI, if_pos hn]; exact h1
          · intro ι hι st
            rw [Stmts.exec_single, Stmts.exec_nil, Stmt.exec, hι n hn]
            simp [guardRun]
        · have hno : NoRm rm s := by
            intro n hs
            cases hn : rm n with
            | false => rfl
            | true => exact absurd ⟨n, hs, hn⟩ hne
          have hd : dropI rm (.stmt s) = some (.stmt (dropS rm s)) := by
            cases s with
            | other n => rw [dropI, hno n rfl]; rfl
            | _ => rfl
          obtain ⟨o, ho, _, hq⟩ := removeStmt_ok _ (prunableS s hx)
          have hs : Same rm (.cons s .nil) (.cons (dropS rm s) .nil) := by
            intro ι hι st
            rw [Stmts.exec_single, Stmts.exec_single, dropS_exec hι]
          cases o with
          | none =>
            refine ⟨l', ?_, .goneStmt (hs.trans fun ι st => ?_) h2, h3⟩
            · rw [List.filterMap_cons, hd]
              simp only [prune, ho, h1, Res.ok_bind, Res.ok_map]
            · rw [Stmts.exec_single, hq]; rfl
          | some s' =>
            refine ⟨.stmt s' :: l', ?_, .stmt (hs.trans fun ι st => ?_) h2, ?_⟩
            · rw [List.filterMap_cons, hd]
              simp only [prune, ho, h1, Res.ok_bind, Res.ok_map]
            · rw [Stmts.exec_single, hq, Stmts.exec_single]; rfl
            · intro y hy hk
              rcases List.mem_cons.1 hy with rfl | hy
              · exact ⟨free_pruneS _ _ (free_dropS s hno) ho, trivial⟩
              · exact h3 y hy hk
      | block k n b =>
        have hd : dropI rm (.block k n b) = some (.block k n (if k = .comb ∨ k = .seq then dropB rm b else inner rm b)) := rfl
        have hp : AllB Prunable (if k = .comb ∨ k = .seq then dropB rm b else inner rm b) := by
          split
          · exact prunableB b hx
          · exact prunable_inner b hx
        have hs : Same rm b (if k = .comb ∨ k = .seq then dropB rm b else inner rm b) := by
          split
          · exact same_drop b
          · exact same_inner b
        obtain ⟨r, hr, hre, hq⟩ := removeB_ok _ hp
        cases he : r.isEmpty with
        | true =>
          refine ⟨l', ?_, .goneBlock ((hs.trans hq).trans ?_) h2, h3⟩
          · rw [List.filterMap_cons, hd]
            simp only [prune, hr, h1, Res.ok_bind, Res.ok_map, he, if_true]
          · rw [(isEmpty_iff r).1 he]; exact Stmts.Equiv.refl _
        | false =>
          refine ⟨.block k n r :: l', ?_, .block (hs.trans hq) h2, ?_⟩
          · rw [List.filterMap_cons, hd]
            simp only [prune, hr, h1, Res.ok_bind, Res.ok_map, he, Bool.false_eq_true, if_false]
          · intro y hy hk
            rcases List.mem_cons.1 hy with rfl | hy
            · rw [if_pos (hk k n r rfl)] at hr
              exact free_pruneB _ _ (free_dropB b) hr
            · exact h3 y hy hk
  obtain ⟨l', h1, h2, h3⟩ := key D.items hf
  refine ⟨⟨l', D.funcs.map (inner rm)⟩, ?_, h2, ?_, h3⟩
  · rw [remove, visit_ok _ hm, Res.ok_bind, h1]; rfl
  · generalize D.funcs = fs
    induction fs with
    | nil => exact .nil
    | cons f fs ih => exact .cons (same_inner f) ih

/-- The pass ends with a null pointer exactly if somewhere, outside loops, an `if` has nothing left in both branches. -/
theorem remove_crash_iff (D : Design) : (remove rm false D = .ub ↔ ∃ x ∈ D.items, x.bare rm = true) ∧
    ((∀ x ∈ D.items, x.bare rm = false) → ∃ D', remove rm false D = .ok D') := by
  have key : ∀ l : List Item, (prune (l.filterMap (dropI rm)) = .ub ∧ ∃ x ∈ l, x.bare rm = true) ∨
      ((∃ l', prune (l.filterMap (dropI rm)) = .ok l') ∧ ∀ x ∈ l, x.bare rm = false) := by
    intro l
    induction l with
    | nil => exact .inr ⟨⟨[], rfl⟩, fun x hx => by cases hx⟩
    | cons x l ih =>
      have hx : (x.bare rm = true ∧ prune ((x :: l).filterMap (dropI rm)) = .ub) ∨ (x.bare rm = false ∧
          ((prune (l.filterMap (dropI rm)) = .ub → prune ((x :: l).filterMap (dropI rm)) = .ub) ∧
            ∀ l', prune (l.filterMap (dropI rm)) = .ok l' → ∃ l', prune ((x :: l).filterMap (dropI rm)) = .ok l')) := by
        cases x with
        | stmt s =>
          rcases Classical.em (∃ n, s = .other n ∧ rm n = true) with ⟨n, rfl, hn⟩ | hne
          · refine .inr ⟨rfl, ?_⟩
            rw [List.filterMap_cons, dropI, if_pos hn]
            exact ⟨id, fun l' h => ⟨l', h⟩⟩
          · have hno : NoRm rm s := by
              intro n hs
              cases hn : rm n with
              | false => rfl
              | true => exact absurd ⟨n, hs, hn⟩ hne
            have hd : dropI rm (.stmt s) = some (.stmt (dropS rm s)) := by
              cases s with
              | other n => rw [dropI, hno n rfl]; rfl
              | _ => rfl
            rw [List.filterMap_cons, hd]
            simp only [prune, Item.bare]
            rcases pruneS s hno with ⟨h1, h2⟩ | ⟨h1, o, h2, _⟩
            · exact .inl ⟨h1, by rw [h2]; rfl⟩
            · refine .inr ⟨h1, fun h => by rw [h2, h]; rfl, fun l' h => ?_⟩
              rw [h2, h]
              exact ⟨_, rfl⟩
        | block k n b =>
          have hd : dropI rm (.block k n b) = some (.block k n (if k = .comb ∨ k = .seq then dropB rm b else inner rm b)) := rfl
          have hp : (bareB rm b = true ∧ removeEmpty (if k = .comb ∨ k = .seq then dropB rm b else inner rm b) = .ub) ∨
              (bareB rm b = false ∧ ∃ b', removeEmpty (if k = .comb ∨ k = .seq then dropB rm b else inner rm b) = .ok b') := by
            split
            · rcases pruneB (rm := rm) b with h | ⟨h1, b', h2, _⟩
              · exact .inl h
              · exact .inr ⟨h1, b', h2⟩
            · exact prune_inner b
          rw [List.filterMap_cons, hd]
          simp only [prune, Item.bare]
          rcases hp with ⟨h1, h2⟩ | ⟨h1, b', h2⟩
          · exact .inl ⟨h1, by rw [h2]; rfl⟩
          · refine .inr ⟨h1, fun h => by rw [h2, h]; rfl, fun l' h => ?_⟩
            rw [h2, h]
            exact ⟨_, rfl⟩
      rcases hx with ⟨h1, h2⟩ | ⟨h1, h2, h3⟩
      · exact .inl ⟨h2, x, List.mem_cons_self, h1⟩
      · rcases ih with ⟨h4, y, hy, h5⟩ | ⟨⟨l', h4⟩, h5⟩
        · exact .inl ⟨h2 h4, y, List.mem_cons_of_mem _ hy, h5⟩
        · refine .inr ⟨h3 l' h4, fun y hy => ?_⟩
          rcases List.mem_cons.1 hy with rfl | hy
          · exact h1
          · exact h5 y hy
  have hv := visit_ok (rm := rm) (mis := false) D.items fun _ _ _ => .inl rfl
  rw [remove, hv, Res.ok_bind]
  rcases key D.items with ⟨h1, x, hx, h2⟩ | ⟨⟨l', h1⟩, h2⟩
  · rw [h1]
    exact ⟨⟨fun _ => ⟨x, hx, h2⟩, fun _ => rfl⟩, fun h => by rw [h x hx] at h2; cases h2⟩
  · rw [h1]
    exact ⟨⟨(fun h => by cases h), (fun ⟨x, hx, h⟩ => by rw [h2 x hx] at h; cases h)⟩, fun _ => ⟨_, rfl⟩⟩

/-! ### A design that meets the hypotheses -/

/-- Odd statements are assertions. -/
def odd : Nat → Bool := fun n => n % 2 == 1

/-- A clocked block with an assertion next to an assignment, inside and outside an `if`; a block with assertions only; one at top level. -/
def sample : Design where
  items := [.stmt (.other 1), .stmt (.other 2),
    .block .seq 1 (.cons (.ite (.var 0 1) (.cons (.other 3) (.cons (setc 1 1) .nil)) (.cons (.other 5) .nil)) (.cons (.other 1) .nil)),
    .block .comb 0 (.cons (.switch (.var 2 1) (.cons (some 0) (.cons (.other 7) .nil) .nil)) (.cons (.other 1) .nil))]
  funcs := []

example : (∀ x ∈ sample.items, x.Fit odd) ∧ (∀ n b, .block .seq n b ∈ sample.items → false = false ∨ n = 0) ∧
    remove odd false sample = .ok ⟨[.stmt (.other 2), .block .seq 1 (.cons (.ite (.var 0 1) (.cons (setc 1 1) .nil) .nil) .nil)], []⟩ := by
  refine ⟨?_, fun _ _ _ => .inl rfl, rfl⟩
  intro x hx
  simp only [sample, List.mem_cons, List.not_mem_nil, or_false] at hx
  rcases hx with rfl | rfl | rfl | rfl <;> simp [Item.Fit, AllS, AllB, AllC, Fit, goneB, goneS, odd, setc, labels, hasDefault]

/-! ### Where it goes wrong -/

/-- `if (c) assert (…);` – an assertion or event under a condition, the usual place for one: a null pointer is dereferenced. -/
theorem guarded_ub {n : Nat} (hn : rm n = true) (k : Nat) (c : Expr) (l : List Item) (fs : List Stmts) :
    remove rm false ⟨.block .comb k (.cons (.ite c (.cons (.other n) .nil) .nil) .nil) :: l, fs⟩ = .ub := by
  refine ((remove_crash_iff _).1).2 ⟨_, List.mem_cons_self, ?_⟩
  simp [Item.bare, bareB, bareS, goneB, goneS, hn]

/-- A design without any assertion is not safe either. -/
theorem empty_if_ub (k : Nat) (c : Expr) (l : List Item) (fs : List Stmts) :
    remove rm false ⟨.block .comb k (.cons (.ite c .nil .nil) .nil) :: l, fs⟩ = .ub := by
  refine ((remove_crash_iff _).1).2 ⟨_, List.mem_cons_self, ?_⟩
  simp [Item.bare, bareB, bareS, goneB]

/-- Removing assertions reads the event controls of clocked blocks as statements. -/
theorem clocked_ub {n : Nat} (hn : n ≠ 0) (b : Stmts) (l : List Item) (fs : List Stmts) : remove rm true ⟨.block .seq n b :: l, fs⟩ = .ub := by
  simp [remove, visit, hn, Res.bind]

/-- Assertions directly in initial, final and latch blocks and in functions are left. -/
theorem other_blocks_missed {n : Nat} {k : Kind} (hk : k ≠ .comb ∧ k ≠ .seq) :
    remove rm false ⟨[.block k 0 (.cons (.other n) .nil)], [.cons (.other n) .nil]⟩ =
      .ok ⟨[.block k 0 (.cons (.other n) .nil)], [.cons (.other n) .nil]⟩ := by
  cases k with
  | comb => exact absurd rfl hk.1
  | seq => exact absurd rfl hk.2
  | latch => rfl
  | initial => rfl
  | final => rfl

/-- Removing what is in a case leads its value to the default. -/
theorem default_wrong : ∃ D', remove odd false ⟨[.block .comb 0 (.cons (.switch (.var 0 1) (.cons (some 0) (.cons (.other 1) .nil)
      (.cons none (.cons (setc 1 1) .nil) .nil))) .nil)], []⟩ = .ok ⟨[.block .comb 0 D'], []⟩ ∧
    ¬ Same odd (.cons (.switch (.var 0 1) (.cons (some 0) (.cons (.other 1) .nil) (.cons none (.cons (setc 1 1) .nil) .nil))) .nil) D' := by
  refine ⟨_, rfl, fun h => ?_⟩
  have h2 := congrArg (fun s : St => s.val 1) (h (fun _ s => s) (fun _ _ _ => rfl) ⟨fun _ => 0, [], .run⟩)
  revert h2
  decide

theorem not_RemoveClaim : ¬ RemoveClaim := by
  intro h
  obtain ⟨D', hD, _⟩ := h odd ⟨[.block .comb 0 (.cons (.ite (.var 0 1) (.cons (.other 1) .nil) .nil) .nil)], []⟩
  rw [guarded_ub (by rfl)] at hD
  cases hD

end Kratos.Asrt
