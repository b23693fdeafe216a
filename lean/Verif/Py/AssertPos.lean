import Verif.Base

/-!
# The position a failing assertion reports (property C129)

`assert_(...)` and `raise Exception(...)` inside a Python block become assertions of the design
(`kratos/pyast.py:536-580, 932-947`, `kratos/tb.py:6-16`), `inject_assertion_fail`
(`src/debug.cc:802-839`) gives every assertion that has a source position an action that reports it to
the debugger, and `stmt_code` writes the assertion out (`src/codegen.cc:710-764`).

The generator is in debug mode, so all loops of the block have been unrolled (`kratos/pyast.py:228`)
and what is left of the tests are calls `scope.if_(...).else_(...)` (`kratos/pyast.py:475-489`).
Statements other than assertions and tests are opaque, and so are variables, of which only the width
and whether their generator is in debug mode are seen.  The arguments of a reporting call are one token;
the texts of names and numbers are C19 and C20.  Left out: scope variables, `ssa_transform`, and further
arguments of `assert_`.
-/

namespace Kratos.AssertPos

abbrev Pos := String × Nat

/-- The argument of an assertion: a variable with its width, and whether its generator is in debug
mode; or a Python integer. -/
inductive Val where
  | var (n width : Nat) (debug : Bool)
  | int (k : Int)
  deriving DecidableEq, Repr

/-- The body of a block, as a list.  `check`: `assert_(v)` on line `ln` of the function, `gen` the line of
the text that is compiled in the end.  `scopeCheck`: `scope.assert_(v, ln)`.  `fail`: `raise`, and whether
it raises a call of `Exception`.  `ite`: `scope.if_(c, ...).else_(...)`. -/
inductive Py where
  | nil
  | other (n : Nat) (rest : Py)
  | check (v : Val) (ln gen : Nat) (rest : Py)
  | scopeCheck (v : Val) (ln : Nat) (rest : Py)
  | fail (exception : Bool) (ln : Nat) (rest : Py)
  | ite (c : Nat) (t e : Py) (rest : Py)
  deriving DecidableEq, Repr

/-! ### Model -/

/-- `AssertNodeVisitor` (`kratos/pyast.py:543-557`): a call that is not `assert_` is returned as it is,
with whatever is inside it. -/
def assertVisit : Py → Py
  | .nil => .nil
  | .other n r => .other n (assertVisit r)
  | .check v ln _ r => .scopeCheck v ln (assertVisit r)
  | .scopeCheck v ln r => .scopeCheck v ln (assertVisit r)
  | .fail x ln r => .fail x ln (assertVisit r)
  | .ite c t e r => .ite c t e (assertVisit r)

/-- `ExceptionNodeVisitor` (`kratos/pyast.py:566-580`): `raise` is looked for everywhere. -/
def exceptionVisit : Py → Res Py
  | .nil => .ok .nil
  | .other n r => (exceptionVisit r).bind fun r => .ok (.other n r)
  | .check v ln g r => (exceptionVisit r).bind fun r => .ok (.check v ln g r)
  | .scopeCheck v ln r => (exceptionVisit r).bind fun r => .ok (.scopeCheck v ln r)
  | .fail x ln r =>
    if x then (exceptionVisit r).bind fun r => .ok (.scopeCheck (.int 0) ln r) else .throw .user
  | .ite c t e r => (exceptionVisit t).bind fun t => (exceptionVisit e).bind fun e =>
    (exceptionVisit r).bind fun r => .ok (.ite c t e r)

/-- What an assertion checks: a variable, or the constant 0. -/
inductive Cond where
  | var (n : Nat)
  | zero
  deriving DecidableEq, Repr

/-- `PropertyAction` (`src/tb.hh:46-51`). -/
inductive Action where
  | none | cover | assume | assert
  deriving DecidableEq, Repr

/-- `AssertValueStmt` and `AssertPropertyStmt`. -/
inductive What where
  | value (c : Cond)
  | property (name : Nat) (a : Action)
  deriving DecidableEq, Repr

/-- `fn_name_ln` and `else_stmt_` of an assertion (`src/tb.hh:74-115`). -/
structure Assertion where
  what : What
  pos : List Pos
  els : Option Pos
  deriving DecidableEq, Repr

/-- The statements of a block, as a list. -/
inductive St where
  | nil
  | other (n : Nat) (rest : St)
  | asrt (a : Assertion) (rest : St)
  | ite (c : Nat) (t e : St) (rest : St)
  deriving DecidableEq, Repr

/-- `AssertValueStmt::AssertValueStmt` (`src/tb.cc:14-18`). -/
def makeVar (n width : Nat) : Res Cond := if width ≠ 1 then .throw .var else .ok (.var n)

/-- `Scope.assert_` (`kratos/pyast.py:932-947`). -/
def scopeAssert (file : String) (base : Nat) (v : Val) (ln : Nat) : Res Assertion :=
  (match v with
   | .int k => if k = 0 then Res.ok Cond.zero else Res.throw .user
   | .var n w _ => makeVar n w : Res Cond).bind fun c =>
  .ok ⟨.value c, [(file, ln + base - 1)], none⟩

/-- `assert_` (`kratos/tb.py:6-16`), called from the compiled text.  `get_fn_ln`
(`python/kratos_python.cc:8-28`) gives the file name and the line of the caller, which is that text. -/
def tbAssert (astFile : String) (v : Val) (gen : Nat) : Res Assertion :=
  match v with
  | .int _ => .throw .user
  | .var n w d => (makeVar n w).bind fun c => .ok ⟨.value c, if d then [(astFile, gen)] else [], none⟩

/-- Running the compiled text (`kratos/pyast.py:1230-1241`).  The arguments of `if_` are evaluated before the
call, those of `else_` after it.  A `raise` is gone by now. -/
def exec (file astFile : String) (base : Nat) : Py → Res St
  | .nil => .ok .nil
  | .other n r => (exec file astFile base r).bind fun r => .ok (.other n r)
  | .check v _ g r => (tbAssert astFile v g).bind fun a =>
    (exec file astFile base r).bind fun r => .ok (.asrt a r)
  | .scopeCheck v ln r => (scopeAssert file base v ln).bind fun a =>
    (exec file astFile base r).bind fun r => .ok (.asrt a r)
  | .fail _ _ _ => .throw .user
  | .ite c t e r => (exec file astFile base t).bind fun t => (exec file astFile base e).bind fun e =>
    (exec file astFile base r).bind fun r => .ok (.ite c t e r)

/-- `__ast_transform_blocks` from `AssertNodeVisitor` on (`kratos/pyast.py:1108-1113`), and running the
result.  `file` and `base` are the file and line of the function. -/
def block (file astFile : String) (base : Nat) (p : Py) : Res St :=
  (exceptionVisit (assertVisit p)).bind (exec file astFile base)

/-- `AssertionVisitor::visit` (`src/debug.cc:806-831`).  `fn`: whether the generator has a function called
`hgdb_assert_fail`, and whether it is a built-in one; if not, the call is refused
(`src/generator.cc:305-311`). -/
def injectOne (fn : Option Bool) (a : Assertion) : Res (Option Bool × Assertion) :=
  match a.pos with
  | [] => .ok (fn, a)
  | p :: _ =>
    if fn = some false then .throw .user
    else .ok (some true, match a.what with
      | .value _ => { a with els := some p }
      | .property _ act => if act = .assert then { a with els := some p } else a)

/-- `inject_assertion_fail` (`src/debug.cc:836-839`) on the statements of a generator. -/
def inject (fn : Option Bool) : St → Res (Option Bool × St)
  | .nil => .ok (fn, .nil)
  | .other n r => (inject fn r).bind fun x => .ok (x.1, .other n x.2)
  | .asrt a r => (injectOne fn a).bind fun y =>
    (inject y.1 r).bind fun x => .ok (x.1, .asrt y.2 x.2)
  | .ite c t e r => (inject fn t).bind fun x => (inject x.1 e).bind fun y =>
    (inject y.1 r).bind fun z => .ok (z.1, .ite c x.2 y.2 z.2)

/-- Words of the text.  `report g p`: `$hgdb_assert_fail (g, "file", line)`. -/
inductive Tok where
  | assert | assume | cover | property | endproperty | els | semi | lpar | rpar
  | if_ | begin_ | end_
  | cond (c : Cond)
  | ident (n : Nat)
  | other (n : Nat)
  | report (g : String) (p : Pos)
  deriving DecidableEq, Repr

/-- The reporting call as a statement (`src/codegen.cc:932-943`). -/
def callText (g : String) (p : Pos) : List Tok := [.report g p, .semi]

/-- `stmt_code(AssertBase*)` and `stmt_code(AssertPropertyStmt*)` (`src/codegen.cc:710-764`).  The sequence of a
property is its name again. -/
def assertText (g : String) (a : Assertion) : List Tok :=
  match a.what with
  | .value c => [.assert, .lpar, .cond c, .rpar] ++
    (match a.els with
     | some p => .els :: callText g p
     | none => [.semi])
  | .property n act =>
    [.property, .ident n, .semi, .ident n, .semi, .endproperty] ++
    (match act with
     | .none => []
     | .cover => [.cover, .property, .lpar, .ident n, .rpar, .semi]
     | .assume => [.assume, .property, .lpar, .ident n, .rpar, .semi]
     | .assert => [.assert, .property, .lpar, .ident n, .rpar] ++
       (match a.els with
        | some p => callText g p
        | none => [.semi]))

/-! ### Specification

How SystemVerilog reads an assertion: `assert ( expression ) action_block`, where an action block is a
statement to be run when the assertion holds, or `else` with a statement to be run when it does not
(IEEE 1800-2017, 16.3).  -/

/-- An assertion as it is read: what is checked, and the positions reported when it holds and when it fails. -/
structure Read where
  what : What
  onPass : Option (String × Pos)
  onFail : Option (String × Pos)
  deriving DecidableEq, Repr

/-- The words of an action block: the statements run when the assertion holds and when it fails. -/
inductive ActionBlock : List Tok → Option (String × Pos) → Option (String × Pos) → Prop
  | none : ActionBlock [.semi] none none
  | pass (g p) : ActionBlock [.report g p, .semi] (some (g, p)) none
  | fail (g p) : ActionBlock [.els, .report g p, .semi] none (some (g, p))
  | both (g p g' p') : ActionBlock [.report g p, .semi, .els, .report g' p', .semi] (some (g, p)) (some (g', p'))

/-- The words of an assertion. -/
inductive Reads : List Tok → Read → Prop
  | value (c b x y) : ActionBlock b x y → Reads ([.assert, .lpar, .cond c, .rpar] ++ b) ⟨.value c, x, y⟩
  | property (n b x y) : ActionBlock b x y →
    Reads ([.property, .ident n, .semi, .ident n, .semi, .endproperty,
      .assert, .property, .lpar, .ident n, .rpar] ++ b) ⟨.property n .assert, x, y⟩

/-- The assertions of a list of statements, in the order in which they are written out. -/
def St.asserts : St → List Assertion
  | .nil => []
  | .other _ r => r.asserts
  | .asrt a r => a :: r.asserts
  | .ite _ t e r => t.asserts ++ e.asserts ++ r.asserts

/-- The statements without their assertions. -/
def St.frame : St → St
  | .nil => .nil
  | .other n r => .other n r.frame
  | .asrt _ r => r.frame
  | .ite c t e r => .ite c t.frame e.frame r.frame

/-- What an argument says is to be checked. -/
def Val.cond : Val → Cond
  | .var n _ _ => .var n
  | .int _ => .zero

/-- A variable of a generator in debug mode. -/
def Val.debug : Val → Bool
  | .var _ _ d => d
  | .int _ => false

/-- The assertions the user wrote in a function, in order: what is checked, and the line of the function. -/
def Py.written : Py → List (Cond × Nat)
  | .nil => []
  | .other _ r => r.written
  | .check v ln _ r => (v.cond, ln) :: r.written
  | .scopeCheck _ _ r => r.written
  | .fail _ ln r => (.zero, ln) :: r.written
  | .ite _ t e r => t.written ++ e.written ++ r.written

/-- Nothing but what a user writes: no calls that the rewriting makes. -/
def Py.User : Py → Prop
  | .nil => True
  | .other _ r => r.User
  | .check _ _ _ r => r.User
  | .scopeCheck _ _ _ => False
  | .fail _ _ r => r.User
  | .ite _ t e r => t.User ∧ e.User ∧ r.User

/-- The positions that are in fact reported: an `assert_` inside a test gives a line of the text that is
compiled, or none. -/
def Py.reported (file astFile : String) (base : Nat) (inside : Bool) : Py → List (Cond × Option Pos)
  | .nil => []
  | .other _ r => r.reported file astFile base inside
  | .check v ln gen r =>
    (v.cond, if inside then (if v.debug then some (astFile, gen) else none)
      else some (file, ln + base - 1)) :: r.reported file astFile base inside
  | .scopeCheck _ _ r => r.reported file astFile base inside
  | .fail _ ln r => (.zero, some (file, ln + base - 1)) :: r.reported file astFile base inside
  | .ite _ t e r => t.reported file astFile base true ++ e.reported file astFile base true ++
    r.reported file astFile base inside

/-- The functions that are accepted: one bit variables, at the top also 0, and only `raise Exception(...)`. -/
def Py.Accepted (inside : Bool) : Py → Prop
  | .nil => True
  | .other _ r => r.Accepted inside
  | .check v _ _ r => ((∃ n d, v = .var n 1 d) ∨ (inside = false ∧ v = .int 0)) ∧ r.Accepted inside
  | .scopeCheck _ _ _ => False
  | .fail x _ r => x = true ∧ r.Accepted inside
  | .ite _ t e r => t.Accepted true ∧ e.Accepted true ∧ r.Accepted inside

/-- No `assert_` at all. -/
def Py.Quiet : Py → Prop
  | .nil => True
  | .other _ r => r.Quiet
  | .check _ _ _ _ => False
  | .scopeCheck _ _ r => r.Quiet
  | .fail _ _ r => r.Quiet
  | .ite _ t e r => t.Quiet ∧ e.Quiet ∧ r.Quiet

/-- No `assert_` inside a test. -/
def Py.Flat : Py → Prop
  | .nil => True
  | .other _ r => r.Flat
  | .check _ _ _ r => r.Flat
  | .scopeCheck _ _ r => r.Flat
  | .fail _ _ r => r.Flat
  | .ite _ t e r => t.Quiet ∧ e.Quiet ∧ r.Flat

/-- What a user relies on: the assertions of a function in debug mode come out as assertions, in order, that
report the file and line they are written on when they fail, and nothing when they hold. -/
def ReportsClaim : Prop :=
  ∀ (g file astFile : String) (base : Nat) (fn fn' : Option Bool) (p : Py) (s s' : St), p.User →
    block file astFile base p = .ok s → inject fn s = .ok (fn', s') →
    s'.asserts.length = p.written.length ∧
    ∀ (i : Nat) (a : Assertion) (w : Cond × Nat), s'.asserts[i]? = some a → p.written[i]? = some w →
      Reads (assertText g a) ⟨.value w.1, none, some (g, file, w.2 + base - 1)⟩

/-- The same for the assertions of properties that have a position. -/
def PropertyClaim : Prop :=
  ∀ (g : String) (fn fn' : Option Bool) (n : Nat) (p : Pos) (a' : Assertion),
    injectOne fn ⟨.property n .assert, [p], none⟩ = .ok (fn', a') →
    Reads (assertText g a') ⟨.property n .assert, none, some (g, p)⟩

/-! ### Proofs -/

/-- Two lists of the same length whose elements are related one by one. -/
inductive All2 {α β : Type} (R : α → β → Prop) : List α → List β → Prop
  | nil : All2 R [] []
  | cons {a b as bs} : R a b → All2 R as bs → All2 R (a :: as) (b :: bs)

theorem All2.append {α β : Type} {R : α → β → Prop} {a c : List α} {b d : List β} (h : All2 R a b)
    (h' : All2 R c d) : All2 R (a ++ c) (b ++ d) := by
  induction h with
  | nil => exact h'
  | cons hr _ ih => exact .cons hr ih

theorem All2.length_eq {α β : Type} {R : α → β → Prop} {a : List α} {b : List β} (h : All2 R a b) :
    a.length = b.length := by
  induction h with
  | nil => rfl
  | cons _ _ ih => simp [ih]

theorem All2.get {α β : Type} {R : α → β → Prop} {a : List α} {b : List β} (h : All2 R a b) :
    ∀ {i : Nat} {x : α} {y : β}, a[i]? = some x → b[i]? = some y → R x y := by
  induction h with
  | nil => intro i x y hx; simp at hx
  | cons hr _ ih =>
    intro i x y hx hy
    cases i with
    | zero => simp at hx hy; subst hx; subst hy; exact hr
    | succ i => simp at hx hy; exact ih hx hy

theorem All2.trans {α β γ : Type} {R : α → β → Prop} {S : β → γ → Prop} {T : α → γ → Prop}
    (hT : ∀ {a b c}, R a b → S b c → T a c) {a : List α} {b : List β} {c : List γ} (h : All2 R a b)
    (h' : All2 S b c) : All2 T a c := by
  induction h generalizing c with
  | nil => cases h'; exact .nil
  | cons hr _ ih => cases h' with
    | cons hs hs' => exact .cons (hT hr hs) (ih hs')

/-- The assertion made for an `assert_` or `raise`. -/
def Goes (w : Cond × Option Pos) (a : Assertion) : Prop :=
  a.what = .value w.1 ∧ a.pos = w.2.toList ∧ a.els = none

theorem scopeAssert_goes {file base v ln a} (h : scopeAssert file base v ln = .ok a) :
    Goes (v.cond, some (file, ln + base - 1)) a := by
  simp only [scopeAssert, Res.bind_eq_ok] at h
  obtain ⟨c, hc, h⟩ := h
  cases h
  cases v with
  | var n w d =>
    simp only [makeVar] at hc
    split at hc
    · cases hc
    · cases hc; exact ⟨rfl, rfl, rfl⟩
  | int k =>
    simp only at hc
    split at hc
    · cases hc; exact ⟨rfl, rfl, rfl⟩
    · cases hc

theorem tbAssert_goes {astFile v g a} (h : tbAssert astFile v g = .ok a) :
    Goes (v.cond, if v.debug then some (astFile, g) else none) a := by
  cases v with
  | int k => cases h
  | var n w d =>
    simp only [tbAssert, Res.bind_eq_ok] at h
    obtain ⟨c, hc, h⟩ := h
    cases h
    simp only [makeVar] at hc
    split at hc
    · cases hc
    · cases hc
      cases d <;> exact ⟨rfl, rfl, rfl⟩

theorem inside_block {file astFile base} {p p' : Py} {s : St} (hu : p.User)
    (h : exceptionVisit p = .ok p') (h' : exec file astFile base p' = .ok s) :
    All2 Goes (p.reported file astFile base true) s.asserts := by
  induction p generalizing p' s with
  | nil => cases h; cases h'; exact .nil
  | other n r ih =>
    simp only [exceptionVisit, Res.bind_eq_ok] at h
    obtain ⟨r', hr, h⟩ := h; cases h
    simp only [exec, Res.bind_eq_ok] at h'
    obtain ⟨s', hs, h'⟩ := h'; cases h'
    exact ih (s := s') hu hr hs
  | check v ln g r ih =>
    simp only [exceptionVisit, Res.bind_eq_ok] at h
    obtain ⟨r', hr, h⟩ := h; cases h
    simp only [exec, Res.bind_eq_ok] at h'
    obtain ⟨a, ha, s', hs, h'⟩ := h'; cases h'
    exact .cons (tbAssert_goes ha) (ih hu hr hs)
  | scopeCheck v ln r ih => exact hu.elim
  | fail x ln r ih =>
    simp only [exceptionVisit] at h
    split at h
    · rw [Res.bind_eq_ok] at h
      obtain ⟨r', hr, h⟩ := h; cases h
      simp only [exec, Res.bind_eq_ok] at h'
      obtain ⟨a, ha, s', hs, h'⟩ := h'; cases h'
      exact .cons (scopeAssert_goes ha) (ih hu hr hs)
    · cases h
  | ite c t e r iht ihe ihr =>
    simp only [exceptionVisit, Res.bind_eq_ok] at h
    obtain ⟨t', ht, e', he, r', hr, h⟩ := h; cases h
    simp only [exec, Res.bind_eq_ok] at h'
    obtain ⟨t'', ht', e'', he', r'', hr', h'⟩ := h'; cases h'
    exact ((iht hu.1 ht ht').append (ihe hu.2.1 he he')).append (ihr hu.2.2 hr hr')

theorem top_block {file astFile base} {p p' : Py} {s : St} (hu : p.User)
    (h : exceptionVisit (assertVisit p) = .ok p') (h' : exec file astFile base p' = .ok s) :
    All2 Goes (p.reported file astFile base false) s.asserts := by
  induction p generalizing p' s with
  | nil => cases h; cases h'; exact .nil
  | other n r ih =>
    simp only [assertVisit, exceptionVisit, Res.bind_eq_ok] at h
    obtain ⟨r', hr, h⟩ := h; cases h
    simp only [exec, Res.bind_eq_ok] at h'
    obtain ⟨s', hs, h'⟩ := h'; cases h'
    exact ih (s := s') hu hr hs
  | check v ln g r ih =>
    simp only [assertVisit, exceptionVisit, Res.bind_eq_ok] at h
    obtain ⟨r', hr, h⟩ := h; cases h
    simp only [exec, Res.bind_eq_ok] at h'
    obtain ⟨a, ha, s', hs, h'⟩ := h'; cases h'
    exact .cons (scopeAssert_goes ha) (ih hu hr hs)
  | scopeCheck v ln r ih => exact hu.elim
  | fail x ln r ih =>
    simp only [assertVisit, exceptionVisit] at h
    split at h
    · rw [Res.bind_eq_ok] at h
      obtain ⟨r', hr, h⟩ := h; cases h
      simp only [exec, Res.bind_eq_ok] at h'
      obtain ⟨a, ha, s', hs, h'⟩ := h'; cases h'
      exact .cons (scopeAssert_goes ha) (ih hu hr hs)
    · cases h
  | ite c t e r iht ihe ihr =>
    simp only [assertVisit, exceptionVisit, Res.bind_eq_ok] at h
    obtain ⟨t', ht, e', he, r', hr, h⟩ := h; cases h
    simp only [exec, Res.bind_eq_ok] at h'
    obtain ⟨t'', ht', e'', he', r'', hr', h'⟩ := h'; cases h'
    exact ((inside_block hu.1 ht ht').append (inside_block hu.2.1 he he')).append
      (ihr hu.2.2 hr hr')

/-- What putting in the reports does to an assertion. -/
def Told (a a' : Assertion) : Prop :=
  a'.what = a.what ∧ a'.pos = a.pos ∧ (a.pos = [] → a' = a) ∧
  (∀ c p ps, a.what = .value c → a.pos = p :: ps → a'.els = some p) ∧
  (∀ n p ps, a.what = .property n .assert → a.pos = p :: ps → a'.els = some p) ∧
  (∀ n x, a.what = .property n x → x ≠ .assert → a' = a)

theorem injectOne_told {fn fn' a a'} (h : injectOne fn a = .ok (fn', a')) : Told a a' := by
  obtain ⟨what, pos, els⟩ := a
  cases pos with
  | nil => cases h; simp [Told]
  | cons p ps =>
    simp only [injectOne] at h
    split at h
    · cases h
    · cases what with
      | value c => cases h; simp [Told]
      | property n x => cases x <;> (cases h; simp [Told])

theorem inject_told {fn fn'} {s s' : St} (h : inject fn s = .ok (fn', s')) :
    All2 Told s.asserts s'.asserts ∧ s'.frame = s.frame := by
  induction s generalizing fn fn' s' with
  | nil => cases h; exact ⟨.nil, rfl⟩
  | other n r ih =>
    simp only [inject, Res.bind_eq_ok] at h
    obtain ⟨x, hx, h⟩ := h; cases h
    obtain ⟨h1, h2⟩ := ih (fn' := x.1) (s' := x.2) hx
    exact ⟨h1, congrArg (St.other n) h2⟩
  | asrt a r ih =>
    simp only [inject, Res.bind_eq_ok] at h
    obtain ⟨y, hy, x, hx, h⟩ := h; cases h
    obtain ⟨h1, h2⟩ := ih (fn' := x.1) (s' := x.2) hx
    exact ⟨.cons (injectOne_told (fn' := y.1) (a' := y.2) hy) h1, h2⟩
  | ite c t e r iht ihe ihr =>
    simp only [inject, Res.bind_eq_ok] at h
    obtain ⟨x, hx, y, hy, z, hz, h⟩ := h; cases h
    obtain ⟨h1, h2⟩ := iht (fn' := x.1) (s' := x.2) hx
    obtain ⟨h3, h4⟩ := ihe (fn' := y.1) (s' := y.2) hy
    obtain ⟨h5, h6⟩ := ihr (fn' := z.1) (s' := z.2) hz
    refine ⟨(h1.append h3).append h5, ?_⟩
    simp only [St.frame, h2, h4, h6]

/-! ### Properties -/

/-- **Putting in the reports.**  It changes no statement and no assertion except that an assertion with a position
reports the first of its positions. -/
theorem inject_only_reports {fn fn'} {s s' : St} (h : inject fn s = .ok (fn', s')) :
    s'.frame = s.frame ∧ s'.asserts.length = s.asserts.length ∧
    ∀ (i : Nat) (a a' : Assertion), s.asserts[i]? = some a → s'.asserts[i]? = some a' →
      a'.what = a.what ∧ a'.pos = a.pos ∧ (a.pos = [] → a' = a) ∧
      (∀ c p ps, a.what = .value c → a.pos = p :: ps → a'.els = some p) ∧
      (∀ n p ps, a.what = .property n .assert → a.pos = p :: ps → a'.els = some p) ∧
      (∀ n x, a.what = .property n x → x ≠ .assert → a' = a) := by
  obtain ⟨h1, h2⟩ := inject_told h
  exact ⟨h2, h1.length_eq.symm, fun i a a' ha ha' => h1.get ha ha'⟩

/-- **What is reported.**  For every function, every assertion comes out, in order, and reports when it fails, and
only then, the position given by `reported`. -/
theorem asserts_report {g file astFile : String} {base : Nat} {fn fn' : Option Bool} {p : Py} {s s' : St}
    (hu : p.User) (h : block file astFile base p = .ok s) (h' : inject fn s = .ok (fn', s')) :
    s'.asserts.length = (p.reported file astFile base false).length ∧
    ∀ (i : Nat) (a : Assertion) (w : Cond × Option Pos), s'.asserts[i]? = some a →
      (p.reported file astFile base false)[i]? = some w →
      Reads (assertText g a) ⟨.value w.1, none, w.2.map fun q => (g, q)⟩ := by
  simp only [block, Res.bind_eq_ok] at h
  obtain ⟨p', hp, hs⟩ := h
  have h1 := top_block hu hp hs
  have h2 := (inject_told h').1
  refine ⟨by rw [h1.length_eq, h2.length_eq], ?_⟩
  have h3 : All2 (fun w a => Goes w { a with els := none } ∧ a.els = w.2)
      (p.reported file astFile base false) s'.asserts := by
    refine h1.trans ?_ h2
    intro w a a' hg ht
    obtain ⟨hw, hp, he⟩ := hg
    obtain ⟨tw, tp, tn, tv, -, -⟩ := ht
    refine ⟨⟨tw.trans hw, tp.trans hp, rfl⟩, ?_⟩
    cases hq : w.2 with
    | none => rw [hq] at hp; rw [tn hp, he]
    | some q => rw [hq] at hp; exact tv _ _ _ hw hp
  intro i a w ha hw
  obtain ⟨⟨hw', -, -⟩, he⟩ := h3.get hw ha
  simp only at hw'
  simp only [assertText, hw', he]
  cases w.2 with
  | none => exact .value _ _ _ _ .none
  | some q => exact .value _ _ _ _ (.fail _ _)

theorem reported_quiet {file astFile base b} {p : Py} (hu : p.User) (hq : p.Quiet) :
    p.reported file astFile base b = p.written.map fun w => (w.1, some (file, w.2 + base - 1)) := by
  induction p generalizing b with
  | nil => rfl
  | other n r ih => exact ih hu hq
  | check v ln g r ih => exact hq.elim
  | scopeCheck v ln r ih => exact hu.elim
  | fail x ln r ih => simp only [Py.reported, Py.written, List.map_cons, ih hu hq]
  | ite c t e r iht ihe ihr =>
    simp only [Py.reported, Py.written, List.map_append, iht hu.1 hq.1, ihe hu.2.1 hq.2.1, ihr hu.2.2 hq.2.2]

theorem reported_flat {file astFile base} {p : Py} (hu : p.User) (hq : p.Flat) :
    p.reported file astFile base false = p.written.map fun w => (w.1, some (file, w.2 + base - 1)) := by
  induction p with
  | nil => rfl
  | other n r ih => exact ih hu hq
  | check v ln g r ih => simp [Py.reported, Py.written, ih hu hq]
  | scopeCheck v ln r ih => exact hu.elim
  | fail x ln r ih => simp only [Py.reported, Py.written, List.map_cons, ih hu hq]
  | ite c t e r iht ihe ihr =>
    simp only [Py.reported, Py.written, List.map_append, reported_quiet hu.1 hq.1,
      reported_quiet hu.2.1 hq.2.1, ihr hu.2.2 hq.2.2]

/-- **Assertions outside tests.**  `ReportsClaim` for functions with no `assert_` inside a test; `raise` may be
anywhere.  Missing: `assert_` inside a test, for which it is false. -/
theorem asserts_report_partial {g file astFile : String} {base : Nat} {fn fn' : Option Bool} {p : Py} {s s' : St}
    (hu : p.User) (hf : p.Flat)
    (h : block file astFile base p = .ok s) (h' : inject fn s = .ok (fn', s')) :
    s'.asserts.length = p.written.length ∧
    ∀ (i : Nat) (a : Assertion) (w : Cond × Nat), s'.asserts[i]? = some a → p.written[i]? = some w →
      Reads (assertText g a) ⟨.value w.1, none, some (g, file, w.2 + base - 1)⟩ := by
  obtain ⟨h1, h2⟩ := asserts_report (g := g) hu h h'
  rw [reported_flat hu hf] at h1 h2
  refine ⟨by simpa using h1, fun i a w ha hw => ?_⟩
  exact h2 i a (w.1, some (file, w.2 + base - 1)) ha (by simp [hw])

/-- ```
if c:
    assert_(a)
``` -/
def nested : Py := .ite 0 (.check (.var 7 1 true) 3 5 .nil) .nil .nil

theorem Reads.inj {t r r'} (h : Reads t r) (h' : Reads t r') : r = r' := by
  cases h with
  | value c b x y hb =>
    generalize ht : [Tok.assert, .lpar, .cond c, .rpar] ++ b = t at h'
    cases h' with
    | value c' b' x' y' hb' =>
      simp at ht; obtain ⟨rfl, rfl⟩ := ht
      cases hb <;> cases hb' <;> rfl
    | property n b' x' y' hb' => simp at ht
  | property n b x y hb =>
    generalize ht : [Tok.property, .ident n, .semi, .ident n, .semi, .endproperty,
      .assert, .property, .lpar, .ident n, .rpar] ++ b = t at h'
    cases h' with
    | value c' b' x' y' hb' => simp at ht
    | property n' b' x' y' hb' =>
      simp at ht; obtain ⟨rfl, rfl⟩ := ht
      cases hb <;> cases hb' <;> rfl

/-- **An assertion inside a test reports another file.**  It is not rewritten, so it runs as an ordinary call from
the text that was compiled, and that is where it says it is. -/
theorem not_reports : ¬ ReportsClaim := by
  intro h
  have hb : block "m.py" "<ast>" 10 nested =
      .ok (.ite 0 (.asrt ⟨.value (.var 7), [("<ast>", 5)], none⟩ .nil) .nil .nil) := by decide +kernel
  have hi : inject none (.ite 0 (.asrt ⟨.value (.var 7), [("<ast>", 5)], none⟩ .nil) .nil .nil) =
      .ok (some true, .ite 0 (.asrt ⟨.value (.var 7), [("<ast>", 5)], some ("<ast>", 5)⟩ .nil) .nil .nil) := by
    decide +kernel
  have hu : nested.User := ⟨trivial, trivial, trivial⟩
  have := (h "m" "m.py" "<ast>" 10 none (some true) nested _ _ hu hb hi).2 0
    ⟨.value (.var 7), [("<ast>", 5)], some ("<ast>", 5)⟩ (.var 7, 3) rfl rfl
  have h2 : Reads (assertText "m" ⟨.value (.var 7), [("<ast>", 5)], some ("<ast>", 5)⟩)
      ⟨.value (.var 7), none, some ("m", "<ast>", 5)⟩ := .value _ _ _ _ (.fail _ _)
  have := this.inj h2
  simp at this

/-- The width check. -/
theorem makeVar_ok {n w c} : makeVar n w = .ok c ↔ w = 1 ∧ c = .var n := by
  simp only [makeVar]
  split <;> simp_all [eq_comm]

theorem inside_ok_iff {file astFile base} {p : Py} (hu : p.User) :
    (∃ p' s, exceptionVisit p = .ok p' ∧ exec file astFile base p' = .ok s) ↔ p.Accepted true := by
  induction p with
  | nil => exact ⟨fun _ => trivial, fun _ => ⟨_, _, rfl, rfl⟩⟩
  | other n r ih =>
    simp only [Py.Accepted, ← ih hu]
    constructor
    · rintro ⟨p', s, h, h'⟩
      simp only [exceptionVisit, Res.bind_eq_ok] at h
      obtain ⟨r', hr, h⟩ := h; cases h
      simp only [exec, Res.bind_eq_ok] at h'
      obtain ⟨s', hs, h'⟩ := h'
      exact ⟨_, _, hr, hs⟩
    · rintro ⟨p', s, h, h'⟩
      exact ⟨.other n p', .other n s, by simp [exceptionVisit, h], by simp [exec, h']⟩
  | check v ln g r ih =>
    simp only [Py.Accepted, ← ih hu]
    constructor
    · rintro ⟨p', s, h, h'⟩
      simp only [exceptionVisit, Res.bind_eq_ok] at h
      obtain ⟨r', hr, h⟩ := h; cases h
      simp only [exec, Res.bind_eq_ok] at h'
      obtain ⟨a, ha, s', hs, h'⟩ := h'
      refine ⟨.inl ?_, _, _, hr, hs⟩
      cases v with
      | int k => cases ha
      | var n w d =>
        simp only [tbAssert, Res.bind_eq_ok] at ha
        obtain ⟨c, hc, -⟩ := ha
        obtain ⟨rfl, -⟩ := makeVar_ok.mp hc
        exact ⟨n, d, rfl⟩
    · rintro ⟨(⟨n, d, rfl⟩ | ⟨hf, -⟩), p', s, h, h'⟩
      · exact ⟨.check (.var n 1 d) ln g p', _, by simp [exceptionVisit, h],
          by simp only [exec, tbAssert, makeVar_ok.mpr ⟨rfl, rfl⟩, Res.ok_bind, h'] <;> rfl⟩
      · cases hf
  | scopeCheck v ln r ih => exact hu.elim
  | fail x ln r ih =>
    simp only [Py.Accepted, ← ih hu]
    constructor
    · rintro ⟨p', s, h, h'⟩
      simp only [exceptionVisit] at h
      split at h
      · rw [Res.bind_eq_ok] at h
        obtain ⟨r', hr, h⟩ := h; cases h
        simp only [exec, Res.bind_eq_ok] at h'
        obtain ⟨a, ha, s', hs, h'⟩ := h'
        exact ⟨by assumption, _, _, hr, hs⟩
      · cases h
    · rintro ⟨rfl, p', s, h, h'⟩
      exact ⟨.scopeCheck (.int 0) ln p', _, by simp [exceptionVisit, h],
        by simp only [exec, scopeAssert, if_pos, Res.ok_bind, h'] <;> rfl⟩
  | ite c t e r iht ihe ihr =>
    simp only [Py.Accepted, ← iht hu.1, ← ihe hu.2.1, ← ihr hu.2.2]
    constructor
    · rintro ⟨p', s, h, h'⟩
      simp only [exceptionVisit, Res.bind_eq_ok] at h
      obtain ⟨t', ht, e', he, r', hr, h⟩ := h; cases h
      simp only [exec, Res.bind_eq_ok] at h'
      obtain ⟨t'', ht', e'', he', r'', hr', h'⟩ := h'
      exact ⟨⟨_, _, ht, ht'⟩, ⟨_, _, he, he'⟩, ⟨_, _, hr, hr'⟩⟩
    · rintro ⟨⟨t', t'', ht, ht'⟩, ⟨e', e'', he, he'⟩, ⟨r', r'', hr, hr'⟩⟩
      exact ⟨.ite c t' e' r', .ite c t'' e'' r'', by simp [exceptionVisit, ht, he, hr],
        by simp [exec, ht', he', hr']⟩

/-- **Which functions are accepted.**  Assertions must check a variable of one bit, or, outside tests, the literal 0;
and `raise` must raise `Exception(...)`. -/
theorem block_ok_iff {file astFile base} {p : Py} (hu : p.User) :
    (∃ s, block file astFile base p = .ok s) ↔ p.Accepted false := by
  have key : (∃ p' s, exceptionVisit (assertVisit p) = .ok p' ∧ exec file astFile base p' = .ok s) ↔
      p.Accepted false := by
    induction p with
    | nil => exact ⟨fun _ => trivial, fun _ => ⟨_, _, rfl, rfl⟩⟩
    | other n r ih =>
      simp only [Py.Accepted, ← ih hu]
      constructor
      · rintro ⟨p', s, h, h'⟩
        simp only [assertVisit, exceptionVisit, Res.bind_eq_ok] at h
        obtain ⟨r', hr, h⟩ := h; cases h
        simp only [exec, Res.bind_eq_ok] at h'
        obtain ⟨s', hs, h'⟩ := h'
        exact ⟨_, _, hr, hs⟩
      · rintro ⟨p', s, h, h'⟩
        exact ⟨.other n p', .other n s, by simp [assertVisit, exceptionVisit, h], by simp [exec, h']⟩
    | check v ln g r ih =>
      simp only [Py.Accepted, ← ih hu]
      constructor
      · rintro ⟨p', s, h, h'⟩
        simp only [assertVisit, exceptionVisit, Res.bind_eq_ok] at h
        obtain ⟨r', hr, h⟩ := h; cases h
        simp only [exec, Res.bind_eq_ok] at h'
        obtain ⟨a, ha, s', hs, h'⟩ := h'
        refine ⟨?_, _, _, hr, hs⟩
        simp only [scopeAssert, Res.bind_eq_ok] at ha
        obtain ⟨c, hc, -⟩ := ha
        cases v with
        | int k =>
          simp only at hc
          split at hc
          · exact .inr ⟨trivial, by simp_all⟩
          · cases hc
        | var n w d =>
          obtain ⟨rfl, -⟩ := makeVar_ok.mp hc
          exact .inl ⟨n, d, rfl⟩
      · rintro ⟨(⟨n, d, rfl⟩ | ⟨-, rfl⟩), p', s, h, h'⟩
        · exact ⟨.scopeCheck (.var n 1 d) ln p', _, by simp [assertVisit, exceptionVisit, h],
            by simp only [exec, scopeAssert, makeVar_ok.mpr ⟨rfl, rfl⟩, Res.ok_bind, h'] <;> rfl⟩
        · exact ⟨.scopeCheck (.int 0) ln p', _, by simp [assertVisit, exceptionVisit, h],
            by simp only [exec, scopeAssert, if_pos, Res.ok_bind, h'] <;> rfl⟩
    | scopeCheck v ln r ih => exact hu.elim
    | fail x ln r ih =>
      simp only [Py.Accepted, ← ih hu]
      constructor
      · rintro ⟨p', s, h, h'⟩
        simp only [assertVisit, exceptionVisit] at h
        split at h
        · rw [Res.bind_eq_ok] at h
          obtain ⟨r', hr, h⟩ := h; cases h
          simp only [exec, Res.bind_eq_ok] at h'
          obtain ⟨a, ha, s', hs, h'⟩ := h'
          exact ⟨by assumption, _, _, hr, hs⟩
        · cases h
      · rintro ⟨rfl, p', s, h, h'⟩
        exact ⟨.scopeCheck (.int 0) ln p', _, by simp [assertVisit, exceptionVisit, h],
          by simp only [exec, scopeAssert, if_pos, Res.ok_bind, h'] <;> rfl⟩
    | ite c t e r iht ihe ihr =>
      simp only [Py.Accepted, ← inside_ok_iff (file := file) (astFile := astFile) (base := base) hu.1,
        ← inside_ok_iff (file := file) (astFile := astFile) (base := base) hu.2.1, ← ihr hu.2.2]
      constructor
      · rintro ⟨p', s, h, h'⟩
        simp only [assertVisit, exceptionVisit, Res.bind_eq_ok] at h
        obtain ⟨t', ht, e', he, r', hr, h⟩ := h; cases h
        simp only [exec, Res.bind_eq_ok] at h'
        obtain ⟨t'', ht', e'', he', r'', hr', h'⟩ := h'
        exact ⟨⟨_, _, ht, ht'⟩, ⟨_, _, he, he'⟩, ⟨_, _, hr, hr'⟩⟩
      · rintro ⟨⟨t', t'', ht, ht'⟩, ⟨e', e'', he, he'⟩, ⟨r', r'', hr, hr'⟩⟩
        exact ⟨.ite c t' e' r', .ite c t'' e'' r'', by simp [assertVisit, exceptionVisit, ht, he, hr],
          by simp [exec, ht', he', hr']⟩
  rw [← key]
  simp only [block, Res.bind_eq_ok]
  exact ⟨fun ⟨s, p', h, h'⟩ => ⟨p', s, h, h'⟩, fun ⟨p', s, h, h'⟩ => ⟨s, p', h, h'⟩⟩

/-- **When the reports can be put in.**  Always, unless the generator has a function of its own called
`hgdb_assert_fail` and an assertion with a position. -/
theorem inject_ok_iff {fn} {s : St} : (∃ x, inject fn s = .ok x) ↔
    (fn = some false → ∀ a ∈ s.asserts, a.pos = []) := by
  have one : ∀ fn a, (∃ x, injectOne fn a = .ok x ∧ (fn ≠ some false → x.1 ≠ some false) ∧
      (fn = some false → x.1 = some false)) ∨
      (fn = some false ∧ a.pos ≠ [] ∧ ∀ x, injectOne fn a ≠ .ok x) := by
    intro fn a
    cases hp : a.pos with
    | nil => exact .inl ⟨(fn, a), by simp [injectOne, hp], id, id⟩
    | cons p ps =>
      by_cases hf : fn = some false
      · exact .inr ⟨hf, by simp, by simp [injectOne, hp, hf]⟩
      · refine .inl ⟨_, by simp only [injectOne, hp, if_neg hf]; rfl, by simp, by simp [hf]⟩
  have good : ∀ (s : St) fn, fn ≠ some false → ∃ x, inject fn s = .ok x ∧ x.1 ≠ some false := by
    intro s
    induction s with
    | nil => exact fun fn h => ⟨_, rfl, h⟩
    | other n r ih =>
      intro fn h
      obtain ⟨x, hx, hx'⟩ := ih fn h
      exact ⟨(x.1, .other n x.2), by simp [inject, hx], hx'⟩
    | asrt a r ih =>
      intro fn h
      rcases one fn a with ⟨y, hy, hy', -⟩ | ⟨h', -⟩
      · obtain ⟨x, hx, hx'⟩ := ih y.1 (hy' h)
        exact ⟨(x.1, .asrt y.2 x.2), by simp [inject, hy, hx], hx'⟩
      · exact absurd h' h
    | ite c t e r iht ihe ihr =>
      intro fn h
      obtain ⟨x, hx, hx'⟩ := iht fn h
      obtain ⟨y, hy, hy'⟩ := ihe x.1 hx'
      obtain ⟨z, hz, hz'⟩ := ihr y.1 hy'
      exact ⟨(z.1, .ite c x.2 y.2 z.2), by simp [inject, hx, hy, hz], hz'⟩
  have bad : ∀ (s : St), (∀ a ∈ s.asserts, a.pos = []) → inject (some false) s = .ok (some false, s) := by
    intro s
    induction s with
    | nil => exact fun _ => rfl
    | other n r ih => intro h; simp [inject, ih h]
    | asrt a r ih =>
      intro h
      have ha := h a (by simp [St.asserts])
      simp [inject, injectOne, ha, ih fun b hb => h b (by simp [St.asserts, hb])]
    | ite c t e r iht ihe ihr =>
      intro h
      simp [inject, iht fun b hb => h b (by simp [St.asserts, hb]),
        ihe fun b hb => h b (by simp [St.asserts, hb]), ihr fun b hb => h b (by simp [St.asserts, hb])]
  have bad' : ∀ (s : St) x, inject (some false) s = .ok x →
      x.1 = some false ∧ ∀ a ∈ s.asserts, a.pos = [] := by
    intro s
    induction s with
    | nil => intro x h; cases h; simp [St.asserts]
    | other n r ih =>
      intro x h
      simp only [inject, Res.bind_eq_ok] at h
      obtain ⟨y, hy, h⟩ := h; cases h
      exact ih y hy
    | asrt a r ih =>
      intro x h
      simp only [inject, Res.bind_eq_ok] at h
      obtain ⟨y, hy, z, hz, h⟩ := h; cases h
      have ha : a.pos = [] := by
        rcases one (some false) a with ⟨-, -, -⟩ | ⟨-, -, h'⟩
        · cases hp : a.pos with
          | nil => rfl
          | cons p ps => simp [injectOne, hp] at hy
        · exact absurd hy (h' y)
      simp only [injectOne, ha] at hy
      cases hy
      obtain ⟨h1, h2⟩ := ih z hz
      refine ⟨h1, fun b hb => ?_⟩
      simp only [St.asserts, List.mem_cons] at hb
      rcases hb with rfl | hb
      · exact ha
      · exact h2 b hb
    | ite c t e r iht ihe ihr =>
      intro x h
      simp only [inject, Res.bind_eq_ok] at h
      obtain ⟨y, hy, z, hz, w, hw, h⟩ := h; cases h
      obtain ⟨h1, h2⟩ := iht y hy
      rw [h1] at hz
      obtain ⟨h3, h4⟩ := ihe z hz
      rw [h3] at hw
      obtain ⟨h5, h6⟩ := ihr w hw
      refine ⟨h5, fun b hb => ?_⟩
      simp only [St.asserts, List.mem_append] at hb
      rcases hb with (hb | hb) | hb
      · exact h2 b hb
      · exact h4 b hb
      · exact h6 b hb
  by_cases hf : fn = some false
  · subst hf
    exact ⟨fun ⟨x, hx⟩ _ => (bad' s x hx).2, fun h => ⟨_, bad s (h rfl)⟩⟩
  · exact ⟨fun _ h => absurd h hf, fun _ => (good s fn hf).imp fun _ h => h.1⟩

/-- **Properties report when they hold.**  The word `else` is missing, so the report of every asserted property is run when
the property holds, and nothing is reported when it fails. -/
theorem property_reports_pass {g : String} {fn fn' : Option Bool} {n : Nat} {p : Pos} {a' : Assertion}
    (h : injectOne fn ⟨.property n .assert, [p], none⟩ = .ok (fn', a')) :
    Reads (assertText g a') ⟨.property n .assert, some (g, p), none⟩ := by
  simp only [injectOne] at h
  split at h
  · cases h
  · cases h
    exact .property _ _ _ _ (.pass _ _)

theorem not_property : ¬ PropertyClaim := by
  intro h
  have h1 := h "m" none (some true) 0 ("m.py", 3) _ rfl
  have h2 := property_reports_pass (g := "m") (fn := none) (fn' := some true) (n := 0) (p := ("m.py", 3)) rfl
  have := h1.inj h2
  simp at this

/-! ### Examples -/

/-- ```
assert_(a)
if c:
    raise Exception()
assert_(0)
``` -/
def sample : Py := .check (.var 7 1 true) 2 9 (.ite 0 (.fail true 4 .nil) .nil (.check (.int 0) 5 9 .nil))

example : sample.User ∧ sample.Flat := by simp [sample, Py.User, Py.Flat, Py.Quiet]
example : sample.Accepted false := by simp [sample, Py.Accepted]
example : ∃ s s', block "m.py" "<ast>" 10 sample = .ok s ∧ inject none s = .ok (some true, s') ∧
    s'.asserts.map (·.els) = [some ("m.py", 11), some ("m.py", 13), some ("m.py", 14)] :=
  ⟨_, _, rfl, rfl, rfl⟩
example : ¬ nested.Flat := by simp [nested, Py.Flat, Py.Quiet]
/-- An assertion that checks a wide variable is refused. -/
example : block "m.py" "<ast>" 10 (.check (.var 7 4 true) 2 9 .nil) = .throw .var := rfl
/-- `assert_(0)` is refused inside a test. -/
example : ¬ (Py.ite 0 (.check (.int 0) 2 9 .nil) .nil .nil).Accepted false := by simp [Py.Accepted]

end Kratos.AssertPos
