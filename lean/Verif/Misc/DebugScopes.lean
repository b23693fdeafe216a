import Verif.Base
import Verif.Pass.Kinds

/-!
# C99: the breakpoints of the debug table and the variables they show

`DebugDatabase::save_database` (src/debug.cc:493-563) makes, for each module, nested scopes of the statements, with an
entry for each assignment (a breakpoint) and entries for the variables of the frontend that are in scope.
-/

namespace Kratos.DebugScopes

/-! ## Model -/

/-- What a name of the frontend stands for: a variable of the design, or text (src/stmt.hh:84). -/
structure Binding where
  rtl : Bool
  value : String
  deriving DecidableEq, Repr

/-- `hgdb::json::Variable` (extern/hgdb/include/json.hh:216-244). -/
structure Variable where
  name : String
  b : Binding
  deriving DecidableEq, Repr

/-- `VarStmt` (extern/hgdb/include/json.hh:248-282): `decl` is false for an assignment. -/
structure Entry where
  var : Variable
  file : String
  line : Nat
  cond : String
  decl : Bool
  deriving DecidableEq, Repr

/-- What is known of a statement: the attribute `debug-ignore`, its place in the source (`stmt_mapping_`), its enable
condition, and `scope_context` in the order of the names. -/
structure Info where
  ignore : Bool
  loc : Option (String × Nat)
  cond : Option String
  ctx : List Variable
  deriving DecidableEq, Repr

/-- A sequence of statements.  `assign`: with the variables made of the left side (`create_variables`,
src/debug.cc:232-303: one, or one for each element or field) and the condition of each.  `visited`: statements that
`StmtScopeVisitor` has a `visit` for (src/debug.cc:344-354): `if`, `switch`, their blocks, combinational and clocked blocks,
calls, `return`, assertions, raw text.  `skipped`: the others: loops (src/stmt.hh:244), functions, initial, final and latch
blocks, instances. -/
inductive Ss where
  | nil
  | assign (i : Info) (left : List (Variable × String)) (rest : Ss)
  | visited (i : Info) (kids rest : Ss)
  | skipped (kids rest : Ss)
  deriving DecidableEq, Repr

/-- Entries and scopes of the table. -/
inductive Ns where
  | nil
  | entry (e : Entry) (rest : Ns)
  | scope (file : String) (line : Option Nat) (cond : String) (kids rest : Ns)
  deriving DecidableEq, Repr

def Info.file (i : Info) : String := match i.loc with | some l => l.1 | none => ""
def Info.line (i : Info) : Nat := match i.loc with | some l => l.2 | none => 0

/-- `VarStmt::operator==` (extern/hgdb/include/json.hh:255-264). -/
def same (e r : Entry) : Bool :=
  if (e.file = "" ∧ e.line = 0) ∨ (r.file = "" ∧ r.line = 0) then decide (e.var = r.var)
  else decide (e.file = r.file) && decide (e.line = r.line) && decide (e.cond = r.cond) && decide (e.var = r.var)

/-- The entry that `add_variable` tries, src/debug.cc:420-434; `ln` gives the line of a variable of the generator. -/
def declOf (ln : String → Nat) (v : Variable) : Entry := ⟨v, "", if v.b.rtl then ln v.b.value else 0, "", true⟩

/-- The loop over `scope_context`, src/debug.cc:397-408, and `add_variable`, src/debug.cc:416-442.  `env` are the entries that
`has_same_var` walks over (extern/hgdb/include/json.hh:466-502), nearest first. -/
def decls (ln : String → Nat) (cond : Option String) : List Entry → List Variable → List Entry
  | _, [] => []
  | env, v :: vs =>
    if env.any (same (declOf ln v)) then decls ln cond env vs
    else { declOf ln v with cond := cond.getD "" } :: decls ln cond ({ declOf ln v with cond := cond.getD "" } :: env) vs

/-- The condition of a breakpoint, src/debug.cc:455-464. -/
def both (c : String) : Option String → String
  | none => c
  | some s => if c = "" then s else if s = "" then c else "(" ++ c ++ ") && (" ++ s ++ ")"

/-- `add_stmt` for an assignment, src/debug.cc:444-466. -/
def assigns (i : Info) (left : List (Variable × String)) : List Entry :=
  left.map fun p => ⟨p.1, i.file, i.line, both p.2 i.cond, false⟩

def entries : List Entry → Ns → Ns
  | [], r => r
  | e :: es, r => .entry e (entries es r)

/-- `handle_stmt` below the top, src/debug.cc:357-413.  The first argument is the scope of the parent statement, as the
entries visible from its end; none if the parent has no scope. -/
def visit (ln : String → Nat) : Option (List Entry) → Ss → Res Ns
  | _, .nil => .ok .nil
  | p, .assign i left rest =>
    if i.ignore then visit ln p rest
    else match p with
      | none => .throw .user
      | some env =>
        let ds := decls ln i.cond env i.ctx
        let as := assigns i left
        (visit ln (some (as.reverse ++ (ds.reverse ++ env))) rest).bind fun r => .ok (entries ds (entries as r))
  | p, .visited i kids rest =>
    if i.ignore then (visit ln none kids).bind fun _ => visit ln p rest
    else match p with
      | none => .throw .user
      | some env =>
        let ds := decls ln i.cond env i.ctx
        (visit ln (some (ds.reverse ++ env)) kids).bind fun k =>
        (visit ln (some (ds.reverse ++ env)) rest).bind fun r =>
        .ok (entries ds (.scope i.file (if i.line > 0 then some i.line else none) (i.cond.getD "") k r))
  | p, .skipped kids rest => (visit ln none kids).bind fun _ => visit ln p rest

/-- The file of the last assignment inside (`StmtFileNameVisitor`, src/debug.cc:317-333). -/
def lastFile : Ss → String → String
  | .nil, f => f
  | .assign i _ rest, f => lastFile rest (match i.loc with | some l => l.1 | none => f)
  | .visited _ kids rest, f => lastFile rest (lastFile kids f)
  | .skipped kids rest, f => lastFile rest (lastFile kids f)

/-- `handle_stmt` at the top of a generator, src/debug.cc:370-388; the functions come last, `visit_content`,
src/ir.cc:139-171. -/
def top (ln : String → Nat) : Ss → Res Ns
  | .nil => .ok .nil
  | .assign i left rest =>
    if i.ignore then top ln rest
    else (top ln rest).bind fun r =>
      .ok (.scope i.file none "" (entries (decls ln i.cond [] i.ctx) (entries (assigns i left) .nil)) r)
  | .visited i kids rest =>
    if i.ignore then (visit ln none kids).bind fun _ => top ln rest
    else (visit ln (some []) kids).bind fun k => (top ln rest).bind fun r =>
      .ok (.scope (if i.file = "" then lastFile kids "" else i.file) none "" k r)
  | .skipped kids rest => (visit ln none kids).bind fun _ => top ln rest

/-- `FilenameClear` (extern/hgdb/include/json.hh:397-418), below the top; `inh` is the file of the parent. -/
def clear (inh : String) : Ns → Ns
  | .nil => .nil
  | .entry e rest => .entry (if e.file = inh then { e with file := "" } else e) (clear inh rest)
  | .scope f l c kids rest =>
    .scope (if f = inh then "" else f) l c (clear (if f = "" then inh else f) kids) (clear inh rest)

/-- The scopes at the top keep their file, json.hh:409-410. -/
def clearTop : Ns → Ns
  | .nil => .nil
  | .entry e rest => .entry e (clearTop rest)
  | .scope f l c kids rest => .scope f l c (clear f kids) (clearTop rest)

/-- `save_database` for one module, src/debug.cc:540-556.  Only modules with `debug` set that have a statement with a place in
the source get scopes (src/debug.cc:31-37, 542-547).  That variables used more than once are put in a pool
(`compress_var`, json.hh:525-549) is left out. -/
def table (ln : String → Nat) (s : Ss) : Res Ns := (top ln s).bind fun t => .ok (clearTop t)

/-- `Stmt::add_scope_variable` (src/stmt.cc:76-81): `emplace` does not replace. -/
def addScope (ctx : List Variable) (n : String) (b : Binding) (override : Bool) : List Variable :=
  if override ∨ (ctx.any fun v => v.name = n) = false then
    if ctx.any fun v => v.name = n then ctx else ⟨n, b⟩ :: ctx
  else ctx

/-! ## Specification -/

/-- A breakpoint read from a table: the entry, its file, and the entries visible from it, nearest first. -/
structure Break where
  e : Entry
  file : String
  env : List Entry

def fileOf (own inh : String) : String := if own = "" then inh else own

/-- The breakpoints of a table, in order: an entry sees what comes before it in its scope and in the scopes around. -/
def breaks (inh : String) (env : List Entry) : Ns → List Break
  | .nil => []
  | .entry e rest => if e.decl then breaks inh (e :: env) rest else ⟨e, fileOf e.file inh, env⟩ :: breaks inh (e :: env) rest
  | .scope f _ _ kids rest => breaks (fileOf f inh) env kids ++ breaks inh env rest

/-- What a name stands for: the nearest entry for it. -/
def shows (env : List Entry) (n : String) : Option Binding := (env.find? fun e => e.var.name = n).map fun e => e.var.b

/-- A breakpoint the user expects: an assignment and one of the variables it sets. -/
structure Point where
  i : Info
  left : List (Variable × String)
  v : Variable
  c : String

/-- All assignments that are not marked to be left out, in order. -/
def points : Ss → List Point
  | .nil => []
  | .assign i left rest => (if i.ignore then [] else left.map fun p => ⟨i, left, p.1, p.2⟩) ++ points rest
  | .visited i kids rest => (if i.ignore then [] else points kids) ++ points rest
  | .skipped _ rest => points rest

/-- The breakpoint is for the assignment: variable, line, file, condition. -/
structure Matches (b : Break) (p : Point) : Prop where
  var : b.e.var = p.v
  loc : ∀ f l, p.i.loc = some (f, l) → f ≠ "" → b.file = f ∧ b.e.line = l
  cond_left : p.i.cond = none → b.e.cond = p.c
  cond_stmt : ∀ s, p.i.cond = some s → p.c = "" → b.e.cond = s
  cond_both : ∀ s, p.i.cond = some s → p.c ≠ "" → s ≠ "" → b.e.cond = "(" ++ p.c ++ ") && (" ++ s ++ ")"

/-- It shows the variables in the scope of the assignment. -/
def Shows (b : Break) (p : Point) : Prop :=
  ∀ v ∈ p.i.ctx, v.name ∉ p.left.map (fun q => q.1.name) → shows b.env v.name = some v.b

/-- Everything said about names before and at each statement, nearest first. -/
def hist (E : List Variable) : Ss → List (List Variable)
  | .nil => []
  | .assign i left rest =>
    if i.ignore then hist E rest
    else ((left.map fun p => p.1).reverse ++ (i.ctx.reverse ++ E)) :: hist ((left.map fun p => p.1).reverse ++ (i.ctx.reverse ++ E)) rest
  | .visited i kids rest =>
    if i.ignore then hist E rest
    else (i.ctx.reverse ++ E) :: (hist (i.ctx.reverse ++ E) kids ++ hist (i.ctx.reverse ++ E) rest)
  | .skipped _ rest => hist E rest

/-- The same for each statement at the top. -/
def histTop : Ss → List (List Variable)
  | .nil => []
  | .assign i left rest => (if i.ignore then [] else [(left.map fun p => p.1).reverse ++ i.ctx.reverse]) ++ histTop rest
  | .visited i kids rest => (if i.ignore then [] else hist [] kids) ++ histTop rest
  | .skipped _ rest => histTop rest

/-- A name that got another meaning does not get the earlier one again. -/
def NoReturn (E : List Variable) : Prop :=
  ∀ (pre mid post : List Variable) (v : Variable), E = pre ++ v :: (mid ++ v :: post) → ∀ u ∈ mid, u.name = v.name → u = v

/-- `scope_context` is a map. -/
def CtxOk : Ss → Prop
  | .nil => True
  | .assign i _ rest => (i.ctx.map fun v => v.name).Nodup ∧ CtxOk rest
  | .visited _ kids rest => CtxOk kids ∧ CtxOk rest
  | .skipped _ rest => CtxOk rest

/-- A statement of a sequence. -/
inductive Item where
  | assign (i : Info)
  | visited (i : Info) (kids : Ss)
  | skipped (kids : Ss)

inductive Mem : Item → Ss → Prop
  | assign {i l r} : Mem (.assign i) (.assign i l r)
  | visited {i k r} : Mem (.visited i k) (.visited i k r)
  | skipped {k r} : Mem (.skipped k) (.skipped k r)
  | assignR {x i l r} : Mem x r → Mem x (.assign i l r)
  | visitedR {x i k r} : Mem x r → Mem x (.visited i k r)
  | skippedR {x k r} : Mem x r → Mem x (.skipped k r)

def Item.kids : Item → Ss
  | .assign _ => .nil
  | .visited _ k => k
  | .skipped k => k

/-- No scope is made for it. -/
def Item.Left : Item → Prop
  | .assign i => i.ignore = true
  | .visited i _ => i.ignore = true
  | .skipped _ => True

/-- At any depth. -/
inductive Below : Item → Ss → Prop
  | here {x s} : Mem x s → Below x s
  | deep {x y s} : Below y s → Mem x y.kids → Below x s

/-- A statement that is recorded, in one that is not. -/
def Lost (s : Ss) : Prop := ∃ p q, Below p s ∧ p.Left ∧ Mem q p.kids ∧ ¬ q.Left

/-- The claim: every generator gets a table that has all breakpoints with the variables in their scope. -/
def TableClaim : Prop := ∀ (ln : String → Nat) (s : Ss), CtxOk s → ∃ t, table ln s = .ok t ∧
  Kinds.All2 (fun b p => Matches b p ∧ Shows b p) (breaks "" [] t) (points s)

/-! ## Proof -/

open Kinds (All2)

/-- The meaning of a name in a list of statements about names. -/
def says (E : List Variable) (n : String) : Option Binding := (E.find? fun v => v.name = n).map fun v => v.b

structure Rel (D : List Entry) (E : List Variable) : Prop where
  mem : ∀ e ∈ D, e.var ∈ E
  res : ∀ n, shows D n = says E n

theorem same_var {e r : Entry} (h : same e r = true) : e.var = r.var := by
  rw [same] at h
  split at h
  · exact of_decide_eq_true h
  · simp only [Bool.and_eq_true, decide_eq_true_eq] at h
    exact h.2

theorem NoReturn.suffix {x E : List Variable} (h : NoReturn (x ++ E)) : NoReturn E := by
  intro pre mid post v he
  exact h (x ++ pre) mid post v (by rw [he, List.append_assoc])

theorem says_of_mem {v : Variable} {E : List Variable} (h : NoReturn (v :: E)) (hm : v ∈ E) : says E v.name = some v.b := by
  rw [says]
  cases hf : E.find? (fun u => u.name = v.name) with
  | none =>
    have := List.find?_eq_none.1 hf v hm
    simp at this
  | some u =>
    rw [List.find?_eq_some_iff_append] at hf
    obtain ⟨hu, as, bs, he, has⟩ := hf
    have hu' : u.name = v.name := by simpa using hu
    have : u = v := by
      rw [he, List.mem_append, List.mem_cons] at hm
      rcases hm with hm | hm | hm
      · have := has v hm
        simp at this
      · exact hm.symm
      · obtain ⟨m, p, hb⟩ := List.append_of_mem hm
        exact h [] (as ++ u :: m) p v (by rw [he, hb]; simp) u (by simp) hu'
    rw [this]; rfl

theorem says_cons (v : Variable) (E : List Variable) (n : String) : says (v :: E) n = if v.name = n then some v.b else says E n := by
  rw [says, List.find?_cons]
  by_cases h : v.name = n
  · simp [h]
  · simp [h, says]

theorem shows_cons (e : Entry) (D : List Entry) (n : String) : shows (e :: D) n = if e.var.name = n then some e.var.b else shows D n := by
  rw [shows, List.find?_cons]
  by_cases h : e.var.name = n
  · simp [h]
  · simp [h, shows]

theorem Rel.push {D : List Entry} {E : List Variable} (h : Rel D E) (e : Entry) : Rel (e :: D) (e.var :: E) := by
  refine ⟨fun x hx => ?_, fun n => ?_⟩
  · rcases List.mem_cons.1 hx with rfl | hx
    · exact List.mem_cons_self ..
    · exact List.mem_cons_of_mem _ (h.mem x hx)
  · rw [shows_cons, says_cons, h.res]

theorem Rel.skip {D : List Entry} {E : List Variable} (h : Rel D E) {v : Variable} (hn : NoReturn (v :: E)) (hv : v ∈ E) : Rel D (v :: E) := by
  refine ⟨fun x hx => List.mem_cons_of_mem _ (h.mem x hx), fun n => ?_⟩
  rw [says_cons, h.res]
  by_cases e : v.name = n
  · rw [if_pos e, ← e, says_of_mem hn hv]
  · rw [if_neg e]

theorem decls_rel (ln : String → Nat) (cond : Option String) : ∀ (vs : List Variable) (D : List Entry) (E : List Variable), Rel D E →
    NoReturn (vs.reverse ++ E) → Rel ((decls ln cond D vs).reverse ++ D) (vs.reverse ++ E)
  | [], D, E, h, _ => h
  | v :: vs, D, E, h, hn => by
    have hn' : NoReturn (vs.reverse ++ (v :: E)) := by simpa using hn
    have hv : NoReturn (v :: E) := hn'.suffix
    have goal : ∀ D', Rel D' (v :: E) → Rel ((decls ln cond D' vs).reverse ++ D') ((v :: vs).reverse ++ E) := by
      intro D' hr
      have := decls_rel ln cond vs D' (v :: E) hr hn'
      simpa using this
    simp only [decls]
    split
    · rename_i ha
      rw [List.any_eq_true] at ha
      obtain ⟨r, hr, hs⟩ := ha
      have hvar : v = r.var := same_var hs
      exact goal D (h.skip hv (hvar ▸ h.mem r hr))
    · rw [List.reverse_cons, List.append_assoc, List.singleton_append]
      exact goal _ (h.push { declOf ln v with cond := cond.getD "" })

theorem decls_decl (ln : String → Nat) (cond : Option String) : ∀ (vs : List Variable) (D : List Entry), ∀ e ∈ decls ln cond D vs, e.decl = true
  | [], _, e, h => (by cases h)
  | v :: vs, D, e, h => by
    simp only [decls] at h
    split at h
    · exact decls_decl ln cond vs D e h
    · rcases List.mem_cons.1 h with rfl | h
      · rfl
      · exact decls_decl ln cond vs _ e h

theorem breaks_decls (inh : String) : ∀ (ds : List Entry) (D : List Entry) (r : Ns), (∀ e ∈ ds, e.decl = true) →
    breaks inh D (entries ds r) = breaks inh (ds.reverse ++ D) r
  | [], D, r, _ => rfl
  | e :: ds, D, r, h => by
    rw [entries, breaks, if_pos (h e (List.mem_cons_self ..)), breaks_decls inh ds _ r fun x hx => h x (List.mem_cons_of_mem _ hx)]
    simp

theorem assigns_rel (i : Info) : ∀ (left : List (Variable × String)) (D : List Entry) (E : List Variable), Rel D E →
    Rel ((assigns i left).reverse ++ D) ((left.map fun p => p.1).reverse ++ E)
  | [], _, _, h => h
  | p :: left, D, E, h => by
    have h' : Rel (⟨p.1, i.file, i.line, both p.2 i.cond, false⟩ :: D) (p.1 :: E) := h.push ⟨p.1, i.file, i.line, both p.2 i.cond, false⟩
    have := assigns_rel i left _ _ h'
    simpa [assigns] using this

theorem shows_append_ne : ∀ (as D : List Entry) (n : String), (∀ e ∈ as, e.var.name ≠ n) → shows (as ++ D) n = shows D n
  | [], _, _, _ => rfl
  | e :: as, D, n, h => by
    rw [List.cons_append, shows_cons, if_neg (h e (List.mem_cons_self ..))]
    exact shows_append_ne as D n fun x hx => h x (List.mem_cons_of_mem _ hx)

theorem says_ctx : ∀ (ctx : List Variable) (E : List Variable), (ctx.map fun v => v.name).Nodup → ∀ v ∈ ctx,
    says (ctx.reverse ++ E) v.name = some v.b
  | [], _, _, v, h => (by cases h)
  | u :: ctx, E, hn, v, h => by
    rw [List.map_cons, List.nodup_cons] at hn
    rw [List.reverse_cons, List.append_assoc, List.singleton_append]
    rcases List.mem_cons.1 h with rfl | h
    · have : ∀ (l : List Variable), (∀ x ∈ l, x.name ≠ v.name) → says (l ++ v :: E) v.name = some v.b := by
        intro l
        induction l with
        | nil => intro _; rw [List.nil_append, says_cons, if_pos rfl]
        | cons x l ih =>
          intro hl
          rw [List.cons_append, says_cons, if_neg (hl x (List.mem_cons_self ..))]
          exact ih fun y hy => hl y (List.mem_cons_of_mem _ hy)
      apply this
      intro x hx e
      have hm := List.mem_map_of_mem (f := fun x : Variable => x.name) (List.mem_reverse.1 hx)
      rw [e] at hm
      exact hn.1 hm
    · exact says_ctx ctx (u :: E) hn.2 v h

theorem all2_append {α β : Type} {R : α → β → Prop} : ∀ {a c : List α} {b d : List β}, All2 R a b → All2 R c d → All2 R (a ++ c) (b ++ d)
  | _, _, _, _, .nil, h => h
  | _, _, _, _, .cons x h1, h => .cons x (all2_append h1 h)

theorem matches_assign (i : Info) (left : List (Variable × String)) (p : Variable × String) (env : List Entry) (inh : String) :
    Matches ⟨⟨p.1, i.file, i.line, both p.2 i.cond, false⟩, fileOf i.file inh, env⟩ ⟨i, left, p.1, p.2⟩ := by
  constructor
  · rfl
  · intro f l h hf
    have h : i.loc = some (f, l) := h
    simp only [Info.file, Info.line, h, fileOf, if_neg hf, and_self]
  · intro h
    have h : i.cond = none := h
    simp only [h, both]
  · intro s h hc
    have h : i.cond = some s := h
    have hc : p.2 = "" := hc
    simp only [h, both, hc, if_true]
  · intro s h hc hs
    have h : i.cond = some s := h
    have hc : p.2 ≠ "" := hc
    simp only [h, both, hc, hs, if_false]

theorem breaks_assigns (inh : String) (i : Info) (full : List (Variable × String)) : ∀ (left : List (Variable × String)) (D : List Entry) (r : Ns)
    (ps : List Point), (∀ p ∈ left, p ∈ full) → (∀ v ∈ i.ctx, v.name ∉ full.map (fun q => q.1.name) → shows D v.name = some v.b) →
    All2 (fun b p => Matches b p ∧ Shows b p) (breaks inh ((assigns i left).reverse ++ D) r) ps →
    All2 (fun b p => Matches b p ∧ Shows b p) (breaks inh D (entries (assigns i left) r)) (left.map (fun p => (⟨i, full, p.1, p.2⟩ : Point)) ++ ps)
  | [], D, r, ps, _, _, h => h
  | p :: left, D, r, ps, hl, hc, h => by
    have e1 : assigns i (p :: left) = ⟨p.1, i.file, i.line, both p.2 i.cond, false⟩ :: assigns i left := rfl
    rw [e1, entries, breaks, List.map_cons, List.cons_append]
    simp only [Bool.false_eq_true, if_false]
    refine .cons ⟨matches_assign i full p D inh, hc⟩ ?_
    refine breaks_assigns inh i full left _ r ps (fun q hq => hl q (List.mem_cons_of_mem _ hq)) ?_ ?_
    · intro v hv hn
      rw [shows_cons, if_neg]
      · exact hc v hv hn
      · intro e
        have hm := List.mem_map_of_mem (f := fun q : Variable × String => q.1.name) (hl p (List.mem_cons_self ..))
        have e : p.1.name = v.name := e
        rw [e] at hm
        exact hn hm
    · rw [e1] at h
      simpa using h

theorem visit_none (ln : String → Nat) : ∀ (s : Ss) (t : Ns), visit ln none s = .ok t → t = .nil
  | .nil, t, h => by rw [visit] at h; cases h; rfl
  | .assign i left rest, t, h => by
    simp only [visit] at h
    split at h
    · exact visit_none ln rest t h
    · cases h
  | .visited i kids rest, t, h => by
    simp only [visit] at h
    split at h
    · rw [Res.bind_eq_ok] at h
      obtain ⟨_, _, h⟩ := h
      exact visit_none ln rest t h
    · cases h
  | .skipped kids rest, t, h => by
    simp only [visit, Res.bind_eq_ok] at h
    obtain ⟨_, _, h⟩ := h
    exact visit_none ln rest t h

theorem visit_breaks (ln : String → Nat) : ∀ (s : Ss) (D : List Entry) (E : List Variable) (inh : String) (t : Ns), Rel D E → CtxOk s →
    (∀ H ∈ hist E s, NoReturn H) → visit ln (some D) s = .ok t →
    All2 (fun b p => Matches b p ∧ Shows b p) (breaks inh D t) (points s) := by
  intro s
  induction s with
  | nil =>
    intro D E inh t _ _ _ h
    rw [visit] at h; cases h
    exact .nil
  | assign i left rest ih =>
    intro D E inh t hr ho hn h
    simp only [visit] at h
    rw [points]
    split at h
    · rename_i hi
      rw [hist, if_pos hi] at hn
      rw [if_pos hi, List.nil_append]
      exact ih D E inh t hr ho.2 hn h
    · rename_i hi
      rw [hist, if_neg hi] at hn
      rw [if_neg hi]
      rw [Res.bind_eq_ok] at h
      obtain ⟨r, h1, h⟩ := h
      cases h
      have hn0 : NoReturn (i.ctx.reverse ++ E) := (hn _ (List.mem_cons_self ..)).suffix
      have hr1 := decls_rel ln i.cond i.ctx D E hr hn0
      rw [breaks_decls inh _ D _ (decls_decl ln i.cond i.ctx D)]
      refine breaks_assigns inh i left left _ r (points rest) (fun _ hp => hp) ?_ ?_
      · intro v hv _
        rw [hr1.res]
        exact says_ctx i.ctx E ho.1 v hv
      · exact ih _ _ inh r (assigns_rel i left _ _ hr1) ho.2 (fun H hH => hn H (List.mem_cons_of_mem _ hH)) h1
  | visited i kids rest ihk ihr =>
    intro D E inh t hr ho hn h
    simp only [visit] at h
    rw [points]
    split at h
    · rename_i hi
      rw [hist, if_pos hi] at hn
      rw [Res.bind_eq_ok] at h
      obtain ⟨_, _, h⟩ := h
      rw [if_pos hi, List.nil_append]
      exact ihr D E inh t hr ho.2 hn h
    · rename_i hi
      rw [hist, if_neg hi] at hn
      rw [Res.bind_eq_ok] at h
      obtain ⟨k, hk, h⟩ := h
      rw [Res.bind_eq_ok] at h
      obtain ⟨r, hrr, h⟩ := h
      cases h
      have hr1 := decls_rel ln i.cond i.ctx D E hr (hn _ (List.mem_cons_self ..))
      rw [if_neg hi, breaks_decls inh _ D _ (decls_decl ln i.cond i.ctx D), breaks]
      refine all2_append (ihk _ _ _ k hr1 ho.1 ?_ hk) (ihr _ _ _ r hr1 ho.2 ?_ hrr)
      · exact fun H hH => hn H (List.mem_cons_of_mem _ (List.mem_append_left _ hH))
      · exact fun H hH => hn H (List.mem_cons_of_mem _ (List.mem_append_right _ hH))
  | skipped kids rest ihk ihr =>
    intro D E inh t hr ho hn h
    simp only [visit, Res.bind_eq_ok] at h
    obtain ⟨_, _, h⟩ := h
    rw [points]
    rw [hist] at hn
    exact ihr D E inh t hr ho hn h

theorem rel_nil : Rel [] [] := ⟨fun _ h => (by cases h), fun _ => rfl⟩

theorem top_breaks (ln : String → Nat) : ∀ (s : Ss) (t : Ns), CtxOk s → (∀ H ∈ histTop s, NoReturn H) → top ln s = .ok t →
    All2 (fun b p => Matches b p ∧ Shows b p) (breaks "" [] t) (points s) := by
  intro s
  induction s with
  | nil =>
    intro t _ _ h
    rw [top] at h; cases h
    exact .nil
  | assign i left rest ih =>
    intro t ho hn h
    simp only [top] at h
    rw [points]
    rw [histTop] at hn
    have hnr : ∀ H ∈ histTop rest, NoReturn H := fun H hH => hn H (List.mem_append_right _ hH)
    split at h
    · rename_i hi
      rw [if_pos hi, List.nil_append]
      exact ih t ho.2 hnr h
    · rename_i hi
      rw [if_neg hi] at hn ⊢
      rw [Res.bind_eq_ok] at h
      obtain ⟨r, h1, h⟩ := h
      cases h
      have hn0 : NoReturn (i.ctx.reverse ++ []) := by
        have := (hn _ (List.mem_append_left _ (List.mem_singleton.2 rfl))).suffix
        simpa using this
      have hr1 := decls_rel ln i.cond i.ctx [] [] rel_nil hn0
      rw [breaks]
      refine all2_append ?_ (ih r ho.2 hnr h1)
      rw [breaks_decls _ _ [] _ (decls_decl ln i.cond i.ctx [])]
      have := breaks_assigns (fileOf i.file "") i left left ((decls ln i.cond [] i.ctx).reverse ++ []) .nil [] (fun _ hp => hp) (fun v hv _ => by
        rw [hr1.res]
        exact says_ctx i.ctx [] ho.1 v hv) .nil
      rw [List.append_nil (as := List.map _ left)] at this
      exact this
  | visited i kids rest _ ih =>
    intro t ho hn h
    simp only [top] at h
    rw [points]
    rw [histTop] at hn
    have hnr : ∀ H ∈ histTop rest, NoReturn H := fun H hH => hn H (List.mem_append_right _ hH)
    split at h
    · rename_i hi
      rw [Res.bind_eq_ok] at h
      obtain ⟨_, _, h⟩ := h
      rw [if_pos hi, List.nil_append]
      exact ih t ho.2 hnr h
    · rename_i hi
      rw [if_neg hi] at hn ⊢
      rw [Res.bind_eq_ok] at h
      obtain ⟨k, hk, h⟩ := h
      rw [Res.bind_eq_ok] at h
      obtain ⟨r, h1, h⟩ := h
      cases h
      rw [breaks]
      exact all2_append (visit_breaks ln kids [] [] _ k rel_nil ho.1 (fun H hH => hn H (List.mem_append_left _ hH)) hk) (ih r ho.2 hnr h1)
  | skipped kids rest _ ih =>
    intro t ho hn h
    simp only [top, Res.bind_eq_ok] at h
    obtain ⟨_, _, h⟩ := h
    rw [points]
    rw [histTop] at hn
    exact ih t ho hn h

/-! ### Files -/

/-- Entries up to their own file. -/
def EqE (a b : Entry) : Prop := a.var = b.var ∧ a.line = b.line ∧ a.cond = b.cond ∧ a.decl = b.decl

structure EqB (a b : Break) : Prop where
  e : EqE a.e b.e
  file : a.file = b.file
  env : All2 EqE a.env b.env

theorem clear_entry (inh : String) (e : Entry) : EqE (if e.file = inh then { e with file := "" } else e) e ∧
    fileOf (if e.file = inh then { e with file := "" } else e).file inh = fileOf e.file inh := by
  by_cases h : e.file = inh
  · rw [if_pos h]
    refine ⟨⟨rfl, rfl, rfl, rfl⟩, ?_⟩
    simp only [fileOf, if_true]
    split
    · rfl
    · exact h.symm
  · rw [if_neg h]
    exact ⟨⟨rfl, rfl, rfl, rfl⟩, rfl⟩

theorem clear_breaks : ∀ (t : Ns) (inh : String) (D D' : List Entry), All2 EqE D D' →
    All2 EqB (breaks inh D (clear inh t)) (breaks inh D' t) := by
  intro t
  induction t with
  | nil => intro inh D D' _; exact .nil
  | entry e rest ih =>
    intro inh D D' h
    rw [clear, breaks, breaks]
    obtain ⟨he, hf⟩ := clear_entry inh e
    rw [he.2.2.2]
    by_cases hd : e.decl = true
    · rw [if_pos hd, if_pos hd]
      exact ih inh _ _ (.cons he h)
    · rw [if_neg hd, if_neg hd]
      exact .cons ⟨he, hf, h⟩ (ih inh _ _ (.cons he h))
  | scope f l c kids rest ihk ihr =>
    intro inh D D' h
    rw [clear, breaks, breaks]
    have e1 : fileOf (if f = inh then "" else f) inh = fileOf f inh := by
      simp only [fileOf]
      by_cases hf : f = inh
      · rw [if_pos hf, if_pos rfl]
        split
        · rfl
        · exact hf.symm
      · rw [if_neg hf]
    rw [e1]
    exact all2_append (ihk _ D D' h) (ihr inh D D' h)

theorem clearTop_breaks : ∀ (t : Ns) (D D' : List Entry), All2 EqE D D' → All2 EqB (breaks "" D (clearTop t)) (breaks "" D' t) := by
  intro t
  induction t with
  | nil => intro D D' _; exact .nil
  | entry e rest ih =>
    intro D D' h
    rw [clearTop, breaks, breaks]
    have he : EqE e e := ⟨rfl, rfl, rfl, rfl⟩
    by_cases hd : e.decl = true
    · rw [if_pos hd, if_pos hd]
      exact ih _ _ (.cons he h)
    · rw [if_neg hd, if_neg hd]
      exact .cons ⟨he, rfl, h⟩ (ih _ _ (.cons he h))
  | scope f l c kids rest _ ihr =>
    intro D D' h
    rw [clearTop, breaks, breaks]
    have e1 : fileOf f "" = f := by
      rw [fileOf]; split
      · rename_i hf; exact hf.symm
      · rfl
    rw [e1]
    exact all2_append (clear_breaks kids f D D' h) (ihr D D' h)

theorem shows_eq : ∀ {D D' : List Entry}, All2 EqE D D' → ∀ n, shows D n = shows D' n
  | _, _, .nil, _ => rfl
  | _, _, .cons h t, n => by
    rw [shows_cons, shows_cons, h.1, shows_eq t n]

theorem all2_trans {a b : List Break} {ps : List Point} (h : All2 EqB a b) : All2 (fun b p => Matches b p ∧ Shows b p) b ps →
    All2 (fun b p => Matches b p ∧ Shows b p) a ps := by
  induction h generalizing ps with
  | nil => exact fun h => h
  | cons hx _ ih =>
    intro h
    cases h with
    | cons hp ht =>
      refine .cons ⟨⟨?_, ?_, ?_, ?_, ?_⟩, ?_⟩ (ih ht)
      · rw [hx.e.1]; exact hp.1.var
      · intro f l h1 h2
        rw [hx.file, hx.e.2.1]; exact hp.1.loc f l h1 h2
      · rw [hx.e.2.2.1]; exact hp.1.cond_left
      · rw [hx.e.2.2.1]; exact hp.1.cond_stmt
      · rw [hx.e.2.2.1]; exact hp.1.cond_both
      · intro v hv hn
        rw [shows_eq hx.env]
        exact hp.2 v hv hn

/-! ### Refusals -/

theorem mem_assign {x : Item} {i : Info} {l : List (Variable × String)} {r : Ss} : Mem x (.assign i l r) ↔ x = .assign i ∨ Mem x r := by
  constructor
  · intro h
    cases h with
    | assign => exact .inl rfl
    | assignR h => exact .inr h
  · rintro (rfl | h)
    · exact .assign
    · exact .assignR h

theorem mem_visited {x : Item} {i : Info} {k r : Ss} : Mem x (.visited i k r) ↔ x = .visited i k ∨ Mem x r := by
  constructor
  · intro h
    cases h with
    | visited => exact .inl rfl
    | visitedR h => exact .inr h
  · rintro (rfl | h)
    · exact .visited
    · exact .visitedR h

theorem mem_skipped {x : Item} {k r : Ss} : Mem x (.skipped k r) ↔ x = .skipped k ∨ Mem x r := by
  constructor
  · intro h
    cases h with
    | skipped => exact .inl rfl
    | skippedR h => exact .inr h
  · rintro (rfl | h)
    · exact .skipped
    · exact .skippedR h

theorem not_mem_nil {x : Item} : ¬ Mem x .nil := by intro h; cases h

theorem below_kids {x y : Item} {s : Ss} (hy : Mem y s) : ∀ {u : Ss}, u = y.kids → Below x u → Below x s := by
  intro u hu h
  induction h with
  | here h => subst hu; exact .deep (.here hy) h
  | deep _ h2 ih => exact .deep (ih hu) h2

theorem below_iff {x : Item} {s : Ss} : Below x s ↔ Mem x s ∨ ∃ y, Mem y s ∧ Below x y.kids := by
  constructor
  · intro h
    induction h with
    | here h => exact .inl h
    | deep _ h2 ih =>
      rcases ih with h | ⟨z, hz, hb⟩
      · exact .inr ⟨_, h, .here h2⟩
      · exact .inr ⟨z, hz, .deep hb h2⟩
  · rintro (h | ⟨y, hy, hb⟩)
    · exact .here h
    · exact below_kids hy rfl hb

/-- All statements of a sequence are left out. -/
def AllLeft (s : Ss) : Prop := ∀ q, Mem q s → q.Left

theorem lost_iff {s : Ss} : Lost s ↔ ∃ p, Mem p s ∧ ((p.Left ∧ ¬ AllLeft p.kids) ∨ Lost p.kids) := by
  constructor
  · rintro ⟨p, q, hb, hp, hq, hn⟩
    rcases below_iff.1 hb with h | ⟨y, hy, hb⟩
    · exact ⟨p, h, .inl ⟨hp, fun ha => hn (ha q hq)⟩⟩
    · exact ⟨y, hy, .inr ⟨p, q, hb, hp, hq, hn⟩⟩
  · rintro ⟨p, hp, ⟨hl, hn⟩ | ⟨p', q, hb, h1, h2, h3⟩⟩
    · obtain ⟨q, hq⟩ := Classical.not_forall.1 hn
      obtain ⟨hq1, hq2⟩ := Classical.not_imp.1 hq
      exact ⟨p, q, .here hp, hl, hq1, hq2⟩
    · exact ⟨p', q, below_iff.2 (.inr ⟨p, hp, hb⟩), h1, h2, h3⟩

theorem lost_nil : ¬ Lost .nil := by
  rw [lost_iff]
  rintro ⟨p, hp, _⟩
  exact not_mem_nil hp

theorem lost_assign {i : Info} {l : List (Variable × String)} {r : Ss} : Lost (.assign i l r) ↔ Lost r := by
  rw [lost_iff, lost_iff (s := r)]
  constructor
  · rintro ⟨p, hp, h⟩
    rcases mem_assign.1 hp with rfl | hp
    · rcases h with ⟨_, h⟩ | h
      · exact absurd (fun q hq => absurd hq not_mem_nil) h
      · exact absurd h lost_nil
    · exact ⟨p, hp, h⟩
  · rintro ⟨p, hp, h⟩
    exact ⟨p, mem_assign.2 (.inr hp), h⟩

theorem lost_visited {i : Info} {k r : Ss} : Lost (.visited i k r) ↔ ((i.ignore = true ∧ ¬ AllLeft k) ∨ Lost k) ∨ Lost r := by
  rw [lost_iff, lost_iff (s := r)]
  constructor
  · rintro ⟨p, hp, h⟩
    rcases mem_visited.1 hp with rfl | hp
    · exact .inl h
    · exact .inr ⟨p, hp, h⟩
  · rintro (h | ⟨p, hp, h⟩)
    · exact ⟨_, .visited, h⟩
    · exact ⟨p, mem_visited.2 (.inr hp), h⟩

theorem lost_skipped {k r : Ss} : Lost (.skipped k r) ↔ (¬ AllLeft k ∨ Lost k) ∨ Lost r := by
  rw [lost_iff, lost_iff (s := r)]
  constructor
  · rintro ⟨p, hp, h⟩
    rcases mem_skipped.1 hp with rfl | hp
    · refine .inl ?_
      rcases h with ⟨_, h⟩ | h
      · exact .inl h
      · exact .inr h
    · exact .inr ⟨p, hp, h⟩
  · rintro ((h | h) | ⟨p, hp, h⟩)
    · exact ⟨_, .skipped, .inl ⟨trivial, h⟩⟩
    · exact ⟨_, .skipped, .inr h⟩
    · exact ⟨p, mem_skipped.2 (.inr hp), h⟩

/-- Either a table or the exception. -/
def Good (r : Res Ns) (P : Prop) : Prop := (P → ∃ t, r = .ok t) ∧ (¬ P → r = .throw .user)

theorem Good.congr {r : Res Ns} {P Q : Prop} (h : Good r P) (e : P ↔ Q) : Good r Q :=
  ⟨fun q => h.1 (e.2 q), fun q => h.2 fun p => q (e.1 p)⟩

theorem Good.bind {r : Res Ns} {P Q : Prop} {f : Ns → Res Ns} (h : Good r P) (hf : ∀ t, r = .ok t → Good (f t) Q) : Good (r.bind f) (P ∧ Q) := by
  by_cases hp : P
  · obtain ⟨t, ht⟩ := h.1 hp
    have := hf t ht
    rw [ht, Res.ok_bind]
    exact this.congr ⟨fun q => ⟨hp, q⟩, fun q => q.2⟩
  · rw [h.2 hp, Res.throw_bind]
    exact ⟨fun q => absurd q.1 hp, fun _ => rfl⟩

theorem Good.ok {t : Ns} : Good (.ok t) True := ⟨fun _ => ⟨t, rfl⟩, fun h => absurd trivial h⟩

theorem visit_none_good (ln : String → Nat) (s : Ss) : Good (visit ln none s) (AllLeft s ∧ ¬ Lost s) := by
  induction s with
  | nil =>
    rw [visit]
    exact Good.ok.congr ⟨fun _ => ⟨fun q hq => absurd hq not_mem_nil, lost_nil⟩, fun _ => trivial⟩
  | assign i l r ih =>
    simp only [visit]
    split
    · rename_i hi
      refine ih.congr (and_congr ?_ (not_congr lost_assign.symm))
      constructor
      · intro h q hq
        rcases mem_assign.1 hq with rfl | hq
        · exact hi
        · exact h q hq
      · exact fun h q hq => h q (mem_assign.2 (.inr hq))
    · rename_i hi
      exact ⟨fun h => absurd (h.1 _ .assign) hi, fun _ => rfl⟩
  | visited i k r ihk ihr =>
    simp only [visit]
    split
    · rename_i hi
      refine (ihk.bind fun _ _ => ihr).congr ?_
      rw [lost_visited]
      constructor
      · rintro ⟨⟨h1, h2⟩, h3, h4⟩
        refine ⟨fun q hq => ?_, fun h => ?_⟩
        · rcases mem_visited.1 hq with rfl | hq
          · exact hi
          · exact h3 q hq
        · rcases h with (⟨_, h⟩ | h) | h
          · exact h h1
          · exact h2 h
          · exact h4 h
      · rintro ⟨h1, h2⟩
        refine ⟨⟨?_, fun h => h2 (.inl (.inr h))⟩, fun q hq => h1 q (mem_visited.2 (.inr hq)), fun h => h2 (.inr h)⟩
        exact Classical.byContradiction fun h => h2 (.inl (.inl ⟨hi, h⟩))
    · rename_i hi
      exact ⟨fun h => absurd (h.1 _ .visited) hi, fun _ => rfl⟩
  | skipped k r ihk ihr =>
    simp only [visit]
    refine (ihk.bind fun _ _ => ihr).congr ?_
    rw [lost_skipped]
    constructor
    · rintro ⟨⟨h1, h2⟩, h3, h4⟩
      refine ⟨fun q hq => ?_, fun h => ?_⟩
      · rcases mem_skipped.1 hq with rfl | hq
        · exact trivial
        · exact h3 q hq
      · rcases h with (h | h) | h
        · exact h h1
        · exact h2 h
        · exact h4 h
    · rintro ⟨h1, h2⟩
      refine ⟨⟨?_, fun h => h2 (.inl (.inr h))⟩, fun q hq => h1 q (mem_skipped.2 (.inr hq)), fun h => h2 (.inr h)⟩
      exact Classical.byContradiction fun h => h2 (.inl (.inl h))

theorem not_lost_skipped {k r : Ss} : ((AllLeft k ∧ ¬ Lost k) ∧ ¬ Lost r) ↔ ¬ Lost (.skipped k r) := by
  rw [lost_skipped]
  constructor
  · rintro ⟨⟨h1, h2⟩, h4⟩ ((h | h) | h)
    · exact h h1
    · exact h2 h
    · exact h4 h
  · intro h2
    exact ⟨⟨Classical.byContradiction fun h => h2 (.inl (.inl h)), fun h => h2 (.inl (.inr h))⟩, fun h => h2 (.inr h)⟩

theorem not_lost_ignored {i : Info} {k r : Ss} (hi : i.ignore = true) : ((AllLeft k ∧ ¬ Lost k) ∧ ¬ Lost r) ↔ ¬ Lost (.visited i k r) := by
  rw [lost_visited]
  constructor
  · rintro ⟨⟨h1, h2⟩, h4⟩ ((h | h) | h)
    · exact h.2 h1
    · exact h2 h
    · exact h4 h
  · intro h2
    exact ⟨⟨Classical.byContradiction fun h => h2 (.inl (.inl ⟨hi, h⟩)), fun h => h2 (.inl (.inr h))⟩, fun h => h2 (.inr h)⟩

theorem not_lost_visited {i : Info} {k r : Ss} (hi : ¬ i.ignore = true) : (¬ Lost k ∧ ¬ Lost r) ↔ ¬ Lost (.visited i k r) := by
  rw [lost_visited]
  constructor
  · rintro ⟨h2, h4⟩ ((h | h) | h)
    · exact hi h.1
    · exact h2 h
    · exact h4 h
  · intro h2
    exact ⟨fun h => h2 (.inl (.inr h)), fun h => h2 (.inr h)⟩

theorem visit_some_good (ln : String → Nat) (s : Ss) : ∀ D, Good (visit ln (some D) s) (¬ Lost s) := by
  induction s with
  | nil =>
    intro D
    rw [visit]
    exact Good.ok.congr ⟨fun _ => lost_nil, fun _ => trivial⟩
  | assign i l r ih =>
    intro D
    simp only [visit]
    split
    · exact (ih D).congr (not_congr lost_assign.symm)
    · refine ((ih _).bind (Q := True) fun _ _ => Good.ok).congr ?_
      rw [and_true, lost_assign]
  | visited i k r ihk ihr =>
    intro D
    simp only [visit]
    split
    · rename_i hi
      exact ((visit_none_good ln k).bind fun _ _ => ihr D).congr (not_lost_ignored hi)
    · rename_i hi
      refine ((ihk _).bind (Q := ¬ Lost r ∧ True) fun _ _ => (ihr _).bind fun _ _ => Good.ok).congr ?_
      rw [and_true]
      exact not_lost_visited hi
  | skipped k r _ ihr =>
    intro D
    simp only [visit]
    exact ((visit_none_good ln k).bind fun _ _ => ihr D).congr not_lost_skipped

theorem top_good (ln : String → Nat) (s : Ss) : Good (top ln s) (¬ Lost s) := by
  induction s with
  | nil =>
    rw [top]
    exact Good.ok.congr ⟨fun _ => lost_nil, fun _ => trivial⟩
  | assign i l r ih =>
    simp only [top]
    split
    · exact ih.congr (not_congr lost_assign.symm)
    · refine (ih.bind (Q := True) fun _ _ => Good.ok).congr ?_
      rw [and_true, lost_assign]
  | visited i k r _ ihr =>
    simp only [top]
    split
    · rename_i hi
      exact ((visit_none_good ln k).bind fun _ _ => ihr).congr (not_lost_ignored hi)
    · rename_i hi
      refine ((visit_some_good ln k _).bind (Q := ¬ Lost r ∧ True) fun _ _ => ihr.bind fun _ _ => Good.ok).congr ?_
      rw [and_true]
      exact not_lost_visited hi
  | skipped k r _ ihr =>
    simp only [top]
    exact ((visit_none_good ln k).bind fun _ _ => ihr).congr not_lost_skipped

/-! ## C99 -/

/-- Every assignment has its breakpoints, in order, at its place and with its condition, and each shows the variables in
the scope of the assignment, unless a name gets back a meaning it had before. -/
theorem breakpoints_partial (ln : String → Nat) (s : Ss) (t : Ns) (ho : CtxOk s) (hn : ∀ H ∈ histTop s, NoReturn H)
    (h : table ln s = .ok t) : All2 (fun b p => Matches b p ∧ Shows b p) (breaks "" [] t) (points s) := by
  rw [table, Res.bind_eq_ok] at h
  obtain ⟨t', h1, h⟩ := h
  cases h
  exact all2_trans (clearTop_breaks t' [] [] .nil) (top_breaks ln s t' ho hn h1)

/-- There is a table exactly when no recorded statement is inside one that is not recorded; otherwise an exception. -/
theorem saved_iff (ln : String → Nat) (s : Ss) : (¬ Lost s → ∃ t, table ln s = .ok t) ∧ (Lost s → table ln s = .throw .user) := by
  obtain ⟨h1, h2⟩ := top_good ln s
  constructor
  · intro h
    obtain ⟨t, ht⟩ := h1 h
    exact ⟨clearTop t, by rw [table, ht, Res.ok_bind]⟩
  · intro h
    rw [table, h2 (fun hn => hn h), Res.throw_bind]

/-- An assignment in a function, a loop, an initial block or a latch: no table. -/
theorem skipped_refused (ln : String → Nat) (s kids : Ss) (i : Info) (hb : Below (.skipped kids) s) (hm : Mem (.assign i) kids)
    (hi : i.ignore = false) : table ln s = .throw .user :=
  (saved_iff ln s).2 ⟨_, _, hb, trivial, hm, fun h => (by rw [Item.Left, hi] at h; cases h)⟩

/-- `override` has no effect. -/
theorem override_lost (ctx : List Variable) (n : String) (b c : Binding) (h : (⟨n, c⟩ : Variable) ∈ ctx) : addScope ctx n b true = ctx := by
  have : (ctx.any fun v => v.name = n) = true := by
    rw [List.any_eq_true]
    exact ⟨_, h, by simp⟩
  rw [addScope, if_pos (.inl rfl), if_pos this]

/-! ### Examples and disagreements -/

/-- A test for `NoReturn`. -/
def check : List Variable → Bool
  | [] => true
  | v :: E => check E && (decide (v ∉ E) || decide ((E.find? fun u => u.name = v.name) = some v))

theorem check_mid (v : Variable) (post : List Variable) : ∀ (mid : List Variable), check (v :: (mid ++ v :: post)) = true →
    ∀ u ∈ mid, u.name = v.name → u = v
  | [], _, u, hu, _ => (by cases hu)
  | x :: mid, h, u, hu, hn => by
    rw [check, Bool.and_eq_true, Bool.or_eq_true] at h
    obtain ⟨h1, h2⟩ := h
    have h2 : ((x :: mid ++ v :: post).find? fun u => u.name = v.name) = some v := by
      rcases h2 with h2 | h2
      · exact absurd (by simp) (of_decide_eq_true h2)
      · exact of_decide_eq_true h2
    rw [List.cons_append, List.find?_cons] at h2
    by_cases e : x.name = v.name
    · simp only [e, decide_true] at h2
      cases h2
      rcases List.mem_cons.1 hu with rfl | hu
      · rfl
      · exact check_mid v post mid h1 u hu hn
    · simp only [e, decide_false] at h2
      rcases List.mem_cons.1 hu with rfl | hu
      · exact absurd hn e
      · refine check_mid v post mid ?_ u hu hn
        rw [check, Bool.and_eq_true, Bool.or_eq_true]
        rw [List.cons_append, check, Bool.and_eq_true] at h1
        exact ⟨h1.1, .inr (decide_eq_true h2)⟩

theorem check_suffix : ∀ (pre E : List Variable), check (pre ++ E) = true → check E = true
  | [], _, h => h
  | x :: pre, E, h => by
    rw [List.cons_append, check, Bool.and_eq_true] at h
    exact check_suffix pre E h.1

theorem noReturn_of_check {E : List Variable} (h : check E = true) : NoReturn E := by
  intro pre mid post v he
  subst he
  exact check_mid v post mid (check_suffix pre _ h)

def text (s : String) : Binding := ⟨false, s⟩
def sig (s : String) : Binding := ⟨true, s⟩
def at_ (l : Nat) (ctx : List Variable) (c : Option String) : Info := ⟨false, some ("m.py", l), c, ctx⟩

/-- `for i in range(2): if a: o[i] = i`. -/
def sample : Ss := .visited ⟨false, none, none, []⟩
  (.visited (at_ 2 [⟨"a", sig "a"⟩, ⟨"i", text "0"⟩] none)
    (.visited (at_ 2 [] (some "a")) (.assign (at_ 3 [⟨"a", sig "a"⟩, ⟨"i", text "0"⟩] (some "a")) [(⟨"o[0]", sig "o[0]"⟩, "")] .nil)
      .nil)
  (.visited (at_ 2 [⟨"a", sig "a"⟩, ⟨"i", text "1"⟩] none)
    (.visited (at_ 2 [] (some "a")) (.assign (at_ 3 [⟨"a", sig "a"⟩, ⟨"i", text "1"⟩] (some "a")) [(⟨"o[1]", sig "o[1]"⟩, "")] .nil)
      .nil) .nil)) .nil

example : CtxOk sample := by simp [CtxOk, sample, at_]
def eval (s : Ss) : List (String × Nat × String × List (Option Binding)) :=
  match table (fun _ => 0) s with
  | .ok t => (breaks "" [] t).map fun b => (b.file, b.e.line, b.e.cond, ["a", "i"].map (shows b.env))
  | _ => []
example : eval sample = [("m.py", 3, "a", [some (sig "a"), some (text "0")]), ("m.py", 3, "a", [some (sig "a"), some (text "1")])] := by
  decide +kernel
example : histTop sample = [[⟨"i", text "0"⟩, ⟨"a", sig "a"⟩], [⟨"i", text "0"⟩, ⟨"a", sig "a"⟩],
    [⟨"o[0]", sig "o[0]"⟩, ⟨"i", text "0"⟩, ⟨"a", sig "a"⟩, ⟨"i", text "0"⟩, ⟨"a", sig "a"⟩],
    [⟨"i", text "1"⟩, ⟨"a", sig "a"⟩, ⟨"i", text "0"⟩, ⟨"a", sig "a"⟩], [⟨"i", text "1"⟩, ⟨"a", sig "a"⟩, ⟨"i", text "0"⟩, ⟨"a", sig "a"⟩],
    [⟨"o[1]", sig "o[1]"⟩, ⟨"i", text "1"⟩, ⟨"a", sig "a"⟩, ⟨"i", text "1"⟩, ⟨"a", sig "a"⟩, ⟨"i", text "0"⟩, ⟨"a", sig "a"⟩]] := by decide +kernel

example : ∀ H ∈ histTop sample, NoReturn H := fun H hH =>
  noReturn_of_check (List.all_eq_true.1 (show (histTop sample).all check = true by decide +kernel) H hH)

/-- Two loops over `i`, one after the other: in the second, `i` is shown as 1 when it is 0. -/
def twice : Ss := .visited ⟨false, none, none, []⟩
  (.assign (at_ 2 [⟨"i", text "0"⟩] none) [(⟨"o[0]", sig "o[0]"⟩, "")]
  (.assign (at_ 2 [⟨"i", text "1"⟩] none) [(⟨"o[1]", sig "o[1]"⟩, "")]
  (.assign (at_ 4 [⟨"i", text "0"⟩] none) [(⟨"p[0]", sig "p[0]"⟩, "")] .nil))) .nil

theorem loop_wrong : eval twice = [("m.py", 2, "", [none, some (text "0")]), ("m.py", 2, "", [none, some (text "1")]),
    ("m.py", 4, "", [none, some (text "1")])] := by decide +kernel

/-- A function that assigns. -/
def withFunction : Ss := .skipped (.assign (at_ 7 [] none) [(⟨"f", sig "f"⟩, "")] .nil) .nil
theorem function_refused : table (fun _ => 0) withFunction = .throw .user := by decide +kernel

/-- A block that is left out, with an assignment. -/
theorem ignored_refused : table (fun _ => 0) (.visited ⟨true, none, none, []⟩ (.assign (at_ 7 [] none) [(⟨"f", sig "f"⟩, "")] .nil) .nil) =
    .throw .user := by decide +kernel

theorem not_TableClaim : ¬ TableClaim := by
  intro h
  obtain ⟨t, ht, _⟩ := h (fun _ => 0) withFunction trivial
  rw [function_refused] at ht
  cases ht

end Kratos.DebugScopes
