import Verif.Gen.Swap
import Verif.Pass.Kinds

/-!
# C95: inlining an instance

`inline_instance`, src/optimize.cc:1241-1421: the statements of a child marked `inline` are moved to the
parent, its ports become variables, and the assignments that connected them are taken away by
substitution.  The pass is meant to run after `decouple_generator_ports` (lines 1329, 1414), so that ports are
connected to variables; connections to slices, constants and expressions are not modelled.  How the
variables are named is C66; expressions and the replacement of one variable are those of C75.

The port object and the variable that `transfer_content` puts in its place have the same name and are
one variable here.
-/

namespace Kratos.Inline

open Kratos.Replace Kratos.Decouple

/-! ## Model -/

/-- A port of a child that is inlined.  Inout ports are treated as outputs (src/optimize.cc:1328-1353). -/
structure Port where
  var : Nat
  inp : Bool
  deriving DecidableEq, Repr

/-- A statement (`AssignStmt`, or the stand-in of an `if`/`case`, see `Replace.St`) of the parent or of a
child.  `src`, `snk`: the variables in whose `sources_` and `sinks_` it is.  `live`: it is printed.  `top`:
it stands directly in a generator and not in a block.  `own`: the parent's, before the pass. -/
structure Cell where
  kind : Kind
  left : E
  right : E
  shown : E
  src : List Nat
  snk : List Nat
  live : Bool
  top : Bool
  own : Bool
  deriving DecidableEq, Repr

/-- The parent together with its children: statements, the variables in sensitivity lists, the
variables declared in the parent once the children's are moved there. -/
structure Dsn where
  cells : List Cell
  events : List Nat
  vars : List Nat
  deriving DecidableEq, Repr

/-- `get_port_assignment`, src/optimize.cc:1325-1355: is this the assignment between the port and the
parent? -/
def isLink (p : Port) (c : Cell) : Bool :=
  if p.inp then decide (p.var ∈ c.src) && decide (c.left = .var p.var) && (c.top && c.own)
  else decide (p.var ∈ c.snk) && decide (c.right = .var p.var) && (c.top && c.own)

/-- … if there is exactly one. -/
def getLink (p : Port) (cells : List Cell) : Option Nat :=
  match (List.range cells.length).filter fun j => (cells[j]?.map (isLink p)).getD false with
  | [j] => some j
  | _ => none

/-- `move_sink_to` and `move_src_to` as called from `transfer_content` (src/generator.cc:714-718), on one
side of a statement, as far as exceptions go.  `move_linked_to` has run before and has already given the
slices their new parent, so that `set_slice_var_parent` does not find the target and throws
(src/expr.cc:1497-1502, 1561-1613, 1698-1700). -/
def castSide : E → Res Unit
  | .sl _ _ _ => .throw .user
  | .ix _ _ => .throw .user
  | .cast _ a => castSide a
  | _ => .ok ()
def transferSide (t : Nat) : E → Res Unit
  | .var v => if v = t then .ok () else .throw .user
  | .const _ => .throw .user
  | .call _ _ => .throw .user
  | .sl _ _ _ => .throw .user
  | .ix _ _ => .throw .user
  | .cast _ a => castSide a
  | _ => .ok ()

/-- `Generator::transfer_content` for one port and one statement. -/
def transferCell (t : Nat) (c : Cell) : Res Unit :=
  (if t ∈ c.snk then transferSide t c.right else .ok ()).bind fun _ =>
  if t ∈ c.src then transferSide t c.left else .ok ()

/-- All ports, all statements. -/
def transfer (ps : List Port) (cells : List Cell) : Res Unit :=
  (Kinds.mapRes (fun p : Port => (Kinds.mapRes (transferCell p.var) cells).bind fun _ => .ok ()) ps).bind fun _ => .ok ()

/-- `Var::move_sink_to`, src/expr.cc:1646-1668, without the connection.  `shown` follows if it is the
same pointer or the same object (C75). -/
def moveSnk (t m : Nat) (c : Cell) : Res Cell :=
  if t ∈ c.snk then
    (setSide t (.var m) c.right).bind fun r =>
      .ok { c with right := r, shown := if c.kind = .assign ∨ c.right.isExpr = true then r else c.shown,
                   snk := (m :: c.snk).filter (· ≠ t) }
  else .ok c

/-- `Var::move_src_to`, src/expr.cc:1615-1634, without the connection. -/
def moveSrc (t m : Nat) (c : Cell) : Res Cell :=
  if t ∈ c.src then
    (setSide t (.var m) c.left).bind fun l => .ok { c with left := l, src := (m :: c.src).filter (· ≠ t) }
  else .ok c

/-- `Var::clear_sources(true)`, src/expr.cc:1722-1730. -/
def clearSrc (v : Nat) (c : Cell) : Cell :=
  if v ∈ c.src then { c with live := false, src := c.src.filter (· ≠ v) } else c

/-- `Var::clear_sinks(true)`, src/expr.cc:1732-1740.  The stand-in of a test is not in the bodies of its
`if`, so that `remove_from_parent` does nothing (src/stmt.cc:274-287). -/
def clearSnk (v : Nat) (c : Cell) : Cell :=
  if v ∈ c.snk then { c with live := if c.kind = .assign then false else c.live, snk := c.snk.filter (· ≠ v) } else c

/-- One turn of the first loop of `optimize_passthrough_assignment`, src/optimize.cc:1362-1380: the new
statements and the pair of removed variable and what stands in its place.  Connections to anything but
a variable are not modelled; `Ready.whole` excludes them. -/
def link (inp : Bool) (j : Nat) (cells : List Cell) : Res (List Cell × Option (Nat × Nat)) :=
  match (cells[j]?).map (fun c : Cell => (c.left, c.right)) with
  | some (E.var a, E.var b) =>
    if inp then (Kinds.mapRes (moveSnk a b) cells).bind fun cs => .ok (cs.map (clearSrc a), some (a, b))
    else (Kinds.mapRes (moveSrc b a) cells).bind fun cs => .ok (cs.map (clearSnk b), some (b, a))
  | _ => .ub

/-- The loop; the pairs in the order of the statements. -/
def links : List (Bool × Nat) → List Cell → Res (List Cell × List (Nat × Nat))
  | [], cells => .ok (cells, [])
  | (inp, j) :: is, cells => (link inp j cells).bind fun r =>
      (links is r.1).bind fun r' => .ok (r'.1, r.2.toList ++ r'.2)

/-- Lookup in `var_mapping`: `emplace` keeps the first entry. -/
def lookup (m : List (Nat × Nat)) (v : Nat) : Option Nat := (m.find? fun e => e.1 = v).map (·.2)

/-- `RenameLinkedVar`, src/optimize.cc:1287-1323, on a test: only a predicate that is the variable itself.
`set_predicate` (src/stmt.cc:245-252) makes a new stand-in. -/
def renameTest (m : List (Nat × Nat)) (c : Cell) : Cell :=
  match c.kind, c.shown with
  | .test, .var v =>
    match lookup m v with
    | some w => { c with shown := .var w, right := .var w, snk := [w] }
    | none => c
  | _, _ => c

/-- `Generator::remove_var`, src/generator.cc:1270-1283. -/
def removeVar (cells : List Cell) (vars : List Nat) (v : Nat) : Res (List Nat) :=
  if v ∉ vars then .throw .user
  else if cells.any (fun c => decide (v ∈ c.src)) then .throw .user
  else if cells.any (fun c => decide (v ∈ c.snk)) then .throw .user
  else .ok (vars.filter (· ≠ v))

/-- src/optimize.cc:1386-1388; the keys of a map, so each once. -/
def removeAll (cells : List Cell) : List Nat → List Nat → List Nat → Res (List Nat)
  | _, [], vars => .ok vars
  | seen, v :: vs, vars =>
    if v ∈ seen then removeAll cells seen vs vars
    else (removeVar cells vars v).bind fun vars' => removeAll cells (v :: seen) vs vars'

/-- One turn of the last loop, src/optimize.cc:1390-1408: a variable with one source that is a plain copy
of a variable is removed. -/
def collapse (v : Nat) (s : List Cell × List Nat) : Res (List Cell × List Nat) :=
  match s.1.filter fun c => decide (v ∈ c.src) with
  | [c] =>
    if c.left = .var v then
      match c.right with
      | .var x => (Kinds.mapRes (moveSnk v x) s.1).bind fun cs =>
          (removeVar (cs.map (clearSrc v)) s.2 v).bind fun vars => .ok (cs.map (clearSrc v), vars)
      | _ => .ok s
    else .ok s
  | _ => .ok s

def collapses : List Nat → List Cell × List Nat → Res (List Cell × List Nat)
  | [], s => .ok s
  | v :: vs, s => (collapse v s).bind fun s' => collapses vs s'

/-- `InlineGeneratorVisitor::visit` with `optimize_passthrough_assignment`, src/optimize.cc:1248-1284,
1357-1410, for the ports of the children that are inlined. -/
def inline (ps : List Port) (d : Dsn) : Res Dsn :=
  let infos := ps.filterMap fun p => (getLink p d.cells).map fun j => (p.inp, j)
  (transfer ps d.cells).bind fun _ =>
  (links infos d.cells).bind fun r =>
  let cells := r.1.map (renameTest r.2)
  let events := d.events.map fun v => (lookup r.2 v).getD v
  (removeAll cells [] (r.2.map (·.1)) d.vars).bind fun vars =>
  (collapses (r.2.map (·.2)) (cells, vars)).bind fun s => .ok ⟨s.1, events, s.2⟩

/-! ## Specification -/

/-- `c` is the assignment that connects the port `p` to the variable `w` of the parent. -/
def Connects (p : Port) (w : Nat) (c : Cell) : Prop :=
  c.kind = .assign ∧ c.top = true ∧ c.own = true ∧
    ((p.inp = true ∧ c.left = .var p.var ∧ c.right = .var w) ∨ (p.inp = false ∧ c.left = .var w ∧ c.right = .var p.var))

/-- What stands for each variable afterwards. -/
def Stands (ps : List Port) (cells : List Cell) (f : Nat → Nat) : Prop :=
  (∀ p ∈ ps, ∀ w, ∀ c ∈ cells, Connects p w c → f p.var = w) ∧
  (∀ v, (¬ ∃ p ∈ ps, p.var = v ∧ ∃ w, ∃ c ∈ cells, Connects p w c) → f v = v)

/-- The statements that connected ports are gone, all others are there and say the same about the
variables that stand for the old ones; so do the sensitivity lists; only connected ports are gone from the
declarations. -/
def Inlined (ps : List Port) (d d' : Dsn) : Prop := ∃ f, Stands ps d.cells f ∧
  d'.cells.length = d.cells.length ∧
  (∀ (j : Nat) (c c' : Cell), d.cells[j]? = some c → d'.cells[j]? = some c' →
    ((∃ p ∈ ps, ∃ w, Connects p w c) → c'.live = false) ∧
    ((¬ ∃ p ∈ ps, ∃ w, Connects p w c) → c'.live = c.live ∧ c'.kind = c.kind ∧ c'.top = c.top ∧
      c'.left = resolve f c.left ∧ c'.right = resolve f c.right ∧ c'.shown = resolve f c.shown)) ∧
  d'.events = d.events.map f ∧
  (∀ v, v ∈ d'.vars ↔ v ∈ d.vars ∧ ¬ ∃ p ∈ ps, p.var = v ∧ ∃ w, ∃ c ∈ d.cells, Connects p w c)

/-- The registration of the statements is what their expressions say, and all are printed. -/
def Registered (c : Cell) : Prop :=
  (∀ v, v ∈ c.src ↔ c.kind = .assign ∧ E.sourceOf v c.left = true) ∧
  (∀ v, v ∈ c.snk ↔ Mentions v c.right ∨ (c.kind = .assign ∧ c.left.indexSink v = true)) ∧
  c.live = true ∧ c.shown = c.right

/-- A design before the pass: statements registered, ports different variables, declared (as they will
be), each connected at most once and to variables of the parent, and tests not among the statements that
stand directly in a generator.  `feeds`: a variable of the parent that just copies another one
continuously and goes into a child is also taken away by the pass; that is `collapse_partial`, and such
designs are left out here. -/
structure Ready (ps : List Port) (d : Dsn) : Prop where
  reg : ∀ c ∈ d.cells, Registered c
  ports : (ps.map (·.var)).Nodup
  decl : ∀ p ∈ ps, p.var ∈ d.vars
  once : ∀ p ∈ ps, ∀ (w w' i j : Nat) (c c' : Cell), d.cells[i]? = some c → d.cells[j]? = some c' → Connects p w c → Connects p w' c' → i = j
  outer : ∀ p ∈ ps, ∀ w, ∀ c ∈ d.cells, Connects p w c → ∀ q ∈ ps, q.var ≠ w
  whole : ∀ p ∈ ps, ∀ c ∈ d.cells, c.kind = .assign → c.top = true → c.own = true →
    (p.inp = true → c.left = .var p.var → ∃ w, c.right = .var w) ∧ (p.inp = false → c.right = .var p.var → ∃ w, c.left = .var w)
  tests : ∀ c ∈ d.cells, c.kind = .test → c.top = false
  feeds : ∀ p ∈ ps, p.inp = true → ∀ w, ∀ c ∈ d.cells, Connects p w c →
    ∀ (j x : Nat) (e : Cell), d.cells[j]? = some e → e.kind = .assign → e.left = .var w → e.right = .var x → e.top = true →
      ∃ (k : Nat) (e' : Cell), k ≠ j ∧ d.cells[k]? = some e' ∧ e'.kind = .assign ∧ E.sourceOf w e'.left = true

/-- The claim. -/
def InlineClaim : Prop := ∀ (ps : List Port) (d : Dsn), Ready ps d → ∃ d', inline ps d = .ok d' ∧ Inlined ps d d'

/-- An expression that is not a slice, not a call and not a cast of a slice. -/
def Whole : E → Prop
  | .sl _ _ _ => False
  | .ix _ _ => False
  | .call _ _ => False
  | .cast _ a => match a with
    | .sl _ _ _ => False
    | .ix _ _ => False
    | .cast _ _ => False
    | _ => True
  | _ => True

/-- What else is needed: the children read inputs and drive outputs, in places where the replacement
looks; connected outputs are not read by the child and have a driver; the parent's variable at an input
is not driven by just one copy of another variable that stands in a block. -/
structure Plain (ps : List Port) (d : Dsn) : Prop where
  noIndex : ∀ p ∈ ps, ∀ c ∈ d.cells, c.left.indexSink p.var = false
  right : ∀ p ∈ ps, ∀ c ∈ d.cells, Mentions p.var c.right →
    Whole c.right ∧ FoundCast p.var c.right ∧ (c.kind = .test → c.right.isExpr = true ∨ c.right = .var p.var)
  left : ∀ p ∈ ps, ∀ c ∈ d.cells, Mentions p.var c.left → Whole c.left ∧ FoundCast p.var c.left ∧
    c.kind = .assign ∧ E.sourceOf p.var c.left = true
  inputs : ∀ p ∈ ps, p.inp = true → ∀ c ∈ d.cells, Mentions p.var c.left → ∃ w, Connects p w c
  outputs : ∀ p ∈ ps, p.inp = false → (∃ w, ∃ c ∈ d.cells, Connects p w c) →
    ∀ c ∈ d.cells, Mentions p.var c.right → ∃ w, Connects p w c
  driven : ∀ p ∈ ps, p.inp = false → (∃ w, ∃ c ∈ d.cells, Connects p w c) → ∃ c ∈ d.cells, Mentions p.var c.left
  copies : ∀ p ∈ ps, p.inp = true → ∀ w, ∀ c ∈ d.cells, Connects p w c →
    ∀ (j x : Nat) (e : Cell), d.cells[j]? = some e → e.kind = .assign → e.left = .var w → e.right = .var x → e.top = false →
      ∃ (k : Nat) (e' : Cell), k ≠ j ∧ d.cells[k]? = some e' ∧ e'.kind = .assign ∧ E.sourceOf w e'.left = true

/-! ## Proof -/

theorem mapRes_map {α β : Type} {f : α → Res β} {g : α → β} : ∀ l : List α, (∀ a ∈ l, f a = .ok (g a)) →
    Kinds.mapRes f l = .ok (l.map g)
  | [], _ => rfl
  | a :: l, h => by
    rw [Kinds.mapRes, h a (by simp), Res.ok_bind, mapRes_map l fun x hx => h x (by simp [hx])]; rfl

theorem whole_side {t : Nat} {e : E} (hm : Mentions t e) (hw : Whole e) : transferSide t e = .ok () := by
  cases e with
  | var v => rw [transferSide, if_pos (mentions_var.1 hm)]
  | const k => exact absurd hm mentions_const
  | sl _ _ _ => exact absurd hw id
  | ix _ _ => exact absurd hw id
  | call _ _ => exact absurd hw id
  | cast k a => cases a <;> first | rfl | exact absurd hw id
  | _ => rfl

/-- A connection, oriented: `port` is removed, `other` stands in its place. -/
structure Q where
  inp : Bool
  id : Nat
  port : Nat
  other : Nat

/-- What one step does to a statement that is not the connection. -/
def after (c : Cell) (q : Q) : Cell :=
  if q.inp then
    if q.port ∈ c.snk then
      { c with right := subst q.port (.var q.other) c.right,
               shown := if c.kind = .assign ∨ c.right.isExpr = true then subst q.port (.var q.other) c.right else c.shown,
               snk := (q.other :: c.snk).filter (· ≠ q.port) }
    else c
  else
    if q.port ∈ c.src then
      { c with left := subst q.port (.var q.other) c.left, src := (q.other :: c.src).filter (· ≠ q.port) }
    else c

/-- … and to the connection. -/
def dead (q : Q) (c : Cell) : Cell :=
  if q.inp then { c with live := false, src := c.src.filter (· ≠ q.port) }
  else { c with live := false, snk := c.snk.filter (· ≠ q.port) }

/-- A statement the step can handle. -/
def OkFor (q : Q) (c : Cell) : Prop :=
  if q.inp then q.port ∉ c.src ∧ (q.port ∈ c.snk → FoundCast q.port c.right ∧ Mentions q.port c.right)
  else q.port ∉ c.snk ∧ (q.port ∈ c.src → FoundCast q.port c.left ∧ Mentions q.port c.left)

def IsConn (q : Q) (c : Cell) : Prop :=
  c.kind = .assign ∧
  if q.inp then c.left = .var q.port ∧ c.right = .var q.other ∧ (∀ v, v ∈ c.src ↔ v = q.port) ∧ (∀ v, v ∈ c.snk ↔ v = q.other)
  else c.left = .var q.other ∧ c.right = .var q.port ∧ (∀ v, v ∈ c.src ↔ v = q.other) ∧ (∀ v, v ∈ c.snk ↔ v = q.port)

structure WF (qs : List Q) (cells : List Cell) : Prop where
  ports : (qs.map (·.port)).Nodup
  ids : (qs.map (·.id)).Nodup
  outer : ∀ q ∈ qs, ∀ r ∈ qs, q.other ≠ r.port
  conn : ∀ q ∈ qs, ∃ c, cells[q.id]? = some c ∧ IsConn q c
  rest : ∀ (j : Nat) (c : Cell), cells[j]? = some c → (∀ q ∈ qs, q.id ≠ j) → ∀ q ∈ qs, OkFor q c

theorem moveSnk_ok {q : Q} {c : Cell} (hi : q.inp = true) (h : OkFor q c) :
    moveSnk q.port q.other c = .ok (after c q) ∧ clearSrc q.port (after c q) = after c q := by
  simp only [OkFor, hi, if_true] at h
  simp only [after, hi, if_true, moveSnk]
  by_cases hm : q.port ∈ c.snk
  · obtain ⟨hf, hme⟩ := h.2 hm
    rw [if_pos hm, if_pos hm, setSide_found _ hf hme, Res.ok_bind]
    refine ⟨rfl, ?_⟩
    rw [clearSrc, if_neg h.1]
  · rw [if_neg hm, if_neg hm, clearSrc, if_neg h.1]
    exact ⟨rfl, rfl⟩

theorem moveSrc_ok {q : Q} {c : Cell} (hi : q.inp = false) (h : OkFor q c) :
    moveSrc q.port q.other c = .ok (after c q) ∧ clearSnk q.port (after c q) = after c q := by
  simp only [OkFor, hi, Bool.false_eq_true, if_false] at h
  simp only [after, hi, Bool.false_eq_true, if_false, moveSrc]
  by_cases hm : q.port ∈ c.src
  · obtain ⟨hf, hme⟩ := h.2 hm
    rw [if_pos hm, if_pos hm, setSide_found _ hf hme, Res.ok_bind]
    refine ⟨rfl, ?_⟩
    rw [clearSnk, if_neg h.1]
  · rw [if_neg hm, if_neg hm, clearSnk, if_neg h.1]
    exact ⟨rfl, rfl⟩

/-- Another connection is left alone. -/
theorem conn_ok {q r : Q} {c : Cell} (h : IsConn r c) (h1 : q.port ≠ r.port) (h2 : r.other ≠ q.port) : OkFor q c := by
  obtain ⟨_, h⟩ := h
  unfold OkFor
  cases hr : r.inp <;> simp only [hr, Bool.false_eq_true, if_true, if_false] at h <;> obtain ⟨_, _, hs, hk⟩ := h <;>
    split <;> simp [hs, hk, h1, Ne.symm h2]

theorem conn_after {q r : Q} {c : Cell} (h : IsConn r c) (h1 : q.port ≠ r.port) (h2 : r.other ≠ q.port) : after c q = c := by
  obtain ⟨_, h⟩ := h
  unfold after
  cases hr : r.inp <;> simp only [hr, Bool.false_eq_true, if_true, if_false] at h <;> obtain ⟨_, _, hs, hk⟩ := h <;>
    split <;> rw [if_neg] <;> simp [hs, hk, h1, Ne.symm h2]

theorem okFor_after {q r : Q} {c : Cell} (h : OkFor r c) (h1 : r.port ≠ q.port) (h2 : r.port ≠ q.other) :
    OkFor r (after c q) := by
  have hmem : ∀ l : List Nat, r.port ∈ (q.other :: l).filter (· ≠ q.port) ↔ r.port ∈ l := by
    intro l; simp [h1, h2]
  unfold after
  cases hq : q.inp <;> simp only [Bool.false_eq_true, if_true, if_false]
  · split
    · unfold OkFor at h ⊢
      simp only [hmem]
      split <;> rename_i hr <;> simp only [hr, if_true, Bool.false_eq_true, if_false] at h
      · exact h
      · exact ⟨h.1, fun hx => ⟨Swap.foundCast_subst h1 h2 _ (h.2 hx).1, (Swap.mentions_subst h1 h2 _).2 (h.2 hx).2⟩⟩
    · exact h
  · split
    · unfold OkFor at h ⊢
      simp only [hmem]
      split <;> rename_i hr <;> simp only [hr, if_true, Bool.false_eq_true, if_false] at h
      · exact ⟨h.1, fun hx => ⟨Swap.foundCast_subst h1 h2 _ (h.2 hx).1, (Swap.mentions_subst h1 h2 _).2 (h.2 hx).2⟩⟩
      · exact h
    · exact h

/-- One step on the whole list. -/
theorem link_ok {q : Q} {qs : List Q} {cells : List Cell} (wf : WF (q :: qs) cells) :
    ∃ cs, link q.inp q.id cells = .ok (cs, some (q.port, q.other)) ∧ cs.length = cells.length ∧
      (∀ (j : Nat) (c : Cell), cells[j]? = some c → cs[j]? = some (if j = q.id then dead q c else after c q)) := by
  obtain ⟨c0, hc0, hconn⟩ := wf.conn q (by simp)
  have hother : q.other ≠ q.port := wf.outer q (by simp) q (by simp)
  -- every other statement can be handled
  have hok : ∀ (j : Nat) (c : Cell), cells[j]? = some c → j ≠ q.id → OkFor q c := by
    intro j c hj hne
    by_cases hex : ∃ r ∈ q :: qs, r.id = j
    · obtain ⟨r, hr, hrj⟩ := hex
      obtain ⟨c', hc', hr'⟩ := wf.conn r hr
      rw [hrj, hj] at hc'
      cases hc'
      have hrq : r ∈ qs := by
        rcases List.mem_cons.1 hr with rfl | h
        · exact absurd hrj.symm hne
        · exact h
      refine conn_ok hr' ?_ (wf.outer r hr q (by simp))
      intro he
      have := wf.ports
      simp only [List.map_cons, List.nodup_cons] at this
      apply this.1
      have hm := List.mem_map_of_mem (f := fun x : Q => x.port) hrq
      rw [he]; exact hm
    · exact wf.rest j c hj (fun r hr hid => hex ⟨r, hr, hid⟩) q (by simp)
  obtain ⟨hk, hconn⟩ := hconn
  cases hi : q.inp with
  | true =>
    simp only [hi, if_true] at hconn
    obtain ⟨hl, hr, hs, hn⟩ := hconn
    have hall : ∀ c ∈ cells, moveSnk q.port q.other c = .ok (after c q) := by
      intro c hc
      obtain ⟨j, hj⟩ := List.getElem?_of_mem hc
      by_cases hjq : j = q.id
      · subst hjq
        rw [hc0] at hj
        cases hj
        have : q.port ∉ c0.snk := by rw [hn]; exact fun h => hother h.symm
        simp only [moveSnk, after, hi, if_true, if_neg this]
      · exact (moveSnk_ok hi (hok j c hj hjq)).1
    refine ⟨(cells.map fun c => after c q).map (clearSrc q.port), ?_, by simp, ?_⟩
    · simp only [link, hc0, Option.map_some, hl, hr, if_true]
      rw [mapRes_map cells hall]; rfl
    · intro j c hj
      simp only [List.getElem?_map, hj, Option.map_some, Option.some.injEq]
      by_cases hjq : j = q.id
      · subst hjq
        rw [hc0] at hj
        cases hj
        have : q.port ∉ c0.snk := by rw [hn]; exact fun h => hother h.symm
        have ha : after c0 q = c0 := by simp only [after, hi, if_true, if_neg this]
        rw [if_pos rfl, ha, clearSrc, if_pos ((hs _).2 rfl)]
        simp [dead, hi, hs]
      · rw [if_neg hjq]
        exact (moveSnk_ok hi (hok j c hj hjq)).2
  | false =>
    simp only [hi, Bool.false_eq_true, if_false] at hconn
    obtain ⟨hl, hr, hs, hn⟩ := hconn
    have hall : ∀ c ∈ cells, moveSrc q.port q.other c = .ok (after c q) := by
      intro c hc
      obtain ⟨j, hj⟩ := List.getElem?_of_mem hc
      by_cases hjq : j = q.id
      · subst hjq
        rw [hc0] at hj
        cases hj
        have : q.port ∉ c0.src := by rw [hs]; exact fun h => hother h.symm
        simp only [moveSrc, after, hi, Bool.false_eq_true, if_false, if_neg this]
      · exact (moveSrc_ok hi (hok j c hj hjq)).1
    refine ⟨(cells.map fun c => after c q).map (clearSnk q.port), ?_, by simp, ?_⟩
    · simp only [link, hc0, Option.map_some, hl, hr, Bool.false_eq_true, if_false]
      rw [mapRes_map cells hall]; rfl
    · intro j c hj
      simp only [List.getElem?_map, hj, Option.map_some, Option.some.injEq]
      by_cases hjq : j = q.id
      · subst hjq
        rw [hc0] at hj
        cases hj
        have : q.port ∉ c0.src := by rw [hs]; exact fun h => hother h.symm
        have ha : after c0 q = c0 := by simp only [after, hi, Bool.false_eq_true, if_false, if_neg this]
        rw [if_pos rfl, ha, clearSnk, if_pos ((hn _).2 rfl)]
        simp [dead, hi, hn, hk]
      · rw [if_neg hjq]
        exact (moveSrc_ok hi (hok j c hj hjq)).2

/-- What becomes of statement `j` after all steps. -/
def final (qs : List Q) (j : Nat) (c : Cell) : Cell :=
  match qs.find? fun q => q.id = j with
  | some q => dead q c
  | none => qs.foldl after c

theorem dead_okFor {q r : Q} {c : Cell} (h : IsConn q c) (h2 : q.other ≠ r.port) : OkFor r (dead q c) := by
  obtain ⟨_, h⟩ := h
  unfold OkFor dead
  cases hq : q.inp <;> simp only [hq, Bool.false_eq_true, if_true, if_false] at h ⊢ <;> obtain ⟨_, _, hs, hn⟩ := h <;>
    split <;> simp [hs, hn, Ne.symm h2]

theorem dead_fold {q : Q} {c : Cell} (h : IsConn q c) : ∀ (rs : List Q), (∀ r ∈ rs, q.other ≠ r.port) →
    rs.foldl after (dead q c) = dead q c
  | [], _ => rfl
  | r :: rs, hr => by
    have : after (dead q c) r = dead q c := by
      have h2 := hr r (by simp)
      obtain ⟨_, h⟩ := h
      unfold after dead
      cases hq : q.inp <;> simp only [hq, Bool.false_eq_true, if_true, if_false] at h ⊢ <;> obtain ⟨_, _, hs, hn⟩ := h <;>
        split <;> simp [hs, hn, Ne.symm h2]
    rw [List.foldl_cons, this]
    exact dead_fold h rs fun r' hr' => hr r' (by simp [hr'])

theorem wf_step {q : Q} {qs : List Q} {cells cs : List Cell} (wf : WF (q :: qs) cells) (hlen : cs.length = cells.length)
    (hcs : ∀ (j : Nat) (c : Cell), cells[j]? = some c → cs[j]? = some (if j = q.id then dead q c else after c q)) :
    WF qs cs := by
  have hp := wf.ports
  have hid := wf.ids
  simp only [List.map_cons, List.nodup_cons] at hp hid
  have hpne : ∀ r ∈ qs, r.port ≠ q.port := by
    intro r hr he
    apply hp.1
    have hm := List.mem_map_of_mem (f := fun x : Q => x.port) hr
    rw [he] at hm; exact hm
  have hidne : ∀ r ∈ qs, r.id ≠ q.id := by
    intro r hr he
    apply hid.1
    have hm := List.mem_map_of_mem (f := fun x : Q => x.id) hr
    rw [he] at hm; exact hm
  refine ⟨hp.2, hid.2, fun a ha b hb => wf.outer a (by simp [ha]) b (by simp [hb]), ?_, ?_⟩
  · intro r hr
    obtain ⟨c, hc, hco⟩ := wf.conn r (by simp [hr])
    refine ⟨c, ?_, hco⟩
    rw [hcs _ c hc, if_neg (hidne r hr)]
    rw [conn_after hco (fun h => hpne r hr h.symm) (wf.outer r (by simp [hr]) q (by simp))]
  · intro j c' hc' hj r hr
    have hlt : j < cells.length := by
      rw [← hlen]; exact (List.getElem?_eq_some_iff.1 hc').1
    have hget : cells[j]? = some cells[j] := List.getElem?_eq_getElem hlt
    have h1 := hcs j _ hget
    rw [hc'] at h1
    simp only [Option.some.injEq] at h1
    subst h1
    by_cases hjq : j = q.id
    · rw [if_pos hjq]
      obtain ⟨c0, hc0, hco⟩ := wf.conn q (by simp)
      rw [← hjq, hget] at hc0
      cases hc0
      exact dead_okFor hco (wf.outer q (by simp) r (by simp [hr]))
    · rw [if_neg hjq]
      refine okFor_after (wf.rest j _ hget ?_ r (by simp [hr])) (hpne r hr)
        (fun h => wf.outer q (by simp) r (by simp [hr]) h.symm)
      intro s hs
      rcases List.mem_cons.1 hs with rfl | hs
      · exact fun h => hjq h.symm
      · exact hj s hs

theorem links_ok : ∀ (qs : List Q) (cells : List Cell), WF qs cells →
    ∃ cs, links (qs.map fun q => (q.inp, q.id)) cells = .ok (cs, qs.map fun q => (q.port, q.other)) ∧
      cs.length = cells.length ∧ ∀ (j : Nat) (c : Cell), cells[j]? = some c → cs[j]? = some (final qs j c)
  | [], cells, _ => ⟨cells, rfl, rfl, fun j c h => by simpa [final] using h⟩
  | q :: qs, cells, wf => by
    obtain ⟨c1, h1, hl1, hc1⟩ := link_ok wf
    obtain ⟨cs, h2, hl2, hc2⟩ := links_ok qs c1 (wf_step wf hl1 hc1)
    refine ⟨cs, ?_, by rw [hl2, hl1], ?_⟩
    · simp only [List.map_cons, links, h1, Res.ok_bind, h2, Option.toList_some, List.singleton_append]
    · intro j c hj
      rw [hc2 j _ (hc1 j c hj)]
      congr 1
      have hid := wf.ids
      simp only [List.map_cons, List.nodup_cons] at hid
      by_cases hjq : j = q.id
      · rw [if_pos hjq]
        have hnone : qs.find? (fun r => decide (r.id = j)) = none := by
          rw [List.find?_eq_none]
          intro r hr he
          simp only [decide_eq_true_eq] at he
          apply hid.1
          have hm := List.mem_map_of_mem (f := fun x : Q => x.id) hr
          rw [he, hjq] at hm; exact hm
        obtain ⟨c0, hc0, hco⟩ := wf.conn q (by simp)
        rw [← hjq, hj] at hc0
        cases hc0
        simp only [final, hnone, List.find?_cons, hjq.symm, decide_true]
        exact dead_fold hco qs fun r hr => wf.outer q (by simp) r (by simp [hr])
      · rw [if_neg hjq]
        have : ¬ (q.id = j) := fun h => hjq h.symm
        simp only [final, List.find?_cons, this, decide_false]
        -- connections to come are not changed
        cases hf : qs.find? fun r => decide (r.id = j) with
        | none => rfl
        | some r =>
          simp only
          have hr := List.mem_of_find?_eq_some hf
          have hrid := List.find?_some hf
          simp only [decide_eq_true_eq] at hrid
          obtain ⟨c0, hc0, hco⟩ := wf.conn r (by simp [hr])
          rw [hrid, hj] at hc0
          cases hc0
          rw [conn_after hco _ (wf.outer r (by simp [hr]) q (by simp))]
          intro he
          have hp := wf.ports
          simp only [List.map_cons, List.nodup_cons] at hp
          apply hp.1
          have hm := List.mem_map_of_mem (f := fun x : Q => x.port) hr
          rw [he]; exact hm

/-! ### What the fold does to one statement -/

/-- What stands for a variable, from the list of connections. -/
def alias : List Q → Nat → Nat
  | [], v => v
  | q :: qs, v => if v = q.port then q.other else alias qs v

theorem alias_other {qs : List Q} {v : Nat} (h : ∀ q ∈ qs, v ≠ q.port) : alias qs v = v := by
  induction qs with
  | nil => rfl
  | cons q qs ih => rw [alias, if_neg (h q (by simp)), ih fun r hr => h r (by simp [hr])]

theorem alias_port : ∀ {qs : List Q}, (qs.map (·.port)).Nodup → ∀ q ∈ qs, alias qs q.port = q.other
  | r :: qs, hn, q, hq => by
    simp only [List.map_cons, List.nodup_cons] at hn
    rcases List.mem_cons.1 hq with rfl | hq
    · rw [alias, if_pos rfl]
    · rw [alias, if_neg, alias_port hn.2 q hq]
      intro he
      apply hn.1
      have hm := List.mem_map_of_mem (f := fun x : Q => x.port) hq
      rw [← he]; exact hm

theorem fold_fields : ∀ (qs : List Q) (c : Cell), (qs.foldl after c).live = c.live ∧ (qs.foldl after c).kind = c.kind ∧
    (qs.foldl after c).top = c.top
  | [], _ => ⟨rfl, rfl, rfl⟩
  | q :: qs, c => by
    have h := fold_fields qs (after c q)
    rw [List.foldl_cons, h.1, h.2.1, h.2.2]
    unfold after
    split <;> split <;> exact ⟨rfl, rfl, rfl⟩

/-- What a statement must look like for the fold to be the substitution. -/
structure Tidy (qs : List Q) (c : Cell) : Prop where
  snk : ∀ q ∈ qs, q.inp = true → (q.port ∈ c.snk ↔ Mentions q.port c.right)
  src : ∀ q ∈ qs, q.inp = false → (q.port ∈ c.src ↔ Mentions q.port c.left)
  left : ∀ q ∈ qs, q.inp = true → ¬ Mentions q.port c.left
  right : ∀ q ∈ qs, q.inp = false → ¬ Mentions q.port c.right

theorem tidy_after {q : Q} {qs : List Q} {c : Cell} (hp : ((q :: qs).map (·.port)).Nodup)
    (ho : ∀ a ∈ q :: qs, ∀ r ∈ q :: qs, a.other ≠ r.port) (h : Tidy (q :: qs) c) : Tidy qs (after c q) := by
  simp only [List.map_cons, List.nodup_cons] at hp
  have h1 : ∀ r ∈ qs, r.port ≠ q.port := by
    intro r hr he
    apply hp.1
    have hm := List.mem_map_of_mem (f := fun x : Q => x.port) hr
    rw [he] at hm; exact hm
  have h2 : ∀ r ∈ qs, r.port ≠ q.other := fun r hr he => ho q (by simp) r (by simp [hr]) he.symm
  have hmem : ∀ r ∈ qs, ∀ l : List Nat, r.port ∈ (q.other :: l).filter (· ≠ q.port) ↔ r.port ∈ l := by
    intro r hr l; simp [h1 r hr, h2 r hr]
  have hs := fun r (hr : r ∈ qs) => Swap.mentions_subst (h1 r hr) (h2 r hr)
  unfold after
  split
  · split
    · refine ⟨fun r hr hi => ?_, fun r hr hi => h.src r (by simp [hr]) hi, fun r hr hi => h.left r (by simp [hr]) hi, fun r hr hi hm => ?_⟩
      · rw [hmem r hr, hs r hr]; exact h.snk r (by simp [hr]) hi
      · exact h.right r (by simp [hr]) hi ((hs r hr _).1 hm)
    · exact ⟨fun r hr => h.snk r (by simp [hr]), fun r hr => h.src r (by simp [hr]), fun r hr => h.left r (by simp [hr]),
        fun r hr => h.right r (by simp [hr])⟩
  · split
    · refine ⟨fun r hr hi => h.snk r (by simp [hr]) hi, fun r hr hi => ?_, fun r hr hi hm => ?_, fun r hr hi => h.right r (by simp [hr]) hi⟩
      · rw [hmem r hr, hs r hr]; exact h.src r (by simp [hr]) hi
      · exact h.left r (by simp [hr]) hi ((hs r hr _).1 hm)
    · exact ⟨fun r hr => h.snk r (by simp [hr]), fun r hr => h.src r (by simp [hr]), fun r hr => h.left r (by simp [hr]),
        fun r hr => h.right r (by simp [hr])⟩

theorem after_left {q : Q} {qs : List Q} {c : Cell} (h : Tidy (q :: qs) c) :
    (after c q).left = subst q.port (.var q.other) c.left := by
  unfold after
  cases hq : q.inp <;> simp only [Bool.false_eq_true, if_true, if_false]
  · split
    · rfl
    · rename_i hm
      rw [subst_of_not]
      exact fun h' => hm ((h.src q (by simp) hq).2 h')
  · rw [subst_of_not _ (h.left q (by simp) hq)]
    split <;> rfl

theorem after_right {q : Q} {qs : List Q} {c : Cell} (h : Tidy (q :: qs) c) :
    (after c q).right = subst q.port (.var q.other) c.right := by
  unfold after
  cases hq : q.inp <;> simp only [Bool.false_eq_true, if_true, if_false]
  · rw [subst_of_not _ (h.right q (by simp) hq)]
    split <;> rfl
  · split
    · rfl
    · rename_i hm
      rw [subst_of_not]
      exact fun h' => hm ((h.snk q (by simp) hq).2 h')

theorem alias_self {q : Q} {qs : List Q} (ho : ∀ a ∈ q :: qs, ∀ r ∈ q :: qs, a.other ≠ r.port) : alias qs q.other = q.other :=
  alias_other fun r hr => ho q (by simp) r (by simp [hr])

theorem fold_left : ∀ (qs : List Q) (c : Cell), (qs.map (·.port)).Nodup → (∀ a ∈ qs, ∀ r ∈ qs, a.other ≠ r.port) →
    Tidy qs c → (qs.foldl after c).left = resolve (alias qs) c.left ∧ (qs.foldl after c).right = resolve (alias qs) c.right
  | [], c, _, _, _ => by
    have : alias [] = id := by funext v; rfl
    rw [this, resolve_self id c.left fun _ _ => rfl, resolve_self id c.right fun _ _ => rfl]
    exact ⟨rfl, rfl⟩
  | q :: qs, c, hp, ho, h => by
    have ih := fold_left qs (after c q) (List.nodup_cons.1 hp).2 (fun a ha r hr => ho a (by simp [ha]) r (by simp [hr]))
      (tidy_after hp ho h)
    have e : ∀ e : E, resolve (alias qs) (subst q.port (.var q.other) e) = resolve (alias (q :: qs)) e := fun e =>
      Swap.resolve_subst (alias_self ho) (by rw [alias, if_pos rfl]) (fun v hv => by rw [alias, if_neg hv]) e
    rw [List.foldl_cons, ih.1, ih.2, after_left h, after_right h, e, e]
    exact ⟨rfl, rfl⟩

theorem isExpr_subst' {t m : Nat} (e : E) : (subst t (.var m) e).isExpr = e.isExpr := by
  cases e with
  | var v => rw [subst]; split <;> rfl
  | _ => rfl

/-- What is printed: follows the right-hand side, unless it is a test of a variable. -/
theorem fold_shown : ∀ (qs : List Q) (c : Cell), (qs.map (·.port)).Nodup → (∀ a ∈ qs, ∀ r ∈ qs, a.other ≠ r.port) →
    Tidy qs c → c.kind = .assign ∨ c.right.isExpr = true → c.shown = c.right →
    (qs.foldl after c).shown = (qs.foldl after c).right
  | [], c, _, _, _, _, h => h
  | q :: qs, c, hp, ho, h, hk, hsh => by
    rw [List.foldl_cons]
    refine fold_shown qs (after c q) (List.nodup_cons.1 hp).2 (fun a ha r hr => ho a (by simp [ha]) r (by simp [hr]))
      (tidy_after hp ho h) ?_ ?_
    · rw [after_right h, isExpr_subst']
      rw [show (after c q).kind = c.kind from (fold_fields [q] c).2.1]
      exact hk
    · unfold after
      split
      · split
        · simp only [if_pos hk]
        · exact hsh
      · split <;> exact hsh

/-- A test of something else keeps what it shows until it is renamed. -/
theorem fold_shown_test : ∀ (qs : List Q) (c : Cell), c.kind = .test → c.right.isExpr = false →
    (qs.map (·.port)).Nodup → (∀ a ∈ qs, ∀ r ∈ qs, a.other ≠ r.port) → Tidy qs c → (qs.foldl after c).shown = c.shown
  | [], _, _, _, _, _, _ => rfl
  | q :: qs, c, hk, hx, hp, ho, h => by
    rw [List.foldl_cons, fold_shown_test qs (after c q)
      (by rw [show (after c q).kind = c.kind from (fold_fields [q] c).2.1]; exact hk)
      (by rw [after_right h, isExpr_subst']; exact hx) (List.nodup_cons.1 hp).2
      (fun a ha r hr => ho a (by simp [ha]) r (by simp [hr])) (tidy_after hp ho h)]
    unfold after
    split
    · split
      · simp [hk, hx]
      · rfl
    · split <;> rfl

/-- Where a statement is registered as a driver afterwards. -/
theorem fold_src : ∀ (qs : List Q) (c : Cell), (∀ q ∈ qs, q.inp = true → q.port ∉ c.src) →
    (qs.map (·.port)).Nodup → (∀ a ∈ qs, ∀ r ∈ qs, a.other ≠ r.port) →
    ∀ v, v ∈ (qs.foldl after c).src ↔ ∃ u ∈ c.src, alias qs u = v
  | [], c, _, _, _, v => by simp [alias]
  | q :: qs, c, hn, hp, ho, v => by
    have hp' := hp
    simp only [List.map_cons, List.nodup_cons] at hp'
    have hpne : ∀ r ∈ qs, r.port ≠ q.port := by
      intro r hr he
      apply hp'.1
      have hm := List.mem_map_of_mem (f := fun x : Q => x.port) hr
      rw [he] at hm; exact hm
    have hsub : ∀ u, u ∈ (after c q).src ↔ ∃ w ∈ c.src, (if w = q.port then q.other else w) = u := by
      intro u
      unfold after
      cases hq : q.inp <;> simp only [Bool.false_eq_true, if_true, if_false]
      · split
        · rename_i hm
          simp only [List.mem_filter, List.mem_cons, decide_eq_true_eq]
          constructor
          · rintro ⟨rfl | hu, hne⟩
            · exact ⟨q.port, hm, if_pos rfl⟩
            · exact ⟨u, hu, if_neg hne⟩
          · rintro ⟨w, hw, rfl⟩
            split
            · exact ⟨.inl rfl, ho q (by simp) q (by simp)⟩
            · rename_i hne; exact ⟨.inr hw, hne⟩
        · rename_i hm
          constructor
          · intro hu; exact ⟨u, hu, if_neg (show ¬ u = q.port from fun e => hm (e ▸ hu))⟩
          · rintro ⟨w, hw, rfl⟩
            rw [if_neg (show ¬ w = q.port from fun e => hm (e ▸ hw))]; exact hw
      · have hnp := hn q (by simp) hq
        have : (if q.port ∈ c.snk then
            ({ c with right := subst q.port (.var q.other) c.right,
                      shown := if c.kind = .assign ∨ c.right.isExpr = true then subst q.port (.var q.other) c.right else c.shown,
                      snk := (q.other :: c.snk).filter (· ≠ q.port) } : Cell)
            else c).src = c.src := by split <;> rfl
        rw [this]
        constructor
        · intro hu; exact ⟨u, hu, if_neg (show ¬ u = q.port from fun e => hnp (e ▸ hu))⟩
        · rintro ⟨w, hw, rfl⟩
          rw [if_neg (show ¬ w = q.port from fun e => hnp (e ▸ hw))]; exact hw
    rw [List.foldl_cons, fold_src qs (after c q) ?_ hp'.2 (fun a ha r hr => ho a (by simp [ha]) r (by simp [hr])) v]
    · constructor
      · rintro ⟨u, hu, he⟩
        obtain ⟨w, hw, rfl⟩ := (hsub u).1 hu
        refine ⟨w, hw, ?_⟩
        rw [alias]
        split
        · rename_i h; rw [if_pos h, alias_self ho] at he; exact he
        · rename_i h; rw [if_neg h] at he; exact he
      · rintro ⟨w, hw, he⟩
        refine ⟨_, (hsub _).2 ⟨w, hw, rfl⟩, ?_⟩
        rw [alias] at he
        split
        · rename_i h; rw [if_pos h] at he; rw [alias_self ho]; exact he
        · rename_i h; rw [if_neg h] at he; exact he
    · intro r hr hi hm
      obtain ⟨w, hw, he⟩ := (hsub _).1 hm
      split at he
      · exact ho q (by simp) r (by simp [hr]) he
      · exact hn r (by simp [hr]) hi (he ▸ hw)

/-- A port that is gone is registered nowhere. -/
theorem fold_gone : ∀ (qs : List Q) (c : Cell), (qs.map (·.port)).Nodup → (∀ a ∈ qs, ∀ r ∈ qs, a.other ≠ r.port) →
    (∀ q ∈ qs, OkFor q c) → ∀ q ∈ qs, q.port ∉ (qs.foldl after c).src ∧ q.port ∉ (qs.foldl after c).snk := by
  -- a port that is not registered stays so
  have stays : ∀ (v : Nat) (rs : List Q) (c : Cell), (∀ r ∈ rs, r.other ≠ v) → v ∉ c.src → v ∉ c.snk →
      v ∉ (rs.foldl after c).src ∧ v ∉ (rs.foldl after c).snk := by
    intro v rs
    induction rs with
    | nil => intro c _ h1 h2; exact ⟨h1, h2⟩
    | cons r rs ih =>
      intro c ho h1 h2
      rw [List.foldl_cons]
      have hr : v ≠ r.other := fun h => ho r (by simp) h.symm
      refine ih (after c r) (fun s hs => ho s (by simp [hs])) ?_ ?_
      · unfold after; split <;> split <;> simp [h1, hr]
      · unfold after; split <;> split <;> simp [h2, hr]
  intro qs
  induction qs with
  | nil => intro c _ _ _ q hq; cases hq
  | cons r qs ih =>
    intro c hp ho hok q hq
    simp only [List.map_cons, List.nodup_cons] at hp
    have hpne : ∀ s ∈ qs, s.port ≠ r.port := by
      intro s hs he
      apply hp.1
      have hm := List.mem_map_of_mem (f := fun x : Q => x.port) hs
      rw [he] at hm; exact hm
    rw [List.foldl_cons]
    rcases List.mem_cons.1 hq with rfl | hq
    · refine stays q.port qs (after c q) (fun s hs => ho s (by simp [hs]) q (by simp)) ?_ ?_
      · have := hok q (by simp)
        unfold OkFor at this
        unfold after
        cases hi : q.inp <;> simp only [hi, Bool.false_eq_true, if_true, if_false] at this ⊢
        · split
          · simp
          · assumption
        · split <;> exact this.1
      · have := hok q (by simp)
        unfold OkFor at this
        unfold after
        cases hi : q.inp <;> simp only [hi, Bool.false_eq_true, if_true, if_false] at this ⊢
        · split <;> exact this.1
        · split
          · simp
          · assumption
    · exact ih (after c r) hp.2 (fun a ha s hs => ho a (by simp [ha]) s (by simp [hs]))
        (fun s hs => okFor_after (hok s (by simp [hs])) (hpne s hs) (fun h => ho r (by simp) s (by simp [hs]) h.symm)) q hq

/-! ### From the design to the list of connections -/

theorem eq_single {l : List Nat} {j : Nat} (hn : l.Nodup) (hj : j ∈ l) (h : ∀ x ∈ l, x = j) : l = [j] := by
  match l, hn, hj, h with
  | [], _, hj, _ => cases hj
  | [a], _, _, h => rw [h a (by simp)]
  | a :: b :: l, hn, _, h =>
    have ha := h a (by simp)
    have hb := h b (by simp)
    simp [ha, hb] at hn

theorem getLink_some {p : Port} {cells : List Cell} {j : Nat} (h : getLink p cells = some j) :
    ∃ c, cells[j]? = some c ∧ isLink p c = true := by
  unfold getLink at h
  split at h
  · rename_i k hk
    cases h
    have : j ∈ (List.range cells.length).filter fun j => (cells[j]?.map (isLink p)).getD false := by rw [hk]; simp
    have h2 := (List.mem_filter.1 this).2
    cases hc : cells[j]? with
    | none => rw [hc] at h2; cases h2
    | some c => rw [hc] at h2; exact ⟨c, rfl, h2⟩
  · cases h

theorem getLink_of {p : Port} {cells : List Cell} {j : Nat} {c : Cell} (hj : cells[j]? = some c) (hl : isLink p c = true)
    (hu : ∀ (k : Nat) (c' : Cell), cells[k]? = some c' → isLink p c' = true → k = j) : getLink p cells = some j := by
  have hlt : j < cells.length := (List.getElem?_eq_some_iff.1 hj).1
  have : (List.range cells.length).filter (fun j => (cells[j]?.map (isLink p)).getD false) = [j] := by
    refine eq_single (List.nodup_range.sublist List.filter_sublist) ?_ ?_
    · rw [List.mem_filter]
      exact ⟨List.mem_range.2 hlt, by rw [hj]; exact hl⟩
    · intro x hx
      have h2 := (List.mem_filter.1 hx).2
      cases hc : cells[x]? with
      | none => rw [hc] at h2; cases h2
      | some c => rw [hc] at h2; exact hu x c hc h2
  unfold getLink
  rw [this]

theorem sourceOf_var {v u : Nat} : E.sourceOf v (.var u) = true ↔ v = u := by
  rw [E.sourceOf, beq_iff_eq]
  exact eq_comm

theorem isLink_iff {ps : List Port} {d : Dsn} (r : Ready ps d) {p : Port} (hp : p ∈ ps) {c : Cell} (hc : c ∈ d.cells) :
    isLink p c = true ↔ ∃ w, Connects p w c := by
  obtain ⟨hs, hn, -, -⟩ := r.reg c hc
  unfold isLink Connects
  cases hi : p.inp <;> simp only [Bool.false_eq_true, if_true, if_false, Bool.and_eq_true, decide_eq_true_eq]
  · constructor
    · rintro ⟨⟨hm, hr⟩, ht, ho⟩
      have hk : c.kind = .assign := by
        cases hk : c.kind with
        | assign => rfl
        | test => have := r.tests c hc hk; rw [ht] at this; cases this
      obtain ⟨w, hw⟩ := (r.whole p hp c hc hk ht ho).2 hi hr
      exact ⟨w, hk, ht, ho, .inr ⟨trivial, hw, hr⟩⟩
    · rintro ⟨w, hk, ht, ho, ⟨h, _⟩ | ⟨_, hl, hr⟩⟩
      · cases h
      · exact ⟨⟨(hn _).2 (.inl (by rw [hr, mentions_var])), hr⟩, ht, ho⟩
  · constructor
    · rintro ⟨⟨hm, hl⟩, ht, ho⟩
      have hk := ((hs _).1 hm).1
      obtain ⟨w, hw⟩ := (r.whole p hp c hc hk ht ho).1 hi hl
      exact ⟨w, hk, ht, ho, .inl ⟨trivial, hl, hw⟩⟩
    · rintro ⟨w, hk, ht, ho, ⟨_, hl, hr⟩ | ⟨h, _⟩⟩
      · exact ⟨⟨(hs _).2 ⟨hk, by rw [hl, sourceOf_var]⟩, hl⟩, ht, ho⟩
      · cases h

/-- The partner of a port in a statement. -/
def partner (p : Port) (cells : List Cell) (j : Nat) : Nat :=
  match cells[j]? with
  | none => 0
  | some c => match if p.inp then c.right else c.left with
    | .var w => w
    | _ => 0

def conns (ps : List Port) (cells : List Cell) : List Q :=
  ps.filterMap fun p => (getLink p cells).map fun j => ⟨p.inp, j, p.var, partner p cells j⟩

theorem conns_infos (ps : List Port) (cells : List Cell) :
    (ps.filterMap fun p => (getLink p cells).map fun j => (p.inp, j)) = (conns ps cells).map fun q => (q.inp, q.id) := by
  unfold conns
  rw [List.map_filterMap]
  congr 1
  funext p
  cases getLink p cells <;> rfl

theorem conns_ports_sub (cells : List Cell) : ∀ ps : List Port, ((conns ps cells).map (·.port)).Sublist (ps.map (·.var))
  | [] => List.Sublist.slnil
  | p :: ps => by
    have ih := conns_ports_sub cells ps
    unfold conns at ih ⊢
    cases h : getLink p cells with
    | none =>
      rw [List.filterMap_cons_none (by rw [h]; rfl), List.map_cons]
      exact ih.cons _
    | some j =>
      rw [List.filterMap_cons_some (b := ⟨p.inp, j, p.var, partner p cells j⟩) (by rw [h]; rfl), List.map_cons, List.map_cons]
      exact ih.cons_cons _

theorem mem_conns {ps : List Port} {d : Dsn} (r : Ready ps d) {q : Q} : q ∈ conns ps d.cells ↔
    ∃ p ∈ ps, ∃ c, d.cells[q.id]? = some c ∧ Connects p q.other c ∧ q.inp = p.inp ∧ q.port = p.var := by
  unfold conns
  rw [List.mem_filterMap]
  constructor
  · rintro ⟨p, hp, h⟩
    cases hg : getLink p d.cells with
    | none => rw [hg] at h; cases h
    | some j =>
      rw [hg] at h
      cases h
      obtain ⟨c, hc, hl⟩ := getLink_some hg
      obtain ⟨w, hw⟩ := (isLink_iff r hp (List.mem_of_getElem? hc)).1 hl
      refine ⟨p, hp, c, hc, ?_, rfl, rfl⟩
      have : partner p d.cells j = w := by
        unfold partner
        rw [hc]
        obtain ⟨_, _, _, ⟨hi, hll, hr⟩ | ⟨hi, hll, hr⟩⟩ := hw <;> simp [hi, hll, hr]
      show Connects p (partner p d.cells j) c
      rw [this]
      exact hw
  · rintro ⟨p, hp, c, hc, hw, hi, hpt⟩
    refine ⟨p, hp, ?_⟩
    have hl := (isLink_iff r hp (List.mem_of_getElem? hc)).2 ⟨_, hw⟩
    rw [getLink_of hc hl, Option.map_some, Option.some.injEq]
    · have : partner p d.cells q.id = q.other := by
        unfold partner
        rw [hc]
        obtain ⟨_, _, _, ⟨hi, hll, hr⟩ | ⟨hi, hll, hr⟩⟩ := hw <;> simp [hi, hll, hr]
      rw [this, ← hi, ← hpt]
    · intro k c' hk hl'
      obtain ⟨w', hw'⟩ := (isLink_iff r hp (List.mem_of_getElem? hk)).1 hl'
      exact r.once p hp _ _ _ _ _ _ hk hc hw' hw

theorem port_eq {ps : List Port} (hn : (ps.map (·.var)).Nodup) {p q : Port} (hp : p ∈ ps) (hq : q ∈ ps) (h : p.var = q.var) :
    p = q := by
  induction ps with
  | nil => cases hp
  | cons a ps ih =>
    simp only [List.map_cons, List.nodup_cons] at hn
    have hm : ∀ x ∈ ps, x.var ≠ a.var := by
      intro x hx he
      apply hn.1
      have := List.mem_map_of_mem (f := fun x : Port => x.var) hx
      rw [he] at this; exact this
    rcases List.mem_cons.1 hp with e | hp' <;> rcases List.mem_cons.1 hq with e' | hq'
    · rw [e, e']
    · rw [e] at h; exact absurd h.symm (hm q hq')
    · rw [e'] at h; exact absurd h (hm p hp')
    · exact ih hn.2 hp' hq'

/-- A statement connects one port. -/
theorem connects_one {ps : List Port} {d : Dsn} (r : Ready ps d) {p p' : Port} (hp : p ∈ ps) (hp' : p' ∈ ps) {w w' : Nat}
    {c : Cell} (hc : c ∈ d.cells) (h : Connects p w c) (h' : Connects p' w' c) : p = p' ∧ w = w' := by
  have o := r.outer p hp w c hc h
  have o' := r.outer p' hp' w' c hc h'
  obtain ⟨_, _, _, ⟨hi, hl, hr⟩ | ⟨hi, hl, hr⟩⟩ := h <;> obtain ⟨_, _, _, ⟨hi', hl', hr'⟩ | ⟨hi', hl', hr'⟩⟩ := h'
  · rw [hl] at hl'; rw [hr] at hr'
    simp only [E.var.injEq] at hl' hr'
    exact ⟨port_eq r.ports hp hp' hl', hr'⟩
  · rw [hr] at hr'
    simp only [E.var.injEq] at hr'
    exact absurd hr'.symm (o p' hp')
  · rw [hr] at hr'
    simp only [E.var.injEq] at hr'
    exact absurd hr' (o' p hp)
  · rw [hl] at hl'; rw [hr] at hr'
    simp only [E.var.injEq] at hl' hr'
    exact ⟨port_eq r.ports hp hp' hr', hl'⟩

/-- A connection is in the list. -/
theorem conns_id {ps : List Port} {d : Dsn} (r : Ready ps d) {p : Port} (hp : p ∈ ps) {w j : Nat} {c : Cell}
    (hc : d.cells[j]? = some c) (h : Connects p w c) : (⟨p.inp, j, p.var, w⟩ : Q) ∈ conns ps d.cells :=
  (mem_conns r).2 ⟨p, hp, c, hc, h, rfl, rfl⟩

theorem conns_wf {ps : List Port} {d : Dsn} (r : Ready ps d) (pl : Plain ps d) : WF (conns ps d.cells) d.cells := by
  have hports : ((conns ps d.cells).map (·.port)).Nodup := (conns_ports_sub d.cells ps).nodup r.ports
  refine ⟨hports, ?_, ?_, ?_, ?_⟩
  · rw [List.nodup_iff_pairwise_ne, List.pairwise_map] at hports ⊢
    refine List.Pairwise.imp_of_mem ?_ hports
    intro a b ha hb hne he
    obtain ⟨p, hp, c, hc, h, _, h1⟩ := (mem_conns r).1 ha
    obtain ⟨p', hp', c', hc', h', _, h1'⟩ := (mem_conns r).1 hb
    rw [he, hc'] at hc
    cases hc
    have := (connects_one r hp hp' (List.mem_of_getElem? hc') h h').1
    exact hne (by rw [h1, h1', this])
  · intro a ha b hb he
    obtain ⟨p, hp, c, hc, h, _, h1⟩ := (mem_conns r).1 ha
    obtain ⟨p', hp', c', hc', h', _, h1'⟩ := (mem_conns r).1 hb
    exact r.outer p hp _ c (List.mem_of_getElem? hc) h p' hp' (by rw [he, h1'])
  · intro q hq
    obtain ⟨p, hp, c, hc, h, hi, hpt⟩ := (mem_conns r).1 hq
    refine ⟨c, hc, h.1, ?_⟩
    obtain ⟨hs, hn, -, -⟩ := r.reg c (List.mem_of_getElem? hc)
    obtain ⟨hk, _, _, ⟨hpi, hl, hr⟩ | ⟨hpi, hl, hr⟩⟩ := h
    · rw [hi, hpi, if_pos rfl, hpt]
      refine ⟨hl, hr, fun v => ?_, fun v => ?_⟩
      · rw [hs, hl, sourceOf_var]; simp [hk]
      · rw [hn, hl, hr, mentions_var]
        have : (E.var p.var).indexSink v = false := rfl
        simp [this, eq_comm]
    · rw [hi, hpi, if_neg (by simp), hpt]
      refine ⟨hl, hr, fun v => ?_, fun v => ?_⟩
      · rw [hs, hl, sourceOf_var]; simp [hk]
      · rw [hn, hl, hr, mentions_var]
        have : (E.var q.other).indexSink v = false := rfl
        simp [this, eq_comm]
  · intro j c hj hnc q hq
    have hc := List.mem_of_getElem? hj
    obtain ⟨p, hp, c0, hc0, h0, hi, hpt⟩ := (mem_conns r).1 hq
    obtain ⟨hs, hn, -, -⟩ := r.reg c hc
    have hnot : ∀ w, ¬ Connects p w c := fun w hw => hnc _ (conns_id r hp hj hw) rfl
    unfold OkFor
    rw [hi, hpt]
    cases hpi : p.inp <;> simp only [Bool.false_eq_true, if_true, if_false]
    · refine ⟨fun hm => ?_, fun hm => ?_⟩
      · rcases (hn _).1 hm with h | ⟨_, h⟩
        · obtain ⟨w, hw⟩ := pl.outputs p hp hpi ⟨_, c0, List.mem_of_getElem? hc0, h0⟩ c hc h
          exact hnot w hw
        · rw [pl.noIndex p hp c hc] at h; cases h
      · have h := Decouple.sourceOf_mentions _ ((hs _).1 hm).2
        exact ⟨(pl.left p hp c hc h).2.1, h⟩
    · refine ⟨fun hm => ?_, fun hm => ?_⟩
      · have h := Decouple.sourceOf_mentions _ ((hs _).1 hm).2
        obtain ⟨w, hw⟩ := pl.inputs p hp hpi c hc h
        exact hnot w hw
      · rcases (hn _).1 hm with h | ⟨_, h⟩
        · exact ⟨(pl.right p hp c hc h).2.1, h⟩
        · rw [pl.noIndex p hp c hc] at h; cases h

theorem conns_tidy {ps : List Port} {d : Dsn} (r : Ready ps d) (pl : Plain ps d) {j : Nat} {c : Cell}
    (hj : d.cells[j]? = some c) (hnc : ∀ p ∈ ps, ∀ w, ¬ Connects p w c) : Tidy (conns ps d.cells) c := by
  have hc := List.mem_of_getElem? hj
  obtain ⟨hs, hn, -, -⟩ := r.reg c hc
  refine ⟨fun q hq hqi => ?_, fun q hq hqi => ?_, fun q hq hqi hm => ?_, fun q hq hqi hm => ?_⟩ <;>
    obtain ⟨p, hp, c0, hc0, h0, hi, hpt⟩ := (mem_conns r).1 hq
  · rw [hpt, hn, pl.noIndex p hp c hc]; simp
  · rw [hpt, hs]
    constructor
    · exact fun h => Decouple.sourceOf_mentions _ h.2
    · exact fun h => (pl.left p hp c hc h).2.2
  · rw [hpt] at hm
    obtain ⟨w, hw⟩ := pl.inputs p hp (by rw [← hi]; exact hqi) c hc hm
    exact hnc p hp w hw
  · rw [hpt] at hm
    obtain ⟨w, hw⟩ := pl.outputs p hp (by rw [← hi]; exact hqi) ⟨_, c0, List.mem_of_getElem? hc0, h0⟩ c hc hm
    exact hnc p hp w hw

theorem lookup_alias : ∀ (qs : List Q) (v : Nat), (lookup (qs.map fun q => (q.port, q.other)) v).getD v = alias qs v
  | [], _ => rfl
  | q :: qs, v => by
    have ih := lookup_alias qs v
    unfold lookup at ih ⊢
    rw [List.map_cons, List.find?_cons, alias]
    by_cases h : q.port = v
    · simp [h]
    · rw [if_neg (fun h' => h h'.symm)]
      simp only [h, decide_false]
      exact ih

theorem removeAll_ok (cells : List Cell) : ∀ (vs seen vars : List Nat), vs.Nodup → (∀ v ∈ vs, v ∉ seen) → (∀ v ∈ vs, v ∈ vars) →
    (∀ v ∈ vs, ∀ c ∈ cells, v ∉ c.src ∧ v ∉ c.snk) →
    ∃ vars', removeAll cells seen vs vars = .ok vars' ∧ ∀ v, v ∈ vars' ↔ v ∈ vars ∧ v ∉ vs
  | [], _, vars, _, _, _, _ => ⟨vars, rfl, by simp⟩
  | v :: vs, seen, vars, hn, hs, hv, hr => by
    rw [List.nodup_cons] at hn
    have h1 : removeVar cells vars v = .ok (vars.filter (· ≠ v)) := by
      unfold removeVar
      rw [if_neg (by simpa using hv v (by simp)), if_neg, if_neg]
      · simp only [List.any_eq_true, decide_eq_true_eq, not_exists, not_and]
        exact fun c hc => (hr v (by simp) c hc).2
      · simp only [List.any_eq_true, decide_eq_true_eq, not_exists, not_and]
        exact fun c hc => (hr v (by simp) c hc).1
    obtain ⟨vars', h2, h3⟩ := removeAll_ok cells vs (v :: seen) (vars.filter (· ≠ v)) hn.2
      (fun u hu h => by
        rcases List.mem_cons.1 h with rfl | h
        · exact hn.1 hu
        · exact hs u (by simp [hu]) h)
      (fun u hu => by
        rw [List.mem_filter]
        exact ⟨hv u (by simp [hu]), by simpa using (show ¬ u = v from fun h => hn.1 (h ▸ hu))⟩)
      (fun u hu => hr u (by simp [hu]))
    refine ⟨vars', ?_, ?_⟩
    · rw [removeAll, if_neg (hs v (by simp)), h1, Res.ok_bind, h2]
    · intro u
      rw [h3, List.mem_filter, List.mem_cons]
      simp only [decide_eq_true_eq, not_or]
      exact ⟨fun ⟨⟨a, b⟩, c⟩ => ⟨a, b, c⟩, fun ⟨a, b, c⟩ => ⟨⟨a, b⟩, c⟩⟩

theorem filter_two {α : Type} {p : α → Bool} : ∀ {l : List α} {i j : Nat} {a b : α}, i < j → l[i]? = some a → l[j]? = some b →
    p a = true → p b = true → ∀ c, l.filter p ≠ [c]
  | [], _, _, _, _, _, h, _, _, _, _ => by simp at h
  | x :: l, 0, 0, _, _, h, _, _, _, _, _ => absurd h (by omega)
  | x :: l, 0, j + 1, a, b, _, hi, hj, ha, hb, c => by
    simp only [List.getElem?_cons_zero, Option.some.injEq, List.getElem?_cons_succ] at hi hj
    subst hi
    rw [List.filter_cons_of_pos ha]
    intro he
    simp only [List.cons.injEq] at he
    have : b ∈ l.filter p := List.mem_filter.2 ⟨List.mem_of_getElem? hj, hb⟩
    rw [he.2] at this
    cases this
  | x :: l, i + 1, 0, _, _, h, _, _, _, _, _ => absurd h (by omega)
  | x :: l, i + 1, j + 1, a, b, h, hi, hj, ha, hb, c => by
    simp only [List.getElem?_cons_succ] at hi hj
    have ih := filter_two (p := p) (l := l) (Nat.lt_of_succ_lt_succ h) hi hj ha hb
    by_cases hx : p x = true
    · rw [List.filter_cons_of_pos hx]
      intro he
      simp only [List.cons.injEq] at he
      have : b ∈ l.filter p := List.mem_filter.2 ⟨List.mem_of_getElem? hj, hb⟩
      rw [he.2] at this
      cases this
    · rw [List.filter_cons_of_neg hx]; exact ih c

theorem filter_two' {α : Type} {p : α → Bool} {l : List α} {i j : Nat} {a b : α} (h : i ≠ j) (hi : l[i]? = some a)
    (hj : l[j]? = some b) (ha : p a = true) (hb : p b = true) (c : α) : l.filter p ≠ [c] := by
  rcases Nat.lt_or_gt_of_ne h with h | h
  · exact filter_two h hi hj ha hb c
  · exact filter_two h hj hi hb ha c

theorem resolve_eq_var {f : Nat → Nat} {e : E} {v : Nat} (h : resolve f e = .var v) : ∃ u, e = .var u ∧ f u = v := by
  cases e with
  | var u => exact ⟨u, rfl, by simpa [resolve] using h⟩
  | _ => simp [resolve] at h

theorem resolve_isExpr (f : Nat → Nat) (e : E) : (resolve f e).isExpr = e.isExpr := by cases e <;> rfl

theorem renameTest_assign {m : List (Nat × Nat)} {c : Cell} (h : c.kind = .assign) : renameTest m c = c := by
  unfold renameTest
  rw [h]

theorem renameTest_src (m : List (Nat × Nat)) (c : Cell) : (renameTest m c).src = c.src ∧ (renameTest m c).live = c.live ∧
    (renameTest m c).kind = c.kind ∧ (renameTest m c).top = c.top ∧ (renameTest m c).left = c.left := by
  unfold renameTest
  split
  · split <;> exact ⟨rfl, rfl, rfl, rfl, rfl⟩
  · exact ⟨rfl, rfl, rfl, rfl, rfl⟩

theorem renameTest_other {m : List (Nat × Nat)} {c : Cell} (h : ∀ v, c.shown ≠ .var v) : renameTest m c = c := by
  unfold renameTest
  split
  · rename_i heq; exact absurd heq (h _)
  · rfl

theorem renameTest_var {m : List (Nat × Nat)} {c : Cell} {v : Nat} (hk : c.kind = .test) (h : c.shown = .var v) :
    renameTest m c = match lookup m v with
      | some w => { c with shown := .var w, right := .var w, snk := [w] }
      | none => c := by
  unfold renameTest
  simp only [hk, h]

theorem collapses_id : ∀ (vs : List Nat) (s : List Cell × List Nat), (∀ v ∈ vs, collapse v s = .ok s) → collapses vs s = .ok s
  | [], _, _ => rfl
  | v :: vs, s, h => by
    rw [collapses, h v (by simp), Res.ok_bind]
    exact collapses_id vs s fun u hu => h u (by simp [hu])

theorem not_connected {ps : List Port} {d : Dsn} (r : Ready ps d) {j : Nat} {c : Cell} (hj : d.cells[j]? = some c) :
    (∀ p ∈ ps, ∀ w, ¬ Connects p w c) ↔ (∀ q ∈ conns ps d.cells, q.id ≠ j) := by
  constructor
  · intro h q hq he
    obtain ⟨p, hp, c0, hc0, h0, _, _⟩ := (mem_conns r).1 hq
    rw [he, hj] at hc0
    cases hc0
    exact h p hp _ h0
  · intro h p hp w hw
    exact h _ (conns_id r hp hj hw) rfl

theorem final_other {qs : List Q} {j : Nat} (h : ∀ q ∈ qs, q.id ≠ j) (c : Cell) : final qs j c = qs.foldl after c := by
  have : qs.find? (fun q => decide (q.id = j)) = none := by
    rw [List.find?_eq_none]
    intro q hq
    simpa using h q hq
  simp only [final, this]

theorem final_conn {qs : List Q} (hn : (qs.map (·.id)).Nodup) {q : Q} (hq : q ∈ qs) (c : Cell) : final qs q.id c = dead q c := by
  have : qs.find? (fun r => decide (r.id = q.id)) = some q := by
    induction qs with
    | nil => cases hq
    | cons a qs ih =>
      simp only [List.map_cons, List.nodup_cons] at hn
      rw [List.find?_cons]
      rcases List.mem_cons.1 hq with rfl | hq
      · simp
      · have : a.id ≠ q.id := by
          intro he
          apply hn.1
          have hm := List.mem_map_of_mem (f := fun x : Q => x.id) hq
          rw [he]; exact hm
        simp only [this, decide_false]
        exact ih hn.2 hq
  simp only [final, this]

theorem whole_transfer {ps : List Port} {d : Dsn} (r : Ready ps d) (pl : Plain ps d) : transfer ps d.cells = .ok () := by
  unfold transfer
  rw [mapRes_map (g := fun _ => ()) ps]
  · rfl
  · intro p hp
    rw [mapRes_map (g := fun _ => ()) d.cells]
    · rfl
    · intro c hc
      obtain ⟨hs, hn, -, -⟩ := r.reg c hc
      unfold transferCell
      have h1 : (if p.var ∈ c.snk then transferSide p.var c.right else .ok ()) = .ok () := by
        split
        · rename_i hm
          rcases (hn _).1 hm with h | ⟨_, h⟩
          · exact whole_side h (pl.right p hp c hc h).1
          · rw [pl.noIndex p hp c hc] at h; cases h
        · rfl
      rw [h1, Res.ok_bind]
      split
      · rename_i hm
        have h := Decouple.sourceOf_mentions _ ((hs _).1 hm).2
        exact whole_side h (pl.left p hp c hc h).1
      · rfl

/-- What a statement that connects nothing looks like after the first loop and the renaming. -/
theorem renamed {ps : List Port} {d : Dsn} (r : Ready ps d) (pl : Plain ps d) {j : Nat} {c : Cell}
    (hj : d.cells[j]? = some c) (hnc : ∀ p ∈ ps, ∀ w, ¬ Connects p w c) :
    let qs := conns ps d.cells
    let c' := renameTest (qs.map fun q => (q.port, q.other)) (qs.foldl after c)
    c'.live = c.live ∧ c'.kind = c.kind ∧ c'.top = c.top ∧ c'.left = resolve (alias qs) c.left ∧
      c'.right = resolve (alias qs) c.right ∧ c'.shown = resolve (alias qs) c.shown ∧
      (∀ q ∈ qs, q.port ∉ c'.src ∧ q.port ∉ c'.snk) ∧ (∀ v, v ∈ c'.src ↔ ∃ u ∈ c.src, alias qs u = v) := by
  intro qs c'
  have hc := List.mem_of_getElem? hj
  have wf := conns_wf r pl
  have td := conns_tidy r pl hj hnc
  obtain ⟨hs, hn, hlv, hsh⟩ := r.reg c hc
  obtain ⟨hfl, hfk, hft⟩ := fold_fields qs c
  obtain ⟨hle, hri⟩ := fold_left qs c wf.ports wf.outer td
  have hok := wf.rest j c hj ((not_connected r hj).1 hnc)
  have hgone := fold_gone qs c wf.ports wf.outer hok
  have hsrc := fold_src qs c (fun q hq hi => by have := hok q hq; simp only [OkFor, hi, if_true] at this; exact this.1)
    wf.ports wf.outer
  obtain ⟨rs, rl, rk, rt, rle⟩ := renameTest_src (qs.map fun q => (q.port, q.other)) (qs.foldl after c)
  have base : c'.live = c.live ∧ c'.kind = c.kind ∧ c'.top = c.top ∧ c'.left = resolve (alias qs) c.left :=
    ⟨rl.trans hfl, rk.trans hfk, rt.trans hft, rle.trans hle⟩
  have hsrc' : ∀ v, v ∈ c'.src ↔ ∃ u ∈ c.src, alias qs u = v := fun v => by rw [rs]; exact hsrc v
  refine ⟨base.1, base.2.1, base.2.2.1, base.2.2.2, ?_⟩
  -- nothing to rename
  have same : renameTest (qs.map fun q => (q.port, q.other)) (qs.foldl after c) = qs.foldl after c →
      (qs.foldl after c).shown = resolve (alias qs) c.shown →
      c'.right = resolve (alias qs) c.right ∧ c'.shown = resolve (alias qs) c.shown ∧
      (∀ q ∈ qs, q.port ∉ c'.src ∧ q.port ∉ c'.snk) ∧ (∀ v, v ∈ c'.src ↔ ∃ u ∈ c.src, alias qs u = v) := by
    intro he h
    refine ⟨?_, ?_, ?_, hsrc'⟩
    · show (renameTest _ _).right = _; rw [he]; exact hri
    · show (renameTest _ _).shown = _; rw [he]; exact h
    · show ∀ q ∈ qs, q.port ∉ (renameTest _ _).src ∧ q.port ∉ (renameTest _ _).snk; rw [he]; exact hgone
  cases hk : c.kind with
  | assign =>
    refine same (renameTest_assign (hfk.trans hk)) ?_
    rw [fold_shown qs c wf.ports wf.outer td (.inl hk) hsh, hri, hsh]
  | test =>
    cases hx : c.right.isExpr with
    | true =>
      have h := fold_shown qs c wf.ports wf.outer td (.inr hx) hsh
      refine same (renameTest_other fun v hv => ?_) (by rw [h, hri, hsh])
      rw [h, hri] at hv
      have := resolve_isExpr (alias qs) c.right
      rw [hv, hx] at this
      cases this
    | false =>
      have h := fold_shown_test qs c hk hx wf.ports wf.outer td
      by_cases hv : ∃ v, c.right = .var v
      · obtain ⟨v, hv⟩ := hv
        have hcv := renameTest_var (m := qs.map fun q => (q.port, q.other)) (hfk.trans hk) (h.trans (hsh.trans hv))
        have hal := lookup_alias qs v
        cases hlk : lookup (qs.map fun q => (q.port, q.other)) v with
        | none =>
          rw [hlk] at hcv hal
          refine same hcv ?_
          rw [h, hsh, hv]
          simp only [Option.getD_none] at hal
          rw [resolve, ← hal]
        | some w =>
          rw [hlk] at hcv hal
          simp only [Option.getD_some] at hal
          refine ⟨?_, ?_, ?_, hsrc'⟩
          · show (renameTest _ _).right = _; rw [hcv, hv, resolve, ← hal]
          · show (renameTest _ _).shown = _; rw [hcv, hsh, hv, resolve, ← hal]
          · intro q hq
            refine ⟨?_, ?_⟩
            · show q.port ∉ (renameTest _ _).src; rw [rs]; exact (hgone q hq).1
            · show q.port ∉ (renameTest _ _).snk
              rw [hcv]
              simp only [List.mem_singleton]
              intro he
              unfold lookup at hlk
              simp only [Option.map_eq_some_iff] at hlk
              obtain ⟨e, he1, he2⟩ := hlk
              obtain ⟨q', hq', rfl⟩ := List.mem_map.1 (List.mem_of_find?_eq_some he1)
              exact wf.outer q' hq' q hq (he2.trans he.symm)
      · have hv' : ∀ v, c.right ≠ .var v := fun v h' => hv ⟨v, h'⟩
        refine same (renameTest_other fun v => by rw [h, hsh]; exact hv' v) ?_
        rw [h, hsh, resolve_self]
        intro v hm
        refine alias_other fun q hq he => ?_
        obtain ⟨p, hp, _, _, _, _, hpt⟩ := (mem_conns r).1 hq
        rw [he, hpt] at hm
        rcases (pl.right p hp c hc hm).2.2 hk with h | h
        · rw [hx] at h; cases h
        · exact hv' _ h

/-! ## Theorems -/

/-- C95 (partial): with the conditions of `Plain` the design is the old one with the connections
substituted. -/
theorem inline_partial {ps : List Port} {d : Dsn} (r : Ready ps d) (pl : Plain ps d) :
    ∃ d', inline ps d = .ok d' ∧ Inlined ps d d' := by
  have wf := conns_wf r pl
  obtain ⟨cs, hlinks, hlen, hcs⟩ := links_ok (conns ps d.cells) d.cells wf
  generalize hqs : conns ps d.cells = qs at *
  -- the statements before the last loop
  generalize hm : (qs.map fun q => (q.port, q.other)) = m at *
  have hcell : ∀ (j : Nat) (c : Cell), d.cells[j]? = some c → (cs.map (renameTest m))[j]? = some (renameTest m (final qs j c)) := by
    intro j c hj
    rw [List.getElem?_map, hcs j c hj]; rfl
  have hback : ∀ (j : Nat) (c' : Cell), (cs.map (renameTest m))[j]? = some c' →
      ∃ c, d.cells[j]? = some c ∧ c' = renameTest m (final qs j c) := by
    intro j c' hj
    have hlt : j < d.cells.length := by
      have := (List.getElem?_eq_some_iff.1 hj).1
      rw [List.length_map, hlen] at this; exact this
    have hg : d.cells[j]? = some d.cells[j] := List.getElem?_eq_getElem hlt
    refine ⟨_, hg, ?_⟩
    have := hcell j _ hg
    rw [hj, Option.some.injEq] at this
    exact this
  have hconn : ∀ q ∈ qs, ∃ c, d.cells[q.id]? = some c ∧ IsConn q c ∧ (cs.map (renameTest m))[q.id]? = some (dead q c) := by
    intro q hq
    obtain ⟨c, hc, hco⟩ := wf.conn q hq
    refine ⟨c, hc, hco, ?_⟩
    rw [hcell _ c hc, final_conn wf.ids hq, renameTest_assign]
    unfold dead
    split <;> exact hco.1
  have hrest : ∀ (j : Nat) (c : Cell), d.cells[j]? = some c → (∀ p ∈ ps, ∀ w, ¬ Connects p w c) →
      ∃ c', (cs.map (renameTest m))[j]? = some c' ∧ c'.live = c.live ∧ c'.kind = c.kind ∧ c'.top = c.top ∧
        c'.left = resolve (alias qs) c.left ∧
        c'.right = resolve (alias qs) c.right ∧ c'.shown = resolve (alias qs) c.shown ∧
        (∀ q ∈ qs, q.port ∉ c'.src ∧ q.port ∉ c'.snk) ∧ (∀ v, v ∈ c'.src ↔ ∃ u ∈ c.src, alias qs u = v) := by
    intro j c hj hnc
    have h1 := hcell j c hj
    have h2 : ∀ q ∈ qs, q.id ≠ j := by
      have := (not_connected r hj).1 hnc
      rw [hqs] at this; exact this
    rw [final_other h2] at h1
    have h3 := renamed r pl hj hnc
    simp only [hqs, hm] at h3
    exact ⟨_, h1, h3⟩
  -- no statement is registered with a port any more
  have hgone : ∀ v ∈ m.map (·.1), ∀ c' ∈ cs.map (renameTest m), v ∉ c'.src ∧ v ∉ c'.snk := by
    intro v hv c' hc'
    rw [← hm, List.map_map] at hv
    obtain ⟨q, hq, rfl⟩ := List.mem_map.1 hv
    simp only [Function.comp]
    obtain ⟨j, hj⟩ := List.getElem?_of_mem hc'
    obtain ⟨c, hc, -⟩ := hback j c' hj
    by_cases hx : ∃ q' ∈ qs, q'.id = j
    · obtain ⟨q', hq', rfl⟩ := hx
      obtain ⟨c0, hc0, hco, hd⟩ := hconn q' hq'
      rw [hj, Option.some.injEq] at hd
      subst hd
      have ho := wf.outer q' hq' q hq
      obtain ⟨_, hco⟩ := hco
      unfold dead
      cases hi : q'.inp <;> simp only [hi, Bool.false_eq_true, if_true, if_false] at hco ⊢ <;> obtain ⟨_, _, hs, hn⟩ := hco
      · refine ⟨fun h => ho ((hs _).1 h).symm, fun h => ?_⟩
        rw [List.mem_filter, hn] at h
        simp [h.1] at h
      · refine ⟨fun h => ?_, fun h => ho ((hn _).1 h).symm⟩
        rw [List.mem_filter, hs] at h
        simp [h.1] at h
    · have hnc : ∀ p ∈ ps, ∀ w, ¬ Connects p w c := (not_connected r hc).2 (by
        rw [hqs]; exact fun q' hq' he => hx ⟨q', hq', he⟩)
      obtain ⟨c'', h1, _, _, _, _, _, _, h2, _⟩ := hrest j c hc hnc
      rw [hj, Option.some.injEq] at h1
      subst h1
      exact h2 q hq
  have hpv : ∀ v, v ∈ m.map (·.1) ↔ ∃ p ∈ ps, p.var = v ∧ ∃ w, ∃ c ∈ d.cells, Connects p w c := by
    intro v
    rw [← hm, List.map_map]
    constructor
    · intro hv
      obtain ⟨q, hq, rfl⟩ := List.mem_map.1 hv
      rw [← hqs] at hq
      obtain ⟨p, hp, c, hc, h, _, hpt⟩ := (mem_conns r).1 hq
      exact ⟨p, hp, hpt.symm, _, c, List.mem_of_getElem? hc, h⟩
    · rintro ⟨p, hp, rfl, w, c, hc, h⟩
      obtain ⟨j, hj⟩ := List.getElem?_of_mem hc
      have hq := conns_id r hp hj h
      rw [hqs] at hq
      exact List.mem_map.2 ⟨_, hq, rfl⟩
  have hkeys : m.map (·.1) = qs.map (·.port) := by rw [← hm, List.map_map]; rfl
  obtain ⟨vars', hrem, hvars⟩ := removeAll_ok (cs.map (renameTest m)) (m.map (·.1)) [] d.vars
    (by rw [hkeys]; exact wf.ports) (by simp)
    (fun v hv => by
      obtain ⟨p, hp, rfl, _⟩ := (hpv v).1 hv
      exact r.decl p hp) hgone
  -- an output has two statements registered
  have hout : ∀ q ∈ qs, q.inp = false → ∀ c0, (cs.map (renameTest m)).filter (fun c => decide (q.other ∈ c.src)) ≠ [c0] := by
    intro q hq hi c0
    obtain ⟨c1, hc1, hco, hd⟩ := hconn q hq
    have hq' := hq
    rw [← hqs] at hq'
    obtain ⟨p, hp, c2, hc2, hcon, hpi, hpt⟩ := (mem_conns r).1 hq'
    rw [hc1] at hc2
    cases hc2
    have hpi' : p.inp = false := by rw [← hpi]; exact hi
    obtain ⟨e, he, hme⟩ := pl.driven p hp hpi' ⟨_, c1, List.mem_of_getElem? hc1, hcon⟩
    obtain ⟨_, _, hek, hes⟩ := pl.left p hp e he hme
    obtain ⟨k, hk⟩ := List.getElem?_of_mem he
    -- it connects nothing
    have henc : ∀ p' ∈ ps, ∀ w, ¬ Connects p' w e := by
      intro p' hp' w hw
      have ho := r.outer p' hp' w e he hw p hp
      obtain ⟨_, _, _, ⟨hi', hl, hr⟩ | ⟨hi', hl, hr⟩⟩ := hw
      · rw [hl, mentions_var] at hme
        have := port_eq r.ports hp' hp hme
        rw [this, hpi'] at hi'
        cases hi'
      · rw [hl, mentions_var] at hme
        exact ho hme.symm
    obtain ⟨e', he', _, _, _, _, _, _, _, hsrc⟩ := hrest k e hk henc
    have hmem : q.other ∈ e'.src := by
      rw [hsrc]
      refine ⟨p.var, ((r.reg e he).1 _).2 ⟨hek, hes⟩, ?_⟩
      rw [← hpt]; exact alias_port wf.ports q hq
    refine filter_two' (i := q.id) (j := k) ?_ hd he' ?_ (by simpa using hmem) c0
    · intro hkq
      rw [← hkq, hc1] at hk
      cases hk
      exact henc p hp _ hcon
    · obtain ⟨_, hco⟩ := hco
      simp only [hi, Bool.false_eq_true, if_false] at hco
      simp only [dead, hi, Bool.false_eq_true, if_false, decide_eq_true_eq]
      exact (hco.2.2.1 _).2 rfl
  -- so that the last loop does nothing
  have hcol : ∀ v ∈ m.map (·.2), collapse v (cs.map (renameTest m), vars') = .ok (cs.map (renameTest m), vars') := by
    intro v hv
    rw [← hm, List.map_map] at hv
    obtain ⟨q, hq, rfl⟩ := List.mem_map.1 hv
    simp only [Function.comp]
    unfold collapse
    split
    · rename_i c' hf
      split
      · rename_i hleft
        split
        · rename_i x hright
          exfalso
          have hc' : c' ∈ (cs.map (renameTest m)).filter (fun c => decide (q.other ∈ c.src)) := by rw [hf]; simp
          obtain ⟨hc'm, hc's⟩ := List.mem_filter.1 hc'
          simp only [decide_eq_true_eq] at hc's
          have noOut : ∀ q' ∈ qs, q'.inp = false → q'.other ≠ q.other := by
            intro q' hq' hi' he
            exact hout q' hq' hi' c' (by rw [he]; exact hf)
          have hqi : q.inp = true := by
            cases hi : q.inp with
            | true => rfl
            | false => exact absurd rfl (noOut q hq hi)
          obtain ⟨j, hj⟩ := List.getElem?_of_mem hc'm
          obtain ⟨c, hc, -⟩ := hback j c' hj
          have hcm := List.mem_of_getElem? hc
          -- it connects nothing
          have hnc : ∀ p ∈ ps, ∀ w, ¬ Connects p w c := by
            intro p hp w hw
            have hq' := conns_id r hp hc hw
            rw [hqs] at hq'
            obtain ⟨c2, hc2, hco, hd⟩ := hconn _ hq'
            simp only at hc2 hd
            rw [hj, Option.some.injEq] at hd
            obtain ⟨_, hco⟩ := hco
            cases hpi : p.inp <;> simp only [hpi, Bool.false_eq_true, if_true, if_false] at hco
            · rw [hd] at hc's
              simp only [dead, hpi, Bool.false_eq_true, if_false] at hc's
              exact noOut _ hq' hpi ((hco.2.2.1 _).1 hc's).symm
            · rw [hd] at hc's
              simp only [dead, hpi, if_true, List.mem_filter] at hc's
              have := (hco.2.2.1 _).1 hc's.1
              exact wf.outer q hq _ hq' this
          obtain ⟨c'', h1, _, _, _, hl, hr, _, _, hsrc⟩ := hrest j c hc hnc
          rw [hj, Option.some.injEq] at h1
          subst h1
          rw [hleft] at hl
          rw [hright] at hr
          obtain ⟨u, hu, hfu⟩ := resolve_eq_var hl.symm
          obtain ⟨y, hy, -⟩ := resolve_eq_var hr.symm
          have hkind : c.kind = .assign := by
            obtain ⟨w, hw, _⟩ := (hsrc _).1 hc's
            exact (((r.reg c hcm).1 _).1 hw).1
          have huq : u = q.other := by
            by_cases hx : ∃ q' ∈ qs, u = q'.port
            · obtain ⟨q', hq', rfl⟩ := hx
              rw [alias_port wf.ports q' hq'] at hfu
              cases hi' : q'.inp with
              | false => exact absurd hfu (noOut q' hq' hi')
              | true =>
                rw [← hqs] at hq'
                have td := conns_tidy r pl hc hnc
                exact absurd (by rw [hu, mentions_var]) (td.left q' hq' hi')
            · rw [alias_other fun q' hq' he => hx ⟨q', hq', he⟩] at hfu
              exact hfu
          subst huq
          have hq' := hq
          rw [← hqs] at hq'
          obtain ⟨p, hp, c1, hc1, hcon, hpi, hpt⟩ := (mem_conns r).1 hq'
          have hex : ∃ (k : Nat) (e' : Cell), k ≠ j ∧ d.cells[k]? = some e' ∧ e'.kind = .assign ∧ E.sourceOf q.other e'.left = true := by
            cases ht : c.top with
            | true => exact r.feeds p hp (by rw [← hpi]; exact hqi) _ c1 (List.mem_of_getElem? hc1) hcon j y c hc hkind hu hy ht
            | false => exact pl.copies p hp (by rw [← hpi]; exact hqi) _ c1 (List.mem_of_getElem? hc1) hcon j y c hc hkind hu hy ht
          obtain ⟨k, e, hkj, hke, hek, hes⟩ := hex
          have hem := List.mem_of_getElem? hke
          have henc : ∀ p' ∈ ps, ∀ w, ¬ Connects p' w e := by
            intro p' hp' w hw
            have hq2 := conns_id r hp' hke hw
            rw [hqs] at hq2
            obtain ⟨_, _, _, ⟨hi', hl', hr'⟩ | ⟨hi', hl', hr'⟩⟩ := hw
            · rw [hl', sourceOf_var] at hes
              exact wf.outer q hq _ hq2 hes
            · rw [hl', sourceOf_var] at hes
              exact noOut _ hq2 hi' hes.symm
          obtain ⟨e', he', _, _, _, _, _, _, _, hsrc'⟩ := hrest k e hke henc
          refine filter_two' (p := fun c => decide (q.other ∈ c.src)) hkj he' hj ?_ (by simpa using hc's) c' hf
          simp only [decide_eq_true_eq]
          rw [hsrc']
          exact ⟨q.other, ((r.reg e hem).1 _).2 ⟨hek, hes⟩, alias_other fun q' hq' => wf.outer q hq q' hq'⟩
        · rfl
      · rfl
    · rfl
  refine ⟨⟨cs.map (renameTest m), d.events.map fun v => (lookup m v).getD v, vars'⟩, ?_, alias qs, ?_, ?_, ?_, ?_, ?_⟩
  · unfold inline
    simp only [whole_transfer r pl, Res.ok_bind, conns_infos, hqs, hlinks, hrem]
    rw [collapses_id _ _ hcol]; rfl
  · refine ⟨?_, ?_⟩
    · intro p hp w c hc h
      obtain ⟨j, hj⟩ := List.getElem?_of_mem hc
      have hq := conns_id r hp hj h
      rw [hqs] at hq
      exact alias_port wf.ports _ hq
    · intro v hv
      refine alias_other fun q hq he => hv ?_
      have : v ∈ m.map (·.1) := by rw [hkeys, he]; exact List.mem_map_of_mem (f := fun x : Q => x.port) hq
      exact (hpv v).1 this
  · simp [hlen]
  · intro j c c' hc hc'
    refine ⟨?_, ?_⟩
    · rintro ⟨p, hp, w, hw⟩
      have hq := conns_id r hp hc hw
      rw [hqs] at hq
      obtain ⟨c2, _, _, hd⟩ := hconn _ hq
      rw [show (cs.map (renameTest m))[j]? = some c' from hc'] at hd
      simp only [Option.some.injEq] at hd
      rw [hd]
      unfold dead
      split <;> rfl
    · intro hnc
      obtain ⟨c'', h1, h2, h3, h4, h5, h6, h7, _⟩ := hrest j c hc fun p hp w hw => hnc ⟨p, hp, w, hw⟩
      rw [show (cs.map (renameTest m))[j]? = some c' from hc'] at h1
      simp only [Option.some.injEq] at h1
      subst h1
      exact ⟨h2, h3, h4, h5, h6, h7⟩
  · refine List.map_congr_left fun v _ => ?_
    rw [← hm]; exact lookup_alias qs v
  · intro v
    rw [hvars, hpv]

/-- C95 (partial): the last loop, for a variable whose only driver is a copy that stands directly in the
generator: the copy and the variable are gone and everything else reads the original.  Tests of the
variable itself are excluded. -/
theorem collapse_partial {cells : List Cell} {vars : List Nat} {v x j : Nat} {c0 : Cell}
    (reg : ∀ c ∈ cells, Registered c) (hv : v ∈ vars) (hx : x ≠ v)
    (hj : cells[j]? = some c0) (hk : c0.kind = .assign) (hl : c0.left = .var v) (hr : c0.right = .var x)
    (only : ∀ (i : Nat) (c : Cell), cells[i]? = some c → i ≠ j → ¬ Mentions v c.left)
    (found : ∀ c ∈ cells, Mentions v c.right → FoundCast v c.right ∧ (c.kind = .test → c.right.isExpr = true)) :
    ∃ cells' vars', collapse v (cells, vars) = .ok (cells', vars') ∧ cells'.length = cells.length ∧
      (∀ (i : Nat) (c c' : Cell), cells[i]? = some c → cells'[i]? = some c' →
        if i = j then c'.live = false else
          c'.live = c.live ∧ c'.kind = c.kind ∧ c'.left = c.left ∧ c'.right = subst v (.var x) c.right ∧
            c'.shown = subst v (.var x) c.shown) ∧
      (∀ u, u ∈ vars' ↔ u ∈ vars ∧ u ≠ v) := by
  have noIx : ∀ (i : Nat) (c : Cell), cells[i]? = some c → i ≠ j → c.left.indexSink v = false := by
    intro i c hi hne
    cases h : c.left.indexSink v with
    | false => rfl
    | true => exact absurd (indexSink_mentions _ h) (only i c hi hne)
  have noSrc : ∀ (i : Nat) (c : Cell), cells[i]? = some c → i ≠ j → v ∉ c.src := by
    intro i c hi hne hm
    exact only i c hi hne (Decouple.sourceOf_mentions _ ((((reg c (List.mem_of_getElem? hi)).1) _).1 hm).2)
  let q : Q := ⟨true, j, v, x⟩
  have hco : IsConn q c0 := by
    obtain ⟨hs, hn, -, -⟩ := reg c0 (List.mem_of_getElem? hj)
    refine ⟨hk, ?_⟩
    rw [if_pos rfl]
    refine ⟨hl, hr, fun u => ?_, fun u => ?_⟩
    · rw [hs, hl, sourceOf_var]; simp [hk, q]
    · rw [hn, hl, hr, mentions_var]
      have : (E.var v).indexSink u = false := rfl
      simp [this, eq_comm, q]
  have wf : WF [q] cells := by
    refine ⟨by simp, by simp, ?_, ?_, ?_⟩
    · intro a ha b hb
      simp only [List.mem_singleton] at ha hb
      subst ha hb
      exact hx
    · intro a ha
      simp only [List.mem_singleton] at ha
      subst ha
      exact ⟨c0, hj, hco⟩
    · intro i c hi hne a ha
      simp only [List.mem_singleton] at ha
      subst ha
      have hij : i ≠ j := fun h => hne q (by simp) h.symm
      show (if true = true then _ else _)
      rw [if_pos rfl]
      refine ⟨noSrc i c hi hij, fun hm => ?_⟩
      rcases ((reg c (List.mem_of_getElem? hi)).2.1 _).1 hm with h | ⟨_, h⟩
      · exact ⟨(found c (List.mem_of_getElem? hi) h).1, h⟩
      · rw [noIx i c hi hij] at h; cases h
  obtain ⟨cs, hlink, hlen, hcs⟩ := link_ok wf
  have hcs : ∀ (i : Nat) (c : Cell), cells[i]? = some c → cs[i]? = some (if i = j then dead q c else after c q) := hcs
  -- the one source
  have hfil : cells.filter (fun c => decide (v ∈ c.src)) = [c0] := by
    have h0 : v ∈ c0.src := by
      obtain ⟨_, hco⟩ := hco
      rw [if_pos rfl] at hco
      exact (hco.2.2.1 v).2 rfl
    obtain ⟨pre, post, rfl, hpl⟩ : ∃ pre post, cells = pre ++ c0 :: post ∧ pre.length = j := by
      have hlt := (List.getElem?_eq_some_iff.1 hj).1
      refine ⟨cells.take j, cells.drop (j + 1), ?_, by simp; omega⟩
      have : cells[j] = c0 := (List.getElem?_eq_some_iff.1 hj).2
      rw [← this, List.getElem_cons_drop, List.take_append_drop]
    have h1 : pre.filter (fun c => decide (v ∈ c.src)) = [] := by
      rw [List.filter_eq_nil_iff]
      intro c hc
      obtain ⟨i, hi⟩ := List.getElem?_of_mem hc
      have hlt := (List.getElem?_eq_some_iff.1 hi).1
      have := noSrc i c (by rw [List.getElem?_append_left hlt]; exact hi) (by omega)
      simpa using this
    have h2 : post.filter (fun c => decide (v ∈ c.src)) = [] := by
      rw [List.filter_eq_nil_iff]
      intro c hc
      obtain ⟨i, hi⟩ := List.getElem?_of_mem hc
      have := noSrc (pre.length + (i + 1)) c (by rw [List.getElem?_append_right (by omega)]; simpa using hi) (by omega)
      simpa using this
    rw [List.filter_append, h1, List.filter_cons_of_pos (by simpa using h0), h2]; rfl
  have hmove : ∃ ms, Kinds.mapRes (moveSnk v x) cells = .ok ms ∧ ms.map (clearSrc v) = cs := by
    have : link true j cells = .ok (cs, some (v, x)) := hlink
    simp only [link, hj, Option.map_some, hl, hr, if_true, Res.bind_eq_ok, Res.ok.injEq, Prod.mk.injEq] at this
    obtain ⟨ms, h1, h2, _⟩ := this
    exact ⟨ms, h1, h2⟩
  obtain ⟨ms, hms, hmc⟩ := hmove
  -- registered nowhere
  have hgone : ∀ c' ∈ cs, v ∉ c'.src ∧ v ∉ c'.snk := by
    intro c' hc'
    obtain ⟨i, hi⟩ := List.getElem?_of_mem hc'
    have hlt : i < cells.length := by rw [← hlen]; exact (List.getElem?_eq_some_iff.1 hi).1
    have hg : cells[i]? = some cells[i] := List.getElem?_eq_getElem hlt
    have h := hcs i _ hg
    rw [hi, Option.some.injEq] at h
    subst h
    by_cases hij : i = j
    · rw [if_pos hij]
      subst hij
      rw [hj] at hg
      have hge : c0 = cells[i] := Option.some.inj hg
      rw [← hge]
      obtain ⟨_, hco⟩ := hco
      rw [if_pos rfl] at hco
      show v ∉ (if true = true then _ else _ : Cell).src ∧ v ∉ (if true = true then _ else _ : Cell).snk
      rw [if_pos rfl]
      refine ⟨?_, fun h => hx (((hco.2.2.2 v).1 h).symm)⟩
      simp [q]
    · rw [if_neg hij]
      exact fold_gone [q] _ wf.ports wf.outer (wf.rest i _ hg (by simpa [q] using fun h => hij h.symm)) q (by simp)
  refine ⟨cs, vars.filter (· ≠ v), ?_, hlen, ?_, by simp⟩
  · unfold collapse
    simp only [hfil, hl, hr, if_true, hms, Res.ok_bind, hmc]
    have : removeVar cs vars v = .ok (vars.filter (· ≠ v)) := by
      unfold removeVar
      rw [if_neg (by simpa using hv), if_neg, if_neg]
      · simp only [List.any_eq_true, decide_eq_true_eq, not_exists, not_and]
        exact fun c hc => (hgone c hc).2
      · simp only [List.any_eq_true, decide_eq_true_eq, not_exists, not_and]
        exact fun c hc => (hgone c hc).1
    rw [this, Res.ok_bind]
  · intro i c c' hc hc'
    have h := hcs i c hc
    rw [hc', Option.some.injEq] at h
    subst h
    split
    · show (if true = true then _ else _ : Cell).live = false
      rw [if_pos rfl]
    · rename_i hij
      obtain ⟨hs, hn, hlv, hsh⟩ := reg c (List.mem_of_getElem? hc)
      have td : Tidy [q] c := by
        refine ⟨fun a ha _ => ?_, fun a ha h => ?_, fun a ha _ => ?_, fun a ha h => ?_⟩ <;>
          simp only [List.mem_singleton] at ha <;> subst ha
        · rw [hn, show q.port = v from rfl, noIx i c hc hij]; simp
        · cases h
        · exact only i c hc hij
        · cases h
      have hf := fold_fields [q] c
      refine ⟨hf.1, hf.2.1, ?_, after_right td, ?_⟩
      · rw [after_left td]
        exact subst_of_not _ (only i c hc hij)
      · by_cases hmr : Mentions v c.right
        · have hkk : c.kind = .assign ∨ c.right.isExpr = true := by
            cases hkc : c.kind with
            | assign => exact .inl rfl
            | test => exact .inr ((found c (List.mem_of_getElem? hc) hmr).2 hkc)
          have := fold_shown [q] c wf.ports wf.outer td hkk hsh
          rw [hsh, ← after_right td]
          exact this
        · have hnm : v ∉ c.snk := by
            rw [hn, noIx i c hc hij]; simpa using hmr
          have : after c q = c := by
            unfold after
            rw [if_pos (show q.inp = true from rfl), if_neg (show q.port ∉ c.snk from hnm)]
          rw [this, hsh, subst_of_not _ hmr]

/-! ### A design that meets the conditions -/

/-- Parent: `p = w; y = o; ck = clk; w = 7`.  Child, with inputs `p` (1), `ck` (3), output `o` (2) and a
variable 4: `always_ff @(posedge ck) if (p) o <= op p r4;` and `4 = op p`. -/
def exPs : List Port := [⟨1, true⟩, ⟨2, false⟩, ⟨3, true⟩]
def exD : Dsn where
  cells := [
    ⟨.assign, .var 1, .var 10, .var 10, [1], [10], true, true, true⟩,
    ⟨.assign, .var 11, .var 2, .var 2, [11], [2], true, true, true⟩,
    ⟨.assign, .var 3, .var 12, .var 12, [3], [12], true, true, true⟩,
    ⟨.assign, .var 10, .un 7 (.var 13), .un 7 (.var 13), [10], [13], true, true, true⟩,
    ⟨.test, .const 0, .var 1, .var 1, [], [1], true, false, false⟩,
    ⟨.assign, .var 2, .bin 3 (.var 1) (.var 4), .bin 3 (.var 1) (.var 4), [2], [1, 4], true, false, false⟩,
    ⟨.assign, .var 4, .un 2 (.var 1), .un 2 (.var 1), [4], [1], true, true, false⟩]
  events := [3]
  vars := [10, 11, 12, 13, 1, 2, 3, 4]

example : inline exPs exD = .ok {
    cells := [
      ⟨.assign, .var 1, .var 10, .var 10, [], [10], false, true, true⟩,
      ⟨.assign, .var 11, .var 2, .var 2, [11], [], false, true, true⟩,
      ⟨.assign, .var 3, .var 12, .var 12, [], [12], false, true, true⟩,
      ⟨.assign, .var 10, .un 7 (.var 13), .un 7 (.var 13), [10], [13], true, true, true⟩,
      ⟨.test, .const 0, .var 10, .var 10, [], [10], true, false, false⟩,
      ⟨.assign, .var 11, .bin 3 (.var 10) (.var 4), .bin 3 (.var 10) (.var 4), [11], [10, 4], true, false, false⟩,
      ⟨.assign, .var 4, .un 2 (.var 10), .un 2 (.var 10), [4], [10], true, true, false⟩]
    events := [12]
    vars := [10, 11, 12, 13, 4] } := by decide +kernel

/-- The partner a statement gives a port, for evaluation. -/
def connB (p : Port) (c : Cell) : Option Nat :=
  if c.kind = .assign ∧ c.top = true ∧ c.own = true then
    match c.left, c.right with
    | .var a, .var b => if p.inp then (if a = p.var then some b else none) else (if b = p.var then some a else none)
    | _, _ => none
  else none

theorem connB_iff (p : Port) (w : Nat) (c : Cell) : Connects p w c ↔ connB p c = some w := by
  unfold Connects connB
  constructor
  · rintro ⟨hk, ht, ho, ⟨hi, hl, hr⟩ | ⟨hi, hl, hr⟩⟩ <;> rw [if_pos ⟨hk, ht, ho⟩, hl, hr] <;> simp [hi]
  · intro h
    split at h
    · rename_i hc
      refine ⟨hc.1, hc.2.1, hc.2.2, ?_⟩
      split at h
      · rename_i a b hl hr
        cases hi : p.inp <;> simp only [hi, Bool.false_eq_true, if_true, if_false] at h <;> split at h
        · rename_i hb
          cases h
          exact .inr ⟨rfl, hl, by rw [hr, hb]⟩
        · cases h
        · rename_i hb
          cases h
          exact .inl ⟨rfl, by rw [hl, hb], hr⟩
        · cases h
      · cases h
    · cases h

theorem ex_all {P : Port → Nat → Cell → Prop} (h : ∀ p ∈ exPs, ∀ c ∈ exD.cells, ∀ w, connB p c = some w → P p w c) :
    ∀ p ∈ exPs, ∀ w, ∀ c ∈ exD.cells, Connects p w c → P p w c :=
  fun p hp w c hc hw => h p hp c hc w ((connB_iff p w c).1 hw)

example : Ready exPs exD := by
  refine ⟨?_, by decide +kernel, by decide +kernel, ?_, ?_, ?_, by decide +kernel, ?_⟩
  · intro c hc
    simp only [exD, List.mem_cons, List.not_mem_nil, or_false] at hc
    rcases hc with rfl | rfl | rfl | rfl | rfl | rfl | rfl <;> refine ⟨fun v => ?_, fun v => ?_, rfl, rfl⟩ <;>
      simp [mentions_var, mentions_bin, mentions_un, E.sourceOf, E.indexSink, @eq_comm Nat _ v]
  · intro p hp w w' i j c c' hi hj h h'
    rw [connB_iff] at h h'
    have hlt := (List.getElem?_eq_some_iff.1 hi).1
    have hlt' := (List.getElem?_eq_some_iff.1 hj).1
    have key : ∀ p ∈ exPs, ∀ i < exD.cells.length, ∀ j < exD.cells.length,
        (exD.cells[i]?.bind (connB p)).isSome → (exD.cells[j]?.bind (connB p)).isSome → i = j := by decide +kernel
    exact key p hp i hlt j hlt' (by rw [hi]; simp [h]) (by rw [hj]; simp [h'])
  · refine ex_all fun p hp c hc w hw => ?_
    have key : ∀ p ∈ exPs, ∀ c ∈ exD.cells, ∀ q ∈ exPs, connB p c ≠ some q.var := by decide +kernel
    intro q hq he
    exact key p hp c hc q hq (by rw [hw, he])
  · intro p hp c hc hk ht ho
    simp only [exD, exPs, List.mem_cons, List.not_mem_nil, or_false] at hc hp
    rcases hc with rfl | rfl | rfl | rfl | rfl | rfl | rfl <;> rcases hp with rfl | rfl | rfl <;> simp at *
  · intro p hp hi w c hc hw j x e hj hk hl hr ht
    rw [connB_iff] at hw
    have he := List.mem_of_getElem? hj
    simp only [exD, List.mem_cons, List.not_mem_nil, or_false] at he
    have key : ∀ p ∈ exPs, p.inp = true → ∀ c ∈ exD.cells, ∀ a ∈ [1, 11, 3], connB p c ≠ some a := by decide +kernel
    rcases he with rfl | rfl | rfl | rfl | rfl | rfl | rfl <;> simp at hl hr hk ht <;> subst hl
    · exact absurd hw (key p hp hi c hc 1 (by decide))
    · exact absurd hw (key p hp hi c hc 11 (by decide))
    · exact absurd hw (key p hp hi c hc 3 (by decide))

example : Plain exPs exD := by
  refine ⟨by decide +kernel, ?_, ?_, ?_, ?_, ?_, ?_⟩
  · intro p hp c hc hm
    simp only [exD, exPs, List.mem_cons, List.not_mem_nil, or_false] at hc hp
    rcases hc with rfl | rfl | rfl | rfl | rfl | rfl | rfl <;> rcases hp with rfl | rfl | rfl <;>
      simp [mentions_var, mentions_bin, mentions_un, Whole, FoundCast, Found, E.isExpr] at *
  · intro p hp c hc hm
    simp only [exD, exPs, List.mem_cons, List.not_mem_nil, or_false] at hc hp
    rcases hc with rfl | rfl | rfl | rfl | rfl | rfl | rfl <;> rcases hp with rfl | rfl | rfl <;>
      simp [mentions_var, mentions_const, Whole, FoundCast, Found, E.sourceOf] at *
  · intro p hp hi c hc hm
    simp only [exD, exPs, List.mem_cons, List.not_mem_nil, or_false] at hc hp
    rcases hc with rfl | rfl | rfl | rfl | rfl | rfl | rfl <;> rcases hp with rfl | rfl | rfl <;>
      simp [mentions_var, mentions_const, Connects] at *
  · intro p hp hi _ c hc hm
    simp only [exD, exPs, List.mem_cons, List.not_mem_nil, or_false] at hc hp
    rcases hc with rfl | rfl | rfl | rfl | rfl | rfl | rfl <;> rcases hp with rfl | rfl | rfl <;>
      simp [mentions_var, mentions_bin, mentions_un, Connects] at *
  · intro p hp hi _
    simp only [exPs, List.mem_cons, List.not_mem_nil, or_false] at hp
    refine ⟨⟨.assign, .var 2, .bin 3 (.var 1) (.var 4), .bin 3 (.var 1) (.var 4), [2], [1, 4], true, false, false⟩, by decide +kernel, ?_⟩
    rcases hp with rfl | rfl | rfl <;> simp [mentions_var] at *
  · intro p hp hi w c hc hw j x e hj hk hl hr ht
    have he := List.mem_of_getElem? hj
    simp only [exD, List.mem_cons, List.not_mem_nil, or_false] at he
    rcases he with rfl | rfl | rfl | rfl | rfl | rfl | rfl <;> simp at hl hr hk ht

/-! ### Where the code does not do this -/

/-- Child with a register that it reads: `always_ff o <= o + 1`, connected `y = o`. -/
def ctrPs : List Port := [⟨2, false⟩]
def ctr : Dsn where
  cells := [
    ⟨.assign, .var 11, .var 2, .var 2, [11], [2], true, true, true⟩,
    ⟨.assign, .var 2, .un 1 (.var 2), .un 1 (.var 2), [2], [2], true, false, false⟩]
  events := []
  vars := [11, 2]

theorem ctr_ready : Ready ctrPs ctr := by
  refine ⟨?_, by decide +kernel, by decide +kernel, ?_, ?_, ?_, by decide +kernel, ?_⟩
  · intro c hc
    simp only [ctr, List.mem_cons, List.not_mem_nil, or_false] at hc
    rcases hc with rfl | rfl <;> refine ⟨fun v => ?_, fun v => ?_, rfl, rfl⟩ <;>
      simp [mentions_var, mentions_un, E.sourceOf, E.indexSink, @eq_comm Nat _ v]
  · intro p hp w w' i j c c' hi hj h h'
    rw [connB_iff] at h h'
    have hlt := (List.getElem?_eq_some_iff.1 hi).1
    have hlt' := (List.getElem?_eq_some_iff.1 hj).1
    have key : ∀ p ∈ ctrPs, ∀ i < ctr.cells.length, ∀ j < ctr.cells.length,
        (ctr.cells[i]?.bind (connB p)).isSome → (ctr.cells[j]?.bind (connB p)).isSome → i = j := by decide +kernel
    exact key p hp i hlt j hlt' (by rw [hi]; simp [h]) (by rw [hj]; simp [h'])
  · intro p hp w c hc hw q hq he
    have key : ∀ p ∈ ctrPs, ∀ c ∈ ctr.cells, ∀ q ∈ ctrPs, connB p c ≠ some q.var := by decide +kernel
    exact key p hp c hc q hq (by rw [(connB_iff _ _ _).1 hw, he])
  · intro p hp c hc hk ht ho
    simp only [ctr, ctrPs, List.mem_cons, List.not_mem_nil, or_false] at hc hp
    rcases hc with rfl | rfl <;> rcases hp with rfl <;> simp at *
  · intro p hp hi
    simp only [ctrPs, List.mem_cons, List.not_mem_nil, or_false] at hp
    subst hp
    cases hi

/-- The register is gone: `clear_sinks(true)` on the port takes away every statement that reads it. -/
def ctrOut : Dsn where
  cells := [
    ⟨.assign, .var 11, .var 2, .var 2, [11], [], false, true, true⟩,
    ⟨.assign, .var 11, .un 1 (.var 2), .un 1 (.var 2), [11], [], false, false, false⟩]
  events := []
  vars := [11]

theorem register_lost : inline ctrPs ctr = .ok ctrOut ∧ ∀ c ∈ ctrOut.cells, c.live = false := by decide +kernel

theorem not_InlineClaim : ¬ InlineClaim := by
  intro h
  obtain ⟨d', hd, f, _, _, hc, _⟩ := h ctrPs ctr ctr_ready
  rw [register_lost.1] at hd
  cases hd
  have := (hc 1 _ _ rfl rfl).2 (by
    rintro ⟨p, _, w, hw⟩
    exact absurd hw.2.1 (by decide))
  exact absurd this.1 (by decide)

/-- A child that reads a slice of an input by itself, `4 = p[0]`, is refused. -/
theorem slice_refused : inline [⟨1, true⟩] {
    cells := [
      ⟨.assign, .var 1, .var 10, .var 10, [1], [10], true, true, true⟩,
      ⟨.assign, .var 4, .sl (.var 1) 0 0, .sl (.var 1) 0 0, [4], [1], true, true, false⟩]
    events := [], vars := [10, 1, 4] } = .throw .user := by decide +kernel

/-- So is one that uses an input as an index on the left, `m[p] = 0`. -/
theorem index_refused : inline [⟨1, true⟩] {
    cells := [
      ⟨.assign, .var 1, .var 10, .var 10, [1], [10], true, true, true⟩,
      ⟨.assign, .ix (.var 4) (.var 1), .const 0, .const 0, [4], [1], true, false, false⟩]
    events := [], vars := [10, 1, 4] } = .throw .user := by decide +kernel

/-- A register of the parent that goes into the child, `always_ff r <= x; p = r; child: 4 = op p`: the
register is taken for a wire, and the child now reads `x`. -/
theorem parent_register_lost : inline [⟨1, true⟩] {
    cells := [
      ⟨.assign, .var 1, .var 10, .var 10, [1], [10], true, true, true⟩,
      ⟨.assign, .var 10, .var 12, .var 12, [10], [12], true, false, true⟩,
      ⟨.assign, .var 4, .un 2 (.var 1), .un 2 (.var 1), [4], [1], true, true, false⟩]
    events := [], vars := [10, 12, 1, 4] } = .ok {
    cells := [
      ⟨.assign, .var 1, .var 12, .var 12, [], [12], false, true, true⟩,
      ⟨.assign, .var 10, .var 12, .var 12, [], [12], false, false, true⟩,
      ⟨.assign, .var 4, .un 2 (.var 12), .un 2 (.var 12), [4], [12], true, true, false⟩]
    events := [], vars := [12, 4] } := by decide +kernel

/-- A wire of the parent that goes into the child and is tested there, `w = x; p = w; child: if (p)`:
after the last loop the test reads `w`, which is neither declared nor driven any more. -/
theorem test_wrong : inline [⟨1, true⟩] {
    cells := [
      ⟨.assign, .var 1, .var 10, .var 10, [1], [10], true, true, true⟩,
      ⟨.assign, .var 10, .var 12, .var 12, [10], [12], true, true, true⟩,
      ⟨.test, .const 0, .var 1, .var 1, [], [1], true, false, false⟩]
    events := [], vars := [10, 12, 1] } = .ok {
    cells := [
      ⟨.assign, .var 1, .var 12, .var 12, [], [12], false, true, true⟩,
      ⟨.assign, .var 10, .var 12, .var 12, [], [12], false, true, true⟩,
      ⟨.test, .const 0, .var 12, .var 10, [], [12], true, false, false⟩]
    events := [], vars := [12] } := by decide +kernel

/-- Two inlined children connected directly, `q = o`: the statement connects two ports, and the pass
gives up half way, whichever comes first. -/
def direct : Dsn where
  cells := [
    ⟨.assign, .var 3, .var 2, .var 2, [3], [2], true, true, true⟩,
    ⟨.assign, .var 2, .un 1 (.var 5), .un 1 (.var 5), [2], [5], true, true, false⟩,
    ⟨.assign, .var 6, .un 2 (.var 3), .un 2 (.var 3), [6], [3], true, true, false⟩]
  events := []
  vars := [2, 3, 5, 6]
theorem direct_refused : inline [⟨2, false⟩, ⟨3, true⟩] direct = .throw .user ∧
    inline [⟨3, true⟩, ⟨2, false⟩] direct = .throw .user := by decide +kernel

end Kratos.Inline
