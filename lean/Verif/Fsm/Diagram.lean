import Verif.Fsm.Examples

/-!
# The documents made from a state machine: state diagram and output table

Model of `FSM::dot_graph` (src/fsm.cc:499-556), `get_state_color` (src/fsm.cc:619-646),
`FSMState::handle_name` (src/fsm.cc:751-761), `get_all_child_states(true)` (src/fsm.cc:57-88) and
`FSM::output_table` (src/fsm.cc:564-592) as functions to text.  The texts of guards, variables and
values (`to_string`) and the sequence of random colours are parameters.  The overloads that write
the text into a file are left out.
-/

namespace Kratos.Diagram
open Kratos.Fsm

abbrev Txt := List Char

/-! ## Model: the diagram -/

/-- The loop of `FSMState::handle_name`, src/fsm.cc:751-761: the names of the machines up to, but
not including, the one without parent.  `n` bounds the number of steps. -/
def handleAux (W : World) : Nat → FId → Txt → Txt
  | 0, _, s => s
  | n + 1, cur, s =>
    match (W.F cur).parent with
    | none => s
    | some p => handleAux W n p ((W.F cur).name.toList ++ '_' :: s)

def handle (W : World) (s : SId) : Txt :=
  handleAux W (W.nF + 1) (W.S s).fsm (W.S s).name.toList

/-- Targets of transitions that lie outside of the machine, src/fsm.cc:82-84. -/
def extras (W : World) (top : FId) (s : SId) : List SId :=
  ((W.S s).trans.map Prod.snd).filter (fun t => !below W (W.nF + 1) top (W.S t).fsm)

/-- `get_all_child_states(true)`, src/fsm.cc:57-88: a target outside is put in the result each time
it is seen, and is not searched. -/
def search (W : World) (top : FId) : Nat → List SId → List SId → List SId → Option (List SId)
  | _, [], _, res => some res
  | 0, _ :: _, _, _ => none
  | n + 1, s :: q, seen, res =>
    if s ∈ seen then search W top n q seen res
    else search W top n (q ++ succs W top s) (seen ++ [s]) (res ++ s :: extras W top s)

def shownStates (W : World) (top : FId) (n : Nat) : Option (List SId) :=
  search W top n (W.F top).own [] []

/-- The machines in the order in which the first pass of `get_state_color` meets them. -/
def firsts : List FId → List FId → List FId
  | [], seen => seen
  | f :: fs, seen => if f ∈ seen then firsts fs seen else firsts fs (seen ++ [f])

/-- `get_state_color`, src/fsm.cc:619-646: the k-th machine gets the k-th colour. -/
def colour (W : World) (pal : Nat → Txt) (states : List SId) (s : SId) : Txt :=
  pal ((firsts (states.map fun s => (W.S s).fsm) []).idxOf (W.S s).fsm)

/-- What is drawn. -/
inductive Item where
  | node (shape name colour : Txt)
  | edge (src dst : Txt) (label : Option Txt)
  deriving DecidableEq

def circle : Txt := ['c', 'i', 'r', 'c', 'l', 'e']
def double : Txt := ['d', 'o', 'u', 'b', 'l', 'e', 'c', 'i', 'r', 'c', 'l', 'e']

/-- The start state, src/fsm.cc:508-523; `.at` throws when it is not among the states. -/
def startItems (W : World) (top : FId) (pal : Nat → Txt) (states : List SId) : Res (List Item) :=
  match (W.F top).start with
  | none => .ok []
  | some s =>
    if handle W s = [] then .ok []
    else if s ∈ states then .ok [.node double (handle W s) (colour W pal states s)]
    else .throw .outOfRange

/-- `start_state_name` -/
def startName (W : World) (top : FId) : Txt :=
  match (W.F top).start with
  | none => []
  | some s => handle W s

/-- The rest of the states, src/fsm.cc:525-535. -/
def otherItems (W : World) (top : FId) (pal : Nat → Txt) (states : List SId) : List Item :=
  (states.filter fun s => handle W s ≠ startName W top).map fun s =>
    .node circle (handle W s) (colour W pal states s)

/-- The transitions, src/fsm.cc:539-553. -/
def edgeItems (W : World) (label : Guard → Txt) (states : List SId) : List Item :=
  states.flatMap fun s => (W.S s).trans.map fun q =>
    .edge (handle W s) (handle W q.2) (q.1.map label)

def indent : Txt := [' ', ' ', ' ', ' ']
def nodePre : Txt := ['n', 'o', 'd', 'e', ' ', '[', 's', 'h', 'a', 'p', 'e', '=']
def labelPre : Txt := [',', ' ', 'l', 'a', 'b', 'e', 'l', '=', '\"']
def fillPre : Txt := ['\"', ',', ' ', 's', 't', 'y', 'l', 'e', '=', 'f', 'i', 'l', 'l', 'e', 'd', ',', ' ', 'f', 'i', 'l', 'l', 'c', 'o', 'l', 'o', 'r', '=', '\"']
def closePre : Txt := ['\"', ']', ' ']
def arrow : Txt := [' ', ' ', ' ', ' ', '-', '>', ' ', ' ']
def edgePre : Txt := [' ', '[', ' ', 'l', 'a', 'b', 'e', 'l', ' ', '=', ' ', '\"']
def edgeEnd : Txt := ['\"', ' ', ']', ';']
def header : Txt := ['d', 'i', 'g', 'r', 'a', 'p', 'h', ' ']
def open_ : Txt := [' ', '{']
def rank : Txt := [' ', ' ', ' ', ' ', 'r', 'a', 'n', 'k', 'd', 'i', 'r', '=', 'L', 'R', ';']

/-- One line of the diagram. -/
def Item.line : Item → Txt
  | .node shape name col =>
    indent ++ (nodePre ++ (shape ++ (labelPre ++ (name ++ (fillPre ++ (col ++ (closePre ++
      (name ++ [';']))))))))
  | .edge src dst none => indent ++ (src ++ (arrow ++ (dst ++ [';'])))
  | .edge src dst (some l) =>
    indent ++ (src ++ (arrow ++ (dst ++ (edgePre ++ (l ++ edgeEnd)))))

/-- The lines of the diagram, src/fsm.cc:499-556. -/
def lines (W : World) (top : FId) (label : Guard → Txt) (pal : Nat → Txt) (states : List SId) :
    Res (List Txt) :=
  (startItems W top pal states).bind fun st =>
  .ok ((header ++ ((W.F top).name.toList ++ open_)) :: rank :: [] ::
    (st ++ otherItems W top pal states).map Item.line ++
    [] :: (edgeItems W label states).map Item.line ++ [['}']])

/-- Lines to text: each ends with a newline. -/
def unlines (ls : List Txt) : Txt := ls.flatMap fun l => l ++ ['\n']

/-- `FSM::dot_graph`, src/fsm.cc:499-556; `n` bounds the search. -/
def dotGraph (W : World) (top : FId) (label : Guard → Txt) (pal : Nat → Txt) (n : Nat) :
    Option (Res Txt) :=
  (shownStates W top n).map fun states => (lines W top label pal states).bind fun ls =>
    .ok (unlines ls)

/-! ## Model: the table -/

/-- `state->output_values().at(output)` and its `to_string`, src/fsm.cc:583-586. -/
def cell (vname : Nat → Txt) (etext : Ir.Expr → Txt) (outs : List Out) (v : Nat) : Res Txt :=
  match outs.find? (fun o => o.v = v) with
  | none => .throw .outOfRange
  | some o =>
    match o.x with
    | .null => .ub
    | .self => .ok (vname v)
    | .val e => .ok (etext e)

def cells (vname : Nat → Txt) (etext : Ir.Expr → Txt) (outs : List Out) : List Nat → Res (List Txt)
  | [] => .ok []
  | v :: vs =>
    (cell vname etext outs v).bind fun c =>
    (cells vname etext outs vs).bind fun cs => .ok (c :: cs)

def rows (W : World) (vname : Nat → Txt) (etext : Ir.Expr → Txt) (outs : SId → List Out)
    (sorted : List Nat) : List SId → Res (List (List Txt))
  | [] => .ok []
  | s :: ss =>
    (cells vname etext (outs s) sorted).bind fun cs =>
    (rows W vname etext outs sorted ss).bind fun rs => .ok (((W.S s).name.toList :: cs) :: rs)

def stateWord : Txt := ['S', 't', 'a', 't', 'e']

/-- A line: the first cell, then a comma before each other one. -/
def csv : List Txt → Txt
  | [] => []
  | c :: cs => c ++ cs.flatMap fun x => ',' :: x

/-- `FSM::output_table`, src/fsm.cc:564-592.  `sorted` is what `std::sort` makes of the outputs,
`outs` what the states hold at the time of the call. -/
def outputTable (W : World) (top : FId) (vname : Nat → Txt) (etext : Ir.Expr → Txt)
    (outs : SId → List Out) (sorted : List Nat) : Res Txt :=
  (rows W vname etext outs sorted (W.F top).own).bind fun rs =>
  .ok (unlines (((stateWord :: sorted.map vname) :: rs).map csv))

/-! ## Specification: reading the documents -/

/-- The pieces of a text between occurrences of a character. -/
def pieces (c : Char) : Txt → List Txt
  | [] => [[]]
  | x :: xs =>
    if x = c then [] :: pieces c xs
    else match pieces c xs with
      | [] => [[x]]
      | p :: ps => (x :: p) :: ps

/-- What follows a given beginning. -/
def after (p t : Txt) : Option Txt := if p.isPrefixOf t then some (t.drop p.length) else none

/-- Read `a    ->  b;` or `a    ->  b [ label = "c" ];`. -/
def readEdge (t : Txt) : Option (Txt × Txt × Option Txt) :=
  (after [' ', ' ', ' ', ' '] t).bind fun t =>
  (after [' ', ' ', ' ', ' ', '-', '>', ' ', ' '] (t.dropWhile (· ≠ ' '))).bind fun u =>
  let d := u.takeWhile fun c => c ≠ ' ' && c ≠ ';'
  let r := u.dropWhile fun c => c ≠ ' ' && c ≠ ';'
  if r = [';'] then some (t.takeWhile (· ≠ ' '), d, none)
  else (after [' ', '[', ' ', 'l', 'a', 'b', 'e', 'l', ' ', '=', ' ', '\"'] r).bind fun r =>
    if r.dropWhile (· ≠ '"') = ['\"', ' ', ']', ';'] then
      some (t.takeWhile (· ≠ ' '), d, some (r.takeWhile (· ≠ '"')))
    else none

/-- Read `node [shape=a, label="b", style=filled, fillcolor="c"] b;`: shape, label, colour and
identifier. -/
def readNode (t : Txt) : Option (Txt × Txt × Txt × Txt) :=
  (after [' ', ' ', ' ', ' ', 'n', 'o', 'd', 'e', ' ', '[', 's', 'h', 'a', 'p', 'e', '='] t).bind fun t =>
  (after [',', ' ', 'l', 'a', 'b', 'e', 'l', '=', '\"'] (t.dropWhile (· ≠ ','))).bind fun u =>
  (after ['\"', ',', ' ', 's', 't', 'y', 'l', 'e', '=', 'f', 'i', 'l', 'l', 'e', 'd', ',', ' ', 'f', 'i', 'l', 'l', 'c', 'o', 'l', 'o', 'r', '=', '\"'] (u.dropWhile (· ≠ '"'))).bind fun v =>
  (after ['\"', ']', ' '] (v.dropWhile (· ≠ '"'))).bind fun w =>
  if w.dropWhile (· ≠ ';') = [';'] then
    some (t.takeWhile (· ≠ ','), u.takeWhile (· ≠ '"'), v.takeWhile (· ≠ '"'),
      w.takeWhile (· ≠ ';'))
  else none

/-- The arrows and the nodes of a diagram. -/
def edgesOf (t : Txt) : List (Txt × Txt × Option Txt) := (pieces '\n' t).filterMap readEdge
def nodesOf (t : Txt) : List (Txt × Txt × Txt × Txt) := (pieces '\n' t).filterMap readNode

/-- The cells of a table. -/
def readTable (t : Txt) : List (List Txt) := (pieces '\n' t).map (pieces ',')

/-- Full name of a state: the names of the machines it lies in, without the outermost, and its
own, joined by underscores. -/
inductive FullName (W : World) : FId → Txt → Txt → Prop
  | top {f s} : (W.F f).parent = none → FullName W f s s
  | inner {f p s t} : (W.F f).parent = some p →
      FullName W p ((W.F f).name.toList ++ '_' :: s) t → FullName W f s t

/-- A text that can stand as an identifier in a diagram. -/
def Plain (t : Txt) : Prop := t ≠ [] ∧ ∀ c ∈ t, c ≠ ' ' ∧ c ≠ ';' ∧ c ≠ '"' ∧ c ≠ '\n'

/-- A text that can stand between quotes. -/
def Quotable (t : Txt) : Prop := ∀ c ∈ t, c ≠ '"' ∧ c ≠ '\n'

/-- The machine has exactly these states, each once. -/
def IsStates (W : World) (top : FId) (states : List SId) : Prop :=
  states.Nodup ∧ ∀ s, s ∈ states ↔ Found W top s

/-- No transition of the machine leaves it. -/
def Closed (W : World) (top : FId) : Prop :=
  ∀ s, Found W top s → ∀ q ∈ (W.S s).trans, q.2 ∈ succs W top s

/-- The text shows the machine: one node with its full name for each state, a double circle for the
start state and circles for the others, the states of one machine in one colour; one arrow with the
guard as label for each transition; and different states have different names. -/
structure Shows (W : World) (top : FId) (label : Guard → Txt) (states : List SId) (t : Txt) :
    Prop where
  all : IsStates W top states
  names : ∃ name col : SId → Txt,
    (∀ s, Found W top s → FullName W (W.S s).fsm (W.S s).name.toList (name s)) ∧
    (∀ s s', Found W top s → Found W top s' → name s = name s' → s = s') ∧
    (∀ s s', (W.S s).fsm = (W.S s').fsm → col s = col s') ∧
    (edgesOf t).Perm (states.flatMap fun s => (W.S s).trans.map fun q =>
      (name s, name q.2, q.1.map label)) ∧
    (nodesOf t).Perm (states.map fun s =>
      (if (W.F top).start = some s then
        ['d', 'o', 'u', 'b', 'l', 'e', 'c', 'i', 'r', 'c', 'l', 'e']
      else ['c', 'i', 'r', 'c', 'l', 'e'], name s, col s, name s))

/-- Texts fit to be printed in a diagram. -/
structure Texts (W : World) (label : Guard → Txt) (pal : Nat → Txt) : Prop where
  fsm : ∀ f < W.nF, Plain (W.F f).name.toList
  state : ∀ s < W.nS, Plain (W.S s).name.toList
  guard : ∀ g, Quotable (label g)
  pal : ∀ k, Quotable (pal k)

/-- The claim: the diagram of a machine shows it. -/
def DiagramClaim : Prop :=
  ∀ (W : World) (top : FId) (label : Guard → Txt) (pal : Nat → Txt) (n : Nat) (r : Res Txt),
    Reach W → top < W.nF → Texts W label pal → dotGraph W top label pal n = some r →
    ∃ states t, r = .ok t ∧ Shows W top label states t

/-! ## Lemmas: text -/

theorem tw {p : Char → Bool} : ∀ {a r : Txt} {x : Char}, (∀ c ∈ a, p c = true) → p x = false →
    (a ++ x :: r).takeWhile p = a ∧ (a ++ x :: r).dropWhile p = x :: r
  | [], r, x, _, hx => by simp [List.takeWhile, List.dropWhile, hx]
  | c :: a, r, x, h, hx => by
    have hc : p c = true := h c List.mem_cons_self
    obtain ⟨h1, h2⟩ := tw (r := r) (fun d hd => h d (List.mem_cons_of_mem _ hd)) hx
    simp [List.takeWhile, List.dropWhile, hc, h1, h2]

theorem after_append (p r : Txt) : after p (p ++ r) = some r := by
  unfold after
  rw [if_pos (by simp)]
  simp

theorem after_some {p t r : Txt} (h : after p t = some r) : t = p ++ r := by
  unfold after at h
  split at h
  · rename_i hp
    obtain ⟨u, rfl⟩ := List.isPrefixOf_iff_prefix.1 hp
    simp only [List.drop_left, Option.some.injEq] at h
    rw [h]
  · cases h

theorem pieces_line {c : Char} : ∀ {l r : Txt}, c ∉ l → pieces c (l ++ c :: r) = l :: pieces c r
  | [], r, _ => by simp [pieces]
  | x :: l, r, h => by
    have hx : x ≠ c := fun e => h (e ▸ List.mem_cons_self)
    have := pieces_line (r := r) (fun hm => h (List.mem_cons_of_mem x hm))
    simp [pieces, hx, this]

theorem pieces_last {c : Char} : ∀ {l : Txt}, c ∉ l → pieces c l = [l]
  | [], _ => rfl
  | x :: l, h => by
    have hx : x ≠ c := fun e => h (e ▸ List.mem_cons_self)
    have := pieces_last (fun hm => h (List.mem_cons_of_mem x hm))
    simp [pieces, hx, this]

theorem pieces_unlines : ∀ {ls : List Txt}, (∀ l ∈ ls, '\n' ∉ l) →
    pieces '\n' (unlines ls) = ls ++ [[]]
  | [], _ => rfl
  | l :: ls, h => by
    have : unlines (l :: ls) = l ++ '\n' :: unlines ls := by simp [unlines]
    rw [this, pieces_line (h l List.mem_cons_self),
      pieces_unlines fun x hx => h x (List.mem_cons_of_mem _ hx)]
    rfl

theorem pieces_csv : ∀ {cs : List Txt} {c : Txt}, ',' ∉ c → (∀ x ∈ cs, ',' ∉ x) →
    pieces ',' (csv (c :: cs)) = c :: cs
  | [], c, hc, _ => by simpa [csv] using pieces_last hc
  | d :: cs, c, hc, h => by
    have e : csv (c :: d :: cs) = c ++ ',' :: csv (d :: cs) := by simp [csv]
    rw [e, pieces_line hc, pieces_csv (h d List.mem_cons_self)
      fun x hx => h x (List.mem_cons_of_mem _ hx)]

theorem Plain.space {t : Txt} (h : Plain t) : ∀ c ∈ t, decide (c ≠ ' ') = true :=
  fun c hc => decide_eq_true (h.2 c hc).1

theorem after_indent (r : Txt) : after [' ', ' ', ' ', ' '] (indent ++ r) = some r :=
  after_append _ r
theorem after_arrow (r : Txt) : after [' ', ' ', ' ', ' ', '-', '>', ' ', ' '] (arrow ++ r) = some r :=
  after_append _ r
theorem after_edgePre (r : Txt) : after [' ', '[', ' ', 'l', 'a', 'b', 'e', 'l', ' ', '=', ' ', '\"'] (edgePre ++ r) = some r :=
  after_append _ r
theorem after_label (r : Txt) : after [',', ' ', 'l', 'a', 'b', 'e', 'l', '=', '\"'] (labelPre ++ r) = some r :=
  after_append _ r
theorem after_fill (r : Txt) : after ['\"', ',', ' ', 's', 't', 'y', 'l', 'e', '=', 'f', 'i', 'l', 'l', 'e', 'd', ',', ' ', 'f', 'i', 'l', 'l', 'c', 'o', 'l', 'o', 'r', '=', '\"'] (fillPre ++ r) = some r :=
  after_append _ r
theorem after_close (r : Txt) : after ['\"', ']', ' '] (closePre ++ r) = some r :=
  after_append _ r
theorem after_node (r : Txt) : after [' ', ' ', ' ', ' ', 'n', 'o', 'd', 'e', ' ', '[', 's', 'h', 'a', 'p', 'e', '=']
    (indent ++ (nodePre ++ r)) = some r :=
  after_append (indent ++ nodePre) r

theorem readEdge_edge {src dst : Txt} {l : Option Txt} (hs : Plain src) (hd : Plain dst)
    (hl : ∀ x, l = some x → Quotable x) :
    readEdge (Item.line (.edge src dst l)) = some (src, dst, l) := by
  have h1 : ∀ r : Txt, (src ++ (arrow ++ r)).takeWhile (fun c => decide (c ≠ ' ')) = src ∧
      (src ++ (arrow ++ r)).dropWhile (fun c => decide (c ≠ ' ')) = arrow ++ r := fun r =>
    tw (p := fun c => decide (c ≠ ' ')) hs.space (by decide)
  have hp : ∀ c ∈ dst, (decide (c ≠ ' ') && decide (c ≠ ';')) = true := by
    intro c hc
    have := hd.2 c hc
    simp [this.1, this.2.1]
  cases l with
  | none =>
    obtain ⟨h2, h3⟩ := tw (p := fun c => decide (c ≠ ' ') && decide (c ≠ ';')) (r := []) (x := ';') hp
      (by decide)
    rw [readEdge]
    simp only [Item.line, after_indent, Option.bind_some]
    rw [(h1 _).1, (h1 _).2, after_arrow]
    simp only [Option.bind_some, h2, h3, if_true]
  | some l =>
    have hq : ∀ c ∈ l, decide (c ≠ '"') = true := fun c hc => decide_eq_true (hl l rfl c hc).1
    obtain ⟨h2, h3⟩ := tw (p := fun c => decide (c ≠ ' ') && decide (c ≠ ';'))
      (r := edgePre.tail ++ (l ++ edgeEnd)) (x := ' ') hp (by decide)
    obtain ⟨h4, h5⟩ := tw (p := fun c => decide (c ≠ '"')) (r := edgeEnd.tail) (x := '"') hq
      (by decide)
    have e1 : ' ' :: (edgePre.tail ++ (l ++ edgeEnd)) = edgePre ++ (l ++ edgeEnd) := rfl
    have e2 : '"' :: edgeEnd.tail = edgeEnd := rfl
    rw [e1] at h2 h3
    rw [e2] at h4 h5
    rw [readEdge]
    simp only [Item.line, after_indent, Option.bind_some]
    rw [(h1 _).1, (h1 _).2, after_arrow]
    simp only [Option.bind_some, h2, h3]
    rw [if_neg (by simp [edgePre]), after_edgePre]
    simp only [Option.bind_some, h4, h5]
    rfl

theorem readEdge_node (sh nm col : Txt) : readEdge (Item.line (.node sh nm col)) = none := rfl

theorem readNode_node {sh nm col : Txt} (hs : ∀ c ∈ sh, c ≠ ',') (hn : Plain nm)
    (hc : Quotable col) : readNode (Item.line (.node sh nm col)) = some (sh, nm, col, nm) := by
  have hs' : ∀ c ∈ sh, decide (c ≠ ',') = true := fun c h => decide_eq_true (hs c h)
  have hn1 : ∀ c ∈ nm, decide (c ≠ '"') = true := fun c h => decide_eq_true (hn.2 c h).2.2.1
  have hn2 : ∀ c ∈ nm, decide (c ≠ ';') = true := fun c h => decide_eq_true (hn.2 c h).2.1
  have hc' : ∀ c ∈ col, decide (c ≠ '"') = true := fun c h => decide_eq_true (hc c h).1
  have h1 : ∀ r : Txt, (sh ++ (labelPre ++ r)).takeWhile (fun c => decide (c ≠ ',')) = sh ∧
      (sh ++ (labelPre ++ r)).dropWhile (fun c => decide (c ≠ ',')) = labelPre ++ r := fun r =>
    tw (p := fun c => decide (c ≠ ',')) hs' (by decide)
  have h2 : ∀ r : Txt, (nm ++ (fillPre ++ r)).takeWhile (fun c => decide (c ≠ '"')) = nm ∧
      (nm ++ (fillPre ++ r)).dropWhile (fun c => decide (c ≠ '"')) = fillPre ++ r := fun r =>
    tw (p := fun c => decide (c ≠ '"')) hn1 (by decide)
  have h3 : ∀ r : Txt, (col ++ (closePre ++ r)).takeWhile (fun c => decide (c ≠ '"')) = col ∧
      (col ++ (closePre ++ r)).dropWhile (fun c => decide (c ≠ '"')) = closePre ++ r := fun r =>
    tw (p := fun c => decide (c ≠ '"')) hc' (by decide)
  obtain ⟨h4, h5⟩ := tw (p := fun c => decide (c ≠ ';')) (r := []) (x := ';') hn2 (by decide)
  rw [readNode]
  simp only [Item.line, after_node, Option.bind_some]
  rw [(h1 _).1, (h1 _).2, after_label]
  simp only [Option.bind_some]
  rw [(h2 _).1, (h2 _).2, after_fill]
  simp only [Option.bind_some]
  rw [(h3 _).1, (h3 _).2, after_close]
  simp only [Option.bind_some, h4, h5, if_true]

theorem readNode_edge {src dst : Txt} {l : Option Txt} (hs : Plain src) :
    readNode (Item.line (.edge src dst l)) = none := by
  have key : ∀ r : Txt, after (indent ++ nodePre) (indent ++ (src ++ (arrow ++ r))) = none := by
    intro r
    cases ha : after (indent ++ nodePre) (indent ++ (src ++ (arrow ++ r))) with
    | none => rfl
    | some u =>
      have h := after_some ha
      rw [List.append_assoc] at h
      have h := List.append_cancel_left h
      have h1 := (tw (p := fun c => decide (c ≠ ' ')) (r := arrow.tail ++ r) (x := ' ') hs.space
        (by decide)).2
      have h2 : (nodePre ++ u).dropWhile (fun c => decide (c ≠ ' ')) = nodePre.drop 4 ++ u := rfl
      have h3 : src ++ ' ' :: (arrow.tail ++ r) = src ++ (arrow ++ r) := rfl
      rw [h3, h, h2] at h1
      simp [nodePre, arrow] at h1
  have key' : ∀ r : Txt, after [' ', ' ', ' ', ' ', 'n', 'o', 'd', 'e', ' ', '[', 's', 'h', 'a', 'p', 'e', '=']
      (indent ++ (src ++ (arrow ++ r))) = none := key
  cases l with
  | none =>
    rw [readNode]
    simp only [Item.line]
    rw [key']
    rfl
  | some l =>
    rw [readNode]
    simp only [Item.line]
    rw [key']
    rfl

/-- Items that can be read back. -/
def Item.good : Item → Prop
  | .node sh nm col => (sh = circle ∨ sh = double) ∧ Plain nm ∧ Quotable col
  | .edge src dst l => Plain src ∧ Plain dst ∧ ∀ x, l = some x → Quotable x

theorem Plain.nl {t : Txt} (h : Plain t) : '\n' ∉ t := fun hm => (h.2 _ hm).2.2.2 rfl
theorem Quotable.nl {t : Txt} (h : Quotable t) : '\n' ∉ t := fun hm => (h _ hm).2 rfl

theorem line_nl {i : Item} (h : i.good) : '\n' ∉ i.line := by
  cases i with
  | node sh nm col =>
    obtain ⟨h1, h2, h3⟩ := h
    have hsh : '\n' ∉ sh := by rcases h1 with rfl | rfl <;> decide
    have l1 : '\n' ∉ indent := by decide
    have l2 : '\n' ∉ nodePre := by decide
    have l3 : '\n' ∉ labelPre := by decide
    have l4 : '\n' ∉ fillPre := by decide
    have l5 : '\n' ∉ closePre := by decide
    simp [Item.line, hsh, l1, l2, l3, l4, l5, h2.nl, h3.nl]
  | edge src dst l =>
    obtain ⟨h1, h2, h3⟩ := h
    have l1 : '\n' ∉ indent := by decide
    have l2 : '\n' ∉ arrow := by decide
    have l3 : '\n' ∉ edgePre := by decide
    have l4 : '\n' ∉ edgeEnd := by decide
    cases l with
    | none => simp [Item.line, l1, l2, h1.nl, h2.nl]
    | some l => simp [Item.line, l1, l2, l3, l4, h1.nl, h2.nl, (h3 l rfl).nl]

def Item.asEdge : Item → Option (Txt × Txt × Option Txt)
  | .node .. => none
  | .edge a b l => some (a, b, l)

def Item.asNode : Item → Option (Txt × Txt × Txt × Txt)
  | .node sh nm col => some (sh, nm, col, nm)
  | .edge .. => none

theorem read_items : ∀ (is : List Item), (∀ i ∈ is, i.good) →
    (is.map Item.line).filterMap readEdge = is.filterMap Item.asEdge ∧
    (is.map Item.line).filterMap readNode = is.filterMap Item.asNode
  | [], _ => ⟨rfl, rfl⟩
  | i :: is, h => by
    obtain ⟨h1, h2⟩ := read_items is fun x hx => h x (List.mem_cons_of_mem _ hx)
    have hi := h i List.mem_cons_self
    cases i with
    | node sh nm col =>
      obtain ⟨g1, g2, g3⟩ := hi
      have hsh : ∀ c ∈ sh, c ≠ ',' := by rcases g1 with rfl | rfl <;> decide
      simp only [List.map_cons, List.filterMap_cons, readEdge_node, readNode_node hsh g2 g3,
        Item.asEdge, Item.asNode, h1, h2, and_self]
    | edge src dst l =>
      obtain ⟨g1, g2, g3⟩ := hi
      simp only [List.map_cons, List.filterMap_cons, readEdge_edge g1 g2 g3, readNode_edge g1,
        Item.asEdge, Item.asNode, h1, h2, and_self]

/-! ## Lemmas: names -/

/-- The machines from one up to the outermost. -/
inductive Chain (W : World) : FId → List FId → Prop
  | top {f} : (W.F f).parent = none → Chain W f [f]
  | inner {f p l} : (W.F f).parent = some p → Chain W p l → Chain W f (f :: l)

theorem Chain.unique {W : World} {f : FId} {l l' : List FId} (h : Chain W f l) (h' : Chain W f l') :
    l = l' := by
  induction h generalizing l' with
  | top hn =>
    cases h' with
    | top _ => rfl
    | inner hp _ => rw [hn] at hp; cases hp
  | inner hp _ ih =>
    cases h' with
    | top hn => rw [hn] at hp; cases hp
    | inner hp' hc =>
      rw [hp] at hp'
      cases hp'
      rw [ih hc]

theorem Chain.suffix {W : World} {f g : FId} {l : List FId} (h : Chain W f l) (hg : g ∈ l) :
    ∃ l', Chain W g l' ∧ l'.length ≤ l.length := by
  induction h with
  | top hn =>
    rw [List.mem_singleton] at hg
    subst hg
    exact ⟨_, .top hn, Nat.le_refl _⟩
  | inner hp hc ih =>
    rcases List.mem_cons.1 hg with rfl | hg
    · exact ⟨_, .inner hp hc, Nat.le_refl _⟩
    · obtain ⟨l', h1, h2⟩ := ih hg
      exact ⟨l', h1, by simp only [List.length_cons]; omega⟩

theorem Chain.nodup {W : World} {f : FId} {l : List FId} (h : Chain W f l) : l.Nodup := by
  induction h with
  | top _ => simp
  | inner hp hc ih =>
    rw [List.nodup_cons]
    refine ⟨fun hm => ?_, ih⟩
    obtain ⟨l', h1, h2⟩ := hc.suffix hm
    have := h1.unique (.inner hp hc)
    subst this
    simp only [List.length_cons] at h2
    omega

theorem Chain.lt {W : World} (hi : Inv W) {f : FId} {l : List FId} (h : Chain W f l)
    (hf : f < W.nF) : ∀ g ∈ l, g < W.nF := by
  induction h with
  | top _ => intro g hg; rw [List.mem_singleton] at hg; subst hg; exact hf
  | inner hp hc ih =>
    intro g hg
    rcases List.mem_cons.1 hg with rfl | hg
    · exact hf
    · exact ih (hi.par _ _ hp).1 g hg

theorem FullName.chain {W : World} {f : FId} {s t : Txt} (h : FullName W f s t) :
    ∃ l, Chain W f l ∧ ∀ n, l.length ≤ n → handleAux W n f s = t := by
  induction h with
  | top hn =>
    refine ⟨_, .top hn, fun n hl => ?_⟩
    cases n with
    | zero => simp at hl
    | succ n => simp [handleAux, hn]
  | inner hp _ ih =>
    obtain ⟨l, hc, hl⟩ := ih
    refine ⟨_, .inner hp hc, fun n hn => ?_⟩
    cases n with
    | zero => simp at hn
    | succ n =>
      simp only [handleAux, hp]
      exact hl n (by simp only [List.length_cons] at hn; omega)

theorem FullName.handle {W : World} (hi : Inv W) {f : FId} {s t : Txt} (h : FullName W f s t)
    (hf : f < W.nF) : handleAux W (W.nF + 1) f s = t := by
  obtain ⟨l, hc, hl⟩ := h.chain
  apply hl
  have := List.Nodup.length_le_of_subset (l₂ := List.range W.nF) hc.nodup
    (fun g hg => List.mem_range.2 (hc.lt hi hf g hg))
  rw [List.length_range] at this
  omega

theorem FullName.plain {W : World} (hi : Inv W) {label : Guard → Txt} {pal : Nat → Txt}
    (ht : Texts W label pal) {f : FId} {s t : Txt} (h : FullName W f s t) (hf : f < W.nF)
    (hs : Plain s) : Plain t := by
  induction h with
  | top _ => exact hs
  | inner hp _ ih =>
    apply ih (hi.par _ _ hp).1
    refine ⟨by simp, fun c hc => ?_⟩
    simp only [List.mem_append, List.mem_cons] at hc
    rcases hc with hc | rfl | hc
    · exact (ht.fsm _ hf).2 c hc
    · decide
    · exact hs.2 c hc

/-! ## Lemmas: the search -/

theorem search_closed {W : World} {top : FId} (hc : Closed W top) : ∀ (n : Nat) (q res : List SId),
    (∀ s ∈ q, Found W top s) → search W top n q res res = bfs W top n q res
  | n, [], res, _ => by cases n <;> rfl
  | 0, _ :: _, _, _ => rfl
  | n + 1, s :: q, res, h => by
    have hs := h s List.mem_cons_self
    have he : extras W top s = [] := by
      unfold extras
      rw [List.filter_eq_nil_iff]
      intro t ht
      obtain ⟨x, hx, rfl⟩ := List.mem_map.1 ht
      have := hc s hs x hx
      unfold succs at this
      simp [(List.mem_filter.1 this).2]
    simp only [search, bfs, he]
    split
    · exact search_closed hc n q res fun x hx => h x (List.mem_cons_of_mem _ hx)
    · apply search_closed hc n
      intro x hx
      rcases List.mem_append.1 hx with hx | hx
      · exact h x (List.mem_cons_of_mem _ hx)
      · exact .step hs hx

theorem shown_closed {W : World} {top : FId} (hc : Closed W top) (n : Nat) :
    shownStates W top n = allStates W top n :=
  search_closed hc n _ [] fun _ hs => .own hs

theorem found_lt {W : World} (hi : Inv W) {top : FId} {s : SId} (h : Found W top s) :
    s < W.nS ∧ (W.S s).fsm < W.nF := by
  have : s < W.nS := by
    induction h with
    | own h => exact (hi.own top _ h).1
    | @step s t _ ht ih =>
      unfold succs at ht
      obtain ⟨p, hp, rfl⟩ := List.mem_map.1 (List.mem_filter.1 ht).1
      exact hi.tgt s ih p hp
  exact ⟨this, (hi.all s this).1⟩

theorem read_lines {is es : List Item} {name : Txt} (hn : Plain name)
    (hi : ∀ i ∈ is, i.good) (he : ∀ i ∈ es, i.good) :
    edgesOf (unlines ((header ++ (name ++ open_)) :: rank :: [] :: is.map Item.line ++
      [] :: es.map Item.line ++ [['}']])) = (is ++ es).filterMap Item.asEdge ∧
    nodesOf (unlines ((header ++ (name ++ open_)) :: rank :: [] :: is.map Item.line ++
      [] :: es.map Item.line ++ [['}']])) = (is ++ es).filterMap Item.asNode := by
  have hnl : ∀ l ∈ (header ++ (name ++ open_)) :: rank :: [] :: is.map Item.line ++
      [] :: es.map Item.line ++ [['}']], '\n' ∉ l := by
    intro l hl
    simp only [List.cons_append, List.mem_cons, List.mem_append, List.mem_map,
      List.not_mem_nil, or_false] at hl
    rcases hl with rfl | rfl | rfl | (⟨i, h, rfl⟩ | rfl | ⟨i, h, rfl⟩) | rfl
    · have l1 : '\n' ∉ header := by decide
      have l2 : '\n' ∉ open_ := by decide
      simp [l1, l2, hn.nl]
    · decide
    · simp
    · exact line_nl (hi i h)
    · simp
    · exact line_nl (he i h)
    · decide
  obtain ⟨i1, i2⟩ := read_items is hi
  obtain ⟨e1, e2⟩ := read_items es he
  have h1 : readEdge (header ++ (name ++ open_)) = none := rfl
  have h2 : readNode (header ++ (name ++ open_)) = none := rfl
  have h3 : readEdge rank = none := rfl
  have h4 : readNode rank = none := rfl
  have h5 : readEdge [] = none := rfl
  have h6 : readNode [] = none := rfl
  have h7 : readEdge ['}'] = none := rfl
  have h8 : readNode ['}'] = none := rfl
  unfold edgesOf nodesOf
  rw [pieces_unlines hnl]
  simp only [List.filterMap_append, List.filterMap_cons, List.cons_append, List.filterMap_nil,
    h1, h2, h3, h4, h5, h6, h7, h8, i1, i2, e1, e2, List.append_nil, and_self]

/-! ## The theorems: the diagram -/

/-- **The diagram shows the machine**, for machines no transition leaves, whose start state is one
of their states and whose states have different full names.  Missing from the full claim: machines
where one of these fails, for which it is false. -/
theorem diagram_partial {W : World} (hr : Reach W) {top : FId} (htop : top < W.nF)
    {label : Guard → Txt} {pal : Nat → Txt} (ht : Texts W label pal) (hc : Closed W top)
    (hst : ∀ s, (W.F top).start = some s → Found W top s)
    (hname : ∀ s, Found W top s → ∃ x, FullName W (W.S s).fsm (W.S s).name.toList x)
    (hdist : ∀ s s' x, Found W top s → Found W top s' →
      FullName W (W.S s).fsm (W.S s).name.toList x →
      FullName W (W.S s').fsm (W.S s').name.toList x → s = s')
    {n : Nat} {r : Res Txt} (h : dotGraph W top label pal n = some r) :
    ∃ states t, r = .ok t ∧ Shows W top label states t := by
  have hi := reach_inv hr
  unfold dotGraph at h
  rw [shown_closed hc] at h
  obtain ⟨states, hs, h⟩ := Option.map_eq_some_iff.1 h
  have hall : IsStates W top states := states_exact hs
  have hfull : ∀ s, Found W top s →
      FullName W (W.S s).fsm (W.S s).name.toList (handle W s) := by
    intro s hf
    obtain ⟨x, hx⟩ := hname s hf
    have : handle W s = x := hx.handle hi (found_lt hi hf).2
    rw [this]; exact hx
  have hplain : ∀ s, Found W top s → Plain (handle W s) := fun s hf =>
    (hfull s hf).plain hi ht (found_lt hi hf).2 (ht.state s (found_lt hi hf).1)
  have hinj : ∀ s s', Found W top s → Found W top s' → handle W s = handle W s' → s = s' :=
    fun s s' h1 h2 e => hdist s s' _ h1 h2 (hfull s h1) (e ▸ hfull s' h2)
  have hcol : ∀ s, Quotable (colour W pal states s) := fun s => ht.pal _
  have hgo : ∀ i ∈ otherItems W top pal states, i.good := by
    intro i hi'
    obtain ⟨s, hs', rfl⟩ := List.mem_map.1 hi'
    exact ⟨.inl rfl, hplain s ((hall.2 s).1 (List.mem_filter.1 hs').1), hcol s⟩
  have hge : ∀ i ∈ edgeItems W label states, i.good := by
    intro i hi'
    obtain ⟨s, hs', hi'⟩ := List.mem_flatMap.1 hi'
    obtain ⟨q, hq, rfl⟩ := List.mem_map.1 hi'
    have hf := (hall.2 s).1 hs'
    refine ⟨hplain s hf, hplain q.2 (.step hf (hc s hf q hq)), fun x hx => ?_⟩
    cases hq1 : q.1 with
    | none => rw [hq1] at hx; cases hx
    | some g => rw [hq1] at hx; cases hx; exact ht.guard g
  have hedges : (edgeItems W label states).filterMap Item.asEdge =
      states.flatMap fun s => (W.S s).trans.map fun q =>
        (handle W s, handle W q.2, q.1.map label) := by
    unfold edgeItems
    rw [List.filterMap_flatMap]
    congr 1
    funext s
    rw [List.filterMap_map]
    show List.filterMap (fun q => some _) _ = _
    rw [List.filterMap_eq_map']
  have hedges0 : (edgeItems W label states).filterMap Item.asNode = [] := by
    rw [List.filterMap_eq_nil_iff]
    intro i hi'
    obtain ⟨s, _, hi'⟩ := List.mem_flatMap.1 hi'
    obtain ⟨q, _, rfl⟩ := List.mem_map.1 hi'
    rfl
  have hothers : (otherItems W top pal states).filterMap Item.asNode =
      (states.filter fun s => handle W s ≠ startName W top).map fun s =>
        (circle, handle W s, colour W pal states s, handle W s) := by
    unfold otherItems
    rw [List.filterMap_map]
    show List.filterMap (fun q => some _) _ = _
    rw [List.filterMap_eq_map']
  have hothers0 : (otherItems W top pal states).filterMap Item.asEdge = [] := by
    rw [List.filterMap_eq_nil_iff]
    intro i hi'
    obtain ⟨s, _, rfl⟩ := List.mem_map.1 hi'
    rfl
  obtain ⟨st, hst1, hgs, hst2, hst3⟩ : ∃ st, startItems W top pal states = .ok st ∧
      (∀ i ∈ st, i.good) ∧ st.filterMap Item.asEdge = [] ∧
      (st.filterMap Item.asNode ++ (otherItems W top pal states).filterMap Item.asNode).Perm
        (states.map fun s => (if (W.F top).start = some s then double else circle, handle W s,
          colour W pal states s, handle W s)) := by
    cases hs0 : (W.F top).start with
    | none =>
      refine ⟨[], by simp [startItems, hs0], by simp, rfl, ?_⟩
      rw [hothers]
      have : states.filter (fun s => decide (handle W s ≠ startName W top)) = states := by
        rw [List.filter_eq_self]
        intro s hs'
        simp [startName, hs0, (hplain s ((hall.2 s).1 hs')).1]
      rw [this]
      simp
    | some s0 =>
      have hf0 := hst s0 hs0
      have hm0 := (hall.2 s0).2 hf0
      have hne : handle W s0 ≠ [] := (hplain s0 hf0).1
      refine ⟨[.node double (handle W s0) (colour W pal states s0)], ?_, ?_, rfl, ?_⟩
      · simp [startItems, hs0, hne, hm0]
      · intro i hi'
        rw [List.mem_singleton] at hi'
        subst hi'
        exact ⟨.inr rfl, hplain s0 hf0, hcol s0⟩
      · rw [hothers]
        have e1 : states.filter (fun s => decide (handle W s ≠ startName W top)) = states.erase s0 := by
          rw [List.Nodup.erase_eq_filter hall.1]
          apply List.filter_congr
          intro s hs'
          simp only [startName, hs0]
          by_cases e : s = s0
          · subst e; simp
          · have : handle W s ≠ handle W s0 :=
              fun e' => e (hinj s s0 ((hall.2 s).1 hs') hf0 e')
            simp [e, this]
        rw [e1]
        have e2 := (List.perm_cons_erase hm0).map fun s =>
          (if some s0 = some s then double else circle, handle W s, colour W pal states s, handle W s)
        refine List.Perm.trans ?_ e2.symm
        simp only [List.map_cons, if_true]
        refine List.Perm.cons _ (List.Perm.of_eq ?_)
        apply List.map_congr_left
        intro s hs'
        have : s ≠ s0 := by
          rintro rfl
          exact (List.Nodup.not_mem_erase hall.1) hs'
        have h' : ¬ some s0 = some s := fun e => this (Option.some.inj e).symm
        rw [if_neg h']
  have hread := read_lines (is := st ++ otherItems W top pal states)
    (es := edgeItems W label states) (ht.fsm top htop)
    (fun i h' => (List.mem_append.1 h').elim (hgs i) (hgo i)) hge
  rw [lines, hst1] at h
  simp only [Res.ok_bind] at h
  refine ⟨states, _, h.symm, hall, handle W, colour W pal states, hfull, hinj, ?_, ?_, ?_⟩
  · intro s s' e
    simp only [colour, e]
  · rw [hread.1, List.filterMap_append, List.filterMap_append, hst2, hothers0, hedges]
    exact List.Perm.refl _
  · rw [hread.2, List.filterMap_append, hedges0, List.append_nil, List.filterMap_append]
    exact hst3

/-- The diagram of such a machine is made. -/
theorem diagram_made {W : World} (hr : Reach W) {top : FId} (hc : Closed W top)
    (label : Guard → Txt) (pal : Nat → Txt) : ∃ n r, dotGraph W top label pal n = some r := by
  obtain ⟨n, states, h⟩ := search_terminates hr top
  exact ⟨n, _, by rw [dotGraph, shown_closed hc, h]; rfl⟩

/-! ### Machines without nesting -/

/-- A machine that never had a parent or a child: its transitions stay inside. -/
def Stay (W : World) : Prop :=
  ∀ s < W.nS, (W.F (W.S s).fsm).parent = none → (W.F (W.S s).fsm).kids = [] →
    ∀ q ∈ (W.S s).trans, (W.S q.2).fsm = (W.S s).fsm

theorem root_none {W : World} {f : FId} (h : (W.F f).parent = none) : ∀ n, root W n f = f
  | 0 => rfl
  | n + 1 => by simp [root, h]

theorem stay_step {W W' : World} (hi : Inv W) (h : Stay W) {c : Call} (hv : c.valid W)
    (hc : call W c = .ok W') : Stay W' := by
  cases c with
  | newFsm g n =>
    simp only [call, newFsm] at hc
    split at hc
    · cases hc
    · cases hc
      intro s hs h1 h2 q hq
      have hne : (W.S s).fsm ≠ W.nF := Nat.ne_of_lt (hi.all s hs).1
      simp only [upd_ne _ _ hne] at h1 h2
      exact h s hs h1 h2 q hq
  | addState f n =>
    simp only [call, addState] at hc
    split at hc
    · cases hc
    · cases hc
      intro s hs h1 h2 q hq
      simp only at hs h1 h2 hq ⊢
      by_cases e : s = W.nS
      · subst e; rw [upd_self] at hq; cases hq
      · rw [upd_ne _ _ e] at h1 h2 hq ⊢
        have hs' : s < W.nS := by omega
        have hqn : q.2 ≠ W.nS := Nat.ne_of_lt (hi.tgt s hs' q hq)
        rw [upd_ne _ _ hqn]
        apply h s hs' _ _ q hq
        · by_cases e' : (W.S s).fsm = f
          · rw [e', upd_self] at h1; rw [e']; exact h1
          · rw [upd_ne _ _ e'] at h1; exact h1
        · by_cases e' : (W.S s).fsm = f
          · rw [e', upd_self] at h2; rw [e']; exact h2
          · rw [upd_ne _ _ e'] at h2; exact h2
  | addChild p d =>
    simp only [call, addChild] at hc
    split at hc
    · cases hc
    · cases hc
      intro s hs h1 h2 q hq
      simp only at h1 h2 hs hq ⊢
      by_cases e : (W.S s).fsm = d
      · rw [e, upd_self] at h1; cases h1
      · rw [upd_ne _ _ e] at h1 h2
        by_cases e' : (W.S s).fsm = p
        · rw [e', upd_self] at h1 h2
          apply h s hs _ _ q hq
          · rw [e']; exact h1
          · rw [e']
            simp only at h2
            split at h2
            · exact h2
            · simp at h2
        · rw [upd_ne _ _ e'] at h1 h2
          exact h s hs h1 h2 q hq
  | declOutput f o =>
    simp only [call, declOutput] at hc
    split at hc
    · cases hc; exact h
    · cases hc
      intro s hs h1 h2 q hq
      simp only at h1 h2 hs hq ⊢
      apply h s hs _ _ q hq
      · by_cases e' : (W.S s).fsm = f
        · rw [e', upd_self] at h1; rw [e']; exact h1
        · rw [upd_ne _ _ e'] at h1; exact h1
      · by_cases e' : (W.S s).fsm = f
        · rw [e', upd_self] at h2; rw [e']; exact h2
        · rw [upd_ne _ _ e'] at h2; exact h2
  | setStart f o =>
    simp only [call, setStart] at hc
    cases hc
    intro s hs h1 h2 q hq
    simp only at h1 h2 hs hq ⊢
    apply h s hs _ _ q hq
    · by_cases e' : (W.S s).fsm = f
      · rw [e', upd_self] at h1; rw [e']; exact h1
      · rw [upd_ne _ _ e'] at h1; exact h1
    · by_cases e' : (W.S s).fsm = f
      · rw [e', upd_self] at h2; rw [e']; exact h2
      · rw [upd_ne _ _ e'] at h2; exact h2
  | next n s t cond =>
    cases t with
    | none => simp [call, next] at hc
    | some t =>
      have hb : below W n (root W n (W.S s).fsm) (W.S t).fsm = true ∧ W' =
          { W with S := upd W.S s { W.S s with trans := (W.S s).trans ++ [(cond, t)] } } := by
        simp only [call, next] at hc
        split at hc
        · cases hc
        · rename_i hb
          refine ⟨by simpa using hb, ?_⟩
          cases cond with
          | none => cases hc; rfl
          | some g =>
            simp only at hc
            split at hc
            · cases hc
            · split at hc
              · cases hc
              · split at hc
                · cases hc
                · cases hc; rfl
      obtain ⟨hb, rfl⟩ := hb
      have hfsm : ∀ x, (upd W.S s { W.S s with trans := (W.S s).trans ++ [(cond, t)] } x).fsm =
          (W.S x).fsm := by
        intro x
        by_cases e : x = s
        · subst e; rw [upd_self]
        · rw [upd_ne _ _ e]
      intro x hx h1 h2 q hq
      simp only [hfsm] at h1 h2 hx hq ⊢
      by_cases e : x = s
      · subst e
        rw [upd_self] at hq
        rcases List.mem_append.1 hq with hq | hq
        · exact h x hx h1 h2 q hq
        · rw [List.mem_singleton] at hq
          subst hq
          rw [root_none h1] at hb
          exact below_flat (fun f hp => (hi.par f _ hp).2 h2) n _ hb
      · rw [upd_ne _ _ e] at hq
        exact h x hx h1 h2 q hq
  | stateOutput s o =>
    simp only [call, stateOutput, Res.bind_eq_ok] at hc
    obtain ⟨l, _, hc⟩ := hc
    cases hc
    have hfsm : ∀ x, (upd W.S s { W.S s with outs := l } x).fsm = (W.S x).fsm ∧
        (upd W.S s { W.S s with outs := l } x).trans = (W.S x).trans := by
      intro x
      by_cases e : x = s
      · subst e; rw [upd_self]; exact ⟨rfl, rfl⟩
      · rw [upd_ne _ _ e]; exact ⟨rfl, rfl⟩
    intro x hx h1 h2 q hq
    simp only [(hfsm _).1, (hfsm _).2] at h1 h2 hx hq ⊢
    exact h x hx h1 h2 q hq

theorem reach_stay {W : World} (h : Reach W) : Stay W := by
  induction h with
  | init => intro s hs; exact absurd hs (Nat.not_lt_zero s)
  | step hr hv hc ih => exact stay_step (reach_inv hr) ih hv hc

theorem flat_own {W : World} (hi : Inv W) {top : FId} (hk : (W.F top).kids = []) {s : SId}
    (h : Found W top s) : s ∈ (W.F top).own ∧ (W.S s).fsm = top := by
  have hpar : ∀ f, (W.F f).parent ≠ some top := fun f hp => (hi.par f top hp).2 hk
  cases h with
  | own h => exact ⟨h, (hi.own top _ h).2⟩
  | @step s' _ hs ht =>
    unfold succs at ht
    obtain ⟨h1, h2⟩ := List.mem_filter.1 ht
    obtain ⟨p, hp, rfl⟩ := List.mem_map.1 h1
    have hf := below_flat hpar _ _ h2
    have := (hi.all p.2 (hi.tgt s' (found_lt hi hs).1 p hp)).2
    rw [hf] at this
    exact ⟨this, hf⟩

theorem inj_of_nodup {α β : Type} {f : β → α} : ∀ {l : List β}, (l.map f).Nodup →
    ∀ {a b}, a ∈ l → b ∈ l → f a = f b → a = b
  | [], _, _, _, h, _, _ => by cases h
  | x :: l, hn, a, b, ha, hb, e => by
    rw [List.map_cons, List.nodup_cons] at hn
    rcases List.mem_cons.1 ha with h1 | h1 <;> rcases List.mem_cons.1 hb with h2 | h2
    · rw [h1, h2]
    · exact absurd (h1 ▸ e ▸ List.mem_map_of_mem h2) hn.1
    · exact absurd (h2 ▸ e.symm ▸ List.mem_map_of_mem h1) hn.1
    · exact inj_of_nodup hn.2 h1 h2 e

theorem nodup_of_map {α β : Type} {f : β → α} : ∀ {l : List β}, (l.map f).Nodup → l.Nodup
  | [], _ => List.nodup_nil
  | x :: l, h => by
    rw [List.map_cons, List.nodup_cons] at h
    exact List.nodup_cons.2 ⟨fun hx => h.1 (List.mem_map_of_mem hx), nodup_of_map h.2⟩

/-- **The diagram shows every machine without nesting** whose start state, if set, is its own:
nothing else is asked of how it was built. -/
theorem diagram_flat {W : World} (hr : Reach W) {top : FId} (htop : top < W.nF)
    (hp : (W.F top).parent = none) (hk : (W.F top).kids = [])
    {label : Guard → Txt} {pal : Nat → Txt} (ht : Texts W label pal)
    (hst : ∀ s, (W.F top).start = some s → s ∈ (W.F top).own) :
    (∃ n r, dotGraph W top label pal n = some r) ∧
    ∀ n r, dotGraph W top label pal n = some r →
      ∃ states t, r = .ok t ∧ Shows W top label states t := by
  have hi := reach_inv hr
  have hc : Closed W top := by
    intro s hf q hq
    obtain ⟨h1, h2⟩ := flat_own hi hk hf
    have := reach_stay hr s (found_lt hi hf).1 (by rw [h2]; exact hp) (by rw [h2]; exact hk) q hq
    unfold succs
    rw [List.mem_filter]
    exact ⟨List.mem_map_of_mem hq, by simp [this, h2, below]⟩
  refine ⟨diagram_made hr hc label pal, fun n r h => ?_⟩
  have hn : ∀ s, Found W top s → ∀ x, FullName W (W.S s).fsm (W.S s).name.toList x ↔
      x = (W.S s).name.toList := by
    intro s hf x
    rw [(flat_own hi hk hf).2]
    constructor
    · intro h
      cases h with
      | top _ => rfl
      | inner h' _ => rw [hp] at h'; cases h'
    · rintro rfl; exact .top hp
  refine diagram_partial hr htop ht hc (fun s hs => .own (hst s hs))
    (fun s hf => ⟨_, (hn s hf _).2 rfl⟩) ?_ h
  intro s s' x hf hf' h1 h2
  rw [hn s hf] at h1
  rw [hn s' hf'] at h2
  exact inj_of_nodup (hi.names top) (flat_own hi hk hf).1 (flat_own hi hk hf').1
    (String.toList_inj.1 (h1 ▸ h2))

/-! ## The theorems: the table -/

/-- A value as text; a null pointer has none. -/
def valueText (vname : Nat → Txt) (etext : Ir.Expr → Txt) (o : Out) : Option Txt :=
  match o.x with
  | .null => none
  | .self => some (vname o.v)
  | .val e => some (etext e)

/-- The text is a table with one column for each output, in the order of the names, and one row for
each state of the machine itself, with the values the state gives. -/
def TableShows (W : World) (top : FId) (le : Txt → Txt → Prop) (vname : Nat → Txt)
    (etext : Ir.Expr → Txt) (outs : SId → List Out) (t : Txt) : Prop :=
  ∃ (cols : List Nat) (value : SId → Nat → Txt),
    cols.Perm ((W.F top).decl.map (·.v)) ∧
    cols.Pairwise (fun a b => le (vname a) (vname b)) ∧
    (W.F top).own.Nodup ∧
    (∀ s ∈ (W.F top).own, ∀ v ∈ cols, ∃ o ∈ outs s, o.v = v ∧
      valueText vname etext o = some (value s v)) ∧
    readTable t = (['S', 't', 'a', 't', 'e'] :: cols.map vname) ::
      (W.F top).own.map (fun s => (W.S s).name.toList :: cols.map (value s)) ++ [[[]]]

/-- A text that can stand in a table. -/
def Cell (t : Txt) : Prop := ',' ∉ t ∧ '\n' ∉ t

theorem cell_ok {vname : Nat → Txt} {etext : Ir.Expr → Txt} {outs : List Out} {v : Nat}
    (h : ∃ o ∈ outs, o.v = v) (hn : ∀ o ∈ outs, o.v = v → o.x ≠ .null) :
    ∃ c, cell vname etext outs v = .ok c ∧ ∃ o ∈ outs, o.v = v ∧
      valueText vname etext o = some c := by
  unfold cell
  cases hf : outs.find? (fun o => decide (o.v = v)) with
  | none =>
    obtain ⟨o, ho, e⟩ := h
    rw [List.find?_eq_none] at hf
    exact absurd (decide_eq_true e) (hf o ho)
  | some o =>
    have hm := List.mem_of_find?_eq_some hf
    have he : o.v = v := by simpa using List.find?_some hf
    have := hn o hm he
    simp only
    cases hx : o.x with
    | null => exact absurd hx this
    | self => exact ⟨_, rfl, o, hm, he, by simp [valueText, hx, he]⟩
    | val e => exact ⟨_, rfl, o, hm, he, by simp [valueText, hx]⟩

theorem cells_ok {vname : Nat → Txt} {etext : Ir.Expr → Txt} {outs : List Out} : ∀ (vs : List Nat),
    (∀ v ∈ vs, (∃ o ∈ outs, o.v = v) ∧ ∀ o ∈ outs, o.v = v → o.x ≠ .null) →
    cells vname etext outs vs =
      .ok (vs.map fun v => match cell vname etext outs v with | .ok c => c | _ => [])
  | [], _ => rfl
  | v :: vs, h => by
    obtain ⟨c, hc, _⟩ := cell_ok (vname := vname) (etext := etext) (h v List.mem_cons_self).1
      (h v List.mem_cons_self).2
    simp only [cells, hc, cells_ok vs fun x hx => h x (List.mem_cons_of_mem _ hx), Res.ok_bind,
      List.map_cons]

theorem rows_ok {W : World} {vname : Nat → Txt} {etext : Ir.Expr → Txt} {outs : SId → List Out}
    {sorted : List Nat} : ∀ (ss : List SId),
    (∀ s ∈ ss, ∀ v ∈ sorted, (∃ o ∈ outs s, o.v = v) ∧ ∀ o ∈ outs s, o.v = v → o.x ≠ .null) →
    rows W vname etext outs sorted ss = .ok (ss.map fun s => (W.S s).name.toList ::
      sorted.map fun v => match cell vname etext (outs s) v with | .ok c => c | _ => [])
  | [], _ => rfl
  | s :: ss, h => by
    simp only [rows, cells_ok sorted (h s List.mem_cons_self),
      rows_ok ss fun x hx => h x (List.mem_cons_of_mem _ hx), Res.ok_bind, List.map_cons]

theorem csv_nl {r : List Txt} (h : ∀ x ∈ r, '\n' ∉ x) : '\n' ∉ csv r := by
  cases r with
  | nil => simp [csv]
  | cons c cs =>
    simp only [csv, List.mem_append, List.mem_flatMap, List.mem_cons, not_or, not_exists, not_and]
    exact ⟨h c List.mem_cons_self, fun x hx => ⟨by decide, h x (List.mem_cons_of_mem _ hx)⟩⟩

/-- **The table shows the outputs**, when each state has a value for each output and no text in it
has a comma or a newline.  Missing from the full claim: values with commas, states without a value,
states of inner machines. -/
theorem table_partial {W : World} (hr : Reach W) {top : FId} {lt : Txt → Txt → Prop}
    {vname : Nat → Txt} {etext : Ir.Expr → Txt} {outs : SId → List Out} {sorted : List Nat}
    (hsort : sorted.Perm ((W.F top).decl.map (·.v)) ∧
      sorted.Pairwise fun a b => ¬ lt (vname b) (vname a))
    (hv : ∀ s ∈ (W.F top).own, ∀ d ∈ (W.F top).decl,
      (∃ o ∈ outs s, o.v = d.v) ∧ ∀ o ∈ outs s, o.v = d.v → o.x ≠ .null)
    (hs : ∀ s ∈ (W.F top).own, Cell (W.S s).name.toList) (hn : ∀ v, Cell (vname v))
    (he : ∀ e, Cell (etext e)) :
    ∃ t, outputTable W top vname etext outs sorted = .ok t ∧
      TableShows W top (fun a b => ¬ lt b a) vname etext outs t := by
  have hi := reach_inv hr
  have hv' : ∀ s ∈ (W.F top).own, ∀ v ∈ sorted,
      (∃ o ∈ outs s, o.v = v) ∧ ∀ o ∈ outs s, o.v = v → o.x ≠ .null := by
    intro s hs v hv1
    obtain ⟨d, hd, rfl⟩ := List.mem_map.1 (hsort.1.mem_iff.1 hv1)
    exact hv s hs d hd
  refine ⟨_, by rw [outputTable, rows_ok _ hv']; rfl, sorted,
    fun s v => match cell vname etext (outs s) v with | .ok c => c | _ => [], hsort.1, hsort.2,
    nodup_of_map (hi.names top), ?_, ?_⟩
  · intro s hs v hv1
    obtain ⟨c, hc, o, ho, e, ht⟩ := cell_ok (vname := vname) (etext := etext) (hv' s hs v hv1).1
      (hv' s hs v hv1).2
    exact ⟨o, ho, e, by simp only [hc]; exact ht⟩
  · have hcell : ∀ s ∈ (W.F top).own, ∀ v ∈ sorted,
        Cell (match cell vname etext (outs s) v with | .ok c => c | _ => []) := by
      intro s hs v hv1
      obtain ⟨c, hc, o, ho, e, ht⟩ := cell_ok (vname := vname) (etext := etext) (hv' s hs v hv1).1
        (hv' s hs v hv1).2
      rw [hc]
      unfold valueText at ht
      split at ht
      · cases ht
      · cases ht; exact hn _
      · cases ht; exact he _
    have hrow : ∀ r ∈ (stateWord :: sorted.map vname) :: (W.F top).own.map (fun s =>
        (W.S s).name.toList :: sorted.map fun v =>
          match cell vname etext (outs s) v with | .ok c => c | _ => []),
        r ≠ [] ∧ ∀ x ∈ r, Cell x := by
      intro r hr'
      rcases List.mem_cons.1 hr' with rfl | hr'
      · refine ⟨by simp, fun x hx => ?_⟩
        rcases List.mem_cons.1 hx with rfl | hx
        · exact ⟨by decide, by decide⟩
        · obtain ⟨v, _, rfl⟩ := List.mem_map.1 hx; exact hn v
      · obtain ⟨s, hs1, rfl⟩ := List.mem_map.1 hr'
        refine ⟨by simp, fun x hx => ?_⟩
        rcases List.mem_cons.1 hx with rfl | hx
        · exact hs s hs1
        · obtain ⟨v, hv1, rfl⟩ := List.mem_map.1 hx; exact hcell s hs1 v hv1
    unfold readTable
    rw [pieces_unlines]
    · rw [List.map_append, List.map_map]
      have : ∀ r ∈ (stateWord :: sorted.map vname) :: (W.F top).own.map (fun s =>
          (W.S s).name.toList :: sorted.map fun v =>
            match cell vname etext (outs s) v with | .ok c => c | _ => []),
          (pieces ',' ∘ csv) r = r := by
        intro r hr'
        obtain ⟨h1, h2⟩ := hrow r hr'
        cases r with
        | nil => exact absurd rfl h1
        | cons c cs =>
          exact pieces_csv (h2 c List.mem_cons_self).1
            fun x hx => (h2 x (List.mem_cons_of_mem _ hx)).1
      rw [List.map_congr_left this, List.map_id'']
      · rfl
      · intro _; rfl
    · intro l hl
      obtain ⟨r, hr', rfl⟩ := List.mem_map.1 hl
      exact csv_nl fun x hx => ((hrow r hr').2 x hx).2

/-- After `realize` every state has its values, so the table is made. -/
theorem table_realized {W : World} (hr : Reach W) {top : FId} {c : Cfg} {n : Nat}
    {states : List SId} {r : Realized} (hst : allStates W top n = some states)
    (hre : realize W top c states = .ok r) {lt : Txt → Txt → Prop}
    {vname : Nat → Txt} {etext : Ir.Expr → Txt} {sorted : List Nat}
    (hsort : sorted.Perm ((W.F top).decl.map (·.v)) ∧
      sorted.Pairwise fun a b => ¬ lt (vname b) (vname a))
    (hnull : ∀ s ∈ (W.F top).own, ∀ o ∈ (W.S s).outs, o.x ≠ .null)
    (hs : ∀ s ∈ (W.F top).own, Cell (W.S s).name.toList) (hn : ∀ v, Cell (vname v))
    (he : ∀ e, Cell (etext e)) :
    ∃ t, outputTable W top vname etext r.plan.outs sorted = .ok t ∧
      TableShows W top (fun a b => ¬ lt b a) vname etext r.plan.outs t := by
  have hi := reach_inv hr
  refine table_partial hr hsort ?_ hs hn he
  intro s hs1 d hd
  have hm : s ∈ states := ((states_exact hst).2 s).2 (.own hs1)
  obtain ⟨h1, _, _, h4, _⟩ := outputs_complete hre s hm
  rw [(hi.own top s hs1).2] at h1 h4
  refine ⟨h1 d hd, fun o ho _ => ?_⟩
  rcases h4 o ho with h | h
  · exact hnull s hs1 o h
  · exact h.2

/-! ## Where the code disagrees -/

instance (t : Txt) : Decidable (Plain t) := by unfold Plain; infer_instance

def lab : Guard → Txt := fun g => if g.id = 1 then ['g'] else ['h']
def pal0 : Nat → Txt := fun k => if k = 0 then ['#', '0'] else ['#', '1']

theorem quot_lab (g : Guard) : Quotable (lab g) := by
  unfold lab Quotable; split <;> decide
theorem quot_pal (k : Nat) : Quotable (pal0 k) := by
  unfold pal0 Quotable; split <;> decide

/-- The start state belongs to another machine. -/
def Wout : World := worldOf
  [.newFsm 0 "a", .newFsm 0 "b", .addState 0 "A", .addState 1 "B", .setStart 0 1]

/-- Such a machine has no diagram: a lookup in the table of colours fails. -/
theorem outside_start_throws : Reach Wout ∧ Texts Wout lab pal0 ∧
    (match dotGraph Wout 0 lab pal0 9 with | some (.throw .outOfRange) => true | _ => false) = true :=
  ⟨worldOf_reach (by decide +kernel),
    ⟨by decide +kernel, by decide +kernel, quot_lab, quot_pal⟩, by decide +kernel⟩

theorem not_DiagramClaim : ¬ DiagramClaim := by
  intro h
  obtain ⟨h1, h2, h3⟩ := outside_start_throws
  split at h3
  · rename_i heq
    obtain ⟨_, t, e, _⟩ := h Wout 0 lab pal0 9 _ h1 (by decide +kernel) h2 heq
    cases e
  · cases h3

/-- The state `k_s` of the machine and the state `s` of its inner machine `k`. -/
def Wcol : World := worldOf
  [.newFsm 0 "a", .newFsm 0 "k", .addChild 0 1, .addState 0 "k_s", .addState 1 "s",
   .setStart 0 0, .next 3 0 (some 1) (some g1), .next 3 1 (some 0) (some g2)]

def textOf (x : Option (Res Txt)) : Txt :=
  match x with
  | some (.ok t) => t
  | _ => []

/-- Two states with one full name are drawn as one, with the arrows of both. -/
theorem collision_wrong : Reach Wcol ∧ allStates Wcol 0 9 = some [0, 1] ∧
    (nodesOf (textOf (dotGraph Wcol 0 lab pal0 9))).map (fun x => x.2.2.2) = [['k', '_', 's']] ∧
    edgesOf (textOf (dotGraph Wcol 0 lab pal0 9)) =
      [(['k', '_', 's'], ['k', '_', 's'], some ['g']),
       (['k', '_', 's'], ['k', '_', 's'], some ['h'])] :=
  ⟨worldOf_reach (by decide +kernel), by decide +kernel, by decide +kernel, by decide +kernel⟩

/-- An inner machine with two states that both go back to the state `P` outside. -/
def Wdup : World := worldOf
  [.newFsm 0 "a", .newFsm 0 "k", .addChild 0 1, .addState 0 "P", .addState 1 "s", .addState 1 "t",
   .setStart 0 0, .next 3 0 (some 1) (some g1), .next 3 1 (some 0) (some g1),
   .next 3 2 (some 0) (some g2)]

/-- In the diagram of the inner machine the state outside is drawn twice, and so is its arrow. -/
theorem leaving_wrong : Reach Wdup ∧ Texts Wdup lab pal0 ∧
    (nodesOf (textOf (dotGraph Wdup 1 lab pal0 9))).map (fun x => x.2.2.2) =
      [['k', '_', 's'], ['P'], ['k', '_', 't'], ['P']] ∧
    (edgesOf (textOf (dotGraph Wdup 1 lab pal0 9))).count (['P'], ['k', '_', 's'], some ['g']) = 2 ∧
    (Wdup.S 0).trans.length = 1 :=
  ⟨worldOf_reach (by decide +kernel), ⟨by decide +kernel, by decide +kernel, quot_lab, quot_pal⟩,
    by decide +kernel, by decide +kernel, by decide +kernel⟩

/-- A value with a comma in its text, such as a concatenation `{a, b}`, takes two columns. -/
theorem comma_wrong :
    (match outputTable W3 0 (fun _ => ['o']) (fun _ => ['{', 'a', ',', ' ', 'b', '}'])
        (fun s => (W3.S s).outs) ((W3.F 0).decl.map (·.v)) with
      | .ok t => (readTable t).map List.length
      | _ => []) = [2, 3, 3, 3, 1] := by decide +kernel

/-- A machine with a default for its output, whose only state relies on it. -/
def Wdef : World := worldOf
  [.newFsm 0 "a", .addState 0 "A", .declOutput 0 ⟨7, 2, lit 1⟩, .setStart 0 0,
   .next 3 0 (some 0) none]

/-- Before `realize` the defaults are not known to the states: the table cannot be made. -/
theorem default_throws : Reach Wdef ∧
    (match outputTable Wdef 0 (fun _ => ['o']) (fun _ => ['1']) (fun s => (Wdef.S s).outs) [7] with
      | .throw .outOfRange => true
      | _ => false) = true :=
  ⟨worldOf_reach (by decide +kernel), by decide +kernel⟩

/-- The states of an inner machine have no row, although the search counts them as states. -/
theorem inner_missing : allStates Wcol 0 9 = some [0, 1] ∧
    (match outputTable Wcol 0 (fun _ => ['o']) (fun _ => ['1']) (fun s => (Wcol.S s).outs) [] with
      | .ok t => readTable t
      | _ => []) = [[['S', 't', 'a', 't', 'e']], [['k', '_', 's']], [[]]] :=
  ⟨by decide +kernel, by decide +kernel⟩

/-! ## Examples -/

/-- The three-state machine is drawn. -/
example : ∃ states t, dotGraph W3 0 lab pal0 20 = some (.ok t) ∧ Shows W3 0 lab states t := by
  have ht : Texts W3 lab pal0 := ⟨by decide +kernel, by decide +kernel, quot_lab, quot_pal⟩
  have hst : ∀ s, (W3.F 0).start = some s → s ∈ (W3.F 0).own := by
    intro s hs
    have : (W3.F 0).start = some 0 := by decide +kernel
    rw [this] at hs
    cases hs
    decide +kernel
  have h := (diagram_flat W3_reach (top := 0) (by decide +kernel) (by decide +kernel) rfl ht hst).2
    20
  have hsome : (dotGraph W3 0 lab pal0 20).isSome = true := by decide +kernel
  obtain ⟨r, hr⟩ := Option.isSome_iff_exists.1 hsome
  obtain ⟨states, t, e, hs⟩ := h r hr
  exact ⟨states, t, by rw [hr, e], hs⟩

/-- The table of the realized three-state machine. -/
example : ∃ t, outputTable W3 0 (fun _ => ['o']) (fun _ => ['1']) r3.plan.outs
      ((W3.F 0).decl.map (·.v)) = .ok t ∧
    TableShows W3 0 (fun a b => ¬ a.length > b.length) (fun _ => ['o']) (fun _ => ['1'])
      r3.plan.outs t := by
  refine table_realized (lt := fun a b => a.length < b.length) W3_reach W3_states r3_ok
    ⟨.refl _, ?_⟩ ?_ ?_ (fun _ => ⟨by decide, by decide⟩) (fun _ => ⟨by decide, by decide⟩)
  · rw [List.pairwise_iff_forall_sublist]
    intro a b _
    exact Nat.lt_irrefl _
  · have : ∀ s ∈ (W3.F 0).own, ∀ o ∈ (W3.S s).outs,
        (match o.x with | .null => false | _ => true) = true := by decide +kernel
    intro s hs o ho e
    have := this s hs o ho
    rw [e] at this
    cases this
  · have : ∀ s ∈ (W3.F 0).own, ',' ∉ (W3.S s).name.toList ∧ '\n' ∉ (W3.S s).name.toList := by
      decide +kernel
    exact this

end Kratos.Diagram
