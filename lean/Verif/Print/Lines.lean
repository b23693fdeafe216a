import Verif.Text.Tokens

/-!
# Line numbers of emitted statements (property C51) and comments (property C71)

Models what `SystemVerilogCodeGen` writes to its stream and when it records `verilog_ln` (src/codegen.cc, src/codegen.hh:42-65), for a
generator with `debug` on; `strip_newline` (src/util.cc:226-230); `fix_verilog_ln` (src/codegen.cc:1334-1351) with `StatementGraph`
(src/graph.cc:161-186).

Simplified: indentation is left out, because it has no line breaks; the texts of expressions, names and declarations are arbitrary strings;
the items of a switch come in the order in which they are printed, and the exceptions of the printer are not modelled (for those see C48);
a line number is a natural number instead of a `uint32_t`; the lines recorded for predicates and enumeration values are left out.
-/

namespace Kratos.Lines

open Kratos.Text (Str lineWrap getTokens)

/-! ### Model -/

abbrev Id := Nat

/-- The three places at which the text of a recorded node can start: at the recorded line, in an `always_ff` block, or in the `i`-th line of
the connections of an instance. -/
inductive Place where
  | plain
  | always
  | conn (i : Nat)
  deriving DecidableEq, Repr

/-- What happens to the stream: text, `stream_.endl()` (a line break that is counted), `std::endl` (one that is not), recording the current
line for a node, and the first text of a node (which has no effect). -/
inductive Ev where
  | str (s : Str)
  | endl
  | rawEndl
  | note (i : Id)
  | head (i : Id) (p : Place)
  deriving DecidableEq, Repr

/-- The loop of `strip_newline` after its first round: the position is 1 from then on, because `!=` binds tighter than `=`. -/
def dropNl : Str → Str
  | [] => []
  | c :: r => if '\n' ∈ c :: r then dropNl r else c :: r

/-- `strip_newline`, src/util.cc:226-230. -/
def stripNewline : Str → Str
  | [] => []
  | c :: r => if '\n' ∈ c :: r then c :: dropNl r.tail else c :: r

/-- A comment in front of a node, e.g. src/codegen.cc:30-33, 536-538. -/
def commentEvs (c : Str) : List Ev := if c = [] then [] else [.str "// ".toList, .str (stripNewline c), .endl]

/-- `output_yosys_src`, src/codegen.cc:1211-1216; also for other lines that may be absent. -/
def attrEvs : Option Str → List Ev
  | some a => [.str a, .endl]
  | none => []

/-- The lines of a list, each followed by a line break. -/
def lineEvs (l : List Str) : List Ev := l.flatMap fun s => [.str s, .endl]

/-- The lines of a list, with a line break between them. -/
def sepEvs : List Str → List Ev
  | [] => []
  | [s] => [.str s]
  | s :: t :: l => .str s :: .endl :: sepEvs (t :: l)

/-- A connection of an instance: the statement it comes from, if any, and its text. Simplified: the ports of one interface, which share a
connection, have one statement. -/
abbrev Conn := Option Id × Str

/-- src/codegen.cc:1113-1116: the lines of all connections are recorded before any is printed. -/
def connRecs (l : List Conn) : List Ev := l.flatMap fun c => match c.1 with | some i => [.note i] | none => []

/-- src/codegen.cc:1160-1167; `k`: number of connections printed before. -/
def connText (k : Nat) : List Conn → List Ev
  | [] => []
  | c :: l => (match c.1 with | some i => [.head i (.conn k)] | none => []) ++ .str c.2 :: .endl :: connText (k + 1) l

/-- `generate_port_interface`, src/codegen.cc:1089-1170. -/
def portEvs (l : List Conn) : List Ev :=
  if l = [] then [.str "();".toList, .endl]
  else .str " (".toList :: .endl :: connRecs l ++ connText 0 l ++ [.str ");".toList, .endl, .endl]

/-- src/codegen.cc:837-872. -/
def paramEvs (l : List Str) : List Ev :=
  if l = [] then [.str " ".toList] else .str " #(".toList :: .endl :: sepEvs l ++ [.str ")".toList, .endl]

/-- Blocks: `always_ff`; those printed with their comment; those without. -/
inductive Block where
  | seq | plain | scope
  deriving DecidableEq, Repr

mutual
/-- Statements; every node has an identity and may carry the attribute that `yosys_src` prints. -/
inductive S where
  | assign (i : Id) (a : Option Str) (comment lhs rhs : Str)
  | block (i : Id) (a : Option Str) (k : Block) (comment head label : Str) (body : Ss)
  | ret (i : Id) (a : Option Str) (t : Str)
  | call (i : Id) (a : Option Str) (t : Str)
  | assertValue (a : Option Str) (t : Str)
  | assertElse (a : Option Str) (t : Str) (s : S)
  | property (a : Option Str) (name seq : Str) (act : Option Str)
  | propertyElse (a : Option Str) (name seq act : Str) (s : S)
  | comment (a : Option Str) (t : Str) (w : Nat)
  | raw (a : Option Str) (l : List Str)
  | ite (i : Id) (a : Option Str) (c : Str) (t : S) (ei : Id) (ea : Option Str) (elab_ : Str) (e : Ss)
  | inst (i : Id) (a : Option Str) (comment target : Str) (params : List Str) (name : Str) (ports : List Conn)
  | iface (a : Option Str)
  | switch (a : Option Str) (t : Str) (items : Cs)
  | for_ (i : Id) (a : Option Str) (header : Str) (body : S)
  | delay (a : Option Str) (t : Str)
  | brk (a : Option Str)
inductive Ss where
  | nil
  | cons (s : S) (ss : Ss)
/-- The items of a switch: an absent or empty default; a lone assignment in a block without label; a block. -/
inductive Cs where
  | nil
  | empty (label : Str) (cs : Cs)
  | item (label : Str) (s : S) (cs : Cs)
end

/-- Statements that are printed after `else` without a block, src/codegen.cc:796-799. -/
def S.short : S → Bool
  | .assign .. | .ite .. | .ret .. => true
  | _ => false

def blockStart (k : Block) (i : Id) (comment head label : Str) : List Ev :=
  match k with
  | .seq => commentEvs comment ++ [.note i, .endl, .head i .always, .str head, .str label, .endl]
  | .plain => commentEvs comment ++ [.note i, .head i .plain, .str head, .str label, .endl]
  | .scope => [.note i, .head i .plain, .str head, .str label, .endl]

mutual
/-- `dispatch_node`, src/codegen.cc:424-480, with the functions it calls: assignment 27-101, blocks 534-640, assertions 710-764, comments and
raw text 766-779, `if` 781-808, instances 810-876, `case` 890-930, calls and loops 932-972, delays and `break` 974-1003. -/
def S.evs (W : Nat) : S → List Ev
  | .assign i a comment lhs rhs =>
      attrEvs a ++ commentEvs comment ++ [.note i, .head i .plain, .str lhs] ++ sepEvs (lineWrap rhs W) ++ [.str ";".toList, .endl]
  | .block i a k comment head label body => attrEvs a ++ blockStart k i comment head label ++ body.evs W ++ [.str "end".toList, .str label, .endl]
  | .ret i a t => attrEvs a ++ [.note i, .head i .plain, .str "return ".toList, .str t, .str ";".toList, .endl]
  | .call i a t => attrEvs a ++ [.note i, .head i .plain, .str t, .str ";".toList, .endl]
  | .assertValue a t => attrEvs a ++ [.str "assert (".toList, .str t, .str ");".toList, .endl]
  | .assertElse a t s => attrEvs a ++ [.str "assert (".toList, .str t, .str ") else ".toList] ++ s.evs W
  | .property a name seq act =>
      attrEvs a ++ [.str "property ".toList, .str name, .endl, .str seq, .endl, .str "endproperty".toList, .endl] ++ attrEvs act
  | .propertyElse a name seq act s =>
      attrEvs a ++ [.str "property ".toList, .str name, .endl, .str seq, .endl, .str "endproperty".toList, .endl, .str act] ++ s.evs W
  | .comment a t w => attrEvs a ++ lineEvs ((lineWrap (t.filter (· ≠ '\n')) w).map ("// ".toList ++ ·))
  | .raw a l => attrEvs a ++ lineEvs (l.flatMap (getTokens · "\r\n".toList))
  | .ite i a c t ei ea el e => attrEvs a ++ [.note i, .head i .plain, .str "if (".toList, .str c, .str ") ".toList] ++ t.evs W ++ e.elseEvs W ei ea el
  | .inst i a comment target params name ports =>
      attrEvs a ++ commentEvs comment ++ [.note i, .head i .plain, .str target] ++ paramEvs params ++ .str name :: portEvs ports
  | .iface a => attrEvs a
  | .switch a t items => attrEvs a ++ [.str "case (".toList, .str t, .str ")".toList, .endl] ++ items.evs W ++ [.str "endcase".toList, .endl]
  | .for_ i a header body => attrEvs a ++ [.note i, .head i .plain, .str header] ++ body.evs W
  | .delay a t => attrEvs a ++ [.str t, .str ";".toList, .endl]
  | .brk a => attrEvs a ++ [.str "break;".toList, .endl]
def Ss.evs (W : Nat) : Ss → List Ev
  | .nil => []
  | .cons s ss => s.evs W ++ ss.evs W
/-- The else part, src/codegen.cc:790-807; the else block itself gets a line even if it is not printed. -/
def Ss.elseEvs (W : Nat) : Ss → Id → Option Str → Str → List Ev
  | .nil, _, _, _ => []
  | .cons s .nil, ei, ea, el =>
      if s.short then .str "else ".toList :: [.note ei, .head ei .plain] ++ s.evs W
      else .str "else ".toList :: attrEvs ea ++ [.note ei, .head ei .plain, .str "begin".toList, .str el, .endl] ++ s.evs W ++ [.str "end".toList, .str el, .endl]
  | .cons s (.cons s' ss), ei, ea, el =>
      .str "else ".toList :: attrEvs ea ++ [.note ei, .head ei .plain, .str "begin".toList, .str el, .endl] ++ (s.evs W ++ (s'.evs W ++ ss.evs W)) ++
        [.str "end".toList, .str el, .endl]
def Cs.evs (W : Nat) : Cs → List Ev
  | .nil => []
  | .empty l cs => [.str l, .str ": begin end".toList, .endl] ++ cs.evs W
  | .item l s cs => [.str l, .str ": ".toList] ++ s.evs W ++ cs.evs W
end

/-- Functions, src/codegen.cc:642-708. -/
structure Fn where
  i : Id
  external : Bool
  sig : Str
  ports : List (Id × Str)
  task : Bool
  body : Ss

def fnPorts : List (Id × Str) → List Ev
  | [] => []
  | [(i, t)] => [.note i, .head i .plain, .str t, .endl, .str ");".toList, .endl]
  | (i, t) :: q :: l => [.note i, .head i .plain, .str t, .str ",".toList, .endl] ++ fnPorts (q :: l)

def Fn.evs (W : Nat) (f : Fn) : List Ev :=
  if f.external then []
  else [.note f.i, .head f.i .plain, .str f.sig] ++ (if f.ports = [] then [.str ";".toList, .rawEndl] else [.str "(".toList, .endl]) ++ fnPorts f.ports ++
    [.str "begin".toList, .endl] ++ f.body.evs W ++ [.str "end".toList, .endl, .str (if f.task then "endtask".toList else "endfunction".toList), .endl]

/-- A declaration with a line: identity, attribute, comment, text. -/
structure Decl where
  i : Id
  a : Option Str
  comment : Str
  text : Str

/-- Ports 102-113, variables 157-170 and 341-350. -/
def Decl.evs (d : Decl) : List Ev := attrEvs d.a ++ commentEvs d.comment ++ [.note d.i, .head d.i .plain, .str d.text, .endl]

/-- Instances of interfaces, src/codegen.cc:878-888. -/
structure Iface where
  i : Id
  comment : Str
  text : Str
  ports : List Conn

def Iface.evs (x : Iface) : List Ev := commentEvs x.comment ++ [.note x.i, .head x.i .plain, .str x.text] ++ portEvs x.ports

structure Module where
  i : Id
  package : Option Str
  name : Str
  imports : List Str
  params : List Str
  ifacePorts : List Str
  ports : List Decl
  enums : List (List Str)
  vars : List Decl
  ifaces : List Iface
  fns : List Fn
  stmts : List S

/-- Before the functions, src/codegen.cc:217-237. -/
def Module.decls (m : Module) : List Ev :=
  (match m.package with | some p => [.str "`include ".toList, .str p, .endl, .endl, .str "import ".toList, .str p, .endl] | none => []) ++
  [.note m.i, .head m.i .plain, .str "module ".toList, .str m.name] ++
  (if m.imports = [] then [] else .endl :: lineEvs m.imports) ++
  (if m.params = [] then [] else .str "#(".toList :: .endl :: lineEvs m.params ++ [.str ")".toList, .endl]) ++
  [.str "(".toList, .endl] ++ lineEvs m.ifacePorts ++ m.ports.flatMap Decl.evs ++ [.str ");".toList, .endl, .endl] ++
  m.enums.flatMap lineEvs ++ m.vars.flatMap Decl.evs ++ m.ifaces.flatMap Iface.evs

/-- `output_module_def`, src/codegen.cc:217-246; `W`: the option `line_wrap`. -/
def Module.evs (W : Nat) (m : Module) : List Ev :=
  m.decls ++ m.fns.flatMap (Fn.evs W) ++ m.stmts.flatMap (S.evs W) ++ [.str "endmodule   // ".toList, .str m.name, .endl]

/-- The lines recorded, in order, from line number `c` on (`line_no_`, src/codegen.hh:54-59). -/
def records (c : Nat) : List Ev → List (Id × Nat)
  | [] => []
  | .endl :: l => records (c + 1) l
  | .note i :: l => (i, c) :: records c l
  | _ :: l => records c l

/-- `fix_verilog_ln(generator, k)`: statements in the statement graph, that is those below a top-level statement, and declarations are moved;
`tops`: the top-level statements; functions are not in the graph either. -/
def fixLn (k : Nat) (tops : List Id) (r : Id × Nat) : Id × Nat := if r.1 ∈ tops then r else (r.1, r.2 + k)

/-! ### Specification -/

/-- The text written. -/
def text : List Ev → Str
  | [] => []
  | .str s :: l => s ++ text l
  | .endl :: l => '\n' :: text l
  | .rawEndl :: l => '\n' :: text l
  | _ :: l => text l

/-- The line of what comes after `pre`. -/
def lineAfter (pre : Str) : Nat := 1 + pre.count '\n'

/-- Where the texts of the recorded nodes start, in order, in a file that contains `pre` before. -/
def starts (pre : Str) : List Ev → List (Id × Place × Nat)
  | [] => []
  | .str s :: l => starts (pre ++ s) l
  | .endl :: l => starts (pre ++ ['\n']) l
  | .rawEndl :: l => starts (pre ++ ['\n']) l
  | .head i p :: l => (i, p, lineAfter pre) :: starts pre l
  | .note _ :: l => starts pre l

/-- The next text in the same line. -/
def nextText : List Ev → Option Str
  | .str s :: _ => some s
  | .note _ :: l => nextText l
  | .head _ _ :: l => nextText l
  | _ => none

/-- The first texts of the recorded nodes. -/
def firstTexts : List Ev → List (Id × Option Str)
  | [] => []
  | .head i _ :: l => (i, nextText l) :: firstTexts l
  | _ :: l => firstTexts l

/-- Text without a line break. -/
def Flat (s : Str) : Prop := '\n' ∉ s

instance (s : Str) : Decidable (Flat s) := inferInstanceAs (Decidable ('\n' ∉ s))

/-- Full claim (C51): if names and texts have no line breaks, the lines recorded are those on which the nodes start. -/
def Right (es : List Ev) : Prop := records 1 es = (starts [] es).map fun x => (x.1, x.2.2)

mutual
/-- The texts of the statement have no line breaks; comments and raw text are free. -/
def S.FlatTexts : S → Prop
  | .assign _ a _ lhs _ => (∀ x ∈ a, Flat x) ∧ Flat lhs
  | .block _ a _ _ h l b => (∀ x ∈ a, Flat x) ∧ Flat h ∧ Flat l ∧ b.FlatTexts
  | .ret _ a t => (∀ x ∈ a, Flat x) ∧ Flat t
  | .call _ a t => (∀ x ∈ a, Flat x) ∧ Flat t
  | .assertValue a t => (∀ x ∈ a, Flat x) ∧ Flat t
  | .assertElse a t s => (∀ x ∈ a, Flat x) ∧ Flat t ∧ s.FlatTexts
  | .property a n q c => (∀ x ∈ a, Flat x) ∧ Flat n ∧ Flat q ∧ (∀ x ∈ c, Flat x)
  | .propertyElse a n q c s => (∀ x ∈ a, Flat x) ∧ Flat n ∧ Flat q ∧ Flat c ∧ s.FlatTexts
  | .comment a _ _ => ∀ x ∈ a, Flat x
  | .raw a _ => ∀ x ∈ a, Flat x
  | .ite _ a c t _ ea el e => (∀ x ∈ a, Flat x) ∧ Flat c ∧ t.FlatTexts ∧ (∀ x ∈ ea, Flat x) ∧ Flat el ∧ e.FlatTexts
  | .inst _ a _ t ps n cs => (∀ x ∈ a, Flat x) ∧ Flat t ∧ (∀ x ∈ ps, Flat x) ∧ Flat n ∧ (∀ x ∈ cs, Flat x.2)
  | .iface a => ∀ x ∈ a, Flat x
  | .switch a t cs => (∀ x ∈ a, Flat x) ∧ Flat t ∧ cs.FlatTexts
  | .for_ _ a h b => (∀ x ∈ a, Flat x) ∧ Flat h ∧ b.FlatTexts
  | .delay a t => (∀ x ∈ a, Flat x) ∧ Flat t
  | .brk a => ∀ x ∈ a, Flat x
def Ss.FlatTexts : Ss → Prop
  | .nil => True
  | .cons s ss => s.FlatTexts ∧ ss.FlatTexts
def Cs.FlatTexts : Cs → Prop
  | .nil => True
  | .empty l cs => Flat l ∧ cs.FlatTexts
  | .item l s cs => Flat l ∧ s.FlatTexts ∧ cs.FlatTexts
end

def Decl.FlatTexts (d : Decl) : Prop := (∀ x ∈ d.a, Flat x) ∧ Flat d.text
def Iface.FlatTexts (x : Iface) : Prop := Flat x.text ∧ ∀ c ∈ x.ports, Flat c.2
def Fn.FlatTexts (f : Fn) : Prop := Flat f.sig ∧ (∀ p ∈ f.ports, Flat p.2) ∧ f.body.FlatTexts

structure Module.FlatTexts (m : Module) : Prop where
  package : ∀ x ∈ m.package, Flat x
  name : Flat m.name
  imports : ∀ x ∈ m.imports, Flat x
  params : ∀ x ∈ m.params, Flat x
  ifacePorts : ∀ x ∈ m.ifacePorts, Flat x
  ports : ∀ x ∈ m.ports, x.FlatTexts
  enums : ∀ l ∈ m.enums, ∀ x ∈ l, Flat x
  vars : ∀ x ∈ m.vars, x.FlatTexts
  ifaces : ∀ x ∈ m.ifaces, x.FlatTexts
  fns : ∀ x ∈ m.fns, x.FlatTexts
  stmts : ∀ x ∈ m.stmts, x.FlatTexts

def LineClaim : Prop := ∀ (W : Nat) (m : Module), m.FlatTexts → Right (m.evs W)

/-- A comment that stays in its line. -/
def OneLine (c : Str) : Prop := c.head? ≠ some '\n'

/-- At most the first connection has a line. -/
def OneConn (l : List Conn) : Prop := ∀ c ∈ l.tail, c.1 = none

mutual
/-- No comment starts with a line break. -/
def S.Comments : S → Prop
  | .assign _ _ c _ _ => OneLine c
  | .block _ _ k c _ _ b => (k ≠ .scope → OneLine c) ∧ b.Comments
  | .assertElse _ _ s => s.Comments
  | .propertyElse _ _ _ _ s => s.Comments
  | .ite _ _ _ t _ _ _ e => t.Comments ∧ e.Comments
  | .inst _ _ c _ _ _ _ => OneLine c
  | .switch _ _ cs => cs.Comments
  | .for_ _ _ _ b => b.Comments
  | _ => True
def Ss.Comments : Ss → Prop
  | .nil => True
  | .cons s ss => s.Comments ∧ ss.Comments
def Cs.Comments : Cs → Prop
  | .nil => True
  | .empty _ cs => cs.Comments
  | .item _ s cs => s.Comments ∧ cs.Comments
end

structure Module.Comments (m : Module) : Prop where
  ports : ∀ x ∈ m.ports, OneLine x.comment
  vars : ∀ x ∈ m.vars, OneLine x.comment
  ifaces : ∀ x ∈ m.ifaces, OneLine x.comment
  fns : ∀ x ∈ m.fns, x.body.Comments
  stmts : ∀ x ∈ m.stmts, x.Comments

/-! ### Proof: recorded lines and line breaks that are not counted -/

def endls : List Ev → Nat
  | [] => 0
  | .endl :: l => 1 + endls l
  | _ :: l => endls l

/-- Line breaks that are not counted. -/
def uncounted : List Ev → Nat
  | [] => 0
  | .str s :: l => s.count '\n' + uncounted l
  | .rawEndl :: l => 1 + uncounted l
  | _ :: l => uncounted l

/-- Distance between the line recorded and the line of the text. -/
def Place.off : Place → Nat
  | .plain => 0
  | .always => 1
  | .conn i => i

/-- Starts in terms of counted (`c`) and uncounted (`u`) line breaks. -/
def heads (c u : Nat) : List Ev → List (Id × Place × Nat × Nat)
  | [] => []
  | .str s :: l => heads c (u + s.count '\n') l
  | .endl :: l => heads (c + 1) u l
  | .rawEndl :: l => heads c (u + 1) l
  | .head i p :: l => (i, p, c, u) :: heads c u l
  | .note _ :: l => heads c u l

theorem records_append (c : Nat) : ∀ a b : List Ev, records c (a ++ b) = records c a ++ records (c + endls a) b
  | [], _ => by simp [records, endls]
  | x :: a, b => by
    have ih := fun c => records_append c a b
    cases x <;> simp [records, endls, ih, Nat.add_assoc]

theorem heads_append (c u : Nat) : ∀ a b : List Ev, heads c u (a ++ b) = heads c u a ++ heads (c + endls a) (u + uncounted a) b
  | [], _ => by simp [heads, endls, uncounted]
  | x :: a, b => by
    have ih := fun c u => heads_append c u a b
    cases x <;> simp [heads, endls, uncounted, ih, Nat.add_assoc]

theorem endls_append : ∀ a b : List Ev, endls (a ++ b) = endls a + endls b
  | [], _ => by simp [endls]
  | x :: a, b => by cases x <;> simp [endls, endls_append a b, Nat.add_assoc]

theorem uncounted_append : ∀ a b : List Ev, uncounted (a ++ b) = uncounted a + uncounted b
  | [], _ => by simp [uncounted]
  | x :: a, b => by cases x <;> simp [uncounted, uncounted_append a b, Nat.add_assoc]

theorem starts_heads : ∀ (es : List Ev) (pre : Str) (c u : Nat), lineAfter pre = c + u →
    starts pre es = (heads c u es).map fun x => (x.1, x.2.1, x.2.2.1 + x.2.2.2)
  | [], _, _, _, _ => rfl
  | .str s :: l, pre, c, u, h => starts_heads l _ _ _ (by simp only [lineAfter, List.count_append] at *; omega)
  | .endl :: l, pre, c, u, h => starts_heads l _ _ _ (by simp only [lineAfter, List.count_append, List.count_singleton_self] at *; omega)
  | .rawEndl :: l, pre, c, u, h => starts_heads l _ _ _ (by simp only [lineAfter, List.count_append, List.count_singleton_self] at *; omega)
  | .head i p :: l, pre, c, u, h => by simp only [starts, heads, List.map_cons, starts_heads l pre c u h, h]
  | .note i :: l, pre, c, u, h => starts_heads l _ _ _ h

/-- Every recorded line is the counted line of the start, up to the distance of its place. -/
def Bal (es : List Ev) : Prop := ∀ c u, records c es = (heads c u es).map fun x => (x.1, x.2.2.1 - x.2.1.off)

theorem Bal.append {a b : List Ev} (ha : Bal a) (hb : Bal b) : Bal (a ++ b) := by
  intro c u
  rw [records_append, heads_append, List.map_append, ← ha c u, ← hb]

theorem Bal.nil : Bal [] := fun _ _ => rfl
theorem Bal.str (s : Str) {l : List Ev} (h : Bal l) : Bal (.str s :: l) := fun c u => h c _
theorem Bal.endl {l : List Ev} (h : Bal l) : Bal (.endl :: l) := fun c u => h (c + 1) u
theorem Bal.rawEndl {l : List Ev} (h : Bal l) : Bal (.rawEndl :: l) := fun c u => h c (u + 1)
theorem Bal.at (i : Id) {l : List Ev} (h : Bal l) : Bal (.note i :: .head i .plain :: l) := by
  intro c u
  simp only [records, heads, List.map_cons, Place.off, Nat.sub_zero, h c u]

theorem Bal.flatMap {α : Type} {f : α → List Ev} : ∀ {l : List α}, (∀ x ∈ l, Bal (f x)) → Bal (l.flatMap f)
  | [], _ => .nil
  | x :: l, h => by
    rw [List.flatMap_cons]
    exact (h x (List.mem_cons_self ..)).append (Bal.flatMap fun y hy => h y (List.mem_cons_of_mem _ hy))

theorem bal_comment (c : Str) : Bal (commentEvs c) := by
  unfold commentEvs
  split
  · exact .nil
  · exact .str _ (.str _ (.endl .nil))

theorem bal_attr : ∀ a, Bal (attrEvs a)
  | none => .nil
  | some _ => .str _ (.endl .nil)

theorem bal_lines (l : List Str) : Bal (lineEvs l) := .flatMap fun _ _ => .str _ (.endl .nil)

theorem bal_sep : ∀ l, Bal (sepEvs l)
  | [] => .nil
  | [_] => .str _ .nil
  | _ :: t :: l => .str _ (.endl (bal_sep (t :: l)))

theorem records_conn (c : Nat) (l : List Conn) : records c (connRecs l) = (l.filterMap (·.1)).map (·, c) ∧ endls (connRecs l) = 0 ∧ uncounted (connRecs l) = 0 ∧
    ∀ u, heads c u (connRecs l) = [] := by
  induction l with
  | nil => exact ⟨rfl, rfl, rfl, fun _ => rfl⟩
  | cons x l ih =>
    obtain ⟨o, t⟩ := x
    cases o <;> simpa [connRecs, records, endls, uncounted, heads] using ih

theorem heads_conn (c : Nat) : ∀ (l : List Conn) (k u : Nat), (heads (c + k) u (connText k l)).map (fun x => (x.1, x.2.2.1 - x.2.1.off)) = (l.filterMap (·.1)).map (·, c) ∧
    records c (connText k l) = []
  | [], _, _ => ⟨rfl, rfl⟩
  | (o, t) :: l, k, u => by
    have ih := heads_conn c l (k + 1) (u + t.count '\n')
    have hr : ∀ c (l : List Conn) k, records c (connText k l) = [] := by
      intro c l
      induction l generalizing c with
      | nil => intro _; rfl
      | cons x l ih => intro k; obtain ⟨o, t⟩ := x; cases o <;> simp [connText, records, ih]
    refine ⟨?_, hr _ _ _⟩
    cases o with
    | none => simpa [connText, heads, Nat.add_assoc] using ih.1
    | some i => simpa [connText, heads, Nat.add_assoc, Place.off] using ih.1

theorem bal_ports (l : List Conn) : Bal (portEvs l) := by
  unfold portEvs
  split
  · exact .str _ (.endl .nil)
  · rw [List.cons_append, List.cons_append, List.cons_append, List.cons_append]
    refine .str _ (.endl (Bal.append ?_ (.str _ (.endl (.endl .nil)))))
    intro c u
    obtain ⟨h1, h2, h3, h4⟩ := records_conn c l
    rw [records_append, heads_append, h1, h2, h3, h4, List.nil_append]
    have := heads_conn c l 0 u
    simp only [Nat.add_zero] at this ⊢
    rw [this.1, this.2, List.append_nil]

theorem bal_params (l : List Str) : Bal (paramEvs l) := by
  unfold paramEvs
  split
  · exact .str _ .nil
  · exact .str _ (.endl ((bal_sep l).append (.str _ (.endl .nil))))

theorem bal_start (k : Block) (i : Id) (c h l : Str) : Bal (blockStart k i c h l) := by
  cases k with
  | seq =>
    refine (bal_comment c).append ?_
    intro n u
    simp [records, heads, Place.off]
  | plain => exact (bal_comment c).append (.at i (.str _ (.str _ (.endl .nil))))
  | scope => exact .at i (.str _ (.str _ (.endl .nil)))

mutual
theorem bal_stmt (W : Nat) : ∀ s : S, Bal (s.evs W)
  | .assign i a comment lhs rhs =>
    ((((bal_attr a).append (bal_comment comment)).append (.at i (.str _ .nil))).append (bal_sep _)).append (.str _ (.endl .nil))
  | .block i a k comment head label body => (((bal_attr a).append (bal_start k i comment head label)).append (bal_stmts W body)).append (.str _ (.str _ (.endl .nil)))
  | .ret i a t => (bal_attr a).append (.at i (.str _ (.str _ (.str _ (.endl .nil)))))
  | .call i a t => (bal_attr a).append (.at i (.str _ (.str _ (.endl .nil))))
  | .assertValue a t => (bal_attr a).append (.str _ (.str _ (.str _ (.endl .nil))))
  | .assertElse a t s => ((bal_attr a).append (.str _ (.str _ (.str _ .nil)))).append (bal_stmt W s)
  | .property a n q c => ((bal_attr a).append (.str _ (.str _ (.endl (.str _ (.endl (.str _ (.endl .nil)))))))).append (bal_attr c)
  | .propertyElse a n q c s => ((bal_attr a).append (.str _ (.str _ (.endl (.str _ (.endl (.str _ (.endl (.str _ .nil)))))))) ).append (bal_stmt W s)
  | .comment a t w => (bal_attr a).append (bal_lines _)
  | .raw a l => (bal_attr a).append (bal_lines _)
  | .ite i a c t ei ea el e => (((bal_attr a).append (.at i (.str _ (.str _ (.str _ .nil))))).append (bal_stmt W t)).append (bal_else W e ei ea el)
  | .inst i a comment target params name ports =>
    ((((bal_attr a).append (bal_comment comment)).append (.at i (.str _ .nil))).append (bal_params params)).append (.str _ (bal_ports ports))
  | .iface a => bal_attr a
  | .switch a t items => (((bal_attr a).append (.str _ (.str _ (.str _ (.endl .nil))))).append (bal_items W items)).append (.str _ (.endl .nil))
  | .for_ i a header body => ((bal_attr a).append (.at i (.str _ .nil))).append (bal_stmt W body)
  | .delay a t => (bal_attr a).append (.str _ (.str _ (.endl .nil)))
  | .brk a => (bal_attr a).append (.str _ (.endl .nil))
theorem bal_stmts (W : Nat) : ∀ ss : Ss, Bal (ss.evs W)
  | .nil => .nil
  | .cons s ss => (bal_stmt W s).append (bal_stmts W ss)
theorem bal_else (W : Nat) : ∀ (ss : Ss) (ei : Id) (ea : Option Str) (el : Str), Bal (ss.elseEvs W ei ea el)
  | .nil, _, _, _ => .nil
  | .cons s .nil, ei, ea, el => by
    unfold Ss.elseEvs
    split
    · exact .str _ (.at ei (bal_stmt W s))
    · exact .str _ ((((bal_attr ea).append (.at ei (.str _ (.str _ (.endl .nil))))).append (bal_stmt W s)).append (.str _ (.str _ (.endl .nil))))
  | .cons s (.cons s' ss), ei, ea, el =>
    .str _ ((((bal_attr ea).append (.at ei (.str _ (.str _ (.endl .nil))))).append ((bal_stmt W s).append ((bal_stmt W s').append (bal_stmts W ss)))).append
      (.str _ (.str _ (.endl .nil))))
theorem bal_items (W : Nat) : ∀ cs : Cs, Bal (cs.evs W)
  | .nil => .nil
  | .empty l cs => (Bal.str _ (.str _ (.endl .nil))).append (bal_items W cs)
  | .item l s cs => ((Bal.str _ (.str _ .nil)).append (bal_stmt W s)).append (bal_items W cs)
end

theorem bal_fnPorts : ∀ l, Bal (fnPorts l)
  | [] => .nil
  | [(i, _)] => .at i (.str _ (.endl (.str _ (.endl .nil))))
  | (i, _) :: q :: l => (Bal.at i (.str _ (.str _ (.endl .nil)))).append (bal_fnPorts (q :: l))

theorem bal_fn (W : Nat) (f : Fn) : Bal (f.evs W) := by
  unfold Fn.evs
  split
  · exact .nil
  · refine ((((Bal.append (.at _ (.str _ .nil)) ?_).append (bal_fnPorts _)).append (.str _ (.endl .nil))).append (bal_stmts W _)).append
      (.str _ (.endl (.str _ (.endl .nil))))
    split
    · exact .str _ (.rawEndl .nil)
    · exact .str _ (.endl .nil)

theorem bal_decl (d : Decl) : Bal d.evs := ((bal_attr _).append (bal_comment _)).append (.at _ (.str _ (.endl .nil)))
theorem bal_iface (x : Iface) : Bal x.evs := ((bal_comment _).append (.at _ (.str _ .nil))).append (bal_ports _)

theorem bal_decls (m : Module) : Bal m.decls := by
  unfold Module.decls
  refine ((((((((((Bal.append ?_ (.at _ (.str _ (.str _ .nil)))).append ?_).append ?_).append (.str _ (.endl .nil))).append (bal_lines _)).append
    (.flatMap fun d _ => bal_decl d)).append (.str _ (.endl (.endl .nil)))).append (.flatMap fun l _ => bal_lines l)).append
    (.flatMap fun d _ => bal_decl d)).append (.flatMap fun d _ => bal_iface d))
  · split
    · exact .str _ (.str _ (.endl (.endl (.str _ (.str _ (.endl .nil))))))
    · exact .nil
  · split
    · exact .nil
    · exact .endl (bal_lines _)
  · split
    · exact .nil
    · exact .str _ (.endl ((bal_lines _).append (.str _ (.endl .nil))))

theorem bal_module (W : Nat) (m : Module) : Bal (m.evs W) :=
  (((bal_decls m).append (.flatMap fun f _ => bal_fn W f)).append (.flatMap fun s _ => bal_stmt W s)).append (.str _ (.str _ (.endl .nil)))

/-! ### Proof: comments -/

theorem dropNl_flat : ∀ s, Flat (dropNl s)
  | [] => List.not_mem_nil
  | c :: r => by
    unfold dropNl
    split
    · exact dropNl_flat r
    · assumption

theorem strip_flat {s : Str} (h : OneLine s) : Flat (stripNewline s) := by
  cases s with
  | nil => exact List.not_mem_nil
  | cons c r =>
    have hc : c ≠ '\n' := fun e => h (by rw [e]; rfl)
    simp only [stripNewline]
    split
    · intro hm
      rcases List.mem_cons.1 hm with e | hm
      · exact hc e.symm
      · exact dropNl_flat _ hm
    · assumption

theorem dropNl_of_flat {s : Str} (h : Flat s) : dropNl s = s := by
  cases s with
  | nil => rfl
  | cons c r => unfold dropNl; rw [if_neg h]

theorem dropNl_last : ∀ (a b : Str), Flat b → dropNl (a ++ '\n' :: b) = b
  | [], b, hb => by
    show dropNl ('\n' :: b) = b
    unfold dropNl
    rw [if_pos (List.mem_cons_self ..), dropNl_of_flat hb]
  | c :: a, b, hb => by
    show dropNl (c :: (a ++ '\n' :: b)) = b
    unfold dropNl
    rw [if_pos (by simp), dropNl_last a b hb]

/-! ### Proof: texts without line breaks -/

theorem count_flat {s : Str} (h : Flat s) : s.count '\n' = 0 := List.count_eq_zero.2 h

theorem flat_wrap (t : Str) (w : Nat) : ∀ x ∈ lineWrap t w, Flat x := by
  have hw := (Text.tokens_spec t Text.spaces).1
  intro x hx
  rcases Text.wrap_words t w with ⟨_, h⟩ | ⟨gs, h1, h2, _⟩
  · rw [h, List.mem_singleton] at hx
    subst hx
    exact List.not_mem_nil
  · rw [h1] at hx
    obtain ⟨g, hg, rfl⟩ := List.mem_map.1 hx
    have hgw : ∀ y ∈ g, Flat y := by
      intro y hy
      have : y ∈ Text.wordsOf t := by rw [← h2]; exact List.mem_flatten.2 ⟨g, hg, hy⟩
      exact fun hn => (hw y this).2 '\n' hn (by decide)
    have : ∀ g : List Str, (∀ y ∈ g, Flat y) → Flat (Text.join [' '] g) := by
      intro g
      induction g with
      | nil => exact fun _ => List.not_mem_nil
      | cons a g ih =>
        intro h
        have ha := h a (List.mem_cons_self ..)
        have hg := ih fun y hy => h y (List.mem_cons_of_mem _ hy)
        cases g with
        | nil => exact ha
        | cons b g =>
          intro hn
          simp only [Text.join, List.mem_append, List.mem_singleton] at hn
          rcases hn with (hn | hn) | hn
          · exact ha hn
          · exact absurd hn (by decide)
          · exact hg hn
    exact this g hgw

def Tidy (es : List Ev) : Prop := uncounted es = 0

theorem Tidy.append {a b : List Ev} (ha : Tidy a) (hb : Tidy b) : Tidy (a ++ b) := by
  unfold Tidy at *; rw [uncounted_append, ha, hb]
theorem Tidy.nil : Tidy [] := rfl
theorem Tidy.str {s : Str} (hs : Flat s) {l : List Ev} (h : Tidy l) : Tidy (.str s :: l) := by
  unfold Tidy at *; rw [uncounted, count_flat hs, h]
theorem Tidy.endl {l : List Ev} (h : Tidy l) : Tidy (.endl :: l) := h
theorem Tidy.at (i : Id) {p : Place} {l : List Ev} (h : Tidy l) : Tidy (.note i :: .head i p :: l) := h
theorem Tidy.flatMap {α : Type} {f : α → List Ev} : ∀ {l : List α}, (∀ x ∈ l, Tidy (f x)) → Tidy (l.flatMap f)
  | [], _ => .nil
  | x :: l, h => by
    rw [List.flatMap_cons]
    exact (h x (List.mem_cons_self ..)).append (Tidy.flatMap fun y hy => h y (List.mem_cons_of_mem _ hy))

theorem tidy_comment {c : Str} (h : OneLine c) : Tidy (commentEvs c) := by
  unfold commentEvs
  split
  · exact .nil
  · exact .str (by decide) (.str (strip_flat h) (.endl .nil))

theorem tidy_attr : ∀ {a : Option Str}, (∀ x ∈ a, Flat x) → Tidy (attrEvs a)
  | none, _ => .nil
  | some _, h => .str (h _ rfl) (.endl .nil)

theorem tidy_lines {l : List Str} (h : ∀ x ∈ l, Flat x) : Tidy (lineEvs l) := .flatMap fun x hx => .str (h x hx) (.endl .nil)

theorem tidy_sep : ∀ {l : List Str}, (∀ x ∈ l, Flat x) → Tidy (sepEvs l)
  | [], _ => .nil
  | [_], h => .str (h _ (List.mem_cons_self ..)) .nil
  | _ :: _ :: _, h => .str (h _ (List.mem_cons_self ..)) (.endl (tidy_sep fun x hx => h x (List.mem_cons_of_mem _ hx)))

theorem tidy_conn : ∀ {l : List Conn}, (∀ x ∈ l, Flat x.2) → ∀ k, Tidy (connText k l)
  | [], _, _ => .nil
  | (o, t) :: l, h, k => by
    have h1 := h _ (List.mem_cons_self ..)
    have h2 := tidy_conn (l := l) (fun x hx => h x (List.mem_cons_of_mem _ hx)) (k + 1)
    cases o with
    | none => exact .str h1 (.endl h2)
    | some i => exact (show Tidy (.head i (.conn k) :: _) from Tidy.str h1 (.endl h2))

theorem tidy_ports {l : List Conn} (h : ∀ x ∈ l, Flat x.2) : Tidy (portEvs l) := by
  unfold portEvs
  split
  · exact .str (by decide) (.endl .nil)
  · have h0 : Tidy (connRecs l) := (records_conn 0 l).2.2.1
    exact .str (by decide) (.endl ((h0.append (tidy_conn h 0)).append (.str (by decide) (.endl (.endl .nil)))))

theorem tidy_params {l : List Str} (h : ∀ x ∈ l, Flat x) : Tidy (paramEvs l) := by
  unfold paramEvs
  split
  · exact .str (by decide) .nil
  · exact .str (by decide) (.endl ((tidy_sep h).append (.str (by decide) (.endl .nil))))

theorem tidy_start {k : Block} (i : Id) {c h l : Str} (hc : k ≠ .scope → OneLine c) (hh : Flat h) (hl : Flat l) : Tidy (blockStart k i c h l) := by
  cases k with
  | seq => exact (tidy_comment (hc (by decide))).append (show Tidy (.head i .always :: _) from Tidy.str hh (.str hl (.endl .nil)))
  | plain => exact (tidy_comment (hc (by decide))).append (.at i (.str hh (.str hl (.endl .nil))))
  | scope => exact .at i (.str hh (.str hl (.endl .nil)))

mutual
theorem tidy_stmt (W : Nat) : ∀ s : S, s.FlatTexts → s.Comments → Tidy (s.evs W)
  | .assign i a comment lhs rhs, h, hc =>
    ((((tidy_attr h.1).append (tidy_comment hc)).append (.at i (.str h.2 .nil))).append (tidy_sep (flat_wrap _ _))).append (.str (by decide) (.endl .nil))
  | .block i a k comment head label body, h, hc => (((tidy_attr h.1).append (tidy_start i hc.1 h.2.1 h.2.2.1)).append (tidy_stmts W body h.2.2.2 hc.2)).append
      (.str (by decide) (.str h.2.2.1 (.endl .nil)))
  | .ret i a t, h, _ => (tidy_attr h.1).append (.at i (.str (by decide) (.str h.2 (.str (by decide) (.endl .nil)))))
  | .call i a t, h, _ => (tidy_attr h.1).append (.at i (.str h.2 (.str (by decide) (.endl .nil))))
  | .assertValue a t, h, _ => (tidy_attr h.1).append (.str (by decide) (.str h.2 (.str (by decide) (.endl .nil))))
  | .assertElse a t s, h, hc => ((tidy_attr h.1).append (.str (by decide) (.str h.2.1 (.str (by decide) .nil)))).append (tidy_stmt W s h.2.2 hc)
  | .property a n q c, h, _ =>
    ((tidy_attr h.1).append (.str (by decide) (.str h.2.1 (.endl (.str h.2.2.1 (.endl (.str (by decide) (.endl .nil)))))))).append (tidy_attr h.2.2.2)
  | .propertyElse a n q c s, h, hc =>
    ((tidy_attr h.1).append (.str (by decide) (.str h.2.1 (.endl (.str h.2.2.1 (.endl (.str (by decide) (.endl (.str h.2.2.2.1 .nil))))))))).append
      (tidy_stmt W s h.2.2.2.2 hc)
  | .comment a t w, h, _ => (tidy_attr h).append (tidy_lines fun x hx => by
      obtain ⟨y, hy, rfl⟩ := List.mem_map.1 hx
      intro hn
      rcases List.mem_append.1 hn with hn | hn
      · exact absurd hn (by decide)
      · exact flat_wrap _ _ y hy hn)
  | .raw a l, h, _ => (tidy_attr h).append (tidy_lines fun x hx => by
      obtain ⟨y, _, hy⟩ := List.mem_flatMap.1 hx
      exact fun hn => ((Text.tokens_spec y "\r\n".toList).1 x hy).2 '\n' hn (by decide))
  | .ite i a c t ei ea el e, h, hc =>
    (((tidy_attr h.1).append (.at i (.str (by decide) (.str h.2.1 (.str (by decide) .nil))))).append (tidy_stmt W t h.2.2.1 hc.1)).append
      (tidy_else W e ei ea el h.2.2.2.1 h.2.2.2.2.1 h.2.2.2.2.2 hc.2)
  | .inst i a comment target params name ports, h, hc =>
    ((((tidy_attr h.1).append (tidy_comment hc)).append (.at i (.str h.2.1 .nil))).append (tidy_params h.2.2.1)).append (.str h.2.2.2.1 (tidy_ports h.2.2.2.2))
  | .iface a, h, _ => tidy_attr h
  | .switch a t items, h, hc => (((tidy_attr h.1).append (.str (by decide) (.str h.2.1 (.str (by decide) (.endl .nil))))).append (tidy_items W items h.2.2 hc)).append
      (.str (by decide) (.endl .nil))
  | .for_ i a header body, h, hc => ((tidy_attr h.1).append (.at i (.str h.2.1 .nil))).append (tidy_stmt W body h.2.2 hc)
  | .delay a t, h, _ => (tidy_attr h.1).append (.str h.2 (.str (by decide) (.endl .nil)))
  | .brk a, h, _ => (tidy_attr h).append (.str (by decide) (.endl .nil))
theorem tidy_stmts (W : Nat) : ∀ ss : Ss, ss.FlatTexts → ss.Comments → Tidy (ss.evs W)
  | .nil, _, _ => .nil
  | .cons s ss, h, hc => (tidy_stmt W s h.1 hc.1).append (tidy_stmts W ss h.2 hc.2)
theorem tidy_else (W : Nat) : ∀ (ss : Ss) (ei : Id) (ea : Option Str) (el : Str), (∀ x ∈ ea, Flat x) → Flat el → ss.FlatTexts → ss.Comments →
    Tidy (ss.elseEvs W ei ea el)
  | .nil, _, _, _, _, _, _, _ => .nil
  | .cons s .nil, ei, ea, el, ha, hl, h, hc => by
    unfold Ss.elseEvs
    split
    · exact .str (by decide) (.at ei (tidy_stmt W s h.1 hc.1))
    · exact .str (by decide) ((((tidy_attr ha).append (.at ei (.str (by decide) (.str hl (.endl .nil))))).append (tidy_stmt W s h.1 hc.1)).append
        (.str (by decide) (.str hl (.endl .nil))))
  | .cons s (.cons s' ss), ei, ea, el, ha, hl, h, hc =>
    .str (by decide) ((((tidy_attr ha).append (.at ei (.str (by decide) (.str hl (.endl .nil))))).append
      ((tidy_stmt W s h.1 hc.1).append ((tidy_stmt W s' h.2.1 hc.2.1).append (tidy_stmts W ss h.2.2 hc.2.2)))).append (.str (by decide) (.str hl (.endl .nil))))
theorem tidy_items (W : Nat) : ∀ cs : Cs, cs.FlatTexts → cs.Comments → Tidy (cs.evs W)
  | .nil, _, _ => .nil
  | .empty l cs, h, hc => (Tidy.str h.1 (.str (by decide) (.endl .nil))).append (tidy_items W cs h.2 hc)
  | .item l s cs, h, hc => ((Tidy.str h.1 (.str (by decide) .nil)).append (tidy_stmt W s h.2.1 hc.1)).append (tidy_items W cs h.2.2 hc.2)
end

/-- A function that is printed without ports. -/
def Fn.bare (f : Fn) : Bool := !f.external && f.ports.isEmpty

theorem tidy_fnPorts : ∀ {l : List (Id × Str)}, (∀ p ∈ l, Flat p.2) → Tidy (fnPorts l)
  | [], _ => .nil
  | [(i, _)], h => .at i (.str (h _ (List.mem_cons_self ..)) (.endl (.str (by decide) (.endl .nil))))
  | (i, _) :: q :: l, h => (Tidy.at i (.str (h _ (List.mem_cons_self ..)) (.str (by decide) (.endl .nil)))).append
      (tidy_fnPorts fun p hp => h p (List.mem_cons_of_mem _ hp))

theorem uncounted_fn (W : Nat) {f : Fn} (h : f.FlatTexts) (hc : f.body.Comments) : uncounted (f.evs W) = if f.bare then 1 else 0 := by
  unfold Fn.evs Fn.bare
  cases he : f.external with
  | true => rfl
  | false =>
    have h1 : Tidy (f.body.evs W) := tidy_stmts W _ h.2.2 hc
    have h2 : Tidy (fnPorts f.ports) := tidy_fnPorts h.2.1
    have h3 : Tidy [.str "begin".toList, .endl] := .str (by decide) (.endl .nil)
    have h4 : Tidy [.str "end".toList, .endl, .str (if f.task then "endtask".toList else "endfunction".toList), .endl] := by
      refine .str (by decide) (.endl (.str ?_ (.endl .nil)))
      split <;> decide
    have h5 : Tidy [.note f.i, .head f.i .plain, .str f.sig] := .at _ (.str h.1 .nil)
    unfold Tidy at h1 h2 h3 h4 h5
    simp only [Bool.false_eq_true, if_false, uncounted_append, h1, h2, h3, h4, h5, Bool.not_false, Bool.true_and, List.isEmpty_iff]
    split <;> rfl

theorem tidy_decl {d : Decl} (h : d.FlatTexts) (hc : OneLine d.comment) : Tidy d.evs :=
  ((tidy_attr h.1).append (tidy_comment hc)).append (.at _ (.str h.2 (.endl .nil)))
theorem tidy_iface {x : Iface} (h : x.FlatTexts) (hc : OneLine x.comment) : Tidy x.evs :=
  ((tidy_comment hc).append (.at _ (.str h.1 .nil))).append (tidy_ports h.2)

theorem tidy_decls {m : Module} (h : m.FlatTexts) (hc : m.Comments) : Tidy m.decls := by
  unfold Module.decls
  refine ((((((((((Tidy.append ?_ (.at _ (.str (by decide) (.str h.name .nil)))).append ?_).append ?_).append (.str (by decide) (.endl .nil))).append (tidy_lines h.ifacePorts)).append
    (.flatMap fun d hd => tidy_decl (h.ports d hd) (hc.ports d hd))).append (.str (by decide) (.endl (.endl .nil)))).append (.flatMap fun l hl => tidy_lines (h.enums l hl))).append
    (.flatMap fun d hd => tidy_decl (h.vars d hd) (hc.vars d hd))).append (.flatMap fun d hd => tidy_iface (h.ifaces d hd) (hc.ifaces d hd)))
  · split
    · rename_i p hp
      exact .str (by decide) (.str (h.package _ hp) (.endl (.endl (.str (by decide) (.str (h.package _ hp) (.endl .nil))))))
    · exact .nil
  · split
    · exact .nil
    · exact .endl (tidy_lines h.imports)
  · split
    · exact .nil
    · exact .str (by decide) (.endl ((tidy_lines h.params).append (.str (by decide) (.endl .nil))))

theorem heads_tidy : ∀ (es : List Ev) (c u : Nat), Tidy es → ∀ x ∈ heads c u es, x.2.2.2 = u
  | [], _, _, _, _, hx => by cases hx
  | .str s :: l, c, u, h, x, hx => by
    unfold Tidy uncounted at h
    have := heads_tidy l c (u + s.count '\n') (show uncounted l = 0 by omega) x hx
    omega
  | .endl :: l, c, u, h, x, hx => heads_tidy l _ _ h x hx
  | .rawEndl :: l, c, u, h, x, hx => by unfold Tidy uncounted at h; omega
  | .note i :: l, c, u, h, x, hx => heads_tidy l _ _ h x hx
  | .head i p :: l, c, u, h, x, hx => by
    rcases List.mem_cons.1 hx with e | hx
    · rw [e]
    · exact heads_tidy l _ _ h x hx

/-! ### Proof: nodes start with text -/

def Fol (es : List Ev) : Prop := ∀ x ∈ firstTexts es, ∃ t, x.2 = some t

theorem nextText_append : ∀ {a b : List Ev} {t : Str}, nextText a = some t → nextText (a ++ b) = some t
  | .str s :: l, b, t, h => h
  | .note _ :: l, b, t, h => nextText_append (a := l) h
  | .head _ _ :: l, b, t, h => nextText_append (a := l) h

theorem Fol.append : ∀ {a b : List Ev}, Fol a → Fol b → Fol (a ++ b)
  | [], _, _, hb => hb
  | .str _ :: l, _, ha, hb => Fol.append (a := l) ha hb
  | .endl :: l, _, ha, hb => Fol.append (a := l) ha hb
  | .rawEndl :: l, _, ha, hb => Fol.append (a := l) ha hb
  | .note _ :: l, _, ha, hb => Fol.append (a := l) ha hb
  | .head i p :: l, b, ha, hb => by
    intro x hx
    rcases List.mem_cons.1 hx with e | hx
    · obtain ⟨t, ht⟩ := ha _ (List.mem_cons_self ..)
      exact ⟨t, by rw [e]; exact nextText_append ht⟩
    · exact Fol.append (fun y hy => ha y (List.mem_cons_of_mem _ hy)) hb x hx

theorem Fol.nil : Fol [] := nofun
theorem Fol.str (s : Str) {l : List Ev} (h : Fol l) : Fol (.str s :: l) := h
theorem Fol.endl {l : List Ev} (h : Fol l) : Fol (.endl :: l) := h
theorem Fol.rawEndl {l : List Ev} (h : Fol l) : Fol (.rawEndl :: l) := h
theorem Fol.note (i : Id) {l : List Ev} (h : Fol l) : Fol (.note i :: l) := h
theorem Fol.ofText (i : Id) {p : Place} {l : List Ev} {t : Str} (ht : nextText l = some t) (h : Fol l) : Fol (.head i p :: l) := by
  intro x hx
  rcases List.mem_cons.1 hx with e | hx
  · exact ⟨t, by rw [e]; exact ht⟩
  · exact h x hx
theorem Fol.at (i : Id) {s : Str} {l : List Ev} (h : Fol (.str s :: l)) : Fol (.note i :: .head i .plain :: .str s :: l) := .note i (.ofText (p := .plain) i rfl h)

theorem Fol.flatMap {α : Type} {f : α → List Ev} : ∀ {l : List α}, (∀ x ∈ l, Fol (f x)) → Fol (l.flatMap f)
  | [], _ => .nil
  | x :: l, h => by
    rw [List.flatMap_cons]
    exact (h x (List.mem_cons_self ..)).append (Fol.flatMap fun y hy => h y (List.mem_cons_of_mem _ hy))

theorem fol_comment (c : Str) : Fol (commentEvs c) := by
  unfold commentEvs
  split <;> exact .nil

theorem fol_attr : ∀ a, Fol (attrEvs a)
  | none => .nil
  | some _ => .nil

theorem fol_lines (l : List Str) : Fol (lineEvs l) := .flatMap fun _ _ => .nil

theorem fol_sep : ∀ l, Fol (sepEvs l)
  | [] => .nil
  | [_] => .nil
  | _ :: t :: l => fol_sep (t :: l)

theorem fol_conn : ∀ (l : List Conn) (k : Nat), Fol (connText k l)
  | [], _ => .nil
  | (none, _) :: l, k => fol_conn l (k + 1)
  | (some i, _) :: l, k => .ofText i rfl (.str _ (.endl (fol_conn l (k + 1))))

theorem fol_ports (l : List Conn) : Fol (portEvs l) := by
  unfold portEvs
  split
  · exact .nil
  · refine .str _ (.endl (Fol.append ((Fol.flatMap fun c _ => ?_ : Fol (connRecs l)).append (fol_conn l 0)) .nil))
    obtain ⟨o, _⟩ := c
    cases o <;> exact .nil

theorem fol_params (l : List Str) : Fol (paramEvs l) := by
  unfold paramEvs
  split
  · exact .nil
  · exact .str _ (.endl ((fol_sep l).append .nil))

theorem fol_start (k : Block) (i : Id) (c h l : Str) : Fol (blockStart k i c h l) := by
  cases k with
  | seq => exact (fol_comment c).append (.note i (.endl (.ofText i rfl .nil)))
  | plain => exact (fol_comment c).append (.note i (.ofText i rfl .nil))
  | scope => exact .note i (.ofText i rfl .nil)

theorem short_text (W : Nat) : ∀ s : S, s.short = true → ∃ t, nextText (s.evs W) = some t
  | .assign i (some a) c l r, _ => ⟨_, rfl⟩
  | .assign i none [] l r, _ => ⟨_, rfl⟩
  | .assign i none (_ :: _) l r, _ => ⟨_, rfl⟩
  | .ite i (some a) .., _ => ⟨_, rfl⟩
  | .ite i none .., _ => ⟨_, rfl⟩
  | .ret i (some a) .., _ => ⟨_, rfl⟩
  | .ret i none .., _ => ⟨_, rfl⟩

mutual
theorem fol_stmt (W : Nat) : ∀ s : S, Fol (s.evs W)
  | .assign i a comment lhs rhs =>
    ((((fol_attr a).append (fol_comment comment)).append (.at i (.str _ .nil))).append (fol_sep _)).append (.str _ (.endl .nil))
  | .block i a k comment head label body => (((fol_attr a).append (fol_start k i comment head label)).append (fol_stmts W body)).append (.str _ (.str _ (.endl .nil)))
  | .ret i a t => (fol_attr a).append (.at i (.str _ (.str _ (.str _ (.endl .nil)))))
  | .call i a t => (fol_attr a).append (.at i (.str _ (.str _ (.endl .nil))))
  | .assertValue a t => (fol_attr a).append (.str _ (.str _ (.str _ (.endl .nil))))
  | .assertElse a t s => ((fol_attr a).append (.str _ (.str _ (.str _ .nil)))).append (fol_stmt W s)
  | .property a n q c => ((fol_attr a).append (.str _ (.str _ (.endl (.str _ (.endl (.str _ (.endl .nil)))))))).append (fol_attr c)
  | .propertyElse a n q c s => ((fol_attr a).append (.str _ (.str _ (.endl (.str _ (.endl (.str _ (.endl (.str _ .nil)))))))) ).append (fol_stmt W s)
  | .comment a t w => (fol_attr a).append (fol_lines _)
  | .raw a l => (fol_attr a).append (fol_lines _)
  | .ite i a c t ei ea el e => (((fol_attr a).append (.at i (.str _ (.str _ (.str _ .nil))))).append (fol_stmt W t)).append (fol_else W e ei ea el)
  | .inst i a comment target params name ports =>
    ((((fol_attr a).append (fol_comment comment)).append (.at i (.str _ .nil))).append (fol_params params)).append (.str _ (fol_ports ports))
  | .iface a => fol_attr a
  | .switch a t items => (((fol_attr a).append (.str _ (.str _ (.str _ (.endl .nil))))).append (fol_items W items)).append (.str _ (.endl .nil))
  | .for_ i a header body => ((fol_attr a).append (.at i (.str _ .nil))).append (fol_stmt W body)
  | .delay a t => (fol_attr a).append (.str _ (.str _ (.endl .nil)))
  | .brk a => (fol_attr a).append (.str _ (.endl .nil))
theorem fol_stmts (W : Nat) : ∀ ss : Ss, Fol (ss.evs W)
  | .nil => .nil
  | .cons s ss => (fol_stmt W s).append (fol_stmts W ss)
theorem fol_else (W : Nat) : ∀ (ss : Ss) (ei : Id) (ea : Option Str) (el : Str), Fol (ss.elseEvs W ei ea el)
  | .nil, _, _, _ => .nil
  | .cons s .nil, ei, ea, el => by
    unfold Ss.elseEvs
    split
    · rename_i h
      obtain ⟨t, ht⟩ := short_text W s h
      exact .str _ (.note ei (.ofText ei ht (fol_stmt W s)))
    · exact .str _ ((((fol_attr ea).append (.at ei (.str _ (.str _ (.endl .nil))))).append (fol_stmt W s)).append (.str _ (.str _ (.endl .nil))))
  | .cons s (.cons s' ss), ei, ea, el =>
    .str _ ((((fol_attr ea).append (.at ei (.str _ (.str _ (.endl .nil))))).append ((fol_stmt W s).append ((fol_stmt W s').append (fol_stmts W ss)))).append
      (.str _ (.str _ (.endl .nil))))
theorem fol_items (W : Nat) : ∀ cs : Cs, Fol (cs.evs W)
  | .nil => .nil
  | .empty l cs => (Fol.str _ (.str _ (.endl .nil))).append (fol_items W cs)
  | .item l s cs => ((Fol.str _ (.str _ .nil)).append (fol_stmt W s)).append (fol_items W cs)
end

theorem fol_fnPorts : ∀ l, Fol (fnPorts l)
  | [] => .nil
  | [(i, _)] => .at i (.str _ (.endl (.str _ (.endl .nil))))
  | (i, _) :: q :: l => (Fol.at i (.str _ (.str _ (.endl .nil)))).append (fol_fnPorts (q :: l))

theorem fol_fn (W : Nat) (f : Fn) : Fol (f.evs W) := by
  unfold Fn.evs
  split
  · exact .nil
  · refine ((((Fol.append (.at _ (.str _ .nil)) ?_).append (fol_fnPorts _)).append (.str _ (.endl .nil))).append (fol_stmts W _)).append
      (.str _ (.endl (.str _ (.endl .nil))))
    split
    · exact .str _ (.rawEndl .nil)
    · exact .str _ (.endl .nil)

theorem fol_decl (d : Decl) : Fol d.evs := ((fol_attr _).append (fol_comment _)).append (.at _ (.str _ (.endl .nil)))
theorem fol_iface (x : Iface) : Fol x.evs := ((fol_comment _).append (.at _ (.str _ .nil))).append (fol_ports _)

theorem fol_decls (m : Module) : Fol m.decls := by
  unfold Module.decls
  refine ((((((((((Fol.append ?_ (.at _ (.str _ (.str _ .nil)))).append ?_).append ?_).append (.str _ (.endl .nil))).append (fol_lines _)).append
    (.flatMap fun d _ => fol_decl d)).append (.str _ (.endl (.endl .nil)))).append (.flatMap fun l _ => fol_lines l)).append
    (.flatMap fun d _ => fol_decl d)).append (.flatMap fun d _ => fol_iface d))
  · split
    · exact .str _ (.str _ (.endl (.endl (.str _ (.str _ (.endl .nil))))))
    · exact .nil
  · split
    · exact .nil
    · exact .endl (fol_lines _)
  · split
    · exact .nil
    · exact .str _ (.endl ((fol_lines _).append (.str _ (.endl .nil))))

/-! ### Property theorems -/

/-- The starts in this file are starts of text: after each of them, in the same line, comes text. -/
theorem starts_are_texts (W : Nat) (m : Module) : ∀ x ∈ firstTexts (m.evs W), ∃ t, x.2 = some t :=
  (((fol_decls m).append (.flatMap fun f _ => fol_fn W f)).append (.flatMap fun s _ => fol_stmt W s)).append (.str _ (.str _ (.endl .nil)))

/-- C51, exactly, for anything printed: the line recorded for a node is the line of its text, minus the line breaks before it that were not
counted, minus 1 for `always_ff` blocks and minus `i` for the `i`-th connection of an instance. -/
theorem lines_exact (W : Nat) (m : Module) : ∃ l : List (Id × Place × Nat × Nat),
    starts [] (m.evs W) = l.map (fun x => (x.1, x.2.1, x.2.2.1 + x.2.2.2)) ∧ records 1 (m.evs W) = l.map fun x => (x.1, x.2.2.1 - x.2.1.off) :=
  ⟨heads 1 0 (m.evs W), starts_heads _ [] 1 0 rfl, bal_module W m 1 0⟩

/-- C51 up to the place, for modules without line breaks in texts, comments that start with one, and functions without ports. -/
theorem lines_place_partial (W : Nat) (m : Module) (h : m.FlatTexts) (hc : m.Comments) (hf : ∀ f ∈ m.fns, f.bare = false) :
    records 1 (m.evs W) = (starts [] (m.evs W)).map fun x => (x.1, x.2.2 - x.2.1.off) := by
  have ht : Tidy (m.evs W) := (((tidy_decls h hc).append (.flatMap fun f hm => by
    have := uncounted_fn W (h.fns f hm) (hc.fns f hm)
    rw [hf f hm] at this
    exact this)).append (.flatMap fun s hs => tidy_stmt W s (h.stmts s hs) (hc.stmts s hs))).append (.str (by decide) (.str h.name (.endl .nil)))
  rw [bal_module W m 1 0, starts_heads _ [] 1 0 rfl, List.map_map]
  apply List.map_congr_left
  intro x hx
  have := heads_tidy _ 1 0 ht x hx
  simp [this]

/-- C51 for modules in which, in addition, nothing is recorded for an `always_ff` block or a second connection. -/
theorem lines_partial (W : Nat) (m : Module) (h : m.FlatTexts) (hc : m.Comments) (hf : ∀ f ∈ m.fns, f.bare = false)
    (hp : ∀ x ∈ starts [] (m.evs W), x.2.1 = .plain ∨ x.2.1 = .conn 0) : Right (m.evs W) := by
  unfold Right
  rw [lines_place_partial W m h hc hf]
  apply List.map_congr_left
  intro x hx
  rcases hp x hx with e | e <;> rw [e] <;> rfl

theorem heads_le : ∀ (es : List Ev) (c u : Nat), ∀ x ∈ heads c u es, u ≤ x.2.2.2
  | [], _, _, _, hx => by cases hx
  | .str s :: l, c, u, x, hx => by have := heads_le l _ _ x hx; omega
  | .endl :: l, c, u, x, hx => heads_le l _ _ x hx
  | .rawEndl :: l, c, u, x, hx => by have := heads_le l _ _ x hx; omega
  | .note i :: l, c, u, x, hx => heads_le l _ _ x hx
  | .head i p :: l, c, u, x, hx => by
    rcases List.mem_cons.1 hx with e | hx
    · rw [e]; exact Nat.le_refl _
    · exact heads_le l _ _ x hx

/-- How far off the statements of a module are: the line recorded for each of them is too small by exactly the number of functions without
ports (and by the place). -/
theorem bare_functions_shift (W : Nat) (m : Module) (h : m.FlatTexts) (hc : m.Comments) :
    let before := m.decls ++ m.fns.flatMap (Fn.evs W)
    let stmts := m.stmts.flatMap (S.evs W)
    records (1 + endls before) stmts = (starts (text before) stmts).map fun x => (x.1, x.2.2 - m.fns.countP Fn.bare - x.2.1.off) := by
  intro before stmts
  have hu : uncounted before = m.fns.countP Fn.bare := by
    show uncounted (m.decls ++ m.fns.flatMap (Fn.evs W)) = _
    rw [uncounted_append, show uncounted m.decls = 0 from tidy_decls h hc, Nat.zero_add]
    have : ∀ l : List Fn, (∀ f ∈ l, f.FlatTexts ∧ f.body.Comments) → uncounted (l.flatMap (Fn.evs W)) = l.countP Fn.bare := by
      intro l
      induction l with
      | nil => intro _; rfl
      | cons f l ih =>
        intro hl
        rw [List.flatMap_cons, uncounted_append, ih fun g hg => hl g (List.mem_cons_of_mem _ hg), List.countP_cons]
        have := hl f (List.mem_cons_self ..)
        rw [uncounted_fn W this.1 this.2]
        omega
    exact this _ fun f hf => ⟨h.fns f hf, hc.fns f hf⟩
  have hl : ∀ es : List Ev, lineAfter (text es) = 1 + endls es + uncounted es := by
    intro es
    induction es with
    | nil => rfl
    | cons x es ih => cases x <;> simp only [lineAfter, text, endls, uncounted, List.count_append, List.count_cons_self] at ih ⊢ <;> omega
  have ht : Tidy stmts := .flatMap fun s hs => tidy_stmt W s (h.stmts s hs) (hc.stmts s hs)
  have hb : Bal stmts := .flatMap fun s _ => bal_stmt W s
  rw [hb _ (uncounted before), starts_heads stmts (text before) (1 + endls before) (uncounted before) (hl before), List.map_map]
  apply List.map_congr_left
  intro x hx
  have := heads_tidy _ _ _ ht x hx
  simp only [Function.comp, this, hu]
  congr 1
  omega

/-- Every `always_ff` block that is recorded has the line before its own. -/
theorem always_ff_before (W : Nat) (m : Module) (h : m.FlatTexts) (hc : m.Comments) (hf : ∀ f ∈ m.fns, f.bare = false) (i : Id) (n : Nat)
    (hx : (i, Place.always, n) ∈ starts [] (m.evs W)) : (i, n - 1) ∈ records 1 (m.evs W) := by
  rw [lines_place_partial W m h hc hf]
  exact List.mem_map.2 ⟨_, hx, rfl⟩

theorem starts_prefix : ∀ (es : List Ev) (pre pre' : Str), starts (pre ++ pre') es = (starts pre' es).map fun x => (x.1, x.2.1, x.2.2 + pre.count '\n')
  | [], _, _ => rfl
  | .str s :: l, pre, pre' => by simp only [starts, List.append_assoc, starts_prefix l]
  | .endl :: l, pre, pre' => by simp only [starts, List.append_assoc, starts_prefix l]
  | .rawEndl :: l, pre, pre' => by simp only [starts, List.append_assoc, starts_prefix l]
  | .note _ :: l, pre, pre' => by simp only [starts, starts_prefix l]
  | .head i p :: l, pre, pre' => by
    simp only [starts, starts_prefix l pre pre', List.map_cons, lineAfter, List.count_append]
    congr 3
    omega

/-- A module in a file after `pre` (`output_verilog`, kratos/passes.py:219-239): if its lines are right, then after `fix_verilog_ln` with the
lines of `pre` exactly the nodes that are not top-level statements have their lines in the file; those are short of them by the lines of
`pre`. -/
theorem file_lines (pre : Str) (tops : List Id) (es : List Ev) (hr : Right es) :
    (records 1 es).map (fixLn (pre.count '\n') tops) = (starts pre es).map fun x => (x.1, if x.1 ∈ tops then x.2.2 - pre.count '\n' else x.2.2) := by
  unfold Right at hr
  have := starts_prefix es pre []
  rw [List.append_nil] at this
  rw [hr, this, List.map_map, List.map_map]
  apply List.map_congr_left
  intro x _
  simp only [Function.comp, fixLn]
  split
  · simp
  · rfl

/-! Comments -/

/-- Full claim (C71): the text of a comment, with its line breaks removed, is printed in one comment line. -/
def CommentClaim : Prop := ∀ c : Str, c ≠ [] → text (commentEvs c) = "// ".toList ++ c.filter (· ≠ '\n') ++ ['\n']

/-- C71 for comments without line breaks. -/
theorem comment_partial (c : Str) (hc : c ≠ []) (h : Flat c) : text (commentEvs c) = "// ".toList ++ c.filter (· ≠ '\n') ++ ['\n'] := by
  have e : c.filter (· ≠ '\n') = c := List.filter_eq_self.2 fun x hx => by
    simp only [ne_eq, decide_not, Bool.not_eq_true', decide_eq_false_iff_not]
    rintro rfl
    exact h hx
  have e' : stripNewline c = c := by
    cases c with
    | nil => rfl
    | cons x r => simp only [stripNewline]; rw [if_neg h]
  unfold commentEvs
  rw [if_neg hc, e, e']
  simp [text]

/-- Comments that do not start with a line break stay in one line. -/
theorem comment_one_line (c : Str) (h : OneLine c) : c = [] ∧ text (commentEvs c) = [] ∨ ∃ t, Flat t ∧ text (commentEvs c) = "// ".toList ++ t ++ ['\n'] := by
  rcases Decidable.em (c = []) with e | e
  · exact .inl ⟨e, by unfold commentEvs; rw [if_pos e]; rfl⟩
  · refine .inr ⟨stripNewline c, strip_flat h, ?_⟩
    unfold commentEvs
    rw [if_neg e]
    simp [text]

/-- What is printed of a comment with a line break after its first character: that character and what follows the last line break. -/
theorem comment_truncated (x : Char) (a b : Str) (hb : Flat b) : text (commentEvs (x :: a ++ '\n' :: b)) = "// ".toList ++ x :: b ++ ['\n'] := by
  have e : stripNewline (x :: a ++ '\n' :: b) = x :: b := by
    show stripNewline (x :: (a ++ '\n' :: b)) = _
    simp only [stripNewline]
    rw [if_pos (by simp)]
    congr 1
    cases a with
    | nil => exact dropNl_of_flat hb
    | cons y a => exact dropNl_last a b hb
  unfold commentEvs
  rw [if_neg (by simp), e]
  simp [text]

/-- A comment that starts with a line break (and has no other) is printed as code, without its second character. -/
theorem comment_leaks (y : Char) (b : Str) (hb : Flat (y :: b)) : text (commentEvs ('\n' :: y :: b)) = "// \n".toList ++ b ++ ['\n'] := by
  have e : stripNewline ('\n' :: y :: b) = '\n' :: b := by
    simp only [stripNewline]
    rw [if_pos (List.mem_cons_self ..)]
    show '\n' :: dropNl b = _
    rw [dropNl_of_flat fun hm => hb (List.mem_cons_of_mem _ hm)]
  unfold commentEvs
  rw [if_neg (by simp), e]
  simp [text]

theorem not_CommentClaim : ¬ CommentClaim := by
  intro h
  have := h "ab\nc".toList (by decide)
  exact absurd this (by decide)

/-! ### Counterexamples and examples -/

def base : Module where
  i := 0
  package := none
  name := "m".toList
  imports := []
  params := []
  ifacePorts := []
  ports := [⟨1, none, "the clock".toList, "input logic clk".toList⟩]
  enums := []
  vars := []
  ifaces := []
  fns := []
  stmts := []

theorem base_flat {fns : List Fn} {stmts : List S} (hf : ∀ x ∈ fns, x.FlatTexts) (hs : ∀ x ∈ stmts, x.FlatTexts) : ({ base with fns := fns, stmts := stmts } : Module).FlatTexts where
  package := nofun
  name := (by decide : Flat "m".toList)
  imports := nofun
  params := nofun
  ifacePorts := nofun
  ports := by
    intro x hx
    cases List.mem_singleton.1 hx
    exact ⟨nofun, by decide⟩
  enums := nofun
  vars := nofun
  ifaces := nofun
  fns := hf
  stmts := hs

def flop : S := .block 2 none .seq [] "always_ff @(posedge clk) begin".toList [] (.cons (.call 3 none "f()".toList) .nil)

theorem flop_flat : flop.FlatTexts := ⟨nofun, by decide, by decide, ⟨⟨nofun, by decide⟩, trivial⟩⟩

/-- C51 fails for every `always_ff` block. -/
theorem always_ff_line : records 1 (Module.evs 80 { base with stmts := [flop] }) = [(0, 1), (1, 3), (2, 6), (3, 8)] ∧
    starts [] (Module.evs 80 { base with stmts := [flop] }) = [(0, .plain, 1), (1, .plain, 3), (2, .always, 7), (3, .plain, 8)] := by decide +kernel

def bareFn : Fn := ⟨4, false, "function void f".toList, [], false, .nil⟩

/-- … and for every statement after a function without ports. -/
theorem bare_function_line : records 1 (Module.evs 80 { base with fns := [bareFn], stmts := [.brk none, .ret 5 none "1".toList] }) = [(0, 1), (1, 3), (4, 6), (5, 10)] ∧
    starts [] (Module.evs 80 { base with fns := [bareFn], stmts := [.brk none, .ret 5 none "1".toList] }) =
      [(0, .plain, 1), (1, .plain, 3), (4, .plain, 6), (5, .plain, 11)] := by decide +kernel

theorem connection_line : records 1 (Module.evs 80 { base with stmts := [.inst 5 none [] "child".toList [] "c".toList [(some 6, ".a(a)".toList), (some 7, ".b(b)".toList)]] }) =
      [(0, 1), (1, 3), (5, 6), (6, 7), (7, 7)] ∧
    starts [] (Module.evs 80 { base with stmts := [.inst 5 none [] "child".toList [] "c".toList [(some 6, ".a(a)".toList), (some 7, ".b(b)".toList)]] }) =
      [(0, .plain, 1), (1, .plain, 3), (5, .plain, 6), (6, .conn 0, 7), (7, .conn 1, 8)] := by decide +kernel

theorem not_LineClaim : ¬ LineClaim := by
  intro h
  have := h 80 { base with stmts := [flop] } (base_flat nofun (by
    intro x hx
    cases List.mem_singleton.1 hx
    exact flop_flat))
  unfold Right at this
  rw [always_ff_line.1, always_ff_line.2] at this
  exact absurd this (by decide)

/-- The hypotheses of `lines_partial` are met by a module with comments, an else-if and a wrapped assignment. -/
def sample : Module := { base with stmts := [.block 2 none .plain "a\nb".toList "always_comb begin".toList [] (.cons
  (.ite 3 none "x".toList (.block 4 none .scope [] "begin".toList [] (.cons (.assign 5 none "why".toList "y = ".toList "aaaa + bbbb".toList) .nil)) 6 none []
    (.cons (.ite 7 none "z".toList (.block 8 none .scope [] "begin".toList [] .nil) 9 none [] .nil) .nil)) (.cons (.ret 10 none "y".toList) .nil))] }

example : Right (sample.evs 80) := by
  refine lines_partial 80 sample (base_flat nofun ?_) ⟨?_, nofun, nofun, nofun, ?_⟩ nofun ?_
  · intro x hx
    cases List.mem_singleton.1 hx
    exact ⟨nofun, by decide, by decide, ⟨nofun, by decide, ⟨nofun, by decide, by decide, ⟨nofun, by decide⟩, trivial⟩, nofun, by decide,
      ⟨nofun, by decide, ⟨nofun, by decide, by decide, trivial⟩, nofun, by decide, trivial⟩, trivial⟩, ⟨nofun, by decide⟩, trivial⟩
  · intro x hx
    cases List.mem_singleton.1 hx
    show OneLine _
    unfold OneLine
    decide
  · intro x hx
    cases List.mem_singleton.1 hx
    have h1 : OneLine "a\nb".toList := by unfold OneLine; decide
    have h2 : OneLine "why".toList := by unfold OneLine; decide
    exact ⟨fun _ => h1, ⟨⟨fun h => absurd rfl h, h2, trivial⟩, ⟨⟨fun h => absurd rfl h, trivial⟩, trivial⟩, trivial⟩, trivial, trivial⟩
  · decide +kernel

end Kratos.Lines
