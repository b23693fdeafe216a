import Verif.Graph.Dfs
import Verif.Util.Map
import Verif.Gen.Table

/-!
# Packed struct definitions: collection, conflict check and emission order

`PortPackedVisitor` and `extract_struct_info` (src/analysis.cc:1017-1125), `PackedStructGraph`
(src/graph.cc:183-238), `PackedStruct::same` (src/expr.cc:1843-1890).  A struct definition is a
finite tree: a field is a plain vector or refers to another definition.  Nodes of the graph are
keyed by struct name, as in the code.  `external` structs are skipped by the caller of `collect`.
-/

namespace Kratos.Graph

open Gen (Name)

mutual
/-- `PackedStruct` (src/expr.hh:548-563): name and fields. -/
inductive PS where
  | mk (name : Name) (fs : Flds)
/-- `std::vector<PackedStructFieldDef>` (src/expr.hh:536-546): a field has either a width and a sign
or, when `struct_` is set, a nested definition. -/
inductive Flds where
  | nil
  | leaf (n : Name) (w : Nat) (sgn : Bool) (rest : Flds)
  | sub (n : Name) (p : PS) (rest : Flds)
end

def PS.name : PS → Name
  | .mk n _ => n

def PS.fields : PS → Flds
  | .mk _ f => f

/-- The definitions the fields refer to. -/
def Flds.subs : Flds → List PS
  | .nil => []
  | .leaf _ _ _ r => r.subs
  | .sub _ p r => p :: r.subs

def PS.subs (p : PS) : List PS := p.fields.subs

mutual
/-- `PackedStruct::same` (src/expr.cc:1884-1890). -/
def PS.same : PS → PS → Bool
  | .mk _ f, .mk _ g => f.same g
/-- `PackedStructFieldDef::same` along the two field lists (src/expr.cc:1843-1850): nested fields
compare only the nested definitions. -/
def Flds.same : Flds → Flds → Bool
  | .nil, .nil => true
  | .leaf n w s r, .leaf n' w' s' r' => decide (n = n') && decide (w = w') && decide (s = s') && r.same r'
  | .sub _ p r, .sub _ p' r' => p.same p' && r.same r'
  | _, _ => false
end

mutual
/-- `process_struct_` (src/analysis.cc:1051-1071). -/
def process : PS → Map Name PS → Res (Map Name PS)
  | .mk n fs, m =>
    match m.find n with
    | some p => if (PS.mk n fs).same p then .ok m else .throw .var
    | none => processSubs fs (m.emplace n (.mk n fs))
/-- Its loop over the fields. -/
def processSubs : Flds → Map Name PS → Res (Map Name PS)
  | .nil, m => .ok m
  | .leaf _ _ _ r, m => processSubs r m
  | .sub _ p r, m => (process p m).bind fun m => processSubs r m
end

/-- The visitor over all struct variables of the design (src/analysis.cc:1019-1036). -/
def collect (defs : List PS) : Res (Map Name PS) := each process defs []

/-- `PackedStructGraph`: node per name, edges `(a, b)` for "b is in a's children". -/
structure SG where
  nodes : Map Name PS
  edges : List (Name × Name)

/-- `get_node` (src/graph.cc:194-200). -/
def getNode (p : PS) (g : SG) : SG := { g with nodes := g.nodes.emplace p.name p }

/-- The node part of `add_struct` (src/analysis.cc:1075-1080): `s` becomes a child of `parent`. -/
def link (s : Option PS) (parent : PS) (g : SG) : SG :=
  match s with
  | none => getNode parent g
  | some s =>
    let g := getNode s (getNode parent g)
    { g with edges := g.edges ++ [(parent.name, s.name)] }

mutual
/-- `add_struct` (src/analysis.cc:1073-1088): the nested definition is made the parent of the one
using it. -/
def addStruct : Option PS → PS → SG → SG
  | s, .mk n fs, g => addSubs (.mk n fs) fs (link s (.mk n fs) g)
def addSubs : PS → Flds → SG → SG
  | _, .nil, g => g
  | p, .leaf _ _ _ r, g => addSubs p r g
  | p, .sub _ q r, g => addSubs p r (addStruct (some p) q g)
end

/-- `structs()` before the sort (src/analysis.cc:1038-1043). -/
def structGraph (ps : List PS) : SG := ps.foldl (fun g p => addStruct none p g) ⟨[], []⟩

/-- The children set of a node. -/
def SG.succ (g : SG) (n : Name) : List Name := (g.edges.filter fun e => decide (e.1 = n)).map (·.2)

/-- `get_structs` (src/graph.cc:219-238): `nodes` and `cord` are the iteration orders of the node
table and of the children sets; the queue is emptied into a vector and reversed. -/
def getStructs (g : SG) (nodes : List Name) (cord : Name → List Name) (fuel : Nat) : Res (List PS) :=
  (topSort cord fuel nodes).bind fun l => .ok (l.reverse.filterMap g.nodes.find)

/-- One line of the `typedef struct packed` text (src/analysis.cc:1106-1117): the type and the name
of the field. -/
inductive Decl where
  | vector (w : Nat) (sgn : Bool) (n : Name)
  | named (t : Name) (n : Name)
  deriving DecidableEq

/-- The lines of the emitted text. -/
def Flds.decls : Flds → List Decl
  | .nil => []
  | .leaf n w s r => .vector w s n :: r.decls
  | .sub n p r => .named p.name n :: r.decls

end Kratos.Graph
