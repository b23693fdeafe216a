import Verif.Graph.Dfs

/-!
# The generator graph (`src/graph.cc:15-152`) and the visiting orders built on it

`kids g` is `get_child_generators()` of generator `g` (the instances in declaration order).
`std::set<Generator *>` and `unordered_map<Generator *, …>` iterate in an order that depends on
addresses: the theorems quantify over every order.
-/

namespace Kratos.Graph

/-- `visit_generator_root` (src/ir.cc:92-98) with `GeneratorVisitor::visit` = `add_node`
(src/graph.cc:15-22, 52-64): parents first, a generator met twice is an error.  A hierarchy that
contains itself would recurse for ever; that is `.ub` (`fuel` runs out). -/
def addNodes (kids : Nat → List Nat) : Nat → Nat → List Nat → Res (List Nat)
  | 0, _, _ => .ub
  | f + 1, g, ns =>
    if g ∈ ns then .throw .generator
    else each (addNodes kids f) (kids g) (ns ++ [g])

/-- State of the second pass: the edge list (parent, child), standing for `node->parent` and
`node->children`. -/
abbrev Edges := List (Nat × Nat)

/-- `GeneratorGraphVisitor::visit` for one child (src/graph.cc:29-36): `get_node` of the child must
exist and have no parent yet. -/
def addEdge (nodes : List Nat) (p c : Nat) (es : Edges) : Res Edges :=
  if c ∈ nodes then
    if es.any (fun e => e.2 == c) then .throw .user else .ok (es ++ [(p, c)])
  else .throw .user

/-- The loop over the children of one generator (src/graph.cc:27-37). -/
def addEdges (nodes : List Nat) (p : Nat) (cs : List Nat) (es : Edges) : Res Edges :=
  if p ∈ nodes then each (addEdge nodes p) cs es
  else .throw .user

/-- The second pass over the hierarchy (src/graph.cc:47-49). -/
def edgePass (kids : Nat → List Nat) (nodes : List Nat) : Nat → Nat → Edges → Res Edges
  | 0, _, _ => .ub
  | f + 1, g, es =>
    (addEdges nodes g (kids g) es).bind fun es => each (edgePass kids nodes f) (kids g) es

/-- `GeneratorGraph::GeneratorGraph` (src/graph.cc:43-50). -/
def buildGraph (kids : Nat → List Nat) (fuel root : Nat) : Res (List Nat × Edges) :=
  (addNodes kids fuel root []).bind fun ns =>
    (edgePass kids ns fuel root []).bind fun es => .ok (ns, es)

/-- Children of a node in the graph. -/
def childrenOf (es : Edges) (n : Nat) : List Nat := (es.filter fun e => e.1 == n).map (·.2)

/-- `get_leveled_nodes` (src/graph.cc:123-152), the breadth-first loop: queue of (generator, level),
`level_index` as a list of pairs.  (The code reads the front of the queue through a reference after
`pop`; the model reads the value that was there.) -/
def levelLoop (kids : Nat → List Nat) : Nat → List (Nat × Nat) → List (Nat × Nat) →
    Res (List (Nat × Nat))
  | _, [], idx => .ok idx
  | 0, _ :: _, _ => .ub
  | f + 1, (g, d) :: q, idx =>
    let idx' := match idx.find? (fun e => e.1 == g) with
      | none => idx ++ [(g, d)]
      | some e => if e.2 < d then idx.map (fun e => if e.1 == g then (g, d) else e) else idx
    levelLoop kids f (q ++ (kids g).map fun c => (c, d + 1)) idx'

/-- The levels, `result[level]` (src/graph.cc:143-151); `ord` is the iteration order of
`level_index`. -/
def levelOf (ord : List (Nat × Nat)) (d : Nat) : List Nat := (ord.filter fun e => e.2 == d).map (·.1)

/-- `max_level` (src/graph.cc:129, 140). -/
def maxLevel (idx : List (Nat × Nat)) : Nat := idx.foldl (fun m e => max m e.2) 0

/-- `visit_generator_root_p` (src/ir.cc:100-120): the deepest level first; inside one level the
thread pool may run the generators in any order, here the order of `ord`. -/
def parallelOrder (idx ord : List (Nat × Nat)) : List Nat :=
  ((List.range (maxLevel idx + 1)).reverse).flatMap fun d => levelOf ord d

end Kratos.Graph
