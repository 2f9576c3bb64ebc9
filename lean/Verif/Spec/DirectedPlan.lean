import Verif.Spec.SampleGraphs
import Verif.Spec.Tensor

/-!
# Specification vocabulary for C115 (plans with directions and weights)
-/
namespace Rei
open PyM

/-- An end of an edge of a plan: the index of the node, the direction and, if there is one, the node with the weight. -/
structure PlanEnd where
  node : Nat
  dir : Dir
  weight : Option Ref := none
  deriving DecidableEq

/-- The user's step `factory.connect_tuple_nodes(n0, name, [(node_list[i], weight, direction), ...])`, with the calls modelled
from `foundation_factory.py:92-106`. -/
def Factory.connectEnds (E : Env) (F : Factory) (c : Ref) (ns : List Ref) (line : Str × List PlanEnd) : PyM Ref := do
  let links ← mapEach line.2 fun d => do
    let n ← itemAt ns d.node
    pure (⟨n, d.dir, d.weight, none⟩ : Link)
  F.connectTuples E c line.1 links

/-- The program of `create_fano_graph` (`fano_graph.py:5-22`) for any nodes and edges, where the edges are made by
`connect_tuple_nodes`. -/
def Factory.createDirected (E : Env) (F : Factory) (name : Str) (nodes : List Str) (lines : List (Str × List PlanEnd)) :
    PyM (Ref × List Ref × List Ref) := do
  let c ← F.generateNode E name none
  let ns ← F.generateListNodes E nodes (some c)
  assertNew [] ns
  let es ← mapEach lines (F.connectEnds E c ns)
  pure (c, ns, es)

/-- What can be asked for: as in `GraphPlan`, and the weights are existing value nodes. -/
structure DirectedPlan (h : Heap) (nodes : List Str) (lines : List (Str × List PlanEnd)) : Prop where
  apart : nodes.Nodup
  names : (lines.map Prod.fst).Nodup
  slash : ∀ l ∈ lines, '/' ∉ l.1
  distinct : ∀ l ∈ lines, (l.2.map PlanEnd.node).Nodup
  exist : ∀ l ∈ lines, ∀ d ∈ l.2, d.node < nodes.length
  weights : ∀ l ∈ lines, ∀ d ∈ l.2, ∀ w, d.weight = some w → w < h.size ∧ (h.get w).kind = .value

/-- The node `c` contains exactly the nodes `ns` and the edges `es`, with the names asked for; each edge has exactly the
relations asked for, in order, with endpoint, direction and weight. -/
structure DirectedIn (h : Heap) (name : Str) (nodes : List Str) (lines : List (Str × List PlanEnd)) (c : Ref)
    (ns es : List Ref) : Prop where
  kind : (h.get c).kind = .node
  root : (h.get c).parent = none
  name : (h.get c).idName = name
  contents : h.subelements c = ns ++ es
  subNodes : h.subNodes c = ns
  subEdges : h.subEdges c = es
  nodeNames : ns.map (fun n => (h.get n).idName) = nodes
  edgeNames : es.map (fun e => (h.get e).idName) = lines.map Prod.fst
  ends : es.map (fun e => (h.subRelations e).map h.linkAt) =
    lines.map fun l => l.2.map fun d => (ns[d.node]?, d.dir, d.weight)

/-- The weight of an end: 1 if none is given, else the sum of the values of its node. -/
def PlanEnd.value (h : Heap) (d : PlanEnd) : Rat :=
  match d.weight with
  | none => 1
  | some w => (h.valuesOf w).sum

/-- The weight of the last end, of those with a weight other than 0, that satisfies `P`; 0 if there is none. -/
def lastEnd (h : Heap) (l : List PlanEnd) (P : PlanEnd → Bool) : Rat :=
  match (l.filter fun d => decide (d.value h ≠ 0) && P d).getLast? with
  | none => 0
  | some d => d.value h

/-- What the plan says about the tensors: along an edge one can go from an end to another end if the former is
incoming or the latter outgoing, and the weight is that of the last such end in the plan. -/
structure DirectedTensors (h : Heap) (nodes : List Str) (lines : List (Str × List PlanEnd)) (T : Tensors) : Prop where
  layers : T.ne = lines.length
  rows : T.nn = nodes.length
  W : ∀ e l, lines[e]? = some l → ∀ i < nodes.length, ∀ j < nodes.length,
    T.W e i j = if i ≠ j ∧ i ∈ l.2.map PlanEnd.node ∧ j ∈ l.2.map PlanEnd.node then
      lastEnd h l.2 fun d => decide (d.node = i ∧ d.dir.isIn ∨ d.node = j ∧ d.dir.isOut) else 0
  Io : ∀ e l, lines[e]? = some l → ∀ i < nodes.length,
    T.Io e i = if i ∈ l.2.map PlanEnd.node ∧ 2 ≤ l.2.length then
      lastEnd h l.2 fun d => decide (d.node = i ∧ d.dir.isIn ∨ d.node ≠ i ∧ d.dir.isOut) else 0
  Ii : ∀ e l, lines[e]? = some l → ∀ j < nodes.length,
    T.Ii e j = if j ∈ l.2.map PlanEnd.node ∧ 2 ≤ l.2.length then
      lastEnd h l.2 fun d => decide (d.node = j ∧ d.dir.isOut ∨ d.node ≠ j ∧ d.dir.isIn) else 0

/-- An arc of a weighted directed graph. -/
structure Arc where
  name : Str
  source : Nat
  target : Nat
  weight : Option Ref := none
  deriving DecidableEq

/-- The edge for an arc: it is entered at the source and left at the target. -/
def Arc.line (a : Arc) : Str × List PlanEnd := (a.name, [⟨a.source, .inwards, a.weight⟩, ⟨a.target, .outwards, a.weight⟩])

/-- The weight of an arc: 1 if none is given, else the sum of the values of its node. -/
def Arc.value (h : Heap) (a : Arc) : Rat :=
  match a.weight with
  | none => 1
  | some w => (h.valuesOf w).sum

/-- Weighted directed graphs without loops: distinct names of nodes, distinct names of arcs without `/`. -/
structure DigraphPlan (h : Heap) (nodes : List Str) (arcs : List Arc) : Prop where
  apart : nodes.Nodup
  names : (arcs.map Arc.name).Nodup
  slash : ∀ a ∈ arcs, '/' ∉ a.name
  loopless : ∀ a ∈ arcs, a.source ≠ a.target
  exist : ∀ a ∈ arcs, a.source < nodes.length ∧ a.target < nodes.length
  weights : ∀ a ∈ arcs, ∀ w, a.weight = some w → w < h.size ∧ (h.get w).kind = .value

/-- The tensors of a weighted directed graph: adjacency, incidences, degrees and Laplacian. -/
structure DigraphTensors (h : Heap) (nodes : List Str) (arcs : List Arc) (T : Tensors) : Prop where
  layers : T.ne = arcs.length
  rows : T.nn = nodes.length
  W : ∀ e a, arcs[e]? = some a → ∀ i < nodes.length, ∀ j < nodes.length,
    T.W e i j = if i = a.source ∧ j = a.target then a.value h else 0
  Io : ∀ e a, arcs[e]? = some a → ∀ i < nodes.length, T.Io e i = if i = a.source then a.value h else 0
  Ii : ∀ e a, arcs[e]? = some a → ∀ j < nodes.length, T.Ii e j = if j = a.target then a.value h else 0
  degree : ∀ i < nodes.length,
    T.degree i = (arcs.map fun a => if i = a.source ∨ i = a.target then a.value h else 0).sum
  total : T.totalDegree = 2 * (arcs.map (Arc.value h)).sum
  projected : ∀ i < nodes.length, ∀ j < nodes.length, T.projectedLaplacian i j =
    if i = j then (arcs.map fun a => if i = a.source ∨ i = a.target then a.value h else 0).sum
    else - (arcs.map fun a => if i = a.source ∧ j = a.target then a.value h else 0).sum

end Rei
