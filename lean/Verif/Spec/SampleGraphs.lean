import Verif.Model.SampleGraphs
import Verif.Spec.Factory

/-!
# Specification vocabulary for C93 (sample graphs)
-/
namespace Rei

/-- What can be asked for: distinct names of nodes, distinct names of edges without `/`, and edges whose nodes exist
and are distinct. -/
structure GraphPlan (nodes : List Str) (lines : List (Str × List Nat)) : Prop where
  apart : nodes.Nodup
  names : (lines.map Prod.fst).Nodup
  slash : ∀ l ∈ lines, '/' ∉ l.1
  distinct : ∀ l ∈ lines, l.2.Nodup
  exist : ∀ l ∈ lines, ∀ i ∈ l.2, i < nodes.length

/-- The node `c` contains exactly the nodes `ns` and the edges `es`, with the names asked for; each edge has the
endpoints asked for, by undirected relations without weight. -/
structure GraphIn (h : Heap) (name : Str) (nodes : List Str) (lines : List (Str × List Nat)) (c : Ref) (ns es : List Ref) :
    Prop where
  kind : (h.get c).kind = .node
  root : (h.get c).parent = none
  name : (h.get c).idName = name
  contents : h.subelements c = ns ++ es
  subNodes : h.subNodes c = ns
  subEdges : h.subEdges c = es
  nodeNames : ns.map (fun n => (h.get n).idName) = nodes
  edgeNames : es.map (fun e => (h.get e).idName) = lines.map Prod.fst
  ends : es.map h.inducedSubset = lines.map fun l => l.2.map (ns[·]?)
  undirected : ∀ e ∈ es, ∀ r ∈ h.subRelations e, (h.get r).direction = .bidirectional ∧ (h.get r).weight = none

/-- The node `a` lies on the edge `e`. -/
def Heap.On (h : Heap) (a e : Ref) : Prop := some a ∈ h.inducedSubset e

end Rei
