import Verif.Model.HyperTraversal
import Verif.Spec.Tensor

/-!
# What a hypergraph traversal reports (C102, C103)
-/
namespace Rei

/-- The relations of the edges contained in an element. -/
def relationsUnder (h : Heap) (v : Ref) : List Ref := (h.subEdges v).flatMap h.subRelations

/-- The relations met in `k` rounds from the nodes `vs`: those of the edges in these nodes, then those met from their
endpoints. -/
def rounds (h : Heap) : Nat → List Ref → List Ref
  | 0, _ => []
  | k + 1, vs =>
    vs.flatMap (relationsUnder h) ++
      rounds h k ((vs.flatMap (relationsUnder h)).flatMap fun r => ((h.get r).endpoint).toList)

/-- The nodes reached after `k` rounds from the nodes `vs`. -/
def reachedAfter (h : Heap) : Nat → List Ref → List Ref
  | 0, vs => vs
  | k + 1, vs => reachedAfter h k ((vs.flatMap (relationsUnder h)).flatMap fun r => ((h.get r).endpoint).toList)

/-- The endpoints of an edge, one for each of its relations. -/
def endpointsOf (h : Heap) (x : Ref) : List Ref := (h.subRelations x).flatMap fun r => ((h.get r).endpoint).toList

/-- The weight of a relation under a norm: 1 without weight node, else the norm of its values. -/
def weightBy (norm : List Rat → Rat) (h : Heap) (r : Ref) : Rat :=
  match (h.get r).weight with
  | none => 1
  | some v => norm (h.valuesOf v)

open Classical in
/-- The visitor calls for the relation `r` of the edge `x` to the node `v`: if it is incoming, one with a pair `(v, u)` for each
other endpoint `u` of the edge; if it is outgoing, one with a pair `(u, v)` for each; with uuids, and with the relation's weight
unless that is zero. -/
noncomputable def callsFor (norm : List Rat → Rat) (h : Heap) (x v r : Ref) : List (List UEntry) :=
  (if (h.get r).direction.isIn ∧ weightBy norm h r ≠ 0 then
    [((endpointsOf h x).filter fun u => decide (u ≠ v)).map fun u => ⟨(h.get v).uuid, (h.get u).uuid, (h.get x).uuid, weightBy norm h r⟩]
   else []) ++
  (if (h.get r).direction.isOut ∧ weightBy norm h r ≠ 0 then
    [((endpointsOf h x).filter fun u => decide (u ≠ v)).map fun u => ⟨(h.get u).uuid, (h.get v).uuid, (h.get x).uuid, weightBy norm h r⟩]
   else [])

/-- A relation as connecting an edge makes it: it leads to a node, its weight, if any, is a value node, and so for the other
relations of its edge; and different endpoints of the edge have different uuids. -/
structure ProperRelation (h : Heap) (r : Ref) : Prop where
  edge : ∃ x, (h.get r).parent = some x ∧ (h.get x).kind = .edge ∧
    (∀ q ∈ h.subRelations x, ∃ v, (h.get q).endpoint = some v ∧ (h.get v).kind = .node) ∧
    (∀ u ∈ endpointsOf h x, ∀ v ∈ endpointsOf h x, (h.get u).uuid = (h.get v).uuid → u = v)
  weight : ∀ v, (h.get r).weight = some v → (h.get v).kind = .value

/-- `calls` are those for the relation `r`. -/
def CallsOf (norm : List Rat → Rat) (h : Heap) (r : Ref) (calls : List (List UEntry)) : Prop :=
  ∃ x v, (h.get r).parent = some x ∧ (h.get r).endpoint = some v ∧ calls = callsFor norm h x v r

/-- No endpoint of a relation in the context contains an edge with relations. -/
def Shallow (h : Heap) (c : Ref) : Prop :=
  ∀ r, RelationIn h c r → ∀ v, (h.get r).endpoint = some v → relationsUnder h v = []

/-- Some endpoint of a relation in the context contains an edge with relations, and no edge in such an endpoint has the uuid of
an edge of the context. -/
structure Deep (h : Heap) (c : Ref) : Prop where
  inside : ∃ r v, RelationIn h c r ∧ (h.get r).endpoint = some v ∧ relationsUnder h v ≠ []
  apart : ∀ r, RelationIn h c r → ∀ v, (h.get r).endpoint = some v → ∀ x ∈ h.subEdges v, ∀ y ∈ h.subEdges c,
    (h.get x).uuid ≠ (h.get y).uuid

end Rei
