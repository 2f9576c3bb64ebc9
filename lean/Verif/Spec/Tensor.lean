import Verif.Model.Tensor

/-!
# Specification of tensor representations (C34–C38)

Everything here is phrased with `sub_nodes`, `sub_edges`, `sub_relations` and the attributes
`endpoint`, `direction`, `weight` of relations.
-/
namespace Rei

/-- `v` is an endpoint of the edge `x`. -/
def Endpoint (h : Heap) (x v : Ref) : Prop := ∃ r ∈ h.subRelations x, (h.get r).endpoint = some v

instance (h : Heap) (x v : Ref) : Decidable (Endpoint h x v) := by
  unfold Endpoint; infer_instance

/-- `INWARDS` or `BIDIRECTIONAL`. -/
abbrev Dir.isIn (d : Dir) : Prop := d = .inwards ∨ d = .bidirectional
/-- `OUTWARDS` or `BIDIRECTIONAL`. -/
abbrev Dir.isOut (d : Dir) : Prop := d = .outwards ∨ d = .bidirectional

/-- `v` is an incoming endpoint of `x`. -/
def InEndpoint (h : Heap) (x v : Ref) : Prop :=
  ∃ r ∈ h.subRelations x, (h.get r).endpoint = some v ∧ (h.get r).direction.isIn
/-- `v` is an outgoing endpoint of `x`. -/
def OutEndpoint (h : Heap) (x v : Ref) : Prop :=
  ∃ r ∈ h.subRelations x, (h.get r).endpoint = some v ∧ (h.get r).direction.isOut

instance (h : Heap) (x v : Ref) : Decidable (InEndpoint h x v) := by
  unfold InEndpoint; infer_instance
instance (h : Heap) (x v : Ref) : Decidable (OutEndpoint h x v) := by
  unfold OutEndpoint; infer_instance

/-- `r` is a relation of one of the edges of the context `c`. -/
def RelationIn (h : Heap) (c r : Ref) : Prop := ∃ x ∈ h.subEdges c, r ∈ h.subRelations x

/-- All relations in the context lead to nodes of the context. -/
def Closed (h : Heap) (c : Ref) : Prop :=
  ∀ r, RelationIn h c r → ∃ v ∈ h.subNodes c, (h.get r).endpoint = some v

/-- No relation in the context has a weight. -/
def Unweighted (h : Heap) (c : Ref) : Prop := ∀ r, RelationIn h c r → (h.get r).weight = none

/-- All relations in the context are bidirectional. -/
def Undirected (h : Heap) (c : Ref) : Prop :=
  ∀ r, RelationIn h c r → (h.get r).direction = .bidirectional

/-- Weights are value nodes. -/
def ValueWeights (h : Heap) (c : Ref) : Prop :=
  ∀ r, RelationIn h c r → ∀ v, (h.get r).weight = some v → (h.get v).kind = .value

/-- The weight of a relation: 1 without weight node, else the sum of its values. -/
def weightOf (h : Heap) (r : Ref) : Rat :=
  match (h.get r).weight with
  | none => 1
  | some v => (h.valuesOf v).sum

/-- `w` is the weight of the last relation of the list that satisfies `P`; 0 if there is none. -/
def LastWins (h : Heap) (rels : List Ref) (P : Ref → Prop) (w : Rat) : Prop :=
  (∃ l1 r l2, rels = l1 ++ r :: l2 ∧ P r ∧ (∀ q ∈ l2, ¬ P q) ∧ w = weightOf h r) ∨
  ((∀ q ∈ rels, ¬ P q) ∧ w = 0)

/-- Relation `r` of `x` leads from `v` to `u`: it has a non-zero weight, `v` and `u` are different
endpoints of `x`, and it is an incoming relation at `v` or an outgoing relation at `u`. -/
def Links (h : Heap) (x v u r : Ref) : Prop :=
  weightOf h r ≠ 0 ∧ v ≠ u ∧ Endpoint h x v ∧ Endpoint h x u ∧
    (((h.get r).endpoint = some v ∧ (h.get r).direction.isIn) ∨
     ((h.get r).endpoint = some u ∧ (h.get r).direction.isOut))

/-- The Python stack is deep enough for the conversion of the context `c`. -/
def StackFor (h : Heap) (c : Ref) (budget : Nat) : Prop :=
  (h.subNodes c).length < budget ∧ (h.subValues c).length < budget ∧
  (h.subEdges c).length + ((h.subEdges c).flatMap h.subRelations).length + 1 < budget

/-- The number of different endpoints of an edge, among the nodes of the context. -/
def edgeSize (h : Heap) (c x : Ref) : Nat :=
  ((h.subNodes c).filter fun v => Endpoint h x v).length

/-- The number of edges of the context that contain `v`. -/
def edgesAt (h : Heap) (c v : Ref) : Nat :=
  ((h.subEdges c).filter fun x => Endpoint h x v).length

end Rei
