import Verif.Spec.Tensor

/-!
# Specification vocabulary for C117 (connected components)
-/
namespace Rei

/-- An edge of the context ends at both nodes. -/
def ShareEdge (h : Heap) (c v u : Ref) : Prop := ∃ x ∈ h.subEdges c, Endpoint h x v ∧ Endpoint h x u

/-- The connected components of a context: its nodes, where joined nodes are identified. -/
def Component (h : Heap) (c : Ref) : Type := Quot fun v u : {v // v ∈ h.subNodes c} => ShareEdge h c v u

/-- The component of a node. -/
def componentOf (h : Heap) (c : Ref) (v : {v // v ∈ h.subNodes c}) : Component h c := Quot.mk _ v

end Rei
