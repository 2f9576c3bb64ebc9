import Verif.Spec.Tensor
import Verif.Model.Entropy

/-!
# Contexts with the same structure (C107)
-/
namespace Rei

/-- `f` and `g` carry the nodes and the edges of the context `c` (in the state `h`) one to one to those of the context `c'`
(in the state `h'`), whatever the orders in which they were added. -/
structure Carries (h : Heap) (c : Ref) (h' : Heap) (c' : Ref) (f g : Ref → Ref) : Prop where
  nodes : ((h.subNodes c).map f).Perm (h'.subNodes c')
  edges : ((h.subEdges c).map g).Perm (h'.subEdges c')

/-- The edge `x'` has relations to the images of the ends of `x`, with the same directions and weights, in the same order. -/
def SameRelations (h h' : Heap) (f : Ref → Ref) (x x' : Ref) : Prop :=
  List.Forall₂ (fun r r' => (h'.get r').endpoint = (h.get r).endpoint.map f ∧
    (h'.get r').direction = (h.get r).direction ∧ weightOf h' r' = weightOf h r) (h.subRelations x) (h'.subRelations x')

/-- The edge `x'` leads in and out at the images of the nodes at which `x` does, by however many relations and in whatever
order. -/
def SameEnds (h : Heap) (c : Ref) (h' : Heap) (f : Ref → Ref) (x x' : Ref) : Prop :=
  ∀ v ∈ h.subNodes c, (InEndpoint h x v ↔ InEndpoint h' x' (f v)) ∧ (OutEndpoint h x v ↔ OutEndpoint h' x' (f v))

/-- The representations of the two contexts are the same up to the order of nodes and edges: the entries for corresponding
elements agree, and so do the numbers that belong to the whole context. -/
structure SameRepresentation (h : Heap) (c : Ref) (T : Tensors) (h' : Heap) (c' : Ref) (T' : Tensors) (f g : Ref → Ref) :
    Prop where
  ne : T'.ne = T.ne
  nn : T'.nn = T.nn
  W : ∀ e i j e' i' j' x v u, (h.subEdges c)[e]? = some x → (h.subNodes c)[i]? = some v → (h.subNodes c)[j]? = some u →
    (h'.subEdges c')[e']? = some (g x) → (h'.subNodes c')[i']? = some (f v) → (h'.subNodes c')[j']? = some (f u) →
    T'.W e' i' j' = T.W e i j
  incidence : ∀ e i e' i' x v, (h.subEdges c)[e]? = some x → (h.subNodes c)[i]? = some v →
    (h'.subEdges c')[e']? = some (g x) → (h'.subNodes c')[i']? = some (f v) →
    T'.Io e' i' = T.Io e i ∧ T'.Ii e' i' = T.Ii e i
  degree : ∀ i i' v, (h.subNodes c)[i]? = some v → (h'.subNodes c')[i']? = some (f v) → T'.degree i' = T.degree i
  projected : ∀ i j i' j' v u, (h.subNodes c)[i]? = some v → (h.subNodes c)[j]? = some u →
    (h'.subNodes c')[i']? = some (f v) → (h'.subNodes c')[j']? = some (f u) →
    T'.projectedLaplacian i' j' = T.projectedLaplacian i j
  laplacian : (∃ err, T.laplacian = .error err ∧ T'.laplacian = .error err) ∨
    ∃ L L', T.laplacian = .ok L ∧ T'.laplacian = .ok L' ∧
      ∀ e i j e' i' j' x v u, (h.subEdges c)[e]? = some x → (h.subNodes c)[i]? = some v → (h.subNodes c)[j]? = some u →
        (h'.subEdges c')[e']? = some (g x) → (h'.subNodes c')[i']? = some (f v) → (h'.subNodes c')[j']? = some (f u) →
        L' e' i' j' = L e i j
  totalDegree : T'.totalDegree = T.totalDegree
  entropy : T'.entropy = T.entropy
  entropyProjected : T'.entropyProjected = T.entropyProjected

end Rei
