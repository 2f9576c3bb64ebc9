import Verif.Model.Factorization
import Verif.Spec.Tensor

/-!
# Specification vocabulary for C43-C45, C110, C111 (factorization)
-/
namespace Rei

/-- `i` and `o` are an incoming and an outgoing relation of the edge `x`. -/
structure InOutPair (h : Heap) (x i o : Ref) : Prop where
  edge : (h.get x).kind = .edge
  in_ : i ∈ h.subRelations x
  out : o ∈ h.subRelations x
  inDir : (h.get i).direction.isIn
  outDir : (h.get o).direction.isOut

/-- The endpoints of the relations `i` and `o` exist and have different uuids. -/
def DistinctEnds (h : Heap) (i o : Ref) : Prop :=
  ∃ a b, (h.get i).endpoint = some a ∧ (h.get o).endpoint = some b ∧ (h.get a).uuid ≠ (h.get b).uuid

/-- Relation `r` leads to a node of the selection. -/
def LeadsInto (h : Heap) (sel : List Ref) (r : Ref) : Prop :=
  ∃ v ∈ sel, (h.get v).kind = .node ∧ (h.get r).endpoint = some v

/-- One step of the two-factorization: from a node to one of its edges, from an edge to the endpoint of
one of its outgoing relations. -/
def Leads (h : Heap) (a b : Ref) : Prop :=
  ((h.get a).kind = .node ∧ b ∈ h.subEdges a) ∨
  ((h.get a).kind = .edge ∧ ∃ r ∈ h.outgoing a, (h.get r).endpoint = some b)

/-- `n` steps. -/
inductive Walk (h : Heap) : Nat → Ref → Ref → Prop
  | refl (a) : Walk h 0 a a
  | step {n a b c} : Walk h n a b → Leads h b c → Walk h (n + 1) a c

/-- A cycle can be reached from `start`. -/
def MeetsCycle (h : Heap) (start : Ref) : Prop :=
  ∃ a n m, Walk h n start a ∧ Walk h (m + 1) a a

/-- The factorization `l` has a pair of relations of the edge `x`, the first to `v` and the second to `u`. -/
def FactorPair (h : Heap) (l : List (Ref × Ref)) (x v u : Ref) : Prop :=
  ∃ i o, (i, o) ∈ l ∧ i ∈ h.subRelations x ∧ o ∈ h.subRelations x ∧ (h.get i).endpoint = some v ∧ (h.get o).endpoint = some u

/-- Calling `f` for the elements of the list one after the other, from the state `s`, gives the results `bs` and ends in the
state `s'`. -/
inductive CallsInOrder {α β σ : Type} (f : α → σ → Except Err β × σ) : σ → List α → List β → σ → Prop
  | nil {s} : CallsInOrder f s [] [] s
  | cons {s a b s1 l bs s'} : f a s = (.ok b, s1) → CallsInOrder f s1 l bs s' → CallsInOrder f s (a :: l) (b :: bs) s'

end Rei
