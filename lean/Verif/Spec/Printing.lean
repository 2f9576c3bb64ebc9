import Verif.Model.Printing
import Verif.Spec.Traversal
import Verif.Spec.Hierarchy

/-!
# Specification vocabulary for C97 (printing a hierarchy)
-/
namespace Rei

/-- The line for the element `x`, whose path reads `path`: a node with the name of its container, if any; an edge with the number
of its sub-elements and the name of its container; a relation with its direction, the name of its endpoint and its weight. -/
inductive LineFor (h : Heap) (x : Ref) (path : Str) : Line → Prop
  | root : (h.get x).kind = .node → (h.get x).parent = none →
      LineFor h x path ⟨"node ".toList ++ path ++ ": ".toList ++ (h.get x).idName, none⟩
  | node {p : Ref} : (h.get x).kind = .node → x ∈ h.subelements p →
      LineFor h x path ⟨"node ".toList ++ path ++ ": ".toList ++ (h.get x).idName ++ " <- ".toList ++ (h.get p).idName, none⟩
  | edge {p : Ref} : (h.get x).kind = .edge → x ∈ h.subelements p →
      LineFor h x path ⟨"edge ".toList ++ path ++ ": ".toList ++ (h.get x).idName ++ [' '] ++ Nat.toDigits 10 (h.subelements x).length ++
        " <- ".toList ++ (h.get p).idName, none⟩
  | outwards {n : Ref} : (h.get x).kind = .relation → (h.get x).endpoint = some n → (h.get x).direction = .outwards →
      LineFor h x path ⟨"relation ".toList ++ path ++ ": -> ".toList ++ (h.get n).idName ++ ":: ".toList, some (h.get x).weight⟩
  | inwards {n : Ref} : (h.get x).kind = .relation → (h.get x).endpoint = some n → (h.get x).direction = .inwards →
      LineFor h x path ⟨"relation ".toList ++ path ++ ": <- ".toList ++ (h.get n).idName ++ ":: ".toList, some (h.get x).weight⟩
  | undirected {n : Ref} : (h.get x).kind = .relation → (h.get x).endpoint = some n → (h.get x).direction = .bidirectional →
      LineFor h x path ⟨"relation ".toList ++ path ++ ": -- ".toList ++ (h.get n).idName ++ ":: ".toList, some (h.get x).weight⟩

/-- Nodes, edges and relations are printed. -/
def Heap.isPrinted (h : Heap) (x : Ref) : Bool :=
  match (h.get x).kind with
  | .node | .edge | .relation => true
  | _ => false

/-- A line can be printed for `x`: an edge must have a container and a relation an endpoint. -/
def Printable (h : Heap) (x : Ref) : Prop :=
  ((h.get x).kind = .edge → (h.get x).parent ≠ none) ∧ ((h.get x).kind = .relation → (h.get x).endpoint ≠ none)

end Rei
