import Verif.Model.Traversal

/-!
# Printing a hierarchy (`foundations/hierarchical_traversal_strategies.py:93-125`)
-/
namespace Rei

/-- A printed line.  What follows the text of a relation is whatever Python prints for its weight, an object or `None`. -/
structure Line where
  text : Str
  weight : Option (Option Ref) := none
  deriving DecidableEq

/-- `direction_to_text`, `hierarchical_traversal_strategies.py:97-104`. -/
def directionText : Dir → Str
  | .outwards => ['-', '>']
  | .inwards => ['<', '-']
  | .bidirectional => ['-', '-']

/-- `str(n)` of an integer. -/
def intText : Int → Str
  | .ofNat n => decimal n
  | .negSucc n => '-' :: decimal (n + 1)

/-- `print_element`, `hierarchical_traversal_strategies.py:107-120`; the state is what has been printed.  Elements of other
classes print nothing. -/
def printElement (h : Heap) : Visitor (List Line) := fun x out =>
  let o := h.get x
  match o.kind with
  | .node =>
    match o.parent with
    | none => (.ok (), out ++ [⟨"node ".toList ++ o.qualName ++ ": ".toList ++ o.idName, none⟩])
    | some p =>
      (.ok (), out ++ [⟨"node ".toList ++ o.qualName ++ ": ".toList ++ o.idName ++ " <- ".toList ++ (h.get p).idName, none⟩])
  | .edge =>
    match o.parent with
    | none => (.error .attributeError, out)
    | some p =>
      (.ok (), out ++ [⟨"edge ".toList ++ o.qualName ++ ": ".toList ++ o.idName ++ [' '] ++ intText o.cnt ++ " <- ".toList ++
        (h.get p).idName, none⟩])
  | .relation =>
    match o.endpoint with
    | none => (.error .attributeError, out)
    | some n =>
      (.ok (), out ++ [⟨"relation ".toList ++ o.qualName ++ ": ".toList ++ directionText o.direction ++ [' '] ++ (h.get n).idName ++
        ":: ".toList, some o.weight⟩])
  | _ => (.ok (), out)

/-- `print_graph_hierarchy`, `hierarchical_traversal_strategies.py:123-125`. -/
def printHierarchy (h : Heap) (budget : Nat) (start : Ref) (shared : Fringe) (out : List Line) :
    Except Err Unit × List Line × Fringe :=
  Strategy.execute ⟨false, none, false⟩ h (fun _ => true) (printElement h) budget start shared out

end Rei
