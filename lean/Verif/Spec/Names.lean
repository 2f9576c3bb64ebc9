import Verif.Spec.Containment

/-!
# Specification vocabulary for C07, C15, C16, C17, C18
-/
namespace Rei

/-- The call detaches only elements without sub-elements (moves by `add_element` are not restricted). -/
def Op.DetachesLeaves (h : Heap) : Op → Prop
  | .remove c nm u _ => ∀ x ∈ h.subelements c,
      (u = some (h.get x).uuid ∨ u = none ∧ (h.get x).idName = nm) → h.subelements x = []
  | .deregister x => h.subelements x = []
  | _ => True

/-- States reached by safe calls that only detach elements without sub-elements. -/
inductive ReachLeafDetach (E : Env) : Heap → Prop
  | init : ReachLeafDetach E Heap.empty
  | step {h} (op : Op) : ReachLeafDetach E h → op.Valid h → op.Safe h → op.DetachesLeaves h →
      ReachLeafDetach E (op.after E h)

/-- The call builds the hierarchy top down: it adds only elements without sub-elements, never removes
one, and gives no semantic value node to a new relation. -/
def Op.TopDown (h : Heap) : Op → Prop
  | .remove .. => False
  | .deregister _ => False
  | .add _ x => h.subelements x = []
  | .register x _ => h.subelements x = []
  | .unaryConnect _ _ _ _ sv => sv = none
  | _ => True

/-- States reached by safe top-down calls. -/
inductive ReachTopDown (E : Env) : Heap → Prop
  | init : ReachTopDown E Heap.empty
  | step {h} (op : Op) : ReachTopDown E h → op.Valid h → op.Safe h → op.TopDown h →
      ReachTopDown E (op.after E h)

/-- `y` is reached from `c` by sub-elements with the given names, one after the other. -/
inductive Follows (h : Heap) : Ref → List Str → Ref → Prop
  | last {c y t} : y ∈ h.subelements c → (h.get y).idName = t → Follows h c [t] y
  | next {c v y t ts} : v ∈ h.subelements c → (h.get v).idName = t → Follows h v ts y →
      Follows h c (t :: ts) y

/-- The same, as the ordered list of results. -/
def follow (h : Heap) : List Str → Ref → List Ref
  | [], _ => []
  | [t], c => (h.subelements c).filter fun x => decide ((h.get x).idName = t)
  | t :: t' :: ts, c =>
    ((h.subelements c).filter fun x => decide ((h.get x).idName = t)).flatMap
      (follow h (t' :: ts))

/-- `h'` is a later state, with no clock replaced in between. -/
inductive LaterSameClocks (E : Env) : Heap → Heap → Prop
  | refl (h) : LaterSameClocks E h h
  | step {h h'} (op : Op) : LaterSameClocks E h h' → op.Valid h' → (∀ x c, op ≠ .setClock x c) →
      LaterSameClocks E h (op.after E h')

end Rei
