import Verif.Model.Stack
import Verif.Spec.Hierarchy
import Verif.Spec.Containment

/-!
# Adding at any depth (C105)
-/
namespace Rei

/-- Every element at or below `x` has at most `limit` elements on its path from the root. -/
def FitsIn (limit : Nat) (h : Heap) (x : Ref) : Prop := ∀ y l, Within h x y → PathTo h y l → l.length ≤ limit

/-- The hierarchies are the same. -/
structure SameHierarchy (h h' : Heap) : Prop where
  parent : ∀ y, (h'.get y).parent = (h.get y).parent
  subelements : ∀ y, h'.subelements y = h.subelements y
  count : ∀ y, (h'.get y).cnt = (h.get y).cnt
  identity : ∀ y, (h'.get y).uuid = (h.get y).uuid ∧ (h'.get y).idName = (h.get y).idName

end Rei
