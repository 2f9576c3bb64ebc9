import Verif.Model.LazyChildren
import Verif.Spec.QueryEdited

/-!
# What a loop over the children of an element should do (C126)
-/
namespace Rei

/-- The children of `c` whose class is wanted, in the order in which they were added. -/
def wantedChildren (h : Heap) (want : Kind → Bool) (c : Ref) : List Ref :=
  (h.subelements c).filter fun x => want (h.get x).kind

/-- In every later graph, the calls of the body for an element of `xs` are well-formed, remove no child of `c`
and add none. -/
def LeavesChildren (E : Env) (h : Heap) (c : Ref) (body : Ref → Heap → List Op) (xs : List Ref) : Prop :=
  ∀ x ∈ xs, ∀ w, Later E h w → ValidCalls E w (body x w) ∧
    (afterCalls E w (body x w)).subelements c = w.subelements c ∧
    ((afterCalls E w (body x w)).get c).hist = (w.get c).hist

/-- The graph after the calls of the body for each of the elements in turn. -/
def graphAfter (E : Env) (body : Ref → Heap → List Op) : List Ref → Heap → Heap
  | [], h => h
  | x :: l, h => graphAfter E body l (afterCalls E h (body x h))

end Rei
