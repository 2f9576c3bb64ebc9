import Verif.Model.Search
import Verif.Spec.Traversal
import Verif.Spec.Hierarchy
import Verif.Spec.Containment

/-!
# Specification vocabulary for C46-C48 (searches)
-/
namespace Rei

/-- `start` and everything below it, level by level, in each level those below earlier elements first,
siblings in insertion order. -/
def subtree (h : Heap) (start : Ref) : List Ref :=
  (List.range h.size).flatMap (level h (fun _ => true) start)

/-- `x` and `y` have a common container, or one contains the other: they are in one tree. -/
def SameTree (h : Heap) (x y : Ref) : Prop := ∃ r, Within h r x ∧ Within h r y

/-- The elements of the tree of `start` have different uuids. -/
def TreeUuidsDistinct (h : Heap) (start : Ref) : Prop :=
  ∀ x y, SameTree h start x → SameTree h start y → (h.get x).uuid = (h.get y).uuid → x = y

/-- Replace one query object. -/
def putQuery (Qs : Nat → Query) (i : Nat) (Q : Query) : Nat → Query := fun j => if j = i then Q else Qs j

/-- A program with any number of query objects of both classes, in which no search has found anything so
far (or run out of stack): calls on the graph, changes of query strings, and searches, in any order. -/
inductive Unlucky (E : Env) : Heap → List Ref → (Nat → Query) → Prop
  | init {h} : Reach E h → Unlucky E h [] fun _ => { queryDef := [] }
  | call {h q Qs} (op : Op) : Unlucky E h q Qs → op.Valid h → op.Safe h → Unlucky E (op.after E h) q Qs
  | define {h q Qs} (i : Nat) (d : Str) : Unlucky E h q Qs →
      Unlucky E h q (putQuery Qs i { Qs i with queryDef := d })
  | sub {h q Qs} (i budget : Nat) (start : Ref) : Unlucky E h q Qs →
      ((Qs i).executeSub h budget start q).outcome = .ok () →
      ((Qs i).executeSub h budget start q).query.result = [] →
      Unlucky E h ((Qs i).executeSub h budget start q).queue
        (putQuery Qs i ((Qs i).executeSub h budget start q).query)
  | all {h q Qs} (i budget : Nat) (start : Ref) : Unlucky E h q Qs →
      ((Qs i).executeAll h budget start q).outcome = .ok () →
      ((Qs i).executeAll h budget start q).query.result = [] →
      Unlucky E h ((Qs i).executeAll h budget start q).queue
        (putQuery Qs i ((Qs i).executeAll h budget start q).query)

end Rei
