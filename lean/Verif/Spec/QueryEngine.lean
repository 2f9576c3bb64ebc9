import Verif.Model.QueryEngine
import Verif.Spec.Traversal

/-!
# Specification of the query engine (C52)
-/
namespace Rei

/-- The event loop runs every task once, in any order (the coroutines were put into a set). -/
def Schedule (order : List (Nat × Nat) → List (Nat × Nat)) : Prop :=
  ∀ tasks, (order tasks).Nodup ∧ ∀ t, t ∈ order tasks ↔ t ∈ tasks

/-- The elements a query's traversal passes: nodes, relations, hyperedges and the elements of the
cognitive and kinematic languages (no ports, no values), if they satisfy the traversal statement. -/
def passes (h : Heap) (statement : Ref → Bool) (x : Ref) : Bool :=
  (match (h.get x).kind with
    | .node => true
    | .edge => true
    | .relation => true
    | .semantic _ => true
    | .conceptual => false
    | .element => false
    | .port => false
    | .value => false) && statement x

/-- The elements a query's traversal visits: the start element and everything below it through
elements of the right class that satisfy the traversal statement, breadth first. -/
def visitedBy (h : Heap) (q : PrepQuery) : List Ref :=
  breadthFirst h (passes h q.statement) false q.start h.size

/-- The visited elements that satisfy the predicate. -/
def matchesOf (h : Heap) (q : PrepQuery) : List Ref :=
  (visitedBy h q).filter fun x => match q.prep x with
    | .ok true => true
    | _ => false

/-- Between executions: no results waiting, every coroutine made so far has been awaited. -/
def PrepQuery.Idle (q : PrepQuery) : Prop := q.result = [] ∧ ∀ c ∈ q.coros, c.awaited = true

/-- A query fits on the interpreter's stack. -/
def PrepQuery.Fits (q : PrepQuery) (h : Heap) (budget : Nat) : Prop :=
  q.start < h.size ∧ (visitedBy h q).length < budget

/-- Same question: start, predicate, traversal statement. -/
def PrepQuery.SameQuestion (q r : PrepQuery) : Prop :=
  q.start = r.start ∧ q.prep = r.prep ∧ q.statement = r.statement

end Rei
