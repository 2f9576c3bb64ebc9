import Verif.Model.QueryEdited
import Verif.Spec.QueryEngine
import Verif.Spec.Containment

/-!
# What a query beside edits should answer (C125)
-/
namespace Rei

/-- The tasks that run, in their order. -/
def beatTasks (bs : List Beat) : List (Nat × Nat) := bs.filterMap fun
  | .task t => some t
  | .call _ => none

/-- The calls of the rest of the program, in their order. -/
def callsBetween (bs : List Beat) : List Op := bs.filterMap fun
  | .call op => some op
  | .task _ => none

/-- The graphs between the calls: at first `h`, then after each call. -/
def graphsDuring (E : Env) : Heap → List Op → List Heap
  | h, [] => [h]
  | h, op :: ops => h :: graphsDuring E (op.after E h) ops

/-- The graph after the calls. -/
def afterCalls (E : Env) (h : Heap) (ops : List Op) : Heap := ops.foldl (fun h op => op.after E h) h

/-- Every call is well-formed in the graph it meets. -/
def ValidCalls (E : Env) : Heap → List Op → Prop
  | _, [] => True
  | h, op :: ops => op.Valid h ∧ ValidCalls E (op.after E h) ops

/-- The event loop runs every task once, with anything else in between. -/
def FairBeats (beats : List (Nat × Nat) → List Beat) : Prop :=
  ∀ tasks, (beatTasks (beats tasks)).Nodup ∧ ∀ t, t ∈ beatTasks (beats tasks) ↔ t ∈ tasks

/-- The elements that the query visits in the graph `h`, and whose predicate holds, that of `x` in the graph `W x`. -/
def LiveQuery.answer (q : LiveQuery) (h : Heap) (W : Ref → Heap) : List Ref :=
  (visitedBy h (q.at h)).filter fun x => match q.prep (W x) x with
    | .ok true => true
    | _ => false

/-- The predicate looks only at what never changes: the class, the name and the uuid of the element. -/
def LiveQuery.ByIdentity (q : LiveQuery) : Prop :=
  ∃ f : Kind → Str → Bytes → Except Err Bool, ∀ h x, q.prep h x = f (h.get x).kind (h.get x).idName (h.get x).uuid

end Rei
