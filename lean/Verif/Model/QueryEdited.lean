import Verif.Model.QueryEngine
import Verif.Model.System

/-!
# An execution of a query engine beside edits (`query/query_engine.py:74-84`)

`execute` suspends at `await asyncio.wait(...)` only.  Its traversals run before, on the graph of that moment; afterwards the
event loop runs its tasks and those of the rest of the program, which may call anything.  The predicates and the traversal
statements are functions of the element and of the graph at the moment of the call.
-/
namespace Rei

/-- `HierarchicalPrepositionQuery`, `query_engine.py:14-27`, as `PrepQuery`, with functions that may look at the graph. -/
structure LiveQuery where
  start : Ref
  prep : Heap → Ref → Except Err Bool
  statement : Heap → Ref → Bool
  result : List Ref := []
  coros : List Coro := []

/-- The query as long as the graph is `h`. -/
def LiveQuery.at (q : LiveQuery) (h : Heap) : PrepQuery :=
  { start := q.start, prep := q.prep h, statement := q.statement h, result := q.result, coros := q.coros }

/-- The query object with the queue and the list of the other one. -/
def LiveQuery.with (q : LiveQuery) (p : PrepQuery) : LiveQuery := { q with result := p.result, coros := p.coros }

/-- The query objects of the program, by identity. -/
abbrev LiveQueries := Nat → LiveQuery

/-- What the event loop does while an execution waits. -/
inductive Beat
  /-- Some other task calls something. -/
  | call (op : Op)
  /-- The task on this coroutine runs. -/
  | task (t : Nat × Nat)

/-- The beats of a schedule, `query_engine.py:79`. -/
def runBeats (E : Env) : List Beat → Heap → LiveQueries → Heap × LiveQueries
  | [], h, Q => (h, Q)
  | .call op :: bs, h, Q => runBeats E bs (op.after E h) Q
  | .task t :: bs, h, Q => runBeats E bs h (Function.update Q t.1 ((Q t.1).with (((Q t.1).at h).runTask t.2)))

/-- `HypergraphQueryEngine.execute`, `query_engine.py:74-84`, as `Engine.execute`.  `beats` tells what the event loop does once
the tasks are made.  The graph after it is returned, too. -/
def Engine.executeBeside (e : Engine) (E : Env) (h : Heap) (budget : Nat) (beats : List (Nat × Nat) → List Beat)
    (Q : LiveQueries) (shared : Fringe) : Except Err (List Ref) × Heap × LiveQueries × Fringe :=
  match prefilterAll h budget (Dict.values e) (fun k => (Q k).at h) shared [] with
  | (.error err, P, shared) => (.error err, h, fun k => (Q k).with (P k), shared)
  | (.ok [], P, shared) => (.error .valueError, h, fun k => (Q k).with (P k), shared)
  | (.ok tasks, P, shared) =>
    let r := runBeats E (beats tasks) h fun k => (Q k).with (P k)
    let d := drain (Dict.values e) fun k => (r.2 k).at r.1
    (.ok d.1, r.1, (fun k => (r.2 k).with (d.2 k)), shared)

end Rei
