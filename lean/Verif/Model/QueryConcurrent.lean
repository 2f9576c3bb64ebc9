import Verif.Model.QueryEngine

/-!
# Several executions of query engines on one event loop (`query/query_engine.py:74-84`)

`execute` suspends in one place only, `await asyncio.wait(...)`: before it the traversals run and the tasks are made, after it
the queues are emptied.  Between these two parts the event loop runs the tasks, of this and of other executions, in any
order, and other executions begin and end.  Executions share query objects if they are executions of the same engine, or if
a query was added to several engines; all share the queue of the breadth-first traversals.
-/
namespace Rei

/-- An execution of an engine. -/
inductive Execution
  /-- It has not begun. -/
  | fresh
  /-- It waits until its tasks have run; these are left. -/
  | waiting (todo : List (Nat × Nat))
  /-- It has returned, or raised. -/
  | returned (r : Except Err (List Ref))

/-- Executions with their engines, the query objects, the queue all traversals share. -/
structure Executions where
  queries : Queries
  shared : Fringe
  runs : List (Engine × Execution)

/-- What the event loop does next. -/
inductive Turn
  /-- Execution `i` begins. -/
  | start (i : Nat)
  /-- The task of execution `i` on the coroutine `t` runs. -/
  | task (i : Nat) (t : Nat × Nat)
  /-- Execution `i` goes on after `asyncio.wait`. -/
  | finish (i : Nat)

/-- One turn; turns that are not possible do nothing.  `start`: `query_engine.py:75-79` up to the suspension; `task`: as in
`PrepQuery.runTask` (the coroutine may have been awaited by a task of another execution); `finish`: `query_engine.py:80-84`,
when no task is left. -/
def Turn.exec (h : Heap) (budget : Nat) : Turn → Executions → Executions
  | .start i, S =>
    match S.runs[i]? with
    | some (e, .fresh) =>
      match prefilterAll h budget (Dict.values e) S.queries S.shared [] with
      | (.error err, Q, sh) => ⟨Q, sh, S.runs.set i (e, .returned (.error err))⟩
      | (.ok [], Q, sh) => ⟨Q, sh, S.runs.set i (e, .returned (.error .valueError))⟩
      | (.ok tasks, Q, sh) => ⟨Q, sh, S.runs.set i (e, .waiting tasks)⟩
    | _ => S
  | .task i t, S =>
    match S.runs[i]? with
    | some (e, .waiting todo) =>
      if t ∈ todo then
        ⟨Function.update S.queries t.1 ((S.queries t.1).runTask t.2), S.shared,
          S.runs.set i (e, .waiting (todo.filter fun u => decide (u ≠ t)))⟩
      else S
    | _ => S
  | .finish i, S =>
    match S.runs[i]? with
    | some (e, .waiting []) =>
      let r := drain (Dict.values e) S.queries
      ⟨r.2, S.shared, S.runs.set i (e, .returned (.ok r.1))⟩
    | _ => S

/-- The turns of a schedule. -/
def Executions.after (h : Heap) (budget : Nat) (S : Executions) (ts : List Turn) : Executions :=
  ts.foldl (fun S t => t.exec h budget S) S

end Rei
