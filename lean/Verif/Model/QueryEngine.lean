import Verif.Model.Traversal
import Mathlib.Logic.Function.Basic

/-!
# The query engine (`query/query_engine.py`)

The hierarchy does not change while queries run.  A coroutine object `add_to_result(x)` is the element
`x` with a flag telling whether it has been awaited; it is named by its query and its position in that
query's `__prefilter` list.  `asyncio.wait` (Python 3.10) puts the coroutines into a `set`, makes one
task of each, in the order of that set (which depends on addresses), and returns when all are done;
exceptions stay in the tasks.  `add_to_result` has no point at which it can suspend (`put` on an
unbounded queue), so every execution is some order of whole tasks: the order is a parameter here.
-/
namespace Rei

/-- A coroutine object made by `add_to_result(x)`. -/
structure Coro where
  elem : Ref
  awaited : Bool
  deriving DecidableEq, Repr

/-- `HierarchicalPrepositionQuery`, `query_engine.py:14-27`: the start element, the predicate (which
may raise), the traversal statement, the queue of results, the list `__prefilter`. -/
structure PrepQuery where
  start : Ref
  prep : Ref → Except Err Bool
  statement : Ref → Bool
  result : List Ref := []
  coros : List Coro := []

/-- The filter of a query's traversal, `query_engine.py:26-27`. -/
def queryFilter (h : Heap) (statement : Ref → Bool) (x : Ref) : Bool :=
  (match (h.get x).kind with
    | .node | .relation | .edge | .semantic _ => true
    | _ => false) && statement x

/-- The visitor of a query's traversal, `query_engine.py:25`: makes the coroutine, without awaiting. -/
def collect : Visitor (List Coro) := fun x l => (.ok (), l ++ [⟨x, false⟩])

/-- `prefilter`, `query_engine.py:29-31`.  Returns the outcome, the query and the contents of the
queue all breadth-first traversals share. -/
def PrepQuery.prefilter (h : Heap) (budget : Nat) (shared : Fringe) (q : PrepQuery) :
    Except Err Unit × PrepQuery × Fringe :=
  let r := Strategy.execute ⟨false, none, false⟩ h (queryFilter h q.statement) collect budget q.start
    shared q.coros
  (r.1, { q with coros := r.2.1 }, r.2.2)

/-- A task on the coroutine at position `i`, `query_engine.py:33-36`: an awaited coroutine raises
`RuntimeError` inside the task; so does a predicate that raises. -/
def PrepQuery.runTask (q : PrepQuery) (i : Nat) : PrepQuery :=
  match q.coros[i]? with
  | none => q
  | some c =>
    if c.awaited then q
    else
      let q := { q with coros := q.coros.set i { c with awaited := true } }
      match q.prep c.elem with
      | .ok true => { q with result := q.result ++ [c.elem] }
      | _ => q

/-- The query objects of the program, by identity. -/
abbrev Queries := Nat → PrepQuery

/-- The engine's dictionary of queries, `query_engine.py:54-60`: name to query object. -/
abbrev Engine := Dict Str Nat

/-- `add_query`, `query_engine.py:56-57`. -/
def Engine.addQuery (e : Engine) (name : Str) (q : Nat) : Engine := Dict.set e name q

/-- `clear`, `query_engine.py:59-60`. -/
def Engine.clear (_ : Engine) : Engine := []

/-- `query_engine.py:76-78`: the traversals run one after the other; each extends the list of tasks
with all coroutines of its query. -/
def prefilterAll (h : Heap) (budget : Nat) : List Nat → Queries → Fringe → List (Nat × Nat) →
    Except Err (List (Nat × Nat)) × Queries × Fringe
  | [], Q, shared, tasks => (.ok tasks, Q, shared)
  | k :: ks, Q, shared, tasks =>
    let r := (Q k).prefilter h budget shared
    let Q' := Function.update Q k r.2.1
    match r.1 with
    | .error e => (.error e, Q', r.2.2)
    | .ok _ =>
      prefilterAll h budget ks Q' r.2.2
        (tasks ++ (List.range r.2.1.coros.length).map fun i => (k, i))

/-- The tasks run in some order, `query_engine.py:79`. -/
def runTasks (order : List (Nat × Nat)) (Q : Queries) : Queries :=
  order.foldl (fun Q t => Function.update Q t.1 ((Q t.1).runTask t.2)) Q

/-- `query_engine.py:81-83` with `execute` and `get_list_results` (`:38-46`): the queues are emptied
one after the other. -/
def drain : List Nat → Queries → List Ref × Queries
  | [], Q => ([], Q)
  | k :: ks, Q =>
    let r := drain ks (Function.update Q k { Q k with result := [] })
    ((Q k).result ++ r.1, r.2)

/-- `HypergraphQueryEngine.execute`, `query_engine.py:74-84`, and `execute_all_queries`
(`:86-96`), which does the same on an event loop of its own.  `order` gives the order in which the
tasks run; `asyncio.wait` raises `ValueError` when there is none. -/
def Engine.execute (e : Engine) (h : Heap) (budget : Nat) (order : List (Nat × Nat) → List (Nat × Nat))
    (Q : Queries) (shared : Fringe) : Except Err (List Ref) × Queries × Fringe :=
  match prefilterAll h budget (Dict.values e) Q shared [] with
  | (.error err, Q, shared) => (.error err, Q, shared)
  | (.ok [], Q, shared) => (.error .valueError, Q, shared)
  | (.ok tasks, Q, shared) =>
    let r := drain (Dict.values e) (runTasks (order tasks) Q)
    (.ok r.1, r.2, shared)

end Rei
