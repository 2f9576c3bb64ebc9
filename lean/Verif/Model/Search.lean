import Verif.Model.System

/-!
# Searches by qualified name (`foundations/query/search_elements.py`)

`_setup_query` (`:18-21`) copies its default argument `asyncio.Queue()`, one object for the whole
program; `copy.copy` copies the queue object but shares its contents.  So all searches of the program
use one queue, separate from the one of the hierarchical traversals.  `put` and `get` do not suspend
here (unbounded queue, `get` only when not empty), so a search runs without interleaving.
-/
namespace Rei

/-- A query object: `query_def`, the element cache and the last result (`search_elements.py:12-16`). -/
structure Query where
  queryDef : Str
  cache : Dict Str Ref := []
  result : List Ref := []

/-- What a search leaves: its outcome, the query object, and the contents of the shared queue. -/
structure Searched where
  outcome : Except Err Unit
  query : Query
  queue : List Ref

/-- The match branch, `search_elements.py:59-62,79-82`: the element is cached under its qualified name
and appended to the result. -/
def Query.found (Q : Query) (h : Heap) (x : Ref) : Query :=
  { Q with cache := Q.cache.set (h.get x).qualName x, result := Q.result ++ [x] }

/-- `QuerySearchSubElement._traverse`, `search_elements.py:56-66`.  One nested call per element taken
from the queue; `budget` is the number of calls that fit on the Python stack. -/
def searchSub (h : Heap) : Nat → List Ref → Query → Searched
  | 0, q, Q => ⟨.error .recursionError, Q, q⟩
  | _ + 1, [], Q => ⟨.ok (), Q, []⟩
  | budget + 1, x :: q, Q =>
    if (h.get x).qualName = Q.queryDef then ⟨.ok (), Q.found h x, q⟩
    else searchSub h budget (q ++ h.subelements x) Q

/-- `QuerySearchElement._traverse`, `search_elements.py:75-90`; `visited` is the set of uuids. -/
def searchAll (h : Heap) : Nat → List Bytes → List Ref → Query → Searched
  | 0, _, q, Q => ⟨.error .recursionError, Q, q⟩
  | _ + 1, _, [], Q => ⟨.ok (), Q, []⟩
  | budget + 1, visited, x :: q, Q =>
    let visited := (h.get x).uuid :: visited
    if (h.get x).qualName = Q.queryDef then ⟨.ok (), Q.found h x, q⟩
    else
      searchAll h budget visited
        (q ++ (h.subelements x).filter (fun n => decide ((h.get n).uuid ∉ visited)) ++
          (h.get x).parent.toList) Q

/-- `GraphQuery.execute`, `search_elements.py:39-48`, around a `_traverse`: a cached element is
returned without looking at the graph. -/
def Query.execute (walk : List Ref → Query → Searched) (start : Ref) (shared : List Ref) (Q : Query) :
    Searched :=
  let Q := { Q with result := [] }
  match Q.cache.get? Q.queryDef with
  | some x => ⟨.ok (), { Q with result := [x] }, shared⟩
  | none => walk (shared ++ [start]) Q

/-- `QuerySearchSubElement.execute`, `search_elements.py:39-48,56-66`. -/
def Query.executeSub (h : Heap) (budget : Nat) (start : Ref) (shared : List Ref) (Q : Query) : Searched :=
  Q.execute (searchSub h budget) start shared

/-- `QuerySearchElement.execute`, `search_elements.py:75-95`: the set of visited uuids is emptied
first. -/
def Query.executeAll (h : Heap) (budget : Nat) (start : Ref) (shared : List Ref) (Q : Query) : Searched :=
  Q.execute (searchAll h budget []) start shared

end Rei
