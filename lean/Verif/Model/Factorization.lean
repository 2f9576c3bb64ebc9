import Verif.Model.Elements

/-!
# Factorization of hypergraphs (`hypergraph/factorization_operations.py`)

Every operation starts with a new result list (`:38`, `:54`, `:75`), so an operation object has no
state that outlives a call.
-/
namespace Rei

/-- What one element taken from the queue contributes in `Factorization2Operation.__traverse`,
`factorization_operations.py:18-32`: the elements it puts on the queue, and the pairs it appends to the
result.  The queue holds `None` when a relation has lost its endpoint; no case matches it. -/
def twoFactorStep (h : Heap) : Option Ref → List (Option Ref) × List (Ref × List Ref)
  | none => ([], [])
  | some x =>
    match (h.get x).kind with
    | .node => ((h.subEdges x).map some, [])
    | .edge => ((h.outgoing x).map fun r => (h.get r).endpoint,
                (h.incoming x).map fun i => (i, h.outgoing x))
    | _ => ([], [])

/-- `Factorization2Operation.__traverse`, `factorization_operations.py:15-35`.  It calls itself once per
element taken from the queue; `budget` is the number of nested calls that fit on the Python stack, after
which `RecursionError` is raised. -/
def twoFactorLoop (h : Heap) : Nat → List (Option Ref) → List (Ref × List Ref) →
    Except Err (List (Ref × List Ref))
  | 0, _, _ => .error .recursionError
  | _ + 1, [], acc => .ok acc
  | budget + 1, x :: q, acc =>
    twoFactorLoop h budget (q ++ (twoFactorStep h x).1) (acc ++ (twoFactorStep h x).2)

/-- `Factorization2Operation().execute(start)`, `factorization_operations.py:37-43`. -/
def twoFactor (h : Heap) (budget : Nat) (start : Ref) : Except Err (List (Ref × List Ref)) :=
  twoFactorLoop h budget [some start] []

/-- `[x for x in start if isinstance(x, HypergraphNode)]`, `factorization_operations.py:55,76`. -/
def selectedNodes (h : Heap) (sel : List Ref) : List Ref :=
  sel.filter fun x => (h.get x).kind = .node

/-- `x.endpoint in self.nodes`, `factorization_operations.py:58,60`; no class defines `__eq__`, so `in`
compares identities. -/
def endsIn (h : Heap) (nodes : List Ref) (r : Ref) : Bool :=
  match (h.get r).endpoint with
  | none => false
  | some v => decide (v ∈ nodes)

/-- `(e.endpoint.uuid != e1.endpoint.uuid) or self.self_loop`, `factorization_operations.py:62,94`;
`AttributeError` on a relation without endpoint. -/
def pairWanted (h : Heap) (loops : Bool) (i o : Ref) : Except Err Bool :=
  match (h.get i).endpoint, (h.get o).endpoint with
  | some a, some b => .ok (decide ((h.get a).uuid ≠ (h.get b).uuid) || loops)
  | _, _ => .error .attributeError

/-- The two inner loops, `factorization_operations.py:59-63` and `:92-95`: the wanted pairs. -/
def pairUp (h : Heap) (loops : Bool) (ins outs : List Ref) : Except Err (List (Ref × Ref)) := do
  let rows ← ins.mapM fun i => outs.mapM fun o => do
    let b ← pairWanted h loops i o
    pure (if b then [(i, o)] else [])
  pure (rows.map List.flatten).flatten

/-- `Factorization2SubsetOperation(self_loop).execute(start)`, `factorization_operations.py:53-64`. -/
def subsetFactor (h : Heap) (loops : Bool) (sel : List Ref) : Except Err (List (Ref × Ref)) := do
  let rows ← (sel.filter fun x => (h.get x).kind = .edge).mapM fun x =>
    pairUp h loops ((h.incoming x).filter (endsIn h (selectedNodes h sel)))
      ((h.outgoing x).filter (endsIn h (selectedNodes h sel)))
  pure rows.flatten

/-- `d[k].append(r)` after `if k not in d: d[k] = []`, `factorization_operations.py:83-85,87-89`. -/
def groupInsert (d : Dict Bytes (List Ref)) (k : Bytes) (r : Ref) : Dict Bytes (List Ref) :=
  d.set k ((d.get? k).getD [] ++ [r])

/-- The first loop of `RelationFactorization2SubsetOperation.execute`,
`factorization_operations.py:80-89`: selected relations grouped by the uuid of their container,
`INWARDS` and `BIDIRECTIONAL` ones in the first dictionary, `OUTWARDS` ones in the second.  A relation
without container is an `AttributeError`. -/
def groupRelations (h : Heap) : List Ref → Dict Bytes (List Ref) × Dict Bytes (List Ref) →
    Except Err (Dict Bytes (List Ref) × Dict Bytes (List Ref))
  | [], d => .ok d
  | r :: rs, d =>
    match (h.get r).parent with
    | none => .error .attributeError
    | some p =>
      if (h.get r).direction = .inwards ∨ (h.get r).direction = .bidirectional then
        groupRelations h rs (groupInsert d.1 (h.get p).uuid r, d.2)
      else groupRelations h rs (d.1, groupInsert d.2 (h.get p).uuid r)

/-- The second loop, `factorization_operations.py:91-95`: a container with incoming but without outgoing
selected relations is a `KeyError`. -/
def pairGroups (h : Heap) (loops : Bool) (outs : Dict Bytes (List Ref)) :
    Dict Bytes (List Ref) → Except Err (List (Ref × Ref))
  | [] => .ok []
  | (k, is) :: d =>
    match outs.get? k with
    | none => .error .keyError
    | some os => do
      let a ← pairUp h loops is os
      let b ← pairGroups h loops outs d
      pure (a ++ b)

/-- `RelationFactorization2SubsetOperation(self_loop).execute(start)`,
`factorization_operations.py:74-97`. -/
def relationFactor (h : Heap) (loops : Bool) (sel : List Ref) : Except Err (List (Ref × Ref)) := do
  let d ← groupRelations h (sel.filter fun x => (h.get x).kind = .relation) ([], [])
  pairGroups h loops d.2 d.1

/-! ## `MapFactorizationToFactorGraph` -/

/-- A `map` object of Python over a list: the part of the list that its iterator has not passed.  (The list is the one that
was handed over; that it could be changed while the iterator is in use is not modelled.) -/
structure MapIter (α : Type) where
  rest : List α

/-- `MapFactorizationToFactorGraph(f).execute(start)`, `factorization_operations.py:106-107`: the function is not called. -/
def mapExecute {α : Type} (start : List α) : MapIter α := ⟨start⟩

/-- `next(m)`: the iterator passes the next element, then the function is called with it; `none` is `StopIteration`.  The
function may raise and may change the state of the program. -/
def MapIter.next {α β σ : Type} (f : α → σ → Except Err β × σ) (m : MapIter α) (s : σ) :
    Option (Except Err β) × MapIter α × σ :=
  match m.rest with
  | [] => (none, m, s)
  | a :: l => let r := f a s; (some r.1, ⟨l⟩, r.2)

/-- `list(m)`: `next` until `StopIteration` or another exception. -/
def MapIter.toList {α β σ : Type} (f : α → σ → Except Err β × σ) : List α → σ → Except Err (List β) × MapIter α × σ
  | [], s => (.ok [], ⟨[]⟩, s)
  | a :: l, s =>
    match MapIter.next f ⟨a :: l⟩ s with
    | (some (.ok b), m, s') =>
      match MapIter.toList f l s' with
      | (.ok bs, r) => (.ok (b :: bs), r)
      | (.error e, r) => (.error e, r)
    | (some (.error e), m, s') => (.error e, m, s')
    | (none, m, s') => (.ok [], m, s')

end Rei
