import Verif.Model.Tensor

/-!
# Hypergraph traversal without index homomorphism (`foundations/hypergraph_traversal_strategies.py`)

`HypergraphTraversal(visitor, filter, norm, depth=k)` with any norm: elements are identified by their uuids.  The filter is never
called.
-/
namespace Rei

/-- One tuple handed to the visitor, `hypergraph_traversal_strategies.py:51,57`: two uuids of nodes, the uuid of an edge, a
weight.  The fifth component `norm_weight` is left out. -/
structure UEntry where
  n0 : Bytes
  n1 : Bytes
  e : Bytes
  w : Rat
  deriving DecidableEq

/-- `SumNorm().norm(arg)`, `norm_functions.py:21-24`, for a list of numbers. -/
def sumNorm (l : List Rat) : Rat := l.foldl (· + ·) 0

/-- `ProdNorm().norm(arg)`, `norm_functions.py:27-30`, for a list of numbers: `@` of two vectors is their inner product, and the
transpose of a vector is the vector. -/
def prodNorm (l : List Rat) : Rat := (l.zip l).foldl (fun s p => s + p.1 * p.2) 0

/-- `w`, `hypergraph_traversal_strategies.py:76-89`: as `relationWeight`, for any norm. -/
def relationWeightBy (norm : List Rat → Rat) (h : Heap) (r : Ref) : Except Err (Rat × Rat) :=
  let o := h.get r
  match o.weight with
  | some v =>
    if (h.get v).kind = .value then
      .ok ((incidenceValue o.direction).1 * norm (h.valuesOf v), (incidenceValue o.direction).2 * norm (h.valuesOf v))
    else .error .attributeError
  | none =>
    let n : Rat × Rat := match o.direction with
      | .bidirectional => (1, 1)
      | .inwards => (1, 0)
      | .outwards => (0, 1)
    .ok ((incidenceValue o.direction).1 * n.1, (incidenceValue o.direction).2 * n.2)

/-- `get_node_identification(el)` without homomorphism, `hypergraph_traversal_strategies.py:26-28`, for the edge
`e = el.parent`. -/
def endpointUuids (h : Heap) (e : Ref) : Except Err (List Bytes) :=
  if (h.get e).kind = .edge then
    (h.inducedSubset e).mapM fun x => match x with
      | none => .error .attributeError
      | some v => .ok (h.get v).uuid
  else .error .attributeError

/-- The `HypergraphRelation` case of `_traverse` with `__fill_relations`, `hypergraph_traversal_strategies.py:48-59,72-96`: the
arguments of the visitor calls.  `x is not endpoint_id` compares `bytes` objects by identity; here they are compared by value
(the same for different elements with different uuids). -/
def uuidBatches (norm : List Rat → Rat) (h : Heap) (r : Ref) : Except Err (List (List UEntry)) :=
  match (h.get r).parent with
  | none => .error .attributeError
  | some p => do
    let w ← relationWeightBy norm h r
    match (h.get r).endpoint with
    | none => .error .attributeError
    | some v => do
      let b0 ← if w.1 ≠ 0 then do
          let ids ← endpointUuids h p
          .ok [(ids.filter fun x => x ≠ (h.get v).uuid).map fun x => (⟨(h.get v).uuid, x, (h.get p).uuid, w.1⟩ : UEntry)]
        else .ok []
      let b1 ← if w.2 ≠ 0 then do
          let ids ← endpointUuids h p
          .ok [(ids.filter fun x => x ≠ (h.get v).uuid).map fun x => (⟨x, (h.get v).uuid, (h.get p).uuid, w.2⟩ : UEntry)]
        else .ok []
      .ok (b0 ++ b1)

/-- `_traverse`, `hypergraph_traversal_strategies.py:62-101`, for any treatment `B` of relations; the visitor appends its
argument to a list.  `budget` as in `traverse`. -/
def walk {β : Type} (h : Heap) (B : Ref → Except Err (List β)) (max : Option Nat) :
    Nat → Fringe → List β → Except Err Unit × List β × Fringe
  | 0, q, s => (.error .recursionError, s, q)
  | _ + 1, [], s => (.ok (), s, [])
  | budget + 1, (x, d) :: q, s =>
    match (h.get x).kind with
    | .node => walk h B max budget (q ++ (h.subEdges x).map fun v => (v, d)) s
    | .edge => walk h B max budget (q ++ (h.subRelations x).map fun v => (v, d)) s
    | .relation =>
      match B x with
      | .error e => (.error e, s, q)
      | .ok bs =>
        walk h B max budget
          (q ++ if deeper max d then
              match (h.get x).endpoint with
              | some v => [(v, d + 1)]
              | none => []
            else [])
          (s ++ bs)
    | _ => walk h B max budget q s

/-- `execute(start)` without homomorphism, `hypergraph_traversal_strategies.py:103-114`. -/
def uuidExecute (norm : List Rat → Rat) (h : Heap) (max : Option Nat) (budget : Nat) (start : Ref) (shared : Fringe) :
    Except Err Unit × List (List UEntry) × Fringe :=
  walk h (uuidBatches norm h) max budget (shared ++ [(start, 0)]) []

end Rei
