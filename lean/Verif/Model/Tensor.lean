import Verif.Model.Homomorphism

/-!
# Hypergraph traversal and tensor representation
(`foundations/hypergraph_traversal_strategies.py`, `tensor/tensor_representation.py`,
`hypergraph/norm/norm_functions.py`)

Entries are rational numbers instead of floating-point numbers: without weights only 0 and 1 are
written, with weights the sum of a value list.
`np.float` (used in `synchronize_structure_dimensions`) is taken to exist, i.e. numpy < 1.24.
-/
namespace Rei

/-- One tuple handed to the visitor of a `HypergraphTraversal`,
`hypergraph_traversal_strategies.py:51,57`: two node indices, an edge index, a weight.  The fifth
component `norm_weight` is never used and left out. -/
structure Entry where
  n0 : Nat
  n1 : Nat
  e : Nat
  w : Rat
  deriving DecidableEq

/-- `get_node_identification(el)` with an index homomorphism, `hypergraph_traversal_strategies.py:26-29`,
for the edge `e = el.parent`: the indices of its endpoints.  (`homomorphism=None`: see `Model/HyperTraversal`.) -/
def nodeIds (h : Heap) (m : IndexHom) (e : Ref) : Except Err (List Nat) :=
  if (h.get e).kind = .edge then
    (h.inducedSubset e).mapM fun x => match x with
      | none => .error .attributeError
      | some v => m.nodes.index (h.get v).uuid
  else .error .attributeError

/-- `w`, `hypergraph_traversal_strategies.py:76-89`: `relation_incidence_value` times the norm of the
weight; without weight, times the vector that belongs to the direction. `SumNorm.norm`,
`norm_functions.py:23-24`, is the sum. -/
def relationWeight (h : Heap) (r : Ref) : Except Err (Rat × Rat) :=
  let o := h.get r
  match o.weight with
  | some v =>
    if (h.get v).kind = .value then
      .ok ((incidenceValue o.direction).1 * (h.valuesOf v).sum,
           (incidenceValue o.direction).2 * (h.valuesOf v).sum)
    else .error .attributeError
  | none =>
    let n : Rat × Rat := match o.direction with
      | .bidirectional => (1, 1)
      | .inwards => (1, 0)
      | .outwards => (0, 1)
    .ok ((incidenceValue o.direction).1 * n.1, (incidenceValue o.direction).2 * n.2)

/-- `__fill_relations`, `hypergraph_traversal_strategies.py:48-59`: the arguments of the visitor calls.
`x is not endpoint_id` compares the integers stored in the homomorphism by identity; equal indices
are the same stored object. -/
def fillRelations (h : Heap) (m : IndexHom) (w : Rat × Rat) (v e : Nat) (edge : Ref) :
    Except Err (List (List Entry)) := do
  let b0 ← if w.1 ≠ 0 then do
      let ids ← nodeIds h m edge
      .ok [(ids.filter fun x => x ≠ v).map fun x => ({ n0 := v, n1 := x, e := e, w := w.1 } : Entry)]
    else .ok []
  let b1 ← if w.2 ≠ 0 then do
      let ids ← nodeIds h m edge
      .ok [(ids.filter fun x => x ≠ v).map fun x => ({ n0 := x, n1 := v, e := e, w := w.2 } : Entry)]
    else .ok []
  .ok (b0 ++ b1)

/-- The `HypergraphRelation` case of `_traverse`, `hypergraph_traversal_strategies.py:72-96`. -/
def relationBatches (h : Heap) (m : IndexHom) (r : Ref) : Except Err (List (List Entry)) :=
  match (h.get r).parent with
  | none => .error .attributeError
  | some p => do
    let e ← m.edges.index (h.get p).uuid
    let w ← relationWeight h r
    match (h.get r).endpoint with
    | none => .error .attributeError
    | some v => do
      let i ← m.nodes.index (h.get v).uuid
      fillRelations h m w i e p

/-- `__current_depth + 1 < self.max_depth`; `none` is `math.inf`. -/
def deeper (max : Option Nat) (d : Nat) : Bool :=
  match max with
  | none => true
  | some k => decide (d + 1 < k)

/-- `_traverse`, `hypergraph_traversal_strategies.py:62-101`; the visitor appends its argument to a list
(`q.put`).  `budget` as in `traverse`: one nested call per element taken from the fringe. -/
def hyperTraverse (h : Heap) (m : IndexHom) (max : Option Nat) :
    Nat → Fringe → List (List Entry) → Except Err Unit × List (List Entry) × Fringe
  | 0, q, s => (.error .recursionError, s, q)
  | _ + 1, [], s => (.ok (), s, [])
  | budget + 1, (x, d) :: q, s =>
    match (h.get x).kind with
    | .node => hyperTraverse h m max budget (q ++ (h.subEdges x).map fun v => (v, d)) s
    | .edge => hyperTraverse h m max budget (q ++ (h.subRelations x).map fun v => (v, d)) s
    | .relation =>
      match relationBatches h m x with
      | .error e => (.error e, s, q)
      | .ok bs =>
        hyperTraverse h m max budget
          (q ++ if deeper max d then
              match (h.get x).endpoint with
              | some v => [(v, d + 1)]
              | none => []
            else [])
          (s ++ bs)
    | _ => hyperTraverse h m max budget q s

/-- `HypergraphTraversal.execute(start)` with `_setup`, `hypergraph_traversal_strategies.py:103-114`.
`shared` is what earlier traversals left in the default-argument queue of `_setup`. -/
def hyperExecute (h : Heap) (m : IndexHom) (max : Option Nat) (budget : Nat) (start : Ref)
    (shared : Fringe) : Except Err Unit × List (List Entry) × Fringe :=
  hyperTraverse h m max budget (shared ++ [(start, 0)]) []

/-- `NumpyTensorRepresentation`: the dimensions and the three arrays (`W`, `Io`, `Ii`). -/
structure Tensors where
  ne : Nat
  nn : Nat
  W : Nat → Nat → Nat → Rat
  Io : Nat → Nat → Rat
  Ii : Nat → Nat → Rat

/-- Fresh arrays, `synchronize_structure_dimensions`, `tensor_representation.py:74-76`. -/
def Tensors.zeros (ne nn : Nat) : Tensors :=
  { ne := ne, nn := nn, W := fun _ _ _ => 0, Io := fun _ _ => 0, Ii := fun _ _ => 0 }

/-- `synchronize_structure_dimensions(homomorphism)`, `tensor_representation.py:57-76`: the arrays are
only renewed if the number of nodes or of edges differs from the previous call (`prior`: the arrays,
if there was one). -/
def synchronize (prior : Option Tensors) (m : IndexHom) : Tensors :=
  match prior with
  | none =>
    -- 0 nodes and 0 edges: the arrays stay `None`; arrays without entries stand for that (what
    -- reading such a representation does: see `Model/TensorApi`)
    Tensors.zeros m.edges.cnt m.nodes.cnt
  | some T =>
    if m.nodes.cnt ≠ T.nn ∨ m.edges.cnt ≠ T.ne then Tensors.zeros m.edges.cnt m.nodes.cnt else T

/-- `fill_tensors`, `tensor_representation.py:78-82`, called with swapped node arguments by
`fill_weights` (`:87-89`).  numpy raises `IndexError` outside of the arrays. -/
def Tensors.fill (T : Tensors) (t : Entry) : Except Err Tensors :=
  if t.e < T.ne ∧ t.n0 < T.nn ∧ t.n1 < T.nn then
    .ok { T with
      W := fun a b c => if a = t.e ∧ b = t.n0 ∧ c = t.n1 then t.w else T.W a b c
      Io := fun a b => if a = t.e ∧ b = t.n0 then t.w else T.Io a b
      Ii := fun a b => if a = t.e ∧ b = t.n1 then t.w else T.Ii a b }
  else .error .indexError

/-- `fill_weights`, `tensor_representation.py:84-89`. -/
def Tensors.fillWeights (T : Tensors) (q : List (List Entry)) : Except Err Tensors :=
  q.flatten.foldlM Tensors.fill T

/-- `NumpyHypergraphTensorTransformer(repr_depth).execute(start)`, `tensor_representation.py:99-108`;
`sh` and `sx` are the two shared queues. -/
def tensorExecute (h : Heap) (reprDepth : Option Nat) (budget : Nat) (start : Ref) (sh sx : Fringe) :
    Except Err Tensors × Fringe × Fringe :=
  match ({} : IndexHom).execute h 1 true budget start sh with
  | (.error e, _, sh') => (.error e, sh', sx)
  | (.ok _, m, sh') =>
    match hyperExecute h m reprDepth budget start sx with
    | (.error e, _, sx') => (.error e, sh', sx')
    | (.ok _, q, sx') => ((synchronize none m).fillWeights q, sh', sx')

/-- `np.sum` of a vector of length `n`. -/
def sumTo (n : Nat) (f : Nat → Rat) : Rat := ((List.range n).map f).sum

/-- `degree_matrix`, `tensor_representation.py:17-19`. -/
def Tensors.degree (T : Tensors) (i : Nat) : Rat :=
  let coeff : Rat := 1 / ((if ∀ e < T.ne, T.Io e i = T.Ii e i then 1 else 0) + 1)
  (sumTo T.ne (fun e => T.Io e i) + sumTo T.ne (fun e => T.Ii e i)) * coeff

/-- `calc_total_deg`, `tensor_representation.py:24-25`. -/
def Tensors.totalDegree (T : Tensors) : Rat := sumTo T.nn T.degree

/-- `diag_degree_matrix`, `tensor_representation.py:21-22`. -/
def Tensors.diagDegree (T : Tensors) (i j : Nat) : Rat := if i = j then T.degree i else 0

/-- `calc_projected_laplacian`, `tensor_representation.py:30-31`. -/
def Tensors.projectedLaplacian (T : Tensors) (i j : Nat) : Rat :=
  T.diagDegree i j - sumTo T.ne (fun e => T.W e i j)

/-- `diag_degree_tensor`, `tensor_representation.py:33-37`: `np.sum(W, axis=1)` are the column sums,
`np.sum(W, axis=2)` the row sums; the product of two diagonal matrices is computed entrywise.
`np.apply_along_axis` raises `ValueError` when there is no edge. -/
def Tensors.diagDegreeTensor (T : Tensors) : Except Err (Nat → Nat → Nat → Rat) :=
  if T.ne = 0 then .error .valueError else
  let col (e i : Nat) : Rat := sumTo T.nn (fun j => T.W e j i)
  let row (e i : Nat) : Rat := sumTo T.nn (fun j => T.W e i j)
  let coeff (e i : Nat) : Rat := 1 / ((if col e i = row e i then 1 else 0) + 1)
  .ok fun e i j => if i = j then col e i * coeff e i else 0

/-- `calc_laplacian`, `tensor_representation.py:27-28`. -/
def Tensors.laplacian (T : Tensors) : Except Err (Nat → Nat → Nat → Rat) := do
  let dd ← T.diagDegreeTensor
  .ok fun e i j => dd e i j - T.W e i j

end Rei
