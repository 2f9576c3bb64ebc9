import Verif.Model.Traversal

/-!
# Index homomorphisms (`hypergraph/homomorphism_functions.py`)
-/
namespace Rei

/-- One pair of dictionaries with its counter: `(_cnt_node, __hom_node_dim, __hom_dim_node)`,
`(_cnt_edges, __hom_edge_depth, __hom_depth_edge)` or `(_cnt_values, __hom_values,
__hom_i_values)`, `homomorphism_functions.py:16-27`. -/
structure IndexMap where
  cnt : Nat := 0
  idx : Dict Bytes Nat := []
  uid : Dict Nat Bytes := []
  deriving DecidableEq

/-- The body of `add_node_homology`, `add_edge_homology`, `add_value_homology`,
`homomorphism_functions.py:56-81`. -/
def IndexMap.add (m : IndexMap) (u : Bytes) : IndexMap :=
  { cnt := m.cnt + 1, idx := m.idx.set u m.cnt, uid := m.uid.set m.cnt u }

/-- One loop of `reset_from_bijection`, `homomorphism_functions.py:41-54`. -/
def IndexMap.addPairs (m : IndexMap) (l : List (Bytes × Nat)) : IndexMap :=
  l.foldl (fun m p => { cnt := m.cnt + 1, idx := m.idx.set p.1 p.2, uid := m.uid.set p.2 p.1 }) m

/-- `IndexHomomorphismGraphTensor`, `homomorphism_functions.py:9-36`. -/
structure IndexHom where
  nodes : IndexMap := {}
  edges : IndexMap := {}
  vals : IndexMap := {}
  deriving DecidableEq

/-- `reset_homology`, `homomorphism_functions.py:83-95`: all counters 0, all dictionaries empty. -/
def IndexHom.resetHomology (m : IndexHom) : IndexHom :=
  { m with nodes := ⟨0, [], []⟩, edges := ⟨0, [], []⟩, vals := ⟨0, [], []⟩ }

/-- `reset_from_bijection`, `homomorphism_functions.py:38-54`: `reset_homology`, then the pairs. -/
def IndexHom.resetFromBijection (m : IndexHom) (ns es vs : List (Bytes × Nat)) : IndexHom :=
  let m := m.resetHomology
  { m with nodes := m.nodes.addPairs ns, edges := m.edges.addPairs es, vals := m.vals.addPairs vs }

/-- The filters of the three traversals, `homomorphism_functions.py:31-36`. -/
def isNode (h : Heap) (x : Ref) : Bool := decide ((h.get x).kind = .node)
/-- See `isNode`. -/
def isEdge (h : Heap) (x : Ref) : Bool := decide ((h.get x).kind = .edge)
/-- See `isNode`. -/
def isValue (h : Heap) (x : Ref) : Bool := decide ((h.get x).kind = .value)

/-- The three visitors, `homomorphism_functions.py:56-81`. -/
def addNodeHom (h : Heap) : Visitor IndexHom := fun x m =>
  (.ok (), { m with nodes := m.nodes.add (h.get x).uuid })
/-- See `addNodeHom`. -/
def addEdgeHom (h : Heap) : Visitor IndexHom := fun x m =>
  (.ok (), { m with edges := m.edges.add (h.get x).uuid })
/-- See `addNodeHom`. -/
def addValueHom (h : Heap) : Visitor IndexHom := fun x m =>
  (.ok (), { m with vals := m.vals.add (h.get x).uuid })

/-- `execute(start)`, `homomorphism_functions.py:97-101`: `reset_homology` (`:83-95`), then the three
traversals; an exception in one of them skips the rest. `prior` is the state before; `max` is the depth
limit (`none`: `math.inf`). -/
def IndexHom.executeMax (prior : IndexHom) (h : Heap) (max : Option Nat) (ignoreRoot : Bool) (budget : Nat)
    (start : Ref) (shared : Fringe) : Except Err Unit × IndexHom × Fringe :=
  let T : Strategy := ⟨false, max, ignoreRoot⟩
  let r := T.execute h (isNode h) (addNodeHom h) budget start shared prior.resetHomology
  match r.1 with
  | .error e => (.error e, r.2)
  | .ok _ =>
    let r := T.execute h (isEdge h) (addEdgeHom h) budget start r.2.2 r.2.1
    match r.1 with
    | .error e => (.error e, r.2)
    | .ok _ => T.execute h (isValue h) (addValueHom h) budget start r.2.2 r.2.1

/-- `execute(start)` of a homomorphism with a finite depth limit, `homomorphism_functions.py:97-101`. -/
def IndexHom.execute (prior : IndexHom) (h : Heap) (depth : Nat) (ignoreRoot : Bool) (budget : Nat)
    (start : Ref) (shared : Fringe) : Except Err Unit × IndexHom × Fringe :=
  prior.executeMax h (some depth) ignoreRoot budget start shared

/-- `node(u)`, `edge(u)`, `val(u)`, `homomorphism_functions.py:103-116`: dictionary access. -/
def IndexMap.index (m : IndexMap) (u : Bytes) : Except Err Nat :=
  match m.idx.get? u with
  | none => .error .keyError
  | some i => .ok i

/-- `dim(i)`, `depth(i)`, `ival(i)`, `homomorphism_functions.py:106-119`. -/
def IndexMap.uuid (m : IndexMap) (i : Nat) : Except Err Bytes :=
  match m.uid.get? i with
  | none => .error .keyError
  | some u => .ok u

end Rei
