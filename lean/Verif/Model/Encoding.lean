import Verif.Model.Tensor
import Verif.Model.Factory

/-!
# Graph messages (`hypergraph/encoding/graph_tensor_icon.py`,
`hypergraph/encoding/graph_tensor_icon_cbor.py`)

Messages are values here, their bytes are in `Model/Cbor`: `cbor2.loads (cbor2.dumps x)` is `x` with tuples turned into lists, and `decode('utf-8')` to
undo `encode('utf-8')`; a message is modelled by its decoded structure.
-/
namespace Rei
open PyM

/-- A node tuple, `graph_tensor_icon.py:53-56`; `parent = none` is the `0` sent for a root. -/
structure NodeMsg where
  uuid : Bytes
  name : Str
  index : Nat
  parent : Option Bytes
  qual : Str
  deriving DecidableEq

/-- An edge tuple, `graph_tensor_icon.py:58-59`. -/
structure EdgeMsg where
  uuid : Bytes
  name : Str
  index : Nat
  parent : Bytes
  qual : Str
  deriving DecidableEq

/-- A relation tuple, `graph_tensor_icon.py:77-78`. -/
structure RelMsg where
  uuid : Bytes
  name : Str
  qual : Str
  dir : Dir
  endpoint : Bytes
  edge : Bytes
  deriving DecidableEq

/-- A value tuple, `graph_tensor_icon.py:61-63`. -/
structure ValMsg where
  uuid : Bytes
  name : Str
  index : Nat
  parent : Bytes
  qual : Str
  values : List Rat
  deriving DecidableEq

/-- One entry of the coordinate lists, `graph_tensor_icon.py:35-39`: `(i_e, i_n, i_m, w)` of the value
tensor; the two incidence lists drop `i_m`, respectively `i_n`. -/
structure Coo where
  e : Nat
  n : Nat
  m : Nat
  w : Rat
  deriving DecidableEq

/-- A full message, `graph_tensor_icon_cbor.py:29-37`.  The three coordinate lists `msg[0..2]` are
projections of `coo`. -/
structure FullMsg where
  nodes : List NodeMsg
  edges : List EdgeMsg
  rels : List RelMsg
  vals : List ValMsg
  coo : List Coo
  deriving DecidableEq

/-- `GraphTensorCbor` with its `CoordinateObjectTransformer` (`graph_tensor_icon_cbor.py:15-21`,
`graph_tensor_icon.py:15-26`): the clock, the context given to the constructor, the homomorphism
(`none` before `update_context`), the accumulated coordinate and relation lists, the last decoded root and
its homomorphism. -/
structure Icon where
  clock : Option Clock
  context : Ref
  hom : Option IndexHom := none
  coo : List Coo := []
  rels : List RelMsg := []
  decoded : Option Ref := none
  decodedHom : Option IndexHom := none

/-- `update_context(context)`, `graph_tensor_icon_cbor.py:23-24` with `reset`, `graph_tensor_icon.py:31-33`:
a new homomorphism without depth limit that includes the root.  The context of the transformer stays the one
given to the constructor. -/
def Icon.updateContext (I : Icon) (h : Heap) (budget : Nat) (context : Ref) (shared : Fringe) :
    Except Err Unit × Icon × Fringe :=
  match ({} : IndexHom).executeMax h none false budget context shared with
  | (r, m, q) => (r, { I with hom := some m }, q)

/-- `update_coo()`, `graph_tensor_icon_cbor.py:26-27` with `execute`, `graph_tensor_icon.py:41-51` and
`fill_tensors`, `:35-39`, for a transformer whose homomorphism is `m` (calling it before `update_context` is
in `Model/EarlyCoo`).  The lists are not emptied first; an exception of the traversal leaves them as they are. -/
def Icon.updateCoo (I : Icon) (m : IndexHom) (h : Heap) (budget : Nat) (shared : Fringe) :
    Except Err Unit × Icon × Fringe :=
  match hyperExecute h m none budget I.context shared with
  | (.error e, _, q) => (.error e, I, q)
  | (.ok _, ts, q) =>
    (.ok (), { I with coo := I.coo ++ ts.flatten.map fun t => { e := t.e, n := t.n0, m := t.n1, w := t.w } }, q)

/-- `self._index_homomorphism.node(u)` and the like; without homomorphism an `AttributeError`. -/
def homIndex (m : Option IndexHom) (part : IndexHom → IndexMap) (u : Bytes) : Except Err Nat :=
  match m with
  | none => .error .attributeError
  | some m => (part m).index u

/-- `__msg_node_tuple`, `graph_tensor_icon.py:53-56`. -/
def nodeMsg (m : Option IndexHom) (h : Heap) (x : Ref) : Except Err NodeMsg := do
  let i ← homIndex m IndexHom.nodes (h.get x).uuid
  .ok { uuid := (h.get x).uuid, name := (h.get x).idName, index := i,
        parent := (h.get x).parent.map fun p => (h.get p).uuid, qual := (h.get x).qualName }

/-- `el.parent.uuid`; without parent an `AttributeError`. -/
def parentUuid (h : Heap) (x : Ref) : Except Err Bytes :=
  match (h.get x).parent with
  | none => .error .attributeError
  | some p => .ok (h.get p).uuid

/-- `__msg_edge_tuple`, `graph_tensor_icon.py:58-59`. -/
def edgeMsg (m : Option IndexHom) (h : Heap) (x : Ref) : Except Err EdgeMsg := do
  let i ← homIndex m IndexHom.edges (h.get x).uuid
  let p ← parentUuid h x
  .ok { uuid := (h.get x).uuid, name := (h.get x).idName, index := i, parent := p,
        qual := (h.get x).qualName }

/-- `__msg_value_tuple`, `graph_tensor_icon.py:61-63`. -/
def valMsg (m : Option IndexHom) (h : Heap) (x : Ref) : Except Err ValMsg := do
  let i ← homIndex m IndexHom.vals (h.get x).uuid
  let p ← parentUuid h x
  .ok { uuid := (h.get x).uuid, name := (h.get x).idName, index := i, parent := p,
        qual := (h.get x).qualName, values := h.valuesOf x }

/-- The tuple of `msg_relation_index_list`, `graph_tensor_icon.py:77-78`. -/
def relMsg (h : Heap) (r : Ref) : Except Err RelMsg :=
  match (h.get r).endpoint with
  | none => .error .attributeError
  | some v => do
    let e ← parentUuid h r
    .ok { uuid := (h.get r).uuid, name := (h.get r).idName, qual := (h.get r).qualName,
          dir := (h.get r).direction, endpoint := (h.get v).uuid, edge := e }

/-- The relations of the context's edges, in order, `graph_tensor_icon.py:74-75`. -/
def Heap.contextRelations (h : Heap) (c : Ref) : List Ref := (h.subEdges c).flatMap h.subRelations

/-- `msg_relation_index_list`, `graph_tensor_icon.py:73-79`: the tuples are appended one by one to the
list kept by the transformer, which is what is returned. -/
def appendRels (h : Heap) : List Ref → List RelMsg → Except Err Unit × List RelMsg
  | [], acc => (.ok (), acc)
  | r :: rs, acc =>
    match relMsg h r with
    | .error e => (.error e, acc)
    | .ok t => appendRels h rs (acc ++ [t])

/-- `full_msg()`, `graph_tensor_icon_cbor.py:29-37` with `graph_tensor_icon.py:65-71,84-85`. -/
def Icon.fullMsg (I : Icon) (h : Heap) : Except Err FullMsg × Icon :=
  match (I.context :: h.subNodes I.context).mapM (nodeMsg I.hom h) with
  | .error e => (.error e, I)
  | .ok ns =>
    match (h.subEdges I.context).mapM (edgeMsg I.hom h) with
    | .error e => (.error e, I)
    | .ok es =>
      match appendRels h (h.contextRelations I.context) I.rels with
      | (.error e, rs) => (.error e, { I with rels := rs })
      | (.ok _, rs) =>
        match (h.subValues I.context).mapM (valMsg I.hom h) with
        | .error e => (.error e, { I with rels := rs })
        | .ok vs => (.ok { nodes := ns, edges := es, rels := rs, vals := vs, coo := I.coo },
                     { I with rels := rs })

/-- `msg_value_update()`, `graph_tensor_icon_cbor.py:39-40` with `graph_tensor_icon.py:87-88`. -/
def Icon.valueUpdate (I : Icon) (h : Heap) : Except Err (List (Nat × List Rat)) :=
  (h.subValues I.context).mapM fun v => do
    let i ← homIndex I.hom IndexHom.vals (h.get v).uuid
    .ok (i, h.valuesOf v)

/-- `_elements[u]` (`graph_tensor_icon_cbor.py:63,68,73,74,80`). -/
def cached (d : Dict Bytes Ref) (u : Bytes) : PyM Ref :=
  match d.get? u with
  | none => raise .keyError
  | some x => pure x

/-- The node loop, `graph_tensor_icon_cbor.py:56-64`; returns the cache and `_root`. -/
def decodeNodes (E : Env) (ck : Option Clock) : List NodeMsg → Dict Bytes Ref → Option Ref →
    PyM (Dict Bytes Ref × Option Ref)
  | [], d, root => pure (d, root)
  | n :: ns, d, root => do
    let x ← newConceptual E .node n.name n.uuid (.str n.qual) ck none
    match n.parent with
    | none => decodeNodes E ck ns (d.set n.uuid x) (some x)
    | some p => do
      let c ← cached (d.set n.uuid x) p
      addElement E c x
      decodeNodes E ck ns (d.set n.uuid x) root

/-- The edge loop, `graph_tensor_icon_cbor.py:67-70`. -/
def decodeEdges (E : Env) (ck : Option Clock) : List EdgeMsg → Dict Bytes Ref → PyM (Dict Bytes Ref)
  | [], d => pure d
  | e :: es, d => do
    let c ← cached d e.parent
    let x ← newConceptual E .edge e.name e.uuid (.str e.qual) ck (some c)
    decodeEdges E ck es (d.set e.uuid x)

/-- The relation loop, `graph_tensor_icon_cbor.py:72-74`: the direction in the message is not passed on, so
every relation gets the default `BIDIRECTIONAL`, and no weight. -/
def decodeRels (E : Env) : List RelMsg → Dict Bytes Ref → PyM Unit
  | [], _ => pure ()
  | r :: rs, d => do
    let v ← cached d r.endpoint
    let e ← cached d r.edge
    let x ← newRelation r.uuid r.name (.str r.qual) (some v) none .bidirectional none
    addElement E e x
    decodeRels E rs d

/-- The value loop, `graph_tensor_icon_cbor.py:77-80`; the qualified name is not decoded. -/
def decodeVals (E : Env) : List ValMsg → Dict Bytes Ref → PyM Unit
  | [], _ => pure ()
  | v :: vs, d => do
    let x ← newValue v.uuid v.name (.bytes v.qual) (some v.values)
    let c ← cached d v.parent
    addElement E c x
    decodeVals E vs d

/-- `create_graph(msg)`, `graph_tensor_icon_cbor.py:47-96`, without the assignments `:93-94`. -/
def createGraph (E : Env) (ck : Option Clock) (msg : FullMsg) : PyM (Option Ref × IndexHom) := do
  let s ← decodeNodes E ck msg.nodes [] none
  let d ← decodeEdges E ck msg.edges s.1
  decodeRels E msg.rels d
  decodeVals E msg.vals d
  pure (s.2, ({} : IndexHom).resetFromBijection (msg.nodes.map fun n => (n.uuid, n.index))
    (msg.edges.map fun e => (e.uuid, e.index)) (msg.vals.map fun v => (v.uuid, v.index)))

/-- `create_graph(msg)` with the assignments `graph_tensor_icon_cbor.py:93-94`. -/
def Icon.createGraph (E : Env) (I : Icon) (msg : FullMsg) (h : Heap) : Except Err (Option Ref) × Icon × Heap :=
  match Rei.createGraph E I.clock msg h with
  | (.error e, h') => (.error e, I, h')
  | (.ok (r, m), h') => (.ok r, { I with decoded := r, decodedHom := some m }, h')

/-- One step of `from_msg_update_values`, `graph_tensor_icon_cbor.py:44-45`, with
`HypergraphNode.__getitem__`, `base_elements.py:197-199`, and `update_values`, `value_node.py:28-29`: the
node keeps the decoded list.  Without homomorphism or root an `AttributeError` or `TypeError`. -/
def setDecodedValue (root : Option Ref) (m : Option IndexHom) (p : Nat × List Rat) : PyM Unit :=
  match m with
  | none => raise .attributeError
  | some m =>
    match m.vals.uuid p.1, root with
    | .error e, _ => raise e
    | .ok _, none => raise .typeError
    | .ok u, some c => do
      let o ← obj c
      match o.subs.get? u with
      | none => raise .keyError
      | some v => do
        let ov ← obj v
        if ov.kind = .value then do
          let l ← newList p.2
          updateValues v l
        else raise .attributeError

/-- `from_msg_update_values(msg)`, `graph_tensor_icon_cbor.py:42-45`. -/
def Icon.applyUpdate (I : Icon) (msg : List (Nat × List Rat)) : PyM Unit :=
  forEach msg (setDecodedValue I.decoded I.decodedHom)

end Rei
