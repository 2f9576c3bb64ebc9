import Verif.Model.Hierarchy

/-!
# Hypergraph elements, relations, ports, value nodes
(`hypergraph/base_elements.py`, `hypergraph/value_node.py`, constructors)
-/
namespace Rei
open PyM

/-- `HypergraphElement.identification_generation`, `base_elements.py:41-43`, through
`Sha3UniqueIdentifierGenerator.generate_uid`, `identity_generator.py:24-27`. -/
def elementUid (E : Env) (ctx name : Str) : Bytes := E.sha (ctx ++ '/' :: name)

/-- The port object created by `connect`, `base_elements.py:46-48`. -/
def portObj (E : Env) (ctx : Str) (n el : Obj) (elRef : Ref) : Obj :=
  let nm := Str.join '.' [n.idName, ['p', 'o', 'r', 't'], el.idName]
  { kind := .port, uuid := elementUid E ctx el.idName, idName := nm, progenitor := .str nm,
    qualName := nm, endpoint := some elRef }

/-- `HypergraphElement.connect`, `base_elements.py:45-50`; `AttributeError` on the other classes
and on an element whose constructor has not set `_id_generation` yet (`:36-37`).  The `add_element`
call adds a port, for which the edge and node versions coincide with `HierarchicalElement`'s. -/
def connect (E : Env) (n el : Ref) : PyM Unit := do
  let o ← obj n
  if o.kind.isHElement then
    match o.genCtx with
    | none => raise .attributeError
    | some ctx => do
      let e ← obj el
      let p ← alloc (portObj E ctx o e el)
      modify n fun o => { o with ports := o.ports.set e.uuid p }
      baseAdd E n p
  else raise .attributeError

/-- `HypergraphElement.disconnect`, `base_elements.py:52-54`.  The generator returned by
`remove_element` is dropped without being advanced, so only `_ports` changes. -/
def disconnect (E : Env) (n el : Ref) : PyM Unit := do
  let o ← obj n
  if o.kind.isHElement then
    match o.genCtx with
    | none => raise .attributeError
    | some _ => do
      let e ← obj el
      match o.ports.get? e.uuid with
      | none => raise .keyError
      | some p => do
        modify n fun o => { o with ports := o.ports.erase e.uuid }
        let op ← obj p
        let _ ← removeElement E n op.idName (some op.uuid) (some 0)
        pure ()
  else raise .attributeError

/-- `add_element` with dynamic dispatch: `HypergraphRelation.add_element`
(`base_elements.py:112-116`), `HypergraphEdge.add_element` (`:146-150`),
`HierarchicalElement.add_element` otherwise. -/
def addElement (E : Env) (c x : Ref) : PyM Unit := do
  let o ← obj c
  match o.kind with
  | .relation => do
    baseAdd E c x
    let ox ← obj x
    if ox.kind.isHElement then connect E x c else pure ()
  | .edge => do
    baseAdd E c x
    let ox ← obj x
    if ox.kind = .relation then do
      let oc ← obj c
      match oc.genCtx with
      | none => raise .attributeError
      | some _ => modify c fun oc => { oc with subRels := oc.subRels.set ox.cid x }
    else pure ()
  | _ => baseAdd E c x

/-- `deregister`, `base_elements.py:60-63`; `AttributeError` on classes without it. -/
def deregister (E : Env) (x : Ref) : PyM Unit := do
  let o ← obj x
  if o.kind.isHElement then leaveParent E x else raise .attributeError

/-- `register`, `base_elements.py:65-66`. -/
def register (E : Env) (x c : Ref) : PyM Unit := do
  let o ← obj x
  if o.kind.isHElement then addElement E c x else raise .attributeError

/-- The object a constructor of a class with a clock starts from:
`abstract_items.py:6-12`, `conceptual_item.py:36-53,177-180`. -/
def conceptualObj (k : Kind) (idName : Str) (uuid : Bytes) (prog : PName) (clock : Option Clock) :
    Obj :=
  { kind := k, uuid := uuid, idName := idName, progenitor := prog, qualName := idName,
    clock := clock }

/-- `if parent is not None: parent.add_element(x)`, `conceptual_item.py:185-186`. -/
def adopt (E : Env) (parent : Option Ref) (x : Ref) : PyM Unit :=
  match parent with
  | none => pure ()
  | some p => addElement E p x

/-- The constructors of `ConceptualItem`, `HypergraphElement`, `HypergraphNode`, `HypergraphEdge`:
`conceptual_item.py:177-186`, `base_elements.py:34-39,129-132,181-183`.  The parent adopts the new
object before `_id_generation` and `_ports` exist.  Without a clock `_update_timestamp` raises before
anybody else can hold the new object, so nothing is allocated in that case. -/
def newConceptual (E : Env) (k : Kind) (idName : Str) (uuid : Bytes) (prog : PName)
    (clock : Option Clock) (parent : Option Ref) : PyM Ref := do
  if clock = none then raise .clockNotSet else do
  let x ← alloc (conceptualObj k idName uuid prog clock)
  updateTimestamp E x
  adopt E parent x
  if k.isHElement then do
    modify x fun o => { o with genCtx := some idName }
    pure x
  else pure x

/-- A new relation object, `base_elements.py:74-91` (the `parent` argument is ignored). -/
def relationObj (uuid : Bytes) (idName : Str) (prog : PName) (endpoint : Option Ref)
    (weight : Option Ref) (d : Dir) (sv : Option Ref) : Obj :=
  { kind := .relation, uuid := uuid, idName := idName, progenitor := prog, qualName := idName,
    endpoint := endpoint, direction := d, weight := weight, semNode := sv }

/-- `HypergraphRelation(...)`, `base_elements.py:74-91`. -/
def newRelation (uuid : Bytes) (idName : Str) (prog : PName) (endpoint : Option Ref)
    (weight : Option Ref) (d : Dir) (sv : Option Ref) : PyM Ref :=
  alloc (relationObj uuid idName prog endpoint weight d sv)

/-- `HypergraphPort(...)`, `base_elements.py:19-22` (the `parent` argument is ignored). -/
def newPort (uuid : Bytes) (idName : Str) (prog : PName) (endpoint : Option Ref) : PyM Ref :=
  alloc { kind := .port, uuid := uuid, idName := idName, progenitor := prog, qualName := idName,
          endpoint := endpoint }

/-- Allocate a Python list. -/
def newList (l : List Rat) : PyM Nat := fun h =>
  (.ok h.nlists,
    { h with nlists := h.nlists + 1, lists := fun i => if i = h.nlists then l else h.lists i })

/-- `ValueNode(...)`, `value_node.py:9-20`: the values are copied into a new list. -/
def newValue (uuid : Bytes) (idName : Str) (prog : PName) (values : Option (List Rat)) :
    PyM Ref := do
  let l ← newList (values.getD [])
  alloc { kind := .value, uuid := uuid, idName := idName, progenitor := prog, qualName := idName,
          vals := l, dim := (values.getD []).length }

/-- `SemanticValueNode(...)` and its subclasses, `value_node.py:50-52`,
`format/semantics/CognitiveEntity.py:5-92`: the attribute dictionary is copied. -/
def newSemantic (k : SemKind) (uuid : Bytes) (idName : Str) (prog : PName)
    (attr : Dict Str AttrVal) : PyM Ref :=
  alloc { kind := .semantic k, uuid := uuid, idName := idName, progenitor := prog,
          qualName := idName, attrs := attr }

/-- One clock reading, `clock.py:16-31`. -/
def readClock (E : Env) (c : Option Clock) : PyM Nat := fun h =>
  match c with
  | none => (.error .attributeError, h)
  | some .dummy => (.ok 0, h)
  | some .local => (.ok (E.time h.reads), { h with reads := h.reads + 1 })

/-- `str(n)` of a nonnegative integer. -/
def decimal (n : Nat) : Str := Nat.toDigits 10 n

/-- The name of the relation created by `unary_connect`, `base_elements.py:137`. -/
def relName (edge endpoint : Str) (t : Nat) : Str :=
  ['r', 'e', 'l'] ++ Str.join '.' [edge, endpoint, decimal t]

/-- `if semantic_value_node is not None: rel.add_element(semantic_value_node)`,
`base_elements.py:142-143`. -/
def attachSem (E : Env) (r : Ref) (sv : Option Ref) : PyM Unit :=
  match sv with
  | none => pure ()
  | some s => addElement E r s

/-- `HypergraphEdge.unary_connect`, `base_elements.py:134-144`; `AttributeError` on other classes.
The name reads the clock, then the uid needs `_id_generation`.  Python returns `None`; the model
returns the new relation. -/
def unaryConnect (E : Env) (e n : Ref) (w : Option Ref) (d : Dir) (sv : Option Ref) :
    PyM Ref := do
  let o ← obj e
  if o.kind = .edge then do
    let on ← obj n
    let t ← readClock E o.clock
    match o.genCtx with
    | none => raise .attributeError
    | some ctx => do
      let nm := relName o.idName on.idName t
      let r ← newRelation (elementUid E ctx on.idName) nm (.str (Str.join '/' [o.idName, nm]))
        (some n) w d sv
      connect E n r
      attachSem E r sv
      addElement E e r
      pure r
  else raise .attributeError

/-- `sub_relations`, `base_elements.py:157-159`. -/
def Heap.subRelations (h : Heap) (e : Ref) : List Ref :=
  h.getSubelements (fun x => (h.get x).kind = .relation) e

/-- `sub_ports`, `base_elements.py:56-58`. -/
def Heap.subPorts (h : Heap) (n : Ref) : List Ref :=
  h.getSubelements (fun x => (h.get x).kind = .port) n

/-- `sub_edges`, `base_elements.py:185-187`. -/
def Heap.subEdges (h : Heap) (n : Ref) : List Ref :=
  h.getSubelements (fun x => (h.get x).kind = .edge) n

/-- `sub_nodes`, `base_elements.py:189-191`. -/
def Heap.subNodes (h : Heap) (n : Ref) : List Ref :=
  h.getSubelements (fun x => (h.get x).kind = .node) n

/-- `sub_values`, `base_elements.py:193-195`. -/
def Heap.subValues (h : Heap) (n : Ref) : List Ref :=
  h.getSubelements (fun x => (h.get x).kind = .value) n

/-- `induced_subset`, `base_elements.py:161-163`. -/
def Heap.inducedSubset (h : Heap) (e : Ref) : List (Option Ref) :=
  (h.subRelations e).map fun r => (h.get r).endpoint

/-- `get_incoming_relations`, `base_elements.py:165-168`. -/
def Heap.incoming (h : Heap) (e : Ref) : List Ref :=
  (h.subRelations e).filter fun r =>
    (h.get r).direction = .inwards ∨ (h.get r).direction = .bidirectional

/-- `get_outgoing_relations`, `base_elements.py:170-173`. -/
def Heap.outgoing (h : Heap) (e : Ref) : List Ref :=
  (h.subRelations e).filter fun r =>
    (h.get r).direction = .outwards ∨ (h.get r).direction = .bidirectional

/-- `relation_incidence_value`, `base_elements.py:81-87,101-103`: the pair `(to, from)` set by the
constructor from the direction; the property returns a copy. -/
def incidenceValue : Dir → Rat × Rat
  | .bidirectional => (1, 1)
  | .inwards => (1, 0)
  | .outwards => (0, 1)

/-- Python list indexing: negative indices count from the end, `none` is `IndexError`. -/
def pyIndex (len : Nat) (i : Int) : Option Nat :=
  if 0 ≤ i then (if i < len then some i.toNat else none)
  else (if 0 ≤ i + len then some (i + len).toNat else none)

/-- The list held by a value node. -/
def Heap.valuesOf (h : Heap) (v : Ref) : List Rat := h.lists (h.get v).vals

/-- `get_value(i)` and `v[i]`, `value_node.py:22-23,31-32`. -/
def getValue (h : Heap) (v : Ref) (i : Int) : Except Err Rat :=
  match pyIndex (h.valuesOf v).length i with
  | none => .error .indexError
  | some n => match (h.valuesOf v)[n]? with
    | none => .error .indexError
    | some q => .ok q

/-- Write position `i` of the list object `l` (Python `l[i] = q`). -/
def setListItem (l : Nat) (i : Int) (q : Rat) : PyM Unit := fun h =>
  match pyIndex (h.lists l).length i with
  | none => (.error .indexError, h)
  | some n => (.ok (), { h with lists := fun j => if j = l then (h.lists l).set n q else h.lists j })

/-- The caller appends to a list object it holds (Python `l.append(q)`). -/
def appendListItem (l : Nat) (q : Rat) : PyM Unit := fun h =>
  (.ok (), { h with lists := fun j => if j = l then h.lists l ++ [q] else h.lists j })

/-- `update_value(i, q)` and `v[i] = q`, `value_node.py:25-26,34-35`. -/
def updateValue (v : Ref) (i : Int) (q : Rat) : PyM Unit := do
  let o ← obj v
  setListItem o.vals i q

/-- `update_values(arg)`, `value_node.py:28-29`: the node keeps the caller's list object; `dim` is
not changed. -/
def updateValues (v : Ref) (l : Nat) : PyM Unit := modify v fun o => { o with vals := l }

/-- `get_values()`, `value_node.py:40-41`: a new list with the same items. -/
def getValues (v : Ref) : PyM Nat := fun h => newList (h.valuesOf v) h

/-- `list(iter(v))`, `value_node.py:37-38`: `v[i]` for `i` below `dim`. -/
def iterValues (h : Heap) (v : Ref) : Except Err (List Rat) :=
  (List.range (h.get v).dim).mapM fun (i : Nat) => getValue h v (i : Int)

/-- `add_named_attribute`, `value_node.py:57-58`. -/
def addNamedAttribute (s : Ref) (k : Str) (a : AttrVal) : PyM Unit :=
  modify s fun o => { o with attrs := o.attrs.set k a }

/-- `remove_named_attribute`, `value_node.py:60-62`. -/
def removeNamedAttribute (s : Ref) (k : Str) : PyM Unit := do
  let o ← obj s
  if o.attrs.has k then modify s fun o => { o with attrs := o.attrs.erase k } else pure ()

/-- `sv[k]`, `value_node.py:72-75`; `none` is Python's `None`. -/
def getAttribute (h : Heap) (s : Ref) (k : Str) : Option AttrVal := (h.get s).attrs.get? k

/-- The `clock` setter, `conceptual_item.py:192-194`. -/
def setClock (x : Ref) (c : Option Clock) : PyM Unit := modify x fun o => { o with clock := c }

end Rei
