import Verif.Model.Heap

/-!
# The containment hierarchy (`foundations/conceptual_item.py`)
-/
namespace Rei
open PyM

/-- `update_qualified_name`, `conceptual_item.py:63-66`: the `id_name`s from `x` up to its root.
The recursion is cut after `fuel` elements; `none` is Python's `RecursionError` on a cyclic
`parent` chain.  A chain of more than about 1000 containers also exceeds CPython's default recursion
limit; that limit is not modelled. -/
def nameChain (h : Heap) : Nat → Ref → Option (List Str)
  | 0, _ => none
  | fuel + 1, x =>
    match (h.get x).parent with
    | none => some [(h.get x).idName]
    | some p => (nameChain h fuel p).map ((h.get x).idName :: ·)

/-- `_update_timestamp`, `conceptual_item.py:204-208`, with `clock.py:16-31`. -/
def updateTimestamp (E : Env) (x : Ref) : PyM Unit := fun h =>
  match (h.get x).clock with
  | none => (.error .clockNotSet, h)
  | some .dummy => (.ok (), h.mod x fun o => { o with timestamp := 0 })
  | some .local =>
    (.ok (), { (h.mod x fun o => { o with timestamp := E.time h.reads }) with reads := h.reads + 1 })

/-- The qualified-name part of `update`, `conceptual_item.py:68-69`, `:234`,
`base_elements.py:109-110`.  An acyclic chain has at most `size` elements, so `size` is enough fuel. -/
def requalify (x : Ref) : PyM Unit := fun h =>
  match nameChain h h.size x with
  | none => (.error .recursionError, h)
  | some l => (.ok (), h.mod x fun o => { o with qualName := Str.join '/' l.reverse })

/-- `update`: `ConceptualItem.update` (`conceptual_item.py:232-234`) for the classes with a clock,
`HierarchicalElement.update` (`:68-69`) or `HypergraphRelation.update` (`base_elements.py:109-110`)
for the others. -/
def update (E : Env) (x : Ref) : PyM Unit := do
  let o ← obj x
  if o.kind.isConceptual then
    updateTimestamp E x
    requalify x
  else requalify x

/-- The loop of `__update_element`, `conceptual_item.py:157-165`: a FIFO queue of elements; each is
updated, then its sub-elements are queued. -/
def updateLoop (E : Env) : Nat → List Ref → PyM Unit
  | _, [] => pure ()
  | 0, _ :: _ => raise .diverges
  | fuel + 1, x :: q => do
    update E x
    let o ← obj x
    updateLoop E fuel (q ++ o.subs.values)

/-- `__update_element`, `conceptual_item.py:157-165`.  A terminating run processes each downward
path at most once, so at most `2 ^ size` elements. -/
def updateElement (E : Env) (x : Ref) : PyM Unit := fun h => updateLoop E (2 ^ h.size) [x] h

/-- `self._sub_elements.pop(uuid)`. -/
def popSub (c : Ref) (u : Bytes) : PyM Ref := do
  let o ← obj c
  match o.subs.get? u with
  | none => raise .keyError
  | some el => do
    modify c fun o => { o with subs := o.subs.erase u }
    pure el

/-- `self._index_elements_by_name[name].pop(uuid)`. -/
def popIndex (c : Ref) (name : Str) (u : Bytes) : PyM Unit := do
  let o ← obj c
  match o.index.get? name with
  | none => raise .keyError
  | some d =>
    if d.has u then modify c fun o => { o with index := o.index.set name (d.erase u) }
    else raise .keyError

/-- The common tail of the three removal branches: `el.parent = None; el.update();
self._cnt_subelements -= 1`, `conceptual_item.py:122-125`, `:135-139`, `:147-151`. -/
def release (E : Env) (c el : Ref) : PyM Unit := do
  modify el fun o => { o with parent := none }
  update E el
  modify c fun o => { o with cnt := o.cnt - 1 }

/-- The loop of the removal by name, `conceptual_item.py:132-141`.  `lim` is the number of results
the consumer of the generator still asks for (`none`: until exhaustion). -/
def removeNamed (E : Env) (c : Ref) : List Ref → Option Nat → PyM (List Ref)
  | [], _ => pure []
  | v :: vs, lim =>
    if lim = some 0 then pure [] else do
      let o ← obj v
      let el ← popSub c o.uuid
      release E c el
      let rest ← removeNamed E c vs (lim.map (· - 1))
      pure (el :: rest)

/-- `HierarchicalElement.remove_element`, `conceptual_item.py:116-155`, a generator of which the
consumer takes `lim` results (`none`: all, as `list(...)` and a `for` loop do).  The body does not
start before the first result is asked for. -/
def baseRemove (E : Env) (c : Ref) (name : Str) (uuid : Option Bytes) (lim : Option Nat) :
    PyM (List Ref) :=
  if lim = some 0 then pure []
  else if name ≠ [] then
    match uuid with
    | some u => do
      let el ← popSub c u
      popIndex c name u
      release E c el
      pure [el]
    | none => do
      let o ← obj c
      match o.index.get? name with
      | none => raise .keyError
      | some d => do
        modify c fun o => { o with index := o.index.set name [] }
        removeNamed E c d.values lim
  else
    match uuid with
    | some u => do
      let el ← popSub c u
      let o ← obj el
      popIndex c o.idName u
      release E c el
      pure [el]
    | none => raise .invalidQuery

/-- `remove_element` with dynamic dispatch: `HypergraphEdge.remove_element`
(`base_elements.py:152-155`; a relation is not iterable, so the `yield from` raises `TypeError` after
the pop), `HypergraphRelation.remove_element` (`:118-121`), and `HierarchicalElement.remove_element`
for every other class. -/
def removeElement (E : Env) (c : Ref) (name : Str) (uuid : Option Bytes) (lim : Option Nat) :
    PyM (List Ref) := do
  let o ← obj c
  match o.kind with
  | .edge =>
    if lim = some 0 then pure [] else do
      let r ← baseRemove E c name uuid (some 1)
      match r with
      | [] => pure []
      | v :: _ => do
        let ov ← obj v
        let oc ← obj c
        match oc.genCtx with
        | none => raise .attributeError
        | some _ =>
          match oc.subRels.get? ov.cid with
          | none => raise .keyError
          | some _ => do
            modify c fun o => { o with subRels := o.subRels.erase ov.cid }
            raise .typeError
  | .relation =>
    if lim = some 0 then pure [] else
      match o.endpoint with
      | none => raise .attributeError
      | some ep => do
        let oe ← obj ep
        let el ← popSub c oe.uuid
        modify c fun o => { o with endpoint := none }
        pure [el]
  | _ => baseRemove E c name uuid lim

/-- The move part of `add_element`, `conceptual_item.py:103-106`:
`if element.parent is not None: for e in element.parent.remove_element(uuid=element.uuid): e.update()`. -/
def leaveParent (E : Env) (x : Ref) : PyM Unit := do
  let o ← obj x
  match o.parent with
  | none => pure ()
  | some p => do
    let r ← removeElement E p [] (some o.uuid) none
    forEach r (update E)

/-- The index update of `add_element`, `conceptual_item.py:98-100`. -/
def indexInsert (c x : Ref) : PyM Unit := do
  let o ← obj x
  modify c fun oc =>
    { oc with index := oc.index.set o.idName (((oc.index.get? o.idName).getD []).set o.uuid x) }

/-- `HierarchicalElement.add_element`, `conceptual_item.py:86-114`. -/
def baseAdd (E : Env) (c x : Ref) : PyM Unit := do
  if x = c then raise .recursiveHierarchy else do
    let o ← obj x
    let oc ← obj c
    if oc.subs.has o.uuid then raise .duplicateElement else do
      modify c fun oc => { oc with subs := oc.subs.set o.uuid x }
      if o.parent = some c then pure () else do
        indexInsert c x
        modify x fun ox => { ox with cid := oc.hist }
        leaveParent E x
        modify x fun ox => { ox with parent := some c }
        let oc ← obj c
        modify x fun ox => { ox with depth := oc.depth + 1 }
        modify c fun oc => { oc with cnt := oc.cnt + 1 }
        modify c fun oc => { oc with hist := oc.hist + 1 }
        updateElement E x

/-- Why an element is looked up in: the result of `get_element_by_id_name`. -/
abbrev Lookup := Except Err (List Ref)

/-- `get_element_by_id_name`, `conceptual_item.py:218-230`, on the already split name; called on an
object without the method (ports, relations, value nodes) it is an `AttributeError`.  The results
are collected in a list; an exception while iterating loses them. -/
def lookupTokens (h : Heap) : List Str → Ref → Lookup
  | [], _ => .error .invalidQueryName
  | [t], c =>
    if (h.get c).kind.isConceptual then
      .ok (((h.get c).index.get? t).getD []).values
    else .error .attributeError
  | t :: t' :: ts, c =>
    if (h.get c).kind.isConceptual then
      match (h.get c).index.get? t with
      | none => .error .keyError
      | some d => (d.values.mapM (lookupTokens h (t' :: ts))).map List.flatten
    else .error .attributeError

/-- `list(c.get_element_by_id_name(name))`, `conceptual_item.py:218-230`.  Each recursive call joins
the remaining tokens and splits them again, which is the identity on tokens (`Str.split_join`); the
model passes the tokens on. -/
def getElementByIdName (h : Heap) (c : Ref) (name : Str) : Lookup :=
  lookupTokens h (Str.split '/' name) c

end Rei
