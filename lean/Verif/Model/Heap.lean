import Verif.Py.Dict
import Verif.Py.Str

/-!
# Objects, heap, exceptions

The object graph of `framework_python/rei`.  Object identity (`is`) is equality of references.
-/
namespace Rei

/-- Object reference: `Ref` is another way to write `Nat`; Python `is` is equality of `Ref`s. -/
macro "Ref" : term => `(Nat)

/-- Exceptions raised by the modelled code: the ones declared in
`foundations/common_errors.py:1-22`, `factories/abstract_factory.py:6-7`,
`format/mapping/cognilang_mapping_errors.py:1-6`,
`format/semantics/cognitive_entity_semantic_factory.py:10-11`, the Python built-in ones the code
runs into, `user` for an exception raised by a caller-supplied callback, and `diverges` for a loop
that does not terminate. -/
inductive Err
  | duplicateElement | invalidQueryName | elementNotExist | clockNotSet | recursiveHierarchy
  | invalidQuery | insufficientValues | invalidSemanticType | invalidDirection
  | keyError | indexError | typeError | attributeError | valueError | recursionError
  | stopIteration | runtimeError | zeroDivision | assertionError | user | diverges
  deriving DecidableEq, Repr

/-- `EnumRelationDirection`, `hypergraph/common_definitions.py:4-7`
(`INWARDS = 0, OUTWARDS = 1, BIDIRECTIONAL = 2`). -/
inductive Dir
  | inwards | outwards | bidirectional
  deriving DecidableEq, Repr

/-- Subclasses of `SemanticValueNode`: `hypergraph/value_node.py:48` (`plain`) and
`format/semantics/CognitiveEntity.py:5-92`. -/
inductive SemKind
  | plain | cognitiveEntity | inertia | rigid | kinGraph | kinLink | kinJoint
  | geometry | cylinder | ellipsoid | polyhedron | material
  deriving DecidableEq, Repr

/-- Concrete classes: `ConceptualItem` (`foundations/conceptual_item.py:175`), `HypergraphElement`,
`HypergraphNode`, `HypergraphEdge`, `HypergraphRelation`, `HypergraphPort`
(`hypergraph/base_elements.py:14-199`), `ValueNode`, `SemanticValueNode`
(`hypergraph/value_node.py:7,48`).  `HypergraphQueryEngine` (`query/query_engine.py:49`) is a
`node` here. -/
inductive Kind
  | conceptual | element | node | edge | relation | port | value | semantic (k : SemKind)
  deriving DecidableEq, Repr

/-- `isinstance(x, ConceptualItem)`: classes with a clock and a timestamp. -/
def Kind.isConceptual : Kind → Bool
  | .conceptual | .element | .node | .edge => true
  | _ => false

/-- `isinstance(x, HypergraphElement)`: classes with ports. -/
def Kind.isHElement : Kind → Bool
  | .element | .node | .edge => true
  | _ => false

/-- The two clocks of `foundations/clock.py:16-31`. -/
inductive Clock
  | dummy | local
  deriving DecidableEq, Repr

/-- A progenitor name: a `str`, or the 1-tuple that
`AbstractElementFactory.get_stamped_qualified_name` really returns
(`factories/abstract_factory.py:22-23`, note the trailing comma), or the undecoded `bytes` a value node
decoded from a message gets (`hypergraph/encoding/graph_tensor_icon_cbor.py:78`). -/
inductive PName
  | str (s : Str) | tup (s : Str) | bytes (s : Str)
  deriving DecidableEq, Repr

/-- Values of named attributes of a `SemanticValueNode` (`hypergraph/value_node.py:52`). -/
inductive AttrVal
  | str (s : Str) | num (q : Rat) | nums (l : List Rat) | obj (r : Ref)
  deriving DecidableEq, Repr

/-- One object.  Field by field: `_uuid`, `_id_name`, `_progenitor_qualified_name`,
`_qualified_name` (`foundations/abstract_items.py:6-12`); `_parent`, `_depth`, `_cid`,
`_cnt_subelements`, `_cnt_subelements_historical`, `_sub_elements`, `_index_elements_by_name`
(`foundations/conceptual_item.py:36-53`); `_clock`, `_timestamp` (`:177-208`);
`_id_generation` (its context name; `none` while the attribute does not exist yet) and `_ports`
(`hypergraph/base_elements.py:34-39`); `_endpoint` of relations and ports (`:22,79`), `_direction`,
`_weight`, `semantic_value_node` (`:80-91`), `_sub_relations` (`:132`); `_values` (a reference into
the list store) and `dim` (`hypergraph/value_node.py:12-20`); the attribute dictionary (`:52`).
Fields that a class does not have keep their default and are never read for it. -/
structure Obj where
  kind : Kind
  uuid : Bytes
  idName : Str
  progenitor : PName
  qualName : Str
  parent : Option Ref := none
  depth : Nat := 0
  cid : Nat := 0
  cnt : Int := 0
  hist : Nat := 0
  subs : Dict Bytes Ref := []
  index : Dict Str (Dict Bytes Ref) := []
  clock : Option Clock := none
  timestamp : Nat := 0
  genCtx : Option Str := none
  ports : Dict Bytes Ref := []
  endpoint : Option Ref := none
  direction : Dir := .bidirectional
  weight : Option Ref := none
  semNode : Option Ref := none
  subRels : Dict Nat Ref := []
  vals : Nat := 0
  dim : Nat := 0
  attrs : Dict Str AttrVal := []
  deriving DecidableEq

/-- A placeholder for references that do not exist. -/
def Obj.blank : Obj :=
  { kind := .conceptual, uuid := [], idName := [], progenitor := .str [], qualName := [] }

/-- The program state: objects `0 .. size-1`, Python lists `0 .. nlists-1` (only the lists held by
value nodes and their callers are modelled as shared mutable objects), and the number of readings
taken so far from the wall clock. -/
structure Heap where
  size : Nat
  get : Ref → Obj
  nlists : Nat
  lists : Nat → List Rat
  reads : Nat

/-- The state before any object is created. -/
def Heap.empty : Heap :=
  { size := 0, get := fun _ => Obj.blank, nlists := 0, lists := fun _ => [], reads := 0 }

/-- The parts of the world the code calls but does not define: `hashlib.sha3_224(s.encode()).digest()`
(`foundations/identification/identity_generator.py:24-27`) and the successive results of
`time.time_ns()` (`foundations/clock.py:27-28`). -/
structure Env where
  sha : Str → Bytes
  time : Nat → Nat

/-- Overwrite an object. -/
def Heap.set (h : Heap) (r : Ref) (o : Obj) : Heap :=
  { h with get := fun i => if i = r then o else h.get i }

/-- Update an object in place. -/
def Heap.mod (h : Heap) (r : Ref) (f : Obj → Obj) : Heap := h.set r (f (h.get r))

@[simp] theorem Heap.get_set (h : Heap) (r i : Ref) (o : Obj) :
    (h.set r o).get i = if i = r then o else h.get i := rfl
@[simp] theorem Heap.size_set (h : Heap) (r : Ref) (o : Obj) : (h.set r o).size = h.size := rfl
@[simp] theorem Heap.lists_set (h : Heap) (r : Ref) (o : Obj) : (h.set r o).lists = h.lists := rfl
@[simp] theorem Heap.nlists_set (h : Heap) (r : Ref) (o : Obj) : (h.set r o).nlists = h.nlists := rfl
@[simp] theorem Heap.reads_set (h : Heap) (r : Ref) (o : Obj) : (h.set r o).reads = h.reads := rfl

@[simp] theorem Heap.get_mod (h : Heap) (r i : Ref) (f : Obj → Obj) :
    (h.mod r f).get i = if i = r then f (h.get r) else h.get i := rfl
@[simp] theorem Heap.size_mod (h : Heap) (r : Ref) (f : Obj → Obj) : (h.mod r f).size = h.size := rfl
@[simp] theorem Heap.lists_mod (h : Heap) (r : Ref) (f : Obj → Obj) :
    (h.mod r f).lists = h.lists := rfl
@[simp] theorem Heap.nlists_mod (h : Heap) (r : Ref) (f : Obj → Obj) :
    (h.mod r f).nlists = h.nlists := rfl
@[simp] theorem Heap.reads_mod (h : Heap) (r : Ref) (f : Obj → Obj) :
    (h.mod r f).reads = h.reads := rfl

/-- Python code: reads and writes the heap, returns or raises.  The heap survives a raise. -/
def PyM (α : Type) := Heap → Except Err α × Heap

namespace PyM
variable {α β : Type}

protected def pure (a : α) : PyM α := fun h => (.ok a, h)

/-- Sequencing; an exception skips the rest and keeps the heap as it is at that point. -/
protected def bind (x : PyM α) (f : α → PyM β) : PyM β := fun h =>
  match x h with
  | (.ok a, h') => f a h'
  | (.error e, h') => (.error e, h')

instance : Monad PyM where
  pure := PyM.pure
  bind := PyM.bind

/-- `raise e`. -/
def raise (e : Err) : PyM α := fun h => (.error e, h)
/-- Read the whole heap. -/
def heap : PyM Heap := fun h => (.ok h, h)
/-- Read an object. -/
def obj (r : Ref) : PyM Obj := fun h => (.ok (h.get r), h)
/-- Update an object. -/
def modify (r : Ref) (f : Obj → Obj) : PyM Unit := fun h => (.ok (), h.mod r f)
/-- Allocate an object. -/
def alloc (o : Obj) : PyM Ref := fun h => (.ok h.size, { (h.set h.size o) with size := h.size + 1 })

@[simp] theorem pure_run (a : α) (h : Heap) : (pure a : PyM α) h = (.ok a, h) := rfl
@[simp] theorem raise_run (e : Err) (h : Heap) : (raise e : PyM α) h = (.error e, h) := rfl
@[simp] theorem heap_run (h : Heap) : heap h = (.ok h, h) := rfl
@[simp] theorem obj_run (r : Ref) (h : Heap) : obj r h = (.ok (h.get r), h) := rfl
@[simp] theorem modify_run (r : Ref) (f : Obj → Obj) (h : Heap) :
    modify r f h = (.ok (), h.mod r f) := rfl
@[simp] theorem alloc_run (o : Obj) (h : Heap) :
    alloc o h = (.ok h.size, { (h.set h.size o) with size := h.size + 1 }) := rfl

theorem bind_run (x : PyM α) (f : α → PyM β) (h : Heap) :
    (x >>= f) h = match x h with
      | (.ok a, h') => f a h'
      | (.error e, h') => (.error e, h') := rfl

@[simp] theorem pure_bind_run (a : α) (f : α → PyM β) (h : Heap) :
    ((pure a : PyM α) >>= f) h = f a h := rfl
@[simp] theorem raise_bind_run (e : Err) (f : α → PyM β) (h : Heap) :
    ((raise e : PyM α) >>= f) h = (.error e, h) := rfl
@[simp] theorem heap_bind_run (f : Heap → PyM β) (h : Heap) : (heap >>= f) h = f h h := rfl
@[simp] theorem obj_bind_run (r : Ref) (f : Obj → PyM β) (h : Heap) :
    (obj r >>= f) h = f (h.get r) h := rfl
@[simp] theorem modify_bind_run (r : Ref) (g : Obj → Obj) (f : Unit → PyM β) (h : Heap) :
    (modify r g >>= f) h = f () (h.mod r g) := rfl
@[simp] theorem alloc_bind_run (o : Obj) (f : Ref → PyM β) (h : Heap) :
    (alloc o >>= f) h = f h.size { (h.set h.size o) with size := h.size + 1 } := rfl

theorem bind_ok {x : PyM α} {f : α → PyM β} {h h' : Heap} {a : α} (hx : x h = (.ok a, h')) :
    (x >>= f) h = f a h' := by rw [bind_run, hx]
theorem bind_err {x : PyM α} {f : α → PyM β} {h h' : Heap} {e : Err} (hx : x h = (.error e, h')) :
    (x >>= f) h = (.error e, h') := by rw [bind_run, hx]

/-- Python `for x in xs: body(x)`. -/
def forEach (xs : List α) (body : α → PyM Unit) : PyM Unit :=
  match xs with
  | [] => pure ()
  | x :: xs => do body x; forEach xs body

@[simp] theorem forEach_nil (body : α → PyM Unit) : forEach [] body = pure () := rfl
@[simp] theorem forEach_cons (x : α) (xs : List α) (body : α → PyM Unit) :
    forEach (x :: xs) body = (do body x; forEach xs body) := rfl

/-- Python `[f(x) for x in xs]`. -/
def mapEach (xs : List α) (f : α → PyM β) : PyM (List β) :=
  match xs with
  | [] => pure []
  | x :: xs => do
    let y ← f x
    let ys ← mapEach xs f
    pure (y :: ys)

end PyM

/-- `list(c.get_subelements(lambda x: True))`, `conceptual_item.py:83-84`. -/
def Heap.subelements (h : Heap) (c : Ref) : List Ref := (h.get c).subs.values

/-- `list(c.get_subelements(f))` for a filter that does not mutate, `conceptual_item.py:83-84`. -/
def Heap.getSubelements (h : Heap) (f : Ref → Bool) (c : Ref) : List Ref :=
  (h.subelements c).filter f

end Rei
