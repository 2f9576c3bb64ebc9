import Verif.Model.System

/-!
# Factories (`factories/abstract_factory.py`, `factories/foundation_factory.py`)
-/
namespace Rei
open PyM

/-- `AbstractElementFactory`, `abstract_factory.py:12-17`: the factory name, which is also the context of its
id generator, and its clock. -/
structure Factory where
  name : Str
  clock : Option Clock

/-- `unique_identifier.generate_uid(arg)`, `abstract_factory.py:16-20` (the lambda and `get_qualified_name`), `identity_generator.py:24-27`. -/
def Factory.generateUid (E : Env) (F : Factory) (arg : Str) : PyM Bytes := do
  let t ← readClock E F.clock
  pure (E.sha (F.name ++ '/' :: (arg ++ '.' :: decimal t)))

/-- `get_qualified_name(name)`, `abstract_factory.py:19-20`. -/
def Factory.stamped (E : Env) (F : Factory) (name : Str) : PyM Str := do
  let t ← readClock E F.clock
  pure (name ++ '.' :: decimal t)

/-- `get_stamped_qualified_name(id_name, parent)`, `abstract_factory.py:22-23`: because of the trailing comma
the result is a 1-tuple. -/
def Factory.stampedIn (E : Env) (F : Factory) (name : Str) (parent : Ref) : PyM PName := do
  let o ← obj parent
  let t ← readClock E F.clock
  pure (.tup (Str.join '/' [o.qualName, name] ++ '.' :: decimal t))

/-- The name `generate_node` hashes, `foundation_factory.py:16-19`. -/
def Heap.newPath (h : Heap) (name : Str) (parent : Option Ref) : Str :=
  match parent with
  | none => name
  | some p => Str.join '/' [(h.get p).qualName, name]

/-- `generate_node`, `foundation_factory.py:15-22`. -/
def Factory.generateNode (E : Env) (F : Factory) (name : Str) (parent : Option Ref) : PyM Ref := do
  let h ← heap
  let u ← F.generateUid E (h.newPath name parent)
  let q ← F.stamped E name
  newConceptual E .node name u (.str (Str.join '/' [F.name, q])) F.clock parent

/-- `generate_list_nodes`, `foundation_factory.py:24-25`. -/
def Factory.generateListNodes (E : Env) (F : Factory) (names : List Str) (parent : Option Ref) :
    PyM (List Ref) :=
  mapEach names fun nm => F.generateNode E nm parent

/-- `create_hyperedge`, `foundation_factory.py:31-36`; the same lines open `connect_nodes` (`:41-42`),
`connect_2factor_edges` (`:57-58`) and `connect_tuple_nodes` (`:88-89`).  The edge takes the clock of its
container; relations, ports and value nodes have none (`AttributeError`). -/
def Factory.createHyperedge (E : Env) (F : Factory) (parent : Ref) (name : Str) : PyM Ref := do
  let u ← F.generateUid E name
  let q ← F.stampedIn E name parent
  let o ← obj parent
  if o.kind.isConceptual then newConceptual E .edge name u q o.clock (some parent)
  else raise .attributeError

/-- What one relation of a new edge is made of: `(endpoint, direction, weight, semantic value node)`. -/
structure Link where
  node : Ref
  dir : Dir
  weight : Option Ref := none
  sem : Option Ref := none
  deriving DecidableEq

/-- The loops `for ... : he.unary_connect(...)`, `foundation_factory.py:49-50,67-70,90-91`. -/
def connectAll (E : Env) (e : Ref) (ls : List Link) : PyM Unit :=
  forEach ls fun l => (unaryConnect E e l.node l.weight l.dir l.sem).void

/-- `zip(nodes, values)` with `None`s for missing values, `foundation_factory.py:43-48,59-66`. -/
def zipLinks (nodes : List Ref) (d : Dir) (values : Option (List (Option Ref))) : List Link :=
  match values with
  | none => nodes.map fun n => { node := n, dir := d }
  | some vs => (nodes.zip vs).map fun p => { node := p.1, dir := d, weight := p.2 }

/-- `len(values) != n`, only checked when values are given, `foundation_factory.py:46,63`. -/
def wrongLength (values : Option (List (Option Ref))) (n : Nat) : Bool :=
  match values with
  | none => false
  | some vs => vs.length != n

/-- `connect_nodes`, `foundation_factory.py:38-51`: the edge exists before the values are checked. -/
def Factory.connectNodes (E : Env) (F : Factory) (c : Ref) (name : Str) (nodes : List Ref) (d : Dir)
    (values : Option (List (Option Ref))) : PyM Ref := do
  let e ← F.createHyperedge E c name
  if wrongLength values nodes.length then raise .insufficientValues
  else do
    connectAll E e (zipLinks nodes d values)
    pure e

/-- `connect_2factor_edges`, `foundation_factory.py:53-71`: both loops use `direction[0]`. -/
def Factory.connect2Factor (E : Env) (F : Factory) (c : Ref) (name : Str) (ins outs : List Ref)
    (dirs : Dir × Dir) (values : Option (List (Option Ref))) : PyM Ref := do
  let e ← F.createHyperedge E c name
  if wrongLength values (outs.length + ins.length) then raise .insufficientValues
  else do
    connectAll E e (zipLinks ins dirs.1 (values.map (·.take ins.length)))
    connectAll E e (zipLinks outs dirs.1 (values.map (·.drop ins.length)))
    pure e

/-- `connect_dir_edges`, `foundation_factory.py:73-76`. -/
def Factory.connectDir (E : Env) (F : Factory) (c : Ref) (name : Str) (ins outs : List Ref) : PyM Ref :=
  F.connect2Factor E c name ins outs (.inwards, .outwards) none

/-- `connect_tuple_nodes`, `foundation_factory.py:79-96`. -/
def Factory.connectTuples (E : Env) (F : Factory) (c : Ref) (name : Str) (links : List Link) :
    PyM Ref := do
  let e ← F.createHyperedge E c name
  connectAll E e links
  pure e

/-- `create_value`, `foundation_factory.py:98-105`. -/
def Factory.createValue (E : Env) (F : Factory) (parent : Option Ref) (name : Str)
    (values : Option (List Rat)) : PyM Ref := do
  let u ← F.generateUid E name
  match parent with
  | some p => do
    let q ← F.stampedIn E name p
    let v ← newValue u name q values
    addElement E p v
    pure v
  | none => do
    let q ← F.stamped E name
    newValue u name (.str q) values

end Rei
