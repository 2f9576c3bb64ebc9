import Verif.Model.Factory
import Verif.Spec.Containment

/-!
# Specification vocabulary for C39-C42, C60-C62 (factories)
-/
namespace Rei

/-- What a relation says: endpoint, direction, weight. -/
def Heap.linkAt (h : Heap) (q : Ref) : Option Ref × Dir × Option Ref :=
  ((h.get q).endpoint, (h.get q).direction, (h.get q).weight)

/-- The relations asked for by a list of nodes, a direction and an optional list of weights (`None` for
every node if the list is not given), in order. -/
def wanted (nodes : List Ref) (d : Dir) (values : Option (List (Option Ref))) :
    List (Option Ref × Dir × Option Ref) :=
  List.zipWith (fun n v => (some n, d, v)) nodes (values.getD (List.replicate nodes.length none))

/-- The clock reading a factory takes next: 0 from a `DummyClock`, the wall clock from a `LocalClock`. -/
def clockNow (E : Env) (c : Option Clock) (h : Heap) : Nat :=
  match c with
  | some .local => E.time h.reads
  | _ => 0

/-- The uuid a factory named `f` gives to the name or path `arg` at clock reading `t`: the digest of
`f/arg.t`. -/
def uidOf (E : Env) (f arg : Str) (t : Nat) : Bytes :=
  E.sha (f ++ '/' :: (arg ++ '.' :: Nat.toDigits 10 t))

/-- The path of a new element named `nm`: its name, behind the container's current qualified name if it has
a container. -/
def pathIn (h : Heap) (nm : Str) : Option Ref → Str
  | none => nm
  | some p => (h.get p).qualName ++ '/' :: nm

/-- Node `n` can take part in a new edge named `nm`: it is a fully constructed hypergraph element and none
of its sub-elements has a uuid that its port to such an edge would get, at whatever clock reading. -/
structure CanJoin (E : Env) (h : Heap) (nm : Str) (n : Ref) : Prop where
  lt : n < h.size
  kind : (h.get n).kind.isHElement = true
  port : ∃ ctx, (h.get n).genCtx = some ctx ∧ ∀ x ∈ h.subelements n, ∀ t,
    (h.get x).uuid ≠ elementUid E ctx (relName nm (h.get n).idName t)

/-- One of the factory's elements is made: `generate_node`, `create_hyperedge` (also the first step of
`connect_nodes` and the like) or `create_value` returned `x`. -/
inductive Made (E : Env) (F : Factory) : Heap → Ref → Heap → Prop
  | node {h x h' nm p} : okRef h p → (∀ q, p = some q → (h.get q).kind = .node) →
      F.generateNode E nm p h = (.ok x, h') → Made E F h x h'
  | edge {h x h' nm c} : c < h.size → F.createHyperedge E c nm h = (.ok x, h') → Made E F h x h'
  | value {h x h' nm p vs} : okRef h p → F.createValue E p nm vs h = (.ok x, h') → Made E F h x h'

end Rei
