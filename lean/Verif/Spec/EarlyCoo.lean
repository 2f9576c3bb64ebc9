import Verif.Model.EarlyCoo
import Verif.Spec.Encoding

/-!
# Specification of coordinates that name elements by uuid (C123)
-/
namespace Rei

/-- The array, indexed by uuids, that a reader of the coordinate list `(edge, node, node, w)` fills: later entries overwrite
earlier ones, the rest is 0. -/
def uuidW (l : List UEntry) (e i j : Bytes) : Rat :=
  ((l.filter fun t => decide (t.e = e ∧ t.n0 = i ∧ t.n1 = j)).getLast?.map UEntry.w).getD 0

/-- The same for the list of the outgoing incidences. -/
def uuidOut (l : List UEntry) (e i : Bytes) : Rat :=
  ((l.filter fun t => decide (t.e = e ∧ t.n0 = i)).getLast?.map UEntry.w).getD 0

/-- The same for the list of the incoming incidences. -/
def uuidIn (l : List UEntry) (e i : Bytes) : Rat :=
  ((l.filter fun t => decide (t.e = e ∧ t.n1 = i)).getLast?.map UEntry.w).getD 0

/-- Coordinates that describe the tensors of a context through the uuids of a message's tuples for its edges and nodes, and have
no coordinates besides.  (The first node tuple is the context.) -/
structure UuidCoordinatesOf (raw : List UEntry) (msg : FullMsg) (T : Tensors) : Prop where
  edges : msg.edges.length = T.ne
  nodes : msg.nodes.length = T.nn + 1
  W : ∀ e i j (x : EdgeMsg) (v u : NodeMsg), msg.edges[e]? = some x → msg.nodes[i + 1]? = some v → msg.nodes[j + 1]? = some u →
    uuidW raw x.uuid v.uuid u.uuid = T.W e i j
  out : ∀ e i (x : EdgeMsg) (v : NodeMsg), msg.edges[e]? = some x → msg.nodes[i + 1]? = some v → uuidOut raw x.uuid v.uuid = T.Io e i
  inc : ∀ e i (x : EdgeMsg) (v : NodeMsg), msg.edges[e]? = some x → msg.nodes[i + 1]? = some v → uuidIn raw x.uuid v.uuid = T.Ii e i
  only : ∀ t ∈ raw, ∃ (e i j : Nat) (x : EdgeMsg) (v u : NodeMsg), msg.edges[e]? = some x ∧ msg.nodes[i + 1]? = some v ∧
    msg.nodes[j + 1]? = some u ∧ t.e = x.uuid ∧ t.n0 = v.uuid ∧ t.n1 = u.uuid

end Rei
