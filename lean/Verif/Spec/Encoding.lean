import Verif.Model.Encoding

/-!
# Specification of the round trip through a message (C49–C51)
-/
namespace Rei

/-- The elements of a context that a message describes: the context itself, its nodes, its edges, the relations
of its edges and its value nodes. -/
def Heap.messageParts (h : Heap) (c : Ref) : List Ref :=
  (c :: h.subNodes c) ++ h.subEdges c ++ (h.subEdges c).flatMap h.subRelations ++ h.subValues c

/-- Contexts that can be sent: a root node whose sub-nodes and edges do not share its identifier, and whose
relations end in the context, one of its nodes or one of its edges. -/
structure Sendable (h : Heap) (c : Ref) : Prop where
  exists_ : c < h.size
  node : (h.get c).kind = .node
  root : (h.get c).parent = none
  distinct : ∀ x ∈ h.subNodes c ++ h.subEdges c, (h.get x).uuid ≠ (h.get c).uuid
  closed : ∀ e ∈ h.subEdges c, ∀ r ∈ h.subRelations e, ∃ v, (h.get r).endpoint = some v ∧
    (v = c ∨ v ∈ h.subNodes c ∨ v ∈ h.subEdges c)

/-- In `h'`, the node `c'` is a copy of what `h` has in the context `c`, made of the objects created since `b`:
`φ` maps the elements to their copies.  Directions and weights of the relations are not part of it. -/
structure Copy (h : Heap) (c : Ref) (b h' : Heap) (c' : Ref) (φ : Ref → Ref) : Prop where
  top : φ c = c'
  fresh : ∀ x ∈ h.messageParts c, b.size ≤ φ x ∧ φ x < h'.size
  inj : ∀ x ∈ h.messageParts c, ∀ y ∈ h.messageParts c, φ x = φ y → x = y
  all : ∀ y, b.size ≤ y → y < h'.size → ∃ x ∈ h.messageParts c, φ x = y
  kind : ∀ x ∈ h.messageParts c, (h'.get (φ x)).kind = (h.get x).kind
  uuid : ∀ x ∈ h.messageParts c, (h'.get (φ x)).uuid = (h.get x).uuid
  name : ∀ x ∈ h.messageParts c, (h'.get (φ x)).idName = (h.get x).idName
  parent : ∀ x ∈ h.messageParts c, (h'.get (φ x)).parent = (h.get x).parent.map φ
  nodes : h'.subNodes c' = (h.subNodes c).map φ
  edges : h'.subEdges c' = (h.subEdges c).map φ
  values : h'.subValues c' = (h.subValues c).map φ
  relations : ∀ e ∈ h.subEdges c, h'.subRelations (φ e) = (h.subRelations e).map φ
  endpoints : ∀ e ∈ h.subEdges c, ∀ r ∈ h.subRelations e,
    (h'.get (φ r)).endpoint = (h.get r).endpoint.map φ
  content : ∀ v ∈ h.subValues c, h'.valuesOf (φ v) = h.valuesOf v ∧
    (h'.get (φ v)).dim = (h.valuesOf v).length

/-- Everything that existed in `h` is unchanged in `h'`. -/
def KeepsOld (h h' : Heap) : Prop :=
  h.size ≤ h'.size ∧ (∀ y < h.size, h'.get y = h.get y) ∧ ∀ l < h.nlists, h'.lists l = h.lists l

/-- The decoder's indices of the elements described by the message are the sender's. -/
structure SameIndices (h : Heap) (c : Ref) (m m' : IndexHom) : Prop where
  nodes : ∀ x ∈ c :: h.subNodes c, ∃ i, m.nodes.index (h.get x).uuid = .ok i ∧
    m'.nodes.index (h.get x).uuid = .ok i ∧ m'.nodes.uuid i = .ok (h.get x).uuid
  edges : ∀ x ∈ h.subEdges c, ∃ i, m.edges.index (h.get x).uuid = .ok i ∧
    m'.edges.index (h.get x).uuid = .ok i ∧ m'.edges.uuid i = .ok (h.get x).uuid
  vals : ∀ x ∈ h.subValues c, ∃ i, m.vals.index (h.get x).uuid = .ok i ∧
    m'.vals.index (h.get x).uuid = .ok i ∧ m'.vals.uuid i = .ok (h.get x).uuid
  counts : m'.nodes.cnt = (h.subNodes c).length + 1 ∧ m'.edges.cnt = (h.subEdges c).length ∧
    m'.vals.cnt = (h.subValues c).length

/-- The array that a reader of the value tensor's coordinate list `(i_e, i_n, i_m, w)` fills: later entries overwrite
earlier ones, the rest is 0. -/
def denseW (l : List Coo) (e i j : Nat) : Rat :=
  ((l.filter fun t => decide (t.e = e ∧ t.n = i ∧ t.m = j)).getLast?.map Coo.w).getD 0

/-- The same for the list `(i_e, i_n, w)` of the outgoing incidences. -/
def denseOut (l : List Coo) (e i : Nat) : Rat :=
  ((l.filter fun t => decide (t.e = e ∧ t.n = i)).getLast?.map Coo.w).getD 0

/-- The same for the list `(i_e, i_m, w)` of the incoming incidences. -/
def denseIn (l : List Coo) (e i : Nat) : Rat :=
  ((l.filter fun t => decide (t.e = e ∧ t.m = i)).getLast?.map Coo.w).getD 0

/-- The coordinate lists of a message describe the tensors of a context: reading them at the indices its tuples give for the
edges and nodes gives the entries, and they have no coordinates besides.  (The first node tuple is the context.) -/
structure CoordinatesOf (msg : FullMsg) (T : Tensors) : Prop where
  edges : msg.edges.length = T.ne
  nodes : msg.nodes.length = T.nn + 1
  W : ∀ e i j (x : EdgeMsg) (v u : NodeMsg), msg.edges[e]? = some x → msg.nodes[i + 1]? = some v → msg.nodes[j + 1]? = some u →
    denseW msg.coo x.index v.index u.index = T.W e i j
  out : ∀ e i (x : EdgeMsg) (v : NodeMsg), msg.edges[e]? = some x → msg.nodes[i + 1]? = some v → denseOut msg.coo x.index v.index = T.Io e i
  inc : ∀ e i (x : EdgeMsg) (v : NodeMsg), msg.edges[e]? = some x → msg.nodes[i + 1]? = some v → denseIn msg.coo x.index v.index = T.Ii e i
  only : ∀ t ∈ msg.coo, ∃ (e i j : Nat) (x : EdgeMsg) (v u : NodeMsg), msg.edges[e]? = some x ∧ msg.nodes[i + 1]? = some v ∧ msg.nodes[j + 1]? = some u ∧
    t.e = x.index ∧ t.n = v.index ∧ t.m = u.index

/-- Every coordinate of the list belongs, under the indices of `m`, to an entry of the tensors that is not 0. -/
def Current (h : Heap) (c : Ref) (m : IndexHom) (T : Tensors) (l : List Coo) : Prop :=
  ∀ t ∈ l, ∃ e i j x v u, (h.subEdges c)[e]? = some x ∧ (h.subNodes c)[i]? = some v ∧ (h.subNodes c)[j]? = some u ∧
    m.edges.index (h.get x).uuid = .ok t.e ∧ m.nodes.index (h.get v).uuid = .ok t.n ∧
    m.nodes.index (h.get u).uuid = .ok t.m ∧ T.W e i j ≠ 0

end Rei
