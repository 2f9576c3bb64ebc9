import Verif.Spec.DirectedPlan

/-!
# Specification vocabulary for C116 (tensors of a context that grows and shrinks)
-/
namespace Rei

/-- Between the two states, the edge `x` keeps its relations: the same ones in the same order, with the same end,
direction and weight. -/
def SameEdge (h h' : Heap) (x : Ref) : Prop :=
  h'.subRelations x = h.subRelations x ∧
    ∀ r ∈ h.subRelations x, h'.linkAt r = h.linkAt r ∧ weightOf h' r = weightOf h r

/-- One row and column of zeros comes at the end; nothing else changes. -/
structure RowAdded (T T' : Tensors) : Prop where
  layers : T'.ne = T.ne
  rows : T'.nn = T.nn + 1
  W : ∀ e < T.ne, ∀ i ≤ T.nn, ∀ j ≤ T.nn, T'.W e i j = if i < T.nn ∧ j < T.nn then T.W e i j else 0
  Io : ∀ e < T.ne, ∀ i ≤ T.nn, T'.Io e i = if i < T.nn then T.Io e i else 0
  Ii : ∀ e < T.ne, ∀ i ≤ T.nn, T'.Ii e i = if i < T.nn then T.Ii e i else 0
  degree : ∀ i ≤ T.nn, T'.degree i = if i < T.nn then T.degree i else 0
  total : T'.totalDegree = T.totalDegree
  projected : ∀ i ≤ T.nn, ∀ j ≤ T.nn,
    T'.projectedLaplacian i j = if i < T.nn ∧ j < T.nn then T.projectedLaplacian i j else 0

/-- One layer comes at the end, with the entries of an edge with the ends `ds`; the other layers do not change. -/
structure LayerAdded (h : Heap) (ds : List PlanEnd) (T T' : Tensors) : Prop where
  layers : T'.ne = T.ne + 1
  rows : T'.nn = T.nn
  W : ∀ e < T.ne, ∀ i < T.nn, ∀ j < T.nn, T'.W e i j = T.W e i j
  Io : ∀ e < T.ne, ∀ i < T.nn, T'.Io e i = T.Io e i
  Ii : ∀ e < T.ne, ∀ i < T.nn, T'.Ii e i = T.Ii e i
  newW : ∀ i < T.nn, ∀ j < T.nn,
    T'.W T.ne i j = if i ≠ j ∧ i ∈ ds.map PlanEnd.node ∧ j ∈ ds.map PlanEnd.node then
      lastEnd h ds fun d => decide (d.node = i ∧ d.dir.isIn ∨ d.node = j ∧ d.dir.isOut) else 0
  newIo : ∀ i < T.nn,
    T'.Io T.ne i = if i ∈ ds.map PlanEnd.node ∧ ∃ j ∈ ds.map PlanEnd.node, j ≠ i then
      lastEnd h ds fun d => decide (d.node = i ∧ d.dir.isIn ∨ d.node ≠ i ∧ d.dir.isOut) else 0
  newIi : ∀ j < T.nn,
    T'.Ii T.ne j = if j ∈ ds.map PlanEnd.node ∧ ∃ i ∈ ds.map PlanEnd.node, i ≠ j then
      lastEnd h ds fun d => decide (d.node = j ∧ d.dir.isOut ∨ d.node ≠ j ∧ d.dir.isIn) else 0

/-- The positions without position `k`. -/
def skip (k e : Nat) : Nat := if e < k then e else e + 1

/-- Layer `k` goes, the later ones move up; nothing else changes. -/
structure LayerRemoved (k : Nat) (T T' : Tensors) : Prop where
  layers : T.ne = T'.ne + 1
  rows : T'.nn = T.nn
  W : ∀ e < T'.ne, ∀ i < T.nn, ∀ j < T.nn, T'.W e i j = T.W (skip k e) i j
  Io : ∀ e < T'.ne, ∀ i < T.nn, T'.Io e i = T.Io (skip k e) i
  Ii : ∀ e < T'.ne, ∀ i < T.nn, T'.Ii e i = T.Ii (skip k e) i

/-- Row and column `k`, which were zero, go, the later ones move up; nothing else changes. -/
structure RowRemoved (k : Nat) (T T' : Tensors) : Prop where
  layers : T'.ne = T.ne
  rows : T.nn = T'.nn + 1
  W : ∀ e < T.ne, ∀ i < T'.nn, ∀ j < T'.nn, T'.W e i j = T.W e (skip k i) (skip k j)
  Io : ∀ e < T.ne, ∀ i < T'.nn, T'.Io e i = T.Io e (skip k i)
  Ii : ∀ e < T.ne, ∀ i < T'.nn, T'.Ii e i = T.Ii e (skip k i)
  zeroW : ∀ e < T.ne, ∀ i < T.nn, T.W e k i = 0 ∧ T.W e i k = 0
  zeroI : ∀ e < T.ne, T.Io e k = 0 ∧ T.Ii e k = 0
  degree : ∀ i < T'.nn, T'.degree i = T.degree (skip k i)
  total : T'.totalDegree = T.totalDegree
  projected : ∀ i < T'.nn, ∀ j < T'.nn, T'.projectedLaplacian i j = T.projectedLaplacian (skip k i) (skip k j)

end Rei
