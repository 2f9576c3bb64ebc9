import Verif.Model.TensorApi
import Verif.Props.Projected

/-!
# C119: what can be computed from a conversion
-/
namespace Rei

section
variable {E : Env} {h : Heap} {c : Ref} {T : Tensors}

theorem arrays_some (R : Reach E h) (K : Context h c) (hT : TensorOf h c T) (q : h.subNodes c ≠ [] ∨ h.subEdges c ≠ []) :
    T.arrays = some T := by
  have En := hT.entries R K
  unfold Tensors.arrays
  rw [En.nn, En.ne]
  exact if_neg fun z => q.elim (· (List.length_eq_zero_iff.1 z.1)) (· (List.length_eq_zero_iff.1 z.2))

theorem arrays_none (R : Reach E h) (K : Context h c) (hT : TensorOf h c T) (q : h.subNodes c = [] ∧ h.subEdges c = []) :
    T.arrays = none := by
  have En := hT.entries R K
  unfold Tensors.arrays
  rw [En.nn, En.ne, q.1, q.2]
  rfl

/-- **C119, degrees.** Of a converted context, `deg`, `total_deg` and `Lp` can be read exactly if it has a node or an edge;
otherwise reading them raises `TypeError`. -/
theorem C119_degrees (R : Reach E h) (K : Context h c) (hT : TensorOf h c T) :
    (h.subNodes c ≠ [] ∨ h.subEdges c ≠ [] → readDegree T.arrays = .ok T.degree ∧ readTotalDegree T.arrays = .ok T.totalDegree ∧
      readProjectedLaplacian T.arrays = .ok T.projectedLaplacian) ∧
    (h.subNodes c = [] ∧ h.subEdges c = [] → readDegree T.arrays = .error .typeError ∧
      readTotalDegree T.arrays = .error .typeError ∧ readProjectedLaplacian T.arrays = .error .typeError) := by
  have En := hT.entries R K
  constructor
  · intro q
    rw [arrays_some R K hT q]
    exact ⟨rfl, rfl, rfl⟩
  · intro q
    rw [arrays_none R K hT q]
    exact ⟨rfl, rfl, rfl⟩

/-- **C119, Laplacian.** `DD` and `L` can be read exactly if the context has an edge; otherwise reading them raises
`ValueError`. -/
theorem C119_laplacian (R : Reach E h) (K : Context h c) (hT : TensorOf h c T) :
    (h.subEdges c ≠ [] → ∃ D L, readDiagDegreeTensor T.arrays = .ok D ∧ readLaplacian T.arrays = .ok L ∧
      ∀ e i j, L e i j = D e i j - T.W e i j) ∧
    (h.subEdges c = [] → readDiagDegreeTensor T.arrays = .error .valueError ∧ readLaplacian T.arrays = .error .valueError) := by
  have En := hT.entries R K
  constructor
  · intro q
    rw [arrays_some R K hT (.inr q)]
    have h0 : T.ne ≠ 0 := by rw [En.ne]; exact fun z => q (List.length_eq_zero_iff.1 z)
    have e1 : T.diagDegreeTensor = .ok _ := if_neg h0
    refine ⟨_, _, e1, ?_, fun _ _ _ => rfl⟩
    unfold readLaplacian readDiagDegreeTensor Tensors.laplacian
    simp only [e1]
    rfl
  · intro q
    have h0 : T.ne = 0 := by rw [En.ne, q]; rfl
    by_cases z : h.subNodes c = []
    · rw [arrays_none R K hT ⟨z, q⟩]
      exact ⟨rfl, rfl⟩
    · rw [arrays_some R K hT (.inl z)]
      have e1 : T.diagDegreeTensor = .error .valueError := if_pos h0
      refine ⟨e1, ?_⟩
      unfold readLaplacian readDiagDegreeTensor
      simp only [e1]
      rfl

/-- **C119, entropy.** `Lnorm` and `entropy()` can be computed exactly if the context has at least two edges.  With one edge
both raise `ZeroDivisionError`, without edges `ValueError`, and without edges and nodes `AttributeError`. -/
theorem C119_entropy (R : Reach E h) (K : Context h c) (hT : TensorOf h c T) :
    (2 ≤ (h.subEdges c).length → (∃ N, readNormalized T.arrays = .ok N) ∧ ∃ s, readEntropy T.arrays = .ok s) ∧
    ((h.subEdges c).length = 1 → readNormalized T.arrays = .error .zeroDivision ∧ readEntropy T.arrays = .error .zeroDivision) ∧
    (h.subEdges c = [] → h.subNodes c ≠ [] →
      readNormalized T.arrays = .error .valueError ∧ readEntropy T.arrays = .error .valueError) ∧
    (h.subEdges c = [] → h.subNodes c = [] →
      readNormalized T.arrays = .error .attributeError ∧ readEntropy T.arrays = .error .attributeError) := by
  have En := hT.entries R K
  refine ⟨fun q => ?_, fun q => ?_, fun q z => ?_, fun q z => ?_⟩
  · rw [arrays_some R K hT (.inr fun z => by rw [z] at q; simp at q)]
    have h0 : T.ne ≠ 0 := by rw [En.ne]; omega
    have h1 : T.ne ≠ 1 := by rw [En.ne]; omega
    obtain ⟨L, e1⟩ : ∃ L, T.laplacian = .ok L := by
      unfold Tensors.laplacian Tensors.diagDegreeTensor
      rw [if_neg h0]
      exact ⟨_, rfl⟩
    obtain ⟨N, e2⟩ : ∃ N, T.normalizedLaplacian = .ok N := by
      unfold Tensors.normalizedLaplacian
      rw [if_neg h1, e1]
      exact ⟨_, rfl⟩
    refine ⟨⟨_, e2⟩, ?_⟩
    unfold readEntropy readNormalized Tensors.entropy Tensors.entropyVector
    simp only [e2]
    exact ⟨_, rfl⟩
  · rw [arrays_some R K hT (.inr fun z => by rw [z] at q; simp at q)]
    have h1 : T.ne = 1 := by rw [En.ne]; exact q
    have e2 : T.normalizedLaplacian = .error .zeroDivision := if_pos h1
    refine ⟨e2, ?_⟩
    unfold readEntropy readNormalized
    simp only [e2]
    rfl
  · rw [arrays_some R K hT (.inl z)]
    have h0 : T.ne = 0 := by rw [En.ne, q]; rfl
    have e1 : T.laplacian = .error .valueError := by
      unfold Tensors.laplacian Tensors.diagDegreeTensor
      rw [if_pos h0]
      rfl
    have e2 : T.normalizedLaplacian = .error .valueError := by
      unfold Tensors.normalizedLaplacian
      rw [if_neg (by omega), e1]
      rfl
    refine ⟨e2, ?_⟩
    unfold readEntropy readNormalized
    simp only [e2]
    rfl
  · rw [arrays_none R K hT ⟨z, q⟩]
    exact ⟨rfl, rfl⟩

/-- **C119, projected entropy.** Without nodes and edges `entropy_projected()` raises `TypeError`; with edges but without nodes
it is 0; with nodes it raises `LinAlgError` exactly if the total degree is 0, and otherwise gives a number or NaN. -/
theorem C119_projected (R : Reach E h) (K : Context h c) (hT : TensorOf h c T) :
    (h.subNodes c = [] → h.subEdges c = [] → readEntropyProjected T.arrays = .error .typeError) ∧
    (h.subNodes c = [] → h.subEdges c ≠ [] → readEntropyProjected T.arrays = .ok (.value 0)) ∧
    (h.subNodes c ≠ [] → (readEntropyProjected T.arrays = .ok .linAlgError ↔ T.totalDegree = 0) ∧
      (T.totalDegree ≠ 0 → readEntropyProjected T.arrays = .ok .nan ∨ ∃ s, readEntropyProjected T.arrays = .ok (.value s))) := by
  have En := hT.entries R K
  refine ⟨fun a b => ?_, fun a b => ?_, fun a => ?_⟩
  · rw [arrays_none R K hT ⟨a, b⟩]; rfl
  · rw [arrays_some R K hT (.inr b)]
    have h0 : T.nn = 0 := by rw [En.nn, a]; rfl
    show Except.ok T.entropyProjected = _
    unfold Tensors.entropyProjected
    rw [if_neg fun z => z.1 h0]
    have : T.projectedMatrix.charpoly = 1 := by
      haveI : IsEmpty (Fin T.nn) := by rw [h0]; exact Fin.isEmpty
      exact Matrix.det_isEmpty
    simp [this]
  · rw [arrays_some R K hT (.inl a)]
    have h0 : T.nn ≠ 0 := by rw [En.nn]; exact fun z => a (List.length_eq_zero_iff.1 z)
    have e : readEntropyProjected (some T) = .ok T.entropyProjected := rfl
    rw [e]
    unfold Tensors.entropyProjected
    constructor
    · constructor
      · intro z
        by_contra q
        rw [if_neg fun z => q z.2] at z
        simp only [] at z
        split at z
        · cases z
        · cases z
      · intro z
        rw [if_pos ⟨h0, z⟩]
    · intro q
      rw [if_neg fun z => q z.2]
      simp only []
      split
      · exact .inl rfl
      · exact .inr ⟨_, rfl⟩

/-- **C119, undirected.** For undirected, unweighted edges without loops, `LinAlgError` means that there are nodes, but no
edge has an endpoint. -/
theorem C119_linAlgError (R : Reach E h) (K : Context h c) (hw : Unweighted h c) (hd : Undirected h c) (hl : NoLoops h c)
    (hT : TensorOf h c T) : readEntropyProjected T.arrays = .ok .linAlgError ↔
      h.subNodes c ≠ [] ∧ ∀ x ∈ h.subEdges c, h.inducedSubset x = [] := by
  obtain ⟨a, b, d⟩ := C119_projected R K hT
  have key : (∀ x ∈ h.subEdges c, edgeSize h c x = 0) ↔ ∀ x ∈ h.subEdges c, h.inducedSubset x = [] := by
    refine forall₂_congr fun x hx => ?_
    unfold edgeSize
    rw [List.length_eq_zero_iff, List.filter_eq_nil_iff]
    constructor
    · intro q
      rw [List.eq_nil_iff_forall_not_mem]
      intro o ho
      obtain ⟨r, hr, rfl⟩ := List.mem_map.1 ho
      obtain ⟨v, hv, e⟩ := K.closed r ⟨x, hx, hr⟩
      exact q v hv (by simpa using ⟨r, hr, e⟩)
    · rintro q v hv k
      obtain ⟨r, hr, e⟩ := of_decide_eq_true k
      have : (h.get r).endpoint ∈ h.inducedSubset x := List.mem_map_of_mem hr
      rw [q] at this
      cases this
  by_cases hn : h.subNodes c = []
  · constructor
    · intro z
      by_cases he : h.subEdges c = []
      · rw [a hn he] at z; cases z
      · rw [b hn he] at z; cases z
    · exact fun z => absurd hn z.1
  · rw [(d hn).1, totalDegree_eq_zero R K hw hd hl hT, key]
    exact ⟨fun z => ⟨hn, z⟩, fun z => z.2⟩

end

namespace Sample

/-- A context with two nodes and one edge between them: degrees and Laplacian can be read, the entropy cannot, and the
projected entropy is NaN. -/
example : ∃ T, TensorOf u6 0 T ∧ readDegree T.arrays = .ok T.degree ∧ (∃ L, readLaplacian T.arrays = .ok L) ∧
    readEntropy T.arrays = .error .zeroDivision ∧ readEntropyProjected T.arrays = .ok .nan := by
  obtain ⟨T, hT⟩ := C34_converts reach_u6 context_u6
  have l : (u6.subEdges 0).length = 1 := by decide +kernel
  obtain ⟨D, L, -, e, -⟩ := (C119_laplacian reach_u6 context_u6 hT).1 (by decide +kernel)
  refine ⟨T, hT, ((C119_degrees reach_u6 context_u6 hT).1 (.inl (by decide +kernel))).1, ⟨L, e⟩,
    ((C119_entropy reach_u6 context_u6 hT).2.1 l).2, ?_⟩
  have n := C88_ordinary_refuted reach_u6 context_u6 unweighted_u6 undirected_u6 noLoops_u6 hT ordinary_u6 (by decide +kernel)
  have := (C119_projected reach_u6 context_u6 hT).2.2 (by decide +kernel)
  have h0 : T.totalDegree ≠ 0 := by
    rw [Ne, totalDegree_eq_zero reach_u6 context_u6 unweighted_u6 undirected_u6 noLoops_u6 hT]
    decide +kernel
  rcases this.2 h0 with k | ⟨s, k⟩
  · exact k
  · exfalso
    refine n ⟨s, ?_⟩
    have en : T.arrays = some T := if_neg fun z => by
      have := (hT.entries reach_u6 context_u6).ne
      rw [l] at this
      omega
    rw [en] at k
    exact Except.ok.inj k

/-- A context with nothing in it. -/
example : ∃ T, TensorOf g1 0 T ∧ readDegree T.arrays = .error .typeError ∧ readEntropy T.arrays = .error .attributeError := by
  have K : Context g1 0 := ⟨by decide +kernel, forall_relationIn (by decide +kernel), (show Unweighted g1 0 from
    forall_relationIn (by decide +kernel)).valueWeights⟩
  obtain ⟨T, hT⟩ := C34_converts reach1 K
  exact ⟨T, hT, ((C119_degrees reach1 K hT).2 ⟨by decide +kernel, by decide +kernel⟩).1,
    ((C119_entropy reach1 K hT).2.2.2 (by decide +kernel) (by decide +kernel)).2⟩

end Sample

end Rei
