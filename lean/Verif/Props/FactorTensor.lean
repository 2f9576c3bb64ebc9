import Verif.Props.Factorization
import Verif.Props.Isomorphism

/-!
# C110: factorization and weight tensor
-/
namespace Rei

section
variable {E : Env} {h : Heap} {c x v u : Ref} {T : Tensors} {e i j : Nat} {l : List (Ref × Ref)}

/-- An entry is not 0 exactly if some relation of non-zero weight leads from the one node to the other. -/
theorem entry_links (R : Reach E h) (K : Context h c) (hT : TensorOf h c T) (hx : (h.subEdges c)[e]? = some x)
    (hv : (h.subNodes c)[i]? = some v) (hu : (h.subNodes c)[j]? = some u) :
    T.W e i j ≠ 0 ↔ ∃ r ∈ h.subRelations x, Links h x v u r := by
  rcases (hT.entries R K).W e i j x v u hx hv hu with ⟨l1, r, l2, el, P, -, ew⟩ | ⟨n, z⟩
  · rw [ew]
    exact ⟨fun _ => ⟨r, by rw [el]; simp, P⟩, fun _ => P.1⟩
  · rw [z]
    exact ⟨fun q => absurd rfl q, fun ⟨r, hr, P⟩ => absurd P (n r hr)⟩

/-- The pairs of the factorization of a whole context. -/
theorem factorPair_iff (R : Reach E h) (hl : subsetFactor h false (h.subNodes c ++ h.subEdges c) = .ok l)
    (hx : x ∈ h.subEdges c) (hv : v ∈ h.subNodes c) (hu : u ∈ h.subNodes c) :
    FactorPair h l x v u ↔ v ≠ u ∧ InEndpoint h x v ∧ OutEndpoint h x u := by
  have inv := R.good.inv
  have node : ∀ {v}, v ∈ h.subNodes c → (h.get v).kind = .node := fun q => of_decide_eq_true (List.mem_filter.1 q).2
  have edge : (h.get x).kind = .edge := of_decide_eq_true (List.mem_filter.1 hx).2
  have par : ∀ {v}, v ∈ h.subNodes c → (h.get v).parent = some c := fun q =>
    (inv.mem_subelements _ _).1 (List.mem_filter.1 q).1
  obtain ⟨l', el, q⟩ := C43_exact h false (h.subNodes c ++ h.subEdges c)
  rw [hl] at el
  cases el
  constructor
  · rintro ⟨i, o, hm, hi, ho, ei, eo⟩
    obtain ⟨⟨x', -, P⟩, -, -, D⟩ := (q i o).1 hm
    rcases D with ⟨a, b, ea, eb, ne⟩ | D
    · rw [ei] at ea; cases ea
      rw [eo] at eb; cases eb
      exact ⟨fun z => ne (by rw [z]), ⟨i, hi, ei, P.inDir⟩, ⟨o, ho, eo, P.outDir⟩⟩
    · cases D
  · rintro ⟨ne, ⟨i, hi, ei, di⟩, ⟨o, ho, eo, dO⟩⟩
    refine ⟨i, o, (q i o).2 ⟨⟨x, List.mem_append_right _ hx, edge, hi, ho, di, dO⟩,
      ⟨v, List.mem_append_left _ hv, node hv, ei⟩, ⟨u, List.mem_append_left _ hu, node hu, eo⟩, .inl ⟨v, u, ei, eo, ?_⟩⟩, hi, ho, ei, eo⟩
    intro eq
    have a := (inv.get?_subs c (h.get v).uuid v).2 ⟨par hv, rfl⟩
    have b := (inv.get?_subs c (h.get v).uuid u).2 ⟨par hu, eq.symm⟩
    rw [a] at b
    exact ne (Option.some.inj b)

/-- The factorization of a whole context always works. -/
theorem C110_factors (h : Heap) (c : Ref) : ∃ l, subsetFactor h false (h.subNodes c ++ h.subEdges c) = .ok l := by
  obtain ⟨l, e, -⟩ := C43_exact h false (h.subNodes c ++ h.subEdges c)
  exact ⟨l, e⟩

/-- **C110, from pairs to entries.** Where no weight is 0, the pairs of the factorization are entries of the weight tensor
that are not 0. -/
theorem C110_pairs_partial (R : Reach E h) (K : Context h c) (hT : TensorOf h c T)
    (hl : subsetFactor h false (h.subNodes c ++ h.subEdges c) = .ok l)
    (hx : (h.subEdges c)[e]? = some x) (hv : (h.subNodes c)[i]? = some v) (hu : (h.subNodes c)[j]? = some u)
    (hw : ∀ r ∈ h.subRelations x, weightOf h r ≠ 0) (P : FactorPair h l x v u) : T.W e i j ≠ 0 := by
  obtain ⟨ne, ⟨r, hr, er, dr⟩, ⟨o, ho, eo, -⟩⟩ := (factorPair_iff R hl (List.mem_of_getElem? hx) (List.mem_of_getElem? hv)
    (List.mem_of_getElem? hu)).1 P
  exact (entry_links R K hT hx hv hu).2 ⟨r, hr, hw r hr, ne, ⟨r, hr, er⟩, ⟨o, ho, eo⟩, .inl ⟨er, dr⟩⟩

/-- **C110, where they agree.** Where no weight is 0, and the edge leads in at `v` exactly if it leads out at `u`, there is a
pair exactly if the entry is not 0. -/
theorem C110_agree_partial (R : Reach E h) (K : Context h c) (hT : TensorOf h c T)
    (hl : subsetFactor h false (h.subNodes c ++ h.subEdges c) = .ok l)
    (hx : (h.subEdges c)[e]? = some x) (hv : (h.subNodes c)[i]? = some v) (hu : (h.subNodes c)[j]? = some u)
    (hw : ∀ r ∈ h.subRelations x, weightOf h r ≠ 0) (same : InEndpoint h x v ↔ OutEndpoint h x u) :
    FactorPair h l x v u ↔ T.W e i j ≠ 0 := by
  refine ⟨C110_pairs_partial R K hT hl hx hv hu hw, fun q => ?_⟩
  obtain ⟨r, hr, -, ne, -, -, d⟩ := (entry_links R K hT hx hv hu).1 q
  rw [factorPair_iff R hl (List.mem_of_getElem? hx) (List.mem_of_getElem? hv) (List.mem_of_getElem? hu)]
  rcases d with ⟨a, b⟩ | ⟨a, b⟩
  · have : InEndpoint h x v := ⟨r, hr, a, b⟩
    exact ⟨ne, this, same.1 this⟩
  · have : OutEndpoint h x u := ⟨r, hr, a, b⟩
    exact ⟨ne, same.2 this, this⟩

/-- C110 for undirected edges: both always agree. -/
theorem C110_undirected_partial (R : Reach E h) (K : Context h c) (hT : TensorOf h c T)
    (hl : subsetFactor h false (h.subNodes c ++ h.subEdges c) = .ok l)
    (hx : (h.subEdges c)[e]? = some x) (hv : (h.subNodes c)[i]? = some v) (hu : (h.subNodes c)[j]? = some u)
    (hw : ∀ r ∈ h.subRelations x, weightOf h r ≠ 0)
    (hd : ∀ r ∈ h.subRelations x, (h.get r).direction = .bidirectional) :
    FactorPair h l x v u ↔ T.W e i j ≠ 0 := by
  refine ⟨C110_pairs_partial R K hT hl hx hv hu hw, fun q => ?_⟩
  obtain ⟨r, hr, -, ne, ⟨p, hp, ep⟩, ⟨o, ho, eo⟩, -⟩ := (entry_links R K hT hx hv hu).1 q
  rw [factorPair_iff R hl (List.mem_of_getElem? hx) (List.mem_of_getElem? hv) (List.mem_of_getElem? hu)]
  exact ⟨ne, ⟨p, hp, ep, .inr (hd p hp)⟩, ⟨o, ho, eo, .inr (hd o ho)⟩⟩

/-- C110 for edges with one incoming and one outgoing end (as in `C35_binary_partial`). -/
theorem C110_binary_partial (R : Reach E h) (K : Context h c) (hT : TensorOf h c T)
    (hl : subsetFactor h false (h.subNodes c ++ h.subEdges c) = .ok l)
    (hx : (h.subEdges c)[e]? = some x) (hv : (h.subNodes c)[i]? = some v) (hu : (h.subNodes c)[j]? = some u)
    (hw : ∀ r ∈ h.subRelations x, weightOf h r ≠ 0) (hB : BinaryDirected h x) :
    FactorPair h l x v u ↔ T.W e i j ≠ 0 := by
  refine ⟨C110_pairs_partial R K hT hl hx hv hu hw, fun q => ?_⟩
  obtain ⟨r, hr, -, ne, ev, eu, d⟩ := (entry_links R K hT hx hv hu).1 q
  rw [factorPair_iff R hl (List.mem_of_getElem? hx) (List.mem_of_getElem? hv) (List.mem_of_getElem? hu)]
  rcases d with ⟨a, b⟩ | ⟨a, b⟩
  · have q : InEndpoint h x v := ⟨r, hr, a, b⟩
    exact ⟨ne, q, (endpoint_dir eu).resolve_left fun q' => ne (hB.oneIn v u q q')⟩
  · have q : OutEndpoint h x u := ⟨r, hr, a, b⟩
    exact ⟨ne, (endpoint_dir ev).resolve_right fun q' => ne (hB.oneOut v u q' q), q⟩

/-- **C110 is false of edges with several ends of one direction.** Whenever an edge has two ends, no weight is 0, and the
edge leads in at `v` or out at `u` but not both, the entry is not 0 and the factorization has no pair. -/
theorem C110_one_sided_refuted (R : Reach E h) (K : Context h c) (hT : TensorOf h c T)
    (hl : subsetFactor h false (h.subNodes c ++ h.subEdges c) = .ok l)
    (hx : (h.subEdges c)[e]? = some x) (hv : (h.subNodes c)[i]? = some v) (hu : (h.subNodes c)[j]? = some u)
    (hw : ∀ r ∈ h.subRelations x, weightOf h r ≠ 0) (ne : v ≠ u) (ev : Endpoint h x v) (eu : Endpoint h x u)
    (d : InEndpoint h x v ↔ ¬ OutEndpoint h x u) : T.W e i j ≠ 0 ∧ ¬ FactorPair h l x v u := by
  rw [entry_links R K hT hx hv hu,
    factorPair_iff R hl (List.mem_of_getElem? hx) (List.mem_of_getElem? hv) (List.mem_of_getElem? hu)]
  refine ⟨?_, fun ⟨_, a, b⟩ => d.1 a b⟩
  by_cases q : OutEndpoint h x u
  · obtain ⟨r, hr, a, b⟩ := q
    exact ⟨r, hr, hw r hr, ne, ev, eu, .inr ⟨a, b⟩⟩
  · obtain ⟨r, hr, a, b⟩ := d.2 q
    exact ⟨r, hr, hw r hr, ne, ev, eu, .inl ⟨a, b⟩⟩

/-- **C110 is false of weights that are 0.** Where an edge leads from `v` to `u`, and the relations to both have weight 0, the
entry is 0 and the factorization has a pair. -/
theorem C110_zero_refuted (R : Reach E h) (K : Context h c) (hT : TensorOf h c T)
    (hl : subsetFactor h false (h.subNodes c ++ h.subEdges c) = .ok l)
    (hx : (h.subEdges c)[e]? = some x) (hv : (h.subNodes c)[i]? = some v) (hu : (h.subNodes c)[j]? = some u)
    (ne : v ≠ u) (iv : InEndpoint h x v) (ou : OutEndpoint h x u)
    (hw : ∀ r ∈ h.subRelations x, (h.get r).endpoint = some v ∨ (h.get r).endpoint = some u → weightOf h r = 0) :
    T.W e i j = 0 ∧ FactorPair h l x v u := by
  refine ⟨?_, (factorPair_iff R hl (List.mem_of_getElem? hx) (List.mem_of_getElem? hv) (List.mem_of_getElem? hu)).2 ⟨ne, iv, ou⟩⟩
  by_contra q
  obtain ⟨r, hr, w, -, -, -, d⟩ := (entry_links R K hT hx hv hu).1 q
  rcases d with ⟨a, -⟩ | ⟨a, -⟩
  · exact w (hw r hr (.inl a))
  · exact w (hw r hr (.inr a))

end

/-! ## Cases -/

namespace Sample

/-- An edge with two relations of weight 0. -/
def zw : Heap := (Op.unaryConnect 3 2 (some 5) .bidirectional none).after E0
  ((Op.unaryConnect 3 1 (some 4) .bidirectional none).after E0
  ((Op.mkValue [10] ['y'] (.str ['y']) (some [0])).after E0 ((Op.mkValue [9] ['x'] (.str ['x']) (some [2, -2])).after E0 g4)))
theorem reach_zw : Reach E0 zw :=
  .step _ (.step _ (.step _ (.step _ reach4 trivial trivial) trivial trivial)
    ⟨by decide +kernel, by decide +kernel, okSome (by decide +kernel), okNone⟩ trivial)
    ⟨by decide +kernel, by decide +kernel, okSome (by decide +kernel), okNone⟩ trivial
theorem context_zw : Context zw 0 := context_of (by decide +kernel) (by decide +kernel) (by decide +kernel)

/-- C110 at an undirected edge, with weights: the pair is there, and the entry is not 0. -/
example : ∃ T l, TensorOf wa 0 T ∧ subsetFactor wa false (wa.subNodes 0 ++ wa.subEdges 0) = .ok l ∧
    (FactorPair wa l 3 1 2 ↔ T.W 0 0 1 ≠ 0) ∧ FactorPair wa l 3 1 2 := by
  obtain ⟨T, hT⟩ := C34_converts reach_wa context_wa
  obtain ⟨l, hl⟩ := C110_factors wa 0
  have a : FactorPair wa l 3 1 2 := (factorPair_iff reach_wa hl (by decide +kernel) (by decide +kernel) (by decide +kernel)).2
    ⟨by decide, by decide +kernel, by decide +kernel⟩
  exact ⟨T, l, hT, hl, C110_undirected_partial reach_wa context_wa hT hl (by decide +kernel) (by decide +kernel)
    (by decide +kernel) (by decide +kernel) (by decide +kernel), a⟩

/-- C110 fails at an edge with two incoming ends. -/
example : ∃ T l, TensorOf w6 0 T ∧ subsetFactor w6 false (w6.subNodes 0 ++ w6.subEdges 0) = .ok l ∧
    T.W 0 0 1 ≠ 0 ∧ ¬ FactorPair w6 l 3 1 2 := by
  obtain ⟨T, hT⟩ := C34_converts reach_w6 context_w6
  obtain ⟨l, hl⟩ := C110_factors w6 0
  exact ⟨T, l, hT, hl, C110_one_sided_refuted reach_w6 context_w6 hT hl (by decide +kernel) (by decide +kernel)
    (by decide +kernel) (by decide +kernel) (by decide) (by decide +kernel) (by decide +kernel) (by decide +kernel)⟩

/-- C110 fails at weights that cancel. -/
example : ∃ T l, TensorOf zw 0 T ∧ subsetFactor zw false (zw.subNodes 0 ++ zw.subEdges 0) = .ok l ∧
    T.W 0 0 1 = 0 ∧ FactorPair zw l 3 1 2 := by
  obtain ⟨T, hT⟩ := C34_converts reach_zw context_zw
  obtain ⟨l, hl⟩ := C110_factors zw 0
  exact ⟨T, l, hT, hl, C110_zero_refuted reach_zw context_zw hT hl (by decide +kernel) (by decide +kernel)
    (by decide +kernel) (by decide) (by decide +kernel) (by decide +kernel) (by decide +kernel)⟩

end Sample

end Rei
