import Verif.Model.Entropy
import Verif.Props.Tensor

/-!
# The entropy of a context (C83)
-/
namespace Rei

/-- The contribution of a share `p` to an entropy. -/
noncomputable def surprise (p : ℝ) : ℝ := p * Real.logb 2 (1 / p)

/-- The share of node `v` in edge `x`: half the number of the other endpoints, divided by the number of other edges and
the root of the number of edges at `v`, plus one. -/
noncomputable def share (h : Heap) (c x v : Ref) : ℝ :=
  ((edgeSize h c x : ℝ) - 1) / 2 / (((h.subEdges c).length : ℝ) - 1) / Real.sqrt ((edgesAt h c v : ℝ) + 1)

theorem surprise_nonneg {p : ℝ} (h0 : 0 ≤ p) (h1 : p ≤ 1) : 0 ≤ surprise p := by
  unfold surprise
  rcases h0.eq_or_lt with rfl | h0
  · simp
  · refine mul_nonneg h0.le (Real.logb_nonneg (by norm_num) ?_)
    rw [le_div_iff₀ h0]; linarith

theorem surprise_neg {p : ℝ} (h1 : 1 < p) : surprise p < 0 := by
  unfold surprise
  have h0 : 0 < p := by linarith
  refine mul_neg_of_pos_of_neg h0 (Real.logb_neg (by norm_num) (by positivity) ?_)
  rw [div_lt_one h0]; exact h1

theorem term_eq {p : ℝ} (h0 : 0 < p) : -p * finiteLog2 p = surprise p := by
  unfold finiteLog2 surprise
  rw [if_neg (by linarith), one_div, Real.logb_inv]
  ring

theorem sum_list {l : List Ref} {f : Nat → ℝ} {g : Ref → ℝ} (hfg : ∀ i x, l[i]? = some x → f i = g x) :
    ((List.range l.length).map f).sum = (l.map g).sum := by
  congr 1
  apply List.ext_getElem
  · simp
  · intro i h1 h2
    simp only [List.getElem_map, List.getElem_range]
    exact hfg i _ (List.getElem?_eq_getElem (by simpa using h2))

theorem sum_if {l : List Ref} {P : Ref → Prop} [DecidablePred P] {g : Ref → ℝ} :
    (l.map fun x => if P x then g x else 0).sum = ((l.filter fun x => P x).map g).sum := by
  induction l with
  | nil => rfl
  | cons x l ih =>
    rw [List.map_cons, List.sum_cons, ih]
    by_cases p : P x
    · simp [p]
    · simp [p]

section
variable {E : Env} {h : Heap} {c : Ref} {T : Tensors}

theorem laplacian_ok (he : T.ne ≠ 0) : ∃ L, T.laplacian = .ok L := by
  unfold Tensors.laplacian Tensors.diagDegreeTensor
  rw [if_neg he]
  exact ⟨_, rfl⟩

theorem edgeSize_two (hl : NoLoops h c) (K : Context h c) {x v : Ref} (hx : x ∈ h.subEdges c) (hv : v ∈ h.subNodes c)
    (p : Endpoint h x v) : 2 ≤ edgeSize h c x := by
  obtain ⟨u, hne, hu⟩ := hl x hx v p
  have hu' : u ∈ h.subNodes c := by
    obtain ⟨r, hr, e⟩ := hu
    obtain ⟨u', hu', e'⟩ := K.closed r ⟨x, hx, hr⟩
    rw [e] at e'
    cases e'
    exact hu'
  unfold edgeSize
  have a : v ∈ (h.subNodes c).filter fun v => Endpoint h x v := List.mem_filter.2 ⟨hv, by simpa using p⟩
  have b : u ∈ (h.subNodes c).filter fun v => Endpoint h x v := List.mem_filter.2 ⟨hu', by simpa using hu⟩
  match hm : (h.subNodes c).filter fun v => Endpoint h x v with
  | [] => rw [hm] at a; cases a
  | [z] =>
    rw [hm] at a b
    simp only [List.mem_singleton] at a b
    exact absurd (b.trans a.symm) hne
  | _ :: _ :: _ => simp

theorem share_pos (hl : NoLoops h c) (K : Context h c) (h2 : 2 ≤ (h.subEdges c).length) {x v : Ref}
    (hx : x ∈ h.subEdges c) (hv : v ∈ h.subNodes c) (p : Endpoint h x v) : 0 < share h c x v := by
  have a : (2 : ℝ) ≤ (edgeSize h c x : ℝ) := by exact_mod_cast edgeSize_two hl K hx hv p
  have b : (2 : ℝ) ≤ ((h.subEdges c).length : ℝ) := by exact_mod_cast h2
  unfold share
  have d : (0 : ℝ) ≤ (edgesAt h c v : ℝ) := by positivity
  refine div_pos (div_pos (by linarith) (by linarith)) (Real.sqrt_pos.2 (by linarith))

/-- **C83, what is computed.** In an undirected, unweighted context with at least two edges (each with no or at least two
endpoints) the entropy is the sum of the surprises of all shares of nodes in edges. -/
theorem C83_entropy_partial (R : Reach E h) (K : Context h c) (hw : Unweighted h c) (hd : Undirected h c)
    (hl : NoLoops h c) (hT : TensorOf h c T) (h2 : 2 ≤ (h.subEdges c).length) :
    T.entropy = .ok ((h.subEdges c).map fun x =>
      (((h.subNodes c).filter fun v => Endpoint h x v).map fun v => surprise (share h c x v)).sum).sum := by
  have En := hT.entries R K
  have hne : T.ne = (h.subEdges c).length := En.ne
  obtain ⟨L, hL⟩ := laplacian_ok (T := T) (by omega)
  unfold Tensors.entropy Tensors.entropyVector Tensors.normalizedLaplacian
  rw [if_neg (by omega), hL]
  show Except.ok _ = _
  congr 1
  rw [hne, En.nn]
  apply sum_list
  intro e x hx
  rw [← sum_if]
  apply sum_list
  intro i v hv
  simp only []
  rw [laplacian_diag R K hw hd hT hL hx hv, degree_eq R K hw hd hl hT hv]
  have hxm := List.mem_of_getElem? hx
  have hvm := List.mem_of_getElem? hv
  by_cases p : Endpoint h x v
  · rw [if_pos p, if_pos p, ← term_eq (share_pos hl K h2 hxm hvm p)]
    have : 1 / (((h.subEdges c).length : ℝ) - 1) * ((((edgeSize h c x : ℚ) - 1) / 2 : ℚ) : ℝ) /
        Real.sqrt (((edgesAt h c v : ℚ) : ℝ) + 1) = share h c x v := by
      unfold share
      push_cast
      ring
    rw [this]
  · rw [if_neg p, if_neg p]
    simp

/-- **C83, never negative.** It is not negative if no edge has more endpoints than twice the number of edges, minus
one. -/
theorem C83_nonneg_partial (R : Reach E h) (K : Context h c) (hw : Unweighted h c) (hd : Undirected h c)
    (hl : NoLoops h c) (hT : TensorOf h c T) (h2 : 2 ≤ (h.subEdges c).length)
    (hs : ∀ x ∈ h.subEdges c, edgeSize h c x + 1 ≤ 2 * (h.subEdges c).length) :
    ∃ s, T.entropy = .ok s ∧ 0 ≤ s := by
  refine ⟨_, C83_entropy_partial R K hw hd hl hT h2, List.sum_nonneg ?_⟩
  intro s hm
  obtain ⟨x, hx, rfl⟩ := List.mem_map.1 hm
  refine List.sum_nonneg fun s hm => ?_
  obtain ⟨v, hv, rfl⟩ := List.mem_map.1 hm
  obtain ⟨hv, p⟩ := List.mem_filter.1 hv
  have p : Endpoint h x v := of_decide_eq_true p
  refine surprise_nonneg (share_pos hl K h2 hx hv p).le ?_
  have a : (edgeSize h c x : ℝ) + 1 ≤ 2 * ((h.subEdges c).length : ℝ) := by exact_mod_cast hs x hx
  have b : (2 : ℝ) ≤ ((h.subEdges c).length : ℝ) := by exact_mod_cast h2
  have d : (0 : ℝ) ≤ (edgesAt h c v : ℝ) := by positivity
  have r : 1 ≤ Real.sqrt ((edgesAt h c v : ℝ) + 1) := by
    rw [Real.one_le_sqrt]; linarith
  unfold share
  rw [div_le_one (by linarith), div_le_iff₀ (by linarith)]
  nlinarith

/-- **C83 refuted, single edges.** The entropy of a context with exactly one edge cannot be computed at all. -/
theorem C83_single_edge_refuted (R : Reach E h) (K : Context h c) (hT : TensorOf h c T)
    (h1 : (h.subEdges c).length = 1) : T.entropy = .error .zeroDivision ∧ T.normalizedLaplacian = .error .zeroDivision := by
  have hne : T.ne = 1 := by rw [(hT.entries R K).ne]; exact h1
  have : T.normalizedLaplacian = .error .zeroDivision := by
    unfold Tensors.normalizedLaplacian; rw [if_pos hne]
  refine ⟨?_, this⟩
  unfold Tensors.entropy Tensors.entropyVector
  rw [this]
  rfl

theorem surprise_le {p : ℝ} (h0 : 0 < p) : surprise p ≤ 1 / (Real.exp 1 * Real.log 2) := by
  have e : 0 < Real.exp 1 := Real.exp_pos 1
  have l2 : 0 < Real.log 2 := Real.log_pos (by norm_num)
  have k := Real.log_le_sub_one_of_pos (x := 1 / (Real.exp 1 * p)) (by positivity)
  rw [Real.log_div one_ne_zero (by positivity), Real.log_one, Real.log_mul e.ne' h0.ne', Real.log_exp] at k
  have k' : -Real.log p ≤ 1 / (Real.exp 1 * p) := by linarith
  have k2 := mul_le_mul_of_nonneg_left k' h0.le
  have : p * (1 / (Real.exp 1 * p)) = 1 / Real.exp 1 := by field_simp
  rw [this] at k2
  unfold surprise
  rw [one_div p, Real.logb_inv, Real.logb, ← div_div, le_div_iff₀ l2]
  have : p * -(Real.log p / Real.log 2) * Real.log 2 = p * -Real.log p := by field_simp
  rw [this]
  exact k2

theorem sum_le_bound {l : List ℝ} {b : ℝ} (hl : ∀ x ∈ l, x ≤ b) : l.sum ≤ l.length * b := by
  induction l with
  | nil => simp
  | cons x l ih =>
    have a := hl x (by simp)
    have c := ih fun y hy => hl y (by simp [hy])
    rw [List.sum_cons, List.length_cons]
    push_cast
    linarith

/-- **C83, never large.** Whatever the directions and weights: if the entropy is computed, it is at most
`1 / (e ln 2) = 0.5307...` for every pair of an edge and a node.  (Degrees of -1 and below, which negative weights may give,
are left out: there the code divides by 0 or takes the root of a negative number, which is not modelled.) -/
theorem C83_upper (R : Reach E h) (K : Context h c) (hT : TensorOf h c T) (_hd : ∀ j < T.nn, -1 < T.degree j) {s : ℝ}
    (hs : T.entropy = .ok s) :
    s ≤ (h.subEdges c).length * ((h.subNodes c).length * (1 / (Real.exp 1 * Real.log 2))) := by
  have En := hT.entries R K
  have b0 : 0 < 1 / (Real.exp 1 * Real.log 2) := by
    have l2 : 0 < Real.log 2 := Real.log_pos (by norm_num)
    positivity
  rw [← En.ne, ← En.nn]
  unfold Tensors.entropy at hs
  cases hV : T.entropyVector with
  | error e => rw [hV] at hs; cases hs
  | ok V =>
    rw [hV] at hs
    have hs : ((List.range T.ne).map fun e => ((List.range T.nn).map fun i => V e i).sum).sum = s := by
      injection hs
    have hb : ∀ e i, V e i ≤ 1 / (Real.exp 1 * Real.log 2) := by
      intro e i
      unfold Tensors.entropyVector at hV
      cases hN : T.normalizedLaplacian with
      | error e => rw [hN] at hV; cases hV
      | ok N =>
        rw [hN] at hV
        have hV : (fun e i => -(N e i i) * finiteLog2 (N e i i)) = V := by injection hV
        rw [← hV]
        show -(N e i i) * finiteLog2 (N e i i) ≤ _
        rcases le_or_gt (N e i i) 0 with p | p
        · unfold finiteLog2
          rw [if_pos p, mul_zero]
          exact b0.le
        · rw [term_eq p]
          exact surprise_le p
    rw [← hs]
    refine (sum_le_bound (b := T.nn * (1 / (Real.exp 1 * Real.log 2))) ?_).trans (by simp)
    intro y hy
    obtain ⟨e, _, rfl⟩ := List.mem_map.1 hy
    refine (sum_le_bound (b := 1 / (Real.exp 1 * Real.log 2)) ?_).trans (by simp)
    intro z hz
    obtain ⟨i, _, rfl⟩ := List.mem_map.1 hz
    exact hb e i

end

namespace Sample

/-- Four nodes, 1, 2, 4 and 5, joined by the undirected edge 3; the edge 6 is empty. -/
def n5 : Heap := (mkNode ['d'] 14 (some 0)).after E0 g4
/-- See `n5`. -/
def n6 : Heap := (mkNode ['f'] 15 (some 0)).after E0 n5
/-- See `n5`. -/
def n7 : Heap := (mkEdge ['y'] 16 (some 0)).after E0 n6
/-- See `n5`. -/
def n8 : Heap := (Op.unaryConnect 3 1 none .bidirectional none).after E0 n7
/-- See `n5`. -/
def n9 : Heap := (Op.unaryConnect 3 2 none .bidirectional none).after E0 n8
/-- See `n5`. -/
def n10 : Heap := (Op.unaryConnect 3 4 none .bidirectional none).after E0 n9
/-- See `n5`. -/
def n11 : Heap := (Op.unaryConnect 3 5 none .bidirectional none).after E0 n10

theorem reach_n7 : Reach E0 n7 :=
  .step _ (.step _ (.step _ reach4 ⟨rfl, okSome (by decide +kernel)⟩ trivial) ⟨rfl, okSome (by decide +kernel)⟩ trivial)
    ⟨rfl, okSome (by decide +kernel)⟩ trivial
theorem reach_n11 : Reach E0 n11 :=
  .step _ (.step _ (.step _ (.step _ reach_n7 ⟨by decide +kernel, by decide +kernel, okNone, okNone⟩ trivial)
    ⟨by decide +kernel, by decide +kernel, okNone, okNone⟩ trivial) ⟨by decide +kernel, by decide +kernel, okNone, okNone⟩
    trivial) ⟨by decide +kernel, by decide +kernel, okNone, okNone⟩ trivial

theorem unweighted_n11 : Unweighted n11 0 := forall_relationIn (by decide +kernel)
theorem undirected_n11 : Undirected n11 0 := forall_relationIn (by decide +kernel)
theorem context_n11 : Context n11 0 := ⟨by decide +kernel, forall_relationIn (by decide +kernel), unweighted_n11.valueWeights⟩
theorem edges_n11 : n11.subEdges 0 = [3, 6] := by decide +kernel
theorem nodes_n11 : n11.subNodes 0 = [1, 2, 4, 5] := by decide +kernel
theorem induced_n11 : n11.inducedSubset 3 = [some 1, some 2, some 4, some 5] ∧ n11.inducedSubset 6 = [] := by decide +kernel

theorem noLoops_n11 : NoLoops n11 0 := by
  intro x hx v hv
  rw [edges_n11] at hx
  simp only [List.mem_cons, List.not_mem_nil, or_false] at hx
  rcases hx with rfl | rfl
  · rw [endpoint_mem, induced_n11.1] at hv
    by_cases e : v = 1
    · exact ⟨2, by omega, endpoint_mem.2 (by rw [induced_n11.1]; simp)⟩
    · exact ⟨1, fun q => e q.symm, endpoint_mem.2 (by rw [induced_n11.1]; simp)⟩
  · rw [endpoint_mem, induced_n11.2] at hv; cases hv

end Sample

open Sample in
/-- **C83 refuted, large edges.** The entropy of a context with an edge between four nodes and an empty edge is
negative. -/
theorem C83_negative_refuted : ∃ (E : Env) (h : Heap) (c : Ref) (T : Tensors), Reach E h ∧ Context h c ∧ Unweighted h c ∧
    Undirected h c ∧ NoLoops h c ∧ TensorOf h c T ∧ 2 ≤ (h.subEdges c).length ∧ ∃ s, T.entropy = .ok s ∧ s < 0 := by
  obtain ⟨T, hT⟩ := C34_converts reach_n11 context_n11
  have h2 : 2 ≤ (n11.subEdges 0).length := by rw [edges_n11]; simp
  refine ⟨E0, n11, 0, T, reach_n11, context_n11, unweighted_n11, undirected_n11, noLoops_n11, hT, h2, _,
    C83_entropy_partial reach_n11 context_n11 unweighted_n11 undirected_n11 noLoops_n11 hT h2, ?_⟩
  have f3 : (n11.subNodes 0).filter (fun v => Endpoint n11 3 v) = [1, 2, 4, 5] := by
    rw [nodes_n11]
    have : ∀ v ∈ [1, 2, 4, 5], Endpoint n11 3 v := by
      intro v hv
      rw [endpoint_mem, induced_n11.1]
      simpa using hv
    exact List.filter_eq_self.2 fun v hv => by simpa using this v hv
  have f6 : (n11.subNodes 0).filter (fun v => Endpoint n11 6 v) = [] := by
    rw [List.filter_eq_nil_iff]
    intro v _ q
    have q : Endpoint n11 6 v := of_decide_eq_true q
    rw [endpoint_mem, induced_n11.2] at q
    cases q
  have sz : edgeSize n11 0 3 = 4 := by unfold edgeSize; rw [f3]; rfl
  have neg : ∀ v ∈ [1, 2, 4, 5], surprise (share n11 0 3 v) < 0 := by
    intro v hv
    apply surprise_neg
    have e1 : Endpoint n11 3 v := by
      rw [endpoint_mem, induced_n11.1]; simpa using hv
    have e2 : ¬ Endpoint n11 6 v := by
      rw [endpoint_mem, induced_n11.2]; simp
    have d : edgesAt n11 0 v = 1 := by
      unfold edgesAt
      rw [edges_n11]
      simp [e1, e2]
    unfold share
    rw [sz, d, edges_n11]
    have : Real.sqrt 2 < 3 / 2 := by
      rw [Real.sqrt_lt' (by norm_num)]; norm_num
    rw [lt_div_iff₀ (Real.sqrt_pos.2 (by norm_num))]
    norm_num
    linarith
  have z1 := neg 1 (by simp)
  have z2 := neg 2 (by simp)
  have z3 := neg 4 (by simp)
  have z4 := neg 5 (by simp)
  rw [edges_n11]
  simp only [List.map_cons, List.map_nil, List.sum_cons, List.sum_nil, f3, f6]
  linarith

namespace Sample

theorem reach_n10 : Reach E0 n10 :=
  .step _ (.step _ (.step _ reach_n7 ⟨by decide +kernel, by decide +kernel, okNone, okNone⟩ trivial)
    ⟨by decide +kernel, by decide +kernel, okNone, okNone⟩ trivial) ⟨by decide +kernel, by decide +kernel, okNone, okNone⟩
    trivial

theorem induced_n10 : n10.inducedSubset 3 = [some 1, some 2, some 4] ∧ n10.inducedSubset 6 = [] := by decide +kernel
theorem edges_n10 : n10.subEdges 0 = [3, 6] := by decide +kernel
theorem nodes_n10 : n10.subNodes 0 = [1, 2, 4, 5] := by decide +kernel

theorem noLoops_n10 : NoLoops n10 0 := by
  intro x hx v hv
  rw [edges_n10] at hx
  simp only [List.mem_cons, List.not_mem_nil, or_false] at hx
  rcases hx with rfl | rfl
  · by_cases e : v = 1
    · exact ⟨2, by omega, endpoint_mem.2 (by rw [induced_n10.1]; simp)⟩
    · exact ⟨1, fun q => e q.symm, endpoint_mem.2 (by rw [induced_n10.1]; simp)⟩
  · rw [endpoint_mem, induced_n10.2] at hv; cases hv

/-- `C83_nonneg_partial` applies: an edge between three of four nodes, and an empty edge. -/
example : ∃ T s, TensorOf n10 0 T ∧ T.entropy = .ok s ∧ 0 ≤ s := by
  have K : Context n10 0 := ⟨by decide +kernel, forall_relationIn (by decide +kernel),
    (show Unweighted n10 0 from forall_relationIn (by decide +kernel)).valueWeights⟩
  have hl : NoLoops n10 0 := noLoops_n10
  obtain ⟨T, hT⟩ := C34_converts reach_n10 K
  obtain ⟨s, hs, h0⟩ := C83_nonneg_partial reach_n10 K (forall_relationIn (by decide +kernel))
    (forall_relationIn (by decide +kernel)) hl hT (by rw [edges_n10]; simp) (by
      intro x hx
      rw [edges_n10] at hx ⊢
      simp only [List.mem_cons, List.not_mem_nil, or_false] at hx
      rcases hx with rfl | rfl
      · unfold edgeSize
        rw [nodes_n10]
        simp [endpoint_mem, induced_n10.1]
      · unfold edgeSize
        rw [nodes_n10]
        simp [endpoint_mem, induced_n10.2])
  exact ⟨T, s, hT, hs, h0⟩

/-- `C83_upper` applies to the same context: the entropy is at most 8 times 0.5307. -/
example : ∃ T s, TensorOf n10 0 T ∧ T.entropy = .ok s ∧ s ≤ 2 * (4 * (1 / (Real.exp 1 * Real.log 2))) := by
  have K : Context n10 0 := ⟨by decide +kernel, forall_relationIn (by decide +kernel),
    (show Unweighted n10 0 from forall_relationIn (by decide +kernel)).valueWeights⟩
  have hw : Unweighted n10 0 := forall_relationIn (by decide +kernel)
  have hd : Undirected n10 0 := forall_relationIn (by decide +kernel)
  have hl : NoLoops n10 0 := noLoops_n10
  obtain ⟨T, hT⟩ := C34_converts reach_n10 K
  have En := hT.entries reach_n10 K
  have h2 : T.ne = 2 := by rw [En.ne, edges_n10]; rfl
  obtain ⟨L, hL⟩ := laplacian_ok (T := T) (by omega)
  have hs : ∃ s, T.entropy = .ok s := by
    unfold Tensors.entropy Tensors.entropyVector Tensors.normalizedLaplacian
    rw [if_neg (by omega), hL]
    exact ⟨_, rfl⟩
  obtain ⟨s, hs⟩ := hs
  have hg : ∀ j < T.nn, -1 < T.degree j := by
    intro j hj
    rw [En.nn] at hj
    rw [degree_eq reach_n10 K hw hd hl hT (List.getElem?_eq_getElem hj)]
    have : (0 : ℚ) ≤ (edgesAt n10 0 ((n10.subNodes 0)[j]) : ℚ) := by positivity
    linarith
  have := C83_upper reach_n10 K hT hg hs
  rw [edges_n10, nodes_n10] at this
  exact ⟨T, s, hT, hs, by simpa using this⟩

end Sample

end Rei
