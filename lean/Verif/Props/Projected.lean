import Verif.Props.Entropy

/-!
# The projected Laplacian and its entropy (C87, C88)
-/
namespace Rei
open Finset

/-- The indices of the endpoints of the edge with index `e`. -/
def members (h : Heap) (c : Ref) (e : Nat) : Finset Nat :=
  (range (h.subNodes c).length).filter fun i =>
    ∃ x ∈ (h.subEdges c)[e]?, ∃ v ∈ (h.subNodes c)[i]?, Endpoint h x v

/-- The quadratic form of the projected Laplacian. -/
def Tensors.projectedForm (T : Tensors) (x : Nat → ℝ) : ℝ :=
  ∑ i ∈ range T.nn, ∑ j ∈ range T.nn, x i * (T.projectedLaplacian i j : ℝ) * x j

/-- Every edge of the context has at most two endpoints. -/
def Ordinary (h : Heap) (c : Ref) : Prop := ∀ x ∈ h.subEdges c, edgeSize h c x ≤ 2

theorem sumTo_sum (n : Nat) (f : Nat → Rat) : sumTo n f = ∑ i ∈ range n, f i := by
  unfold sumTo
  induction n with
  | zero => rfl
  | succ n ih => rw [List.range_succ, List.map_append, List.sum_append, ih, sum_range_succ]; simp

section
variable {E : Env} {h : Heap} {c : Ref} {T : Tensors}

theorem mem_members {e i : Nat} {x v : Ref} (hx : (h.subEdges c)[e]? = some x) (hv : (h.subNodes c)[i]? = some v) :
    i ∈ members h c e ↔ Endpoint h x v := by
  unfold members
  rw [mem_filter, mem_range]
  constructor
  · rintro ⟨-, x', hx', v', hv', q⟩
    rw [hx] at hx'; rw [hv] at hv'
    cases hx'; cases hv'
    exact q
  · intro q
    exact ⟨(List.getElem?_eq_some_iff.1 hv).1, x, hx, v, hv, q⟩

theorem card_members {e : Nat} {x : Ref} (hx : (h.subEdges c)[e]? = some x) : (members h c e).card = edgeSize h c x := by
  have e1 : members h c e = (range (h.subNodes c).length).filter fun i => ∃ v ∈ (h.subNodes c)[i]?, Endpoint h x v := by
    unfold members
    apply filter_congr
    intro i _
    rw [hx]
    simp
  rw [e1]
  unfold edgeSize
  generalize h.subNodes c = l
  induction l using List.reverseRecOn with
  | nil => rfl
  | append_singleton l a ih =>
    rw [List.length_append, List.length_singleton, range_add_one, filter_insert, List.filter_append, List.length_append, ← ih]
    have e2 : (range l.length).filter (fun i => ∃ v ∈ (l ++ [a])[i]?, Endpoint h x v) =
        (range l.length).filter (fun i => ∃ v ∈ l[i]?, Endpoint h x v) := by
      apply filter_congr
      intro i hi
      rw [List.getElem?_append_left (mem_range.1 hi)]
    rw [e2]
    by_cases q : Endpoint h x a
    · rw [if_pos ⟨a, by simp, q⟩, card_insert_of_notMem (by simp), List.filter_singleton]
      simp [q]
    · rw [if_neg (by simpa using q), List.filter_singleton]
      simp [q]

/-- What an edge adds to an entry of the projected Laplacian. -/
def edgeTerm (M : Finset Nat) (i j : Nat) : ℝ := if i ∈ M ∧ j ∈ M then (if i = j then 1 else -1) else 0

theorem edge_entry (R : Reach E h) (K : Context h c) (hw : Unweighted h c) (hd : Undirected h c)
    (hT : TensorOf h c T) {e i j : Nat} (he : e < T.ne) (hi : i < T.nn) (hj : j < T.nn) :
    T.W e i j = if i ≠ j ∧ i ∈ members h c e ∧ j ∈ members h c e then 1 else 0 := by
  have En := hT.entries R K
  rw [En.ne] at he
  rw [En.nn] at hi hj
  have hx := List.getElem?_eq_getElem he
  have hv := List.getElem?_eq_getElem hi
  have hu := List.getElem?_eq_getElem hj
  obtain ⟨a, b, -, -⟩ := C34_undirected R K hw hd hT hx hv hu
  have ne : (h.subNodes c)[i] ≠ (h.subNodes c)[j] ↔ i ≠ j := by
    have nd : (h.subNodes c).Nodup := (C01_containment_agrees R c).2.filter _
    rw [Ne, nd.getElem_inj_iff]
  by_cases q : i ≠ j ∧ i ∈ members h c e ∧ j ∈ members h c e
  · rw [if_pos q]
    exact a ⟨ne.2 q.1, (mem_members hx hv).1 q.2.1, (mem_members hx hu).1 q.2.2⟩
  · rw [if_neg q]
    exact b fun z => q ⟨ne.1 z.1, (mem_members hx hv).2 z.2.1, (mem_members hx hu).2 z.2.2⟩

theorem lp_entry (R : Reach E h) (K : Context h c) (hw : Unweighted h c) (hd : Undirected h c) (hl : NoLoops h c)
    (hT : TensorOf h c T) {i j : Nat} (hi : i < T.nn) (hj : j < T.nn) :
    (T.projectedLaplacian i j : ℝ) = ∑ e ∈ range T.ne, edgeTerm (members h c e) i j := by
  have En := hT.entries R K
  unfold Tensors.projectedLaplacian Tensors.diagDegree
  rw [sumTo_sum, sum_congr rfl fun e he => edge_entry R K hw hd hT (mem_range.1 he) hi hj]
  by_cases q : i = j
  · subst q
    obtain ⟨v, hv⟩ : ∃ v, (h.subNodes c)[i]? = some v := ⟨_, List.getElem?_eq_getElem (En.nn ▸ hi)⟩
    rw [if_pos rfl, degree_eq R K hw hd hl hT hv]
    have : ∀ e ∈ range T.ne, edgeTerm (members h c e) i i = if i ∈ members h c e then 1 else 0 := by
      intro e _
      unfold edgeTerm
      simp
    rw [sum_congr rfl this]
    simp only [ne_eq, not_true_eq_false, false_and, if_false, sum_const_zero, sub_zero]
    have ee : (edgesAt h c v : Rat) = sumTo (h.subEdges c).length fun e => if i ∈ members h c e then 1 else 0 := by
      rw [sumTo_list (g := fun x => if Endpoint h x v then 1 else 0)]
      · unfold edgesAt
        rw [sum_indicator]
      · intro e x hx
        simp only [mem_members hx hv]
    rw [ee, sumTo_sum, En.ne]
    push_cast
    exact sum_congr rfl fun e _ => by split <;> simp
  · rw [if_neg q, zero_sub, ← sum_neg_distrib]
    push_cast
    apply sum_congr rfl
    intro e _
    unfold edgeTerm
    simp only [ne_eq, q, not_false_eq_true, true_and, if_false]
    split <;> simp


/-- **C87, entries.** In an undirected, unweighted context (whose edges have no or at least two endpoints) the projected
Laplacian has the degrees on the diagonal, and elsewhere minus the number of common edges; it is symmetric. -/
theorem C87_entries (R : Reach E h) (K : Context h c) (hw : Unweighted h c) (hd : Undirected h c) (hl : NoLoops h c)
    (hT : TensorOf h c T) {i j : Nat} {v u : Ref} (hv : (h.subNodes c)[i]? = some v) (hu : (h.subNodes c)[j]? = some u) :
    (i = j → T.projectedLaplacian i j = (edgesAt h c v : Rat)) ∧
    (i ≠ j → T.projectedLaplacian i j = -(((h.subEdges c).filter fun x => Endpoint h x v ∧ Endpoint h x u).length : Rat)) ∧
    T.projectedLaplacian i j = T.projectedLaplacian j i := by
  have En := hT.entries R K
  have hi : i < T.nn := En.nn ▸ (List.getElem?_eq_some_iff.1 hv).1
  have hj : j < T.nn := En.nn ▸ (List.getElem?_eq_some_iff.1 hu).1
  have sym : T.projectedLaplacian i j = T.projectedLaplacian j i := by
    have : (T.projectedLaplacian i j : ℝ) = T.projectedLaplacian j i := by
      rw [lp_entry R K hw hd hl hT hi hj, lp_entry R K hw hd hl hT hj hi]
      refine sum_congr rfl fun e _ => ?_
      unfold edgeTerm
      by_cases q : i = j
      · subst q; rfl
      · rw [if_neg q, if_neg (Ne.symm q)]
        by_cases a : i ∈ members h c e <;> by_cases b : j ∈ members h c e <;> simp [a, b]
    exact_mod_cast this
  refine ⟨?_, ?_, sym⟩
  · rintro rfl
    unfold Tensors.projectedLaplacian Tensors.diagDegree
    rw [if_pos rfl, degree_eq R K hw hd hl hT hv, sumTo_congr (g := fun _ => 0) fun e he => W_diag R K hT he hi, sumTo_zero]
    simp
  · intro ne
    unfold Tensors.projectedLaplacian Tensors.diagDegree
    rw [if_neg ne, zero_sub, ← sum_indicator, En.ne]
    congr 1
    apply sumTo_list
    intro e x hx
    have he : e < T.ne := En.ne ▸ (List.getElem?_eq_some_iff.1 hx).1
    rw [edge_entry R K hw hd hT he hi hj]
    have := mem_members (h := h) (c := c) hx hv
    have := mem_members (h := h) (c := c) hx hu
    by_cases a : Endpoint h x v <;> by_cases b : Endpoint h x u <;> simp_all

theorem form_edge (M : Finset Nat) {n : Nat} (hM : M ⊆ range n) (x : Nat → ℝ) :
    ∑ i ∈ range n, ∑ j ∈ range n, x i * edgeTerm M i j * x j = 2 * ∑ i ∈ M, x i ^ 2 - (∑ i ∈ M, x i) ^ 2 := by
  have key : ∀ i j, x i * edgeTerm M i j * x j =
      2 * (if i = j then (if i ∈ M then x i ^ 2 else 0) else 0) - (if i ∈ M then x i else 0) * (if j ∈ M then x j else 0) := by
    intro i j
    unfold edgeTerm
    by_cases a : i ∈ M
    · by_cases b : j ∈ M
      · by_cases e : i = j
        · subst e; simp [a]; ring
        · simp [a, b, e]
      · have e : i ≠ j := fun e => b (e ▸ a)
        simp [a, b, e]
    · simp [a]
  simp only [key, sum_sub_distrib, ← mul_sum, ← sum_mul]
  have e1 : ∀ f : Nat → ℝ, ∑ i ∈ range n, (if i ∈ M then f i else 0) = ∑ i ∈ M, f i := by
    intro f
    rw [← sum_filter, filter_mem_eq_inter, inter_eq_right.2 hM]
  rw [e1]
  have e2 : ∑ i ∈ range n, ∑ j ∈ range n, (if i = j then (if i ∈ M then x i ^ 2 else 0) else 0) = ∑ i ∈ M, x i ^ 2 := by
    rw [← e1]
    refine sum_congr rfl fun i hi => ?_
    rw [sum_ite_eq, if_pos hi]
  rw [e2]
  ring

theorem members_sub (R : Reach E h) (K : Context h c) (hT : TensorOf h c T) (e : Nat) : members h c e ⊆ range T.nn := by
  rw [(hT.entries R K).nn]
  exact filter_subset _ _

/-- **C87, quadratic form.** Every edge adds twice the sum of the squares minus the square of the sum. -/
theorem C87_form (R : Reach E h) (K : Context h c) (hw : Unweighted h c) (hd : Undirected h c) (hl : NoLoops h c)
    (hT : TensorOf h c T) (x : Nat → ℝ) :
    T.projectedForm x =
      ∑ e ∈ range (h.subEdges c).length, (2 * ∑ i ∈ members h c e, x i ^ 2 - (∑ i ∈ members h c e, x i) ^ 2) := by
  have En := hT.entries R K
  rw [← En.ne]
  unfold Tensors.projectedForm
  rw [sum_congr rfl fun e _ => (form_edge _ (members_sub R K hT e) x).symm]
  rw [sum_comm (s := range T.ne), sum_congr rfl fun i _ => sum_comm (s := range T.ne)]
  refine sum_congr rfl fun i hi => sum_congr rfl fun j hj => ?_
  rw [lp_entry R K hw hd hl hT (mem_range.1 hi) (mem_range.1 hj), mul_sum, sum_mul]

theorem size_ne_one (hl : NoLoops h c) (K : Context h c) {e : Nat} {x : Ref} (hx : (h.subEdges c)[e]? = some x) :
    members h c e = ∅ ∨ 2 ≤ (members h c e).card := by
  rcases (members h c e).eq_empty_or_nonempty with q | ⟨i, hi⟩
  · exact .inl q
  · right
    have hi' : i < (h.subNodes c).length := mem_range.1 (mem_filter.1 hi).1
    rw [card_members hx]
    have hv := List.getElem?_eq_getElem hi'
    exact edgeSize_two hl K (List.mem_of_getElem? hx) (List.mem_of_getElem? hv) ((mem_members hx hv).1 hi)

theorem ordinary_iff : Ordinary h c ↔ ∀ e < (h.subEdges c).length, (members h c e).card ≤ 2 := by
  constructor
  · intro O e he
    rw [card_members (List.getElem?_eq_getElem he)]
    exact O _ (List.getElem_mem he)
  · intro q x hx
    obtain ⟨e, he, rfl⟩ := List.getElem_of_mem hx
    rw [← card_members (List.getElem?_eq_getElem he)]
    exact q e he

/-- **C87.** In an ordinary graph the projected Laplacian is the graph Laplacian: its form is the sum over the edges of the
squared differences at their two ends. -/
theorem C87_ordinary (R : Reach E h) (K : Context h c) (hw : Unweighted h c) (hd : Undirected h c) (hl : NoLoops h c)
    (hT : TensorOf h c T) (O : Ordinary h c) :
    ∃ d : Nat → Option (Nat × Nat), (∀ e < (h.subEdges c).length,
        (d e = none ∧ members h c e = ∅) ∨ ∃ a b, d e = some (a, b) ∧ a ≠ b ∧ members h c e = {a, b}) ∧
      ∀ x, T.projectedForm x = ∑ e ∈ range (h.subEdges c).length, (match d e with
        | none => 0
        | some (a, b) => (x a - x b) ^ 2) := by
  have two : ∀ e, ∃ o : Option (Nat × Nat), e < (h.subEdges c).length →
      (o = none ∧ members h c e = ∅) ∨ ∃ a b, o = some (a, b) ∧ a ≠ b ∧ members h c e = {a, b} := by
    intro e
    by_cases he : e < (h.subEdges c).length
    · rcases size_ne_one hl K (List.getElem?_eq_getElem he) with q | q
      · exact ⟨none, fun _ => .inl ⟨rfl, q⟩⟩
      · obtain ⟨a, b, ne, q⟩ := card_eq_two.1 (le_antisymm (ordinary_iff.1 O e he) q)
        exact ⟨some (a, b), fun _ => .inr ⟨a, b, rfl, ne, q⟩⟩
    · exact ⟨none, fun q => absurd q he⟩
  choose d hd' using two
  refine ⟨d, hd', fun x => ?_⟩
  rw [C87_form R K hw hd hl hT]
  refine sum_congr rfl fun e he => ?_
  rcases hd' e (mem_range.1 he) with ⟨q, m⟩ | ⟨a, b, q, ne, m⟩
  · rw [q, m]; simp
  · rw [q, m, sum_pair ne, sum_pair ne]
    ring

/-- The row sums. -/
theorem row_sum (R : Reach E h) (K : Context h c) (hw : Unweighted h c) (hd : Undirected h c) (hl : NoLoops h c)
    (hT : TensorOf h c T) {i : Nat} (hi : i < T.nn) : ∑ j ∈ range T.nn, (T.projectedLaplacian i j : ℝ) =
      ∑ e ∈ range T.ne, (if i ∈ members h c e then (2 - (members h c e).card : ℝ) else 0) := by
  rw [sum_congr rfl fun j hj => lp_entry R K hw hd hl hT hi (mem_range.1 hj), sum_comm]
  refine sum_congr rfl fun e _ => ?_
  have key : ∀ j, edgeTerm (members h c e) i j = if i ∈ members h c e then
      (2 * (if i = j then 1 else 0) - (if j ∈ members h c e then 1 else 0)) else 0 := by
    intro j
    unfold edgeTerm
    by_cases a : i ∈ members h c e
    · by_cases b : j ∈ members h c e
      · by_cases q : i = j
        · subst q; simp [a]; norm_num
        · simp [a, b, q]
      · have q : i ≠ j := fun q => b (q ▸ a)
        simp [a, b, q]
    · simp [a]
  simp only [key]
  by_cases a : i ∈ members h c e
  · simp only [if_pos a, sum_sub_distrib, ← mul_sum]
    rw [sum_ite_eq, if_pos (mem_range.2 hi), ← sum_filter, filter_mem_eq_inter, inter_eq_right.2 (members_sub R K hT e)]
    simp
  · simp [a]

theorem term_nonpos (hl : NoLoops h c) (K : Context h c) {e : Nat} (he : e < (h.subEdges c).length) {i : Nat} :
    (if i ∈ members h c e then (2 - (members h c e).card : ℝ) else 0) ≤ 0 := by
  split
  · rcases size_ne_one hl K (List.getElem?_eq_getElem he) with q | q
    · rename_i m; rw [q] at m; cases m
    · have : (2 : ℝ) ≤ (members h c e).card := by exact_mod_cast q
      linarith
  · exact le_rfl

/-- **C87, exactly when.** The projected Laplacian is positive semidefinite exactly for ordinary graphs, and its rows sum
to zero exactly for them. -/
theorem C87_semidefinite_iff (R : Reach E h) (K : Context h c) (hw : Unweighted h c) (hd : Undirected h c) (hl : NoLoops h c)
    (hT : TensorOf h c T) :
    (Ordinary h c ↔ ∀ x, 0 ≤ T.projectedForm x) ∧
    (Ordinary h c ↔ ∀ i < T.nn, ∑ j ∈ range T.nn, T.projectedLaplacian i j = 0) := by
  have En := hT.entries R K
  have hsz : ∀ e < (h.subEdges c).length, members h c e = ∅ ∨ 2 ≤ (members h c e).card :=
    fun e he => size_ne_one hl K (List.getElem?_eq_getElem he)
  constructor
  · constructor
    · intro O x
      obtain ⟨d, -, q⟩ := C87_ordinary R K hw hd hl hT O
      rw [q]
      refine sum_nonneg fun e _ => ?_
      split
      · exact le_rfl
      · positivity
    · intro q
      have h1 := q fun _ => 1
      rw [C87_form R K hw hd hl hT] at h1
      have np : ∀ e ∈ range (h.subEdges c).length,
          (2 * ∑ i ∈ members h c e, (1 : ℝ) ^ 2 - (∑ i ∈ members h c e, (1 : ℝ)) ^ 2) ≤ 0 := by
        intro e he
        rcases hsz e (mem_range.1 he) with z | z
        · rw [z]; simp
        · have : (2 : ℝ) ≤ (members h c e).card := by exact_mod_cast z
          simp only [one_pow, sum_const, nsmul_eq_mul, mul_one]
          nlinarith
      have z := (sum_eq_zero_iff_of_nonpos np).1 (le_antisymm (sum_nonpos np) h1)
      rw [ordinary_iff]
      intro e he
      have ze := z e (mem_range.2 he)
      rcases hsz e he with y | y
      · rw [y]; simp
      · simp only [one_pow, sum_const, nsmul_eq_mul, mul_one] at ze
        have : (2 : ℝ) ≤ (members h c e).card := by exact_mod_cast y
        have : ((members h c e).card : ℝ) ≤ 2 := by nlinarith
        exact_mod_cast this
  · have cast : ∀ i, (∑ j ∈ range T.nn, T.projectedLaplacian i j = 0) ↔ ∑ j ∈ range T.nn, (T.projectedLaplacian i j : ℝ) = 0 := by
      intro i
      rw [← Rat.cast_sum]
      exact_mod_cast Iff.rfl
    simp only [cast]
    rw [ordinary_iff]
    constructor
    · intro O i hi
      rw [row_sum R K hw hd hl hT hi]
      refine sum_eq_zero fun e he => ?_
      have he' : e < (h.subEdges c).length := En.ne ▸ mem_range.1 he
      split
      · rename_i m
        rcases hsz e he' with y | y
        · rw [y] at m; cases m
        · have : (members h c e).card = 2 := le_antisymm (O e he') y
          rw [this]; norm_num
      · rfl
    · intro q e he
      rcases (members h c e).eq_empty_or_nonempty with y | ⟨i, hi⟩
      · rw [y]; simp
      · have hin := mem_range.1 (members_sub R K hT e hi)
        have h1 := q i hin
        rw [row_sum R K hw hd hl hT hin] at h1
        have z := (sum_eq_zero_iff_of_nonpos fun e he => term_nonpos hl K (En.ne ▸ mem_range.1 he)).1 h1 e
          (mem_range.2 (En.ne ▸ he))
        rw [if_pos hi] at z
        have : ((members h c e).card : ℝ) ≤ 2 := by linarith
        exact_mod_cast this

/-! ## C88: the projected entropy -/

theorem totalDegree_eq_zero (R : Reach E h) (K : Context h c) (hw : Unweighted h c) (hd : Undirected h c) (hl : NoLoops h c)
    (hT : TensorOf h c T) : T.totalDegree = 0 ↔ ∀ x ∈ h.subEdges c, edgeSize h c x = 0 := by
  rw [(C37_degree R K hw hd hl hT).2]
  have : ((((h.subEdges c).map (edgeSize h c)).sum : Nat) : Rat) = 0 ↔ ((h.subEdges c).map (edgeSize h c)).sum = 0 := by
    exact_mod_cast Iff.rfl
  rw [this, List.sum_eq_zero_iff]
  simp

/-- **C88, proved part.** The projected entropy of a context with total degree other than 0 is a number exactly if no vector
but 0 is mapped to 0 by the projected Laplacian; then it is the sum of the surprises of the absolute values of its
eigenvalues, divided by the total degree. -/
theorem C88_defined_partial (h0 : T.totalDegree ≠ 0) :
    ((∃ s, T.entropyProjected = .value s) ↔
      ∀ x : Nat → ℂ, (∀ i < T.nn, ∑ j ∈ range T.nn, (T.projectedLaplacian i j : ℂ) * x j = 0) → ∀ i < T.nn, x i = 0) ∧
    ∀ s, T.entropyProjected = .value s →
      s = ((T.projectedMatrix.charpoly.roots).map fun z => surprise ‖z‖).sum := by
  constructor
  · have h0' : (T.totalDegree : ℂ) ≠ 0 := by exact_mod_cast h0
    have a : (∃ s, T.entropyProjected = .value s) ↔ T.projectedMatrix.det ≠ 0 := by
      unfold Tensors.entropyProjected
      rw [if_neg fun q => h0 q.2]
      have m : (0 : ℝ) ∈ T.projectedMatrix.charpoly.roots.map (fun z => ‖z‖) ↔ T.projectedMatrix.det = 0 := by
        rw [Matrix.det_eq_prod_roots_charpoly, Multiset.prod_eq_zero_iff, Multiset.mem_map]
        simp
      simp only [m]
      split
      · rename_i q; simp [q]
      · rename_i q; simp [q]
    rw [a, ← not_iff_not, not_not, ← Matrix.exists_mulVec_eq_zero_iff]
    have mv : ∀ (w : Fin T.nn → ℂ) (y : Nat → ℂ), (∀ i : Fin T.nn, w i = y i) → ∀ i : Fin T.nn,
        (T.projectedMatrix.mulVec w) i = (∑ j ∈ range T.nn, (T.projectedLaplacian i j : ℂ) * y j) / T.totalDegree := by
      intro w y hwy i
      unfold Matrix.mulVec dotProduct Tensors.projectedMatrix
      rw [← Fin.sum_univ_eq_sum_range (fun j => (T.projectedLaplacian i j : ℂ) * y j), sum_div]
      refine sum_congr rfl fun j _ => ?_
      rw [hwy]
      push_cast
      ring
    constructor
    · rintro ⟨w, hw, hz⟩ q
      apply hw
      let y : Nat → ℂ := fun j => if hj : j < T.nn then w ⟨j, hj⟩ else 0
      have hy : ∀ i : Fin T.nn, w i = y i := fun i => by simp [y]
      funext i
      rw [hy i]
      refine q y (fun k hk => ?_) i i.2
      have := congrFun hz ⟨k, hk⟩
      rw [mv w y hy ⟨k, hk⟩, Pi.zero_apply, div_eq_zero_iff] at this
      exact this.resolve_right h0'
    · intro q
      simp only [not_forall] at q
      obtain ⟨y, hy, i, hi, ne⟩ := q
      refine ⟨fun j => y j, fun q => ne (congrFun q ⟨i, hi⟩), funext fun k => ?_⟩
      rw [mv (fun j => y j) y (fun _ => rfl) k, hy k k.2]
      simp
  · intro s hs
    unfold Tensors.entropyProjected at hs
    rw [if_neg fun q => h0 q.2] at hs
    simp only [] at hs
    split at hs
    · cases hs
    · injection hs with hs
      rw [← hs, Multiset.map_map]
      congr 1
      refine Multiset.map_congr rfl fun z _ => ?_
      unfold surprise
      simp only [Function.comp_apply, one_div, Real.logb_inv]
      ring

/-- **C88 refuted, for every ordinary graph.** The projected entropy of an ordinary undirected graph with nodes is never a
number: its Laplacian maps constant vectors to zero. -/
theorem C88_ordinary_refuted (R : Reach E h) (K : Context h c) (hw : Unweighted h c) (hd : Undirected h c) (hl : NoLoops h c)
    (hT : TensorOf h c T) (O : Ordinary h c) (hne : h.subNodes c ≠ []) : ¬ ∃ s, T.entropyProjected = .value s := by
  by_cases h0 : T.totalDegree = 0
  · unfold Tensors.entropyProjected
    rw [if_pos ⟨fun q => hne (List.length_eq_zero_iff.1 ((hT.entries R K).nn ▸ q)), h0⟩]
    rintro ⟨s, e⟩; cases e
  · rw [(C88_defined_partial h0).1]
    intro q
    have hn : 0 < T.nn := by
      rcases Nat.eq_zero_or_pos T.nn with z | z
      · exact absurd (by unfold Tensors.totalDegree; rw [z]; rfl) h0
      · exact z
    have := q (fun _ => 1) (fun i hi => by
      have := ((C87_semidefinite_iff R K hw hd hl hT).2.1 O) i hi
      simp only [mul_one]
      exact_mod_cast this) 0 hn
    exact one_ne_zero this

/-- **C88 refuted, with isolated nodes.** Nor is the projected entropy of a context with a node in no edge. -/
theorem C88_isolated_refuted (R : Reach E h) (K : Context h c) (hw : Unweighted h c) (hd : Undirected h c) (hl : NoLoops h c)
    (hT : TensorOf h c T) {v : Ref} (hv : v ∈ h.subNodes c) (hn : edgesAt h c v = 0) :
    ¬ ∃ s, T.entropyProjected = .value s := by
  by_cases h0 : T.totalDegree = 0
  · unfold Tensors.entropyProjected
    rw [if_pos ⟨fun q => List.ne_nil_of_mem hv (List.length_eq_zero_iff.1 ((hT.entries R K).nn ▸ q)), h0⟩]
    rintro ⟨s, e⟩; cases e
  · rw [(C88_defined_partial h0).1]
    intro q
    have En := hT.entries R K
    obtain ⟨k, hk, hkv⟩ := List.getElem_of_mem hv
    have hk' : k < T.nn := En.nn ▸ hk
    have hkv : (h.subNodes c)[k]? = some v := by rw [List.getElem?_eq_getElem hk, hkv]
    have := q (fun j => if j = k then 1 else 0) (fun i hi => by
      have e0 : T.projectedLaplacian i k = 0 := by
        have : (T.projectedLaplacian i k : ℝ) = 0 := by
          rw [lp_entry R K hw hd hl hT hi hk']
          refine sum_eq_zero fun e he => ?_
          have he : e < (h.subEdges c).length := En.ne ▸ mem_range.1 he
          have hx := List.getElem?_eq_getElem he
          have : k ∉ members h c e := by
            rw [mem_members hx hkv]
            intro p
            unfold edgesAt at hn
            rw [List.length_eq_zero_iff, List.filter_eq_nil_iff] at hn
            exact hn _ (List.getElem_mem he) (by simpa using p)
          unfold edgeTerm
          simp [this]
        exact_mod_cast this
      simp only [mul_ite, mul_one, mul_zero]
      rw [sum_ite_eq' (range T.nn) k, if_pos (mem_range.2 hk'), e0]
      simp) k hk'
    simp at this

end

namespace Sample

theorem ordinary_u6 : Ordinary u6 0 := by
  intro x hx
  rw [show u6.subEdges 0 = [3] by decide +kernel] at hx
  cases List.mem_singleton.1 hx
  decide +kernel

/-- C87 and C88 at a graph of two nodes joined by an edge. -/
example : ∃ T, TensorOf u6 0 T ∧ T.projectedLaplacian 0 1 = -1 ∧ (∀ x, 0 ≤ T.projectedForm x) ∧
    ¬ ∃ s, T.entropyProjected = .value s := by
  obtain ⟨T, hT⟩ := C34_converts reach_u6 context_u6
  refine ⟨T, hT, ?_, (C87_semidefinite_iff reach_u6 context_u6 unweighted_u6 undirected_u6 noLoops_u6 hT).1.1 ordinary_u6,
    C88_ordinary_refuted reach_u6 context_u6 unweighted_u6 undirected_u6 noLoops_u6 hT ordinary_u6 (by decide +kernel)⟩
  rw [(C87_entries reach_u6 context_u6 unweighted_u6 undirected_u6 noLoops_u6 hT (i := 0) (j := 1) (v := 1) (u := 2)
    (by decide +kernel) (by decide +kernel)).2.1 (by decide)]
  have : ((u6.subEdges 0).filter fun x => Endpoint u6 x 1 ∧ Endpoint u6 x 2).length = 1 := by decide +kernel
  rw [this]; norm_num

/-- Three nodes, 1, 2 and 4, joined by the undirected edge 3. -/
def t5 : Heap := (mkNode ['d'] 14 (some 0)).after E0 g4
/-- See `t5`. -/
def t6 : Heap := (Op.unaryConnect 3 1 none .bidirectional none).after E0 t5
/-- See `t5`. -/
def t7 : Heap := (Op.unaryConnect 3 2 none .bidirectional none).after E0 t6
/-- See `t5`. -/
def t8 : Heap := (Op.unaryConnect 3 4 none .bidirectional none).after E0 t7

theorem reach_t8 : Reach E0 t8 :=
  .step _ (.step _ (.step _ (.step _ reach4 ⟨rfl, okSome (by decide +kernel)⟩ trivial)
    ⟨by decide +kernel, by decide +kernel, okNone, okNone⟩ trivial) ⟨by decide +kernel, by decide +kernel, okNone, okNone⟩
    trivial) ⟨by decide +kernel, by decide +kernel, okNone, okNone⟩ trivial

theorem unweighted_t8 : Unweighted t8 0 := forall_relationIn (by decide +kernel)
theorem undirected_t8 : Undirected t8 0 := forall_relationIn (by decide +kernel)
theorem context_t8 : Context t8 0 := ⟨by decide +kernel, forall_relationIn (by decide +kernel), unweighted_t8.valueWeights⟩
theorem edges_t8 : t8.subEdges 0 = [3] := by decide +kernel
theorem nodes_t8 : t8.subNodes 0 = [1, 2, 4] := by decide +kernel
theorem induced_t8 : t8.inducedSubset 3 = [some 1, some 2, some 4] := by decide +kernel
theorem noLoops_t8 : NoLoops t8 0 := by
  intro x hx v hv
  rw [edges_t8] at hx
  cases List.mem_singleton.1 hx
  by_cases e : v = 1
  · exact ⟨2, by omega, endpoint_mem.2 (by rw [induced_t8]; simp)⟩
  · exact ⟨1, fun q => e q.symm, endpoint_mem.2 (by rw [induced_t8]; simp)⟩

/-- `C88_defined_partial` applies: the projected entropy of an edge between three nodes is a number. -/
example : ∃ T, TensorOf t8 0 T ∧ ∃ s, T.entropyProjected = .value s := by
  obtain ⟨T, hT⟩ := C34_converts reach_t8 context_t8
  have En := hT.entries reach_t8 context_t8
  have nn : T.nn = 3 := by rw [En.nn, nodes_t8]; rfl
  have h0 : T.totalDegree ≠ 0 := by
    rw [Ne, totalDegree_eq_zero reach_t8 context_t8 unweighted_t8 undirected_t8 noLoops_t8 hT, edges_t8]
    intro q
    exact absurd (q 3 (by simp)) (by decide +kernel)
  refine ⟨T, hT, (C88_defined_partial h0).1.2 fun x hx => ?_⟩
  have ends : ∀ v ∈ [1, 2, 4], Endpoint t8 3 v := by
    intro v hv
    rw [endpoint_mem, induced_t8]
    simpa using hv
  have entry : ∀ i j v u, [1, 2, 4][i]? = some v → [1, 2, 4][j]? = some u →
      (T.projectedLaplacian i j : ℂ) = if i = j then 1 else -1 := by
    intro i j v u hi hj
    obtain ⟨a, b, -⟩ := C87_entries reach_t8 context_t8 unweighted_t8 undirected_t8 noLoops_t8 hT (i := i) (j := j) (v := v)
      (u := u) (by rw [nodes_t8]; exact hi) (by rw [nodes_t8]; exact hj)
    have ev := ends v (List.mem_of_getElem? hi)
    have eu := ends u (List.mem_of_getElem? hj)
    by_cases q : i = j
    · rw [if_pos q, a q]
      unfold edgesAt
      rw [edges_t8]
      simp [ev]
    · rw [if_neg q, b q, edges_t8]
      simp [ev, eu]
  rw [nn] at hx ⊢
  have row : ∀ i < 3, (if i = 0 then x 0 else -x 0) + (if i = 1 then x 1 else -x 1) + (if i = 2 then x 2 else -x 2) = 0 := by
    intro i hi
    have h1 := hx i hi
    obtain ⟨v, hv⟩ : ∃ v, [1, 2, 4][i]? = some v := ⟨_, List.getElem?_eq_getElem (by simpa using hi)⟩
    rw [sum_range_succ, sum_range_succ, sum_range_one, entry i 0 v 1 hv rfl, entry i 1 v 2 hv rfl, entry i 2 v 4 hv rfl] at h1
    rw [← h1]
    split <;> split <;> split <;> ring
  have r0 := row 0 (by decide)
  have r1 := row 1 (by decide)
  have r2 := row 2 (by decide)
  simp at r0 r1 r2
  have z2 : x 2 = 0 := by linear_combination (-1 / 2) * r0 - (1 / 2) * r1
  have z1 : x 1 = 0 := by linear_combination (-1 / 2) * r0 - (1 / 2) * r2
  have z0 : x 0 = 0 := by linear_combination (-1 / 2) * r1 - (1 / 2) * r2
  intro i hi
  match i, hi with
  | 0, _ => exact z0
  | 1, _ => exact z1
  | 2, _ => exact z2

end Sample

end Rei
