import Verif.Props.Projected
import Verif.Props.SampleGraphs

/-!
# C113: the tensors of a planned graph
-/
namespace Rei
open Finset

/-- The number of edges of the plan with the node `i`. -/
def linesAt (lines : List (Str × List Nat)) (i : Nat) : Nat := (lines.filter fun l => i ∈ l.2).length

/-- The number of edges of the plan with the nodes `i` and `j`. -/
def linesWith (lines : List (Str × List Nat)) (i j : Nat) : Nat := (lines.filter fun l => i ∈ l.2 ∧ j ∈ l.2).length

section
variable {E : Env} {h : Heap} {name : Str} {nodes : List Str} {lines : List (Str × List Nat)} {c : Ref} {ns es : List Ref}

theorem GraphIn.nodeNodup (g : GraphIn h name nodes lines c ns es) (p : GraphPlan nodes lines) : ns.Nodup :=
  .of_map _ (by rw [g.nodeNames]; exact p.apart)

theorem GraphIn.nodeLength (g : GraphIn h name nodes lines c ns es) : ns.length = nodes.length := by
  rw [← g.nodeNames, List.length_map]

theorem GraphIn.edgeLength (g : GraphIn h name nodes lines c ns es) : es.length = lines.length := by
  have := congrArg List.length g.edgeNames
  simpa using this

theorem GraphIn.relation (g : GraphIn h name nodes lines c ns es) {r : Ref} (hr : RelationIn h c r) :
    ∃ e ∈ es, r ∈ h.subRelations e := by
  obtain ⟨e, he, q⟩ := hr
  exact ⟨e, g.subEdges ▸ he, q⟩

theorem GraphIn.undir (g : GraphIn h name nodes lines c ns es) : Undirected h c := fun r hr => by
  obtain ⟨e, he, q⟩ := g.relation hr
  exact (g.undirected e he r q).1

theorem GraphIn.unweighted (g : GraphIn h name nodes lines c ns es) : Unweighted h c := fun r hr => by
  obtain ⟨e, he, q⟩ := g.relation hr
  exact (g.undirected e he r q).2

theorem GraphIn.context (g : GraphIn h name nodes lines c ns es) (p : GraphPlan nodes lines) : Context h c := by
  refine ⟨g.kind, fun r hr => ?_, g.unweighted.valueWeights⟩
  obtain ⟨e, he, q⟩ := g.relation hr
  have m : (h.get r).endpoint ∈ h.inducedSubset e := List.mem_map_of_mem q
  have : h.inducedSubset e ∈ es.map h.inducedSubset := List.mem_map_of_mem he
  rw [g.ends] at this
  obtain ⟨l, hl, e'⟩ := List.mem_map.1 this
  rw [← e'] at m
  obtain ⟨i, hi, e''⟩ := List.mem_map.1 m
  have lt : i < ns.length := g.nodeLength ▸ p.exist l hl i hi
  rw [List.getElem?_eq_getElem lt] at e''
  refine ⟨ns[i], ?_, e''.symm⟩
  rw [g.subNodes]
  exact List.getElem_mem lt

/-- The endpoints are those of the plan. -/
theorem GraphIn.endpoint (g : GraphIn h name nodes lines c ns es) (p : GraphPlan nodes lines) {i j : Nat} {a e : Ref}
    {l : Str × List Nat} (ha : ns[i]? = some a) (he : es[j]? = some e) (hl : lines[j]? = some l) :
    Endpoint h e a ↔ i ∈ l.2 := by
  rw [Sample.endpoint_mem]
  show h.On a e ↔ _
  rw [g.on_iff (g.nodeNodup p) ha he]
  constructor
  · rintro ⟨l', q, z⟩; rw [hl] at q; cases q; exact z
  · exact fun z => ⟨l, hl, z⟩

theorem GraphIn.at_edge (g : GraphIn h name nodes lines c ns es) {x : Ref} (hx : x ∈ es) :
    ∃ (j : Nat) (l : Str × List Nat), es[j]? = some x ∧ lines[j]? = some l := by
  obtain ⟨j, hj, e⟩ := List.getElem_of_mem hx
  exact ⟨j, lines[j]'(g.edgeLength ▸ hj), by rw [List.getElem?_eq_getElem hj, e], List.getElem?_eq_getElem _⟩

theorem GraphIn.loopless (g : GraphIn h name nodes lines c ns es) (p : GraphPlan nodes lines)
    (p1 : ∀ l ∈ lines, l.2.length ≠ 1) : NoLoops h c := by
  intro x hx v hv
  rw [g.subEdges] at hx
  obtain ⟨j, l, hj, hl⟩ := g.at_edge hx
  have hv' := (Sample.endpoint_mem).1 hv
  obtain ⟨u, hu, hur⟩ := (g.context p).closed _ ⟨x, g.subEdges ▸ hx, hv.choose_spec.1⟩
  have : u = v := Option.some.inj (hur.symm.trans hv.choose_spec.2)
  subst this
  rw [g.subNodes] at hu
  obtain ⟨i, hi, e⟩ := List.getElem_of_mem hu
  have hi' : ns[i]? = some u := by rw [List.getElem?_eq_getElem hi, e]
  have hil := (g.endpoint p hi' hj hl).1 hv
  have hlm := List.mem_of_getElem? hl
  obtain ⟨k, hk, ne⟩ : ∃ k ∈ l.2, k ≠ i := by
    by_contra q
    push Not at q
    apply p1 l hlm
    have nd := p.distinct l hlm
    match hz : l.2, nd, q, hil with
    | [a], _, _, _ => rfl
    | a :: b :: t, nd, q, _ =>
      have := q a (by simp)
      have := q b (by simp)
      simp_all
  have hk' : ns[k]? = some (ns[k]'(g.nodeLength ▸ p.exist l hlm k hk)) := List.getElem?_eq_getElem _
  refine ⟨_, fun q => ne ?_, (g.endpoint p hk' hj hl).2 hk⟩
  have hk2 := hk'
  rw [q] at hk2
  obtain ⟨a1, a2⟩ := List.getElem?_eq_some_iff.1 hk2
  exact (List.Nodup.getElem_inj_iff (g.nodeNodup p)).1 (a2.trans e.symm)

theorem filter_count {α β : Type} {P : α → Bool} {Q : β → Bool} : ∀ {l : List α} {m : List β}, l.length = m.length →
    (∀ (j : Nat) a b, l[j]? = some a → m[j]? = some b → P a = Q b) → (l.filter P).length = (m.filter Q).length
  | [], [], _, _ => rfl
  | a :: l, b :: m, hl, q => by
    have e := q 0 a b rfl rfl
    have ih := filter_count (P := P) (Q := Q) (l := l) (m := m) (by simpa using hl) fun j a b x y => q (j + 1) a b x y
    rw [List.filter_cons, List.filter_cons, e]
    split <;> simp [ih]
  | [], _ :: _, hl, _ => by simp at hl
  | _ :: _, [], hl, _ => by simp at hl

theorem GraphIn.edgesAt_eq (g : GraphIn h name nodes lines c ns es) (p : GraphPlan nodes lines) {i : Nat} {v : Ref}
    (hv : ns[i]? = some v) : edgesAt h c v = linesAt lines i := by
  unfold edgesAt linesAt
  rw [g.subEdges]
  exact filter_count g.edgeLength fun j a b ha hb => by simp [g.endpoint p hv ha hb]

theorem GraphIn.common_eq (g : GraphIn h name nodes lines c ns es) (p : GraphPlan nodes lines) {i k : Nat} {v u : Ref}
    (hv : ns[i]? = some v) (hu : ns[k]? = some u) :
    ((h.subEdges c).filter fun x => Endpoint h x v ∧ Endpoint h x u).length = linesWith lines i k := by
  unfold linesWith
  rw [g.subEdges]
  exact filter_count g.edgeLength fun j a b ha hb => by simp [g.endpoint p hv ha hb, g.endpoint p hu ha hb]

/-- The endpoints of an edge, in the order of the nodes. -/
theorem GraphIn.ends_perm (g : GraphIn h name nodes lines c ns es) (p : GraphPlan nodes lines) {j : Nat} {x : Ref}
    {l : Str × List Nat} (hx : es[j]? = some x) (hl : lines[j]? = some l) :
    ((h.subNodes c).filter fun v => Endpoint h x v).map some |>.Perm (l.2.map (ns[·]?)) := by
  have hlm := List.mem_of_getElem? hl
  rw [g.subNodes]
  have nd := g.nodeNodup p
  have lt : ∀ i ∈ l.2, i < ns.length := fun i hi => g.nodeLength ▸ p.exist l hlm i hi
  rw [List.perm_ext_iff_of_nodup]
  · intro o
    simp only [List.mem_map, List.mem_filter, decide_eq_true_eq]
    constructor
    · rintro ⟨v, ⟨hv, q⟩, rfl⟩
      obtain ⟨i, hi, e⟩ := List.getElem_of_mem hv
      have hi' : ns[i]? = some v := by rw [List.getElem?_eq_getElem hi, e]
      exact ⟨i, (g.endpoint p hi' hx hl).1 q, hi'⟩
    · rintro ⟨i, hi, rfl⟩
      have hi' := List.getElem?_eq_getElem (lt i hi)
      exact ⟨_, ⟨List.getElem_mem _, (g.endpoint p hi' hx hl).2 hi⟩, hi'.symm⟩
  · exact (nd.filter _).map (Option.some_injective _)
  · refine List.Nodup.map_on ?_ (p.distinct l hlm)
    intro a ha b hb q
    rw [List.getElem?_eq_getElem (lt a ha), List.getElem?_eq_getElem (lt b hb)] at q
    exact (List.Nodup.getElem_inj_iff nd).1 (Option.some.inj q)

theorem GraphIn.edgeSize_eq (g : GraphIn h name nodes lines c ns es) (p : GraphPlan nodes lines) {j : Nat} {x : Ref}
    {l : Str × List Nat} (hx : es[j]? = some x) (hl : lines[j]? = some l) : edgeSize h c x = l.2.length := by
  have := (g.ends_perm p hx hl).length_eq
  simpa [edgeSize] using this

/-- The share of node `i` in an edge with `k` nodes, for a plan. -/
noncomputable def planShare (lines : List (Str × List Nat)) (k i : Nat) : ℝ :=
  ((k : ℝ) - 1) / 2 / ((lines.length : ℝ) - 1) / Real.sqrt ((linesAt lines i : ℝ) + 1)

/-- What the plan says about the tensors. -/
structure PlanTensors (nodes : List Str) (lines : List (Str × List Nat)) (T : Tensors) : Prop where
  layers : T.ne = lines.length
  rows : T.nn = nodes.length
  W : ∀ e l, lines[e]? = some l → ∀ i < nodes.length, ∀ j < nodes.length,
    T.W e i j = if i ≠ j ∧ i ∈ l.2 ∧ j ∈ l.2 then 1 else 0
  Io : ∀ e l, lines[e]? = some l → ∀ i < nodes.length, T.Io e i = if i ∈ l.2 then 1 else 0
  Ii : ∀ e l, lines[e]? = some l → ∀ i < nodes.length, T.Ii e i = if i ∈ l.2 then 1 else 0
  degree : ∀ i < nodes.length, T.degree i = linesAt lines i
  total : T.totalDegree = (lines.map fun l => l.2.length).sum
  projected : ∀ i < nodes.length, ∀ j < nodes.length,
    T.projectedLaplacian i j = if i = j then (linesAt lines i : Rat) else -(linesWith lines i j : Rat)
  entropy : 2 ≤ lines.length →
    T.entropy = .ok (lines.map fun l => (l.2.map fun i => surprise (planShare lines l.2.length i)).sum).sum

theorem map_sum_congr {α β : Type} {f : α → ℝ} {k : β → ℝ} : ∀ {l : List α} {m : List β}, l.length = m.length →
    (∀ (j : Nat) a b, l[j]? = some a → m[j]? = some b → f a = k b) → (l.map f).sum = (m.map k).sum
  | [], [], _, _ => rfl
  | a :: l, b :: m, hl, q => by
    have ih := map_sum_congr (f := f) (k := k) (l := l) (m := m) (by simpa using hl) fun j a b x y => q (j + 1) a b x y
    simp [q 0 a b rfl rfl, ih]
  | [], _ :: _, hl, _ => by simp at hl
  | _ :: _, [], hl, _ => by simp at hl

theorem GraphIn.tensors (R : Reach E h) (g : GraphIn h name nodes lines c ns es) (p : GraphPlan nodes lines)
    (p1 : ∀ l ∈ lines, l.2.length ≠ 1) {T : Tensors} (hT : TensorOf h c T) : PlanTensors nodes lines T := by
  have K := g.context p
  have hw := g.unweighted
  have hd := g.undir
  have hl := g.loopless p p1
  have En := hT.entries R K
  have node : ∀ i < nodes.length, ∃ v, ns[i]? = some v ∧ (h.subNodes c)[i]? = some v := fun i hi => by
    rw [← g.nodeLength] at hi
    exact ⟨_, List.getElem?_eq_getElem hi, by rw [g.subNodes, List.getElem?_eq_getElem hi]⟩
  have edge : ∀ (e : Nat) (l : Str × List Nat), lines[e]? = some l → ∃ x, es[e]? = some x ∧ (h.subEdges c)[e]? = some x := fun e l hl => by
    have := (List.getElem?_eq_some_iff.1 hl).1
    rw [← g.edgeLength] at this
    exact ⟨_, List.getElem?_eq_getElem this, by rw [g.subEdges, List.getElem?_eq_getElem this]⟩
  have nd := g.nodeNodup p
  refine ⟨by rw [En.ne, g.subEdges, g.edgeLength], by rw [En.nn, g.subNodes, g.nodeLength], ?_, ?_, ?_, ?_, ?_, ?_, ?_⟩
  · intro e l he i hi j hj
    obtain ⟨x, hx, hx'⟩ := edge e l he
    obtain ⟨v, hv, hv'⟩ := node i hi
    obtain ⟨u, hu, hu'⟩ := node j hj
    obtain ⟨a, b, -⟩ := C34_undirected R K hw hd hT hx' hv' hu'
    have ne : v ≠ u ↔ i ≠ j := by
      obtain ⟨h1, h2⟩ := List.getElem?_eq_some_iff.1 hv
      obtain ⟨h3, h4⟩ := List.getElem?_eq_some_iff.1 hu
      rw [← h2, ← h4, Ne, nd.getElem_inj_iff]
    rw [ne, g.endpoint p hv hx he, g.endpoint p hu hx he] at a b
    split
    · exact a ‹_›
    · exact b ‹_›
  · intro e l he i hi
    obtain ⟨x, hx, hx'⟩ := edge e l he
    obtain ⟨v, hv, hv'⟩ := node i hi
    obtain ⟨-, a, b⟩ := C36_undirected R K hw hd hl hT hx' hv'
    rw [g.endpoint p hv hx he] at a b
    split
    · exact a ‹_›
    · exact b ‹_›
  · intro e l he i hi
    obtain ⟨x, hx, hx'⟩ := edge e l he
    obtain ⟨v, hv, hv'⟩ := node i hi
    obtain ⟨z, a, b⟩ := C36_undirected R K hw hd hl hT hx' hv'
    rw [g.endpoint p hv hx he] at a b
    rw [← z]
    split
    · exact a ‹_›
    · exact b ‹_›
  · intro i hi
    obtain ⟨v, hv, hv'⟩ := node i hi
    rw [degree_eq R K hw hd hl hT hv', g.edgesAt_eq p hv]
  · rw [(C37_degree R K hw hd hl hT).2, g.subEdges]
    congr 2
    apply List.ext_getElem
    · simp [g.edgeLength]
    · intro k h1 h2
      rw [List.getElem_map, List.getElem_map]
      exact g.edgeSize_eq p (List.getElem?_eq_getElem _) (List.getElem?_eq_getElem _)
  · intro i hi j hj
    obtain ⟨v, hv, hv'⟩ := node i hi
    obtain ⟨u, hu, hu'⟩ := node j hj
    obtain ⟨a, b, -⟩ := C87_entries R K hw hd hl hT hv' hu'
    split
    · rw [a ‹_›, g.edgesAt_eq p hv]
    · rw [b ‹_›, g.common_eq p hv hu]
  · intro h2
    rw [C83_entropy_partial R K hw hd hl hT (by rw [g.subEdges, g.edgeLength]; exact h2)]
    congr 1
    rw [g.subEdges]
    apply map_sum_congr g.edgeLength
    intro j x l hx hl'
    have pm := g.ends_perm p hx hl'
    have pm' := (pm.map fun o => o.elim 0 fun v => surprise (share h c x v)).sum_eq
    rw [List.map_map, List.map_map] at pm'
    refine Eq.trans pm' ?_
    congr 1
    refine List.map_congr_left fun i hi => ?_
    obtain ⟨v, hv, hv'⟩ := node i (p.exist l (List.mem_of_getElem? hl') i hi)
    simp only [Function.comp_apply, hv, Option.elim_some]
    unfold share planShare
    rw [g.edgeSize_eq p hx hl', g.edgesAt_eq p hv, g.subEdges, g.edgeLength]

/-- **C113.** A graph built from a plan, whatever the world it is built in, the name and the clock, can be converted, and the
result is what the plan says. -/
theorem C113_plan_tensors {E : Env} (inj : Function.Injective E.sha) {h : Heap} (R : Reach E h) {F : Factory}
    (hF : F.clock ≠ none) (name : Str) {nodes : List Str} {lines : List (Str × List Nat)} (p : GraphPlan nodes lines)
    (p1 : ∀ l ∈ lines, l.2.length ≠ 1) :
    ∃ c ns es h', F.createGraph E name nodes lines h = (.ok (c, ns, es), h') ∧ (∃ T, TensorOf h' c T) ∧
      ∀ T, TensorOf h' c T → PlanTensors nodes lines T := by
  obtain ⟨c, ns, es, h', run, R', g⟩ := C93_graph_built inj R hF name p
  exact ⟨c, ns, es, h', run, C34_converts R' (g.context p), fun T hT => g.tensors R' p p1 hT⟩

end

/-! ## The Fano plane -/

/-- The eigenvalues of a matrix with equal entries off the diagonal and equal entries on it. -/
theorem charpoly_level (n : Nat) (a b : ℂ) :
    (Matrix.of fun i j : Fin (n + 1) => if i = j then a + b else b).charpoly.roots =
      Multiset.replicate n a + {a + (n + 1) * b} := by
  have e : (Matrix.of fun i j : Fin (n + 1) => if i = j then a + b else b) =
      Matrix.vecMulVec (fun _ => b) (fun _ => 1) - Matrix.scalar (Fin (n + 1)) (-a) := by
    ext i j
    by_cases q : i = j
    · subst q; simp [Matrix.vecMulVec_apply]; ring
    · simp [Matrix.vecMulVec_apply, q]
  open Polynomial in
  have f : (Matrix.of fun i j : Fin (n + 1) => if i = j then a + b else b).charpoly =
      (X - C a) ^ n * (X - C (a + (n + 1) * b)) := by
    rw [e, Matrix.charpoly_sub_scalar, Matrix.charpoly_vecMulVec]
    simp only [Fintype.card_fin, Nat.add_sub_cancel, sub_comp, smul_comp, pow_comp, X_comp, dotProduct, mul_one, sum_const,
      card_univ, nsmul_eq_mul]
    rw [smul_eq_C_mul, pow_succ]
    push_cast
    simp only [map_neg, map_add, map_mul, map_natCast, map_one]
    ring
  rw [f, Polynomial.roots_mul, Polynomial.roots_pow, Polynomial.roots_X_sub_C, Polynomial.roots_X_sub_C,
    Multiset.nsmul_singleton]
  exact mul_ne_zero (pow_ne_zero _ (Polynomial.X_sub_C_ne_zero _)) (Polynomial.X_sub_C_ne_zero _)

/-- **C113, the Fano plane.** Its representation has the degrees 3, the total degree 21, the projected Laplacian with 3 on the
diagonal and -1 elsewhere, the entropy `7/4 * log2 12` and the projected entropy
`6 * 4/21 * log2 (21/4) + 1/7 * log2 7`. -/
theorem C113_fano {E : Env} (inj : Function.Injective E.sha) {h : Heap} (R : Reach E h) (name : Str) {clock : Option Clock}
    (hc : clock ≠ none) :
    ∃ c ns es h', createFano E name clock h = (.ok (c, ns, es), h') ∧ ∃ T, TensorOf h' c T ∧ T.ne = 7 ∧ T.nn = 7 ∧
      (∀ i < 7, T.degree i = 3) ∧ T.totalDegree = 21 ∧
      (∀ i < 7, ∀ j < 7, T.projectedLaplacian i j = if i = j then 3 else -1) ∧
      T.entropy = .ok (7 / 4 * Real.logb 2 12) ∧
      T.entropyProjected = .value (6 * (4 / 21 * Real.logb 2 (21 / 4)) + 1 / 7 * Real.logb 2 7) := by
  obtain ⟨c, ns, es, h', run, ⟨T, hT⟩, q⟩ := C113_plan_tensors inj R (F := ⟨name, clock⟩) hc name fano_plan
    (by decide +kernel)
  have P := q T hT
  have at3 : ∀ i < 7, linesAt fanoLines i = 3 := by decide +kernel
  have with1 : ∀ i < 7, ∀ j < 7, i ≠ j → linesWith fanoLines i j = 1 := by decide +kernel
  have ln : ((List.range 7).map decimal).length = 7 := by simp
  have nn : T.nn = 7 := by rw [P.rows, ln]
  have tot : T.totalDegree = 21 := by
    rw [P.total]
    have : (fanoLines.map fun l => l.2.length).sum = 21 := by decide +kernel
    rw [this]; norm_num
  have Lp : ∀ i < 7, ∀ j < 7, T.projectedLaplacian i j = if i = j then 3 else -1 := by
    intro i hi j hj
    rw [P.projected i (by simpa using hi) j (by simpa using hj)]
    split
    · rw [at3 i hi]; norm_num
    · rw [with1 i hi j hj ‹_›]; norm_num
  refine ⟨c, ns, es, h', run, T, hT, P.layers, nn, fun i hi => ?_, tot, Lp, ?_, ?_⟩
  · rw [P.degree i (by simpa using hi), at3 i hi]; norm_num
  · rw [P.entropy (by decide)]
    have sh : ∀ i < 7, surprise (planShare fanoLines 3 i) = 1 / 12 * Real.logb 2 12 := by
      intro i hi
      have : planShare fanoLines 3 i = 1 / 12 := by
        unfold planShare
        rw [at3 i hi, show fanoLines.length = 7 by rfl]
        have : Real.sqrt (((3 : Nat) : ℝ) + 1) = 2 := by
          rw [show ((3 : Nat) : ℝ) + 1 = 2 ^ 2 by norm_num]
          exact Real.sqrt_sq (by norm_num)
        rw [this]
        norm_num
      rw [this]
      unfold surprise
      norm_num
    have each : ∀ l ∈ fanoLines, (l.2.map fun i => surprise (planShare fanoLines l.2.length i)).sum = 1 / 4 * Real.logb 2 12 := by
      intro l hl
      have l3 : l.2.length = 3 := (by decide +kernel : ∀ l ∈ fanoLines, l.2.length = 3) l hl
      have lt : ∀ i ∈ l.2, i < 7 := (by decide +kernel : ∀ l ∈ fanoLines, ∀ i ∈ l.2, i < 7) l hl
      rw [l3, List.map_congr_left (g := fun _ => 1 / 12 * Real.logb 2 12) fun i hi => sh i (lt i hi)]
      simp only [List.map_const', List.sum_replicate, l3]
      rw [nsmul_eq_mul]
      push_cast
      ring
    rw [List.map_congr_left (g := fun _ => 1 / 4 * Real.logb 2 12) each]
    simp only [List.map_const', List.sum_replicate, show fanoLines.length = 7 by rfl]
    rw [nsmul_eq_mul]
    congr 1
    push_cast
    ring
  · have roots : ∀ (n : Nat) (hn : T.nn = n), n = 7 → T.projectedMatrix.charpoly.roots = Multiset.replicate 6 (4 / 21) + {-(1 / 7)} := by
      intro n hn h7
      have key : ∀ (m : Nat) (hm : m = 7) (A : Matrix (Fin m) (Fin m) ℂ),
          (∀ i j : Fin m, A i j = if (i : Nat) = j then 4 / 21 + -(1 / 21) else -(1 / 21)) →
          A.charpoly.roots = Multiset.replicate 6 (4 / 21) + {-(1 / 7)} := by
        rintro m rfl A hA
        have : A = Matrix.of fun i j : Fin (6 + 1) => if i = j then (4 / 21 : ℂ) + -(1 / 21) else -(1 / 21) := by
          ext i j
          rw [hA, Matrix.of_apply]
          simp only [Fin.ext_iff]
        rw [this, charpoly_level]
        norm_num
      refine key T.nn nn _ fun i j => ?_
      unfold Tensors.projectedMatrix
      rw [Lp i (by have := i.2; omega) j (by have := j.2; omega), tot]
      split <;> norm_num
    unfold Tensors.entropyProjected
    rw [if_neg fun q => absurd q.2 (by rw [tot]; norm_num)]
    simp only [roots _ rfl nn]
    rw [if_neg]
    · congr 1
      simp only [Multiset.map_add, Multiset.map_replicate, Multiset.map_singleton, Multiset.sum_add, Multiset.sum_replicate,
        Multiset.sum_singleton]
      have n1 : ‖(4 / 21 : ℂ)‖ = 4 / 21 := by norm_num
      have n2 : ‖(-(1 / 7) : ℂ)‖ = 1 / 7 := by norm_num
      rw [n1, n2, show (21 / 4 : ℝ) = (4 / 21)⁻¹ by norm_num, Real.logb_inv, show (1 / 7 : ℝ) = 7⁻¹ by norm_num, Real.logb_inv,
        nsmul_eq_mul]
      push_cast
      ring
    · rw [Multiset.mem_map]
      rintro ⟨z, hz, e⟩
      rw [norm_eq_zero] at e
      subst e
      rcases Multiset.mem_add.1 hz with hz | hz
      · have := Multiset.eq_of_mem_replicate hz
        norm_num at this
      · have := Multiset.mem_singleton.1 hz
        norm_num at this

/-- The plan of a graph with an edge between three nodes and one between two of them. -/
example : GraphPlan ["a".toList, "b".toList, "c".toList] [("x".toList, [0, 1, 2]), ("y".toList, [0, 2])] ∧
    ∀ l ∈ [("x".toList, [0, 1, 2]), ("y".toList, [0, 2])], l.2.length ≠ 1 :=
  ⟨⟨by decide +kernel, by decide +kernel, by decide +kernel, by decide +kernel, by decide +kernel⟩, by decide +kernel⟩

/-- The Fano plane in the empty world. -/
example : ∃ c ns es h', createFano E1 "fano".toList (some .dummy) Heap.empty = (.ok (c, ns, es), h') ∧
    ∃ T, TensorOf h' c T ∧ T.totalDegree = 21 := by
  obtain ⟨c, ns, es, h', r, T, hT, -, -, -, t, -⟩ := C113_fano (E := E1) wideSha_injective .init "fano".toList
    (clock := some .dummy) (by simp)
  exact ⟨c, ns, es, h', r, T, hT, t⟩

end Rei
