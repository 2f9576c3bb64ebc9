import Verif.Spec.Components
import Verif.Props.Projected
import Verif.Props.Isomorphism
import Mathlib.LinearAlgebra.Matrix.ToLin
import Mathlib.LinearAlgebra.Dimension.Constructions
import Mathlib.LinearAlgebra.FiniteDimensional.Lemmas

/-!
# C117: null vectors of the projected Laplacian and connected components
-/
namespace Rei
open Finset

section
variable {E : Env} {h : Heap} {c : Ref} {T : Tensors}

/-- **C117.** The null vectors of the projected Laplacian of an ordinary undirected graph are those that are constant along its
edges. -/
theorem C117_null (R : Reach E h) (K : Context h c) (hw : Unweighted h c) (hd : Undirected h c) (hl : NoLoops h c)
    (O : Ordinary h c) (hT : TensorOf h c T) (x : Nat → ℝ) :
    (∀ i < T.nn, ∑ j ∈ range T.nn, (T.projectedLaplacian i j : ℝ) * x j = 0) ↔
      ∀ i j v u, (h.subNodes c)[i]? = some v → (h.subNodes c)[j]? = some u → ShareEdge h c v u → x i = x j := by
  have En := hT.entries R K
  constructor
  · intro H i j v u hv hu ⟨y, hy, ev, eu⟩
    obtain ⟨d, hd1, hd2⟩ := C87_ordinary R K hw hd hl hT O
    have zero : T.projectedForm x = 0 := by
      unfold Tensors.projectedForm
      refine sum_eq_zero fun i hi => ?_
      simp only [mul_assoc]
      rw [← mul_sum, H i (mem_range.1 hi), mul_zero]
    rw [hd2, sum_eq_zero_iff_of_nonneg ?_] at zero
    · obtain ⟨e, he⟩ := List.getElem?_of_mem hy
      have lt := (List.getElem?_eq_some_iff.1 he).1
      have z := zero e (mem_range.2 lt)
      have mi := (mem_members he hv).2 ev
      have mj := (mem_members he hu).2 eu
      rcases hd1 e lt with ⟨-, q⟩ | ⟨a, b, q1, -, q2⟩
      · rw [q] at mi; simp at mi
      · rw [q1] at z
        have ab : x a = x b := by
          have : x a - x b = 0 := by simpa using z
          linarith
        rw [q2] at mi mj
        simp only [mem_insert, mem_singleton] at mi mj
        rcases mi with rfl | rfl <;> rcases mj with rfl | rfl <;> first | rfl | exact ab | exact ab.symm
    · intro e _
      split
      · exact le_rfl
      · exact sq_nonneg _
  · intro H i hi
    have row := ((C87_semidefinite_iff R K hw hd hl hT).2.1 O) i hi
    have row : ∑ j ∈ range T.nn, (T.projectedLaplacian i j : ℝ) = 0 := by exact_mod_cast row
    have e : ∀ j ∈ range T.nn, (T.projectedLaplacian i j : ℝ) * x j = (T.projectedLaplacian i j : ℝ) * x i := by
      intro j hj
      have hj := mem_range.1 hj
      by_cases q : i = j
      · rw [q]
      have hi' : i < (h.subNodes c).length := En.nn ▸ hi
      have hj' : j < (h.subNodes c).length := En.nn ▸ hj
      have hv := List.getElem?_eq_getElem hi'
      have hu := List.getElem?_eq_getElem hj'
      by_cases jn : ShareEdge h c (h.subNodes c)[i] (h.subNodes c)[j]
      · rw [H i j _ _ hv hu jn]
      · have := (C87_entries R K hw hd hl hT hv hu).2.1 q
        rw [List.filter_eq_nil_iff.2 ?_] at this
        · rw [this]; simp
        · intro y hy k
          exact jn ⟨y, hy, by simpa using k⟩
    rw [sum_congr rfl e, ← sum_mul, row, zero_mul]

/-- The projected Laplacian as a matrix over the reals. -/
def Tensors.projectedReal (T : Tensors) : Matrix (Fin T.nn) (Fin T.nn) ℝ := fun i j => (T.projectedLaplacian i j : ℝ)

theorem mem_null {x : Fin T.nn → ℝ} {y : Nat → ℝ} (hy : ∀ i : Fin T.nn, y i = x i) :
    x ∈ LinearMap.ker (Matrix.toLin' T.projectedReal) ↔
      ∀ i < T.nn, ∑ j ∈ range T.nn, (T.projectedLaplacian i j : ℝ) * y j = 0 := by
  rw [LinearMap.mem_ker, Matrix.toLin'_apply]
  constructor
  · intro H i hi
    have := congrFun H ⟨i, hi⟩
    simp only [Matrix.mulVec, dotProduct, Pi.zero_apply] at this
    rw [Finset.sum_range, ← this]
    exact sum_congr rfl fun j _ => by rw [hy]; rfl
  · intro H
    funext i
    have := H i i.2
    rw [Finset.sum_range] at this
    simp only [Matrix.mulVec, dotProduct, Pi.zero_apply]
    rw [← this]
    exact sum_congr rfl fun j _ => by rw [hy]; rfl

/-- The node with an index. -/
noncomputable def nodeAt (R : Reach E h) (K : Context h c) (hT : TensorOf h c T) : Fin T.nn ≃ {v // v ∈ h.subNodes c} :=
  (finCongr (hT.entries R K).nn).trans (List.Nodup.getEquiv _ ((C01_containment_agrees R c).2.filter _))

theorem nodeAt_get (R : Reach E h) (K : Context h c) (hT : TensorOf h c T) (i : Fin T.nn) :
    (h.subNodes c)[(i : Nat)]? = some (nodeAt R K hT i).1 := by
  have hi : (i : Nat) < (h.subNodes c).length := (hT.entries R K).nn ▸ i.2
  rw [List.getElem?_eq_getElem hi]
  rfl

/-- Null vectors are the functions of the components. -/
theorem null_range (R : Reach E h) (K : Context h c) (hw : Unweighted h c) (hd : Undirected h c) (hl : NoLoops h c)
    (O : Ordinary h c) (hT : TensorOf h c T) :
    LinearMap.ker (Matrix.toLin' T.projectedReal) =
      LinearMap.range (LinearMap.funLeft ℝ ℝ fun i => componentOf h c (nodeAt R K hT i)) := by
  ext x
  let y : Nat → ℝ := fun i => if hi : i < T.nn then x ⟨i, hi⟩ else 0
  have hy : ∀ i : Fin T.nn, y i = x i := fun i => by simp [y]
  rw [mem_null hy, C117_null R K hw hd hl O hT y, LinearMap.mem_range]
  constructor
  · intro H
    refine ⟨Quot.lift (fun v => x ((nodeAt R K hT).symm v)) ?_, ?_⟩
    · intro a b jn
      have ha := nodeAt_get R K hT ((nodeAt R K hT).symm a)
      have hb := nodeAt_get R K hT ((nodeAt R K hT).symm b)
      rw [Equiv.apply_symm_apply] at ha hb
      have := H _ _ _ _ ha hb jn
      rwa [hy, hy] at this
    · funext i
      show x ((nodeAt R K hT).symm (nodeAt R K hT i)) = x i
      rw [Equiv.symm_apply_apply]
  · rintro ⟨f, rfl⟩ i j v u hv hu jn
    have hi : i < T.nn := (hT.entries R K).nn ▸ (List.getElem?_eq_some_iff.1 hv).1
    have hj : j < T.nn := (hT.entries R K).nn ▸ (List.getElem?_eq_some_iff.1 hu).1
    have ei := nodeAt_get R K hT ⟨i, hi⟩
    have ej := nodeAt_get R K hT ⟨j, hj⟩
    rw [hv] at ei; rw [hu] at ej
    have e : componentOf h c (nodeAt R K hT ⟨i, hi⟩) = componentOf h c (nodeAt R K hT ⟨j, hj⟩) :=
      Quot.sound (by rw [← Option.some.inj ei, ← Option.some.inj ej]; exact jn)
    rw [hy ⟨i, hi⟩, hy ⟨j, hj⟩]
    exact congrArg f e

theorem component_surj (R : Reach E h) (K : Context h c) (hT : TensorOf h c T) :
    Function.Surjective fun i => componentOf h c (nodeAt R K hT i) := by
  intro q
  obtain ⟨v, rfl⟩ := Quot.exists_rep q
  refine ⟨(nodeAt R K hT).symm v, ?_⟩
  show componentOf h c (nodeAt R K hT ((nodeAt R K hT).symm v)) = _
  rw [Equiv.apply_symm_apply]
  rfl

/-- **C117.** The projected Laplacian of an ordinary undirected graph counts the connected components: the dimension of its null
space is their number. -/
theorem C117_components (R : Reach E h) (K : Context h c) (hw : Unweighted h c) (hd : Undirected h c) (hl : NoLoops h c)
    (O : Ordinary h c) (hT : TensorOf h c T) :
    Module.finrank ℝ (LinearMap.ker (Matrix.toLin' T.projectedReal)) = Nat.card (Component h c) := by
  rw [null_range R K hw hd hl O hT, LinearMap.finrank_range_of_inj (LinearMap.funLeft_injective_of_surjective _ _ _ (component_surj R K hT))]
  have : Finite (Component h c) := Finite.of_surjective _ (component_surj R K hT)
  have := Fintype.ofFinite (Component h c)
  rw [Module.finrank_fintype_fun_eq_card, Nat.card_eq_fintype_card]

/-- **C117.** Two nodes are in one component exactly if all null vectors of the projected Laplacian agree on them. -/
theorem C117_connected (R : Reach E h) (K : Context h c) (hw : Unweighted h c) (hd : Undirected h c) (hl : NoLoops h c)
    (O : Ordinary h c) (hT : TensorOf h c T) {i j : Nat} {v u : {v // v ∈ h.subNodes c}} (hv : (h.subNodes c)[i]? = some v.1)
    (hu : (h.subNodes c)[j]? = some u.1) :
    componentOf h c v = componentOf h c u ↔
      ∀ x : Nat → ℝ, (∀ i < T.nn, ∑ j ∈ range T.nn, (T.projectedLaplacian i j : ℝ) * x j = 0) → x i = x j := by
  have hi : i < T.nn := (hT.entries R K).nn ▸ (List.getElem?_eq_some_iff.1 hv).1
  have hj : j < T.nn := (hT.entries R K).nn ▸ (List.getElem?_eq_some_iff.1 hu).1
  have ei : nodeAt R K hT ⟨i, hi⟩ = v := Subtype.ext (Option.some.inj ((nodeAt_get R K hT ⟨i, hi⟩).symm.trans hv))
  have ej : nodeAt R K hT ⟨j, hj⟩ = u := Subtype.ext (Option.some.inj ((nodeAt_get R K hT ⟨j, hj⟩).symm.trans hu))
  have rng : ∀ x : Fin T.nn → ℝ, x ∈ LinearMap.ker (Matrix.toLin' T.projectedReal) ↔
      ∃ f : Component h c → ℝ, ∀ i, x i = f (componentOf h c (nodeAt R K hT i)) := by
    intro x
    rw [null_range R K hw hd hl O hT, LinearMap.mem_range]
    exact ⟨fun ⟨f, e⟩ => ⟨f, fun i => by rw [← e]; rfl⟩, fun ⟨f, e⟩ => ⟨f, funext fun i => (e i).symm⟩⟩
  constructor
  · intro q x hx
    obtain ⟨f, e⟩ := (rng fun i => x i).1 ((mem_null (y := x) fun _ => rfl).2 hx)
    have a := e ⟨i, hi⟩
    have b := e ⟨j, hj⟩
    simp only at a b
    rw [a, b, ei, ej, q]
  · intro H
    classical
    let f : Component h c → ℝ := fun q => if q = componentOf h c v then 1 else 0
    let y : Nat → ℝ := fun i => if hi : i < T.nn then f (componentOf h c (nodeAt R K hT ⟨i, hi⟩)) else 0
    have hy : ∀ i : Fin T.nn, y i = f (componentOf h c (nodeAt R K hT i)) := fun i => by simp [y]
    have := H y ((mem_null hy).1 ((rng _).2 ⟨f, fun _ => rfl⟩))
    rw [hy ⟨i, hi⟩, hy ⟨j, hj⟩, ei, ej] at this
    by_contra q
    simp only [f, if_true] at this
    rw [if_neg (fun k => q k.symm)] at this
    exact one_ne_zero this

end

namespace Sample

/-- `u6` with a third node, without edges. -/
def lone7 : Heap := (mkNode ['z'] 20 (some 0)).after E0 u6
theorem reach_lone7 : Reach E0 lone7 := .step _ reach_u6 ⟨rfl, okSome (by decide +kernel)⟩ trivial
theorem unweighted_lone7 : Unweighted lone7 0 := forall_relationIn (by decide +kernel)
theorem undirected_lone7 : Undirected lone7 0 := forall_relationIn (by decide +kernel)
theorem context_lone7 : Context lone7 0 := ⟨by decide +kernel, forall_relationIn (by decide +kernel), unweighted_lone7.valueWeights⟩
theorem edges_lone7 : lone7.subEdges 0 = [3] := by decide +kernel
theorem ends_lone7 : lone7.inducedSubset 3 = [some 1, some 2] := by decide +kernel
theorem nodes_lone7 : lone7.subNodes 0 = [1, 2, 8] := by decide +kernel
theorem noLoops_lone7 : NoLoops lone7 0 := by
  intro x hx v hv
  rw [edges_lone7] at hx
  obtain rfl : x = 3 := by simpa using hx
  rw [endpoint_mem, ends_lone7] at hv
  simp only [List.mem_cons, Option.some.injEq, List.not_mem_nil, or_false] at hv
  rcases hv with rfl | rfl
  · exact ⟨2, by decide, endpoint_mem.2 (by rw [ends_lone7]; simp)⟩
  · exact ⟨1, by decide, endpoint_mem.2 (by rw [ends_lone7]; simp)⟩
theorem ordinary_lone7 : Ordinary lone7 0 := by
  intro x hx
  rw [edges_lone7] at hx
  cases List.mem_singleton.1 hx
  decide +kernel

/-- C117 at two joined nodes and a lone one: a null vector must be equal at the first two and is free at the third, which is in
another component. -/
theorem C117_case : ∃ T, TensorOf lone7 0 T ∧
    (∀ x : Nat → ℝ, (∀ i < T.nn, ∑ j ∈ range T.nn, (T.projectedLaplacian i j : ℝ) * x j = 0) ↔ x 0 = x 1) ∧
    Module.finrank ℝ (LinearMap.ker (Matrix.toLin' T.projectedReal)) = Nat.card (Component lone7 0) ∧
    componentOf lone7 0 ⟨1, by rw [nodes_lone7]; simp⟩ = componentOf lone7 0 ⟨2, by rw [nodes_lone7]; simp⟩ ∧
    componentOf lone7 0 ⟨1, by rw [nodes_lone7]; simp⟩ ≠ componentOf lone7 0 ⟨8, by rw [nodes_lone7]; simp⟩ := by
  obtain ⟨T, hT⟩ := C34_converts reach_lone7 context_lone7
  have N : ∀ x : Nat → ℝ, (∀ i < T.nn, ∑ j ∈ range T.nn, (T.projectedLaplacian i j : ℝ) * x j = 0) ↔ x 0 = x 1 := by
    intro x
    rw [C117_null reach_lone7 context_lone7 unweighted_lone7 undirected_lone7 noLoops_lone7 ordinary_lone7 hT]
    constructor
    · intro H
      exact H 0 1 1 2 (by rw [nodes_lone7]; rfl) (by rw [nodes_lone7]; rfl)
        ⟨3, by rw [edges_lone7]; simp, endpoint_mem.2 (by rw [ends_lone7]; simp), endpoint_mem.2 (by rw [ends_lone7]; simp)⟩
    · rintro e i j v u hv hu ⟨y, hy, ev, eu⟩
      rw [edges_lone7] at hy
      obtain rfl : y = 3 := by simpa using hy
      rw [endpoint_mem, ends_lone7] at ev eu
      rw [nodes_lone7] at hv hu
      simp only [List.mem_cons, Option.some.injEq, List.not_mem_nil, or_false] at ev eu
      rcases i with _ | _ | _ | i <;> rcases j with _ | _ | _ | j <;> simp at hv hu <;> subst_vars <;>
        first | rfl | exact e | exact e.symm | omega
  refine ⟨T, hT, N, C117_components reach_lone7 context_lone7 unweighted_lone7 undirected_lone7 noLoops_lone7 ordinary_lone7 hT, ?_, ?_⟩
  · rw [C117_connected reach_lone7 context_lone7 unweighted_lone7 undirected_lone7 noLoops_lone7 ordinary_lone7 hT (i := 0) (j := 1)
      (by decide +kernel) (by decide +kernel)]
    exact fun x hx => (N x).1 hx
  · rw [Ne, C117_connected reach_lone7 context_lone7 unweighted_lone7 undirected_lone7 noLoops_lone7 ordinary_lone7 hT (i := 0) (j := 2)
      (by decide +kernel) (by decide +kernel)]
    intro H
    have := H (fun i => if i = 2 then 1 else 0) ((N _).2 (by simp))
    simp at this

end Sample
end Rei
