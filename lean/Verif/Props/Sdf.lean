import Verif.Spec.Sdf
import Verif.Props.Script
import Verif.Props.Containment
import Verif.Props.QueryEngine
import Verif.Props.Factorization
import Mathlib.Tactic.Ring
import Mathlib.Tactic.Linarith
import Mathlib.Tactic.FieldSimp

/-!
# C64, C65: solids in the SDF export
-/
namespace Rei

theorem numsAttr_of {h : Heap} {x : Ref} {k : String} {l : List Rat}
    (e : getAttribute h x k.toList = some (.nums l)) : numsAttr h x k = .ok l := by
  unfold numsAttr; rw [e]

/-- **C64.** A geometry element that stands for a solid is exported as an element that a simulator reads as
that solid. -/
theorem C64_geometry {h : Heap} {e : Ref} {s : Shape} (hs : HasShape h e s) :
    ∃ x, typeGeometry h e = .ok (some x) ∧ readShape x = some s := by
  obtain ⟨k, l, hk, hl, hs⟩ := hs
  have hn := numsAttr_of hl
  unfold shapeOf at hs
  split at hs
  all_goals cases hs
  all_goals
    simp only [typeGeometry, hk, hn]
    exact ⟨_, rfl, rfl⟩

/-- **C64, boxes with two sides.** A polyhedron with two values becomes a box without a size, which no
simulator can read; one with no or more than three values becomes nothing. -/
theorem C64_box_refuted {h : Heap} {e : Ref} (hk : (h.get e).kind = .semantic .polyhedron) {l : List Rat}
    (hl : getAttribute h e "values".toList = some (.nums l)) :
    (∀ a b, l = [a, b] → ∃ x, typeGeometry h e = .ok (some x) ∧ readShape x = none) ∧
    (l.length = 0 ∨ 3 < l.length → typeGeometry h e = .ok none) := by
  have hn := numsAttr_of hl
  constructor
  · rintro a b rfl
    simp only [typeGeometry, hk, hn]
    exact ⟨_, rfl, rfl⟩
  · intro hlen
    simp only [typeGeometry, hk, hn]
    match l, hlen with
    | [], _ => rfl
    | [_], h => simp at h
    | [_, _], h => simp at h
    | [_, _, _], h => simp at h
    | _ :: _ :: _ :: _ :: _, _ => rfl

/-- **C64, polyhedra with no or more than three values, continued.** Where one is the geometry of a solid itself, the
solid gets a geometry element without content; where it is reached through a reference, the export raises
`TypeError`. -/
theorem C64_empty_refuted {h : Heap} {e : Ref} (hk : (h.get e).kind = .semantic .polyhedron) {l : List Rat}
    (hl : getAttribute h e "values".toList = some (.nums l)) (hlen : l.length = 0 ∨ 3 < l.length) :
    (∀ v, h.subGeometries v = [e] → ownGeometries h v = .ok [.el "geometry".toList [] [] []]) ∧
    (∀ u g gs es, h.subNodes u = g :: gs → h.subGeometries g = e :: es → farGeometries h u = .error .typeError) := by
  have ht := (C64_box_refuted hk hl).2 hlen
  constructor
  · intro v hv
    unfold ownGeometries
    rw [hv, List.mapM_cons, ht]
    rfl
  · intro u g gs es hu hg
    unfold farGeometries
    have hf : farGeometry h e = .error .typeError := by unfold farGeometry; rw [ht]
    rw [hu, List.mapM_cons, hg, List.mapM_cons, hf]
    rfl

/-- **C64, ellipsoids with other numbers of values.** An ellipsoid with neither one nor three values becomes an ellipsoid
element with all of them as radii, which no simulator can read. -/
theorem C64_ellipsoid_refuted {h : Heap} {e : Ref} (hk : (h.get e).kind = .semantic .ellipsoid) {l : List Rat}
    (hl : getAttribute h e "values".toList = some (.nums l)) (h1 : l.length ≠ 1) (h3 : l.length ≠ 3) :
    ∃ x, typeGeometry h e = .ok (some x) ∧ x.tag = "ellipsoid".toList ∧ x.numbers? "radii" = some l ∧ readShape x = none := by
  have nums : ∀ l : List Rat, ((l.map Tok.num).mapM fun t => match t with | .num q => some q | _ => none) = some l := by
    intro l
    induction l with
    | nil => rfl
    | cons a l ih => rw [List.map_cons, List.mapM_cons, ih]; rfl
  have hx : (Xml.el "ellipsoid".toList [] [] [textEl "radii" (l.map .num)]).numbers? "radii" = some l := nums l
  refine ⟨_, ?_, rfl, hx, ?_⟩
  · simp only [typeGeometry, hk, numsAttr_of hl]
    exact if_neg h1
  · unfold readShape
    have tag : (Xml.el "ellipsoid".toList [] [] [textEl "radii" (l.map .num)]).tag = "ellipsoid".toList := rfl
    rw [tag, if_neg (by decide), if_neg (by decide), if_pos rfl, hx]
    match l, h3 with
    | [], _ => rfl
    | [_], _ => rfl
    | [_, _], _ => rfl
    | [_, _, _], h => simp at h
    | _ :: _ :: _ :: _ :: _, _ => rfl

theorem inertiaGeometry_of {h : Heap} {s : Shape} : ∀ {ns : List Ref},
    (∀ v ∈ ns, ∀ w ∈ h.subNodes v, ∀ e ∈ h.subGeometries w, HasShape h e s) →
    (∃ v ∈ ns, ∃ w, (h.subNodes v).head? = some w ∧ h.subGeometries w ≠ []) →
    inertiaGeometry h ns ≠ [] ∧ ∀ e ∈ inertiaGeometry h ns, HasShape h e s
  | [], _, ⟨v, hv, _⟩ => by cases hv
  | n :: ns, ha, hs => by
    have rest : (∃ v ∈ ns, ∃ w, (h.subNodes v).head? = some w ∧ h.subGeometries w ≠ []) → _ :=
      inertiaGeometry_of (ns := ns) fun v hv => ha v (List.mem_cons_of_mem _ hv)
    unfold inertiaGeometry
    cases hn : h.subNodes n with
    | nil =>
      apply rest
      obtain ⟨v, hv, w, hw, e⟩ := hs
      rcases List.mem_cons.1 hv with rfl | hv
      · rw [hn] at hw; cases hw
      · exact ⟨v, hv, w, hw, e⟩
    | cons g gs =>
      dsimp only
      by_cases hg : h.subGeometries g = []
      · rw [if_pos hg]
        apply rest
        obtain ⟨v, hv, w, hw, e⟩ := hs
        rcases List.mem_cons.1 hv with rfl | hv
        · rw [hn] at hw; cases hw; exact absurd hg e
        · exact ⟨v, hv, w, hw, e⟩
      · rw [if_neg hg]
        exact ⟨hg, ha n (by simp) g (by rw [hn]; simp)⟩

theorem HasShape.kind_sphere {h : Heap} {e : Ref} {r : Rat} (q : HasShape h e (.sphere r)) :
    (h.get e).kind = .semantic .ellipsoid ∧ getAttribute h e "values".toList = some (.nums [r]) := by
  obtain ⟨k, l, hk, hl, hs⟩ := q
  unfold shapeOf at hs
  split at hs <;> cases hs
  exact ⟨hk, hl⟩

theorem HasShape.kind_cylinder {h : Heap} {e : Ref} {r l : Rat} (q : HasShape h e (.cylinder r l)) :
    (h.get e).kind = .semantic .cylinder ∧ getAttribute h e "values".toList = some (.nums [r, l]) := by
  obtain ⟨k, v, hk, hl, hs⟩ := q
  unfold shapeOf at hs
  split at hs <;> cases hs
  exact ⟨hk, hl⟩

theorem HasShape.kind_box {h : Heap} {e : Ref} {x y z : Rat} (q : HasShape h e (.box x y z)) :
    (h.get e).kind = .semantic .polyhedron := by
  obtain ⟨k, v, hk, hl, hs⟩ := q
  unfold shapeOf at hs
  split at hs <;> cases hs
  all_goals exact hk

theorem HasShape.kind_ellipsoid {h : Heap} {e : Ref} {a b c : Rat} (q : HasShape h e (.ellipsoid a b c)) :
    (h.get e).kind = .semantic .ellipsoid ∧ getAttribute h e "values".toList = some (.nums [a, b, c]) := by
  obtain ⟨k, v, hk, hl, hs⟩ := q
  unfold shapeOf at hs
  split at hs <;> cases hs
  exact ⟨hk, hl⟩

theorem inertiaValues_const {h : Heap} {m : Option AttrVal} {v : Option (List Rat)} {P : Ref → Prop}
    (step : ∀ g, P g → ∀ gs w, inertiaValues h m (g :: gs) w = inertiaValues h m gs v) :
    ∀ {gs : List Ref}, gs ≠ [] → (∀ g ∈ gs, P g) → ∀ w, inertiaValues h m gs w = .ok v
  | [], hne, _, _ => absurd rfl hne
  | [g], _, hp, w => by rw [step g (hp g (by simp))]; rfl
  | g :: g' :: gs, _, hp, w => by
    rw [step g (hp g (by simp))]
    exact inertiaValues_const step (by simp) (fun x hx => hp x (List.mem_cons_of_mem _ hx)) _

/-- The exported inertia of a link with one inertia element, from the values computed. -/
theorem encodeInertia_of {h : Heap} {link n : Ref} (hp : (h.get link).parent = some n) {m : Rat}
    (hm : HasMass h n m) {a b c d e f : Rat}
    (hv : inertiaValues h (some (.num m)) (inertiaGeometry h (h.subNodes n)) (some [1, 1, 1, 0, 0, 0]) =
      .ok (some [a, b, c, d, e, f])) :
    ∃ x, encodeInertia h link = .ok [x] ∧ readInertial x = some ⟨m, a, b, c, d, e, f⟩ := by
  obtain ⟨i, hi, hma⟩ := hm
  unfold Heap.subSemantic at hi
  unfold encodeInertia
  simp only [hp, hi, List.mapM_cons, List.mapM_nil, inertiaParts, hma, hv]
  exact ⟨_, rfl, rfl⟩

/-- **C65, several inertia elements.** If a link has any number of inertia elements, at least one, and is a sphere, all
of them end up in one `<inertial>`: a mass and an inertia for each, in order. -/
theorem C65_several_partial {h : Heap} {link n : Ref} (hp : (h.get link).parent = some n) {r : Rat}
    (hs : SolidLink h n (.sphere r)) {ms : List Rat} (hne : ms ≠ [])
    (hm : (h.subSemantic .inertia n).map (fun i => getAttribute h i "mass".toList) = ms.map fun m => some (.num m)) :
    ∃ x, encodeInertia h link = .ok [x] ∧ x.tag = "inertial".toList ∧
      x.children = ms.flatMap fun m => [textEl "mass" [.num m], .el "inertia".toList [] []
        [textEl "ixx" [.num (2 / 5 * m * r * r)], textEl "iyy" [.num (2 / 5 * m * r * r)],
          textEl "izz" [.num (2 / 5 * m * r * r)], textEl "ixy" [.num 0], textEl "ixz" [.num 0], textEl "iyz" [.num 0]]] := by
  obtain ⟨gne, hall⟩ := inertiaGeometry_of hs.all hs.some
  have val : ∀ m : Rat, inertiaValues h (some (.num m)) (inertiaGeometry h (h.subNodes n)) (some [1, 1, 1, 0, 0, 0]) =
      .ok (some [2 / 5 * m * r * r, 2 / 5 * m * r * r, 2 / 5 * m * r * r, 0, 0, 0]) := fun m =>
    inertiaValues_const (h := h) (m := some (.num m)) (P := fun e => HasShape h e (.sphere r))
      (by
        intro g hg gs w
        obtain ⟨hk, hl⟩ := hg.kind_sphere
        conv_lhs => unfold inertiaValues
        simp only [hk, ellipsoidInertia, numsAttr_of hl]
        rfl) gne hall (some [1, 1, 1, 0, 0, 0])
  have rows : ∀ (is : List Ref) (ms : List Rat), is.map (fun i => getAttribute h i "mass".toList) = ms.map (fun m => some (.num m)) →
      is.mapM (inertiaParts h (inertiaGeometry h (h.subNodes n))) = .ok (ms.map fun m => [textEl "mass" [.num m], .el "inertia".toList [] []
        [textEl "ixx" [.num (2 / 5 * m * r * r)], textEl "iyy" [.num (2 / 5 * m * r * r)],
          textEl "izz" [.num (2 / 5 * m * r * r)], textEl "ixy" [.num 0], textEl "ixz" [.num 0], textEl "iyz" [.num 0]]]) := by
    intro is
    induction is with
    | nil =>
      intro ms hm
      cases ms with
      | nil => rfl
      | cons _ _ => cases hm
    | cons i is ih =>
      intro ms hm
      cases ms with
      | nil => cases hm
      | cons m ms =>
        simp only [List.map_cons, List.cons.injEq] at hm
        have one : inertiaParts h (inertiaGeometry h (h.subNodes n)) i = .ok [textEl "mass" [.num m], .el "inertia".toList [] []
            [textEl "ixx" [.num (2 / 5 * m * r * r)], textEl "iyy" [.num (2 / 5 * m * r * r)],
              textEl "izz" [.num (2 / 5 * m * r * r)], textEl "ixy" [.num 0], textEl "ixz" [.num 0], textEl "iyz" [.num 0]]] := by
          unfold inertiaParts
          simp only [hm.1, val]
          rfl
        rw [List.mapM_cons, one, ih ms hm.2]
        rfl
  unfold encodeInertia
  rw [hp]
  have hm' := rows _ ms hm
  unfold Heap.subSemantic at hm hm'
  cases q : h.getSubelements (fun x => (h.get x).kind = .semantic .inertia) n with
  | nil =>
    rw [q] at hm
    cases ms with
    | nil => exact absurd rfl hne
    | cons _ _ => cases hm
  | cons i is =>
    rw [q] at hm'
    refine ⟨.el "inertial".toList [] [] _, ?_, rfl, rfl⟩
    simp only []
    rw [q]
    show (do
      let rows ← (i :: is).mapM (inertiaParts h (inertiaGeometry h (h.subNodes n)))
      pure [Xml.el "inertial".toList [] [] rows.flatten]) = _
    rw [hm', ← List.flatMap_def]
    rfl

/-- **C65, spheres.** The exported inertia of a link that is a homogeneous sphere is that of the sphere. -/
theorem C65_sphere_partial {h : Heap} {link n : Ref} (hp : (h.get link).parent = some n) {m r : Rat}
    (hm : HasMass h n m) (hs : SolidLink h n (.sphere r)) :
    ∃ x, encodeInertia h link = .ok [x] ∧ readInertial x = some (inertialOf m (.sphere r)) := by
  obtain ⟨hne, hall⟩ := inertiaGeometry_of hs.all hs.some
  have := inertiaValues_const (h := h) (m := some (.num m))
    (v := some [2 / 5 * m * r * r, 2 / 5 * m * r * r, 2 / 5 * m * r * r, 0, 0, 0]) (P := fun e => HasShape h e (.sphere r))
    (by
      intro g hg gs w
      obtain ⟨hk, hl⟩ := hg.kind_sphere
      conv_lhs => unfold inertiaValues
      simp only [hk, ellipsoidInertia, numsAttr_of hl]
      rfl) hne hall (some [1, 1, 1, 0, 0, 0])
  obtain ⟨x, hx, hr⟩ := encodeInertia_of hp hm this
  refine ⟨x, hx, ?_⟩
  rw [hr]
  simp only [inertialOf, momentsOf]
  congr 2 <;> ring

/-- What is exported for a cylinder: radius and length are exchanged in the inertia. -/
theorem cylinder_swapped {h : Heap} {link n : Ref} (hp : (h.get link).parent = some n) {m r l : Rat}
    (hm : HasMass h n m) (hs : SolidLink h n (.cylinder r l)) :
    ∃ x, encodeInertia h link = .ok [x] ∧ readInertial x = some (inertialOf m (.cylinder l r)) := by
  obtain ⟨hne, hall⟩ := inertiaGeometry_of hs.all hs.some
  have := inertiaValues_const (h := h) (m := some (.num m))
    (v := some [1 / 12 * m * (3 * l * l + r * r), 1 / 12 * m * (3 * l * l + r * r), 1 / 2 * m * l * l, 0, 0, 0])
    (P := fun e => HasShape h e (.cylinder r l))
    (by
      intro g hg gs w
      obtain ⟨hk, hl⟩ := hg.kind_cylinder
      conv_lhs => unfold inertiaValues
      simp only [hk, cylinderInertia, numsAttr_of hl]
      rfl) hne hall (some [1, 1, 1, 0, 0, 0])
  obtain ⟨x, hx, hr⟩ := encodeInertia_of hp hm this
  refine ⟨x, hx, ?_⟩
  rw [hr]
  simp only [inertialOf, momentsOf]
  congr 2 <;> ring

/-- **C65, cylinders.** The exported inertia of a link that is a homogeneous cylinder is that of the cylinder
exactly when the mass is zero or radius and length are equal up to sign. -/
theorem C65_cylinder_iff_partial {h : Heap} {link n : Ref} (hp : (h.get link).parent = some n) {m r l : Rat}
    (hm : HasMass h n m) (hs : SolidLink h n (.cylinder r l)) :
    ∃ x, encodeInertia h link = .ok [x] ∧
      (readInertial x = some (inertialOf m (.cylinder r l)) ↔ m = 0 ∨ r ^ 2 = l ^ 2) := by
  obtain ⟨x, hx, hr⟩ := cylinder_swapped hp hm hs
  refine ⟨x, hx, ?_⟩
  rw [hr]
  simp only [inertialOf, momentsOf, Option.some.injEq, Inertial.mk.injEq, true_and, and_true]
  constructor
  · rintro ⟨_, _, h3⟩
    by_cases hm0 : m = 0
    · exact .inl hm0
    · right
      have : m * (l ^ 2 - r ^ 2) = 0 := by linarith
      rcases mul_eq_zero.1 this with q | q
      · exact absurd q hm0
      · linarith
  · rintro (rfl | q)
    · simp
    · rw [q]; simp

/-- **C65, boxes.** The exported inertia of a link that is a box does not depend on the mass or the size. -/
theorem C65_box_refuted {h : Heap} {link n : Ref} (hp : (h.get link).parent = some n) {m x y z : Rat}
    (hm : HasMass h n m) (hs : SolidLink h n (.box x y z)) :
    ∃ e, encodeInertia h link = .ok [e] ∧ readInertial e = some ⟨m, 1, 1, 1, 0, 0, 0⟩ := by
  obtain ⟨hne, hall⟩ := inertiaGeometry_of hs.all hs.some
  have : ∀ gs : List Ref, (∀ g ∈ gs, HasShape h g (.box x y z)) → ∀ w,
      inertiaValues h (some (.num m)) gs w = .ok w := by
    intro gs
    induction gs with
    | nil => intros; rfl
    | cons g gs ih =>
      intro hg w
      conv_lhs => unfold inertiaValues
      simp only [(hg g (by simp)).kind_box]
      exact ih (fun e he => hg e (List.mem_cons_of_mem _ he)) w
  exact encodeInertia_of hp hm (this _ hall _)

/-- **C65, ellipsoids.** A link that is an ellipsoid with three radii cannot be exported at all. -/
theorem C65_ellipsoid_refuted {h : Heap} {link n : Ref} (hp : (h.get link).parent = some n) {m a b c : Rat}
    (hm : HasMass h n m) (hs : SolidLink h n (.ellipsoid a b c)) : encodeInertia h link = .error .typeError := by
  obtain ⟨hne, hall⟩ := inertiaGeometry_of hs.all hs.some
  have := inertiaValues_const (h := h) (m := some (.num m)) (v := none) (P := fun e => HasShape h e (.ellipsoid a b c))
    (by
      intro g hg gs w
      obtain ⟨hk, hl⟩ := hg.kind_ellipsoid
      conv_lhs => unfold inertiaValues
      simp only [hk, ellipsoidInertia, numsAttr_of hl]
      rfl) hne hall (some [1, 1, 1, 0, 0, 0])
  obtain ⟨i, hi, hma⟩ := hm
  unfold Heap.subSemantic at hi
  unfold encodeInertia
  simp only [hp, hi, List.mapM_cons, List.mapM_nil, inertiaParts, hma, this]
  rfl

end Rei
