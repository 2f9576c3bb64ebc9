import Verif.Props.Sdf
import Verif.Props.SdfSolid

/-!
# A pendulum: the hypotheses of C64 to C66 are met by a reachable state

A base link and an arm link joined by one edge.  The base has a visual, a mass, and a collision node whose
geometry is the visual's, reached through a reference edge.
-/
namespace Rei.Robot
open Rei Rei.Script Rei.Sample

/-- A node. -/
def node (n : String) (u : UInt8) (p : Option Nat) : Op := .mkItem .node n.toList [u] (.str []) (some .dummy) p
/-- An edge. -/
def edge (n : String) (u : UInt8) (p : Option Nat) : Op := .mkItem .edge n.toList [u] (.str []) (some .dummy) p
/-- A semantic element. -/
def sem (k : SemKind) (n : String) (u : UInt8) (a : Dict Str AttrVal) : Op := .mkSemantic k [u] n.toList (.str []) a

/-- The calls that build the pendulum; the visual of the base is of class `k` with the given values. -/
def ops (k : SemKind) (vals : List Rat) : List Op := [
  node "pendulum" 1 none,                                                          -- 0
  sem .cognitiveEntity "pendulum" 2 [], .add 0 1,                                  -- 1
  node "structure" 3 (some 0),                                                     -- 2
  sem .kinGraph "structure" 4 [], .add 2 3,                                        -- 3
  node "base" 5 (some 2),                                                          -- 4
  sem .kinLink "base" 6 [], .add 4 5,                                              -- 5
  node "arm" 7 (some 2),                                                           -- 6
  sem .kinLink "arm" 8 [], .add 6 7,                                               -- 7
  sem .rigid "pose" 9 [("translation".toList, .nums [0, 0, 1 / 2]), ("rotation".toList, .nums [0, 0, 90]),
    ("rotation_type".toList, .str "deg".toList)], .add 7 8,                        -- 8
  edge "j" 10 (some 2),                                                            -- 9
  sem .kinJoint "j.base" 11 [("joint_type".toList, .str "fix".toList)],            -- 10
  sem .kinJoint "j.arm" 12 [("joint_type".toList, .str "rev".toList)],             -- 11
  .unaryConnect 9 4 none .inwards (some 10),                                       -- relation 12, port 13
  .unaryConnect 9 6 none .outwards (some 11),                                      -- relation 14, port 15
  node "viz" 13 (some 4),                                                          -- 16
  sem .material "mat" 14 [("material_name".toList, .str "red".toList)], .add 16 17, -- 17
  node "geom" 15 (some 16),                                                        -- 18
  sem k "geom" 16 [("values".toList, .nums vals)], .add 18 19,                     -- 19
  sem .inertia "in" 17 [("mass".toList, .num 3)], .add 4 20,                       -- 20
  node "coll" 18 (some 4),                                                         -- 21
  node "shell" 19 (some 21),                                                       -- 22
  edge "ref" 20 (some 21),                                                         -- 23
  .unaryConnect 23 22 none .inwards none,                                          -- relation 24, port 25
  .unaryConnect 23 16 none .outwards none ]                                        -- relation 26, port 27

/-- The pendulum. -/
def robot (k : SemKind) (vals : List Rat) : Heap := after E0 (ops k vals) Heap.empty

set_option maxRecDepth 100000

theorem reach_cyl : Reach E0 (robot .cylinder [1, 2]) := reach_after _ .init (by decide +kernel)
theorem reach_ball : Reach E0 (robot .ellipsoid [1 / 2]) := reach_after _ .init (by decide +kernel)
theorem reach_box : Reach E0 (robot .polyhedron [1, 2, 3]) := reach_after _ .init (by decide +kernel)
theorem reach_plate : Reach E0 (robot .polyhedron [1, 2]) := reach_after _ .init (by decide +kernel)
theorem reach_egg : Reach E0 (robot .ellipsoid [1, 2, 3]) := reach_after _ .init (by decide +kernel)

theorem link_cyl : ((robot .cylinder [1, 2]).get 5).parent = some 4 := by decide +kernel
theorem mass_cyl : HasMass (robot .cylinder [1, 2]) 4 3 := ⟨20, by decide +kernel, by decide +kernel⟩
theorem shape_cyl : HasShape (robot .cylinder [1, 2]) 19 (.cylinder 1 2) :=
  ⟨.cylinder, [1, 2], by decide +kernel, by decide +kernel, rfl⟩
theorem solid_cyl : SolidLink (robot .cylinder [1, 2]) 4 (.cylinder 1 2) := by
  constructor
  · rw [show (robot .cylinder [1, 2]).subNodes 4 = [16, 21] by decide +kernel]
    intro v hv w hw e he
    have : e = 19 := by
      rcases List.mem_pair.1 hv with rfl | rfl
      · rw [show (robot .cylinder [1, 2]).subNodes 16 = [18] by decide +kernel] at hw
        cases List.mem_singleton.1 hw
        rw [show (robot .cylinder [1, 2]).subGeometries 18 = [19] by decide +kernel] at he
        exact List.mem_singleton.1 he
      · rw [show (robot .cylinder [1, 2]).subNodes 21 = [22] by decide +kernel] at hw
        cases List.mem_singleton.1 hw
        rw [show (robot .cylinder [1, 2]).subGeometries 22 = [] by decide +kernel] at he
        cases he
    rw [this]; exact shape_cyl
  · exact ⟨16, by decide +kernel, 18, by decide +kernel, by decide +kernel⟩

/-- C64 and C65 at the pendulum: the visual is exported as the cylinder it is, but the inertia is wrong. -/
example : (∃ x, typeGeometry (robot .cylinder [1, 2]) 19 = .ok (some x) ∧ readShape x = some (.cylinder 1 2)) ∧
    ∃ x, encodeInertia (robot .cylinder [1, 2]) 5 = .ok [x] ∧
      readInertial x ≠ some (inertialOf 3 (.cylinder 1 2)) := by
  refine ⟨C64_geometry shape_cyl, ?_⟩
  obtain ⟨x, hx, q⟩ := C65_cylinder_iff_partial link_cyl mass_cyl solid_cyl
  refine ⟨x, hx, fun h => ?_⟩
  rcases q.1 h with h | h
  · exact absurd h (by decide)
  · exact absurd h (by norm_num)

/-- The hypotheses of C65 are met by every shape in the sample. -/
theorem solid_at {k : SemKind} {vals : List Rat} {s : Shape} (h1 : (robot k vals).subNodes 4 = [16, 21])
    (h2 : (robot k vals).subNodes 16 = [18]) (h3 : (robot k vals).subNodes 21 = [22])
    (h4 : (robot k vals).subGeometries 18 = [19]) (h5 : (robot k vals).subGeometries 22 = [])
    (hs : HasShape (robot k vals) 19 s) : SolidLink (robot k vals) 4 s := by
  constructor
  · rw [h1]
    intro v hv w hw e he
    have : e = 19 := by
      rcases List.mem_pair.1 hv with rfl | rfl
      · rw [h2] at hw
        cases List.mem_singleton.1 hw
        rw [h4] at he
        exact List.mem_singleton.1 he
      · rw [h3] at hw
        cases List.mem_singleton.1 hw
        rw [h5] at he
        cases he
    rw [this]; exact hs
  · exact ⟨16, by rw [h1]; simp, 18, by rw [h2]; rfl, by rw [h4]; simp⟩

theorem solid_ball : SolidLink (robot .ellipsoid [1 / 2]) 4 (.sphere (1 / 2)) :=
  solid_at (by decide +kernel) (by decide +kernel) (by decide +kernel) (by decide +kernel) (by decide +kernel)
    ⟨.ellipsoid, [1 / 2], by decide +kernel, by decide +kernel, rfl⟩
theorem solid_box : SolidLink (robot .polyhedron [1, 2, 3]) 4 (.box 1 2 3) :=
  solid_at (by decide +kernel) (by decide +kernel) (by decide +kernel) (by decide +kernel) (by decide +kernel)
    ⟨.polyhedron, [1, 2, 3], by decide +kernel, by decide +kernel, rfl⟩
theorem solid_egg : SolidLink (robot .ellipsoid [1, 2, 3]) 4 (.ellipsoid 1 2 3) :=
  solid_at (by decide +kernel) (by decide +kernel) (by decide +kernel) (by decide +kernel) (by decide +kernel)
    ⟨.ellipsoid, [1, 2, 3], by decide +kernel, by decide +kernel, rfl⟩

example : ∃ x, encodeInertia (robot .ellipsoid [1 / 2]) 5 = .ok [x] ∧
    readInertial x = some (inertialOf 3 (.sphere (1 / 2))) :=
  C65_sphere_partial (by decide +kernel) ⟨20, by decide +kernel, by decide +kernel⟩ solid_ball
example : ∃ e, encodeInertia (robot .polyhedron [1, 2, 3]) 5 = .ok [e] ∧
    readInertial e = some ⟨3, 1, 1, 1, 0, 0, 0⟩ :=
  C65_box_refuted (by decide +kernel) ⟨20, by decide +kernel, by decide +kernel⟩ solid_box
example : encodeInertia (robot .ellipsoid [1, 2, 3]) 5 = .error .typeError :=
  C65_ellipsoid_refuted (m := 3) (by decide +kernel) ⟨20, by decide +kernel, by decide +kernel⟩ solid_egg
/-- C64_empty_refuted at the pendulum with four values: as the geometry of the visual, and through the reference of the
collision. -/
example : ownGeometries (robot .polyhedron [1, 2, 3, 4]) 18 = .ok [.el "geometry".toList [] [] []] ∧
    farGeometries (robot .polyhedron [1, 2, 3, 4]) 16 = .error .typeError := by
  have c := C64_empty_refuted (h := robot .polyhedron [1, 2, 3, 4]) (e := 19) (l := [1, 2, 3, 4]) (by decide +kernel)
    (by decide +kernel) (.inr (by decide))
  exact ⟨c.1 18 (by decide +kernel), c.2 16 18 [] [] (by decide +kernel) (by decide +kernel)⟩

example : ∃ x, typeGeometry (robot .polyhedron [1, 2]) 19 = .ok (some x) ∧ readShape x = none :=
  (C64_box_refuted (h := robot .polyhedron [1, 2]) (e := 19) (l := [1, 2]) (by decide +kernel)
    (by decide +kernel)).1 _ _ rfl

example : ∃ x, typeGeometry (robot .ellipsoid [1, 2]) 19 = .ok (some x) ∧ readShape x = none := by
  obtain ⟨x, a, -, -, b⟩ := C64_ellipsoid_refuted (h := robot .ellipsoid [1, 2]) (e := 19) (l := [1, 2]) (by decide +kernel)
    (by decide +kernel) (by decide) (by decide)
  exact ⟨x, a, b⟩

/-- The pendulum with a second inertia element. -/
def heavy : Heap := after E0 (ops .ellipsoid [1 / 2] ++ [sem .inertia "in2" 21 [("mass".toList, .num 5)], .add 4 28]) Heap.empty

theorem reach_heavy : Reach E0 heavy := reach_after _ .init (by decide +kernel)

/-- Its export has one inertial element with two masses and two inertias. -/
example : ∃ x, encodeInertia heavy 5 = .ok [x] ∧ x.children.length = 4 := by
  have S : SolidLink heavy 4 (.sphere (1 / 2)) := by
    have e : heavy.subNodes 4 = [16, 21] := by decide +kernel
    have e1 : heavy.subNodes 16 = [18] := by decide +kernel
    have e2 : heavy.subNodes 21 = [22] := by decide +kernel
    have e3 : heavy.subGeometries 18 = [19] := by decide +kernel
    have e4 : heavy.subGeometries 22 = [] := by decide +kernel
    have hs : HasShape heavy 19 (.sphere (1 / 2)) := ⟨.ellipsoid, [1 / 2], by decide +kernel, by decide +kernel, rfl⟩
    constructor
    · intro v hv w hw g hg
      rw [e] at hv
      rcases List.mem_pair.1 hv with rfl | rfl
      · rw [e1] at hw
        cases List.mem_singleton.1 hw
        rw [e3] at hg
        rw [List.mem_singleton.1 hg]
        exact hs
      · rw [e2] at hw
        cases List.mem_singleton.1 hw
        rw [e4] at hg
        cases hg
    · exact ⟨16, by rw [e]; simp, 18, by rw [e1]; rfl, by rw [e3]; simp⟩
  obtain ⟨x, a, -, b⟩ := C65_several_partial (h := heavy) (link := 5) (n := 4) (by decide +kernel) S (ms := [3, 5]) (by simp)
    (by decide +kernel)
  exact ⟨x, a, by rw [b]; rfl⟩

/-- The cylinder pendulum. -/
abbrev cyl : Heap := robot .cylinder [1, 2]

theorem exportable_18 : Exportable cyl 18 := by
  constructor
  · rw [show cyl.subPorts 18 = [] by decide +kernel]
    intro p hp; cases hp
  · rw [show geometriesAt cyl 18 = [19] by decide +kernel]
    intro e he
    cases List.mem_singleton.1 he
    exact ⟨_, shape_cyl⟩

theorem exportable_22 : Exportable cyl 22 := by
  constructor
  · rw [show cyl.subPorts 22 = [25] by decide +kernel]
    intro p hp
    cases List.mem_singleton.1 hp
    exact ⟨24, 23, by decide +kernel, by decide +kernel, by decide +kernel, by decide +kernel⟩
  · rw [show geometriesAt cyl 22 = [19] by decide +kernel]
    intro e he
    cases List.mem_singleton.1 he
    exact ⟨_, shape_cyl⟩

theorem forall₂_one {α β : Type} {P : α → β → Prop} {a : α} {l : List β} (q : List.Forall₂ P [a] l) :
    ∃ b, l = [b] ∧ P a b := by
  cases q with
  | cons h t => cases t; exact ⟨_, rfl, h⟩

/-- C66 at the pendulum: one visual and one collision, the latter with a referenced geometry. -/
example : ∃ v c, encodeGeometry cyl 4 [] = .ok [v, c] ∧ ExportOf cyl "visual" [] 18 v ∧
    v.materialName = some [.str "Gazebo/Red".toList] ∧ ExportOf cyl "collision" [] 22 c ∧
    c.shapes = [some (.cylinder 1 2)] := by
  have ev : visualsOf cyl 4 = [(18, 17)] := by decide +kernel
  have ec : collisionsOf cyl 4 = [22] := by decide +kernel
  obtain ⟨vs, cs, q, a, b⟩ := C66_solids_partial (h := cyl) (n := 4) [] (by decide +kernel)
    (by
      rw [ev]; intro vm hvm; cases List.mem_singleton.1 hvm
      exact ⟨exportable_18, "red".toList, by decide +kernel⟩)
    (by rw [ec]; intro c hc; cases List.mem_singleton.1 hc; exact exportable_22)
  rw [ev] at a
  rw [ec] at b
  obtain ⟨v, rfl, a'⟩ := forall₂_one a
  obtain ⟨c, rfl, b'⟩ := forall₂_one b
  refine ⟨v, c, q, a'.1, ?_, b', ?_⟩
  · obtain ⟨nm, h1, h2⟩ := a'.2
    rw [show getAttribute cyl 17 "material_name".toList = some (.str "red".toList) by decide +kernel] at h1
    cases h1
    rw [h2]
    decide +kernel
  · obtain ⟨ss, h1, h2⟩ := b'.solids
    rw [show geometriesAt cyl 22 = [19] by decide +kernel] at h1
    obtain ⟨s, rfl, k, l, hk, hl, hs⟩ := forall₂_one h1
    rw [show (cyl.get 19).kind = .semantic .cylinder by decide +kernel] at hk
    rw [show getAttribute cyl 19 "values".toList = some (.nums [1, 2]) by decide +kernel] at hl
    cases hk; cases hl; cases hs
    exact h2

/-- The pendulum with a second visual in the base. -/
def ops2 : List Op := ops .cylinder [1, 2] ++ [
  node "viz2" 31 (some 4),                                                          -- 28
  sem .material "mat2" 32 [("material_name".toList, .str "blue".toList)], .add 28 29, -- 29
  node "geom2" 33 (some 28) ]                                                       -- 30

theorem reach_two : Reach E0 (after E0 ops2 Heap.empty) := reach_after _ .init (by decide +kernel)

example : ∃ e, encodeGeometry (after E0 ops2 Heap.empty) 4 [] = .error e :=
  C66_two_visuals_refuted reach_two (c1 := 16) (c2 := 28) [] (by decide +kernel) (by decide +kernel)
    (by decide) (by decide +kernel) (by decide +kernel) (by decide +kernel) (by decide +kernel)

end Rei.Robot
