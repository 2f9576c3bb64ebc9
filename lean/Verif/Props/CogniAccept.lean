import Verif.Lemmas.AcceptFile
import Verif.Props.CogniSample

/-!
# Well-formed files are accepted (C81), and the files of the repository are well-formed
-/
namespace Rei
open PyM

/-- **C81.** From any state, with collision-free hashes and a clock that never shows the same time twice, a reader accepts
every well-formed file, and then shows it (as C76 says). -/
theorem C81_wellformed_accepted {E : Env} (hsha : ∀ a b, E.sha a = E.sha b → a = b)
    (htime : ∀ i j, E.time i = E.time j → i = j) {h : Heap} (R : Reach E h) (nm : Str) {f : EntityDecl}
    (ok : f.wellFormed = true) :
    ∃ I h' x w, readFile E nm .local f h = (.ok I, h') ∧ I.root = some x ∧ h.size ≤ x ∧ h.size ≤ w ∧ x ≠ w ∧
      IsNode h' w "world".toList ["world".toList] [] ∧
      ShowsFile h' (if f.name = "world".toList then x else w) x f := by
  obtain ⟨I, h', e, -, -⟩ := readFile_goes ⟨hsha, htime⟩ R nm ok
  obtain ⟨x, w, a, b, c, d, i, -, s⟩ := C76_file_shown R e
  exact ⟨I, h', x, w, e, a, b, c, d, i, s⟩

namespace Cogni
open Rei.Sample

/-- A visual or collision node that only refers to another one. -/
def copied (visual : Bool) (ref : String) : SolidDecl := { visual := visual, id := none, geom := .ref ref.toList }

/-- A translation. -/
def at_ (v : List Rat) : Pose := { trans := v.map .num }

/-- `examples/two_link_pendulum.cogni`. -/
def twoLinkPendulum : EntityDecl :=
  { name := "pendulum_two_link".toList
    body := .kinematic "basic_structure".toList
      (.link (pendulumLink "base" (some (at_ [0, 0, 7/10])) (1/10) "viz" "white" .cylinder [1/10, 14/10])
      (.link (pendulumLink "arm_1" (some (at_ [0, 0, 1/4])) (1/10) "viz_arm" "wood" .cylinder [25/1000, 1/2])
      (.link (pendulumLink "arm_2" (some (at_ [0, 0, 1/4])) (1/10) "viz_arm" "wood" .cylinder [25/1000, 1/2])
      (.link (pendulumLink "ball" none (1/2) "viz" "red" .ellipsoid [85/1000])
      (.joint (pendulumJoint "world_base" "world" "fix" "base" none none)
      (.joint (pendulumJoint "base_arm_1" "base" "rev" "arm_1" (some { at_ [1/5, 0, 7/10] with
        rot := some (some .d, [.num 0, .num 0, .num 0]) }) (some [1, 0, 0]))
      (.joint (pendulumJoint "base_arm_2" "arm_1" "rev" "arm_2" (some { at_ [0, 0, 1/4] with
        rot := some (some .d, [.num 0, .num 0, .num 0]) }) (some [1, 0, 0]))
      (.joint (pendulumJoint "arm_ball" "arm_2" "rev" "ball" (some (at_ [0, 0, 3/10])) (some [0, 0, 1]))
        .nil)))))))) .nil }

/-- A link of the kinematic loop that looks like `link_01`. -/
def loopLink (name : String) : LinkDecl :=
  { name := name.toList, pose := none, body := some { mass := 1/10, solids := [
    copied true "link_01/viz_link01", copied false "link_01/viz_link01"] } }

/-- `examples/example_kinematic_loop.cogni`. -/
def kinematicLoop : EntityDecl :=
  { name := "kinematic_loop_entity".toList
    body := .kinematic "basic_structure".toList
      (.link { name := "link_01".toList, pose := none, body := some { mass := 1/10, solids := [
        { visual := true, id := some "viz_link01".toList, geom := .solid .polyhedron (.vec [.num (1/10), .num (1/10), .num (1/10)]) },
        copied false "link_01/viz_link01"] } }
      (.link (loopLink "link_02") (.link (loopLink "link_03") (.link (loopLink "link_04")
      (.joint (pendulumJoint "connect_12" "link_01" "rev" "link_02" (some { at_ [1, 0, 0] with
        rot := some (some .d, [.num 0, .num 0, .num 0]) }) (some [0, 0, 1]))
      (.joint (pendulumJoint "connect_23" "link_02" "rev" "link_03" (some (at_ [0, 0, 1])) (some [0, 0, 1]))
      (.joint (pendulumJoint "connect_34" "link_03" "rev" "link_04" (some (at_ [-1, 0, 0])) (some [0, 0, 1]))
      (.joint (pendulumJoint "connect_41" "link_04" "rev" "link_01" (some (at_ [0, 0, -1])) (some [0, 0, 1]))
        .nil)))))))) .nil }

/-- One of the four joints that hold a wheel. -/
def wheelJoint (name : String) (x y a z : Rat) : JointDecl :=
  pendulumJoint name "base_link" "fix" "wheel" (some { at_ [x, y, 0] with
    rot := some (some .d, [.num a, .num 0, .num 0]) }) (some [0, 0, z])

/-- The body of `basic_structure` in the three `robotcar` examples, which differ in the geometry of the tire. -/
def carBody (tire : List FVal) : Items :=
  .kinematic "wheel".toList
    (.link (pendulumLink "wheel_base" none 1 "wheel_base_viz" "red" .cylinder [2/100, 5/100])
    (.link { name := "tire".toList, pose := some (at_ [0, 0, 2/100]), body := some { mass := 25/10, solids := [
      { visual := true, id := some "wheel_viz".toList, material := some "black".toList, geom := .solid .cylinder (.vec tire) },
      copied false "tire/wheel_viz"] } }
    (.joint (pendulumJoint "wheel_joint" "wheel_base" "rev" "tire" (some { at_ [0, 0, 0] with
      rot := some (none, [.num 0, .num 0, .num 0]) }) (some [0, 0, 1])) .nil)))
  (.link (pendulumLink "base_link" (some (at_ [0, 0, 1/10])) 5 "base_link_viz" "white" .polyhedron [3/10, 2/10, 1/10])
  (.joint (wheelJoint "wheel_left_front" (1/10) (12/100) (-90) 1)
  (.joint (wheelJoint "wheel_right_front" (1/10) (-12/100) 90 (-1))
  (.joint (wheelJoint "wheel_right_rear" (-1/10) (-12/100) 90 (-1))
  (.joint (wheelJoint "wheel_left_rear" (-1/10) (12/100) (-90) 1) .nil)))))

/-- `examples/example_robotcar.cogni`. -/
def car : EntityDecl :=
  { name := "simplebot".toList
    body := .kinematic "basic_structure".toList (carBody [.num (85/1000), .num (3/100)]) .nil }

/-- `examples/example_robotcar_w_parameters.cogni`. -/
def parameterizedCar : EntityDecl :=
  { name := "simplebot_parameterized".toList
    body := .params [("WHEEL_RADIUS".toList, 85/1000), ("WHEEL_WIDTH".toList, 3/100)]
      (.kinematic "basic_structure".toList (carBody [.param "WHEEL_RADIUS".toList, .param "WHEEL_WIDTH".toList]) .nil) }

/-- `examples/example_robotcar_ambient.cogni`; the bodies of the sensors and of the actuator, the three ports and the two
ambience edges are skipped by the visitor. -/
def ambientCar : EntityDecl :=
  { name := "simplebot_with_ambient".toList
    body := .params [("WHEEL_RADIUS".toList, 85/1000)]
      (.kinematic "basic_structure".toList (carBody [.param "WHEEL_RADIUS".toList, .num (3/100)])
      (.ambient "simplebot_ambience".toList (.device "wheel_motor".toList (.device "camera_front".toList
        (.device "gnss_coarse".toList (.skipped (.skipped (.skipped (.skipped (.skipped .nil)))))))) .nil)) }

set_option maxRecDepth 100000

/-- C81: the files of the repository are well-formed. -/
theorem examples_wellFormed : pendulum.wellFormed = true ∧ twoLinkPendulum.wellFormed = true ∧
    kinematicLoop.wellFormed = true ∧ car.wellFormed = true ∧ parameterizedCar.wellFormed = true ∧ ambientCar.wellFormed = true := by
  refine ⟨?_, ?_, ?_, ?_, ?_, ?_⟩ <;> decide +kernel

end Cogni

/-- C81, at the six files of the repository: each is accepted, in every state. -/
theorem C81_examples_accepted {E : Env} (hsha : ∀ a b, E.sha a = E.sha b → a = b)
    (htime : ∀ i j, E.time i = E.time j → i = j) {h : Heap} (R : Reach E h) (nm : Str) :
    ∀ f ∈ [Cogni.pendulum, Cogni.twoLinkPendulum, Cogni.kinematicLoop, Cogni.car, Cogni.parameterizedCar, Cogni.ambientCar],
      ∃ I h', readFile E nm .local f h = (.ok I, h') := by
  intro f hf
  have ok : f.wellFormed = true := by
    obtain ⟨a, b, c, d, e, g⟩ := Cogni.examples_wellFormed
    simp only [List.mem_cons, List.not_mem_nil, or_false] at hf
    rcases hf with rfl | rfl | rfl | rfl | rfl | rfl <;> assumption
  obtain ⟨I, h', _, _, e, _⟩ := C81_wellformed_accepted hsha htime R nm ok
  exact ⟨I, h', e⟩

/-- C81: the world `E1` has injective hashes and distinct times. -/
example : ∃ I h', readFile E1 "cogni_lang_file".toList .local Cogni.ambientCar Heap.empty = (.ok I, h') :=
  C81_examples_accepted (E := E1) wideSha_injective (fun i j (e : 5 * i = 5 * j) => by omega) .init _ _ (by simp)

end Rei
