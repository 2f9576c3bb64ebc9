import Verif.Props.CogniFile
import Verif.Props.Factory

/-!
# Two files of the repository, and what the reader makes of them
-/
namespace Rei.Cogni
open Rei Rei.Sample PyM

/-- A link of the pendulum. -/
def pendulumLink (name : String) (pose : Option Pose) (mass : Rat) (viz mat : String) (c : GeomClass) (v : List Rat) :
    LinkDecl :=
  { name := name.toList, pose := pose, body := some { mass := mass, solids := [
    { visual := true, id := some viz.toList, material := some mat.toList, geom := .solid c (.vec (v.map .num)) },
    { visual := false, id := none, geom := .ref (name ++ "/" ++ viz).toList }] } }

/-- A joint of the pendulum. -/
def pendulumJoint (name a ty b : String) (pose : Option Pose) (axis : Option (List Rat)) : JointDecl :=
  { name := name.toList, rels := [{ type := "fix".toList, dir := "<-".toList, ref := a.toList },
    { type := ty.toList, dir := "->".toList, ref := b.toList, pose := pose, axis := axis.map (·.map .num) }] }

/-- `examples/pendulum.cogni`. -/
def pendulum : EntityDecl :=
  { name := "pendulum_simple".toList
    body := .kinematic "basic_structure".toList
      (.link (pendulumLink "base" (some { trans := [.num 0, .num 0, .num (1/2)] }) (1/10) "viz" "wood" .cylinder [1/10, 1])
      (.link (pendulumLink "arm" (some { trans := [.num 0, .num 0, .num (385/1000)] }) (1/10) "viz_arm" "wood" .cylinder
        [1/20, 3/4])
      (.link (pendulumLink "ball" none (1/2) "viz" "red" .ellipsoid [85/1000])
      (.joint (pendulumJoint "world_base" "world" "fix" "base" none none)
      (.joint (pendulumJoint "base_arm" "base" "rev" "arm" (some ⟨[.num (1/5), .num 0, .num (1/2)],
        some (some .d, [.num 0, .num 0, .num 0])⟩) (some [1, 0, 0]))
      (.joint (pendulumJoint "arm_ball" "arm" "rev" "ball" (some { trans := [.num 0, .num 0, .num (385/1000)] })
        (some [0, 0, 1])) .nil)))))) .nil }

/-- A file with parameters, one in the entity, one (ignored) in a kinematic graph, and a plain node. -/
def parameterized : EntityDecl :=
  { name := "bot".toList
    body := .params [("R".toList, 1/4), ("W".toList, 3)]
      (.kinematic "k".toList (.params [("X".toList, 9)] (.link ⟨"tire".toList, none, some ⟨1, none,
        [⟨true, some "v".toList, none, .solid .cylinder (.vec [.param "R".toList, .num 2])⟩]⟩⟩ .nil)) (.skipped .nil)) }

/-- What the reader is left with after a file, from nothing, with a wall clock. -/
def run (f : EntityDecl) : Except Err FileIcon × Heap := readFile E0 "cogni_lang_file".toList .local f Heap.empty

set_option maxRecDepth 100000

theorem accepted_of {f : EntityDecl} (e : (run f).1.toOption.isSome = true) : ∃ I, run f = (.ok I, (run f).2) := by
  cases q : run f with
  | mk r h' =>
    rw [q] at e
    cases r with
    | error _ => cases e
    | ok I => exact ⟨I, rfl⟩

/-- A small file: a parameter, and a link posed with it. -/
def small : EntityDecl :=
  { name := ['e']
    body := .params [(['R'], 1/4)] (.link { name := ['l'], pose := some { trans := [.param ['R']] }, body := none } .nil) }

theorem small_accepted : ∃ I, run small = (.ok I, (run small).2) := accepted_of (by decide +kernel)

/-- C76, C77, C78: their hypotheses are met by the small file. -/
example : ∃ I h', Reach E0 Heap.empty ∧ readFile E0 "cogni_lang_file".toList .local small Heap.empty = (.ok I, h') := by
  obtain ⟨I, e⟩ := small_accepted
  exact ⟨I, _, .init, e⟩

/-- C78 at the file with parameters: `R` and `W`, not `X`. -/
example : parameterized.body.declared = [("R".toList, 1/4), ("W".toList, 3)] := rfl

/-- C79: a link posed with a parameter, with and without its declaration. -/
example : ¬ (Items.link { name := ['l'], pose := some { trans := [.param ['q']] }, body := none } .nil).Scoped true [] ∧
    (Items.params [(['q'], 1)] (.link { name := ['l'], pose := some { trans := [.param ['q']] }, body := none } .nil)).Scoped
      true [] := by
  constructor
  · intro q
    have := q.1 [.param ['q']] (by simp [LinkDecl.vectors, Pose.vectors]) (.param ['q']) (by simp)
    simp [FVal.Scoped] at this
  · simp [Items.Scoped, LinkDecl.vectors, Pose.vectors, FVal.Scoped]

end Rei.Cogni
