import Verif.Props.Grammar
import Verif.Props.CogniAccept

/-!
# The example files of the repository as texts
-/
namespace Rei.Cogni

/-- The characters of a text that is written out. -/
macro "chars!" s:str : term => do
  let cs : Array (Lean.TSyntax `term) := s.getString.toList.toArray.map fun c => Lean.Syntax.mkCharLit c
  `([$cs,*])

/-- `examples/pendulum.cogni`. -/
def pendulumText : Str := chars! "entity pendulum_simple
{
    kinematic basic_structure {
        link base @ [[0.0 0.0 0.5]] {
            inertia {mass 0.1}
            visual viz (material wood) {cylinder [0.1 1.0] }
            collision {{base/viz}}
        }
        link arm @ [[0.0 0.0 0.385]]{
            inertia {mass 0.1}
            visual viz_arm (material wood) {cylinder [0.05 0.75]}
            collision {{arm/viz_arm}}
        }
        link ball {
            inertia {mass 0.5}
            visual viz (material red) {ellipsoid [0.085]}
            collision {{ball/viz}}
        }
        joint world_base: fix <- {world} fix -> {base}
        joint base_arm: fix <- {base} rev -> {arm} [[0.20, 0.0, 0.5],d[0.0,0.0,0.0]] | [1.0 0.0 0.0]
        joint arm_ball: fix <- {arm} rev -> {ball} [[0.0, 0.0, 0.385]] | [0.0, 0.0 1.0]
    }

}
"

/-- `examples/two_link_pendulum.cogni`. -/
def twoLinkPendulumText : Str := chars! "entity pendulum_two_link
{
    kinematic basic_structure {
        link base @ [[0.0 0.0 0.7]] {
            inertia {mass 0.1}
            visual viz (material white) {cylinder [0.1 1.4] }
            collision {{base/viz}}
        }
        link arm_1 @ [[0.0 0.0 0.25]]{
            inertia {mass 0.1}
            visual viz_arm (material wood) {cylinder [0.025 0.5]}
            collision {{arm_1/viz_arm}}
        }
        link arm_2 @ [[0.0 0.0 0.25]]{
            inertia {mass 0.1}
            visual viz_arm (material wood) {cylinder [0.025 0.5]}
            collision {{arm_2/viz_arm}}
        }
        link ball {
            inertia {mass 0.5}
            visual viz (material red) {ellipsoid [0.085]}
            collision {{ball/viz}}
        }
        joint world_base: fix <- {world} fix -> {base}
        joint base_arm_1: fix <- {base} rev -> {arm_1} [[0.20, 0.0, 0.7],d[0.0,0.0,0.0]] | [1.0 0.0 0.0]
        joint base_arm_2: fix <- {arm_1} rev -> {arm_2} [[0.0, 0.0, 0.25],d[0.0,0.0,0.0]] | [1.0 0.0 0.0]
        joint arm_ball: fix <- {arm_2} rev -> {ball} [[0.0, 0.0, 0.3]] | [0.0, 0.0 1.0]
    }

}
"

/-- `examples/example_kinematic_loop.cogni`. -/
def kinematicLoopText : Str := chars! "entity kinematic_loop_entity
{
    kinematic basic_structure {
        link link_01 {
            inertia {mass 0.1}
            visual viz_link01 {polyhedron [0.1 0.1 0.1] }
            collision {{link_01/viz_link01}}
        }
        link link_02 {
            inertia {mass 0.1}
            visual {{link_01/viz_link01}}
            collision {{link_01/viz_link01}}
        }
        link link_03 {
            inertia {mass 0.1}
            visual {{link_01/viz_link01}}
            collision {{link_01/viz_link01}}
        }
        link link_04 {
            inertia { mass 0.1}
            visual {{link_01/viz_link01}}
            collision {{link_01/viz_link01}}
        }
        joint connect_12: fix <- {link_01} rev -> {link_02} [[1.0, 0.0, 0.0],d[0.0,0.0,0.0]] | [0.0 0.0 1.0]
        joint connect_23: fix <- {link_02} rev -> {link_03} [[0.0, 0.0, 1.0]] | [0.0, 0.0 1.0]
        joint connect_34: fix <- {link_03} rev -> {link_04} [[-1.0, 0.0, 0.0]] | [0.0, 0.0, 1.0]
        joint connect_41: fix <- {link_04} rev -> {link_01} [[0.0, 0.0, -1.0]] | [0.0, 0.0, 1.0]
    }

}
"

/-- `examples/example_robotcar.cogni`. -/
def carText : Str := chars! "entity simplebot
{
    kinematic basic_structure {
        kinematic wheel
        {
            root link wheel_base
            {
                inertia { mass 1.0 }
                visual wheel_base_viz (material red){
                    cylinder [0.02, 0.05]
                }
                collision {{wheel_base/wheel_base_viz}}
            }
            link tire @ [[0.0 0.0 0.02]]
            {
                inertia { mass 2.5 }
                visual wheel_viz (material black) {
                    cylinder [0.085 0.03]
                }
                collision {{tire/wheel_viz}}
            }
            joint wheel_joint: fix <- {wheel_base} rev -> {tire} [[0.0 0.0 0.0] [0.0 0.0 0.0]] | [0.0 0.0 1.0]
        }
        root link base_link @ [[0.0 0.0 0.1]]
        {
            inertia { mass 5.0 }
            visual base_link_viz (material white){
                polyhedron [0.3 0.2 0.1]
            }
            collision {{base_link/base_link_viz}}
        }
        joint wheel_left_front: fix <- {base_link} fix -> {wheel} [[0.1 0.12 0.0]d[-90.0 0.0 0.0]] | [0.0 0.0 1.0]
        joint wheel_right_front: fix <- {base_link} fix -> {wheel} [[0.1 -0.12 0.0]d[90.0 0.0 0.0]]| [0.0 0.0 -1.0]
        joint wheel_right_rear: fix <- {base_link} fix -> {wheel} [[-0.1 -0.12 0.0]d[90.0 0.0 0.0]]| [0.0 0.0 -1.0]
        joint wheel_left_rear: fix <- {base_link} fix -> {wheel} [[-0.1 0.12 0.0]d[-90.0 0.0 0.0]]| [0.0 0.0 1.0]
    }
}
"

/-- `examples/example_robotcar_w_parameters.cogni`. -/
def parameterizedCarText : Str := chars! "entity simplebot_parameterized
{
    parameters {
        WHEEL_RADIUS = 0.085
        WHEEL_WIDTH = 0.03
    }
    kinematic basic_structure {
        kinematic wheel
        {
            root link wheel_base
            {
                inertia { mass 1.0 }
                visual wheel_base_viz (material red){
                    cylinder [0.02, 0.05]
                }
                collision {{wheel_base/wheel_base_viz}}
            }
            link tire @ [[0.0 0.0 0.02]]
            {
                inertia { mass 2.5 }
                visual wheel_viz (material black) {
                    cylinder [{WHEEL_RADIUS} {WHEEL_WIDTH}]
                }
                collision {{tire/wheel_viz}}
            }
            joint wheel_joint: fix <- {wheel_base} rev -> {tire} [[0.0 0.0 0.0] [0.0 0.0 0.0]] | [0.0 0.0 1.0]
        }
        root link base_link @ [[0.0 0.0 0.1]]
        {
            inertia { mass 5.0 }
            visual base_link_viz (material white){
                polyhedron [0.3 0.2 0.1]
            }
            collision {{base_link/base_link_viz}}
        }
        joint wheel_left_front: fix <- {base_link} fix -> {wheel} [[0.1 0.12 0.0]d[-90.0 0.0 0.0]] | [0.0 0.0 1.0]
        joint wheel_right_front: fix <- {base_link} fix -> {wheel} [[0.1 -0.12 0.0]d[90.0 0.0 0.0]]| [0.0 0.0 -1.0]
        joint wheel_right_rear: fix <- {base_link} fix -> {wheel} [[-0.1 -0.12 0.0]d[90.0 0.0 0.0]]| [0.0 0.0 -1.0]
        joint wheel_left_rear: fix <- {base_link} fix -> {wheel} [[-0.1 0.12 0.0]d[-90.0 0.0 0.0]]| [0.0 0.0 1.0]
    }
}
"

/-- `examples/example_robotcar_ambient.cogni`. -/
def ambientCarText : Str := chars! "entity simplebot_with_ambient
{
    parameters {
        WHEEL_RADIUS = 0.085
    }
    kinematic basic_structure {
        kinematic wheel
        {
            root link wheel_base
            {
                inertia { mass 1.0 }
                visual wheel_base_viz (material red){
                    cylinder [0.02, 0.05]
                }
                collision {{wheel_base/wheel_base_viz}}
            }
            link tire @ [[0.0 0.0 0.02]]
            {
                inertia { mass 2.5 }
                visual wheel_viz (material black) {
                    cylinder [{WHEEL_RADIUS} 0.03]
                }
                collision {{tire/wheel_viz}}
            }
            joint wheel_joint: fix <- {wheel_base} rev -> {tire} [[0.0 0.0 0.0] [0.0 0.0 0.0]] | [0.0 0.0 1.0]
        }
        root link base_link @ [[0.0 0.0 0.1]]
        {
            inertia { mass 5.0 }
            visual base_link_viz (material white){
                polyhedron [0.3 0.2 0.1]
            }
            collision {{base_link/base_link_viz}}
        }
        joint wheel_left_front: fix <- {base_link} fix -> {wheel} [[0.1 0.12 0.0]d[-90.0 0.0 0.0]] | [0.0 0.0 1.0]
        joint wheel_right_front: fix <- {base_link} fix -> {wheel} [[0.1 -0.12 0.0]d[90.0 0.0 0.0]]| [0.0 0.0 -1.0]
        joint wheel_right_rear: fix <- {base_link} fix -> {wheel} [[-0.1 -0.12 0.0]d[90.0 0.0 0.0]]| [0.0 0.0 -1.0]
        joint wheel_left_rear: fix <- {base_link} fix -> {wheel} [[-0.1 0.12 0.0]d[-90.0 0.0 0.0]]| [0.0 0.0 1.0]
    }
    ambient simplebot_ambience {
         actuator wheel_motor {
            double power = 40.0
            double max_torque = 1.5
            double max_current = 1.2
         }
         sensor camera_front visual  {
            int width = 1960
            int height = 1080
            string format = \"RGB8\"
         }
         sensor gnss_coarse gnss {

         }
         port gnss_output : \"/gnss\" (\"sensor_msgs/PoseStamped\") {
         }
         port encoder_wheel : \"/joint_state\" (\"sensor_msgs/JointState\") {
         }
         port joint_cmd : \"/joint_cmd\" (\"sensor_msgs/JointCmd\") {
         }
         ambience wheel_connection:
            at -> {basic_structure/wheel_left_front},
            at -> {basic_structure/wheel_right_front},
            at -> {basic_structure/wheel_right_rear},
            at -> {basic_structure/wheel_left_rear},
            union comm -> stream {encoder_wheel},
            union comm <- stream {joint_cmd}
         ambience gnss_connection:
            at -> {basic_structure/base_link}
            comm -> stream {gnss_output}
    }
}
"

set_option maxRecDepth 100000

theorem pendulum_reads : ReadsAs pendulumText (some pendulum) := .of_parse 3 (by decide +kernel)

theorem twoLinkPendulum_reads : ReadsAs twoLinkPendulumText (some twoLinkPendulum) := .of_parse 3 (by decide +kernel)

theorem kinematicLoop_reads : ReadsAs kinematicLoopText (some kinematicLoop) := .of_parse 3 (by decide +kernel)

theorem car_reads : ReadsAs carText (some car) := .of_parse 4 (by decide +kernel)

theorem parameterizedCar_reads : ReadsAs parameterizedCarText (some parameterizedCar) := .of_parse 4 (by decide +kernel)

end Rei.Cogni
