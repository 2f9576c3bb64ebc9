import Verif.Spec.Sdf

/-!
# Exports with nested graphs (C86)
-/
namespace Rei

/-- `els` are the links and joints inside `v`. -/
def AllInside (h : Heap) (v : Ref) (els : List Ref) : Prop :=
  els.Nodup ∧ ∀ x, x ∈ els ↔ Inside h v x ∧ ((h.get x).kind = .semantic .kinLink ∨ (h.get x).kind = .semantic .kinJoint)

/-- A joint of `els` leads to the kinematic graph `v`. -/
def LeadsTo (h : Heap) (els : List Ref) (v : Ref) : Prop :=
  ∃ i o, JointPair h els i o ∧ (h.get o).endpoint = some v ∧ HasKinGraph h v

/-- A joint inside the graph `v` leads to the graph `v'`. -/
def NestsIn (h : Heap) (v v' : Ref) : Prop := ∃ els, AllInside h v els ∧ LeadsTo h els v'

/-- The graph `v` is instantiated by the export of `els`, at some depth of nesting. -/
inductive Instantiated (h : Heap) (els : List Ref) : Ref → Prop
  | first {v} : LeadsTo h els v → Instantiated h els v
  | deeper {v v'} : Instantiated h els v → NestsIn h v v' → Instantiated h els v'

/-- The links and joints of `els` can be exported; every graph that a joint of `els` leads to is an element a query looks at
and has a base link, and its joints are placed. -/
structure ExportReady (h : Heap) (els : List Ref) : Prop where
  links : ∀ l ∈ els, (h.get l).kind = .semantic .kinLink → ∃ n, ReadableLink h l n
  sound : SoundSelection h els
  joints : ∀ i o, JointPair h els i o → ReadableJoint h o
  placed : ∀ v, LeadsTo h els v → ∀ j, Inside h v j → (h.get j).kind = .semantic .kinJoint → JointPlaced h j
  bases : ∀ v, LeadsTo h els v → ∃ c, BaseLink h v c
  ends : ∀ v, LeadsTo h els v → Passable (h.get v).kind = true

/-- The links and joints of `els`, and of all graphs that are instantiated by it, can be exported, and graphs are nested
less than `d` deep. -/
def NestsBelow (h : Heap) : Nat → List Ref → Prop
  | 0, _ => False
  | d + 1, els => ExportReady h els ∧ ∀ v, LeadsTo h els v → ∃ ls, AllInside h v ls ∧ NestsBelow h d ls

/-- `x` is the joint that connects an instance of a graph, by its base link `c`, for the incoming relation `i` and the
outgoing relation `o` of the edge `e`. -/
structure ConnectShown (h : Heap) (pre : Str) (i o e c : Ref) (x : Xml) : Prop where
  edge : (h.get o).parent = some e
  tag : x.tag = "joint".toList
  name : x.attr? "name".toList = some (nameIn pre ((h.get e).idName ++ ".connect.".toList ++ (h.get c).idName))
  child : x.childText "child" = some [.str (nameIn pre ((h.get e).idName ++ '.' :: (h.get c).idName))]
  rest : ∃ p j, (h.get i).endpoint = some p ∧ JointOn h o j ∧
    x.attr? "type".toList = some (sdfJointType h j) ∧
    (∃ a b c ax, AxisIs h j a b c ∧ x.child? "axis" = some ax ∧ ax.numbers? "xyz" = some [a, b, c]) ∧
    x.childText "parent" = some [.str (nameIn pre (h.get p).idName)] ∧
    List.Forall₂ (fun t q => PoseOf h t q ∧ q.attr? "relative_to".toList = some (nameIn pre (h.get p).idName))
      (transformsOf h j) (x.every "pose")

mutual

/-- `xs` is the export of the links and joints of `els` in the instance `pre`: every link, then, for every pair of
relations, its joint. -/
inductive Exported (h : Heap) : List Ref → Str → List Xml → Prop
  | intro {els pre ys ps zs} : List.Forall₂ (LinkShown h pre) (ofKind h .kinLink els) ys →
      (∀ i o, (i, o) ∈ ps ↔ JointPair h els i o) → (OneEach h els → ps.Nodup) → ExportedJoints h pre ps zs →
      Exported h els pre (ys ++ zs)

/-- The export of pairs of relations: a joint; or, if it leads to a graph, the joint that connects a base link of the
graph, followed by the export of everything inside the graph, under a prefix with the name of the edge. -/
inductive ExportedJoints (h : Heap) : Str → List (Ref × Ref) → List Xml → Prop
  | nil {pre} : ExportedJoints h pre [] []
  | joint {pre i o v x ps zs} : (h.get o).endpoint = some v → ¬ HasKinGraph h v → JointShown h pre i o x →
      ExportedJoints h pre ps zs → ExportedJoints h pre ((i, o) :: ps) (x :: zs)
  | nested {pre i o v e c x els ws ps zs} : (h.get o).endpoint = some v → HasKinGraph h v → BaseLink h v c →
      ConnectShown h pre i o e c x → AllInside h v els → Exported h els (pre ++ (h.get e).idName) ws →
      ExportedJoints h pre ps zs → ExportedJoints h pre ((i, o) :: ps) (x :: ws ++ zs)

end

end Rei
