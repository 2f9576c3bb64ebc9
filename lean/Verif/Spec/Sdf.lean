import Verif.Model.Sdf
import Verif.Spec.Hierarchy
import Verif.Spec.QueryEngine
import Verif.Spec.Factorization
import Verif.Spec.Traversal

/-!
# Specification of the SDF export (C64 onwards)

How an SDF document is read, and what the solids of the language mean.
-/
namespace Rei

/-- A solid: cylinder of radius `r` and length `l`, sphere, ellipsoid with three radii, box with three
sides. -/
inductive Shape
  | cylinder (r l : Rat) | sphere (r : Rat) | ellipsoid (a b c : Rat) | box (x y z : Rat)
  deriving DecidableEq, Repr

/-- The solid a geometry element stands for: `cylinder [r l]`, `ellipsoid [r]`, `ellipsoid [a b c]`,
`polyhedron [a]` (a cube), `polyhedron [x y z]`. -/
def shapeOf : SemKind → List Rat → Option Shape
  | .cylinder, [r, l] => some (.cylinder r l)
  | .ellipsoid, [r] => some (.sphere r)
  | .ellipsoid, [a, b, c] => some (.ellipsoid a b c)
  | .polyhedron, [a] => some (.box a a a)
  | .polyhedron, [x, y, z] => some (.box x y z)
  | _, _ => none

/-- The child with that tag. -/
def Xml.child? (x : Xml) (tag : String) : Option Xml := x.children.find? fun c => decide (c.tag = tag.toList)

/-- The text of the child with that tag, as numbers. -/
def Xml.numbers? (x : Xml) (tag : String) : Option (List Rat) :=
  match x.child? tag with
  | some c => c.text.mapM fun t => match t with
    | .num q => some q
    | _ => none
  | none => none

/-- How a simulator reads the child of a `<geometry>` element. -/
def readShape (x : Xml) : Option Shape :=
  if x.tag = "cylinder".toList then
    match x.numbers? "radius", x.numbers? "length" with
    | some [r], some [l] => some (.cylinder r l)
    | _, _ => none
  else if x.tag = "sphere".toList then
    match x.numbers? "radius" with
    | some [r] => some (.sphere r)
    | _ => none
  else if x.tag = "ellipsoid".toList then
    match x.numbers? "radii" with
    | some [a, b, c] => some (.ellipsoid a b c)
    | _ => none
  else if x.tag = "box".toList then
    match x.numbers? "size" with
    | some [a, b, c] => some (.box a b c)
    | _ => none
  else none

/-- The moments of inertia `ixx`, `iyy`, `izz` of a homogeneous solid of mass `m` about its centre, axis of
a cylinder along `z`. -/
def momentsOf (m : Rat) : Shape → Rat × Rat × Rat
  | .cylinder r l => (m * (3 * r ^ 2 + l ^ 2) / 12, m * (3 * r ^ 2 + l ^ 2) / 12, m * r ^ 2 / 2)
  | .sphere r => (2 * m * r ^ 2 / 5, 2 * m * r ^ 2 / 5, 2 * m * r ^ 2 / 5)
  | .ellipsoid a b c => (m * (b ^ 2 + c ^ 2) / 5, m * (a ^ 2 + c ^ 2) / 5, m * (a ^ 2 + b ^ 2) / 5)
  | .box x y z => (m * (y ^ 2 + z ^ 2) / 12, m * (x ^ 2 + z ^ 2) / 12, m * (x ^ 2 + y ^ 2) / 12)

/-- What a simulator reads in an `<inertial>` element: mass, moments, products of inertia. -/
structure Inertial where
  mass : Rat
  xx : Rat
  yy : Rat
  zz : Rat
  xy : Rat
  xz : Rat
  yz : Rat
  deriving DecidableEq

/-- How a simulator reads an `<inertial>` element. -/
def readInertial (x : Xml) : Option Inertial :=
  if x.tag = "inertial".toList then
    match x.numbers? "mass", x.child? "inertia" with
    | some [m], some i =>
      match i.numbers? "ixx", i.numbers? "iyy", i.numbers? "izz", i.numbers? "ixy", i.numbers? "ixz",
          i.numbers? "iyz" with
      | some [a], some [b], some [c], some [d], some [e], some [f] => some ⟨m, a, b, c, d, e, f⟩
      | _, _, _, _, _, _ => none
    | _, _ => none
  else none

/-- The inertia of a homogeneous solid. -/
def inertialOf (m : Rat) (s : Shape) : Inertial :=
  ⟨m, (momentsOf m s).1, (momentsOf m s).2.1, (momentsOf m s).2.2, 0, 0, 0⟩

/-- Geometry element `e` stands for the solid `s`. -/
def HasShape (h : Heap) (e : Ref) (s : Shape) : Prop :=
  ∃ k l, (h.get e).kind = .semantic k ∧ getAttribute h e "values".toList = some (.nums l) ∧ shapeOf k l = some s

/-- `n`, the node of a link, is the homogeneous solid `s`: every geometry in the visual and collision nodes of
`n` stands for `s`, and the first node in one of them has a geometry. -/
structure SolidLink (h : Heap) (n : Ref) (s : Shape) : Prop where
  all : ∀ v ∈ h.subNodes n, ∀ w ∈ h.subNodes v, ∀ e ∈ h.subGeometries w, HasShape h e s
  some : ∃ v ∈ h.subNodes n, ∃ w, (h.subNodes v).head? = some w ∧ h.subGeometries w ≠ []

/-- `n` has exactly one inertia element, of mass `m`. -/
def HasMass (h : Heap) (n : Ref) (m : Rat) : Prop :=
  ∃ i, h.subSemantic .inertia n = [i] ∧ getAttribute h i "mass".toList = some (.num m)

/-- The nodes exported as visuals of the link node `n`, each with its material: the nodes in those nodes of
`n` that have a material. -/
def visualsOf (h : Heap) (n : Ref) : List (Ref × Ref) :=
  (h.subNodes n).flatMap fun c => match h.subMaterials c with
    | m :: _ => (h.subNodes c).map fun v => (v, m)
    | [] => []

/-- The nodes exported as collisions: the nodes in those nodes of `n` that have no material. -/
def collisionsOf (h : Heap) (n : Ref) : List Ref :=
  (h.subNodes n).flatMap fun c => if h.subMaterials c = [] then h.subNodes c else []

/-- The geometry elements that belong to `v`: its own, and those of the nodes in the targets of its reference
edges (the edges of the relations connected to `v`). -/
def geometriesAt (h : Heap) (v : Ref) : List Ref :=
  h.subGeometries v ++ (h.subPorts v).flatMap fun p =>
    match (h.get p).endpoint.bind fun r => (h.get r).parent with
    | none => []
    | some e => (h.outgoing e).flatMap fun x => match (h.get x).endpoint with
      | none => []
      | some u => (h.subNodes u).flatMap h.subGeometries

/-- `v` can be exported: its relations belong to edges and have not lost their endpoints, and all its geometry
elements stand for solids. -/
structure Exportable (h : Heap) (v : Ref) : Prop where
  ports : ∀ p ∈ h.subPorts v, ∃ r e, (h.get p).endpoint = some r ∧ (h.get r).parent = some e ∧
    (h.get e).kind = .edge ∧ ∀ x ∈ h.outgoing e, (h.get x).endpoint ≠ none
  shapes : ∀ e ∈ geometriesAt h v, ∃ s, HasShape h e s

/-- The solids a simulator reads in a `<visual>` or `<collision>`. -/
def Xml.shapes (x : Xml) : List (Option Shape) :=
  (x.children.filter fun c => decide (c.tag = "geometry".toList)).map fun g => g.children.head?.bind readShape

/-- The material script name a simulator reads in a `<visual>`. -/
def Xml.materialName (x : Xml) : Option (List Tok) :=
  (((x.child? "material").bind (·.child? "script")).bind (·.child? "name")).map Xml.text

/-- `x` is the export of node `v` under the prefix: tag, name and solids. -/
structure ExportOf (h : Heap) (tag : String) (pre : Str) (v : Ref) (x : Xml) : Prop where
  tag : x.tag = tag.toList
  name : x.attr? "name".toList = some (if pre = [] then (h.get v).idName else pre ++ '.' :: (h.get v).idName)
  solids : ∃ ss, List.Forall₂ (HasShape h) (geometriesAt h v) ss ∧ x.shapes = ss.map some

/-! ## Kinematic graphs (C67) -/

/-- `d` is the first kinematic graph definition directly in `g`. -/
def IsKinGraphDef (h : Heap) (d g : Ref) : Prop :=
  (h.subelements g).find? (fun x => decide ((h.get x).kind = .semantic .kinGraph)) = some d

/-- `y` has a kinematic graph definition. -/
def HasKinGraph (h : Heap) (y : Ref) : Prop := ∃ d ∈ h.subelements y, (h.get d).kind = .semantic .kinGraph

/-! ## Models (C69) -/

/-- What reaches the icon: a model is opened, or an element arrives. -/
inductive SdfEvent
  | model (name : Str) | element (x : Xml)

/-- The call made for an event. -/
def Sdf.runEvent (s : Sdf) : SdfEvent → Sdf
  | .model n => s.newModel n
  | .element x => s.add x

/-- The calls in order. -/
def Sdf.runEvents (s : Sdf) (evs : List SdfEvent) : Sdf := evs.foldl Sdf.runEvent s

/-- The names of the opened models in order. -/
def modelNames (evs : List SdfEvent) : List Str :=
  evs.filterMap fun
    | .model n => some n
    | .element _ => none

/-- The number of the model that event number `t` belongs to: the last one opened before, else the first. -/
def ownerOf (evs : List SdfEvent) (t : Nat) : Nat := (modelNames (evs.take t)).length - 1

/-- The elements that belong to model number `k`, in order. -/
def elementsOf (evs : List SdfEvent) (k : Nat) : List Xml :=
  (List.range evs.length).filterMap fun t => match evs[t]? with
    | some (SdfEvent.element x) => if ownerOf evs t = k then some x else none
    | _ => none

/-! ## Joints (C68) -/

/-- The name of something inside the graph instance `pre`. -/
def nameIn (pre name : Str) : Str := if pre = [] then name else pre ++ '.' :: name

/-- A transformation that can be written as a pose: three numbers each. -/
def IsTransform (h : Heap) (x : Ref) : Prop :=
  ∃ t r, getAttribute h x "translation".toList = some (.nums t) ∧ getAttribute h x "rotation".toList = some (.nums r) ∧
    t.length = 3 ∧ r.length = 3

/-- The axis of joint `j`: its attribute, or `z`. -/
def AxisIs (h : Heap) (j : Ref) (a b c : Rat) : Prop :=
  (getAttribute h j "axis".toList = none ∧ a = 0 ∧ b = 0 ∧ c = 1) ∨
  getAttribute h j "axis".toList = some (.nums [a, b, c])

/-- The SDF joint type of joint `j`: `rev` is a revolute joint, everything else a fixed one. -/
def sdfJointType (h : Heap) (j : Ref) : Str :=
  if getAttribute h j "joint_type".toList = some (.str "rev".toList) then "revolute".toList else "fixed".toList

/-- `j` is the joint on relation `o`: the first one in it. -/
def JointOn (h : Heap) (o j : Ref) : Prop :=
  (h.subelements o).find? (fun x => decide ((h.get x).kind = .semantic .kinJoint)) = some j

/-- Node `n` has the kinematic link `l`, of the same name. -/
def NamedLink (h : Heap) (n l : Ref) : Prop :=
  l ∈ h.subelements n ∧ (h.get l).kind = .semantic .kinLink ∧ (h.get l).idName = (h.get n).idName

/-- The text of the child with that tag. -/
def Xml.childText (x : Xml) (tag : String) : Option (List Tok) := (x.child? tag).map Xml.text

/-- `q` is the pose of transformation `x`: its translation, then its rotation, in radians. -/
def PoseOf (h : Heap) (x : Ref) (q : Xml) : Prop :=
  q.tag = "pose".toList ∧ ∃ t r, getAttribute h x "translation".toList = some (.nums t) ∧
    getAttribute h x "rotation".toList = some (.nums r) ∧
    q.text = t.map .num ++ r.map fun a =>
      if getAttribute h x "rotation_type".toList = some (.str "deg".toList) then .radians a else .num a

/-- The transformations directly in `x`. -/
def transformsOf (h : Heap) (x : Ref) : List Ref :=
  (h.subelements x).filter fun y => decide ((h.get y).kind = .semantic .rigid)

/-- The children with that tag. -/
def Xml.every (x : Xml) (tag : String) : List Xml := x.children.filter fun c => decide (c.tag = tag.toList)

/-- `x` is the export of joint `j` from node `p` to node `v`, inside the graph instance `pre`: name, type, axis,
parent, child, and one pose, relative to the parent, for each transformation of `j`. -/
structure JointElement (h : Heap) (pre : Str) (p v j : Ref) (x : Xml) : Prop where
  tag : x.tag = "joint".toList
  name : x.attr? "name".toList = some (nameIn pre (h.get j).idName)
  type : x.attr? "type".toList = some (sdfJointType h j)
  axis : ∃ a b c ax, AxisIs h j a b c ∧ x.child? "axis" = some ax ∧ ax.numbers? "xyz" = some [a, b, c]
  parent : x.childText "parent" = some [.str (nameIn pre (h.get p).idName)]
  child : x.childText "child" = some [.str (nameIn pre (h.get v).idName)]
  poses : List.Forall₂ (fun t q => PoseOf h t q ∧
    q.attr? "relative_to".toList = some (nameIn pre (h.get p).idName)) (transformsOf h j) (x.every "pose")

/-- `x` is the joint element for the incoming relation `i` and the outgoing relation `o`. -/
def JointShown (h : Heap) (pre : Str) (i o : Ref) (x : Xml) : Prop :=
  ∃ p v j, (h.get i).endpoint = some p ∧ (h.get o).endpoint = some v ∧ JointOn h o j ∧ JointElement h pre p v j x

/-- Relation `o` carries a joint with readable axis and transformations. -/
def ReadableJoint (h : Heap) (o : Ref) : Prop :=
  ∃ j a b c, JointOn h o j ∧ AxisIs h j a b c ∧ ∀ x ∈ transformsOf h j, IsTransform h x

/-! ## Frames (C70) -/

/-- Port `p` belongs to relation `r` of edge `e`, which carries the joint `j`, and no relation of `e` has lost its
endpoint. -/
structure JointPort (h : Heap) (p r e j : Ref) : Prop where
  rel : (h.get p).endpoint = some r
  kind : (h.get r).kind = .relation
  joint : JointOn h r j
  edge : (h.get r).parent = some e
  edgeKind : (h.get e).kind = .edge
  ends : ∀ i ∈ h.incoming e, (h.get i).endpoint ≠ none

/-- Relation `r` of `e` drives its endpoint: it leads outwards, from something other than the world. -/
def Drives (h : Heap) (r e : Ref) : Prop :=
  (h.get r).direction = .outwards ∧
    ∃ i v, i ∈ h.incoming e ∧ (h.get i).endpoint = some v ∧ (h.get v).idName ≠ "world".toList

/-- `g` is the nearest element around `n` (or `n` itself) with a kinematic graph definition. -/
structure IsNearestGraph (h : Heap) (n g : Ref) : Prop where
  around : Within h g n
  has : HasKinGraph h g
  nearest : ∀ y, Within h y n → HasKinGraph h y → Within h y g

/-- A node whose connections are all joints, inside a kinematic graph that is itself inside something. -/
structure Mechanical (h : Heap) (n : Ref) : Prop where
  kind : (h.get n).kind.isHElement = true
  ports : ∀ p ∈ h.subPorts n, ∃ r e j, JointPort h p r e j
  graph : ∃ g q, IsNearestGraph h n g ∧ (h.get g).parent = some q

/-- The frame in which the pose of an exported link is given. -/
def Xml.frame (x : Xml) : Option Str := (x.child? "pose").bind (·.attr? "relative_to".toList)

/-! ## Links (C84) -/

/-- The frame in which the link of node `n` is posed: the joint on the first connection that drives `n`; if there is
none, the joint that connects the graph instance, when the graph of `n` is nested in another one and `n` has an
incoming connection; else none. -/
inductive FrameOf (h : Heap) (pre : Str) (n : Ref) : Option Str → Prop
  | driven (a : List Ref) (p : Ref) (b : List Ref) (r e j : Ref) : h.subPorts n = a ++ p :: b → JointPort h p r e j →
      Drives h r e → (∀ p' ∈ a, ∀ r' e' j', JointPort h p' r' e' j' → ¬ Drives h r' e') →
      FrameOf h pre n (some (nameIn pre (h.get j).idName))
  | connected (g q : Ref) : (∀ p ∈ h.subPorts n, ∀ r e j, JointPort h p r e j → ¬ Drives h r e) →
      IsNearestGraph h n g → (h.get g).parent = some q → (∃ y, Within h y q ∧ HasKinGraph h y) →
      (∃ p ∈ h.subPorts n, ∃ r, (h.get p).endpoint = some r ∧ (h.get r).direction ≠ .outwards) →
      FrameOf h pre n (some (nameIn pre ("connect.".toList ++ (h.get n).idName)))
  | absolute (g q : Ref) : (∀ p ∈ h.subPorts n, ∀ r e j, JointPort h p r e j → ¬ Drives h r e) →
      IsNearestGraph h n g → (h.get g).parent = some q →
      ¬ ((∃ y, Within h y q ∧ HasKinGraph h y) ∧
        ∃ p ∈ h.subPorts n, ∃ r, (h.get p).endpoint = some r ∧ (h.get r).direction ≠ .outwards) → FrameOf h pre n none

/-- `y` is the export of link `l` of node `n`: name; one pose, that of the first transformation of `l` (else zero), in
the right frame; the visuals with their materials; the collisions; nothing if `n` has no inertia element, else one
`<inertial>` with the mass and, for a sphere, the moments of inertia. -/
structure LinkElement (h : Heap) (pre : Str) (l n : Ref) (y : Xml) : Prop where
  tag : y.tag = "link".toList
  name : y.attr? "name".toList = some (nameIn pre (h.get l).idName)
  frame : FrameOf h pre n y.frame
  pose : ∃ q, y.every "pose" = [q] ∧ (∀ x ts, transformsOf h l = x :: ts → PoseOf h x q) ∧
    (transformsOf h l = [] → q.text = List.replicate 6 (.num 0))
  visuals : List.Forall₂ (fun vm x => ExportOf h "visual" pre vm.1 x ∧ ∃ nm,
    getAttribute h vm.2 "material_name".toList = some (.str nm) ∧
    x.materialName = some [.str ("Gazebo/".toList ++ ((nm.take 1).map Char.toUpper ++ (nm.drop 1).map Char.toLower))]) (visualsOf h n) (y.every "visual")
  collisions : List.Forall₂ (ExportOf h "collision" pre) (collisionsOf h n) (y.every "collision")
  massless : h.subSemantic .inertia n = [] → y.every "inertial" = []
  mass : ∀ m, HasMass h n m → ∃ x i, y.every "inertial" = [x] ∧ readInertial x = some i ∧ i.mass = m
  sphere : ∀ m r, HasMass h n m → SolidLink h n (.sphere r) →
    ∃ x, y.every "inertial" = [x] ∧ readInertial x = some (inertialOf m (.sphere r))
  others : ∀ c ∈ y.children, c.tag = "pose".toList ∨ c.tag = "visual".toList ∨ c.tag = "collision".toList ∨
    c.tag = "inertial".toList

/-- `y` is the export of link `l`. -/
def LinkShown (h : Heap) (pre : Str) (l : Ref) (y : Xml) : Prop :=
  ∃ n, (h.get l).parent = some n ∧ LinkElement h pre l n y

/-- Link `l` of node `n` can be exported: the connections of `n` are joints, at most one node in `n` has materials, the
solids, materials and transformations are readable, and a mass goes with a solid (not an ellipsoid with three
radii). -/
structure ReadableLink (h : Heap) (l n : Ref) : Prop where
  parent : (h.get l).parent = some n
  mechanical : Mechanical h n
  transforms : ∀ x ∈ transformsOf h l, IsTransform h x
  one : ((h.subNodes n).filter fun c => decide (h.subMaterials c ≠ [])).length ≤ 1
  visuals : ∀ vm ∈ visualsOf h n, Exportable h vm.1 ∧ ∃ nm, getAttribute h vm.2 "material_name".toList = some (.str nm)
  collisions : ∀ c ∈ collisionsOf h n, Exportable h c
  mass : h.subSemantic .inertia n = [] ∨ ∃ m s, HasMass h n m ∧ SolidLink h n s ∧ ∀ a b c, s ≠ .ellipsoid a b c

/-! ## Queries during an export (C71, C72) -/

/-- What a query looks at: nodes, edges, relations and semantic elements (not ports and values). -/
def Passable (k : Kind) : Bool :=
  match k with
  | .node | .relation | .edge | .semantic _ => true
  | _ => false

/-- `x` is `g` or lies below `g`, through elements a query looks at. -/
def Inside (h : Heap) (g x : Ref) : Prop := ∃ n, DownTo h (fun y => Passable (h.get y).kind) g n x

/-- The export runs in a reachable state, with enough stack for every traversal; the event loop runs every task
once, in any order; `pop` takes an element of the set, any one. -/
structure World.Fair (E : Env) (W : World) : Prop where
  reach : Reach E W.h
  stack : W.h.size < W.budget
  order : ∀ n, Schedule (W.choice n).order
  pop : ∀ n l, l ≠ [] → (W.choice n).pop l ∈ l

/-- Joint `j` is on a relation of an edge none of whose relations has lost its endpoint. -/
def JointPlaced (h : Heap) (j : Ref) : Prop :=
  ∃ r e, (h.get j).parent = some r ∧ (h.get r).parent = some e ∧ (h.get e).kind = .edge ∧
    ∀ x ∈ h.outgoing e, (h.get x).endpoint ≠ none

/-- Joint `j` drives link `l`: the edge of `j` has an outgoing relation to the node of `l`. -/
def DrivesLink (h : Heap) (j l : Ref) : Prop :=
  ∃ r e x v, (h.get j).parent = some r ∧ (h.get r).parent = some e ∧ x ∈ h.outgoing e ∧
    (h.get x).endpoint = some v ∧ (h.get l).parent = some v

/-- `l` is a base link of the graph `g`: a link inside that no joint inside drives. -/
def BaseLink (h : Heap) (g l : Ref) : Prop :=
  Inside h g l ∧ (h.get l).kind = .semantic .kinLink ∧
    ∀ j, Inside h g j → (h.get j).kind = .semantic .kinJoint → ¬ DrivesLink h j l

/-! ## Whole exports (C72) -/

/-- `r` holds one of the links or joints in `els`. -/
def HoldsSelected (h : Heap) (els : List Ref) (r : Ref) : Prop :=
  ∃ x ∈ els, ((h.get x).kind = .semantic .kinLink ∨ (h.get x).kind = .semantic .kinJoint) ∧ (h.get x).parent = some r

/-- `i` and `o` are an incoming and an outgoing relation of one edge, with different ends, both with a joint in
`els`. -/
structure JointPair (h : Heap) (els : List Ref) (i o : Ref) : Prop where
  selIn : HoldsSelected h els i
  selOut : HoldsSelected h els o
  kindIn : (h.get i).kind = .relation
  kindOut : (h.get o).kind = .relation
  same : (h.get i).parent = (h.get o).parent
  dirIn : (h.get i).direction.isIn
  dirOut : (h.get o).direction = .outwards
  ends : DistinctEnds h i o

/-- `y` is the export of link `l`: the link element with the inertia in it. -/
def IsLinkExport (h : Heap) (pre : Str) (l : Ref) (y : Xml) : Prop :=
  ∃ y0 is, encodeLink h l pre = .ok y0 ∧ encodeInertia h l = .ok is ∧ y = y0.with is

/-- The elements of a class, in order. -/
def ofKind (h : Heap) (k : SemKind) (els : List Ref) : List Ref :=
  els.filter fun x => decide ((h.get x).kind = .semantic k)

/-- The selection of an export is sound: relations that hold a joint have a container and an endpoint; different
edges have different uuids; an edge with an incoming joint in the selection has an outgoing one in it. -/
structure SoundSelection (h : Heap) (els : List Ref) : Prop where
  complete : ∀ r, HoldsSelected h els r → (h.get r).kind = .relation →
    (h.get r).parent.isSome ∧ (h.get r).endpoint.isSome
  distinct : ∀ r q x y, HoldsSelected h els r → HoldsSelected h els q → (h.get r).kind = .relation →
    (h.get q).kind = .relation → (h.get r).parent = some x → (h.get q).parent = some y →
    (h.get x).uuid = (h.get y).uuid → x = y
  answered : ∀ i, HoldsSelected h els i → (h.get i).kind = .relation → (h.get i).direction.isIn →
    ∃ o, HoldsSelected h els o ∧ (h.get o).kind = .relation ∧ (h.get o).direction = .outwards ∧
      (h.get o).parent = (h.get i).parent

/-! ## Conversion of a whole file (C73) -/

/-- What the converter selects: the links in nodes of depth at most 2, the joints below nodes of depth at most 1, the
cognitive entities. -/
def convertList (h : Heap) (root : Ref) : List Ref :=
  matchesOf h (convertQuery h root 0) ++ matchesOf h (convertQuery h root 1) ++ matchesOf h (convertQuery h root 2)

/-- A search goes into hyperedges, relations, elements of the languages, and nodes, of these only into those whose depth is
within the bound, if there is one. -/
def SearchedIn (h : Heap) (bound : Option Nat) (y : Ref) : Prop :=
  (h.get y).kind = .edge ∨ (h.get y).kind = .relation ∨ (∃ k, (h.get y).kind = .semantic k) ∨
  ((h.get y).kind = .node ∧ ∀ n, bound = some n → (h.get y).depth ≤ n)

/-- What the search finds below `root`. -/
inductive FoundBelow (h : Heap) (bound : Option Nat) (root : Ref) : Ref → Prop
  | first {y} : y ∈ h.subelements root → SearchedIn h bound y → FoundBelow h bound root y
  | next {x y} : FoundBelow h bound root x → y ∈ h.subelements x → SearchedIn h bound y → FoundBelow h bound root y

/-- The selected links and joints have different containers. -/
def OneEach (h : Heap) (els : List Ref) : Prop :=
  els.Nodup ∧ ∀ x ∈ els, ∀ y ∈ els, ((h.get x).kind = .semantic .kinLink ∨ (h.get x).kind = .semantic .kinJoint) →
    ((h.get y).kind = .semantic .kinLink ∨ (h.get y).kind = .semantic .kinJoint) →
    (h.get x).parent = (h.get y).parent → x = y

/-- Relations lead to elements a query looks at. -/
def EndsPassable (h : Heap) : Prop :=
  ∀ r v, (h.get r).kind = .relation → (h.get r).endpoint = some v → v < h.size ∧ Passable (h.get v).kind = true

end Rei
