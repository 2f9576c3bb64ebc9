import Verif.Spec.CogniAccept
import Verif.Spec.Sdf

/-!
# From a CogniLang file to an SDF model (C85, C94)

What the SDF model of a file with one kinematic graph must say, stated on the file alone.
-/
namespace Rei

/-! ## The files -/

/-- The links directly in a body, in order. -/
def Items.links : Items → List LinkDecl
  | .nil => []
  | .kinematic _ _ rest | .ambient _ _ rest | .device _ rest | .joint _ rest | .params _ rest | .skipped rest => rest.links
  | .link l rest => l :: rest.links

/-- The joints directly in a body, in order. -/
def Items.joints : Items → List JointDecl
  | .nil => []
  | .kinematic _ _ rest | .ambient _ _ rest | .device _ rest | .link _ rest | .params _ rest | .skipped rest => rest.joints
  | .joint j rest => j :: rest.joints

/-- The kinematic graphs directly in a body, in order, with their bodies. -/
def Items.graphs : Items → List (Str × Items)
  | .nil => []
  | .link _ rest | .ambient _ _ rest | .device _ rest | .joint _ rest | .params _ rest | .skipped rest => rest.graphs
  | .kinematic n b rest => (n, b) :: rest.graphs

/-- A body of links and joints, without graphs and devices in it. -/
def Items.flat : Items → Bool
  | .nil => true
  | .kinematic _ _ _ | .ambient _ _ _ | .device _ _ => false
  | .link _ rest | .joint _ rest | .params _ rest | .skipped rest => rest.flat

/-- A body of links, joints and kinematic graphs of links and joints. -/
def Items.assembled : Items → Bool
  | .nil => true
  | .ambient _ _ _ | .device _ _ => false
  | .kinematic _ b rest => b.flat && rest.assembled
  | .link _ rest | .joint _ rest | .params _ rest | .skipped rest => rest.assembled

/-- A body that adds nothing but parameters. -/
def Items.plain : Items → Bool
  | .nil => true
  | .kinematic _ _ _ | .ambient _ _ _ | .device _ _ | .link _ _ | .joint _ _ => false
  | .params _ rest | .skipped rest => rest.plain

/-- Besides parameters, the body of an entity has one part, the kinematic graph `g` with that body; `ps` are the
parameters declared before it, the first argument those declared before the body. -/
inductive OneGraph (g : Str) (body : Items) (ps : Params) : Params → Items → Prop
  | here {rest} : rest.plain = true → OneGraph g body ps ps (.kinematic g body rest)
  | params {ps' qs rest} : OneGraph g body ps (ps' ++ qs) rest → OneGraph g body ps ps' (.params qs rest)
  | skipped {ps' rest} : OneGraph g body ps ps' rest → OneGraph g body ps ps' (.skipped rest)

/-! ## What the file means -/

/-- The solid that a geometry gives itself. -/
inductive GivesShape (ps : Params) : Geom → Shape → Prop
  | intro {c k v l s} : c.kind = some k → VecMeans ps v l → shapeOf k l = some s → GivesShape ps (.solid c (.vec v)) s

/-- The solid that a geometry means: its own, or that of the visual or collision node `link/name` it refers to. -/
inductive MeansShape (links : List LinkDecl) (ps : Params) : Geom → Shape → Prop
  | own {g s} : GivesShape ps g s → MeansShape links ps g s
  | ref {l d n s} : l ∈ links → d ∈ l.solids → d.id = some n → GivesShape ps d.geom s →
      MeansShape links ps (.ref (l.name ++ '/' :: n)) s

/-- The relation leads into the joint. -/
def JointRel.isIn (r : JointRel) : Bool := decide (r.dir = "<-".toList ∨ r.dir = "--".toList)

/-- The relation leads out of the joint, and only that. -/
def JointRel.isOut (r : JointRel) : Bool := decide (r.dir = "->".toList)

/-- Translation and rotation have three numbers. -/
def Pose.full (p : Pose) : Bool := decide (p.trans.length = 3) && p.rot.all fun r => decide (r.2.length = 3)

/-- The conditions on a link of a graph with these links, in the link's own path: named solids without slashes in their
names, all with different names; at most one visual; every geometry means a solid; a link with a body is one solid, given
at least once and not an ellipsoid with three radii. -/
structure LinkDecl.Sound (links : List LinkDecl) (ps : Params) (path : List Str) (l : LinkDecl) : Prop where
  names : (l.solids.map fun s => s.nodeName path).Nodup
  slash : ∀ s ∈ l.solids, ∀ n, s.id = some n → '/' ∉ n
  visual : (l.solids.filter fun s => s.visual).length ≤ 1
  shapes : ∀ s ∈ l.solids, ∃ sh, MeansShape links ps s.geom sh
  pose : ∀ p, l.pose = some p → p.full = true
  solid : l.body ≠ none → ∃ sh, (∃ s ∈ l.solids, GivesShape ps s.geom sh) ∧
    (∀ s ∈ l.solids, ∀ sh', GivesShape ps s.geom sh' → sh' = sh) ∧ ∀ a b c, sh ≠ .ellipsoid a b c

/-- The conditions on a joint of a graph with these links and nested graphs: it connects links of the graph, nested graphs
and the world, poses and axes have three numbers, and if something leads into the joint, something leads out of it. -/
structure JointDecl.Sound (links : List LinkDecl) (subs : List Str) (j : JointDecl) : Prop where
  refs : ∀ r ∈ j.rels, r.ref = "world".toList ∨ (∃ l ∈ links, l.name = r.ref) ∨ r.ref ∈ subs
  poses : ∀ r ∈ j.rels, ∀ p, r.pose = some p → p.full = true
  axes : ∀ r ∈ j.rels, ∀ a, r.axis = some a → a.length = 3
  answered : (∃ i ∈ j.rels, i.isIn = true) → ∃ o ∈ j.rels, o.isOut = true

/-- The name of the edge for a reference. -/
def refEdgeName (path : List Str) (s : SolidDecl) (id : Str) : Str :=
  "ref_".toList ++ ("geom_".toList ++ s.nodeName path) ++ '_' :: id

/-- A kinematic graph: its path, and what is in it. -/
structure GraphDecl where
  path : List Str
  body : Items

/-- Its name. -/
def GraphDecl.name (G : GraphDecl) : Str := G.path.getLastD []

/-- The conditions on a graph: nothing called `world`; no slashes in the names of links and nested graphs; they have names
of their own, different from each other and from those of the graph, its joints and its reference edges. -/
structure GraphDecl.Sound (ps : Params) (G : GraphDecl) : Prop where
  distinct : (G.body.links.map LinkDecl.name ++ G.body.graphs.map Prod.fst).Nodup
  names : ∀ n ∈ G.body.links.map LinkDecl.name ++ G.body.graphs.map Prod.fst, n ≠ "world".toList ∧ '/' ∉ n ∧ n ≠ G.name ∧
    (∀ j ∈ G.body.joints, j.name ≠ n) ∧
    ∀ l' ∈ G.body.links, ∀ s ∈ l'.solids, ∀ id, s.geom = .ref id → refEdgeName (G.path ++ [l'.name]) s id ≠ n
  links : ∀ l ∈ G.body.links, l.Sound G.body.links ps (G.path ++ [l.name])
  joints : ∀ j ∈ G.body.joints, j.Sound G.body.links (G.body.graphs.map Prod.fst)

/-- The conditions on a file: one kinematic graph of links and joints; no two geometries refer to the same node. -/
structure IsRobot (f : EntityDecl) (g : Str) (body : Items) (ps : Params) : Prop where
  graph : OneGraph g body ps [] f.body
  flat : body.flat = true
  world : f.name ≠ "world".toList
  slash : '/' ∉ f.name ∧ '/' ∉ g
  once : (body.targets [f.name, g]).Nodup
  sound : GraphDecl.Sound ps ⟨[f.name, g], body⟩

/-- No joint leads to the link. -/
def IsBase (joints : List JointDecl) (l : LinkDecl) : Prop :=
  ∀ j ∈ joints, ∀ o ∈ j.rels, o.dir = "->".toList ∨ o.dir = "--".toList → o.ref ≠ l.name

/-- The conditions on a file: one kinematic graph of links, joints, and graphs of links and joints; no two geometries refer
to the same node; a nested graph to which a joint leads has a link to which no joint leads. -/
structure IsAssembly (f : EntityDecl) (g : Str) (body : Items) (ps : Params) : Prop where
  graph : OneGraph g body ps [] f.body
  assembled : body.assembled = true
  world : f.name ≠ "world".toList
  slash : '/' ∉ f.name ∧ '/' ∉ g
  once : (body.targets [f.name, g]).Nodup
  sound : GraphDecl.Sound ps ⟨[f.name, g], body⟩
  nested : ∀ p ∈ body.graphs, GraphDecl.Sound ps ⟨[f.name, g, p.1], p.2⟩
  bases : ∀ p ∈ body.graphs, (∃ j ∈ body.joints, ∃ o ∈ j.rels, o.isOut = true ∧ o.ref = p.1) →
    ∃ l ∈ p.2.links, IsBase p.2.joints l

/-! ## What the model must say -/

/-- `q` is the pose `p`: its translation, then its rotation, in radians. -/
def SaysPose (ps : Params) (p : Pose) (q : Xml) : Prop :=
  ∃ t r ty, PoseMeans ps p t r ty ∧
    q.text = t.map .num ++ r.map fun a => if ty = "deg".toList then .radians a else .num a

/-- `x` is the visual or collision for a solid of the link `path`, in the instance `pre`. -/
structure SaysSolid (pre : Str) (links : List LinkDecl) (ps : Params) (path : List Str) (s : SolidDecl) (x : Xml) : Prop where
  tag : x.tag = if s.visual then "visual".toList else "collision".toList
  name : x.attr? "name".toList = some (nameIn pre ("geom_".toList ++ s.nodeName path))
  shape : ∃ sh, MeansShape links ps s.geom sh ∧ x.shapes = [some sh]
  material : s.visual = true → x.materialName = some [.str ("Gazebo/".toList ++ (((s.material.getD "white".toList).take 1).map Char.toUpper ++ ((s.material.getD "white".toList).drop 1).map Char.toLower))]

/-- The frame of the link `n`: the first relation, in the order of the file, that leads to `n` out of a joint into which
something other than the world leads. -/
def frameIn (joints : List JointDecl) (n : Str) : Option Str :=
  (joints.flatMap fun j =>
    if j.rels.any fun i => i.isIn && decide (i.ref ≠ "world".toList) then
      (j.rels.filter fun r => r.isOut && decide (r.ref = n)).map fun r => j.name ++ '.' :: r.ref
    else []).head?

/-- The frame of the link `n` of a graph; if there is none, the graph is nested in another one, and a joint leads from `n`,
the joint that connects the graph. -/
def frameOfLink (nested : Bool) (joints : List JointDecl) (n : Str) : Option Str :=
  match frameIn joints n with
  | some fr => some fr
  | none => if nested && joints.any fun j => j.rels.any fun r => decide (r.ref = n) && !r.isOut then
      some ("connect.".toList ++ n) else none

/-- `y` is the SDF link for the link `l` of the graph `G`, in the instance `pre`. -/
structure SaysLink (pre : Str) (nested : Bool) (ps : Params) (G : GraphDecl) (l : LinkDecl) (y : Xml) : Prop where
  tag : y.tag = "link".toList
  name : y.attr? "name".toList = some (nameIn pre l.name)
  frame : y.frame = (frameOfLink nested G.body.joints l.name).map (nameIn pre)
  pose : ∃ q, y.every "pose" = [q] ∧ match l.pose with
    | none => q.text = List.replicate 6 (.num 0)
    | some p => SaysPose ps p q
  visuals : List.Forall₂ (SaysSolid pre G.body.links ps (G.path ++ [l.name])) (l.solids.filter fun s => s.visual)
    (y.every "visual")
  collisions : List.Forall₂ (SaysSolid pre G.body.links ps (G.path ++ [l.name])) (l.solids.filter fun s => !s.visual)
    (y.every "collision")
  inertial : match l.body with
    | none => y.every "inertial" = []
    | some b => ∃ x i, y.every "inertial" = [x] ∧ readInertial x = some i ∧ i.mass = b.mass ∧
        ∀ s ∈ b.solids, ∀ r, GivesShape ps s.geom (.sphere r) → i = inertialOf b.mass (.sphere r)
  others : ∀ c ∈ y.children, c.tag = "pose".toList ∨ c.tag = "visual".toList ∨ c.tag = "collision".toList ∨
    c.tag = "inertial".toList

/-- The pairs of relations of joints that become SDF joints: one leads into the joint, the other out of it, to something
else. -/
def jointPairs (joints : List JointDecl) : List (JointDecl × JointRel × JointRel) :=
  joints.flatMap fun j => (j.rels.filter JointRel.isIn).flatMap fun i =>
    (j.rels.filter fun o => o.isOut && decide (o.ref ≠ i.ref)).map fun o => (j, i, o)

/-- `x` is an SDF joint with this name, this child and what two relations of a joint say, in the instance `pre`. -/
structure SaysJointAs (pre name child : Str) (ps : Params) (i o : JointRel) (x : Xml) : Prop where
  tag : x.tag = "joint".toList
  name : x.attr? "name".toList = some (nameIn pre name)
  type : x.attr? "type".toList = some (if o.type = "rev".toList then "revolute".toList else "fixed".toList)
  axis : ∃ a ax, AxisMeans ps o.axis a ∧ x.child? "axis" = some ax ∧ ax.numbers? "xyz" = some (a.getD [0, 0, 1])
  parent : x.childText "parent" = some [.str (nameIn pre i.ref)]
  child : x.childText "child" = some [.str (nameIn pre child)]
  pose : match o.pose with
    | none => x.every "pose" = []
    | some p => ∃ q, x.every "pose" = [q] ∧ SaysPose ps p q ∧ q.attr? "relative_to".toList = some (nameIn pre i.ref)

/-- `x` is the SDF joint for two relations of `j`. -/
def SaysJoint (pre : Str) (ps : Params) (j : JointDecl) (i o : JointRel) (x : Xml) : Prop :=
  SaysJointAs pre (j.name ++ '.' :: o.ref) o.ref ps i o x

/-- `x` is the SDF joint for two relations of `j`, the second of which leads to a graph with the base link `c`. -/
def SaysConnection (ps : Params) (j : JointDecl) (i o : JointRel) (c : Str) (x : Xml) : Prop :=
  SaysJointAs [] (j.name ++ ".connect.".toList ++ c) (j.name ++ '.' :: c) ps i o x

/-- What stands for two relations of a joint of the graph `path` with these nested graphs: a joint; or, if the second one
leads to a nested graph, the joint that connects a base link of this graph, and, in the instance with the name of the
joint, its links and joints. -/
inductive SaysPair (ps : Params) (path : List Str) (subs : List (Str × Items)) (j : JointDecl) (i o : JointRel) :
    List Xml → Prop
  | joint {x} : (∀ p ∈ subs, p.1 ≠ o.ref) → SaysJoint [] ps j i o x → SaysPair ps path subs j i o [x]
  | graph {b l x ys zs ws} : (o.ref, b) ∈ subs → l ∈ b.links → IsBase b.joints l → SaysConnection ps j i o l.name x →
      List.Forall₂ (SaysLink j.name true ps ⟨path ++ [o.ref], b⟩) b.links ys →
      List.Forall₂ (fun p y => SaysJoint j.name ps p.1 p.2.1 p.2.2 y) (jointPairs b.joints) zs →
      ws.Perm (ys ++ zs) → SaysPair ps path subs j i o (x :: ws)

end Rei
