import Verif.Model.CogniLang
import Verif.Spec.Hierarchy
import Verif.Spec.Encoding

/-!
# Specification of the CogniLang reader (C76 onwards)

What a file says, and when a hypergraph shows it.
-/
namespace Rei

/-- The sub-elements that are not ports, in order. -/
def Heap.parts (h : Heap) (x : Ref) : List Ref :=
  (h.subelements x).filter fun y => decide ((h.get y).kind ≠ .port)

/-- The parameters declared so far, in order. -/
abbrev Params := List (Str × Rat)

/-- A number stands for itself, a name for the first declared parameter of that name. -/
inductive Means (ps : Params) : FVal → Rat → Prop
  | num (q : Rat) : Means ps (.num q) q
  | param (n : Str) (q : Rat) : ps.lookup n = some q → Means ps (.param n) q

/-- The numbers a vector stands for. -/
def VecMeans (ps : Params) (v : List FVal) (l : List Rat) : Prop := List.Forall₂ (Means ps) v l

/-- What a pose stands for: translation, rotation, rotation type.  Without a rotation: zero, in degrees. -/
inductive PoseMeans (ps : Params) : Pose → List Rat → List Rat → Str → Prop
  | plain {v t} : VecMeans ps v t → PoseMeans ps { trans := v } t [0, 0, 0] "deg".toList
  | unmarked {v w t r} : VecMeans ps v t → VecMeans ps w r →
      PoseMeans ps { trans := v, rot := some (none, w) } t r "rad".toList
  | degrees {v w t r} : VecMeans ps v t → VecMeans ps w r →
      PoseMeans ps { trans := v, rot := some (some .d, w) } t r "deg".toList
  | radians {v w t r} : VecMeans ps v t → VecMeans ps w r →
      PoseMeans ps { trans := v, rot := some (some .r, w) } t r "r".toList

/-- `x` is a node with that name, whose qualified name is that path and whose parts are `l`. -/
structure IsNode (h : Heap) (x : Ref) (name : Str) (path : List Str) (l : List Ref) : Prop where
  kind : (h.get x).kind = .node
  name : (h.get x).idName = name
  path : (h.get x).qualName = Str.join '/' path
  parts : h.parts x = l

/-- `x` is a semantic element of class `k` with that name, exactly these attributes, and parts `l`. -/
structure IsSem (h : Heap) (x : Ref) (k : SemKind) (name : Str) (attrs : List (Str × AttrVal)) (l : List Ref) :
    Prop where
  kind : (h.get x).kind = .semantic k
  name : (h.get x).idName = name
  attrs : ∀ key, getAttribute h x key = attrs.lookup key
  parts : h.parts x = l

/-- `l` is the transformation element for an optional pose of an element called `owner`: none without a pose. -/
def ShowsPose (h : Heap) (ps : Params) (owner : Str) : Option Pose → List Ref → Prop
  | none, l => l = []
  | some p, l => ∃ x t r ty, l = [x] ∧ PoseMeans ps p t r ty ∧
      IsSem h x .rigid (owner ++ "_transformation".toList)
        [("translation".toList, .nums t), ("rotation".toList, .nums r), ("rotation_type".toList, .str ty)] []

/-- The class of the semantic element of a solid; there is none for a mesh. -/
def GeomClass.kind : GeomClass → Option SemKind
  | .cylinder => some .cylinder
  | .polyhedron => some .polyhedron
  | .ellipsoid => some .ellipsoid
  | .mesh => none

/-- The qualified name that a reference means: the reference replaces as many of the last names around it as it has
names itself. -/
def targetName (around : List Str) (id : Str) : Str :=
  Str.join '/' (around.take (around.length - (Str.split '/' id).length) ++ Str.split '/' id)

/-- `r` is a relation in direction `d` to `t`, with parts `l` and weight `w`. -/
structure IsRel (h : Heap) (r : Ref) (d : Dir) (t : Ref) (l : List Ref) (w : Option Ref := none) : Prop where
  kind : (h.get r).kind = .relation
  dir : (h.get r).direction = d
  endpoint : (h.get r).endpoint = some t
  parts : h.parts r = l
  weight : (h.get r).weight = w

/-- `e` is an edge with that name, whose qualified name is that path, with these parts. -/
structure IsEdge (h : Heap) (e : Ref) (name : Str) (path : List Str) (l : List Ref) : Prop where
  kind : (h.get e).kind = .edge
  name : (h.get e).idName = name
  path : (h.get e).qualName = Str.join '/' path
  parts : h.parts e = l

/-- What the geometry of a visual or collision node shows: `g` is its node, `edges` what it adds to the container of the
link, whose path is `cpath`.  A solid is a semantic element in `g`.  A reference is an edge from the node with the meant name to `g`, unless the
same name has been referred to before (`seen`). -/
def ShowsGeom (h : Heap) (ps : Params) (seen : List Str) (cpath around : List Str) (gname : Str) (g : Ref) :
    Geom → List Ref → Prop
  | .solid c f, edges => edges = [] ∧ ∃ s k v l, c.kind = some k ∧ f = .vec v ∧ VecMeans ps v l ∧ h.parts g = [s] ∧
      IsSem h s k gname [("name".toList, .str gname), ("values".toList, .nums l)] []
  | .ref id, edges => h.parts g = [] ∧
      if targetName around id ∈ seen then edges = [] else ∃ e r1 r2 t, edges = [e] ∧
        IsEdge h e ("ref_".toList ++ gname ++ '_' :: id) (cpath ++ ["ref_".toList ++ gname ++ '_' :: id]) [r1, r2] ∧
        IsRel h r1 .outwards t [] ∧ IsRel h r2 .inwards g [] ∧
        (h.get t).kind = .node ∧ (h.get t).qualName = targetName around id

/-- What a geometry refers to. -/
def Geom.targets (around : List Str) : Geom → List Str
  | .solid _ _ => []
  | .ref id => [targetName around id]

/-- The names around the geometry of a solid in the link `path`. -/
def SolidDecl.around (s : SolidDecl) (path : List Str) : List Str := path ++ [s.id.getD "None".toList]

/-- What a visual (`geometry`, then `material`) or collision node of the link `path` shows. -/
def ShowsSolid (h : Heap) (ps : Params) (seen : List Str) (path : List Str) (s : SolidDecl) (y : Ref)
    (edges : List Ref) : Prop :=
  ∃ g ms, IsNode h y (s.nodeName path) (path ++ [s.nodeName path]) (g :: ms) ∧
    IsNode h g ("geom_".toList ++ s.nodeName path) (path ++ [s.nodeName path, "geom_".toList ++ s.nodeName path])
      (h.parts g) ∧
    ShowsGeom h ps seen path.dropLast (s.around path) ("geom_".toList ++ s.nodeName path) g s.geom edges ∧
    if s.visual then ∃ m, ms = [m] ∧ IsSem h m .material ("material_".toList ++ s.nodeName path)
      [("name".toList, .str ("material_".toList ++ s.nodeName path)),
       ("material_name".toList, .str (s.material.getD "white".toList))] []
    else ms = []

/-- The same for all solids of a link, in order. -/
def ShowsSolids (h : Heap) (ps : Params) (path : List Str) : List Str → List SolidDecl → List Ref → List Ref → Prop
  | _, [], ys, edges => ys = [] ∧ edges = []
  | seen, s :: ss, ys, edges => ∃ y ys' es es', ys = y :: ys' ∧ edges = es ++ es' ∧
      ShowsSolid h ps seen path s y es ∧ ShowsSolids h ps path (seen ++ s.geom.targets (s.around path)) ss ys' es'

/-- What the body of a link shows: its inertia (only the mass), then its solids. -/
def ShowsLinkBody (h : Heap) (ps : Params) (seen : List Str) (path : List Str) : Option LinkBody → List Ref →
    List Ref → Prop
  | none, ys, edges => ys = [] ∧ edges = []
  | some b, ys, edges => ∃ i ys', ys = i :: ys' ∧
      IsSem h i .inertia ("inertia_".toList ++ Str.join '/' path) [("mass".toList, .num b.mass)] [] ∧
      ShowsSolids h ps path seen b.solids ys' edges

/-- The attributes of the semantic element of a link: its name, and its transformation element if it has one. -/
def linkAttrs (name : Str) : List Ref → List (Str × AttrVal)
  | [] => [("name".toList, .str name)]
  | t :: _ => [("name".toList, .str name), ("rigidtransformation".toList, .obj t)]

/-- What a link in the container `path` shows: node `x`, and the reference edges of its solids. -/
def ShowsLink (h : Heap) (ps : Params) (seen : List Str) (path : List Str) (l : LinkDecl) (x : Ref) (edges : List Ref) :
    Prop :=
  ∃ sv ts ys, IsNode h x l.name (path ++ [l.name]) (sv :: ys) ∧ IsSem h sv .kinLink l.name (linkAttrs l.name ts) ts ∧
    ShowsPose h ps l.name l.pose ts ∧ ShowsLinkBody h ps seen (path ++ [l.name]) l.body ys edges

/-- `t` is reached from `c` by parts with these names, one after the other. -/
inductive LeadsBy (h : Heap) : Ref → List Str → Ref → Prop
  | last {c t n} : t ∈ h.parts c → (h.get t).idName = n → LeadsBy h c [n] t
  | next {c x t n ns} : x ∈ h.parts c → (h.get x).idName = n → LeadsBy h x ns t → LeadsBy h c (n :: ns) t

/-- The element that a joint relation in the container `c` refers to: the world node `w`, or the first part of `c` of
that name, or, for a name with slashes, a part reached by these names. -/
def IsEndpoint (h : Heap) (w c : Ref) (ref : Str) (t : Ref) : Prop :=
  if ref = "world".toList then t = w
  else match Str.split '/' ref with
    | [n] => (h.parts c).find? (fun x => decide ((h.get x).idName = n)) = some t
    | ns => LeadsBy h c ns t

/-- The arrow for a direction. -/
def arrow : Dir → Str
  | .inwards => "<-".toList
  | .outwards => "->".toList
  | .bidirectional => "--".toList

/-- The attributes of the semantic element of a joint. -/
def jointAttrs (type : Str) : Option (List Rat) → List (Str × AttrVal)
  | none => [("joint_type".toList, .str type)]
  | some a => [("joint_type".toList, .str type), ("axis".toList, .nums a)]

/-- What an optional axis stands for. -/
def AxisMeans (ps : Params) : Option (List FVal) → Option (List Rat) → Prop
  | none, a => a = none
  | some v, a => ∃ l, a = some l ∧ VecMeans ps v l

/-- What a joint relation in the container `c` shows: a relation to the meant element in the direction of the arrow,
with the semantic element of the joint in it; its weight is the transformation of the pose, if there is one. -/
def ShowsJointRel (h : Heap) (w c : Ref) (ps : Params) (name : Str) (j : JointRel) (r : Ref) : Prop :=
  ∃ d t s ts a, j.dir = arrow d ∧ IsEndpoint h w c j.ref t ∧ IsRel h r d t [s] ts.head? ∧ AxisMeans ps j.axis a ∧
    IsSem h s .kinJoint (name ++ '.' :: j.ref) (jointAttrs j.type a) ts ∧
    ShowsPose h ps (name ++ '.' :: j.ref) j.pose ts

/-- What a joint in the container `c` at `path` shows: an edge with one relation for each of its relations, in order. -/
def ShowsJoint (h : Heap) (w c : Ref) (ps : Params) (path : List Str) (j : JointDecl) (e : Ref) : Prop :=
  ∃ rs, IsEdge h e j.name (path ++ [j.name]) rs ∧ List.Forall₂ (ShowsJointRel h w c ps j.name) j.rels rs

/-- What the solids of a link body refer to, in order. -/
def LinkDecl.targets (path : List Str) (l : LinkDecl) : List Str :=
  match l.body with
  | none => []
  | some b => b.solids.flatMap fun s => s.geom.targets (s.around (path ++ [l.name]))

/-- What a body refers to, in order. -/
def Items.targets (path : List Str) : Items → List Str
  | .nil => []
  | .kinematic name body rest => Items.targets (path ++ [name]) body ++ Items.targets path rest
  | .ambient name body rest => Items.targets (path ++ [name]) body ++ Items.targets path rest
  | .device _ rest => Items.targets path rest
  | .link l rest => l.targets path ++ Items.targets path rest
  | .joint _ rest => Items.targets path rest
  | .params _ rest => Items.targets path rest
  | .skipped rest => Items.targets path rest

/-- The parameters that the body of the entity declares, in order. -/
def Items.declared : Items → Params
  | .nil => []
  | .kinematic _ _ rest => rest.declared
  | .ambient _ _ rest => rest.declared
  | .device _ rest => rest.declared
  | .link _ rest => rest.declared
  | .joint _ rest => rest.declared
  | .params qs rest => qs ++ rest.declared
  | .skipped rest => rest.declared

/-- The body of an element `c` at `path` adds exactly the parts `l` to it, in order.  `top` says that `c` is the entity
itself: only there parameters are declared.  `ps` are the parameters declared before, `seen` the names referred to
before. -/
def Shows (h : Heap) (w : Ref) : (c : Ref) → (top : Bool) → Params → (seen path : List Str) → Items → List Ref → Prop
  | _, _, _, _, _, .nil, l => l = []
  | c, top, ps, seen, path, .kinematic name body rest, l => ∃ x s ys l', l = x :: l' ∧
      IsNode h x name (path ++ [name]) (s :: ys) ∧ IsSem h s .kinGraph name [("name".toList, .str name)] [] ∧
      Shows h w x false ps seen (path ++ [name]) body ys ∧
      Shows h w c top ps (seen ++ body.targets (path ++ [name])) path rest l'
  | c, top, ps, seen, path, .ambient name body rest, l => ∃ x ys l', l = x :: l' ∧
      IsNode h x name (path ++ [name]) ys ∧ Shows h w x false ps seen (path ++ [name]) body ys ∧
      Shows h w c top ps (seen ++ body.targets (path ++ [name])) path rest l'
  | c, top, ps, seen, path, .device name rest, l => ∃ x l', l = x :: l' ∧ IsNode h x name (path ++ [name]) [] ∧
      Shows h w c top ps seen path rest l'
  | c, top, ps, seen, path, .link d rest, l => ∃ x es l', l = x :: es ++ l' ∧ ShowsLink h ps seen path d x es ∧
      Shows h w c top ps (seen ++ d.targets path) path rest l'
  | c, top, ps, seen, path, .joint j rest, l => ∃ e l', l = e :: l' ∧ ShowsJoint h w c ps path j e ∧
      Shows h w c top ps seen path rest l'
  | c, top, ps, seen, path, .params qs rest, l =>
      Shows h w c top (if top then ps ++ qs else ps) seen path rest l
  | c, top, ps, seen, path, .skipped rest, l => Shows h w c top ps seen path rest l

/-- `x` shows the file: a root node with the name of the entity, a semantic element, then the body. -/
def ShowsFile (h : Heap) (w x : Ref) (f : EntityDecl) : Prop :=
  ∃ s ys, IsNode h x f.name [f.name] (s :: ys) ∧ (h.get x).parent = none ∧
    IsSem h s .cognitiveEntity f.name [("name".toList, .str f.name)] [] ∧ Shows h w x true [] [] [f.name] f.body ys

end Rei
