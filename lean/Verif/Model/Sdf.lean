import Verif.Model.Factorization
import Verif.Model.QueryEngine
import Mathlib.Data.List.Dedup

/-!
# Export to SDF (`format/phys`, `format/mapping/cognilang_sdf_icon.py`)

The object graph is only read here.  `lxml` elements are trees: tag, attributes, text, children.  Nothing
in this code reads an element again after handing it out, so trees are values here.  Text that the code
formats out of several values separated by blanks is the list of those values.  Numbers are rationals.
-/
namespace Rei

/-- One blank-separated part of a formatted text: a string, a number, a number of degrees converted by
`np.pi/180.0*x` (`kinematic_semantic_context.py:21`), the `str(...)` of some other attribute value. -/
inductive Tok
  | str (s : Str) | num (q : Rat) | radians (q : Rat) | other (a : AttrVal)
  deriving DecidableEq, Repr

/-- An `etree.Element`. -/
inductive Xml
  | el (tag : Str) (attrs : List (Str × Str)) (text : List Tok) (children : List Xml)

namespace Xml

/-- Name of the element. -/
def tag : Xml → Str | el t _ _ _ => t
/-- Attributes. -/
def attrs : Xml → List (Str × Str) | el _ a _ _ => a
/-- Text before the first child. -/
def text : Xml → List Tok | el _ _ t _ => t
/-- Children in order. -/
def children : Xml → List Xml | el _ _ _ c => c
/-- `e.attrib[k]`, if set. -/
def attr? (x : Xml) (k : Str) : Option Str := x.attrs.lookup k

end Xml

/-- `etree.Element(tag)` with a text. -/
def textEl (tag : String) (t : List Tok) : Xml := .el tag.toList [] t []

/-- `l[i]`. -/
def item (l : List Rat) (i : Nat) : Except Err Rat :=
  match l[i]? with
  | some q => .ok q
  | none => .error .indexError

/-- `x[k]` used as a list of numbers.  Anything else counts as `TypeError` here; Python would also accept
a string as a list of its characters. -/
def numsAttr (h : Heap) (x : Ref) (k : String) : Except Err (List Rat) :=
  match getAttribute h x k.toList with
  | some (.nums l) => .ok l
  | _ => .error .typeError

/-- `str(...)` of an attribute (`None` when there is none). -/
def tokOf : Option AttrVal → Tok
  | none => .str "None".toList
  | some (.str s) => .str s
  | some (.num q) => .num q
  | some a => .other a

/-! ## `format/phys/solid_geometry_context.py` -/

/-- `isinstance(x, GeometryNode)`, `CognitiveEntity.py:61-83`. -/
def Kind.isGeometry : Kind → Bool
  | .semantic .geometry | .semantic .cylinder | .semantic .ellipsoid | .semantic .polyhedron => true
  | _ => false

/-- `encode_typegeometry_element`, `solid_geometry_context.py:8-41`. -/
def typeGeometry (h : Heap) (e : Ref) : Except Err (Option Xml) :=
  match (h.get e).kind with
  | .semantic .cylinder => do
    let l ← numsAttr h e "values"
    let r ← item l 0
    let n ← item l 1
    pure (some (.el "cylinder".toList [] [] [textEl "radius" [.num r], textEl "length" [.num n]]))
  | .semantic .ellipsoid => do
    let l ← numsAttr h e "values"
    if l.length = 1 then do
      let r ← item l 0
      pure (some (.el "sphere".toList [] [] [textEl "radius" [.num r]]))
    else pure (some (.el "ellipsoid".toList [] [] [textEl "radii" (l.map .num)]))
  | .semantic .polyhedron => do
    let l ← numsAttr h e "values"
    match l with
    | [a] => pure (some (.el "box".toList [] [] [textEl "size" [.num a, .num a, .num a]]))
    | [_, _] => pure (some (.el "box".toList [] [] [textEl "size" []]))
    | [a, b, c] => pure (some (.el "box".toList [] [] [textEl "size" [.num a, .num b, .num c]]))
    | _ => pure none
  | _ => pure none

/-- `<geometry>` around an element. -/
def geometryEl (c : List Xml) : Xml := .el "geometry".toList [] [] c

/-- The geometry nodes directly in `n`, `solid_geometry_context.py:45,56`. -/
def Heap.subGeometries (h : Heap) (n : Ref) : List Ref :=
  h.getSubelements (fun x => (h.get x).kind.isGeometry) n

/-- `solid_geometry_context.py:45-50`. -/
def ownGeometries (h : Heap) (n : Ref) : Except Err (List Xml) :=
  (h.subGeometries n).mapM fun e => do
    let g ← typeGeometry h e
    pure (geometryEl g.toList)

/-- `solid_geometry_context.py:57-60`: `append(None)` is a `TypeError`. -/
def farGeometry (h : Heap) (e : Ref) : Except Err Xml :=
  match typeGeometry h e with
  | .ok (some x) => .ok (geometryEl [x])
  | .ok none => .error .typeError
  | .error err => .error err

/-- `solid_geometry_context.py:55-60` for the endpoint `v` of an outgoing relation: the geometries of the
nodes in `v`. -/
def farGeometries (h : Heap) (v : Ref) : Except Err (List Xml) := do
  let rows ← (h.subNodes v).mapM fun g => (h.subGeometries g).mapM (farGeometry h)
  pure rows.flatten

/-- The edge of the relation behind a port, `solid_geometry_context.py:53`,
`kinematic_semantic_context.py:59`; `AttributeError` if there is none (`None`, or something without
`get_outgoing_relations`). -/
def portEdge (h : Heap) (port : Ref) : Except Err Ref :=
  match (h.get port).endpoint with
  | none => .error .attributeError
  | some r =>
    match (h.get r).parent with
    | none => .error .attributeError
    | some e => if (h.get e).kind = .edge then .ok e else .error .attributeError

/-- `r.endpoint.get_subelements` and the like: `AttributeError` when the relation has no endpoint. -/
def endpointOf (h : Heap) (r : Ref) : Except Err Ref :=
  match (h.get r).endpoint with
  | none => .error .attributeError
  | some v => .ok v

/-- `solid_geometry_context.py:54-60` for one outgoing relation. -/
def relationGeometries (h : Heap) (r : Ref) : Except Err (List Xml) := do
  let v ← endpointOf h r
  farGeometries h v

/-- `solid_geometry_context.py:53-60` for one port. -/
def portGeometries (h : Heap) (p : Ref) : Except Err (List Xml) := do
  let e ← portEdge h p
  let rows ← (h.outgoing e).mapM (relationGeometries h)
  pure rows.flatten

/-- `solid_geometry_context.py:52-60`: geometries reached through reference edges. -/
def referencedGeometries (h : Heap) (n : Ref) : Except Err (List Xml) := do
  let rows ← (h.subPorts n).mapM (portGeometries h)
  pure rows.flatten

/-- `extract_geometry_element`, `solid_geometry_context.py:44-60`. -/
def extractGeometry (h : Heap) (n : Ref) : Except Err (List Xml) := do
  let a ← ownGeometries h n
  let b ← referencedGeometries h n
  pure (a ++ b)

/-- `s.capitalize()` (ASCII). -/
def capitalize : Str → Str
  | [] => []
  | c :: s => c.toUpper :: s.map Char.toLower

/-- The name attribute, `solid_geometry_context.py:65-68,88-91`. -/
def dottedName (pre : Str) (name : Str) : Str :=
  if pre = [] then name else pre ++ '.' :: name

/-- `encode_visual_elements`, `solid_geometry_context.py:63-83`. -/
def encodeVisual (h : Heap) (n mat : Ref) (pre : Str) : Except Err Xml := do
  let gs ← extractGeometry h n
  match getAttribute h mat "material_name".toList with
  | some (.str m) =>
    pure (.el "visual".toList [("name".toList, dottedName pre (h.get n).idName)] [] (gs ++ [
      .el "material".toList [] [] [.el "script".toList [] [] [
        textEl "uri" [.str "file://media/materials/scripts/gazebo.material".toList],
        textEl "name" [.str ("Gazebo/".toList ++ capitalize m)]]]]))
  | _ => .error .attributeError

/-- `encode_collision_elements`, `solid_geometry_context.py:86-94`. -/
def encodeCollision (h : Heap) (n : Ref) (pre : Str) : Except Err Xml := do
  let gs ← extractGeometry h n
  pure (.el "collision".toList [("name".toList, dottedName pre (h.get n).idName)] [] gs)

/-- The materials directly in `n`, `solid_geometry_context.py:105`. -/
def Heap.subMaterials (h : Heap) (n : Ref) : List Ref :=
  h.getSubelements (fun x => (h.get x).kind = .semantic .material) n

/-- The local variables of `encode_geometry_element`, `solid_geometry_context.py:100-102`. -/
structure Solid where
  visual : List Ref := []
  collision : List Ref := []
  material : Dict Ref Ref := []

/-- One turn of the loop, `solid_geometry_context.py:103-110`.  The dictionary of materials is replaced,
not extended. -/
def solidStep (h : Heap) (s : Solid) (n : Ref) : Solid :=
  match h.subMaterials n with
  | m :: _ =>
    { s with visual := s.visual ++ h.subNodes n, material := (h.subNodes n).foldl (fun d v => Dict.set d v m) [] }
  | [] => { s with collision := s.collision ++ h.subNodes n }

/-- `encode_geometry_element`, `solid_geometry_context.py:97-117`. -/
def encodeGeometry (h : Heap) (cont : Ref) (pre : Str) : Except Err (List Xml) := do
  let s := (h.subNodes cont).foldl (solidStep h) {}
  let vs ← s.visual.mapM fun v =>
    match s.material.get? v with
    | none => .error .keyError
    | some m => encodeVisual h v m pre
  let cs ← s.collision.mapM fun c => encodeCollision h c pre
  pure (vs ++ cs)

/-! ## `format/phys/inertia_context.py` -/

/-- `calc_cylinder_inertia`, `inertia_context.py:58-63`. -/
def cylinderInertia (h : Heap) (mass : Option AttrVal) (g : Ref) : Except Err (List Rat) := do
  let v ← numsAttr h g "values"
  let l ← item v 0
  let r ← item v 1
  match mass with
  | some (.num m) =>
    let ixy := 1 / 12 * m * (3 * r * r + l * l)
    pure [ixy, ixy, 1 / 2 * m * r * r, 0, 0, 0]
  | _ => .error .typeError

/-- `calc_ellipsoid_inertia`, `inertia_context.py:65-69`; `none` is Python's `None`, returned when there
is not exactly one radius. -/
def ellipsoidInertia (h : Heap) (mass : Option AttrVal) (g : Ref) : Except Err (Option (List Rat)) := do
  let v ← numsAttr h g "values"
  if v.length = 1 then do
    let r ← item v 0
    match mass with
    | some (.num m) =>
      let i := 2 / 5 * m * r * r
      pure (some [i, i, i, 0, 0, 0])
    | _ => .error .typeError
  else pure none

/-- `inertia_context.py:25-32`: the last cylinder or ellipsoid decides. -/
def inertiaValues (h : Heap) (mass : Option AttrVal) : List Ref → Option (List Rat) →
    Except Err (Option (List Rat))
  | [], v => .ok v
  | g :: gs, v =>
    match (h.get g).kind with
    | .semantic .cylinder => do
      let v ← cylinderInertia h mass g
      inertiaValues h mass gs (some v)
    | .semantic .ellipsoid => do
      let v ← ellipsoidInertia h mass g
      inertiaValues h mass gs v
    | _ => inertiaValues h mass gs v

/-- The geometry used for the inertia, `inertia_context.py:10-16`: in each node of the link, only the
first node in it is looked at; the first one with geometries wins. -/
def inertiaGeometry (h : Heap) : List Ref → List Ref
  | [] => []
  | n :: ns =>
    match h.subNodes n with
    | [] => inertiaGeometry h ns
    | g :: _ => if h.subGeometries g = [] then inertiaGeometry h ns else h.subGeometries g

/-- `inertia_context.py:34-54`: `<mass>` and `<inertia>`; subscripting `None` is a `TypeError`. -/
def inertiaParts (h : Heap) (geom : List Ref) (iner : Ref) : Except Err (List Xml) := do
  let m := getAttribute h iner "mass".toList
  match ← inertiaValues h m geom (some [1, 1, 1, 0, 0, 0]) with
  | none => .error .typeError
  | some v => do
    let xx ← item v 0
    let yy ← item v 1
    let zz ← item v 2
    let xy ← item v 3
    let xz ← item v 4
    let yz ← item v 5
    pure [textEl "mass" [tokOf m],
      .el "inertia".toList [] [] [textEl "ixx" [.num xx], textEl "iyy" [.num yy], textEl "izz" [.num zz],
        textEl "ixy" [.num xy], textEl "ixz" [.num xz], textEl "iyz" [.num yz]]]

/-- `encode_inertia_element`, `inertia_context.py:8-55`: at most one `<inertial>`. -/
def encodeInertia (h : Heap) (link : Ref) : Except Err (List Xml) :=
  match (h.get link).parent with
  | none => .error .attributeError
  | some n =>
    match h.getSubelements (fun x => (h.get x).kind = .semantic .inertia) n with
    | [] => .ok []
    | is => do
      let rows ← is.mapM (inertiaParts h (inertiaGeometry h (h.subNodes n)))
      pure [.el "inertial".toList [] [] rows.flatten]

/-! ## `format/phys/kinematics/kinematic_semantic_context.py` -/

/-- `join_w_prefix_separator(l, '.', prefix)`, `test/common/common_util.py:8-13`. -/
def joinPrefix (l : List Str) (pre : Str) : Str :=
  if pre = [] then Str.join '.' l else Str.join '.' (pre :: l)

/-- `extract_rigid_transformation_element`, `kinematic_semantic_context.py:16-24`, with the attributes the
callers add. -/
def rigidPose (h : Heap) (x : Ref) (attrs : List (Str × Str)) : Except Err Xml := do
  let rot ← numsAttr h x "rotation"
  let tr ← numsAttr h x "translation"
  let deg := getAttribute h x "rotation_type".toList = some (.str "deg".toList)
  let t0 ← item tr 0
  let t1 ← item tr 1
  let t2 ← item tr 2
  let r0 ← item rot 0
  let r1 ← item rot 1
  let r2 ← item rot 2
  let f := fun q => if deg then Tok.radians q else Tok.num q
  pure (.el "pose".toList attrs [.num t0, .num t1, .num t2, f r0, f r1, f r2] [])

/-- `__default_rigid_transformation_element`, `kinematic_semantic_context.py:13,27-31`. -/
def defaultPose (attrs : List (Str × Str)) : Xml :=
  .el "pose".toList attrs [.num 0, .num 0, .num 0, .num 0, .num 0, .num 0] []

/-- The elements of one semantic class directly in `n`. -/
def Heap.subSemantic (h : Heap) (k : SemKind) (n : Ref) : List Ref :=
  h.getSubelements (fun x => (h.get x).kind = .semantic k) n

/-- The loop of `get_parent_kinematic_graph`, `kinematic_semantic_context.py:36-44`.  The first argument
is one more than the number of objects: a longer walk has met an object twice, so it never ends. -/
def kinGraphLoop (h : Heap) : Nat → Ref → Except Err (Option (Ref × Ref))
  | 0, _ => .error .diverges
  | n + 1, x =>
    match h.subSemantic .kinGraph x with
    | d :: _ => .ok (some (d, x))
    | [] =>
      match (h.get x).parent with
      | some p => kinGraphLoop h n p
      | none => .ok none

/-- `get_parent_kinematic_graph`, `kinematic_semantic_context.py:33-44`; `none` for `(None, None)`. -/
def parentKinematicGraph (h : Heap) (x : Option Ref) : Except Err (Option (Ref × Ref)) :=
  match x with
  | none => .error .attributeError
  | some x => kinGraphLoop h (h.size + 1) x

/-- What one port says about the frame, `kinematic_semantic_context.py:53-68`: the final answer (`inl`), a
provisional one (`inr (some _)`) or nothing; `kin` is the container of the kinematic graph definition found for
the node. -/
def portFrame (h : Heap) (node : Ref) (kin : Option Ref) (p : Ref) : Except Err (Str ⊕ Option Str) :=
  match (h.get p).endpoint with
  | none => .error .attributeError
  | some r =>
    match h.subSemantic .kinJoint r with
    | [] => .error .stopIteration
    | j :: _ =>
      if (h.get r).kind ≠ .relation then .error .attributeError
      else if (h.get r).direction = .outwards then do
        let e ← portEdge h p
        let incom ← (h.incoming e).mapM fun i => endpointOf h i
        if (incom.filter fun v => (h.get v).idName ≠ "world".toList) ≠ [] then pure (.inl (h.get j).idName)
        else pure (.inr none)
      else
        match kin with
        | none => .error .attributeError
        | some k => do
          match ← parentKinematicGraph h (h.get k).parent with
          | some _ => pure (.inr (some (Str.join '.' ["connect".toList, (h.get node).idName])))
          | none => pure (.inr none)

/-- The loop over the ports in `__obtain_relative_frame_name`, `kinematic_semantic_context.py:52-69`. -/
def frameLoop (h : Heap) (node : Ref) (kin : Option Ref) : List Ref → Option Str → Except Err (Option Str)
  | [], name => .ok name
  | p :: ps, name => do
    match ← portFrame h node kin p with
    | .inl s => pure (some s)
    | .inr (some s) => frameLoop h node kin ps (some s)
    | .inr none => frameLoop h node kin ps name

/-- `__obtain_relative_frame_name`, `kinematic_semantic_context.py:47-69`; only hypergraph elements have
`sub_ports`. -/
def relativeFrame (h : Heap) (node : Option Ref) : Except Err (Option Str) := do
  let k ← parentKinematicGraph h node
  match node with
  | none => .error .attributeError
  | some n =>
    if (h.get n).kind.isHElement then frameLoop h n (k.map Prod.snd) (h.subPorts n) none
    else .error .attributeError

/-- The attribute `relative_to`, `kinematic_semantic_context.py:86-88,95-97`. -/
def relativeTo (frame : Option Str) (pre : Str) : List (Str × Str) :=
  match frame with
  | some f => [("relative_to".toList, joinPrefix [f] pre)]
  | none => []

/-- The pose of a link, `kinematic_semantic_context.py:79-98`. -/
def linkPose (h : Heap) (link : Ref) (attrs : List (Str × Str)) : Except Err Xml :=
  match h.subSemantic .rigid link with
  | x :: _ => rigidPose h x attrs
  | [] => .ok (defaultPose attrs)

/-- `element.parent` where a container is needed: `AttributeError` at a root. -/
def parentOf (h : Heap) (x : Ref) : Except Err Ref :=
  match (h.get x).parent with
  | none => .error .attributeError
  | some n => .ok n

/-- `encode_link_element`, `kinematic_semantic_context.py:72-102`. -/
def encodeLink (h : Heap) (link : Ref) (pre : Str) : Except Err Xml := do
  let frame ← relativeFrame h (h.get link).parent
  let pose ← linkPose h link (relativeTo frame pre)
  let n ← parentOf h link
  let gs ← encodeGeometry h n pre
  pure (.el "link".toList [("name".toList, joinPrefix [(h.get link).idName] pre)] [] (pose :: gs))

/-- `__encode_joint_type`, `kinematic_semantic_context.py:105-111`. -/
def jointType : Option AttrVal → Str
  | some (.str s) => if s = "fix".toList then "fixed".toList else if s = "rev".toList then "revolute".toList
    else "fixed".toList
  | _ => "fixed".toList

/-- `generate_joint_name`, `kinematic_semantic_context.py:114-115`. -/
def jointName (edge ref : Str) : Str := Str.join '.' [edge, ref]

/-- The first joint of a relation, `kinematic_semantic_context.py:119,140`; `IndexError` if there is
none. -/
def jointOf (h : Heap) (r : Ref) : Except Err Ref :=
  match h.subSemantic .kinJoint r with
  | j :: _ => .ok j
  | [] => .error .indexError

/-- `jrel['axis']`, `kinematic_semantic_context.py:145-150`. -/
def jointAxis (h : Heap) (j : Ref) : Except Err (List Tok) := do
  let l ← match getAttribute h j "axis".toList with
    | none => pure [0, 0, 1]
    | some _ => numsAttr h j "axis"
  let a ← item l 0
  let b ← item l 1
  let c ← item l 2
  pure [.num a, .num b, .num c]

/-- `joint_base_element_endpoint`, `kinematic_semantic_context.py:127-161`. -/
def jointEl (h : Heap) (j0 j1 : Ref) (name child pre : Str) : Except Err Xml := do
  let p ← endpointOf h j0
  let j ← jointOf h j1
  let axis ← jointAxis h j
  let poses ← (h.subSemantic .rigid j).mapM fun x =>
    rigidPose h x [("relative_to".toList, joinPrefix [(h.get p).idName] pre)]
  pure (.el "joint".toList
    [("name".toList, name), ("type".toList, jointType (getAttribute h j "joint_type".toList))] []
    ([textEl "parent" [.str (joinPrefix [(h.get p).idName] pre)], textEl "child" [.str (joinPrefix [child] pre)],
      .el "axis".toList [] [] [textEl "xyz" axis]] ++ poses))

/-- `joint_base_element` with `default_joint_name`, `kinematic_semantic_context.py:118-124`. -/
def jointBase (h : Heap) (j0 j1 : Ref) (pre : Str) : Except Err Xml := do
  let j ← jointOf h j1
  let v ← endpointOf h j1
  jointEl h j0 j1 (joinPrefix [(h.get j).idName] pre) (h.get v).idName pre

/-! ## `format/mapping/cognilang_sdf_icon.py` -/

/-- What `CognilangSdfIcon` has made so far, `cognilang_sdf_icon.py:18-23`: the models under `root_xml`
(name and elements; `current_model` is the last one, if any) and the cache of elements made before the
first model. -/
structure Sdf where
  models : List (Str × List Xml) := []
  cache : List Xml := []

/-- `__add_model_element`, `cognilang_sdf_icon.py:25-30`. -/
def Sdf.add (s : Sdf) (x : Xml) : Sdf :=
  match s.models.getLast? with
  | none => { s with cache := s.cache ++ [x] }
  | some (n, xs) => { s with models := s.models.dropLast ++ [(n, xs ++ [x])] }

/-- A `CognitiveEntity` starts a new model, `cognilang_sdf_icon.py:41-50`; the cache is emptied into it. -/
def Sdf.newModel (s : Sdf) (name : Str) : Sdf := { models := s.models ++ [(name, s.cache)], cache := [] }

/-- Append children to an element. -/
def Xml.with (x : Xml) (cs : List Xml) : Xml := .el x.tag x.attrs x.text (x.children ++ cs)

/-- `encode_element`, `cognilang_sdf_icon.py:32-54`.  The link is added before its inertia is computed:
when that raises, the link stays without it. -/
def Sdf.encodeElement (h : Heap) (s : Sdf) (x : Ref) (pre : Str) : Except Err Unit × Sdf :=
  match (h.get x).kind with
  | .semantic .kinLink =>
    match encodeLink h x pre with
    | .error e => (.error e, s)
    | .ok l =>
      match encodeInertia h x with
      | .error e => (.error e, s.add l)
      | .ok is => (.ok (), s.add (l.with is))
  | .semantic .cognitiveEntity => (.ok (), s.newModel (h.get x).idName)
  | .semantic .kinJoint => (.ok (), s.add (.el "joint".toList [] [] []))
  | _ => (.ok (), s)

/-- What the interpreter is free to do in the `n`-th use of a query engine: the order of the tasks
(see `QueryEngine.lean`), and which element `set.pop` takes. -/
structure Choice where
  order : List (Nat × Nat) → List (Nat × Nat)
  pop : List Ref → Ref

/-- Everything an export runs in: the object graph, the stack available to a traversal, the choices. -/
structure World where
  h : Heap
  budget : Nat
  choice : Nat → Choice

/-- The state of an export: the icon, the number of engine runs so far, the queue that all breadth-first
traversals share. -/
structure Run where
  sdf : Sdf := {}
  uses : Nat := 0
  shared : Fringe := []

/-- Code that may raise and changes the state of an export. -/
abbrev SdfM := ExceptT Err (StateM Run)

/-- The two queries, `cognilang_sdf_icon.py:63-65,81-84`: all links and all joints below an element. -/
def kinQuery (h : Heap) (start : Ref) (k : Nat) : PrepQuery :=
  { start := start, statement := fun _ => true,
    prep := fun x => .ok (decide ((h.get x).kind = .semantic (if k = 0 then .kinLink else .kinJoint))) }

/-- `cognilang_sdf_icon.py:61-68,79-87`: a cleared engine executes the two queries, which are new objects
registered under different names. -/
def World.query (W : World) (name : Str) (start : Ref) : SdfM (List Ref) := fun s =>
  let e := (Engine.addQuery [] (name ++ "_link_query".toList) 0).addQuery (name ++ "_joint_query".toList) 1
  let r := e.execute W.h W.budget (W.choice s.uses).order (kinQuery W.h start) s.shared
  (r.1, { s with uses := s.uses + 1, shared := r.2.2 })

/-- Raise or go on. -/
def ofExcept {α : Type} (x : Except Err α) : SdfM α := fun s => (x, s)

/-- The links that leave the set because of joint `j`, `cognilang_sdf_icon.py:72-74`. -/
def drivenLinks (h : Heap) (j : Ref) : Except Err (List Ref) :=
  match (h.get j).parent with
  | none => .error .attributeError
  | some r =>
    match (h.get r).parent with
    | none => .error .attributeError
    | some e =>
      if (h.get e).kind = .edge then do
        let rows ← (h.outgoing e).mapM fun x => do
          let v ← endpointOf h x
          pure (h.subSemantic .kinLink v)
        pure rows.flatten
      else .error .attributeError

/-- `get_canonical_link`, `cognilang_sdf_icon.py:60-75`; the set as a list without repetitions. -/
def World.canonicalLinks (W : World) (graph : Ref) : SdfM (List Ref) := do
  let res ← W.query (W.h.get graph).idName graph
  let rows ← ofExcept ((res.filter fun x => (W.h.get x).kind = .semantic .kinJoint).mapM (drivenLinks W.h))
  pure ((res.filter fun x => (W.h.get x).kind = .semantic .kinLink).dedup.filter fun x =>
    decide (x ∉ rows.flatten))

/-- `encode_element` on the icon of the export. -/
def World.element (W : World) (pre : Str) (x : Ref) : SdfM Unit := fun s =>
  let r := s.sdf.encodeElement W.h x pre
  (r.1, { s with sdf := r.2 })

/-- `__add_model_element` on the icon of the export. -/
def addEl (x : Xml) : SdfM Unit := fun s => (.ok (), { s with sdf := s.sdf.add x })

/-- Python's `for`. -/
def each {α : Type} (l : List α) (f : α → SdfM Unit) : SdfM Unit :=
  match l with
  | [] => pure ()
  | x :: xs => do f x; each xs f

/-- `l.pop()` on a set. -/
def World.pop (W : World) (l : List Ref) : SdfM Ref := fun s =>
  if l = [] then (.error .keyError, s) else (.ok ((W.choice s.uses).pop l), s)

/-- `r.parent.id_name`. -/
def parentName (h : Heap) (r : Ref) : Except Err Str :=
  match (h.get r).parent with
  | none => .error .attributeError
  | some e => .ok (h.get e).idName

/-- The elements handed to the factorization, `cognilang_sdf_icon.py:98-99`: the containers of the links and of the
joints.  `None` is left out: the factorization ignores it. -/
def selectionOf (h : Heap) (els : List Ref) : List Ref :=
  (els.filter fun x => (h.get x).kind = .semantic .kinLink).filterMap (fun x => (h.get x).parent) ++
    (els.filter fun x => (h.get x).kind = .semantic .kinJoint).filterMap (fun x => (h.get x).parent)

/-- The joint that connects a nested graph by its link `c`, `cognilang_sdf_icon.py:115-117`; `e` is the name of the
edge. -/
def connectEl (h : Heap) (j0 j1 : Ref) (e c pre : Str) : Except Err Xml :=
  jointEl h j0 j1 (joinPrefix [e, "connect".toList, c] pre) (Str.join '.' [e, c]) pre

/-- One turn of the loop over the pairs of relations, `cognilang_sdf_icon.py:103-119`, with `encode_sub_graph`
(`:78-88`); `rec` is the recursive call of `encode`.  A `StopIteration` that leaves a coroutine is turned into a
`RuntimeError` by Python; it keeps its name here. -/
def World.pairStep (W : World) (rec : List Ref → Str → SdfM Unit) (pre : Str) (j : Ref × Ref) : SdfM Unit := do
  let v ← ofExcept (endpointOf W.h j.2)
  if W.h.subSemantic .kinGraph v = [] then do
    let x ← ofExcept (jointBase W.h j.1 j.2 pre)
    addEl x
  else do
    let cs ← W.canonicalLinks v
    let c ← W.pop cs
    let _ ← ofExcept (if W.h.subSemantic .kinJoint j.2 = [] then .error .stopIteration else .ok ())
    let e ← ofExcept (parentName W.h j.2)
    let x ← ofExcept (connectEl W.h j.1 j.2 e (W.h.get c).idName pre)
    addEl x
    let res ← W.query (W.h.get j.2).idName v
    rec res (pre ++ e)

/-- `encode`, `cognilang_sdf_icon.py:90-119`.  The first argument is the number of nested sub-graphs that fit on the
stack. -/
def World.encode (W : World) : Nat → List Ref → Str → SdfM Unit
  | 0, _, _ => ofExcept (.error .recursionError)
  | d + 1, els, pre => do
    each (els.filter fun x => (W.h.get x).kind = .semantic .cognitiveEntity) (W.element [])
    each (els.filter fun x => (W.h.get x).kind = .semantic .kinLink) (W.element pre)
    let joints ← ofExcept (relationFactor W.h false (selectionOf W.h els))
    each joints (W.pairStep (W.encode d) pre)

/-! ## `apps/simulation/convert_cognilang_sdf.py` -/

/-- `stmt_node_depth`, `convert_cognilang_sdf.py:19-23`. -/
def nodeDepthAtMost (h : Heap) (n : Nat) (x : Ref) : Bool :=
  if (h.get x).kind = .node then decide ((h.get x).depth ≤ n) else true

/-- The class and the traversal statement of the three queries, `convert_cognilang_sdf.py:43-48`. -/
def convertKind : Nat → SemKind
  | 0 => .kinLink
  | 1 => .kinJoint
  | _ => .cognitiveEntity

/-- See `convertKind`. -/
def convertStatement (h : Heap) : Nat → Ref → Bool
  | 0 => nodeDepthAtMost h 2
  | 1 => nodeDepthAtMost h 1
  | _ => fun _ => true

/-- The three queries. -/
def convertQuery (h : Heap) (root : Ref) (k : Nat) : PrepQuery :=
  { start := root, statement := convertStatement h k,
    prep := fun x => .ok (decide ((h.get x).kind = .semantic (convertKind k))) }

/-- The engine, `convert_cognilang_sdf.py:49-52`. -/
def convertEngine : Engine :=
  ((Engine.addQuery [] "link_query".toList 0).addQuery "joint_query".toList 1).addQuery "cognitive_query".toList 2

/-- `main`, `convert_cognilang_sdf.py:41-55`, from the parsed file on: query, then encode.  Writing the files is in
`Model/App`.  `d` is the number of nested graphs that fit on the stack. -/
def World.convert (W : World) (d : Nat) (root : Ref) : SdfM Unit := fun s =>
  let r := convertEngine.execute W.h W.budget (W.choice s.uses).order (convertQuery W.h root) s.shared
  let s := { s with uses := s.uses + 1, shared := r.2.2 }
  match r.1 with
  | .error e => (.error e, s)
  | .ok els => W.encode d els [] s

end Rei
