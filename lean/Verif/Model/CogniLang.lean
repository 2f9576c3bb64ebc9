import Verif.Model.Semantics
import Verif.Model.Sdf

/-!
# Reading a CogniLang file (`format/mapping/cognilang_file_icon.py`)

The input is the parse tree that the ANTLR parser hands to the visitor
(`framework/cognitive/speclanguage/src/main/antlr4/*.g4`); the grammar itself is in `Model/Grammar.lean`.  Contexts that the visitor passes through without doing anything are left out.
-/
namespace Rei
open PyM

/-- `value: (ref_|FLOAT)`, `HypergraphBasicElements.g4:29`. -/
inductive FVal
  | num (q : Rat)
  | param (name : Str)
  deriving DecidableEq

/-- `field_float_vector: float_vector | ref_`, `HypergraphBasicElements.g4:16,24`. -/
inductive FField
  | vec (v : List FVal)
  | ref (name : Str)
  deriving DecidableEq

/-- `rotation: (rot_type=('d'|'r'))? float_vector`, `GeometryElements.g4:8`. -/
inductive RotMark
  | d | r
  deriving DecidableEq

/-- `rigid_transformation: '[' float_vector (',')? rotation? ']'`, `GeometryElements.g4:7-8`. -/
structure Pose where
  trans : List FVal
  rot : Option (Option RotMark × List FVal) := none
  deriving DecidableEq

/-- The geometries with a body, `GeometryElements.g4:27-31`. -/
inductive GeomClass
  | cylinder | polyhedron | mesh | ellipsoid
  deriving DecidableEq

/-- `geometries`, `GeometryElements.g4:27-31`; the optional `ID` of a geometry is never looked at. -/
inductive Geom
  | solid (c : GeomClass) (f : FField)
  | ref (id : Str)
  deriving DecidableEq

/-- `visual_node` and `collision_node`, `GeometryElements.g4:21-23`. -/
structure SolidDecl where
  visual : Bool
  id : Option Str
  material : Option Str := none
  geom : Geom
  deriving DecidableEq

/-- `linknode_body`, `inertia_body`, `GeometryElements.g4:16-19`. -/
structure LinkBody where
  mass : Rat
  inertia : Option FField := none
  solids : List SolidDecl
  deriving DecidableEq

/-- `link`, `GeometryElements.g4:15`; the word `root` is never looked at. -/
structure LinkDecl where
  name : Str
  pose : Option Pose
  body : Option LinkBody
  deriving DecidableEq

/-- `joint_relation`, `GeometryElements.g4:35-36`, `axis`, `HypergraphBasicElements.g4:27`. -/
structure JointRel where
  type : Str
  dir : Str
  ref : Str
  pose : Option Pose := none
  axis : Option (List FVal) := none
  deriving DecidableEq

/-- `joint`, `GeometryElements.g4:33-34`. -/
structure JointDecl where
  name : Str
  rels : List JointRel
  deriving DecidableEq

/-- The bodies of entities, kinematic and ambient graphs: `entity_subset_elem` (`CogniLang.g4:7-11`),
`kinematicnode_body` (`GeometryElements.g4:12`), `ambient_element` (`AmbientGraph.g4:11`), as one list type that allows
everything everywhere.  `device` is a sensor or an actuator (`AmbientGraph.g4:14-20`); `skipped` is a plain `node` or
`edge`, a template, a mirror, a typed parameter, a port or an ambience edge, for all of which the visitor has no or an
empty method.  `parameter` values that are words instead of numbers are not modelled. -/
inductive Items
  | nil
  | kinematic (name : Str) (body rest : Items)
  | ambient (name : Str) (body rest : Items)
  | device (name : Str) (rest : Items)
  | link (l : LinkDecl) (rest : Items)
  | joint (j : JointDecl) (rest : Items)
  | params (ps : List (Str × Rat)) (rest : Items)
  | skipped (rest : Items)
  deriving DecidableEq

/-- A file: `rootnode: entity`, `CogniLang.g4:5,12`. -/
structure EntityDecl where
  name : Str
  body : Items
  deriving DecidableEq

/-- The fields of the visitor, `cognilang_file_icon.py:21-34`. -/
structure FileIcon where
  cache : Dict Str Ref
  refs : Dict Str Ref
  root : Option Ref
  params : Ref
  fac : Factory
  cog : Factory

/-- `CognilangParserFileIcon(icon_name, clock)`, `cognilang_file_icon.py:21-34`. -/
def newFileIcon (E : Env) (name : Str) (ck : Clock) : PyM FileIcon := do
  let fac : Factory := { name := "factory_".toList ++ name, clock := some ck }
  let cog : Factory := { name := "cogni_".toList ++ name, clock := some ck }
  let w ← fac.generateNode E "world".toList none
  let p ← fac.generateNode E "parameters".toList none
  pure { cache := [("world".toList, w)], refs := [], root := none, params := p, fac := fac, cog := cog }

/-- `'/'.join(...)` of the names of the enclosing contexts, `cognilang_file_icon.py:44-58`. -/
def pathKey (path : List Str) : Str := Str.join '/' path

/-- `self._element_cache[key]`. -/
def FileIcon.cached (I : FileIcon) (key : Str) : PyM Ref :=
  match I.cache.get? key with
  | none => raise .keyError
  | some x => pure x

/-- `self._element_cache[x.qualified_name] = x`. -/
def FileIcon.remember (I : FileIcon) (x : Ref) : PyM FileIcon := do
  let o ← obj x
  pure { I with cache := I.cache.set o.qualName x }

/-- A pure step that may raise. -/
def liftE {α : Type} (r : Except Err α) : PyM α := fun h => (r, h)

/-- The first value node of that name, `cognilang_file_icon.py:151-152`. -/
def Heap.paramNode (h : Heap) (P : Ref) (name : Str) : Option Ref :=
  (h.subelements P).find? fun x => decide ((h.get x).kind = .value) && decide ((h.get x).idName = name)

/-- One step of the loop of `__extract_float_vector_values`, `cognilang_file_icon.py:148-156`.  `next` on an exhausted
generator inside a generator is a `RuntimeError`. -/
def floatsOf (h : Heap) (P : Ref) : FVal → Except Err (List Rat)
  | .num q => .ok [q]
  | .param n =>
    match h.paramNode P n with
    | none => .error .runtimeError
    | some v => .ok (h.valuesOf v)

/-- `list(self.__extract_float_vector_values(ctx))`, `cognilang_file_icon.py:147-156`. -/
def floatVec (h : Heap) (P : Ref) : List FVal → Except Err (List Rat)
  | [] => .ok []
  | v :: vs => do
    let a ← floatsOf h P v
    let b ← floatVec h P vs
    pure (a ++ b)

/-- `list(self.__extract_vector_field_values(ctx))`, `cognilang_file_icon.py:144-145`: for a reference
`ctx.float_vector()` is `None`. -/
def fieldVec (h : Heap) (P : Ref) : FField → Except Err (List Rat)
  | .vec v => floatVec h P v
  | .ref _ => .error .attributeError

/-- The rotation type of a rotation, `cognilang_file_icon.py:201-205`. -/
def rotationType : Option RotMark → Str
  | none => "rad".toList
  | some .d => "deg".toList
  | some .r => "r".toList

/-- `__extract_rigid_transformation`, `cognilang_file_icon.py:197-210`. -/
def poseValues (h : Heap) (P : Ref) (p : Pose) : Except Err (List Rat × List Rat × Str) := do
  let t ← floatVec h P p.trans
  match p.rot with
  | none => pure (t, [0, 0, 0], "deg".toList)
  | some (m, v) => do
    let r ← floatVec h P v
    pure (t, r, rotationType m)

/-- `__extract_rigid_transformation_element`, `cognilang_file_icon.py:212-226`.  The returned lists (the rotation
converted to radians) are not modelled, only the element is. -/
def FileIcon.poseElement (E : Env) (I : FileIcon) (p : Option Pose) (el : Ref) : PyM (FileIcon × Option Ref) :=
  match p with
  | none => pure (I, none)
  | some p => do
    let h ← heap
    let v ← liftE (poseValues h I.params p)
    let o ← obj el
    let t ← I.cog.generateSemantic E "rigidtransformation".toList (Str.join '_' [o.idName, "transformation".toList]) el
      [("translation".toList, .nums v.1), ("rotation".toList, .nums v.2.1), ("rotation_type".toList, .str v.2.2)] none
    let I' ← I.remember t
    pure (I', some t)

/-- The type names of `__collect_geometries`, `cognilang_file_icon.py:164-175`. -/
def geomWord : GeomClass → Str
  | .cylinder => "cylindergeometry".toList
  | .polyhedron => "polyhedrongeometry".toList
  | .ellipsoid => "ellipsoidgeometry".toList
  | .mesh => "meshgeometry".toList

/-- `__search_for_reference`, `cognilang_file_icon.py:97-113,124-131`: the names of the enclosing contexts without the
last `len(tags)`, then the tags. -/
def inferredName (names : List Str) (id : Str) : Str :=
  let tags := Str.split '/' id
  pathKey (names.take (names.length - tags.length) ++ tags)

/-- `__add_reference`, `cognilang_file_icon.py:133-142`; `names` are the names of the contexts around the geometry, the
name of the visual or collision node last.  Unpacking the `None` of an unsuccessful search is a `TypeError`. -/
def FileIcon.addReference (E : Env) (I : FileIcon) (names : List Str) (g : Ref) (id : Str) : PyM FileIcon := do
  let c ← I.cached (pathKey (names.take (names.length - 2)))
  match I.cache.get? (inferredName names id) with
  | none => raise .typeError
  | some t =>
    if I.refs.has (inferredName names id) then pure I else do
      let o ← obj g
      let e ← I.fac.createHyperedge E c ("ref_".toList ++ o.idName ++ '_' :: id)
      (unaryConnect E e t none .outwards none).void
      (unaryConnect E e g none .inwards none).void
      pure { I with refs := I.refs.set (inferredName names id) e }

/-- The branches of `__collect_geometries`, `cognilang_file_icon.py:161-182`. -/
def FileIcon.geomBody (E : Env) (I : FileIcon) (names : List Str) (g : Ref) (gname : Str) : Geom → PyM FileIcon
  | .ref id => I.addReference E names g id
  | .solid c f => do
    let h ← heap
    let vs ← liftE (fieldVec h I.params f)
    let s ← I.cog.generateSemantic E (geomWord c) gname g [("name".toList, .str gname)] (some (.nums vs))
    I.remember s

/-- `__collect_geometries`, `cognilang_file_icon.py:158-184`. -/
def FileIcon.geometry (E : Env) (I : FileIcon) (names : List Str) (x : Ref) (g : Geom) : PyM FileIcon := do
  let o ← obj x
  let gname := Str.join '_' ["geom".toList, o.idName]
  let n ← I.fac.generateNode E gname (some x)
  let I1 ← I.geomBody E names n gname g
  I1.remember n

/-- `__collect_materials`, `cognilang_file_icon.py:186-195`. -/
def FileIcon.material (E : Env) (I : FileIcon) (x : Ref) (m : Option Str) : PyM FileIcon := do
  let o ← obj x
  let mname := "material_".toList ++ o.idName
  let s ← I.cog.generateSemantic E "material".toList mname x
    [("name".toList, .str mname), ("material_name".toList, .str (m.getD "white".toList))] none
  I.remember s

/-- The name of a visual or collision node, `cognilang_file_icon.py:267,278-281`; `str(None)` is `None`. -/
def SolidDecl.nodeName (s : SolidDecl) (path : List Str) : Str :=
  match s.id with
  | some n => n
  | none => if s.visual then "None".toList else Str.join '/' [pathKey path, "coll".toList]

/-- `visitVisual_node` and `visitCollision_node`, `cognilang_file_icon.py:265-287`, in the link with path `path`. -/
def FileIcon.visitSolid (E : Env) (I : FileIcon) (path : List Str) (s : SolidDecl) : PyM FileIcon := do
  let c ← I.cached (pathKey path)
  let x ← I.fac.generateNode E (s.nodeName path) (some c)
  let I1 ← I.remember x
  let I2 ← I1.geometry E (path ++ [s.id.getD "None".toList]) x s.geom
  if s.visual then I2.material E x s.material else pure I2

/-- The solids of a link, in order (`visitChildren`). -/
def FileIcon.visitSolids (E : Env) (path : List Str) : FileIcon → List SolidDecl → PyM FileIcon
  | I, [] => pure I
  | I, s :: ss => do
    let I' ← I.visitSolid E path s
    FileIcon.visitSolids E path I' ss

/-- `visitInertia_body`, `cognilang_file_icon.py:313-321`: the generator of the inertia vector is printed, never run. -/
def FileIcon.visitInertia (E : Env) (I : FileIcon) (path : List Str) (mass : Rat) : PyM Unit := do
  let c ← I.cached (pathKey path)
  (I.cog.generateSemantic E "inertiaelement".toList ("inertia_".toList ++ pathKey path) c
    [("mass".toList, .num mass)] none).void

/-- `visitChildren` of a link. -/
def FileIcon.visitLinkBody (E : Env) (I : FileIcon) (path : List Str) : Option LinkBody → PyM FileIcon
  | none => pure I
  | some b => do
    I.visitInertia E path b.mass
    I.visitSolids E path b.solids

/-- The attribute that names the transformation, `cognilang_file_icon.py:297-299`: in Python a triple whose first part
is the element; the model keeps the element. -/
def setPoseAttr (sv : Ref) : Option Ref → PyM Unit
  | none => pure ()
  | some t => addNamedAttribute sv "rigidtransformation".toList (.obj t)

/-- `visitLink`, `cognilang_file_icon.py:289-303`, in the container with path `path`. -/
def FileIcon.visitLink (E : Env) (I : FileIcon) (path : List Str) (l : LinkDecl) : PyM FileIcon := do
  let c ← I.cached (pathKey path)
  let x ← I.fac.generateNode E l.name (some c)
  let sv ← I.cog.generateSemantic E "kinematiclink".toList l.name x [("name".toList, .str l.name)] none
  let r ← I.poseElement E l.pose sv
  setPoseAttr sv r.2
  let I2 ← r.1.remember x
  I2.visitLinkBody E (path ++ [l.name]) l.body

/-- `dir_enum_relation`, `cognilang_map_utility.py:6-14`. -/
def dirEnum (s : Str) : Except Err Dir :=
  if s = "<-".toList then .ok .inwards
  else if s = "->".toList then .ok .outwards
  else if s = "--".toList then .ok .bidirectional
  else .error .invalidDirection

/-- `__lookup_reference`, `cognilang_file_icon.py:60-67`. -/
def FileIcon.endpoint (I : FileIcon) (c : Ref) (ref : Str) : PyM Ref :=
  if ref = "world".toList then I.cached "world".toList
  else do
    let h ← heap
    let l ← liftE (getElementByIdName h c ref)
    match l with
    | [] => raise .indexError
    | t :: _ => pure t

/-- The axis of a joint relation, `cognilang_file_icon.py:83-85`. -/
def FileIcon.setAxis (I : FileIcon) (sv : Ref) : Option (List FVal) → PyM Unit
  | none => pure ()
  | some v => do
    let h ← heap
    let l ← liftE (floatVec h I.params v)
    addNamedAttribute sv "axis".toList (.nums l)

/-- `__extract_joint_relation`, `cognilang_file_icon.py:69-91`.  The weight is a list of the two lists
of the transformation; it is represented by the transformation element, which holds the same two lists and, like a list,
is no value node. -/
def FileIcon.jointRel (E : Env) (I : FileIcon) (c : Ref) (name : Str) (r : JointRel) : PyM (FileIcon × Link) := do
  let t ← I.endpoint c r.ref
  let d ← liftE (dirEnum r.dir)
  let sv ← I.cog.generateSemantic E "kinematicjoint".toList (jointName name r.ref) c
    [("joint_type".toList, .str r.type)] none
  I.setAxis sv r.axis
  let p ← I.poseElement E r.pose sv
  pure (p.1, { node := t, dir := d, weight := p.2, sem := some sv })

/-- `list(self.__collect_joint_relations(...))`, `cognilang_file_icon.py:93-95`. -/
def FileIcon.jointRels (E : Env) (c : Ref) (name : Str) : FileIcon → List JointRel → PyM (FileIcon × List Link)
  | I, [] => pure (I, [])
  | I, r :: rs => do
    let a ← I.jointRel E c name r
    let b ← FileIcon.jointRels E c name a.1 rs
    pure (b.1, a.2 :: b.2)

/-- `visitJoint`, `cognilang_file_icon.py:305-311`. -/
def FileIcon.visitJoint (E : Env) (I : FileIcon) (path : List Str) (j : JointDecl) : PyM FileIcon := do
  let c ← I.cached (pathKey path)
  let a ← I.jointRels E c j.name j.rels
  (a.1.fac.connectTuples E c j.name a.2).void
  pure a.1

/-- `visitParameter`, `cognilang_file_icon.py:235-238`. -/
def FileIcon.visitParam (E : Env) (I : FileIcon) (path : List Str) (p : Str × Rat) : PyM Unit := do
  let c ← I.cached (pathKey path)
  if some c = I.root then (I.fac.createValue E (some I.params) p.1 (some [p.2])).void else pure ()

/-- `visitAmbient`, `visitSensor`, `visitActuator`, `cognilang_file_icon.py:323-345`. -/
def FileIcon.visitNode (E : Env) (I : FileIcon) (path : List Str) (name : Str) : PyM FileIcon := do
  let c ← I.cached (pathKey path)
  let x ← I.fac.generateNode E name (some c)
  I.remember x

/-- `visitKinematic` without its children, `cognilang_file_icon.py:257-263`. -/
def FileIcon.visitKinematic (E : Env) (I : FileIcon) (path : List Str) (name : Str) : PyM FileIcon := do
  let c ← I.cached (pathKey path)
  let x ← I.fac.generateNode E name (some c)
  (I.cog.generateSemantic E "kinematicgraph".toList name x [("name".toList, .str name)] none).void
  I.remember x

/-- `visitChildren` of an entity, a kinematic or an ambient graph with path `path`. -/
def FileIcon.visitItems (E : Env) (path : List Str) : FileIcon → Items → PyM FileIcon
  | I, .nil => pure I
  | I, .kinematic name body rest => do
    let I1 ← I.visitKinematic E path name
    let I2 ← FileIcon.visitItems E (path ++ [name]) I1 body
    FileIcon.visitItems E path I2 rest
  | I, .ambient name body rest => do
    let I1 ← I.visitNode E path name
    let I2 ← FileIcon.visitItems E (path ++ [name]) I1 body
    FileIcon.visitItems E path I2 rest
  | I, .device name rest => do
    let I1 ← I.visitNode E path name
    FileIcon.visitItems E path I1 rest
  | I, .link l rest => do
    let I1 ← I.visitLink E path l
    FileIcon.visitItems E path I1 rest
  | I, .joint j rest => do
    let I1 ← I.visitJoint E path j
    FileIcon.visitItems E path I1 rest
  | I, .params ps rest => do
    forEach ps fun p => I.visitParam E path p
    FileIcon.visitItems E path I rest
  | I, .skipped rest => FileIcon.visitItems E path I rest

/-- `visitRootnode` and `visitEntity`, `cognilang_file_icon.py:241-255`: `icon.visit(tree)`. -/
def FileIcon.visit (E : Env) (I : FileIcon) (f : EntityDecl) : PyM FileIcon := do
  let x ← I.fac.generateNode E f.name none
  let I1 := { I with root := some x }
  (I1.cog.generateSemantic E "cognitiveentity".toList f.name x [("name".toList, .str f.name)] none).void
  let I2 ← I1.remember x
  FileIcon.visitItems E [f.name] I2 f.body

/-- A new reader reads a file: `visitor = CognilangParserFileIcon(name, clock); visitor.visit(tree)`,
`apps/simulation/convert_cognilang_sdf.py:39-41`. -/
def readFile (E : Env) (name : Str) (ck : Clock) (f : EntityDecl) : PyM FileIcon := do
  let I ← newFileIcon E name ck
  I.visit E f

end Rei
