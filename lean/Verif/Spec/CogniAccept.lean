import Verif.Spec.CogniLang

/-!
# Well-formed CogniLang files (C81)

The conditions on a file under which the reader must accept it, stated on the file alone.
-/
namespace Rei

/-- The names in use so far, the latest first.  A node comes with its own name, a semantic element without. -/
abbrev Known := List (Str × Option Str)

/-- A number, or the name of a declared parameter. -/
def FVal.known (ps : Params) : FVal → Bool
  | .num _ => true
  | .param n => (ps.lookup n).isSome

/-- Every entry of the vector is known. -/
def vecKnown (ps : Params) (v : List FVal) : Bool := v.all (FVal.known ps)

/-- Translation and rotation are known. -/
def Pose.known (ps : Params) (p : Pose) : Bool := vecKnown ps p.trans && p.rot.all fun r => vecKnown ps r.2

/-- The qualified name that a pose of `owner`, an element at `path`, adds. -/
def poseNames (path : List Str) (owner : Str) : Option Pose → Known
  | none => []
  | some _ => [(Str.join '/' (path ++ [owner ++ "_transformation".toList]), none)]

/-- A solid needs a class other than a mesh and a vector of known numbers.  The first reference to a name needs a node of
that name, and the node must not be called like the geometry itself. -/
def Geom.wellFormed (ps : Params) (seen : List Str) (W : Known) (around : List Str) (gname : Str) : Geom → Bool
  | .solid c (.vec v) => c.kind.isSome && vecKnown ps v
  | .solid _ (.ref _) => false
  | .ref id => decide (targetName around id ∈ seen) ||
      match W.lookup (targetName around id) with
      | some (some n) => decide (n ≠ gname)
      | _ => false

/-- The qualified names of a visual or collision node of the link `path`, the latest first. -/
def SolidDecl.names (path : List Str) (s : SolidDecl) : Known :=
  let n := s.nodeName path
  let g := "geom_".toList ++ n
  (if s.visual then [(Str.join '/' (path ++ [n, "material_".toList ++ n]), none)] else []) ++
  [(Str.join '/' (path ++ [n, g]), some g)] ++
  (match s.geom with
    | .solid _ _ => [(Str.join '/' (path ++ [n, g, g]), none)]
    | .ref _ => []) ++
  [(Str.join '/' (path ++ [n]), some n)]

/-- A visual or collision node needs a well-formed geometry. -/
def SolidDecl.wellFormed (ps : Params) (seen path : List Str) (W : Known) (s : SolidDecl) : Bool :=
  s.geom.wellFormed ps seen ((Str.join '/' (path ++ [s.nodeName path]), some (s.nodeName path)) :: W) (s.around path)
    ("geom_".toList ++ s.nodeName path)

/-- The qualified names of all solids of a link. -/
def solidsNames (path : List Str) : List SolidDecl → Known
  | [] => []
  | s :: ss => solidsNames path ss ++ s.names path

/-- Every solid is well-formed where it stands. -/
def solidsWellFormed (ps : Params) (path : List Str) : List Str → Known → List SolidDecl → Bool
  | _, _, [] => true
  | seen, W, s :: ss => s.wellFormed ps seen path W &&
      solidsWellFormed ps path (seen ++ s.geom.targets (s.around path)) (s.names path ++ W) ss

/-- The names of the reference edges that the solids of a link add to its container. -/
def solidsEdges (path : List Str) : List Str → List SolidDecl → List Str
  | _, [] => []
  | seen, s :: ss => (match s.geom with
      | .solid _ _ => []
      | .ref id => if targetName (s.around path) id ∈ seen then []
        else ["ref_".toList ++ ("geom_".toList ++ s.nodeName path) ++ '_' :: id]) ++
      solidsEdges path (seen ++ s.geom.targets (s.around path)) ss

/-- The solids of a link. -/
def LinkDecl.solids (l : LinkDecl) : List SolidDecl := (l.body.map LinkBody.solids).getD []

/-- The qualified names of the link and its transformation, without its solids. -/
def LinkDecl.ownNames (path : List Str) (l : LinkDecl) : Known :=
  (Str.join '/' (path ++ [l.name]), some l.name) :: poseNames (path ++ [l.name, l.name]) l.name l.pose

/-- The qualified names that a link in the container `path` adds. -/
def LinkDecl.names (path : List Str) (l : LinkDecl) : Known := solidsNames (path ++ [l.name]) l.solids ++ l.ownNames path

/-- A link needs a known pose and well-formed solids. -/
def LinkDecl.wellFormed (ps : Params) (seen path : List Str) (W : Known) (l : LinkDecl) : Bool :=
  l.pose.all (Pose.known ps) && solidsWellFormed ps (path ++ [l.name]) seen (l.ownNames path ++ W) l.solids

/-- The parts that a link adds to its container: itself, then its reference edges. -/
def LinkDecl.adds (seen path : List Str) (l : LinkDecl) : List (Str × Bool) :=
  (l.name, true) :: (solidsEdges (path ++ [l.name]) seen l.solids).map fun n => (n, false)

/-- A joint relation needs an arrow, a known pose and axis, and as endpoint the world or a plain name, the first bearer
of which in the container is a node. -/
def JointRel.wellFormed (ps : Params) (here : List (Str × Bool)) (r : JointRel) : Bool :=
  decide (r.dir = "<-".toList ∨ r.dir = "->".toList ∨ r.dir = "--".toList) && r.pose.all (Pose.known ps) &&
  r.axis.all (vecKnown ps) &&
  (decide (r.ref = "world".toList) ||
    decide ('/' ∉ r.ref ∧ '.' ∉ r.ref) && decide (here.lookup r.ref = some true))

/-- A joint needs well-formed relations to elements with different names. -/
def JointDecl.wellFormed (ps : Params) (here : List (Str × Bool)) (j : JointDecl) : Bool :=
  j.rels.all (JointRel.wellFormed ps here) && decide (j.rels.map JointRel.ref).Nodup

/-- The qualified names that the relations of a joint add. -/
def jointNames (path : List Str) (name : Str) : List JointRel → Known
  | [] => []
  | r :: rs => jointNames path name rs ++ poseNames (path ++ [name ++ '.' :: r.ref]) (name ++ '.' :: r.ref) r.pose

/-- The qualified names that a body at `path` adds. -/
def Items.names (path : List Str) : Items → Known
  | .nil => []
  | .kinematic name body rest =>
      rest.names path ++ body.names (path ++ [name]) ++ [(Str.join '/' (path ++ [name]), some name)]
  | .ambient name body rest =>
      rest.names path ++ body.names (path ++ [name]) ++ [(Str.join '/' (path ++ [name]), some name)]
  | .device name rest => rest.names path ++ [(Str.join '/' (path ++ [name]), some name)]
  | .link l rest => rest.names path ++ l.names path
  | .joint j rest => rest.names path ++ jointNames path j.name j.rels
  | .params _ rest => rest.names path
  | .skipped rest => rest.names path

/-- The body of the element at `path` is well-formed.  `ps` are the parameters declared before, `seen` the names referred
to before, `W` the qualified names in use, `here` the names of the parts of the element so far, with `true` for
nodes. -/
def Items.wellFormed : (top : Bool) → Params → (seen path : List Str) → Known → (here : List (Str × Bool)) → Items → Bool
  | _, _, _, _, _, _, .nil => true
  | top, ps, seen, path, W, here, .kinematic name body rest =>
      body.wellFormed false ps seen (path ++ [name]) ((Str.join '/' (path ++ [name]), some name) :: W) [(name, false)] &&
      rest.wellFormed top ps (seen ++ body.targets (path ++ [name])) path
        (body.names (path ++ [name]) ++ (Str.join '/' (path ++ [name]), some name) :: W) (here ++ [(name, true)])
  | top, ps, seen, path, W, here, .ambient name body rest =>
      body.wellFormed false ps seen (path ++ [name]) ((Str.join '/' (path ++ [name]), some name) :: W) [] &&
      rest.wellFormed top ps (seen ++ body.targets (path ++ [name])) path
        (body.names (path ++ [name]) ++ (Str.join '/' (path ++ [name]), some name) :: W) (here ++ [(name, true)])
  | top, ps, seen, path, W, here, .device name rest =>
      rest.wellFormed top ps seen path ((Str.join '/' (path ++ [name]), some name) :: W) (here ++ [(name, true)])
  | top, ps, seen, path, W, here, .link l rest =>
      l.wellFormed ps seen path W &&
      rest.wellFormed top ps (seen ++ l.targets path) path (l.names path ++ W) (here ++ l.adds seen path)
  | top, ps, seen, path, W, here, .joint j rest =>
      j.wellFormed ps here &&
      rest.wellFormed top ps seen path (jointNames path j.name j.rels ++ W) (here ++ [(j.name, false)])
  | top, ps, seen, path, W, here, .params qs rest =>
      rest.wellFormed top (if top then ps ++ qs else ps) seen path W here
  | top, ps, seen, path, W, here, .skipped rest => rest.wellFormed top ps seen path W here

/-- A file is well-formed. -/
def EntityDecl.wellFormed (f : EntityDecl) : Bool :=
  f.body.wellFormed true [] [] [f.name] [(f.name, some f.name), ("world".toList, some "world".toList)] [(f.name, false)]

end Rei
