import Verif.Model.Sdf
import Verif.Model.CogniLang

/-!
# The converter as a program (`apps/simulation/convert_cognilang_sdf.py`)

From the description that the parser finds in the input file (see `Model/Grammar` for the text) to the files that are
written.  The disk is a set of directories and a dictionary of files; permissions, links and devices are not modelled, and
paths are compared as strings (two spellings of one path, like `a//b` and `a/b`, are different here).
-/
namespace Rei

/-- What the program writes: a document (serialised by lxml, which is not modelled) or a text. -/
inductive Content
  | document (root : Xml)
  | script (text : Str)

/-- The directories (each with a slash at the end; the empty string is the working directory) and the files. -/
structure Disk where
  dirs : List Str
  files : Dict Str Content

/-- How the program ends if it does not succeed: an exception of the code, `FileNotFoundError` or `IsADirectoryError`. -/
inductive AppErr
  | raised (e : Err)
  | noDirectory
  | isDirectory

/-- `os.path.join(a, b)` of the Python library (`posixpath`): an absolute second part replaces the first. -/
def pathJoin (a b : Str) : Str :=
  if b.head? = some '/' then b
  else if a = [] ∨ a.getLast? = some '/' then a ++ b
  else a ++ '/' :: b

/-- The directory of a path, up to the last slash. -/
def dirName (p : Str) : Str := (p.reverse.dropWhile (· ≠ '/')).reverse

/-- `with open(p, 'w') as f: f.write(c)`, `convert_cognilang_sdf.py:56-59`: the file is made or replaced. -/
def Disk.write (D : Disk) (p : Str) (c : Content) : Except AppErr Disk :=
  if dirName p ∉ D.dirs then .error .noDirectory
  else if p ++ ['/'] ∈ D.dirs then .error .isDirectory
  else .ok { D with files := D.files.set p c }

/-- `CognilangSdfIcon.root_xml`, `cognilang_sdf_icon.py:20,42-45`. -/
def Sdf.rootXml (s : Sdf) : Xml :=
  .el "sdf".toList [("version".toList, "1.7".toList)] []
    (s.models.map fun m => .el "model".toList [("name".toList, m.1)] [] m.2)

/-- The text of the second file, `convert_cognilang_sdf.py:59`. -/
def loadScript (name : Str) : Str :=
  "ros2 run gazebo_ros spawn_entity.py -entity ".toList ++ name ++ " -file ".toList ++ name ++ ".sdf".toList

/-- Writing the two files, `convert_cognilang_sdf.py:56-59`. -/
def writeResults (out name : Str) (root : Xml) (D : Disk) : Except AppErr Unit × Disk :=
  match D.write (pathJoin out (name ++ ".sdf".toList)) (.document root) with
  | .error e => (.error e, D)
  | .ok D' =>
    match D'.write (pathJoin out (name ++ ".load.sh".toList)) (.script (loadScript name)) with
    | .error e => (.error e, D')
    | .ok D'' => (.ok (), D'')

/-- `main`, `convert_cognilang_sdf.py:26-59`, from the parsed file on: read it, convert the root entity, write the results.
`W` has the objects that exist when the program starts, the stack and the choices of the interpreter; `d` is the number of
nested graphs that fit on the stack.  Without an entity (`root_item` is `None`) the queries raise. -/
def convertMain (E : Env) (W : World) (d : Nat) (out : Str) (f : EntityDecl) (D : Disk) : Except AppErr Unit × Disk :=
  match readFile E "cogni_lang_file".toList .local f W.h with
  | (.error e, _) => (.error (.raised e), D)
  | (.ok I, h') =>
    match I.root with
    | none => (.error (.raised .attributeError), D)
    | some root =>
      match ({ W with h := h' } : World).convert d root {} with
      | (.error e, _) => (.error (.raised e), D)
      | (.ok _, r) => writeResults out (h'.get root).idName r.sdf.rootXml D

end Rei
