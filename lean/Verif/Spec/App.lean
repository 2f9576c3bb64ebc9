import Verif.Model.App
import Verif.Spec.Sdf

/-!
# What the converter must leave on the disk (C108)
-/
namespace Rei

/-- After the run the files at `p` and `q` are as given, and every other file is as before. -/
structure Wrote (D D' : Disk) (p : Str) (c : Content) (q : Str) (s : Content) : Prop where
  dirs : D'.dirs = D.dirs
  first : D'.files.get? p = some c
  second : D'.files.get? q = some s
  others : ∀ x, x ≠ p → x ≠ q → D'.files.get? x = D.files.get? x

/-- The two files of an entity can be written to the directory `dir`, which ends with a slash (or is empty, for the working
directory). -/
structure CanWrite (D : Disk) (dir name : Str) : Prop where
  there : dir ∈ D.dirs
  sdf : dir ++ name ++ ".sdf/".toList ∉ D.dirs
  load : dir ++ name ++ ".load.sh/".toList ∉ D.dirs

/-- The output directory as it is given on the command line, with a slash at its end (if it is not empty). -/
def withSlash (out : Str) : Str := if out = [] ∨ out.getLast? = some '/' then out else out ++ ['/']

/-- The interpreter's stack suffices for the objects there are, schedules are schedules, and `set.pop` takes an element. -/
structure World.Enough (W : World) (n : Nat) : Prop where
  stack : n < W.budget
  order : ∀ n, Schedule (W.choice n).order
  pop : ∀ n l, l ≠ [] → (W.choice n).pop l ∈ l

end Rei
