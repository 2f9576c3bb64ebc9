import Verif.Py.Str

/-!
# The characters of names, numbers, strings and blanks (C63, C92)

Written out one by one, apart from the ranges in the model.
-/
namespace Rei

/-- The letters of a name, `_` and `/` among them. -/
def nameLetters : Str := "abcdefghijklmnopqrstuvwxyzABCDEFGHIJKLMNOPQRSTUVWXYZ_/".toList

/-- The decimal digits. -/
def digitChars : Str := "0123456789".toList

/-- What may stand between the quotes of a string. -/
def stringChars : Str := "abcdefghijklmnopqrstuvwxyzABCDEFGHIJKLMNOPQRSTUVWXYZ_/0123456789'".toList

/-- What may stand between words: blank, tabulator, new line, carriage return. -/
def spaceChars : Str := " \t\n\r".toList

/-- What `str.strip` takes off an ASCII text: the above, vertical tabulator, form feed and the four separators. -/
def stripChars : Str := " \t\n\r\x0b\x0c\x1c\x1d\x1e\x1f".toList

/-- The words that are no names because they are keywords of CogniLang, in alphabetical order, and the signs. -/
def reservedWords : List String := [
  "accuracy", "actuator", "ambience", "ambient", "at", "collision", "comm", "cylinder", "d", "double", "edge",
  "ellipsoid", "encoder", "entity", "fix", "force", "full", "gnss", "imu", "inertia", "int", "joint",
  "kinematic", "laserarray", "link", "mass", "material", "mesh", "mirror", "node", "pairwise", "parameters",
  "polyhedron", "port", "precision", "r", "rev", "root", "sensor", "signal", "single", "stream", "string",
  "tr", "union", "variance", "vec", "visual",
  "(", ")", ",", "--", "->", ":", "<-", "=", "@", "[", "]", "{", "|", "}"]

end Rei
