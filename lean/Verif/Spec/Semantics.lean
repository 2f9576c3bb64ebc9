import Verif.Model.Semantics
import Verif.Spec.Factory
import Verif.Spec.Hierarchy

/-!
# Specification of semantic elements (C63)
-/
namespace Rei

/-- The word for each class of semantic elements that the factory can make. -/
def keyword : SemKind → Option Str
  | .cognitiveEntity => some "cognitiveentity".toList
  | .kinGraph => some "kinematicgraph".toList
  | .kinLink => some "kinematiclink".toList
  | .kinJoint => some "kinematicjoint".toList
  | .cylinder => some "cylindergeometry".toList
  | .polyhedron => some "polyhedrongeometry".toList
  | .ellipsoid => some "ellipsoidgeometry".toList
  | .material => some "material".toList
  | .rigid => some "rigidtransformation".toList
  | .inertia => some "inertiaelement".toList
  | .plain | .geometry => none

/-- `raw` spells the word: blanks around it, upper or lower case, underscores anywhere inside. -/
def Spells (raw word : Str) : Prop :=
  ∃ a s b, raw = a ++ s ++ b ∧ (∀ c ∈ a, isBlank c = true) ∧ (∀ c ∈ b, isBlank c = true) ∧
    (∀ c ∈ s, isBlank c = false) ∧ (s.filter fun c => decide (c ≠ '_')).map Char.toLower = word

end Rei
