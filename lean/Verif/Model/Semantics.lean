import Verif.Model.Factory

/-!
# Semantic elements (`format/semantics/cognitive_entity_semantic_factory.py`)
-/
namespace Rei
open PyM

/-- ASCII characters removed by `str.strip`. -/
def isBlank (c : Char) : Bool := c.toNat == 32 || (9 ≤ c.toNat && c.toNat ≤ 13) || (28 ≤ c.toNat && c.toNat ≤ 31)

/-- `s.strip()`. -/
def strip (s : Str) : Str := ((s.dropWhile isBlank).reverse.dropWhile isBlank).reverse

/-- `''.join(raw.lower().strip().split('_'))`, `cognitive_entity_semantic_factory.py:23`.  Letters and blanks
beyond ASCII are left alone. -/
def normaliseType (raw : Str) : Str := (strip (raw.map Char.toLower)).filter fun c => decide (c ≠ '_')

/-- The `match`, `cognitive_entity_semantic_factory.py:26-52`. -/
def semanticClass (t : Str) : Option SemKind :=
  if t = "cognitiveentity".toList then some .cognitiveEntity
  else if t = "kinematicgraph".toList then some .kinGraph
  else if t = "kinematiclink".toList then some .kinLink
  else if t = "kinematicjoint".toList then some .kinJoint
  else if t = "cylindergeometry".toList then some .cylinder
  else if t = "polyhedrongeometry".toList then some .polyhedron
  else if t = "ellipsoidgeometry".toList then some .ellipsoid
  else if t = "material".toList then some .material
  else if t = "rigidtransformation".toList then some .rigid
  else if t = "inertiaelement".toList then some .inertia
  else none

/-- The attribute name `values`, `cognitive_entity_semantic_factory.py:56`. -/
def valuesKey : Str := "values".toList

/-- `generate_semantic_element`, `cognitive_entity_semantic_factory.py:19-57`. -/
def Factory.generateSemantic (E : Env) (F : Factory) (raw name : Str) (parent : Ref) (attr : Dict Str AttrVal)
    (values : Option AttrVal) : PyM Ref := do
  if attr = [] then raise .insufficientValues else do
  let u ← F.generateUid E name
  match semanticClass (normaliseType raw) with
  | none => raise .invalidSemanticType
  | some k => do
    let q ← F.stampedIn E name parent
    let x ← newSemantic k u name q attr
    addElement E parent x
    match values with
    | none => pure x
    | some v => do
      addNamedAttribute x valuesKey v
      pure x

end Rei
