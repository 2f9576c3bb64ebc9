import Verif.Spec.Grammar

/-!
# The descriptions that can be written in CogniLang
-/
namespace Rei

/-- A name: word characters and digits, not a digit first, not a word of the language. -/
def IsName (s : Str) : Prop :=
  Only (fun c => isWordChar c || isDigit c) s ∧ (∀ c w, s = c :: w → isWordChar c = true) ∧ s ∉ literals

/-- A number with finitely many decimals. -/
def IsDecimal (q : Rat) : Prop := ∃ (z : Int) (k : Nat), q = (z : Rat) / (10 ^ k : Nat)

/-- A number or a name. -/
def FVal.Form : FVal → Prop
  | .num q => IsDecimal q
  | .param n => IsName n

/-- A vector has at least one component. -/
def VecForm (v : List FVal) : Prop := v ≠ [] ∧ ∀ x ∈ v, x.Form

/-- A vector or a name. -/
def FField.Form : FField → Prop
  | .vec v => VecForm v
  | .ref n => IsName n

/-- A translation and a rotation. -/
def Pose.Form (p : Pose) : Prop := VecForm p.trans ∧ ∀ m v, p.rot = some (m, v) → VecForm v

/-- The geometry of a solid. -/
def Geom.Form : Geom → Prop
  | .solid _ f => f.Form
  | .ref n => IsName n

/-- A solid; only visual ones have a material. -/
def SolidDecl.Form (s : SolidDecl) : Prop :=
  (∀ n, s.id = some n → IsName n) ∧ (∀ n, s.material = some n → IsName n ∧ s.visual = true) ∧ s.geom.Form

/-- The body of a link. -/
def LinkBody.Form (b : LinkBody) : Prop :=
  IsDecimal b.mass ∧ (∀ f, b.inertia = some f → f.Form) ∧ ∀ s ∈ b.solids, s.Form

/-- A link. -/
def LinkDecl.Form (l : LinkDecl) : Prop :=
  IsName l.name ∧ (∀ p, l.pose = some p → p.Form) ∧ ∀ b, l.body = some b → b.Form

/-- One end of a joint. -/
def JointRel.Form (r : JointRel) : Prop :=
  r.type ∈ ["fix".toList, "rev".toList, "tr".toList] ∧ r.dir ∈ ["->".toList, "<-".toList, "--".toList] ∧ IsName r.ref ∧
    (∀ p, r.pose = some p → p.Form) ∧ ∀ v, r.axis = some v → VecForm v

/-- A joint has at least one end. -/
def JointDecl.Form (j : JointDecl) : Prop := IsName j.name ∧ j.rels ≠ [] ∧ ∀ r ∈ j.rels, r.Form

/-- Where elements are. -/
inductive Place
  | kinematic | ambient | entity
  deriving DecidableEq

/-- Links are in kinematic graphs, joints are there and at the top, sensors and actuators are in ambient graphs, ambient
graphs are not in kinematic ones, and parameters are at the top. -/
def Items.Form : Place → Items → Prop
  | _, .nil => True
  | p, .kinematic n b rest => IsName n ∧ b.Form .kinematic ∧ rest.Form p
  | p, .ambient n b rest => p ≠ .kinematic ∧ IsName n ∧ b.Form .ambient ∧ rest.Form p
  | p, .device n rest => p = .ambient ∧ IsName n ∧ rest.Form p
  | p, .link l rest => p = .kinematic ∧ l.Form ∧ rest.Form p
  | p, .joint j rest => p ≠ .ambient ∧ j.Form ∧ rest.Form p
  | p, .params qs rest => p = .entity ∧ (∀ q ∈ qs, IsName q.1 ∧ IsDecimal q.2) ∧ rest.Form p
  | p, .skipped rest => rest.Form p

/-- The form of a whole description. -/
def EntityDecl.Form (f : EntityDecl) : Prop := IsName f.name ∧ f.body.Form .entity

end Rei
