import Verif.Spec.CogniSdf

/-!
# Models whose names are in order (C95)
-/
namespace Rei

/-- The name of an element. -/
def Xml.name? (x : Xml) : Option Str := x.attr? "name".toList

/-- `n` is the world or the name of a link. -/
def IsLinkName (xs : List Xml) (n : Str) : Prop := n = "world".toList ∨ ∃ y ∈ xs, y.tag = "link".toList ∧ y.name? = some n

/-- The elements of a model, all links and joints, have different names, and so have the visuals and collisions of a
link; parent and child of a joint are two different links of the model, or the world; the pose of a joint is given in the
frame of its parent, and that of a link in the frame of a joint of the model whose child is the link. -/
structure WellLinked (xs : List Xml) : Prop where
  tags : ∀ x ∈ xs, x.tag = "link".toList ∨ x.tag = "joint".toList
  named : ∀ x ∈ xs, ∃ n, x.name? = some n
  names : (xs.map Xml.name?).Nodup
  solids : ∀ x ∈ xs, x.tag = "link".toList → ((x.every "visual" ++ x.every "collision").map Xml.name?).Nodup
  joints : ∀ x ∈ xs, x.tag = "joint".toList → ∃ p c, x.childText "parent" = some [.str p] ∧ x.childText "child" = some [.str c] ∧
    IsLinkName xs p ∧ IsLinkName xs c ∧ p ≠ c ∧ ∀ q ∈ x.every "pose", q.attr? "relative_to".toList = some p
  frames : ∀ x ∈ xs, x.tag = "link".toList → ∀ fr, x.frame = some fr → ∃ y ∈ xs, y.tag = "joint".toList ∧ y.name? = some fr ∧
    ∃ n, x.name? = some n ∧ y.childText "child" = some [.str n]

/-- A joint with one relation into it and one out of it, from and to different things. -/
def JointDecl.Simple (j : JointDecl) : Prop :=
  ∃ i o, (j.rels = [i, o] ∨ j.rels = [o, i]) ∧ i.dir = "<-".toList ∧ o.dir = "->".toList ∧ i.ref ≠ o.ref

/-- A body with simple joints, with different names. -/
structure Items.Tidy (body : Items) : Prop where
  simple : ∀ j ∈ body.joints, j.Simple
  distinct : (body.joints.map JointDecl.name).Nodup

/-- No dots in the names of links and joints, and no joint without a name. -/
structure Items.Dotless (body : Items) : Prop where
  links : ∀ l ∈ body.links, '.' ∉ l.name
  joints : ∀ j ∈ body.joints, '.' ∉ j.name ∧ j.name ≠ []

/-- Outer graph and nested graphs are tidy; no joint leads from a nested graph; nested graphs have no connection with the
world, and each has at most one base link. -/
structure Items.AllTidy (body : Items) : Prop where
  outer : body.Tidy
  nested : ∀ p ∈ body.graphs, p.2.Tidy
  parents : ∀ j ∈ body.joints, ∀ i ∈ j.rels, i.dir = "<-".toList → ∀ p ∈ body.graphs, p.1 ≠ i.ref
  worlds : ∀ p ∈ body.graphs, ∀ j ∈ p.2.joints, ∀ r ∈ j.rels, r.ref ≠ "world".toList
  bases : ∀ p ∈ body.graphs, ∀ l ∈ p.2.links, ∀ l' ∈ p.2.links, IsBase p.2.joints l → IsBase p.2.joints l' → l = l'

/-- The same for outer graph and nested graphs. -/
def Items.AllDotless (body : Items) : Prop := body.Dotless ∧ ∀ p ∈ body.graphs, p.2.Dotless

end Rei
