import Verif.Spec.CogniSdf
import Verif.Spec.Tensor

/-!
# Tensors of kinematic graphs read from CogniLang files (C106)

What a body must be like to be convertible, and what the entries must be, stated on the file alone.
-/
namespace Rei

/-- The names of the nodes that the declarations of a body stand for, in order. -/
def Items.nodeNames : Items → List Str
  | .nil => []
  | .kinematic n _ rest | .ambient n _ rest | .device n rest => n :: rest.nodeNames
  | .link l rest => l.name :: rest.nodeNames
  | .joint _ rest | .params _ rest | .skipped rest => rest.nodeNames

/-- Somewhere in the body of the element at `path`, at any depth, the element at `q` has a kinematic graph `g` with body
`b`. -/
def Items.Has (q : List Str) (g : Str) (b : Items) : (path : List Str) → Items → Prop
  | _, .nil => False
  | path, .kinematic n body rest => (q = path ∧ g = n ∧ b = body) ∨ Items.Has q g b (path ++ [n]) body ∨
      Items.Has q g b path rest
  | path, .ambient n body rest => Items.Has q g b (path ++ [n]) body ∨ Items.Has q g b path rest
  | path, .device _ rest | path, .link _ rest | path, .joint _ rest | path, .params _ rest | path, .skipped rest =>
      Items.Has q g b path rest

/-- The graph `g` with that body stands for itself: its nodes have names of their own; no geometry refers to another one;
the relations of its joints lead, by plain names, to its nodes, and have no pose. -/
structure Items.SelfContained (g : Str) (b : Items) : Prop where
  distinct : b.nodeNames.Nodup
  graph : g ∉ b.nodeNames
  joints : ∀ j ∈ b.joints, j.name ∉ b.nodeNames
  solids : ∀ l ∈ b.links, ∀ s ∈ l.solids, ∀ id, s.geom ≠ .ref id
  refs : ∀ j ∈ b.joints, ∀ r ∈ j.rels, r.ref ∈ b.nodeNames ∧ r.ref ≠ "world".toList ∧ '/' ∉ r.ref
  poses : ∀ j ∈ b.joints, ∀ r ∈ j.rels, r.pose = none

/-- The joint has relations to `m` and to `n`, two different nodes, one of which leads from `m` into the joint or from
the joint to `n`. -/
def JointDecl.Leads (j : JointDecl) (m n : Str) : Prop :=
  m ≠ n ∧ (∃ r ∈ j.rels, r.ref = m) ∧ (∃ r ∈ j.rels, r.ref = n) ∧
    ((∃ r ∈ j.rels, r.ref = m ∧ (r.dir = "<-".toList ∨ r.dir = "--".toList)) ∨
     (∃ r ∈ j.rels, r.ref = n ∧ (r.dir = "->".toList ∨ r.dir = "--".toList)))

instance (j : JointDecl) (m n : Str) : Decidable (j.Leads m n) := by unfold JointDecl.Leads; infer_instance

end Rei
