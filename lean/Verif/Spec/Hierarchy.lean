import Verif.Model.System

/-!
# Specification vocabulary for the containment hierarchy

These notions only mention the observable attributes `parent` and `id_name`.
-/
namespace Rei

/-- `l` is the list of `id_name`s on the way from the root of `x` down to `x`. -/
inductive PathTo (h : Heap) : Ref → List Str → Prop
  | root {x} : (h.get x).parent = none → PathTo h x [(h.get x).idName]
  | child {x p l} : (h.get x).parent = some p → PathTo h p l → PathTo h x (l ++ [(h.get x).idName])

/-- `y` is `x` or lies somewhere below `x`. -/
def Within (h : Heap) (x y : Ref) : Prop := y = x ∨ Anc h x y

/-- The qualified name of `x` is the `/`-joined path of `id_name`s from its root. -/
def NamedByPath (h : Heap) (x : Ref) : Prop :=
  ∃ l, PathTo h x l ∧ (h.get x).qualName = Str.join '/' l

end Rei
