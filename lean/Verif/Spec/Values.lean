import Verif.Spec.Containment

/-!
# Specification of value nodes and attributes (C25–C27)

Independent of the functions of the model that implement them.
-/
namespace Rei

/-- Python's `l[i]`: `i` counts from the front, a negative `i` from the back (`-1` is the last item);
`none` is `IndexError`. -/
def pyAt (l : List Rat) (i : Int) : Option Rat :=
  if 0 ≤ i then l[i.toNat]? else l.reverse[(-i - 1).toNat]?

/-- `i` and `j` denote the same position of a list of length `n`. -/
def SamePosition (n : Nat) (i j : Int) : Prop := j = i ∨ j = i - n ∨ j = i + n

/-- The call writes the list object `l` directly, or makes a value node hold it. -/
def Op.UsesList (l : Nat) : Op → Prop
  | .setItem l' _ _ => l' = l
  | .appendItem l' _ => l' = l
  | .updateValues _ l' => l' = l
  | _ => False

/-- The call is an update of the value node `v`. -/
def Op.UpdatesNode (v : Ref) : Op → Prop
  | .updateValue w _ _ => w = v
  | .updateValues w _ => w = v
  | _ => False

/-- `h'` is a later state of the same program; every call in between satisfies `P`. -/
inductive LaterBy (E : Env) (P : Op → Prop) : Heap → Heap → Prop
  | refl (h) : LaterBy E P h h
  | step {h h'} (op : Op) : LaterBy E P h h' → op.Valid h' → P op → LaterBy E P h (op.after E h')

/-- No value node changes its number of values: `update_values` is given a list as long as the old
one, and a list held by a value node is not appended to. -/
def Op.KeepsLength (h : Heap) : Op → Prop
  | .updateValues v l => (h.lists l).length = (h.lists (h.get v).vals).length
  | .appendItem l _ => ∀ v < h.size, (h.get v).kind = .value → (h.get v).vals ≠ l
  | _ => True

/-- States reached by well-formed calls that keep the lengths of the value lists. -/
inductive ReachFixedLength (E : Env) : Heap → Prop
  | init : ReachFixedLength E Heap.empty
  | step {h} (op : Op) : ReachFixedLength E h → op.Valid h → op.KeepsLength h →
      ReachFixedLength E (op.after E h)

/-- What a map from names to attributes becomes after a call, as far as the node `s` is concerned. -/
def attrSpec (s : Ref) (m : Str → Option AttrVal) : Op → Str → Option AttrVal
  | .addAttr s' k a => fun j => if s' = s ∧ j = k then some a else m j
  | .removeAttr s' k => fun j => if s' = s ∧ j = k then none else m j
  | _ => m

/-- Run calls one after the other. -/
def runOps (E : Env) : List Op → Heap → Heap
  | [], h => h
  | op :: ops, h => runOps E ops (op.after E h)

/-- Each call is well-formed in the state it is made in. -/
def ValidOps (E : Env) : List Op → Heap → Prop
  | [], _ => True
  | op :: ops, h => op.Valid h ∧ ValidOps E ops (op.after E h)

end Rei
