import Verif.Model.EventLoop
import Verif.Spec.Hierarchy
import Mathlib.Logic.Relation

/-!
# What batches on the event loop should do (C98, C99, C100)
-/
namespace Rei

/-- Batches: each a container and the elements `add_elements` is called with. -/
abbrev Batches := List (Ref × List Ref)

/-- Some batch adds `x` to `c`. -/
def Planned (bs : Batches) (c x : Ref) : Prop := ∃ xs, (c, xs) ∈ bs ∧ x ∈ xs

/-- `c` contains `x`, or will. -/
def HoldsOrWill (h : Heap) (bs : Batches) (c x : Ref) : Prop := (h.get x).parent = some c ∨ Planned bs c x

/-- The batches can all be carried out: the containers are neither edges nor relations, the elements are in no container,
no element is added twice, the uuids in each container stay distinct, and no element comes to lie in itself. -/
structure Compatible (h : Heap) (bs : Batches) : Prop where
  containers : ∀ b ∈ bs, b.1 < h.size ∧ (h.get b.1).kind ≠ .edge ∧ (h.get b.1).kind ≠ .relation
  free : ∀ c x, Planned bs c x → x < h.size ∧ (h.get x).parent = none
  once : (bs.flatMap Prod.snd).Nodup
  uuids : ∀ c x y, Planned bs c x → HoldsOrWill h bs c y → (h.get y).uuid = (h.get x).uuid → y = x
  acyclic : ∀ x, ¬ Relation.TransGen (HoldsOrWill h bs) x x

/-- The tasks of the batches, before their first step. -/
def Batches.jobs (bs : Batches) : List Job := bs.flatMap fun b => addElementsJobs b.1 b.2

/-- The container that batch steps taken so far have put `x` into: `n i` elements of batch `i` have been added. -/
def PutInto (bs : Batches) (n : Nat → Nat) (c x : Ref) : Prop := ∃ (i : Nat) (xs : List Ref), bs[i]? = some (c, xs) ∧ x ∈ xs.take (n i)

/-- `h'` is `h` after `n i` elements of batch `i` have been added, for every `i`: they are where they belong, each container
has its new elements after its old ones, those of one batch in their order, and nothing else moved. -/
structure AddedSoFar (h : Heap) (bs : Batches) (n : Nat → Nat) (h' : Heap) : Prop where
  size : h'.size = h.size
  placed : ∀ c x, PutInto bs n c x → (h'.get x).parent = some c
  others : ∀ x, (∀ c, ¬ PutInto bs n c x) → (h'.get x).parent = (h.get x).parent
  inside : ∀ c, ∃ new, h'.subelements c = h.subelements c ++ new ∧
    ∀ (i : Nat) xs, bs[i]? = some (c, xs) → (xs.take (n i)).Sublist new
  same : ∀ x, (h'.get x).idName = (h.get x).idName ∧ (h'.get x).uuid = (h.get x).uuid ∧ (h'.get x).kind = (h.get x).kind
  named : (∀ x < h.size, NamedByPath h x) → ∀ x < h.size, NamedByPath h' x

/-- The pair `p` of `remove_elements` means the element `x` of `c`: by its uuid, with or without its name; or by its name, if
no other element of `c` has it. -/
def MeansIn (h : Heap) (c : Ref) (p : Str × Option Bytes) (x : Ref) : Prop :=
  x ∈ h.subelements c ∧
    ((p.2 = some (h.get x).uuid ∧ (p.1 = [] ∨ p.1 = (h.get x).idName)) ∨
      (p.2 = none ∧ p.1 ≠ [] ∧ p.1 = (h.get x).idName ∧ ∀ y ∈ h.subelements c, (h.get y).idName = p.1 → y = x))

/-- `h'` is `h` after the elements `xs` have been detached from `c`. -/
structure DetachedAll (h : Heap) (c : Ref) (xs : List Ref) (h' : Heap) : Prop where
  gone : ∀ x ∈ xs, (h'.get x).parent = none
  others : ∀ y, y ∉ xs → (h'.get y).parent = (h.get y).parent
  inside : h'.subelements c = (h.subelements c).filter fun y => decide (y ∉ xs)
  elsewhere : ∀ d, d ≠ c → h'.subelements d = h.subelements d

/-- The event loop, given enough iterations, is stopped in the state `L'`. -/
def Loop.EndsIn (E : Env) (L L' : Loop) : Prop := L'.stopped = true ∧ ∃ n, ∀ m ≥ n, L.run E m = L'

end Rei
