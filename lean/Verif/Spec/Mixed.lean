import Verif.Spec.EventLoop

/-!
# What additions and removals on one event loop should do (C122)
-/
namespace Rei

/-- A task of `add_elements`, or of `remove_elements` for one pair, which means the element `x`. -/
inductive Task
  | adds (c : Ref) (xs : List Ref)
  | removes (c : Ref) (p : Str × Option Bytes) (x : Ref)

/-- The elements the task adds, with the container. -/
def Task.batch : Task → Ref × List Ref
  | .adds c xs => (c, xs)
  | .removes c _ _ => (c, [])

/-- The task of the event loop, before its first step. -/
def Task.job : Task → Job
  | .adds c xs => .adding c xs
  | .removes c p _ => .removing c p.1 p.2

/-- The task after `k` steps: an addition has `k` elements fewer to add, and is done without error after one step more than it
has elements; a removal fails with `RuntimeError` in its second step. -/
def Task.after : Task → Nat → Job
  | .adds c xs, k => if xs.length < k then .done (.ok ()) else .adding c (xs.drop k)
  | .removes c p _, 0 => .removing c p.1 p.2
  | .removes _ _ _, 1 => .thrown
  | .removes _ _ _, _ + 2 => .done (.error .runtimeError)

/-- The tasks can run side by side: the additions can be carried out together (`Compatible`, with all containers, and with
the elements to be removed still counting as held); each removal means one element, by its uuid or by a name that no other
element of the container has or gets; no element is removed twice. -/
structure Mixes (h : Heap) (ts : List Task) : Prop where
  adds : Compatible h (ts.map Task.batch)
  means : ∀ c p x, .removes c p x ∈ ts → MeansIn h c p x
  names : ∀ c p x, .removes c p x ∈ ts → p.2 = none → ∀ y, Planned (ts.map Task.batch) c y → (h.get y).idName ≠ p.1
  once : ∀ (i j : Nat) c d p q x, ts[i]? = some (.removes c p x) → ts[j]? = some (.removes d q x) → i = j

/-- After `n i` steps of task `i`, for every `i`: `x` has been removed from `c`. -/
def TakenOut (ts : List Task) (n : Nat → Nat) (c x : Ref) : Prop :=
  ∃ (i : Nat) (p : Str × Option Bytes), ts[i]? = some (.removes c p x) ∧ 0 < n i

/-- `h'` is `h` after `n i` steps of task `i`, for every `i`: `n i` elements of each addition are where they belong, and the
elements of the removals that took a step are in no container; each container has what is left of its old elements, in their
order, and then its new ones, those of one addition in their order; nothing else moved. -/
structure MixedSoFar (h : Heap) (ts : List Task) (n : Nat → Nat) (h' : Heap) : Prop where
  size : h.size ≤ h'.size
  placed : ∀ c x, PutInto (ts.map Task.batch) n c x → (h'.get x).parent = some c
  removed : ∀ c x, TakenOut ts n c x → (h'.get x).parent = none
  others : ∀ x, (∀ c, ¬ PutInto (ts.map Task.batch) n c x) → (∀ c, ¬ TakenOut ts n c x) → (h'.get x).parent = (h.get x).parent
  inside : ∀ c, ∃ old new, h'.subelements c = old ++ new ∧ old.Sublist (h.subelements c) ∧
    (∀ x ∈ h.subelements c, x ∈ old ↔ ¬ TakenOut ts n c x) ∧
    (∀ x, x ∈ new ↔ PutInto (ts.map Task.batch) n c x) ∧
    ∀ (i : Nat) xs, ts[i]? = some (.adds c xs) → (xs.take (n i)).Sublist new
  same : ∀ x < h.size, (h'.get x).idName = (h.get x).idName ∧ (h'.get x).uuid = (h.get x).uuid ∧ (h'.get x).kind = (h.get x).kind

end Rei
