import Verif.Model.System

/-!
# Looping over the children of an element while the program changes them

The children views of an element are generators over its dict of sub-elements. This file models one such
generator object step by step, and a `for` loop over it whose body makes calls.
-/
namespace Rei

/-- The generator object that `get_subelements` (`foundations/conceptual_item.py:83-84`), `sub_ports`
(`hypergraph/base_elements.py:56-58`), `sub_relations` (`:157-159`), `sub_edges`, `sub_nodes` and `sub_values`
(`:185-195`) return: `yield from filter(want, self._sub_elements.values())`. `begun` is `None` until the first
`next`, when the body of the generator first runs and makes the iterator of the dict: that iterator keeps the
size the dict has then. Besides the size, the number of elements ever added is kept (`_cnt_subelements_historical`):
it tells whether the dict was changed and has its old size again. `pos` is the place in the dict, `closed`
is set when the generator has returned or raised. -/
structure Children where
  cont : Ref
  want : Kind → Bool
  begun : Option (Nat × Nat) := none
  pos : Nat := 0
  closed : Bool := false

/-- What one `next` gives: an element, `StopIteration`, or the `RuntimeError` of the dict iterator
("dictionary changed size during iteration"). -/
inductive Next
  | item (x : Ref)
  | stop
  | changed
  deriving DecidableEq

/-- `filter`: the first wanted element at or after a place, and the place after it. -/
def scanChildren (h : Heap) (want : Kind → Bool) : List Ref → Nat → Option (Ref × Nat)
  | [], _ => none
  | x :: l, i => if want (h.get x).kind then some (x, i + 1) else scanChildren h want l (i + 1)

/-- One `next` of the generator in the graph `h`. The iterator of a dict compares the size of the dict with
the size at its start before anything else, even behind the last entry. A dict that was changed and has its old
size again is not noticed by this test; what the iterator then gives depends on the memory layout of the dict and
is left to the parameter `odd`. -/
def Children.next (odd : Children → Heap → Next × Children) (h : Heap) (g : Children) : Next × Children :=
  if g.closed then (.stop, g) else
  let now := ((h.subelements g.cont).length, (h.get g.cont).hist)
  let start := g.begun.getD now
  if start.1 ≠ now.1 then (.changed, { g with closed := true })
  else if start.2 ≠ now.2 then odd g h
  else match scanChildren h g.want ((h.subelements g.cont).drop g.pos) g.pos with
    | some (x, i) => (.item x, { g with begun := some start, pos := i })
    | none => (.stop, { g with begun := some start, closed := true })

/-- How a loop ended. `running` stands for a loop that was not followed to its end. -/
inductive LoopEnd
  | finished
  | runtimeError
  | running
  deriving DecidableEq

/-- `for x in g: body`. The body makes calls that may depend on the element and on the graph it sees; an error of a
call is caught in the body. At most `n` rounds are followed. The result: the elements visited, how the loop
ended, and the graph at its end. -/
def loopChildren (E : Env) (odd : Children → Heap → Next × Children) (body : Ref → Heap → List Op) :
    Nat → Children → Heap → List Ref × LoopEnd × Heap
  | 0, _, h => ([], .running, h)
  | n + 1, g, h =>
    match g.next odd h with
    | (.item x, g') =>
      let r := loopChildren E odd body n g' ((body x h).foldl (fun h op => op.after E h) h)
      (x :: r.1, r.2)
    | (.stop, _) => ([], .finished, h)
    | (.changed, _) => ([], .runtimeError, h)

/-- `for x in list(g): body`: the children are collected first. -/
def loopCopy (E : Env) (body : Ref → Heap → List Op) : List Ref → Heap → Heap
  | [], h => h
  | x :: l, h => loopCopy E body l ((body x h).foldl (fun h op => op.after E h) h)

/-- The body `c.remove_element(uuid=x.uuid)`, consumed. -/
def removeFrom (c : Ref) (x : Ref) (h : Heap) : List Op := [.remove c [] (some (h.get x).uuid) none]

end Rei
