import Verif.Model.System

/-!
# Hierarchical traversals (`foundations/hierarchical_traversal_strategies.py`)

`asyncio.Queue.put` on an unbounded queue and `get` on a non-empty one never suspend, so a traversal
runs without interleaving.  Python 3.10 is assumed (`match` needs 3.10, `asyncio.coroutine` was
removed in 3.11); there, `asyncio.coroutine(r)` of a visitor's result `r` has no effect.
-/
namespace Rei

/-- A visitor: a callback with a state of its own (for instance the list it appends to, or the
counters it increments) that may raise.  It does not change the hierarchy while it is traversed. -/
abbrev Visitor (σ : Type) := Ref → σ → Except Err Unit × σ

/-- The fringe: elements with their depth, next to be taken first. -/
abbrev Fringe := List (Ref × Nat)

/-- `current_depth < self._max_depth`; `none` is `math.inf` (a negative limit acts like `0`). -/
def underLimit (max : Option Nat) (d : Nat) : Bool :=
  match max with
  | none => true
  | some m => decide (d < m)

/-- What `_fill_visit_fringe` puts on the fringe, `hierarchical_traversal_strategies.py:32-36`. -/
def fillFringe (h : Heap) (f : Ref → Bool) (max : Option Nat) (x : Ref) (d : Nat) : Fringe :=
  if underLimit max d then (h.getSubelements f x).map fun v => (v, d + 1) else []

/-- `put` one after the other: at the end of an `asyncio.Queue`, on top of an `asyncio.LifoQueue`. -/
def putAll (lifo : Bool) (q new : Fringe) : Fringe :=
  if lifo then new.reverse ++ q else q ++ new

/-- `_traverse`, `hierarchical_traversal_strategies.py:38-44`.  It calls itself once per visited
element, so the depth of the Python stack limits the number of elements: `budget` is the number of
nested calls that fit, after which `RecursionError` is raised.  Returns the outcome, the state of the
visitor and what is left on the fringe. -/
def traverse {σ : Type} (h : Heap) (f : Ref → Bool) (max : Option Nat) (lifo : Bool)
    (vis : Visitor σ) : Nat → Fringe → σ → Except Err Unit × σ × Fringe
  | 0, q, s => (.error .recursionError, s, q)
  | _ + 1, [], s => (.ok (), s, [])
  | budget + 1, (x, d) :: q, s =>
    let q' := putAll lifo q (fillFringe h f max x d)
    match vis x s with
    | (.ok _, s') => traverse h f max lifo vis budget q' s'
    | (.error e, s') => (.error e, s', q')

/-- The four strategies: `BreadthFirstHierarchicalTraversal` (`:47-53`, no limit, `lifo = false`),
`DepthFirstHierarchicalTraversal` (`:56-62`, no limit, `lifo = true`),
`DepthLimitedDepthVisitChildren` (`:65-76`) and `DepthLimitedBreadthVisitChildren` (`:79-90`). -/
structure Strategy where
  lifo : Bool
  max : Option Nat
  ignoreRoot : Bool

/-- `execute(start)` with `_setup_visit_algorithm` (`:21-30`).  The breadth-first strategies use the
default argument `asyncio.Queue()`, one object for the whole program: `copy.copy` copies the queue
object but shares its contents, so `shared`, what earlier traversals left there, comes first, and what
this one leaves stays.  The depth-first strategies make a new queue. -/
def Strategy.execute {σ : Type} (T : Strategy) (h : Heap) (f : Ref → Bool) (vis : Visitor σ)
    (budget : Nat) (start : Ref) (shared : Fringe) (s : σ) : Except Err Unit × σ × Fringe :=
  let root : Except Err Unit × σ := if f start && !T.ignoreRoot then vis start s else (.ok (), s)
  match root with
  | (.error e, s') => (.error e, s', shared)
  | (.ok _, s') =>
    let q := putAll T.lifo (if T.lifo then [] else shared) (fillFringe h f T.max start 0)
    let r := traverse h f T.max T.lifo vis budget q s'
    (r.1, r.2.1, if T.lifo then shared else r.2.2)

end Rei
