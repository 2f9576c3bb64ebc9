import Verif.Model.Traversal

/-!
# Specification of traversals (C28–C31)
-/
namespace Rei

/-- The elements `n` levels below `start`, going through elements that match `f`, in order: those
below earlier elements first, siblings in insertion order. -/
def level (h : Heap) (f : Ref → Bool) (start : Ref) : Nat → List Ref
  | 0 => [start]
  | n + 1 => (level h f start n).flatMap fun x => (h.subelements x).filter f

/-- `y` is `n` levels below `start`, going through elements that match `f`. -/
inductive DownTo (h : Heap) (f : Ref → Bool) (start : Ref) : Nat → Ref → Prop
  | start : DownTo h f start 0 start
  | step {n x y} : DownTo h f start n x → y ∈ h.subelements x → f y = true →
      DownTo h f start (n + 1) y

/-- The start element, if it is to be visited. -/
def rootVisit (f : Ref → Bool) (ignoreRoot : Bool) (start : Ref) : List Ref :=
  if f start = true ∧ ignoreRoot = false then [start] else []

/-- Breadth-first order down to level `k`. -/
def breadthFirst (h : Heap) (f : Ref → Bool) (ignoreRoot : Bool) (start : Ref) (k : Nat) : List Ref :=
  rootVisit f ignoreRoot start ++ (List.range k).flatMap fun n => level h f start (n + 1)

/-- Pre-order of the elements at most `k` levels below `x`, later siblings first. -/
def preorder (h : Heap) (f : Ref → Bool) : Nat → Ref → List Ref
  | 0, x => [x]
  | k + 1, x => x :: ((h.subelements x).filter f).reverse.flatMap (preorder h f k)

/-- Depth-first order down to level `k`. -/
def depthFirst (h : Heap) (f : Ref → Bool) (ignoreRoot : Bool) (start : Ref) (k : Nat) : List Ref :=
  rootVisit f ignoreRoot start ++ (preorder h f k start).tail

/-- Call a visitor on the elements of a list in order, stopping at the first exception. -/
def callAll {σ : Type} (vis : Visitor σ) : List Ref → σ → Except Err Unit × σ
  | [], s => (.ok (), s)
  | x :: xs, s => match vis x s with
    | (.ok _, s') => callAll vis xs s'
    | (.error e, s') => (.error e, s')

/-- The visitor never raises. -/
def NeverRaises {σ : Type} (vis : Visitor σ) : Prop := ∀ x s, (vis x s).1 = .ok ()

end Rei
