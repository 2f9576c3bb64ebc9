import Verif.Lemmas.Effects

/-!
# A concrete history

Used to show that the hypotheses of the theorems are met by a non-trivial state.
-/
namespace Rei.Sample
open Rei

/-- A world with an injective "hash" (on ASCII names) and a clock that counts up. -/
def E0 : Env := { sha := fun s => s.map fun c => UInt8.ofNat c.toNat, time := fun n => 5 * n }

/-- `HypergraphNode(name, [u], name, clock, parent)`. -/
def mkNode (n : Str) (u : UInt8) (p : Option Nat) : Op :=
  .mkItem .node n [u] (.str n) (some .dummy) p

/-- `HypergraphEdge(name, [u], name, clock, parent)`. -/
def mkEdge (n : Str) (u : UInt8) (p : Option Nat) : Op :=
  .mkItem .edge n [u] (.str n) (some .local) p

/-- `0`: a root node `r`. -/
def g1 : Heap := (mkNode ['r'] 1 none).after E0 Heap.empty
/-- `1`: a node `a` in `r`. -/
def g2 : Heap := (mkNode ['a'] 2 (some 0)).after E0 g1
/-- `2`: a node `b` in `r`. -/
def g3 : Heap := (mkNode ['b'] 3 (some 0)).after E0 g2
/-- `3`: an edge `e` in `r`. -/
def g4 : Heap := (mkEdge ['e'] 4 (some 0)).after E0 g3
/-- `4`: a relation from `e` to `a`; `5`: its port, in `a`. -/
def g5 : Heap := (Op.unaryConnect 3 1 none .inwards none).after E0 g4
/-- `6`: a relation from `e` to `b`; `7`: its port, in `b`. -/
def g6 : Heap := (Op.unaryConnect 3 2 none .outwards none).after E0 g5
/-- `8`: a value node in no container. -/
def g7 : Heap := (Op.mkValue [9] ['v'] (.str ['v']) (some [1, 2])).after E0 g6
/-- `9`: a second element named `a` in `r`. -/
def g8 : Heap := (mkNode ['a'] 10 (some 0)).after E0 g7
/-- `10`: a node `d` in node `9`. -/
def g9 : Heap := (mkNode ['d'] 11 (some 9)).after E0 g8
/-- The value node is put into `b`. -/
def g10 : Heap := (Op.add 2 8).after E0 g9

theorem okNone {h : Heap} : okRef h none := fun _ hx => by cases hx
theorem okSome {h : Heap} {n : Nat} (hn : n < h.size) : okRef h (some n) :=
  fun _ hx => by cases hx; exact hn

theorem reach1 : Reach E0 g1 := .step _ .init ⟨rfl, okNone⟩ trivial
theorem reach2 : Reach E0 g2 := .step _ reach1 ⟨rfl, okSome (by decide +kernel)⟩ trivial
theorem reach3 : Reach E0 g3 := .step _ reach2 ⟨rfl, okSome (by decide +kernel)⟩ trivial
theorem reach4 : Reach E0 g4 := .step _ reach3 ⟨rfl, okSome (by decide +kernel)⟩ trivial
theorem reach5 : Reach E0 g5 :=
  .step _ reach4 ⟨by decide +kernel, by decide +kernel, okNone, okNone⟩ trivial
theorem reach6 : Reach E0 g6 :=
  .step _ reach5 ⟨by decide +kernel, by decide +kernel, okNone, okNone⟩ trivial
theorem reach7 : Reach E0 g7 := .step _ reach6 trivial trivial
theorem reach8 : Reach E0 g8 := .step _ reach7 ⟨rfl, okSome (by decide +kernel)⟩ trivial
theorem reach9 : Reach E0 g9 := .step _ reach8 ⟨rfl, okSome (by decide +kernel)⟩ trivial

/-- An element without container lies above nothing that has no children. -/
theorem not_anc_of_childless {h : Heap} (I : Inv h) {x c : Ref} (hx : h.subelements x = []) :
    ¬ Anc h x c := by
  intro q
  obtain ⟨b, hb, _⟩ := q.cases_down
  have := (I.mem_subelements x b).2 hb
  have hx' : (h.get x).subs.values = [] := hx
  rw [hx'] at this; cases this

theorem reach10 : Reach E0 g10 := by
  refine .step _ reach9 ⟨by decide +kernel, by decide +kernel⟩ ⟨?_, ?_⟩
  · exact not_anc_of_childless reach9.good.inv (by decide +kernel)
  · intro p hp
    have : (g9.get 8).parent = none := by decide +kernel
    rw [this] at hp; cases hp

example : g10.subelements 0 = [1, 2, 3, 9] ∧ g10.subelements 3 = [4, 6] ∧ g10.subelements 2 = [7, 8] ∧
    (g10.get 10).qualName = ['r', '/', 'a', '/', 'd'] := by decide +kernel

end Rei.Sample
