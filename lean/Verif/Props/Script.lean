import Verif.Props.Sample
import Verif.Lemmas.Encoding

/-!
# Concrete histories as lists of calls

A check that a list of calls is well-formed and safe, so that the state after it is reachable.
-/
namespace Rei.Script
open Rei

/-- `okRef`, as a test. -/
def okRefB (h : Heap) : Option Nat → Bool
  | none => true
  | some x => decide (x < h.size)

/-- `Movable`, as a test. -/
def movableB (h : Heap) (x : Nat) : Bool :=
  match (h.get x).parent with
  | none => true
  | some p => decide ((h.get p).kind ≠ .edge) && decide ((h.get p).kind ≠ .relation)

/-- A sufficient condition for a call to be well-formed and safe. -/
def okB (h : Heap) : Op → Bool
  | .mkItem k _ _ _ _ p => k.isConceptual && okRefB h p
  | .mkSemantic _ _ _ _ _ => true
  | .mkValue _ _ _ _ => true
  | .add c x => decide (c < h.size) && decide (x < h.size) && decide (h.subelements x = []) && movableB h x
  | .unaryConnect e n none _ none => decide (e < h.size) && decide (n < h.size)
  | .unaryConnect e n none _ (some s) => decide (e < h.size) && decide (n < h.size) && decide (s < h.size) &&
      decide (h.subelements s = []) && decide (s ≠ e) && movableB h s
  | _ => false

/-- All calls in a row are accepted. -/
def okAll (E : Env) : List Op → Heap → Bool
  | [], _ => true
  | op :: ops, h => okB h op && okAll E ops (op.after E h)

/-- The state after the calls. -/
def after (E : Env) : List Op → Heap → Heap
  | [], h => h
  | op :: ops, h => after E ops (op.after E h)

theorem okRef_of {h : Heap} {r : Option Nat} (q : okRefB h r = true) : okRef h r := by
  rintro x rfl
  exact of_decide_eq_true q

theorem movable_of {h : Heap} {x : Nat} (q : movableB h x = true) : Movable h x := by
  intro p hp
  unfold movableB at q
  rw [hp] at q
  simpa using q

theorem step_of {E : Env} {h : Heap} (R : Reach E h) {op : Op} (q : okB h op = true) : Reach E (op.after E h) := by
  unfold okB at q
  split at q
  · next k _ _ _ _ p =>
    rw [Bool.and_eq_true] at q
    exact .step _ R ⟨q.1, okRef_of q.2⟩ trivial
  · exact .step _ R trivial trivial
  · exact .step _ R trivial trivial
  · simp only [Bool.and_eq_true, decide_eq_true_eq] at q
    exact .step _ R ⟨q.1.1.1, q.1.1.2⟩ ⟨Sample.not_anc_of_childless R.good.inv q.1.2, movable_of q.2⟩
  · simp only [Bool.and_eq_true, decide_eq_true_eq] at q
    exact .step _ R ⟨q.1, q.2, Sample.okNone, Sample.okNone⟩ trivial
  · simp only [Bool.and_eq_true, decide_eq_true_eq] at q
    obtain ⟨⟨⟨⟨⟨a, b⟩, c⟩, d⟩, e⟩, f⟩ := q
    exact .step _ R ⟨a, b, Sample.okNone, Sample.okSome c⟩
      ⟨Sample.not_anc_of_childless R.good.inv d, e, movable_of f⟩
  · cases q

theorem reach_after {E : Env} : ∀ (ops : List Op) {h : Heap}, Reach E h → okAll E ops h = true →
    Reach E (after E ops h)
  | [], _, R, _ => R
  | op :: ops, h, R, q => by
    unfold okAll at q
    rw [Bool.and_eq_true] at q
    exact reach_after ops (step_of R q.1) q.2

end Rei.Script
