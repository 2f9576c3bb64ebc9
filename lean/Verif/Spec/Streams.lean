import Verif.Model.Encoding
import Verif.Spec.Containment

/-!
# Two processes and the value messages between them
-/
namespace Rei

/-- A message of `msg_value_update`: indices of value nodes with their values. -/
abbrev ValueMsg := List (Nat × List Rat)

/-- The states of two processes after a graph was sent from one (state `h`, encoder `I`) and decoded in the other
(state `h'`, decoder `J`): `Session … s g L` says that the source can be in state `s` and the target in state `g`
when the value messages `L` have been sent, each with the state of the source in which it was made.  Both processes
go on with any calls of the library, successful or not (`Op.Safe`: the guards of `Reach`).  A message, once sent, can be
delivered at any later time, any number of times, in any order, or never; whether it is applied with success is not
assumed. -/
inductive Session (E E' : Env) (I J : Icon) (h h' : Heap) : Heap → Heap → List (Heap × ValueMsg) → Prop
  | start : Session E E' I J h h' h h' []
  | source {s g L} (op : Op) : Session E E' I J h h' s g L → op.Valid s → op.Safe s →
      Session E E' I J h h' (op.after E s) g L
  | target {s g L} (op : Op) : Session E E' I J h h' s g L → op.Valid g → op.Safe g →
      Session E E' I J h h' s (op.after E' g) L
  | send {s g L m} : Session E E' I J h h' s g L → I.valueUpdate s = .ok m →
      Session E E' I J h h' s g ((s, m) :: L)
  | deliver {s g L s0 m} : Session E E' I J h h' s g L → (s0, m) ∈ L →
      Session E E' I J h h' s (J.applyUpdate m g).2 L

/-- All value nodes that the context `c` has in state `s` were there in state `h` (with the same uuid). -/
def NoNewValues (h : Heap) (c : Ref) (s : Heap) : Prop :=
  ∀ v ∈ s.subValues c, ∃ v0 ∈ h.subValues c, (s.get v).uuid = (h.get v0).uuid

/-- In state `g`, the copies (by `φ`) of the value nodes that the context `c` has in state `s` are still elements of
the decoded graph `c'`. -/
def CopiesPresent (h : Heap) (c : Ref) (s g : Heap) (c' : Ref) (φ : Ref → Ref) : Prop :=
  ∀ v0 ∈ h.subValues c, (∃ v ∈ s.subValues c, (s.get v).uuid = (h.get v0).uuid) → (g.get (φ v0)).parent = some c'

/-- In state `g`, the copies (by `φ`) of the value nodes of the context `c` have the values of state `s`. -/
def InStep (h : Heap) (c : Ref) (s g : Heap) (φ : Ref → Ref) : Prop :=
  ∀ v ∈ s.subValues c, ∀ v0 ∈ h.subValues c, (s.get v).uuid = (h.get v0).uuid → g.valuesOf (φ v0) = s.valuesOf v

end Rei
