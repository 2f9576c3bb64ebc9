import Verif.Spec.Encoding
import Verif.Spec.Hierarchy

/-!
# Forwarding decoded graphs
-/
namespace Rei

/-- One hop: a new transformer in a process in state `h` sends the context `c` (`update_context`, then `full_msg`, with a
large enough stack) as `msg`, and a process, in any of its reachable states `b`, decodes the message; afterwards it is in
state `h'`, and `c'` is the decoded graph. -/
def Hop (h : Heap) (c : Ref) (msg : FullMsg) (E' : Env) (h' : Heap) (c' : Ref) : Prop :=
  ∃ (I I1 I2 J J' : Icon) (b : Heap) (ck : Clock) (N : Nat), I.context = c ∧ I.rels = [] ∧ I.coo = [] ∧
    Reach E' b ∧ J.clock = some ck ∧ (∀ budget ≥ N, I.updateContext h budget c [] = (.ok (), I1, [])) ∧
    I1.fullMsg h = (.ok msg, I2) ∧ J.createGraph E' msg b = (.ok (some c'), J', h')

/-- A graph is sent to a process, from there to another, and so on: `Relay h c ms E' h' c'` says that the context `c` of
`h` has arrived as `c'` in a process in state `h'` by the messages `ms`. -/
inductive Relay (h : Heap) (c : Ref) : List FullMsg → Env → Heap → Ref → Prop
  | one {msg E' h' c'} : Hop h c msg E' h' c' → Relay h c [msg] E' h' c'
  | more {ms msg E1 h1 c1 E' h' c'} : Relay h c ms E1 h1 c1 → Hop h1 c1 msg E' h' c' →
      Relay h c (ms ++ [msg]) E' h' c'

/-- The message that describes the context `c` with all relations bidirectional, with qualified names that are paths, and
with the positions of the elements as indices. -/
def plainMsg (h : Heap) (c : Ref) : FullMsg :=
  { nodes := (c :: h.subNodes c).map fun x =>
      { uuid := (h.get x).uuid, name := (h.get x).idName, index := (c :: h.subNodes c).idxOf x
        parent := if x = c then none else some (h.get c).uuid
        qual := if x = c then (h.get c).idName else Str.join '/' [(h.get c).idName, (h.get x).idName] }
    edges := (h.subEdges c).map fun x =>
      { uuid := (h.get x).uuid, name := (h.get x).idName, index := (h.subEdges c).idxOf x
        parent := (h.get c).uuid, qual := Str.join '/' [(h.get c).idName, (h.get x).idName] }
    rels := (h.subEdges c).flatMap fun e => (h.subRelations e).map fun r =>
      { uuid := (h.get r).uuid, name := (h.get r).idName
        qual := Str.join '/' [(h.get c).idName, (h.get e).idName, (h.get r).idName]
        dir := .bidirectional, endpoint := (h.get ((h.get r).endpoint.getD 0)).uuid, edge := (h.get e).uuid }
    vals := (h.subValues c).map fun x =>
      { uuid := (h.get x).uuid, name := (h.get x).idName, index := (h.subValues c).idxOf x
        parent := (h.get c).uuid, qual := Str.join '/' [(h.get c).idName, (h.get x).idName]
        values := h.valuesOf x }
    coo := [] }

end Rei
