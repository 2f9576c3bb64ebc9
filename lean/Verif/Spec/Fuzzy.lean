import Mathlib.Data.List.Forall2
import Verif.Model.Fuzzy
import Verif.Spec.Factory

/-!
# Specification vocabulary for C96 (fuzzy systems)
-/
namespace Rei

/-- What can be asked for: the inputs and the result have distinct names, so have the values of one node, and neither the
factory, the nodes nor the edge have a `/` in their name or a node the name of the factory. -/
structure FuzzyPlan (factory : Str) (inputs : List Sensor) (result : Sensor) (edge : Str) : Prop where
  names : ((inputs ++ [result]).map Sensor.name).Nodup
  values : ∀ s ∈ inputs ++ [result], (s.values.map Prod.fst).Nodup
  slash : ∀ s ∈ inputs ++ [result], '/' ∉ s.name
  other : ∀ s ∈ inputs ++ [result], s.name ≠ factory
  factorySlash : '/' ∉ factory
  edgeSlash : '/' ∉ edge

/-- `v` is a value node with this name and this list. -/
structure HoldsValue (h : Heap) (v : Ref) (p : Str × List Rat) : Prop where
  kind : (h.get v).kind = .value
  name : (h.get v).idName = p.1
  values : h.valuesOf v = p.2

/-- `n` is a node with the name of `s` and with its value nodes, in order. -/
structure IsSensor (h : Heap) (n : Ref) (s : Sensor) : Prop where
  kind : (h.get n).kind = .node
  name : (h.get n).idName = s.name
  values : List.Forall₂ (HoldsValue h) (h.subValues n) s.values

/-- The system contains the group and the edge, the group the inputs; the edge leads from the inputs to the result, and the
relations to the inputs, in order, are printed. -/
structure FuzzyIn (h : Heap) (system group : Str) (inputs : List Sensor) (result : Sensor) (edge exterior : Str) (r : FuzzyRun) :
    Prop where
  systemNode : (h.get r.system).kind = .node ∧ (h.get r.system).idName = system ∧ (h.get r.system).parent = none
  groupNode : (h.get r.group).kind = .node ∧ (h.get r.group).idName = group
  edgeNode : (h.get r.edge).kind = .edge ∧ (h.get r.edge).idName = edge
  exteriorNode : (h.get r.exterior).kind = .node ∧ (h.get r.exterior).idName = exterior ∧ (h.get r.exterior).parent = none ∧
    h.subelements r.exterior = []
  systemParts : h.subelements r.system = [r.group, r.edge]
  groupParts : h.subelements r.group = r.inputs
  inputNodes : List.Forall₂ (IsSensor h) r.inputs inputs
  resultNode : IsSensor h r.result result ∧ (h.get r.result).parent = none
  ends : h.inducedSubset r.edge = (r.inputs ++ [r.result]).map some
  printed : r.printed = h.incoming r.edge
  incoming : (h.incoming r.edge).map (fun q => (h.get q).endpoint) = r.inputs.map some
  outgoing : (h.outgoing r.edge).map (fun q => (h.get q).endpoint) = [some r.result]
  weights : ∀ q ∈ h.subRelations r.edge, (h.get q).weight = none

end Rei
