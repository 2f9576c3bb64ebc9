import Verif.Model.Factory

/-!
# The fuzzy system application (`apps/fuzzy/accu_fuzzy.py`)
-/
namespace Rei
open PyM

/-- A node to be made: its name and its value nodes, each with its name and its list. -/
structure Sensor where
  name : Str
  values : List (Str × List Rat)

/-- The calls `factory.create_value(node, name, list)`, `accu_fuzzy.py:16-17,20-21,24`. -/
def Factory.fillSensor (E : Env) (F : Factory) (n : Ref) (values : List (Str × List Rat)) : PyM Unit :=
  forEach values fun v => (F.createValue E (some n) v.1 (some v.2)).void

/-- `factory.generate_node(name, parent)` followed by its values, `accu_fuzzy.py:15-17`, `:19-21` and `:23-24`. -/
def Factory.addSensor (E : Env) (F : Factory) (parent : Option Ref) (s : Sensor) : PyM Ref := do
  let n ← F.generateNode E s.name parent
  F.fillSensor E n s.values
  pure n

/-- The nodes made by the application and the list it prints. -/
structure FuzzyRun where
  system : Ref
  group : Ref
  inputs : List Ref
  result : Ref
  edge : Ref
  exterior : Ref
  printed : List Ref

/-- The tuples of `accu_fuzzy.py:27-29`: `INWARDS` to the inputs, `OUTWARDS` to the result, without values. -/
def inferLinks (inputs : List Ref) (result : Ref) : List Link :=
  inputs.map (fun n => { node := n, dir := .inwards }) ++ [{ node := result, dir := .outwards }]

/-- The steps of `main`, `accu_fuzzy.py:7-33`, for any names, any inputs and any values. -/
def Factory.fuzzySystem (E : Env) (F : Factory) (system group : Str) (inputs : List Sensor) (result : Sensor)
    (edge exterior : Str) : PyM FuzzyRun := do
  let c ← F.generateNode E system none
  let b ← F.generateNode E group (some c)
  let ns ← mapEach inputs (F.addSensor E (some b))
  let r ← F.addSensor E none result
  let e ← F.connectTuples E c edge (inferLinks ns r)
  let x ← F.generateNode E exterior none
  let h ← heap
  pure ⟨c, b, ns, r, e, x, h.incoming e⟩

/-- The inputs of `accu_fuzzy.py:15-21`. -/
def batterySensors : List Sensor :=
  [⟨"battery_dynamic_node".toList, [("values".toList, [0, 0, 0]), ("membership".toList, [1, 1, 1])]⟩,
    ⟨"battery_static_node".toList, [("values".toList, [0, 0, 0]), ("membership".toList, [1, 1, 1])]⟩]

/-- The result of `accu_fuzzy.py:23-24`. -/
def batteryResult : Sensor := ⟨"battery_result".toList, [("battery_result_value".toList, [])]⟩

/-- `main()`, `accu_fuzzy.py:7-33`.  The printing itself is not modelled: the printed list is part of the result. -/
def accuFuzzy (E : Env) : PyM FuzzyRun :=
  Factory.fuzzySystem E ⟨"fuzzy_sys_factory".toList, some .local⟩ "fuzzy_sys_cogni".toList "battery_node".toList batterySensors
    batteryResult "battery_infer".toList "external_effects".toList

end Rei
