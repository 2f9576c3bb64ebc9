import Verif.Model.Entropy

/-!
# Reading a representation (`hypergraph/representation/abstract_representations.py:14-53`)

The arrays of a new `NumpyTensorRepresentation` are `None` until `synchronize_structure_dimensions` meets a number of
nodes or edges other than 0.  `None` is `none` here.
-/
namespace Rei

/-- The arrays after `NumpyHypergraphTensorTransformer.execute` with a new representation, `tensor_representation.py:57-76,
99-104`: the previous counts are 0, so with 0 nodes and 0 edges no array is made. -/
def Tensors.arrays (T : Tensors) : Option Tensors := if T.nn = 0 ∧ T.ne = 0 then none else some T

/-- `deg`, `abstract_representations.py:26-28`.  `np.sum(None, axis=0)` is `None`, and `None + None` raises `TypeError`. -/
def readDegree : Option Tensors → Except Err (Nat → Rat)
  | none => .error .typeError
  | some T => .ok T.degree

/-- `total_deg`, `abstract_representations.py:50-52`. -/
def readTotalDegree (A : Option Tensors) : Except Err Rat := do
  let _ ← readDegree A
  match A with
  | none => .error .typeError
  | some T => .ok T.totalDegree

/-- `Lp`, `abstract_representations.py:38-40`: `D` is computed first. -/
def readProjectedLaplacian (A : Option Tensors) : Except Err (Nat → Nat → Rat) := do
  let _ ← readDegree A
  match A with
  | none => .error .typeError
  | some T => .ok T.projectedLaplacian

/-- `DD`, `abstract_representations.py:42-44`.  `np.sum(None, axis=1)` raises `AxisError`, which is a `ValueError`. -/
def readDiagDegreeTensor : Option Tensors → Except Err (Nat → Nat → Nat → Rat)
  | none => .error .valueError
  | some T => T.diagDegreeTensor

/-- `L`, `abstract_representations.py:34-36`: `DD` is computed first. -/
def readLaplacian (A : Option Tensors) : Except Err (Nat → Nat → Nat → Rat) := do
  let _ ← readDiagDegreeTensor A
  match A with
  | none => .error .valueError
  | some T => T.laplacian

/-- `Lnorm`, `abstract_representations.py:46-48`.  `None.shape` raises `AttributeError`. -/
noncomputable def readNormalized : Option Tensors → Except Err (Nat → Nat → Nat → ℝ)
  | none => .error .attributeError
  | some T => T.normalizedLaplacian

/-- `entropy()`, `tensor_representation.py:43-48`. -/
noncomputable def readEntropy (A : Option Tensors) : Except Err ℝ := do
  let _ ← readNormalized A
  match A with
  | none => .error .attributeError
  | some T => T.entropy

/-- `entropy_projected()`, `tensor_representation.py:50-55`: `Lp` is computed first. -/
noncomputable def readEntropyProjected (A : Option Tensors) : Except Err ProjectedEntropy := do
  let _ ← readProjectedLaplacian A
  match A with
  | none => .error .typeError
  | some T => .ok T.entropyProjected

end Rei
