import Verif.Model.Tensor
import Mathlib.Analysis.SpecialFunctions.Log.Base
import Mathlib.Analysis.SpecialFunctions.Sqrt
import Mathlib.LinearAlgebra.Matrix.Charpoly.Eigs
import Mathlib.Analysis.Complex.Polynomial.Basic

/-!
# Normalised Laplacian and entropy (`tensor/tensor_representation.py:39-55`)

Numbers are reals here: no rounding.  A degree below -1 (possible with negative weights only) gives NaN in numpy; that is
not modelled (`Real.sqrt` is 0 there).
-/
namespace Rei

/-- `calc_normalized_laplacian`, `tensor_representation.py:39-41`.  `Ii.shape[0] - 1` is a Python integer, so for a
single edge `1.0/0` raises `ZeroDivisionError`; it is evaluated before `self.L`.  `deg` is broadcast along the last
axis. -/
noncomputable def Tensors.normalizedLaplacian (T : Tensors) : Except Err (Nat → Nat → Nat → ℝ) :=
  if T.ne = 1 then .error .zeroDivision else do
    let L ← T.laplacian
    .ok fun e i j => 1 / ((T.ne : ℝ) - 1) * ((L e i j : ℚ) : ℝ) / Real.sqrt (((T.degree j : ℚ) : ℝ) + 1)

/-- `np.nan_to_num(np.log2(p), neginf=0, posinf=0)`: the logarithm of 0 is `-inf`, that of a negative number NaN, and
both become 0. -/
noncomputable def finiteLog2 (p : ℝ) : ℝ := if p ≤ 0 then 0 else Real.logb 2 p

/-- `entropy_vector`, `tensor_representation.py:43-45`: an array with one entry per edge and node. -/
noncomputable def Tensors.entropyVector (T : Tensors) : Except Err (Nat → Nat → ℝ) := do
  let N ← T.normalizedLaplacian
  .ok fun e i => -(N e i i) * finiteLog2 (N e i i)

/-- `entropy`, `tensor_representation.py:47-48`. -/
noncomputable def Tensors.entropy (T : Tensors) : Except Err ℝ := do
  let V ← T.entropyVector
  .ok ((List.range T.ne).map fun e => ((List.range T.nn).map fun i => V e i).sum).sum

/-- `self.Lp/self.total_deg`, `tensor_representation.py:51`, for a total degree other than 0. -/
noncomputable def Tensors.projectedMatrix (T : Tensors) : Matrix (Fin T.nn) (Fin T.nn) ℂ :=
  fun i j => ((T.projectedLaplacian i j / T.totalDegree : ℚ) : ℂ)

/-- What `entropy_projected` gives: `LinAlgError`, NaN or a number. -/
inductive ProjectedEntropy
  | linAlgError
  | nan
  | value (s : ℝ)

/-- `entropy_projected`, `tensor_representation.py:50-55`.  With total degree 0 the matrix, unless it has no entries, has
entries NaN or infinity and `np.linalg.eig` raises `LinAlgError`.  Otherwise `eig` gives the eigenvalues with their multiplicities (here without
rounding; their order does not matter for the sum); `np.log2(0)` is `-inf`, `0*inf` is NaN, and a sum with NaN is
NaN. -/
noncomputable def Tensors.entropyProjected (T : Tensors) : ProjectedEntropy :=
  open Classical in
  if T.nn ≠ 0 ∧ T.totalDegree = 0 then .linAlgError else
  let v := T.projectedMatrix.charpoly.roots.map (fun z => ‖z‖)
  if 0 ∈ v then .nan else .value (v.map fun p => -p * Real.logb 2 p).sum

end Rei
