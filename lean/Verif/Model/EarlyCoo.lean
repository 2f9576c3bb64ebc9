import Verif.Model.Encoding
import Verif.Model.HyperTraversal

/-!
# Encoders whose coordinates are collected before `update_context` (`hypergraph/encoding/graph_tensor_icon.py`)

Before `update_context` the transformer has no homomorphism, so `update_coo` collects coordinates that name elements by uuid.
They come before all index coordinates, because `update_context` is never undone.
-/
namespace Rei

/-- A `GraphTensorCbor` with the coordinates collected while `_index_homomorphism` was `None`
(`graph_tensor_icon.py:15-26`, `hypergraph_traversal_strategies.py:25-33`). -/
structure EarlyIcon where
  icon : Icon
  raw : List UEntry := []

/-- `update_context(context)`, `graph_tensor_icon_cbor.py:23-24`. -/
def EarlyIcon.updateContext (I : EarlyIcon) (h : Heap) (budget : Nat) (context : Ref) (shared : Fringe) :
    Except Err Unit × EarlyIcon × Fringe :=
  match I.icon.updateContext h budget context shared with
  | (r, J, q) => (r, { I with icon := J }, q)

/-- `update_coo()`, `graph_tensor_icon_cbor.py:26-27` with `execute`, `graph_tensor_icon.py:41-51` and `fill_tensors`, `:35-39`,
with or without homomorphism.  The norm is `SumNorm()`. -/
def EarlyIcon.updateCoo (I : EarlyIcon) (h : Heap) (budget : Nat) (shared : Fringe) : Except Err Unit × EarlyIcon × Fringe :=
  match I.icon.hom with
  | some m =>
    match I.icon.updateCoo m h budget shared with
    | (r, J, q) => (r, { I with icon := J }, q)
  | none =>
    match uuidExecute sumNorm h none budget I.icon.context shared with
    | (.error e, _, q) => (.error e, I, q)
    | (.ok _, ts, q) => (.ok (), { I with raw := I.raw ++ ts.flatten }, q)

/-- `full_msg()`, `graph_tensor_icon_cbor.py:29-37`: the coordinate lists are projections of the first component followed by the
coordinates of the second. -/
def EarlyIcon.fullMsg (I : EarlyIcon) (h : Heap) : Except Err (List UEntry × FullMsg) × EarlyIcon :=
  match I.icon.fullMsg h with
  | (.error e, J) => (.error e, { I with icon := J })
  | (.ok msg, J) => (.ok (I.raw, msg), { I with icon := J })

/-- `msg_value_update()`, `graph_tensor_icon_cbor.py:39-40`. -/
def EarlyIcon.valueUpdate (I : EarlyIcon) (h : Heap) : Except Err (List (Nat × List Rat)) := I.icon.valueUpdate h

end Rei
