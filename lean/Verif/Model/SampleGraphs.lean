import Verif.Model.Factory

/-!
# Sample graphs (`hypergraph/sample_graphs/fano_graph.py`)
-/
namespace Rei
open PyM

/-- `assert n.uuid not in uuid_set; uuid_set.add(n.uuid)`, `fano_graph.py:10-13`. -/
def assertNew : List Bytes → List Ref → PyM Unit
  | _, [] => pure ()
  | seen, n :: ns => do
    let o ← obj n
    if o.uuid ∈ seen then raise .assertionError else assertNew (o.uuid :: seen) ns

/-- `node_list[i]`. -/
def itemAt (ns : List Ref) (i : Nat) : PyM Ref :=
  match ns[i]? with
  | none => raise .indexError
  | some n => pure n

/-- One of the calls `factory.connect_nodes(n0, name, [node_list[i], node_list[j], ...])`, `fano_graph.py:15-21`. -/
def Factory.connectItems (E : Env) (F : Factory) (c : Ref) (ns : List Ref) (line : Str × List Nat) : PyM Ref := do
  let ends ← mapEach line.2 (itemAt ns)
  F.connectNodes E c line.1 ends .bidirectional none

/-- The steps of `create_fano_graph`, `fano_graph.py:5-22`, for any names of nodes and any edges, given by the indices of
their nodes.  The factory, which is also returned, is left out of the result. -/
def Factory.createGraph (E : Env) (F : Factory) (name : Str) (nodes : List Str) (lines : List (Str × List Nat)) :
    PyM (Ref × List Ref × List Ref) := do
  let c ← F.generateNode E name none
  let ns ← F.generateListNodes E nodes (some c)
  assertNew [] ns
  let es ← mapEach lines (F.connectItems E c ns)
  pure (c, ns, es)

/-- The edges of `fano_graph.py:15-21`. -/
def fanoLines : List (Str × List Nat) :=
  [("e012".toList, [0, 1, 2]), ("e234".toList, [2, 3, 4]), ("e146".toList, [1, 4, 6]), ("e036".toList, [0, 3, 6]),
    ("e256".toList, [2, 5, 6]), ("e135".toList, [1, 3, 5]), ("e045".toList, [0, 4, 5])]

/-- `create_fano_graph(context_name, clock)`, `fano_graph.py:5-22`; the names of the nodes are `str(x) for x in range(7)`. -/
def createFano (E : Env) (name : Str) (clock : Option Clock) : PyM (Ref × List Ref × List Ref) :=
  Factory.createGraph E ⟨name, clock⟩ name ((List.range 7).map decimal) fanoLines

end Rei
