import Verif.Model.QueryConcurrent
import Verif.Spec.QueryEngine

/-!
# What concurrent executions of query engines should return (C101)
-/
namespace Rei

/-- Nothing has begun: the queries of each engine are distinct objects, idle, fit on the stack, and visit something; no
traversal was aborted before. -/
structure Executions.Ready (h : Heap) (budget : Nat) (S : Executions) : Prop where
  fresh : ∀ r ∈ S.runs, r.2 = .fresh
  distinct : ∀ r ∈ S.runs, (Dict.values r.1).Nodup
  idle : ∀ r ∈ S.runs, ∀ k ∈ Dict.values r.1, (S.queries k).Idle ∧ (S.queries k).Fits h budget
  visits : ∀ r ∈ S.runs, ∃ k ∈ Dict.values r.1, visitedBy h (S.queries k) ≠ []
  shared : S.shared = []

/-- Everything the executions have returned. -/
def Executions.results (S : Executions) : List Ref :=
  S.runs.flatMap fun r => match r.2 with
    | .returned (.ok l) => l
    | _ => []

/-- Everything the executions are to return: for each the elements its queries match. -/
def Executions.expected (h : Heap) (S : Executions) : List Ref :=
  S.runs.flatMap fun r => (Dict.values r.1).flatMap fun k => matchesOf h (S.queries k)

/-- All executions have returned. -/
def Executions.AllReturned (S : Executions) : Prop := ∀ r ∈ S.runs, ∃ l, r.2 = .returned (.ok l)

/-- No other execution uses a query of execution `i`. -/
def Executions.Alone (S : Executions) (i : Nat) : Prop :=
  ∀ (j : Nat) (r q : Engine × Execution), j ≠ i → S.runs[i]? = some r → S.runs[j]? = some q →
    ∀ k ∈ Dict.values r.1, k ∉ Dict.values q.1

end Rei
