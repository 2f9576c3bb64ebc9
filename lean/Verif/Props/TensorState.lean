import Verif.Props.Tensor

/-!
# C57–C59: conversions and earlier conversions, termination, re-synchronisation
-/
namespace Rei
open PyM Sample

/-! ## C57: independence of earlier conversions -/

theorem hyperTraverse_ok_empty (h : Heap) (m : IndexHom) (max : Option Nat) (b : Nat) (q : Fringe)
    (s : List (List Entry)) (hok : (hyperTraverse h m max b q s).1 = .ok ()) :
    (hyperTraverse h m max b q s).2.2 = [] := by
  induction b generalizing q s with
  | zero => simp [hyperTraverse] at hok
  | succ b ih =>
    cases q with
    | nil => simp [hyperTraverse]
    | cons p q =>
      obtain ⟨x, d⟩ := p
      rw [hyperTraverse] at hok ⊢
      cases hk : (h.get x).kind with
      | node => rw [hk] at hok; simp only at hok ⊢; exact ih _ _ hok
      | edge => rw [hk] at hok; simp only at hok ⊢; exact ih _ _ hok
      | relation =>
        rw [hk] at hok
        simp only at hok ⊢
        cases hb : relationBatches h m x with
        | error e => rw [hb] at hok; simp at hok
        | ok bs => rw [hb] at hok; simp only at hok ⊢; exact ih _ _ hok
      | _ => rw [hk] at hok; simp only at hok ⊢; exact ih _ _ hok

theorem Strategy.execute_ok_empty {σ : Type} (max : Option Nat) (ig : Bool) (h : Heap) (f : Ref → Bool)
    (vis : Visitor σ) (b : Nat) (start : Ref) (q : Fringe) (s : σ)
    (hok : (Strategy.execute ⟨false, max, ig⟩ h f vis b start q s).1 = .ok ()) :
    (Strategy.execute ⟨false, max, ig⟩ h f vis b start q s).2.2 = [] := by
  unfold Strategy.execute at hok ⊢
  simp only at hok ⊢
  cases hr : (if (f start && !ig) = true then vis start s else (.ok (), s)) with
  | mk r s' =>
    cases r with
    | error e => rw [hr] at hok; simp at hok
    | ok u =>
      rw [hr] at hok
      simp only at hok ⊢
      exact traverse_ok_empty hok

/-- **C57**, proved part: a conversion that returns leaves both queues idle, whatever was on them before;
so a conversion is only influenced by the conversions since the last one that returned. -/
theorem C57_returns_idle_partial (h : Heap) (rd : Option Nat) (budget : Nat) (start : Ref) (sh sx : Fringe)
    {T : Tensors} (hok : (tensorExecute h rd budget start sh sx).1 = .ok T) :
    (tensorExecute h rd budget start sh sx).2 = ([], []) := by
  unfold tensorExecute at hok ⊢
  cases hm : ({} : IndexHom).execute h 1 true budget start sh with
  | mk r p =>
    obtain ⟨m, sh'⟩ := p
    rw [hm] at hok
    cases r with
    | error e => simp at hok
    | ok u =>
      simp only at hok ⊢
      cases hx : hyperExecute h m rd budget start sx with
      | mk r p =>
        obtain ⟨q, sx'⟩ := p
        rw [hx] at hok
        cases r with
        | error e => simp at hok
        | ok u =>
          simp only
          have h1 : sx' = [] := by
            have := hyperTraverse_ok_empty h m rd budget (sx ++ [(start, 0)]) []
            unfold hyperExecute at hx
            rw [hx] at this
            exact this rfl
          have h2 : sh' = [] := by
            unfold IndexHom.execute IndexHom.executeMax at hm
            simp only at hm
            cases h1 : (Strategy.execute ⟨false, some 1, true⟩ h (isNode h) (addNodeHom h) budget start sh
                ({} : IndexHom).resetHomology).1 with
            | error e =>
              rw [h1] at hm; simp at hm
            | ok _ =>
              rw [h1] at hm
              simp only at hm
              have e1 := Strategy.execute_ok_empty _ _ _ _ _ _ _ _ _ h1
              cases h2 : (Strategy.execute ⟨false, some 1, true⟩ h (isEdge h) (addEdgeHom h) budget start
                (Strategy.execute ⟨false, some 1, true⟩ h (isNode h) (addNodeHom h) budget start sh
                  ({} : IndexHom).resetHomology).2.2
                (Strategy.execute ⟨false, some 1, true⟩ h (isNode h) (addNodeHom h) budget start sh
                  ({} : IndexHom).resetHomology).2.1).1 with
              | error e => rw [h2] at hm; simp at hm
              | ok _ =>
                rw [h2] at hm
                simp only at hm
                have e3 := Strategy.execute_ok_empty (some 1) true h (isValue h) (addValueHom h) budget start
                  _ _ (congrArg Prod.fst hm)
                rw [hm] at e3
                exact e3
          rw [h1, h2]

namespace Sample
/-- `8`: a second root node `q`, `9`: a node `s` in it. -/
def k7 : Heap := (mkNode ['q'] 20 none).after E0 u6
/-- See `k7`. -/
def k8 : Heap := (mkNode ['s'] 21 (some 8)).after E0 k7
/-- `10`: an edge in `q`, connected to `s` and to `b`, which is not in `q`. -/
def k9 : Heap := (mkEdge ['f'] 22 (some 8)).after E0 k8
/-- See `k9`. -/
def k10 : Heap := (Op.unaryConnect 10 2 none .bidirectional none).after E0 k9
/-- See `k9`. -/
def k11 : Heap := (Op.unaryConnect 10 9 none .bidirectional none).after E0 k10
theorem reach_k7 : Reach E0 k7 := .step _ reach_u6 ⟨rfl, okNone⟩ trivial
theorem reach_k8 : Reach E0 k8 := .step _ reach_k7 ⟨rfl, okSome (by decide +kernel)⟩ trivial
theorem reach_k9 : Reach E0 k9 := .step _ reach_k8 ⟨rfl, okSome (by decide +kernel)⟩ trivial
theorem reach_k10 : Reach E0 k10 :=
  .step _ reach_k9 ⟨by decide +kernel, by decide +kernel, okNone, okNone⟩ trivial
theorem reach_k11 : Reach E0 k11 :=
  .step _ reach_k10 ⟨by decide +kernel, by decide +kernel, okNone, okNone⟩ trivial
theorem unweighted_k11 : Unweighted k11 0 := forall_relationIn (by decide +kernel)
theorem closed_k11 : Closed k11 0 := forall_relationIn (by decide +kernel)
theorem context_k11 : Context k11 0 := ⟨by decide +kernel, closed_k11, unweighted_k11.valueWeights⟩
end Sample

/-- The error of a result. -/
def Except.err? {α : Type} : Except Err α → Option Err
  | .ok _ => none
  | .error e => some e

/-- **C57 refuted**: after the failed conversion of a context with an endpoint outside (`KeyError`), the
conversion of another, convertible context fails too. -/
theorem C57_after_failure_refuted : ∃ (E : Env) (h : Heap) (c c' : Ref) (sx : Fringe), Reach E h ∧
    Context h c ∧
    Except.err? (tensorExecute h (some 1) 100 c [] []).1 = none ∧
    Except.err? (tensorExecute h (some 1) 100 c' [] []).1 = some .keyError ∧
    (tensorExecute h (some 1) 100 c' [] []).2 = ([], sx) ∧
    Except.err? (tensorExecute h (some 1) 100 c [] sx).1 = some .keyError :=
  ⟨E0, k11, 0, 8, [(13, 0)], reach_k11, context_k11, by decide +kernel, by decide +kernel,
    by decide +kernel, by decide +kernel⟩

/-! ## C58: termination of hypergraph traversals -/

/-- Elements below another one, and the number of steps to treat them. -/
def stepCost (h : Heap) (k : Nat) : Nat → Ref → Nat → Nat
  | 0, _, _ => 1
  | n + 1, x, d => 1 + match (h.get x).kind with
    | .node => ((h.subEdges x).map fun y => stepCost h k n y d).sum
    | .edge => ((h.subRelations x).map fun y => stepCost h k n y d).sum
    | .relation => if d + 1 < k then
        (match (h.get x).endpoint with
        | some v => stepCost h k n v (d + 1)
        | none => 0) else 0
    | _ => 0

/-- A rank that decreases from nodes to edges to relations and with the remaining depth. -/
def stepRank (h : Heap) (k : Nat) (x : Ref) (d : Nat) : Nat :=
  4 * (k - d) + match (h.get x).kind with
    | .node => 3
    | .edge => 2
    | .relation => 1
    | _ => 0

theorem stepCost_stable (h : Heap) (k : Nat) : ∀ n x d, stepRank h k x d < n →
    stepCost h k (n + 1) x d = stepCost h k n x d := by
  intro n
  induction n with
  | zero => intro x d hr; omega
  | succ n ih =>
    intro x d hr
    rw [stepCost, stepCost]
    congr 1
    unfold stepRank at hr
    cases hk : (h.get x).kind with
    | node =>
      simp only
      congr 1
      apply List.map_congr_left
      intro y hy
      apply ih
      have : (h.get y).kind = .edge := of_decide_eq_true (List.mem_filter.1 hy).2
      rw [hk] at hr
      unfold stepRank; rw [this]; simp only at hr ⊢; omega
    | edge =>
      simp only
      congr 1
      apply List.map_congr_left
      intro y hy
      apply ih
      have : (h.get y).kind = .relation := of_decide_eq_true (List.mem_filter.1 hy).2
      rw [hk] at hr
      unfold stepRank; rw [this]; simp only at hr ⊢; omega
    | relation =>
      simp only
      by_cases hd : d + 1 < k
      · rw [if_pos hd, if_pos hd]
        cases he : (h.get x).endpoint with
        | none => rfl
        | some v =>
          apply ih
          rw [hk] at hr
          unfold stepRank
          have : (match (h.get v).kind with
            | .node => 3 | .edge => 2 | .relation => 1 | _ => 0) ≤ 3 := by split <;> omega
          simp only at hr
          omega
      · rw [if_neg hd, if_neg hd]
    | _ => rfl

/-- Cost of one fringe entry. -/
def entryCost (h : Heap) (k N : Nat) (p : Ref × Nat) : Nat := stepCost h k N p.1 p.2

theorem stepRank_le (h : Heap) (k : Nat) (x : Ref) (d : Nat) : stepRank h k x d < 4 * k + 4 := by
  unfold stepRank
  have : (match (h.get x).kind with
    | .node => 3 | .edge => 2 | .relation => 1 | _ => 0) ≤ 3 := by split <;> omega
  omega

theorem cost_unfold (h : Heap) (k : Nat) (x : Ref) (d : Nat) :
    entryCost h k (4 * k + 4) (x, d) = 1 + match (h.get x).kind with
    | .node => (((h.subEdges x).map fun y => (y, d)).map (entryCost h k (4 * k + 4))).sum
    | .edge => (((h.subRelations x).map fun y => (y, d)).map (entryCost h k (4 * k + 4))).sum
    | .relation => if d + 1 < k then
        (match (h.get x).endpoint with
        | some v => entryCost h k (4 * k + 4) (v, d + 1)
        | none => 0) else 0
    | _ => 0 := by
  unfold entryCost
  simp only [List.map_map, Function.comp_def]
  rw [← stepCost_stable h k _ x d (stepRank_le h k x d), stepCost]

/-- **C58**, proved part: with a finite depth limit every hypergraph traversal, in any state and from any
fringe, ends (by returning or with an exception of its own) if the stack is deep enough. -/
theorem C58_limited_partial (h : Heap) (m : IndexHom) (k : Nat) (start : Ref) (shared : Fringe) :
    ∃ N, ∀ budget, N ≤ budget →
      (hyperExecute h m (some k) budget start shared).1 ≠ .error .recursionError := by
  have key : ∀ b q s, ((q.map (entryCost h k (4 * k + 4))).sum < b) →
      (hyperTraverse h m (some k) b q s).1 ≠ .error .recursionError := by
    intro b
    induction b with
    | zero => intro q s hq; omega
    | succ b ih =>
      intro q s hq
      cases q with
      | nil => rw [hyperTraverse]; intro q; cases q
      | cons p q =>
        obtain ⟨x, d⟩ := p
        rw [List.map_cons, List.sum_cons, cost_unfold] at hq
        rw [hyperTraverse]
        cases hk : (h.get x).kind with
        | node =>
          rw [hk] at hq; simp only at hq ⊢
          apply ih; rw [List.map_append, List.sum_append]; omega
        | edge =>
          rw [hk] at hq; simp only at hq ⊢
          apply ih; rw [List.map_append, List.sum_append]; omega
        | relation =>
          rw [hk] at hq; simp only at hq ⊢
          cases hb : relationBatches h m x with
          | error e =>
            simp only
            intro hc
            have he : e = .recursionError := by simpa using hc
            subst he
            -- the batches raise KeyError or AttributeError only
            have hidx : ∀ (M : IndexMap) (u : Bytes), M.index u ≠ .error .recursionError := by
              intro M u; unfold IndexMap.index; split <;> intro q <;> cases q
            have hids : ∀ e', nodeIds h m e' ≠ .error .recursionError := by
              intro e'
              unfold nodeIds
              split
              · intro q
                have : ∀ l : List (Option Nat), (l.mapM fun x => match x with
                    | none => (.error .attributeError : Except Err Nat)
                    | some v => m.nodes.index (h.get v).uuid) ≠ .error .recursionError := by
                  intro l
                  induction l with
                  | nil => intro q; cases q
                  | cons a l ihl =>
                    rw [List.mapM_cons]
                    cases a with
                    | none => intro q; cases q
                    | some v =>
                      simp only
                      cases hi : m.nodes.index (h.get v).uuid with
                      | error e'' =>
                        intro q
                        have : e'' = .recursionError := by cases q; rfl
                        exact hidx _ _ (this ▸ hi)
                      | ok i =>
                        simp only [bind, Except.bind]
                        split
                        · next e'' he'' => intro q; cases q; exact ihl he''
                        · intro q; cases q
                exact this _ q
              · intro q; cases q
            unfold relationBatches at hb
            split at hb
            · cases hb
            · next p hp =>
              cases h1 : m.edges.index (h.get p).uuid with
              | error e1 =>
                rw [h1] at hb; cases hb; exact hidx _ _ h1
              | ok i1 =>
                rw [h1] at hb
                simp only [bind, Except.bind] at hb
                cases h2 : relationWeight h x with
                | error e2 =>
                  rw [h2] at hb
                  simp only at hb
                  cases hb
                  unfold relationWeight at h2
                  simp only at h2
                  split at h2
                  · split at h2 <;> cases h2
                  · cases h2
                | ok w =>
                  rw [h2] at hb
                  simp only at hb
                  split at hb
                  · cases hb
                  · next v hv =>
                    cases h3 : m.nodes.index (h.get v).uuid with
                    | error e3 => rw [h3] at hb; cases hb; exact hidx _ _ h3
                    | ok i =>
                      rw [h3] at hb
                      simp only at hb
                      unfold fillRelations at hb
                      cases h4 : nodeIds h m p with
                      | error e4 =>
                        rw [h4] at hb
                        by_cases w1 : w.1 ≠ 0 <;> by_cases w2 : w.2 ≠ 0 <;>
                          simp [w1, w2, bind, Except.bind] at hb
                        all_goals exact hids p (hb ▸ h4)
                      | ok ids =>
                        rw [h4] at hb
                        by_cases w1 : w.1 ≠ 0 <;> by_cases w2 : w.2 ≠ 0 <;>
                          simp [w1, w2, bind, Except.bind] at hb
          | ok bs =>
            simp only
            apply ih
            rw [List.map_append, List.sum_append]
            unfold deeper
            simp only [decide_eq_true_eq]
            by_cases hd : d + 1 < k
            · rw [if_pos hd] at hq ⊢
              cases he : (h.get x).endpoint with
              | none => rw [he] at hq; simp only at hq ⊢; simp; omega
              | some v =>
                rw [he] at hq; simp only at hq ⊢
                simp only [List.map_cons, List.map_nil, List.sum_cons, List.sum_nil]; omega
            · rw [if_neg hd] at hq ⊢
              simp; omega
        | _ => rw [hk] at hq; simp only at hq ⊢; apply ih; omega
  refine ⟨((shared ++ [(start, 0)]).map (entryCost h k (4 * k + 4))).sum + 1, fun b hb => ?_⟩
  exact key b _ [] (by omega)

namespace Sample
/-- A node `r` with an edge `e` inside it that is connected to `r` itself. -/
def c2 : Heap := (mkEdge ['e'] 4 (some 0)).after E0 g1
/-- See `c2`. -/
def c3 : Heap := (Op.unaryConnect 1 0 none .bidirectional none).after E0 c2
theorem reach_c2 : Reach E0 c2 := .step _ reach1 ⟨rfl, okSome (by decide +kernel)⟩ trivial
theorem reach_c3 : Reach E0 c3 :=
  .step _ reach_c2 ⟨by decide +kernel, by decide +kernel, okNone, okNone⟩ trivial
/-- The index homomorphism of `r`, root included. -/
def cm : IndexHom := (({} : IndexHom).execute c3 1 false 100 0 []).2.1
end Sample

/-- **C58 refuted** for the default depth: when an edge inside a node is connected to that node, the
traversal runs into `RecursionError` however deep the stack is. -/
theorem C58_unlimited_refuted : ∃ (E : Env) (h : Heap) (m : IndexHom) (start : Ref), Reach E h ∧
    ({} : IndexHom).execute h 1 false 100 start [] = (.ok (), m, []) ∧
    ∀ budget, (hyperExecute h m none budget start []).1 = .error .recursionError := by
  refine ⟨E0, c3, cm, 0, reach_c3, by decide +kernel, ?_⟩
  have k0 : (c3.get 0).kind = .node := by decide +kernel
  have k1 : (c3.get 1).kind = .edge := by decide +kernel
  have k2 : (c3.get 2).kind = .relation := by decide +kernel
  have s0 : c3.subEdges 0 = [1] := by decide +kernel
  have s1 : c3.subRelations 1 = [2] := by decide +kernel
  have e2 : (c3.get 2).endpoint = some 0 := by decide +kernel
  have hb : relationBatches c3 cm 2 = .ok [[], []] := by
    have : (relationBatches c3 cm 2).toOption = some [[], []] := by decide +kernel
    cases hx : relationBatches c3 cm 2 with
    | error e => rw [hx] at this; cases this
    | ok bs => rw [hx] at this; cases this; rfl
  have key : ∀ b d s, (hyperTraverse c3 cm none b [(0, d)] s).1 = .error .recursionError ∧
      (hyperTraverse c3 cm none b [(1, d)] s).1 = .error .recursionError ∧
      (hyperTraverse c3 cm none b [(2, d)] s).1 = .error .recursionError := by
    intro b
    induction b with
    | zero => intro d s; exact ⟨rfl, rfl, rfl⟩
    | succ b ih =>
      intro d s
      refine ⟨?_, ?_, ?_⟩
      · rw [hyperTraverse, k0, s0]; exact (ih d s).2.1
      · rw [hyperTraverse, k1, s1]; exact (ih d s).2.2
      · rw [hyperTraverse, k2]
        simp only [hb, e2]
        exact (ih (d + 1) _).1
  intro budget
  exact (key budget 0 []).1

/-! ## C59: re-synchronising -/

/-- **C59**, proved part: a new representation, or one whose dimensions change, starts from zeros. -/
theorem C59_fresh_partial (prior : Option Tensors) (m : IndexHom)
    (hp : ∀ T, prior = some T → T.nn ≠ m.nodes.cnt ∨ T.ne ≠ m.edges.cnt) :
    (synchronize prior m).ne = m.edges.cnt ∧ (synchronize prior m).nn = m.nodes.cnt ∧
    ∀ e i j, (synchronize prior m).W e i j = 0 ∧ (synchronize prior m).Io e i = 0 ∧
      (synchronize prior m).Ii e i = 0 := by
  unfold synchronize
  cases prior with
  | none => exact ⟨rfl, rfl, fun _ _ _ => ⟨rfl, rfl, rfl⟩⟩
  | some T =>
    have : m.nodes.cnt ≠ T.nn ∨ m.edges.cnt ≠ T.ne := by
      rcases hp T rfl with q | q
      · exact .inl q.symm
      · exact .inr q.symm
    simp only [if_pos this]
    exact ⟨rfl, rfl, fun _ _ _ => ⟨rfl, rfl, rfl⟩⟩

/-- **C59 refuted**: if the numbers of nodes and edges stay the same, the old entries survive: a link that no
longer exists in the graph keeps its weight, whatever is filled in afterwards for other positions. -/
theorem C59_stale_refuted (T : Tensors) (m : IndexHom) (hn : m.nodes.cnt = T.nn) (he : m.edges.cnt = T.ne)
    (q : List (List Entry)) {T' : Tensors} (hq : (synchronize (some T) m).fillWeights q = .ok T')
    {e i j : Nat} (hno : ∀ t ∈ q.flatten, ¬ (e = t.e ∧ i = t.n0 ∧ j = t.n1)) : T'.W e i j = T.W e i j := by
  have hs : synchronize (some T) m = T := by
    unfold synchronize
    have : ¬ (m.nodes.cnt ≠ T.nn ∨ m.edges.cnt ≠ T.ne) := by simp [hn, he]
    simp only [if_neg this]
  rw [hs] at hq
  unfold Tensors.fillWeights at hq
  generalize q.flatten = ts at *
  clear hs hn he
  induction ts generalizing T with
  | nil => cases hq; rfl
  | cons t ts ih =>
    rw [List.foldlM_cons] at hq
    cases ht : T.fill t with
    | error e => rw [ht] at hq; cases hq
    | ok T1 =>
      rw [ht] at hq
      rw [ih T1 hq (fun s hs => hno s (List.mem_cons_of_mem _ hs))]
      unfold Tensors.fill at ht
      split at ht
      · cases ht
        simp only [if_neg (hno t (by simp))]
      · cases ht

end Rei
