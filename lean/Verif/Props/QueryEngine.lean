import Verif.Spec.QueryEngine
import Verif.Props.Traversal
import Verif.Props.Sample
import Mathlib.Data.List.Perm.Lattice
import Mathlib.Data.List.Dedup

/-!
# C52: the query engine under every schedule
-/
namespace Rei

variable {h : Heap}

/-- What a coroutine adds to the results. -/
def yields (q : PrepQuery) (c : Coro) : Option Ref :=
  if c.awaited then none else
    match q.prep c.elem with
    | .ok true => some c.elem
    | _ => none

private theorem callAll_collect (l : List Ref) : ∀ s, callAll collect l s =
    (.ok (), s ++ l.map fun x => ⟨x, false⟩) := by
  induction l with
  | nil => intro s; simp [callAll]
  | cons x l ih => intro s; simp [callAll, collect, ih]

/-- The traversal of a query uses the filter of the specification. -/
theorem queryFilter_passes (h : Heap) (s : Ref → Bool) : queryFilter h s = passes h s := by
  funext x
  unfold queryFilter passes
  cases (h.get x).kind <;> rfl

theorem prefilter_run {E : Env} (R : Reach E h) {q : PrepQuery} {budget : Nat} (hf : q.Fits h budget) :
    q.prefilter h budget [] =
      (.ok (), { q with coros := q.coros ++ (visitedBy h q).map fun x => ⟨x, false⟩ }, []) := by
  have a := C28_bfs_visits (f := passes h q.statement) R hf.1 false collect q.coros hf.2
  rw [callAll_collect] at a
  obtain ⟨a1, a2, a3⟩ := a
  have a3 := a3 rfl
  unfold PrepQuery.prefilter
  rw [queryFilter_passes]
  simp only [a1, a2, a3]
  rfl

/-- The query after its traversal. -/
def prefiltered (h : Heap) (q : PrepQuery) : PrepQuery :=
  { q with coros := q.coros ++ (visitedBy h q).map fun x => ⟨x, false⟩ }

theorem prefilterAll_run {E : Env} (R : Reach E h) {budget : Nat} (ks : List Nat) :
    ∀ (Q : Queries) (tasks : List (Nat × Nat)), ks.Nodup → (∀ k ∈ ks, (Q k).Fits h budget) →
    prefilterAll h budget ks Q [] tasks =
      (.ok (tasks ++ ks.flatMap fun k =>
          (List.range (prefiltered h (Q k)).coros.length).map fun i => (k, i)),
        (fun k => if k ∈ ks then prefiltered h (Q k) else Q k), []) := by
  induction ks with
  | nil => intro Q tasks _ _; simp [prefilterAll]
  | cons k ks ih =>
    intro Q tasks hn hf
    have hk : k ∉ ks := (List.nodup_cons.1 hn).1
    have hne : ∀ j ∈ ks, j ≠ k := fun j hj e => hk (e ▸ hj)
    unfold prefilterAll
    simp only [prefilter_run R (hf k (by simp))]
    rw [ih _ _ (List.nodup_cons.1 hn).2 (by
      intro j hj
      rw [Function.update_of_ne (hne j hj)]
      exact hf j (by simp [hj]))]
    refine Prod.ext ?_ (Prod.ext ?_ rfl)
    · simp only [List.flatMap_cons, List.append_assoc]
      congr 3
      apply List.flatMap_congr
      intro j hj
      rw [Function.update_of_ne (hne j hj)]
    · funext j
      simp only [List.mem_cons]
      by_cases hj : j = k
      · subst hj; simp [hk, prefiltered]
      · rw [Function.update_of_ne hj]; simp [hj]

private theorem runTasks_apply (order : List (Nat × Nat)) : ∀ (Q : Queries) (k : Nat),
    runTasks order Q k =
      ((order.filter fun t => decide (t.1 = k)).map Prod.snd).foldl PrepQuery.runTask (Q k) := by
  induction order with
  | nil => intro Q k; rfl
  | cons t order ih =>
    intro Q k
    have e : runTasks (t :: order) Q = runTasks order (Function.update Q t.1 ((Q t.1).runTask t.2)) := rfl
    rw [e, ih]
    by_cases hk : t.1 = k
    · subst hk; simp
    · rw [Function.update_of_ne (fun e => hk e.symm)]; simp [hk]

theorem runTask_same (q : PrepQuery) (i : Nat) : (q.runTask i).SameQuestion q := by
  unfold PrepQuery.runTask
  split
  · exact ⟨rfl, rfl, rfl⟩
  · split
    · exact ⟨rfl, rfl, rfl⟩
    · dsimp only; split <;> exact ⟨rfl, rfl, rfl⟩

/-- One task: what it adds, and which coroutines are awaited afterwards. -/
theorem runTask_eff (q : PrepQuery) (i : Nat) :
    (q.runTask i).result = q.result ++ (q.coros[i]?.bind (yields q)).toList ∧
    (∀ j, j ≠ i → (q.runTask i).coros[j]? = q.coros[j]?) ∧
    (q.runTask i).coros.length = q.coros.length ∧
    (∀ c, (q.runTask i).coros[i]? = some c → c.awaited = true) := by
  cases hc : q.coros[i]? with
  | none =>
    have e : q.runTask i = q := by unfold PrepQuery.runTask; rw [hc]
    rw [e]; simp [hc]
  | some c =>
    cases ha : c.awaited with
    | true =>
      have e : q.runTask i = q := by unfold PrepQuery.runTask; rw [hc]; simp [ha]
      rw [e]
      refine ⟨by simp [yields, ha], fun _ _ => rfl, rfl, ?_⟩
      intro c' h'; rw [hc] at h'; cases h'; exact ha
    | false =>
      have hlt : i < q.coros.length := (List.getElem?_eq_some_iff.1 hc).1
      unfold PrepQuery.runTask
      rw [hc]
      simp only [ha, Bool.false_eq_true, if_false, Option.bind_some, yields]
      split
      · rename_i hp
        refine ⟨by rw [hp]; rfl, fun j hj => List.getElem?_set_ne (Ne.symm hj), by simp, ?_⟩
        intro c' h'; simp [hlt] at h'; rw [← h']
      · refine ⟨?_, fun j hj => List.getElem?_set_ne (Ne.symm hj), by simp, ?_⟩
        · simp
        · intro c' h'; simp [hlt] at h'; rw [← h']

private theorem runAll_eff (is : List Nat) : ∀ (q : PrepQuery), is.Nodup →
    (is.foldl PrepQuery.runTask q).result = q.result ++ is.filterMap (fun i => q.coros[i]?.bind (yields q)) ∧
    (is.foldl PrepQuery.runTask q).SameQuestion q ∧
    (is.foldl PrepQuery.runTask q).coros.length = q.coros.length ∧
    (∀ j, j ∉ is → (is.foldl PrepQuery.runTask q).coros[j]? = q.coros[j]?) ∧
    (∀ j ∈ is, ∀ c, (is.foldl PrepQuery.runTask q).coros[j]? = some c → c.awaited = true) := by
  induction is with
  | nil => intro q _; refine ⟨by simp, ⟨rfl, rfl, rfl⟩, rfl, by simp, by simp⟩
  | cons i is ih =>
    intro q hn
    obtain ⟨hi, hn⟩ := List.nodup_cons.1 hn
    obtain ⟨a1, a2, a3, a4⟩ := runTask_eff q i
    obtain ⟨s1, s2, s3⟩ := runTask_same q i
    obtain ⟨b1, ⟨b2, b3, b4⟩, b5, b6, b7⟩ := ih (q.runTask i) hn
    simp only [List.foldl_cons]
    refine ⟨?_, ⟨b2.trans s1, b3.trans s2, b4.trans s3⟩, b5.trans a3, ?_, ?_⟩
    · rw [b1, a1]
      have e : is.filterMap (fun j => (q.runTask i).coros[j]?.bind (yields (q.runTask i))) =
          is.filterMap (fun j => q.coros[j]?.bind (yields q)) := by
        apply List.filterMap_congr
        intro j hj
        rw [a2 j (fun e => hi (e ▸ hj))]
        congr 1
        funext c
        unfold yields
        rw [s2]
      rw [e, List.filterMap_cons]
      cases q.coros[i]?.bind (yields q) <;> simp
    · intro j hj
      simp only [List.mem_cons, not_or] at hj
      rw [b6 j hj.2, a2 j hj.1]
    · intro j hj c hc
      by_cases hji : j ∈ is
      · exact b7 j hji c hc
      · have : j = i := by simpa [hji] using hj
        subst this
        rw [b6 j hji] at hc
        exact a4 c hc

private theorem filterMap_range (l : List Coro) (f : Coro → Option Ref) :
    (List.range l.length).filterMap (fun i => l[i]?.bind f) = l.filterMap f := by
  induction l with
  | nil => rfl
  | cons c l ih =>
    rw [List.length_cons, List.range_succ_eq_map, List.filterMap_cons, List.filterMap_map]
    have e : (List.range l.length).filterMap ((fun i => (c :: l)[i]?.bind f) ∘ Nat.succ) =
        l.filterMap f := by
      rw [← ih]; apply List.filterMap_congr; intro j _; simp
    rw [e, List.filterMap_cons]
    simp only [List.getElem?_cons_zero, Option.bind_some]

theorem drain_run (ks : List Nat) : ∀ (Q : Queries), ks.Nodup →
    drain ks Q = ((ks.map fun k => (Q k).result).flatten,
      fun k => if k ∈ ks then { Q k with result := [] } else Q k) := by
  induction ks with
  | nil => intro Q _; simp [drain]
  | cons k ks ih =>
    intro Q hn
    obtain ⟨hk, hn⟩ := List.nodup_cons.1 hn
    unfold drain
    simp only
    rw [ih _ hn]
    refine Prod.ext ?_ ?_
    · simp only [List.map_cons, List.flatten_cons]
      congr 2
      apply List.map_congr_left
      intro j hj
      rw [Function.update_of_ne (fun e : j = k => hk (e ▸ hj))]
    · funext j
      by_cases hj : j = k
      · subst hj; simp [hk]
      · simp [hj]

/-- The results and the state of one query after its tasks have run, in any order. -/
private theorem one_query {q : PrepQuery} (hid : q.Idle) {is : List Nat} (hn : is.Nodup)
    (hm : ∀ i, i ∈ is ↔ i < (prefiltered h q).coros.length) :
    ((is.foldl PrepQuery.runTask (prefiltered h q)).result).Perm (matchesOf h q) ∧
    (is.foldl PrepQuery.runTask (prefiltered h q)).SameQuestion q ∧
    ∀ c ∈ (is.foldl PrepQuery.runTask (prefiltered h q)).coros, c.awaited = true := by
  obtain ⟨a1, a2, a3, _, a5⟩ := runAll_eff is (prefiltered h q) hn
  refine ⟨?_, a2, ?_⟩
  · rw [a1]
    have p : is.Perm (List.range (prefiltered h q).coros.length) := by
      rw [List.perm_ext_iff_of_nodup hn List.nodup_range]
      intro i; rw [hm, List.mem_range]
    have p2 := p.filterMap (fun i => (prefiltered h q).coros[i]?.bind (yields (prefiltered h q)))
    rw [filterMap_range] at p2
    have r0 : (prefiltered h q).result = [] := hid.1
    rw [r0, List.nil_append]
    refine p2.trans (List.Perm.of_eq ?_)
    have e : (prefiltered h q).coros = q.coros ++ (visitedBy h q).map fun x => ⟨x, false⟩ := rfl
    rw [e, List.filterMap_append, List.filterMap_map]
    have e1 : q.coros.filterMap (yields (prefiltered h q)) = [] := by
      rw [List.filterMap_eq_nil_iff]
      intro c hc
      simp [yields, hid.2 c hc]
    rw [e1, List.nil_append]
    unfold matchesOf
    rw [← List.filterMap_eq_filter]
    apply List.filterMap_congr
    intro x _
    have e : (prefiltered h q).prep = q.prep := rfl
    simp only [Function.comp, yields, Bool.false_eq_true, if_false, e, Option.guard]
    have : ∀ r : Except Err Bool, (match r with | .ok true => some x | _ => none) =
        if (match r with | .ok true => true | _ => false) = true then some x else none := by
      rintro (_ | _ | _) <;> rfl
    exact this _
  · intro c hc
    obtain ⟨j, hj, e⟩ := List.mem_iff_getElem.1 hc
    refine a5 j ((hm j).2 (a3 ▸ hj)) c ?_
    rw [List.getElem?_eq_getElem hj, e]

/-- **C52 (partial).** Every schedule, any number of executions before.  The engine's queries are
distinct objects, nothing is pending from before, the traversals fit on the stack, and together they
visit something.  Then the result is, query by query in the order they were added, some permutation of
the visited elements that satisfy the query's predicate; and afterwards everything is as it was, ready
for the next execution.  Missing: the cases of `C52_nothing_visited_refuted`,
`C52_two_names_refuted` and `C52_aborted_refuted`. -/
theorem C52_every_schedule_partial {E : Env} (R : Reach E h) {budget : Nat}
    {order : List (Nat × Nat) → List (Nat × Nat)} (ho : Schedule order)
    (e : Engine) (Q : Queries) (hd : (Dict.values e).Nodup)
    (hq : ∀ k ∈ Dict.values e, (Q k).Idle ∧ (Q k).Fits h budget)
    (hv : ∃ k ∈ Dict.values e, visitedBy h (Q k) ≠ []) :
    ∃ (parts : List (List Ref)) (Q' : Queries),
      e.execute h budget order Q [] = (.ok parts.flatten, Q', []) ∧
      List.Forall₂ (fun k part => List.Perm part (matchesOf h (Q k))) (Dict.values e) parts ∧
      (∀ k ∈ Dict.values e, (Q' k).Idle ∧ (Q' k).SameQuestion (Q k)) ∧
      (∀ k, k ∉ Dict.values e → Q' k = Q k) := by
  generalize hks : Dict.values e = ks at hd hq hv ⊢
  have pre := prefilterAll_run R ks Q [] hd (fun k hk => (hq k hk).2)
  generalize hts : ks.flatMap (fun k =>
    (List.range (prefiltered h (Q k)).coros.length).map fun i => (k, i)) = tasks at pre
  rw [List.nil_append] at pre
  obtain ⟨on, om⟩ := ho tasks
  have hmem : ∀ t, t ∈ tasks ↔ t.1 ∈ ks ∧ t.2 < (prefiltered h (Q t.1)).coros.length := by
    rintro ⟨k, i⟩
    rw [← hts]
    simp only [List.mem_flatMap, List.mem_map, List.mem_range, Prod.mk.injEq]
    constructor
    · rintro ⟨k', hk', i', hi', rfl, rfl⟩; exact ⟨hk', hi'⟩
    · rintro ⟨hk', hi'⟩; exact ⟨k, hk', i, hi', rfl, rfl⟩
  have hne : tasks ≠ [] := by
    obtain ⟨k, hk, hvk⟩ := hv
    intro e0
    have : (k, 0) ∈ tasks := (hmem _).2 ⟨hk, by
      have : 0 < (visitedBy h (Q k)).length := List.length_pos_iff.2 hvk
      simp [prefiltered]; omega⟩
    simp [e0] at this
  set Q1 : Queries := fun k => if k ∈ ks then prefiltered h (Q k) else Q k with hQ1
  set Q2 := runTasks (order tasks) Q1 with hQ2
  have exec : e.execute h budget order Q [] =
      (.ok (ks.map fun k => (Q2 k).result).flatten,
        (fun k => if k ∈ ks then { Q2 k with result := [] } else Q2 k), []) := by
    unfold Engine.execute
    rw [hks, pre]
    cases tasks with
    | nil => exact absurd rfl hne
    | cons t ts =>
      simp only
      rw [← hQ2, drain_run ks Q2 hd]
  have sub : ∀ k, Q2 k = (((order tasks).filter fun t => decide (t.1 = k)).map Prod.snd).foldl
      PrepQuery.runTask (Q1 k) := fun k => runTasks_apply _ _ _
  have one : ∀ k ∈ ks, List.Perm (Q2 k).result (matchesOf h (Q k)) ∧ (Q2 k).SameQuestion (Q k) ∧
      ∀ c ∈ (Q2 k).coros, c.awaited = true := by
    intro k hk
    rw [sub k]
    have : Q1 k = prefiltered h (Q k) := by simp [hQ1, hk]
    rw [this]
    refine one_query (hq k hk).1 ?_ ?_
    · refine List.Nodup.map_on ?_ (on.filter _)
      rintro ⟨a, i⟩ ha ⟨b, j⟩ hb hij
      simp only [List.mem_filter, decide_eq_true_eq] at ha hb
      simp only at hij
      rw [ha.2, hb.2, hij]
    · intro i
      simp only [List.mem_map, List.mem_filter, decide_eq_true_eq]
      constructor
      · rintro ⟨⟨a, j⟩, ⟨h1, h2⟩, h3⟩
        simp only at h2 h3
        subst h2 h3
        exact ((hmem _).1 ((om _).1 h1)).2
      · intro hi
        exact ⟨(k, i), ⟨(om _).2 ((hmem _).2 ⟨hk, hi⟩), rfl⟩, rfl⟩
  refine ⟨ks.map fun k => (Q2 k).result, _, exec, ?_, ?_, ?_⟩
  · have : ∀ l : List Nat, (∀ k ∈ l, k ∈ ks) →
        List.Forall₂ (fun k part => List.Perm part (matchesOf h (Q k))) l
          (l.map fun k => (Q2 k).result) := by
      intro l
      induction l with
      | nil => intro _; exact .nil
      | cons k l ih =>
        intro hl
        exact .cons (one k (hl k (by simp))).1 (ih fun j hj => hl j (by simp [hj]))
    exact this ks fun _ hk => hk
  · intro k hk
    obtain ⟨_, p2, p3⟩ := one k hk
    simp only [hk, if_true]
    exact ⟨⟨rfl, p3⟩, p2⟩
  · intro k hk
    have : (order tasks).filter (fun t => decide (t.1 = k)) = [] := by
      rw [List.filter_eq_nil_iff]
      intro t ht
      simp only [decide_eq_true_eq]
      intro e'
      exact hk (e' ▸ ((hmem t).1 ((om t).1 ht)).1)
    simp only [hk, if_false]
    rw [sub k, this]
    simp [hQ1, hk]

/-! ## A concrete case -/

open Sample

/-- Two queries on the sample graph: the nodes below the root, the edges below the root. -/
def sampleQueries : Queries := fun k =>
  if k = 0 then { start := 0, prep := fun x => .ok (decide ((g10.get x).kind = .node)), statement := fun _ => true }
  else { start := 0, prep := fun x => if x = 1 then .error .user else .ok (decide ((g10.get x).kind = .edge)),
         statement := fun _ => true }

/-- An engine with both. -/
def sampleEngine : Engine := (Engine.addQuery [] ['n'] 0).addQuery ['e'] 1

/-- First come, first served. -/
def fifo (l : List (Nat × Nat)) : List (Nat × Nat) := l.dedup
/-- The other way round. -/
def backwards (l : List (Nat × Nat)) : List (Nat × Nat) := l.dedup.reverse

theorem fifo_schedule : Schedule fifo := fun l => ⟨List.nodup_dedup l, fun _ => List.mem_dedup⟩
theorem backwards_schedule : Schedule backwards := fun l =>
  ⟨List.nodup_reverse.2 (List.nodup_dedup l), fun _ => by simp [backwards]⟩

/-- The hypotheses of `C52_every_schedule_partial` hold of the sample. -/
example : (Dict.values sampleEngine).Nodup ∧
    (∀ k ∈ Dict.values sampleEngine, (sampleQueries k).Idle ∧ (sampleQueries k).Fits g10 100) ∧
    (∃ k ∈ Dict.values sampleEngine, visitedBy g10 (sampleQueries k) ≠ []) := by
  have e : Dict.values sampleEngine = [0, 1] := by decide +kernel
  rw [e]
  refine ⟨by decide, ?_, 0, by simp, by decide +kernel⟩
  intro k hk
  have : k = 0 ∨ k = 1 := by simpa using hk
  rcases this with rfl | rfl
  · exact ⟨⟨rfl, by intro c hc; simp [sampleQueries] at hc⟩, by decide +kernel, by decide +kernel⟩
  · exact ⟨⟨rfl, by intro c hc; simp [sampleQueries] at hc⟩, by decide +kernel, by decide +kernel⟩

/-- The order within a query does depend on the schedule. -/
theorem C52_order_refuted :
    (sampleEngine.execute g10 100 fifo sampleQueries []).1 = .ok [0, 1, 2, 9, 10, 3] ∧
    (sampleEngine.execute g10 100 backwards sampleQueries []).1 = .ok [10, 9, 2, 1, 0, 3] := by
  decide +kernel

/-- **C52, nothing visited.** If no query visits anything (for instance when there are no queries), the
engine raises `ValueError` instead of returning an empty list. -/
theorem C52_nothing_visited_refuted {E : Env} (R : Reach E h) {budget : Nat}
    (order : List (Nat × Nat) → List (Nat × Nat)) (e : Engine) (Q : Queries)
    (hd : (Dict.values e).Nodup)
    (hq : ∀ k ∈ Dict.values e, (Q k).coros = [] ∧ (Q k).Fits h budget ∧ visitedBy h (Q k) = []) :
    (e.execute h budget order Q []).1 = .error .valueError := by
  have pre := prefilterAll_run R (Dict.values e) Q [] hd (fun k hk => (hq k hk).2.1)
  have : (Dict.values e).flatMap (fun k =>
      (List.range (prefiltered h (Q k)).coros.length).map fun i => (k, i)) = [] := by
    rw [List.flatMap_eq_nil_iff]
    intro k hk
    obtain ⟨h1, _, h2⟩ := hq k hk
    simp [prefiltered, h1, h2]
  rw [this] at pre
  unfold Engine.execute
  rw [pre]
  rfl

/-- A query that starts at a value visits nothing (the traversal's filter leaves out values). -/
example : (Engine.execute [(['n'], 0)] g10 100 fifo
    (fun _ => { start := 8, prep := fun _ => .ok true, statement := fun _ => true }) []).1 =
    .error .valueError := by decide +kernel

/-- **C52, one query under two names.** The first name gets everything twice, the second nothing. -/
theorem C52_two_names_refuted :
    (Engine.execute ((Engine.addQuery [] ['n'] 0).addQuery ['m'] 0) g10 100 fifo sampleQueries []).1 =
      .ok [0, 1, 2, 9, 10, 0, 1, 2, 9, 10] := by
  decide +kernel

/-- **C52, after an aborted execution.** An execution that exhausts the stack leaves coroutines that
were never awaited and a filled traversal queue; the next one, with enough stack, returns elements
more than once. -/
theorem C52_aborted_refuted :
    let r := Engine.execute [(['n'], 0)] g10 3 fifo sampleQueries []
    r.1 = .error .recursionError ∧
    (Engine.execute [(['n'], 0)] g10 100 fifo r.2.1 r.2.2).1 = .ok [0, 1, 2, 0, 9, 1, 2, 9, 10, 10] := by
  decide +kernel

end Rei
