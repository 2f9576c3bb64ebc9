import Verif.Spec.QueryEdited
import Verif.Props.QueryEngine
import Verif.Props.NamesDepth

/-!
# C125: a query beside edits
-/
namespace Rei

variable {E : Env} {h : Heap}

/-- The tasks of the beats, each with the graph at its time. -/
def timed (E : Env) : Heap → List Beat → List ((Nat × Nat) × Heap)
  | _, [] => []
  | h, .call op :: bs => timed E (op.after E h) bs
  | h, .task t :: bs => (t, h) :: timed E h bs

theorem timed_fst (bs : List Beat) : ∀ h, (timed E h bs).map Prod.fst = beatTasks bs := by
  induction bs with
  | nil => intro h; rfl
  | cons b bs ih =>
    intro h
    cases b with
    | call op => exact ih _
    | task t => show t :: (timed E h bs).map Prod.fst = t :: beatTasks bs; rw [ih]

theorem mem_graphsDuring_self (ops : List Op) (h : Heap) : h ∈ graphsDuring E h ops := by
  cases ops <;> simp [graphsDuring]

theorem timed_snd (bs : List Beat) : ∀ h, ∀ p ∈ timed E h bs, p.2 ∈ graphsDuring E h (callsBetween bs) := by
  induction bs with
  | nil => intro h p hp; cases hp
  | cons b bs ih =>
    intro h p hp
    cases b with
    | call op => exact List.mem_cons_of_mem _ (ih _ p hp)
    | task t =>
      have e : callsBetween (.task t :: bs) = callsBetween bs := rfl
      rw [e]
      rcases List.mem_cons.1 hp with rfl | hp
      · exact mem_graphsDuring_self _ _
      · exact ih _ p hp

/-- One task of a query. -/
def LiveQuery.run (q : LiveQuery) (p : Nat × Heap) : LiveQuery := q.with ((q.at p.2).runTask p.1)

theorem runBeats_fst (bs : List Beat) : ∀ h (Q : LiveQueries), (runBeats E bs h Q).1 = afterCalls E h (callsBetween bs) := by
  induction bs with
  | nil => intro h Q; rfl
  | cons b bs ih =>
    intro h Q
    cases b with
    | call op => exact ih _ _
    | task t => exact ih _ _

theorem runBeats_apply (bs : List Beat) : ∀ h (Q : LiveQueries) (k : Nat),
    (runBeats E bs h Q).2 k =
      (((timed E h bs).filter fun p => decide (p.1.1 = k)).map fun p => (p.1.2, p.2)).foldl LiveQuery.run (Q k) := by
  induction bs with
  | nil => intro h Q k; rfl
  | cons b bs ih =>
    intro h Q k
    cases b with
    | call op => exact ih _ _ _
    | task t =>
      have e : runBeats E (.task t :: bs) h Q =
          runBeats E bs h (Function.update Q t.1 ((Q t.1).with (((Q t.1).at h).runTask t.2))) := rfl
      rw [e, ih]
      show _ = ((((t, h) :: timed E h bs).filter fun p => decide (p.1.1 = k)).map fun p => (p.1.2, p.2)).foldl LiveQuery.run (Q k)
      by_cases hk : t.1 = k
      · subst hk; simp [LiveQuery.run]
      · rw [Function.update_of_ne (fun e => hk e.symm)]; simp [hk]

theorem run_question (q : LiveQuery) (p : Nat × Heap) :
    (q.run p).start = q.start ∧ (q.run p).prep = q.prep ∧ (q.run p).statement = q.statement := ⟨rfl, rfl, rfl⟩

/-- All tasks of a query, each in its graph. -/
theorem runLive_eff (is : List (Nat × Heap)) : ∀ (q : LiveQuery), (is.map Prod.fst).Nodup →
    (is.foldl LiveQuery.run q).result = q.result ++ is.filterMap (fun p => q.coros[p.1]?.bind (yields (q.at p.2))) ∧
    ((is.foldl LiveQuery.run q).start = q.start ∧ (is.foldl LiveQuery.run q).prep = q.prep ∧
      (is.foldl LiveQuery.run q).statement = q.statement) ∧
    (is.foldl LiveQuery.run q).coros.length = q.coros.length ∧
    (∀ j, j ∉ is.map Prod.fst → (is.foldl LiveQuery.run q).coros[j]? = q.coros[j]?) ∧
    (∀ j ∈ is.map Prod.fst, ∀ c, (is.foldl LiveQuery.run q).coros[j]? = some c → c.awaited = true) := by
  induction is with
  | nil => intro q _; exact ⟨by simp, ⟨rfl, rfl, rfl⟩, rfl, by simp, by simp⟩
  | cons p is ih =>
    intro q hn
    rw [List.map_cons] at hn
    obtain ⟨hi, hn⟩ := List.nodup_cons.1 hn
    obtain ⟨a1, a2, a3, a4⟩ := runTask_eff (q.at p.2) p.1
    obtain ⟨b1, b2, b5, b6, b7⟩ := ih (q.run p) hn
    simp only [List.foldl_cons]
    refine ⟨?_, b2, b5.trans a3, ?_, ?_⟩
    · rw [b1]
      have r1 : (q.run p).result = q.result ++ (q.coros[p.1]?.bind (yields (q.at p.2))).toList := a1
      rw [r1]
      have e : is.filterMap (fun o => (q.run p).coros[o.1]?.bind (yields ((q.run p).at o.2))) =
          is.filterMap (fun o => q.coros[o.1]?.bind (yields (q.at o.2))) := by
        apply List.filterMap_congr
        intro o ho
        have : (q.run p).coros[o.1]? = q.coros[o.1]? := a2 o.1 (fun e => hi (e ▸ List.mem_map_of_mem ho))
        rw [this]
        rfl
      rw [e, List.filterMap_cons]
      cases q.coros[p.1]?.bind (yields (q.at p.2)) <;> simp
    · intro j hj
      simp only [List.map_cons, List.mem_cons, not_or] at hj
      rw [b6 j hj.2]
      exact a2 j hj.1
    · intro j hj c hc
      by_cases hji : j ∈ is.map Prod.fst
      · exact b7 j hji c hc
      · have : j = p.1 := by
          rw [List.map_cons, List.mem_cons] at hj
          exact hj.resolve_right hji
        subst this
        rw [b6 p.1 hji] at hc
        exact a4 c hc

/-- The graph of the task with a given number. -/
def graphOf (is : List (Nat × Heap)) (d : Heap) (i : Nat) : Heap := ((is.find? fun p => decide (p.1 = i)).map Prod.snd).getD d

theorem graphOf_mem {is : List (Nat × Heap)} (hn : (is.map Prod.fst).Nodup) (d : Heap) {p : Nat × Heap} (hp : p ∈ is) :
    graphOf is d p.1 = p.2 := by
  induction is with
  | nil => cases hp
  | cons a is ih =>
    rw [List.map_cons] at hn
    obtain ⟨hi, hn⟩ := List.nodup_cons.1 hn
    unfold graphOf
    rw [List.find?_cons]
    rcases List.mem_cons.1 hp with rfl | hp
    · simp
    · have ne : a.1 ≠ p.1 := fun e => hi (e ▸ List.mem_map_of_mem hp)
      simp only [ne, decide_false]
      exact ih hn hp

theorem filterMap_indices {l : List Ref} (f : Nat → Ref → Option Ref) (n : Nat) (pre : List Coro) (hp : pre.length = n)
    (hpre : ∀ c ∈ pre, c.awaited = true) (g : Nat → Coro → Option Ref) (hg : ∀ i c, c.awaited = true → g i c = none)
    (hf : ∀ i x, g i ⟨x, false⟩ = f i x) :
    (List.range (pre ++ l.map fun x => (⟨x, false⟩ : Coro)).length).filterMap
      (fun i => (pre ++ l.map fun x => (⟨x, false⟩ : Coro))[i]?.bind (g i)) =
    (l.zipIdx n).filterMap fun p => f p.2 p.1 := by
  rw [List.length_append, List.range_add, List.filterMap_append]
  have e1 : (List.range pre.length).filterMap
      (fun i => (pre ++ l.map fun x => (⟨x, false⟩ : Coro))[i]?.bind (g i)) = [] := by
    rw [List.filterMap_eq_nil_iff]
    intro i hi
    rw [List.mem_range] at hi
    rw [List.getElem?_append_left hi, List.getElem?_eq_getElem hi]
    exact hg i _ (hpre _ (List.getElem_mem hi))
  rw [e1, List.nil_append, List.filterMap_map, List.zipIdx_eq_zip_range', List.length_map]
  have e2 : (List.range l.length).filterMap ((fun i => (pre ++ l.map fun x => (⟨x, false⟩ : Coro))[i]?.bind (g i)) ∘
      (pre.length + ·)) = (List.range l.length).filterMap fun i => l[i]?.bind (f (n + i)) := by
    apply List.filterMap_congr
    intro i hi
    simp only [Function.comp]
    rw [List.getElem?_append_right (by omega), Nat.add_sub_cancel_left, List.getElem?_map, hp]
    cases l[i]? with
    | none => rfl
    | some x => exact hf _ x
  rw [e2]
  clear e1 e2 hp hpre
  induction l generalizing n with
  | nil => simp
  | cons x l ih =>
    rw [List.length_cons, List.range_succ_eq_map, List.filterMap_cons, List.filterMap_map, List.range'_succ, List.zip_cons_cons,
      List.filterMap_cons]
    have := ih (n + 1)
    have e : (List.range l.length).filterMap ((fun i => (x :: l)[i]?.bind (f (n + i))) ∘ Nat.succ) =
        (List.range l.length).filterMap fun i => l[i]?.bind (f (n + 1 + i)) := by
      apply List.filterMap_congr
      intro i _
      simp only [Function.comp, Nat.succ_eq_add_one, List.getElem?_cons_succ]
      rw [show n + (i + 1) = n + 1 + i from by omega]
    rw [e, this]
    simp

/-- The results and the state of one query after its tasks have run, in any order, each in its graph. -/
theorem one_live (R : Reach E h) {q : LiveQuery} (hs : q.start < h.size) (hid : (q.at h).Idle) {is : List (Nat × Heap)}
    (hn : (is.map Prod.fst).Nodup) (hm : ∀ i, i ∈ is.map Prod.fst ↔ i < (prefiltered h (q.at h)).coros.length) :
    ∃ W : Ref → Heap, (∀ x ∈ visitedBy h (q.at h), ∃ p ∈ is, p.2 = W x) ∧
      ((is.foldl LiveQuery.run (q.with (prefiltered h (q.at h)))).result).Perm (q.answer h W) ∧
      ((is.foldl LiveQuery.run (q.with (prefiltered h (q.at h)))).start = q.start ∧
        (is.foldl LiveQuery.run (q.with (prefiltered h (q.at h)))).prep = q.prep ∧
        (is.foldl LiveQuery.run (q.with (prefiltered h (q.at h)))).statement = q.statement) ∧
      ∀ c ∈ (is.foldl LiveQuery.run (q.with (prefiltered h (q.at h)))).coros, c.awaited = true := by
  obtain ⟨a1, a2, a3, _, a5⟩ := runLive_eff is (q.with (prefiltered h (q.at h))) hn
  set vs := visitedBy h (q.at h) with hvs
  have nd : vs.Nodup := C28_exactly_once R hs false _
  refine ⟨fun x => graphOf is h (q.coros.length + vs.idxOf x), ?_, ?_, a2, ?_⟩
  · intro x hx
    have k := List.idxOf_lt_length_of_mem hx
    have : q.coros.length + vs.idxOf x ∈ is.map Prod.fst := (hm _).2 (by
      simp only [prefiltered, List.length_append, List.length_map]
      rw [← hvs]
      show _ < q.coros.length + vs.length
      omega)
    obtain ⟨p, hp, e⟩ := List.mem_map.1 this
    refine ⟨p, hp, ?_⟩
    show p.2 = graphOf is h (q.coros.length + vs.idxOf x)
    rw [← e, graphOf_mem hn h hp]
  · rw [a1]
    have r0 : (q.with (prefiltered h (q.at h))).result = [] := hid.1
    rw [r0, List.nil_append]
    have c0 : (q.with (prefiltered h (q.at h))).coros = q.coros ++ vs.map fun x => ⟨x, false⟩ := rfl
    have e : is.filterMap (fun p => (q.with (prefiltered h (q.at h))).coros[p.1]?.bind
          (yields ((q.with (prefiltered h (q.at h))).at p.2))) =
        (is.map Prod.fst).filterMap fun i => (q.coros ++ vs.map fun x => (⟨x, false⟩ : Coro))[i]?.bind
          (yields (q.at (graphOf is h i))) := by
      rw [List.filterMap_map]
      apply List.filterMap_congr
      intro p hp
      simp only [Function.comp]
      rw [graphOf_mem hn h hp, c0]
      rfl
    rw [e]
    have p : (is.map Prod.fst).Perm (List.range (q.coros ++ vs.map fun x => (⟨x, false⟩ : Coro)).length) := by
      rw [List.perm_ext_iff_of_nodup hn List.nodup_range]
      intro i
      rw [hm, List.mem_range]
      rfl
    refine (p.filterMap _).trans (List.Perm.of_eq ?_)
    rw [filterMap_indices (f := fun i x => yields (q.at (graphOf is h i)) ⟨x, false⟩) q.coros.length q.coros rfl hid.2
      (fun i => yields (q.at (graphOf is h i))) (fun i c hc => by simp [yields, hc]) (fun _ _ => rfl)]
    unfold LiveQuery.answer
    rw [← hvs, ← List.filterMap_eq_filter]
    have k : ∀ (l : List Ref) (n : Nat) (F : Nat → Ref → Option Ref) (G : Ref → Option Ref),
        (∀ i x, l[i]? = some x → F (n + i) x = G x) → (l.zipIdx n).filterMap (fun p => F p.2 p.1) = l.filterMap G := by
      intro l
      induction l with
      | nil => intro n F G _; rfl
      | cons x l ih =>
        intro n F G hFG
        rw [List.zipIdx_cons, List.filterMap_cons, List.filterMap_cons]
        have := hFG 0 x rfl
        rw [Nat.add_zero] at this
        simp only [this]
        rw [ih (n + 1) F G (fun i y hy => by
          have := hFG (i + 1) y (by simpa using hy)
          rwa [show n + (i + 1) = n + 1 + i from by omega] at this)]
    refine k vs q.coros.length (fun i x => yields (q.at (graphOf is h i)) ⟨x, false⟩) _ ?_
    intro i x hx
    have hi : vs.idxOf x = i := by
      obtain ⟨hlt, rfl⟩ := List.getElem?_eq_some_iff.1 hx
      exact nd.idxOf_getElem i hlt
    simp only [yields, Bool.false_eq_true, if_false, hi, Option.guard]
    have : ∀ r : Except Err Bool, (match r with | .ok true => some x | _ => none) =
        if (match r with | .ok true => true | _ => false) = true then some x else none := by
      rintro (_ | _ | _) <;> rfl
    exact this _
  · intro c hc
    obtain ⟨j, hj, e⟩ := List.mem_iff_getElem.1 hc
    refine a5 j ((hm j).2 (a3 ▸ hj)) c ?_
    rw [List.getElem?_eq_getElem hj, e]

/-- **C125.** While an execution waits for its tasks, any calls of the rest of the program may come in between.  The execution
returns, query by query, the elements visited in the graph in which it began, as far as their predicates held when their tasks
ran: that of each element in one of the graphs in between.  Afterwards the engine is ready for the next execution, and the
graph is what the calls made of it. -/
theorem C125_beside (R : Reach E h) {budget : Nat} {beats : List (Nat × Nat) → List Beat} (hb : FairBeats beats)
    (e : Engine) (Q : LiveQueries) (hd : (Dict.values e).Nodup)
    (hq : ∀ k ∈ Dict.values e, ((Q k).at h).Idle ∧ ((Q k).at h).Fits h budget)
    (hv : ∃ k ∈ Dict.values e, visitedBy h ((Q k).at h) ≠ []) :
    ∃ (tasks : List (Nat × Nat)) (parts : List (List Ref)) (Q' : LiveQueries) (W : Nat → Ref → Heap),
      e.executeBeside E h budget beats Q [] = (.ok parts.flatten, afterCalls E h (callsBetween (beats tasks)), Q', []) ∧
      List.Forall₂ (fun k part => List.Perm part ((Q k).answer h (W k))) (Dict.values e) parts ∧
      (∀ k ∈ Dict.values e, ∀ x ∈ visitedBy h ((Q k).at h), W k x ∈ graphsDuring E h (callsBetween (beats tasks))) ∧
      (∀ k ∈ Dict.values e, (∀ h', ((Q' k).at h').Idle) ∧
        (Q' k).start = (Q k).start ∧ (Q' k).prep = (Q k).prep ∧ (Q' k).statement = (Q k).statement) ∧
      (∀ k, k ∉ Dict.values e → Q' k = Q k) := by
  generalize hks : Dict.values e = ks at hd hq hv ⊢
  have pre := prefilterAll_run R ks (fun k => (Q k).at h) [] hd (fun k hk => (hq k hk).2)
  generalize hts : ks.flatMap (fun k =>
    (List.range (prefiltered h ((Q k).at h)).coros.length).map fun i => (k, i)) = tasks at pre
  rw [List.nil_append] at pre
  obtain ⟨on, om⟩ := hb tasks
  have hmem : ∀ t, t ∈ tasks ↔ t.1 ∈ ks ∧ t.2 < (prefiltered h ((Q t.1).at h)).coros.length := by
    rintro ⟨k, i⟩
    rw [← hts]
    simp only [List.mem_flatMap, List.mem_map, List.mem_range, Prod.mk.injEq]
    constructor
    · rintro ⟨k', hk', i', hi', rfl, rfl⟩; exact ⟨hk', hi'⟩
    · rintro ⟨hk', hi'⟩; exact ⟨k, hk', i, hi', rfl, rfl⟩
  have hne : tasks ≠ [] := by
    obtain ⟨k, hk, hvk⟩ := hv
    intro e0
    have : (k, 0) ∈ tasks := (hmem _).2 ⟨hk, by
      have : 0 < (visitedBy h ((Q k).at h)).length := List.length_pos_iff.2 hvk
      simp [prefiltered]; omega⟩
    simp [e0] at this
  set Q1 : LiveQueries := fun k => (Q k).with (if k ∈ ks then prefiltered h ((Q k).at h) else (Q k).at h) with hQ1
  set Q2 := runBeats E (beats tasks) h Q1 with hQ2
  have exec : e.executeBeside E h budget beats Q [] =
      (.ok (ks.map fun k => (Q2.2 k).result).flatten, Q2.1,
        (fun k => if k ∈ ks then { Q2.2 k with result := [] } else Q2.2 k), []) := by
    unfold Engine.executeBeside
    rw [hks, pre]
    cases tasks with
    | nil => exact absurd rfl hne
    | cons t ts =>
      simp only
      rw [← hQ2, drain_run ks _ hd]
      refine Prod.ext rfl (Prod.ext rfl (Prod.ext ?_ rfl))
      funext k
      by_cases hk : k ∈ ks
      · simp [hk, LiveQuery.with, LiveQuery.at]
      · simp [hk, LiveQuery.with, LiveQuery.at]
  have sub : ∀ k, Q2.2 k = (((timed E h (beats tasks)).filter fun p => decide (p.1.1 = k)).map fun p => (p.1.2, p.2)).foldl
      LiveQuery.run (Q1 k) := fun k => runBeats_apply _ _ _ _
  have one : ∀ k ∈ ks, ∃ W : Ref → Heap,
      (∀ x ∈ visitedBy h ((Q k).at h), W x ∈ graphsDuring E h (callsBetween (beats tasks))) ∧
      List.Perm (Q2.2 k).result ((Q k).answer h W) ∧
      ((Q2.2 k).start = (Q k).start ∧ (Q2.2 k).prep = (Q k).prep ∧ (Q2.2 k).statement = (Q k).statement) ∧
      ∀ c ∈ (Q2.2 k).coros, c.awaited = true := by
    intro k hk
    rw [sub k]
    have : Q1 k = (Q k).with (prefiltered h ((Q k).at h)) := by simp [hQ1, hk]
    rw [this]
    have tm : ∀ t, t ∈ tasks ↔ ∃ p ∈ timed E h (beats tasks), p.1 = t := by
      intro t
      rw [← om, ← timed_fst (E := E) (beats tasks) h, List.mem_map]
    have nd : ((timed E h (beats tasks)).map Prod.fst).Nodup := by rw [timed_fst]; exact on
    obtain ⟨W, w1, w2, w3, w4⟩ := one_live (q := Q k) R (hq k hk).2.1 (hq k hk).1
      (is := ((timed E h (beats tasks)).filter fun p => decide (p.1.1 = k)).map fun p => (p.1.2, p.2)) (by
        rw [List.map_map]
        have nd' := (nd.of_map).filter (fun p => decide (p.1.1 = k))
        refine List.Nodup.map_on ?_ nd'
        rintro ⟨⟨a, i⟩, g⟩ ha ⟨⟨b, j⟩, g'⟩ hb' hij
        simp only [List.mem_filter, decide_eq_true_eq] at ha hb'
        simp only [Function.comp] at hij
        have : ((a, i) : Nat × Nat) = (b, j) := by rw [ha.2, hb'.2, hij]
        exact List.inj_on_of_nodup_map nd ha.1 hb'.1 this) (by
        intro i
        simp only [List.mem_map, List.mem_filter, decide_eq_true_eq]
        constructor
        · rintro ⟨⟨_, _⟩, ⟨⟨⟨a, j⟩, g⟩, ⟨h1, h2⟩, h3⟩, h4⟩
          simp only at h2 h3 h4
          cases h3
          subst h2 h4
          exact ((hmem _).1 ((tm _).2 ⟨_, h1, rfl⟩)).2
        · intro hi
          obtain ⟨p, hp, e⟩ := (tm (k, i)).1 ((hmem _).2 ⟨hk, hi⟩)
          exact ⟨(p.1.2, p.2), ⟨p, ⟨hp, by rw [e]⟩, rfl⟩, by rw [e]⟩)
    refine ⟨W, ?_, w2, w3, w4⟩
    intro x hx
    obtain ⟨p, hp, e⟩ := w1 x hx
    obtain ⟨p', hp', e'⟩ := List.mem_map.1 hp
    rw [← e, ← e']
    exact timed_snd _ _ _ (List.mem_filter.1 hp').1
  haveI : Nonempty Heap := ⟨h⟩
  choose! W W1 W2 W3 W4 using one
  refine ⟨tasks, ks.map fun k => (Q2.2 k).result, (fun k => if k ∈ ks then { Q2.2 k with result := [] } else Q2.2 k), W,
    ?_, ?_, W1, ?_, ?_⟩
  · rw [exec, hQ2, runBeats_fst]
  · have : ∀ l : List Nat, (∀ k ∈ l, k ∈ ks) →
        List.Forall₂ (fun k part => List.Perm part ((Q k).answer h (W k))) l
          (l.map fun k => (Q2.2 k).result) := by
      intro l
      induction l with
      | nil => intro _; exact .nil
      | cons k l ih =>
        intro hl
        exact .cons (W2 k (hl k (by simp))) (ih fun j hj => hl j (by simp [hj]))
    exact this ks fun _ hk => hk
  · intro k hk
    simp only [hk, if_true]
    exact ⟨fun h' => ⟨rfl, W4 k hk⟩, W3 k hk⟩
  · intro k hk
    have : (timed E h (beats tasks)).filter (fun p => decide (p.1.1 = k)) = [] := by
      rw [List.filter_eq_nil_iff]
      intro p hp
      simp only [decide_eq_true_eq]
      intro e'
      refine hk (e' ▸ ((hmem p.1).1 ((om p.1).1 ?_)).1)
      rw [← timed_fst (E := E) (beats tasks) h]
      exact List.mem_map_of_mem hp
    simp only [hk, if_false]
    rw [sub k, this]
    simp [hQ1, hk, LiveQuery.with, LiveQuery.at]

theorem later_during : ∀ (ops : List Op) {h0 h : Heap}, Later E h0 h → ValidCalls E h ops →
    ∀ g ∈ graphsDuring E h ops, Later E h0 g := by
  intro ops
  induction ops with
  | nil => intro h0 h l _ g hg; rw [graphsDuring, List.mem_singleton] at hg; exact hg ▸ l
  | cons op ops ih =>
    intro h0 h l v g hg
    rcases List.mem_cons.1 hg with rfl | hg
    · exact l
    · exact ih (.step op l v.1) v.2 g hg

/-- **C125, predicates on the identity.** If the predicates look only at the class, the name and the uuid of elements, the
execution returns the matches in the graph in which it began, whatever the rest of the program calls meanwhile: exactly what an
execution alone in that graph returns, query by query up to the order. -/
theorem C125_snapshot (R : Reach E h) {budget : Nat} {beats : List (Nat × Nat) → List Beat} (hb : FairBeats beats)
    (hc : ∀ tasks, ValidCalls E h (callsBetween (beats tasks)))
    (e : Engine) (Q : LiveQueries) (hd : (Dict.values e).Nodup)
    (hq : ∀ k ∈ Dict.values e, ((Q k).at h).Idle ∧ ((Q k).at h).Fits h budget)
    (hv : ∃ k ∈ Dict.values e, visitedBy h ((Q k).at h) ≠ [])
    (hi : ∀ k ∈ Dict.values e, (Q k).ByIdentity) :
    ∃ parts : List (List Ref), (e.executeBeside E h budget beats Q []).1 = .ok parts.flatten ∧
      List.Forall₂ (fun k part => List.Perm part (matchesOf h ((Q k).at h))) (Dict.values e) parts := by
  obtain ⟨tasks, parts, Q', W, a, b, c, _⟩ := C125_beside R hb e Q hd hq hv
  refine ⟨parts, by rw [a], ?_⟩
  have key : ∀ k ∈ Dict.values e, (Q k).answer h (W k) = matchesOf h ((Q k).at h) := by
    intro k hk
    unfold LiveQuery.answer matchesOf
    apply List.filter_congr
    intro x hx
    have hs := (hq k hk).2.1
    have hx' : x < h.size := by
      rcases (C28_complete R hs false x).1 hx with ⟨rfl, _⟩ | ⟨n, _, q⟩
      · exact hs
      · cases q with
        | start => exact hs
        | step _ hc' _ => exact R.good.inv.lt_of_parent ((C01_containment_agrees R _).1 _ |>.1 hc')
    obtain ⟨f, hf⟩ := hi k hk
    obtain ⟨_, i1, i2, _, i4⟩ := C18_identity_immutable (later_during _ (.refl h) (hc tasks) _ (c k hk x hx)) hx'
    have : (Q k).prep (W k x) x = ((Q k).at h).prep x := by
      show _ = (Q k).prep h x
      rw [hf, hf, i1, i2, i4]
    rw [this]
    rfl
  have : ∀ {l : List Nat} {ps : List (List Ref)}, (∀ k ∈ l, k ∈ Dict.values e) →
      List.Forall₂ (fun k part => List.Perm part ((Q k).answer h (W k))) l ps →
      List.Forall₂ (fun k part => List.Perm part (matchesOf h ((Q k).at h))) l ps := by
    intro l ps hl H
    induction H with
    | nil => exact .nil
    | @cons k _ _ _ p _ ih =>
      exact .cons (key k (hl k (by simp)) ▸ p) (ih fun j hj => hl j (by simp [hj]))
  exact this (fun _ hk => hk) b

theorem prefilterAll_same {budget : Nat} (ks : List Nat) : ∀ (P : Queries) (sh : Fringe) (ts : List (Nat × Nat)) (k : Nat),
    ((prefilterAll h budget ks P sh ts).2.1 k).SameQuestion (P k) := by
  induction ks with
  | nil => intro P sh ts k; exact ⟨rfl, rfl, rfl⟩
  | cons j ks ih =>
    intro P sh ts k
    have one : (Function.update P j ((P j).prefilter h budget sh).2.1 k).SameQuestion (P k) := by
      by_cases e : k = j
      · subst e; rw [Function.update_self]; exact ⟨rfl, rfl, rfl⟩
      · rw [Function.update_of_ne e]; exact ⟨rfl, rfl, rfl⟩
    unfold prefilterAll
    dsimp only
    split
    · exact one
    · obtain ⟨a, b, c⟩ := ih (Function.update P j ((P j).prefilter h budget sh).2.1) ((P j).prefilter h budget sh).2.2
        (ts ++ (List.range ((P j).prefilter h budget sh).2.1.coros.length).map fun i => (j, i)) k
      exact ⟨a.trans one.1, b.trans one.2.1, c.trans one.2.2⟩

theorem with_at {q : LiveQuery} {p : PrepQuery} (s : p.SameQuestion (q.at h)) : (q.with p).at h = p := by
  obtain ⟨a, b, c⟩ := s
  cases p
  subst a b c
  rfl

theorem runBeats_tasks (Q : LiveQueries) (l : List (Nat × Nat)) : ∀ P : Queries, (∀ k, (P k).SameQuestion ((Q k).at h)) →
    runBeats E (l.map .task) h (fun k => (Q k).with (P k)) = (h, fun k => (Q k).with (runTasks l P k)) ∧
    ∀ k, (runTasks l P k).SameQuestion ((Q k).at h) := by
  induction l with
  | nil => intro P hP; exact ⟨rfl, hP⟩
  | cons t l ih =>
    intro P hP
    have hP' : ∀ k, (Function.update P t.1 ((P t.1).runTask t.2) k).SameQuestion ((Q k).at h) := by
      intro k
      by_cases e : k = t.1
      · subst e
        rw [Function.update_self]
        obtain ⟨a, b, c⟩ := runTask_same (P t.1) t.2
        exact ⟨a.trans (hP t.1).1, b.trans (hP t.1).2.1, c.trans (hP t.1).2.2⟩
      · rw [Function.update_of_ne e]; exact hP k
    have e : Function.update (fun k => (Q k).with (P k)) t.1
        (((Q t.1).with (P t.1)).with ((((Q t.1).with (P t.1)).at h).runTask t.2)) =
        fun k => (Q k).with (Function.update P t.1 ((P t.1).runTask t.2) k) := by
      funext k
      by_cases e : k = t.1
      · subst e
        rw [Function.update_self, Function.update_self, with_at (hP t.1)]
        rfl
      · rw [Function.update_of_ne e, Function.update_of_ne e]
    show runBeats E (l.map .task) h (Function.update (fun k => (Q k).with (P k)) t.1
        (((Q t.1).with (P t.1)).with ((((Q t.1).with (P t.1)).at h).runTask t.2))) = _ ∧ _
    rw [e]
    exact ih _ hP'

/-- **C125, nothing in between.** If the rest of the program calls nothing meanwhile, the outcome is that of an execution alone
(C52), for every schedule, stack and state of the queries. -/
theorem C125_alone {budget : Nat} (order : List (Nat × Nat) → List (Nat × Nat)) (e : Engine) (Q : LiveQueries) (shared : Fringe) :
    (e.executeBeside E h budget (fun ts => (order ts).map .task) Q shared).1 =
      (e.execute h budget order (fun k => (Q k).at h) shared).1 := by
  have same := prefilterAll_same (h := h) (budget := budget) (Dict.values e) (fun k => (Q k).at h) shared []
  unfold Engine.executeBeside Engine.execute
  revert same
  generalize prefilterAll h budget (Dict.values e) (fun k => (Q k).at h) shared [] = r
  obtain ⟨o, P, sh⟩ := r
  intro same
  match o with
  | .error _ => rfl
  | .ok [] => rfl
  | .ok (t :: ts) =>
    obtain ⟨a, b⟩ := runBeats_tasks (E := E) Q (order (t :: ts)) P same
    simp only [a]
    have : (fun k => ((Q k).with (runTasks (order (t :: ts)) P k)).at h) = runTasks (order (t :: ts)) P :=
      funext fun k => with_at (b k)
    rw [this]

/-! ## A concrete case -/

open Sample

/-- All nodes below the root; and the elements below the root that have a container. -/
def liveQueries : LiveQueries := fun k =>
  if k = 0 then { start := 0, prep := fun h x => .ok (decide ((h.get x).kind = .node)), statement := fun _ _ => true }
  else { start := 0, prep := fun h x => .ok (h.get x).parent.isSome, statement := fun _ _ => true }

/-- First the node 9 (which contains the node 10) is removed and a node is added, then the tasks run. -/
def editsFirst (l : List (Nat × Nat)) : List Beat :=
  [.call (.remove 0 [] (some ((g10.get 9).uuid)) none), .call (mkNode ['n'] 60 (some 0))] ++ l.dedup.map .task

theorem editsFirst_fair : FairBeats editsFirst := by
  intro l
  have e : beatTasks (editsFirst l) = l.dedup := by
    show beatTasks (l.dedup.map .task) = l.dedup
    induction l.dedup with
    | nil => rfl
    | cons t l ih => show t :: beatTasks (l.map .task) = _; rw [ih]
  rw [e]
  exact ⟨List.nodup_dedup l, fun _ => List.mem_dedup⟩

theorem editsFirst_calls (l : List (Nat × Nat)) : callsBetween (editsFirst l) =
    [.remove 0 [] (some ((g10.get 9).uuid)) none, mkNode ['n'] 60 (some 0)] := by
  have : ∀ l : List (Nat × Nat), callsBetween (l.map .task) = [] := by
    intro l
    induction l with
    | nil => rfl
    | cons t l ih => exact ih
  show _ :: _ :: callsBetween (l.dedup.map .task) = _
  rw [this]

/-- The hypotheses of `C125_beside` and `C125_snapshot` (the latter for the first query) hold of the sample. -/
example : FairBeats editsFirst ∧ (∀ tasks, ValidCalls E0 g10 (callsBetween (editsFirst tasks))) ∧
    (∀ k ∈ [0, 1], ((liveQueries k).at g10).Idle ∧ ((liveQueries k).at g10).Fits g10 100 ∧
      visitedBy g10 ((liveQueries k).at g10) ≠ []) ∧ (liveQueries 0).ByIdentity := by
  refine ⟨editsFirst_fair, ?_, ?_, ⟨fun k _ _ => .ok (decide (k = .node)), fun _ _ => rfl⟩⟩
  · intro l
    rw [editsFirst_calls]
    exact ⟨by show 0 < g10.size; decide +kernel, ⟨rfl, okSome (by decide +kernel)⟩, trivial⟩
  · intro k hk
    have : k = 0 ∨ k = 1 := by simpa using hk
    rcases this with rfl | rfl
    · exact ⟨⟨rfl, by intro c hc; cases hc⟩, ⟨by decide +kernel, by decide +kernel⟩, by decide +kernel⟩
    · exact ⟨⟨rfl, by intro c hc; cases hc⟩, ⟨by decide +kernel, by decide +kernel⟩, by decide +kernel⟩

/-- **C125, a case.** The first query still returns the node 9 that has been removed and its content 10, and not the new node;
the predicate of the second looks at the graph after the removal, so that 9 is missing. -/
theorem C125_case :
    (Engine.executeBeside [(['n'], 0)] E0 g10 100 editsFirst liveQueries []).1 = .ok [0, 1, 2, 9, 10] ∧
    (Engine.executeBeside [(['m'], 1)] E0 g10 100 editsFirst liveQueries []).1 = .ok [1, 2, 3, 4, 6, 10] := by
  decide +kernel

/-- **C125, not the current graph.** When an execution returns, its results need not be the matches in the graph of that
moment. -/
theorem C125_current_refuted : ∃ (E : Env) (h : Heap) (beats : List (Nat × Nat) → List Beat) (e : Engine) (Q : LiveQueries),
    Reach E h ∧ FairBeats beats ∧ (∀ k ∈ Dict.values e, (Q k).ByIdentity) ∧
    ∃ r, (e.executeBeside E h 100 beats Q []).1 = .ok r ∧
      ¬ r.Perm ((Dict.values e).flatMap fun k =>
        matchesOf (e.executeBeside E h 100 beats Q []).2.1 ((Q k).at (e.executeBeside E h 100 beats Q []).2.1)) := by
  refine ⟨E0, g10, editsFirst, [(['n'], 0)], liveQueries, reach10, editsFirst_fair, ?_, _, C125_case.1, ?_⟩
  · intro k hk
    have : k = 0 := by simpa [Dict.values] using hk
    subst this
    exact ⟨fun k _ _ => .ok (decide (k = .node)), fun _ _ => rfl⟩
  · intro p
    have := p.length_eq
    revert this
    decide +kernel

end Rei
