import Verif.Spec.QueryConcurrent
import Verif.Props.QueryEngine
import Mathlib.Algebra.BigOperators.Group.Finset.Basic
import Mathlib.Algebra.BigOperators.Group.Finset.Piecewise
import Mathlib.Algebra.BigOperators.Group.List.Basic

/-!
# C101: concurrent executions of query engines
-/
namespace Rei

section
variable {h : Heap}

/-- The predicate of `q` holds of `x`. -/
def PrepQuery.holds (q : PrepQuery) (x : Ref) : Bool := match q.prep x with
  | .ok true => true
  | _ => false

theorem matchesOf_eq (q : PrepQuery) : matchesOf h q = (visitedBy h q).filter q.holds := rfl

/-- How often `x` is in the results of `q`, or will be when the tasks have run. -/
def pot (x : Ref) (q : PrepQuery) : Nat :=
  q.result.count x + q.coros.countP fun c => !c.awaited && decide (c.elem = x) && q.holds c.elem

theorem PrepQuery.SameQuestion.holds {q r : PrepQuery} (s : q.SameQuestion r) : q.holds = r.holds := by
  funext x; unfold PrepQuery.holds; rw [s.2.1]

theorem PrepQuery.SameQuestion.visited {q r : PrepQuery} (s : q.SameQuestion r) : visitedBy h q = visitedBy h r := by
  unfold visitedBy; rw [s.1, s.2.2]

theorem PrepQuery.SameQuestion.matched {q r : PrepQuery} (s : q.SameQuestion r) : matchesOf h q = matchesOf h r := by
  rw [matchesOf_eq, matchesOf_eq, s.visited, s.holds]

theorem PrepQuery.SameQuestion.trans {q r s : PrepQuery} (a : q.SameQuestion r) (b : r.SameQuestion s) : q.SameQuestion s :=
  ⟨a.1.trans b.1, a.2.1.trans b.2.1, a.2.2.trans b.2.2⟩

theorem pot_idle {q : PrepQuery} (i : q.Idle) (x : Ref) : pot x q = 0 := by
  unfold pot
  rw [i.1, List.count_nil, Nat.zero_add, List.countP_eq_zero]
  intro c hc
  simp [i.2 c hc]

theorem pot_prefiltered (q : PrepQuery) (x : Ref) : pot x (prefiltered h q) = pot x q + (matchesOf h q).count x := by
  have hh : (prefiltered h q).holds = q.holds := rfl
  unfold pot
  rw [hh]
  show q.result.count x + (q.coros ++ (visitedBy h q).map fun x => (⟨x, false⟩ : Coro)).countP _ = _
  rw [List.countP_append, List.countP_map, ← Nat.add_assoc]
  congr 1
  rw [matchesOf_eq, List.count, List.countP_filter]
  apply List.countP_congr
  intro y _
  simp [Function.comp, beq_iff_eq]

theorem pot_runTask (q : PrepQuery) (i : Nat) (x : Ref) : pot x (q.runTask i) = pot x q := by
  cases hc : q.coros[i]? with
  | none =>
    have e : q.runTask i = q := by unfold PrepQuery.runTask; rw [hc]
    rw [e]
  | some c =>
    cases ha : c.awaited with
    | true =>
      have e : q.runTask i = q := by unfold PrepQuery.runTask; rw [hc]; simp [ha]
      rw [e]
    | false =>
      obtain ⟨hlt, hg⟩ := List.getElem?_eq_some_iff.1 hc
      have key : ∀ p : Coro → Bool, p { c with awaited := true } = false →
          (q.coros.set i { c with awaited := true }).countP p + (if p c then 1 else 0) = q.coros.countP p := by
        intro p hp
        rw [List.countP_set hlt, hg, hp]
        have : p c = true → 0 < q.coros.countP p := fun h => List.countP_pos_iff.2 ⟨c, List.mem_of_getElem? hc, h⟩
        split <;> simp_all
      unfold PrepQuery.runTask
      rw [hc]
      simp only [ha, Bool.false_eq_true, if_false]
      have k := key (fun c => !c.awaited && decide (c.elem = x) && q.holds c.elem) (by simp)
      simp only [ha, Bool.not_false, Bool.true_and, Bool.and_eq_true, decide_eq_true_eq] at k
      split
      · rename_i hp
        have hh : q.holds c.elem = true := by unfold PrepQuery.holds; rw [hp]
        unfold pot
        show (q.result ++ [c.elem]).count x + (q.coros.set i _).countP (fun c => !c.awaited && decide (c.elem = x) && q.holds c.elem) = _
        rw [hh] at k
        rw [List.count_append, List.count_singleton]
        simp only [and_true] at k
        by_cases e : c.elem = x
        · simp [e] at k ⊢; omega
        · simp [e] at k ⊢; omega
      · rename_i hp
        have hh : q.holds c.elem = false := by
          unfold PrepQuery.holds
          split
          · rename_i e; exact absurd e hp
          · rfl
        unfold pot
        show q.result.count x + (q.coros.set i _).countP (fun c => !c.awaited && decide (c.elem = x) && q.holds c.elem) = _
        rw [hh] at k
        simp only [Bool.false_eq_true, and_false, if_false, Nat.add_zero] at k
        rw [k]

theorem sum_set {α : Type} (f : α → Nat) : ∀ (l : List α) (i : Nat) (a b : α), l[i]? = some a →
    ((l.set i b).map f).sum + f a = (l.map f).sum + f b
  | [], i, a, b, e => by simp at e
  | c :: l, 0, a, b, e => by simp at e; subst e; simp; omega
  | c :: l, i + 1, a, b, e => by
    have := sum_set f l i a b (by simpa using e)
    rw [List.set_cons_succ, List.map_cons, List.map_cons, List.sum_cons, List.sum_cons]
    omega

/-- A sum over the queries of an engine, as one over all queries. -/
theorem sum_values (K : Finset Nat) {ks : List Nat} (nd : ks.Nodup) (sub : ∀ k ∈ ks, k ∈ K) (f : Nat → Nat) :
    (∑ k ∈ K, if k ∈ ks then f k else 0) = (ks.map f).sum := by
  rw [← List.sum_toFinset f nd, ← Finset.sum_filter]
  apply Finset.sum_congr _ fun _ _ => rfl
  ext k
  simp only [Finset.mem_filter, List.mem_toFinset]
  exact ⟨fun a => a.2, fun a => ⟨sub k a, a⟩⟩

/-! ## The invariant -/

/-- The queries in use. -/
def Executions.used (S : Executions) : Finset Nat := (S.runs.flatMap fun r => Dict.values r.1).toFinset

theorem mem_used {S : Executions} {k : Nat} : k ∈ S.used ↔ ∃ r ∈ S.runs, k ∈ Dict.values r.1 := by
  simp [Executions.used]

/-- How often `x` is in what an execution has returned. -/
def gave (x : Ref) (r : Engine × Execution) : Nat := match r.2 with
  | .returned (.ok l) => l.count x
  | _ => 0

/-- How often `x` is to be returned because of an execution that has begun. -/
def due (h : Heap) (Q : Queries) (x : Ref) (r : Engine × Execution) : Nat := match r.2 with
  | .fresh => 0
  | _ => ((Dict.values r.1).map fun k => (matchesOf h (Q k)).count x).sum

structure CInv (h : Heap) (S0 S : Executions) : Prop where
  shared : S.shared = []
  engines : S.runs.map Prod.fst = S0.runs.map Prod.fst
  same : ∀ k, (S.queries k).SameQuestion (S0.queries k)
  result : ∀ k ∈ S0.used, ∀ x ∈ (S.queries k).result, x ∈ matchesOf h (S0.queries k)
  coros : ∀ k ∈ S0.used, ∀ c ∈ (S.queries k).coros, c.awaited = false → c.elem ∈ visitedBy h (S0.queries k)
  pending : ∀ k ∈ S0.used, ∀ (n : Nat) c, (S.queries k).coros[n]? = some c → c.awaited = false →
    ∃ (i : Nat) (e : Engine) (todo : List (Nat × Nat)), S.runs[i]? = some (e, .waiting todo) ∧ (k, n) ∈ todo ∧ k ∈ Dict.values e
  queued : ∀ k ∈ S0.used, (S.queries k).result ≠ [] →
    ∃ (i : Nat) (e : Engine) (todo : List (Nat × Nat)), S.runs[i]? = some (e, .waiting todo) ∧ k ∈ Dict.values e
  todo : ∀ (i : Nat) (e : Engine) (todo : List (Nat × Nat)), S.runs[i]? = some (e, .waiting todo) →
    ∀ t ∈ todo, t.1 ∈ Dict.values e
  balance : ∀ x, (S.runs.map (gave x)).sum + ∑ k ∈ S0.used, pot x (S.queries k) = (S.runs.map (due h S0.queries x)).sum
  sound : ∀ r ∈ S.runs, ∀ o, r.2 = .returned o → ∃ l, o = .ok l ∧
    ∀ x ∈ l, ∃ k ∈ Dict.values r.1, x ∈ matchesOf h (S0.queries k)

theorem CInv.engine {S0 S : Executions} (I : CInv h S0 S) {i : Nat} {e : Engine} {st : Execution}
    (q : S.runs[i]? = some (e, st)) : ∃ st0, S0.runs[i]? = some (e, st0) ∧ (e, st0) ∈ S0.runs := by
  have := congrArg (fun l => l[i]?) I.engines
  simp only [List.getElem?_map, q, Option.map_some] at this
  cases k : S0.runs[i]? with
  | none => rw [k] at this; simp at this
  | some r =>
    rw [k] at this
    simp at this
    obtain ⟨e', st0⟩ := r
    simp at this
    subst this
    exact ⟨st0, rfl, List.mem_of_getElem? k⟩

theorem CInv.init {budget : Nat} {S : Executions} (R : S.Ready h budget) : CInv h S S where
  shared := R.shared
  engines := rfl
  same _ := ⟨rfl, rfl, rfl⟩
  result k hk x hx := by
    obtain ⟨r, hr, m⟩ := mem_used.1 hk
    rw [(R.idle r hr k m).1.1] at hx
    cases hx
  coros k hk c hc a := by
    obtain ⟨r, hr, m⟩ := mem_used.1 hk
    rw [(R.idle r hr k m).1.2 c hc] at a
    cases a
  pending k hk n c hc a := by
    obtain ⟨r, hr, m⟩ := mem_used.1 hk
    rw [(R.idle r hr k m).1.2 c (List.mem_of_getElem? hc)] at a
    cases a
  queued k hk q := by
    obtain ⟨r, hr, m⟩ := mem_used.1 hk
    exact absurd (R.idle r hr k m).1.1 q
  todo i e todo q := by
    have := R.fresh _ (List.mem_of_getElem? q)
    cases this
  balance x := by
    have a : ∀ r ∈ S.runs, gave x r = 0 := fun r hr => by unfold gave; rw [R.fresh r hr]
    have b : ∀ r ∈ S.runs, due h S.queries x r = 0 := fun r hr => by unfold due; rw [R.fresh r hr]
    rw [List.map_congr_left a, List.map_congr_left b, Finset.sum_eq_zero, Nat.add_zero]
    intro k hk
    obtain ⟨r, hr, m⟩ := mem_used.1 hk
    exact pot_idle (R.idle r hr k m).1 x
  sound r hr o e := by
    rw [R.fresh r hr] at e
    cases e

theorem getElem?_set_cases {α : Type} {l : List α} {i j : Nat} {a b : α} (q : (l.set i a)[j]? = some b) :
    (j = i ∧ b = a) ∨ (j ≠ i ∧ l[j]? = some b) := by
  rw [List.getElem?_set] at q
  split at q
  · split at q
    · cases q; exact .inl ⟨by omega, rfl⟩
    · cases q
  · exact .inr ⟨by omega, q⟩

theorem set_fst {l : List (Engine × Execution)} {i : Nat} {e : Engine} {st st' : Execution} (q : l[i]? = some (e, st)) :
    (l.set i (e, st')).map Prod.fst = l.map Prod.fst := by
  rw [List.map_set]
  apply List.ext_getElem? 
  intro j
  rw [List.getElem?_set]
  split
  · subst_vars
    rw [List.getElem?_map, q]
    simp [(List.getElem?_eq_some_iff.1 q).1]
  · rfl

/-- How an execution starts. -/
theorem start_run {E : Env} (R : Reach E h) {budget : Nat} {S0 S : Executions} (D : S0.Ready h budget) (I : CInv h S0 S)
    {i : Nat} {e : Engine} (q : S.runs[i]? = some (e, .fresh)) : ∃ tasks,
      (Turn.start i).exec h budget S =
        ⟨fun k => if k ∈ Dict.values e then prefiltered h (S.queries k) else S.queries k, [], S.runs.set i (e, .waiting tasks)⟩ ∧
      ∀ t, t ∈ tasks ↔ t.1 ∈ Dict.values e ∧ t.2 < (prefiltered h (S.queries t.1)).coros.length := by
  obtain ⟨st0, q0, m0⟩ := I.engine q
  have nd := D.distinct _ m0
  have fit : ∀ k ∈ Dict.values e, (S.queries k).Fits h budget := fun k hk => by
    have := (D.idle _ m0 k hk).2
    exact ⟨by rw [(I.same k).1]; exact this.1, by rw [(I.same k).visited]; exact this.2⟩
  have pre := prefilterAll_run R (Dict.values e) S.queries [] nd fit
  rw [List.nil_append] at pre
  generalize hts : (Dict.values e).flatMap (fun k =>
    (List.range (prefiltered h (S.queries k)).coros.length).map fun i => (k, i)) = tasks at pre
  have hmem : ∀ t, t ∈ tasks ↔ t.1 ∈ Dict.values e ∧ t.2 < (prefiltered h (S.queries t.1)).coros.length := by
    rintro ⟨k, i⟩
    rw [← hts]
    simp only [List.mem_flatMap, List.mem_map, List.mem_range, Prod.mk.injEq]
    constructor
    · rintro ⟨k', hk', i', hi', rfl, rfl⟩; exact ⟨hk', hi'⟩
    · rintro ⟨hk', hi'⟩; exact ⟨k, hk', i, hi', rfl, rfl⟩
  have hne : tasks ≠ [] := by
    obtain ⟨k, hk, hv⟩ := D.visits _ m0
    rw [← (I.same k).visited] at hv
    intro e0
    have : (k, 0) ∈ tasks := (hmem _).2 ⟨hk, by
      have : 0 < (visitedBy h (S.queries k)).length := List.length_pos_iff.2 hv
      simp [prefiltered]; omega⟩
    simp [e0] at this
  refine ⟨tasks, ?_, hmem⟩
  rw [Turn.exec]
  rw [q]
  simp only
  rw [I.shared, pre]
  cases tasks with
  | nil => exact absurd rfl hne
  | cons t ts => rfl

theorem prefiltered_same (q : PrepQuery) : (prefiltered h q).SameQuestion q := ⟨rfl, rfl, rfl⟩

theorem CInv.start {E : Env} (R : Reach E h) {budget : Nat} {S0 S : Executions} (D : S0.Ready h budget) (I : CInv h S0 S)
    (i : Nat) : CInv h S0 ((Turn.start i).exec h budget S) := by
  have idle : (∀ e, S.runs[i]? ≠ some (e, .fresh)) → (Turn.start i).exec h budget S = S := by
    intro k
    rw [Turn.exec]
    split
    · rename_i e q; exact absurd q (k e)
    · rfl
  by_cases q : ∃ e, S.runs[i]? = some (e, .fresh)
  swap
  · rw [idle fun e k => q ⟨e, k⟩]; exact I
  obtain ⟨e, q⟩ := q
  obtain ⟨tasks, ex, hmem⟩ := start_run R D I q
  obtain ⟨st0, q0, m0⟩ := I.engine q
  have nd := D.distinct _ m0
  have sub : ∀ k ∈ Dict.values e, k ∈ S0.used := fun k hk => mem_used.2 ⟨_, m0, hk⟩
  rw [ex]
  have lt := (List.getElem?_eq_some_iff.1 q).1
  have ne : ∀ {j : Nat} {e' : Engine} {todo : List (Nat × Nat)}, S.runs[j]? = some (e', .waiting todo) → i ≠ j := by
    rintro j e' todo k rfl
    rw [q] at k; cases k
  have me : (S.runs.set i (e, .waiting tasks))[i]? = some (e, .waiting tasks) := by
    rw [List.getElem?_set, if_pos rfl, if_pos lt]
  refine ⟨rfl, (set_fst q).trans I.engines, fun k => ?_, fun k hk x hx => ?_, fun k hk c hc a => ?_, fun k hk n c hc a => ?_,
    fun k hk hr => ?_, fun j e' todo k => ?_, fun x => ?_, fun r hr o eo => ?_⟩
  · dsimp only
    split
    · exact (prefiltered_same _).trans (I.same k)
    · exact I.same k
  · dsimp only at hx
    have : x ∈ (S.queries k).result := by
      split at hx
      · exact hx
      · exact hx
    exact I.result k hk x this
  · dsimp only at hc
    split at hc
    · have : c ∈ (S.queries k).coros ++ (visitedBy h (S.queries k)).map fun x => (⟨x, false⟩ : Coro) := hc
      rcases List.mem_append.1 this with m | m
      · exact I.coros k hk c m a
      · obtain ⟨y, hy, rfl⟩ := List.mem_map.1 m
        rw [← (I.same k).visited]; exact hy
    · exact I.coros k hk c hc a
  · dsimp only at hc ⊢
    split at hc
    · rename_i hv
      exact ⟨i, e, tasks, me, (hmem _).2 ⟨hv, (List.getElem?_eq_some_iff.1 hc).1⟩, hv⟩
    · obtain ⟨j, e', todo, a1, a2, a3⟩ := I.pending k hk n c hc a
      exact ⟨j, e', todo, by rw [List.getElem?_set_ne (ne a1)]; exact a1, a2, a3⟩
  · dsimp only at hr ⊢
    have : (S.queries k).result ≠ [] := by
      split at hr
      · exact hr
      · exact hr
    obtain ⟨j, e', todo, a1, a2⟩ := I.queued k hk this
    exact ⟨j, e', todo, by rw [List.getElem?_set_ne (ne a1)]; exact a1, a2⟩
  · rcases getElem?_set_cases k with ⟨rfl, a⟩ | ⟨a, b⟩
    · cases a
      exact fun t ht => ((hmem t).1 ht).1
    · exact I.todo j e' todo b
  · have B := I.balance x
    have g := sum_set (gave x) S.runs i _ (e, .waiting tasks) q
    have d := sum_set (due h S0.queries x) S.runs i _ (e, .waiting tasks) q
    have g0 : gave x (e, .fresh) = 0 := rfl
    have g1 : gave x (e, .waiting tasks) = 0 := rfl
    have d0 : due h S0.queries x (e, .fresh) = 0 := rfl
    have d1 : due h S0.queries x (e, .waiting tasks) = ((Dict.values e).map fun k => (matchesOf h (S0.queries k)).count x).sum := rfl
    have p : ∑ k ∈ S0.used, pot x (if k ∈ Dict.values e then prefiltered h (S.queries k) else S.queries k) =
        (∑ k ∈ S0.used, pot x (S.queries k)) + ((Dict.values e).map fun k => (matchesOf h (S0.queries k)).count x).sum := by
      rw [← sum_values S0.used nd sub, ← Finset.sum_add_distrib]
      apply Finset.sum_congr rfl
      intro k _
      split
      · rw [pot_prefiltered, (I.same k).matched]
      · rfl
    dsimp only
    rw [p]
    omega
  · obtain ⟨j, hj⟩ := List.mem_iff_getElem?.1 hr
    rcases getElem?_set_cases hj with ⟨rfl, rfl⟩ | ⟨a, b⟩
    · cases eo
    · exact I.sound r (List.mem_of_getElem? b) o eo

theorem task_run {budget : Nat} {S : Executions} {i : Nat} {t : Nat × Nat} :
    (Turn.task i t).exec h budget S = S ∨ ∃ e todo, S.runs[i]? = some (e, .waiting todo) ∧ t ∈ todo ∧
      (Turn.task i t).exec h budget S = ⟨Function.update S.queries t.1 ((S.queries t.1).runTask t.2), S.shared,
          S.runs.set i (e, .waiting (todo.filter fun u => decide (u ≠ t)))⟩ := by
  rw [Turn.exec]
  split
  · rename_i e todo q
    split
    · rename_i m
      exact .inr ⟨e, todo, q, m, rfl⟩
    · exact .inl rfl
  · exact .inl rfl

theorem CInv.task {budget : Nat} {S0 S : Executions} (I : CInv h S0 S)
    (i : Nat) (t : Nat × Nat) : CInv h S0 ((Turn.task i t).exec h budget S) := by
  rcases task_run (h := h) (budget := budget) (S := S) (i := i) (t := t) with k | ⟨e, todo, q, m, ex⟩
  · rw [k]; exact I
  rw [ex]
  have lt := (List.getElem?_eq_some_iff.1 q).1
  obtain ⟨n, c⟩ := t
  obtain ⟨a1, a2, a3, a4⟩ := runTask_eff (S.queries n) c
  have sm := runTask_same (S.queries n) c
  have me : (S.runs.set i (e, .waiting (todo.filter fun u => decide (u ≠ (n, c)))))[i]? =
      some (e, .waiting (todo.filter fun u => decide (u ≠ (n, c)))) := by
    rw [List.getElem?_set, if_pos rfl, if_pos lt]
  have hn := I.todo i e todo q _ m
  have keep : ∀ {k : Nat} {P : Prop} , (∃ (j : Nat) (e' : Engine) (td : List (Nat × Nat)), S.runs[j]? = some (e', .waiting td) ∧ k ∈ Dict.values e') →
      ∃ (j : Nat) (e' : Engine) (td : List (Nat × Nat)), (S.runs.set i (e, .waiting (todo.filter fun u => decide (u ≠ (n, c)))))[j]? =
        some (e', .waiting td) ∧ k ∈ Dict.values e' := by
    rintro k _ ⟨j, e', td, b1, b2⟩
    by_cases ji : j = i
    · subst ji
      rw [q] at b1; cases b1
      exact ⟨j, e, _, me, b2⟩
    · exact ⟨j, e', td, by rw [List.getElem?_set_ne (Ne.symm ji)]; exact b1, b2⟩
  refine ⟨I.shared, (set_fst q).trans I.engines, fun k => ?_, fun k hk x hx => ?_, fun k hk d hd a => ?_, fun k hk w d hd a => ?_,
    fun k hk hr => ?_, fun j e' td k => ?_, fun x => ?_, fun r hr o eo => ?_⟩
  · dsimp only
    by_cases kn : k = n
    · subst kn; rw [Function.update_self]; exact sm.trans (I.same k)
    · rw [Function.update_of_ne kn]; exact I.same k
  · dsimp only at hx
    by_cases kn : k = n
    · subst kn
      rw [Function.update_self, a1] at hx
      rcases List.mem_append.1 hx with b | b
      · exact I.result k hk x b
      · rw [Option.mem_toList, Option.bind_eq_some_iff] at b
        obtain ⟨co, b1, b2⟩ := b
        unfold yields at b2
        split at b2
        · cases b2
        · rename_i aw
          have cv := I.coros k hk co (List.mem_of_getElem? b1) (by simpa using aw)
          split at b2
          · rename_i pr
            cases b2
            rw [matchesOf_eq, List.mem_filter]
            refine ⟨cv, ?_⟩
            rw [← (I.same k).holds]
            unfold PrepQuery.holds
            rw [pr]
          · cases b2
    · rw [Function.update_of_ne kn] at hx; exact I.result k hk x hx
  · dsimp only at hd
    by_cases kn : k = n
    · subst kn
      rw [Function.update_self] at hd
      obtain ⟨w, hw⟩ := List.mem_iff_getElem?.1 hd
      by_cases wc : w = c
      · subst wc; rw [a4 d hw] at a; cases a
      · rw [a2 w wc] at hw; exact I.coros k hk d (List.mem_of_getElem? hw) a
    · rw [Function.update_of_ne kn] at hd; exact I.coros k hk d hd a
  · dsimp only at hd ⊢
    have old : (S.queries k).coros[w]? = some d ∧ (k, w) ≠ (n, c) := by
      by_cases kn : k = n
      · subst kn
        rw [Function.update_self] at hd
        by_cases wc : w = c
        · subst wc; rw [a4 d hd] at a; cases a
        · rw [a2 w wc] at hd; exact ⟨hd, by simpa using wc⟩
      · rw [Function.update_of_ne kn] at hd; exact ⟨hd, by simp [kn]⟩
    obtain ⟨j, e', td, b1, b2, b3⟩ := I.pending k hk w d old.1 a
    by_cases ji : j = i
    · subst ji
      rw [q] at b1; cases b1
      exact ⟨j, e, _, me, List.mem_filter.2 ⟨b2, decide_eq_true old.2⟩, b3⟩
    · exact ⟨j, e', td, by rw [List.getElem?_set_ne (Ne.symm ji)]; exact b1, b2, b3⟩
  · dsimp only at hr ⊢
    by_cases kn : k = n
    · subst kn; exact ⟨i, e, _, me, hn⟩
    · rw [Function.update_of_ne kn] at hr
      exact keep (P := True) (I.queued k hk hr)
  · rcases getElem?_set_cases k with ⟨rfl, a⟩ | ⟨a, b⟩
    · cases a
      exact fun t ht => I.todo _ e todo q t (List.mem_filter.1 ht).1
    · exact I.todo j e' td b
  · have B := I.balance x
    have g := sum_set (gave x) S.runs i _ (e, .waiting (todo.filter fun u => decide (u ≠ (n, c)))) q
    have d := sum_set (due h S0.queries x) S.runs i _ (e, .waiting (todo.filter fun u => decide (u ≠ (n, c)))) q
    have p : ∑ k ∈ S0.used, pot x (Function.update S.queries n ((S.queries n).runTask c) k) = ∑ k ∈ S0.used, pot x (S.queries k) := by
      apply Finset.sum_congr rfl
      intro k _
      by_cases kn : k = n
      · subst kn; rw [Function.update_self, pot_runTask]
      · rw [Function.update_of_ne kn]
    dsimp only
    rw [p]
    have g0 : ∀ l, gave x (e, .waiting l) = 0 := fun _ => rfl
    have d0 : ∀ l l', due h S0.queries x (e, .waiting l) = due h S0.queries x (e, .waiting l') := fun _ _ => rfl
    rw [g0, g0] at g
    rw [d0 todo (todo.filter fun u => decide (u ≠ (n, c)))] at d
    omega
  · obtain ⟨j, hj⟩ := List.mem_iff_getElem?.1 hr
    rcases getElem?_set_cases hj with ⟨rfl, rfl⟩ | ⟨a, b⟩
    · cases eo
    · exact I.sound r (List.mem_of_getElem? b) o eo

theorem finish_run {budget : Nat} {S0 S : Executions} (D : S0.Ready h budget) (I : CInv h S0 S) {i : Nat} :
    (Turn.finish i).exec h budget S = S ∨ ∃ e, S.runs[i]? = some (e, .waiting []) ∧
      (Turn.finish i).exec h budget S =
        ⟨fun k => if k ∈ Dict.values e then { S.queries k with result := [] } else S.queries k, S.shared,
          S.runs.set i (e, .returned (.ok ((Dict.values e).map fun k => (S.queries k).result).flatten))⟩ := by
  rw [Turn.exec]
  split
  · rename_i e q
    obtain ⟨st0, q0, m0⟩ := I.engine q
    refine .inr ⟨e, q, ?_⟩
    rw [drain_run _ _ (D.distinct _ m0)]
  · exact .inl rfl

theorem count_flatten_map (x : Ref) (f : Nat → List Ref) (ks : List Nat) :
    ((ks.map f).flatten).count x = (ks.map fun k => (f k).count x).sum := by
  induction ks with
  | nil => rfl
  | cons k ks ih => simp [List.count_append, ih]

theorem CInv.finish {budget : Nat} {S0 S : Executions} (D : S0.Ready h budget) (I : CInv h S0 S)
    (i : Nat) : CInv h S0 ((Turn.finish i).exec h budget S) := by
  rcases finish_run D I (i := i) with k | ⟨e, q, ex⟩
  · rw [k]; exact I
  rw [ex]
  have lt := (List.getElem?_eq_some_iff.1 q).1
  obtain ⟨st0, q0, m0⟩ := I.engine q
  have nd := D.distinct _ m0
  have sub : ∀ k ∈ Dict.values e, k ∈ S0.used := fun k hk => mem_used.2 ⟨_, m0, hk⟩
  generalize hl : ((Dict.values e).map fun k => (S.queries k).result).flatten = l
  have cor : ∀ k, (if k ∈ Dict.values e then { S.queries k with result := [] } else S.queries k).coros = (S.queries k).coros := by
    intro k; split <;> rfl
  refine ⟨I.shared, (set_fst q).trans I.engines, fun k => ?_, fun k hk x hx => ?_, fun k hk d hd a => ?_, fun k hk w d hd a => ?_,
    fun k hk hr => ?_, fun j e' td k => ?_, fun x => ?_, fun r hr o eo => ?_⟩
  · dsimp only
    split
    · exact I.same k
    · exact I.same k
  · dsimp only at hx
    split at hx
    · cases hx
    · exact I.result k hk x hx
  · dsimp only at hd
    rw [cor] at hd
    exact I.coros k hk d hd a
  · dsimp only at hd ⊢
    rw [cor] at hd
    obtain ⟨j, e', td, b1, b2, b3⟩ := I.pending k hk w d hd a
    have ji : i ≠ j := by
      rintro rfl
      rw [q] at b1; cases b1; cases b2
    exact ⟨j, e', td, by rw [List.getElem?_set_ne ji]; exact b1, b2, b3⟩
  · dsimp only at hr ⊢
    split at hr
    · exact absurd rfl hr
    · rename_i hv
      obtain ⟨j, e', td, b1, b2⟩ := I.queued k hk hr
      have ji : i ≠ j := by
        rintro rfl
        rw [q] at b1; cases b1; exact hv b2
      exact ⟨j, e', td, by rw [List.getElem?_set_ne ji]; exact b1, b2⟩
  · rcases getElem?_set_cases k with ⟨rfl, a⟩ | ⟨a, b⟩
    · cases a
    · exact I.todo j e' td b
  · have B := I.balance x
    have g := sum_set (gave x) S.runs i _ (e, .returned (.ok l)) q
    have d := sum_set (due h S0.queries x) S.runs i _ (e, .returned (.ok l)) q
    have g0 : gave x (e, .waiting []) = 0 := rfl
    have g1 : gave x (e, .returned (.ok l)) = ((Dict.values e).map fun k => ((S.queries k).result).count x).sum := by
      show l.count x = _
      rw [← hl, count_flatten_map]
    have d0 : due h S0.queries x (e, .waiting []) = due h S0.queries x (e, .returned (.ok l)) := rfl
    have p : (∑ k ∈ S0.used, pot x (if k ∈ Dict.values e then { S.queries k with result := [] } else S.queries k)) +
        ((Dict.values e).map fun k => ((S.queries k).result).count x).sum = ∑ k ∈ S0.used, pot x (S.queries k) := by
      rw [← sum_values S0.used nd sub, ← Finset.sum_add_distrib]
      apply Finset.sum_congr rfl
      intro k _
      split
      · unfold pot
        show ([] : List Ref).count x + (S.queries k).coros.countP _ + _ = _
        rw [List.count_nil, Nat.zero_add, Nat.add_comm]
        rfl
      · rfl
    dsimp only
    rw [g0, g1] at g
    rw [d0] at d
    generalize (∑ k ∈ S0.used, pot x (if k ∈ Dict.values e then { S.queries k with result := [] } else S.queries k)) = P at p ⊢
    omega
  · obtain ⟨j, hj⟩ := List.mem_iff_getElem?.1 hr
    rcases getElem?_set_cases hj with ⟨rfl, rfl⟩ | ⟨a, b⟩
    · cases eo
      refine ⟨l, rfl, fun x hx => ?_⟩
      rw [← hl, List.mem_flatten] at hx
      obtain ⟨ys, b1, b2⟩ := hx
      obtain ⟨k, b3, rfl⟩ := List.mem_map.1 b1
      exact ⟨k, b3, I.result k (sub k b3) x b2⟩
    · exact I.sound r (List.mem_of_getElem? b) o eo

theorem CInv.exec {E : Env} (R : Reach E h) {budget : Nat} {S0 S : Executions} (D : S0.Ready h budget) (I : CInv h S0 S)
    (t : Turn) : CInv h S0 (t.exec h budget S) := by
  cases t with
  | start i => exact I.start R D i
  | task i t => exact I.task i t
  | finish i => exact I.finish D i

theorem CInv.after {E : Env} (R : Reach E h) {budget : Nat} {S0 : Executions} (D : S0.Ready h budget) : ∀ (ts : List Turn)
    {S : Executions}, CInv h S0 S → CInv h S0 (S.after h budget ts)
  | [], _, I => I
  | t :: ts, _, I => CInv.after R D ts (I.exec R D t)

theorem count_results (x : Ref) (S : Executions) : S.results.count x = (S.runs.map (gave x)).sum := by
  unfold Executions.results
  induction S.runs with
  | nil => rfl
  | cons r l ih =>
    rw [List.flatMap_cons, List.count_append, ih, List.map_cons, List.sum_cons]
    congr 1
    unfold gave
    obtain ⟨e, st⟩ := r
    rcases st with _ | _ | (_ | _) <;> rfl

theorem CInv.count_expected {S0 S : Executions} (I : CInv h S0 S) (a : S.AllReturned) (x : Ref) :
    (S0.expected h).count x = (S.runs.map (due h S0.queries x)).sum := by
  have e1 : S.runs.map (due h S0.queries x) = (S.runs.map Prod.fst).map fun e =>
      ((Dict.values e).map fun k => (matchesOf h (S0.queries k)).count x).sum := by
    rw [List.map_map]
    apply List.map_congr_left
    intro r hr
    obtain ⟨l, e⟩ := a r hr
    unfold due
    rw [e]
    rfl
  rw [e1, I.engines, List.map_map]
  unfold Executions.expected
  induction S0.runs with
  | nil => rfl
  | cons r l ih =>
    rw [List.flatMap_cons, List.count_append, ih, List.map_cons, List.sum_cons]
    congr 1
    rw [List.flatMap_def, count_flatten_map]
    rfl

/-- Nothing is left when all have returned. -/
theorem CInv.idle {S0 S : Executions} (I : CInv h S0 S) (a : S.AllReturned) {k : Nat} (hk : k ∈ S0.used) : (S.queries k).Idle := by
  have no : ∀ (i : Nat) (e : Engine) (todo : List (Nat × Nat)), S.runs[i]? ≠ some (e, .waiting todo) := by
    intro i e todo q
    obtain ⟨l, k⟩ := a _ (List.mem_of_getElem? q)
    cases k
  refine ⟨?_, fun c hc => ?_⟩
  · by_contra q
    obtain ⟨i, e, todo, q, -⟩ := I.queued k hk q
    exact no _ _ _ q
  · by_contra q
    obtain ⟨n, hn⟩ := List.mem_iff_getElem?.1 hc
    obtain ⟨i, e, todo, q, -⟩ := I.pending k hk n c hn (by simpa using q)
    exact no _ _ _ q

/-- **C101 (partial).** Any number of executions of any engines, which may share queries, in every schedule and at every point
in it: no execution fails, and what an execution returns matches one of its queries.  When all have returned, the results of
all executions together are those that the executions would return one after the other: nothing is lost and nothing comes too
often; and everything is ready for further executions. -/
theorem C101_together_partial {E : Env} (R : Reach E h) {budget : Nat} {S : Executions} (D : S.Ready h budget) (ts : List Turn) :
    (∀ r ∈ (S.after h budget ts).runs, ∀ err, r.2 ≠ .returned (.error err)) ∧
    (∀ r ∈ (S.after h budget ts).runs, ∀ l, r.2 = .returned (.ok l) →
      ∀ x ∈ l, ∃ k ∈ Dict.values r.1, x ∈ matchesOf h (S.queries k)) ∧
    ((S.after h budget ts).AllReturned →
      (S.after h budget ts).results.Perm (S.expected h) ∧ (S.after h budget ts).shared = [] ∧
      ∀ r ∈ S.runs, ∀ k ∈ Dict.values r.1, ((S.after h budget ts).queries k).Idle ∧
        ((S.after h budget ts).queries k).SameQuestion (S.queries k)) := by
  have I := CInv.after R D ts (CInv.init D)
  refine ⟨fun r hr err e => ?_, fun r hr l e x hx => ?_, fun a => ⟨?_, I.shared, fun r hr k hk => ?_⟩⟩
  · obtain ⟨l, k, -⟩ := I.sound r hr _ e
    cases k
  · obtain ⟨l', k, q⟩ := I.sound r hr _ e
    cases k
    exact q x hx
  · rw [List.perm_iff_count]
    intro x
    rw [count_results, I.count_expected a]
    have z : ∑ k ∈ S.used, pot x ((S.after h budget ts).queries k) = 0 :=
      Finset.sum_eq_zero fun k hk => pot_idle (I.idle a hk) x
    have := I.balance x
    omega
  · exact ⟨I.idle a (mem_used.2 ⟨r, hr, hk⟩), I.same k⟩

/-! ## No execution waits for ever -/

theorem after_append {budget : Nat} {S : Executions} (ts us : List Turn) :
    S.after h budget (ts ++ us) = (S.after h budget ts).after h budget us := by
  unfold Executions.after; rw [List.foldl_append]

theorem run_todo {budget : Nat} {i : Nat} {e : Engine} : ∀ (n : Nat) (todo : List (Nat × Nat)) {S : Executions}, todo.length ≤ n →
    S.runs[i]? = some (e, .waiting todo) → ∃ ts, (S.after h budget ts).runs = S.runs.set i (e, .waiting [])
  | _, [], S, _, q => ⟨[], by
      show S.runs = _
      apply List.ext_getElem?
      intro j
      rw [List.getElem?_set]
      split
      · subst_vars; rw [q, if_pos (List.getElem?_eq_some_iff.1 q).1]
      · rfl⟩
  | 0, t :: l, S, hl, _ => by simp at hl
  | n + 1, t :: l, S, hl, q => by
    rcases task_run (h := h) (budget := budget) (S := S) (i := i) (t := t) with k | ⟨e', todo, q', m, ex⟩
    · exfalso
      rw [Turn.exec, q] at k
      simp only [List.mem_cons, true_or, if_true] at k
      have := congrArg (fun s => s.runs[i]?) k
      simp only [List.getElem?_set, (List.getElem?_eq_some_iff.1 q).1, if_true, q] at this
      have e2 : (t :: l).filter (fun u => decide (u ≠ t)) = t :: l := by simpa using this
      rw [List.filter_cons, if_neg (by simp)] at e2
      have := congrArg List.length e2
      have := List.length_filter_le (fun u => decide (u ≠ t)) l
      simp at *; omega
    · rw [q] at q'; cases q'
      have e2 : (t :: l).filter (fun u => decide (u ≠ t)) = l.filter (fun u => decide (u ≠ t)) := by
        rw [List.filter_cons, if_neg (by simp)]
      rw [e2] at ex
      have lt := (List.getElem?_eq_some_iff.1 q).1
      have me : ((Turn.task i t).exec h budget S).runs[i]? = some (e, .waiting (l.filter fun u => decide (u ≠ t))) := by
        rw [ex, List.getElem?_set, if_pos rfl, if_pos lt]
      obtain ⟨ts, k⟩ := run_todo (budget := budget) n _ (by
        have := List.length_filter_le (fun u => decide (u ≠ t)) l
        simp at hl; omega) me
      refine ⟨.task i t :: ts, ?_⟩
      show (((Turn.task i t).exec h budget S).after h budget ts).runs = _
      rw [k, ex, List.set_set]

/-- Let execution `i` return. -/
theorem run_one {E : Env} (R : Reach E h) {budget : Nat} {S0 S : Executions} (D : S0.Ready h budget) (I : CInv h S0 S)
    {i : Nat} (hi : i < S.runs.length) : ∃ (ts : List Turn) (r : Engine × Execution), (∃ l, r.2 = .returned (.ok l)) ∧
      (S.after h budget ts).runs = S.runs.set i r := by
  have wait : ∀ {S : Executions} {e : Engine} {todo : List (Nat × Nat)}, CInv h S0 S → S.runs[i]? = some (e, .waiting todo) →
      ∃ (ts : List Turn) (r : Engine × Execution), (∃ l, r.2 = .returned (.ok l)) ∧ (S.after h budget ts).runs = S.runs.set i r := by
    intro S e todo I q
    obtain ⟨ts, k⟩ := run_todo (h := h) (budget := budget) _ todo (Nat.le_refl _) q
    have lt := (List.getElem?_eq_some_iff.1 q).1
    have me : (S.after h budget ts).runs[i]? = some (e, .waiting []) := by rw [k, List.getElem?_set, if_pos rfl, if_pos lt]
    refine ⟨ts ++ [.finish i], (e, .returned (.ok (drain (Dict.values e) (S.after h budget ts).queries).1)), ⟨_, rfl⟩, ?_⟩
    rw [after_append]
    show ((Turn.finish i).exec h budget (S.after h budget ts)).runs = _
    rw [Turn.exec, me]
    simp only
    rw [k, List.set_set]
  cases q : S.runs[i]? with
  | none => rw [List.getElem?_eq_none_iff] at q; omega
  | some r =>
    obtain ⟨e, st⟩ := r
    cases st with
    | fresh =>
      obtain ⟨tasks, ex, -⟩ := start_run R D I q
      obtain ⟨ts, r, a, b⟩ := wait (S := (Turn.start i).exec h budget S) (e := e) (todo := tasks) (I.start R D i) (by
        rw [ex, List.getElem?_set, if_pos rfl, if_pos hi])
      refine ⟨.start i :: ts, r, a, ?_⟩
      show (((Turn.start i).exec h budget S).after h budget ts).runs = _
      rw [b, ex, List.set_set]
    | waiting todo => exact wait I q
    | returned o =>
      obtain ⟨l, k, -⟩ := I.sound _ (List.mem_of_getElem? q) o rfl
      subst k
      refine ⟨[], (e, .returned (.ok l)), ⟨l, rfl⟩, ?_⟩
      show S.runs = _
      apply List.ext_getElem?
      intro j
      rw [List.getElem?_set]
      split
      · subst_vars; rw [q]
      · rfl

/-- **C101 (partial).** Executions do not block each other: from every point of every schedule they can all return. -/
theorem C101_progress_partial {E : Env} (R : Reach E h) {budget : Nat} {S : Executions} (D : S.Ready h budget) (ts : List Turn) :
    ∃ us, (S.after h budget (ts ++ us)).AllReturned := by
  have key : ∀ (n : Nat) {T : Executions}, CInv h S T → n ≤ T.runs.length → ∃ us, (T.after h budget us).runs.length = T.runs.length ∧
      ∀ j < n, ∃ r l, (T.after h budget us).runs[j]? = some r ∧ r.2 = .returned (.ok l) := by
    intro n
    induction n with
    | zero => intro T _ _; exact ⟨[], rfl, by simp⟩
    | succ n ih =>
      intro T I hn
      obtain ⟨us, len, a⟩ := ih I (by omega)
      obtain ⟨vs, r, ⟨l, b⟩, c⟩ := run_one R D (CInv.after R D us I) (i := n) (by omega)
      refine ⟨us ++ vs, by rw [after_append, c]; simp [len], fun j hj => ?_⟩
      rw [after_append, c, List.getElem?_set]
      by_cases e : n = j
      · rw [if_pos e, if_pos (by omega)]; exact ⟨r, l, rfl, b⟩
      · rw [if_neg e]; exact a j (by omega)
  have I := CInv.after R D ts (CInv.init D)
  obtain ⟨us, len, a⟩ := key _ I (Nat.le_refl _)
  refine ⟨us, ?_⟩
  rw [after_append]
  intro r hr
  obtain ⟨j, hj⟩ := List.mem_iff_getElem?.1 hr
  obtain ⟨r', l, b, c⟩ := a j (by have := (List.getElem?_eq_some_iff.1 hj).1; omega)
  rw [hj] at b; cases b
  exact ⟨l, c⟩

/-! ## Executions that share no query -/

/-- What is known of execution `i`. -/
def AInv (h : Heap) (S0 S : Executions) (i : Nat) : Prop := ∀ e st, S.runs[i]? = some (e, st) → match st with
  | .fresh => ∀ k ∈ Dict.values e, (S.queries k).Idle
  | .waiting _ => ∀ k ∈ Dict.values e, ∀ x, pot x (S.queries k) = (matchesOf h (S0.queries k)).count x
  | .returned (.ok l) => ∃ parts : List (List Ref), l = parts.flatten ∧
      List.Forall₂ (fun k part => List.Perm part (matchesOf h (S0.queries k))) (Dict.values e) parts
  | .returned (.error _) => True

theorem forall₂_map_right {α β : Type} {P : α → β → Prop} (f : α → β) : ∀ (l : List α), (∀ a ∈ l, P a (f a)) →
    List.Forall₂ P l (l.map f)
  | [], _ => .nil
  | a :: l, H => .cons (H a (.head _)) (forall₂_map_right f l fun b hb => H b (.tail _ hb))

theorem CInv.alone {S0 S : Executions} (I : CInv h S0 S) {i j : Nat} (A : S0.Alone i) (ij : j ≠ i) {e e' : Engine}
    {st st' : Execution} (q : S.runs[i]? = some (e, st)) (q' : S.runs[j]? = some (e', st')) {k : Nat} (hk : k ∈ Dict.values e) :
    k ∉ Dict.values e' := by
  obtain ⟨a, b, -⟩ := I.engine q
  obtain ⟨a', b', -⟩ := I.engine q'
  exact A j _ _ ij b b' k hk

theorem AInv.exec {E : Env} (R : Reach E h) {budget : Nat} {S0 S : Executions} (D : S0.Ready h budget) (I : CInv h S0 S)
    {i : Nat} (A : S0.Alone i) (N : AInv h S0 S i) (t : Turn) : AInv h S0 (t.exec h budget S) i := by
  -- another execution leaves the queries alone
  have other : ∀ {S' : Executions} {j : Nat} {e' : Engine} {a b : Execution}, j ≠ i → S.runs[j]? = some (e', a) →
      S'.runs = S.runs.set j (e', b) → (∀ k, k ∉ Dict.values e' → S'.queries k = S.queries k) → AInv h S0 S' i := by
    intro S' j e' a b ji qj er eq e st q
    rw [er, List.getElem?_set_ne ji] at q
    have same : ∀ k ∈ Dict.values e, S'.queries k = S.queries k := fun k hk => eq k (I.alone A ji q qj hk)
    have M := N e st q
    cases st with
    | fresh => exact fun k hk => by rw [same k hk]; exact M k hk
    | waiting todo => exact fun k hk => by rw [same k hk]; exact M k hk
    | returned o => cases o <;> exact M
  cases t with
  | start j =>
    by_cases q : ∃ e, S.runs[j]? = some (e, .fresh)
    swap
    · have : (Turn.start j).exec h budget S = S := by
        rw [Turn.exec]
        split
        · rename_i e k; exact absurd ⟨e, k⟩ q
        · rfl
      rw [this]; exact N
    obtain ⟨e', q⟩ := q
    obtain ⟨tasks, ex, -⟩ := start_run R D I q
    by_cases ji : j = i
    · subst ji
      intro e st k
      rw [ex, List.getElem?_set, if_pos rfl, if_pos (List.getElem?_eq_some_iff.1 q).1] at k
      cases k
      intro k hk x
      rw [ex]
      simp only [hk, if_true]
      rw [pot_prefiltered, pot_idle (N e' .fresh q k hk), (I.same k).matched, Nat.zero_add]
    · exact other ji q (by rw [ex]) fun k hk => by rw [ex]; simp [hk]
  | task j t =>
    rcases task_run (h := h) (budget := budget) (S := S) (i := j) (t := t) with k | ⟨e', todo, q, m, ex⟩
    · rw [k]; exact N
    by_cases ji : j = i
    · subst ji
      intro e st k
      rw [ex, List.getElem?_set, if_pos rfl, if_pos (List.getElem?_eq_some_iff.1 q).1] at k
      cases k
      intro k hk x
      rw [ex]
      have := N e' (.waiting todo) q k hk x
      dsimp only
      by_cases kt : k = t.1
      · rw [kt, Function.update_self, pot_runTask, ← kt]; exact this
      · rw [Function.update_of_ne kt]; exact this
    · refine other ji q (by rw [ex]) fun k hk => ?_
      rw [ex]
      exact Function.update_of_ne (fun (e : k = t.1) => hk (by rw [e]; exact I.todo j e' todo q t m)) _ _
  | finish j =>
    rcases finish_run D I (i := j) with k | ⟨e', q, ex⟩
    · rw [k]; exact N
    by_cases ji : j = i
    · subst ji
      intro e st k
      rw [ex, List.getElem?_set, if_pos rfl, if_pos (List.getElem?_eq_some_iff.1 q).1] at k
      cases k
      refine ⟨_, rfl, forall₂_map_right _ _ fun k hk => ?_⟩
      rw [List.perm_iff_count]
      intro x
      have M := N e' (.waiting []) q k hk x
      obtain ⟨st0, q0, m0⟩ := I.engine q
      have z : (S.queries k).coros.countP (fun c => !c.awaited && decide (c.elem = x) && (S.queries k).holds c.elem) = 0 := by
        rw [List.countP_eq_zero]
        intro c hc
        by_cases aw : c.awaited = true
        · simp [aw]
        · exfalso
          obtain ⟨n, hn⟩ := List.mem_iff_getElem?.1 hc
          obtain ⟨j', e2, todo, b1, b2, b3⟩ := I.pending k (mem_used.2 ⟨_, m0, hk⟩) n c hn (by simpa using aw)
          by_cases jj : j' = j
          · subst jj
            rw [q] at b1; cases b1; cases b2
          · exact I.alone A jj q b1 hk b3
      unfold pot at M
      rw [z] at M
      exact M
    · exact other ji q (by rw [ex]) fun k hk => by rw [ex]; simp [hk]

theorem AInv.after {E : Env} (R : Reach E h) {budget : Nat} {S0 : Executions} (D : S0.Ready h budget) {i : Nat} (A : S0.Alone i) :
    ∀ (ts : List Turn) {S : Executions}, CInv h S0 S → AInv h S0 S i → AInv h S0 (S.after h budget ts) i
  | [], _, _, N => N
  | t :: ts, _, I, N => AInv.after R D A ts (I.exec R D t) (N.exec R D I A t)

/-- **C101 (partial).** An execution that shares no query with the others returns, in every schedule, what it would return
alone: query by query a permutation of the matching elements. -/
theorem C101_alone_partial {E : Env} (R : Reach E h) {budget : Nat} {S : Executions} (D : S.Ready h budget) (ts : List Turn)
    {i : Nat} (A : S.Alone i) {e : Engine} {l : List Ref} (q : (S.after h budget ts).runs[i]? = some (e, .returned (.ok l))) :
    ∃ parts : List (List Ref), l = parts.flatten ∧
      List.Forall₂ (fun k part => List.Perm part (matchesOf h (S.queries k))) (Dict.values e) parts := by
  have N : AInv h S S i := by
    intro e st q
    have m := List.mem_of_getElem? q
    have := D.fresh _ m
    subst this
    exact fun k hk => (D.idle _ m k hk).1
  exact AInv.after R D A ts (CInv.init D) N e _ q

end

/-! ## Concrete cases -/

open Sample

/-- Two executions of the sample engine, and one of an engine with a query of its own. -/
def threeRuns : Executions :=
  ⟨fun k => if k = 2 then sampleQueries 0 else sampleQueries k, [],
    [(sampleEngine, .fresh), (sampleEngine, .fresh), (Engine.addQuery [] ['q'] 2, .fresh)]⟩

theorem three_ready : threeRuns.Ready g10 100 where
  fresh := by intro r hr; simp [threeRuns] at hr; rcases hr with rfl | rfl | rfl <;> rfl
  distinct := by intro r hr; simp [threeRuns] at hr; rcases hr with rfl | rfl | rfl <;> decide
  idle := by
    have v : ∀ q : PrepQuery, q = sampleQueries 0 ∨ q = sampleQueries 1 → q.Idle ∧ q.Fits g10 100 := by
      rintro q (rfl | rfl)
      · exact ⟨⟨rfl, by intro c hc; simp [sampleQueries] at hc⟩, by decide +kernel, by decide +kernel⟩
      · exact ⟨⟨rfl, by intro c hc; simp [sampleQueries] at hc⟩, by decide +kernel, by decide +kernel⟩
    intro r hr k hk
    apply v
    simp [threeRuns] at hr
    rcases hr with rfl | rfl | rfl <;> simp [sampleEngine, Engine.addQuery, Dict.values, Dict.set] at hk
    all_goals (try rcases hk with rfl | rfl) <;> simp_all [threeRuns]
  visits := by
    have v : visitedBy g10 (sampleQueries 0) ≠ [] := by decide +kernel
    intro r hr
    simp [threeRuns] at hr
    rcases hr with rfl | rfl
    · exact ⟨0, by decide, v⟩
    · exact ⟨2, by decide, v⟩
  shared := rfl

/-- The third shares no query with the others. -/
theorem three_alone : threeRuns.Alone 2 := by
  intro j r q hj hr hq k hk
  simp [threeRuns] at hr
  subst hr
  simp [Engine.addQuery, Dict.values, Dict.set] at hk
  subst hk
  match j with
  | 0 | 1 => simp [threeRuns] at hq; subst hq; decide
  | 2 => exact absurd rfl hj
  | n + 3 => simp [threeRuns] at hq

/-- A schedule for the executions `is`: all begin, all tasks on coroutines below `n` of the queries `ks` run, all go on. -/
def roundRobin (is ks : List Nat) (n : Nat) : List Turn :=
  is.map .start ++ (is.flatMap fun i => ks.flatMap fun k => (List.range n).map fun c => .task i (k, c)) ++ is.map .finish

example : (threeRuns.after g10 100 (roundRobin [0, 1, 2] [0, 1, 2] 24)).AllReturned := by
  have e : ((threeRuns.after g10 100 (roundRobin [0, 1, 2] [0, 1, 2] 24)).runs.all fun r => match r.2 with
      | .returned (.ok _) => true
      | _ => false) = true := by decide +kernel
  intro r hr
  have := List.all_eq_true.1 e r hr
  obtain ⟨e', st⟩ := r
  rcases st with _ | _ | (_ | l)
  · simp at this
  · simp at this
  · simp at this
  · exact ⟨l, rfl⟩

/-- **C101 refuted.** Two executions of one engine at the same time: the one that goes on first returns every element twice, the
other nothing. -/
theorem C101_shared_refuted : (threeRuns.after g10 100 (roundRobin [0, 1] [0, 1] 24)).runs.map (fun r => match r.2 with
      | .returned (.ok l) => some l
      | _ => none) =
    [some [0, 1, 2, 9, 10, 0, 1, 2, 9, 10, 3, 3], some [], none] := by decide +kernel

end Rei
