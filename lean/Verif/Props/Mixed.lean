import Verif.Props.EventLoop
import Verif.Spec.Mixed

/-!
# C122: additions and removals on one event loop
-/
namespace Rei
open PyM Sample

section
variable {E : Env} {h h' : Heap} {ts : List Task} {n m : Nat → Nat}

theorem Mixes.held {x c : Ref} (M : Mixes h ts) (R : Reach E h) {p : Str × Option Bytes} (hm : Task.removes c p x ∈ ts) :
    (h.get x).parent = some c :=
  (C01_containment_agrees R c).1 x |>.1 (M.means c p x hm).1

theorem Mixes.lt (M : Mixes h ts) (R : Reach E h) {c x : Ref} (q : HoldsOrWill h (ts.map Task.batch) c x) : x < h.size := by
  rcases q with q | q
  · exact SInv.lt_of_parent R.good.inv q
  · exact (M.adds.free c x q).1

theorem put_planned {bs : Batches} {c x : Ref} (p : PutInto bs n c x) : Planned bs c x := by
  obtain ⟨i, xs, a, b⟩ := p
  exact ⟨xs, List.mem_of_getElem? a, List.mem_of_mem_take b⟩

theorem taken_mem {c x : Ref} (t : TakenOut ts n c x) : ∃ p, Task.removes c p x ∈ ts := by
  obtain ⟨i, p, a, -⟩ := t
  exact ⟨p, List.mem_of_getElem? a⟩

/-- An element is in at most one place of all the batches. -/
theorem place_unique {bs : Batches} (on : (bs.flatMap Prod.snd).Nodup) {i j k l : Nat} {c d : Ref} {xs ys : List Ref}
    (hi : bs[i]? = some (c, xs)) (hj : bs[j]? = some (d, ys)) {x : Ref} (hk : xs[k]? = some x) (hl : ys[l]? = some x) :
    i = j ∧ k = l := by
  obtain ⟨on1, on2⟩ := List.nodup_flatMap.1 on
  have e : i = j := by
    by_contra ne
    obtain ⟨a1, a2⟩ := List.getElem?_eq_some_iff.1 hi
    obtain ⟨b1, b2⟩ := List.getElem?_eq_some_iff.1 hj
    have P := List.pairwise_iff_getElem.1 on2
    have hx : x ∈ xs := List.mem_of_getElem? hk
    have hy : x ∈ ys := List.mem_of_getElem? hl
    rcases Nat.lt_or_gt_of_ne ne with q | q
    · have := P i j a1 b1 q
      simp only [Function.onFun, a2, b2] at this
      exact this hx hy
    · have := P j i b1 a1 q
      simp only [Function.onFun, a2, b2] at this
      exact this hy hx
  subst e
  rw [hi] at hj
  cases hj
  refine ⟨rfl, ?_⟩
  have nd := on1 _ (List.mem_of_getElem? hi)
  obtain ⟨a1, a2⟩ := List.getElem?_eq_some_iff.1 hk
  obtain ⟨b1, b2⟩ := List.getElem?_eq_some_iff.1 hl
  exact (List.Nodup.getElem_inj_iff nd).1 (a2.trans b2.symm)

theorem put_not_taken (M : Mixes h ts) (R : Reach E h) {c d x : Ref} (p : PutInto (ts.map Task.batch) n c x) :
    ¬ TakenOut ts m d x := by
  intro t
  obtain ⟨q, hm⟩ := taken_mem t
  have := M.held R hm
  rw [(M.adds.free c x (put_planned p)).2] at this
  cases this

/-- Who is where after some steps was there before, or was to come. -/
theorem MixedSoFar.was (A : MixedSoFar h ts n h') (R : Reach E h) {c x : Ref} (q : (h'.get x).parent = some c) :
    HoldsOrWill h (ts.map Task.batch) c x := by
  by_cases a : ∃ d, PutInto (ts.map Task.batch) n d x
  · obtain ⟨d, a⟩ := a
    rw [A.placed d x a] at q
    cases q
    exact .inr (put_planned a)
  · by_cases b : ∃ d, TakenOut ts n d x
    · obtain ⟨d, b⟩ := b
      rw [A.removed d x b] at q
      cases q
    · exact .inl (by rw [← A.others x (fun d k => a ⟨d, k⟩) (fun d k => b ⟨d, k⟩)]; exact q)

theorem MixedSoFar.anc (A : MixedSoFar h ts n h') (R : Reach E h) {a x : Ref} (q : Anc h' a x) :
    Relation.TransGen (HoldsOrWill h (ts.map Task.batch)) a x := by
  induction q with
  | direct p => exact .single (A.was R p)
  | up p _ ih => exact .tail ih (A.was R p)

/-- One step more of task `i`. -/
def more (n : Nat → Nat) (i : Nat) : Nat → Nat := fun j => if j = i then n j + 1 else n j

theorem MixedSoFar.congr (A : MixedSoFar h ts n h') (a : ∀ c x, PutInto (ts.map Task.batch) m c x ↔ PutInto (ts.map Task.batch) n c x)
    (b : ∀ c x, TakenOut ts m c x ↔ TakenOut ts n c x)
    (e : ∀ (i : Nat) c xs, ts[i]? = some (.adds c xs) → xs.take (m i) = xs.take (n i)) : MixedSoFar h ts m h' := by
  refine ⟨A.size, fun c x p => A.placed c x ((a c x).1 p), fun c x p => A.removed c x ((b c x).1 p),
    fun x p q => A.others x (fun c k => p c ((a c x).2 k)) (fun c k => q c ((b c x).2 k)), fun c => ?_, A.same⟩
  obtain ⟨old, new, e1, e2, e3, e4, e5⟩ := A.inside c
  exact ⟨old, new, e1, e2, fun x hx => by rw [b]; exact e3 x hx, fun x => by rw [a]; exact e4 x,
    fun i xs q => by rw [e i c xs q]; exact e5 i xs q⟩

theorem batch_get {i : Nat} {t : Task} (hi : ts[i]? = some t) : (ts.map Task.batch)[i]? = some t.batch := by
  rw [List.getElem?_map, hi]; rfl

theorem put_more_adds {i : Nat} {c : Ref} {xs : List Ref} (hi : ts[i]? = some (.adds c xs)) (d y : Ref) :
    PutInto (ts.map Task.batch) (more n i) d y ↔ (d = c ∧ xs[n i]? = some y) ∨ PutInto (ts.map Task.batch) n d y := by
  constructor
  · rintro ⟨j, ys, a, b⟩
    by_cases k : j = i
    · subst k
      rw [batch_get hi] at a
      cases a
      simp only [more, if_true] at b
      rw [List.take_add_one] at b
      rcases List.mem_append.1 b with q | q
      · exact .inr ⟨j, _, batch_get hi, q⟩
      · exact .inl ⟨rfl, by simpa using q⟩
    · simp only [more, if_neg k] at b
      exact .inr ⟨j, ys, a, b⟩
  · rintro (⟨rfl, q⟩ | ⟨j, ys, a, b⟩)
    · refine ⟨i, _, batch_get hi, ?_⟩
      simp only [more, if_true, List.take_add_one]
      exact List.mem_append_right _ (by simp [q])
    · refine ⟨j, ys, a, ?_⟩
      by_cases k : j = i
      · simp only [more, if_pos k]
        rw [List.take_add_one]
        exact List.mem_append_left _ b
      · simpa only [more, if_neg k] using b

theorem taken_more_adds {i : Nat} {c : Ref} {xs : List Ref} (hi : ts[i]? = some (.adds c xs)) (d y : Ref) :
    TakenOut ts (more n i) d y ↔ TakenOut ts n d y := by
  constructor
  all_goals
    rintro ⟨j, p, a, b⟩
    have k : j ≠ i := by rintro rfl; rw [hi] at a; cases a
    refine ⟨j, p, a, ?_⟩
    simpa only [more, if_neg k] using b

theorem put_more_removes {i : Nat} {c x : Ref} {p : Str × Option Bytes} (hi : ts[i]? = some (.removes c p x)) (d y : Ref) :
    PutInto (ts.map Task.batch) (more n i) d y ↔ PutInto (ts.map Task.batch) n d y := by
  constructor
  all_goals
    rintro ⟨j, ys, a, b⟩
    have k : j ≠ i := by
      rintro rfl
      rw [batch_get hi] at a
      cases a
      simp at b
    refine ⟨j, ys, a, ?_⟩
    simpa only [more, if_neg k] using b

theorem taken_more_removes {i : Nat} {c x : Ref} {p : Str × Option Bytes} (hi : ts[i]? = some (.removes c p x)) (d y : Ref) :
    TakenOut ts (more n i) d y ↔ (d = c ∧ y = x) ∨ TakenOut ts n d y := by
  constructor
  · rintro ⟨j, q, a, b⟩
    by_cases k : j = i
    · subst k
      rw [hi] at a
      cases a
      exact .inl ⟨rfl, rfl⟩
    · simp only [more, if_neg k] at b
      exact .inr ⟨j, q, a, b⟩
  · rintro (⟨rfl, rfl⟩ | ⟨j, q, a, b⟩)
    · exact ⟨i, p, hi, by simp [more]⟩
    · refine ⟨j, q, a, ?_⟩
      unfold more
      split <;> omega

/-- An addition takes a step that adds an element. -/
theorem MixedSoFar.join (M : Mixes h ts) (R : Reach E h) (R' : Reach E h') (A : MixedSoFar h ts n h') {i : Nat} {c x : Ref}
    {xs : List Ref} (hi : ts[i]? = some (.adds c xs)) (hx : xs[n i]? = some x) :
    ∃ h1, addElement E c x h' = (.ok (), h1) ∧ Reach E h1 ∧ MixedSoFar h ts (more n i) h1 := by
  have hb := batch_get hi
  have p : Planned (ts.map Task.batch) c x := ⟨xs, List.mem_of_getElem? hb, List.mem_of_getElem? hx⟩
  have hc := M.adds.containers _ (List.mem_of_getElem? hb)
  have hf := M.adds.free c x p
  have np : ∀ d, ¬ PutInto (ts.map Task.batch) n d x := by
    rintro d ⟨j, ys, a, b⟩
    obtain ⟨l, hl⟩ := List.mem_iff_getElem?.1 b
    rw [List.getElem?_take] at hl
    split at hl
    · rename_i k
      obtain ⟨rfl, rfl⟩ := place_unique M.adds.once a hb hl hx
      omega
    · cases hl
  have nt : ∀ (m : Nat → Nat) d, ¬ TakenOut ts m d x := by
    intro m d t
    obtain ⟨q, hm⟩ := taken_mem t
    have := M.held R hm
    rw [hf.2] at this
    cases this
  have free' : (h'.get x).parent = none := by rw [A.others x np (nt n)]; exact hf.2
  obtain ⟨h1, e, R1, J⟩ := add_joined R' (c := c) (x := x) (Nat.lt_of_lt_of_le hc.1 A.size) (Nat.lt_of_lt_of_le hf.1 A.size)
    (by unfold Plain; rw [(A.same c hc.1).2.2]; exact hc.2) free'
    (fun q => M.adds.acyclic x (.tail (A.anc R q) (.inr p)))
    (by rintro rfl; exact M.adds.acyclic _ (.single (.inr p)))
    (fun y hy e => by
      have hp := A.was R ((C01_containment_agrees R' c).1 y |>.1 hy)
      rw [(A.same y (M.lt R hp)).2.1, (A.same x hf.1).2.1] at e
      have := M.adds.uuids c x y p hp e
      subst this
      rw [(C01_containment_agrees R' c).1 _ |>.1 hy] at free'
      cases free')
  refine ⟨h1, e, R1, by rw [J.size]; exact A.size, ?_, ?_, ?_, ?_, ?_⟩
  · intro d y q
    rw [J.parent]
    rcases (put_more_adds hi d y).1 q with ⟨rfl, k⟩ | q
    · rw [hx] at k
      cases k
      rw [if_pos rfl]
    · rw [if_neg (by rintro rfl; exact np d q)]
      exact A.placed d y q
  · intro d y t
    rw [taken_more_adds hi] at t
    rw [J.parent, if_neg (by rintro rfl; exact nt n d t)]
    exact A.removed d y t
  · intro y q t
    have k : y ≠ x := by
      rintro rfl
      exact q c ((put_more_adds hi c _).2 (.inl ⟨rfl, hx⟩))
    rw [J.parent, if_neg k]
    exact A.others y (fun d s => q d ((put_more_adds hi d y).2 (.inr s))) (fun d s => t d ((taken_more_adds hi d y).2 s))
  · intro d
    obtain ⟨old, new, e1, e2, e3, e4, e5⟩ := A.inside d
    by_cases k : d = c
    · subst k
      refine ⟨old, new ++ [x], by rw [J.subs, if_pos rfl, e1, List.append_assoc], e2,
        fun y hy => by rw [taken_more_adds hi]; exact e3 y hy, fun y => ?_, fun j ys q => ?_⟩
      · rw [put_more_adds hi, hx, List.mem_append, e4]
        simp only [List.mem_singleton, Option.some.injEq, true_and]
        exact ⟨fun o => o.elim .inr fun q => .inl q.symm, fun o => o.elim (fun q => .inr q.symm) .inl⟩
      · by_cases k : j = i
        · subst k
          rw [hi] at q
          cases q
          simp only [more, if_true]
          rw [List.take_add_one, hx]
          exact (e5 j xs hi).append (by simp)
        · simp only [more, if_neg k]
          exact (e5 j ys q).trans (List.sublist_append_left _ _)
    · refine ⟨old, new, by rw [J.subs, if_neg k, e1], e2, fun y hy => by rw [taken_more_adds hi]; exact e3 y hy,
        fun y => ?_, fun j ys q => ?_⟩
      · rw [put_more_adds hi, e4]
        exact ⟨.inr, fun o => o.elim (fun q => absurd q.1 k) id⟩
      · have : j ≠ i := by
          rintro rfl
          rw [hi] at q
          cases q
          exact k rfl
        simp only [more, if_neg this]
        exact e5 j ys q
  · intro y hy
    rw [J.idName, J.uuid, J.kind]
    exact A.same y hy

/-- A removal takes its first step. -/
theorem MixedSoFar.detach (M : Mixes h ts) (R : Reach E h) (R' : Reach E h') (A : MixedSoFar h ts n h') {i : Nat} {c x : Ref}
    {p : Str × Option Bytes} (hi : ts[i]? = some (.removes c p x)) (hn : n i = 0) :
    ∃ h1, removeElement E c p.1 p.2 (some 1) h' = (.ok [x], h1) ∧ Reach E h1 ∧ MixedSoFar h ts (more n i) h1 := by
  have hb := batch_get hi
  have hm := List.mem_of_getElem? hi
  have hc := M.adds.containers _ (List.mem_of_getElem? hb)
  have held := M.held R hm
  have np : ∀ (m : Nat → Nat) d, ¬ PutInto (ts.map Task.batch) m d x := fun m d q => by
    rw [(M.adds.free d x (put_planned q)).2] at held
    cases held
  have nt : ∀ d, ¬ TakenOut ts n d x := by
    rintro d ⟨j, q, a, b⟩
    have := M.once i j c d p q x hi a
    subst this
    omega
  have held' : (h'.get x).parent = some c := by rw [A.others x (np n) nt]; exact held
  have hin : x ∈ h'.subelements c := (C01_containment_agrees R' c).1 x |>.2 held'
  have pl : Plain h' c := by unfold Plain; rw [(A.same c hc.1).2.2]; exact hc.2
  have N : MeansIn h' c p x := by
    refine ⟨hin, ?_⟩
    have xl := SInv.lt_of_parent R.good.inv held
    rw [(A.same x xl).1, (A.same x xl).2.1]
    refine (M.means c p x hm).2.imp id fun ⟨a, b, d, o⟩ => ⟨a, b, d, fun y hy e => ?_⟩
    have wa := A.was R ((C01_containment_agrees R' c).1 y |>.1 hy)
    rw [(A.same y (M.lt R wa)).1] at e
    rcases wa with q | q
    · exact o y ((C01_containment_agrees R c).1 y |>.2 q) e
    · exact absurd e (M.names c p x hm a y q)
  obtain ⟨h1, e, R1, D, K⟩ := removing_step R' pl N
  have hsz : h'.size ≤ h1.size := by
    have := (frames_removeElement (L := True) E c p.1 p.2 (some 1) h').keeps.size
    rw [e] at this
    exact this
  refine ⟨h1, e, R1, A.size.trans hsz, ?_, ?_, ?_, ?_, ?_⟩
  · intro d y q
    rw [put_more_removes hi] at q
    have k : y ≠ x := by rintro rfl; exact np n d q
    rw [D.others y (by simpa using k)]
    exact A.placed d y q
  · intro d y t
    rcases (taken_more_removes hi d y).1 t with ⟨rfl, rfl⟩ | t
    · exact D.gone y (.head _)
    · have k : y ≠ x := by rintro rfl; exact nt d t
      rw [D.others y (by simpa using k)]
      exact A.removed d y t
  · intro y q t
    have k : y ≠ x := by
      rintro rfl
      exact t c ((taken_more_removes hi c _).2 (.inl ⟨rfl, rfl⟩))
    rw [D.others y (by simpa using k)]
    exact A.others y (fun d s => q d ((put_more_removes hi d y).2 s)) (fun d s => t d ((taken_more_removes hi d y).2 (.inr s)))
  · intro d
    obtain ⟨old, new, e1, e2, e3, e4, e5⟩ := A.inside d
    have adds5 : ∀ (j : Nat) ys, ts[j]? = some (.adds d ys) → (ys.take (more n i j)).Sublist new := by
      intro j ys q
      have : j ≠ i := by rintro rfl; rw [hi] at q; cases q
      simp only [more, if_neg this]
      exact e5 j ys q
    by_cases k : d = c
    · subst k
      have xn : x ∉ new := fun q => np n d ((e4 x).1 q)
      refine ⟨old.filter fun y => decide (y ∉ [x]), new, ?_, List.filter_sublist.trans e2, fun y hy => ?_, fun y => ?_, adds5⟩
      · rw [D.inside, e1, List.filter_append]
        congr 1
        refine List.filter_eq_self.2 fun y hy => ?_
        simp only [List.mem_singleton, decide_not, Bool.not_eq_true', decide_eq_false_iff_not]
        rintro rfl
        exact xn hy
      · rw [List.mem_filter, e3 y hy, taken_more_removes hi]
        simp only [List.mem_singleton, decide_eq_true_eq, true_and, not_or]
        exact ⟨fun q => ⟨q.2, q.1⟩, fun q => ⟨q.2, q.1⟩⟩
      · rw [put_more_removes hi]; exact e4 y
    · refine ⟨old, new, by rw [D.elsewhere d k, e1], e2, fun y hy => ?_, fun y => ?_, adds5⟩
      · rw [e3 y hy, taken_more_removes hi]
        exact ⟨fun q o => o.elim (fun o => k o.1) q, fun q o => q (.inr o)⟩
      · rw [put_more_removes hi]; exact e4 y
  · intro y hy
    have k := K y (Nat.lt_of_lt_of_le hy A.size)
    rw [k.2.1, k.1, k.2.2]
    exact A.same y hy

/-- The state of tasks after `n i` steps of task `i`. -/
structure MixedAt (E : Env) (h : Heap) (ts : List Task) (n : Nat → Nat) (s : Heap × List Job) : Prop where
  reach : Reach E s.1
  heap : MixedSoFar h ts n s.1
  jobs : ∀ i : Nat, s.2[i]? = ts[i]?.map fun t : Task => t.after (n i)

theorem MixedAt.step {s : Heap × List Job} (M : Mixes h ts) (R : Reach E h) (A : MixedAt E h ts n s) (i : Nat) :
    MixedAt E h ts (more n i) (stepJob E i s) := by
  obtain ⟨h', js⟩ := s
  have hj := A.jobs i
  simp only at hj
  cases hi : ts[i]? with
  | none =>
    rw [hi] at hj
    have es : stepJob E i (h', js) = (h', js) := by simp [stepJob, hj]
    rw [es]
    have ne : ∀ {j : Nat} {t : Task}, ts[j]? = some t → more n i j = n j := by
      intro j t q
      have : j ≠ i := by rintro rfl; rw [hi] at q; cases q
      simp [more, this]
    refine ⟨A.reach, A.heap.congr (fun c x => ?_) (fun c x => ?_) (fun j c xs q => by rw [ne q]), fun j => ?_⟩
    · constructor
      all_goals
        rintro ⟨j, xs, a, b⟩
        have a' := a
        rw [List.getElem?_map] at a'
        cases q : ts[j]? with
        | none => rw [q] at a'; cases a'
        | some t => refine ⟨j, xs, a, ?_⟩; simpa only [ne q] using b
    · constructor
      all_goals
        rintro ⟨j, p, a, b⟩
        refine ⟨j, p, a, ?_⟩
        simpa only [ne a] using b
    · have := A.jobs j
      simp only at this ⊢
      rw [this]
      cases q : ts[j]? with
      | none => rfl
      | some t => rw [Option.map_some, Option.map_some, ne q]
  | some t =>
    rw [hi] at hj
    simp only [Option.map_some] at hj
    have hl : i < js.length := (List.getElem?_eq_some_iff.1 hj).1
    have es : stepJob E i (h', js) = (((t.after (n i)).step E h').2, js.set i ((t.after (n i)).step E h').1) := by
      simp [stepJob, hj]
    rw [es]
    have mi : more n i i = n i + 1 := by simp [more]
    have jobs' : ∀ j' : Job, j' = t.after (n i + 1) → ∀ j : Nat, (js.set i j')[j]? = ts[j]?.map fun t => t.after (more n i j) := by
      intro j' e j
      by_cases k : j = i
      · subst k
        rw [List.getElem?_set_self hl, hi, Option.map_some, mi, e]
      · rw [List.getElem?_set_ne (Ne.symm k)]
        have := A.jobs j
        simp only at this
        simp only [this, more, if_neg k]
    cases t with
    | adds c xs =>
      by_cases k : xs.length < n i
      · -- done already
        have e : (Task.adds c xs).after (n i) = .done (.ok ()) := by simp [Task.after, k]
        rw [e]
        refine ⟨A.reach, A.heap.congr (fun d y => ?_) (taken_more_adds hi) (fun j d ys q => ?_), jobs' _ ?_⟩
        · rw [put_more_adds hi, List.getElem?_eq_none (by omega)]
          simp
        · by_cases o : j = i
          · subst o
            rw [hi] at q
            cases q
            rw [mi, List.take_of_length_le (by omega), List.take_of_length_le (by omega)]
          · simp [more, o]
        · simp [Job.step, Task.after, show xs.length < n i + 1 by omega]
      · have e : (Task.adds c xs).after (n i) = .adding c (xs.drop (n i)) := by simp [Task.after, k]
        rw [e]
        cases hx : xs[n i]? with
        | none =>
          have ge : xs.length ≤ n i := List.getElem?_eq_none_iff.1 hx
          have nil : xs.drop (n i) = [] := List.drop_eq_nil_iff.2 ge
          rw [nil]
          refine ⟨A.reach, A.heap.congr (fun d y => ?_) (taken_more_adds hi) (fun j d ys q => ?_), jobs' _ ?_⟩
          · rw [put_more_adds hi, hx]
            simp
          · by_cases o : j = i
            · subst o
              rw [hi] at q
              cases q
              rw [mi, List.take_of_length_le (by omega), List.take_of_length_le (by omega)]
            · simp [more, o]
          · simp [Job.step, Task.after, show xs.length < n i + 1 by omega]
        | some x =>
          obtain ⟨lt, ex⟩ := List.getElem?_eq_some_iff.1 hx
          have cons : xs.drop (n i) = x :: xs.drop (n i + 1) := by rw [List.drop_eq_getElem_cons lt, ex]
          obtain ⟨h1, e1, R1, A1⟩ := A.heap.join M R A.reach hi hx
          have st : (Job.adding c (xs.drop (n i))).step E h' = (.adding c (xs.drop (n i + 1)), h1) := by
            rw [cons]
            simp only [Job.step, e1]
          rw [st]
          exact ⟨R1, A1, jobs' _ (by simp [Task.after, show ¬ xs.length < n i + 1 by omega])⟩
    | removes c p x =>
      cases k : n i with
      | zero =>
        obtain ⟨h1, e1, R1, A1⟩ := A.heap.detach M R A.reach hi k
        have st : ((Task.removes c p x).after 0).step E h' = (.thrown, h1) := by
          simp only [Task.after, Job.step, e1]
        rw [st]
        exact ⟨R1, A1, jobs' _ (by rw [k]; rfl)⟩
      | succ l =>
        have st : ((Task.removes c p x).after (l + 1)).step E h' = (.done (.error .runtimeError), h') := by
          cases l <;> rfl
        rw [st]
        refine ⟨A.reach, A.heap.congr (put_more_removes hi) (fun d y => ?_) (fun j d ys q => ?_), jobs' _ (by rw [k]; rfl)⟩
        · rw [taken_more_removes hi]
          constructor
          · rintro (⟨rfl, rfl⟩ | q)
            · exact ⟨i, p, hi, by omega⟩
            · exact q
          · exact .inr
        · have : j ≠ i := by rintro rfl; rw [hi] at q; cases q
          simp [more, this]

theorem MixedSoFar.zero (h : Heap) (ts : List Task) :
    MixedSoFar h ts (fun _ => 0) h := by
  have np : ∀ c x, ¬ PutInto (ts.map Task.batch) (fun _ => 0) c x := fun c x ⟨i, xs, _, b⟩ => by simp at b
  have nt : ∀ c x, ¬ TakenOut ts (fun _ => 0) c x := fun c x ⟨i, p, _, b⟩ => absurd b (by simp)
  exact ⟨Nat.le_refl _, fun c x q => absurd q (np c x), fun c x q => absurd q (nt c x), fun _ _ _ => rfl,
    fun c => ⟨h.subelements c, [], by simp, .refl _, fun x hx => ⟨fun _ => nt c x, fun _ => hx⟩,
      fun x => ⟨fun q => absurd q (by simp), fun q => absurd q (np c x)⟩, fun i xs _ => by simp⟩, fun _ _ => ⟨rfl, rfl, rfl⟩⟩

theorem mixed_runs (M : Mixes h ts) (R : Reach E h) : ∀ (s : List Nat) {n : Nat → Nat} {q : Heap × List Job}, MixedAt E h ts n q →
    MixedAt E h ts (fun i => n i + s.count i) (runJobs E s q)
  | [], n, q, A => by simpa [runJobs] using A
  | i :: s, n, q, A => by
    have := mixed_runs M R s (A.step M R i)
    refine (show (fun j => more n i j + s.count j) = (fun j => n j + (i :: s).count j) from ?_) ▸ this
    funext j
    rw [List.count_cons]
    unfold more
    by_cases k : j = i
    · subst k; simp; omega
    · have : (i == j) = false := by simpa using fun e => k e.symm
      simp [k, this]

end

/-- **C122.** Tasks of `add_elements` and of `remove_elements` that can run side by side have, after any schedule `s`, done
exactly what the numbers of their steps say, whatever the order of the steps: task `i` is as `Task.after` says after
`s.count i` steps, in particular no addition fails, and the hierarchy is as `MixedSoFar` says. -/
theorem C122_mixed {E : Env} {h : Heap} (R : Reach E h) {ts : List Task} (M : Mixes h ts) (s : List Nat) :
    Reach E (runJobs E s (h, ts.map Task.job)).1 ∧
    MixedSoFar h ts (fun i => s.count i) (runJobs E s (h, ts.map Task.job)).1 ∧
    ∀ i : Nat, (runJobs E s (h, ts.map Task.job)).2[i]? = ts[i]?.map fun t => t.after (s.count i) := by
  have A : MixedAt E h ts (fun _ => 0) (h, ts.map Task.job) := by
    refine ⟨R, .zero h ts, fun i => ?_⟩
    rw [List.getElem?_map]
    cases ts[i]? with
    | none => rfl
    | some t => cases t <;> simp [Task.job, Task.after]
  have B := mixed_runs M R s A
  simp only [Nat.zero_add] at B
  exact ⟨B.reach, B.heap, B.jobs⟩

/-- **C122.** Two schedules in which every task takes as many steps give the same tasks, the same parents and the same sets of
elements. -/
theorem C122_same_result {E : Env} {h : Heap} (R : Reach E h) {ts : List Task} (M : Mixes h ts) (s t : List Nat)
    (st : ∀ i, i < ts.length → s.count i = t.count i) :
    (runJobs E s (h, ts.map Task.job)).2 = (runJobs E t (h, ts.map Task.job)).2 ∧
    (∀ x, ((runJobs E s (h, ts.map Task.job)).1.get x).parent = ((runJobs E t (h, ts.map Task.job)).1.get x).parent) ∧
    ∀ c, ((runJobs E s (h, ts.map Task.job)).1.subelements c).Perm ((runJobs E t (h, ts.map Task.job)).1.subelements c) := by
  obtain ⟨Rs, As, js⟩ := C122_mixed R M s
  obtain ⟨Rt, At, jt⟩ := C122_mixed R M t
  have lt : ∀ {i : Nat} {a : Task}, ts[i]? = some a → s.count i = t.count i := fun q => st _ (List.getElem?_eq_some_iff.1 q).1
  have par : ∀ x, ((runJobs E s (h, ts.map Task.job)).1.get x).parent = ((runJobs E t (h, ts.map Task.job)).1.get x).parent := by
    intro x
    have put : ∀ c, PutInto (ts.map Task.batch) (fun i => s.count i) c x → PutInto (ts.map Task.batch) (fun i => t.count i) c x := by
      rintro c ⟨i, xs, a, b⟩
      refine ⟨i, xs, a, ?_⟩
      rw [List.getElem?_map] at a
      cases q : ts[i]? with
      | none => rw [q] at a; cases a
      | some z => simp only [← lt q]; exact b
    have tak : ∀ c, TakenOut ts (fun i => s.count i) c x → TakenOut ts (fun i => t.count i) c x := by
      rintro c ⟨i, p, a, b⟩
      exact ⟨i, p, a, by simp only [← lt a]; exact b⟩
    have put' : ∀ c, PutInto (ts.map Task.batch) (fun i => t.count i) c x → PutInto (ts.map Task.batch) (fun i => s.count i) c x := by
      rintro c ⟨i, xs, a, b⟩
      refine ⟨i, xs, a, ?_⟩
      rw [List.getElem?_map] at a
      cases q : ts[i]? with
      | none => rw [q] at a; cases a
      | some z => simp only [lt q]; exact b
    have tak' : ∀ c, TakenOut ts (fun i => t.count i) c x → TakenOut ts (fun i => s.count i) c x := by
      rintro c ⟨i, p, a, b⟩
      exact ⟨i, p, a, by simp only [lt a]; exact b⟩
    by_cases a : ∃ d, PutInto (ts.map Task.batch) (fun i => s.count i) d x
    · obtain ⟨d, a⟩ := a
      rw [As.placed d x a, At.placed d x (put d a)]
    · by_cases b : ∃ d, TakenOut ts (fun i => s.count i) d x
      · obtain ⟨d, b⟩ := b
        rw [As.removed d x b, At.removed d x (tak d b)]
      · rw [As.others x (fun d k => a ⟨d, k⟩) (fun d k => b ⟨d, k⟩),
          At.others x (fun d k => a ⟨d, put' d k⟩) (fun d k => b ⟨d, tak' d k⟩)]
  refine ⟨List.ext_getElem? fun i => ?_, par, fun c => ?_⟩
  · rw [js, jt]
    cases q : ts[i]? with
    | none => rfl
    | some a => rw [Option.map_some, Option.map_some, lt q]
  · have a := C01_containment_agrees Rs c
    have b := C01_containment_agrees Rt c
    exact (List.perm_ext_iff_of_nodup a.2 b.2).2 fun x => by rw [a.1, b.1, par]

/-! ## The hypotheses are met -/

/-- `2` leaves `0`, by its uuid, while `4` and `5` go to `1` and `6` goes to `4`; `3` leaves `0` by its name. -/
def mixedTasks : List Task := [.adds 1 [4, 5], .removes 0 ([], some (f7.get 2).uuid) 2, .adds 4 [6], .removes 0 ((f7.get 3).idName, none) 3]

theorem mixed_planned {c x : Ref} (p : Planned (mixedTasks.map Task.batch) c x) : Planned twoBatches c x := by
  obtain ⟨xs, hm, hx⟩ := p
  simp only [mixedTasks, Task.batch, List.map_cons, List.map_nil, List.mem_cons, Prod.mk.injEq, List.not_mem_nil, or_false] at hm
  rcases hm with ⟨rfl, rfl⟩ | ⟨rfl, rfl⟩ | ⟨rfl, rfl⟩ | ⟨rfl, rfl⟩
  · exact ⟨_, .head _, hx⟩
  · cases hx
  · exact ⟨_, .tail _ (.head _), hx⟩
  · cases hx

theorem mixed_holds {c x : Ref} (p : HoldsOrWill f7 (mixedTasks.map Task.batch) c x) : HoldsOrWill f7 twoBatches c x :=
  p.imp id mixed_planned

/-- These tasks can run side by side. -/
theorem mixed_mixes : Mixes f7 mixedTasks := by
  refine ⟨⟨by decide +kernel, fun c x p => two_compatible.free c x (mixed_planned p), by decide +kernel,
    fun c x y p q => two_compatible.uuids c x y (mixed_planned p) (mixed_holds q),
    fun x t => two_compatible.acyclic x (t.lift id fun _ _ p => mixed_holds p)⟩, ?_, ?_, ?_⟩
  · intro c p x hm
    simp only [mixedTasks, List.mem_cons, reduceCtorEq, Task.removes.injEq, List.not_mem_nil, or_false, false_or] at hm
    rcases hm with ⟨rfl, rfl, rfl⟩ | ⟨rfl, rfl, rfl⟩
    · exact ⟨by decide +kernel, .inl ⟨rfl, .inl rfl⟩⟩
    · exact ⟨by decide +kernel, .inr ⟨rfl, by decide +kernel, rfl, by decide +kernel⟩⟩
  · intro c p x hm _ y hy
    simp only [mixedTasks, List.mem_cons, reduceCtorEq, Task.removes.injEq, List.not_mem_nil, or_false, false_or] at hm
    rcases planned_two (mixed_planned hy) with ⟨rfl, rfl⟩ | ⟨rfl, rfl⟩ | ⟨rfl, rfl⟩ <;>
      rcases hm with ⟨k, rfl, rfl⟩ | ⟨k, rfl, rfl⟩ <;> exact absurd k (by decide)
  · intro i j c d p q x hi hj
    match i, j, hi, hj with
    | 1, 1, _, _ => rfl
    | 3, 3, _, _ => rfl
    | 1, 3, hi, hj => cases hi; cases hj
    | 3, 1, hi, hj => cases hi; cases hj
    | 0, _, hi, _ => cases hi
    | 2, _, hi, _ => cases hi
    | n + 4, _, hi, _ => cases hi
    | _, 0, _, hj => cases hj
    | _, 2, _, hj => cases hj
    | _, n + 4, _, hj => cases hj

/-- **C122.** A case: two removals between the steps of two additions. -/
theorem C122_case : let r := runJobs E0 [0, 1, 2, 3, 0, 1, 0, 2, 3] (f7, mixedTasks.map Task.job)
    r.1.subelements 0 = [1] ∧ r.1.subelements 1 = [4, 5] ∧ (r.1.get 6).parent = some 4 ∧ (r.1.get 2).parent = none := by
  intro r
  obtain ⟨-, A, -⟩ := C122_mixed reach_f7 mixed_mixes [0, 1, 2, 3, 0, 1, 0, 2, 3]
  exact ⟨by decide +kernel, by decide +kernel, A.placed 4 6 ⟨2, [6], rfl, by decide⟩, A.removed 0 2 ⟨1, _, rfl, by decide⟩⟩

/-- `7`: a node in no container, named as `1` is. -/
def f8 : Heap := (mkNode ['a'] 24 none).after E0 f7

theorem reach_f8 : Reach E0 f8 := .step _ reach_f7 ⟨rfl, okNone⟩ trivial

/-- The guard is needed: if an element with the name that a removal looks for is added meanwhile, it depends on the order
whether it is found by its name afterwards. -/
theorem C122_same_name_refuted : ∃ (E : Env) (h : Heap), Reach E h ∧
    ∃ js : List Job, js = removeElementsJobs 0 [(['a'], none)] ++ addElementsJobs 0 [7] ∧
    (h.get 1).idName = ['a'] ∧ (h.get 1).parent = some 0 ∧ (h.get 7).idName = ['a'] ∧ (h.get 7).parent = none ∧
    getElementByIdName (runJobs E [0, 1, 0, 1] (h, js)).1 0 ['a'] = .ok [7] ∧
    getElementByIdName (runJobs E [1, 0, 1, 0] (h, js)).1 0 ['a'] = .ok [] ∧
    7 ∈ (runJobs E [1, 0, 1, 0] (h, js)).1.subelements 0 :=
  ⟨E0, f8, reach_f8, _, rfl, by decide +kernel, by decide +kernel, by decide +kernel, by decide +kernel, by decide +kernel,
    by decide +kernel, by decide +kernel⟩

end Rei
