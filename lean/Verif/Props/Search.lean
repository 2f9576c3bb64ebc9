import Verif.Spec.Search
import Verif.Props.Traversal

/-!
# C46–C48: searches by qualified name
-/
namespace Rei
open PyM Sample

variable {h : Heap}

/-! ## C46 -/

/-- The test of a search. -/
def isHit (h : Heap) (d : Str) (x : Ref) : Bool := decide ((h.get x).qualName = d)

theorem searchSub_level (A B : List Ref) (n : Nat) (Q : Query) :
    ∃ lo, searchSub h (n + A.length) (A ++ B) Q =
      match A.find? (isHit h Q.queryDef) with
      | some x => ⟨.ok (), Q.found h x, lo⟩
      | none => searchSub h n (B ++ A.flatMap h.subelements) Q := by
  induction A generalizing B with
  | nil => exact ⟨[], by simp⟩
  | cons x A ih =>
    rw [List.length_cons, ← Nat.add_assoc, List.cons_append, searchSub]
    by_cases hx : (h.get x).qualName = Q.queryDef
    · have : isHit h Q.queryDef x = true := by simp [isHit, hx]
      rw [if_pos hx, List.find?_cons_of_pos this]
      exact ⟨_, rfl⟩
    · have : ¬ isHit h Q.queryDef x = true := by simp [isHit, hx]
      rw [if_neg hx, List.find?_cons_of_neg this, List.append_assoc]
      obtain ⟨lo, e⟩ := ih (B ++ h.subelements x)
      refine ⟨lo, ?_⟩
      rw [e, List.flatMap_cons, List.append_assoc]

/-- Iterated children of a list. -/
def kidsN (h : Heap) (L : List Ref) : Nat → List Ref
  | 0 => L
  | n + 1 => (kidsN h L n).flatMap h.subelements

theorem kidsN_shift (L : List Ref) (n : Nat) : kidsN h (L.flatMap h.subelements) n = kidsN h L (n + 1) := by
  induction n with
  | zero => rfl
  | succ n ih => rw [kidsN, ih]; rfl

theorem level_kidsN (x : Ref) (n : Nat) : level h (fun _ => true) x n = kidsN h [x] n := by
  induction n with
  | zero => rfl
  | succ n ih =>
    rw [level, ih, kidsN]
    congr 1
    funext y
    exact List.filter_eq_self.2 fun _ _ => rfl

theorem searchSub_ok (K : Nat) (L : List Ref) (Q : Query) (hK : kidsN h L K = []) (n : Nat)
    (hn : ((List.range K).flatMap (kidsN h L)).length < n) :
    ∃ lo, searchSub h n L Q = match ((List.range K).flatMap (kidsN h L)).find? (isHit h Q.queryDef) with
      | some x => ⟨.ok (), Q.found h x, lo⟩
      | none => ⟨.ok (), Q, []⟩ := by
  induction K generalizing L n with
  | zero =>
    obtain ⟨m, rfl⟩ : ∃ m, n = m + 1 := ⟨n - 1, by omega⟩
    have : L = [] := hK
    subst this
    exact ⟨[], rfl⟩
  | succ K ih =>
    rw [List.range_succ_eq_map, List.flatMap_cons, List.flatMap_map] at hn ⊢
    have e : (fun a => kidsN h L a.succ) = kidsN h (L.flatMap h.subelements) := by
      funext k; rw [kidsN_shift]
    rw [e, List.length_append] at hn
    rw [e, List.find?_append]
    have hl : (kidsN h L 0).length = L.length := rfl
    obtain ⟨m, rfl⟩ : ∃ m, n = m + L.length := ⟨n - L.length, by omega⟩
    obtain ⟨lo, e1⟩ := searchSub_level (h := h) L [] m Q
    rw [List.append_nil, List.nil_append] at e1
    rw [e1]
    rw [show kidsN h L 0 = L from rfl]
    cases hf : L.find? (isHit h Q.queryDef) with
    | some x => exact ⟨lo, rfl⟩
    | none =>
      obtain ⟨lo', e2⟩ := ih (L.flatMap h.subelements) (by rw [kidsN_shift]; exact hK) m (by omega)
      exact ⟨lo', e2⟩

theorem mem_subtree {E : Env} (R : Reach E h) {start : Ref} (hs : start < h.size) {y : Ref} :
    y ∈ subtree h start ↔ Within h start y := by
  have hC := C01_containment_agrees R
  unfold subtree
  simp only [List.mem_flatMap, List.mem_range, mem_level]
  constructor
  · rintro ⟨n, _, q⟩
    cases n with
    | zero => cases q; exact .inl rfl
    | succ n => exact .inr (q.anc hC)
  · intro q
    suffices ∃ n, DownTo h (fun _ => true) start n y by
      obtain ⟨n, q⟩ := this
      exact ⟨n, q.lt_size R hs, q⟩
    rcases q with rfl | q
    · exact ⟨0, .start⟩
    · induction q with
      | direct hp => exact ⟨1, .step .start ((hC _).1 _ |>.2 hp) rfl⟩
      | up hp _ ih =>
        obtain ⟨n, q⟩ := ih hs
        exact ⟨n + 1, .step q ((hC _).1 _ |>.2 hp) rfl⟩

/-- Elements in different levels differ, so the list of the subtree has no repetitions. -/
theorem subtree_nodup {E : Env} (R : Reach E h) {start : Ref} (hs : start < h.size) :
    (subtree h start).Nodup := by
  have hC := C01_containment_agrees R
  unfold subtree
  rw [List.nodup_flatMap]
  refine ⟨fun n _ => level_nodup hC start n, ?_⟩
  refine List.Pairwise.imp ?_ List.nodup_range
  intro a b hab
  rw [Function.onFun, List.disjoint_left]
  intro y ha hb
  exact hab ((mem_level.1 ha).unique R hs (mem_level.1 hb))

theorem within_lt {E : Env} (R : Reach E h) {start y : Ref} (hs : start < h.size) (q : Within h start y) :
    y < h.size := by
  rcases q with rfl | q
  · exact hs
  · cases q with
    | direct hp => exact R.good.inv.lt_of_parent hp
    | up hp _ => exact R.good.inv.lt_of_parent hp

theorem subtree_length {E : Env} (R : Reach E h) {start : Ref} (hs : start < h.size) :
    (subtree h start).length ≤ h.size := by
  have : (subtree h start).Subperm (List.range h.size) :=
    (subtree_nodup R hs).subperm fun y hy =>
      List.mem_range.2 (within_lt R hs ((mem_subtree R hs).1 hy))
  simpa using this.length_le

theorem subtree_end {E : Env} (R : Reach E h) {start : Ref} (hs : start < h.size) :
    kidsN h [start] h.size = [] := by
  rw [← level_kidsN, List.eq_nil_iff_forall_not_mem]
  intro y hy
  have := (mem_level.1 hy).lt_size R hs
  omega

theorem subtree_kidsN (start : Ref) : subtree h start = (List.range h.size).flatMap (kidsN h [start]) := by
  unfold subtree
  congr 1
  funext n
  exact level_kidsN start n

/-- **C46.** With an idle queue, an object that has not cached the queried name, and a stack deep enough for
the subtree, `QuerySearchSubElement.execute(start)` returns the first element, in breadth-first order, at or
below `start` with that qualified name, and nothing if there is none. -/
theorem C46_first {E : Env} (R : Reach E h) {start budget : Nat} (hs : start < h.size) {Q : Query}
    (hc : Q.cache.get? Q.queryDef = none) (hb : (subtree h start).length < budget) :
    (Q.executeSub h budget start []).outcome = .ok () ∧
    (Q.executeSub h budget start []).query.result =
      ((subtree h start).find? fun x => decide ((h.get x).qualName = Q.queryDef)).toList := by
  have e : Q.executeSub h budget start [] = searchSub h budget [start] { Q with result := [] } := by
    simp [Query.executeSub, Query.execute, hc]
  rw [e]
  rw [subtree_kidsN] at hb ⊢
  obtain ⟨lo, e1⟩ := searchSub_ok h.size [start] { Q with result := [] } (subtree_end R hs) budget hb
  rw [e1]
  show _ ∧ _ = Option.toList (List.find? (isHit h Q.queryDef) _)
  cases (List.flatMap (kidsN h [start]) (List.range h.size)).find? (isHit h Q.queryDef) with
  | none => exact ⟨rfl, rfl⟩
  | some x => exact ⟨rfl, rfl⟩

/-- **C46, found.** The result is empty exactly when nothing at or below `start` has the name; otherwise it
is one element at or below `start` that has it. -/
theorem C46_found {E : Env} (R : Reach E h) {start budget : Nat} (hs : start < h.size) {Q : Query}
    (hc : Q.cache.get? Q.queryDef = none) (hb : h.size < budget) :
    ((Q.executeSub h budget start []).query.result = [] ↔
      ∀ y, Within h start y → (h.get y).qualName ≠ Q.queryDef) ∧
    ((Q.executeSub h budget start []).query.result ≠ [] → ∃ x,
      (Q.executeSub h budget start []).query.result = [x] ∧ Within h start x ∧
      (h.get x).qualName = Q.queryDef) := by
  obtain ⟨_, e⟩ := C46_first R hs hc (Nat.lt_of_le_of_lt (subtree_length R hs) hb)
  rw [e]
  cases hf : (subtree h start).find? fun x => decide ((h.get x).qualName = Q.queryDef) with
  | none =>
    refine ⟨⟨fun _ y hy e => ?_, fun _ => rfl⟩, fun q => absurd rfl q⟩
    have := List.find?_eq_none.1 hf y ((mem_subtree R hs).2 hy)
    simp [e] at this
  | some x =>
    have hx := List.find?_some hf
    simp only [decide_eq_true_eq] at hx
    have hm := (mem_subtree R hs).1 (List.mem_of_find?_eq_some hf)
    refine ⟨⟨fun q => (by cases q), fun q => absurd hx (q x hm)⟩, fun _ => ⟨x, rfl, hm, hx⟩⟩

/-- **C46, stack.** A stack deeper than the number of objects is enough. -/
theorem C46_stack {E : Env} (R : Reach E h) {start : Ref} (hs : start < h.size) :
    (subtree h start).length ≤ h.size ∧ (subtree h start).Nodup ∧
    ∀ y, y ∈ subtree h start ↔ Within h start y :=
  ⟨subtree_length R hs, subtree_nodup R hs, fun _ => mem_subtree R hs⟩

/-- A concrete case: two elements have the queried name; the first one is returned. -/
example : (Query.executeSub g10 20 0 [] { queryDef := ['r', '/', 'a'] }).query.result = [1] ∧
    (g10.get 9).qualName = ['r', '/', 'a'] ∧
    (Query.executeSub g10 20 0 [] { queryDef := ['a'] }).query.result = [] := by decide +kernel

/-! ## C48 -/

/-- `v` is a uuid that was seen. -/
abbrev Seen (h : Heap) (V : List Bytes) (x : Ref) : Prop := (h.get x).uuid ∈ V

/-- The search from this queue and set of seen uuids returns if the stack is deep enough. -/
def Halts (h : Heap) (Q : Query) (V : List Bytes) (q : List Ref) : Prop :=
  ∃ N, ∀ n, N ≤ n → (searchAll h n V q Q).outcome = .ok ()

/-- What is put on the queue behind the others after `x` was taken. -/
def pushed (h : Heap) (V : List Bytes) (x : Ref) : List Ref :=
  (h.subelements x).filter (fun n => decide ((h.get n).uuid ∉ (h.get x).uuid :: V)) ++
    (h.get x).parent.toList

theorem searchAll_cons {Q : Query} {V : List Bytes} {x : Ref} {q : List Ref} {n : Nat}
    (hx : (h.get x).qualName ≠ Q.queryDef) :
    searchAll h (n + 1) V (x :: q) Q =
      searchAll h n ((h.get x).uuid :: V) (q ++ pushed h V x) Q := by
  rw [searchAll]
  simp only [if_neg hx, pushed, List.append_assoc]

theorem Halts.nil (Q : Query) (V : List Bytes) : Halts h Q V [] :=
  ⟨1, fun n hn => by obtain ⟨m, rfl⟩ : ∃ m, n = m + 1 := ⟨n - 1, by omega⟩; rfl⟩

theorem Halts.cons {Q : Query} {V : List Bytes} {x : Ref} {q : List Ref}
    (H : Halts h Q ((h.get x).uuid :: V) (q ++ pushed h V x)) : Halts h Q V (x :: q) := by
  by_cases hx : (h.get x).qualName = Q.queryDef
  · refine ⟨1, fun n hn => ?_⟩
    obtain ⟨m, rfl⟩ : ∃ m, n = m + 1 := ⟨n - 1, by omega⟩
    rw [searchAll, if_pos hx]
  · obtain ⟨N, hN⟩ := H
    refine ⟨N + 1, fun n hn => ?_⟩
    obtain ⟨m, rfl⟩ : ∃ m, n = m + 1 := ⟨n - 1, by omega⟩
    rw [searchAll_cons hx]
    exact hN m (by omega)

/-- The number of objects whose uuid was not seen. -/
def unseen (h : Heap) (V : List Bytes) : Nat :=
  ((List.range h.size).filter fun x => decide ((h.get x).uuid ∉ V)).length

theorem filter_length_lt {α : Type} {p q : α → Bool} {l : List α} (hpq : ∀ a ∈ l, p a = true → q a = true)
    {a : α} (ha : a ∈ l) (hp : p a = false) (hq : q a = true) :
    (l.filter p).length < (l.filter q).length := by
  induction l with
  | nil => cases ha
  | cons b l ih =>
    have mono : ∀ l : List α, (∀ a ∈ l, p a = true → q a = true) →
        (l.filter p).length ≤ (l.filter q).length := by
      intro l hl
      induction l with
      | nil => simp
      | cons c l ih =>
        have i := ih fun a ha => hl a (List.mem_cons_of_mem _ ha)
        have := hl c List.mem_cons_self
        by_cases hc : p c = true
        · rw [List.filter_cons_of_pos hc, List.filter_cons_of_pos (this hc)]; simpa using i
        · rw [List.filter_cons_of_neg hc]
          by_cases hc' : q c = true
          · rw [List.filter_cons_of_pos hc', List.length_cons]; omega
          · rw [List.filter_cons_of_neg hc']; exact i
    have hpq' : ∀ a ∈ l, p a = true → q a = true := fun a ha => hpq a (List.mem_cons_of_mem _ ha)
    rcases List.mem_cons.1 ha with rfl | ha
    · rw [List.filter_cons_of_neg (by simp [hp]), List.filter_cons_of_pos hq, List.length_cons]
      have := mono l hpq'
      omega
    · have := ih hpq' ha
      by_cases hb : p b = true
      · rw [List.filter_cons_of_pos hb, List.filter_cons_of_pos (hpq b List.mem_cons_self hb)]
        simpa using this
      · rw [List.filter_cons_of_neg hb]
        by_cases hb' : q b = true
        · rw [List.filter_cons_of_pos hb', List.length_cons]; omega
        · rw [List.filter_cons_of_neg hb']; exact this

theorem unseen_lt {V : List Bytes} {x : Ref} (hx : x < h.size) (hs : ¬ Seen h V x) :
    unseen h ((h.get x).uuid :: V) < unseen h V := by
  refine filter_length_lt ?_ (List.mem_range.2 hx) ?_ ?_
  · intro a _ ha
    simp only [List.mem_cons, not_or, decide_eq_true_eq] at ha ⊢
    exact ha.2
  · simp
  · simpa using hs

theorem unseen_same {V : List Bytes} {x : Ref} (hs : Seen h V x) :
    unseen h ((h.get x).uuid :: V) = unseen h V := by
  unfold unseen
  congr 2
  funext a
  simp only [decide_eq_decide, List.mem_cons, not_or]
  constructor
  · rintro ⟨_, q⟩; exact q
  · intro q; exact ⟨fun e => q (e ▸ hs), q⟩

theorem pushed_lt {E : Env} (R : Reach E h) {V : List Bytes} {x y : Ref} (hy : y ∈ pushed h V x) :
    y < h.size := by
  have I := R.good.inv
  rcases List.mem_append.1 hy with hy | hy
  · exact I.lt_of_parent ((C01_containment_agrees R _).1 _ |>.1 (List.mem_filter.1 hy).1)
  · rw [Option.mem_toList] at hy
    exact I.parent_lt hy

/-- All of the queue exists. -/
def InHeap (h : Heap) (q : List Ref) : Prop := ∀ x ∈ q, x < h.size

theorem InHeap.step {E : Env} (R : Reach E h) {V : List Bytes} {x : Ref} {q : List Ref}
    (H : InHeap h (x :: q)) : InHeap h (q ++ pushed h V x) := by
  intro y hy
  rcases List.mem_append.1 hy with hy | hy
  · exact H y (List.mem_cons_of_mem _ hy)
  · exact pushed_lt R hy

/-- **C48, termination.** -/
theorem halts_all {E : Env} (R : Reach E h) (Q : Query) (u : Nat) : ∀ (V : List Bytes) (q : List Ref),
    unseen h V = u → InHeap h q → Halts h Q V q := by
  obtain ⟨rank, hrank⟩ := R.good.inv.rank
  induction u using Nat.strongRecOn with
  | _ u IH =>
  -- an unseen element at position `i`
  have B : ∀ (i : Nat) (V : List Bytes) (q : List Ref), unseen h V = u → InHeap h q →
      (∃ y, q[i]? = some y ∧ ¬ Seen h V y) → Halts h Q V q := by
    intro i
    induction i with
    | zero =>
      rintro V q hu hq ⟨y, hy, hns⟩
      cases q with
      | nil => cases hy
      | cons x q =>
        simp only [List.getElem?_cons_zero, Option.some.injEq] at hy
        subst hy
        refine Halts.cons (IH _ ?_ _ _ rfl (hq.step R))
        rw [← hu]
        exact unseen_lt (hq x List.mem_cons_self) hns
    | succ i ih =>
      rintro V q hu hq ⟨y, hy, hns⟩
      cases q with
      | nil => cases hy
      | cons x q =>
        by_cases hx : Seen h V x
        · refine Halts.cons (ih _ _ (by rw [unseen_same hx, hu]) (hq.step R) ⟨y, ?_, ?_⟩)
          · simp only [List.getElem?_cons_succ] at hy
            rw [List.getElem?_append_left]
            · exact hy
            · exact (List.getElem?_eq_some_iff.1 hy).1
          · intro hs
            rcases List.mem_cons.1 hs with e | hs
            · exact hns (by rw [Seen, e]; exact hx)
            · exact hns hs
        · refine Halts.cons (IH _ ?_ _ _ rfl (hq.step R))
          rw [← hu]
          exact unseen_lt (hq x List.mem_cons_self) hx
  have B' : ∀ (V : List Bytes) (q : List Ref), unseen h V = u → InHeap h q →
      (∃ y ∈ q, ¬ Seen h V y) → Halts h Q V q := by
    rintro V q hu hq ⟨y, hy, hns⟩
    obtain ⟨i, hi⟩ := List.mem_iff_getElem?.1 hy
    exact B i V q hu hq ⟨y, hi, hns⟩
  -- nothing unseen on the queue
  have C : ∀ (s : Nat) (V : List Bytes) (q : List Ref), unseen h V = u → InHeap h q →
      (∀ y ∈ q, Seen h V y) → (q.map fun x => rank x + 1).sum ≤ s → Halts h Q V q := by
    intro s
    induction s with
    | zero =>
      intro V q hu hq hs hsum
      cases q with
      | nil => exact Halts.nil _ _
      | cons x q => simp at hsum
    | succ s ih =>
      intro V q hu hq hs hsum
      cases q with
      | nil => exact Halts.nil _ _
      | cons x q =>
        have hx := hs x List.mem_cons_self
        have hu' : unseen h ((h.get x).uuid :: V) = u := by rw [unseen_same hx, hu]
        apply Halts.cons
        by_cases hall : ∀ y ∈ q ++ pushed h V x, Seen h ((h.get x).uuid :: V) y
        · refine ih _ _ hu' (hq.step R) hall ?_
          have hk : (h.subelements x).filter
              (fun n => decide ((h.get n).uuid ∉ (h.get x).uuid :: V)) = [] := by
            rw [List.filter_eq_nil_iff]
            intro n hn hd
            simp only [decide_eq_true_eq] at hd
            refine hd (hall n (List.mem_append_right _ (List.mem_append_left _ ?_)))
            exact List.mem_filter.2 ⟨hn, by simpa using hd⟩
          unfold pushed
          rw [hk, List.nil_append, List.map_append, List.sum_append]
          simp only [List.map_cons, List.sum_cons] at hsum
          cases hp : (h.get x).parent with
          | none => simp; omega
          | some p =>
            have := hrank x p hp
            simp; omega
        · refine B' _ _ hu' (hq.step R) ?_
          apply Classical.byContradiction
          intro hne
          exact hall fun y hy => Classical.byContradiction fun hns => hne ⟨y, hy, hns⟩
  intro V q hu hq
  by_cases hall : ∀ y ∈ q, Seen h V y
  · exact C _ V q hu hq hall (Nat.le_refl _)
  · refine B' _ _ hu hq ?_
    apply Classical.byContradiction
    intro hne
    exact hall fun y hy => Classical.byContradiction fun hns => hne ⟨y, hy, hns⟩

/-- **C48, termination.** A search of the whole tree ends, for every start element, every query object and
whatever earlier searches left on the queue, if the stack is deep enough. -/
theorem C48_terminates {E : Env} (R : Reach E h) {start : Ref} (hs : start < h.size) {shared : List Ref}
    (hq : ∀ x ∈ shared, x < h.size) (Q : Query) :
    ∃ N, ∀ budget, N ≤ budget → (Q.executeAll h budget start shared).outcome = .ok () := by
  unfold Query.executeAll Query.execute
  simp only
  cases hc : Q.cache.get? Q.queryDef with
  | some x => exact ⟨0, fun _ _ => rfl⟩
  | none =>
    obtain ⟨N, hN⟩ := halts_all R { Q with result := [] } _ [] (shared ++ [start]) rfl (by
      intro x hx
      rcases List.mem_append.1 hx with hx | hx
      · exact hq x hx
      · rw [List.mem_singleton] at hx; rw [hx]; exact hs)
    exact ⟨N, hN⟩

theorem SameTree.self (x : Ref) : SameTree h x x := ⟨x, .inl rfl, .inl rfl⟩

theorem SameTree.child {start x c : Ref} (s : SameTree h start x) (hc : (h.get c).parent = some x) :
    SameTree h start c := by
  obtain ⟨r, a, b⟩ := s
  refine ⟨r, a, .inr ?_⟩
  rcases b with rfl | b
  · exact .direct hc
  · exact .up hc b

theorem anc_trans {a b c : Ref} (p : Anc h a b) (q : Anc h b c) : Anc h a c := by
  induction q with
  | direct hp => exact .up hp p
  | up hp _ ih => exact .up hp (ih p)

theorem SameTree.parent {start x p : Ref} (s : SameTree h start x) (hp : (h.get x).parent = some p) :
    SameTree h start p := by
  obtain ⟨r, a, b⟩ := s
  rcases b with rfl | b
  · refine ⟨p, .inr ?_, .inl rfl⟩
    rcases a with rfl | a
    · exact .direct hp
    · exact anc_trans (.direct hp) a
  · refine ⟨r, a, ?_⟩
    cases b with
    | direct hp' => rw [hp] at hp'; cases hp'; exact .inl rfl
    | up hp' b => rw [hp] at hp'; cases hp'; exact .inr b

/-- The invariant of a search that has found nothing so far: `P` are the elements taken from the queue. -/
structure Searching (h : Heap) (start : Ref) (d : Str) (V : List Bytes) (q P : List Ref) : Prop where
  seen : ∀ u, u ∈ V ↔ ∃ x ∈ P, (h.get x).uuid = u
  miss : ∀ x ∈ P, (h.get x).qualName ≠ d
  tree : ∀ x ∈ P ++ q, SameTree h start x
  start : start ∈ P ++ q
  kids : ∀ x ∈ P, ∀ c ∈ h.subelements x, c ∈ P ++ q
  up : ∀ x ∈ P, ∀ p, (h.get x).parent = some p → p ∈ P ++ q

theorem Searching.step {E : Env} (R : Reach E h) {start : Ref} (hd : TreeUuidsDistinct h start) {d : Str}
    {V : List Bytes} {x : Ref} {q P : List Ref} (S : Searching h start d V (x :: q) P)
    (hx : (h.get x).qualName ≠ d) :
    Searching h start d ((h.get x).uuid :: V) (q ++ pushed h V x) (x :: P) := by
  have hC := C01_containment_agrees R
  have hxt : SameTree h start x := S.tree x (by simp)
  have mono : ∀ y ∈ P ++ x :: q, y ∈ (x :: P) ++ (q ++ pushed h V x) := by
    intro y hy
    simp only [List.mem_append, List.mem_cons] at hy ⊢
    rcases hy with hy | rfl | hy
    · exact .inl (.inr hy)
    · exact .inl (.inl rfl)
    · exact .inr (.inl hy)
  refine ⟨?_, ?_, ?_, mono _ S.start, ?_, ?_⟩
  · intro u
    simp only [List.mem_cons, S.seen]
    constructor
    · rintro (rfl | ⟨y, hy, e⟩)
      · exact ⟨x, .inl rfl, rfl⟩
      · exact ⟨y, .inr hy, e⟩
    · rintro ⟨y, rfl | hy, e⟩
      · exact .inl e.symm
      · exact .inr ⟨y, hy, e⟩
  · intro y hy
    rcases List.mem_cons.1 hy with rfl | hy
    · exact hx
    · exact S.miss y hy
  · intro y hy
    simp only [List.mem_append, List.mem_cons] at hy
    rcases hy with (rfl | hy) | hy | hy
    · exact hxt
    · exact S.tree y (by simp [hy])
    · exact S.tree y (by simp [hy])
    · rcases List.mem_append.1 hy with hy | hy
      · exact hxt.child ((hC _).1 _ |>.1 (List.mem_filter.1 hy).1)
      · rw [Option.mem_toList] at hy
        exact hxt.parent hy
  · intro y hy c hc
    rcases List.mem_cons.1 hy with rfl | hy
    · by_cases hs : (h.get c).uuid ∈ (h.get y).uuid :: V
      · have hct : SameTree h start c := hxt.child ((hC _).1 _ |>.1 hc)
        rcases List.mem_cons.1 hs with e | hs
        · rw [hd c y hct hxt e]; simp
        · obtain ⟨z, hz, e⟩ := (S.seen _).1 hs
          rw [hd c z hct (S.tree z (by simp [hz])) e.symm]
          simp [hz]
      · refine List.mem_append_right _ (List.mem_append_right _ (List.mem_append_left _ ?_))
        exact List.mem_filter.2 ⟨hc, by simpa using hs⟩
    · exact mono _ (S.kids y hy c hc)
  · intro y hy p hp
    rcases List.mem_cons.1 hy with rfl | hy
    · refine List.mem_append_right _ (List.mem_append_right _ (List.mem_append_right _ ?_))
      rw [Option.mem_toList]; exact hp
    · exact mono _ (S.up y hy p hp)

theorem Searching.finish {E : Env} (R : Reach E h) {start : Ref} {d : Str} {V : List Bytes} {P : List Ref}
    (S : Searching h start d V [] P) {y : Ref} (hy : SameTree h start y) : (h.get y).qualName ≠ d := by
  have hC := C01_containment_agrees R
  have S1 := S.start
  have S2 := S.kids
  have S3 := S.up
  rw [List.append_nil] at S1
  simp only [List.append_nil] at S2 S3
  apply S.miss
  have up : ∀ r z, Anc h r z → z ∈ P → r ∈ P := by
    intro r z q hz
    induction q with
    | direct hp => exact S3 _ hz _ hp
    | up hp _ ih => exact ih (S3 _ hz _ hp)
  have down : ∀ r z, Anc h r z → r ∈ P → z ∈ P := by
    intro r z q hr
    induction q with
    | direct hp => exact S2 _ hr _ ((hC _).1 _ |>.2 hp)
    | up hp _ ih => exact S2 _ (ih hr) _ ((hC _).1 _ |>.2 hp)
  obtain ⟨r, a, b⟩ := hy
  have hr : r ∈ P := by
    rcases a with rfl | a
    · exact S1
    · exact up _ _ a S1
  rcases b with rfl | b
  · exact hr
  · exact down _ _ b hr

/-- What a search that returns has found. -/
theorem searchAll_result {E : Env} (R : Reach E h) {start : Ref} (hd : TreeUuidsDistinct h start) {Q : Query}
    (n : Nat) : ∀ (V : List Bytes) (q P : List Ref), Searching h start Q.queryDef V q P →
    (searchAll h n V q Q).outcome = .ok () →
    ((searchAll h n V q Q).query = Q ∧ (searchAll h n V q Q).queue = [] ∧
      ∀ y, SameTree h start y → (h.get y).qualName ≠ Q.queryDef) ∨
    ∃ x, (searchAll h n V q Q).query = Q.found h x ∧ SameTree h start x ∧
      (h.get x).qualName = Q.queryDef := by
  induction n with
  | zero => intro V q P _ e; cases e
  | succ n ih =>
    intro V q P S e
    cases q with
    | nil => exact .inl ⟨rfl, rfl, fun y hy => S.finish R hy⟩
    | cons x q =>
      by_cases hx : (h.get x).qualName = Q.queryDef
      · right
        refine ⟨x, ?_, S.tree x (by simp), hx⟩
        rw [searchAll, if_pos hx]
      · rw [searchAll_cons hx] at e ⊢
        exact ih _ _ _ (S.step R hd hx) e

/-- **C48.** In a tree whose elements have different uuids, with an idle queue, an object that has not cached
the queried name, and enough stack, `QuerySearchElement.execute(start)` returns; its result is one element of
the tree with that qualified name, or empty if there is none. -/
theorem C48_complete {E : Env} (R : Reach E h) {start : Ref} (hs : start < h.size)
    (hd : TreeUuidsDistinct h start) {Q : Query} (hc : Q.cache.get? Q.queryDef = none) :
    ∃ N, ∀ budget, N ≤ budget →
      (Q.executeAll h budget start []).outcome = .ok () ∧
      ((Q.executeAll h budget start []).query.result = [] ↔
        ∀ y, SameTree h start y → (h.get y).qualName ≠ Q.queryDef) ∧
      ((Q.executeAll h budget start []).query.result ≠ [] → ∃ x,
        (Q.executeAll h budget start []).query.result = [x] ∧ SameTree h start x ∧
        (h.get x).qualName = Q.queryDef) := by
  obtain ⟨N, hN⟩ := C48_terminates R hs (shared := []) (fun _ q => by cases q) Q
  refine ⟨N, fun b hb => ?_⟩
  have e := hN b hb
  refine ⟨e, ?_⟩
  have e0 : Q.executeAll h b start [] = searchAll h b [] [start] { Q with result := [] } := by
    simp [Query.executeAll, Query.execute, hc]
  rw [e0] at e ⊢
  have S : Searching h start Q.queryDef [] [start] [] := by
    refine ⟨by simp, by simp, ?_, by simp, by simp, by simp⟩
    intro x hx
    simp only [List.nil_append, List.mem_singleton] at hx
    rw [hx]; exact .self _
  rcases searchAll_result R hd (Q := { Q with result := [] }) b [] [start] [] S e with
    ⟨q, _, hn⟩ | ⟨x, q, hx, hx'⟩
  · rw [q]
    exact ⟨⟨fun _ => hn, fun _ => rfl⟩, fun c => absurd rfl c⟩
  · rw [q]
    refine ⟨⟨fun c => ?_, fun c => absurd hx' (c x hx)⟩, fun _ => ⟨x, rfl, hx, hx'⟩⟩
    simp [Query.found] at c

/-! ## C47 -/

theorem searchSub_quiet {Q : Query} (n : Nat) : ∀ (q : List Ref), Q.result = [] →
    (searchSub h n q Q).outcome = .ok () → (searchSub h n q Q).query.result = [] →
    (searchSub h n q Q).query = Q ∧ (searchSub h n q Q).queue = [] := by
  induction n with
  | zero => intro q _ e; cases e
  | succ n ih =>
    intro q hQ e er
    cases q with
    | nil => exact ⟨rfl, rfl⟩
    | cons x q =>
      rw [searchSub] at e er ⊢
      split at e
      · next hx => rw [if_pos hx] at er; simp [Query.found] at er
      · next hx =>
        rw [if_neg hx] at er ⊢
        exact ih _ hQ e er

theorem searchAll_quiet {Q : Query} (n : Nat) : ∀ (V : List Bytes) (q : List Ref), Q.result = [] →
    (searchAll h n V q Q).outcome = .ok () → (searchAll h n V q Q).query.result = [] →
    (searchAll h n V q Q).query = Q ∧ (searchAll h n V q Q).queue = [] := by
  induction n with
  | zero => intro V q _ e; cases e
  | succ n ih =>
    intro V q hQ e er
    cases q with
    | nil => exact ⟨rfl, rfl⟩
    | cons x q =>
      by_cases hx : (h.get x).qualName = Q.queryDef
      · rw [searchAll] at er
        simp only [hx, if_true] at er
        simp [Query.found] at er
      · rw [searchAll_cons hx] at e er ⊢
        exact ih _ _ hQ e er

theorem execute_quiet {walk : List Ref → Query → Searched} {Q : Query} {start : Ref} {shared : List Ref}
    (hw : ∀ q Q, Q.result = [] → (walk q Q).outcome = .ok () → (walk q Q).query.result = [] →
      (walk q Q).query = Q ∧ (walk q Q).queue = [])
    (hc : Q.cache = []) (e : (Q.execute walk start shared).outcome = .ok ())
    (er : (Q.execute walk start shared).query.result = []) :
    (Q.execute walk start shared).query = { Q with result := [] } ∧
    (Q.execute walk start shared).queue = [] := by
  unfold Query.execute at *
  simp only [hc, Dict.get?_nil] at *
  exact hw _ _ rfl e er

theorem Unlucky.idle {E : Env} {q : List Ref} {Qs : Nat → Query} (U : Unlucky E h q Qs) :
    Reach E h ∧ q = [] ∧ ∀ i, (Qs i).cache = [] := by
  induction U with
  | init R => exact ⟨R, rfl, fun _ => rfl⟩
  | call op _ hv hs ih => exact ⟨.step op ih.1 hv hs, ih.2⟩
  | define i d _ ih =>
    refine ⟨ih.1, ih.2.1, fun j => ?_⟩
    unfold putQuery
    split
    · exact ih.2.2 i
    · exact ih.2.2 j
  | sub i b s _ e er ih =>
    obtain ⟨a, c⟩ := execute_quiet (fun q Q => searchSub_quiet b q) (ih.2.2 i) e er
    refine ⟨ih.1, c, fun j => ?_⟩
    unfold putQuery
    split
    · exact (congrArg Query.cache a).trans (ih.2.2 i)
    · exact ih.2.2 j
  | all i b s _ e er ih =>
    obtain ⟨a, c⟩ := execute_quiet (fun q Q => searchAll_quiet b [] q) (ih.2.2 i) e er
    refine ⟨ih.1, c, fun j => ?_⟩
    unfold putQuery
    split
    · exact (congrArg Query.cache a).trans (ih.2.2 i)
    · exact ih.2.2 j

/-- **C47 (partial).** As long as no search has found anything, a search is not influenced by earlier ones:
whatever searches and graph changes came before, its result is the one of C46 for the current graph.
Missing: histories with a successful search (`C47_leftovers_refuted`, `C47_stale_cache_refuted`). -/
theorem C47_after_misses_partial {E : Env} {q : List Ref} {Qs : Nat → Query} (U : Unlucky E h q Qs)
    {start budget : Nat} (hs : start < h.size) (hb : (subtree h start).length < budget) (i : Nat) :
    ((Qs i).executeSub h budget start q).outcome = .ok () ∧
    ((Qs i).executeSub h budget start q).query.result =
      ((subtree h start).find? fun x => decide ((h.get x).qualName = (Qs i).queryDef)).toList := by
  obtain ⟨R, rfl, hc⟩ := U.idle
  exact C46_first R hs (by rw [hc i]; rfl) hb

/-- A history with an unsuccessful search in it. -/
example : Unlucky E0 g10 [] (putQuery (fun _ => { queryDef := [] }) 0 { queryDef := [] }) := by
  have := Unlucky.sub (E := E0) 0 20 0 (.init reach10) (by decide +kernel) (by decide +kernel)
  have e : (({ queryDef := [] } : Query).executeSub g10 20 0 []).queue = [] ∧
      (({ queryDef := [] } : Query).executeSub g10 20 0 []).query = { queryDef := [] } := by
    obtain ⟨a, b⟩ := execute_quiet (walk := searchSub g10 20) (Q := { queryDef := [] }) (start := 0)
      (shared := []) (fun q Q => searchSub_quiet 20 q) rfl (by decide +kernel) (by decide +kernel)
    exact ⟨b, a⟩
  rw [e.1, e.2] at this
  exact this

/-- **C47 (refuted part).** A successful search leaves the rest of its queue behind; a later search, by a
new query object, below another element, then returns an element that is not below its start element. -/
theorem C47_leftovers_refuted : ∃ (E : Env) (h : Heap) (Q Q' : Query) (start start' b : Nat) (x : Ref),
    Reach E h ∧ start < h.size ∧ start' < h.size ∧ Q.cache = [] ∧ Q'.cache = [] ∧ h.size < b ∧
    (Q'.executeSub h b start' []).query.result = [] ∧
    (Q.executeSub h b start []).outcome = .ok () ∧
    (Q'.executeSub h b start' (Q.executeSub h b start []).queue).query.result = [x] ∧
    ¬ Within h start' x := by
  refine ⟨E0, g10, { queryDef := ['r', '/', 'a'] }, { queryDef := ['r', '/', 'b'] }, 0, 1, 20, 2, reach10,
    by decide +kernel, by decide +kernel, rfl, rfl, by decide +kernel, by decide +kernel,
    by decide +kernel, by decide +kernel, ?_⟩
  have e : (g10.get 2).parent = some 0 := by decide +kernel
  have e0 : (g10.get 0).parent = none := by decide +kernel
  rintro (q | q)
  · cases q
  · cases q with
    | direct hp => rw [e] at hp; cases hp
    | up hp q =>
      rw [e] at hp; cases hp
      cases q with
      | direct hp => rw [e0] at hp; cases hp
      | up hp _ => rw [e0] at hp; cases hp

/-- The node `b` is taken out of `r`. -/
def g11 : Heap := (Op.remove 0 [] (some [3]) none).after E0 g10

theorem reach11 : Reach E0 g11 :=
  .step _ reach10 (by decide +kernel : (0 : Nat) < g10.size) ⟨by decide +kernel, fun h => absurd rfl h⟩

/-- **C47 (refuted part).** A query object returns an element it found before even after the element has
left the graph and lost the qualified name. -/
theorem C47_stale_cache_refuted : ∃ (E : Env) (h : Heap) (op : Op) (Q : Query) (start b : Nat) (x : Ref),
    Reach E h ∧ op.Valid h ∧ op.Safe h ∧ Q.cache = [] ∧ start < h.size ∧ (op.after E h).size < b ∧
    (Q.executeSub h b start []).query.result = [x] ∧
    ((Q.executeSub h b start []).query.executeSub (op.after E h) b start []).query.result = [x] ∧
    ((op.after E h).get x).qualName ≠ Q.queryDef ∧
    (Q.executeSub (op.after E h) b start []).query.result = [] :=
  ⟨E0, g10, .remove 0 [] (some [3]) none, { queryDef := ['r', '/', 'b'] }, 0, 20, 2, reach10,
    (by decide +kernel : (0 : Nat) < g10.size), ⟨by decide +kernel, fun h => absurd rfl h⟩, rfl,
    by decide +kernel, (by decide +kernel : g11.size < 20), by decide +kernel,
    (by decide +kernel : ((Query.executeSub g10 20 0 [] { queryDef := ['r', '/', 'b'] }).query.executeSub
      g11 20 0 []).query.result = [2]),
    (by decide +kernel : (g11.get 2).qualName ≠ ['r', '/', 'b']),
    (by decide +kernel : (Query.executeSub g11 20 0 [] { queryDef := ['r', '/', 'b'] }).query.result = [])⟩

/-! ## C48, duplicate uuids -/

/-- Node `10` (`r/a/d`) gets a sub-node with the uuid of the root: it is never put on the queue. -/
def u1 : Heap := (mkNode ['z'] 1 (some 10)).after E0 g10

theorem reachU1 : Reach E0 u1 := .step _ reach10 ⟨rfl, okSome (by decide +kernel)⟩ trivial

/-- **C48, why different uuids are needed.** An element with the uuid of an element seen before is skipped,
and the search misses it. -/
theorem C48_duplicate_uuid_refuted : ∃ (E : Env) (h : Heap) (start y b : Nat) (Q : Query), Reach E h ∧
    start < h.size ∧ Q.cache = [] ∧ SameTree h start y ∧ (h.get y).qualName = Q.queryDef ∧
    (Q.executeAll h b start []).outcome = .ok () ∧ (Q.executeAll h b start []).query.result = [] := by
  refine ⟨E0, u1, 0, 11, 60, { queryDef := ['r', '/', 'a', '/', 'd', '/', 'z'] }, reachU1,
    by decide +kernel, rfl, ⟨0, .inl rfl, .inr ?_⟩, by decide +kernel, by decide +kernel, by decide +kernel⟩
  exact .up (p := 10) (by decide +kernel) (.up (p := 9) (by decide +kernel) (.direct (by decide +kernel)))

/-- A concrete case of the completeness theorem. -/
example : (Query.executeAll g4 20 2 [] { queryDef := ['r', '/', 'a'] }).query.result = [1] := by
  decide +kernel

/-- The elements of the tree of a small graph have different uuids. -/
theorem distinct_g4 : TreeUuidsDistinct g4 2 := by
  have hr : ∀ x, SameTree g4 2 x → x < 4 := by
    have R := reach4
    intro x hx
    obtain ⟨r, a, b⟩ := hx
    have hsz : g4.size = 4 := by decide +kernel
    rw [← hsz]
    rcases b with rfl | b
    · rcases a with rfl | a
      · decide +kernel
      · have e : (g4.get 2).parent = some 0 := by decide +kernel
        have e0 : (g4.get 0).parent = none := by decide +kernel
        cases a with
        | direct hp => rw [e] at hp; cases hp; decide +kernel
        | up hp q =>
          rw [e] at hp; cases hp
          cases q with
          | direct hp => rw [e0] at hp; cases hp
          | up hp _ => rw [e0] at hp; cases hp
    · cases b with
      | direct hp => exact R.good.inv.lt_of_parent hp
      | up hp _ => exact R.good.inv.lt_of_parent hp
  intro x y hx hy
  have h1 := hr x hx
  have h2 := hr y hy
  have : ∀ x < 4, ∀ y < 4, (g4.get x).uuid = (g4.get y).uuid → x = y := by decide +kernel
  exact this x h1 y h2

end Rei
