import Mathlib.Data.List.Nodup
import Verif.Lemmas.Traversal

/-!
# C28–C31, C54: hierarchical traversals
-/
namespace Rei
open PyM Sample

section
variable {σ : Type} {h : Heap} {f : Ref → Bool}

/-! ## The shape of a hierarchy -/

theorem RootIn.unique {x : Ref} {n m : Nat} (p : RootIn h x n) (q : RootIn h x m) : n = m := by
  induction p generalizing m with
  | root hp => cases q with
    | root => rfl
    | up hp' => rw [hp] at hp'; cases hp'
  | up hp _ ih => cases q with
    | root hp' => rw [hp] at hp'; cases hp'
    | up hp' q => rw [hp] at hp'; cases hp'; rw [ih q]

theorem DownTo.rootIn (hC : ContainmentAgrees h) {start y : Ref} {n m : Nat}
    (q : DownTo h f start n y) (r : RootIn h start m) : RootIn h y (m + n) := by
  induction q with
  | start => exact r
  | step _ hy _ ih => exact .up ((hC _).1 _ |>.1 hy) ih

theorem DownTo.lt_size {E : Env} (R : Reach E h) {start y : Ref} {n : Nat} (hs : start < h.size)
    (q : DownTo h f start n y) : n < h.size := by
  have hy : y < h.size := by
    cases q with
    | start => exact hs
    | step _ hy _ => exact R.good.inv.lt_of_parent ((C01_containment_agrees R _).1 _ |>.1 hy)
  obtain ⟨m, _, hm⟩ := C05_forest R hs
  obtain ⟨k, hk, hr⟩ := C05_forest R hy
  have := (q.rootIn (C01_containment_agrees R) hm).unique hr
  omega

theorem DownTo.unique {E : Env} (R : Reach E h) {start y : Ref} {n m : Nat}
    (hs : start < h.size) (p : DownTo h f start n y) (q : DownTo h f start m y) : n = m := by
  obtain ⟨k, _, hk⟩ := C05_forest R hs
  have := (p.rootIn (C01_containment_agrees R) hk).unique (q.rootIn (C01_containment_agrees R) hk)
  omega

theorem DownTo.cons {x c y : Ref} {n : Nat} (hc : c ∈ h.subelements x) (hf : f c = true)
    (q : DownTo h f c n y) : DownTo h f x (n + 1) y := by
  induction q with
  | start => exact .step .start hc hf
  | step _ hy hfy ih => exact .step ih hy hfy

theorem DownTo.uncons {x y : Ref} {n : Nat} (q : DownTo h f x (n + 1) y) :
    ∃ c ∈ h.subelements x, f c = true ∧ DownTo h f c n y := by
  generalize hm : n + 1 = m at q
  induction q generalizing n with
  | start => cases hm
  | @step k z y q hy hf ih =>
    cases k with
    | zero =>
      cases q
      obtain rfl : n = 0 := by omega
      exact ⟨y, hy, hf, .start⟩
    | succ k =>
      obtain ⟨c, hc, hfc, p⟩ := ih rfl
      obtain rfl : n = k + 1 := by omega
      exact ⟨c, hc, hfc, .step p hy hf⟩

theorem DownTo.anc (hC : ContainmentAgrees h) {x y : Ref} {n : Nat} (q : DownTo h f x (n + 1) y) :
    Anc h x y := by
  generalize hm : n + 1 = m at q
  induction q generalizing n with
  | start => cases hm
  | @step k z y q hy hf ih =>
    cases k with
    | zero => cases q; exact .direct ((hC _).1 _ |>.1 hy)
    | succ k => exact .up ((hC _).1 _ |>.1 hy) (ih rfl)

/-- The start of a downward path of given length is determined by its end. -/
theorem DownTo.start_unique (hC : ContainmentAgrees h) {a b y : Ref} {n : Nat}
    (p : DownTo h f a n y) (q : DownTo h f b n y) : a = b := by
  induction n generalizing y with
  | zero => cases p; cases q; rfl
  | succ n ih =>
    cases p with
    | step p hy _ => cases q with
      | step q hy' _ =>
        have e1 := (hC _).1 _ |>.1 hy
        have e2 := (hC _).1 _ |>.1 hy'
        rw [e1] at e2; cases e2
        exact ih p q

theorem level_nodup (hC : ContainmentAgrees h) (start : Ref) (n : Nat) :
    (level h f start n).Nodup := by
  induction n with
  | zero => simp [level]
  | succ n ih =>
    rw [level, List.nodup_flatMap]
    refine ⟨fun x _ => ((hC x).2).filter _, ?_⟩
    refine List.Pairwise.imp_of_mem ?_ ih
    intro a b _ _ hab
    rw [Function.onFun, List.disjoint_left]
    intro y ha hb
    have e1 := (hC _).1 _ |>.1 (List.mem_filter.1 ha).1
    have e2 := (hC _).1 _ |>.1 (List.mem_filter.1 hb).1
    rw [e1] at e2
    exact hab (Option.some.inj e2)

theorem mem_rootVisit {ig : Bool} {start y : Ref} :
    y ∈ rootVisit f ig start ↔ y = start ∧ f start = true ∧ ig = false := by
  unfold rootVisit
  split
  · next hc => simp [hc]
  · next hc => simp only [List.not_mem_nil, false_iff]; rintro ⟨_, a⟩; exact hc a

theorem mem_preorder {k : Nat} {x y : Ref} : y ∈ preorder h f k x ↔ ∃ n ≤ k, DownTo h f x n y := by
  induction k generalizing x with
  | zero =>
    simp only [preorder, List.mem_singleton]
    constructor
    · rintro rfl; exact ⟨0, Nat.le_refl _, .start⟩
    · rintro ⟨n, hn, q⟩
      obtain rfl : n = 0 := by omega
      cases q; rfl
  | succ k ih =>
    simp only [preorder, List.mem_cons, List.mem_flatMap, List.mem_reverse, List.mem_filter]
    constructor
    · rintro (rfl | ⟨c, ⟨hc, hf⟩, hy⟩)
      · exact ⟨0, Nat.zero_le _, .start⟩
      · obtain ⟨n, hn, q⟩ := ih.1 hy
        exact ⟨n + 1, by omega, q.cons hc hf⟩
    · rintro ⟨n, hn, q⟩
      cases n with
      | zero => cases q; exact .inl rfl
      | succ n =>
        obtain ⟨c, hc, hf, q⟩ := q.uncons
        exact .inr ⟨c, ⟨hc, hf⟩, ih.2 ⟨n, by omega, q⟩⟩

theorem mem_preorder_tail {k : Nat} {x y : Ref} :
    y ∈ (preorder h f k x).tail ↔ ∃ n, 1 ≤ n ∧ n ≤ k ∧ DownTo h f x n y := by
  cases k with
  | zero =>
    simp only [preorder, List.tail_cons, List.not_mem_nil, false_iff]
    rintro ⟨n, a, b, _⟩; omega
  | succ k =>
    simp only [preorder, List.tail_cons, List.mem_flatMap, List.mem_reverse, List.mem_filter,
      mem_preorder]
    constructor
    · rintro ⟨c, ⟨hc, hf⟩, n, hn, q⟩
      exact ⟨n + 1, by omega, by omega, q.cons hc hf⟩
    · rintro ⟨n, a, b, q⟩
      obtain ⟨m, rfl⟩ : ∃ m, n = m + 1 := ⟨n - 1, by omega⟩
      obtain ⟨c, hc, hf, q⟩ := q.uncons
      exact ⟨c, ⟨hc, hf⟩, m, by omega, q⟩

/-- Subtrees of different children are disjoint. -/
theorem subtrees_disjoint {E : Env} (R : Reach E h) {x a b y : Ref} {n m : Nat}
    (ha : a ∈ h.subelements x) (hb : b ∈ h.subelements x)
    (p : DownTo h f a n y) (q : DownTo h f b m y) : a = b := by
  have hC := C01_containment_agrees R
  have hx : x < h.size := R.good.inv.parent_lt ((hC _).1 _ |>.1 ha)
  obtain ⟨k, _, hk⟩ := C05_forest R hx
  have ra : RootIn h a (k + 1) := .up ((hC _).1 _ |>.1 ha) hk
  have rb : RootIn h b (k + 1) := .up ((hC _).1 _ |>.1 hb) hk
  have := (p.rootIn hC ra).unique (q.rootIn hC rb)
  obtain rfl : n = m := by omega
  exact p.start_unique hC q

theorem preorder_nodup {E : Env} (R : Reach E h) (k : Nat) (x : Ref) :
    (preorder h f k x).Nodup := by
  have hC := C01_containment_agrees R
  induction k generalizing x with
  | zero => simp [preorder]
  | succ k ih =>
    rw [preorder, List.nodup_cons]
    constructor
    · simp only [List.mem_flatMap, List.mem_reverse, List.mem_filter, mem_preorder]
      rintro ⟨c, ⟨hc, hf⟩, n, _, q⟩
      exact C05_no_self_containment R x ((q.cons hc hf).anc hC)
    · rw [List.nodup_flatMap]
      refine ⟨fun c _ => ih c, ?_⟩
      rw [List.pairwise_reverse]
      refine List.Pairwise.imp_of_mem ?_ (((hC x).2).filter f)
      intro a b ha hb hab
      rw [Function.onFun, List.disjoint_left]
      intro y hyb hya
      obtain ⟨n, _, p⟩ := mem_preorder.1 hya
      obtain ⟨m, _, q⟩ := mem_preorder.1 hyb
      exact hab (subtrees_disjoint R (List.mem_filter.1 ha).1 (List.mem_filter.1 hb).1 p q)

theorem preorder_parent_first {E : Env} (R : Reach E h) (k : Nat) (x : Ref) :
    (preorder h f k x).Pairwise fun a b => (h.get a).parent ≠ some b := by
  have hC := C01_containment_agrees R
  induction k generalizing x with
  | zero => simp [preorder]
  | succ k ih =>
    rw [preorder, List.pairwise_cons]
    constructor
    · intro b hb hp
      simp only [List.mem_flatMap, List.mem_reverse, List.mem_filter, mem_preorder] at hb
      obtain ⟨c, ⟨hc, hf⟩, n, _, q⟩ := hb
      exact C05_no_self_containment R x (.up hp ((q.cons hc hf).anc hC))
    · rw [List.pairwise_flatMap]
      refine ⟨fun c _ => ih c, ?_⟩
      rw [List.pairwise_reverse]
      refine List.Pairwise.imp_of_mem ?_ (((hC x).2).filter f)
      intro a b ha hb hab y hy z hz hp
      have ha' := List.mem_filter.1 ha
      have hb' := List.mem_filter.1 hb
      obtain ⟨n, _, p⟩ := mem_preorder.1 hy
      obtain ⟨m, _, q⟩ := mem_preorder.1 hz
      cases p with
      | start =>
        have e := (hC _).1 _ |>.1 hb'.1
        rw [e] at hp; cases hp
        exact C05_no_self_containment R x ((q.cons ha'.1 ha'.2).anc hC)
      | step p hyz _ =>
        have e := (hC _).1 _ |>.1 hyz
        rw [e] at hp; cases hp
        exact hab (subtrees_disjoint R ha'.1 hb'.1 q p)

/-! ## C28 -/

/-- **C28.** On an idle queue and with enough stack, a breadth-first traversal calls the visitor on
exactly the elements of `breadthFirst`, in that order (up to the first exception of the visitor), and
leaves the queue idle unless the visitor raises. -/
theorem C28_bfs_visits {E : Env} (R : Reach E h) {start : Ref} (hs : start < h.size) (ig : Bool)
    (vis : Visitor σ) (s : σ) {budget : Nat}
    (hb : (breadthFirst h f ig start h.size).length < budget) :
    let r := Strategy.execute ⟨false, none, ig⟩ h f vis budget start [] s
    let c := callAll vis (breadthFirst h f ig start h.size) s
    r.1 = c.1 ∧ r.2.1 = c.2 ∧ (c.1 = .ok () → r.2.2 = []) := by
  intro r c
  have e := execute_unlimited (vis := vis) (lifo := false) (ig := ig)
    (fun n y (q : DownTo h f start n y) => q.lt_size R hs) budget [] s (.inr rfl)
  have o := execute_bfs (vis := vis) budget s hb
  rw [← e] at o
  exact ⟨o.res, o.state, o.empty⟩

/-- **C28.** Exactly once. -/
theorem C28_exactly_once {E : Env} (R : Reach E h) {start : Ref} (hs : start < h.size) (ig : Bool)
    (k : Nat) : (breadthFirst h f ig start k).Nodup := by
  have hC := C01_containment_agrees R
  unfold breadthFirst
  rw [List.nodup_append']
  refine ⟨?_, ?_, ?_⟩
  · unfold rootVisit; split <;> simp
  · rw [List.nodup_flatMap]
    refine ⟨fun n _ => level_nodup hC _ _, ?_⟩
    refine List.Pairwise.imp_of_mem ?_ (List.nodup_range (n := k))
    intro a b _ _ hab
    rw [Function.onFun, List.disjoint_left]
    intro y ha hb
    have := (mem_level.1 ha).unique R hs (mem_level.1 hb)
    omega
  · rw [List.disjoint_left]
    intro y hy hy'
    obtain ⟨rfl, _⟩ := mem_rootVisit.1 hy
    obtain ⟨n, _, hn⟩ := List.mem_flatMap.1 hy'
    have := (mem_level.1 hn).unique R hs .start
    omega

/-- **C28.** Nothing is missed and nothing else is visited: besides the start element, exactly the
elements reachable through matching sub-elements. -/
theorem C28_complete {E : Env} (R : Reach E h) {start : Ref} (hs : start < h.size) (ig : Bool)
    (y : Ref) : y ∈ breadthFirst h f ig start h.size ↔
      (y = start ∧ f start = true ∧ ig = false) ∨ ∃ n, 1 ≤ n ∧ DownTo h f start n y := by
  unfold breadthFirst
  rw [List.mem_append, mem_rootVisit]
  refine or_congr_right ?_
  simp only [List.mem_flatMap, List.mem_range, mem_level]
  constructor
  · rintro ⟨n, _, q⟩; exact ⟨n + 1, by omega, q⟩
  · rintro ⟨n, hn, q⟩
    have := q.lt_size R hs
    exact ⟨n - 1, by omega, by rwa [Nat.sub_add_cancel hn]⟩

/-- **C28.** Level by level: an element is never visited before one of a smaller level. -/
theorem C28_level_order {E : Env} (R : Reach E h) {start : Ref} (hs : start < h.size) (ig : Bool)
    (k : Nat) : (breadthFirst h f ig start k).Pairwise fun a b =>
      ∀ n m, DownTo h f start n a → DownTo h f start m b → n ≤ m := by
  unfold breadthFirst
  rw [List.pairwise_append]
  refine ⟨?_, ?_, ?_⟩
  · unfold rootVisit; split <;> simp
  · rw [List.pairwise_flatMap]
    constructor
    · intro n _
      refine List.pairwise_of_forall_mem_list ?_
      intro a ha b hb i j p q
      have e1 := (mem_level.1 ha).unique R hs p
      have e2 := (mem_level.1 hb).unique R hs q
      omega
    · refine List.Pairwise.imp ?_ List.pairwise_lt_range
      intro a b hab x hx y hy i j p q
      have e1 := (mem_level.1 hx).unique R hs p
      have e2 := (mem_level.1 hy).unique R hs q
      omega
  · intro a ha b hb n m p q
    obtain ⟨rfl, _⟩ := mem_rootVisit.1 ha
    have := p.unique R hs .start
    omega

/-! ## C29 -/

/-- **C29.** With enough stack, a depth-first traversal calls the visitor on exactly the elements of
`depthFirst`, in that order (up to the first exception of the visitor), whatever earlier traversals
left behind. -/
theorem C29_dfs_visits {E : Env} (R : Reach E h) {start : Ref} (hs : start < h.size) (ig : Bool)
    (vis : Visitor σ) (s : σ) (shared : Fringe) {budget : Nat}
    (hb : (depthFirst h f ig start h.size).length < budget) :
    let r := Strategy.execute ⟨true, none, ig⟩ h f vis budget start shared s
    let c := callAll vis (depthFirst h f ig start h.size) s
    r.1 = c.1 ∧ r.2.1 = c.2 := by
  intro r c
  have e := execute_unlimited (vis := vis) (lifo := true) (ig := ig)
    (fun n y (q : DownTo h f start n y) => q.lt_size R hs) budget shared s (.inl rfl)
  have o := execute_dfs (vis := vis) budget shared s hb
  rw [← e] at o
  exact ⟨o.1, o.2.1⟩

/-- **C29.** The same elements as breadth-first, each exactly once. -/
theorem C29_exactly_once {E : Env} (R : Reach E h) {start : Ref} (hs : start < h.size) (ig : Bool)
    (k : Nat) : (depthFirst h f ig start k).Nodup ∧
      (depthFirst h f ig start k).Perm (breadthFirst h f ig start k) := by
  have hC := C01_containment_agrees R
  have hn : (depthFirst h f ig start k).Nodup := by
    unfold depthFirst
    have hp := preorder_nodup (f := f) R k start
    rw [preorder_cons, List.nodup_cons] at hp
    rw [List.nodup_append']
    refine ⟨by unfold rootVisit; split <;> simp, hp.2, ?_⟩
    rw [List.disjoint_left]
    intro y hy
    obtain ⟨rfl, _⟩ := mem_rootVisit.1 hy
    exact hp.1
  refine ⟨hn, ?_⟩
  rw [List.perm_ext_iff_of_nodup hn (C28_exactly_once R hs ig k)]
  intro y
  unfold depthFirst breadthFirst
  rw [List.mem_append, List.mem_append]
  refine or_congr_right ?_
  rw [mem_preorder_tail]
  simp only [List.mem_flatMap, List.mem_range, mem_level]
  constructor
  · rintro ⟨n, a, b, q⟩; exact ⟨n - 1, by omega, by rwa [Nat.sub_add_cancel a]⟩
  · rintro ⟨n, a, q⟩; exact ⟨n + 1, by omega, by omega, q⟩

/-- **C29.** Each element comes after its container: no visited element has a container that is
visited later. -/
theorem C29_parent_first {E : Env} (R : Reach E h) {start : Ref} (ig : Bool)
    (k : Nat) : (depthFirst h f ig start k).Pairwise fun a b => (h.get a).parent ≠ some b := by
  unfold depthFirst
  have hp := preorder_parent_first (f := f) R k start
  rw [preorder_cons, List.pairwise_cons] at hp
  rw [List.pairwise_append]
  refine ⟨by unfold rootVisit; split <;> simp, hp.2, ?_⟩
  intro a ha b hb
  obtain ⟨rfl, _⟩ := mem_rootVisit.1 ha
  exact hp.1 b hb

/-! ## C30 -/

/-- **C30.** Breadth-first with `max_depth = k`, in any state (even one with containment cycles): the
visitor is called on `breadthFirst … k`. -/
theorem C30_limited_bfs (h : Heap) (f : Ref → Bool) (start : Ref) (k : Nat) (ig : Bool)
    (vis : Visitor σ) (s : σ) {budget : Nat}
    (hb : (breadthFirst h f ig start k).length < budget) :
    let r := Strategy.execute ⟨false, some k, ig⟩ h f vis budget start [] s
    let c := callAll vis (breadthFirst h f ig start k) s
    r.1 = c.1 ∧ r.2.1 = c.2 ∧ (c.1 = .ok () → r.2.2 = []) :=
  have o := execute_bfs (vis := vis) budget s hb
  ⟨o.res, o.state, o.empty⟩

/-- **C30.** Depth-first with `max_depth = k`. -/
theorem C30_limited_dfs (h : Heap) (f : Ref → Bool) (start : Ref) (k : Nat) (ig : Bool)
    (vis : Visitor σ) (s : σ) (shared : Fringe) {budget : Nat}
    (hb : (depthFirst h f ig start k).length < budget) :
    let r := Strategy.execute ⟨true, some k, ig⟩ h f vis budget start shared s
    let c := callAll vis (depthFirst h f ig start k) s
    r.1 = c.1 ∧ r.2.1 = c.2 :=
  have o := execute_dfs (vis := vis) budget shared s hb
  ⟨o.1, o.2.1⟩

/-- **C30.** Exactly the elements at most `k` levels below the start, in both orders. -/
theorem C30_exact_limit (h : Heap) (f : Ref → Bool) (start : Ref) (k : Nat) (ig : Bool) (y : Ref) :
    (y ∈ breadthFirst h f ig start k ↔
      (y = start ∧ f start = true ∧ ig = false) ∨ ∃ n, 1 ≤ n ∧ n ≤ k ∧ DownTo h f start n y) ∧
    (y ∈ depthFirst h f ig start k ↔ y ∈ breadthFirst h f ig start k) := by
  have e : y ∈ breadthFirst h f ig start k ↔
      (y = start ∧ f start = true ∧ ig = false) ∨ ∃ n, 1 ≤ n ∧ n ≤ k ∧ DownTo h f start n y := by
    unfold breadthFirst
    rw [List.mem_append, mem_rootVisit]
    refine or_congr_right ?_
    simp only [List.mem_flatMap, List.mem_range, mem_level]
    constructor
    · rintro ⟨n, hn, q⟩; exact ⟨n + 1, by omega, by omega, q⟩
    · rintro ⟨n, hn, hk, q⟩
      exact ⟨n - 1, by omega, by rwa [Nat.sub_add_cancel hn]⟩
  refine ⟨e, ?_⟩
  rw [e]
  unfold depthFirst
  rw [List.mem_append, mem_rootVisit, mem_preorder_tail]

/-! ## C31 -/

theorem traverse_ok_empty {max : Option Nat} {lifo : Bool} {vis : Visitor σ} {n : Nat} {q : Fringe}
    {s : σ} (hr : (traverse h f max lifo vis n q s).1 = .ok ()) :
    (traverse h f max lifo vis n q s).2.2 = [] := by
  induction n generalizing q s with
  | zero => cases hr
  | succ n ih =>
    cases q with
    | nil => rfl
    | cons p q =>
      obtain ⟨x, d⟩ := p
      rw [traverse] at hr ⊢
      cases hv : vis x s with
      | mk r s' => cases r with
        | error e => rw [hv] at hr; cases hr
        | ok _ => rw [hv] at hr; exact ih hr

/-- What is on the shared queue after some traversals, all of which returned normally. -/
inductive SharedAfterOk : Fringe → Prop
  | init : SharedAfterOk []
  | step {q : Fringe} {σ : Type} (T : Strategy) (h : Heap) (f : Ref → Bool) (vis : Visitor σ)
      (budget : Nat) (start : Ref) (s : σ) : SharedAfterOk q →
      (T.execute h f vis budget start q s).1 = .ok () →
      SharedAfterOk (T.execute h f vis budget start q s).2.2

/-- What is on the shared queue after some traversals, some of which may have been aborted. -/
inductive SharedAfter : Fringe → Prop
  | init : SharedAfter []
  | step {q : Fringe} {σ : Type} (T : Strategy) (h : Heap) (f : Ref → Bool) (vis : Visitor σ)
      (budget : Nat) (start : Ref) (s : σ) : SharedAfter q →
      SharedAfter (T.execute h f vis budget start q s).2.2

/-- **C31**, proved part (1): as long as every traversal returned normally, the queue all
breadth-first traversals share is idle, so the next one behaves as in C28/C30 (which assume an idle
queue). -/
theorem C31_idle_partial {q : Fringe} (r : SharedAfterOk q) : q = [] := by
  induction r with
  | init => rfl
  | @step q σ T h f vis budget start s _ hok ih =>
    subst ih
    unfold Strategy.execute at hok ⊢
    simp only at hok ⊢
    cases hroot : (if (f start && !T.ignoreRoot) = true then vis start s else (.ok (), s)) with
    | mk r s' => cases r with
      | error e => rfl
      | ok _ =>
        rw [hroot] at hok
        cases hl : T.lifo with
        | true => simp
        | false =>
          rw [hl] at hok
          simp only at hok ⊢
          exact traverse_ok_empty hok

/-- **C31**, proved part (2): depth-first traversals do not depend on earlier traversals at all. -/
theorem C31_dfs_independent_partial (max : Option Nat) (ig : Bool) (h : Heap) (f : Ref → Bool)
    (vis : Visitor σ) (budget : Nat) (start : Ref) (s : σ) (q q' : Fringe) :
    (Strategy.execute ⟨true, max, ig⟩ h f vis budget start q s).1 =
      (Strategy.execute ⟨true, max, ig⟩ h f vis budget start q' s).1 ∧
    (Strategy.execute ⟨true, max, ig⟩ h f vis budget start q s).2.1 =
      (Strategy.execute ⟨true, max, ig⟩ h f vis budget start q' s).2.1 := by
  unfold Strategy.execute
  simp only
  cases (if (f start && !ig) = true then vis start s else (.ok (), s)) with
  | mk r s' => cases r <;> exact ⟨rfl, rfl⟩

/-- A visitor that records the elements it is called on. -/
def recorder : Visitor (List Ref) := fun x s => (.ok (), s ++ [x])
/-- A visitor that raises. -/
def failing : Visitor Unit := fun _ s => (.error .user, s)

/-- **C31 refuted** for breadth-first traversals: after a traversal of `r` aborted by its visitor, a
traversal of the leaf `d` visits elements that are not below `d`. -/
theorem C31_aborted_refuted : ∃ (q : Fringe), SharedAfter q ∧
    (Strategy.execute ⟨false, none, false⟩ g10 (fun _ => true) recorder 100 10 [] []).2.1 = [10] ∧
    (Strategy.execute ⟨false, none, false⟩ g10 (fun _ => true) recorder 100 10 q []).2.1 =
      [10, 2, 3, 9, 5, 7, 8, 4, 6, 10] := by
  refine ⟨_, .step ⟨false, none, true⟩ g10 (fun _ => true) failing 100 0 () .init, ?_, ?_⟩ <;>
    decide +kernel

/-! ## C54: the recursion limit -/

theorem traverse_level_short (max : Option Nat) {vis : Visitor σ} (hv : NeverRaises vis) (A : List Ref)
    (d n : Nat) (B : Fringe) (s : σ) (hn : n ≤ A.length) :
    (traverse h f max false vis n (A.map (fun x => (x, d)) ++ B) s).1 = .error .recursionError := by
  induction A generalizing B s n with
  | nil =>
    obtain rfl : n = 0 := by simpa using hn
    rfl
  | cons x A ih =>
    cases n with
    | zero => rfl
    | succ n =>
      simp only [List.map_cons, List.cons_append]
      rw [traverse]
      have := hv x s
      cases hx : vis x s with
      | mk r s' =>
        rw [hx] at this
        cases r with
        | error e => cases this
        | ok _ =>
          simp only [putAll, Bool.false_eq_true, if_false]
          rw [List.append_assoc]
          exact ih n _ s' (by simpa using hn)

theorem callAll_ok {vis : Visitor σ} (hv : NeverRaises vis) (A : List Ref) (s : σ) :
    (callAll vis A s).1 = .ok () := by
  induction A generalizing s with
  | nil => rfl
  | cons x A ih =>
    have := hv x s
    rw [callAll]
    cases hx : vis x s with
    | mk r s' =>
      rw [hx] at this
      cases r with
      | error e => cases this
      | ok _ => exact ih s'

theorem traverse_bfs_short {vis : Visitor σ} (hv : NeverRaises vis) (K d : Nat) (L : List Ref) (n : Nat)
    (s : σ) (hn : n ≤ ((List.range (K + 1)).flatMap (lv h f L)).length) :
    (traverse h f (some (d + K)) false vis n (L.map fun x => (x, d)) s).1 =
      .error .recursionError := by
  induction K generalizing d L n s with
  | zero =>
    have e : (List.range (0 + 1)).flatMap (lv h f L) = L := by simp [List.range_succ, lv]
    rw [e] at hn
    have := traverse_level_short (h := h) (f := f) (some (d + 0)) hv L d n [] s hn
    rwa [List.append_nil] at this
  | succ K ih =>
    by_cases hl : n ≤ L.length
    · have := traverse_level_short (h := h) (f := f) (some (d + (K + 1))) hv L d n [] s hl
      rwa [List.append_nil] at this
    · rw [flatMap_range_succ] at hn
      have e0 : lv h f L 0 = L := rfl
      have e1 : (fun n => lv h f L (n + 1)) = lv h f (kids h f L) := by
        funext n; rw [lv_kids]
      rw [e0, e1, List.length_append] at hn
      obtain ⟨m, rfl⟩ : ∃ m, n = m + L.length := ⟨n - L.length, by omega⟩
      obtain ⟨lo, hlo⟩ := traverse_level (h := h) (f := f) (vis := vis) (some (d + (K + 1))) L d m [] s
      rw [List.append_nil] at hlo
      have hc := callAll_ok hv L s
      rw [hlo, flatMap_fill_under (by simp [underLimit]), List.nil_append]
      cases hq : callAll vis L s with
      | mk r s' =>
        rw [hq] at hc
        cases r with
        | error e => cases hc
        | ok _ =>
          have := ih (d + 1) (kids h f L) m s' (by omega)
          rw [show d + 1 + K = d + (K + 1) by omega] at this
          exact this

/-- **C54 refuted**: a breadth-first traversal whose visitor never raises ends in `RecursionError` as
soon as the number of elements to visit below the start reaches the number of nested calls the
interpreter allows. -/
theorem C54_recursion_limit_refuted {vis : Visitor σ} (hv : NeverRaises vis) (h : Heap) (f : Ref → Bool)
    (start : Ref) (k : Nat) (ig : Bool) (budget : Nat) (s : σ)
    (hb : budget ≤ ((List.range k).flatMap fun n => level h f start (n + 1)).length)  :
    (Strategy.execute ⟨false, some k, ig⟩ h f vis budget start [] s).1 = .error .recursionError := by
  have hroot : (if (f start && !ig) = true then vis start s else (.ok (), s)).1 = .ok () := by
    split
    · exact hv _ _
    · rfl
  unfold Strategy.execute
  simp only
  cases hq : (if (f start && !ig) = true then vis start s else (.ok (), s)) with
  | mk r s' =>
    rw [hq] at hroot
    cases r with
    | error e => cases hroot
    | ok _ =>
      cases k with
      | zero =>
        obtain rfl : budget = 0 := by simpa using hb
        rfl
      | succ k =>
        have e : fillFringe h f (some (k + 1)) start 0 = (kids h f [start]).map fun v => (v, 0 + 1) := by
          unfold fillFringe kids Heap.getSubelements; simp [underLimit]
        simp only [e, putAll, List.nil_append, if_false, Bool.false_eq_true]
        have hkids : (List.range (k + 1)).flatMap (fun n => level h f start (n + 1)) =
            (List.range (k + 1)).flatMap (lv h f (kids h f [start])) := by
          congr 1; funext n; rw [lv_kids, level_eq_lv]
        rw [hkids] at hb
        have := traverse_bfs_short (h := h) (f := f) hv k 1 (kids h f [start]) budget s' hb
        rw [show 1 + k = k + 1 by omega] at this
        exact this

/-- **C54**, proved part: below that number it completes, in every reachable hierarchy. -/
theorem C54_small_partial {E : Env} (R : Reach E h) {vis : Visitor σ} (hv : NeverRaises vis)
    {start : Ref} (hs : start < h.size) (k : Nat) (ig lifo : Bool) {budget : Nat} (s : σ)
    (hb : h.size < budget) :
    (Strategy.execute ⟨lifo, some k, ig⟩ h f vis budget start [] s).1 = .ok () := by
  have hlen : (breadthFirst h f ig start k).length ≤ h.size := by
    have hn := C28_exactly_once (f := f) R hs ig k
    have hsub : (breadthFirst h f ig start k) ⊆ List.range h.size := by
      intro y hy
      rw [List.mem_range]
      rcases ((C30_exact_limit h f start k ig y).1).1 hy with ⟨rfl, _⟩ | ⟨n, hn1, _, q⟩
      · exact hs
      · cases q with
        | start => omega
        | step _ hy _ => exact R.good.inv.lt_of_parent ((C01_containment_agrees R _).1 _ |>.1 hy)
    have := (List.subperm_of_subset hn hsub).length_le
    simpa using this
  cases lifo with
  | false => rw [(C30_limited_bfs h f start k ig vis s (by omega)).1]; exact callAll_ok hv _ _
  | true =>
    have hl := ((C29_exactly_once (f := f) R hs ig k).2).length_eq
    rw [(C30_limited_dfs h f start k ig vis s [] (by omega)).1]; exact callAll_ok hv _ _

end

/-! ### Instances -/

example : breadthFirst g10 (fun _ => true) false 0 g10.size = [0, 1, 2, 3, 9, 5, 7, 8, 4, 6, 10] ∧
    depthFirst g10 (fun _ => true) false 0 g10.size = [0, 9, 10, 3, 6, 4, 2, 8, 7, 1, 5] ∧
    breadthFirst g10 (fun x => decide ((g10.get x).kind = .node)) true 0 1 = [1, 2, 9] := by
  decide +kernel

example : Reach E0 g10 ∧ 0 < g10.size ∧ NeverRaises recorder ∧
    (breadthFirst g10 (fun _ => true) false 0 g10.size).length < 20 :=
  ⟨reach10, by decide +kernel, fun _ _ => rfl, by decide +kernel⟩

end Rei
