import Verif.Lemmas.EventLoop

/-!
# C98, C99, C100: batches on the event loop
-/
namespace Rei
open PyM Sample

/-! ## C100 -/

theorem jobs_forall (bs : Batches) : List.Forall₂ JobOf bs bs.jobs := by
  induction bs with
  | nil => exact .nil
  | cons b bs ih => exact .cons (.inl rfl) ih

/-- **C100.** Batches that can be carried out together are carried out whatever the order in which their tasks take steps:
after any schedule `s`, task `i` has added as many of its elements as it took steps; no task fails, and one that took a step
for each element and one more is done. -/
theorem C100_any_schedule {E : Env} {h : Heap} (R : Reach E h) {bs : Batches} (C : Compatible h bs) (s : List Nat) :
    Reach E (runJobs E s (h, bs.jobs)).1 ∧
    AddedSoFar h bs (fun i => s.count i) (runJobs E s (h, bs.jobs)).1 ∧
    (∀ j ∈ (runJobs E s (h, bs.jobs)).2, ∀ e, j ≠ .done (.error e)) ∧
    ∀ (i : Nat) c xs, bs[i]? = some (c, xs) → xs.length < s.count i →
      (runJobs E s (h, bs.jobs)).2[i]? = some (.done (.ok ())) := by
  obtain ⟨a, b, d⟩ := runJobs_batches s R C (jobs_forall bs)
  refine ⟨a, b, fun j hj e k => ?_, fun i c xs hi hc => ?_⟩
  · obtain ⟨i, hi⟩ := List.mem_iff_getElem?.1 hj
    have len : (runJobs E s (h, bs.jobs)).2.length = bs.length := by
      have step : ∀ (s : List Nat) (q : Heap × List Job), (runJobs E s q).2.length = q.2.length := by
        intro s
        induction s with
        | nil => intro q; rfl
        | cons i s ih =>
          intro q
          rw [runJobs, ih]
          unfold stepJob
          split <;> simp
      rw [step, ← (jobs_forall bs).length_eq]
    have hl : i < bs.length := by rw [← len]; exact (List.getElem?_eq_some_iff.1 hi).1
    obtain ⟨j', e1, e2, -⟩ := d i bs[i].1 bs[i].2 (by simp [hl])
    rw [hi] at e1
    cases e1
    subst k
    rcases e2 with q | ⟨-, q⟩ <;> cases q
  · obtain ⟨j, e1, -, e3⟩ := d i c xs hi
    rw [e1, e3 hc]

/-- The path of an element depends on the parents and the names only. -/
theorem PathTo.carry {h h' : Heap} (hp : ∀ y, (h'.get y).parent = (h.get y).parent)
    (hn : ∀ y, (h'.get y).idName = (h.get y).idName) {x : Ref} {l : List Str} (p : PathTo h x l) : PathTo h' x l := by
  induction p with
  | root q => rw [← hn]; exact .root (by rw [hp]; exact q)
  | child q _ ih => rw [← hn]; exact .child (by rw [hp]; exact q) ih

theorem PathTo.same {h : Heap} {x : Ref} {l l' : List Str} (p : PathTo h x l) (q : PathTo h x l') : l = l' := by
  induction p generalizing l' with
  | root a =>
    cases q with
    | root => rfl
    | child b => rw [a] at b; cases b
  | child a _ ih =>
    cases q with
    | root b => rw [a] at b; cases b
    | child b q => rw [a] at b; cases b; rw [ih q]

/-- All tasks are done. -/
def AllDone (js : List Job) : Prop := ∀ j ∈ js, ∃ r, j = .done r

/-- **C100.** Two schedules under which all tasks get done give the same hierarchy: the same parents, the same elements in
each container and, where the names were paths, the same qualified names. -/
theorem C100_same_result {E : Env} {h : Heap} (R : Reach E h) {bs : Batches} (C : Compatible h bs) (s t : List Nat)
    (ds : AllDone (runJobs E s (h, bs.jobs)).2) (dt : AllDone (runJobs E t (h, bs.jobs)).2) :
    (∀ x, ((runJobs E s (h, bs.jobs)).1.get x).parent = ((runJobs E t (h, bs.jobs)).1.get x).parent) ∧
    (∀ c, ((runJobs E s (h, bs.jobs)).1.subelements c).Perm ((runJobs E t (h, bs.jobs)).1.subelements c)) ∧
    ((∀ x < h.size, NamedByPath h x) → ∀ x < h.size,
      ((runJobs E s (h, bs.jobs)).1.get x).qualName = ((runJobs E t (h, bs.jobs)).1.get x).qualName) := by
  have all : ∀ s, AllDone (runJobs E s (h, bs.jobs)).2 →
      AddedSoFar h bs (fun i => ((bs[i]?.map fun b => b.2.length).getD 0)) (runJobs E s (h, bs.jobs)).1 := by
    intro s ds
    obtain ⟨-, b, d⟩ := runJobs_batches s R C (jobs_forall bs)
    refine b.congr fun i c xs hi => ?_
    obtain ⟨j, e1, e2, -⟩ := d i c xs hi
    obtain ⟨r, e⟩ := ds j (List.mem_of_getElem? e1)
    subst e
    rcases e2 with q | ⟨q, -⟩
    · cases q
    · rw [hi]
      have : xs.length ≤ s.count i := List.drop_eq_nil_iff.1 q
      simp [List.take_of_length_le this]
  have A := all s ds
  have B := all t dt
  have par : ∀ x, ((runJobs E s (h, bs.jobs)).1.get x).parent = ((runJobs E t (h, bs.jobs)).1.get x).parent := by
    intro x
    by_cases k : ∃ c, PutInto bs (fun i => ((bs[i]?.map fun b => b.2.length).getD 0)) c x
    · obtain ⟨c, k⟩ := k
      rw [A.placed c x k, B.placed c x k]
    · rw [A.others x fun c q => k ⟨c, q⟩, B.others x fun c q => k ⟨c, q⟩]
  have Rs := (runJobs_batches s R C (jobs_forall bs)).1
  have Rt := (runJobs_batches t R C (jobs_forall bs)).1
  refine ⟨par, fun c => ?_, fun N x hx => ?_⟩
  · have a := C01_containment_agrees Rs c
    have b := C01_containment_agrees Rt c
    exact (List.perm_ext_iff_of_nodup a.2 b.2).2 fun x => by rw [a.1, b.1, par]
  · obtain ⟨l, p1, n1⟩ := A.named N x hx
    obtain ⟨l', p2, n2⟩ := B.named N x hx
    have : PathTo (runJobs E t (h, bs.jobs)).1 x l := p1.carry (fun y => (par y).symm) fun y => by
      rw [(A.same y).1, (B.same y).1]
    rw [n1, n2, this.same p2]

/-! ## C98 -/

section adding
variable {E : Env} {c : Ref}

theorem Loop.run_stop {L : Loop} (n : Nat) (k : (L.turn E).stopped = true) : L.run E (n + 1) = L.turn E := by
  rw [Loop.run, if_pos k]

theorem Loop.run_on {L : Loop} (n : Nat) (k : (L.turn E).stopped = false) : L.run E (n + 1) = (L.turn E).run E n := by
  rw [Loop.run, if_neg (by simp [k])]

theorem Loop.EndsIn.stop {L : Loop} (k : (L.turn E).stopped = true) : L.EndsIn E (L.turn E) :=
  ⟨k, 1, fun m hm => by obtain ⟨m, rfl⟩ : ∃ q, m = q + 1 := ⟨m - 1, by omega⟩; exact Loop.run_stop m k⟩

theorem Loop.EndsIn.on {L L' : Loop} (k : (L.turn E).stopped = false) (e : (L.turn E).EndsIn E L') : L.EndsIn E L' := by
  obtain ⟨s, n, e⟩ := e
  refine ⟨s, n + 1, fun m hm => ?_⟩
  obtain ⟨m, rfl⟩ : ∃ q, m = q + 1 := ⟨m - 1, by omega⟩
  rw [Loop.run_on m k, e m (by omega)]

theorem Loop.EndsIn.via {L L1 L' : Loop} (e : L.turn E = L1) (k : L1.stopped = false) (q : L1.EndsIn E L') : L.EndsIn E L' := by
  subst e
  exact .on k q

theorem Loop.EndsIn.halt {L L' : Loop} (e : L.turn E = L') (k : L'.stopped = true) : L.EndsIn E L' := by
  subst e
  exact .stop k

/-- The task of `add_elements` is about to take a step, and nothing else is ready. -/
def waiting (h : Heap) (c : Ref) (xs : List Ref) : Loop :=
  { heap := h, jobs := [.adding c xs], waits := true, ready := [.step 0] }

theorem settled_ends (h : Heap) (r : Except Err Unit) : ∃ L', Loop.EndsIn E
    { heap := h, jobs := [.done r], waits := true, ready := [.settled 0] } L' ∧ L'.heap = h ∧ L'.future = some r := by
  cases r with
  | error e => exact ⟨_, .on rfl (.on rfl (.stop rfl)), rfl, rfl⟩
  | ok u => exact ⟨_, .on rfl (.on rfl (.stop rfl)), rfl, rfl⟩

theorem waiting_ends : ∀ (xs : List Ref) (h : Heap), ∃ L', (waiting h c xs).EndsIn E L' ∧
    L'.heap = (forEach xs (addElement E c) h).2 ∧ L'.future = some (forEach xs (addElement E c) h).1
  | [], h => by
    obtain ⟨L', e, a, b⟩ := settled_ends (E := E) h (.ok ())
    exact ⟨L', .on rfl e, a, b⟩
  | x :: xs, h => by
    cases q : addElement E c x h with
    | mk r h1 =>
      cases r with
      | ok u =>
        obtain ⟨L', e, a, b⟩ := waiting_ends xs h1
        have t : (waiting h c (x :: xs)).turn E = waiting h1 c xs := by
          simp [Loop.turn, waiting, Loop.exec, Job.step, q]
        refine ⟨L', .on (by rw [t]; rfl) (by rw [t]; exact e), ?_, ?_⟩
        · rw [a, forEach_cons, bind_ok q]
        · rw [b, forEach_cons, bind_ok q]
      | error e =>
        obtain ⟨L', en, a, b⟩ := settled_ends (E := E) h1 (.error e)
        have t : (waiting h c (x :: xs)).turn E =
            { heap := h1, jobs := [.done (.error e)], waits := true, ready := [.settled 0] } := by
          simp [Loop.turn, waiting, Loop.exec, Job.step, q]
        refine ⟨L', .on (by rw [t]) (by rw [t]; exact en), ?_, ?_⟩
        · rw [a, forEach_cons, bind_err q]
        · rw [b, forEach_cons, bind_err q]

theorem adding_ends (xs : List Ref) (h : Heap) : ∃ L',
    Loop.EndsIn E { heap := h, jobs := addElementsJobs c xs, waits := true } L' ∧
    L'.heap = (forEach xs (addElement E c) h).2 ∧ L'.future = some (forEach xs (addElement E c) h).1 := by
  obtain ⟨L', e, a, b⟩ := waiting_ends (E := E) (c := c) xs h
  exact ⟨L', .on rfl e, a, b⟩

/-- One batch, sequentially. -/
theorem forEach_batch : ∀ (xs : List Ref) {h : Heap}, Reach E h → Compatible h [(c, xs)] →
    ∃ h', forEach xs (addElement E c) h = (.ok (), h') ∧ Reach E h' ∧ h'.subelements c = h.subelements c ++ xs ∧
      AddedSoFar h [(c, xs)] (fun _ => xs.length) h'
  | [], h, R, _ => ⟨h, rfl, R, by simp, (AddedSoFar.none h _).congr fun i c xs q => by
      cases i <;> simp at q; obtain ⟨rfl, rfl⟩ := q; simp⟩
  | x :: xs, h, R, C => by
    have hi : ([(c, x :: xs)] : Batches)[0]? = some (c, x :: xs) := rfl
    obtain ⟨h1, e, R1, J⟩ := C.join R hi
    have C1 : Compatible h1 [(c, xs)] := C.step hi J
    obtain ⟨h', e', R', s, A⟩ := forEach_batch xs R1 C1
    refine ⟨h', by rw [forEach_cons, bind_ok e, e'], R', ?_, ?_⟩
    · rw [s, J.subs, if_pos rfl]; simp
    · refine (AddedSoFar.step C hi J A).congr fun i c xs q => ?_
      cases i <;> simp at q
      obtain ⟨rfl, rfl⟩ := q
      simp

end adding

/-- **C98**, what holds: a program that also awaits the future that `add_elements` returns, for elements that can be added,
ends normally with all of them in the container, after the old ones and in their order, and nothing else moved. -/
theorem C98_awaited_partial {E : Env} {h : Heap} (R : Reach E h) {c : Ref} {xs : List Ref} (C : Compatible h [(c, xs)]) :
    ∃ L', Loop.EndsIn E { heap := h, jobs := addElementsJobs c xs, waits := true } L' ∧ L'.future = some (.ok ()) ∧
      Reach E L'.heap ∧ L'.heap.subelements c = h.subelements c ++ xs ∧ (∀ x ∈ xs, (L'.heap.get x).parent = some c) ∧
      (∀ x, x ∉ xs → (L'.heap.get x).parent = (h.get x).parent) := by
  obtain ⟨h', e, R', s, A⟩ := forEach_batch (E := E) xs R C
  obtain ⟨L', en, a, b⟩ := adding_ends (E := E) (c := c) xs h
  rw [e] at a b
  refine ⟨L', en, b, a ▸ R', by rw [a]; exact s, fun x hx => ?_, fun x hx => ?_⟩
  · rw [a]; exact A.placed c x ⟨0, xs, rfl, by simpa using hx⟩
  · rw [a]
    refine A.others x ?_
    rintro d ⟨i, ys, q, k⟩
    cases i <;> simp at q
    obtain ⟨rfl, rfl⟩ := q
    exact hx (List.mem_of_mem_take k)

/-- **C98**, what holds: an element that the container has already makes the awaited future fail; the elements before it have
been added, those after it have not. -/
theorem C98_duplicate_partial {E : Env} {h : Heap} (R : Reach E h) {c x y : Ref} {xs zs : List Ref} (C : Compatible h [(c, xs)])
    (hy : y ∈ h.subelements c ∨ y ∈ xs) (hu : (h.get y).uuid = (h.get x).uuid) (hx : x ≠ c) :
    ∃ L', Loop.EndsIn E { heap := h, jobs := addElementsJobs c (xs ++ x :: zs), waits := true } L' ∧
      L'.future = some (.error .duplicateElement) ∧ L'.heap.subelements c = h.subelements c ++ xs := by
  obtain ⟨h', e, R', s, A⟩ := forEach_batch (E := E) xs R C
  obtain ⟨L', en, a, b⟩ := adding_ends (E := E) (c := c) (xs ++ x :: zs) h
  have d : addElement E c x h' = (.error .duplicateElement, h') := by
    refine C08_refuse_duplicate R' hx (y := y) ?_ ?_
    · rw [s]; exact List.mem_append.2 hy
    · rw [(A.same y).2.1, (A.same x).2.1, hu]
  have key : ∀ (ys : List Ref) (k : Heap), forEach ys (addElement E c) k = (.ok (), h') →
      forEach (ys ++ x :: zs) (addElement E c) k = (.error .duplicateElement, h') := by
    intro ys
    induction ys with
    | nil =>
      intro k q
      cases q
      rw [List.nil_append, forEach_cons, bind_err d]
    | cons y ys ih =>
      intro k q
      rw [List.cons_append, forEach_cons]
      rw [forEach_cons] at q
      cases p : addElement E c y k with
      | mk r k1 =>
        cases r with
        | ok u => rw [bind_ok p] at q ⊢; exact ih k1 q
        | error e => rw [bind_err p] at q; cases q
  rw [key xs h e] at a b
  exact ⟨L', en, b, by rw [a]; exact s⟩

/-- **C98 refuted.** A program that awaits `add_elements` only (as `run_until_complete(c.add_elements(xs))` does) ends after the
first element: the others are in no container, and the future is not done. -/
theorem C98_not_awaited_refuted {E : Env} {h : Heap} (R : Reach E h) {c x : Ref} {xs : List Ref} (C : Compatible h [(c, x :: xs)]) :
    ∃ L', Loop.EndsIn E { heap := h, jobs := addElementsJobs c (x :: xs), waits := false } L' ∧ L'.future = none ∧
      L'.heap.subelements c = h.subelements c ++ [x] ∧ ∀ y ∈ xs, (L'.heap.get y).parent = none := by
  have hi : ([(c, x :: xs)] : Batches)[0]? = some (c, x :: xs) := rfl
  obtain ⟨h1, e, R1, J⟩ := C.join R hi
  have t : Loop.turn E (Loop.turn E { heap := h, jobs := addElementsJobs c (x :: xs), waits := false }) =
      { heap := h1, jobs := [.adding c xs], waits := false, ready := [.step 0], stopped := true } := by
    simp [Loop.turn, addElementsJobs, Loop.exec, Job.step, e]
  refine ⟨_, .on rfl (.stop (by rw [t])), by rw [t], ?_, fun y hy => ?_⟩
  · rw [t]; simp [J.subs]
  · rw [t]
    have C1 : Compatible h1 [(c, xs)] := C.step hi J
    exact (C1.free c y ⟨xs, by simp, hy⟩).2

/-! ## C99 -/

section removing
variable {E : Env} {c : Ref}

theorem forall₂_imp_right {α β : Type} {P Q : α → β → Prop} {l : List α} {m : List β} (F : List.Forall₂ P l m)
    (i : ∀ a, ∀ b ∈ m, P a b → Q a b) : List.Forall₂ Q l m := by
  induction F with
  | nil => exact .nil
  | cons p _ ih => exact .cons (i _ _ (.head _) p) (ih fun a b hb => i a b (.tail _ hb))

/-- The first step of one removal. -/
theorem removing_step {h : Heap} (R : Reach E h) (pl : Plain h c) {p : Str × Option Bytes} {x : Ref} (N : MeansIn h c p x) :
    ∃ h', removeElement E c p.1 p.2 (some 1) h = (.ok [x], h') ∧ Reach E h' ∧ DetachedAll h c [x] h' ∧
      (∀ y < h.size, (h'.get y).uuid = (h.get y).uuid ∧ (h'.get y).idName = (h.get y).idName ∧ (h'.get y).kind = (h.get y).kind) := by
  obtain ⟨nm, u⟩ := p
  obtain ⟨hx, N⟩ := N
  have I := R.good.inv
  have hp := (C01_containment_agrees R c).1 x |>.1 hx
  have hcl : c < h.size := SInv.parent_lt I hp
  have fin : ∀ h', removeElement E c nm u (some 1) h = (.ok [x], h') → RemoveSafe h c nm u (some 1) →
      DetachedAll h c [x] h' → ∃ h', removeElement E c nm u (some 1) h = (.ok [x], h') ∧ Reach E h' ∧ DetachedAll h c [x] h' ∧
      (∀ y < h.size, (h'.get y).uuid = (h.get y).uuid ∧ (h'.get y).idName = (h.get y).idName ∧
        (h'.get y).kind = (h.get y).kind) := by
    intro h' e s D
    have K := (frames_removeElement (L := True) E c nm u (some 1) h).keeps
    rw [e] at K
    refine ⟨h', e, ?_, D, fun y hy => ⟨K.uuid y hy, K.idName y hy, K.kind y hy⟩⟩
    have := Reach.step (.remove c nm u (some 1)) R hcl s
    have q : (Op.remove c nm u (some 1)).after E h = h' := by
      show ((removeElement E c nm u (some 1)).void h).2 = h'
      unfold PyM.void
      rw [bind_ok e]; rfl
    rwa [q] at this
  simp only at N
  rcases N with ⟨rfl, hn⟩ | ⟨rfl, hne, hn, only⟩
  · obtain ⟨h', hr, sim, -, -⟩ := I.removeUuid E (lim := some 1) (by simp) hp hn
    obtain ⟨a, b, -, d, e, -⟩ := detached I hp sim
    refine fin h' (by rw [removeElement_plain pl.1 pl.2]; exact hr) ⟨pl.2, fun k => ?_⟩ ?_
    · intro y hy e
      have hpy := (C01_containment_agrees R c).1 y |>.1 hy
      have : y = x := by
        have q1 := (SInv.get?_subs I c (h.get x).uuid y).2 ⟨hpy, e⟩
        have q2 := (SInv.get?_subs I c (h.get x).uuid x).2 ⟨hp, rfl⟩
        rw [q1] at q2
        injection q2
      subst this
      exact (hn.resolve_left k).symm
    · exact ⟨fun y hy => by rw [List.mem_singleton.1 hy]; exact a, fun y hy => e y (by simpa using hy),
        by rw [b]; simp, fun k hk => (d k hk).1⟩
  · have hf : (h.subelements c).filter (fun y => decide ((h.get y).idName = nm)) = [x] := by
      have nd := (C01_containment_agrees R c).2
      refine List.perm_singleton.1 ((List.perm_ext_iff_of_nodup (nd.filter _) (List.nodup_singleton x)).2 fun y => ?_)
      simp only [List.mem_filter, decide_eq_true_eq, List.mem_singleton]
      exact ⟨fun q => only y q.1 q.2, fun q => by subst q; exact ⟨hx, hn.symm⟩⟩
    obtain ⟨h', a, b, d, e, -, g⟩ := remove_name_eff (E := E) I pl hne (lim := some 1) (by simp) ⟨x, hx, hn.symm⟩
    rw [hf] at a b d e
    refine fin h' a ⟨pl.2, fun _ => ⟨pl.1, fun k hk => .inr ?_⟩⟩ ?_
    · cases hk
      rw [hf]; simp
    · exact ⟨fun y hy => (b y hy).1, fun y hy => (d y hy).1, e, fun k hk => (g k hk).1⟩

/-- The first steps of all removals. -/
theorem removing_steps : ∀ (ps : List (Str × Option Bytes)) (xs : List Ref) {h : Heap} (pre : List Job) (w : Bool), Reach E h →
    Plain h c → List.Forall₂ (MeansIn h c) ps xs → xs.Nodup → ∀ (rd : List Handle), ∃ h', Reach E h' ∧ DetachedAll h c xs h' ∧
      ((List.range' pre.length ps.length).map Handle.step).foldl (Loop.exec E)
        { heap := h, jobs := pre ++ removeElementsJobs c ps, waits := w, ready := rd } =
      { heap := h', jobs := pre ++ List.replicate ps.length .thrown, waits := w,
        ready := rd ++ (List.range' pre.length ps.length).map Handle.step }
  | [], [], h, pre, w, R, _, _, _, rd => ⟨h, R, ⟨by simp, fun _ _ => rfl, by simp, fun _ _ => rfl⟩, by simp [removeElementsJobs]⟩
  | p :: ps, x :: xs, h, pre, w, R, pl, .cons N F, nd, rd => by
    obtain ⟨h1, e, R1, D, K⟩ := removing_step R pl N
    have I := R.good.inv
    have lt : ∀ y ∈ h.subelements c, y < h.size ∧ c < h.size := fun y hy => by
      have hp := (C01_containment_agrees R c).1 y |>.1 hy
      exact ⟨SInv.lt_of_parent I hp, SInv.parent_lt I hp⟩
    have pl1 : Plain h1 c := by
      unfold Plain
      rw [(K c (lt x N.1).2).2.2]; exact pl
    have F1 : List.Forall₂ (MeansIn h1 c) ps xs := by
      refine forall₂_imp_right F fun q y hy M => ?_
      have ne : y ≠ x := fun k => (List.nodup_cons.1 nd).1 (k ▸ hy)
      have ky := K y (lt y M.1).1
      refine ⟨by rw [D.inside]; simp [M.1, ne], ?_⟩
      rw [ky.1, ky.2.1]
      refine M.2.imp id fun ⟨a, b, d, o⟩ => ⟨a, b, d, fun z hz => ?_⟩
      rw [D.inside] at hz
      have hz' := (List.mem_filter.1 hz).1
      rw [(K z (lt z hz').1).2.1]
      exact o z hz'
    obtain ⟨h', R', D', e'⟩ := removing_steps ps xs (pre ++ [.thrown]) w R1 pl1 F1 (List.nodup_cons.1 nd).2
      (rd ++ [.step pre.length])
    refine ⟨h', R', ⟨?_, ?_, ?_, ?_⟩, ?_⟩
    · intro y hy
      rcases List.mem_cons.1 hy with k | k
      · subst k
        rw [D'.others y (List.nodup_cons.1 nd).1, D.gone y (.head _)]
      · exact D'.gone y k
    · intro y hy
      rw [D'.others y fun k => hy (.tail _ k), D.others y fun k => hy (by rw [List.mem_singleton.1 k]; exact .head _)]
    · rw [D'.inside, D.inside, List.filter_filter]
      refine List.filter_congr fun y _ => ?_
      simp only [List.mem_cons, List.not_mem_nil, or_false, not_or, Bool.decide_and]
      exact Bool.and_comm _ _
    · intro d hd
      rw [D'.elsewhere d hd, D.elsewhere d hd]
    · have one : Loop.exec E { heap := h, jobs := pre ++ removeElementsJobs c (p :: ps), waits := w, ready := rd } (.step pre.length) =
          { heap := h1, jobs := (pre ++ [.thrown]) ++ removeElementsJobs c ps, waits := w, ready := rd ++ [.step pre.length] } := by
        simp [Loop.exec, removeElementsJobs, Job.step, e]
      rw [List.length_cons, List.range'_succ, List.map_cons, List.foldl_cons, one]
      rw [List.length_append, List.length_singleton] at e'
      rw [e']
      simp [List.replicate_succ]

/-- The second steps: every task fails. -/
theorem thrown_steps (h : Heap) (w : Bool) : ∀ (n : Nat) (pre : List Job) (rd : List Handle),
    ((List.range' pre.length n).map Handle.step).foldl (Loop.exec E)
      { heap := h, jobs := pre ++ List.replicate n .thrown, waits := w, ready := rd } =
    { heap := h, jobs := pre ++ List.replicate n (.done (.error .runtimeError)), waits := w,
      ready := rd ++ (List.range' pre.length n).map Handle.settled }
  | 0, pre, rd => by simp
  | n + 1, pre, rd => by
    have one : Loop.exec E { heap := h, jobs := pre ++ List.replicate (n + 1) .thrown, waits := w, ready := rd } (.step pre.length) =
        { heap := h, jobs := (pre ++ [.done (.error .runtimeError)]) ++ List.replicate n .thrown, waits := w,
          ready := rd ++ [.settled pre.length] } := by
      simp [Loop.exec, List.replicate_succ, Job.step]
    rw [List.range'_succ, List.map_cons, List.foldl_cons, one]
    have := thrown_steps h w n (pre ++ [.done (.error .runtimeError)]) (rd ++ [.settled pre.length])
    rw [List.length_append, List.length_singleton] at this
    rw [this]
    simp [List.replicate_succ]

/-- Further callbacks change nothing. -/
theorem settled_steps (js : List Job) (h : Heap) (w : Bool) (r : Except Err Unit) (rd : List Handle) : ∀ (l : List Nat) (k : Nat),
    (l.map Handle.settled).foldl (Loop.exec E) { heap := h, jobs := js, waits := w, finished := k, future := some r, ready := rd } =
    { heap := h, jobs := js, waits := w, finished := k + l.length, future := some r, ready := rd }
  | [], k => by simp
  | i :: l, k => by
    have one : Loop.exec E { heap := h, jobs := js, waits := w, finished := k, future := some r, ready := rd } (.settled i) =
      { heap := h, jobs := js, waits := w, finished := k + 1, future := some r, ready := rd } := rfl
    rw [List.map_cons, List.foldl_cons, one, settled_steps js h w r rd l (k + 1)]
    simp [Nat.add_assoc, Nat.add_comm 1]

end removing

/-- A loop before the future is done. -/
abbrev onLoop (h : Heap) (js : List Job) (w : Bool) (rd : List Handle) : Loop := { heap := h, jobs := js, waits := w, ready := rd }

/-- **C99 refuted.** Awaiting the future of `remove_elements` for one or more elements always fails with `RuntimeError` ("Task got
bad yield"). -/
theorem C99_awaited_refuted {E : Env} {h : Heap} (R : Reach E h) {c : Ref} (pl : Plain h c) {ps : List (Str × Option Bytes)}
    {xs : List Ref} (F : List.Forall₂ (MeansIn h c) ps xs) (nd : xs.Nodup) (ne : ps ≠ []) :
    ∃ L', Loop.EndsIn E { heap := h, jobs := removeElementsJobs c ps, waits := true } L' ∧
      L'.future = some (.error .runtimeError) ∧ Reach E L'.heap ∧ DetachedAll h c xs L'.heap := by
  obtain ⟨p, ps, rfl⟩ := List.exists_cons_of_ne_nil ne
  obtain ⟨h', R', D, e⟩ := removing_steps (E := E) (p :: ps) xs [] true R pl F nd []
  have len : (removeElementsJobs c (p :: ps)).length = ps.length + 1 := by simp [removeElementsJobs]
  have t1 : Loop.turn E { heap := h, jobs := removeElementsJobs c (p :: ps), waits := true } =
      onLoop h (removeElementsJobs c (p :: ps)) true ((List.range' 0 (ps.length + 1)).map Handle.step) := by
    simp [Loop.turn, Loop.exec, len, removeElementsJobs, List.range_eq_range']
  have t2 : Loop.turn E (onLoop h (removeElementsJobs c (p :: ps)) true ((List.range' 0 (ps.length + 1)).map Handle.step)) =
      onLoop h' (List.replicate (ps.length + 1) .thrown) true ((List.range' 0 (ps.length + 1)).map Handle.step) := e
  have t3 : Loop.turn E (onLoop h' (List.replicate (ps.length + 1) .thrown) true ((List.range' 0 (ps.length + 1)).map Handle.step)) =
      onLoop h' (List.replicate (ps.length + 1) (.done (.error .runtimeError))) true ((List.range' 0 (ps.length + 1)).map Handle.settled) :=
    thrown_steps h' true (ps.length + 1) [] []
  have t4 : Loop.turn E (onLoop h' (List.replicate (ps.length + 1) (.done (.error .runtimeError))) true ((List.range' 0 (ps.length + 1)).map Handle.settled)) =
      { onLoop h' (List.replicate (ps.length + 1) (.done (.error .runtimeError))) true [.wake] with
        finished := 1 + ps.length, future := some (.error .runtimeError) } := by
    unfold Loop.turn
    rw [List.range'_succ, List.map_cons, List.foldl_cons]
    have := settled_steps (E := E) (List.replicate (ps.length + 1) (.done (.error .runtimeError))) h' true
      (.error .runtimeError) [.wake] (List.range' (0 + 1) ps.length) 1
    rw [List.length_range'] at this
    rw [← this]
    congr 1
  exact ⟨_, .via t1 rfl (.via t2 rfl (.via t3 rfl (.via t4 rfl (.on rfl (.stop rfl))))), rfl, R', D⟩

/-- **C99**, what holds: the listed elements have been removed nevertheless, also for a program that does not await the future
(`run_until_complete(c.remove_elements(...))`), which ends without an exception. -/
theorem C99_removed_partial {E : Env} {h : Heap} (R : Reach E h) {c : Ref} (pl : Plain h c) {ps : List (Str × Option Bytes)}
    {xs : List Ref} (F : List.Forall₂ (MeansIn h c) ps xs) (nd : xs.Nodup) :
    ∃ L', Loop.EndsIn E { heap := h, jobs := removeElementsJobs c ps, waits := false } L' ∧
      Reach E L'.heap ∧ DetachedAll h c xs L'.heap := by
  obtain ⟨h', R', D, e⟩ := removing_steps (E := E) ps xs [] false R pl F nd []
  cases ps with
  | nil =>
    cases F
    exact ⟨_, .on rfl (.stop rfl), R, by simp, fun _ _ => rfl, by simp [Loop.turn, Loop.exec, removeElementsJobs], fun _ _ => rfl⟩
  | cons p ps =>
    have len : (removeElementsJobs c (p :: ps)).length = ps.length + 1 := by simp [removeElementsJobs]
    have t1 : Loop.turn E { heap := h, jobs := removeElementsJobs c (p :: ps), waits := false } =
        onLoop h (removeElementsJobs c (p :: ps)) false ((List.range' 0 (ps.length + 1)).map Handle.step ++ [.stop]) := by
      simp [Loop.turn, Loop.exec, len, removeElementsJobs, List.range_eq_range']
    have t2 : Loop.turn E (onLoop h (removeElementsJobs c (p :: ps)) false
        ((List.range' 0 (ps.length + 1)).map Handle.step ++ [.stop])) =
        Loop.exec E (onLoop h' (List.replicate (ps.length + 1) .thrown) false ((List.range' 0 (ps.length + 1)).map Handle.step))
          .stop := by
      unfold Loop.turn
      rw [List.foldl_append]
      exact congrArg (fun L => Loop.exec E L .stop) e
    exact ⟨_, .via t1 rfl (.halt t2 rfl), R', D⟩

/-- **C99**, what holds: awaiting the future of an empty batch returns, and nothing has changed. -/
theorem C99_empty_partial {E : Env} {h : Heap} {c : Ref} :
    ∃ L', Loop.EndsIn E { heap := h, jobs := removeElementsJobs c [], waits := true } L' ∧ L'.future = some (.ok ()) ∧ L'.heap = h :=
  ⟨_, .on rfl (.stop rfl), rfl, rfl⟩

/-- **C99 refuted.** If two elements have the name, `remove_elements([(name, None)])` removes one and leaves the other in the
container, where looking up its name does not find it. -/
theorem C99_same_name_refuted : ∃ (E : Env) (h : Heap) (L' : Loop), Reach E h ∧ (h.get 9).idName = ['a'] ∧
    Loop.EndsIn E { heap := h, jobs := removeElementsJobs 0 [(['a'], none)], waits := false } L' ∧
    9 ∈ L'.heap.subelements 0 ∧ getElementByIdName L'.heap 0 ['a'] = .ok [] :=
  ⟨E0, g9, _, reach9, by decide +kernel, .on (by decide +kernel) (.stop (by decide +kernel)), by decide +kernel, by decide +kernel⟩

/-! ## The hypotheses are met -/

theorem acyclic_of_rank {h : Heap} {bs : Batches} (rank : Ref → Nat) (hr : ∀ p x, HoldsOrWill h bs p x → rank p < rank x) (x : Ref) :
    ¬ Relation.TransGen (HoldsOrWill h bs) x x := by
  intro t
  have : ∀ y, Relation.TransGen (HoldsOrWill h bs) x y → rank x < rank y := by
    intro y t
    induction t with
    | single q => exact hr _ _ q
    | tail _ q ih => exact Nat.lt_trans ih (hr _ _ q)
  exact Nat.lt_irrefl _ (this x t)

/-- `4`, `5`, `6`: nodes in no container. -/
def f5 : Heap := (mkNode ['p'] 21 none).after E0 g4
/-- See `f5`. -/
def f6 : Heap := (mkNode ['q'] 22 none).after E0 f5
/-- See `f5`. -/
def f7 : Heap := (mkNode ['w'] 23 none).after E0 f6

theorem reach_f7 : Reach E0 f7 := by
  have r5 : Reach E0 f5 := .step _ reach4 ⟨rfl, okNone⟩ trivial
  have r6 : Reach E0 f6 := .step _ r5 ⟨rfl, okNone⟩ trivial
  exact .step _ r6 ⟨rfl, okNone⟩ trivial

/-- Two batches: `4` and `5` go to `1`, and `6` goes to `4`. -/
def twoBatches : Batches := [(1, [4, 5]), (4, [6])]

theorem planned_two {c x : Ref} (p : Planned twoBatches c x) : (c = 1 ∧ x = 4) ∨ (c = 1 ∧ x = 5) ∨ (c = 4 ∧ x = 6) := by
  obtain ⟨xs, hm, hx⟩ := p
  simp only [twoBatches, List.mem_cons, Prod.mk.injEq, List.not_mem_nil, or_false] at hm
  rcases hm with ⟨rfl, rfl⟩ | ⟨rfl, rfl⟩ <;> simp at hx
  · rcases hx with rfl | rfl
    · exact .inl ⟨rfl, rfl⟩
    · exact .inr (.inl ⟨rfl, rfl⟩)
  · exact .inr (.inr ⟨rfl, hx⟩)

theorem holds_two {c x : Ref} (p : HoldsOrWill f7 twoBatches c x) :
    (c = 0 ∧ (x = 1 ∨ x = 2 ∨ x = 3)) ∨ (c = 1 ∧ x = 4) ∨ (c = 1 ∧ x = 5) ∨ (c = 4 ∧ x = 6) := by
  rcases p with p | p
  · left
    have hx : x < f7.size := SInv.lt_of_parent reach_f7.good.inv p
    have : ∀ x < f7.size, (f7.get x).parent = none ∨ ((f7.get x).parent = some 0 ∧ (x = 1 ∨ x = 2 ∨ x = 3)) := by decide +kernel
    rcases this x hx with q | ⟨q, k⟩
    · rw [q] at p; cases p
    · rw [q] at p; cases p
      exact ⟨rfl, k⟩
  · exact .inr (planned_two p)

/-- The two batches can be carried out together, although the second one fills an element that the first one moves. -/
theorem two_compatible : Compatible f7 twoBatches := by
  refine ⟨by decide +kernel, ?_, by decide +kernel, ?_, acyclic_of_rank id ?_⟩
  · intro c x p
    rcases planned_two p with ⟨rfl, rfl⟩ | ⟨rfl, rfl⟩ | ⟨rfl, rfl⟩ <;> decide +kernel
  · intro c x y p q e
    rcases planned_two p with ⟨rfl, rfl⟩ | ⟨rfl, rfl⟩ | ⟨rfl, rfl⟩ <;>
      rcases holds_two q with ⟨k, -⟩ | ⟨k, rfl⟩ | ⟨k, rfl⟩ | ⟨k, rfl⟩ <;>
      first | rfl | (exact absurd k (by decide)) | (revert e; decide +kernel)
  · intro c x p
    rcases holds_two p with ⟨rfl, rfl | rfl | rfl⟩ | ⟨rfl, rfl⟩ | ⟨rfl, rfl⟩ | ⟨rfl, rfl⟩ <;> decide

/-- The second batch first, then the first one: element `6` is in `4`, which is in `1`. -/
example : ((runJobs E0 [1, 0, 1, 0, 0] (f7, twoBatches.jobs)).1.get 6).parent = some 4 ∧
    ((runJobs E0 [1, 0, 1, 0, 0] (f7, twoBatches.jobs)).1.get 6).qualName = "r/a/p/w".toList ∧
    AllDone (runJobs E0 [1, 0, 1, 0, 0] (f7, twoBatches.jobs)).2 := by
  have R := C100_any_schedule reach_f7 two_compatible [1, 0, 1, 0, 0]
  refine ⟨R.2.1.placed 4 6 ⟨1, [6], rfl, by decide⟩, by decide +kernel, fun j hj => ?_⟩
  obtain ⟨i, hi⟩ := List.mem_iff_getElem?.1 hj
  have a := R.2.2.2 0 1 [4, 5] rfl (by decide)
  have b := R.2.2.2 1 4 [6] rfl (by decide)
  match i, hi with
  | 0, hi => rw [a] at hi; cases hi; exact ⟨_, rfl⟩
  | 1, hi => rw [b] at hi; cases hi; exact ⟨_, rfl⟩
  | n + 2, hi =>
    have : (runJobs E0 [1, 0, 1, 0, 0] (f7, twoBatches.jobs)).2.length = 2 := by decide +kernel
    exact absurd (List.getElem?_eq_some_iff.1 hi).1 (by omega)

/-- One batch. -/
theorem one_compatible : Compatible f7 [(1, [4, 5])] := by
  have sub : ∀ {c x}, Planned [(1, [4, 5])] c x → Planned twoBatches c x := fun ⟨xs, hm, hx⟩ =>
    ⟨xs, by simp only [List.mem_singleton] at hm; rw [hm]; exact .head _, hx⟩
  have hold : ∀ {c x}, HoldsOrWill f7 [(1, [4, 5])] c x → HoldsOrWill f7 twoBatches c x := fun p => p.imp id sub
  exact ⟨by decide +kernel, fun c x p => two_compatible.free c x (sub p), by decide +kernel,
    fun c x y p q => two_compatible.uuids c x y (sub p) (hold q),
    fun x t => two_compatible.acyclic x (t.lift id fun _ _ p => hold p)⟩

example : ∃ L', Loop.EndsIn E0 { heap := f7, jobs := addElementsJobs 1 [4, 5], waits := true } L' ∧
    L'.heap.subelements 1 = [4, 5] := by
  obtain ⟨L', a, -, -, b, -⟩ := C98_awaited_partial reach_f7 one_compatible
  exact ⟨L', a, by rw [b]; decide +kernel⟩

/-- Two elements of the sample are removed, one by its name and one by its uuid. -/
example : ∃ L', Loop.EndsIn E0 { heap := g4, jobs := removeElementsJobs 0 [(['a'], none), ([], some [4])], waits := true } L' ∧
    L'.future = some (.error .runtimeError) ∧ L'.heap.subelements 0 = [2] := by
  have F : List.Forall₂ (MeansIn g4 0) [(['a'], none), ([], some [4])] [1, 3] :=
    .cons ⟨by decide +kernel, .inr ⟨rfl, by decide, by decide +kernel, by decide +kernel⟩⟩
      (.cons ⟨by decide +kernel, .inl ⟨by decide +kernel, .inl rfl⟩⟩ .nil)
  obtain ⟨L', a, b, -, d⟩ := C99_awaited_refuted reach4 (by unfold Plain; decide +kernel) F (by decide) (by simp)
  exact ⟨L', a, b, by rw [d.inside]; decide +kernel⟩

end Rei
