import Verif.Props.Removal
import Verif.Spec.EventLoop

/-!
# Steps of batches
-/
namespace Rei
open PyM

/-- One element that is in no container is added to a plain container. -/
structure Joined1 (h : Heap) (c x : Ref) (h' : Heap) : Prop where
  size : h'.size = h.size
  parent : ∀ y, (h'.get y).parent = if y = x then some c else (h.get y).parent
  subs : ∀ d, h'.subelements d = if d = c then h.subelements c ++ [x] else h.subelements d
  kind : ∀ y, (h'.get y).kind = (h.get y).kind
  uuid : ∀ y, (h'.get y).uuid = (h.get y).uuid
  idName : ∀ y, (h'.get y).idName = (h.get y).idName
  named : Named h → Named h'

theorem add_joined {E : Env} {h : Heap} (r : Reach E h) {c x : Ref} (hc : c < h.size) (hx : x < h.size) (pl : Plain h c)
    (hp : (h.get x).parent = none) (ha : ¬ Anc h x c) (hne : x ≠ c)
    (hu : ∀ y ∈ h.subelements c, (h.get y).uuid ≠ (h.get x).uuid) :
    ∃ h', addElement E c x h = (.ok (), h') ∧ Reach E h' ∧ Joined1 h c x h' := by
  have hs : (Op.add c x).Safe h := ⟨ha, fun p q => by rw [hp] at q; cases q⟩
  rcases C08_add_total r (c := c) (x := x) ⟨hc, hx⟩ hs pl.2 (fun k => absurd k pl.1) with e | ⟨y, hy, e⟩ | ⟨h', e⟩
  · exact absurd e hne
  · exact absurd e (hu y hy)
  · have r' : Reach E h' := by
      have := Reach.step (.add c x) r ⟨hc, hx⟩ hs
      have q : (Op.add c x).after E h = h' := by show (addElement E c x h).2 = h'; rw [e]
      rwa [q] at this
    refine ⟨h', e, r', ?_⟩
    have I := r.good.inv
    obtain ⟨h1, m, hh⟩ := addElement_ok I E hc hx hs e
    rcases hh with ⟨-, q, -⟩ | ⟨k, -⟩
    · constructor
      · rw [q.size, m.sim.size, moveH_size]
      · intro y; rw [q.parent, m.parent I]
      · intro d
        unfold Heap.subelements
        rw [q.subs, m.subs I d]
        by_cases k : d = c
        · subst k; simp [Dict.values]
        · rw [if_neg k, if_neg k, if_neg (by rw [hp]; simp)]
      · intro y; rw [q.kind, m.sim.kind, moveH_kind]
      · intro y; rw [q.uuid, m.sim.uuid, moveH_uuid]
      · intro y; rw [q.idName, m.sim.idName, moveH_idName]
      · intro N
        have a := (acts_addElement (M := ⟨True, True, False⟩) I E hc hx hs (fun f => f.elim)).1
        rw [e] at a
        exact a.named trivial I N
    · exact absurd k pl.2

theorem Anc.holds {h : Heap} {bs : Batches} {a x : Ref} (q : Anc h a x) : Relation.TransGen (HoldsOrWill h bs) a x := by
  induction q with
  | direct p => exact .single (.inl p)
  | up p _ ih => exact .tail ih (.inl p)

/-- The task of a batch: elements to add, or nothing left and done. -/
def JobOf (b : Ref × List Ref) (j : Job) : Prop := j = .adding b.1 b.2 ∨ (b.2 = [] ∧ j = .done (.ok ()))

theorem AddedSoFar.congr {h h' : Heap} {bs : Batches} {n m : Nat → Nat} (A : AddedSoFar h bs n h')
    (e : ∀ (i : Nat) c xs, bs[i]? = some (c, xs) → xs.take (n i) = xs.take (m i)) : AddedSoFar h bs m h' := by
  have key : ∀ c x, PutInto bs n c x ↔ PutInto bs m c x := by
    intro c x
    constructor
    · rintro ⟨i, xs, a, b⟩; exact ⟨i, xs, a, by rw [← e i c xs a]; exact b⟩
    · rintro ⟨i, xs, a, b⟩; exact ⟨i, xs, a, by rw [e i c xs a]; exact b⟩
  refine ⟨A.size, fun c x p => A.placed c x ((key c x).2 p), fun x p => A.others x fun c q => p c ((key c x).1 q), fun c => ?_,
    A.same, A.named⟩
  obtain ⟨new, a, b⟩ := A.inside c
  exact ⟨new, a, fun i xs q => by rw [← e i c xs q]; exact b i xs q⟩

theorem AddedSoFar.none (h : Heap) (bs : Batches) : AddedSoFar h bs (fun _ => 0) h :=
  ⟨rfl, fun c x ⟨i, xs, _, q⟩ => by simp at q, fun _ _ => rfl, fun c => ⟨[], by simp, fun i xs _ => by simp⟩,
    fun _ => ⟨rfl, rfl, rfl⟩, fun N => N⟩

section step
variable {E : Env} {h h1 : Heap} {bs : Batches} {i c x : Nat} {xs : List Ref}

theorem set_split (hi : bs[i]? = some (c, x :: xs)) : ∃ l r, bs = l ++ (c, x :: xs) :: r ∧ bs.set i (c, xs) = l ++ (c, xs) :: r := by
  obtain ⟨hl, e⟩ := List.getElem?_eq_some_iff.1 hi
  refine ⟨bs.take i, bs.drop (i + 1), ?_, List.set_eq_take_append_cons_drop ▸ by simp [hl]⟩
  rw [← e]; simp

theorem planned_set (hi : bs[i]? = some (c, x :: xs)) {d y : Ref} (p : Planned (bs.set i (c, xs)) d y) : Planned bs d y := by
  obtain ⟨l, r, e1, e2⟩ := set_split hi
  obtain ⟨ys, hm, hy⟩ := p
  rw [e2] at hm
  rw [e1]
  rcases List.mem_append.1 hm with q | q
  · exact ⟨ys, List.mem_append_left _ q, hy⟩
  · rcases List.mem_cons.1 q with q | q
    · cases q
      exact ⟨x :: xs, by simp, .tail _ hy⟩
    · exact ⟨ys, List.mem_append_right _ (.tail _ q), hy⟩

theorem not_planned_set (hi : bs[i]? = some (c, x :: xs)) (on : (bs.flatMap Prod.snd).Nodup) (d : Ref) :
    ¬ Planned (bs.set i (c, xs)) d x := by
  obtain ⟨l, r, e1, e2⟩ := set_split hi
  rintro ⟨ys, hm, hy⟩
  rw [e2] at hm
  rw [e1] at on
  simp only [List.flatMap_append, List.flatMap_cons, List.nodup_append, List.cons_append, List.nodup_cons, List.mem_append,
    List.mem_flatMap, List.mem_cons] at on
  rcases List.mem_append.1 hm with q | q
  · exact on.2.2 x ⟨_, q, hy⟩ x (.inl rfl) rfl
  · rcases List.mem_cons.1 q with q | q
    · cases q
      exact on.2.1.1 (.inl hy)
    · exact on.2.1.1 (.inr ⟨_, q, hy⟩)

theorem holds_set (hi : bs[i]? = some (c, x :: xs)) (J : Joined1 h c x h1) {d y : Ref}
    (p : HoldsOrWill h1 (bs.set i (c, xs)) d y) : HoldsOrWill h bs d y := by
  rcases p with p | p
  · rw [J.parent] at p
    by_cases k : y = x
    · subst k
      rw [if_pos rfl] at p
      cases p
      exact .inr ⟨_, List.mem_of_getElem? hi, .head _⟩
    · rw [if_neg k] at p
      exact .inl p
  · exact .inr (planned_set hi p)

theorem Compatible.step (C : Compatible h bs) (hi : bs[i]? = some (c, x :: xs)) (J : Joined1 h c x h1) :
    Compatible h1 (bs.set i (c, xs)) := by
  constructor
  · intro b hb
    rw [J.size, J.kind]
    rcases List.mem_or_eq_of_mem_set hb with q | q
    · exact C.containers b q
    · subst q
      exact C.containers (c, x :: xs) (List.mem_of_getElem? hi)
  · intro d y p
    have ne : y ≠ x := fun e => not_planned_set hi C.once d (e ▸ p)
    rw [J.size, J.parent, if_neg ne]
    exact C.free d y (planned_set hi p)
  · obtain ⟨l, r, e1, e2⟩ := set_split hi
    rw [e2]
    refine C.once.sublist ?_
    rw [e1]
    simp only [List.flatMap_append, List.flatMap_cons]
    exact (List.Sublist.refl _).append ((List.sublist_cons_self x xs).append (.refl _))
  · intro d y z p q e
    rw [J.uuid, J.uuid] at e
    exact C.uuids d y z (planned_set hi p) (holds_set hi J q) e
  · intro y t
    exact C.acyclic y (t.lift id fun _ _ p => holds_set hi J p)

theorem Compatible.join (C : Compatible h bs) (R : Reach E h) (hi : bs[i]? = some (c, x :: xs)) :
    ∃ h', addElement E c x h = (.ok (), h') ∧ Reach E h' ∧ Joined1 h c x h' := by
  have hm := List.mem_of_getElem? hi
  have p : Planned bs c x := ⟨_, hm, .head _⟩
  have hc := C.containers _ hm
  have hx := C.free _ _ p
  refine add_joined R hc.1 hx.1 hc.2 hx.2 (fun a => C.acyclic x (.tail a.holds (.inr p))) ?_ ?_
  · rintro rfl
    exact C.acyclic _ (.single (.inr p))
  · intro y hy e
    have hp := (C01_containment_agrees R c).1 y |>.1 hy
    have := C.uuids c x y p (.inl hp) e
    subst this
    rw [hx.2] at hp
    cases hp

theorem put_step (hi : bs[i]? = some (c, x :: xs)) (n : Nat → Nat) (d y : Ref) :
    PutInto bs (fun j => if j = i then n j + 1 else n j) d y ↔ (d = c ∧ y = x) ∨ PutInto (bs.set i (c, xs)) n d y := by
  have hl : i < bs.length := (List.getElem?_eq_some_iff.1 hi).1
  constructor
  · rintro ⟨j, ys, a, b⟩
    by_cases k : j = i
    · subst k
      rw [hi] at a
      cases a
      simp only [if_true, List.take_succ_cons] at b
      rcases List.mem_cons.1 b with q | q
      · exact .inl ⟨rfl, q⟩
      · exact .inr ⟨j, xs, by simp [hl], q⟩
    · simp only [if_neg k] at b
      exact .inr ⟨j, ys, by rw [List.getElem?_set_ne (Ne.symm k)]; exact a, b⟩
  · rintro (⟨rfl, rfl⟩ | ⟨j, ys, a, b⟩)
    · exact ⟨i, _, hi, by simp⟩
    · by_cases k : j = i
      · subst k
        rw [List.getElem?_set_self hl] at a
        cases a
        exact ⟨j, _, hi, by simp [b]⟩
      · rw [List.getElem?_set_ne (Ne.symm k)] at a
        exact ⟨j, ys, a, by simpa only [if_neg k] using b⟩

theorem AddedSoFar.step {h' : Heap} {n : Nat → Nat} (C : Compatible h bs) (hi : bs[i]? = some (c, x :: xs)) (J : Joined1 h c x h1)
    (A : AddedSoFar h1 (bs.set i (c, xs)) n h') : AddedSoFar h bs (fun j => if j = i then n j + 1 else n j) h' := by
  have hl : i < bs.length := (List.getElem?_eq_some_iff.1 hi).1
  have new_x : ∀ d, ¬ PutInto (bs.set i (c, xs)) n d x := by
    rintro d ⟨j, ys, a, b⟩
    exact not_planned_set hi C.once d ⟨ys, List.mem_of_getElem? a, List.mem_of_mem_take b⟩
  refine ⟨A.size.trans J.size, ?_, ?_, ?_, fun y => ?_, fun N => J.size ▸ A.named (J.named N)⟩
  · intro d y p
    rcases (put_step hi n d y).1 p with ⟨rfl, rfl⟩ | q
    · rw [A.others _ new_x, J.parent, if_pos rfl]
    · exact A.placed d y q
  · intro y p
    rw [A.others y fun d q => p d ((put_step hi n d y).2 (.inr q)), J.parent, if_neg]
    rintro rfl
    exact p c ((put_step hi n c y).2 (.inl ⟨rfl, rfl⟩))
  · intro d
    obtain ⟨new, a, b⟩ := A.inside d
    rw [J.subs] at a
    by_cases k : d = c
    · subst k
      rw [if_pos rfl] at a
      refine ⟨x :: new, by rw [a]; simp, fun j ys q => ?_⟩
      by_cases k : j = i
      · subst k
        rw [hi] at q
        cases q
        rw [if_pos rfl, List.take_succ_cons]
        exact (b j xs (by simp [hl])).cons_cons _
      · rw [if_neg k]
        exact (b j ys (by rw [List.getElem?_set_ne (Ne.symm k)]; exact q)).cons _
    · rw [if_neg k] at a
      refine ⟨new, a, fun j ys q => ?_⟩
      by_cases k' : j = i
      · subst k'
        rw [hi] at q
        cases q
        exact absurd rfl k
      · rw [if_neg k']
        exact b j ys (by rw [List.getElem?_set_ne (Ne.symm k')]; exact q)
  · rw [← J.idName, ← J.uuid, ← J.kind]
    exact A.same y

end step

/-- Batches under any schedule. -/
theorem runJobs_batches {E : Env} (s : List Nat) : ∀ {h : Heap} {bs : Batches} {js : List Job}, Reach E h → Compatible h bs →
    List.Forall₂ JobOf bs js →
    Reach E (runJobs E s (h, js)).1 ∧ AddedSoFar h bs (fun i => s.count i) (runJobs E s (h, js)).1 ∧
    ∀ (i : Nat) c xs, bs[i]? = some (c, xs) → ∃ j, (runJobs E s (h, js)).2[i]? = some j ∧
      JobOf (c, xs.drop (s.count i)) j ∧ (xs.length < s.count i → j = .done (.ok ())) := by
  induction s with
  | nil =>
    intro h bs js R C F
    refine ⟨R, ?_, fun i c xs hi => ?_⟩
    · exact (AddedSoFar.none h bs).congr fun i c xs _ => by simp
    · obtain ⟨hl, e⟩ := List.getElem?_eq_some_iff.1 hi
      have := F.get hl (by rw [← F.length_eq]; exact hl)
      refine ⟨js[i]'(by rw [← F.length_eq]; exact hl), by simp [runJobs], ?_, by simp⟩
      simp only [List.get_eq_getElem, e] at this
      simpa using this
  | cons i is ih =>
    intro h bs js R C F
    have cnt : ∀ j, (i :: is).count j = if j = i then is.count j + 1 else is.count j := by
      intro j
      rw [List.count_cons]
      by_cases k : j = i
      · subst k; simp
      · rw [if_neg k]
        have : (i == j) = false := by simpa using fun e => k e.symm
        simp [this]
    simp only [runJobs, cnt]
    cases hb : bs[i]? with
    | none =>
      have hj : js[i]? = none := by
        rw [List.getElem?_eq_none_iff] at hb ⊢
        rwa [← F.length_eq]
      have es : stepJob E i (h, js) = (h, js) := by simp [stepJob, hj]
      rw [es]
      obtain ⟨r1, r2, r3⟩ := ih R C F
      refine ⟨r1, r2.congr fun j c xs q => ?_, fun j c xs q => ?_⟩
      · rw [if_neg (by rintro rfl; rw [hb] at q; cases q)]
      · rw [if_neg (by rintro rfl; rw [hb] at q; cases q)]
        exact r3 j c xs q
    | some b =>
      obtain ⟨c, ys⟩ := b
      obtain ⟨hl, e⟩ := List.getElem?_eq_some_iff.1 hb
      have hl' : i < js.length := by rw [← F.length_eq]; exact hl
      have J := F.get hl hl'
      simp only [List.get_eq_getElem, e] at J
      have hj : js[i]? = some js[i] := by simp [hl']
      cases ys with
      | nil =>
        -- the batch is finished: nothing more happens to the heap
        have es : stepJob E i (h, js) = (h, js.set i (.done (.ok ()))) := by
          unfold stepJob
          simp only [hj]
          rcases J with q | ⟨-, q⟩ <;> rw [q] <;> rfl
        rw [es]
        have F' : List.Forall₂ JobOf bs (js.set i (.done (.ok ()))) := by
          rw [List.forall₂_iff_get]
          refine ⟨by simp [F.length_eq], fun k h1 h2 => ?_⟩
          simp only [List.get_eq_getElem, List.getElem_set]
          split
          · rename_i q; subst q
            rw [e]; exact .inr ⟨rfl, rfl⟩
          · exact F.get h1 (by simpa using h2)
        obtain ⟨r1, r2, r3⟩ := ih R C F'
        refine ⟨r1, r2.congr fun j d xs q => ?_, fun j d xs q => ?_⟩
        · by_cases k : j = i
          · subst k; rw [hb] at q; cases q; simp
          · rw [if_neg k]
        · by_cases k : j = i
          · subst k
            rw [hb] at q
            cases q
            obtain ⟨jb, a, b, -⟩ := r3 j c [] hb
            refine ⟨jb, a, by simpa using b, fun _ => ?_⟩
            have done : ∀ (s : List Nat) (h : Heap) (js : List Job), js[j]? = some (.done (.ok ())) →
                (runJobs E s (h, js)).2[j]? = some (.done (.ok ())) := by
              intro s
              induction s with
              | nil => exact fun h js q => q
              | cons i' s ih' =>
                intro h js q
                refine ih' _ _ ?_
                show (stepJob E i' (h, js)).2[j]? = _
                unfold stepJob
                by_cases k : i' = j
                · subst k
                  simp only [q]
                  rw [List.getElem?_set_self (List.getElem?_eq_some_iff.1 q).1]
                  rfl
                · cases js[i']? with
                  | none => exact q
                  | some x =>
                    show (js.set i' _)[j]? = _
                    rw [List.getElem?_set_ne k]; exact q
            have := done is h (js.set j (.done (.ok ()))) (List.getElem?_set_self hl')
            rw [a] at this
            injection this
          · rw [if_neg k]
            exact r3 j d xs q
      | cons x xs =>
        rcases J with qj | ⟨q, -⟩
        · obtain ⟨h1, ra, R1, J1⟩ := C.join R hb
          have es : stepJob E i (h, js) = (h1, js.set i (.adding c xs)) := by
            unfold stepJob
            simp only [hj, qj, Job.step, ra]
          rw [es]
          have F' : List.Forall₂ JobOf (bs.set i (c, xs)) (js.set i (.adding c xs)) := by
            rw [List.forall₂_iff_get]
            refine ⟨by simp [F.length_eq], fun k h1 h2 => ?_⟩
            simp only [List.get_eq_getElem, List.getElem_set]
            split
            · exact .inl rfl
            · exact F.get (by simpa using h1) (by simpa using h2)
          obtain ⟨r1, r2, r3⟩ := ih R1 (C.step hb J1) F'
          refine ⟨r1, r2.step C hb J1, fun j d zs q => ?_⟩
          by_cases k : j = i
          · subst k
            rw [hb] at q
            cases q
            obtain ⟨jb, a, b, e⟩ := r3 j c xs (List.getElem?_set_self hl)
            rw [if_pos rfl, List.drop_succ_cons]
            exact ⟨jb, a, b, fun q => e (by simpa using q)⟩
          · rw [if_neg k]
            exact r3 j d zs (by rw [List.getElem?_set_ne (Ne.symm k)]; exact q)
        · cases q

end Rei
