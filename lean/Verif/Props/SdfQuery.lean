import Verif.Props.SdfFrame

/-!
# C71: base links, for every schedule
-/
namespace Rei

variable {h : Heap}

theorem passes_kin (h : Heap) (g : Ref) (k : Nat) :
    passes h (kinQuery h g k).statement = fun y => Passable (h.get y).kind := by
  funext y
  unfold passes Passable
  show (_ && true) = _
  rw [Bool.and_true]
  cases (h.get y).kind <;> rfl

theorem visitedBy_mem {E : Env} (R : Reach E h) {g : Ref} (hg : g < h.size)
    (hk : Passable (h.get g).kind = true) (k : Nat) (x : Ref) :
    x ∈ visitedBy h (kinQuery h g k) ↔ Inside h g x := by
  unfold visitedBy
  rw [passes_kin]
  show x ∈ breadthFirst h _ false g h.size ↔ _
  rw [C28_complete R hg false x]
  constructor
  · rintro (⟨rfl, a, _⟩ | ⟨n, hn, q⟩)
    · exact ⟨0, .start⟩
    · exact ⟨n, q⟩
  · rintro ⟨n, q⟩
    cases q with
    | start => exact .inl ⟨rfl, hk, rfl⟩
    | step q hy hf => exact .inr ⟨_, by omega, .step q hy hf⟩

theorem visitedBy_nodup {E : Env} (R : Reach E h) {g : Ref} (hg : g < h.size) (k : Nat) :
    (visitedBy h (kinQuery h g k)).Nodup := C28_exactly_once R hg false _

theorem Inside.lt {E : Env} (R : Reach E h) {g x : Ref} (hg : g < h.size) (q : Inside h g x) : x < h.size := by
  obtain ⟨n, q⟩ := q
  cases q with
  | start => exact hg
  | step _ hy _ => exact R.good.inv.lt_of_parent ((C01_containment_agrees R _).1 _ |>.1 hy)

theorem visitedBy_short {E : Env} (R : Reach E h) {g : Ref} (hg : g < h.size)
    (hk : Passable (h.get g).kind = true) (k : Nat) : (visitedBy h (kinQuery h g k)).length ≤ h.size := by
  have := (visitedBy_nodup R hg k).subperm (l₂ := List.range h.size) (fun x hx =>
    List.mem_range.2 (((visitedBy_mem R hg hk k x).1 hx).lt R hg))
  simpa using this.length_le

theorem matchesOf_mem {E : Env} (R : Reach E h) {g : Ref} (hg : g < h.size)
    (hk : Passable (h.get g).kind = true) (k : Nat) (x : Ref) :
    x ∈ matchesOf h (kinQuery h g k) ↔ Inside h g x ∧
      (h.get x).kind = .semantic (if k = 0 then .kinLink else .kinJoint) := by
  unfold matchesOf
  rw [List.mem_filter, visitedBy_mem R hg hk]
  refine and_congr_right fun _ => ?_
  show (match (.ok (decide ((h.get x).kind = .semantic (if k = 0 then .kinLink else .kinJoint))) : Except Err Bool) with
    | .ok true => true
    | _ => false) = true ↔ _
  by_cases hd : (h.get x).kind = .semantic (if k = 0 then .kinLink else .kinJoint)
  · simp [hd]
  · simp [hd]

theorem suffix_ne (name : Str) : name ++ "_link_query".toList ≠ name ++ "_joint_query".toList := by
  intro e
  have := List.append_cancel_left e
  exact absurd this (by decide)

/-- A query during an export: for every schedule, all links inside `g` and then all joints inside `g`. -/
theorem query_run {E : Env} {W : World} (F : W.Fair E) (name : Str) {g : Ref} (hg : g < W.h.size)
    (hk : Passable (W.h.get g).kind = true) (s : Run) (hs : s.shared = []) :
    ∃ ls js, W.query name g s = (.ok (ls ++ js), { s with uses := s.uses + 1 }) ∧ ls.Nodup ∧ js.Nodup ∧
      (∀ x, x ∈ ls ↔ Inside W.h g x ∧ (W.h.get x).kind = .semantic .kinLink) ∧
      (∀ x, x ∈ js ↔ Inside W.h g x ∧ (W.h.get x).kind = .semantic .kinJoint) := by
  have he : Dict.values ((Engine.addQuery [] (name ++ "_link_query".toList) 0).addQuery (name ++ "_joint_query".toList) 1)
      = [0, 1] := by
    unfold Engine.addQuery
    rw [Dict.set_of_not_mem (k := name ++ "_joint_query".toList)]
    · rfl
    · intro hm
      simp only [Dict.set, Dict.keys, List.map_cons, List.map_nil, List.mem_singleton] at hm
      exact suffix_ne name hm.symm
  obtain ⟨parts, Q', run, q, _, _⟩ := C52_every_schedule_partial F.reach (F.order s.uses)
    ((Engine.addQuery [] (name ++ "_link_query".toList) 0).addQuery (name ++ "_joint_query".toList) 1)
    (budget := W.budget) (kinQuery W.h g)
    (by rw [he]; decide)
    (by
      intro k _
      refine ⟨⟨rfl, fun c hc => by cases hc⟩, hg, ?_⟩
      exact lt_of_le_of_lt (visitedBy_short F.reach hg hk k) F.stack)
    ⟨0, by rw [he]; simp, List.ne_nil_of_mem ((visitedBy_mem F.reach hg hk 0 g).2 ⟨0, .start⟩)⟩
  rw [he] at q
  cases q with
  | @cons _ ls _ _ p1 q =>
    cases q with
    | @cons _ js _ _ p2 q =>
      cases q
      refine ⟨ls, js, ?_, ?_, ?_, ?_, ?_⟩
      · unfold World.query
        simp only [hs, run, List.flatten_cons, List.flatten_nil, List.append_nil]
      · exact p1.nodup_iff.2 ((visitedBy_nodup F.reach hg 0).filter _)
      · exact p2.nodup_iff.2 ((visitedBy_nodup F.reach hg 1).filter _)
      · intro x; rw [p1.mem_iff, matchesOf_mem F.reach hg hk]; rfl
      · intro x; rw [p2.mem_iff, matchesOf_mem F.reach hg hk]; rfl

theorem drivenLinks_run {E : Env} (R : Reach E h) {j : Ref} (P : JointPlaced h j) :
    ∃ ls, drivenLinks h j = .ok ls ∧ ∀ l, (h.get l).kind = .semantic .kinLink → (l ∈ ls ↔ DrivesLink h j l) := by
  obtain ⟨r, e, hr, he, hek, hends⟩ := P
  obtain ⟨rows, hrows, q⟩ := mapM_all_ok (l := h.outgoing e) (f := fun x => do
      let v ← endpointOf h x
      pure (h.subSemantic .kinLink v)) (Q := fun x row => ∃ v, (h.get x).endpoint = some v ∧ row = h.subSemantic .kinLink v)
    (by
      intro x hx
      cases hv : (h.get x).endpoint with
      | none => exact absurd hv (hends x hx)
      | some v =>
        refine ⟨h.subSemantic .kinLink v, ?_, v, rfl, rfl⟩
        have : endpointOf h x = .ok v := by unfold endpointOf; rw [hv]
        rw [ebind_ok this]
        rfl)
  refine ⟨rows.flatten, ?_, ?_⟩
  · unfold drivenLinks
    rw [hr]
    simp only [he, hek, if_true]
    rw [ebind_ok hrows]
    rfl
  · intro l hl
    rw [List.mem_flatten]
    constructor
    · rintro ⟨row, hrow, hm⟩
      obtain ⟨x, hx, v, hv, rfl⟩ := forall₂_right q row hrow
      exact ⟨r, e, x, v, hr, he, hx, hv, ((C01_containment_agrees R v).1 l).1 (mem_subSemantic.1 hm).1⟩
    · rintro ⟨r', e', x, v, hr', he', hx, hv, hp⟩
      rw [hr] at hr'; cases hr'
      rw [he] at he'; cases he'
      obtain ⟨row, hrow, v', hv', rfl⟩ := forall₂_left q x hx
      rw [hv] at hv'; cases hv'
      exact ⟨_, hrow, mem_subSemantic.2 ⟨((C01_containment_agrees R v).1 l).2 hp, hl⟩⟩

theorem sdf_bind_ok {α β : Type} {x : SdfM α} {f : α → SdfM β} {s s' : Run} {a : α} (hx : x s = (.ok a, s')) :
    (x >>= f) s = f a s' := by
  show (match x s with | (a, s') => ExceptT.bindCont f a s') = _
  rw [hx]
  rfl

theorem sdf_bind_err {α β : Type} {x : SdfM α} {f : α → SdfM β} {s s' : Run} {e : Err} (hx : x s = (.error e, s')) :
    (x >>= f) s = (.error e, s') := by
  show (match x s with | (a, s') => ExceptT.bindCont f a s') = _
  rw [hx]
  rfl

theorem ofExcept_ok {α : Type} {x : Except Err α} {a : α} (e : x = .ok a) {s : Run} : ofExcept x s = (.ok a, s) := by
  rw [e]; rfl

/-- **C71.** For every schedule, the canonical links of a graph are exactly its base links: the links inside that no
joint inside drives, each once.  (Every joint inside must be on a relation of an edge.) -/
theorem C71_base_links {E : Env} {W : World} (F : W.Fair E) {g : Ref} (hg : g < W.h.size)
    (hk : Passable (W.h.get g).kind = true)
    (hj : ∀ j, Inside W.h g j → (W.h.get j).kind = .semantic .kinJoint → JointPlaced W.h j)
    (s : Run) (hs : s.shared = []) :
    ∃ ls, W.canonicalLinks g s = (.ok ls, { s with uses := s.uses + 1 }) ∧ ls.Nodup ∧
      ∀ l, l ∈ ls ↔ BaseLink W.h g l := by
  obtain ⟨ls, js, run, n1, n2, m1, m2⟩ := query_run F (W.h.get g).idName hg hk s hs
  have f1 : (ls ++ js).filter (fun x => decide ((W.h.get x).kind = .semantic .kinLink)) = ls := by
    rw [List.filter_append, List.filter_eq_self.2, List.filter_eq_nil_iff.2, List.append_nil]
    · intro x hx; rw [((m2 x).1 hx).2]; decide
    · intro x hx; rw [((m1 x).1 hx).2]; decide
  have f2 : (ls ++ js).filter (fun x => decide ((W.h.get x).kind = .semantic .kinJoint)) = js := by
    rw [List.filter_append, List.filter_eq_nil_iff.2, List.nil_append, List.filter_eq_self.2]
    · intro x hx; rw [((m2 x).1 hx).2]; decide
    · intro x hx; rw [((m1 x).1 hx).2]; decide
  obtain ⟨rows, hrows, q⟩ := mapM_all_ok (l := js) (f := drivenLinks W.h)
    (Q := fun j row => ∀ l, (W.h.get l).kind = .semantic .kinLink → (l ∈ row ↔ DrivesLink W.h j l))
    (fun j hjj => drivenLinks_run F.reach (hj j ((m2 j).1 hjj).1 ((m2 j).1 hjj).2))
  refine ⟨ls.filter fun x => decide (x ∉ rows.flatten), ?_, n1.filter _, ?_⟩
  · unfold World.canonicalLinks
    rw [sdf_bind_ok run, f2, sdf_bind_ok (ofExcept_ok hrows), f1, n1.dedup]
    rfl
  · intro l
    rw [List.mem_filter, m1, decide_eq_true_eq]
    unfold BaseLink
    constructor
    · rintro ⟨⟨a, b⟩, c⟩
      refine ⟨a, b, fun j hji hjk hd => c ?_⟩
      obtain ⟨row, hrow, hm⟩ := forall₂_left q j ((m2 j).2 ⟨hji, hjk⟩)
      exact List.mem_flatten.2 ⟨row, hrow, (hm l b).2 hd⟩
    · rintro ⟨a, b, c⟩
      refine ⟨⟨a, b⟩, fun hm => ?_⟩
      obtain ⟨row, hrow, hm⟩ := List.mem_flatten.1 hm
      obtain ⟨j, hjj, hq⟩ := forall₂_right q row hrow
      obtain ⟨x, y⟩ := (m2 j).1 hjj
      exact c j x y ((hq l b).1 hm)

/-- The link that a nested graph is connected by: for every schedule and every choice of `pop` it is a base link
of the graph; without base links the export raises. -/
theorem C71_connecting_link {E : Env} {W : World} (F : W.Fair E) {g : Ref} (hg : g < W.h.size)
    (hk : Passable (W.h.get g).kind = true)
    (hj : ∀ j, Inside W.h g j → (W.h.get j).kind = .semantic .kinJoint → JointPlaced W.h j)
    (s : Run) (hs : s.shared = []) :
    ((∃ l, BaseLink W.h g l) → ∃ c, (W.canonicalLinks g >>= W.pop) s = (.ok c, { s with uses := s.uses + 1 }) ∧
      BaseLink W.h g c) ∧
    ((¬ ∃ l, BaseLink W.h g l) → ((W.canonicalLinks g >>= W.pop) s).1 = .error .keyError) := by
  obtain ⟨ls, run, _, mem⟩ := C71_base_links F hg hk hj s hs
  rw [sdf_bind_ok run]
  unfold World.pop
  constructor
  · rintro ⟨l, hl⟩
    have hne : ls ≠ [] := List.ne_nil_of_mem ((mem l).2 hl)
    rw [if_neg hne]
    exact ⟨_, rfl, (mem _).1 (F.pop _ ls hne)⟩
  · intro hno
    have : ls = [] := by
      rw [List.eq_nil_iff_forall_not_mem]
      intro l hl
      exact hno ⟨l, (mem l).1 hl⟩
    rw [if_pos this]

end Rei
