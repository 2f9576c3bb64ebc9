import Verif.Props.SdfLink
import Verif.Props.SdfQuery

/-!
# C72: exports without nested graphs
-/
namespace Rei

variable {h : Heap}

theorem mem_selectionOf {els : List Ref} {r : Ref} : r ∈ selectionOf h els ↔ HoldsSelected h els r := by
  unfold selectionOf HoldsSelected
  simp only [List.mem_append, List.mem_filterMap, List.mem_filter, decide_eq_true_eq]
  constructor
  · rintro (⟨x, ⟨a, b⟩, c⟩ | ⟨x, ⟨a, b⟩, c⟩)
    · exact ⟨x, a, .inl b, c⟩
    · exact ⟨x, a, .inr b, c⟩
  · rintro ⟨x, a, b | b, c⟩
    · exact .inl ⟨x, ⟨a, b⟩, c⟩
    · exact .inr ⟨x, ⟨a, b⟩, c⟩

theorem selectionOf_nodup {els : List Ref} (q : OneEach h els) : (selectionOf h els).Nodup := by
  unfold selectionOf
  rw [← List.filterMap_append]
  unfold List.Nodup
  rw [List.pairwise_filterMap]
  have hnd : ((els.filter fun x => decide ((h.get x).kind = .semantic .kinLink)) ++
      els.filter fun x => decide ((h.get x).kind = .semantic .kinJoint)).Nodup := by
    rw [List.nodup_append']
    refine ⟨q.1.filter _, q.1.filter _, ?_⟩
    rw [List.disjoint_left]
    intro x h1 h2
    have a := of_decide_eq_true (List.mem_filter.1 h1).2
    have b := of_decide_eq_true (List.mem_filter.1 h2).2
    rw [a] at b
    cases b
  refine hnd.pairwise_of_forall_ne ?_
  intro x hx y hy hne b hb b' hb' e
  have sel : ∀ z, z ∈ ((els.filter fun x => decide ((h.get x).kind = .semantic .kinLink)) ++
      els.filter fun x => decide ((h.get x).kind = .semantic .kinJoint)) →
      z ∈ els ∧ ((h.get z).kind = .semantic .kinLink ∨ (h.get z).kind = .semantic .kinJoint) := by
    intro z hz
    rcases List.mem_append.1 hz with hz | hz
    · exact ⟨(List.mem_filter.1 hz).1, .inl (of_decide_eq_true (List.mem_filter.1 hz).2)⟩
    · exact ⟨(List.mem_filter.1 hz).1, .inr (of_decide_eq_true (List.mem_filter.1 hz).2)⟩
  obtain ⟨x1, x2⟩ := sel x hx
  obtain ⟨y1, y2⟩ := sel y hy
  exact hne (q.2 x x1 y y1 x2 y2 (by rw [hb, hb', e]))

theorem SoundSelection.good {els : List Ref} (S : SoundSelection h els) : GoodSelection h (selectionOf h els) where
  complete r hr := S.complete r (mem_selectionOf.1 hr)
  distinct r hr q hq x y := S.distinct r q x y (mem_selectionOf.1 hr) (mem_selectionOf.1 hq)
  answered i hi ki di := by
    obtain ⟨o, a, b⟩ := S.answered i (mem_selectionOf.1 hi) ki di
    exact ⟨o, mem_selectionOf.2 a, b⟩

theorem each_run {α : Type} {f : α → SdfM Unit} (ev : α → SdfEvent) : ∀ (l : List α) (s : Run),
    (∀ x ∈ l, ∀ s : Run, f x s = (.ok (), { s with sdf := s.sdf.runEvent (ev x) })) →
    each l f s = (.ok (), { s with sdf := s.sdf.runEvents (l.map ev) })
  | [], s, _ => rfl
  | x :: xs, s, hf => by
    unfold each
    rw [sdf_bind_ok (hf x (by simp) s), each_run ev xs _ fun y hy => hf y (List.mem_cons_of_mem _ hy)]
    rfl

theorem choose_list {α β : Type} {P : α → β → Prop} : ∀ {l : List α}, (∀ x ∈ l, ∃ y, P x y) → ∃ ys, List.Forall₂ P l ys
  | [], _ => ⟨[], .nil⟩
  | x :: xs, q => by
    obtain ⟨y, hy⟩ := q x (by simp)
    obtain ⟨ys, hys⟩ := choose_list fun x hx => q x (List.mem_cons_of_mem _ hx)
    exact ⟨y :: ys, .cons hy hys⟩

theorem runEvents_append (s : Sdf) (a b : List SdfEvent) : s.runEvents (a ++ b) = (s.runEvents a).runEvents b :=
  List.foldl_append ..

theorem each_forall {α : Type} {f : α → SdfM Unit} {P : α → Xml → Prop} : ∀ {l : List α} {ys : List Xml} (s : Run),
    List.Forall₂ P l ys → (∀ x y (s : Run), P x y → f x s = (.ok (), { s with sdf := s.sdf.add y })) →
    each l f s = (.ok (), { s with sdf := s.sdf.runEvents (ys.map .element) })
  | _, _, s, .nil, _ => rfl
  | _, _, s, .cons hx t, hf => by
    unfold each
    rw [sdf_bind_ok (hf _ _ s hx), each_forall _ t hf]
    rfl

theorem hasKinGraph_iff {v : Ref} : HasKinGraph h v ↔ h.subSemantic .kinGraph v ≠ [] := by
  constructor
  · rintro ⟨d, a, b⟩
    exact List.ne_nil_of_mem (mem_subSemantic.2 ⟨a, b⟩)
  · intro hne
    obtain ⟨d, hd⟩ := List.exists_mem_of_ne_nil _ hne
    exact ⟨d, mem_subSemantic.1 hd⟩

/-- What `C72_flat` says, in terms of the export of single elements. -/
theorem flat_run (W : World) (d : Nat) (els : List Ref) (pre : Str) (s : Run)
    (hl : ∀ l ∈ els, (W.h.get l).kind = .semantic .kinLink → ∃ y, IsLinkExport W.h pre l y)
    (S : SoundSelection W.h els)
    (hflat : ∀ i o v, JointPair W.h els i o → (W.h.get o).endpoint = some v → ¬ HasKinGraph W.h v)
    (hj : ∀ i o, JointPair W.h els i o → ∃ x, jointBase W.h i o pre = .ok x) :
    ∃ ys ps js, W.encode (d + 1) els pre s = (.ok (), { s with sdf := s.sdf.runEvents (
        (ofKind W.h .cognitiveEntity els).map (fun c => .model (W.h.get c).idName) ++
        ys.map .element ++ js.map .element) }) ∧
      List.Forall₂ (IsLinkExport W.h pre) (ofKind W.h .kinLink els) ys ∧
      List.Forall₂ (fun p x => jointBase W.h p.1 p.2 pre = .ok x) ps js ∧
      (∀ i o, (i, o) ∈ ps ↔ JointPair W.h els i o) ∧
      (OneEach W.h els → ps.Nodup) := by
  obtain ⟨ps, hps, hnd, hmem⟩ := C44_pairs S.good false
  have hpair : ∀ i o, (i, o) ∈ ps ↔ JointPair W.h els i o := by
    intro i o
    rw [hmem]
    simp only [mem_selectionOf, Bool.false_eq_true, or_false]
    constructor
    · rintro ⟨a, b, c, d, e, f, g, k⟩; exact ⟨a, b, c, d, e, f, g, k⟩
    · rintro ⟨a, b, c, d, e, f, g, k⟩; exact ⟨a, b, c, d, e, f, g, k⟩
  obtain ⟨ys, hys⟩ := choose_list (l := ofKind W.h .kinLink els) (P := IsLinkExport W.h pre) (by
    intro l hm
    obtain ⟨a, b⟩ := List.mem_filter.1 hm
    exact hl l a (of_decide_eq_true b))
  obtain ⟨js, hjs⟩ := choose_list (l := ps) (P := fun p x => jointBase W.h p.1 p.2 pre = .ok x ∧
      ∃ v, (W.h.get p.2).endpoint = some v ∧ ¬ HasKinGraph W.h v) (by
    rintro ⟨i, o⟩ hm
    have P := (hpair i o).1 hm
    obtain ⟨x, hx⟩ := hj i o P
    obtain ⟨_, v, _, hv, _⟩ := P.ends
    exact ⟨x, hx, v, hv, hflat i o v P hv⟩)
  refine ⟨ys, ps, js, ?_, hys, hjs.imp fun _ _ q => q.1, hpair, fun q => hnd (selectionOf_nodup q)⟩
  unfold World.encode
  have e1 := each_run (f := W.element []) (fun c => SdfEvent.model (W.h.get c).idName)
    (els.filter fun x => (W.h.get x).kind = .semantic .cognitiveEntity) s (by
      intro x hx s
      have := of_decide_eq_true (List.mem_filter.1 hx).2
      unfold World.element Sdf.encodeElement
      rw [this]
      rfl)
  rw [sdf_bind_ok e1]
  have e2 := each_forall (f := W.element pre) (P := fun l y => IsLinkExport W.h pre l y ∧
      (W.h.get l).kind = .semantic .kinLink)
    (l := els.filter fun x => (W.h.get x).kind = .semantic .kinLink) (ys := ys)
    { s with sdf := s.sdf.runEvents ((els.filter fun x => (W.h.get x).kind = .semantic .cognitiveEntity).map
      fun c => SdfEvent.model (W.h.get c).idName) }
    (by
      have : ∀ {l : List Ref} {ys : List Xml}, List.Forall₂ (IsLinkExport W.h pre) l ys →
          (∀ x ∈ l, (W.h.get x).kind = .semantic .kinLink) →
          List.Forall₂ (fun l y => IsLinkExport W.h pre l y ∧ (W.h.get l).kind = .semantic .kinLink) l ys := by
        intro l ys q
        induction q with
        | nil => intro _; exact .nil
        | cons a _ ih => intro hk; exact .cons ⟨a, hk _ (by simp)⟩ (ih fun x hx => hk x (List.mem_cons_of_mem _ hx))
      exact this hys fun x hx => of_decide_eq_true (List.mem_filter.1 hx).2)
    (by
      rintro x y s ⟨⟨y0, is, h1, h2, rfl⟩, hk⟩
      unfold World.element Sdf.encodeElement
      rw [hk]
      simp only [h1, h2])
  rw [sdf_bind_ok e2, sdf_bind_ok (ofExcept_ok hps)]
  rw [each_forall (ys := js) _ hjs]
  · simp only [← runEvents_append]
    rfl
  · rintro ⟨i, o⟩ x s ⟨hx, v, hv, hg⟩
    have : endpointOf W.h o = .ok v := by unfold endpointOf; rw [hv]
    unfold World.pairStep
    rw [sdf_bind_ok (ofExcept_ok this)]
    rw [if_pos (by
      by_contra hne
      exact hg (hasKinGraph_iff.2 hne))]
    rw [sdf_bind_ok (ofExcept_ok hx)]
    rfl

theorem isLinkExport_fn {pre : Str} (l : Ref) (y y' : Xml) (a : IsLinkExport h pre l y) (b : IsLinkExport h pre l y') :
    y = y' := by
  obtain ⟨y0, is, h1, h2, rfl⟩ := a
  obtain ⟨y1, is', h3, h4, rfl⟩ := b
  rw [h1] at h3; cases h3
  rw [h2] at h4; cases h4
  rfl

theorem IsLinkExport.shown {E : Env} (R : Reach E h) {pre : Str} {l n : Ref} {y : Xml} (L : ReadableLink h l n)
    (q : IsLinkExport h pre l y) : LinkShown h pre l y := by
  obtain ⟨y', h1, h2⟩ := C84_link R L pre
  rw [isLinkExport_fn l y y' q h1]
  exact ⟨n, L.parent, h2⟩

theorem ReadableJoint.run {els : List Ref} {i o : Ref} (J : ReadableJoint h o) (P : JointPair h els i o) (pre : Str) :
    ∃ x, jointBase h i o pre = .ok x ∧ JointShown h pre i o x := by
  obtain ⟨j, a, b, c, hj, ha, ht⟩ := J
  obtain ⟨p, v, hp, hv, _⟩ := P.ends
  obtain ⟨x, h1, h2, _⟩ := C68_joint pre hp hv hj ha ht
  exact ⟨x, h1, p, v, j, hp, hv, hj, h2⟩

theorem forall₂_imp_mem {α β : Type} {P Q : α → β → Prop} {l : List α} {ys : List β} (a : List.Forall₂ P l ys)
    (q : ∀ x ∈ l, ∀ y, P x y → Q x y) : List.Forall₂ Q l ys := by
  induction a with
  | nil => exact .nil
  | cons hxy _ ih => exact .cons (q _ (by simp) _ hxy) (ih fun x hx => q x (List.mem_cons_of_mem _ hx))

/-- **C72.** An export of elements none of whose joints leads to a nested graph opens one model per cognitive entity,
then writes every link (with its inertia) once, in order, then one joint for every pair of an incoming and an
outgoing relation of an edge; nothing else.  `LinkShown` and `JointShown` say what the elements contain. -/
theorem C72_flat {E : Env} (W : World) (R : Reach E W.h) (d : Nat) (els : List Ref) (pre : Str) (s : Run)
    (hl : ∀ l ∈ els, (W.h.get l).kind = .semantic .kinLink → ∃ n, ReadableLink W.h l n)
    (S : SoundSelection W.h els)
    (hflat : ∀ i o v, JointPair W.h els i o → (W.h.get o).endpoint = some v → ¬ HasKinGraph W.h v)
    (hj : ∀ i o, JointPair W.h els i o → ReadableJoint W.h o) :
    ∃ ys ps js, W.encode (d + 1) els pre s = (.ok (), { s with sdf := s.sdf.runEvents (
        (ofKind W.h .cognitiveEntity els).map (fun c => .model (W.h.get c).idName) ++
        ys.map .element ++ js.map .element) }) ∧
      List.Forall₂ (LinkShown W.h pre) (ofKind W.h .kinLink els) ys ∧
      List.Forall₂ (fun p x => JointShown W.h pre p.1 p.2 x) ps js ∧
      (∀ i o, (i, o) ∈ ps ↔ JointPair W.h els i o) ∧
      (OneEach W.h els → ps.Nodup) := by
  obtain ⟨ys, ps, js, h1, h2, h3, h4, h5⟩ := flat_run W d els pre s
    (fun l hm hk => by
      obtain ⟨n, L⟩ := hl l hm hk
      obtain ⟨y, q, _⟩ := C84_link R L pre
      exact ⟨y, q⟩) S hflat
    (fun i o P => by
      obtain ⟨x, q, _⟩ := (hj i o P).run P pre
      exact ⟨x, q⟩)
  refine ⟨ys, ps, js, h1, ?_, ?_, h4, h5⟩
  · refine forall₂_imp_mem h2 fun l hm y q => ?_
    obtain ⟨a, b⟩ := List.mem_filter.1 hm
    obtain ⟨n, L⟩ := hl l a (of_decide_eq_true b)
    exact q.shown R L
  · refine forall₂_imp_mem h3 ?_
    rintro ⟨i, o⟩ hm x q
    obtain ⟨x', e, sh⟩ := (hj i o ((h4 i o).1 hm)).run ((h4 i o).1 hm) pre
    rw [show jointBase W.h i o pre = .ok x from q] at e
    cases e
    exact sh

end Rei
