import Verif.Props.SdfFrame
import Verif.Props.SdfSolid

/-!
# C84: links are exported completely
-/
namespace Rei

variable {h : Heap}

theorem FrameOf.ports {n : Ref} (M : Mechanical h n) : (∃ a p b r e j, h.subPorts n = a ++ p :: b ∧ JointPort h p r e j ∧
      Drives h r e ∧ ∀ p' ∈ a, ∀ r' e' j', JointPort h p' r' e' j' → ¬ Drives h r' e') ∨
    ∀ p ∈ h.subPorts n, ∀ r e j, JointPort h p r e j → ¬ Drives h r e := by
  have key : ∀ (l : List Ref), (∀ p ∈ l, ∃ r e j, JointPort h p r e j) →
      (∃ a p b r e j, l = a ++ p :: b ∧ JointPort h p r e j ∧
      Drives h r e ∧ ∀ p' ∈ a, ∀ r' e' j', JointPort h p' r' e' j' → ¬ Drives h r' e') ∨
      ∀ p ∈ l, ∀ r e j, JointPort h p r e j → ¬ Drives h r e := by
    intro l
    induction l with
    | nil => intro _; right; intro p hp; cases hp
    | cons p l ih =>
      intro hl
      by_cases q : ∃ r e j, JointPort h p r e j ∧ Drives h r e
      · obtain ⟨r, e, j, P, D⟩ := q
        exact .inl ⟨[], p, l, r, e, j, rfl, P, D, fun p' hp' => by cases hp'⟩
      · have first : ∀ r' e' j', JointPort h p r' e' j' → ¬ Drives h r' e' := fun r' e' j' P D => q ⟨r', e', j', P, D⟩
        rcases ih fun x hx => hl x (List.mem_cons_of_mem _ hx) with ⟨a, p', b, r, e, j, rfl, P, D, ha⟩ | hno
        · refine .inl ⟨p :: a, p', b, r, e, j, rfl, P, D, ?_⟩
          intro x hx
          rcases List.mem_cons.1 hx with rfl | hx
          · exact first
          · exact ha x hx
        · right
          intro x hx
          rcases List.mem_cons.1 hx with rfl | hx
          · exact first
          · exact hno x hx
  exact key _ M.ports

theorem frameOf_encode {E : Env} (R : Reach E h) {l n : Ref} (hl : (h.get l).parent = some n) (M : Mechanical h n)
    (pre : Str) {y : Xml} (hy : encodeLink h l pre = .ok y) : FrameOf h pre n y.frame := by
  obtain ⟨q1, q2⟩ := C70_frame R hl M pre hy
  obtain ⟨g, q, hg, hq⟩ := M.graph
  rcases FrameOf.ports M with ⟨a, p, b, r, e, j, h1, h2, h3, h4⟩ | hno
  · rw [(q1 a p b r e j h1 h2 h3 h4).1]
    exact .driven a p b r e j h1 h2 h3 h4
  · obtain ⟨c1, c2⟩ := q2 hno g q hg hq
    by_cases c : (∃ y, Within h y q ∧ HasKinGraph h y) ∧
        ∃ p ∈ h.subPorts n, ∃ r, (h.get p).endpoint = some r ∧ (h.get r).direction ≠ .outwards
    · rw [c1 c]
      exact .connected g q hno hg hq c.1 c.2
    · rw [c2 c]
      exact .absolute g q hno hg hq c

theorem Mechanical.frame_ok {E : Env} (R : Reach E h) {n : Ref} (hn : n < h.size) (M : Mechanical h n) :
    ∃ f, Rei.relativeFrame h (some n) = .ok f := by
  obtain ⟨g, q, hg, hnear, hrun⟩ := M.relativeFrame R hn
  rw [hrun]
  rcases FrameOf.ports M with ⟨a, p, b, r, e, j, h1, h2, h3, h4⟩ | hno
  · rw [h1]
    refine ⟨_, frameLoop_driven R hg h2 h3 b a none ?_⟩
    intro p' hp'
    obtain ⟨r', e', j', P'⟩ := M.ports p' (by rw [h1]; exact List.mem_append_left _ hp')
    exact ⟨r', e', j', P', h4 p' hp' _ _ _ P'⟩
  · refine ⟨_, frameLoop_rest R hg _ _ ?_⟩
    intro p' hp'
    obtain ⟨r', e', j', P'⟩ := M.ports p' hp'
    exact ⟨r', e', j', P', hno p' hp' _ _ _ P'⟩

theorem linkPose_of {l : Ref} (ht : ∀ x ∈ transformsOf h l, IsTransform h x) (attrs : List (Str × Str)) :
    ∃ q, linkPose h l attrs = .ok q ∧ q.tag = "pose".toList ∧ (∀ x ts, transformsOf h l = x :: ts → PoseOf h x q) ∧
      (transformsOf h l = [] → q.text = List.replicate 6 (.num 0)) := by
  unfold linkPose
  change ∃ q, (match transformsOf h l with
    | x :: _ => rigidPose h x attrs
    | [] => .ok (defaultPose attrs)) = .ok q ∧ _
  cases hl : transformsOf h l with
  | nil => exact ⟨_, rfl, rfl, (fun x ts q => by cases q), fun _ => rfl⟩
  | cons x ts =>
    obtain ⟨p, h1, h2, _⟩ := rigidPose_of (ht x (by rw [hl]; simp)) attrs
    exact ⟨p, h1, h2.1, (fun x ts q => by cases q; exact h2), fun q => by cases q⟩

/-- What the inertia of a readable link is. -/
theorem encodeInertia_readable {l n : Ref} (L : ReadableLink h l n) : ∃ is, encodeInertia h l = .ok is ∧
    (∀ x ∈ is, x.tag = "inertial".toList) ∧ (h.subSemantic .inertia n = [] → is = []) ∧
    (∀ m, HasMass h n m → ∃ x i, is = [x] ∧ readInertial x = some i ∧ i.mass = m) ∧
    (∀ m r, HasMass h n m → SolidLink h n (.sphere r) → ∃ x, is = [x] ∧ readInertial x = some (inertialOf m (.sphere r))) := by
  have tagOf : ∀ x i, readInertial x = some i → x.tag = "inertial".toList := by
    intro x i hx
    unfold readInertial at hx
    split at hx
    · assumption
    · cases hx
  have massOne : ∀ m m', HasMass h n m → HasMass h n m' → m = m' := by
    rintro m m' ⟨i, h1, h2⟩ ⟨i', h3, h4⟩
    rw [h1] at h3
    cases h3
    rw [h2] at h4
    cases h4
    rfl
  rcases L.mass with h0 | ⟨m, s, hm, hs, hne⟩
  · refine ⟨[], ?_, (fun x hx => by cases hx), (fun _ => rfl), ?_, ?_⟩
    · unfold encodeInertia
      rw [L.parent]
      simp only
      rw [show h.getSubelements (fun x => decide ((h.get x).kind = .semantic .inertia)) n = [] from h0]
    · rintro m ⟨i, q, _⟩; rw [h0] at q; cases q
    · rintro m r ⟨i, q, _⟩; rw [h0] at q; cases q
  · have fin : ∀ x i, encodeInertia h l = .ok [x] → readInertial x = some i → i.mass = m →
        (∀ r, SolidLink h n (.sphere r) → readInertial x = some (inertialOf m (.sphere r))) → ∃ is, encodeInertia h l = .ok is ∧
      (∀ x ∈ is, x.tag = "inertial".toList) ∧ (h.subSemantic .inertia n = [] → is = []) ∧
      (∀ m, HasMass h n m → ∃ x i, is = [x] ∧ readInertial x = some i ∧ i.mass = m) ∧
      (∀ m r, HasMass h n m → SolidLink h n (.sphere r) → ∃ x, is = [x] ∧ readInertial x = some (inertialOf m (.sphere r))) := by
      intro x i h1 h2 h3 h4
      refine ⟨[x], h1, ?_, ?_, ?_, ?_⟩
      · intro z hz; rw [List.mem_singleton.1 hz]; exact tagOf x i h2
      · intro q; obtain ⟨_, q', _⟩ := hm; rw [q] at q'; cases q'
      · intro m' hm'; cases massOne m m' hm hm'; exact ⟨x, i, rfl, h2, h3⟩
      · intro m' r hm' hr; cases massOne m m' hm hm'; exact ⟨x, rfl, h4 r hr⟩
    have other : ∀ r, SolidLink h n (.sphere r) → ∃ x, encodeInertia h l = .ok [x] ∧
        readInertial x = some (inertialOf m (.sphere r)) := fun r hr => C65_sphere_partial L.parent hm hr
    have conv : ∀ x, encodeInertia h l = .ok [x] → ∀ r, SolidLink h n (.sphere r) →
        readInertial x = some (inertialOf m (.sphere r)) := by
      intro x hx r hr
      obtain ⟨x', h1, h2⟩ := other r hr
      rw [hx] at h1
      cases h1
      exact h2
    cases s with
    | sphere r =>
      obtain ⟨x, h1, h2⟩ := other r hs
      exact fin x _ h1 h2 rfl (conv x h1)
    | cylinder r k =>
      obtain ⟨x, h1, h2⟩ := cylinder_swapped L.parent hm hs
      exact fin x _ h1 h2 rfl (conv x h1)
    | box a b c =>
      obtain ⟨x, h1, h2⟩ := C65_box_refuted L.parent hm hs
      exact fin x _ h1 h2 rfl (conv x h1)
    | ellipsoid a b c => exact absurd rfl (hne a b c)

theorem every_only {l : List Xml} {t t' : Str} (q : ∀ x ∈ l, x.tag = t) (hne : t ≠ t') :
    l.filter (fun c => decide (c.tag = t')) = [] := by
  refine List.filter_eq_nil_iff.2 fun x hx => ?_
  rw [q x hx]
  simp [hne]

theorem every_all {l : List Xml} {t : Str} (q : ∀ x ∈ l, x.tag = t) : l.filter (fun c => decide (c.tag = t)) = l :=
  List.filter_eq_self.2 fun x hx => decide_eq_true (q x hx)

/-- **C84.** A readable link is exported completely: name, pose, frame, visuals, collisions and inertia are those of the
link and its node, and there is nothing else. -/
theorem C84_link {E : Env} (R : Reach E h) {l n : Ref} (L : ReadableLink h l n) (pre : Str) :
    ∃ y, IsLinkExport h pre l y ∧ LinkElement h pre l n y := by
  have hn : n < h.size := (Anc.lt R.good.inv (.direct L.parent)).1
  obtain ⟨f, hf⟩ := L.mechanical.frame_ok R hn
  obtain ⟨q, hq, tq, pq, zq⟩ := linkPose_of L.transforms (relativeTo f pre)
  obtain ⟨vs, cs, hg, fv, fc⟩ := C66_solids_partial pre L.one L.visuals L.collisions
  obtain ⟨is, hi, ti, i0, i1, i2⟩ := encodeInertia_readable L
  have hy : encodeLink h l pre =
      .ok (.el "link".toList [("name".toList, joinPrefix [(h.get l).idName] pre)] [] (q :: (vs ++ cs))) := by
    unfold encodeLink
    rw [show Rei.relativeFrame h (h.get l).parent = .ok f from L.parent ▸ hf, ebind_ok rfl, ebind_ok hq,
      show parentOf h l = .ok n by unfold parentOf; rw [L.parent], ebind_ok rfl, ebind_ok hg]
    rfl
  have tv : ∀ x ∈ vs, x.tag = "visual".toList := by
    intro x hx
    obtain ⟨_, _, q, _⟩ := forall₂_right fv x hx
    exact q.tag
  have tc : ∀ x ∈ cs, x.tag = "collision".toList := by
    intro x hx
    obtain ⟨_, _, q⟩ := forall₂_right fc x hx
    exact q.tag
  have ch : (Xml.with (.el "link".toList [("name".toList, joinPrefix [(h.get l).idName] pre)] [] (q :: (vs ++ cs))) is).children
      = q :: (vs ++ cs ++ is) := rfl
  have ev : ∀ t : String, (Xml.with (.el "link".toList [("name".toList, joinPrefix [(h.get l).idName] pre)] []
      (q :: (vs ++ cs))) is).every t = [q].filter (fun c => decide (c.tag = t.toList)) ++
        vs.filter (fun c => decide (c.tag = t.toList)) ++ cs.filter (fun c => decide (c.tag = t.toList)) ++
        is.filter (fun c => decide (c.tag = t.toList)) := by
    intro t
    unfold Xml.every
    rw [ch, ← List.filter_append, ← List.filter_append, ← List.filter_append]
    simp
  have tq' : ∀ x ∈ [q], x.tag = "pose".toList := by intro x hx; rw [List.mem_singleton.1 hx]; exact tq
  have evV : (Xml.with (.el "link".toList [("name".toList, joinPrefix [(h.get l).idName] pre)] []
      (q :: (vs ++ cs))) is).every "visual" = vs := by
    rw [ev, every_only tq' (by decide), every_all tv, every_only tc (by decide), every_only ti (by decide)]
    simp
  have evC : (Xml.with (.el "link".toList [("name".toList, joinPrefix [(h.get l).idName] pre)] []
      (q :: (vs ++ cs))) is).every "collision" = cs := by
    rw [ev, every_only tq' (by decide), every_only tv (by decide), every_all tc, every_only ti (by decide)]
    simp
  have evI : (Xml.with (.el "link".toList [("name".toList, joinPrefix [(h.get l).idName] pre)] []
      (q :: (vs ++ cs))) is).every "inertial" = is := by
    rw [ev, every_only tq' (by decide), every_only tv (by decide), every_only tc (by decide), every_all ti]
    simp
  have evP : (Xml.with (.el "link".toList [("name".toList, joinPrefix [(h.get l).idName] pre)] []
      (q :: (vs ++ cs))) is).every "pose" = [q] := by
    rw [ev, every_all tq', every_only tv (by decide), every_only tc (by decide), every_only ti (by decide)]
    simp
  refine ⟨_, ⟨_, is, hy, hi, rfl⟩, ⟨rfl, ?_, ?_, ⟨q, evP, pq, zq⟩, ?_, ?_, ?_, ?_, ?_, ?_⟩⟩
  · exact (encodeLink_name hy).2
  · have := frameOf_encode R L.parent L.mechanical pre hy
    have e : Xml.frame (Xml.with (.el "link".toList [("name".toList, joinPrefix [(h.get l).idName] pre)] []
        (q :: (vs ++ cs))) is) =
        Xml.frame (.el "link".toList [("name".toList, joinPrefix [(h.get l).idName] pre)] [] (q :: (vs ++ cs))) := by
      unfold Xml.frame Xml.child?
      rw [ch]
      simp only [Xml.children, List.find?_cons, tq, decide_true]
    rw [e]
    exact this
  · rw [evV]; exact fv
  · rw [evC]; exact fc
  · rw [evI]; exact i0
  · rw [evI]; exact i1
  · rw [evI]; exact i2
  · intro c hc
    rw [ch] at hc
    simp only [List.mem_cons, List.mem_append] at hc
    rcases hc with rfl | (hc | hc) | hc
    · exact .inl tq
    · exact .inr (.inl (tv c hc))
    · exact .inr (.inr (.inl (tc c hc)))
    · exact .inr (.inr (.inr (ti c hc)))

end Rei
