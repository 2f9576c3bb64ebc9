import Verif.Props.SdfKin

/-!
# C70: the frame of an exported link
-/
namespace Rei

variable {h : Heap}

theorem Within.antisymm (I : Inv h) {a b : Ref} (p : Within h a b) (q : Within h b a) : a = b := by
  rcases p with rfl | p
  · rfl
  · rcases q with rfl | q
    · rfl
    · exact absurd (p.trans q) (I.not_anc_self a)

/-- The kinematic graph of a mechanical node. -/
theorem Mechanical.find {E : Env} (R : Reach E h) {n : Ref} (hn : n < h.size) (M : Mechanical h n) :
    ∃ d g q, parentKinematicGraph h (some n) = .ok (some (d, g)) ∧ (h.get g).parent = some q ∧ Within h g n ∧
      HasKinGraph h g := by
  obtain ⟨g, q, ⟨a, b, c⟩, e⟩ := M.graph
  rcases C67_nearest_graph R hn with ⟨d, g', h1, h2, h3, h4⟩ | ⟨_, h2⟩
  · have hk : HasKinGraph h g' := by
      have := List.find?_some h3
      exact ⟨d, List.mem_of_find?_eq_some h3, of_decide_eq_true this⟩
    have : g = g' := Within.antisymm R.good.inv (h4 g a b) (c g' h2 hk)
    subst this
    exact ⟨d, g, q, h1, e, a, b⟩
  · exact absurd b (h2 g a)

/-- A kinematic graph lies around `q`. -/
def Nested (h : Heap) (q : Ref) : Prop := ∃ y, Within h y q ∧ HasKinGraph h y

theorem nested_run {E : Env} (R : Reach E h) {q : Ref} (hq : q < h.size) :
    (Nested h q ∧ ∃ r, parentKinematicGraph h (some q) = .ok (some r)) ∨
    (¬ Nested h q ∧ parentKinematicGraph h (some q) = .ok none) := by
  rcases C67_nearest_graph R hq with ⟨d, g', h1, h2, h3, h4⟩ | ⟨h1, h2⟩
  · left
    refine ⟨⟨g', h2, d, List.mem_of_find?_eq_some h3, ?_⟩, _, h1⟩
    have := List.find?_some h3
    exact of_decide_eq_true this
  · right
    exact ⟨fun ⟨y, a, b⟩ => h2 y a b, h1⟩

theorem JointPort.head {p r e j : Ref} (P : JointPort h p r e j) : ∃ js, h.subSemantic .kinJoint r = j :: js := by
  have := jointOf_of P.joint
  unfold jointOf at this
  cases hs : h.subSemantic .kinJoint r with
  | nil => rw [hs] at this; cases this
  | cons a l => rw [hs] at this; cases this; exact ⟨l, rfl⟩

theorem JointPort.ends_run {p r e j : Ref} (P : JointPort h p r e j) :
    ∃ vs, ((h.incoming e).mapM fun i => endpointOf h i) = .ok vs ∧
      List.Forall₂ (fun i v => (h.get i).endpoint = some v) (h.incoming e) vs := by
  apply mapM_all_ok
  intro i hi
  cases hv : (h.get i).endpoint with
  | none => exact absurd hv (P.ends i hi)
  | some v => exact ⟨v, by unfold endpointOf; rw [hv], rfl⟩

theorem forall₂_left {α β : Type} {P : α → β → Prop} : ∀ {l : List α} {m : List β}, List.Forall₂ P l m →
    ∀ a ∈ l, ∃ b ∈ m, P a b
  | _, _, .nil, b, hb => by cases hb
  | _, _, .cons h t, b, hb => by
    rcases List.mem_cons.1 hb with rfl | hb
    · exact ⟨_, List.mem_cons_self, h⟩
    · obtain ⟨a, ha, q⟩ := forall₂_left t b hb
      exact ⟨a, List.mem_cons_of_mem _ ha, q⟩

theorem portEdge_of {p r e j : Ref} (P : JointPort h p r e j) : portEdge h p = .ok e := by
  unfold portEdge
  rw [P.rel]
  simp only [P.edge, P.edgeKind, if_true]

theorem portFrame_out {n : Ref} {kin : Option Ref} {p r e j : Ref} (P : JointPort h p r e j)
    (ho : (h.get r).direction = .outwards) :
    (Drives h r e ∧ portFrame h n kin p = .ok (.inl (h.get j).idName)) ∨
    (¬ Drives h r e ∧ portFrame h n kin p = .ok (.inr none)) := by
  obtain ⟨js, hjs⟩ := P.head
  obtain ⟨vs, hvs, q⟩ := P.ends_run
  unfold portFrame
  rw [P.rel]
  simp only [hjs, P.kind, ne_eq, not_true, if_false, ho, if_true]
  rw [ebind_ok (portEdge_of P), ebind_ok hvs]
  by_cases hd : Drives h r e
  · left
    refine ⟨hd, ?_⟩
    rw [if_pos]
    · rfl
    obtain ⟨_, i, v, hi, hv, hw⟩ := hd
    obtain ⟨v', hv', e'⟩ := forall₂_left q i hi
    rw [hv] at e'; cases e'
    exact List.ne_nil_of_mem (List.mem_filter.2 ⟨hv', by simpa using hw⟩)
  · right
    refine ⟨hd, ?_⟩
    rw [if_neg]
    · rfl
    intro hne
    obtain ⟨v, hv⟩ := List.exists_mem_of_ne_nil _ hne
    obtain ⟨hv, hw⟩ := List.mem_filter.1 hv
    obtain ⟨i, hi, e'⟩ := forall₂_right q v hv
    exact hd ⟨ho, i, v, hi, e', by simpa using hw⟩

theorem portFrame_in {E : Env} (R : Reach E h) {n g q : Ref} (hg : (h.get g).parent = some q) {p r e j : Ref}
    (P : JointPort h p r e j) (ho : (h.get r).direction ≠ .outwards) :
    (Nested h q ∧ portFrame h n (some g) p = .ok (.inr (some (Str.join '.' ["connect".toList, (h.get n).idName])))) ∨
    (¬ Nested h q ∧ portFrame h n (some g) p = .ok (.inr none)) := by
  obtain ⟨js, hjs⟩ := P.head
  have hq : q < h.size := (Anc.lt R.good.inv (.direct hg)).1
  unfold portFrame
  rw [P.rel]
  simp only [hjs, P.kind, ne_eq, not_true, if_false, ho, hg]
  rcases nested_run R hq with ⟨a, r', b⟩ | ⟨a, b⟩
  · left; refine ⟨a, ?_⟩; rw [ebind_ok b]; rfl
  · right; refine ⟨a, ?_⟩; rw [ebind_ok b]; rfl

/-- The answer when no port drives the node. -/
noncomputable def restFrame (h : Heap) (n q : Ref) (ps : List Ref) (name : Option Str) : Option Str :=
  open Classical in
  if Nested h q ∧ ∃ p ∈ ps, ∃ r, (h.get p).endpoint = some r ∧ (h.get r).direction ≠ .outwards then
    some (Str.join '.' ["connect".toList, (h.get n).idName]) else name

theorem frameLoop_rest {E : Env} (R : Reach E h) {n g q : Ref} (hg : (h.get g).parent = some q) :
    ∀ (ps : List Ref) (name : Option Str), (∀ p ∈ ps, ∃ r e j, JointPort h p r e j ∧ ¬ Drives h r e) →
    frameLoop h n (some g) ps name = .ok (restFrame h n q ps name)
  | [], name, _ => by
    unfold frameLoop restFrame
    rw [if_neg]
    rintro ⟨_, p, hp, _⟩
    cases hp
  | p :: ps, name, hp => by
    have ih := fun name => frameLoop_rest R (n := n) hg ps name fun p' hp' => hp p' (List.mem_cons_of_mem _ hp')
    obtain ⟨r, e, j, P, hd⟩ := hp p (by simp)
    unfold frameLoop
    by_cases ho : (h.get r).direction = .outwards
    · rcases portFrame_out (n := n) (kin := some g) P ho with ⟨a, _⟩ | ⟨_, b⟩
      · exact absurd a hd
      · rw [ebind_ok b]
        refine (ih name).trans ?_
        congr 1
        unfold restFrame
        have : (∃ p' ∈ p :: ps, ∃ r, (h.get p').endpoint = some r ∧ (h.get r).direction ≠ .outwards) ↔
            ∃ p' ∈ ps, ∃ r, (h.get p').endpoint = some r ∧ (h.get r).direction ≠ .outwards := by
          constructor
          · rintro ⟨p', hp', r', e', d'⟩
            rcases List.mem_cons.1 hp' with rfl | hp'
            · rw [P.rel] at e'; cases e'; exact absurd ho d'
            · exact ⟨p', hp', r', e', d'⟩
          · rintro ⟨p', hp', q'⟩
            exact ⟨p', List.mem_cons_of_mem _ hp', q'⟩
        classical exact if_congr (and_congr_right fun _ => this.symm) rfl rfl
    · have hin : ∃ p' ∈ p :: ps, ∃ r, (h.get p').endpoint = some r ∧ (h.get r).direction ≠ .outwards :=
        ⟨p, by simp, r, P.rel, ho⟩
      rcases portFrame_in R (n := n) hg P ho with ⟨a, b⟩ | ⟨a, b⟩
      · rw [ebind_ok b]
        refine (ih _).trans ?_
        congr 1
        unfold restFrame
        rw [if_pos (⟨a, hin⟩ : _ ∧ _)]
        split <;> rfl
      · rw [ebind_ok b]
        refine (ih _).trans ?_
        congr 1
        unfold restFrame
        rw [if_neg (fun q => a q.1), if_neg (fun q => a q.1)]

theorem frameLoop_driven {E : Env} (R : Reach E h) {n g q : Ref} (hg : (h.get g).parent = some q)
    {p r e j : Ref} (P : JointPort h p r e j) (hd : Drives h r e) (b : List Ref) :
    ∀ (a : List Ref) (name : Option Str), (∀ p ∈ a, ∃ r e j, JointPort h p r e j ∧ ¬ Drives h r e) →
    frameLoop h n (some g) (a ++ p :: b) name = .ok (some (h.get j).idName)
  | [], name, _ => by
    rw [List.nil_append]
    unfold frameLoop
    rcases portFrame_out (n := n) (kin := some g) P hd.1 with ⟨_, e⟩ | ⟨a, _⟩
    · rw [ebind_ok e]; rfl
    · exact absurd hd a
  | p' :: a, name, hp => by
    have ih := fun name => frameLoop_driven R (n := n) hg P hd b a name
      fun p' hp' => hp p' (List.mem_cons_of_mem _ hp')
    obtain ⟨r', e', j', P', hd'⟩ := hp p' (by simp)
    rw [List.cons_append]
    unfold frameLoop
    by_cases ho : (h.get r').direction = .outwards
    · rcases portFrame_out (n := n) (kin := some g) P' ho with ⟨a, _⟩ | ⟨_, b⟩
      · exact absurd a hd'
      · rw [ebind_ok b]; exact ih name
    · rcases portFrame_in R (n := n) hg P' ho with ⟨a, b⟩ | ⟨a, b⟩
      · rw [ebind_ok b]; exact ih _
      · rw [ebind_ok b]; exact ih _

theorem linkPose_attrs {l : Ref} {attrs : List (Str × Str)} {x : Xml} (e : linkPose h l attrs = .ok x) :
    x.tag = "pose".toList ∧ x.attrs = attrs := by
  unfold linkPose at e
  split at e
  · unfold rigidPose at e
    obtain ⟨_, _, e⟩ := ebind_inv e
    obtain ⟨_, _, e⟩ := ebind_inv e
    obtain ⟨_, _, e⟩ := ebind_inv e
    obtain ⟨_, _, e⟩ := ebind_inv e
    obtain ⟨_, _, e⟩ := ebind_inv e
    obtain ⟨_, _, e⟩ := ebind_inv e
    obtain ⟨_, _, e⟩ := ebind_inv e
    obtain ⟨_, _, e⟩ := ebind_inv e
    cases e
    exact ⟨rfl, rfl⟩
  · cases e
    exact ⟨rfl, rfl⟩

theorem encodeLink_frame {l : Ref} {pre : Str} {y : Xml} (e : encodeLink h l pre = .ok y) {f : Option Str}
    (hf : relativeFrame h (h.get l).parent = .ok f) : y.frame = f.map (nameIn pre) := by
  unfold encodeLink at e
  rw [ebind_ok hf] at e
  obtain ⟨po, hpo, e⟩ := ebind_inv e
  obtain ⟨n, _, e⟩ := ebind_inv e
  obtain ⟨gs, _, e⟩ := ebind_inv e
  cases e
  obtain ⟨t, a⟩ := linkPose_attrs hpo
  have : (Xml.el "link".toList [("name".toList, joinPrefix [(h.get l).idName] pre)] [] (po :: gs)).child? "pose"
      = some po := by
    unfold Xml.child? Xml.children
    simp only [List.find?_cons, t, decide_true]
  unfold Xml.frame
  rw [this, Option.bind_some]
  unfold Xml.attr?
  rw [a]
  cases f with
  | none => rfl
  | some f =>
    rw [Option.map_some, ← joinPrefix_one]
    rfl

theorem item_of {l : List Rat} {i : Nat} {q : Rat} (e : item l i = .ok q) : l[i]? = some q := by
  unfold item at e
  split at e
  · next e' => cases e; exact e'
  · cases e

theorem take_three {l : List Rat} {a b c : Rat} (h0 : l[0]? = some a) (h1 : l[1]? = some b) (h2 : l[2]? = some c) :
    3 ≤ l.length ∧ l.take 3 = [a, b, c] := by
  match l with
  | [] => cases h0
  | [_] => cases h1
  | [_, _] => cases h2
  | x :: y :: z :: t => cases h0; cases h1; cases h2; simp

theorem numsAttr_inv {x : Ref} {k : String} {l : List Rat} (e : numsAttr h x k = .ok l) :
    getAttribute h x k.toList = some (.nums l) := by
  unfold numsAttr at e
  split at e
  · next e' => cases e; exact e'
  · cases e

/-- Whatever the transformation is: if the link is exported at all, its pose consists of the first three numbers of the
translation and of the rotation of its first transformation, in radians, or of zeros if it has none. -/
theorem C70_pose {l : Ref} {pre : Str} {y : Xml} (hy : encodeLink h l pre = .ok y) : ∃ q, y.child? "pose" = some q ∧
    (∀ x ts, transformsOf h l = x :: ts → ∃ t r, getAttribute h x "translation".toList = some (.nums t) ∧
      getAttribute h x "rotation".toList = some (.nums r) ∧ 3 ≤ t.length ∧ 3 ≤ r.length ∧
      q.text = (t.take 3).map .num ++ (r.take 3).map fun a =>
        if getAttribute h x "rotation_type".toList = some (.str "deg".toList) then .radians a else .num a) ∧
    (transformsOf h l = [] → q.text = List.replicate 6 (.num 0)) := by
  unfold encodeLink at hy
  obtain ⟨f, _, hy⟩ := ebind_inv hy
  obtain ⟨q, hq, hy⟩ := ebind_inv hy
  obtain ⟨n, _, hy⟩ := ebind_inv hy
  obtain ⟨gs, _, hy⟩ := ebind_inv hy
  cases hy
  obtain ⟨t, _⟩ := linkPose_attrs hq
  refine ⟨q, ?_, ?_, ?_⟩
  · unfold Xml.child? Xml.children
    simp only [List.find?_cons, t, decide_true]
  · intro x ts hx
    unfold linkPose at hq
    rw [show h.subSemantic .rigid l = x :: ts from hx] at hq
    simp only at hq
    unfold rigidPose at hq
    obtain ⟨rot, hrot, hq⟩ := ebind_inv hq
    obtain ⟨tr, htr, hq⟩ := ebind_inv hq
    obtain ⟨t0, e0, hq⟩ := ebind_inv hq
    obtain ⟨t1, e1, hq⟩ := ebind_inv hq
    obtain ⟨t2, e2, hq⟩ := ebind_inv hq
    obtain ⟨r0, d0, hq⟩ := ebind_inv hq
    obtain ⟨r1, d1, hq⟩ := ebind_inv hq
    obtain ⟨r2, d2, hq⟩ := ebind_inv hq
    obtain ⟨a1, a2⟩ := take_three (item_of e0) (item_of e1) (item_of e2)
    obtain ⟨b1, b2⟩ := take_three (item_of d0) (item_of d1) (item_of d2)
    refine ⟨tr, rot, numsAttr_inv htr, numsAttr_inv hrot, a1, b1, ?_⟩
    rw [a2, b2]
    have hq' := Except.ok.inj hq
    rw [← hq']
    rfl
  · intro hx
    unfold linkPose at hq
    rw [show h.subSemantic .rigid l = [] from hx] at hq
    cases hq
    rfl

theorem jointBase_name {i o j : Ref} {pre : Str} {x : Xml} (hj : JointOn h o j) (e : jointBase h i o pre = .ok x) :
    x.attr? "name".toList = some (nameIn pre (h.get j).idName) := by
  unfold jointBase at e
  rw [ebind_ok (jointOf_of hj)] at e
  obtain ⟨_, _, e⟩ := ebind_inv e
  unfold jointEl at e
  obtain ⟨_, _, e⟩ := ebind_inv e
  obtain ⟨_, _, e⟩ := ebind_inv e
  obtain ⟨_, _, e⟩ := ebind_inv e
  obtain ⟨_, _, e⟩ := ebind_inv e
  cases e
  rw [← joinPrefix_one]
  rfl

theorem Mechanical.relativeFrame {E : Env} (R : Reach E h) {n : Ref} (hn : n < h.size) (M : Mechanical h n) :
    ∃ g q, (h.get g).parent = some q ∧ IsNearestGraph h n g ∧
      Rei.relativeFrame h (some n) = frameLoop h n (some g) (h.subPorts n) none := by
  obtain ⟨d, g, q, a, b, c, e⟩ := M.find R hn
  obtain ⟨g', q', ⟨a', b', c'⟩, e'⟩ := M.graph
  have hgg : g = g' := by
    rcases C67_nearest_graph R hn with ⟨d2, g2, h1, h2, h3, h4⟩ | ⟨h1, _⟩
    · rw [a] at h1
      cases h1
      exact Within.antisymm R.good.inv (c' g c e) (h4 g' a' b')
    · rw [a] at h1; cases h1
  refine ⟨g, q, b, ?_, ?_⟩
  · subst hgg; exact ⟨a', b', c'⟩
  · unfold Rei.relativeFrame
    rw [ebind_ok a]
    simp only [M.kind, if_true, Option.map_some]

/-- **C70.** The pose of an exported link is given in the frame of the joint that drives it: the joint on the first
connection of its node that leads outwards from something other than the world; and that is the name under which
the joint is exported.  If nothing drives the node, the pose is relative to the joint that connects its graph
instance, when the graph is nested in another one and the node has an incoming connection, and absolute
otherwise. -/
theorem C70_frame {E : Env} (R : Reach E h) {l n : Ref} (hl : (h.get l).parent = some n) (M : Mechanical h n)
    (pre : Str) {y : Xml} (hy : encodeLink h l pre = .ok y) :
    (∀ a p b r e j, h.subPorts n = a ++ p :: b → JointPort h p r e j → Drives h r e →
      (∀ p' ∈ a, ∀ r' e' j', JointPort h p' r' e' j' → ¬ Drives h r' e') →
      y.frame = some (nameIn pre (h.get j).idName) ∧
      ∀ i x, jointBase h i r pre = .ok x → y.frame = x.attr? "name".toList) ∧
    ((∀ p ∈ h.subPorts n, ∀ r e j, JointPort h p r e j → ¬ Drives h r e) → ∀ g q, IsNearestGraph h n g →
      (h.get g).parent = some q →
      (((∃ y, Within h y q ∧ HasKinGraph h y) ∧
          ∃ p ∈ h.subPorts n, ∃ r, (h.get p).endpoint = some r ∧ (h.get r).direction ≠ .outwards) →
        y.frame = some (nameIn pre ("connect.".toList ++ (h.get n).idName))) ∧
      (¬ ((∃ y, Within h y q ∧ HasKinGraph h y) ∧
          ∃ p ∈ h.subPorts n, ∃ r, (h.get p).endpoint = some r ∧ (h.get r).direction ≠ .outwards) →
        y.frame = none)) := by
  have hn : n < h.size := (Anc.lt R.good.inv (.direct hl)).1
  obtain ⟨g, q, hg, hnear, hrun⟩ := M.relativeFrame R hn
  constructor
  · intro a p b r e j hports P hd hbefore
    have hf : Rei.relativeFrame h (h.get l).parent = .ok (some (h.get j).idName) := by
      rw [hl, hrun, hports]
      refine frameLoop_driven R hg P hd b a none ?_
      intro p' hp'
      obtain ⟨r', e', j', P'⟩ := M.ports p' (by rw [hports]; exact List.mem_append_left _ hp')
      exact ⟨r', e', j', P', hbefore p' hp' _ _ _ P'⟩
    have := encodeLink_frame hy hf
    refine ⟨this, fun i x hx => ?_⟩
    rw [this, jointBase_name P.joint hx]
    rfl
  · intro hno g' q' hnear' hg'
    have : g' = g := Within.antisymm R.good.inv (hnear.nearest g' hnear'.around hnear'.has)
      (hnear'.nearest g hnear.around hnear.has)
    subst this
    rw [hg] at hg'
    cases hg'
    have hf : Rei.relativeFrame h (h.get l).parent = .ok (restFrame h n q (h.subPorts n) none) := by
      rw [hl, hrun]
      refine frameLoop_rest R hg _ _ ?_
      intro p' hp'
      obtain ⟨r', e', j', P'⟩ := M.ports p' hp'
      exact ⟨r', e', j', P', hno p' hp' _ _ _ P'⟩
    have := encodeLink_frame hy hf
    constructor
    · intro hc
      rw [this]
      unfold restFrame
      rw [if_pos (show Nested h q ∧ _ from hc)]
      rw [Option.map_some]
      rfl
    · intro hc
      rw [this]
      unfold restFrame
      rw [if_neg (show ¬ (Nested h q ∧ _) from hc)]
      rfl

/-- **C70 needs its guard: a connection without a joint.** If the first connection of the node of a link has no joint
on it (a plain edge, say), the link cannot be exported at all. -/
theorem C70_plain_connection_refuted {E : Env} (R : Reach E h) {l n p r : Ref} {ps : List Ref}
    (hl : (h.get l).parent = some n) (hk : (h.get n).kind.isHElement = true) (hp : h.subPorts n = p :: ps)
    (hr : (h.get p).endpoint = some r) (hj : ∀ j ∈ h.subelements r, (h.get j).kind ≠ .semantic .kinJoint) (pre : Str) :
    encodeLink h l pre = .error .stopIteration := by
  have hn : n < h.size := (Anc.lt R.good.inv (.direct hl)).1
  have hs : h.subSemantic .kinJoint r = [] := by
    rw [List.eq_nil_iff_forall_not_mem]
    intro j hm
    obtain ⟨a, b⟩ := mem_subSemantic.1 hm
    exact hj j a b
  have hf : ∀ kin name, frameLoop h n kin (h.subPorts n) name = .error .stopIteration := by
    intro kin name
    rw [hp]
    unfold frameLoop portFrame
    rw [hr]
    simp only [hs]
    rfl
  have : Rei.relativeFrame h (h.get l).parent = .error .stopIteration := by
    rw [hl]
    unfold Rei.relativeFrame
    rcases C67_nearest_graph R hn with ⟨d, g, e, _⟩ | ⟨e, _⟩
    · rw [ebind_ok e]
      simp only [hk, if_true]
      exact hf _ _
    · rw [ebind_ok e]
      simp only [hk, if_true]
      exact hf _ _
  unfold encodeLink
  rw [ebind_err this]

/-- **C70 needs its guard: a graph at the top.** If the nearest kinematic graph of the node is a root element and the
first connection of the node is an incoming joint, the link cannot be exported. -/
theorem C70_root_refuted {E : Env} (R : Reach E h) {l n g p r e j : Ref} {ps : List Ref}
    (hl : (h.get l).parent = some n) (hk : (h.get n).kind.isHElement = true) (hg : IsNearestGraph h n g)
    (hroot : (h.get g).parent = none) (hp : h.subPorts n = p :: ps) (P : JointPort h p r e j)
    (ho : (h.get r).direction ≠ .outwards) (pre : Str) : encodeLink h l pre = .error .attributeError := by
  have hn : n < h.size := (Anc.lt R.good.inv (.direct hl)).1
  obtain ⟨js, hjs⟩ := P.head
  have hf : ∀ name, frameLoop h n (some g) (h.subPorts n) name = .error .attributeError := by
    intro name
    rw [hp]
    unfold frameLoop portFrame
    rw [P.rel]
    simp only [hjs, P.kind, ne_eq, not_true, if_false, ho, hroot]
    rfl
  have : Rei.relativeFrame h (h.get l).parent = .error .attributeError := by
    rw [hl]
    unfold Rei.relativeFrame
    rcases C67_nearest_graph R hn with ⟨d, g', e1, h2, h3, h4⟩ | ⟨_, h2⟩
    · have hk' : HasKinGraph h g' := by
        have := List.find?_some h3
        exact ⟨d, List.mem_of_find?_eq_some h3, of_decide_eq_true this⟩
      have : g = g' := Within.antisymm R.good.inv (h4 g hg.around hg.has) (hg.nearest g' h2 hk')
      subst this
      rw [ebind_ok e1]
      simp only [hk, if_true]
      exact hf _
    · exact absurd hg.has (h2 g hg.around)
  unfold encodeLink
  rw [ebind_err this]

end Rei
