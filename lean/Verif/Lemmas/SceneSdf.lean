import Verif.Lemmas.SceneLink
import Verif.Props.SdfTree

/-!
# The export of a file with one graph
-/
namespace Rei

theorem HasShape.fn {h : Heap} {e : Ref} {a b : Shape} (x : HasShape h e a) (y : HasShape h e b) : a = b := by
  obtain ⟨k, l, k1, l1, s1⟩ := x
  obtain ⟨k', l', k2, l2, s2⟩ := y
  rw [k1] at k2
  cases k2
  rw [l1] at l2
  cases l2
  rw [s1] at s2
  cases s2
  rfl

theorem forall₂_map_of {α β γ : Type} {P : α → β → Prop} {Q : γ → β → Prop} {φ : α → γ} {a : List α} {b : List β}
    (q : List.Forall₂ P a b) (i : ∀ x ∈ a, ∀ y, P x y → Q (φ x) y) : List.Forall₂ Q (a.map φ) b := by
  induction q with
  | nil => exact .nil
  | cons p _ ih => exact .cons (i _ (by simp) _ p) (ih fun x hx y => i x (by simp [hx]) y)

theorem forall₂_through {α β γ : Type} {P : α → β → Prop} {Q : β → γ → Prop} {a : List α} {b : List β} {c : List γ}
    (p : List.Forall₂ P a b) (q : List.Forall₂ Q b c) : List.Forall₂ (fun x z => ∃ y, P x y ∧ Q y z) a c := by
  induction p generalizing c with
  | nil => cases q; exact .nil
  | cons p _ ih =>
    cases q with
    | cons q1 q2 => exact .cons ⟨_, p, q1⟩ (ih q2)

/-- A relation that drives its end, seen from the file. -/
def JointRec.drives (q : JointRec × JointRel × Ref) : Bool :=
  q.2.1.isOut && q.1.d.rels.any fun i => i.isIn && decide (i.ref ≠ "world".toList)

theorem frameIn_rels {js : List JointRec} (ok : ∀ j ∈ js, j.rs.map Prod.fst = j.d.rels) (n : Str) :
    frameIn (js.map JointRec.d) n = ((((jointRels js).filter fun q => decide (q.2.1.ref = n)).filter JointRec.drives).map
      fun q => q.1.d.name ++ '.' :: q.2.1.ref).head? := by
  unfold frameIn jointRels
  rw [List.flatMap_map]
  refine congrArg List.head? ?_
  rw [List.filter_flatMap, List.filter_flatMap, List.map_flatMap]
  refine List.flatMap_congr fun j hj => ?_
  simp only [← ok j hj, List.filter_map, List.map_map, List.filter_filter]
  by_cases c : ((j.rs.map Prod.fst).any fun i => i.isIn && decide (i.ref ≠ "world".toList)) = true
  · rw [if_pos c]
    refine congrArg₂ _ (by funext p; rfl) (List.filter_congr fun p _ => ?_)
    simp only [Function.comp, JointRec.drives, ← ok j hj, c, Bool.and_true]
  · rw [if_neg c]
    symm
    rw [List.map_eq_nil_iff, List.filter_eq_nil_iff]
    intro p _
    simp only [Function.comp, JointRec.drives, ← ok j hj, c, Bool.and_false]
    simp

namespace Scene

variable {E : Env} {h : Heap} {nm : Str} {f : EntityDecl} {g : Str} {body : Items} {ps : Params} {w cs : Ref}
  {T : GraphRec} {gs : List GraphRec} (S : Scene E h nm f g body ps w cs T gs)
  (B : IsAssembly f g body ps)
include S B

/-! ## Links -/

theorem says_solid {G : GraphRec} (hG : G ∈ T :: gs) {r : LinkRec} (hr : r ∈ G.ls) {s : SolidRec} (hs : s ∈ r.ss) {pre : Str} {tag : String} {x : Xml}
    (X : ExportOf h tag pre s.g x) (ht : tag.toList = if s.d.visual then "visual".toList else "collision".toList)
    (hm : s.d.visual = true → x.materialName = some [.str ("Gazebo/".toList ++ (((s.d.material.getD "white".toList).take 1).map Char.toUpper ++ ((s.d.material.getD "white".toList).drop 1).map Char.toLower))]) :
    SaysSolid pre G.d.body.links ps (G.d.path ++ [r.d.name]) s.d x where
  tag := X.tag.trans ht
  name := by
    rw [X.name, (((S.ok G hG).linksOk r hr).solids s hs).geom.name]
    rfl
  shape := by
    obtain ⟨-, e, sh, ga, hsh, M⟩ := S.geometry B hG hr hs
    obtain ⟨ss, q, e1⟩ := X.solids
    rw [ga] at q
    cases q with
    | cons a q =>
      cases q
      cases a.fn hsh
      exact ⟨_, M, e1⟩
  material := hm

theorem drives_iff {G : GraphRec} (hG : G ∈ T :: gs) {j : JointRec} (hj : j ∈ G.js) {p : JointRel × Ref} (hp : p ∈ j.rs) :
    Drives h p.2 j.e ↔ JointRec.drives (j, p) = true := by
  unfold Drives JointRec.drives
  rw [Bool.and_eq_true, (S.rel_dir hG hj hp).2, List.any_eq_true]
  refine and_congr_right fun _ => ?_
  constructor
  · rintro ⟨i, v, hi, ev, ne⟩
    obtain ⟨q, hq, rfl, qi⟩ := (S.mem_incoming hG hj).1 hi
    obtain ⟨t, et, nt, -⟩ := S.rel_end B hG hj hq
    rw [ev] at et
    cases et
    exact ⟨q.1, S.jrel_mem hG hj hq, by rw [Bool.and_eq_true]; exact ⟨qi, decide_eq_true (nt ▸ ne)⟩⟩
  · rintro ⟨i, hi, c⟩
    rw [Bool.and_eq_true, decide_eq_true_eq] at c
    have := ((S.ok G hG).jointsOk j hj).decls
    rw [show (j, p).1.d.rels = j.rs.map Prod.fst from this.symm] at hi
    obtain ⟨q, hq, rfl⟩ := List.mem_map.1 hi
    obtain ⟨t, et, nt, -⟩ := S.rel_end B hG hj hq
    exact ⟨q.2, t, (S.mem_incoming hG hj).2 ⟨q, hq, rfl, c.1⟩, et, nt ▸ c.2⟩

theorem frame_link {G : GraphRec} (hG : G ∈ T :: gs) {r : LinkRec} (hr : r ∈ G.ls) {pre : Str} {fr : Option Str} (F : FrameOf h pre r.x fr)
    {nest : Bool} (hn : if nest = true then G ∈ gs else G = T) :
    fr = (frameOfLink nest G.d.body.joints r.d.name).map (nameIn pre) := by
  have any : (G.d.body.joints.any fun j => j.rels.any fun r' => decide (r'.ref = r.d.name) && !r'.isOut) = true ↔
      ∃ p ∈ h.subPorts r.x, ∃ r', (h.get p).endpoint = some r' ∧ (h.get r').direction ≠ .outwards := by
    rw [S.ports_link B hG hr, List.any_eq_true]
    constructor
    · rintro ⟨j, hj, q⟩
      rw [← (S.ok G hG).joints] at hj
      obtain ⟨j, hj', rfl⟩ := List.mem_map.1 hj
      replace hj := hj'
      rw [← ((S.ok G hG).jointsOk j hj).decls, List.any_map, List.any_eq_true] at q
      obtain ⟨p, hp, q⟩ := q
      simp only [Function.comp, Bool.and_eq_true, decide_eq_true_eq, Bool.not_eq_true'] at q
      obtain ⟨s, P, -⟩ := S.joint_port B hG hj hp
      refine ⟨p.2 + 1, List.mem_map.2 ⟨(j, p), List.mem_filter.2 ⟨mem_jointRels.2 ⟨hj, hp⟩, decide_eq_true q.1⟩, rfl⟩, p.2, P.rel, ?_⟩
      rw [ne_eq, (S.rel_dir hG hj hp).2, q.2]
      simp
    · rintro ⟨p, hp, r', e1, e2⟩
      obtain ⟨⟨j, q⟩, hm, rfl⟩ := List.mem_map.1 hp
      obtain ⟨hm, c⟩ := List.mem_filter.1 hm
      obtain ⟨hj, hq⟩ := mem_jointRels.1 hm
      obtain ⟨s, P, -⟩ := S.joint_port B hG hj hq
      rw [P.rel] at e1
      cases e1
      refine ⟨j.d, S.joint_mem hG hj, List.any_eq_true.2 ⟨q.1, S.jrel_mem hG hj hq, ?_⟩⟩
      rw [ne_eq, (S.rel_dir hG hj hq).2] at e2
      simp only [Bool.and_eq_true, Bool.not_eq_true', Bool.not_eq_true] at e2 ⊢
      exact ⟨c, e2⟩
  have near : ∀ g', IsNearestGraph h r.x g' → g' = G.k := by
    intro g' ng
    have a := ng.nearest G.k (.inr (.direct (S.link_parent hG hr))) (S.has_graph hG)
    have := S.k_new hG
    rcases S.within_graph hG ((S.nearest B hG hr).nearest g' ng.around ng.has) with e | rfl | rfl
    · exact e
    · rcases S.within_top a with e | e
      · exact e.symm
      · omega
    · have := S.within_root a
      omega
  unfold frameOfLink
  generalize (G.d.body.joints.any fun j => j.rels.any fun r' => decide (r'.ref = r.d.name) && !r'.isOut) = an at any ⊢
  rw [← (S.ok G hG).joints, frameIn_rels fun j hj => ((S.ok G hG).jointsOk j hj).decls]
  have pl := S.ports_link B hG hr
  have none_of : (∀ p ∈ h.subPorts r.x, ∀ r' e j, JointPort h p r' e j → ¬ Drives h r' e) →
      ((jointRels G.js).filter fun q => decide (q.2.1.ref = r.d.name)).filter JointRec.drives = [] := by
    intro c
    rw [List.filter_eq_nil_iff]
    rintro ⟨j, q⟩ hm
    obtain ⟨hj, hq⟩ := mem_jointRels.1 (List.mem_filter.1 hm).1
    obtain ⟨s, P, -⟩ := S.joint_port B hG hj hq
    have := c (q.2 + 1) (by rw [pl]; exact List.mem_map.2 ⟨(j, q), hm, rfl⟩) _ _ _ P
    rw [S.drives_iff B hG hj hq] at this
    exact this
  cases F with
  | driven a p b r' e j' h1 P D h2 =>
    rw [pl] at h1
    obtain ⟨A, Q, e1, rfl, e2⟩ := List.map_eq_append_iff.1 h1
    obtain ⟨q, C, rfl, rfl, rfl⟩ := List.map_eq_cons_iff.1 e2
    have mem : ∀ z ∈ A ++ q :: C, z.1 ∈ G.js ∧ z.2 ∈ z.1.rs := fun z hz => by
      rw [← e1] at hz
      exact mem_jointRels.1 (List.mem_filter.1 hz).1
    rw [e1, List.filter_append, List.filter_eq_nil_iff.2, List.nil_append]
    · obtain ⟨hj, hq⟩ := mem q (by simp)
      obtain ⟨s, P', ns⟩ := S.joint_port B hG hj hq
      have er : r' = q.2.2 := Option.some.inj (P.rel.symm.trans P'.rel)
      subst er
      have ee : e = q.1.e := Option.some.inj (P.edge.symm.trans P'.edge)
      subst ee
      have ej : j' = s := Option.some.inj (P.joint.symm.trans P'.joint)
      subst ej
      rw [List.filter_cons_of_pos ((S.drives_iff B hG hj hq).1 D), List.map_cons, List.head?_cons, ns]
      rfl
    · intro z hz
      obtain ⟨hj, hq⟩ := mem z (by simp [hz])
      obtain ⟨s, P', ns⟩ := S.joint_port B hG hj hq
      have := h2 _ (List.mem_map.2 ⟨z, hz, rfl⟩) _ _ _ P'
      rw [S.drives_iff B hG hj hq] at this
      exact this
  | connected g' q c ng pq hy hp =>
    rw [none_of c]
    cases near _ ng
    cases nest with
    | true =>
      rw [any.2 hp, ((S.ok G hG).linksOk r hr).node.name]
      rfl
    | false =>
      exfalso
      have hn : G = T := by simpa using hn
      subst hn
      obtain ⟨y, wy, gy⟩ := hy
      rw [S.top_parent] at pq
      cases pq
      have := S.within_root wy
      subst this
      obtain ⟨G', hG', a⟩ := S.graph_of (by omega) gy
      have := S.k_new hG'
      omega
  | absolute g' q c ng pq ne =>
    rw [none_of c]
    cases near _ ng
    cases nest with
    | false => rfl
    | true =>
      have hn : G ∈ gs := by simpa using hn
      rw [S.sub_parent hn] at pq
      cases pq
      have : an = false := by
        by_contra c
        exact ne ⟨⟨T.k, .inl rfl, S.has_graph (.head _)⟩, any.1 (by simpa using c)⟩
      rw [this]
      rfl

theorem says_link {G : GraphRec} (hG : G ∈ T :: gs) {r : LinkRec} (hr : r ∈ G.ls) {pre : Str} {y : Xml} (X : LinkElement h pre r.sv r.x y)
    {nest : Bool} (hn : if nest = true then G ∈ gs else G = T) : SaysLink pre nest ps G.d r.d y where
  tag := X.tag
  name := by rw [X.name, ((S.ok G hG).linksOk r hr).sem.name]
  frame := S.frame_link B hG hr X.frame hn
  pose := by
    obtain ⟨q, e, q1, q2⟩ := X.pose
    refine ⟨q, e, ?_⟩
    have P := ((S.ok G hG).linksOk r hr).pose
    rw [S.transforms_link hG hr] at q1 q2
    cases hp : r.d.pose with
    | none =>
      rw [hp] at P
      exact q2 P
    | some p =>
      rw [hp] at P
      obtain ⟨t, e1, sp⟩ := P.says
      exact sp q (q1 t [] e1)
  visuals := by
    rw [← ((S.ok G hG).linksOk r hr).decls, List.filter_map]
    refine forall₂_map_of (forall₂_through (S.visuals_link hG hr) X.visuals) ?_
    rintro s - x ⟨vm, ⟨hs, hv, e, em⟩, ex, nm, e1, e2⟩
    rw [em] at e1
    cases e1
    rw [e] at ex
    exact S.says_solid B hG hr hs ex (by rw [hv]; rfl) fun _ => e2
  collisions := by
    rw [← ((S.ok G hG).linksOk r hr).decls, List.filter_map]
    have := X.collisions
    rw [S.collisions_link hG hr] at this
    refine forall₂_map_of (List.forall₂_map_left_iff.1 this) ?_
    intro s hs x ex
    obtain ⟨hs, hv⟩ := List.mem_filter.1 hs
    have hv : s.d.visual = false := by simpa using hv
    exact S.says_solid B hG hr hs ex (by rw [hv]; rfl) fun c => by rw [hv] at c; cases c
  inertial := by
    cases hb : r.d.body with
    | none =>
      refine X.massless ?_
      have := ((S.ok G hG).linksOk r hr).body
      rw [hb] at this
      rw [S.inertia_link hG hr]
      exact this
    | some b =>
      obtain ⟨x, i, e1, e2, e3⟩ := X.mass b.mass (S.mass_link hG hr hb)
      refine ⟨x, i, e1, e2, e3, ?_⟩
      intro s hs rd Gs
      obtain ⟨sh, a, c, d⟩ := ((S.sound B hG).links r.d (S.link_mem hG hr)).solid (by simp [hb])
      have hs' : s ∈ r.d.solids := by simp only [LinkDecl.solids, hb]; exact hs
      cases c s hs' _ Gs
      obtain ⟨x', e4, e5⟩ := X.sphere b.mass rd (S.mass_link hG hr hb) (S.solid_link B hG hr a c)
      rw [e1] at e4
      cases e4
      rw [e2] at e5
      exact Option.some.inj e5
  others := X.others

/-! ## Joints -/

theorem readable_joint {G : GraphRec} (hG : G ∈ T :: gs) {j : JointRec} (hj : j ∈ G.js) {p : JointRel × Ref} (hp : p ∈ j.rs) : ReadableJoint h p.2 := by
  obtain ⟨s, ts, a, on, -, am, sm, po⟩ := S.joint_on hG hj hp
  have D := (S.sound B hG).joints j.d (S.joint_mem hG hj)
  have tr : ∀ x ∈ transformsOf h s, IsTransform h x := by
    intro x hx
    rw [transformsOf_parts, sm.parts] at hx
    exact po.isTransform (D.poses _ (S.jrel_mem hG hj hp)) (List.mem_filter.1 hx).1
  have at' := sm.attrs "axis".toList
  cases ha : p.1.axis with
  | none =>
    rw [ha] at am
    rw [show a = none from am] at at'
    exact ⟨s, 0, 0, 1, on, .inl ⟨at', rfl, rfl, rfl⟩, tr⟩
  | some v =>
    rw [ha] at am
    obtain ⟨x, rfl, vm⟩ := am
    have l3 := D.axes _ (S.jrel_mem hG hj hp) v ha
    rw [List.Forall₂.length_eq vm] at l3
    match x, l3, at' with
    | [a, b, c], _, at' => exact ⟨s, a, b, c, on, .inr at', tr⟩

/-- What the joint on an outgoing relation says. -/
theorem says_as {G : GraphRec} (hG : G ∈ T :: gs) {j : JointRec} (hj : j ∈ G.js) {i o : JointRel × Ref} (hi : i ∈ j.rs)
    (ho : o ∈ j.rs) {x : Xml} {pre name child : Str} {p s' : Ref} (e1 : (h.get i.2).endpoint = some p) (on' : JointOn h o.2 s')
    (tag : x.tag = "joint".toList) (hname : x.attr? "name".toList = some (nameIn pre name))
    (type : x.attr? "type".toList = some (sdfJointType h s'))
    (axis : ∃ a b c ax, AxisIs h s' a b c ∧ x.child? "axis" = some ax ∧ ax.numbers? "xyz" = some [a, b, c])
    (parent : x.childText "parent" = some [.str (nameIn pre (h.get p).idName)])
    (hchild : x.childText "child" = some [.str (nameIn pre child)])
    (poses : List.Forall₂ (fun t q => PoseOf h t q ∧ q.attr? "relative_to".toList = some (nameIn pre (h.get p).idName))
      (transformsOf h s') (x.every "pose")) : SaysJointAs pre name child ps i.1 o.1 x := by
  obtain ⟨s, ts, a, on, -, am, sm, po⟩ := S.joint_on hG hj ho
  have es : s' = s := Option.some.inj (on'.symm.trans on)
  subst es
  obtain ⟨ti, ei, ni, -⟩ := S.rel_end B hG hj hi
  rw [e1] at ei
  cases ei
  have ts_eq : transformsOf h s' = ts := by
    rw [transformsOf_parts, sm.parts]
    exact List.filter_eq_self.2 fun y hy => decide_eq_true (po.mem hy).1
  refine ⟨tag, hname, ?_, ?_, ?_, hchild, ?_⟩
  · rw [type]
    unfold sdfJointType
    rw [sm.attrs, show (jointAttrs o.1.type a).lookup "joint_type".toList = some (.str o.1.type) by
      cases a <;> rfl]
    exact congrArg some (if_congr ⟨fun q => AttrVal.str.inj (Option.some.inj q), fun q => by rw [q]⟩ rfl rfl)
  · obtain ⟨x0, x1, x2, ax, A, c1, c2⟩ := axis
    refine ⟨a, ax, am, c1, c2.trans (congrArg some ?_)⟩
    cases a with
    | none =>
      rcases A with ⟨-, rfl, rfl, rfl⟩ | A
      · rfl
      · rw [sm.attrs] at A; cases A
    | some a =>
      rcases A with ⟨A, -⟩ | A
      · rw [sm.attrs] at A; cases A
      · rw [sm.attrs] at A; cases A; rfl
  · rw [parent, ni]
  · have P := poses
    rw [ts_eq] at P
    cases hp : o.1.pose with
    | none =>
      rw [hp] at po
      rw [show ts = [] from po] at P
      cases hq : x.every "pose" with
      | nil => rfl
      | cons q z => rw [hq] at P; cases P
    | some q =>
      rw [hp] at po
      obtain ⟨t, e, sp⟩ := po.says
      rw [e] at P
      cases hq : x.every "pose" with
      | nil => rw [hq] at P; cases P
      | cons q z =>
        rw [hq] at P
        cases P with
        | cons a b =>
          cases b
          refine ⟨q, rfl, sp q a.1, ?_⟩
          rw [a.2, ni]

theorem says_joint {G : GraphRec} (hG : G ∈ T :: gs) {j : JointRec} (hj : j ∈ G.js) {i o : JointRel × Ref} (hi : i ∈ j.rs)
    (ho : o ∈ j.rs) {x : Xml} {pre : Str} (X : JointShown h pre i.2 o.2 x) : SaysJoint pre ps j.d i.1 o.1 x := by
  obtain ⟨p, v, s', e1, e2, on, X⟩ := X
  obtain ⟨s, ts, a, on', -, am, sm, po⟩ := S.joint_on hG hj ho
  have es : s' = s := Option.some.inj (on.symm.trans on')
  subst es
  obtain ⟨t', eo, no, -⟩ := S.rel_end B hG hj ho
  rw [e2] at eo
  cases eo
  exact S.says_as B hG hj hi ho e1 on X.tag (by rw [X.name, sm.name]) X.type X.axis X.parent (by rw [X.child, no]) X.poses

theorem says_connection {G : GraphRec} (hG : G ∈ T :: gs) {j : JointRec} (hj : j ∈ G.js) {i o : JointRel × Ref} (hi : i ∈ j.rs)
    (ho : o ∈ j.rs) {x : Xml} {e c : Ref} (X : ConnectShown h [] i.2 o.2 e c x) :
    e = j.e ∧ SaysConnection ps j.d i.1 o.1 (h.get c).idName x := by
  have ed := X.edge
  rw [S.rel_parent hG hj ho] at ed
  cases ed
  have en := ((S.ok G hG).jointsOk j hj).edge.name
  obtain ⟨p, s', e1, on, ty, ax, pa, po⟩ := X.rest
  exact ⟨rfl, S.says_as B hG hj hi ho e1 on X.tag (by rw [X.name, en]) ty ax pa (by rw [X.child, en]) po⟩

end Scene
end Rei
