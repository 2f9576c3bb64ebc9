import Verif.Props.Robot
import Verif.Props.SdfConvert
import Verif.Props.SdfNested

/-!
# The pendulum again: the hypotheses of C67 to C75 are met by reachable states
-/
namespace Rei.Robot
open Rei Rei.Script Rei.Sample

set_option maxRecDepth 100000
attribute [local irreducible] Script.after

/-- Facts about the classes of all objects can be checked on the objects that exist. -/
theorem semantic_lt {E : Env} {h : Heap} (R : Reach E h) {x : Ref} {k : SemKind} (hk : (h.get x).kind = .semantic k) :
    x < h.size := by
  apply Decidable.byContradiction
  intro hx
  have := congrArg SObj.kind (R.good.inv.out x (Nat.le_of_not_lt hx))
  rw [show (h.st x).kind = (h.get x).kind from rfl, hk] at this
  cases this

theorem relation_lt {E : Env} {h : Heap} (R : Reach E h) {x : Ref} (hk : (h.get x).kind = .relation) :
    x < h.size := by
  apply Decidable.byContradiction
  intro hx
  have := congrArg SObj.kind (R.good.inv.out x (Nat.le_of_not_lt hx))
  rw [show (h.st x).kind = (h.get x).kind from rfl, hk] at this
  cases this

/-- C67 at the pendulum: the graph of the arm is "structure", the root is in no graph. -/
example : parentKinematicGraph cyl (some 7) = .ok (some (3, 2)) ∧ parentKinematicGraph cyl (some 0) = .ok none ∧
    HasKinGraph cyl 2 := ⟨by decide +kernel, by decide +kernel, 3, by decide +kernel, by decide +kernel⟩

/-- C69: an early element, two models, two more elements. -/
example : (({} : Sdf).runEvents [.element (.el ['a'] [] [] []), .model ['m'], .element (.el ['b'] [] [] []), .model ['n'],
    .element (.el ['c'] [] [] [])]).models =
    [(['m'], [.el ['a'] [] [] [], .el ['b'] [] [] []]), (['n'], [.el ['c'] [] [] []])] := by
  rw [(C69_grouping _).1]; rfl

theorem axis_11 : AxisIs cyl 11 0 0 1 := .inl ⟨by decide +kernel, rfl, rfl, rfl⟩
theorem joint_14 : JointOn cyl 14 11 := by unfold JointOn; decide +kernel
theorem joint_12 : JointOn cyl 12 10 := by unfold JointOn; decide +kernel
theorem named_base : NamedLink cyl 4 5 := ⟨by decide +kernel, by decide +kernel, by decide +kernel⟩
theorem named_arm : NamedLink cyl 6 7 := ⟨by decide +kernel, by decide +kernel, by decide +kernel⟩

theorem exists_of_isSome {α : Type} {x : Except Err α} (e : x.toOption.isSome = true) : ∃ y, x = .ok y := by
  cases x with
  | error _ => cases e
  | ok y => exact ⟨y, rfl⟩

/-- C68 at the pendulum: a revolute joint from the exported base to the exported arm. -/
example : ∃ x yb ya, jointBase cyl 12 14 [] = .ok x ∧ encodeLink cyl 5 [] = .ok yb ∧ encodeLink cyl 7 [] = .ok ya ∧
    x.attr? "type".toList = some "revolute".toList ∧
    (∃ nm, yb.attr? "name".toList = some nm ∧ x.childText "parent" = some [.str nm]) ∧
    (∃ nm, ya.attr? "name".toList = some nm ∧ x.childText "child" = some [.str nm]) := by
  obtain ⟨x, h1, h2, h3, h4⟩ := C68_joint (h := cyl) (i := 12) (o := 14) (p := 4) (v := 6) [] (by decide +kernel)
    (by decide +kernel) joint_14 axis_11 (by
      rw [show transformsOf cyl 11 = [] by decide +kernel]
      intro x hx; cases hx)
  obtain ⟨yb, hb⟩ := exists_of_isSome (x := encodeLink cyl 5 []) (by decide +kernel)
  obtain ⟨ya, ha⟩ := exists_of_isSome (x := encodeLink cyl 7 []) (by decide +kernel)
  exact ⟨x, yb, ya, h1, hb, ha, h2.type.trans (by decide +kernel), h3 5 yb named_base hb, h4 7 ya named_arm ha⟩

theorem port_15 : JointPort cyl 15 14 9 11 :=
  ⟨by decide +kernel, by decide +kernel, joint_14, by decide +kernel, by decide +kernel, by
    rw [show cyl.incoming 9 = [12] by decide +kernel]
    intro i hi; cases List.mem_singleton.1 hi; decide +kernel⟩
theorem port_13 : JointPort cyl 13 12 9 10 :=
  ⟨by decide +kernel, by decide +kernel, joint_12, by decide +kernel, by decide +kernel, by
    rw [show cyl.incoming 9 = [12] by decide +kernel]
    intro i hi; cases List.mem_singleton.1 hi; decide +kernel⟩

theorem within_of {h : Heap} {y : Ref} : ∀ {x : Ref}, Within h y x → x = y ∨ ∃ p, (h.get x).parent = some p ∧ Within h y p := by
  rintro x (rfl | a)
  · exact .inl rfl
  · cases a with
    | direct q => exact .inr ⟨_, q, .inl rfl⟩
    | up q a => exact .inr ⟨_, q, .inr a⟩

theorem not_graph_of {h : Heap} {y : Ref} (e : h.subSemantic .kinGraph y = []) : ¬ HasKinGraph h y := fun hk =>
  hasKinGraph_iff.1 hk e

theorem nearest_structure {n : Ref} (hp : (cyl.get n).parent = some 2) (hn : cyl.subSemantic .kinGraph n = []) :
    IsNearestGraph cyl n 2 := by
  refine ⟨.inr (.direct hp), ⟨3, by decide +kernel, by decide +kernel⟩, ?_⟩
  intro y hy hk
  rcases within_of hy with rfl | ⟨p, h1, hy⟩
  · exact absurd hk (not_graph_of hn)
  · rw [hp] at h1; cases h1; exact hy

theorem mechanical_arm : Mechanical cyl 6 where
  kind := by decide +kernel
  ports := by
    rw [show cyl.subPorts 6 = [15] by decide +kernel]
    intro p hp; cases List.mem_singleton.1 hp; exact ⟨_, _, _, port_15⟩
  graph := ⟨2, 0, nearest_structure (by decide +kernel) (by decide +kernel), by decide +kernel⟩
theorem mechanical_base : Mechanical cyl 4 where
  kind := by decide +kernel
  ports := by
    rw [show cyl.subPorts 4 = [13] by decide +kernel]
    intro p hp; cases List.mem_singleton.1 hp; exact ⟨_, _, _, port_13⟩
  graph := ⟨2, 0, nearest_structure (by decide +kernel) (by decide +kernel), by decide +kernel⟩

/-- C70 at the pendulum: the arm is posed relative to its joint, the base absolutely. -/
example : ∃ ya yb, encodeLink cyl 7 [] = .ok ya ∧ encodeLink cyl 5 [] = .ok yb ∧ ya.frame = some "j.arm".toList ∧
    yb.frame = none := by
  obtain ⟨ya, ha⟩ := exists_of_isSome (x := encodeLink cyl 7 []) (by decide +kernel)
  obtain ⟨yb, hb⟩ := exists_of_isSome (x := encodeLink cyl 5 []) (by decide +kernel)
  refine ⟨ya, yb, ha, hb, ?_, ?_⟩
  · have := ((C70_frame reach_cyl (l := 7) (n := 6) (by decide +kernel) mechanical_arm [] ha).1 [] 15 [] 14 9 11
      (by decide +kernel) port_15 ⟨by decide +kernel, 12, 4, by decide +kernel, by decide +kernel, by decide +kernel⟩
      (by intro p hp; cases hp)).1
    rw [this]
    decide +kernel
  · refine ((C70_frame reach_cyl (l := 5) (n := 4) (by decide +kernel) mechanical_base [] hb).2 ?_ 2 0
      (nearest_structure (by decide +kernel) (by decide +kernel)) (by decide +kernel)).2 ?_
    · rw [show cyl.subPorts 4 = [13] by decide +kernel]
      intro p hp r e j P
      cases List.mem_singleton.1 hp
      obtain rfl : 12 = r := Option.some.inj (port_13.rel.symm.trans P.rel)
      rintro ⟨d, _⟩
      rw [show (cyl.get 12).direction = .inwards by decide +kernel] at d
      cases d
    · rintro ⟨⟨y, hy, hk⟩, _⟩
      rcases within_of hy with rfl | ⟨p, h1, _⟩
      · exact not_graph_of (by decide +kernel) hk
      · rw [show (cyl.get 0).parent = none by decide +kernel] at h1; cases h1

/-- The world of the examples. -/
def world (h : Heap) : World := ⟨h, 1000, fun _ => ⟨List.dedup, fun l => l.headD 0⟩⟩

theorem fair {h : Heap} (R : Reach E0 h) (hs : h.size < 1000) : (world h).Fair E0 where
  reach := R
  stack := hs
  order := fun _ tasks => ⟨List.nodup_dedup _, fun t => List.mem_dedup⟩
  pop := fun _ l hl => by
    cases l with
    | nil => exact absurd rfl hl
    | cons a l => exact List.mem_cons_self

theorem inside_step {h : Heap} {g x y : Ref} (p : Inside h g x) (hy : y ∈ h.subelements x)
    (hk : Passable (h.get y).kind = true) : Inside h g y := by
  obtain ⟨n, p⟩ := p
  exact ⟨n + 1, p.step hy hk⟩

theorem size_cyl : cyl.size = 28 := by decide +kernel
theorem fair_cyl : (world cyl).Fair E0 := fair reach_cyl (by rw [size_cyl]; decide)
theorem two_lt : 2 < cyl.size := by rw [size_cyl]; decide

/-- The joints of the pendulum. -/
theorem joint_cases {j : Ref} (hj : (cyl.get j).kind = .semantic .kinJoint) : j = 10 ∨ j = 11 := by
  have hl := semantic_lt reach_cyl hj
  rw [size_cyl] at hl
  have : ∀ j < 28, (cyl.get j).kind = .semantic .kinJoint → j = 10 ∨ j = 11 := by decide +kernel
  exact this j hl hj
theorem link_cases {j : Ref} (hj : (cyl.get j).kind = .semantic .kinLink) : j = 5 ∨ j = 7 := by
  have hl := semantic_lt reach_cyl hj
  rw [size_cyl] at hl
  have : ∀ j < 28, (cyl.get j).kind = .semantic .kinLink → j = 5 ∨ j = 7 := by decide +kernel
  exact this j hl hj

theorem placed {j : Ref} (hj : (cyl.get j).kind = .semantic .kinJoint) : JointPlaced cyl j := by
  have h9 : ∀ x ∈ cyl.outgoing 9, (cyl.get x).endpoint ≠ none := by
    rw [show cyl.outgoing 9 = [14] by decide +kernel]
    intro x hx; cases List.mem_singleton.1 hx; decide +kernel
  rcases joint_cases hj with rfl | rfl
  · exact ⟨12, 9, by decide +kernel, by decide +kernel, by decide +kernel, h9⟩
  · exact ⟨14, 9, by decide +kernel, by decide +kernel, by decide +kernel, h9⟩

theorem base_link : BaseLink cyl 2 5 := by
  refine ⟨?_, by decide +kernel, ?_⟩
  · exact inside_step (x := 4) (inside_step ⟨0, .start⟩ (by decide +kernel) (by decide +kernel)) (by decide +kernel)
      (by decide +kernel)
  · rintro j - hj ⟨r, e, x, v, h1, h2, h3, h4, h5⟩
    rw [show (cyl.get 5).parent = some 4 by decide +kernel] at h5
    cases h5
    have he : e = 9 := by
      rcases joint_cases hj with rfl | rfl
      · rw [show (cyl.get 10).parent = some 12 by decide +kernel] at h1
        cases h1
        rw [show (cyl.get 12).parent = some 9 by decide +kernel] at h2
        exact (Option.some.inj h2).symm
      · rw [show (cyl.get 11).parent = some 14 by decide +kernel] at h1
        cases h1
        rw [show (cyl.get 14).parent = some 9 by decide +kernel] at h2
        exact (Option.some.inj h2).symm
    subst he
    rw [show cyl.outgoing 9 = [14] by decide +kernel] at h3
    cases List.mem_singleton.1 h3
    rw [show (cyl.get 14).endpoint = some 6 by decide +kernel] at h4
    cases h4

/-- C71 at the pendulum: the base is the only base link of the structure. -/
example : ∃ ls, (world cyl).canonicalLinks 2 {} = (.ok ls, { uses := 1 }) ∧ ls.Nodup ∧ 5 ∈ ls ∧ 7 ∉ ls := by
  obtain ⟨ls, h1, h2, h3⟩ := C71_base_links (W := world cyl) (g := 2) fair_cyl two_lt
    (show Passable (cyl.get 2).kind = true by decide +kernel) (fun j _ hj => placed hj) {} rfl
  refine ⟨ls, h1, h2, (h3 5).2 base_link, fun hm => ?_⟩
  obtain ⟨_, _, c⟩ := (h3 7).1 hm
  refine c 11 ?_ (by decide +kernel) ⟨14, 9, 14, 6, by decide +kernel, by decide +kernel, by decide +kernel,
    by decide +kernel, by decide +kernel⟩
  exact inside_step (x := 14) (inside_step (x := 9) (inside_step ⟨0, .start⟩ (by decide +kernel) (by decide +kernel))
    (by decide +kernel) (by decide +kernel)) (by decide +kernel) (by decide +kernel)

/-- What the converter selects in the pendulum: both links, both joints, the entity. -/
theorem list_cyl : convertList cyl 0 = [5, 7, 10, 11, 1] := by decide +kernel

theorem holds_cases {r : Ref} (hs : HoldsSelected cyl (convertList cyl 0) r) (hk : (cyl.get r).kind = .relation) :
    r = 12 ∨ r = 14 := by
  obtain ⟨x, hx, hx2, hp⟩ := hs
  have hx3 : x = 5 ∨ x = 7 ∨ x = 10 ∨ x = 11 := by
    rcases hx2 with hx2 | hx2
    · rcases link_cases hx2 with rfl | rfl <;> simp
    · rcases joint_cases hx2 with rfl | rfl <;> simp
  rcases hx3 with rfl | rfl | rfl | rfl
  · rw [show (cyl.get 5).parent = some 4 by decide +kernel] at hp
    cases hp
    exact absurd hk (by decide +kernel)
  · rw [show (cyl.get 7).parent = some 6 by decide +kernel] at hp
    cases hp
    exact absurd hk (by decide +kernel)
  · rw [show (cyl.get 10).parent = some 12 by decide +kernel] at hp
    exact .inl (Option.some.inj hp).symm
  · rw [show (cyl.get 11).parent = some 14 by decide +kernel] at hp
    exact .inr (Option.some.inj hp).symm

theorem parent_12 : (cyl.get 12).parent = some 9 := by decide +kernel
theorem parent_14 : (cyl.get 14).parent = some 9 := by decide +kernel

theorem holds_14 : HoldsSelected cyl (convertList cyl 0) 14 :=
  ⟨11, by rw [list_cyl]; decide, .inr (by decide +kernel), by decide +kernel⟩
theorem holds_12 : HoldsSelected cyl (convertList cyl 0) 12 :=
  ⟨10, by rw [list_cyl]; decide, .inr (by decide +kernel), by decide +kernel⟩

theorem sound_cyl : SoundSelection cyl (convertList cyl 0) where
  complete := by
    intro r hs hk
    rcases holds_cases hs hk with rfl | rfl
    · exact ⟨by decide +kernel, by decide +kernel⟩
    · exact ⟨by decide +kernel, by decide +kernel⟩
  distinct := by
    intro r q x y hr hq kr kq hx hy _
    have h1 : x = 9 := by
      rcases holds_cases hr kr with rfl | rfl
      · exact (Option.some.inj (parent_12.symm.trans hx)).symm
      · exact (Option.some.inj (parent_14.symm.trans hx)).symm
    have h2 : y = 9 := by
      rcases holds_cases hq kq with rfl | rfl
      · exact (Option.some.inj (parent_12.symm.trans hy)).symm
      · exact (Option.some.inj (parent_14.symm.trans hy)).symm
    rw [h1, h2]
  answered := by
    intro i hi ki _
    refine ⟨14, holds_14, by decide +kernel, by decide +kernel, ?_⟩
    rcases holds_cases hi ki with rfl | rfl
    · rw [parent_12, parent_14]
    · rfl

theorem pair_cases {i o : Ref} (P : JointPair cyl (convertList cyl 0) i o) : o = 14 ∧ i = 12 := by
  constructor
  · rcases holds_cases P.selOut P.kindOut with rfl | rfl
    · exact absurd P.dirOut (by decide +kernel)
    · rfl
  · rcases holds_cases P.selIn P.kindIn with rfl | rfl
    · rfl
    · exact absurd P.dirIn (by decide +kernel)

theorem pair_12_14 : JointPair cyl (convertList cyl 0) 12 14 where
  selIn := holds_12
  selOut := holds_14
  kindIn := by decide +kernel
  kindOut := by decide +kernel
  same := by rw [parent_12, parent_14]
  dirIn := by decide +kernel
  dirOut := by decide +kernel
  ends := ⟨4, 6, by decide +kernel, by decide +kernel, by decide +kernel⟩

theorem readable_base : ReadableLink cyl 5 4 where
  parent := by decide +kernel
  mechanical := mechanical_base
  transforms := by
    rw [show transformsOf cyl 5 = [] by decide +kernel]
    intro x hx; cases hx
  one := by decide +kernel
  visuals := by
    rw [show visualsOf cyl 4 = [(18, 17)] by decide +kernel]
    intro vm hvm
    cases List.mem_singleton.1 hvm
    exact ⟨exportable_18, "red".toList, by decide +kernel⟩
  collisions := by
    rw [show collisionsOf cyl 4 = [22] by decide +kernel]
    intro c hc
    cases List.mem_singleton.1 hc
    exact exportable_22
  mass := .inr ⟨3, _, mass_cyl, solid_cyl, fun _ _ _ e => by cases e⟩

theorem readable_arm : ReadableLink cyl 7 6 where
  parent := by decide +kernel
  mechanical := mechanical_arm
  transforms := by
    rw [show transformsOf cyl 7 = [8] by decide +kernel]
    intro x hx
    cases List.mem_singleton.1 hx
    exact ⟨[0, 0, 1 / 2], [0, 0, 90], by decide +kernel, by decide +kernel, rfl, rfl⟩
  one := by decide +kernel
  visuals := by
    rw [show visualsOf cyl 6 = [] by decide +kernel]
    intro vm hvm; cases hvm
  collisions := by
    rw [show collisionsOf cyl 6 = [] by decide +kernel]
    intro c hc; cases hc
  mass := .inl (by decide +kernel)

/-- C84 at the pendulum. -/
example : ∃ y, IsLinkExport cyl [] 5 y ∧ LinkElement cyl [] 5 4 y := C84_link reach_cyl readable_base []

theorem one_each : OneEach cyl (convertList cyl 0) := by
  refine ⟨by rw [list_cyl]; decide, ?_⟩
  intro x _ y _ hx hy
  have c : ∀ z, ((cyl.get z).kind = .semantic .kinLink ∨ (cyl.get z).kind = .semantic .kinJoint) →
      z ∈ [5, 7, 10, 11] := by
    rintro z (hz | hz)
    · rcases link_cases hz with rfl | rfl <;> simp
    · rcases joint_cases hz with rfl | rfl <;> simp
  have : ∀ x ∈ [5, 7, 10, 11], ∀ y ∈ [5, 7, 10, 11], (cyl.get x).parent = (cyl.get y).parent → x = y := by decide +kernel
  exact this x (c x hx) y (c y hy)

/-- C73 (and C72) at the pendulum: for every schedule, one model "pendulum" with the two links and the joint. -/
example : ∃ a b c, LinkShown cyl [] 5 a ∧ LinkShown cyl [] 7 b ∧ JointShown cyl [] 12 14 c ∧
    ∀ (W : World) (d : Nat), W.Fair E0 → W.h = cyl → ∃ xs, xs.Perm [a, b, c] ∧
      (W.convert (d + 1) 0 {}).2.sdf.models = [("pendulum".toList, xs)] := by
  obtain ⟨ys, ps, js, h1, h2, h3, h4, h5⟩ := C73_convert (E := E0) (h := cyl) reach_cyl 0 1 (by rw [size_cyl]; decide)
    (by decide +kernel) (by decide +kernel)
    (by
      intro l _ hl
      rcases link_cases hl with rfl | rfl
      · exact ⟨4, readable_base⟩
      · exact ⟨6, readable_arm⟩)
    sound_cyl one_each
    (by
      intro i o v P hv
      obtain ⟨rfl, rfl⟩ := pair_cases P
      rw [show (cyl.get 14).endpoint = some 6 by decide +kernel] at hv
      cases hv
      exact not_graph_of (by decide +kernel))
    (by
      intro i o P
      obtain ⟨rfl, rfl⟩ := pair_cases P
      refine ⟨11, 0, 0, 1, joint_14, axis_11, ?_⟩
      rw [show transformsOf cyl 11 = [] by decide +kernel]
      intro x hx; cases hx)
  have hps : ps = [(12, 14)] := by
    refine List.perm_singleton.1 ((List.perm_ext_iff_of_nodup h3 (by decide)).2 ?_)
    rintro ⟨i, o⟩
    rw [h4, List.mem_singleton]
    constructor
    · intro P; obtain ⟨rfl, rfl⟩ := pair_cases P; rfl
    · rintro ⟨⟩; exact pair_12_14
  subst hps
  obtain ⟨c, rfl, hc⟩ := forall₂_one h2
  rw [show ofKind cyl .kinLink (convertList cyl 0) = [5, 7] by decide +kernel] at h1
  cases h1 with
  | cons ha h1 =>
    obtain ⟨b, rfl, hb⟩ := forall₂_one h1
    refine ⟨_, b, c, ha, hb, hc, fun W d F hW => ?_⟩
    obtain ⟨xs, p, e⟩ := h5 W d F hW
    refine ⟨xs, p, ?_⟩
    rw [e]
    show [((cyl.get 1).idName, xs)] = _
    rw [show (cyl.get 1).idName = "pendulum".toList by decide +kernel]

/-! ## Connections that stop an export (C70) -/

/-- A link whose node is connected by a plain edge. -/
def plainOps : List Op := [
  node "r" 1 none, node "a" 2 (some 0), sem .kinLink "a" 3 [], .add 1 2, edge "e" 4 (some 0),
  .unaryConnect 3 1 none .inwards none ]
/-- A kinematic graph at the top with a link that has an incoming joint. -/
def topOps : List Op := [
  node "r" 1 none, sem .kinGraph "r" 2 [], .add 0 1, node "a" 3 (some 0), sem .kinLink "a" 4 [], .add 2 3,
  edge "e" 5 (some 0), sem .kinJoint "j" 6 [], .unaryConnect 4 2 none .inwards (some 5) ]

abbrev plain : Heap := after E0 plainOps Heap.empty
abbrev top : Heap := after E0 topOps Heap.empty
theorem reach_plain : Reach E0 plain := reach_after _ .init (by decide +kernel)
theorem reach_top : Reach E0 top := reach_after _ .init (by decide +kernel)

example : encodeLink plain 2 [] = .error .stopIteration :=
  C70_plain_connection_refuted reach_plain (l := 2) (n := 1) (p := 5) (r := 4) (ps := []) (by decide +kernel)
    (by decide +kernel) (by decide +kernel) (by decide +kernel)
    (by rw [show plain.subelements 4 = [] by decide +kernel]; intro j hj; cases hj) []

example : encodeLink top 3 [] = .error .attributeError :=
  C70_root_refuted reach_top (l := 3) (n := 2) (g := 0) (p := 7) (r := 6) (e := 4) (j := 5) (ps := []) (by decide +kernel)
    (by decide +kernel)
    ⟨.inr (.direct (by decide +kernel)), ⟨1, by decide +kernel, by decide +kernel⟩, by
      intro y hy hk
      rcases within_of hy with rfl | ⟨p, h1, hy⟩
      · exact absurd hk (not_graph_of (by decide +kernel))
      · rw [show (top.get 2).parent = some 0 by decide +kernel] at h1; cases h1; exact hy⟩
    (by decide +kernel) (by decide +kernel)
    ⟨by decide +kernel, by decide +kernel, by unfold JointOn; decide +kernel, by decide +kernel, by decide +kernel, by
      rw [show top.incoming 4 = [6] by decide +kernel]
      intro i hi; cases List.mem_singleton.1 hi; decide +kernel⟩
    (by decide +kernel) []

/-! ## Nested graphs (C74) -/

/-- A cell with a table and a robot mounted on it; the robot is a graph of its own. -/
def cellOps : List Op := [
  node "site" 1 none,                                                              -- 0
  node "cell" 2 (some 0), sem .kinGraph "cell" 3 [], .add 1 2,                     -- 1, 2
  node "table" 4 (some 1), sem .kinLink "table" 5 [], .add 3 4,                    -- 3, 4
  node "robot" 6 (some 1), sem .kinGraph "robot" 7 [], .add 5 6,                   -- 5, 6
  node "base" 8 (some 5), sem .kinLink "base" 9 [], .add 7 8,                      -- 7, 8
  node "arm" 10 (some 5), sem .kinLink "arm" 11 [], .add 9 10,                     -- 9, 10
  edge "j" 12 (some 5), sem .kinJoint "j.base" 13 [], sem .kinJoint "j.arm" 14 [], -- 11, 12, 13
  .unaryConnect 11 7 none .inwards (some 12),                                      -- relation 14, port 15
  .unaryConnect 11 9 none .outwards (some 13),                                     -- relation 16, port 17
  edge "mount" 15 (some 1), sem .kinJoint "mount.table" 16 [], sem .kinJoint "mount.robot" 17 [], -- 18, 19, 20
  .unaryConnect 18 3 none .inwards (some 19),                                      -- relation 21, port 22
  .unaryConnect 18 5 none .outwards (some 20) ]                                    -- relation 23, port 24

abbrev cell : Heap := after E0 cellOps Heap.empty
theorem reach_cell : Reach E0 cell := reach_after _ .init (by decide +kernel)

theorem base_frame : ∃ y, encodeLink cell 8 "mount".toList = .ok y ∧ y.frame = some "mount.connect.base".toList := by
  obtain ⟨y, hy⟩ := exists_of_isSome (x := encodeLink cell 8 "mount".toList) (by decide +kernel)
  refine ⟨y, hy, ?_⟩
  have hf : relativeFrame cell (cell.get 8).parent = .ok (some "connect.base".toList) := by decide +kernel
  rw [encodeLink_frame hy hf]
  decide +kernel

/-- C74 at the cell: the joint that mounts the robot joins the table to the exported base, and the base is posed in
the frame of that joint; under a prefix neither holds. -/
example : (∃ x y nm, connectEl cell 21 23 "mount".toList (cell.get 8).idName [] = .ok x ∧
      encodeLink cell 8 ([] ++ "mount".toList) = .ok y ∧ y.attr? "name".toList = some nm ∧
      x.childText "child" = some [.str nm] ∧ y.frame = x.attr? "name".toList) ∧
    ∃ x y, connectEl cell 21 23 "mount".toList (cell.get 8).idName "p".toList = .ok x ∧
      encodeLink cell 8 ("p".toList ++ "mount".toList) = .ok y ∧ y.frame ≠ x.attr? "name".toList := by
  have hn : NamedLink cell 7 8 := ⟨by decide +kernel, by decide +kernel, by decide +kernel⟩
  have hf : relativeFrame cell (cell.get 8).parent = .ok (some ("connect.".toList ++ (cell.get 7).idName)) := by
    decide +kernel
  constructor
  · obtain ⟨x, hx⟩ := exists_of_isSome (x := connectEl cell 21 23 "mount".toList (cell.get 8).idName []) (by decide +kernel)
    obtain ⟨y, hy⟩ := exists_of_isSome (x := encodeLink cell 8 ([] ++ "mount".toList)) (by decide +kernel)
    obtain ⟨⟨nm, h1, h2⟩, h3⟩ := C74_nested_names_partial (n := 7) (by decide) hx hy
    exact ⟨x, y, nm, hx, hy, h1, h2, h3 hn (encodeLink_frame hy hf)⟩
  · obtain ⟨x, hx⟩ := exists_of_isSome (x := connectEl cell 21 23 "mount".toList (cell.get 8).idName "p".toList)
      (by decide +kernel)
    obtain ⟨y, hy⟩ := exists_of_isSome (x := encodeLink cell 8 ("p".toList ++ "mount".toList)) (by decide +kernel)
    exact ⟨x, y, hx, hy, (C74_nested_names_refuted (n := 7) (by decide) hx hy).2 hn (encodeLink_frame hy hf)⟩

/-! ## An export without end (C75) -/

/-- A graph with a joint that leads to the graph itself. -/
def loopOps : List Op := [
  node "r" 1 none, node "g" 2 (some 0), sem .kinGraph "g" 3 [], .add 1 2,          -- 0, 1, 2
  node "b" 4 (some 1), sem .kinLink "b" 5 [], .add 3 4,                            -- 3, 4
  edge "e" 6 (some 1), sem .kinJoint "e.b" 7 [], sem .kinJoint "e.g" 8 [],         -- 5, 6, 7
  .unaryConnect 5 3 none .inwards (some 6),                                        -- relation 8, port 9
  .unaryConnect 5 1 none .outwards (some 7) ]                                      -- relation 10, port 11

abbrev loop : Heap := after E0 loopOps Heap.empty
theorem reach_loop : Reach E0 loop := reach_after _ .init (by decide +kernel)
theorem size_loop : loop.size = 12 := by decide +kernel

theorem loop_cases {x : Ref} (hx : (loop.get x).kind = .semantic .kinLink ∨ (loop.get x).kind = .semantic .kinJoint) :
    x = 4 ∨ x = 6 ∨ x = 7 := by
  have hl : x < loop.size := by
    rcases hx with hx | hx
    · exact semantic_lt reach_loop hx
    · exact semantic_lt reach_loop hx
  rw [size_loop] at hl
  have : ∀ x < 12, ((loop.get x).kind = .semantic .kinLink ∨ (loop.get x).kind = .semantic .kinJoint) →
      x = 4 ∨ x = 6 ∨ x = 7 := by decide +kernel
  exact this x hl hx

theorem loop_holds {ls : List Ref} {r : Ref} (hs : HoldsSelected loop ls r) (hk : (loop.get r).kind = .relation) :
    (r = 8 ∨ r = 10) ∧ (loop.get r).parent = some 5 := by
  obtain ⟨x, _, hx, hp⟩ := hs
  rcases loop_cases hx with rfl | rfl | rfl
  · rw [show (loop.get 4).parent = some 3 by decide +kernel] at hp
    cases hp
    exact absurd hk (by decide +kernel)
  · rw [show (loop.get 6).parent = some 8 by decide +kernel] at hp
    obtain rfl := Option.some.inj hp
    exact ⟨.inl rfl, by decide +kernel⟩
  · rw [show (loop.get 7).parent = some 10 by decide +kernel] at hp
    obtain rfl := Option.some.inj hp
    exact ⟨.inr rfl, by decide +kernel⟩

theorem loop_selection {ls : List Ref} (h6 : 6 ∈ ls) (h7 : 7 ∈ ls) :
    SoundSelection loop ls ∧ JointPair loop ls 8 10 := by
  have s8 : HoldsSelected loop ls 8 := ⟨6, h6, .inr (by decide +kernel), by decide +kernel⟩
  have s10 : HoldsSelected loop ls 10 := ⟨7, h7, .inr (by decide +kernel), by decide +kernel⟩
  refine ⟨⟨?_, ?_, ?_⟩, ⟨s8, s10, by decide +kernel, by decide +kernel, by decide +kernel, by decide +kernel,
    by decide +kernel, 3, 1, by decide +kernel, by decide +kernel, by decide +kernel⟩⟩
  · intro r hs hk
    obtain ⟨rfl | rfl, hp⟩ := loop_holds hs hk
    · exact ⟨by decide +kernel, by decide +kernel⟩
    · exact ⟨by decide +kernel, by decide +kernel⟩
  · intro r q x y hr hq kr kq hx hy _
    have h1 := Option.some.inj ((loop_holds hr kr).2.symm.trans hx)
    have h2 := Option.some.inj ((loop_holds hq kq).2.symm.trans hy)
    rw [← h1, ← h2]
  · intro i hi ki _
    exact ⟨10, s10, by decide +kernel, by decide +kernel, by rw [(loop_holds hi ki).2]; decide +kernel⟩

/-- C75 at the loop: whatever the stack, the export of the graph's links and joints does not end normally. -/
example (d : Nat) (s' : Run) : (world loop).encode d [4, 6, 7] [] {} ≠ (.ok (), s') := by
  have F : (world loop).Fair E0 := fair reach_loop (by rw [size_loop]; decide)
  obtain ⟨S, P⟩ := loop_selection (ls := [4, 6, 7]) (by decide) (by decide)
  have L : EndsPassable loop := by
    intro r v hk hv
    have hr := relation_lt reach_loop hk
    rw [size_loop] at hr ⊢
    have : ∀ r < 12, (loop.get r).kind = .relation → r = 8 ∨ r = 10 := by decide +kernel
    rcases this r hr hk with rfl | rfl
    · rw [show (loop.get 8).endpoint = some 3 by decide +kernel] at hv
      obtain rfl := Option.some.inj hv
      exact ⟨by decide, by decide +kernel⟩
    · rw [show (loop.get 10).endpoint = some 1 by decide +kernel] at hv
      obtain rfl := Option.some.inj hv
      exact ⟨by decide, by decide +kernel⟩
  have in5 : Inside loop 1 5 := inside_step ⟨0, .start⟩ (by decide +kernel) (by decide +kernel)
  refine C75_cycle_refuted (W := world loop) F L (i := 8) (o := 10) (v := 1) (show (loop.get 10).endpoint = some 1 by decide +kernel)
    (show HasKinGraph loop 1 from ⟨2, by decide +kernel, by decide +kernel⟩) ?_ d _ [] {} rfl S P s'
  intro ls hm
  refine loop_selection ((hm 6).2 ⟨?_, .inr (show (loop.get 6).kind = _ by decide +kernel)⟩)
    ((hm 7).2 ⟨?_, .inr (show (loop.get 7).kind = _ by decide +kernel)⟩)
  · exact inside_step (x := 8) (inside_step in5 (by decide +kernel) (by decide +kernel)) (by decide +kernel) (by decide +kernel)
  · exact inside_step (x := 10) (inside_step in5 (by decide +kernel) (by decide +kernel)) (by decide +kernel) (by decide +kernel)

end Rei.Robot
