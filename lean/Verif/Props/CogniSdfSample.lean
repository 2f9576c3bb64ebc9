import Verif.Props.CogniSdf

/-!
# C85 at two files of the repository
-/
namespace Rei

theorem vecMeans_nums (ps : Params) (v : List Rat) : VecMeans ps (v.map .num) v := by
  induction v with
  | nil => exact .nil
  | cons q v ih => exact .cons (.num q) ih

namespace Cogni

/-- A link with a solid to see, and the same solid for collisions, meets the conditions. -/
theorem shown_sound {links : List LinkDecl} {ps : Params} {path : List Str} {l : LinkDecl} {viz r : Str} {mat : Option Str}
    {c : GeomClass} {v : List FVal} {w : List Rat} {k : SemKind} {sh : Shape}
    (hl : l.solids = [⟨true, some viz, mat, .solid c (.vec v)⟩, ⟨false, none, none, .ref r⟩])
    (hr : r = l.name ++ '/' :: viz) (hw : VecMeans ps v w) (hk : c.kind = some k)
    (hs : shapeOf k w = some sh) (he : ∀ a b c, sh ≠ .ellipsoid a b c) (hp : ∀ p, l.pose = some p → p.full = true)
    (hv : '/' ∉ viz) (hm : l ∈ links) : l.Sound links ps path where
  names := by
    rw [hl]
    simp only [List.map_cons, List.map_nil, SolidDecl.nodeName, List.nodup_cons, List.mem_singleton, List.not_mem_nil,
      not_false_eq_true, List.nodup_nil, and_true]
    intro e
    rw [e] at hv
    refine hv ?_
    rw [if_neg (by simp), Str.join_cons_cons]
    simp
  slash := by
    intro s hs' n e
    rw [hl, List.mem_cons, List.mem_singleton] at hs'
    rcases hs' with rfl | rfl
    · cases e; exact hv
    · cases e
  visual := by simp [hl]
  shapes := by
    have G : GivesShape ps (.solid c (.vec v)) sh := .intro hk hw hs
    intro s hs'
    have hl' := hl
    rw [hl, List.mem_cons, List.mem_singleton] at hs'
    rcases hs' with rfl | rfl
    · exact ⟨sh, .own G⟩
    · refine ⟨sh, ?_⟩
      show MeansShape links ps (.ref r) sh
      rw [hr]
      exact .ref hm (by rw [hl']; exact .head _) rfl G
  pose := hp
  solid := by
    intro _
    have G : GivesShape ps (.solid c (.vec v)) sh := .intro hk hw hs
    rw [hl]
    refine ⟨sh, ⟨_, .head _, G⟩, ?_, he⟩
    intro s hs' sh' G'
    rw [List.mem_cons, List.mem_singleton] at hs'
    rcases hs' with rfl | rfl
    · exact G'.fn G
    · cases G'

/-- A link of the pendulum meets the conditions. -/
theorem pendulumLink_sound {links : List LinkDecl} {ps : Params} {path : List Str} {name : String} {pose : Option Pose} {mass : Rat}
    {viz mat : String} {c : GeomClass} {v : List Rat} {k : SemKind} {sh : Shape} (hk : c.kind = some k)
    (hs : shapeOf k v = some sh) (he : ∀ a b c, sh ≠ .ellipsoid a b c) (hp : ∀ p, pose = some p → p.full = true)
    (hv : '/' ∉ viz.toList) (hm : pendulumLink name pose mass viz mat c v ∈ links)
    (hj : (name ++ "/" ++ viz).toList = name.toList ++ '/' :: viz.toList) :
    (pendulumLink name pose mass viz mat c v).Sound links ps path :=
  shown_sound (l := pendulumLink name pose mass viz mat c v) rfl hj (vecMeans_nums ps v) hk hs he hp hv hm

/-- The body of the only graph of an entity. -/
def firstBody : Items → Items
  | .kinematic _ b _ => b
  | _ => .nil

/-- The conditions on names, as a computation. -/
def namesCheck (G : GraphDecl) : Bool :=
  (G.body.links.map LinkDecl.name ++ G.body.graphs.map Prod.fst).all fun n =>
    decide (n ≠ "world".toList) && decide ('/' ∉ n) && decide (n ≠ G.name) && (G.body.joints.all fun j => decide (j.name ≠ n)) &&
    G.body.links.all fun l' => l'.solids.all fun s => match s.geom with
      | .ref id => decide (refEdgeName (G.path ++ [l'.name]) s id ≠ n)
      | _ => true

theorem names_of_check {G : GraphDecl} (c : namesCheck G = true) :
    ∀ n ∈ G.body.links.map LinkDecl.name ++ G.body.graphs.map Prod.fst, n ≠ "world".toList ∧ '/' ∉ n ∧ n ≠ G.name ∧
    (∀ j ∈ G.body.joints, j.name ≠ n) ∧
    ∀ l' ∈ G.body.links, ∀ s ∈ l'.solids, ∀ id, s.geom = .ref id → refEdgeName (G.path ++ [l'.name]) s id ≠ n := by
  intro n hn
  have := List.all_eq_true.1 c n hn
  rw [Bool.and_eq_true, Bool.and_eq_true, Bool.and_eq_true, Bool.and_eq_true] at this
  obtain ⟨⟨⟨⟨w, sl⟩, a⟩, b⟩, d⟩ := this
  refine ⟨of_decide_eq_true w, of_decide_eq_true sl, of_decide_eq_true a,
    fun j hj => of_decide_eq_true (List.all_eq_true.1 b j hj), fun l' hl' s hs id e => ?_⟩
  have := List.all_eq_true.1 (List.all_eq_true.1 d l' hl') s hs
  rw [e] at this
  exact of_decide_eq_true this

/-- The conditions on a joint, as a computation. -/
def jointCheck (links : List LinkDecl) (subs : List Str) (j : JointDecl) : Bool :=
  (j.rels.all fun r => (decide (r.ref = "world".toList) || (links.any fun l => decide (l.name = r.ref)) || decide (r.ref ∈ subs)) &&
    r.pose.all Pose.full && r.axis.all fun a => decide (a.length = 3)) && j.rels.any JointRel.isOut

theorem joint_of_check {links : List LinkDecl} {subs : List Str} {j : JointDecl} (c : jointCheck links subs j = true) :
    j.Sound links subs := by
  unfold jointCheck at c
  rw [Bool.and_eq_true] at c
  obtain ⟨c, d⟩ := c
  have c := List.all_eq_true.1 c
  simp only [Bool.and_eq_true, Bool.or_eq_true, decide_eq_true_eq, List.any_eq_true] at c
  refine ⟨fun r hr => or_assoc.1 (c r hr).1.1, fun r hr p e => ?_, fun r hr a e => ?_, fun _ => ?_⟩
  · have := (c r hr).1.2; rw [e] at this; exact this
  · have := (c r hr).2; rw [e] at this; exact of_decide_eq_true this
  · exact List.any_eq_true.1 d

theorem joints_of_check {G : GraphDecl}
    (c : (G.body.joints.all (jointCheck G.body.links (G.body.graphs.map Prod.fst))) = true) :
    ∀ j ∈ G.body.joints, j.Sound G.body.links (G.body.graphs.map Prod.fst) :=
  fun j hj => joint_of_check (List.all_eq_true.1 c j hj)

set_option maxRecDepth 100000

/-- The links of the pendulum. -/
def pBase : LinkDecl :=
  pendulumLink "base" (some { trans := [.num 0, .num 0, .num (1/2)] }) (1/10) "viz" "wood" .cylinder [1/10, 1]
def pArm : LinkDecl :=
  pendulumLink "arm" (some { trans := [.num 0, .num 0, .num (385/1000)] }) (1/10) "viz_arm" "wood" .cylinder [1/20, 3/4]
def pBall : LinkDecl := pendulumLink "ball" none (1/2) "viz" "red" .ellipsoid [85/1000]

theorem pendulum_links : (firstBody pendulum.body).links = [pBase, pArm, pBall] := rfl

/-- The pendulum meets the conditions of C85. -/
theorem pendulum_robot : IsRobot pendulum "basic_structure".toList (firstBody pendulum.body) [] where
  graph := .here rfl
  flat := rfl
  world := by decide +kernel
  slash := by decide +kernel
  once := by decide +kernel
  sound := {
   distinct := by decide +kernel
   names := names_of_check (by decide +kernel)
   links := by
    show ∀ l ∈ (firstBody pendulum.body).links, l.Sound (firstBody pendulum.body).links _ _
    rw [pendulum_links]
    intro l hl
    have hm := hl
    rw [List.mem_cons, List.mem_cons, List.mem_cons] at hl
    rcases hl with rfl | rfl | rfl | hl
    · exact pendulumLink_sound (k := .cylinder) rfl rfl (by simp) (by rintro p ⟨⟩; decide +kernel) (by decide) hm (by decide +kernel)
    · exact pendulumLink_sound (k := .cylinder) rfl rfl (by simp) (by rintro p ⟨⟩; decide +kernel) (by decide) hm (by decide +kernel)
    · exact pendulumLink_sound (k := .ellipsoid) rfl rfl (by simp) (by rintro p ⟨⟩) (by decide) hm (by decide +kernel)
    · cases hl
   joints := joints_of_check (by decide +kernel) }

/-- The links of the double pendulum. -/
def tBase : LinkDecl := pendulumLink "base" (some (at_ [0, 0, 7/10])) (1/10) "viz" "white" .cylinder [1/10, 14/10]
def tArm1 : LinkDecl := pendulumLink "arm_1" (some (at_ [0, 0, 1/4])) (1/10) "viz_arm" "wood" .cylinder [25/1000, 1/2]
def tArm2 : LinkDecl := pendulumLink "arm_2" (some (at_ [0, 0, 1/4])) (1/10) "viz_arm" "wood" .cylinder [25/1000, 1/2]
def tBall : LinkDecl := pendulumLink "ball" none (1/2) "viz" "red" .ellipsoid [85/1000]

theorem twoLink_links : (firstBody twoLinkPendulum.body).links = [tBase, tArm1, tArm2, tBall] := rfl

/-- The double pendulum meets the conditions of C85. -/
theorem twoLink_robot : IsRobot twoLinkPendulum "basic_structure".toList (firstBody twoLinkPendulum.body) [] where
  graph := .here rfl
  flat := rfl
  world := by decide +kernel
  slash := by decide +kernel
  once := by decide +kernel
  sound := {
   distinct := by decide +kernel
   names := names_of_check (by decide +kernel)
   links := by
    show ∀ l ∈ (firstBody twoLinkPendulum.body).links, l.Sound (firstBody twoLinkPendulum.body).links _ _
    rw [twoLink_links]
    intro l hl
    have hm := hl
    rw [List.mem_cons, List.mem_cons, List.mem_cons, List.mem_cons] at hl
    rcases hl with rfl | rfl | rfl | rfl | hl
    · exact pendulumLink_sound (k := .cylinder) rfl rfl (by simp) (by rintro p ⟨⟩; decide +kernel) (by decide) hm (by decide +kernel)
    · exact pendulumLink_sound (k := .cylinder) rfl rfl (by simp) (by rintro p ⟨⟩; decide +kernel) (by decide) hm (by decide +kernel)
    · exact pendulumLink_sound (k := .cylinder) rfl rfl (by simp) (by rintro p ⟨⟩; decide +kernel) (by decide) hm (by decide +kernel)
    · exact pendulumLink_sound (k := .ellipsoid) rfl rfl (by simp) (by rintro p ⟨⟩) (by decide) hm (by decide +kernel)
    · cases hl
   joints := joints_of_check (by decide +kernel) }

end Cogni

/-- **C85.** A well-formed file under the conditions of `IsRobot` is read and converted, from any reachable state. -/
theorem C85_wellformed {E : Env} (hsha : ∀ a b, E.sha a = E.sha b → a = b) (htime : ∀ i j, E.time i = E.time j → i = j)
    {h : Heap} (R : Reach E h) (nm : Str) {f : EntityDecl} (ok : f.wellFormed = true) {g : Str} {body : Items} {ps : Params}
    (B : IsRobot f g body ps) :
    ∃ I h' x ys js, readFile E nm .local f h = (.ok I, h') ∧ I.root = some x ∧
      List.Forall₂ (SaysLink [] false ps ⟨[f.name, g], body⟩) body.links ys ∧
      List.Forall₂ (fun p y => SaysJoint [] ps p.1 p.2.1 p.2.2 y) (jointPairs body.joints) js ∧
      ∀ (W : World) (d : Nat), W.Fair E → W.h = h' → ∃ xs, xs.Perm (ys ++ js) ∧
        W.convert (d + 1) x {} = (.ok (),
          { sdf := { models := [(f.name, xs)], cache := [] }, uses := 1, shared := [] }) := by
  obtain ⟨I, h', _, _, e, _⟩ := C81_wellformed_accepted hsha htime R nm ok
  obtain ⟨x, ys, js, a, b, c, d⟩ := C85_file_to_sdf (fun _ _ => hsha _ _) R e B
  exact ⟨I, h', x, ys, js, e, a, b, c, d⟩

/-- C85 at `examples/pendulum.cogni`. -/
example : ∃ I h' x ys js, readFile E1 "cogni_lang_file".toList .local Cogni.pendulum Heap.empty = (.ok I, h') ∧ I.root = some x ∧
    ys.length = 3 ∧ js.length = 3 ∧
    ∀ (W : World) (d : Nat), W.Fair E1 → W.h = h' → ∃ xs, xs.Perm (ys ++ js) ∧
      W.convert (d + 1) x {} = (.ok (),
        { sdf := { models := [("pendulum_simple".toList, xs)], cache := [] }, uses := 1, shared := [] }) := by
  obtain ⟨I, h', x, ys, js, a, b, c, d, e⟩ := C85_wellformed (E := E1) wideSha_injective
    (fun i j (e : 5 * i = 5 * j) => by omega) .init "cogni_lang_file".toList Cogni.examples_wellFormed.1 Cogni.pendulum_robot
  refine ⟨I, h', x, ys, js, a, b, ?_, ?_, e⟩
  · rw [← c.length_eq]; rfl
  · rw [← d.length_eq]; decide +kernel

/-- C85 at `examples/two_link_pendulum.cogni`. -/
example : ∃ I h' x ys js, readFile E1 "cogni_lang_file".toList .local Cogni.twoLinkPendulum Heap.empty = (.ok I, h') ∧
    I.root = some x ∧ ys.length = 4 ∧ js.length = 4 ∧
    ∀ (W : World) (d : Nat), W.Fair E1 → W.h = h' → ∃ xs, xs.Perm (ys ++ js) ∧
      W.convert (d + 1) x {} = (.ok (),
        { sdf := { models := [("pendulum_two_link".toList, xs)], cache := [] }, uses := 1, shared := [] }) := by
  obtain ⟨I, h', x, ys, js, a, b, c, d, e⟩ := C85_wellformed (E := E1) wideSha_injective
    (fun i j (e : 5 * i = 5 * j) => by omega) .init "cogni_lang_file".toList Cogni.examples_wellFormed.2.1 Cogni.twoLink_robot
  refine ⟨I, h', x, ys, js, a, b, ?_, ?_, e⟩
  · rw [← c.length_eq]; rfl
  · rw [← d.length_eq]; decide +kernel

end Rei
