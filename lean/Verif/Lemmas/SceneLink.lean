import Verif.Lemmas.SceneSolid
import Verif.Props.SdfConvert

/-!
# The links of a file with one graph
-/
namespace Rei

theorem within_step {h : Heap} {y x : Ref} (q : Within h y x) : x = y ∨ ∃ p, (h.get x).parent = some p ∧ Within h y p := by
  rcases q with rfl | a
  · exact .inl rfl
  · cases a with
    | direct q => exact .inr ⟨_, q, .inl rfl⟩
    | up q a => exact .inr ⟨_, q, .inr a⟩

/-- The joint relations in the order of the file. -/
def jointRels (js : List JointRec) : List (JointRec × JointRel × Ref) := js.flatMap fun j => j.rs.map fun p => (j, p)

theorem mem_jointRels {js : List JointRec} {q : JointRec × JointRel × Ref} :
    q ∈ jointRels js ↔ q.1 ∈ js ∧ q.2 ∈ q.1.rs := by
  obtain ⟨j, p⟩ := q
  simp only [jointRels, List.mem_flatMap, List.mem_map, Prod.mk.injEq]
  constructor
  · rintro ⟨j', a, p', b, rfl, rfl⟩; exact ⟨a, b⟩
  · rintro ⟨a, b⟩; exact ⟨j, a, p, b, rfl, rfl⟩

theorem eq_of_sorted_mem {a b : List Nat} (ha : a.Pairwise (· < ·)) (hb : b.Pairwise (· < ·)) (q : ∀ x, x ∈ a ↔ x ∈ b) :
    a = b := by
  have na : a.Nodup := ha.imp fun h => Nat.ne_of_lt h
  have nb : b.Nodup := hb.imp fun h => Nat.ne_of_lt h
  exact ((List.perm_ext_iff_of_nodup na nb).2 q).eq_of_pairwise (fun x y _ _ h1 h2 => absurd h1 (Nat.lt_asymm h2)) ha hb

theorem PoseMeans.lengths {ps : Params} {p : Pose} {t r : List Rat} {ty : Str} (m : PoseMeans ps p t r ty)
    (fl : p.full = true) : t.length = 3 ∧ r.length = 3 := by
  unfold Pose.full at fl
  rw [Bool.and_eq_true, decide_eq_true_eq] at fl
  cases m with
  | plain a => exact ⟨(List.Forall₂.length_eq a).symm.trans fl.1, rfl⟩
  | unmarked a b | degrees a b | radians a b =>
    exact ⟨(List.Forall₂.length_eq a).symm.trans fl.1, (List.Forall₂.length_eq b).symm.trans (of_decide_eq_true fl.2)⟩

theorem ShowsPose.isTransform {h : Heap} {ps : Params} {n : Str} {p : Option Pose} {ts : List Ref} (S : ShowsPose h ps n p ts)
    (fl : ∀ q, p = some q → q.full = true) {t : Ref} (ht : t ∈ ts) : IsTransform h t := by
  cases p with
  | none => rw [show ts = [] from S] at ht; cases ht
  | some p =>
    obtain ⟨x, a, b, c, rfl, m, q⟩ := S
    cases List.mem_singleton.1 ht
    obtain ⟨l1, l2⟩ := m.lengths (fl p rfl)
    exact ⟨a, b, by rw [q.attrs]; rfl, by rw [q.attrs]; rfl, l1, l2⟩

/-- The pose of a transformation is what the file says. -/
theorem ShowsPose.says {h : Heap} {ps : Params} {n : Str} {p : Pose} {ts : List Ref} (S : ShowsPose h ps n (some p) ts) :
    ∃ t, ts = [t] ∧ ∀ q, PoseOf h t q → SaysPose ps p q := by
  obtain ⟨x, a, b, c, rfl, m, s⟩ := S
  refine ⟨x, rfl, ?_⟩
  rintro q ⟨-, t', r', e1, e2, e3⟩
  rw [s.attrs] at e1 e2
  cases e1
  cases e2
  refine ⟨a, b, c, m, ?_⟩
  rw [e3, s.attrs]
  refine congrArg _ (List.map_congr_left fun _ _ => ?_)
  refine if_congr ?_ rfl rfl
  show some (AttrVal.str c) = some (.str "deg".toList) ↔ _
  simp

namespace Scene

variable {E : Env} {h : Heap} {nm : Str} {f : EntityDecl} {g : Str} {body : Items} {ps : Params} {w cs : Ref}
  {T : GraphRec} {gs : List GraphRec} (S : Scene E h nm f g body ps w cs T gs)
  (B : IsAssembly f g body ps)
include S

theorem rels_sorted {G : GraphRec} (hG : G ∈ T :: gs) : (jointRels G.js).Pairwise fun p q => p.2.2 < q.2.2 := by
  unfold jointRels
  rw [List.pairwise_flatMap]
  have inv := S.reach.good.inv
  constructor
  · intro j hj
    rw [List.pairwise_map]
    have a := (S.neat.sorted j.e (S.joint_new hG hj)).sublist (List.filter_sublist (p := fun y => decide ((h.get y).kind ≠ .port)))
    rw [show (h.subelements j.e).filter (fun y => decide ((h.get y).kind ≠ .port)) = h.parts j.e from rfl,
      ((S.ok G hG).jointsOk j hj).edge.parts, List.pairwise_map] at a
    exact a
  · have a := (S.neat.sorted G.k (S.k_new hG)).sublist (List.filter_sublist (p := fun y => decide ((h.get y).kind ≠ .port)))
    rw [show (h.subelements G.k).filter (fun y => decide ((h.get y).kind ≠ .port)) = h.parts G.k from rfl,
      (S.ok G hG).node.parts] at a
    have b := (List.pairwise_cons.1 a).2.sublist (S.ok G hG).sub
    rw [List.pairwise_map] at b
    refine b.imp_of_mem ?_
    intro i j hi hj hlt p hp q hq
    obtain ⟨p, hp', rfl⟩ := List.mem_map.1 hp
    obtain ⟨q, hq', rfl⟩ := List.mem_map.1 hq
    replace hp := hp'
    replace hq := hq'
    obtain ⟨d1, t1, s1, ts1, ax1, -, -, k1, -⟩ := ((S.ok G hG).jointsOk i hi).rels p hp
    obtain ⟨d2, t2, s2, ts2, ax2, -, -, k2, -⟩ := ((S.ok G hG).jointsOk j hj).rels q hq
    have n1 := S.neat.nest p.2 i.e j.e (S.rel_new hG hi hp) k1.kind (S.rel_parent hG hi hp) ((S.ok G hG).jointsOk j hj).edge.kind hlt
    obtain ⟨e, n, -, e1, e2, -⟩ := S.neat.rel q.2 (S.rel_new hG hj hq) k2.kind
    rw [S.rel_parent hG hj hq] at e2
    cases e2
    show p.2 < q.2
    omega

/-- The direction of a joint relation is its arrow. -/
theorem rel_dir {G : GraphRec} (hG : G ∈ T :: gs) {j : JointRec} (hj : j ∈ G.js) {p : JointRel × Ref} (hp : p ∈ j.rs) :
    ((h.get p.2).direction.isIn ↔ p.1.isIn = true) ∧ ((h.get p.2).direction = .outwards ↔ p.1.isOut = true) := by
  obtain ⟨d, t, s, ts, ax, e, -, q, -⟩ := ((S.ok G hG).jointsOk j hj).rels p hp
  rw [q.dir]
  unfold JointRel.isIn JointRel.isOut Dir.isIn
  rw [e]
  cases d <;> decide

theorem mem_relations {G : GraphRec} (hG : G ∈ T :: gs) {j : JointRec} (hj : j ∈ G.js) {o : Ref} : o ∈ h.subRelations j.e ↔ ∃ p ∈ j.rs, p.2 = o := by
  rw [subRelations_parts, ((S.ok G hG).jointsOk j hj).edge.parts, List.mem_filter, List.mem_map]
  constructor
  · exact fun q => q.1
  · rintro ⟨p, hp, rfl⟩
    obtain ⟨d, t, s, ts, ax, e, -, q, -⟩ := ((S.ok G hG).jointsOk j hj).rels p hp
    exact ⟨⟨p, hp, rfl⟩, decide_eq_true q.kind⟩

theorem mem_incoming {G : GraphRec} (hG : G ∈ T :: gs) {j : JointRec} (hj : j ∈ G.js) {o : Ref} : o ∈ h.incoming j.e ↔ ∃ p ∈ j.rs, p.2 = o ∧ p.1.isIn = true := by
  unfold Heap.incoming
  rw [List.mem_filter, S.mem_relations hG hj]
  constructor
  · rintro ⟨⟨p, hp, rfl⟩, q⟩
    refine ⟨p, hp, rfl, (S.rel_dir hG hj hp).1.1 ?_⟩
    exact of_decide_eq_true q
  · rintro ⟨p, hp, rfl, q⟩
    exact ⟨⟨p, hp, rfl⟩, decide_eq_true ((S.rel_dir hG hj hp).1.2 q)⟩

/-- The joint on a relation. -/
theorem joint_on {G : GraphRec} (hG : G ∈ T :: gs) {j : JointRec} (hj : j ∈ G.js) {p : JointRel × Ref} (hp : p ∈ j.rs) :
    ∃ s ts a, JointOn h p.2 s ∧ h.parts p.2 = [s] ∧ AxisMeans ps p.1.axis a ∧
      IsSem h s .kinJoint (j.d.name ++ '.' :: p.1.ref) (jointAttrs p.1.type a) ts ∧
      ShowsPose h ps (j.d.name ++ '.' :: p.1.ref) p.1.pose ts := by
  obtain ⟨d, t, s, ts, ax, -, -, q, am, sm, po⟩ := ((S.ok G hG).jointsOk j hj).rels p hp
  refine ⟨s, ts, ax, ?_, q.parts, am, sm, po⟩
  unfold JointOn
  rw [← List.head?_filter]
  have := subSemantic_parts h .kinJoint p.2
  rw [show h.subSemantic .kinJoint p.2 = (h.subelements p.2).filter fun x => decide ((h.get x).kind = .semantic .kinJoint) from rfl,
    q.parts] at this
  rw [this]
  simp [sm.kind]

include B

/-- The connections of a link, in order. -/
theorem ports_link {G : GraphRec} (hG : G ∈ T :: gs) {r : LinkRec} (hr : r ∈ G.ls) :
    h.subPorts r.x = ((jointRels G.js).filter fun q => decide (q.2.1.ref = r.d.name)).map fun q => q.2.2 + 1 := by
  refine eq_of_sorted_mem ((S.neat.sorted r.x (S.link_new hG hr)).sublist List.filter_sublist) ?_ ?_
  · rw [List.pairwise_map]
    exact ((S.rels_sorted hG).sublist List.filter_sublist).imp fun q => Nat.succ_lt_succ q
  · intro p
    constructor
    · intro hp
      obtain ⟨o, rfl, o1, o2, -, o4⟩ := S.port_cases (by have := S.link_new hG hr; omega) hp
      obtain ⟨G', hG', ⟨j, hj, q, hq, rfl⟩ | ⟨r', hr', s', hs', e⟩ | ⟨r', hr', s', hs', _, _, _, _, _, _, e⟩⟩ := S.rel_to B o1 o2 o4
      · obtain ⟨t, et, -, -, ht⟩ := S.rel_end B hG' hj hq
        rw [o4] at et
        cases et
        rcases ht with ⟨-, ht⟩ | ⟨-, r', hr', e, ht⟩ | ⟨-, -, G'', h2, -, ht⟩
        · have := S.link_new hG hr; omega
        rotate_left
        · exact absurd ht.symm (S.k_ne_x B hG (.tail _ h2) hr)
        · obtain ⟨rfl, rfl⟩ := S.link_eq B hG hG' hr hr' ht
          refine List.mem_map.2 ⟨(j, q), List.mem_filter.2 ⟨mem_jointRels.2 ⟨hj, hq⟩, decide_eq_true e.symm⟩, rfl⟩
      · exact absurd e (S.x_ne_y B hG hG' hr hr' hs')
      · exact absurd e (S.x_ne_g B hG hG' hr hr' hs')
    · intro hp
      obtain ⟨⟨j, q⟩, hm, rfl⟩ := List.mem_map.1 hp
      obtain ⟨hm, e⟩ := List.mem_filter.1 hm
      obtain ⟨hj, hq⟩ := mem_jointRels.1 hm
      have e := of_decide_eq_true e
      obtain ⟨t, et, -, -, ht⟩ := S.rel_end B hG hj hq
      obtain ⟨d, t', s, ts, ax, -, -, z, -⟩ := ((S.ok G hG).jointsOk j hj).rels q hq
      refine S.port_of (S.rel_new hG hj hq) z.kind ?_
      rcases ht with ⟨ht, -⟩ | ⟨-, r', hr', e', ht⟩ | ⟨-, rfl, G'', h2, e', -⟩
      · exact absurd (e.symm.trans ht) ((S.sound B hG).names _ (S.link_name hG hr)).1
      rotate_left
      · exact absurd (e.symm.trans e'.symm) (S.link_ne_graph B hr h2)
      · cases S.link_inj B hG hr hr' (e.symm.trans e'.symm)
        rw [et, ht]

theorem joint_port {G : GraphRec} (hG : G ∈ T :: gs) {j : JointRec} (hj : j ∈ G.js) {p : JointRel × Ref} (hp : p ∈ j.rs) :
    ∃ s, JointPort h (p.2 + 1) p.2 j.e s ∧ (h.get s).idName = j.d.name ++ '.' :: p.1.ref := by
  obtain ⟨s, ts, a, on, -, -, sm, -⟩ := S.joint_on hG hj hp
  obtain ⟨d, t', _, _, ax, -, -, z, -⟩ := ((S.ok G hG).jointsOk j hj).rels p hp
  have rn := S.rel_new hG hj hp
  refine ⟨s, ⟨?_, z.kind, on, S.rel_parent hG hj hp, ((S.ok G hG).jointsOk j hj).edge.kind, ?_⟩, sm.name⟩
  · obtain ⟨_, _, -, -, -, -, -, -, -, q⟩ := S.neat.rel _ rn z.kind
    exact q
  · intro i hi
    obtain ⟨q, hq, rfl, -⟩ := (S.mem_incoming hG hj).1 hi
    obtain ⟨t, et, -⟩ := S.rel_end B hG hj hq
    rw [et]
    simp

omit B in
theorem graph_of {y : Ref} (hy : w ≤ y) (hg : HasKinGraph h y) : ∃ G ∈ T :: gs, y = G.k := by
  obtain ⟨d, hd, e⟩ := hg
  have pd := (S.reach.good.inv.mem_subelements _ _).1 hd
  obtain ⟨G, hG, rfl⟩ := S.kinGraph_cases (S.below hy pd) e
  rw [S.s0_parent hG] at pd
  exact ⟨G, hG, (Option.some.inj pd).symm⟩

omit B in
theorem has_graph {G : GraphRec} (hG : G ∈ T :: gs) : HasKinGraph h G.k :=
  ⟨G.s0, (S.reach.good.inv.mem_subelements _ _).2 (S.s0_parent hG), (S.ok G hG).sem.kind⟩

omit B in
theorem within_root {y : Ref} (q : Within h y (w + 2)) : y = w + 2 := by
  rcases within_step q with e | ⟨p, e, -⟩
  · exact e.symm
  · rw [S.rootRoot] at e; cases e

omit B in
theorem within_top {y : Ref} (q : Within h y T.k) : y = T.k ∨ y = w + 2 := by
  rcases within_step q with e | ⟨p, e, q⟩
  · exact .inl e.symm
  · rw [S.top_parent] at e
    cases e
    exact .inr (S.within_root q)

omit B in
theorem within_graph {G : GraphRec} (hG : G ∈ T :: gs) {y : Ref} (q : Within h y G.k) : y = G.k ∨ y = T.k ∨ y = w + 2 := by
  rcases List.mem_cons.1 hG with rfl | hG
  · exact .inr (S.within_top q)
  · rcases within_step q with e | ⟨p, e, q⟩
    · exact .inl e.symm
    · rw [S.sub_parent hG] at e
      cases e
      exact .inr (S.within_top q)

omit B in
theorem graph_within {G : GraphRec} (hG : G ∈ T :: gs) : Within h T.k G.k := by
  rcases List.mem_cons.1 hG with rfl | hG
  · exact .inl rfl
  · exact .inr (.direct (S.sub_parent hG))

omit B in
theorem k_parent {G : GraphRec} (hG : G ∈ T :: gs) : ∃ p, (h.get G.k).parent = some p ∧ (p = w + 2 ∨ p = T.k) := by
  rcases List.mem_cons.1 hG with rfl | hG
  · exact ⟨_, S.top_parent, .inl rfl⟩
  · exact ⟨_, S.sub_parent hG, .inr rfl⟩

omit B in
theorem within_link {G : GraphRec} (hG : G ∈ T :: gs) {r : LinkRec} (hr : r ∈ G.ls) {y : Ref} (q : Within h y r.x) :
    y = r.x ∨ y = G.k ∨ y = T.k ∨ y = w + 2 := by
  rcases within_step q with e | ⟨p, e, q⟩
  · exact .inl e.symm
  · rw [S.link_parent hG hr] at e
    cases e
    exact .inr (S.within_graph hG q)

theorem nearest {G : GraphRec} (hG : G ∈ T :: gs) {r : LinkRec} (hr : r ∈ G.ls) : IsNearestGraph h r.x G.k where
  around := .inr (.direct (S.link_parent hG hr))
  has := S.has_graph hG
  nearest y hy hg := by
    rcases S.within_link hG hr hy with rfl | rfl | rfl | rfl
    · obtain ⟨G', hG', e⟩ := S.graph_of (by have := S.link_new hG hr; omega) hg
      exact absurd e.symm (S.k_ne_x B hG hG' hr)
    · exact .inl rfl
    · exact S.graph_within hG
    · obtain ⟨G', hG', e⟩ := S.graph_of (by omega) hg
      have := S.k_new hG'
      omega

theorem mechanical {G : GraphRec} (hG : G ∈ T :: gs) {r : LinkRec} (hr : r ∈ G.ls) : Mechanical h r.x where
  kind := by rw [((S.ok G hG).linksOk r hr).node.kind]; rfl
  ports p hp := by
    rw [S.ports_link B hG hr] at hp
    obtain ⟨⟨j, q⟩, hm, rfl⟩ := List.mem_map.1 hp
    obtain ⟨hj, hq⟩ := mem_jointRels.1 (List.mem_filter.1 hm).1
    obtain ⟨s, P, -⟩ := S.joint_port B hG hj hq
    exact ⟨_, _, s, P⟩
  graph := by
    obtain ⟨p, e, -⟩ := S.k_parent hG
    exact ⟨G.k, p, S.nearest B hG hr, e⟩

omit B in
theorem mat_visual {G : GraphRec} (hG : G ∈ T :: gs) {r : LinkRec} (hr : r ∈ G.ls) {s : SolidRec} (hs : s ∈ r.ss) :
    (s.d.visual = true → ∃ m, s.ms = [m] ∧
      getAttribute h m "material_name".toList = some (.str (s.d.material.getD "white".toList))) ∧
    (s.d.visual = false → s.ms = []) := by
  have M := (((S.ok G hG).linksOk r hr).solids s hs).mat
  constructor
  · intro v
    rw [v, if_pos rfl] at M
    obtain ⟨m, e, q⟩ := M
    exact ⟨m, e, by rw [q.attrs]; rfl⟩
  · intro v
    rw [v] at M
    simpa using M

omit B in
theorem visuals_link {G : GraphRec} (hG : G ∈ T :: gs) {r : LinkRec} (hr : r ∈ G.ls) : List.Forall₂ (fun s vm => s ∈ r.ss ∧ s.d.visual = true ∧ vm.1 = s.g ∧
    getAttribute h vm.2 "material_name".toList = some (.str (s.d.material.getD "white".toList)))
    (r.ss.filter fun s => s.d.visual) (visualsOf h r.x) := by
  unfold visualsOf
  rw [S.subNodes_link hG hr, List.flatMap_map]
  suffices ∀ ss : List SolidRec, (∀ s ∈ ss, s ∈ r.ss) → List.Forall₂ (fun s vm => s ∈ r.ss ∧ s.d.visual = true ∧ vm.1 = s.g ∧
      getAttribute h vm.2 "material_name".toList = some (.str (s.d.material.getD "white".toList)))
      (ss.filter fun s => s.d.visual) (ss.flatMap fun s => match h.subMaterials s.y with
        | m :: _ => (h.subNodes s.y).map fun v => (v, m)
        | [] => []) from this r.ss fun _ => id
  intro ss
  induction ss with
  | nil => intro _; exact .nil
  | cons s ss ih =>
    intro hm
    have hs := hm s (by simp)
    rw [List.flatMap_cons, S.subMaterials_solid hG hr hs]
    by_cases v : s.d.visual = true
    · obtain ⟨m, e, q⟩ := (S.mat_visual hG hr hs).1 v
      rw [List.filter_cons_of_pos (by simpa using v), e, S.subNodes_solid hG hr hs]
      exact .cons ⟨hs, v, rfl, q⟩ (ih fun t ht => hm t (.tail _ ht))
    · rw [List.filter_cons_of_neg (by simpa using v), (S.mat_visual hG hr hs).2 (by simpa using v)]
      exact ih fun t ht => hm t (.tail _ ht)

omit B in
theorem collisions_link {G : GraphRec} (hG : G ∈ T :: gs) {r : LinkRec} (hr : r ∈ G.ls) :
    collisionsOf h r.x = (r.ss.filter fun s => !s.d.visual).map SolidRec.g := by
  unfold collisionsOf
  rw [S.subNodes_link hG hr, List.flatMap_map]
  suffices ∀ ss : List SolidRec, (∀ s ∈ ss, s ∈ r.ss) →
      (ss.flatMap fun s => if h.subMaterials s.y = [] then h.subNodes s.y else []) =
        (ss.filter fun s => !s.d.visual).map SolidRec.g from this r.ss fun _ => id
  intro ss
  induction ss with
  | nil => intro _; rfl
  | cons s ss ih =>
    intro hm
    have hs := hm s (by simp)
    rw [List.flatMap_cons, S.subMaterials_solid hG hr hs, ih fun t ht => hm t (.tail _ ht)]
    by_cases v : s.d.visual = true
    · obtain ⟨m, e, q⟩ := (S.mat_visual hG hr hs).1 v
      rw [List.filter_cons_of_neg (by simpa using v), e]
      rfl
    · rw [List.filter_cons_of_pos (by simpa using v), (S.mat_visual hG hr hs).2 (by simpa using v), S.subNodes_solid hG hr hs]
      rfl

omit B in
theorem mass_link {G : GraphRec} (hG : G ∈ T :: gs) {r : LinkRec} (hr : r ∈ G.ls) {b : LinkBody} (hb : r.d.body = some b) : HasMass h r.x b.mass := by
  have := ((S.ok G hG).linksOk r hr).body
  rw [hb] at this
  obtain ⟨i, e, q⟩ := this
  refine ⟨i, (S.inertia_link hG hr).trans e, ?_⟩
  rw [q.attrs]
  rfl

/-- A link with a body is a solid. -/
theorem solid_link {G : GraphRec} (hG : G ∈ T :: gs) {r : LinkRec} (hr : r ∈ G.ls) {sh : Shape} (some : ∃ s ∈ r.d.solids, GivesShape ps s.geom sh)
    (all : ∀ s ∈ r.d.solids, ∀ sh', GivesShape ps s.geom sh' → sh' = sh) : SolidLink h r.x sh where
  all := by
    rw [S.subNodes_link hG hr]
    intro v hv x hx e he
    obtain ⟨s, hs, rfl⟩ := List.mem_map.1 hv
    rw [S.subNodes_solid hG hr hs] at hx
    cases List.mem_singleton.1 hx
    rw [S.subGeometries_solid hG hr hs] at he
    obtain ⟨sh', M⟩ := ((S.sound B hG).links r.d (S.link_mem hG hr)).shapes s.d (S.solid_mem hG hr hs)
    have O := (((S.ok G hG).linksOk r hr).solids s hs).shape
    cases hg : s.d.geom with
    | ref id =>
      rw [hg] at O
      rw [O.1] at he
      cases he
    | solid c fl =>
      have Gs : GivesShape ps s.d.geom sh' := by
        rw [hg] at M ⊢
        cases M with
        | own q => exact q
      obtain ⟨e', e1, e2⟩ := S.shape_own hG hr hs Gs
      rw [S.subGeometries_solid hG hr hs] at e1
      rw [e1] at he
      cases List.mem_singleton.1 he
      rw [← all s.d (S.solid_mem hG hr hs) sh' Gs]
      exact e2
  some := by
    obtain ⟨d, hd, Gs⟩ := some
    obtain ⟨s, hs, rfl⟩ := S.solid_of hG hr hd
    obtain ⟨e', e1, e2⟩ := S.shape_own hG hr hs Gs
    refine ⟨s.y, by rw [S.subNodes_link hG hr]; exact List.mem_map_of_mem hs, s.g, ?_, by rw [e1]; simp⟩
    rw [S.subNodes_solid hG hr hs]
    rfl

theorem readable_link {G : GraphRec} (hG : G ∈ T :: gs) {r : LinkRec} (hr : r ∈ G.ls) : ReadableLink h r.sv r.x where
  parent := S.sv_parent hG hr
  mechanical := S.mechanical B hG hr
  transforms x hx := by
    rw [S.transforms_link hG hr] at hx
    exact ((S.ok G hG).linksOk r hr).pose.isTransform ((S.sound B hG).links r.d (S.link_mem hG hr)).pose hx
  one := by
    have := ((S.sound B hG).links r.d (S.link_mem hG hr)).visual
    rw [← ((S.ok G hG).linksOk r hr).decls, List.filter_map, List.length_map] at this
    rw [S.subNodes_link hG hr, List.filter_map, List.length_map]
    refine Nat.le_trans (Nat.le_of_eq ?_) this
    refine congrArg List.length (List.filter_congr fun s hs => ?_)
    simp only [Function.comp, S.subMaterials_solid hG hr hs]
    cases v : s.d.visual with
    | true =>
      obtain ⟨m, e, -⟩ := (S.mat_visual hG hr hs).1 v
      rw [e]
      rfl
    | false => rw [(S.mat_visual hG hr hs).2 v]; rfl
  visuals vm hm := by
    obtain ⟨n, hn, rfl⟩ := List.getElem_of_mem hm
    have := S.visuals_link hG hr
    obtain ⟨hs, -, e, q⟩ := (List.forall₂_iff_get.1 this).2 n (this.length_eq.symm ▸ hn) hn
    simp only [List.get_eq_getElem] at e q
    rw [e]
    exact ⟨(S.geometry B hG hr hs).1, _, q⟩
  collisions c hc := by
    rw [S.collisions_link hG hr] at hc
    obtain ⟨s, hs, rfl⟩ := List.mem_map.1 hc
    exact (S.geometry B hG hr (List.mem_filter.1 hs).1).1
  mass := by
    cases hb : r.d.body with
    | none =>
      left
      have := ((S.ok G hG).linksOk r hr).body
      rw [hb] at this
      rw [S.inertia_link hG hr]
      exact this
    | some b =>
      obtain ⟨sh, a, c, d⟩ := ((S.sound B hG).links r.d (S.link_mem hG hr)).solid (by simp [hb])
      exact .inr ⟨b.mass, sh, S.mass_link hG hr hb, S.solid_link B hG hr a c, d⟩

end Scene
end Rei
