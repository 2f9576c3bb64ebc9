import Verif.Lemmas.SceneEnds

/-!
# The solids of a file with one graph
-/
namespace Rei

theorem Means.fn {ps : Params} {a : FVal} {p q : Rat} (x : Means ps a p) (y : Means ps a q) : p = q := by
  cases x with
  | num => cases y; rfl
  | param n _ e =>
    cases y with
    | param _ _ e' => rw [e] at e'; cases e'; rfl

theorem VecMeans.fn {ps : Params} {v : List FVal} {l l' : List Rat} (x : VecMeans ps v l) (y : VecMeans ps v l') : l = l' := by
  unfold VecMeans at x y
  induction x generalizing l' with
  | nil => cases y; rfl
  | cons a _ ih =>
    cases y with
    | cons b y => rw [a.fn b, ih y]

theorem GivesShape.fn {ps : Params} {g : Geom} {a b : Shape} (x : GivesShape ps g a) (y : GivesShape ps g b) : a = b := by
  obtain ⟨c1, v1, e1⟩ := x
  obtain ⟨c2, v2, e2⟩ := y
  rw [c1] at c2
  cases c2
  cases v1.fn v2
  rw [e1] at e2
  cases e2
  rfl

theorem sub_parts {h : Heap} {q : Kind → Bool} (hq : q .port = false) (x : Ref) :
    h.getSubelements (fun y => q (h.get y).kind) x = (h.parts x).filter fun y => q (h.get y).kind := by
  unfold Heap.getSubelements Heap.parts
  rw [List.filter_filter]
  refine List.filter_congr fun y _ => ?_
  by_cases e : (h.get y).kind = .port
  · rw [e, hq]; simp
  · simp [e]

theorem subNodes_parts (h : Heap) (x : Ref) : h.subNodes x = (h.parts x).filter fun y => decide ((h.get y).kind = .node) :=
  sub_parts (q := fun k => decide (k = .node)) rfl x
theorem subRelations_parts (h : Heap) (x : Ref) :
    h.subRelations x = (h.parts x).filter fun y => decide ((h.get y).kind = .relation) :=
  sub_parts (q := fun k => decide (k = .relation)) rfl x
theorem subSemantic_parts (h : Heap) (k : SemKind) (x : Ref) :
    h.subSemantic k x = (h.parts x).filter fun y => decide ((h.get y).kind = .semantic k) :=
  sub_parts (q := fun q => decide (q = .semantic k)) rfl x
theorem subMaterials_parts (h : Heap) (x : Ref) :
    h.subMaterials x = (h.parts x).filter fun y => decide ((h.get y).kind = .semantic .material) := subSemantic_parts h _ x
theorem transformsOf_parts (h : Heap) (x : Ref) :
    transformsOf h x = (h.parts x).filter fun y => decide ((h.get y).kind = .semantic .rigid) := subSemantic_parts h _ x
theorem subGeometries_parts (h : Heap) (x : Ref) :
    h.subGeometries x = (h.parts x).filter fun y => (h.get y).kind.isGeometry :=
  sub_parts (q := Kind.isGeometry) rfl x

theorem nodup_const {α : Type} {l : List α} {a : α} (nd : l.Nodup) (ha : a ∈ l) (all : ∀ b ∈ l, b = a) : l = [a] := by
  cases l with
  | nil => cases ha
  | cons x l =>
    cases all x (by simp)
    cases l with
    | nil => rfl
    | cons y l =>
      cases all y (by simp)
      simp at nd

namespace Scene

variable {E : Env} {h : Heap} {nm : Str} {f : EntityDecl} {g : Str} {body : Items} {ps : Params} {w cs : Ref}
  {T : GraphRec} {gs : List GraphRec} (S : Scene E h nm f g body ps w cs T gs)
include S

theorem subNodes_link {G : GraphRec} (hG : G ∈ T :: gs) {r : LinkRec} (hr : r ∈ G.ls) : h.subNodes r.x = r.ss.map SolidRec.y := by
  have O := (S.ok G hG).linksOk r hr
  rw [subNodes_parts, O.node.parts, List.filter_cons_of_neg (by simp [O.sem.kind]), List.filter_append]
  rw [List.filter_eq_nil_iff.2 (by intro y hy; simp [(O.inertia_mem hy).1]), List.nil_append]
  refine List.filter_eq_self.2 ?_
  intro y hy
  obtain ⟨s, hs, rfl⟩ := List.mem_map.1 hy
  exact decide_eq_true (O.solids s hs).node.kind

theorem inertia_link {G : GraphRec} (hG : G ∈ T :: gs) {r : LinkRec} (hr : r ∈ G.ls) : h.subSemantic .inertia r.x = r.is := by
  have O := (S.ok G hG).linksOk r hr
  rw [subSemantic_parts, O.node.parts, List.filter_cons_of_neg (by simp [O.sem.kind]), List.filter_append]
  rw [List.filter_eq_self.2 (by intro y hy; simp [(O.inertia_mem hy).1]),
    List.filter_eq_nil_iff.2 ?_, List.append_nil]
  intro y hy
  obtain ⟨s, hs, rfl⟩ := List.mem_map.1 hy
  simp [(O.solids s hs).node.kind]

theorem transforms_link {G : GraphRec} (hG : G ∈ T :: gs) {r : LinkRec} (hr : r ∈ G.ls) : transformsOf h r.sv = r.ts := by
  have O := (S.ok G hG).linksOk r hr
  rw [transformsOf_parts, O.sem.parts]
  exact List.filter_eq_self.2 fun y hy => decide_eq_true (O.pose.mem hy).1

theorem subNodes_solid {G : GraphRec} (hG : G ∈ T :: gs) {r : LinkRec} (hr : r ∈ G.ls) {s : SolidRec} (hs : s ∈ r.ss) : h.subNodes s.y = [s.g] := by
  have O := ((S.ok G hG).linksOk r hr).solids s hs
  rw [subNodes_parts, O.node.parts, List.filter_cons_of_pos (by simp [O.geom.kind]),
    List.filter_eq_nil_iff.2 (by intro y hy; simp [(O.mat_mem hy).1])]

theorem subMaterials_solid {G : GraphRec} (hG : G ∈ T :: gs) {r : LinkRec} (hr : r ∈ G.ls) {s : SolidRec} (hs : s ∈ r.ss) : h.subMaterials s.y = s.ms := by
  have O := ((S.ok G hG).linksOk r hr).solids s hs
  rw [subMaterials_parts, O.node.parts, List.filter_cons_of_neg (by simp [O.geom.kind])]
  exact List.filter_eq_self.2 fun y hy => decide_eq_true (O.mat_mem hy).1

theorem subGeometries_solid {G : GraphRec} (hG : G ∈ T :: gs) {r : LinkRec} (hr : r ∈ G.ls) {s : SolidRec} (hs : s ∈ r.ss) : h.subGeometries s.g = h.parts s.g := by
  have O := ((S.ok G hG).linksOk r hr).solids s hs
  rw [subGeometries_parts]
  refine List.filter_eq_self.2 fun y hy => ?_
  obtain ⟨⟨q, e, hq⟩, -⟩ := O.shape_mem hy
  rw [e]
  rcases hq with rfl | rfl | rfl <;> rfl

/-- A port of a new object belongs to a relation to it. -/
theorem port_cases {x p : Ref} (hx : w ≤ x) (hp : p ∈ h.subPorts x) :
    ∃ r, p = r + 1 ∧ w + 3 ≤ r ∧ (h.get r).kind = .relation ∧ (h.get p).endpoint = some r ∧ (h.get r).endpoint = some x := by
  unfold Heap.subPorts Heap.getSubelements at hp
  obtain ⟨a, b⟩ := List.mem_filter.1 hp
  have pp := (S.reach.good.inv.mem_subelements x p).1 a
  obtain ⟨r, n, e1, e2, e3, e4, e5, e6⟩ := S.neat.port p (S.below hx pp) (of_decide_eq_true b)
  rw [pp] at e5
  cases e5
  exact ⟨r, e1, e2, e3, e4, e6⟩

/-- A new relation has a port at its end. -/
theorem port_of {x r : Ref} (hr : w + 3 ≤ r) (hk : (h.get r).kind = .relation) (he : (h.get r).endpoint = some x) :
    r + 1 ∈ h.subPorts x := by
  obtain ⟨e, n, -, -, -, -, e1, e2, e3, -⟩ := S.neat.rel r hr hk
  rw [he] at e1
  cases e1
  exact List.mem_filter.2 ⟨(S.reach.good.inv.mem_subelements _ _).2 e3, decide_eq_true e2⟩

theorem subPorts_nodup (x : Ref) : (h.subPorts x).Nodup := (S.reach.good.inv.values_nodup x).filter _

variable (B : IsAssembly f g body ps)
include B

theorem k_ne_x {G G' : GraphRec} (hG : G ∈ T :: gs) (hG' : G' ∈ T :: gs) {r : LinkRec} (hr : r ∈ G.ls) : G'.k ≠ r.x := fun e => by
  have a := S.graph_segs B hG'
  rw [e, S.link_segs B hG hr] at a
  exact S.place_graph B hG hG' hr a.symm

theorem link_eq {G G' : GraphRec} (hG : G ∈ T :: gs) (hG' : G' ∈ T :: gs) {r r' : LinkRec} (hr : r ∈ G.ls) (hr' : r' ∈ G'.ls)
    (e : r.x = r'.x) : G = G' ∧ r = r' := by
  have a := S.link_segs B hG hr
  rw [e, S.link_segs B hG' hr'] at a
  obtain ⟨x, y, -⟩ := S.place B hG hG' hr hr' a.symm
  exact ⟨x, y⟩

theorem x_ne_y {G G' : GraphRec} (hG : G ∈ T :: gs) (hG' : G' ∈ T :: gs) {r r' : LinkRec} (hr : r ∈ G.ls) (hr' : r' ∈ G'.ls)
    {s : SolidRec} (hs : s ∈ r'.ss) : r.x ≠ s.y := fun e => by
  have a := S.link_segs B hG hr
  rw [e, S.y_segs B hG' hr' hs] at a
  exact Str.split_ne_nil _ _ (S.place B hG' hG hr' hr a).2.2

theorem k_ne_y {G G' : GraphRec} (hG : G ∈ T :: gs) (hG' : G' ∈ T :: gs) {r : LinkRec} (hr : r ∈ G.ls) {s : SolidRec}
    (hs : s ∈ r.ss) : G'.k ≠ s.y := fun e => by
  have a := S.graph_segs B hG'
  rw [e, S.y_segs B hG hr hs] at a
  exact S.place_graph B hG hG' hr a.symm

theorem k_ne_g {G G' : GraphRec} (hG : G ∈ T :: gs) (hG' : G' ∈ T :: gs) {r : LinkRec} (hr : r ∈ G.ls) {s : SolidRec}
    (hs : s ∈ r.ss) : G'.k ≠ s.g := fun e => by
  have a := S.graph_segs B hG'
  rw [e, S.g_segs B hG hr hs] at a
  exact S.place_graph B hG hG' hr a.symm

theorem x_ne_g {G G' : GraphRec} (hG : G ∈ T :: gs) (hG' : G' ∈ T :: gs) {r r' : LinkRec} (hr : r ∈ G.ls) (hr' : r' ∈ G'.ls)
    {s : SolidRec} (hs : s ∈ r'.ss) : r.x ≠ s.g := fun e => by
  have a := S.link_segs B hG hr
  rw [e, S.g_segs B hG' hr' hs] at a
  have := (S.place B hG' hG hr' hr a).2.2
  simp [Str.split_ne_nil] at this

theorem y_ne_g {G G' : GraphRec} (hG : G ∈ T :: gs) (hG' : G' ∈ T :: gs) {r r' : LinkRec} (hr : r ∈ G.ls) (hr' : r' ∈ G'.ls)
    {s s' : SolidRec} (hs : s ∈ r.ss) (hs' : s' ∈ r'.ss) : s.y ≠ s'.g := fun e => by
  have a := S.g_parent hG' hr' hs'
  rw [← e, S.y_parent hG hr hs] at a
  exact S.x_ne_y B hG hG' hr hr' hs' (Option.some.inj a)

theorem solid_eq {G G' : GraphRec} (hG : G ∈ T :: gs) (hG' : G' ∈ T :: gs) {r r' : LinkRec} (hr : r ∈ G.ls) (hr' : r' ∈ G'.ls)
    {s s' : SolidRec} (hs : s ∈ r.ss) (hs' : s' ∈ r'.ss) (e : s.y = s'.y) : G = G' ∧ r = r' ∧ s = s' := by
  have a := S.y_parent hG hr hs
  rw [e, S.y_parent hG' hr' hs'] at a
  obtain ⟨rfl, rfl⟩ := S.link_eq B hG hG' hr hr' (Option.some.inj a).symm
  exact ⟨rfl, rfl, S.solid_inj B hG hr hs hs' (by
    have a := (((S.ok G hG).linksOk r hr).solids s hs).node.name
    have b := (((S.ok G hG).linksOk r hr).solids s' hs').node.name
    rw [e] at a
    exact a.symm.trans b)⟩

/-- The new relations to something other than a solid node. -/
theorem rel_to {o x : Ref} (ho : w + 3 ≤ o) (hk : (h.get o).kind = .relation) (hx : (h.get o).endpoint = some x) :
    ∃ G ∈ T :: gs, (∃ j ∈ G.js, ∃ p ∈ j.rs, o = p.2) ∨ (∃ r ∈ G.ls, ∃ s ∈ r.ss, x = s.y) ∨
    ∃ r ∈ G.ls, ∃ s ∈ r.ss, ∃ e id r1, s.es = [e] ∧ s.d.geom = .ref id ∧ h.parts e = [r1, o] ∧ x = s.g := by
  obtain ⟨G, hG, q | ⟨r, hr, s, hs, e, he, m⟩⟩ := S.rel_cases ho hk
  · exact ⟨G, hG, .inl q⟩
  · refine ⟨G, hG, .inr ?_⟩
    have he' := he
    obtain ⟨id, _, _, _, hg, _⟩ := (((S.ok G hG).linksOk r hr).solids s hs).ref_mem he
    obtain ⟨e', r1, r2, r', s', sh, a1, a2, a3, a4, -, a5, a6, -⟩ := S.ref_end B hG hr hs hg
    rw [a1] at he
    cases List.mem_singleton.1 he
    have m' := m
    rw [a2] at m
    simp only [List.mem_cons, List.not_mem_nil, or_false] at m
    rcases m with rfl | rfl
    · rw [a3.endpoint] at hx
      cases hx
      exact .inl ⟨r', a5, s', a6, rfl⟩
    · rw [a4.endpoint] at hx
      cases hx
      exact .inr ⟨r, hr, s, hs, _, id, r1, a1, hg, a2, rfl⟩

/-- The relations to a geometry node. -/
theorem ports_geom {G : GraphRec} (hG : G ∈ T :: gs) {r : LinkRec} (hr : r ∈ G.ls) {s : SolidRec} (hs : s ∈ r.ss) {o : Ref}
    (ho : w + 3 ≤ o) (hk : (h.get o).kind = .relation) (hx : (h.get o).endpoint = some s.g) :
    ∃ e id r1, s.es = [e] ∧ s.d.geom = .ref id ∧ h.parts e = [r1, o] := by
  obtain ⟨G', hG', ⟨j, hj, p, hp, rfl⟩ | ⟨r', hr', s', hs', e⟩ | ⟨r', hr', s', hs', e, id, r1, a1, a2, a3, a4⟩⟩ := S.rel_to B ho hk hx
  · exfalso
    obtain ⟨t, et, -, -, ht⟩ := S.rel_end B hG' hj hp
    rw [hx] at et
    cases et
    rcases ht with ⟨-, ht⟩ | ⟨-, r', hr', -, ht⟩ | ⟨-, -, G'', h2, -, ht⟩
    · have := S.g_new hG hr hs; omega
    · exact S.x_ne_g B hG' hG hr' hr hs ht.symm
    · exact S.k_ne_g B hG (.tail _ h2) hr hs ht.symm
  · exact absurd e.symm (S.y_ne_g B hG' hG hr' hr hs' hs)
  · have a := S.g_parent hG hr hs
    rw [a4, S.g_parent hG' hr' hs'] at a
    obtain ⟨rfl, rfl, rfl⟩ := S.solid_eq B hG' hG hr' hr hs' hs (Option.some.inj a)
    exact ⟨e, id, r1, a1, a2, a3⟩

omit B in
/-- The shape of a solid that is given itself. -/
theorem shape_own {G : GraphRec} (hG : G ∈ T :: gs) {r : LinkRec} (hr : r ∈ G.ls) {s : SolidRec} (hs : s ∈ r.ss) {sh : Shape} (Gs : GivesShape ps s.d.geom sh) :
    ∃ e, h.subGeometries s.g = [e] ∧ HasShape h e sh := by
  rw [S.subGeometries_solid hG hr hs]
  have O := (((S.ok G hG).linksOk r hr).solids s hs).shape
  generalize hg : s.d.geom = gm at Gs O
  obtain ⟨a, b, c⟩ := Gs
  obtain ⟨-, e, k', v', l', k1, k2, k3, k4, k5⟩ := O
  rw [a] at k1
  cases k1
  cases k2
  cases b.fn k3
  refine ⟨e, k4, _, _, k5.kind, ?_, c⟩
  rw [k5.attrs]
  rfl

/-- The geometry of a visual or collision. -/
theorem geometry {G : GraphRec} (hG : G ∈ T :: gs) {r : LinkRec} (hr : r ∈ G.ls) {s : SolidRec} (hs : s ∈ r.ss) :
    Exportable h s.g ∧ ∃ e sh, geometriesAt h s.g = [e] ∧ HasShape h e sh ∧ MeansShape G.d.body.links ps s.d.geom sh := by
  obtain ⟨sh, M⟩ := ((S.sound B hG).links r.d (S.link_mem hG hr)).shapes s.d (S.solid_mem hG hr hs)
  have gn := S.g_new hG hr hs
  cases hg : s.d.geom with
  | solid c fl =>
    have Gs : GivesShape ps s.d.geom sh := by
      rw [hg] at M ⊢
      cases M with
      | own q => exact q
    have np : h.subPorts s.g = [] := by
      rw [List.eq_nil_iff_forall_not_mem]
      intro p hp
      obtain ⟨o, -, o1, o2, -, o4⟩ := S.port_cases (by omega) hp
      obtain ⟨_, _, _, _, q, _⟩ := S.ports_geom B hG hr hs o1 o2 o4
      rw [hg] at q
      cases q
    obtain ⟨e, e1, e2⟩ := S.shape_own hG hr hs Gs
    have ga : geometriesAt h s.g = [e] := by unfold geometriesAt; rw [e1, np]; rfl
    refine ⟨⟨by rw [np]; simp, ?_⟩, e, sh, ga, e2, hg ▸ M⟩
    rw [ga]
    simp only [List.mem_singleton, forall_eq]
    exact ⟨sh, e2⟩
  | ref id =>
    obtain ⟨e, r1, r2, r', s', sh', a1, a2, a3, a4, ek, a5, a6, a7, a8, a9⟩ := S.ref_end B hG hr hs hg
    have em : e ∈ s.es := by rw [a1]; simp
    have pe : (h.get r2).parent = some e := S.part_parent (by rw [a2]; simp)
    have en := S.ref_new hG hr hs em
    have r2n : w + 3 ≤ r2 := S.below (by omega) pe
    have pr2 := S.port_of r2n a4.kind a4.endpoint
    have np : h.subPorts s.g = [r2 + 1] := by
      refine nodup_const (S.subPorts_nodup _) pr2 fun p hp => ?_
      obtain ⟨o, rfl, o1, o2, -, o4⟩ := S.port_cases (by omega) hp
      obtain ⟨e', _, _, q1, _, q3⟩ := S.ports_geom B hG hr hs o1 o2 o4
      rw [a1] at q1
      cases q1
      rw [a2] at q3
      cases q3
      rfl
    have p2 : (h.get (r2 + 1)).endpoint = some r2 := by
      obtain ⟨_, _, -, -, -, -, -, -, -, z⟩ := S.neat.rel r2 r2n a4.kind
      exact z
    have og : h.outgoing e = [r1] := by
      unfold Heap.outgoing
      rw [subRelations_parts, a2]
      simp [List.filter_cons, a3.kind, a4.kind, a3.dir, a4.dir]
    obtain ⟨e', e1, e2⟩ := S.shape_own hG a5 a6 a7
    have ga : geometriesAt h s.g = [e'] := by
      unfold geometriesAt
      rw [S.subGeometries_solid hG hr hs, a9, np]
      simp [p2, pe, og, a3.endpoint, S.subNodes_solid hG a5 a6, e1]
    refine ⟨⟨?_, ?_⟩, e', sh', ga, e2, hg ▸ a8⟩
    · rw [np]
      simp only [List.mem_singleton, forall_eq]
      refine ⟨r2, e, p2, pe, ek, ?_⟩
      rw [og]
      simp [a3.endpoint]
    · rw [ga]
      simp only [List.mem_singleton, forall_eq]
      exact ⟨sh', e2⟩

end Scene
end Rei
