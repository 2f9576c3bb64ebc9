import Verif.Lemmas.Flat

/-!
# The closed world after reading a file with one graph
-/
namespace Rei

/-- What is known after reading: `w` is the world node, `w + 1` the parameter node, `w + 2` the root, `T` the graph and `gs`
the graphs in it. -/
structure Scene (E : Env) (h : Heap) (nm : Str) (f : EntityDecl) (g : Str) (body : Items) (ps : Params)
    (w cs : Ref) (T : GraphRec) (gs : List GraphRec) : Prop where
  reach : Reach E h
  neat : Neat (InnerUid E nm) (w + 3) h
  old : ∀ p y, p < w → (h.get y).parent = some p → y < w
  kept : ∀ p y, y < w → (h.get y).parent = some p → p < w
  world : IsNode h w "world".toList ["world".toList] []
  worldRoot : (h.get w).parent = none
  worldUid : ∃ t, (h.get w).uuid = uidOf E ("factory_".toList ++ nm) "world".toList t
  params : ∀ v ∈ h.parts (w + 1), (h.get v).kind = .value
  paramsKind : (h.get (w + 1)).kind = .node
  paramsRoot : (h.get (w + 1)).parent = none
  paramsPath : (h.get (w + 1)).qualName = "parameters".toList
  root : IsNode h (w + 2) f.name [f.name] [cs, T.k]
  rootRoot : (h.get (w + 2)).parent = none
  depth : (h.get (w + 2)).depth = 0
  entity : IsSem h cs .cognitiveEntity f.name [("name".toList, .str f.name)] []
  ok : ∀ G ∈ T :: gs, G.Ok h w ps
  top : T.d = ⟨[f.name, g], body⟩
  nested : gs.map GraphRec.d = body.graphs.map fun p => ⟨[f.name, g, p.1], p.2⟩
  inner : T.subs = gs.map GraphRec.k
  leaf : ∀ G ∈ gs, G.subs = []

theorem scene_of_file {E : Env} {h h' : Heap} (R : Reach E h) {nm : Str} {ck : Clock} {f : EntityDecl} {I : FileIcon}
    (hr : readFile E nm ck f h = (.ok I, h')) {g : Str} {body : Items} {ps : Params} (B : IsAssembly f g body ps) :
    I.root = some (h.size + 2) ∧ ∃ cs T gs, Scene E h' nm f g body ps h.size cs T gs := by
  obtain ⟨I0, h1, b, on, sz, pl, pg, q⟩ := (readFile_does R nm ck f).2 I h' hr
  obtain ⟨nt, dp, uw⟩ := yields_readFile R nm ck f I h' hr
  have R' : Reach E h' := by have := (C77_reading_is_safe R nm ck f).1; rwa [hr] at this
  have KO : KeepsOld h h' := by have := (C77_reading_is_safe R nm ck f).2; rwa [hr] at this
  have wl : h.size < h1.size := by omega
  have inv := R.good.inv
  have inv' := R'.good.inv
  have sw := q.shows_
  rw [if_neg B.world, sz] at sw
  obtain ⟨cs, ys, rn, rr, es, sh⟩ := sw
  obtain ⟨k, s0, l, rfl, gn, gm, bs⟩ := oneGraph_shown B.graph sh
  obtain ⟨ls, js, gs, e1, e2, e3, o1, o2, o3, pm, sb⟩ := items_assembled bs B.assembled B.once
  have rt := q.root
  rw [sz] at rt
  have wr : (h'.get h.size).parent = none := by rw [q.on.parent _ wl, b.worldRoot]
  have wp : h'.parts h.size = [] := by rw [q.on.only _ wl (by simpa using b.ne), b.world.parts]
  have Pne : I0.params ≠ h.size := fun e => by
    have := b.ne
    exact this e.symm
  have hP : I0.params = h.size + 1 := by omega
  refine ⟨rt, cs, ⟨⟨[f.name, g], body⟩, k, s0, l, ls, js, gs.map GraphRec.k⟩, gs, R', nt, ?_, ?_, ⟨?_, ?_, ?_, wp⟩, wr, uw, ?_, ?_,
    ?_, ?_, rn, rr, dp, es, ?_, rfl, e3, rfl, fun G hG => (o3 G hG).2⟩
  · intro p y hp hy
    have := (inv'.mem_subelements p y).2 hy
    rw [KO.2.1 p hp] at this
    exact inv.lt_of_parent ((inv.mem_subelements p y).1 this)
  · intro p y hy hp
    rw [KO.2.1 y hy] at hp
    exact inv.parent_lt hp
  · rw [q.on.kind _ wl, b.world.kind]
  · rw [q.on.idName _ wl, b.world.name]
  · rw [q.on.qualName _ wl, b.world.path]
  · intro v hv
    have := q.ok.params
    rw [q.params, hP] at this
    obtain ⟨n, hn, rfl⟩ := List.getElem_of_mem hv
    have hp := (List.forall₂_iff_get.1 this).2 n hn (this.length_eq ▸ hn)
    exact hp.kind
  · rw [← hP, q.on.kind _ pl, b.params.kind]
  · rw [← hP, q.on.parent _ pl, b.paramsRoot]
  · rw [← hP, q.on.qualName _ pl, b.params.path]; rfl
  · rintro G (_ | ⟨_, hG⟩)
    · exact ⟨gn, gm, pm, sb, e1, e2, o1, o2⟩
    · exact (o3 G hG).1

/-- The objects that the file stands for. -/
inductive FileItem (h : Heap) (cs : Ref) (gs : List GraphRec) : Ref → Prop
  | entity : FileItem h cs gs cs
  | graph {G} : G ∈ gs → FileItem h cs gs G.k
  | graphSem {G} : G ∈ gs → FileItem h cs gs G.s0
  | link {G r} : G ∈ gs → r ∈ G.ls → FileItem h cs gs r.x
  | linkSem {G r} : G ∈ gs → r ∈ G.ls → FileItem h cs gs r.sv
  | linkPose {G r t} : G ∈ gs → r ∈ G.ls → t ∈ r.ts → FileItem h cs gs t
  | inertia {G r t} : G ∈ gs → r ∈ G.ls → t ∈ r.is → FileItem h cs gs t
  | solid {G r s} : G ∈ gs → r ∈ G.ls → s ∈ r.ss → FileItem h cs gs s.y
  | geom {G r s} : G ∈ gs → r ∈ G.ls → s ∈ r.ss → FileItem h cs gs s.g
  | shape {G r s t} : G ∈ gs → r ∈ G.ls → s ∈ r.ss → t ∈ h.parts s.g → FileItem h cs gs t
  | mat {G r s t} : G ∈ gs → r ∈ G.ls → s ∈ r.ss → t ∈ s.ms → FileItem h cs gs t
  | ref {G r s t} : G ∈ gs → r ∈ G.ls → s ∈ r.ss → t ∈ s.es → FileItem h cs gs t
  | refRel {G r s e t} : G ∈ gs → r ∈ G.ls → s ∈ r.ss → e ∈ s.es → t ∈ h.parts e → FileItem h cs gs t
  | joint {G j} : G ∈ gs → j ∈ G.js → FileItem h cs gs j.e
  | rel {G j p} : G ∈ gs → j ∈ G.js → p ∈ j.rs → FileItem h cs gs p.2
  | relSem {G j p t} : G ∈ gs → j ∈ G.js → p ∈ j.rs → t ∈ h.parts p.2 → FileItem h cs gs t
  | relPose {G j p t u} : G ∈ gs → j ∈ G.js → p ∈ j.rs → t ∈ h.parts p.2 → u ∈ h.parts t → FileItem h cs gs u

theorem ShowsPose.mem {h : Heap} {ps : Params} {n : Str} {p : Option Pose} {ts : List Ref} (S : ShowsPose h ps n p ts) {t : Ref}
    (ht : t ∈ ts) : (h.get t).kind = .semantic .rigid ∧ h.parts t = [] := by
  cases p with
  | none => rw [show ts = [] from S] at ht; cases ht
  | some p =>
    obtain ⟨x, a, b, c, rfl, -, q⟩ := S
    cases List.mem_singleton.1 ht
    exact ⟨q.kind, q.parts⟩

theorem GeomClass.kind_geometry {c : GeomClass} {k : SemKind} (e : c.kind = some k) :
    k = .cylinder ∨ k = .polyhedron ∨ k = .ellipsoid := by
  cases c <;> cases e <;> simp

theorem SolidRec.Ok.shape_mem {h : Heap} {ps : Params} {path : List Str} {s : SolidRec} (O : s.Ok h ps path) {t : Ref}
    (ht : t ∈ h.parts s.g) : (∃ k, (h.get t).kind = .semantic k ∧ (k = .cylinder ∨ k = .polyhedron ∨ k = .ellipsoid)) ∧
      h.parts t = [] := by
  have sh := O.shape
  revert sh
  cases s.d.geom with
  | ref id => rintro ⟨e, -⟩; rw [e] at ht; cases ht
  | solid c f =>
    rintro ⟨-, t', k, v, l, ck, -, -, e, q⟩
    rw [e] at ht
    cases List.mem_singleton.1 ht
    exact ⟨⟨k, q.kind, GeomClass.kind_geometry ck⟩, q.parts⟩

theorem SolidRec.Ok.mat_mem {h : Heap} {ps : Params} {path : List Str} {s : SolidRec} (O : s.Ok h ps path) {t : Ref}
    (ht : t ∈ s.ms) : (h.get t).kind = .semantic .material ∧ h.parts t = [] := by
  have sh := O.mat
  split at sh
  · obtain ⟨m, e, q⟩ := sh
    rw [e] at ht
    cases List.mem_singleton.1 ht
    exact ⟨q.kind, q.parts⟩
  · rw [sh] at ht; cases ht

/-- The reference edge of a solid. -/
theorem SolidRec.Ok.ref_mem {h : Heap} {ps : Params} {path : List Str} {s : SolidRec} (O : s.Ok h ps path) {e : Ref}
    (he : e ∈ s.es) : ∃ id r1 r2 t, s.d.geom = .ref id ∧ s.es = [e] ∧ h.parts s.g = [] ∧
        IsEdge h e ("ref_".toList ++ ("geom_".toList ++ s.d.nodeName path) ++ '_' :: id)
          (path.dropLast ++ ["ref_".toList ++ ("geom_".toList ++ s.d.nodeName path) ++ '_' :: id]) [r1, r2] ∧
        IsRel h r1 .outwards t [] ∧ IsRel h r2 .inwards s.g [] ∧
        (h.get t).kind = .node ∧ (h.get t).qualName = targetName (s.d.around path) id := by
  have sh := O.shape
  revert sh
  cases hg : s.d.geom with
  | solid c f => rintro ⟨e1, -⟩; rw [e1] at he; cases he
  | ref id =>
    rintro ⟨e1, e2⟩
    rw [if_neg (by simp)] at e2
    obtain ⟨e', r1, r2, t, e3, a, b, c, d, q⟩ := e2
    have : e' = e := by rw [e3] at he; exact (List.mem_singleton.1 he).symm
    subst this
    exact ⟨id, r1, r2, t, rfl, e3, e1, a, b, c, d, q⟩

theorem LinkRec.Ok.inertia_mem {h : Heap} {ps : Params} {path : List Str} {l : LinkRec} (O : l.Ok h ps path) {t : Ref}
    (ht : t ∈ l.is) : (h.get t).kind = .semantic .inertia ∧ h.parts t = [] := by
  have sh := O.body
  split at sh
  · rw [sh] at ht; cases ht
  · obtain ⟨m, e, q⟩ := sh
    rw [e] at ht
    cases List.mem_singleton.1 ht
    exact ⟨q.kind, q.parts⟩

namespace Scene

variable {E : Env} {h : Heap} {nm : Str} {f : EntityDecl} {g : Str} {body : Items} {ps : Params} {w cs : Ref}
  {T : GraphRec} {gs : List GraphRec} (S : Scene E h nm f g body ps w cs T gs)
include S

theorem mem_l {G : GraphRec} (hG : G ∈ T :: gs) {o : Ref} : o ∈ G.l ↔ (∃ r ∈ G.ls, r.x = o) ∨
    (∃ r ∈ G.ls, ∃ s ∈ r.ss, o ∈ s.es) ∨ (∃ j ∈ G.js, j.e = o) ∨ o ∈ G.subs := by
  rw [(S.ok G hG).perm.mem_iff, List.mem_append, List.mem_append, List.mem_append, List.mem_map, List.mem_map, List.mem_flatMap,
    or_assoc, or_assoc]
  simp only [LinkRec.edges, List.mem_flatMap]

theorem mem_subs {G : GraphRec} (hG : G ∈ T :: gs) {o : Ref} (ho : o ∈ G.subs) : G = T ∧ ∃ G' ∈ gs, G'.k = o := by
  rcases List.mem_cons.1 hG with rfl | hG
  · rw [S.inner, List.mem_map] at ho
    exact ⟨rfl, ho⟩
  · rw [S.leaf G hG] at ho; cases ho

theorem item_parts {o z : Ref} (i : FileItem h cs (T :: gs) o) (hz : z ∈ h.parts o) : FileItem h cs (T :: gs) z := by
  cases i with
  | entity => rw [S.entity.parts] at hz; cases hz
  | graph hG =>
    rw [(S.ok _ hG).node.parts] at hz
    rcases List.mem_cons.1 hz with rfl | hz
    · exact .graphSem hG
    · rcases (S.mem_l hG).1 hz with ⟨r, a, rfl⟩ | ⟨r, a, s, b, c⟩ | ⟨j, a, rfl⟩ | a
      · exact .link hG a
      · exact .ref hG a b c
      · exact .joint hG a
      · obtain ⟨-, G', b, rfl⟩ := S.mem_subs hG a
        exact .graph (.tail _ b)
  | graphSem hG => rw [(S.ok _ hG).sem.parts] at hz; cases hz
  | link hG a =>
    rw [((S.ok _ hG).linksOk _ a).node.parts] at hz
    rcases List.mem_cons.1 hz with rfl | hz
    · exact .linkSem hG a
    · rcases List.mem_append.1 hz with hz | hz
      · exact .inertia hG a hz
      · obtain ⟨s, b, rfl⟩ := List.mem_map.1 hz
        exact .solid hG a b
  | linkSem hG a =>
    rw [((S.ok _ hG).linksOk _ a).sem.parts] at hz
    exact .linkPose hG a hz
  | linkPose hG a b => rw [(((S.ok _ hG).linksOk _ a).pose.mem b).2] at hz; cases hz
  | inertia hG a b => rw [(((S.ok _ hG).linksOk _ a).inertia_mem b).2] at hz; cases hz
  | solid hG a b =>
    rw [(((S.ok _ hG).linksOk _ a).solids _ b).node.parts] at hz
    rcases List.mem_cons.1 hz with rfl | hz
    · exact .geom hG a b
    · exact .mat hG a b hz
  | geom hG a b => exact .shape hG a b hz
  | shape hG a b c => rw [((((S.ok _ hG).linksOk _ a).solids _ b).shape_mem c).2] at hz; cases hz
  | mat hG a b c => rw [((((S.ok _ hG).linksOk _ a).solids _ b).mat_mem c).2] at hz; cases hz
  | ref hG a b c => exact .refRel hG a b c hz
  | refRel hG a b c d =>
    obtain ⟨id, r1, r2, t, -, -, -, e, q1, q2, -⟩ := (((S.ok _ hG).linksOk _ a).solids _ b).ref_mem c
    rw [e.parts] at d
    simp only [List.mem_cons, List.not_mem_nil, or_false] at d
    rcases d with rfl | rfl
    · rw [q1.parts] at hz; cases hz
    · rw [q2.parts] at hz; cases hz
  | joint hG a =>
    rw [((S.ok _ hG).jointsOk _ a).edge.parts] at hz
    obtain ⟨p, b, rfl⟩ := List.mem_map.1 hz
    exact .rel hG a b
  | rel hG a b => exact .relSem hG a b hz
  | relSem hG a b c => exact .relPose hG a b c hz
  | relPose hG a b c d =>
    obtain ⟨dr, t, s, ts, ax, -, -, r, -, sm, po⟩ := ((S.ok _ hG).jointsOk _ a).rels _ b
    rw [r.parts] at c
    cases List.mem_singleton.1 c
    rw [sm.parts] at d
    rw [(po.mem d).2] at hz; cases hz

/-- Everything after the root, except ports and values, is what the file stands for. -/
theorem item {o : Ref} (ho : w + 3 ≤ o) (hl : o < h.size) (hp : (h.get o).kind ≠ .port) (hv : (h.get o).kind ≠ .value) :
    FileItem h cs (T :: gs) o := by
  have inv := S.reach.good.inv
  obtain ⟨rank, hrank⟩ := inv.rank
  induction hn : rank o using Nat.strong_induction_on generalizing o with
  | _ n ih =>
    obtain ⟨c, hc, cp, cv⟩ := S.neat.par o ho hl
    have hm : o ∈ h.parts c := mem_parts.2 ⟨(inv.mem_subelements c o).2 hc, hp⟩
    have hcl := inv.parent_lt hc
    by_cases h3 : w + 3 ≤ c
    · exact S.item_parts (ih _ (hn ▸ hrank o c hc) h3 hcl cp cv rfl) hm
    · by_cases h0 : c < w
      · have := S.old c o h0 hc; omega
      · have : c = w ∨ c = w + 1 ∨ c = w + 2 := by omega
        rcases this with rfl | rfl | rfl
        · rw [S.world.parts] at hm; cases hm
        · exact absurd (S.params _ hm) hv
        · rw [S.root.parts] at hm
          simp only [List.mem_cons, List.not_mem_nil, or_false] at hm
          rcases hm with rfl | rfl
          · exact .entity
          · exact .graph (.head _)

theorem below {p y : Ref} (hp : w ≤ p) (hy : (h.get y).parent = some p) : w + 3 ≤ y := by
  by_contra hlt
  by_cases h0 : y < w
  · have := S.kept p y h0 hy; omega
  · have : y = w ∨ y = w + 1 ∨ y = w + 2 := by omega
    rcases this with rfl | rfl | rfl
    · rw [S.worldRoot] at hy; cases hy
    · rw [S.paramsRoot] at hy; cases hy
    · rw [S.rootRoot] at hy; cases hy

/-- What the objects of the file are. -/
theorem item_kind {o : Ref} (i : FileItem h cs (T :: gs) o) :
    (o = cs ∧ (h.get o).kind = .semantic .cognitiveEntity) ∨
    ((h.get o).kind = .semantic .kinGraph ∧ ∃ G ∈ T :: gs, o = G.s0) ∨
    ((h.get o).kind = .node ∧ ∃ G ∈ T :: gs, o = G.k ∨ (∃ r ∈ G.ls, o = r.x) ∨ ∃ r ∈ G.ls, ∃ s ∈ r.ss, o = s.y ∨ o = s.g) ∨
    ((h.get o).kind = .edge ∧ ∃ G ∈ T :: gs, (∃ j ∈ G.js, o = j.e) ∨ ∃ r ∈ G.ls, ∃ s ∈ r.ss, o ∈ s.es) ∨
    ((h.get o).kind = .relation ∧ ∃ G ∈ T :: gs, (∃ j ∈ G.js, ∃ p ∈ j.rs, o = p.2) ∨
      ∃ r ∈ G.ls, ∃ s ∈ r.ss, ∃ e ∈ s.es, o ∈ h.parts e) ∨
    ((h.get o).kind = .semantic .kinLink ∧ ∃ G ∈ T :: gs, ∃ r ∈ G.ls, o = r.sv) ∨
    ((h.get o).kind = .semantic .kinJoint ∧ ∃ G ∈ T :: gs, ∃ j ∈ G.js, ∃ p ∈ j.rs, h.parts p.2 = [o]) ∨
    (h.get o).kind = .semantic .rigid ∨ (h.get o).kind = .semantic .inertia ∨ (h.get o).kind = .semantic .material ∨
    (h.get o).kind = .semantic .cylinder ∨ (h.get o).kind = .semantic .polyhedron ∨
    (h.get o).kind = .semantic .ellipsoid := by
  cases i with
  | entity => exact .inl ⟨rfl, S.entity.kind⟩
  | graph hG => exact .inr (.inr (.inl ⟨(S.ok _ hG).node.kind, _, hG, .inl rfl⟩))
  | graphSem hG => exact .inr (.inl ⟨(S.ok _ hG).sem.kind, _, hG, rfl⟩)
  | link hG a => exact .inr (.inr (.inl ⟨((S.ok _ hG).linksOk _ a).node.kind, _, hG, .inr (.inl ⟨_, a, rfl⟩)⟩))
  | linkSem hG a =>
    exact .inr (.inr (.inr (.inr (.inr (.inl ⟨((S.ok _ hG).linksOk _ a).sem.kind, _, hG, _, a, rfl⟩)))))
  | linkPose hG a b =>
    have := (((S.ok _ hG).linksOk _ a).pose.mem b).1
    simp [this]
  | inertia hG a b =>
    have := (((S.ok _ hG).linksOk _ a).inertia_mem b).1
    simp [this]
  | solid hG a b =>
    exact .inr (.inr (.inl ⟨(((S.ok _ hG).linksOk _ a).solids _ b).node.kind, _, hG, .inr (.inr ⟨_, a, _, b, .inl rfl⟩)⟩))
  | geom hG a b =>
    exact .inr (.inr (.inl ⟨(((S.ok _ hG).linksOk _ a).solids _ b).geom.kind, _, hG, .inr (.inr ⟨_, a, _, b, .inr rfl⟩)⟩))
  | shape hG a b c =>
    obtain ⟨⟨q, e, hq⟩, -⟩ := (((S.ok _ hG).linksOk _ a).solids _ b).shape_mem c
    rcases hq with rfl | rfl | rfl <;> simp [e]
  | mat hG a b c =>
    have := ((((S.ok _ hG).linksOk _ a).solids _ b).mat_mem c).1
    simp [this]
  | ref hG a b c =>
    obtain ⟨id, r1, r2, t, -, -, -, e, q1, q2, -⟩ := (((S.ok _ hG).linksOk _ a).solids _ b).ref_mem c
    exact .inr (.inr (.inr (.inl ⟨e.kind, _, hG, .inr ⟨_, a, _, b, c⟩⟩)))
  | refRel hG a b c d =>
    have d' := d
    obtain ⟨id, r1, r2, t, -, -, -, e, q1, q2, -⟩ := (((S.ok _ hG).linksOk _ a).solids _ b).ref_mem c
    rw [e.parts] at d
    simp only [List.mem_cons, List.not_mem_nil, or_false] at d
    refine .inr (.inr (.inr (.inr (.inl ⟨?_, _, hG, .inr ⟨_, a, _, b, _, c, d'⟩⟩))))
    rcases d with rfl | rfl
    · exact q1.kind
    · exact q2.kind
  | joint hG a => exact .inr (.inr (.inr (.inl ⟨((S.ok _ hG).jointsOk _ a).edge.kind, _, hG, .inl ⟨_, a, rfl⟩⟩)))
  | rel hG a b =>
    obtain ⟨dr, t, s, ts, ax, -, -, r, -, sm, po⟩ := ((S.ok _ hG).jointsOk _ a).rels _ b
    exact .inr (.inr (.inr (.inr (.inl ⟨r.kind, _, hG, .inl ⟨_, a, _, b, rfl⟩⟩))))
  | relSem hG a b c =>
    obtain ⟨dr, t, s, ts, ax, -, -, r, -, sm, po⟩ := ((S.ok _ hG).jointsOk _ a).rels _ b
    have rp := r.parts
    rw [rp] at c
    cases List.mem_singleton.1 c
    exact .inr (.inr (.inr (.inr (.inr (.inr (.inl ⟨sm.kind, _, hG, _, a, _, b, rp⟩))))))
  | relPose hG a b c d =>
    obtain ⟨dr, t, s, ts, ax, -, -, r, -, sm, po⟩ := ((S.ok _ hG).jointsOk _ a).rels _ b
    rw [r.parts] at c
    cases List.mem_singleton.1 c
    rw [sm.parts] at d
    have := (po.mem d).1
    simp [this]

theorem lt {o : Ref} (hk : (h.get o).kind ≠ .conceptual) : o < h.size := S.reach.good.inv.lt_of_kind hk

theorem node_cases {o : Ref} (ho : w + 3 ≤ o) (hk : (h.get o).kind = .node) : ∃ G ∈ T :: gs,
    o = G.k ∨ (∃ r ∈ G.ls, o = r.x) ∨ ∃ r ∈ G.ls, ∃ s ∈ r.ss, o = s.y ∨ o = s.g := by
  have := S.item_kind (S.item ho (S.lt (by simp [hk])) (by simp [hk]) (by simp [hk]))
  simpa only [hk, reduceCtorEq, Kind.semantic.injEq, and_false, false_and, true_and, or_false, false_or] using this

theorem edge_cases {o : Ref} (ho : w + 3 ≤ o) (hk : (h.get o).kind = .edge) : ∃ G ∈ T :: gs,
    (∃ j ∈ G.js, o = j.e) ∨ ∃ r ∈ G.ls, ∃ s ∈ r.ss, o ∈ s.es := by
  have := S.item_kind (S.item ho (S.lt (by simp [hk])) (by simp [hk]) (by simp [hk]))
  simpa only [hk, reduceCtorEq, Kind.semantic.injEq, and_false, false_and, true_and, or_false, false_or] using this

theorem rel_cases {o : Ref} (ho : w + 3 ≤ o) (hk : (h.get o).kind = .relation) : ∃ G ∈ T :: gs,
    (∃ j ∈ G.js, ∃ p ∈ j.rs, o = p.2) ∨ ∃ r ∈ G.ls, ∃ s ∈ r.ss, ∃ e ∈ s.es, o ∈ h.parts e := by
  have := S.item_kind (S.item ho (S.lt (by simp [hk])) (by simp [hk]) (by simp [hk]))
  simpa only [hk, reduceCtorEq, Kind.semantic.injEq, and_false, false_and, true_and, or_false, false_or] using this

theorem kinLink_cases {o : Ref} (ho : w + 3 ≤ o) (hk : (h.get o).kind = .semantic .kinLink) :
    ∃ G ∈ T :: gs, ∃ r ∈ G.ls, o = r.sv := by
  have := S.item_kind (S.item ho (S.lt (by simp [hk])) (by simp [hk]) (by simp [hk]))
  simpa only [hk, reduceCtorEq, Kind.semantic.injEq, and_false, false_and, true_and, or_false, false_or] using this

theorem kinJoint_cases {o : Ref} (ho : w + 3 ≤ o) (hk : (h.get o).kind = .semantic .kinJoint) :
    ∃ G ∈ T :: gs, ∃ j ∈ G.js, ∃ p ∈ j.rs, h.parts p.2 = [o] := by
  have := S.item_kind (S.item ho (S.lt (by simp [hk])) (by simp [hk]) (by simp [hk]))
  simpa only [hk, reduceCtorEq, Kind.semantic.injEq, and_false, false_and, true_and, or_false, false_or] using this

theorem entity_cases {o : Ref} (ho : w + 3 ≤ o) (hk : (h.get o).kind = .semantic .cognitiveEntity) : o = cs := by
  have := S.item_kind (S.item ho (S.lt (by simp [hk])) (by simp [hk]) (by simp [hk]))
  simpa only [hk, reduceCtorEq, Kind.semantic.injEq, and_false, false_and, and_true, or_false, false_or] using this

theorem kinGraph_cases {o : Ref} (ho : w + 3 ≤ o) (hk : (h.get o).kind = .semantic .kinGraph) : ∃ G ∈ T :: gs, o = G.s0 := by
  have := S.item_kind (S.item ho (S.lt (by simp [hk])) (by simp [hk]) (by simp [hk]))
  simpa only [hk, reduceCtorEq, Kind.semantic.injEq, and_false, false_and, true_and, or_false, false_or] using this

/-! ## Where the objects are -/

theorem part_parent {c o : Ref} (ho : o ∈ h.parts c) : (h.get o).parent = some c := S.reach.good.inv.parts_parent ho

theorem top_parent : (h.get T.k).parent = some (w + 2) := S.part_parent (by rw [S.root.parts]; simp)
theorem cs_parent : (h.get cs).parent = some (w + 2) := S.part_parent (by rw [S.root.parts]; simp)
theorem top_new : w + 3 ≤ T.k := S.below (by omega) S.top_parent
theorem mem_graph {G : GraphRec} (hG : G ∈ T :: gs) {o : Ref} (ho : o ∈ G.l) : (h.get o).parent = some G.k :=
  S.part_parent (by rw [(S.ok G hG).node.parts]; simp [ho])
theorem sub_parent {G : GraphRec} (hG : G ∈ gs) : (h.get G.k).parent = some T.k :=
  S.mem_graph (.head _) ((S.mem_l (.head _)).2 (.inr (.inr (.inr (by rw [S.inner]; exact List.mem_map_of_mem hG)))))
theorem k_new {G : GraphRec} (hG : G ∈ T :: gs) : w + 3 ≤ G.k := by
  rcases List.mem_cons.1 hG with rfl | hG
  · exact S.top_new
  · exact S.below (by have := S.top_new; omega) (S.sub_parent hG)
theorem s0_parent {G : GraphRec} (hG : G ∈ T :: gs) : (h.get G.s0).parent = some G.k :=
  S.part_parent (by rw [(S.ok G hG).node.parts]; simp)
theorem link_parent {G : GraphRec} (hG : G ∈ T :: gs) {r : LinkRec} (hr : r ∈ G.ls) : (h.get r.x).parent = some G.k :=
  S.mem_graph hG ((S.mem_l hG).2 (.inl ⟨r, hr, rfl⟩))
theorem joint_parent {G : GraphRec} (hG : G ∈ T :: gs) {j : JointRec} (hj : j ∈ G.js) : (h.get j.e).parent = some G.k :=
  S.mem_graph hG ((S.mem_l hG).2 (.inr (.inr (.inl ⟨j, hj, rfl⟩))))
theorem ref_parent {G : GraphRec} (hG : G ∈ T :: gs) {r : LinkRec} (hr : r ∈ G.ls) {s : SolidRec} (hs : s ∈ r.ss) {e : Ref}
    (he : e ∈ s.es) : (h.get e).parent = some G.k := S.mem_graph hG ((S.mem_l hG).2 (.inr (.inl ⟨r, hr, s, hs, he⟩)))
theorem sv_parent {G : GraphRec} (hG : G ∈ T :: gs) {r : LinkRec} (hr : r ∈ G.ls) : (h.get r.sv).parent = some r.x :=
  S.part_parent (by rw [((S.ok G hG).linksOk r hr).node.parts]; simp)
theorem y_parent {G : GraphRec} (hG : G ∈ T :: gs) {r : LinkRec} (hr : r ∈ G.ls) {s : SolidRec} (hs : s ∈ r.ss) :
    (h.get s.y).parent = some r.x :=
  S.part_parent (by rw [((S.ok G hG).linksOk r hr).node.parts]; simp only [List.mem_cons, List.mem_append, List.mem_map]; exact .inr (.inr ⟨s, hs, rfl⟩))
theorem g_parent {G : GraphRec} (hG : G ∈ T :: gs) {r : LinkRec} (hr : r ∈ G.ls) {s : SolidRec} (hs : s ∈ r.ss) :
    (h.get s.g).parent = some s.y :=
  S.part_parent (by rw [(((S.ok G hG).linksOk r hr).solids s hs).node.parts]; simp)
theorem rel_parent {G : GraphRec} (hG : G ∈ T :: gs) {j : JointRec} (hj : j ∈ G.js) {p : JointRel × Ref} (hp : p ∈ j.rs) :
    (h.get p.2).parent = some j.e :=
  S.part_parent (by rw [((S.ok G hG).jointsOk j hj).edge.parts]; exact List.mem_map_of_mem hp)

theorem link_new {G : GraphRec} (hG : G ∈ T :: gs) {r : LinkRec} (hr : r ∈ G.ls) : w + 3 ≤ r.x :=
  S.below (by have := S.k_new hG; omega) (S.link_parent hG hr)
theorem joint_new {G : GraphRec} (hG : G ∈ T :: gs) {r : JointRec} (hr : r ∈ G.js) : w + 3 ≤ r.e :=
  S.below (by have := S.k_new hG; omega) (S.joint_parent hG hr)
theorem y_new {G : GraphRec} (hG : G ∈ T :: gs) {r : LinkRec} (hr : r ∈ G.ls) {s : SolidRec} (hs : s ∈ r.ss) : w + 3 ≤ s.y :=
  S.below (by have := S.link_new hG hr; omega) (S.y_parent hG hr hs)
theorem g_new {G : GraphRec} (hG : G ∈ T :: gs) {r : LinkRec} (hr : r ∈ G.ls) {s : SolidRec} (hs : s ∈ r.ss) : w + 3 ≤ s.g :=
  S.below (by have := S.y_new hG hr hs; omega) (S.g_parent hG hr hs)
theorem ref_new {G : GraphRec} (hG : G ∈ T :: gs) {r : LinkRec} (hr : r ∈ G.ls) {s : SolidRec} (hs : s ∈ r.ss) {e : Ref}
    (he : e ∈ s.es) : w + 3 ≤ e := S.below (by have := S.k_new hG; omega) (S.ref_parent hG hr hs he)
theorem rel_new {G : GraphRec} (hG : G ∈ T :: gs) {j : JointRec} (hj : j ∈ G.js) {p : JointRel × Ref} (hp : p ∈ j.rs) :
    w + 3 ≤ p.2 := S.below (by have := S.joint_new hG hj; omega) (S.rel_parent hG hj hp)

end Scene
end Rei
