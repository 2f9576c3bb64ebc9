import Verif.Props.CogniSdf

/-!
# C94: from a CogniLang file with nested graphs to the SDF model
-/
namespace Rei

/-- What stands for a pair of relations in an export. -/
inductive Block (h : Heap) (pre : Str) (i o : Ref) : List Xml → Prop
  | joint {v x} : (h.get o).endpoint = some v → ¬ HasKinGraph h v → JointShown h pre i o x → Block h pre i o [x]
  | nested {v e c x els ws} : (h.get o).endpoint = some v → HasKinGraph h v → BaseLink h v c →
      ConnectShown h pre i o e c x → AllInside h v els → Exported h els (pre ++ (h.get e).idName) ws →
      Block h pre i o (x :: ws)

theorem blocks_of {h : Heap} {pre : Str} : ∀ {ps : List (Ref × Ref)} {zs : List Xml}, ExportedJoints h pre ps zs →
    ∃ bs, zs = bs.flatten ∧ List.Forall₂ (fun p b => Block h pre p.1 p.2 b) ps bs
  | _, _, .nil => ⟨[], rfl, .nil⟩
  | _, _, .joint a b c q => by
    obtain ⟨bs, rfl, f⟩ := blocks_of q
    exact ⟨_ :: bs, rfl, .cons (.joint a b c) f⟩
  | _, _, .nested a b c d e f q => by
    obtain ⟨bs, rfl, F⟩ := blocks_of q
    exact ⟨_ :: bs, by simp, .cons (.nested a b c d e f) F⟩

theorem allInside_exists {E : Env} {h : Heap} (R : Reach E h) (v : Ref) : ∃ els, AllInside h v els := by
  classical
  refine ⟨(List.range h.size).filter fun x => decide (Inside h v x ∧
    ((h.get x).kind = .semantic .kinLink ∨ (h.get x).kind = .semantic .kinJoint)), List.nodup_range.filter _, fun x => ?_⟩
  rw [List.mem_filter, List.mem_range, decide_eq_true_eq]
  refine ⟨fun q => q.2, fun q => ⟨R.good.inv.lt_of_kind ?_, q⟩⟩
  rcases q.2 with k | k <;> simp [k]

namespace Scene

variable {E : Env} {h : Heap} {nm : Str} {f : EntityDecl} {g : Str} {body : Items} {ps : Params} {w cs : Ref}
  {T : GraphRec} {gs : List GraphRec} (S : Scene E h nm f g body ps w cs T gs) (B : IsAssembly f g body ps)
include S

theorem ne_top {G : GraphRec} (hG : G ∈ gs) : G ≠ T := fun e => by
  have a := (S.nested_name hG).2
  rw [e, S.top_path] at a
  simp at a

theorem within_new {a x : Ref} (ha : w + 3 ≤ a) (q : Within h a x) : w + 3 ≤ x := by
  have anc : ∀ {a x : Ref}, Anc h a x → w + 3 ≤ a → w + 3 ≤ x := by
    intro a x q
    induction q with
    | direct e => exact fun ha => S.below (by omega) e
    | up e _ ih => exact fun ha => S.below (by have := ih ha; omega) e
  rcases q with rfl | q
  · exact ha
  · exact anc q ha

include B

/-- A nested graph does not contain another one. -/
theorem only_within {G G' : GraphRec} (hG : G ∈ gs) (hG' : G' ∈ T :: gs) (q : Within h G.k G'.k) : G' = G := by
  rcases S.within_graph hG' q with e | e | e
  · exact S.k_inj B hG' (.tail _ hG) e.symm
  · exact absurd (S.k_inj B (.tail _ hG) (.head _) e) (S.ne_top hG)
  · have := S.k_new (.tail T hG)
    omega

theorem inside_link {G : GraphRec} (hG : G ∈ gs) {x : Ref} (hk : (h.get x).kind = .semantic .kinLink) :
    Inside h G.k x ↔ ∃ r ∈ G.ls, x = r.sv := by
  have hG0 : G ∈ T :: gs := .tail _ hG
  constructor
  · rintro ⟨n, q⟩
    have q := q.within S.reach
    have new : w + 3 ≤ x := S.within_new (S.k_new hG0) q
    obtain ⟨G', hG', r, hr, rfl⟩ := S.kinLink_cases new hk
    rcases within_step q with e | ⟨p, e, q⟩
    · rw [e, (S.ok G hG0).node.kind] at hk
      cases hk
    · rw [S.sv_parent hG' hr] at e
      cases e
      rcases within_step q with e | ⟨p, e, q⟩
      · exact absurd e.symm (S.k_ne_x B hG' hG0 hr)
      · rw [S.link_parent hG' hr] at e
        cases e
        cases S.only_within B hG hG' q
        exact ⟨r, hr, rfl⟩
  · rintro ⟨r, hr, rfl⟩
    have O := (S.ok G hG0).linksOk r hr
    exact ⟨2, .step (.step .start (S.child (S.link_parent hG0 hr)) (by rw [O.node.kind]; rfl)) (S.child (S.sv_parent hG0 hr))
      (by rw [O.sem.kind]; rfl)⟩

theorem inside_joint {G : GraphRec} (hG : G ∈ gs) {x : Ref} (hk : (h.get x).kind = .semantic .kinJoint) :
    Inside h G.k x ↔ ∃ j ∈ G.js, ∃ p ∈ j.rs, h.parts p.2 = [x] := by
  have hG0 : G ∈ T :: gs := .tail _ hG
  constructor
  · rintro ⟨n, q⟩
    have q := q.within S.reach
    have new : w + 3 ≤ x := S.within_new (S.k_new hG0) q
    obtain ⟨G', hG', j, hj, p, hp, ex⟩ := S.kinJoint_cases new hk
    have gk := (S.ok G hG0).node.kind
    rcases within_step q with e | ⟨p, e, q⟩
    · rw [e, gk] at hk
      cases hk
    · rw [(S.sem_of hG' hj hp ex).2] at e
      cases e
      rcases within_step q with e | ⟨p, e, q⟩
      · have := S.rel_kind hG' hj hp
        rw [e, gk] at this
        cases this
      · rw [S.rel_parent hG' hj hp] at e
        cases e
        rcases within_step q with e | ⟨p, e, q⟩
        · have := ((S.ok G' hG').jointsOk j hj).edge.kind
          rw [e, gk] at this
          cases this
        · rw [S.joint_parent hG' hj] at e
          cases e
          cases S.only_within B hG hG' q
          exact ⟨j, hj, _, hp, ex⟩
  · rintro ⟨j, hj, p, hp, ex⟩
    obtain ⟨-, px⟩ := S.sem_of hG0 hj hp ex
    have rk := S.rel_kind hG0 hj hp
    have ek := ((S.ok G hG0).jointsOk j hj).edge.kind
    exact ⟨3, .step (.step (.step .start (S.child (S.joint_parent hG0 hj)) (by rw [ek]; rfl))
      (S.child (S.rel_parent hG0 hj hp)) (by rw [rk]; rfl)) (S.child px) (by rw [hk]; rfl)⟩

theorem sel_inside {G : GraphRec} (hG : G ∈ gs) {els : List Ref} (A : AllInside h G.k els) : Selects h G els where
  nodup := A.1
  mem x hx := by
    rw [A.2]
    rcases hx with hk | hk
    · rw [S.inside_link B hG hk]
      constructor
      · exact fun q => .inl q.1
      · rintro (q | ⟨j, hj, p, hp, e⟩)
        · exact ⟨q, .inl hk⟩
        · rw [(S.sem_of (.tail _ hG) hj hp e).1] at hk
          cases hk
    · rw [S.inside_joint B hG hk]
      constructor
      · exact fun q => .inr q.1
      · rintro (⟨r, hr, rfl⟩ | q)
        · rw [((S.ok G (.tail _ hG)).linksOk r hr).sem.kind] at hk
          cases hk
        · exact ⟨q, .inr hk⟩

/-- The base links of a nested graph. -/
theorem base_iff {G : GraphRec} (hG : G ∈ gs) {c : Ref} :
    BaseLink h G.k c ↔ ∃ r ∈ G.ls, c = r.sv ∧ IsBase G.d.body.joints r.d := by
  have hG0 : G ∈ T :: gs := .tail _ hG
  constructor
  · rintro ⟨hi, hk, hd⟩
    obtain ⟨r, hr, rfl⟩ := (S.inside_link B hG hk).1 hi
    refine ⟨r, hr, rfl, fun j hj o ho dir e => ?_⟩
    rw [← (S.ok G hG0).joints] at hj
    obtain ⟨j, hj', rfl⟩ := List.mem_map.1 hj
    clear hj
    have hj := hj'
    rw [← ((S.ok G hG0).jointsOk j hj).decls] at ho
    obtain ⟨q, hq, rfl⟩ := List.mem_map.1 ho
    obtain ⟨t, et, -, -, ht⟩ := S.rel_end B hG0 hj hq
    obtain ⟨s, ts, a, -, es, -, sm, -⟩ := S.joint_on hG0 hj hq
    have own := (S.sound B hG0).names _ (S.link_name hG0 hr)
    refine hd s ((S.inside_joint B hG sm.kind).2 ⟨j, hj, q, hq, es⟩) sm.kind ⟨q.2, j.e, q.2, t, (S.sem_of hG0 hj hq es).2,
      S.rel_parent hG0 hj hq, (S.mem_outgoing hG0 hj).2 ⟨q, hq, rfl, dir⟩, et, ?_⟩
    rcases ht with ⟨e', -⟩ | ⟨-, r', hr', er, rfl⟩ | ⟨-, e', -⟩
    · exact absurd (e.symm.trans e') own.1
    · rw [← S.link_inj B hG0 hr' hr (er.trans e)]
      exact S.sv_parent hG0 hr'
    · exact absurd e' (S.ne_top hG)
  · rintro ⟨r, hr, rfl, base⟩
    have O := (S.ok G hG0).linksOk r hr
    refine ⟨(S.inside_link B hG O.sem.kind).2 ⟨r, hr, rfl⟩, O.sem.kind, ?_⟩
    rintro s hs hk ⟨r1, e1, o, v, p1, p2, ho, ev, pl⟩
    obtain ⟨j, hj, p, hp, ex⟩ := (S.inside_joint B hG hk).1 hs
    rw [(S.sem_of hG0 hj hp ex).2] at p1
    cases p1
    rw [S.rel_parent hG0 hj hp] at p2
    cases p2
    obtain ⟨q, hq, rfl, dir⟩ := (S.mem_outgoing hG0 hj).1 ho
    obtain ⟨t, et, en, -⟩ := S.rel_end B hG0 hj hq
    rw [ev] at et
    cases et
    rw [S.sv_parent hG0 hr] at pl
    cases pl
    rw [O.node.name] at en
    exact base j.d (S.joint_mem hG0 hj) q.1 (S.jrel_mem hG0 hj hq) dir en.symm

theorem placed {G : GraphRec} (hG : G ∈ gs) {s : Ref} (hs : Inside h G.k s) (hk : (h.get s).kind = .semantic .kinJoint) :
    JointPlaced h s := by
  have hG0 : G ∈ T :: gs := .tail _ hG
  obtain ⟨j, hj, p, hp, ex⟩ := (S.inside_joint B hG hk).1 hs
  refine ⟨p.2, j.e, (S.sem_of hG0 hj hp ex).2, S.rel_parent hG0 hj hp, ((S.ok G hG0).jointsOk j hj).edge.kind, fun o ho => ?_⟩
  obtain ⟨q, hq, rfl, -⟩ := (S.mem_outgoing hG0 hj).1 ho
  obtain ⟨t, et, -⟩ := S.rel_end B hG0 hj hq
  rw [et]
  simp

theorem ready {G : GraphRec} (hG : G ∈ T :: gs) {els : List Ref} (Q : Selects h G els) : ExportReady h els where
  links l hl hk := S.sel_readable B hG Q hl hk
  sound := S.sel_sound B hG Q
  joints i o P := S.sel_joint B hG Q P
  placed v L s hs hk := by
    obtain ⟨-, j, hj, o, ho, G', hG', -, -, rfl⟩ := S.sel_leads B hG Q L
    exact S.placed B hG' hs hk
  bases v L := by
    obtain ⟨rfl, j, hj, o, ho, G', hG', out, en, rfl⟩ := S.sel_leads B hG Q L
    obtain ⟨p, hp, e⟩ := S.nested_of hG'
    have en' : G'.d.name = p.1 := by rw [e]; rfl
    have jm := S.joint_mem hG hj
    rw [S.top_body] at jm
    obtain ⟨l, hl, base⟩ := B.bases p hp ⟨j.d, jm, o.1, S.jrel_mem hG hj ho, out, en.symm.trans en'⟩
    have el : G'.d.body = p.2 := by rw [e]
    rw [← el] at hl base
    obtain ⟨r, hr, rfl⟩ := S.link_of (.tail _ hG') hl
    exact ⟨r.sv, (S.base_iff B hG').2 ⟨r, hr, rfl, base⟩⟩
  ends v L := by
    obtain ⟨-, j, hj, o, ho, G', hG', -, -, rfl⟩ := S.sel_leads B hG Q L
    rw [(S.ok G' (.tail _ hG')).node.kind]
    rfl

theorem nests (d : Nat) : NestsBelow h (d + 2) (convertList h (w + 2)) := by
  refine ⟨S.ready B (.head _) S.sel_top, fun v L => ?_⟩
  obtain ⟨-, j, hj, o, ho, G, hG, -, -, rfl⟩ := S.sel_leads B (.head _) S.sel_top L
  obtain ⟨els, A⟩ := allInside_exists S.reach G.k
  have Q := S.sel_inside B hG A
  refine ⟨els, A, S.ready B (.tail _ hG) Q, fun v L => ?_⟩
  exact absurd (S.sel_leads B (.tail _ hG) Q L).1 (S.ne_top hG)

/-- The parts of an export. -/
theorem exported_parts (inj : Function.Injective E.sha) {G : GraphRec} (hG : G ∈ T :: gs) {els : List Ref} (Q : Selects h G els)
    {pre : Str} {xs : List Xml} (X : Exported h els pre xs) :
    ∃ ys bs, List.Forall₂ (fun r y => LinkElement h pre r.sv r.x y) G.ls ys ∧
      List.Forall₂ (fun q b => Block h pre q.2.1.2 q.2.2.2 b) (pairsOf G.js) bs ∧ xs.Perm (ys ++ bs.flatten) := by
  cases X with
  | intro a1 mem nd a2 =>
    obtain ⟨bs, rfl, a3⟩ := blocks_of a2
    have pp := (List.perm_ext_iff_of_nodup (S.pairs_nodup hG) (nd (S.one_each B hG Q))).2 fun p => by
      rw [show p = (p.1, p.2) from rfl, mem, S.joint_pair B hG Q inj]
    obtain ⟨ys', f1, q1⟩ := List.perm_comp_forall₂ (S.sel_links B hG Q) a1
    obtain ⟨bs', f2, q2⟩ := List.perm_comp_forall₂ pp a3
    refine ⟨ys', bs', ?_, List.forall₂_map_left_iff.1 f2, (q1.append q2.flatten).symm⟩
    have := forall₂_map_of (φ := id) (Q := fun r y => LinkElement h pre r.sv r.x y) (List.forall₂_map_left_iff.1 f1) (by
      rintro r hr y ⟨n, pn, X⟩
      rw [S.sv_parent hG hr] at pn
      cases pn
      exact X)
    rwa [List.map_id] at this

/-- What the export of a graph without graphs in it says. -/
theorem says_flat (inj : Function.Injective E.sha) {G : GraphRec} (hG : G ∈ gs) {els : List Ref} (A : AllInside h G.k els)
    {pre : Str} {ws : List Xml} (X : Exported h els pre ws) :
    ∃ ys zs, List.Forall₂ (SaysLink pre true ps G.d) G.d.body.links ys ∧
      List.Forall₂ (fun p y => SaysJoint pre ps p.1 p.2.1 p.2.2 y) (jointPairs G.d.body.joints) zs ∧ ws.Perm (ys ++ zs) := by
  have hG0 : G ∈ T :: gs := .tail _ hG
  have Q := S.sel_inside B hG A
  obtain ⟨ys, bs, f1, f2, p⟩ := S.exported_parts B inj hG0 Q X
  have single : ∃ zs : List Xml, bs.flatten = zs ∧ List.Forall₂ (fun q z => JointShown h pre q.2.1.2 q.2.2.2 z) (pairsOf G.js) zs := by
    have all : ∀ q ∈ pairsOf G.js, ∀ b, Block h pre q.2.1.2 q.2.2.2 b → ∃ x, b = [x] ∧ JointShown h pre q.2.1.2 q.2.2.2 x := by
      rintro ⟨j, i, o⟩ hm b X
      cases X with
      | joint _ _ X => exact ⟨_, rfl, X⟩
      | nested ev hg _ _ _ _ =>
        have P : JointPair h els i.2 o.2 := (S.joint_pair B hG0 Q inj).2 (List.mem_map_of_mem (f := fun q => (q.2.1.2, q.2.2.2)) hm)
        exact absurd (S.sel_leads B hG0 Q ⟨_, _, P, ev, hg⟩).1 (S.ne_top hG)
    clear p
    generalize pairsOf G.js = l at f2 all
    induction f2 with
    | nil => exact ⟨[], rfl, .nil⟩
    | cons a _ ih =>
      obtain ⟨x, rfl, X⟩ := all _ (by simp) _ a
      obtain ⟨zs, rfl, F⟩ := ih fun q hq => all q (by simp [hq])
      exact ⟨_, rfl, .cons X F⟩
  obtain ⟨zs, rfl, f3⟩ := single
  refine ⟨ys, bs.flatten, ?_, ?_, p⟩
  · rw [← (S.ok G hG0).links]
    exact forall₂_map_of f1 fun r hr y X => S.says_link B hG0 hr X (by simpa using hG)
  · rw [← (S.ok G hG0).joints, jointPairs_pairsOf fun j hj => ((S.ok G hG0).jointsOk j hj).decls]
    refine forall₂_map_of f3 ?_
    rintro ⟨j, i, o⟩ hm x X
    obtain ⟨hj, hi, ho, -⟩ := mem_pairsOf.1 hm
    exact S.says_joint B hG0 hj hi ho X

/-- What stands for a pair of relations of the outer graph. -/
theorem says_pair (inj : Function.Injective E.sha) {j : JointRec} (hj : j ∈ T.js) {i o : JointRel × Ref} (hi : i ∈ j.rs)
    (ho : o ∈ j.rs) {b : List Xml} (X : Block h [] i.2 o.2 b) : SaysPair ps [f.name, g] body.graphs j.d i.1 o.1 b := by
  have hT : T ∈ T :: gs := .head _
  obtain ⟨t, et, en, -, ht⟩ := S.rel_end B hT hj ho
  cases X with
  | joint ev ng X =>
    refine .joint (fun p hp e => ?_) (S.says_joint B hT hj hi ho X)
    rw [ev] at et
    cases et
    obtain ⟨G, hG, eG⟩ := S.of_nested hp
    have eG : G.d.name = p.1 := by rw [eG]; rfl
    rcases ht with ⟨e', -⟩ | ⟨-, r, hr, er, -⟩ | ⟨-, -, G', hG', eG', rfl⟩
    · exact (B.sound.names p.1 (List.mem_append_right _ (List.mem_map_of_mem hp))).1 (e.trans e')
    · exact S.link_ne_graph B hr hG (er.trans (e.symm.trans eG.symm))
    · exact ng (S.has_graph (.tail _ hG'))
  | nested ev hg base C A X =>
    rw [ev] at et
    cases et
    rcases ht with ⟨-, rfl⟩ | ⟨-, r, hr, -, rfl⟩ | ⟨-, -, G, hG, eG, rfl⟩
    · obtain ⟨G', hG', a⟩ := S.graph_of (Nat.le_refl _) hg
      have := S.k_new hG'
      omega
    · obtain ⟨G', hG', a⟩ := S.graph_of (by have := S.link_new hT hr; omega) hg
      exact absurd a.symm (S.k_ne_x B hT hG' hr)
    · obtain ⟨p, hp, e⟩ := S.nested_of hG
      obtain ⟨rfl, con⟩ := S.says_connection B hT hj hi ho C
      obtain ⟨r, hr, rfl, ib⟩ := (S.base_iff B hG).1 base
      rw [((S.ok G (.tail _ hG)).linksOk r hr).sem.name] at con
      rw [List.nil_append, ((S.ok T hT).jointsOk j hj).edge.name] at X
      obtain ⟨ys, zs, f1, f2, pm⟩ := S.says_flat B inj hG A X
      have hl := S.link_mem (.tail _ hG) hr
      have e1 : p.1 = o.1.ref := by rw [← eG, e]; rfl
      rw [e] at f1 f2 hl ib
      have : (o.1.ref, p.2) ∈ body.graphs := by rw [← e1]; exact hp
      rw [e1] at f1
      exact .graph this hl ib con f1 f2 pm

end Scene

/-- **C94.** A file with one kinematic graph of links, joints and kinematic graphs of links and joints, under the conditions of
`IsAssembly`: when a reader accepts it, the conversion of its root succeeds for every schedule and every choice of base
links, and the document is one model, named after the entity, with one link for each link declared in the outer graph,
and, for each pair of a relation into and a relation out of a joint declared there, a joint, or, if the second relation
leads to a nested graph, a joint to a base link of this graph and, under a prefix, the links and joints of this graph,
as the file says; and nothing else. -/
theorem C94_assembly_to_sdf {E : Env} (inj : Function.Injective E.sha) {h h' : Heap} (R : Reach E h) {nm : Str} {ck : Clock}
    {f : EntityDecl} {I : FileIcon} (hr : readFile E nm ck f h = (.ok I, h')) {g : Str} {body : Items} {ps : Params}
    (B : IsAssembly f g body ps) :
    ∃ x, I.root = some x ∧ ∀ (W : World) (d : Nat), W.Fair E → W.h = h' → ∃ ys bs xs u,
      List.Forall₂ (SaysLink [] false ps ⟨[f.name, g], body⟩) body.links ys ∧
      List.Forall₂ (fun p b => SaysPair ps [f.name, g] body.graphs p.1 p.2.1 p.2.2 b) (jointPairs body.joints) bs ∧
      xs.Perm (ys ++ bs.flatten) ∧
      W.convert (d + 2) x {} = (.ok (), { sdf := { models := [(f.name, xs)], cache := [] }, uses := u, shared := [] }) := by
  obtain ⟨rt, cs, T, gs, S⟩ := scene_of_file R hr B
  have hT : T ∈ T :: gs := .head _
  refine ⟨h.size + 2, rt, fun W d F e => ?_⟩
  subst e
  obtain ⟨els, xs, u, perm, X, run⟩ := C86_convert F S.root_lt S.root.kind S.sel_entity (S.nests B d)
  have Q : Selects W.h T els := ⟨perm.nodup_iff.2 S.sel_top.nodup, fun x k => perm.mem_iff.trans (S.sel_top.mem x k)⟩
  obtain ⟨ys, bs, f1, f2, p⟩ := S.exported_parts B inj hT Q X
  refine ⟨ys, bs, xs, u, ?_, ?_, p, ?_⟩
  · have := (S.ok T hT).links
    rw [S.top_body] at this
    rw [← this, ← S.top]
    exact forall₂_map_of f1 fun r hr y X => S.says_link B hT hr X (by simp)
  · have := (S.ok T hT).joints
    rw [S.top_body] at this
    rw [← this, jointPairs_pairsOf fun j hj => ((S.ok T hT).jointsOk j hj).decls]
    refine forall₂_map_of f2 ?_
    rintro ⟨j, i, o⟩ hm b X
    obtain ⟨hj, hi, ho, -⟩ := mem_pairsOf.1 hm
    exact S.says_pair B inj hj hi ho X
  · rw [run, S.entity.name]

end Rei
