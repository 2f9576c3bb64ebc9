import Verif.Lemmas.SceneSdf

/-!
# What the converter selects of a file
-/
namespace Rei

/-- The pairs of relations that become joints, with the relations that stand for them. -/
def pairsOf (js : List JointRec) : List (JointRec × (JointRel × Ref) × (JointRel × Ref)) :=
  js.flatMap fun j => (j.rs.filter fun i => i.1.isIn).flatMap fun i =>
    (j.rs.filter fun o => o.1.isOut && decide (o.1.ref ≠ i.1.ref)).map fun o => (j, i, o)

theorem mem_pairsOf {js : List JointRec} {q : JointRec × (JointRel × Ref) × (JointRel × Ref)} :
    q ∈ pairsOf js ↔ q.1 ∈ js ∧ q.2.1 ∈ q.1.rs ∧ q.2.2 ∈ q.1.rs ∧ q.2.1.1.isIn = true ∧ q.2.2.1.isOut = true ∧
      q.2.2.1.ref ≠ q.2.1.1.ref := by
  obtain ⟨j, i, o⟩ := q
  simp only [pairsOf, List.mem_flatMap, List.mem_map, List.mem_filter, Bool.and_eq_true, decide_eq_true_eq, Prod.mk.injEq]
  constructor
  · rintro ⟨j, a, i, ⟨b, c⟩, o, ⟨d, e, f⟩, rfl, rfl, rfl⟩
    exact ⟨a, b, d, c, e, f⟩
  · rintro ⟨a, b, d, c, e, f⟩
    exact ⟨j, a, i, ⟨b, c⟩, o, ⟨d, e, f⟩, rfl, rfl, rfl⟩

theorem jointPairs_pairsOf {js : List JointRec} (ok : ∀ j ∈ js, j.rs.map Prod.fst = j.d.rels) :
    jointPairs (js.map JointRec.d) = (pairsOf js).map fun q => (q.1.d, q.2.1.1, q.2.2.1) := by
  unfold jointPairs pairsOf
  rw [List.flatMap_map, List.map_flatMap]
  refine List.flatMap_congr fun j hj => ?_
  rw [List.map_flatMap, ← ok j hj, List.filter_map, List.flatMap_map]
  refine List.flatMap_congr fun i _ => ?_
  rw [List.filter_map, List.map_map, List.map_map]
  rfl

theorem nodeDepth_of {h : Heap} {n : Nat} {x : Ref} (q : (h.get x).kind = .node → (h.get x).depth ≤ n) :
    nodeDepthAtMost h n x = true := by
  unfold nodeDepthAtMost
  split
  · next e => exact decide_eq_true (q e)
  · rfl

/-- `els` selects the links and joints of the graph `G`. -/
structure Selects (h : Heap) (G : GraphRec) (els : List Ref) : Prop where
  nodup : els.Nodup
  mem : ∀ x, (h.get x).kind = .semantic .kinLink ∨ (h.get x).kind = .semantic .kinJoint →
    (x ∈ els ↔ (∃ r ∈ G.ls, x = r.sv) ∨ ∃ j ∈ G.js, ∃ p ∈ j.rs, h.parts p.2 = [x])

theorem DownTo.within {E : Env} {h : Heap} (R : Reach E h) {fl : Ref → Bool} {a x : Ref} {n : Nat} (q : DownTo h fl a n x) :
    Within h a x := by
  cases n with
  | zero => cases q; exact .inl rfl
  | succ n => exact .inr (q.anc (C01_containment_agrees R))

namespace Scene

variable {E : Env} {h : Heap} {nm : Str} {f : EntityDecl} {g : Str} {body : Items} {ps : Params} {w cs : Ref}
  {T : GraphRec} {gs : List GraphRec} (S : Scene E h nm f g body ps w cs T gs) (B : IsAssembly f g body ps)
include S

theorem pairs_nodup {G : GraphRec} (hG : G ∈ T :: gs) : ((pairsOf G.js).map fun q => (q.2.1.2, q.2.2.2)).Nodup := by
  have srt := S.rels_sorted hG
  unfold jointRels at srt
  rw [List.pairwise_flatMap] at srt
  obtain ⟨s1, s2⟩ := srt
  have key : (pairsOf G.js).Pairwise fun p q => p.2.1.2 < q.2.1.2 ∨ (p.2.1.2 = q.2.1.2 ∧ p.2.2.2 < q.2.2.2) := by
    unfold pairsOf
    rw [List.pairwise_flatMap]
    constructor
    · intro j hj
      have sj := s1 j hj
      rw [List.pairwise_map] at sj
      rw [List.pairwise_flatMap]
      constructor
      · intro i _
        rw [List.pairwise_map]
        exact (sj.sublist List.filter_sublist).imp fun q => .inr ⟨rfl, q⟩
      · refine (sj.sublist List.filter_sublist).imp fun q x hx y hy => ?_
        obtain ⟨_, _, rfl⟩ := List.mem_map.1 hx
        obtain ⟨_, _, rfl⟩ := List.mem_map.1 hy
        exact .inl q
    · refine s2.imp fun q x hx y hy => ?_
      obtain ⟨i, hi, hx⟩ := List.mem_flatMap.1 hx
      obtain ⟨_, _, rfl⟩ := List.mem_map.1 hx
      obtain ⟨i', hi', hy⟩ := List.mem_flatMap.1 hy
      obtain ⟨_, _, rfl⟩ := List.mem_map.1 hy
      exact .inl (q _ (List.mem_map_of_mem (List.mem_filter.1 hi).1) _ (List.mem_map_of_mem (List.mem_filter.1 hi').1))
  unfold List.Nodup
  rw [List.pairwise_map]
  refine key.imp ?_
  intro p q c e
  simp only [Prod.mk.injEq] at e
  omega

theorem child {x p : Ref} (q : (h.get x).parent = some p) : x ∈ h.subelements p := (S.reach.good.inv.mem_subelements p x).2 q

theorem rel_kind {G : GraphRec} (hG : G ∈ T :: gs) {j : JointRec} (hj : j ∈ G.js) {p : JointRel × Ref} (hp : p ∈ j.rs) :
    (h.get p.2).kind = .relation := by
  obtain ⟨d, t, _, _, ax, -, -, q, -⟩ := ((S.ok G hG).jointsOk j hj).rels p hp
  exact q.kind

/-- The joint of a joint relation. -/
theorem sem_of {G : GraphRec} (hG : G ∈ T :: gs) {j : JointRec} (hj : j ∈ G.js) {p : JointRel × Ref} (hp : p ∈ j.rs) {x : Ref}
    (e : h.parts p.2 = [x]) : (h.get x).kind = .semantic .kinJoint ∧ (h.get x).parent = some p.2 := by
  obtain ⟨s, ts, a, -, e', -, sm, -⟩ := S.joint_on hG hj hp
  rw [e] at e'
  cases e'
  exact ⟨sm.kind, S.part_parent (by rw [e]; simp)⟩

/-- Two elements of one container with the same uuid are the same. -/
theorem uuid_inj {c x y : Ref} (hx : (h.get x).parent = some c) (hy : (h.get y).parent = some c)
    (e : (h.get x).uuid = (h.get y).uuid) : x = y := by
  have inv := S.reach.good.inv
  have a := (inv.get?_subs c (h.get x).uuid x).2 ⟨hx, rfl⟩
  have b := (inv.get?_subs c (h.get x).uuid y).2 ⟨hy, e.symm⟩
  rw [a] at b
  exact Option.some.inj b

theorem rec_eq {G : GraphRec} (hG : G ∈ T :: gs) {j j' : JointRec} (hj : j ∈ G.js) (hj' : j' ∈ G.js) (e : j.e = j'.e) :
    j = j' := by
  have inv := S.reach.good.inv
  have nd : G.l.Nodup := by
    have : (h.parts G.k).Nodup := (inv.values_nodup G.k).filter _
    rw [(S.ok G hG).node.parts] at this
    exact (List.nodup_cons.1 this).2
  exact List.inj_on_of_nodup_map ((S.ok G hG).sub.nodup nd) hj hj' e

theorem rel_eq {G : GraphRec} (hG : G ∈ T :: gs) {j : JointRec} (hj : j ∈ G.js) {p q : JointRel × Ref} (hp : p ∈ j.rs)
    (hq : q ∈ j.rs) (e : p.2 = q.2) : p = q := by
  have : (h.parts j.e).Nodup := (S.reach.good.inv.values_nodup j.e).filter _
  rw [((S.ok G hG).jointsOk j hj).edge.parts] at this
  exact List.inj_on_of_nodup_map this hp hq e

theorem mem_outgoing {G : GraphRec} (hG : G ∈ T :: gs) {j : JointRec} (hj : j ∈ G.js) {o : Ref} :
    o ∈ h.outgoing j.e ↔ ∃ p ∈ j.rs, p.2 = o ∧ (p.1.dir = "->".toList ∨ p.1.dir = "--".toList) := by
  have dir : ∀ p ∈ j.rs, ((h.get p.2).direction = .outwards ∨ (h.get p.2).direction = .bidirectional) ↔
      (p.1.dir = "->".toList ∨ p.1.dir = "--".toList) := by
    intro p hp
    obtain ⟨d, t, s, ts, ax, e, -, q, -⟩ := ((S.ok G hG).jointsOk j hj).rels p hp
    rw [q.dir, e]
    cases d <;> decide
  unfold Heap.outgoing
  rw [List.mem_filter, S.mem_relations hG hj]
  constructor
  · rintro ⟨⟨p, hp, rfl⟩, q⟩
    exact ⟨p, hp, rfl, (dir p hp).1 (of_decide_eq_true q)⟩
  · rintro ⟨p, hp, rfl, q⟩
    exact ⟨⟨p, hp, rfl⟩, decide_eq_true ((dir p hp).2 q)⟩

/-! ## Selections -/

section

variable {G : GraphRec} (hG : G ∈ T :: gs) {els : List Ref} (Q : Selects h G els)
include hG Q

theorem holds {o : Ref} (H : HoldsSelected h els o) : (∃ r ∈ G.ls, o = r.x) ∨ ∃ j ∈ G.js, ∃ p ∈ j.rs, o = p.2 := by
  obtain ⟨x, hx, hk, px⟩ := H
  rcases (Q.mem x hk).1 hx with ⟨r, hr, rfl⟩ | ⟨j, hj, p, hp, e⟩
  · rw [S.sv_parent hG hr] at px
    exact .inl ⟨r, hr, (Option.some.inj px).symm⟩
  · rw [(S.sem_of hG hj hp e).2] at px
    exact .inr ⟨j, hj, p, hp, (Option.some.inj px).symm⟩

theorem holds_rel {o : Ref} (H : HoldsSelected h els o) (hk : (h.get o).kind = .relation) :
    ∃ j ∈ G.js, ∃ p ∈ j.rs, o = p.2 := by
  refine (S.holds hG Q H).resolve_left ?_
  rintro ⟨r, hr, rfl⟩
  rw [((S.ok G hG).linksOk r hr).node.kind] at hk
  cases hk

theorem holds_of {j : JointRec} (hj : j ∈ G.js) {p : JointRel × Ref} (hp : p ∈ j.rs) : HoldsSelected h els p.2 := by
  obtain ⟨s, ts, a, -, e, -, sm, -⟩ := S.joint_on hG hj hp
  exact ⟨s, (Q.mem s (.inr sm.kind)).2 (.inr ⟨j, hj, p, hp, e⟩), .inr sm.kind, S.part_parent (by rw [e]; simp)⟩

include B

omit Q in
theorem distinct_ends (inj : Function.Injective E.sha) {j : JointRec} (hj : j ∈ G.js) {i o : JointRel × Ref} (hi : i ∈ j.rs)
    (ho : o ∈ j.rs) : DistinctEnds h i.2 o.2 ↔ o.1.ref ≠ i.1.ref := by
  obtain ⟨a, ea, na, ka, ha⟩ := S.rel_end B hG hj hi
  obtain ⟨b, eb, nb, kb, hb⟩ := S.rel_end B hG hj ho
  have apart : ∀ x, w + 3 ≤ x → (h.get x).kind = .node → (h.get w).uuid ≠ (h.get x).uuid := by
    intro x hx hk e
    obtain ⟨t, ew⟩ := S.worldUid
    obtain ⟨a, t', hs, er⟩ := S.neat.uid x hx hk
    rw [ew, er] at e
    rw [← (uidOf_time inj e).1] at hs
    revert hs
    decide
  have place : ∀ {p : JointRel × Ref} {t : Ref}, ((p.1.ref = "world".toList ∧ t = w) ∨
       (p.1.ref ≠ "world".toList ∧ ∃ r ∈ G.ls, r.d.name = p.1.ref ∧ t = r.x) ∨
       (p.1.ref ≠ "world".toList ∧ G = T ∧ ∃ G' ∈ gs, G'.d.name = p.1.ref ∧ t = G'.k)) →
      (p.1.ref = "world".toList ∧ t = w) ∨ (p.1.ref ≠ "world".toList ∧ (h.get t).parent = some G.k) := by
    rintro p t (q | ⟨q, r, hr, -, rfl⟩ | ⟨q, rfl, G', hG', -, rfl⟩)
    · exact .inl q
    · exact .inr ⟨q, S.link_parent hG hr⟩
    · exact .inr ⟨q, S.sub_parent hG'⟩
  have new : ∀ t, (h.get t).parent = some G.k → w + 3 ≤ t := fun t q => S.below (by have := S.k_new hG; omega) q
  constructor
  · rintro ⟨a', b', ea', eb', ne⟩ e
    rw [ea] at ea'
    cases ea'
    rw [eb] at eb'
    cases eb'
    refine ne (congrArg (fun x => (h.get x).uuid) ?_)
    rcases ha with ⟨h1, rfl⟩ | ⟨h1, r, hr, er, rfl⟩ | ⟨h1, rfl, G1, hG1, er, rfl⟩ <;>
      rcases hb with ⟨h2, rfl⟩ | ⟨h2, r', hr', er', rfl⟩ | ⟨h2, e2, G2, hG2, er', rfl⟩
    · rfl
    · exact absurd (e.trans h1) h2
    · exact absurd (e.trans h1) h2
    · exact absurd (e.symm.trans h2) h1
    · rw [S.link_inj B hG hr hr' (er.trans (e.symm.trans er'.symm))]
    · subst e2
      exact absurd (er.trans (e.symm.trans er'.symm)) (S.link_ne_graph B hr hG2)
    · exact absurd (e.symm.trans h2) h1
    · exact absurd (er'.trans (e.trans er.symm)) (S.link_ne_graph B hr' hG1)
    · rw [S.graph_inj B hG1 hG2 (er.trans (e.symm.trans er'.symm))]
  · intro ne
    refine ⟨a, b, ea, eb, fun e => ?_⟩
    rcases place ha with ⟨h1, rfl⟩ | ⟨h1, p1⟩ <;> rcases place hb with ⟨h2, rfl⟩ | ⟨h2, p2⟩
    · exact ne (h2.trans h1.symm)
    · exact apart _ (new _ p2) kb e
    · exact apart _ (new _ p1) ka e.symm
    · have := S.uuid_inj p1 p2 e
      subst this
      exact ne (nb.symm.trans na)

theorem joint_pair (inj : Function.Injective E.sha) {i o : Ref} : JointPair h els i o ↔
    (i, o) ∈ (pairsOf G.js).map fun q => (q.2.1.2, q.2.2.2) := by
  rw [List.mem_map]
  constructor
  · intro P
    obtain ⟨j, hj, p, hp, rfl⟩ := S.holds_rel hG Q P.selIn P.kindIn
    obtain ⟨j', hj', q, hq, rfl⟩ := S.holds_rel hG Q P.selOut P.kindOut
    have := P.same
    rw [S.rel_parent hG hj hp, S.rel_parent hG hj' hq] at this
    cases S.rec_eq hG hj hj' (Option.some.inj this)
    exact ⟨(j, p, q), mem_pairsOf.2 ⟨hj, hp, hq, (S.rel_dir hG hj hp).1.1 P.dirIn, (S.rel_dir hG hj hq).2.1 P.dirOut,
      (S.distinct_ends B hG inj hj hp hq).1 P.ends⟩, rfl⟩
  · rintro ⟨⟨j, p, q⟩, hm, e⟩
    cases e
    obtain ⟨hj, hp, hq, a, b, c⟩ := mem_pairsOf.1 hm
    exact ⟨S.holds_of hG Q hj hp, S.holds_of hG Q hj hq, S.rel_kind hG hj hp, S.rel_kind hG hj hq,
      (S.rel_parent hG hj hp).trans (S.rel_parent hG hj hq).symm, (S.rel_dir hG hj hp).1.2 a, (S.rel_dir hG hj hq).2.2 b,
      (S.distinct_ends B hG inj hj hp hq).2 c⟩

theorem sel_sound : SoundSelection h els where
  complete r H hk := by
    obtain ⟨j, hj, p, hp, rfl⟩ := S.holds_rel hG Q H hk
    obtain ⟨t, et, -⟩ := S.rel_end B hG hj hp
    rw [S.rel_parent hG hj hp, et]
    exact ⟨rfl, rfl⟩
  distinct r q x y H1 H2 k1 k2 p1 p2 e := by
    obtain ⟨j, hj, p, hp, rfl⟩ := S.holds_rel hG Q H1 k1
    obtain ⟨j', hj', p', hp', rfl⟩ := S.holds_rel hG Q H2 k2
    rw [S.rel_parent hG hj hp] at p1
    cases p1
    rw [S.rel_parent hG hj' hp'] at p2
    cases p2
    exact S.uuid_inj (S.joint_parent hG hj) (S.joint_parent hG hj') e
  answered i H hk hd := by
    obtain ⟨j, hj, p, hp, rfl⟩ := S.holds_rel hG Q H hk
    obtain ⟨o, ho, hout⟩ := ((S.sound B hG).joints j.d (S.joint_mem hG hj)).answered
      ⟨p.1, S.jrel_mem hG hj hp, (S.rel_dir hG hj hp).1.1 hd⟩
    rw [← ((S.ok G hG).jointsOk j hj).decls] at ho
    obtain ⟨q, hq, rfl⟩ := List.mem_map.1 ho
    exact ⟨q.2, S.holds_of hG Q hj hq, S.rel_kind hG hj hq, (S.rel_dir hG hj hq).2.2 hout,
      (S.rel_parent hG hj hq).trans (S.rel_parent hG hj hp).symm⟩

theorem one_each : OneEach h els := by
  refine ⟨Q.nodup, ?_⟩
  intro x hx y hy kx ky e
  rcases (Q.mem x kx).1 hx with ⟨r, hr, rfl⟩ | ⟨j, hj, p, hp, ex⟩
  · rcases (Q.mem y ky).1 hy with ⟨r', hr', rfl⟩ | ⟨j', hj', p', hp', ey⟩
    · rw [S.sv_parent hG hr, S.sv_parent hG hr'] at e
      rw [(S.link_eq B hG hG hr hr' (Option.some.inj e)).2]
    · rw [S.sv_parent hG hr, (S.sem_of hG hj' hp' ey).2] at e
      have a := ((S.ok G hG).linksOk r hr).node.kind
      rw [Option.some.inj e, S.rel_kind hG hj' hp'] at a
      cases a
  · have px := (S.sem_of hG hj hp ex).2
    rcases (Q.mem y ky).1 hy with ⟨r', hr', rfl⟩ | ⟨j', hj', p', hp', ey⟩
    · rw [S.sv_parent hG hr', px] at e
      have a := ((S.ok G hG).linksOk r' hr').node.kind
      rw [← Option.some.inj e, S.rel_kind hG hj hp] at a
      cases a
    · rw [px, (S.sem_of hG hj' hp' ey).2] at e
      rw [Option.some.inj e, ey] at ex
      cases ex
      rfl

theorem sel_links : (G.ls.map LinkRec.sv).Perm (ofKind h .kinLink els) := by
  refine (List.perm_ext_iff_of_nodup ?_ (Q.nodup.filter _)).2 fun x => ?_
  · have nd := (List.nodup_append.1 (S.sound B hG).distinct).1
    rw [← (S.ok G hG).links, List.map_map] at nd
    refine List.Nodup.map_on ?_ (List.Nodup.of_map _ nd)
    intro r hr r' hr' e
    have a := S.sv_parent hG hr
    rw [e, S.sv_parent hG hr'] at a
    exact (S.link_eq B hG hG hr hr' (Option.some.inj a).symm).2
  · constructor
    · intro hx
      obtain ⟨r, hr, rfl⟩ := List.mem_map.1 hx
      have k := ((S.ok G hG).linksOk r hr).sem.kind
      exact List.mem_filter.2 ⟨(Q.mem _ (.inl k)).2 (.inl ⟨r, hr, rfl⟩), decide_eq_true k⟩
    · intro hx
      obtain ⟨hm, hk⟩ := List.mem_filter.1 hx
      have hk := of_decide_eq_true hk
      rcases (Q.mem x (.inl hk)).1 hm with ⟨r, hr, rfl⟩ | ⟨j, hj, p, hp, e⟩
      · exact List.mem_map_of_mem hr
      · rw [(S.sem_of hG hj hp e).1] at hk
        cases hk

theorem sel_readable {l : Ref} (hl : l ∈ els) (hk : (h.get l).kind = .semantic .kinLink) : ∃ n, ReadableLink h l n := by
  rcases (Q.mem l (.inl hk)).1 hl with ⟨r, a, rfl⟩ | ⟨j, hj, p, hp, e⟩
  · exact ⟨_, S.readable_link B hG a⟩
  · rw [(S.sem_of hG hj hp e).1] at hk
    cases hk

theorem sel_joint {i o : Ref} (P : JointPair h els i o) : ReadableJoint h o := by
  obtain ⟨j', hj', q, hq, rfl⟩ := S.holds_rel hG Q P.selOut P.kindOut
  exact S.readable_joint B hG hj' hq

/-- Only joints of the outer graph lead to graphs. -/
theorem sel_leads {v : Ref} (L : LeadsTo h els v) : G = T ∧ ∃ j ∈ G.js, ∃ o ∈ j.rs, ∃ G' ∈ gs, o.1.isOut = true ∧
    G'.d.name = o.1.ref ∧ v = G'.k := by
  obtain ⟨i, o, P, ev, hg⟩ := L
  obtain ⟨j, hj, q, hq, rfl⟩ := S.holds_rel hG Q P.selOut P.kindOut
  obtain ⟨t, et, -, -, ht⟩ := S.rel_end B hG hj hq
  rw [ev] at et
  cases et
  have out := (S.rel_dir hG hj hq).2.1 P.dirOut
  rcases ht with ⟨-, rfl⟩ | ⟨-, r, hr, -, rfl⟩ | ⟨-, e, G', hG', en, rfl⟩
  · obtain ⟨G', hG', a⟩ := S.graph_of (Nat.le_refl _) hg
    have := S.k_new hG'
    omega
  · obtain ⟨G', hG', a⟩ := S.graph_of (by have := S.link_new hG hr; omega) hg
    exact absurd a.symm (S.k_ne_x B hG hG' hr)
  · exact ⟨e, j, hj, q, hq, G', hG', out, en, rfl⟩

end

/-! ## What the converter selects -/

theorem down_new {fl : Ref → Bool} {n : Nat} {x : Ref} (hn : 1 ≤ n) (q : DownTo h fl (w + 2) n x) : w + 3 ≤ x := by
  have key : ∀ n x, DownTo h fl (w + 2) n x → w + 2 ≤ x ∧ (1 ≤ n → w + 3 ≤ x) := by
    intro n x q
    induction q with
    | start => exact ⟨Nat.le_refl _, fun c => absurd c (by omega)⟩
    | step _ hy _ ih =>
      have := S.below (by omega) ((S.reach.good.inv.mem_subelements _ _).1 hy)
      exact ⟨by omega, fun _ => this⟩
  exact (key n x q).2 hn

theorem root_lt : w + 2 < h.size := S.lt (by simp [S.root.kind])

theorem mem_matches {i : Nat} {x : Ref} : x ∈ matchesOf h (convertQuery h (w + 2) i) ↔
    (h.get x).kind = .semantic (convertKind i) ∧
      ∃ n, 1 ≤ n ∧ DownTo h (passes h (convertStatement h i)) (w + 2) n x := by
  constructor
  · intro hx
    have kx := convert_kind hx
    refine ⟨kx, ?_⟩
    have := (List.mem_filter.1 hx).1
    unfold visitedBy at this
    rcases (C28_complete S.reach (show (convertQuery h (w + 2) i).start < h.size from S.root_lt) false x).1 this with ⟨e, -⟩ | q
    · rw [show x = w + 2 from e, S.root.kind] at kx; cases kx
    · exact q
  · rintro ⟨kx, q⟩
    refine List.mem_filter.2 ⟨?_, ?_⟩
    · unfold visitedBy
      exact (C28_complete S.reach (show (convertQuery h (w + 2) i).start < h.size from S.root_lt) false x).2 (.inr q)
    · show (match (.ok (decide ((h.get x).kind = .semantic (convertKind i))) : Except Err Bool) with
        | .ok true => true
        | _ => false) = true
      rw [decide_eq_true kx]

theorem depth_top : (h.get T.k).depth = 1 := by
  rw [S.neat.deep T.k _ S.top_new (S.ok T (.head _)).node.kind S.top_parent S.root.kind, S.depth]

theorem depth_sub {G : GraphRec} (hG : G ∈ gs) : (h.get G.k).depth = 2 := by
  rw [S.neat.deep G.k _ (S.k_new (.tail _ hG)) (S.ok G (.tail _ hG)).node.kind (S.sub_parent hG) (S.ok T (.head _)).node.kind,
    S.depth_top]

theorem depth_link {G : GraphRec} (hG : G ∈ T :: gs) {r : LinkRec} (hr : r ∈ G.ls) :
    (h.get r.x).depth = (h.get G.k).depth + 1 :=
  S.neat.deep r.x _ (S.link_new hG hr) ((S.ok G hG).linksOk r hr).node.kind (S.link_parent hG hr) (S.ok G hG).node.kind

theorem pass {i : Nat} {x : Ref} (hk : Passable (h.get x).kind = true) (hs : convertStatement h i x = true) :
    passes h (convertStatement h i) x = true := by
  unfold passes
  rw [hs, Bool.and_true]
  revert hk; unfold Passable; cases (h.get x).kind <;> exact id

/-- What lies on the way was looked at. -/
theorem way {i n : Nat} {a x : Ref} (q : DownTo h (passes h (convertStatement h i)) (w + 2) n x) (wa : Within h a x)
    (ha : w + 3 ≤ a) : convertStatement h i a = true := by
  induction q with
  | start =>
    have := S.within_root wa
    omega
  | @step n x y q hy fy ih =>
    rcases within_step wa with rfl | ⟨p, e, wp⟩
    · unfold passes at fy
      rw [Bool.and_eq_true] at fy
      exact fy.2
    · rw [(S.reach.good.inv.mem_subelements _ _).1 hy] at e
      cases e
      exact ih wp

theorem node_depth {a : Ref} {n : Nat} (hk : (h.get a).kind = .node) (q : nodeDepthAtMost h n a = true) : (h.get a).depth ≤ n := by
  unfold nodeDepthAtMost at q
  rw [hk] at q
  exact of_decide_eq_true q

theorem mem_links {x : Ref} : x ∈ matchesOf h (convertQuery h (w + 2) 0) ↔ ∃ r ∈ T.ls, x = r.sv := by
  rw [S.mem_matches]
  constructor
  · rintro ⟨kx, n, hn, q⟩
    obtain ⟨G, hG, r, hr, rfl⟩ := S.kinLink_cases (S.down_new hn q) kx
    rcases List.mem_cons.1 hG with rfl | h1
    · exact ⟨r, hr, rfl⟩
    · exfalso
      have a := S.way (i := 0) q (.inr (.direct (S.sv_parent hG hr))) (S.link_new hG hr)
      have := S.node_depth ((S.ok G hG).linksOk r hr).node.kind a
      rw [S.depth_link hG hr, S.depth_sub h1] at this
      omega
  · rintro ⟨r, hr, rfl⟩
    have hT : T ∈ T :: gs := .head _
    have O := (S.ok T hT).linksOk r hr
    refine ⟨O.sem.kind, 3, by omega, .step (.step (.step .start (S.child S.top_parent) ?_) (S.child (S.link_parent hT hr)) ?_)
      (S.child (S.sv_parent hT hr)) ?_⟩
    · exact S.pass (by rw [(S.ok T hT).node.kind]; rfl) (nodeDepth_of fun _ => by rw [S.depth_top]; omega)
    · exact S.pass (by rw [O.node.kind]; rfl) (nodeDepth_of fun _ => by rw [S.depth_link hT hr, S.depth_top])
    · exact S.pass (by rw [O.sem.kind]; rfl) (nodeDepth_of fun q => by rw [O.sem.kind] at q; cases q)

theorem mem_joints {x : Ref} : x ∈ matchesOf h (convertQuery h (w + 2) 1) ↔ ∃ j ∈ T.js, ∃ p ∈ j.rs, h.parts p.2 = [x] := by
  rw [S.mem_matches]
  constructor
  · rintro ⟨kx, n, hn, q⟩
    obtain ⟨G, hG, j, hj, p, hp, e⟩ := S.kinJoint_cases (S.down_new hn q) kx
    rcases List.mem_cons.1 hG with rfl | h1
    · exact ⟨j, hj, p, hp, e⟩
    · exfalso
      have wi : Within h G.k x :=
        .inr (.up (S.sem_of hG hj hp e).2 (.up (S.rel_parent hG hj hp) (.direct (S.joint_parent hG hj))))
      have a := S.way (i := 1) q wi (S.k_new hG)
      have := S.node_depth (S.ok G hG).node.kind a
      rw [S.depth_sub h1] at this
      omega
  · rintro ⟨j, hj, p, hp, e⟩
    have hT : T ∈ T :: gs := .head _
    obtain ⟨kx, px⟩ := S.sem_of hT hj hp e
    have rk := S.rel_kind hT hj hp
    have ek := ((S.ok T hT).jointsOk j hj).edge.kind
    refine ⟨kx, 4, by omega, .step (.step (.step (.step .start (S.child S.top_parent) ?_) (S.child (S.joint_parent hT hj)) ?_)
      (S.child (S.rel_parent hT hj hp)) ?_) (S.child px) ?_⟩
    · exact S.pass (by rw [(S.ok T hT).node.kind]; rfl) (nodeDepth_of fun _ => by rw [S.depth_top])
    · exact S.pass (by rw [ek]; rfl) (nodeDepth_of fun q => by rw [ek] at q; cases q)
    · exact S.pass (by rw [rk]; rfl) (nodeDepth_of fun z => by rw [rk] at z; cases z)
    · exact S.pass (by rw [kx]; rfl) (nodeDepth_of fun z => by rw [kx] at z; cases z)

theorem mem_entities {x : Ref} : x ∈ matchesOf h (convertQuery h (w + 2) 2) ↔ x = cs := by
  rw [S.mem_matches]
  constructor
  · rintro ⟨kx, n, hn, q⟩
    exact S.entity_cases (S.down_new hn q) kx
  · rintro rfl
    refine ⟨S.entity.kind, 1, by omega, .step .start (S.child S.cs_parent) ?_⟩
    exact S.pass (by rw [S.entity.kind]; rfl) rfl

theorem matches_nodup (i : Nat) : (matchesOf h (convertQuery h (w + 2) i)).Nodup :=
  (convert_visited_nodup S.reach S.root_lt i).filter _

theorem mem_convert {x : Ref} : x ∈ convertList h (w + 2) ↔
    (∃ r ∈ T.ls, x = r.sv) ∨ (∃ j ∈ T.js, ∃ p ∈ j.rs, h.parts p.2 = [x]) ∨ x = cs := by
  unfold convertList
  rw [List.mem_append, List.mem_append, S.mem_links, S.mem_joints, S.mem_entities, or_assoc]

theorem convert_nodup : (convertList h (w + 2)).Nodup := by
  unfold convertList
  refine List.nodup_append.2 ⟨List.nodup_append.2 ⟨S.matches_nodup 0, S.matches_nodup 1, ?_⟩, S.matches_nodup 2, ?_⟩
  · rintro x hx y hy rfl
    have a := convert_kind hx
    rw [convert_kind hy] at a
    cases a
  · rintro x hx y hy rfl
    have b := convert_kind hy
    rcases List.mem_append.1 hx with hx | hx
    · have a := convert_kind hx
      rw [b] at a
      cases a
    · have a := convert_kind hx
      rw [b] at a
      cases a

/-- The converter selects the links and joints of the outer graph. -/
theorem sel_top : Selects h T (convertList h (w + 2)) where
  nodup := S.convert_nodup
  mem x hx := by
    rw [S.mem_convert]
    constructor
    · rintro (a | a | rfl)
      · exact .inl a
      · exact .inr a
      · rw [S.entity.kind] at hx
        rcases hx with hx | hx <;> cases hx
    · rintro (a | a)
      · exact .inl a
      · exact .inr (.inl a)

theorem sel_entity : ofKind h .cognitiveEntity (convertList h (w + 2)) = [cs] := by
  refine nodup_const (S.convert_nodup.filter _) (List.mem_filter.2 ⟨S.mem_convert.2 (.inr (.inr rfl)),
    decide_eq_true S.entity.kind⟩) fun b hb => ?_
  obtain ⟨hm, hk⟩ := List.mem_filter.1 hb
  have hk := of_decide_eq_true hk
  have hT : T ∈ T :: gs := .head _
  rcases S.mem_convert.1 hm with ⟨r, a, rfl⟩ | ⟨j, hj, p, hp, e⟩ | e
  · rw [((S.ok T hT).linksOk r a).sem.kind] at hk; cases hk
  · rw [(S.sem_of hT hj hp e).1] at hk
    cases hk
  · exact e

end Scene
end Rei
