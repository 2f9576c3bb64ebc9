import Verif.Lemmas.SceneSelect
import Verif.Props.CogniAccept

/-!
# C85: from a CogniLang file to the SDF model
-/
namespace Rei

/-- **C85.** A file with one kinematic graph of links and joints, under the conditions of `IsRobot`: when a reader accepts it, the
conversion of its root succeeds for every schedule, and the document is one model, named after the entity, with one link
for each declared link, one joint for each pair of a relation into and a relation out of a declared joint, and nothing
else, as the file says. -/
theorem C85_file_to_sdf {E : Env} (inj : Function.Injective E.sha) {h h' : Heap} (R : Reach E h) {nm : Str} {ck : Clock}
    {f : EntityDecl} {I : FileIcon} (hr : readFile E nm ck f h = (.ok I, h')) {g : Str} {body : Items} {ps : Params}
    (B : IsRobot f g body ps) :
    ∃ x ys js, I.root = some x ∧
      List.Forall₂ (SaysLink [] false ps ⟨[f.name, g], body⟩) body.links ys ∧
      List.Forall₂ (fun p y => SaysJoint [] ps p.1 p.2.1 p.2.2 y) (jointPairs body.joints) js ∧
      ∀ (W : World) (d : Nat), W.Fair E → W.h = h' → ∃ xs, xs.Perm (ys ++ js) ∧
        W.convert (d + 1) x {} = (.ok (),
          { sdf := { models := [(f.name, xs)], cache := [] }, uses := 1, shared := [] }) := by
  have B' := B.assembly
  obtain ⟨rt, cs, T, gs, S⟩ := scene_of_file R hr B'
  have hT : T ∈ T :: gs := .head _
  have none : gs = [] := by
    have := S.nested
    rw [(flat_assembled B.flat).2] at this
    simpa using this
  obtain ⟨ys, pr, xs, a1, a2, a3, a4, a5⟩ := C73_convert S.reach (h.size + 2) cs S.root_lt S.root.kind S.sel_entity
    (fun l hl hk => S.sel_readable B' hT S.sel_top hl hk)
    (S.sel_sound B' hT S.sel_top) (S.one_each B' hT S.sel_top)
    (fun i o v P ev hg => by
      obtain ⟨-, j, -, o, -, G', hG', -⟩ := S.sel_leads B' hT S.sel_top ⟨i, o, P, ev, hg⟩
      rw [none] at hG'
      cases hG')
    (fun i o P => S.sel_joint B' hT S.sel_top P)
  have pp : ((pairsOf T.js).map fun q => (q.2.1.2, q.2.2.2)).Perm pr := by
    refine (List.perm_ext_iff_of_nodup (S.pairs_nodup hT) a3).2 ?_
    rintro ⟨i, o⟩
    rw [a4, S.joint_pair B' hT S.sel_top inj]
  obtain ⟨ys', f1, q1⟩ := List.perm_comp_forall₂ (S.sel_links B' hT S.sel_top) a1
  obtain ⟨xs', f2, q2⟩ := List.perm_comp_forall₂ pp a2
  refine ⟨h.size + 2, ys', xs', rt, ?_, ?_, ?_⟩
  · have := (S.ok T hT).links
    rw [S.top_body] at this
    rw [← this]
    refine forall₂_map_of (List.forall₂_map_left_iff.1 f1) ?_
    rintro r hr y ⟨n, pn, X⟩
    rw [S.sv_parent hT hr] at pn
    cases pn
    rw [← S.top]
    exact S.says_link B' hT hr X (by simp)
  · have := (S.ok T hT).joints
    rw [S.top_body] at this
    rw [← this, jointPairs_pairsOf fun j hj => ((S.ok T hT).jointsOk j hj).decls]
    refine forall₂_map_of (List.forall₂_map_left_iff.1 f2) ?_
    rintro ⟨j, i, o⟩ hm x X
    obtain ⟨hj, hi, ho, -⟩ := mem_pairsOf.1 hm
    exact S.says_joint B' hT hj hi ho X
  · intro W d F e
    obtain ⟨zs, p, run⟩ := a5 W d F e
    refine ⟨zs, p.trans (q1.append q2).symm, ?_⟩
    rw [run, S.entity.name]

end Rei
