import Verif.Spec.SdfNested
import Verif.Props.SdfNested
import Mathlib.Data.Fintype.Card
import Mathlib.Data.List.Nodup

/-!
# C86: exports with nested graphs
-/
namespace Rei

variable {h : Heap}

theorem jointEl_run {i o p j : Ref} {a b c : Rat} (name child pre : Str) (hi : (h.get i).endpoint = some p) (hj : JointOn h o j)
    (ha : AxisIs h j a b c) (ht : ∀ x ∈ transformsOf h j, IsTransform h x) :
    ∃ x, jointEl h i o name child pre = .ok x ∧ x.tag = "joint".toList ∧ x.attr? "name".toList = some name ∧
      x.attr? "type".toList = some (sdfJointType h j) ∧
      (∃ ax, x.child? "axis" = some ax ∧ ax.numbers? "xyz" = some [a, b, c]) ∧
      x.childText "parent" = some [.str (nameIn pre (h.get p).idName)] ∧
      x.childText "child" = some [.str (nameIn pre child)] ∧
      List.Forall₂ (fun t q => PoseOf h t q ∧ q.attr? "relative_to".toList = some (nameIn pre (h.get p).idName))
        (transformsOf h j) (x.every "pose") := by
  obtain ⟨ps, hps, qps⟩ := mapM_all_ok (l := h.subSemantic .rigid j)
    (f := fun x => rigidPose h x [("relative_to".toList, joinPrefix [(h.get p).idName] pre)])
    (Q := fun x q => PoseOf h x q ∧ q.attrs = [("relative_to".toList, joinPrefix [(h.get p).idName] pre)])
    (by
      intro x hx
      exact rigidPose_of (ht x hx) _)
  have e1 : endpointOf h i = .ok p := by unfold endpointOf; rw [hi]
  have run : jointEl h i o name child pre = .ok (.el "joint".toList
      [("name".toList, name), ("type".toList, jointType (getAttribute h j "joint_type".toList))] []
      ([textEl "parent" [.str (joinPrefix [(h.get p).idName] pre)], textEl "child" [.str (joinPrefix [child] pre)],
        .el "axis".toList [] [] [textEl "xyz" [.num a, .num b, .num c]]] ++ ps)) := by
    unfold jointEl
    rw [ebind_ok e1, ebind_ok (jointOf_of hj), ebind_ok (jointAxis_of ha), ebind_ok hps]
    rfl
  refine ⟨_, run, rfl, rfl, ?_, ⟨_, rfl, rfl⟩, ?_, ?_, ?_⟩
  · rw [← jointType_of]; rfl
  · rw [← joinPrefix_one]; rfl
  · rw [← joinPrefix_one]; rfl
  · have : Xml.every (.el "joint".toList
      [("name".toList, name), ("type".toList, jointType (getAttribute h j "joint_type".toList))] []
      ([textEl "parent" [.str (joinPrefix [(h.get p).idName] pre)], textEl "child" [.str (joinPrefix [child] pre)],
        .el "axis".toList [] [] [textEl "xyz" [.num a, .num b, .num c]]] ++ ps)) "pose" = ps := by
      unfold Xml.every Xml.children
      rw [List.filter_append]
      show [] ++ ps.filter _ = ps
      rw [List.nil_append, List.filter_eq_self]
      intro q hq
      obtain ⟨x, _, h1, _⟩ := forall₂_right qps q hq
      exact decide_eq_true h1.1
    rw [this]
    refine qps.imp fun x q h1 => ⟨h1.1, ?_⟩
    rw [← joinPrefix_one]
    unfold Xml.attr?
    rw [h1.2]
    rfl

theorem connect_run {els : List Ref} {i o e c : Ref} (J : ReadableJoint h o) (P : JointPair h els i o)
    (he : (h.get o).parent = some e) (pre : Str) :
    ∃ x, connectEl h i o (h.get e).idName (h.get c).idName pre = .ok x ∧ ConnectShown h pre i o e c x := by
  obtain ⟨j, a, b, d, hj, ha, ht⟩ := J
  obtain ⟨p, v, hp, hv, _⟩ := P.ends
  obtain ⟨x, r, t, n, ty, ⟨ax, x1, x2⟩, pa, ch, po⟩ := jointEl_run
    (joinPrefix [(h.get e).idName, "connect".toList, (h.get c).idName] pre) (Str.join '.' [(h.get e).idName, (h.get c).idName]) pre hp hj ha ht
  refine ⟨x, r, he, t, ?_, ?_, p, j, hp, hj, ty, ⟨a, b, d, ax, ha, x1, x2⟩, pa, po⟩
  · exact (connectEl_texts r).1
  · exact (connectEl_texts r).2

/-! ## What an export of a selection depends on -/

/-- The same links and joints. -/
def SameSelection (h : Heap) (a b : List Ref) : Prop :=
  ∀ x, (h.get x).kind = .semantic .kinLink ∨ (h.get x).kind = .semantic .kinJoint → (x ∈ a ↔ x ∈ b)

theorem SameSelection.symm {a b : List Ref} (q : SameSelection h a b) : SameSelection h b a := fun x k => (q x k).symm

theorem SameSelection.holds {a b : List Ref} (q : SameSelection h a b) {r : Ref} (s : HoldsSelected h a r) : HoldsSelected h b r := by
  obtain ⟨x, hx, k, p⟩ := s
  exact ⟨x, (q x k).1 hx, k, p⟩

theorem SameSelection.pair {a b : List Ref} (q : SameSelection h a b) {i o : Ref} (s : JointPair h a i o) : JointPair h b i o :=
  ⟨q.holds s.selIn, q.holds s.selOut, s.kindIn, s.kindOut, s.same, s.dirIn, s.dirOut, s.ends⟩

theorem SameSelection.leads {a b : List Ref} (q : SameSelection h a b) {v : Ref} (s : LeadsTo h a v) : LeadsTo h b v := by
  obtain ⟨i, o, p, r⟩ := s
  exact ⟨i, o, q.pair p, r⟩

theorem SameSelection.ready {a b : List Ref} (q : SameSelection h a b) (r : ExportReady h a) : ExportReady h b where
  links l hl k := r.links l ((q l (.inl k)).2 hl) k
  sound := ⟨fun x s => r.sound.complete x (q.symm.holds s),
    fun x y u v s t => r.sound.distinct x y u v (q.symm.holds s) (q.symm.holds t), fun i s k d => by
      obtain ⟨o, a, b⟩ := r.sound.answered i (q.symm.holds s) k d
      exact ⟨o, q.holds a, b⟩⟩
  joints i o p := r.joints i o (q.symm.pair p)
  placed v l := r.placed v (q.symm.leads l)
  bases v l := r.bases v (q.symm.leads l)
  ends v l := r.ends v (q.symm.leads l)

theorem SameSelection.nests {a b : List Ref} (q : SameSelection h a b) {d : Nat} (n : NestsBelow h d a) : NestsBelow h d b := by
  cases d with
  | zero => exact n
  | succ d =>
    obtain ⟨r, s⟩ := n
    exact ⟨q.ready r, fun v l => s v (q.symm.leads l)⟩

theorem AllInside.same {v : Ref} {a b : List Ref} (p : AllInside h v a) (q : AllInside h v b) : SameSelection h a b :=
  fun x _ => (p.2 x).trans (q.2 x).symm

theorem AllInside.instantiated {v v' : Ref} {els : List Ref} (p : AllInside h v els) (q : Instantiated h els v') :
    Relation.TransGen (NestsIn h) v v' := by
  induction q with
  | first l => exact .single ⟨els, p, l⟩
  | deeper _ n ih => exact .tail ih n

theorem AllInside.instantiated_of {v v' : Ref} {els top : List Ref} (p : AllInside h v els) (r : Instantiated h top v)
    (q : Instantiated h els v') : Instantiated h top v' := by
  induction q with
  | first l => exact .deeper r ⟨els, p, l⟩
  | deeper _ n ih => exact .deeper ih n

theorem nodup_length_le {l : List Ref} {n : Nat} (nd : l.Nodup) (b : ∀ x ∈ l, x < n) : l.length ≤ n := by
  have : l ⊆ List.range n := fun x hx => List.mem_range.2 (b x hx)
  have := (List.subperm_of_subset nd this).length_le
  rwa [List.length_range] at this

theorem leadsTo_lt {E : Env} {h : Heap} (R : Reach E h) {els : List Ref} {v : Ref} (l : LeadsTo h els v) : v < h.size := by
  obtain ⟨_, _, _, _, d, hd, _⟩ := l
  exact R.good.inv.parent_lt ((R.good.inv.mem_subelements _ _).1 hd)

/-- The turns of the loop. -/
theorem joints_run {E : Env} {W : World} (F : W.Fair E) {els : List Ref} {pre : Str} (R : ExportReady W.h els) {rec : List Ref → Str → SdfM Unit}
    (hrec : ∀ v ls p (s : Run), s.shared = [] → LeadsTo W.h els v → AllInside W.h v ls → ∃ ws u, rec ls p s =
      (.ok (), { s with sdf := s.sdf.runEvents (ws.map .element), uses := u }) ∧ Exported W.h ls p ws) :
    ∀ (ps : List (Ref × Ref)) (s : Run), s.shared = [] → (∀ p ∈ ps, JointPair W.h els p.1 p.2) →
      ∃ zs u, each ps (W.pairStep rec pre) s =
        (.ok (), { s with sdf := s.sdf.runEvents (zs.map .element), uses := u }) ∧ ExportedJoints W.h pre ps zs
  | [], s, _, _ => ⟨[], s.uses, rfl, .nil⟩
  | (i, o) :: ps, s, hs, hp => by
    have P := hp (i, o) (by simp)
    have J := R.joints i o P
    obtain ⟨pp, v, hpp, hv, hne⟩ := P.ends
    have ev : endpointOf W.h o = .ok v := by unfold endpointOf; rw [hv]
    by_cases hg : HasKinGraph W.h v
    · have ld : LeadsTo W.h els v := ⟨i, o, P, hv, hg⟩
      have vs := leadsTo_lt F.reach ld
      have vk := R.ends v ld
      obtain ⟨cs, r1, _, mem⟩ := C71_base_links F vs vk (R.placed v ld) s hs
      obtain ⟨c0, hc0⟩ := R.bases v ld
      have cne : cs ≠ [] := List.ne_nil_of_mem ((mem c0).2 hc0)
      obtain ⟨c, hc, r2⟩ : ∃ c, BaseLink W.h v c ∧ W.pop cs { s with uses := s.uses + 1 } = (.ok c, { s with uses := s.uses + 1 }) := by
        unfold World.pop
        rw [if_neg cne]
        exact ⟨_, (mem _).1 (F.pop _ cs cne), rfl⟩
      have r3 : (if W.h.subSemantic .kinJoint o = [] then (.error .stopIteration : Except Err Unit) else .ok ()) = .ok () := by
        rw [if_neg]
        intro e
        obtain ⟨j, a, b, d, hj, _⟩ := J
        have := jointOf_of hj
        unfold jointOf at this
        rw [e] at this
        cases this
      obtain ⟨e, he⟩ : ∃ e, (W.h.get o).parent = some e := by
        have := (R.sound.complete o P.selOut P.kindOut).1
        exact Option.isSome_iff_exists.1 this
      have r4 : parentName W.h o = .ok (W.h.get e).idName := by unfold parentName; rw [he]
      obtain ⟨x, r5, cx⟩ := connect_run (c := c) J P he pre
      obtain ⟨ls, js, r6, n1, n2, m1, m2⟩ := query_run F (W.h.get o).idName vs vk
        { s with uses := s.uses + 1, sdf := s.sdf.add x } hs
      have ai : AllInside W.h v (ls ++ js) := by
        refine ⟨n1.append n2 fun x a b => ?_, fun x => ?_⟩
        · have a := ((m1 x).1 a).2
          rw [((m2 x).1 b).2] at a
          cases a
        · rw [List.mem_append, m1, m2]
          tauto
      obtain ⟨ws, u, r7, ex⟩ := hrec v (ls ++ js) (pre ++ (W.h.get e).idName)
        { s with uses := s.uses + 1 + 1, sdf := s.sdf.add x } hs ld ai
      obtain ⟨zs, u', r8, ez⟩ := joints_run F R hrec ps
        { s with sdf := (s.sdf.add x).runEvents (ws.map .element), uses := u } hs
        (fun p hp' => hp p (List.mem_cons_of_mem _ hp'))
      refine ⟨x :: ws ++ zs, u', ?_, .nested hv hg hc cx ai ex ez⟩
      unfold each
      have step : W.pairStep rec pre (i, o) s = (.ok (), { s with sdf := (s.sdf.add x).runEvents (ws.map .element), uses := u }) := by
        unfold World.pairStep
        rw [sdf_bind_ok (ofExcept_ok ev), if_neg (hasKinGraph_iff.1 hg), sdf_bind_ok r1, sdf_bind_ok r2, sdf_bind_ok (ofExcept_ok r3),
          sdf_bind_ok (ofExcept_ok r4), sdf_bind_ok (ofExcept_ok r5)]
        rw [sdf_bind_ok (show addEl x _ = (.ok (), _) from rfl), sdf_bind_ok r6]
        exact r7
      rw [sdf_bind_ok step, r8]
      simp only [List.cons_append, List.map_cons, List.map_append]
      rw [show ∀ l, s.sdf.runEvents (.element x :: l) = (s.sdf.add x).runEvents l from fun _ => rfl, runEvents_append]
    · obtain ⟨x, hx, sx⟩ := J.run P pre
      obtain ⟨zs, u, r, ez⟩ := joints_run F R hrec ps { s with sdf := s.sdf.add x } hs
        (fun p hp' => hp p (List.mem_cons_of_mem _ hp'))
      refine ⟨x :: zs, u, ?_, .joint hv hg sx ez⟩
      unfold each
      have step : W.pairStep rec pre (i, o) s = (.ok (), { s with sdf := s.sdf.add x }) := by
        unfold World.pairStep
        rw [sdf_bind_ok (ofExcept_ok ev), if_pos (by by_contra c; exact hg (hasKinGraph_iff.2 c)), sdf_bind_ok (ofExcept_ok hx)]
        rfl
      rw [sdf_bind_ok step, r]
      rfl

theorem tree_run {E : Env} {W : World} (F : W.Fair E) : ∀ (d : Nat) (els : List Ref) (pre : Str) (s : Run),
    s.shared = [] → NestsBelow W.h d els →
    ∃ xs u, W.encode d els pre s = (.ok (), { s with sdf := s.sdf.runEvents (
        (ofKind W.h .cognitiveEntity els).map (fun c => .model (W.h.get c).idName) ++ xs.map .element), uses := u }) ∧
      Exported W.h els pre xs
  | 0, _, _, _, _, N => False.elim N
  | d + 1, els, pre, s, hs, ⟨R, I⟩ => by
    obtain ⟨ps, hps, hnd, hmem⟩ := C44_pairs R.sound.good false
    have hpair : ∀ i o, (i, o) ∈ ps ↔ JointPair W.h els i o := by
      intro i o
      rw [hmem]
      simp only [mem_selectionOf, Bool.false_eq_true, or_false]
      constructor
      · rintro ⟨a, b, c, d, e, f, g, k⟩; exact ⟨a, b, c, d, e, f, g, k⟩
      · rintro ⟨a, b, c, d, e, f, g, k⟩; exact ⟨a, b, c, d, e, f, g, k⟩
    obtain ⟨ys, hys⟩ := choose_list (l := ofKind W.h .kinLink els)
      (P := fun l y => (IsLinkExport W.h pre l y ∧ LinkShown W.h pre l y) ∧ (W.h.get l).kind = .semantic .kinLink) (by
      intro l hm
      obtain ⟨a, b⟩ := List.mem_filter.1 hm
      have k := of_decide_eq_true b
      obtain ⟨n, rl⟩ := R.links l a k
      obtain ⟨y, q, _⟩ := C84_link F.reach rl pre
      exact ⟨y, ⟨q, q.shown F.reach rl⟩, k⟩)
    unfold World.encode
    have e1 := each_run (f := W.element []) (fun c => SdfEvent.model (W.h.get c).idName)
      (els.filter fun x => (W.h.get x).kind = .semantic .cognitiveEntity) s (by
        intro x hx s
        have := of_decide_eq_true (List.mem_filter.1 hx).2
        unfold World.element Sdf.encodeElement
        rw [this]
        rfl)
    rw [sdf_bind_ok e1]
    have e2 := each_forall (f := W.element pre) (l := els.filter fun x => (W.h.get x).kind = .semantic .kinLink) (ys := ys)
      { s with sdf := s.sdf.runEvents ((els.filter fun x => (W.h.get x).kind = .semantic .cognitiveEntity).map
        fun c => SdfEvent.model (W.h.get c).idName) } hys
      (by
        rintro x y s ⟨⟨⟨y0, is, h1, h2, rfl⟩, -⟩, hk⟩
        unfold World.element Sdf.encodeElement
        rw [hk]
        simp only [h1, h2])
    rw [sdf_bind_ok e2, sdf_bind_ok (ofExcept_ok hps)]
    obtain ⟨zs, u, r, ez⟩ := joints_run F (pre := pre) R (rec := W.encode d) (by
      intro v ls p t ht ld ai
      obtain ⟨ls0, ai0, n0⟩ := I v ld
      obtain ⟨ws, u, a, b⟩ := tree_run F d ls p t ht ((ai0.same ai).nests n0)
      refine ⟨ws, u, ?_, b⟩
      rw [a]
      have : ofKind W.h .cognitiveEntity ls = [] := by
        unfold ofKind
        rw [List.filter_eq_nil_iff]
        intro x hx
        rcases ((ai.2 x).1 hx).2 with k | k <;> rw [k] <;> decide
      rw [this]
      rfl) ps { s with sdf := (s.sdf.runEvents ((els.filter fun x => (W.h.get x).kind = .semantic .cognitiveEntity).map
        fun c => SdfEvent.model (W.h.get c).idName)).runEvents (ys.map .element) } hs (fun p hp => (hpair p.1 p.2).1 hp)
    refine ⟨ys ++ zs, u, r.trans ?_, .intro (hys.imp fun _ _ q => q.1.2) hpair (fun q => hnd (selectionOf_nodup q)) ez⟩
    simp only [List.map_append, ← runEvents_append, List.append_assoc]
    rfl

/-- Without cycles, graphs are nested at most as deep as there are elements. -/
theorem nests_below {E : Env} {h : Heap} (Rc : Reach E h) : ∀ (d : Nat) (els : List Ref) (path : List Ref),
    path.Nodup → (∀ v ∈ path, v < h.size) → h.size < d + path.length → ExportReady h els →
    (∀ v, Instantiated h els v → (∃ ls, AllInside h v ls ∧ ExportReady h ls) ∧ ¬ Relation.TransGen (NestsIn h) v v ∧ v ∉ path) →
    NestsBelow h d els
  | 0, _, path, nd, lt, b, _, _ => by
    have := nodup_length_le nd lt
    omega
  | d + 1, els, path, nd, lt, b, R, I => by
    refine ⟨R, fun v ld => ?_⟩
    have iv : Instantiated h els v := .first ld
    obtain ⟨⟨ls, ai, R0⟩, cyc, np⟩ := I v iv
    refine ⟨ls, ai, nests_below Rc d ls (v :: path) (List.nodup_cons.2 ⟨np, nd⟩) ?_ (by rw [List.length_cons]; omega) R0 ?_⟩
    · intro x hx
      rcases List.mem_cons.1 hx with rfl | hx
      · exact leadsTo_lt Rc ld
      · exact lt x hx
    · intro v' iv'
      have top := ai.instantiated_of iv iv'
      obtain ⟨g1, g2, g3⟩ := I v' top
      refine ⟨g1, g2, ?_⟩
      rw [List.mem_cons]
      rintro (rfl | q)
      · exact cyc (ai.instantiated iv')
      · exact g3 q

/-- **C86, by depth.** If the links and joints of a selection, and of every graph that is instantiated by it, can be exported,
and graphs are nested less than `d` deep, then the export ends with a stack for `d` levels, for every schedule and every choice
of base links; it opens one model per cognitive entity and writes the links and joints of the selection, and, where a joint
leads to a graph, a joint that connects a base link of the graph and, recursively, everything inside the graph, under a
prefix (`Exported`). -/
theorem C86_depth {E : Env} {W : World} (F : W.Fair E) {els : List Ref} {d : Nat} (N : NestsBelow W.h d els)
    (pre : Str) (s : Run) (hs : s.shared = []) :
    ∃ xs u, W.encode d els pre s = (.ok (), { s with sdf := s.sdf.runEvents (
        (ofKind W.h .cognitiveEntity els).map (fun c => .model (W.h.get c).idName) ++ xs.map .element), uses := u }) ∧
      Exported W.h els pre xs := tree_run F d els pre s hs N

/-- **C86.** If the links and joints of a selection, and of every graph that is instantiated by it, can be exported, and no
graph is instantiated inside itself, then the export ends, for every schedule and every choice of base links, with a
stack for as many nested graphs as there are elements; it opens one model per cognitive entity and writes the links and
joints of the selection, and, where a joint leads to a graph, a joint that connects a base link of the graph and,
recursively, everything inside the graph, under a prefix (`Exported`). -/
theorem C86_nested {E : Env} {W : World} (F : W.Fair E) {els : List Ref} (R : ExportReady W.h els)
    (G : ∀ v, Instantiated W.h els v → ∃ ls, AllInside W.h v ls ∧ ExportReady W.h ls)
    (A : ∀ v, Instantiated W.h els v → ¬ Relation.TransGen (NestsIn W.h) v v)
    (pre : Str) (s : Run) (hs : s.shared = []) {d : Nat} (hd : W.h.size < d) :
    ∃ xs u, W.encode d els pre s = (.ok (), { s with sdf := s.sdf.runEvents (
        (ofKind W.h .cognitiveEntity els).map (fun c => .model (W.h.get c).idName) ++ xs.map .element), uses := u }) ∧
      Exported W.h els pre xs :=
  C86_depth F (nests_below F.reach d els [] .nil (by simp) (by simpa using hd) R fun v i => ⟨G v i, A v i, by simp⟩) pre s hs

/-- **C86 for files, by depth.** Under the same conditions the conversion of a file with one cognitive entity ends, for every
schedule, with one model, named after the entity, that is the export of the selected elements, in some order. -/
theorem C86_convert {E : Env} {W : World} (F : W.Fair E) {root c : Ref} (hr : root < W.h.size)
    (hk : (W.h.get root).kind = .node) (hc : ofKind W.h .cognitiveEntity (convertList W.h root) = [c])
    {d : Nat} (N : NestsBelow W.h d (convertList W.h root)) :
    ∃ els xs u, els.Perm (convertList W.h root) ∧ Exported W.h els [] xs ∧
      W.convert d root {} = (.ok (), { sdf := { models := [((W.h.get c).idName, xs)], cache := [] }, uses := u, shared := [] }) := by
  obtain ⟨els, Q', run, perm⟩ := convert_query F hr hk
  have same : SameSelection W.h (convertList W.h root) els := fun x _ => perm.symm.mem_iff
  obtain ⟨xs, u, e, ex⟩ := C86_depth F (same.nests N) [] { ({} : Run) with uses := 1, shared := [] } rfl
  refine ⟨els, xs, u, perm, ex, ?_⟩
  unfold World.convert
  simp only [run]
  refine e.trans ?_
  have hce : ofKind W.h .cognitiveEntity els = [c] := by
    have : (ofKind W.h .cognitiveEntity els).Perm [c] := hc ▸ perm.filter _
    exact List.perm_singleton.1 this
  rw [hce, List.map_singleton]
  exact congrArg (fun x => (Except.ok (), Run.mk x u [])) (events_single _ _)

/-- **C86 for files.** The same without a bound on the depth: no graph is instantiated inside itself. -/
theorem C86_convert_acyclic {E : Env} {W : World} (F : W.Fair E) {root c : Ref} (hr : root < W.h.size)
    (hk : (W.h.get root).kind = .node) (hc : ofKind W.h .cognitiveEntity (convertList W.h root) = [c])
    (R : ExportReady W.h (convertList W.h root))
    (G : ∀ v, Instantiated W.h (convertList W.h root) v → ∃ ls, AllInside W.h v ls ∧ ExportReady W.h ls)
    (A : ∀ v, Instantiated W.h (convertList W.h root) v → ¬ Relation.TransGen (NestsIn W.h) v v)
    {d : Nat} (hd : W.h.size < d) :
    ∃ els xs u, els.Perm (convertList W.h root) ∧ Exported W.h els [] xs ∧
      W.convert d root {} = (.ok (), { sdf := { models := [((W.h.get c).idName, xs)], cache := [] }, uses := u, shared := [] }) :=
  C86_convert F hr hk hc (nests_below F.reach d _ [] .nil (by simp) (by simpa using hd) R fun v i => ⟨G v i, A v i, by simp⟩)

end Rei
