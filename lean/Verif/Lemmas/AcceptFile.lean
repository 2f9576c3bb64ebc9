import Verif.Lemmas.AcceptJoint

/-!
# The reader accepts well-formed files: bodies and the whole file
-/
namespace Rei
open PyM

/-- The name of an element, with `true` for a node. -/
def Heap.tag (h : Heap) (x : Ref) : Str × Bool := ((h.get x).idName, decide ((h.get x).kind = .node))

section
variable {E : Env} {lo : Nat} {h h' : Heap} {I : FileIcon} {w : Ref} {ps : Params} {seen : List Str} {W : Known}

theorem tags_onward (inv : Inv h) {D : List Ref} (on : Onward h.size D h h') {c : Ref} {l : List Ref}
    (hp : h'.parts c = h.parts c ++ l) : h'.tags c = h.tags c ++ l.map h'.tag := by
  unfold Heap.tags
  rw [hp, List.map_append]
  congr 1
  apply List.map_congr_left
  intro x hx
  have := inv.parts_lt hx
  rw [on.idName x this, on.kind x this]

theorem solids_tags {path : List Str} {ss : List SolidDecl} : ∀ {seen : List Str} {ys es : List Ref},
    ShowsSolids h ps path seen ss ys es → es.map h.tag = (solidsEdges path seen ss).map fun n => (n, false) := by
  induction ss with
  | nil =>
    intro seen ys es s
    obtain ⟨-, rfl⟩ := s
    rfl
  | cons s ss ih =>
    intro seen ys es sh
    obtain ⟨y, ys', es1, es2, rfl, rfl, a, b⟩ := sh
    rw [List.map_append, ih b]
    rw [solidsEdges, List.map_append]
    congr 1
    obtain ⟨g, ms, -, -, q, -⟩ := a
    cases hg : s.geom with
    | solid c f =>
      rw [hg] at q
      obtain ⟨rfl, -⟩ := q
      rfl
    | ref id =>
      rw [hg] at q
      obtain ⟨-, q⟩ := q
      split at q
      · next hm => subst q; simp only [if_pos hm]; rfl
      · next hm =>
        obtain ⟨e, r1, r2, t, rfl, ed, -⟩ := q
        simp only [if_neg hm, List.map_cons, List.map_nil]
        unfold Heap.tag
        rw [ed.name, ed.kind]; simp

theorem link_tags {path : List Str} {l : LinkDecl} {x : Ref} {es : List Ref} (s : ShowsLink h ps seen path l x es) :
    (x :: es).map h.tag = l.adds seen path := by
  obtain ⟨sv, ts, ys, a, -, -, d⟩ := s
  rw [List.map_cons]
  unfold LinkDecl.adds
  congr 1
  · unfold Heap.tag; rw [a.kind, a.name]; simp
  · unfold LinkDecl.solids
    cases hb : l.body with
    | none =>
      rw [hb] at d
      obtain ⟨-, rfl⟩ := d
      rfl
    | some b =>
      rw [hb] at d
      obtain ⟨i, ys', -, -, d⟩ := d
      exact solids_tags d

theorem params_top_goes (X : Ideal E) {path : List Str} {c : Ref} (hr : some c = I.root) : ∀ (qs : Params) {h : Heap}
    {ps : Params} (_ : Reach E h) (_ : Timely E lo h) (_ : IconOk h I w ps seen) (_ : Knows h I w lo seen W)
    (_ : At h I path c),
    Goes E lo (forEach qs fun p => I.visitParam E path p) h fun _ h' => Knows h' I w lo seen W
  | [], h, ps, R, T, o, K, a => .pure T K
  | q :: qs, h, ps, R, T, o, K, a => by
    have inv := R.good.inv
    rw [forEach_cons]
    refine Goes.bind (Q1 := fun _ _ => True) (Q := fun _ h' => Onward h.size [I.params] h h' ∧ IconOk h' I w (ps ++ [q]) seen) ?_ ?_ ?_
    · unfold FileIcon.visitParam
      refine .cachedB a.cached ?_
      rw [if_pos hr]
      exact (Goes.of_fine (value_fine X R T K.fac q.1 K.params o.plt o.pkind [q.2])).void fun _ _ q => q
    · unfold FileIcon.visitParam
      refine (a.does R).bind fun _ h1 R1 q => ?_
      obtain ⟨rfl, rfl⟩ := q
      rw [if_pos hr]
      refine (value_does R o.fac q.1 o.plt (by rw [o.pkind]; simp) [q.2]).void.mono fun _ h1 R1 z => ?_
      obtain ⟨_, rfl, M, m1, m2⟩ := z
      exact ⟨M.later, o.declare inv M.later M.parts ⟨M.kind, M.idName, m2, m1⟩⟩
    · rintro _ h1 R1 T1 _ ⟨on, o1⟩
      exact params_top_goes X hr qs R1 T1 o1 (K.onward o on) (a.onward inv on (.refl _ _))

theorem params_low_goes {path : List Str} {c : Ref} (hr : some c ≠ I.root) (T : Timely E lo h) (a : At h I path c) :
    ∀ (qs : Params), Goes E lo (forEach qs fun p => I.visitParam E path p) h fun _ _ => True
  | [] => .pure T trivial
  | q :: qs => by
    rw [forEach_cons]
    obtain ⟨x, h2, e, T2, -⟩ := params_low_goes hr T a qs
    refine ⟨x, h2, ?_, T2, trivial⟩
    have e0 : I.visitParam E path q h = (.ok (), h) := by
      unfold FileIcon.visitParam
      have e1 : I.cached (pathKey path) h = (.ok c, h) := by unfold FileIcon.cached; rw [a.cached]; rfl
      rw [bind_ok e1, if_neg hr]; rfl
    rw [bind_ok e0]; exact e

theorem node_visit_goes (X : Ideal E) (R : Reach E h) (T : Timely E lo h) (o : IconOk h I w ps seen)
    (K : Knows h I w lo seen W) {path : List Str} {c : Ref} (a : At h I path c) (name : Str) :
    Goes E lo (I.visitNode E path name) h fun I' h' =>
      Knows h' I' w lo seen ((Str.join '/' (path ++ [name]), some name) :: W) := by
  have inv := R.good.inv
  have hcl := a.lt inv
  have clo := K.low _ _ a.cached
  unfold FileIcon.visitNode
  refine .cachedB a.cached ?_
  refine (Goes.of_fine (node_fine X R T K.fac _ clo hcl a.kind)).bind (node_does R o.fac _ hcl (by rw [a.kind]; simp))
    fun x h1 R1 T1 _ q => ?_
  obtain ⟨rfl, M⟩ := q
  exact .remember T1 ((K.onward o M.later).remember T.le (M.path _ a.path).2 (by rw [nodeName?_node M.kind, M.idName]))

theorem kinematic_visit_goes (X : Ideal E) (R : Reach E h) (T : Timely E lo h) (o : IconOk h I w ps seen)
    (K : Knows h I w lo seen W) {path : List Str} {c : Ref} (a : At h I path c) (name : Str) :
    Goes E lo (I.visitKinematic E path name) h fun I' h' =>
      Knows h' I' w lo seen ((Str.join '/' (path ++ [name]), some name) :: W) := by
  have inv := R.good.inv
  have hcl := a.lt inv
  have plt := o.plt
  have clo := K.low _ _ a.cached
  unfold FileIcon.visitKinematic
  refine .cachedB a.cached ?_
  refine (Goes.of_fine (node_fine X R T K.fac _ clo hcl a.kind)).bind (node_does R o.fac _ hcl (by rw [a.kind]; simp))
    fun x h1 R1 T1 _ q => ?_
  obtain ⟨rfl, M⟩ := q
  have s1 := M.size
  have inv1 := R1.good.inv
  have p1 := M.path _ a.path
  have o1 := o.onward inv M.later (M.parts_ne plt a.params.symm)
  refine ((Goes.of_fine (sem_fine X R1 T1 K.cog _ T.le (by omega) (.inl M.kind) (by simp) _ (k := .kinGraph)
    (by decide +kernel))).void (Q2 := fun _ _ => True) fun _ _ q => q).bind
    (sem_does R1 o.cog _ _ (p := h.size) (by omega) (by rw [M.kind]; simp) _ _).void fun _ h2 R2 T2 _ q => ?_
  obtain ⟨_, rfl, k, hk, M2⟩ := q
  cases hk
  have qn : (h2.get h.size).qualName = Str.join '/' (path ++ [name]) := by rw [M2.later.qualName _ (by omega), p1.2]
  have kx : (h2.get h.size).kind = .node := by rw [M2.later.kind _ (by omega), M.kind]
  have nx : (h2.get h.size).idName = name := by rw [M2.later.idName _ (by omega), M.idName]
  exact .remember T2 (((K.onward o M.later).onward o1 M2.later).remember T.le qn (by rw [nodeName?_node kx, nx]))

theorem items_goes (X : Ideal E) (items : Items) : ∀ {h : Heap} {I : FileIcon} {top : Bool} {ps : Params}
    {seen path : List Str} {W : Known} {c : Ref} (_ : Reach E h) (_ : Timely E lo h) (_ : IconOk h I w ps seen)
    (_ : Knows h I w lo seen W) (_ : At h I path c)
    (_ : top = true ↔ some c = I.root) (_ : ∀ x, I.root = some x → x < h.size)
    (_ : items.wellFormed top ps seen path W (h.tags c) = true),
    Goes E lo (FileIcon.visitItems E path I items) h fun I' h' =>
      Knows h' I' w lo (seen ++ items.targets path) (items.names path ++ W) := by
  induction items with
  | nil =>
    intro h I top ps seen path W c R T o K a ht hroot _
    exact .pure T (by simpa [Items.names, Items.targets] using K)
  | kinematic name body rest ihb ihr =>
    intro h I top ps seen path W c R T o K a ht hroot ok
    have inv := R.good.inv
    have hcl := a.lt inv
    have plt := o.plt
    unfold Items.wellFormed at ok
    rw [Bool.and_eq_true] at ok
    unfold FileIcon.visitItems
    refine (kinematic_visit_goes X R T o K a name).bind (kinematic_visit_does R o a name) fun I1 h1 R1 T1 K1 q => ?_
    obtain ⟨s, N, S, sf⟩ := q
    have inv1 := R1.good.inv
    have s1 := N.on.size
    have tg : h1.tags h.size = [(name, false)] := by
      unfold Heap.tags
      rw [N.node.parts, List.map_cons, List.map_nil, S.name, S.kind]; simp
    have r1 : (false = true ↔ some h.size = I1.root) := by
      simp only [Bool.false_eq_true, false_iff]
      intro e
      rw [N.kept.root] at e
      have := hroot _ e.symm
      omega
    have r2 : ∀ x, I1.root = some x → x < h1.size := by
      intro x hx
      rw [N.kept.root] at hx
      have := hroot x hx
      omega
    refine (ihb (top := false) R1 T1 N.ok K1 N.at_ r1 r2 (by rw [tg]; exact ok.1)).bind
      (items_does body (top := false) R1 N.ok N.at_ r1 r2) fun I2 h2 R2 T2 K2 q => ?_
    obtain ⟨ys, B⟩ := q
    have inv2 := R2.good.inv
    have s2 := B.on.size
    have on2 : Onward h.size [c, I.params] h h2 := by
      refine (N.on.weaken (Nat.le_refl _) (by simp +contextual)).trans (B.on.weaken s1 ?_)
      rw [N.kept.params]
      intro x hx hl
      simp at hx ⊢
      omega
    have k2 : Kept path I I2 := N.kept.trans (B.kept.mono a.ne)
    have a2 := a.onward inv on2 k2
    have o2 : IconOk h2 I2 w ps (seen ++ body.targets (path ++ [name])) := by simpa using B.ok
    have pc : h2.parts c = h.parts c ++ [h.size] := by
      rw [B.on.only c (by omega), N.partsC]
      rw [N.kept.params]
      have := a.params
      simp; exact ⟨by omega, this⟩
    have xl := N.at_.lt inv1
    have tg2 : h2.tags c = h.tags c ++ [(name, true)] := by
      rw [tags_onward inv on2 pc, List.map_cons, List.map_nil]
      unfold Heap.tag
      rw [B.on.kind _ xl, B.on.idName _ xl, N.node.kind, N.node.name]; simp
    have := ihr (top := top) R2 T2 o2 K2 a2 (by rw [k2.root]; exact ht) (by
      intro x hx
      rw [k2.root] at hx
      have := hroot x hx
      omega) (by rw [tg2]; exact ok.2)
    unfold Items.targets Items.names
    simp only [List.append_assoc, List.cons_append, List.nil_append] at this ⊢
    exact this
  | ambient name body rest ihb ihr =>
    intro h I top ps seen path W c R T o K a ht hroot ok
    have inv := R.good.inv
    have hcl := a.lt inv
    have plt := o.plt
    unfold Items.wellFormed at ok
    rw [Bool.and_eq_true] at ok
    unfold FileIcon.visitItems
    refine (node_visit_goes X R T o K a name).bind (node_visit_does R o a name) fun I1 h1 R1 T1 K1 N => ?_
    have inv1 := R1.good.inv
    have s1 := N.on.size
    have tg : h1.tags h.size = [] := by
      unfold Heap.tags
      rw [N.node.parts, List.map_nil]
    have r1 : (false = true ↔ some h.size = I1.root) := by
      simp only [Bool.false_eq_true, false_iff]
      intro e
      rw [N.kept.root] at e
      have := hroot _ e.symm
      omega
    have r2 : ∀ x, I1.root = some x → x < h1.size := by
      intro x hx
      rw [N.kept.root] at hx
      have := hroot x hx
      omega
    refine (ihb (top := false) R1 T1 N.ok K1 N.at_ r1 r2 (by rw [tg]; exact ok.1)).bind
      (items_does body (top := false) R1 N.ok N.at_ r1 r2) fun I2 h2 R2 T2 K2 q => ?_
    obtain ⟨ys, B⟩ := q
    have inv2 := R2.good.inv
    have s2 := B.on.size
    have on2 : Onward h.size [c, I.params] h h2 := by
      refine (N.on.weaken (Nat.le_refl _) (by simp +contextual)).trans (B.on.weaken s1 ?_)
      rw [N.kept.params]
      intro x hx hl
      simp at hx ⊢
      omega
    have k2 : Kept path I I2 := N.kept.trans (B.kept.mono a.ne)
    have a2 := a.onward inv on2 k2
    have o2 : IconOk h2 I2 w ps (seen ++ body.targets (path ++ [name])) := by simpa using B.ok
    have pc : h2.parts c = h.parts c ++ [h.size] := by
      rw [B.on.only c (by omega), N.partsC]
      rw [N.kept.params]
      have := a.params
      simp; exact ⟨by omega, this⟩
    have xl := N.at_.lt inv1
    have tg2 : h2.tags c = h.tags c ++ [(name, true)] := by
      rw [tags_onward inv on2 pc, List.map_cons, List.map_nil]
      unfold Heap.tag
      rw [B.on.kind _ xl, B.on.idName _ xl, N.node.kind, N.node.name]; simp
    have := ihr (top := top) R2 T2 o2 K2 a2 (by rw [k2.root]; exact ht) (by
      intro x hx
      rw [k2.root] at hx
      have := hroot x hx
      omega) (by rw [tg2]; exact ok.2)
    unfold Items.targets Items.names
    simp only [List.append_assoc, List.cons_append, List.nil_append] at this ⊢
    exact this
  | device name rest ihr =>
    intro h I top ps seen path W c R T o K a ht hroot ok
    have inv := R.good.inv
    unfold Items.wellFormed at ok
    unfold FileIcon.visitItems
    refine (node_visit_goes X R T o K a name).bind (node_visit_does R o a name) fun I1 h1 R1 T1 K1 N => ?_
    have s1 := N.on.size
    have a1 := a.onward inv N.on N.kept
    have tg2 : h1.tags c = h.tags c ++ [(name, true)] := by
      rw [tags_onward inv N.on N.partsC, List.map_cons, List.map_nil]
      unfold Heap.tag
      rw [N.node.kind, N.node.name]; simp
    have := ihr (top := top) R1 T1 N.ok K1 a1 (by rw [N.kept.root]; exact ht) (by
      intro x hx
      rw [N.kept.root] at hx
      have := hroot x hx
      omega) (by rw [tg2]; exact ok)
    unfold Items.targets Items.names
    simp only [List.append_assoc, List.cons_append, List.nil_append] at this ⊢
    exact this
  | link d rest ihr =>
    intro h I top ps seen path W c R T o K a ht hroot ok
    have inv := R.good.inv
    unfold Items.wellFormed at ok
    rw [Bool.and_eq_true] at ok
    unfold FileIcon.visitItems
    refine (link_goes X R T o K a d ok.1).bind (link_does R o a d) fun I1 h1 R1 T1 K1 q => ?_
    obtain ⟨es, N⟩ := q
    have s1 := N.on.size
    have a1 := a.onward inv N.on N.kept
    have tg2 : h1.tags c = h.tags c ++ d.adds seen path := by
      rw [tags_onward inv N.on N.partsC, link_tags N.shows_]
    have := ihr (top := top) R1 T1 N.ok K1 a1 (by rw [N.kept.root]; exact ht) (by
      intro x hx
      rw [N.kept.root] at hx
      have := hroot x hx
      omega) (by rw [tg2]; exact ok.2)
    unfold Items.targets Items.names
    simp only [List.append_assoc] at this ⊢
    exact this
  | joint j rest ihr =>
    intro h I top ps seen path W c R T o K a ht hroot ok
    have inv := R.good.inv
    unfold Items.wellFormed at ok
    rw [Bool.and_eq_true] at ok
    unfold FileIcon.visitItems
    refine (joint_goes X R T o K a j ok.1).bind (joint_does R o a j) fun I1 h1 R1 T1 K1 q => ?_
    obtain ⟨e, N⟩ := q
    have s1 := N.on.size
    have a1 := a.onward inv N.on N.kept
    have tg2 : h1.tags c = h.tags c ++ [(j.name, false)] := by
      rw [tags_onward inv N.on N.partsC, List.map_cons, List.map_nil]
      unfold Heap.tag
      obtain ⟨rs, ed, -⟩ := N.shows_
      rw [ed.kind, ed.name]; simp
    have := ihr (top := top) R1 T1 N.ok K1 a1 (by rw [N.kept.root]; exact ht) (by
      intro x hx
      rw [N.kept.root] at hx
      have := hroot x hx
      omega) (by rw [tg2]; exact ok.2)
    unfold Items.targets Items.names
    simp only [List.append_assoc] at this ⊢
    exact this
  | params qs rest ihr =>
    intro h I top ps seen path W c R T o K a ht hroot ok
    have inv := R.good.inv
    unfold Items.wellFormed at ok
    unfold FileIcon.visitItems
    cases top with
    | true =>
      have ht' := ht.1 rfl
      refine (params_top_goes X ht' qs R T o K a).bind (params_top_does ht' qs R o a) fun _ h1 R1 T1 K1 N => ?_
      have s1 := N.on.size
      have a1 := a.onward inv N.on (.refl path I)
      have tg2 : h1.tags c = h.tags c := by
        have := tags_onward inv N.on (c := c) (l := []) (by
          rw [N.on.only c (a.lt inv) (by simpa using a.params)]; simp)
        simpa using this
      exact ihr (top := true) R1 T1 N.ok K1 a1 ht (fun x hx => by have := hroot x hx; omega) (by rw [tg2]; exact ok)
    | false =>
      have ht' : some c ≠ I.root := fun e => by have := ht.2 e; cases this
      refine (params_low_goes ht' T a qs).bind (params_low_does ht' qs R a) fun _ h1 R1 T1 _ N => ?_
      subst N
      exact ihr (top := false) R T o K a ht hroot ok
  | skipped rest ihr =>
    intro h I top ps seen path W c R T o K a ht hroot ok
    unfold FileIcon.visitItems
    exact ihr (top := top) R T o K a ht hroot ok

theorem newFileIcon_goes (R : Reach E h) (nm : Str) :
    Goes E h.size (newFileIcon E nm .local) h fun I h' =>
      Knows h' I h.size h.size [] [("world".toList, some "world".toList)] := by
  have T : Timely E h.size h := by
    have out : ∀ {p : Prop} (v : Ref), h.size ≤ v → v < h.size → p := fun v a b => by omega
    refine ⟨Nat.le_refl _, fun v a b _ => out v a b, fun v a b _ => out v a b, fun v p hv hp hl => ?_,
      fun v p hv hp hl _ => ?_, fun v a b _ => out v a b, fun v a b _ => out v a b, fun v a b _ => out v a b⟩
    · exact out p hl (R.good.inv.parent_lt hp)
    · exact out p hl (R.good.inv.parent_lt hp)
  unfold newFileIcon
  refine (Goes.of_fine (root_fine R T (F := { name := "factory_".toList ++ nm, clock := some .local }) rfl _)).bind
    (root_does R (F := { name := "factory_".toList ++ nm, clock := some .local }) (by simp) _) fun w h1 R1 T1 _ q => ?_
  obtain ⟨rfl, M⟩ := q
  refine (Goes.of_fine (root_fine R1 T1 (F := { name := "factory_".toList ++ nm, clock := some .local }) rfl _)).bind
    (root_does R1 (F := { name := "factory_".toList ++ nm, clock := some .local }) (by simp) _) fun p h2 R2 T2 _ q => ?_
  obtain ⟨rfl, M2⟩ := q
  have s1 := M.size
  have wl : h.size < h1.size := by omega
  have kw : (h2.get h.size).kind = .node := by rw [M2.later.kind _ wl, M.kind]
  have nw : (h2.get h.size).idName = "world".toList := by rw [M2.later.idName _ wl, M.idName]
  refine .pure T2 ⟨rfl, rfl, T1.le, fun k => ?_, fun k x hx => ?_, by simp, nw, kw⟩
  · show _ = (Dict.get? [("world".toList, h.size)] k).map _
    rw [Dict.get?_cons, List.lookup_cons]
    by_cases e : "world".toList = k
    · subst e; simp [nodeName?_node kw, nw]
    · have : (k == "world".toList) = false := by simpa using Ne.symm e
      rw [this, if_neg e]; rfl
  · change Dict.get? [("world".toList, h.size)] k = some x at hx
    rw [Dict.get?_cons] at hx
    split at hx
    · cases hx; exact Nat.le_refl _
    · cases hx

theorem visit_goes (X : Ideal E) (R : Reach E h) (T : Timely E lo h) (o : IconNewborn h I w)
    (K : Knows h I w lo [] [("world".toList, some "world".toList)]) (f : EntityDecl) (ok : f.wellFormed = true) :
    Goes E lo (I.visit E f) h fun _ _ => True := by
  have inv := R.good.inv
  have plt := o.ok.plt
  unfold FileIcon.visit
  refine (Goes.of_fine (root_fine R T K.fac f.name)).bind (root_does R o.ok.fac f.name) fun x h1 R1 T1 _ q => ?_
  obtain ⟨rfl, M⟩ := q
  have s1 := M.size
  have inv1 := R1.good.inv
  have o1 := o.ok.onward inv M.later (M.later.only _ plt (by simp))
  have K1 := K.onward o.ok M.later
  refine ((Goes.of_fine (sem_fine X R1 T1 K.cog _ T.le (by omega) (.inl M.kind) (by simp) _ (k := .cognitiveEntity)
    (by decide +kernel))).void (Q2 := fun _ _ => True) fun _ _ q => q).bind
    (sem_does R1 o.ok.cog _ _ (p := h.size) (by omega) (by rw [M.kind]; simp) _ _).void fun _ h2 R2 T2 _ q => ?_
  obtain ⟨_, rfl, k, hk, M2⟩ := q
  cases hk
  have s2 := M2.size
  have inv2 := R2.good.inv
  have o2 := o1.onward inv1 M2.later (M2.parts_ne (by omega) (by omega))
  have K2 := K1.onward o1 M2.later
  have kx : (h2.get h.size).kind = .node := by rw [M2.later.kind _ (by omega), M.kind]
  have qx : (h2.get h.size).qualName = f.name := by rw [M2.later.qualName _ (by omega), M.qualName]
  have nx : (h2.get h.size).idName = f.name := by rw [M2.later.idName _ (by omega), M.idName]
  refine .rememberB ?_
  have K3 := K2.remember (x := h.size) T.le qx (nodeName?_node kx)
  rw [qx] at K3 ⊢
  generalize hw : (if f.name = "world".toList then h.size else w) = w'
  generalize hI : ({ I with root := some h.size, cache := I.cache.set f.name h.size } : FileIcon) = I2
  have e1 : I2.root = some h.size := by rw [← hI]
  have e2 : I2.params = I.params := by rw [← hI]
  have e3 : I2.cache = I.cache.set f.name h.size := by rw [← hI]
  have e4 : I2.fac = I.fac := by rw [← hI]
  have e5 : I2.cog = I.cog := by rw [← hI]
  have e6 : I2.refs = I.refs := by rw [← hI]
  have o3 : IconOk h2 I2 w' [] [] := by
    refine ⟨by rw [e4]; exact o2.fac, by rw [e5]; exact o2.cog, ?_, ?_, by rw [e2]; exact o2.plt,
      by rw [e2]; exact o2.pkind, by rw [e2]; exact o2.params, by rw [e6]; exact o2.refs⟩
    · intro k y hy
      rw [e3, Dict.get?_set] at hy
      split at hy
      · next e =>
        cases hy
        exact ⟨by omega, .inl ⟨kx, by rw [qx, e]⟩⟩
      · exact o2.cache k y hy
    · rw [e3, Dict.get?_set, ← hw]
      split
      · rfl
      · exact o2.world
  have K4 : Knows h2 I2 w' lo [] [(f.name, some f.name), ("world".toList, some "world".toList)] := by
    rw [nx] at K3
    refine ⟨by rw [e4]; exact K.fac, by rw [e5]; exact K.cog, by rw [e2]; exact K.params, fun k => ?_, fun k x hx => ?_,
      by simp, ?_, ?_⟩
    · rw [e3]; exact K3.cache k
    · rw [e3] at hx; exact K3.low k x hx
    · rw [← hw]; split
      · next e => rw [nx, e]
      · exact K3.wname
    · rw [← hw]; split
      · exact kx
      · exact K3.wkind
  have a3 : At h2 I2 [f.name] h.size := by
    refine ⟨by simp, ?_, kx, M2.later.path inv1 (by omega) M.path, by rw [e2]; omega⟩
    rw [e3]
    unfold pathKey
    rw [Str.join_singleton]
    exact Dict.get?_set_self _ _ _
  have tg : h2.tags h.size = [(f.name, false)] := by
    unfold Heap.tags
    rw [M2.parts, M.empty]
    simp only [List.nil_append, List.map_cons, List.map_nil, M2.idName, M2.kind]
    simp
  obtain ⟨r, h3, e, T3, -⟩ := items_goes X f.body (top := true) R2 T2 o3 K4 a3 (by simp [e1])
    (by intro y hy; rw [e1] at hy; cases hy; omega) (by rw [tg]; exact ok)
  exact ⟨r, h3, e, T3, trivial⟩

/-- A well-formed file is accepted. -/
theorem readFile_goes (X : Ideal E) (R : Reach E h) (nm : Str) {f : EntityDecl} (ok : f.wellFormed = true) :
    Goes E h.size (readFile E nm .local f) h fun _ _ => True := by
  unfold readFile
  refine (newFileIcon_goes R nm).bind (newFileIcon_does R nm .local) fun I h1 R1 T1 K1 q => ?_
  exact visit_goes X R1 T1 q.1 K1 f ok

end

end Rei
