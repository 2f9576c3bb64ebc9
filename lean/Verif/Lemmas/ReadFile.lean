import Verif.Lemmas.ReadJoint

/-!
# Reading a CogniLang file: bodies and the whole file
-/
namespace Rei
open PyM

theorem ParamAt.onward {h h' : Heap} {D : List Ref} (a : Onward h.size D h h') {v : Ref} {p : Str × Rat}
    (lt : v < h.size) (hv : ParamAt h v p) : ParamAt h' v p := by
  refine ⟨by rw [a.kind v lt, hv.kind], by rw [a.idName v lt, hv.name],
    by rw [a.vals v lt]; exact Nat.lt_of_lt_of_le hv.ok a.nlists, ?_⟩
  unfold Heap.valuesOf
  rw [a.vals v lt, a.lists _ hv.ok]; exact hv.values

/-- A parameter is declared. -/
theorem IconOk.declare {h h' : Heap} {I : FileIcon} {w : Ref} {ps : Params} {seen : List Str} (o : IconOk h I w ps seen)
    (inv : Inv h) {D : List Ref} (a : Onward h.size D h h') {v : Ref} {q : Str × Rat}
    (hp : h'.parts I.params = h.parts I.params ++ [v]) (hv : ParamAt h' v q) : IconOk h' I w (ps ++ [q]) seen := by
  refine ⟨o.fac, o.cog, ?_, o.world, Nat.lt_of_lt_of_le o.plt a.size, by rw [a.kind _ o.plt, o.pkind], ?_, o.refs⟩
  · intro k x hx
    obtain ⟨b, c⟩ := o.cache k x hx
    rw [a.kind x b, a.qualName x b]
    exact ⟨Nat.lt_of_lt_of_le b a.size, c⟩
  · rw [hp]
    have : ∀ (l : List Ref) (ps : Params), (∀ v ∈ l, v < h.size) → List.Forall₂ (ParamAt h) l ps →
        List.Forall₂ (ParamAt h') l ps := by
      intro l ps hl f
      induction f with
      | nil => exact .nil
      | @cons v p l ps hv _ ih => exact .cons (hv.onward a (hl v (by simp))) (ih fun v hv => hl v (by simp [hv]))
    exact List.rel_append (this _ _ (fun v hv => inv.parts_lt hv) o.params) (.cons hv .nil)

/-- What the reader made for parameters in `c`. -/
structure ParamsRead (I : FileIcon) (w : Ref) (ps qs : Params) (seen : List Str) (c : Ref) (h h' : Heap) : Prop where
  on : Onward h.size [I.params] h h'
  ok : IconOk h' I w (ps ++ qs) seen

theorem params_top_does {E : Env} {I : FileIcon} {w : Ref} {seen : List Str} {path : List Str} {c : Ref}
    (hr : some c = I.root) : ∀ (qs : Params) {h : Heap} {ps : Params} (_ : Reach E h)
    (_ : IconOk h I w ps seen) (_ : At h I path c),
    Does E (forEach qs fun p => I.visitParam E path p) h fun _ h' => ParamsRead I w ps qs seen c h h'
  | [], h, ps, R, o, a => .pure R ⟨.refl _ _ _, by rw [List.append_nil]; exact o⟩
  | q :: qs, h, ps, R, o, a => by
    have inv := R.good.inv
    rw [forEach_cons]
    refine Does.bind (Q := fun _ h' => Onward h.size [I.params] h h' ∧ IconOk h' I w (ps ++ [q]) seen) ?_ ?_
    · unfold FileIcon.visitParam
      refine (a.does R).bind fun _ h1 R1 q => ?_
      obtain ⟨rfl, rfl⟩ := q
      rw [if_pos hr]
      refine (value_does R o.fac q.1 o.plt (by rw [o.pkind]; simp) [q.2]).void.mono fun _ h1 R1 z => ?_
      obtain ⟨_, rfl, M, m1, m2⟩ := z
      exact ⟨M.later, o.declare inv M.later M.parts ⟨M.kind, M.idName, m2, m1⟩⟩
    · rintro _ h1 R1 ⟨on, o1⟩
      have s1 := on.size
      refine (params_top_does hr qs R1 o1 (a.onward inv on (.refl _ _))).mono fun _ h2 R2 z => ?_
      exact ⟨on.trans (z.on.weaken s1 fun _ b _ => b), by simpa using z.ok⟩

theorem params_low_does {E : Env} {I : FileIcon} {path : List Str} {c : Ref}
    (hr : some c ≠ I.root) : ∀ (qs : Params) {h : Heap} (_ : Reach E h) (_ : At h I path c),
    Does E (forEach qs fun p => I.visitParam E path p) h fun _ h' => h = h'
  | [], h, R, a => .pure R rfl
  | q :: qs, h, R, a => by
    rw [forEach_cons]
    refine Does.bind (Q := fun _ h' => h = h') ?_ ?_
    · unfold FileIcon.visitParam
      refine (a.does R).bind fun _ h1 R1 q => ?_
      obtain ⟨rfl, rfl⟩ := q
      rw [if_neg hr]
      exact .pure R rfl
    · rintro _ h1 R1 rfl
      exact params_low_does hr qs R a

/-- What the reader made for a nested node in `c`. -/
structure NodeRead (I : FileIcon) (w : Ref) (ps : Params) (seen path : List Str) (c : Ref)
    (name : Str) (h : Heap) (I' : FileIcon) (h' : Heap) (l : List Ref) : Prop where
  on : Onward h.size [c] h h'
  ok : IconOk h' I' w ps seen
  kept : Kept path I I'
  partsC : h'.parts c = h.parts c ++ [h.size]
  node : IsNode h' h.size name (path ++ [name]) l
  at_ : At h' I' (path ++ [name]) h.size

theorem node_visit_does {E : Env} {h : Heap} {I : FileIcon} {w : Ref} {ps : Params} {seen : List Str} (R : Reach E h)
    (o : IconOk h I w ps seen) {path : List Str} {c : Ref} (a : At h I path c) (name : Str) :
    Does E (I.visitNode E path name) h fun I' h' => NodeRead I w ps seen path c name h I' h' [] := by
  have inv := R.good.inv
  have hcl := a.lt inv
  have plt := o.plt
  unfold FileIcon.visitNode
  refine (a.does R).bind fun _ h1 R1 q => ?_
  obtain ⟨rfl, rfl⟩ := q
  refine (node_does R o.fac _ hcl (by rw [a.kind]; simp)).bind fun x h1 R1 q => ?_
  obtain ⟨rfl, M⟩ := q
  have s1 := M.size
  have p1 := M.path _ a.path
  have o1 := o.onward inv M.later (M.parts_ne plt a.params.symm)
  refine (remember_does R1 _ _).mono fun I2 h2 R2 q => ?_
  obtain ⟨rfl, rfl⟩ := q
  refine ⟨M.later, o1.remember (by omega) (.inl M.kind) (by rw [p1.2]; exact (join_longer a.ne _ _).2),
    Kept.remember a.ne p1.2 _, M.parts, M.isNode a.path, ⟨by simp, ?_, M.kind, p1.1, ?_⟩⟩
  · show (I.cache.set (h1.get h.size).qualName h.size).get? _ = _
    rw [p1.2]; exact Dict.get?_set_self _ _ _
  · show h.size ≠ I.params
    omega

theorem kinematic_visit_does {E : Env} {h : Heap} {I : FileIcon} {w : Ref} {ps : Params} {seen : List Str}
    (R : Reach E h) (o : IconOk h I w ps seen) {path : List Str} {c : Ref} (a : At h I path c) (name : Str) :
    Does E (I.visitKinematic E path name) h fun I' h' => ∃ s, NodeRead I w ps seen path c name h I' h' [s] ∧
      IsSem h' s .kinGraph name [("name".toList, .str name)] [] ∧ h.size ≤ s := by
  have inv := R.good.inv
  have hcl := a.lt inv
  have plt := o.plt
  unfold FileIcon.visitKinematic
  refine (a.does R).bind fun _ h1 R1 q => ?_
  obtain ⟨rfl, rfl⟩ := q
  refine (node_does R o.fac _ hcl (by rw [a.kind]; simp)).bind fun x h1 R1 q => ?_
  obtain ⟨rfl, M⟩ := q
  have s1 := M.size
  have inv1 := R1.good.inv
  have p1 := M.path _ a.path
  have o1 := o.onward inv M.later (M.parts_ne plt a.params.symm)
  refine (sem_does R1 o.cog _ _ (p := h.size) (by omega) (by rw [M.kind]; simp) _ _).void.bind fun _ h2 R2 q => ?_
  obtain ⟨_, rfl, k, hk, M2⟩ := q
  cases hk
  have s2 := M2.size
  have o2 := o1.onward inv1 M2.later (M2.parts_ne (by omega) (by omega))
  refine (remember_does R2 _ _).mono fun I2 h3 R3 q => ?_
  obtain ⟨rfl, rfl⟩ := q
  have qn : (h2.get h.size).qualName = Str.join '/' (path ++ [name]) := by rw [M2.later.qualName _ (by omega), p1.2]
  have kx : (h2.get h.size).kind = .node := by rw [M2.later.kind _ (by omega), M.kind]
  refine ⟨h1.size, ⟨M.later.trans (M2.later.weaken (by omega) (by intro z hz hl; simp at hz; omega)),
    o2.remember (by omega) (.inl kx) (by rw [qn]; exact (join_longer a.ne _ _).2),
    Kept.remember a.ne qn _, by rw [M2.parts_ne (by omega) (by omega), M.parts],
    ⟨kx, by rw [M2.later.idName _ (by omega), M.idName], qn, by rw [M2.parts, M.empty]; rfl⟩,
    ⟨by simp, ?_, kx, M2.later.path inv1 (by omega) p1.1, ?_⟩⟩, M2.isSem, by omega⟩
  · show (I.cache.set (h2.get h.size).qualName h.size).get? _ = _
    rw [qn]; exact Dict.get?_set_self _ _ _
  · show h.size ≠ I.params
    omega

/-- What the reader made for a body in `c`. -/
structure ItemsRead (I : FileIcon) (w : Ref) (top : Bool) (ps : Params) (seen path : List Str) (c : Ref)
    (items : Items) (h : Heap) (I' : FileIcon) (h' : Heap) (l : List Ref) : Prop where
  on : Onward h.size [c, I.params] h h'
  ok : IconOk h' I' w (if top then ps ++ items.declared else ps) (seen ++ items.targets path)
  kept : Kept path I I'
  partsC : h'.parts c = h.parts c ++ l
  shows_ : Shows h' w c top ps seen path items l
  fresh : ∀ x ∈ l, h.size ≤ x

theorem items_does {E : Env} {w : Ref} (items : Items) : ∀ {h : Heap} {I : FileIcon} {top : Bool} {ps : Params}
    {seen path : List Str} {c : Ref} (_ : Reach E h) (_ : IconOk h I w ps seen) (_ : At h I path c)
    (_ : top = true ↔ some c = I.root) (_ : ∀ x, I.root = some x → x < h.size),
    Does E (FileIcon.visitItems E path I items) h fun I' h' => ∃ l, ItemsRead I w top ps seen path c items h I' h' l := by
  induction items with
  | nil =>
    intro h I top ps seen path c R o a ht hroot
    refine .pure R ⟨[], .refl _ _ _, ?_, .refl _ _, by simp, rfl, by simp⟩
    simpa [Items.declared, Items.targets] using o
  | kinematic name body rest ihb ihr =>
    intro h I top ps seen path c R o a ht hroot
    have inv := R.good.inv
    have hcl := a.lt inv
    have plt := o.plt
    unfold FileIcon.visitItems
    refine (kinematic_visit_does R o a name).bind fun I1 h1 R1 q => ?_
    obtain ⟨s, N, S, sf⟩ := q
    have inv1 := R1.good.inv
    have s1 := N.on.size
    have xl := N.at_.lt inv1
    refine (ihb (top := false) R1 N.ok N.at_ ?_ ?_).bind fun I2 h2 R2 q => ?_
    · simp only [Bool.false_eq_true, false_iff]
      intro e
      rw [N.kept.root] at e
      have := hroot _ e.symm
      omega
    · intro x hx
      rw [N.kept.root] at hx
      have := hroot x hx
      omega
    obtain ⟨ys, B⟩ := q
    have inv2 := R2.good.inv
    have s2 := B.on.size
    have on2 : Onward h.size [c, I.params] h h2 := by
      refine (N.on.weaken (Nat.le_refl _) (by simp +contextual)).trans (B.on.weaken s1 ?_)
      rw [N.kept.params]
      intro x hx hl
      simp at hx ⊢
      omega
    have k2 : Kept path I I2 := N.kept.trans (B.kept.mono a.ne)
    have a2 := a.onward inv on2 k2
    have o2 : IconOk h2 I2 w ps (seen ++ body.targets (path ++ [name])) := by simpa using B.ok
    refine (ihr (top := top) R2 o2 a2 (by rw [k2.root]; exact ht) ?_).mono fun I3 h3 R3 q => ?_
    · intro x hx
      rw [k2.root] at hx
      have := hroot x hx
      omega
    obtain ⟨l, Q⟩ := q
    have on3 : Onward h.size [c, I.params] h2 h3 := by
      have := Q.on
      rw [k2.params] at this
      exact this.weaken (by omega) fun x hx _ => hx
    have low : ∀ x ∈ [c, I2.params], x < h.size := by
      rw [k2.params]; simp; exact ⟨hcl, plt⟩
    have ca : Carry h.size h2 h3 := on2.carry inv inv2 Q.on low
    have k12 : Carry h1.size h1 h2 := ⟨inv1, ⟨_, B.on, by
      rw [N.kept.params]; simp; omega⟩, fun x hx p hp => inv1.parent_lt hp⟩
    have sl : s < h1.size := inv1.lt_of_kind (by rw [S.kind]; simp)
    have S2 : IsSem h2 s .kinGraph name [("name".toList, .str name)] [] := by
      have e1 : s ≠ h.size := by
        rintro rfl
        have := S.kind; rw [N.node.kind] at this; cases this
      refine ⟨by rw [B.on.kind s sl, S.kind], by rw [B.on.idName s sl, S.name], fun key => ?_, ?_⟩
      · rw [← S.attrs key]; unfold getAttribute; rw [B.on.attrs s sl]
      · rw [B.on.only s sl, S.parts]
        rw [N.kept.params]; simp; omega
    refine ⟨h.size :: l, on2.trans on3, ?_, k2.trans Q.kept, ?_, ⟨h.size, s, ys, l, rfl, ?_, ?_, ?_, Q.shows_⟩, ?_⟩
    · have := Q.ok
      rw [List.append_assoc] at this
      exact this
    · rw [Q.partsC, B.on.only c (by omega), N.partsC]
      · simp
      · rw [N.kept.params]
        have := a.params
        simp; exact ⟨by omega, this⟩
    · refine ca.node (Nat.le_refl _) ⟨?_, ?_, ?_, ?_⟩
      · rw [B.on.kind _ xl, N.node.kind]
      · rw [B.on.idName _ xl, N.node.name]
      · rw [B.on.qualName _ xl, N.node.path]
      · rw [B.partsC, N.node.parts]; rfl
    · exact ca.sem sf S2
    · exact ca.shows_ (fun x hx => by have := B.fresh x hx; omega) B.shows_
    · intro x hx
      rcases List.mem_cons.1 hx with rfl | hx
      · exact Nat.le_refl _
      · have := Q.fresh x hx; omega
  | ambient name body rest ihb ihr =>
    intro h I top ps seen path c R o a ht hroot
    have inv := R.good.inv
    have hcl := a.lt inv
    have plt := o.plt
    unfold FileIcon.visitItems
    refine (node_visit_does R o a name).bind fun I1 h1 R1 N => ?_
    have inv1 := R1.good.inv
    have s1 := N.on.size
    have xl := N.at_.lt inv1
    refine (ihb (top := false) R1 N.ok N.at_ ?_ ?_).bind fun I2 h2 R2 q => ?_
    · simp only [Bool.false_eq_true, false_iff]
      intro e
      rw [N.kept.root] at e
      have := hroot _ e.symm
      omega
    · intro x hx
      rw [N.kept.root] at hx
      have := hroot x hx
      omega
    obtain ⟨ys, B⟩ := q
    have inv2 := R2.good.inv
    have s2 := B.on.size
    have on2 : Onward h.size [c, I.params] h h2 := by
      refine (N.on.weaken (Nat.le_refl _) (by simp +contextual)).trans (B.on.weaken s1 ?_)
      rw [N.kept.params]
      intro x hx hl
      simp at hx ⊢
      omega
    have k2 : Kept path I I2 := N.kept.trans (B.kept.mono a.ne)
    have a2 := a.onward inv on2 k2
    have o2 : IconOk h2 I2 w ps (seen ++ body.targets (path ++ [name])) := by simpa using B.ok
    refine (ihr (top := top) R2 o2 a2 (by rw [k2.root]; exact ht) ?_).mono fun I3 h3 R3 q => ?_
    · intro x hx
      rw [k2.root] at hx
      have := hroot x hx
      omega
    obtain ⟨l, Q⟩ := q
    have on3 : Onward h.size [c, I.params] h2 h3 := by
      have := Q.on
      rw [k2.params] at this
      exact this.weaken (by omega) fun x hx _ => hx
    have low : ∀ x ∈ [c, I2.params], x < h.size := by
      rw [k2.params]; simp; exact ⟨hcl, plt⟩
    have ca : Carry h.size h2 h3 := on2.carry inv inv2 Q.on low
    refine ⟨h.size :: l, on2.trans on3, ?_, k2.trans Q.kept, ?_, ⟨h.size, ys, l, rfl, ?_, ?_, Q.shows_⟩, ?_⟩
    · have := Q.ok
      rw [List.append_assoc] at this
      exact this
    · rw [Q.partsC, B.on.only c (by omega), N.partsC]
      · simp
      · rw [N.kept.params]
        have := a.params
        simp; exact ⟨by omega, this⟩
    · refine ca.node (Nat.le_refl _) ⟨?_, ?_, ?_, ?_⟩
      · rw [B.on.kind _ xl, N.node.kind]
      · rw [B.on.idName _ xl, N.node.name]
      · rw [B.on.qualName _ xl, N.node.path]
      · rw [B.partsC, N.node.parts]; rfl
    · exact ca.shows_ (fun x hx => by have := B.fresh x hx; omega) B.shows_
    · intro x hx
      rcases List.mem_cons.1 hx with rfl | hx
      · exact Nat.le_refl _
      · have := Q.fresh x hx; omega
  | device name rest ihr =>
    intro h I top ps seen path c R o a ht hroot
    have inv := R.good.inv
    have hcl := a.lt inv
    have plt := o.plt
    unfold FileIcon.visitItems
    refine (node_visit_does R o a name).bind fun I1 h1 R1 N => ?_
    have inv1 := R1.good.inv
    have s1 := N.on.size
    have a1 := a.onward inv N.on N.kept
    refine (ihr (top := top) R1 N.ok a1 (by rw [N.kept.root]; exact ht) ?_).mono fun I3 h3 R3 q => ?_
    · intro x hx
      rw [N.kept.root] at hx
      have := hroot x hx
      omega
    obtain ⟨l, Q⟩ := q
    have ca : Carry h.size h1 h3 := N.on.carry inv inv1 Q.on (by rw [N.kept.params]; simp; exact ⟨hcl, plt⟩)
    have on3 : Onward h.size [c, I.params] h1 h3 := by
      have := Q.on
      rw [N.kept.params] at this
      exact this.weaken (by omega) fun x hx _ => hx
    refine ⟨h.size :: l, (N.on.weaken (Nat.le_refl _) (by simp +contextual)).trans on3, Q.ok, N.kept.trans Q.kept,
      by rw [Q.partsC, N.partsC]; simp, ⟨h.size, l, rfl, ca.node (Nat.le_refl _) N.node, Q.shows_⟩, ?_⟩
    intro x hx
    rcases List.mem_cons.1 hx with rfl | hx
    · exact Nat.le_refl _
    · have := Q.fresh x hx; omega
  | link d rest ihr =>
    intro h I top ps seen path c R o a ht hroot
    have inv := R.good.inv
    have hcl := a.lt inv
    have plt := o.plt
    unfold FileIcon.visitItems
    refine (link_does R o a d).bind fun I1 h1 R1 q => ?_
    obtain ⟨es, N⟩ := q
    have inv1 := R1.good.inv
    have s1 := N.on.size
    have a1 := a.onward inv N.on N.kept
    refine (ihr (top := top) R1 N.ok a1 (by rw [N.kept.root]; exact ht) ?_).mono fun I3 h3 R3 q => ?_
    · intro x hx
      rw [N.kept.root] at hx
      have := hroot x hx
      omega
    obtain ⟨l, Q⟩ := q
    have ca : Carry h.size h1 h3 := N.on.carry inv inv1 Q.on (by rw [N.kept.params]; simp; exact ⟨hcl, plt⟩)
    have on3 : Onward h.size [c, I.params] h1 h3 := by
      have := Q.on
      rw [N.kept.params] at this
      exact this.weaken (by omega) fun x hx _ => hx
    refine ⟨h.size :: es ++ l, (N.on.weaken (Nat.le_refl _) (by simp +contextual)).trans on3, ?_, N.kept.trans Q.kept,
      by rw [Q.partsC, N.partsC]; simp, ⟨h.size, es, l, rfl, ca.link (Nat.le_refl _) N.fresh N.shows_, Q.shows_⟩, ?_⟩
    · have := Q.ok
      rw [List.append_assoc] at this
      exact this
    · intro x hx
      rcases List.mem_append.1 hx with hx | hx
      · rcases List.mem_cons.1 hx with rfl | hx
        · exact Nat.le_refl _
        · exact N.fresh x hx
      · have := Q.fresh x hx; omega
  | joint j rest ihr =>
    intro h I top ps seen path c R o a ht hroot
    have inv := R.good.inv
    have hcl := a.lt inv
    have plt := o.plt
    unfold FileIcon.visitItems
    refine (joint_does R o a j).bind fun I1 h1 R1 q => ?_
    obtain ⟨e, N⟩ := q
    have inv1 := R1.good.inv
    have s1 := N.on.size
    have a1 := a.onward inv N.on N.kept
    refine (ihr (top := top) R1 N.ok a1 (by rw [N.kept.root]; exact ht) ?_).mono fun I3 h3 R3 q => ?_
    · intro x hx
      rw [N.kept.root] at hx
      have := hroot x hx
      omega
    obtain ⟨l, Q⟩ := q
    have ca : Carry h.size h1 h3 := N.on.carry inv inv1 Q.on (by rw [N.kept.params]; simp; exact ⟨hcl, plt⟩)
    have on3 : Onward h.size [c, I.params] h1 h3 := by
      have := Q.on
      rw [N.kept.params] at this
      exact this.weaken (by omega) fun x hx _ => hx
    refine ⟨e :: l, (N.on.weaken (Nat.le_refl _) (by simp +contextual)).trans on3, Q.ok, N.kept.trans Q.kept,
      by rw [Q.partsC, N.partsC]; simp, ⟨e, l, rfl, ca.joint N.fresh N.shows_, Q.shows_⟩, ?_⟩
    intro x hx
    rcases List.mem_cons.1 hx with rfl | hx
    · exact N.fresh
    · have := Q.fresh x hx; omega
  | params qs rest ihr =>
    intro h I top ps seen path c R o a ht hroot
    have inv := R.good.inv
    have hcl := a.lt inv
    have plt := o.plt
    unfold FileIcon.visitItems
    cases top with
    | true =>
      have ht' := ht.1 rfl
      refine (params_top_does ht' qs R o a).bind fun _ h1 R1 N => ?_
      have s1 := N.on.size
      have a1 := a.onward inv N.on (.refl path I)
      refine (ihr (top := true) R1 N.ok a1 ht fun x hx => by have := hroot x hx; omega).mono fun I3 h3 R3 q => ?_
      obtain ⟨l, Q⟩ := q
      refine ⟨l, (N.on.weaken (Nat.le_refl _) (by simp +contextual)).trans (Q.on.weaken (by omega) fun x hx _ => hx), ?_,
        Q.kept, by rw [Q.partsC, N.on.only c hcl (by simpa using a.params)], ?_,
        fun x hx => by have := Q.fresh x hx; omega⟩
      · have := Q.ok
        simp only [if_true, List.append_assoc] at this
        exact this
      · exact Q.shows_
    | false =>
      have ht' : some c ≠ I.root := fun e => by have := ht.2 e; cases this
      refine (params_low_does ht' qs R a).bind fun _ h1 R1 N => ?_
      subst N
      refine (ihr (top := false) R o a ht hroot).mono fun I3 h3 R3 q => ?_
      obtain ⟨l, Q⟩ := q
      exact ⟨l, Q.on, Q.ok, Q.kept, Q.partsC, Q.shows_, Q.fresh⟩
  | skipped rest ihr =>
    intro h I top ps seen path c R o a ht hroot
    unfold FileIcon.visitItems
    refine (ihr (top := top) R o a ht hroot).mono fun I3 h3 R3 q => ?_
    obtain ⟨l, Q⟩ := q
    exact ⟨l, Q.on, Q.ok, Q.kept, Q.partsC, Q.shows_, Q.fresh⟩


/-- Everything a step says about the root it made. -/
structure MadeRoot (nm : Str) (h h' : Heap) : Prop where
  later : Onward h.size [] h h'
  size : h'.size = h.size + 1
  empty : h'.parts h.size = []
  kind : (h'.get h.size).kind = .node
  idName : (h'.get h.size).idName = nm
  parent : (h'.get h.size).parent = none
  depth : (h'.get h.size).depth = 0
  depths : ∀ x < h.size, (h.get x).kind = .node → (h'.get x).depth = (h.get x).depth
  uuids : ∀ x < h.size, (h'.get x).uuid = (h.get x).uuid
  qualName : (h'.get h.size).qualName = nm
  path : PathTo h' h.size [nm]

theorem MadeRoot.isNode {nm : Str} {h h' : Heap} (M : MadeRoot nm h h') : IsNode h' h.size nm [nm] [] :=
  ⟨M.kind, M.idName, by rw [M.qualName, Str.join_singleton], M.empty⟩

/-- `generate_node` without a parent. -/
theorem root_does {E : Env} {h : Heap} (R : Reach E h) {F : Factory} (hF : F.clock ≠ none) (nm : Str) :
    Does E (F.generateNode E nm none) h fun x h' => x = h.size ∧ MadeRoot nm h h' := by
  apply Does.of_run
  obtain ⟨r1, hu, hu2⟩ := F.generateUid_run (E := E) hF (h.newPath nm none) h
  have R1 : Reach E { h with reads := r1 } := by rw [hu2]; exact reach_readClock R _
  obtain ⟨r2, t, hs, hs2⟩ := stamped_run (E := E) hF nm { h with reads := r1 }
  have R2 : Reach E { h with reads := r2 } := by
    have := reach_readClock R1 F.clock
    rw [← hs2] at this; exact this
  obtain ⟨ck, hck'⟩ := Option.ne_none_iff_exists'.1 hF
  obtain ⟨h', e, g⟩ := new_conceptual (E := E) R2.good .node nm (F.uid E (h.newPath nm none) h)
    (.str (Str.join '/' [F.name, nm ++ '.' :: decimal t])) ck
  have R' := reach_newConceptual R2 (k := .node) rfl nm (F.uid E (h.newPath nm none) h)
    (.str (Str.join '/' [F.name, nm ++ '.' :: decimal t])) (some ck) (p := none) (by rintro x ⟨⟩)
  rw [e] at R'
  refine ⟨.ok h.size, h', ?_, R', ?_⟩
  · unfold Factory.generateNode
    rw [heap_bind_run, bind_ok hu, bind_ok hs, hck', e]
  · rintro x ⟨⟩
    replace g := g.reads
    have inv := R.good.inv
    have sub : ∀ x < h.size, h'.get x = h.get x := fun x hx => g.others x hx (by simp)
    have pt : ∀ x < h.size, h'.parts x = h.parts x := by
      intro x hx
      refine parts_congr inv ?_ fun y hy => by rw [sub y hy]
      unfold Heap.subelements
      rw [sub x hx]
    have pa : (h'.get h.size).parent = none := by have := congrArg Obj.parent g.new; exact this
    have nm' : (h'.get h.size).idName = nm := by have := congrArg Obj.idName g.new; exact this
    have p := PathTo.root pa
    rw [nm'] at p
    refine ⟨rfl, ⟨⟨by rw [g.size]; omega, g.nlists, g.lists, ?_, ?_, ?_, ?_, ?_, ?_, ?_, ?_, ?_, ?_, ?_⟩, g.size,
      g.newParts rfl, by have := congrArg Obj.kind g.new; exact this, nm', pa, g.depth, fun x hx _ => by rw [sub x hx], fun x hx => by rw [sub x hx], ?_, p⟩⟩
    iterate 9 (intro x hx; rw [sub x hx])
    · intro x hx; rw [pt x hx]
    · intro x hx _; exact pt x hx
    · obtain ⟨l, hl, e⟩ := g.named
      rw [e, hl.unique p, Str.join_singleton]

/-- The state of a reader before it reads. -/
structure IconNewborn (h : Heap) (I : FileIcon) (w : Ref) : Prop where
  ok : IconOk h I w [] []
  root : I.root = none
  world : IsNode h w "world".toList ["world".toList] []
  params : IsNode h I.params "parameters".toList ["parameters".toList] []
  ne : w ≠ I.params
  clock : I.fac.clock = I.cog.clock
  worldRoot : (h.get w).parent = none
  paramsRoot : (h.get I.params).parent = none

theorem newFileIcon_does {E : Env} {h : Heap} (R : Reach E h) (nm : Str) (ck : Clock) :
    Does E (newFileIcon E nm ck) h fun I h' => IconNewborn h' I h.size ∧ Onward h.size [] h h' ∧ h'.size = h.size + 2 ∧
      I.params = h.size + 1 := by
  unfold newFileIcon
  refine (root_does R (F := { name := "factory_".toList ++ nm, clock := some ck }) (by simp) _).bind fun w h1 R1 q => ?_
  obtain ⟨rfl, M⟩ := q
  refine (root_does R1 (F := { name := "factory_".toList ++ nm, clock := some ck }) (by simp) _).bind fun p h2 R2 q => ?_
  obtain ⟨rfl, M2⟩ := q
  have s1 := M.size
  have s2 := M2.size
  have wl : h.size < h1.size := by omega
  have W : IsNode h2 h.size "world".toList ["world".toList] [] :=
    ⟨by rw [M2.later.kind _ wl, M.kind], by rw [M2.later.idName _ wl, M.idName],
      by rw [M2.later.qualName _ wl, M.isNode.path], by rw [M2.later.only _ wl (by simp), M.empty]⟩
  refine .pure R2 ⟨⟨⟨by simp, by simp, ?_, ?_, ?_, M2.kind, ?_, ?_⟩, rfl, W, M2.isNode, ?_, rfl,
    by rw [M2.later.parent _ wl, M.parent], M2.parent⟩,
    M.later.trans (M2.later.weaken (by omega) (by simp)), by omega, s1⟩
  · intro k x hx
    change Dict.get? [("world".toList, h.size)] k = some x at hx
    rw [Dict.get?_cons] at hx
    split at hx
    · next e =>
      cases hx
      exact ⟨by omega, .inl ⟨W.kind, by rw [W.path, Str.join_singleton]; exact e⟩⟩
    · cases hx
  · show Dict.get? [("world".toList, h.size)] _ = _
    rw [Dict.get?_cons, if_pos rfl]
  · show h1.size < h2.size
    omega
  · show List.Forall₂ _ (h2.parts h1.size) []
    rw [M2.empty]; exact .nil
  · intro k
    show (Dict.has ([] : Dict Str Ref) k) = true ↔ k ∈ []
    simp [Dict.has, Dict.get?]
  · show h.size ≠ h1.size
    omega

/-- What the reader made for a file. -/
structure FileRead (I : FileIcon) (w : Ref) (f : EntityDecl) (h : Heap) (I' : FileIcon) (h' : Heap) : Prop where
  on : Onward h.size [I.params] h h'
  root : I'.root = some h.size
  params : I'.params = I.params
  shows_ : ShowsFile h' (if f.name = "world".toList then h.size else w) h.size f
  ok : IconOk h' I' (if f.name = "world".toList then h.size else w) f.body.declared (f.body.targets [f.name])

theorem visit_does {E : Env} {h : Heap} {I : FileIcon} {w : Ref} (R : Reach E h) (o : IconNewborn h I w)
    (f : EntityDecl) : Does E (I.visit E f) h fun I' h' => FileRead I w f h I' h' := by
  have inv := R.good.inv
  have plt := o.ok.plt
  unfold FileIcon.visit
  refine (root_does R o.ok.fac f.name).bind fun x h1 R1 q => ?_
  obtain ⟨rfl, M⟩ := q
  have s1 := M.size
  have inv1 := R1.good.inv
  have o1 := o.ok.onward inv M.later (M.later.only _ plt (by simp))
  refine (sem_does R1 o.ok.cog _ _ (p := h.size) (by omega) (by rw [M.kind]; simp) _ _).void.bind fun _ h2 R2 q => ?_
  obtain ⟨_, rfl, k, hk, M2⟩ := q
  cases hk
  have s2 := M2.size
  have inv2 := R2.good.inv
  have o2 := o1.onward inv1 M2.later (M2.parts_ne (by omega) (by omega))
  have kx : (h2.get h.size).kind = .node := by rw [M2.later.kind _ (by omega), M.kind]
  have qx : (h2.get h.size).qualName = f.name := by rw [M2.later.qualName _ (by omega), M.qualName]
  refine (remember_does R2 _ _).bind fun I2 h3 R3 q => ?_
  obtain ⟨rfl, rfl⟩ := q
  rw [qx]
  generalize hw : (if f.name = "world".toList then h.size else w) = w'
  generalize hI : ({ I with root := some h.size, cache := I.cache.set f.name h.size } : FileIcon) = I2
  have e1 : I2.root = some h.size := by rw [← hI]
  have e2 : I2.params = I.params := by rw [← hI]
  have e3 : I2.cache = I.cache.set f.name h.size := by rw [← hI]
  have e4 : I2.fac = I.fac := by rw [← hI]
  have e5 : I2.cog = I.cog := by rw [← hI]
  have e6 : I2.refs = I.refs := by rw [← hI]
  have o3 : IconOk h2 I2 w' [] [] := by
    refine ⟨by rw [e4]; exact o2.fac, by rw [e5]; exact o2.cog, ?_, ?_, by rw [e2]; exact o2.plt,
      by rw [e2]; exact o2.pkind, by rw [e2]; exact o2.params, by rw [e6]; exact o2.refs⟩
    · intro k y hy
      rw [e3, Dict.get?_set] at hy
      split at hy
      · next e =>
        cases hy
        exact ⟨by omega, .inl ⟨kx, by rw [qx, e]⟩⟩
      · exact o2.cache k y hy
    · rw [e3, Dict.get?_set, ← hw]
      split
      · rfl
      · exact o2.world
  have a3 : At h2 I2 [f.name] h.size := by
    refine ⟨by simp, ?_, kx, M2.later.path inv1 (by omega) M.path, by rw [e2]; omega⟩
    rw [e3]
    unfold pathKey
    rw [Str.join_singleton]
    exact Dict.get?_set_self _ _ _
  refine (items_does (top := true) f.body R2 o3 a3 (by simp [e1]) ?_).mono fun I4 h4 R4 q => ?_
  · intro y hy
    rw [e1] at hy; cases hy; omega
  obtain ⟨l, Q⟩ := q
  have onQ := Q.on
  rw [e2] at onQ
  have xl : h.size < h2.size := by omega
  have sl : h1.size < h2.size := by omega
  have S : IsSem h2 h1.size .cognitiveEntity f.name [("name".toList, .str f.name)] [] := M2.isSem
  refine ⟨(M.later.trans (M2.later.weaken (by omega) (by intro z hz hl; simp at hz; omega))).weaken (Nat.le_refl _)
    (by simp) |>.trans (onQ.weaken (by omega) (by intro z hz hl; simp at hz ⊢; omega)),
    by rw [Q.kept.root, e1], by rw [Q.kept.params, e2], ?_, ?_⟩
  · rw [hw]
    refine ⟨h1.size, l, ⟨?_, ?_, ?_, ?_⟩, ?_, ⟨?_, ?_, fun key => ?_, ?_⟩, Q.shows_⟩
    · rw [onQ.kind _ xl, kx]
    · rw [onQ.idName _ xl, M2.later.idName _ (by omega), M.idName]
    · rw [onQ.qualName _ xl, qx, Str.join_singleton]
    · rw [Q.partsC, M2.parts, M.empty]; rfl
    · rw [onQ.parent _ xl, M2.later.parent _ (by omega), M.parent]
    · rw [onQ.kind _ sl, S.kind]
    · rw [onQ.idName _ sl, S.name]
    · rw [← S.attrs key]; unfold getAttribute; rw [onQ.attrs _ sl]
    · rw [onQ.only _ sl (by simp; omega), S.parts]
  · rw [hw]; simpa using Q.ok

end Rei
