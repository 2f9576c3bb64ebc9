import Verif.Lemmas.Reading

/-!
# Reading a CogniLang file: poses, geometries, solids, links
-/
namespace Rei
open PyM

theorem Dict.get?_eq_lookup {α : Type} (d : Dict Str α) (k : Str) : d.get? k = List.lookup k d := by
  induction d with
  | nil => rfl
  | cons p d ih =>
    obtain ⟨k', v⟩ := p
    rw [Dict.get?_cons, List.lookup_cons, ih]
    by_cases e : k' = k
    · subst e; simp
    · have : (k == k') = false := by simpa using Ne.symm e
      rw [this, if_neg e]

theorem join_transformation (a : Str) :
    Str.join '_' [a, "transformation".toList] = a ++ "_transformation".toList := by
  rw [Str.join_cons_cons, Str.join_singleton]; rfl

theorem join_geom (a : Str) : Str.join '_' ["geom".toList, a] = "geom_".toList ++ a := by
  rw [Str.join_cons_cons, Str.join_singleton]; rfl

theorem MadeIn.isSem {p : Ref} {k : SemKind} {nm : Str} {attrs : Dict Str AttrVal} {h h' : Heap}
    (M : MadeIn p (.semantic k) nm attrs h h') : IsSem h' h.size k nm attrs [] :=
  ⟨M.kind, M.idName, fun key => by unfold getAttribute; rw [M.attrs, Dict.get?_eq_lookup], M.empty⟩

theorem MadeIn.isNode {c : Ref} {nm : Str} {attrs : Dict Str AttrVal} {h h' : Heap}
    (M : MadeIn c .node nm attrs h h') {l : List Str} (p : PathTo h c l) : IsNode h' h.size nm (l ++ [nm]) [] :=
  ⟨M.kind, M.idName, (M.path l p).2, M.empty⟩

theorem MadeIn.isEdge {c : Ref} {nm : Str} {attrs : Dict Str AttrVal} {h h' : Heap}
    (M : MadeIn c .edge nm attrs h h') {l : List Str} (p : PathTo h c l) : IsEdge h' h.size nm (l ++ [nm]) [] :=
  ⟨M.kind, M.idName, (M.path l p).2, M.empty⟩

theorem MadeIn.parts_ne {c : Ref} {k : Kind} {nm : Str} {attrs : Dict Str AttrVal} {h h' : Heap}
    (M : MadeIn c k nm attrs h h') {x : Ref} (hx : x < h.size) (hxc : x ≠ c) : h'.parts x = h.parts x :=
  M.later.only x hx (by simpa using hxc)

/-- What the reader made by a pose. -/
structure PoseRead (I : FileIcon) (w : Ref) (ps : Params) (seen P : List Str) (p : Option Pose) (el : Ref) (h : Heap)
    (r : FileIcon × Option Ref) (h' : Heap) (ts : List Ref) : Prop where
  on : Onward h.size [el] h h'
  ok : IconOk h' r.1 w ps seen
  kept : Kept P I r.1
  parts : h'.parts el = h.parts el ++ ts
  shows_ : ShowsPose h' ps (h.get el).idName p ts
  res : r.2 = ts.head?
  fresh : ∀ t ∈ ts, h.size ≤ t
  sems : ∀ x, h.size ≤ x → x < h'.size → ∃ sk, (h'.get x).kind = .semantic sk

theorem pose_does {E : Env} {h : Heap} {I : FileIcon} {w : Ref} {ps : Params} {seen : List Str} (R : Reach E h)
    (o : IconOk h I w ps seen) {P : List Str} (hP : P ≠ []) {el : Ref} {n : Str} {ns : List Str}
    (hel : PathTo h el (P ++ n :: ns)) (hk : ∃ k, (h.get el).kind = .semantic k) (p : Option Pose) :
    Does E (I.poseElement E p el) h fun r h' => ∃ ts, PoseRead I w ps seen P p el h r h' ts := by
  unfold FileIcon.poseElement
  obtain ⟨k, hk⟩ := hk
  have hlt : el < h.size := R.good.inv.lt_of_kind (by rw [hk]; simp)
  cases p with
  | none =>
    refine .pure R ⟨[], ⟨.refl _ _ _, o, .refl _ _, by simp, rfl, rfl, by simp, ?_⟩⟩
    intro x a b; omega
  | some p =>
    refine (Does.heap R).bind fun _ h1 R1 q => ?_
    obtain ⟨rfl, rfl⟩ := q
    refine (Does.liftE R).bind fun v h2 R2 q => ?_
    obtain ⟨rfl, hv⟩ := q
    refine (Does.obj R).bind fun _ h2 R2 q => ?_
    obtain ⟨rfl, rfl⟩ := q
    refine (sem_does R o.cog _ _ hlt (by rw [hk]; simp) _ _).bind fun t h2 R2 q => ?_
    obtain ⟨rfl, k', hk', M⟩ := q
    cases hk'
    refine (remember_does R2 _ _).bind fun I' h3 R3 q => ?_
    obtain ⟨rfl, rfl⟩ := q
    obtain ⟨t, r, ty⟩ := v
    have o2 := o.onward R.good.inv M.later (M.parts_ne o.plt (by rintro rfl; rw [o.pkind] at hk; cases hk))
    have pq := M.path _ hel
    have e1 : P ++ n :: ns ++ [Str.join '_' [(h.get el).idName, "transformation".toList]] =
        P ++ n :: (ns ++ [Str.join '_' [(h.get el).idName, "transformation".toList]]) := by simp
    rw [e1] at pq
    refine .pure R2 ⟨[h.size], ⟨M.later, o2.remember (by rw [M.size]; omega) (.inr ⟨_, M.kind⟩) ?_,
      Kept.remember hP pq.2 _, M.parts, ⟨_, t, r, ty, rfl, poseValues_means o.params hv, by
        rw [← join_transformation]; exact M.isSem⟩, rfl, ?_, ?_⟩⟩
    · rw [pq.2]; exact (join_longer hP _ _).2
    · simp
    · intro x a b
      rw [M.size] at b
      have : x = h.size := by omega
      subst this
      exact ⟨_, M.kind⟩

/-- A connection without a semantic value node only adds to the edge. -/
theorem Linked.onward {e n : Ref} {d : Dir} {h h' : Heap} (L : Linked e n d none h h') : Onward h.size [e] h h' := by
  have pt : ∀ x < h.size, h'.parts x = h.parts x ++ if x = e then [h.size] else [] := by
    intro x hx
    rw [L.parts x hx, List.filter_eq_self.2 (by simp)]
  refine ⟨by rw [L.size]; omega, by rw [L.nlists], fun l _ => by rw [L.lists], L.kind, L.idName, L.attrs, L.endpoint,
    L.direction, L.weight, L.vals, fun x hx => L.qualName x hx (by rintro s ⟨⟩), fun x hx => L.parent x hx (by simp), ?_, ?_⟩
  · intro x hx; rw [pt x hx]; exact List.prefix_append _ _
  · intro x hx hd
    rw [pt x hx, if_neg (by simpa using hd)]; simp

theorem Linked.parts_edge {e n : Ref} {d : Dir} {h h' : Heap} (L : Linked e n d none h h') (he : e < h.size) :
    h'.parts e = h.parts e ++ [h.size] := by
  rw [L.parts e he, List.filter_eq_self.2 (by simp), if_pos rfl]

theorem Linked.isRel {e n : Ref} {d : Dir} {sv w : Option Ref} {h h' : Heap}
    (L : Linked e n d sv h h' w) : IsRel h' h.size d n sv.toList w := ⟨L.relKind, L.relDir, L.relEnd, L.relParts, L.relWeight⟩

/-- What the reader made for a geometry. -/
structure GeomRead (I : FileIcon) (w : Ref) (ps : Params) (seen path around : List Str) (c g : Ref) (gname : Str)
    (G : Geom) (h : Heap) (I' : FileIcon) (h' : Heap) (es : List Ref) : Prop where
  on : Onward h.size [g, c] h h'
  ok : IconOk h' I' w ps (seen ++ G.targets around)
  kept : Kept path I I'
  partsC : h'.parts c = h.parts c ++ es
  shows_ : ShowsGeom h' ps seen path.dropLast around gname g G es
  fresh : ∀ x ∈ es, h.size ≤ x

/-- The surroundings of a link: the node `c` at `cpath` in the cache. -/
structure At (h : Heap) (I : FileIcon) (cpath : List Str) (c : Ref) : Prop where
  ne : cpath ≠ []
  cached : I.cache.get? (pathKey cpath) = some c
  kind : (h.get c).kind = .node
  path : PathTo h c cpath
  params : c ≠ I.params

theorem At.lt {h : Heap} {I : FileIcon} {cpath : List Str} {c : Ref} (a : At h I cpath c) (inv : Inv h) : c < h.size :=
  inv.lt_of_kind (by rw [a.kind]; simp)

theorem At.onward {h h' : Heap} {I I' : FileIcon} {cpath : List Str} {c : Ref} (a : At h I cpath c) (inv : Inv h)
    {D : List Ref} (b : Onward h.size D h h') (k : Kept cpath I I') : At h' I' cpath c :=
  ⟨a.ne, by rw [k.cache _ (.inl (Nat.le_refl _)), a.cached], by rw [b.kind c (a.lt inv), a.kind],
    b.path inv (a.lt inv) a.path, by rw [k.params]; exact a.params⟩

theorem At.does {E : Env} {h : Heap} {I : FileIcon} {cpath : List Str} {c : Ref} (a : At h I cpath c) (R : Reach E h) :
    Does E (I.cached (pathKey cpath)) h fun x h' => h = h' ∧ c = x := by
  unfold FileIcon.cached
  rw [a.cached]
  exact .pure R ⟨rfl, rfl⟩

theorem IconOk.target {h : Heap} {I : FileIcon} {w : Ref} {ps : Params} {seen : List Str} (o : IconOk h I w ps seen)
    {k : Str} {t : Ref} (ht : I.cache.get? k = some t) (hh : (h.get t).kind.isHElement = true) :
    (h.get t).kind = .node ∧ (h.get t).qualName = k := by
  rcases (o.cache k t ht).2 with a | ⟨sk, a⟩
  · exact a
  · rw [a] at hh; cases hh

theorem reference_does {E : Env} {h : Heap} {I : FileIcon} {w : Ref} {ps : Params} {seen : List Str} (R : Reach E h)
    (o : IconOk h I w ps seen) {cpath : List Str} {c : Ref} (a : At h I cpath c) (ln : Str) (v : Str) {g : Ref}
    (hg : (h.get g).kind = .node) (hge : h.parts g = []) (hgc : g ≠ c) (id : Str) :
    Does E (I.addReference E (cpath ++ [ln] ++ [v]) g id) h fun I' h' =>
      ∃ es, GeomRead I w ps seen (cpath ++ [ln]) (cpath ++ [ln] ++ [v]) c g (h.get g).idName (.ref id) h I' h' es := by
  have inv := R.good.inv
  have hgl : g < h.size := inv.lt_of_kind (by rw [hg]; simp)
  have hcl := a.lt inv
  unfold FileIcon.addReference
  have e1 : (cpath ++ [ln] ++ [v]).take ((cpath ++ [ln] ++ [v]).length - 2) = cpath := by
    rw [List.append_assoc]
    simp
  rw [e1]
  refine (a.does R).bind fun _ h1 R1 q => ?_
  obtain ⟨rfl, rfl⟩ := q
  have key : inferredName (cpath ++ [ln] ++ [v]) id = targetName (cpath ++ [ln] ++ [v]) id := rfl
  rw [key]
  generalize hT : targetName (cpath ++ [ln] ++ [v]) id = T
  have e2 : (cpath ++ [ln]).dropLast = cpath := by simp
  have targets : (Geom.ref id).targets (cpath ++ [ln] ++ [v]) = [T] := by rw [← hT]; rfl
  cases ht : I.cache.get? T with
  | none => exact .raise R
  | some t =>
    simp only
    by_cases hr : I.refs.has T = true
    · rw [if_pos hr]
      have hs := (o.refs T).1 hr
      refine .pure R ⟨[], ⟨.refl _ _ _, ?_, .refl _ _, by simp, ⟨hge, ?_⟩, by simp⟩⟩
      · rw [targets]
        exact ⟨o.fac, o.cog, o.cache, o.world, o.plt, o.pkind, o.params, fun k => (o.refs k).trans (by
          simp only [List.mem_append, List.mem_singleton]
          constructor
          · exact .inl
          · rintro (q | q)
            · exact q
            · rw [q]; exact hs)⟩
      · rw [hT, if_pos hs]
    · rw [if_neg hr]
      have hs : T ∉ seen := fun q => hr ((o.refs T).2 q)
      refine (Does.obj R).bind fun _ h1 R1 q => ?_
      obtain ⟨rfl, rfl⟩ := q
      refine (edge_does R o.fac _ hcl a.kind).bind fun e h1 R1 q => ?_
      obtain ⟨rfl, M⟩ := q
      have sz1 := M.size
      obtain ⟨htl, htk⟩ := o.cache T t ht
      have o1 := o.onward inv M.later (M.parts_ne o.plt a.params.symm)
      refine (connect_does R1 .outwards (n := t) (by omega) M.kind (by omega) (by rintro s ⟨⟩)).void.bind fun _ h2 R2 q => ?_
      obtain ⟨_, -, L1⟩ := q
      have sz2 := L1.size
      refine (connect_does R2 .inwards (n := g) (by omega) (by rw [L1.kind _ (by omega), M.kind]) (by omega)
        (by rintro s ⟨⟩)).void.bind fun _ h3 R3 q => ?_
      obtain ⟨_, -, L2⟩ := q
      have sz3 := L2.size
      have tk : (h.get t).kind = .node ∧ (h.get t).qualName = T := by
        obtain ⟨b1, b2⟩ := o1.target ht L1.target
        exact ⟨by rw [← M.later.kind t htl]; exact b1, by rw [← M.later.qualName t htl]; exact b2⟩
      have on1 : Onward h.size [g, c] h h3 := by
        have w1 : Onward h.size [g, c] h h1 := M.later.weaken (Nat.le_refl _) (by simp +contextual)
        have w2 : Onward h.size [g, c] h1 h2 := L1.onward.weaken (by omega) (by
          intro x hx hl; simp at hx; omega)
        have w3 : Onward h.size [g, c] h2 h3 := L2.onward.weaken (by omega) (by
          intro x hx hl; simp at hx; omega)
        exact (w1.trans w2).trans w3
      have nc : ∀ x < h.size, h3.parts x = h1.parts x := by
        intro x hx
        rw [L2.onward.only x (by omega) (by simp; omega), L1.onward.only x (by omega) (by simp; omega)]
      have pe : h3.parts h.size = [h1.size, h2.size] := by
        rw [L2.parts_edge (by omega), L1.parts_edge (by omega), M.empty]; rfl
      have eE : IsEdge h3 h.size ("ref_".toList ++ (h.get g).idName ++ '_' :: id)
          (cpath ++ ["ref_".toList ++ (h.get g).idName ++ '_' :: id]) [h1.size, h2.size] := by
        have := M.isEdge a.path
        exact ⟨by rw [L2.kind _ (by omega), L1.kind _ (by omega), this.kind],
          by rw [L2.idName _ (by omega), L1.idName _ (by omega), this.name],
          by rw [L2.onward.qualName _ (by omega), L1.onward.qualName _ (by omega), this.path], pe⟩
      have r1 : IsRel h3 h1.size .outwards t [] := by
        have := L1.isRel
        have lt : h1.size < h2.size := by omega
        exact ⟨by rw [L2.kind _ lt, this.kind], by rw [L2.direction _ lt, this.dir],
          by rw [L2.endpoint _ lt, this.endpoint], by rw [L2.onward.only _ lt (by simp; omega), this.parts]; rfl,
          by rw [L2.weight _ lt, this.weight]⟩
      refine .pure R3 ⟨[h.size], ⟨on1, ?_, ?_, ?_, ⟨?_, ?_⟩, by simp⟩⟩
      · have b := o.onward inv on1 (by rw [nc _ o.plt, M.parts_ne o.plt a.params.symm])
        rw [targets]
        refine ⟨b.fac, b.cog, b.cache, b.world, b.plt, b.pkind, b.params, fun k => ?_⟩
        show (Dict.set I.refs T h.size).has k = true ↔ _
        unfold Dict.has
        rw [Dict.get?_set]
        have := o.refs k
        unfold Dict.has at this
        split
        · next e => subst e; simp
        · next e => rw [this]; simp [Ne.symm e]
      · exact ⟨rfl, rfl, rfl, rfl, fun _ _ => rfl⟩
      · rw [nc c hcl, M.parts]
      · rw [nc g hgl, M.parts_ne hgl hgc, hge]
      · rw [hT, if_neg hs, e2]
        exact ⟨h.size, h1.size, h2.size, t, rfl, eE, r1, L2.isRel, by rw [on1.kind t htl, tk.1],
          by rw [on1.qualName t htl, tk.2]⟩


theorem geomBody_does {E : Env} {h : Heap} {I : FileIcon} {w : Ref} {ps : Params} {seen : List Str} (R : Reach E h)
    (o : IconOk h I w ps seen) {cpath : List Str} {c : Ref} (a : At h I cpath c) (ln : Str) (v : Str) {g : Ref}
    (hg : (h.get g).kind = .node) (hge : h.parts g = []) (hgc : g ≠ c) (hgp : g ≠ I.params) {y z : Str}
    (hgpath : PathTo h g (cpath ++ [ln] ++ [y, z])) (G : Geom) :
    Does E (I.geomBody E (cpath ++ [ln] ++ [v]) g (h.get g).idName G) h fun I' h' =>
      ∃ es, GeomRead I w ps seen (cpath ++ [ln]) (cpath ++ [ln] ++ [v]) c g (h.get g).idName G h I' h' es := by
  have inv := R.good.inv
  have hgl : g < h.size := inv.lt_of_kind (by rw [hg]; simp)
  cases G with
  | ref id => exact reference_does R o a ln v hg hge hgc id
  | solid cl f =>
    unfold FileIcon.geomBody
    refine (Does.heap R).bind fun _ h1 R1 q => ?_
    obtain ⟨rfl, rfl⟩ := q
    refine (Does.liftE R).bind fun vs h2 R2 q => ?_
    obtain ⟨rfl, hv⟩ := q
    refine (sem_does R o.cog _ _ hgl (by rw [hg]; simp) _ _).bind fun s h2 R2 q => ?_
    obtain ⟨rfl, k, hk, M⟩ := q
    refine (remember_does R2 _ _).mono fun I' h3 R3 q => ?_
    obtain ⟨rfl, rfl⟩ := q
    have o2 := o.onward inv M.later (M.parts_ne o.plt hgp.symm)
    have pq := M.path _ hgpath
    have e1 : cpath ++ [ln] ++ [y, z] ++ [(h.get g).idName] = cpath ++ [ln] ++ y :: [z, (h.get g).idName] := by simp
    rw [e1] at pq
    refine ⟨[], ⟨M.later.weaken (Nat.le_refl _) (by simp +contextual), ?_, Kept.remember (by simp) pq.2 _, ?_,
      ⟨rfl, ?_⟩, by simp⟩⟩
    · have : (Geom.solid cl f).targets (cpath ++ [ln] ++ [v]) = [] := rfl
      rw [this, List.append_nil]
      exact o2.remember (by rw [M.size]; omega) (.inr ⟨_, M.kind⟩) (by rw [pq.2]; exact (join_longer (by simp) _ _).2)
    · rw [M.parts_ne (a.lt inv) hgc.symm]; simp
    · cases f with
      | ref n => cases hv
      | vec vv =>
        refine ⟨h.size, k, vv, vs, ?_, rfl, floatVec_means o.params hv, ?_, ?_⟩
        · cases cl <;> cases hk <;> rfl
        · rw [M.parts, hge]; rfl
        · exact M.isSem

/-- What the reader made for the geometry of the solid node `x`. -/
structure GeometryRead (I : FileIcon) (w : Ref) (ps : Params) (seen path around : List Str) (c x : Ref) (xname : Str)
    (G : Geom) (h : Heap) (I' : FileIcon) (h' : Heap) (es : List Ref) : Prop where
  on : Onward h.size [x, c] h h'
  ok : IconOk h' I' w ps (seen ++ G.targets around)
  kept : Kept path I I'
  partsC : h'.parts c = h.parts c ++ es
  partsX : h'.parts x = h.parts x ++ [h.size]
  node : IsNode h' h.size ("geom_".toList ++ xname) (path ++ [xname, "geom_".toList ++ xname]) (h'.parts h.size)
  shows_ : ShowsGeom h' ps seen path.dropLast around ("geom_".toList ++ xname) h.size G es
  fresh : ∀ x ∈ es, h.size ≤ x

theorem geometry_does {E : Env} {h : Heap} {I : FileIcon} {w : Ref} {ps : Params} {seen : List Str} (R : Reach E h)
    (o : IconOk h I w ps seen) {cpath : List Str} {c : Ref} (a : At h I cpath c) (ln : Str) (v : Str) {x : Ref}
    (hx : (h.get x).kind = .node) (hxc : x ≠ c) (hxp : x ≠ I.params)
    (hpath : PathTo h x (cpath ++ [ln] ++ [(h.get x).idName])) (G : Geom) :
    Does E (I.geometry E (cpath ++ [ln] ++ [v]) x G) h fun I' h' =>
      ∃ es, GeometryRead I w ps seen (cpath ++ [ln]) (cpath ++ [ln] ++ [v]) c x (h.get x).idName G h I' h' es := by
  have inv := R.good.inv
  have hxl : x < h.size := inv.lt_of_kind (by rw [hx]; simp)
  have hcl := a.lt inv
  unfold FileIcon.geometry
  refine (Does.obj R).bind fun _ h1 R1 q => ?_
  obtain ⟨rfl, rfl⟩ := q
  simp only [join_geom]
  refine (node_does R o.fac _ hxl (by rw [hx]; simp)).bind fun g h1 R1 q => ?_
  obtain ⟨rfl, M⟩ := q
  have sz := M.size
  have o1 := o.onward inv M.later (M.parts_ne o.plt hxp.symm)
  have a1 := a.onward inv M.later (Kept.refl _ I)
  have pq := M.path _ hpath
  have e1 : cpath ++ [ln] ++ [(h.get x).idName] ++ ["geom_".toList ++ (h.get x).idName] =
    cpath ++ [ln] ++ [(h.get x).idName, "geom_".toList ++ (h.get x).idName] := by simp
  rw [e1] at pq
  have plt := o.plt
  have := geomBody_does R1 o1 a1 ln v (g := h.size) M.kind M.empty (by omega) (by omega) pq.1 G
  rw [M.idName] at this
  refine this.bind fun I2 h2 R2 q => ?_
  obtain ⟨es, Q⟩ := q
  refine (remember_does R2 _ _).mono fun I3 h3 R3 q => ?_
  obtain ⟨rfl, rfl⟩ := q
  have qn : (h2.get h.size).qualName = Str.join '/' (cpath ++ [ln] ++
      [(h.get x).idName, "geom_".toList ++ (h.get x).idName]) := by rw [Q.on.qualName _ (by omega), pq.2]
  have kd : (h2.get h.size).kind = .node := by rw [Q.on.kind _ (by omega), M.kind]
  refine ⟨es, ⟨?_, Q.ok.remember ?_ (.inl kd) ?_, Q.kept.trans (Kept.remember (by simp) qn _), ?_, ?_, ?_, Q.shows_, ?_⟩⟩
  · exact (M.later.weaken (Nat.le_refl _) (by simp +contextual)).trans (Q.on.weaken (by omega) (by
      intro z hz hl; simp at hz; rcases hz with rfl | rfl
      · omega
      · simp))
  · have := Q.on.size; omega
  · rw [qn]; exact (join_longer (by simp) _ _).2
  · rw [Q.partsC, M.parts_ne hcl hxc.symm]
  · rw [Q.on.only x (by omega) (by simp; exact ⟨by omega, hxc⟩), M.parts]
  · exact ⟨kd, by rw [Q.on.idName _ (by omega), M.idName], qn, rfl⟩
  · intro z hz; have := Q.fresh z hz; omega

/-- What the reader made for a solid of the link `x`. -/
structure SolidRead (I : FileIcon) (w : Ref) (ps : Params) (seen path : List Str) (c x : Ref)
    (s : SolidDecl) (h : Heap) (I' : FileIcon) (h' : Heap) (es : List Ref) : Prop where
  on : Onward h.size [x, c] h h'
  ok : IconOk h' I' w ps (seen ++ s.geom.targets (s.around path))
  kept : Kept path I I'
  partsC : h'.parts c = h.parts c ++ es
  partsX : h'.parts x = h.parts x ++ [h.size]
  shows_ : ShowsSolid h' ps seen path s h.size es
  fresh : ∀ x ∈ es, h.size ≤ x

theorem solid_does {E : Env} {h : Heap} {I : FileIcon} {w : Ref} {ps : Params} {seen : List Str} (R : Reach E h)
    (o : IconOk h I w ps seen) {cpath : List Str} {c : Ref} (a : At h I cpath c) {ln : Str} {x : Ref}
    (ax : At h I (cpath ++ [ln]) x) (hxc : x ≠ c) (s : SolidDecl) :
    Does E (I.visitSolid E (cpath ++ [ln]) s) h fun I' h' =>
      ∃ es, SolidRead I w ps seen (cpath ++ [ln]) c x s h I' h' es := by
  have inv := R.good.inv
  have hxl := ax.lt inv
  have hcl := a.lt inv
  have plt := o.plt
  unfold FileIcon.visitSolid
  refine (ax.does R).bind fun _ h1 R1 q => ?_
  obtain ⟨rfl, rfl⟩ := q
  refine (node_does R o.fac _ hxl (by rw [ax.kind]; simp)).bind fun y h1 R1 q => ?_
  obtain ⟨rfl, M⟩ := q
  have sz := M.size
  have inv1 := R1.good.inv
  refine (remember_does R1 _ _).bind fun I1 h2 R2 q => ?_
  obtain ⟨rfl, rfl⟩ := q
  have pq := M.path _ ax.path
  have o1 := o.onward inv M.later (M.parts_ne plt ax.params.symm)
  have o2 := o1.remember (x := h.size) (by omega) (.inl M.kind) (by rw [pq.2]; exact (join_longer (by simp) _ _).2)
  have K1 : Kept (cpath ++ [ln]) I { I with cache := I.cache.set (h1.get h.size).qualName h.size } :=
    Kept.remember (by simp) pq.2 _
  have a2 := a.onward inv M.later (K1.mono a.ne)
  have := geometry_does R1 o2 a2 ln (s.id.getD "None".toList) (x := h.size) M.kind (by omega) (by show h.size ≠ I.params; omega)
    (by rw [M.idName]; exact pq.1) s.geom
  rw [M.idName] at this
  refine this.bind fun I2 h2 R2 q => ?_
  obtain ⟨es, Q⟩ := q
  have hs2 := Q.on.size
  have hq2 := Q.on
  have nodeY : IsNode h2 h.size (s.nodeName (cpath ++ [ln])) (cpath ++ [ln] ++ [s.nodeName (cpath ++ [ln])]) [h1.size] :=
    ⟨by rw [hq2.kind _ (by omega), M.kind], by rw [hq2.idName _ (by omega), M.idName],
      by rw [hq2.qualName _ (by omega), pq.2], by rw [Q.partsX, M.empty]; rfl⟩
  have onA : Onward h.size [x, c] h h2 :=
    (M.later.weaken (Nat.le_refl _) (by simp +contextual)).trans (hq2.weaken (by omega) (by
      intro z hz hl; simp at hz; rcases hz with rfl | rfl
      · omega
      · simp))
  have pX : h2.parts x = h.parts x ++ [h.size] := by
    rw [hq2.only x (by omega) (by simp; exact ⟨by omega, hxc⟩), M.parts]
  have pC : h2.parts c = h.parts c ++ es := by rw [Q.partsC, M.parts_ne hcl hxc.symm]
  have g1 : ∀ {hh : Heap} {ms : List Ref}, IsNode hh h.size (s.nodeName (cpath ++ [ln]))
      (cpath ++ [ln] ++ [s.nodeName (cpath ++ [ln])]) (h1.size :: ms) → Carry h1.size h2 hh ∨ hh = h2 →
      (if s.visual then ∃ m, ms = [m] ∧ IsSem hh m .material ("material_".toList ++ s.nodeName (cpath ++ [ln]))
        [("name".toList, .str ("material_".toList ++ s.nodeName (cpath ++ [ln]))),
         ("material_name".toList, .str (s.material.getD "white".toList))] [] else ms = []) →
      ShowsSolid hh ps seen (cpath ++ [ln]) s h.size es := by
    intro hh ms n k m
    have hlt : h1.size < h2.size := R2.good.inv.lt_of_kind (by rw [Q.node.kind]; simp)
    rcases k with k | rfl
    · refine ⟨h1.size, ms, n, ?_, k.geom (Nat.le_refl _) hlt Q.fresh Q.shows_, m⟩
      rw [k.parts (Nat.le_refl _) hlt]
      exact k.node (Nat.le_refl _) Q.node
    · exact ⟨h1.size, ms, n, Q.node, Q.shows_, m⟩
  cases hv : s.visual with
  | false =>
    rw [if_neg (by simp)]
    refine .pure R2 ⟨es, ⟨onA, Q.ok, K1.trans Q.kept, pC, pX, g1 nodeY (.inr rfl) ?_, fun z hz => ?_⟩⟩
    · rw [hv]; simp
    · have := Q.fresh z hz; omega
  | true =>
    rw [if_pos rfl]
    unfold FileIcon.material
    refine (Does.obj R2).bind fun _ h3 R3 q => ?_
    obtain ⟨rfl, rfl⟩ := q
    simp only
    refine (sem_does R2 Q.ok.cog _ _ (p := h.size) (by omega) (by rw [nodeY.kind]; simp) _ _).bind fun m h3 R3 q => ?_
    obtain ⟨rfl, k, hk, M2⟩ := q
    cases hk
    refine (remember_does R3 _ _).mono fun I3 h4 R4 q => ?_
    obtain ⟨rfl, rfl⟩ := q
    have nm : (h2.get h.size).idName = s.nodeName (cpath ++ [ln]) := nodeY.name
    rw [nm] at M2
    have pY : PathTo h2 h.size (cpath ++ [ln] ++ [s.nodeName (cpath ++ [ln])]) := hq2.path inv1 (by omega) pq.1
    have pm := M2.path _ pY
    have sz3 := M2.size
    have hpp : I2.params = I.params := (K1.trans Q.kept).params
    have o3 := Q.ok.onward R2.good.inv M2.later (M2.parts_ne (by rw [hpp]; omega) (by rw [hpp]; omega))
    have e1 : cpath ++ [ln] ++ [s.nodeName (cpath ++ [ln])] ++ ["material_".toList ++ s.nodeName (cpath ++ [ln])] =
      cpath ++ [ln] ++ s.nodeName (cpath ++ [ln]) :: ["material_".toList ++ s.nodeName (cpath ++ [ln])] := by simp
    rw [e1] at pm
    refine ⟨es, ⟨onA.trans (M2.later.weaken (by omega) (by intro z hz hl; simp at hz; omega)),
      o3.remember (by omega) (.inr ⟨_, M2.kind⟩) (by rw [pm.2]; exact (join_longer (by simp) _ _).2),
      (K1.trans Q.kept).trans (Kept.remember (by simp) pm.2 _), ?_, ?_,
      g1 (ms := [h2.size]) ⟨by rw [M2.later.kind _ (by omega), nodeY.kind], by rw [M2.later.idName _ (by omega), nodeY.name],
        by rw [M2.later.qualName _ (by omega), nodeY.path], by rw [M2.parts, nodeY.parts]; rfl⟩
        (.inl (hq2.carry inv1 R2.good.inv M2.later (by simp; omega))) ?_, ?_⟩⟩
    · rw [M2.parts_ne (by omega) (by omega), pC]
    · rw [M2.parts_ne (by omega) (by omega), pX]
    · rw [if_pos hv]; exact ⟨_, rfl, M2.isSem⟩
    · intro z hz; have := Q.fresh z hz; omega

/-- What the reader made for the solids of the link `x`. -/
structure SolidsRead (I : FileIcon) (w : Ref) (ps : Params) (seen path : List Str) (c x : Ref)
    (ss : List SolidDecl) (h : Heap) (I' : FileIcon) (h' : Heap) (ys es : List Ref) : Prop where
  on : Onward h.size [x, c] h h'
  ok : IconOk h' I' w ps (seen ++ ss.flatMap fun s => s.geom.targets (s.around path))
  kept : Kept path I I'
  partsC : h'.parts c = h.parts c ++ es
  partsX : h'.parts x = h.parts x ++ ys
  shows_ : ShowsSolids h' ps path seen ss ys es
  freshE : ∀ x ∈ es, h.size ≤ x
  freshY : ∀ x ∈ ys, h.size ≤ x

theorem solids_does {E : Env} {w : Ref} {ps : Params} {cpath : List Str} {c : Ref} {ln : Str} {x : Ref} (hxc : x ≠ c)
    (ss : List SolidDecl) : ∀ {h : Heap} {I : FileIcon} {seen : List Str} (_ : Reach E h)
    (_ : IconOk h I w ps seen) (_ : At h I cpath c) (_ : At h I (cpath ++ [ln]) x),
    Does E (FileIcon.visitSolids E (cpath ++ [ln]) I ss) h fun I' h' =>
      ∃ ys es, SolidsRead I w ps seen (cpath ++ [ln]) c x ss h I' h' ys es := by
  induction ss with
  | nil =>
    intro h I seen R o a ax
    exact .pure R ⟨[], [], .refl _ _ _, by simpa using o, .refl _ _, by simp, by simp, ⟨rfl, rfl⟩, by simp, by simp⟩
  | cons s ss ih =>
    intro h I seen R o a ax
    have inv := R.good.inv
    unfold FileIcon.visitSolids
    refine (solid_does R o a ax hxc s).bind fun I1 h1 R1 q => ?_
    obtain ⟨es1, Q1⟩ := q
    have sz1 := Q1.on.size
    have hcl := a.lt inv
    have hxl := ax.lt inv
    refine (ih R1 Q1.ok (a.onward inv Q1.on (Q1.kept.mono a.ne)) (ax.onward inv Q1.on Q1.kept)).mono
      fun I2 h2 R2 q => ?_
    obtain ⟨ys, es2, Q2⟩ := q
    have k := Q1.on.carry inv R1.good.inv Q2.on (by simp; omega)
    refine ⟨h.size :: ys, es1 ++ es2, Q1.on.trans (Q2.on.weaken (by omega) (by simp +contextual)), ?_,
      Q1.kept.trans Q2.kept, by rw [Q2.partsC, Q1.partsC]; simp, by rw [Q2.partsX, Q1.partsX]; simp,
      ⟨h.size, ys, es1, es2, rfl, rfl, k.solid (Nat.le_refl _) Q1.fresh Q1.shows_, Q2.shows_⟩, ?_, ?_⟩
    · rw [List.flatMap_cons, ← List.append_assoc]; exact Q2.ok
    · intro z hz
      rcases List.mem_append.1 hz with hz | hz
      · exact Q1.fresh z hz
      · have := Q2.freshE z hz; omega
    · intro z hz
      rcases List.mem_cons.1 hz with hz | hz
      · omega
      · have := Q2.freshY z hz; omega


/-- What the reader made for the body of the link `x`. -/
structure BodyRead (I : FileIcon) (w : Ref) (ps : Params) (seen path : List Str) (c x : Ref)
    (b : Option LinkBody) (T : List Str) (h : Heap) (I' : FileIcon) (h' : Heap) (ys es : List Ref) : Prop where
  on : Onward h.size [x, c] h h'
  ok : IconOk h' I' w ps (seen ++ T)
  kept : Kept path I I'
  partsC : h'.parts c = h.parts c ++ es
  partsX : h'.parts x = h.parts x ++ ys
  shows_ : ShowsLinkBody h' ps seen path b ys es
  freshE : ∀ x ∈ es, h.size ≤ x
  freshY : ∀ x ∈ ys, h.size ≤ x

theorem linkBody_does {E : Env} {h : Heap} {I : FileIcon} {w : Ref} {ps : Params} {seen : List Str} (R : Reach E h)
    (o : IconOk h I w ps seen) {cpath : List Str} {c : Ref} (a : At h I cpath c) {x : Ref} (l : LinkDecl)
    (ax : At h I (cpath ++ [l.name]) x) (hxc : x ≠ c) :
    Does E (I.visitLinkBody E (cpath ++ [l.name]) l.body) h fun I' h' =>
      ∃ ys es, BodyRead I w ps seen (cpath ++ [l.name]) c x l.body (l.targets cpath) h I' h' ys es := by
  have inv := R.good.inv
  have hxl := ax.lt inv
  have hcl := a.lt inv
  have plt := o.plt
  unfold FileIcon.visitLinkBody LinkDecl.targets
  cases l.body with
  | none =>
    exact .pure R ⟨[], [], .refl _ _ _, by simpa using o, .refl _ _, by simp, by simp, ⟨rfl, rfl⟩, by simp, by simp⟩
  | some b =>
    simp only
    unfold FileIcon.visitInertia
    refine Does.bind (Q := fun _ h' => MadeIn x (.semantic .inertia) ("inertia_".toList ++ pathKey (cpath ++ [l.name]))
      [("mass".toList, .num b.mass)] h h') ?_ ?_
    · refine (ax.does R).bind fun _ h1 R1 q => ?_
      obtain ⟨rfl, rfl⟩ := q
      refine (sem_does R o.cog _ _ hxl (by rw [ax.kind]; simp) _ _).void.mono fun _ h1 R1 q => ?_
      obtain ⟨_, -, k, hk, M⟩ := q
      cases hk
      exact M
    intro _ h1 R1 M
    have sz := M.size
    have o1 := o.onward inv M.later (M.parts_ne plt ax.params.symm)
    refine (solids_does hxc b.solids R1 o1 (a.onward inv M.later (.refl _ _)) (ax.onward inv M.later (.refl _ _))).mono
      fun I2 h2 R2 q => ?_
    obtain ⟨ys, es, Q⟩ := q
    have k := M.later.carry inv R1.good.inv Q.on (by simp; omega)
    refine ⟨h.size :: ys, es, (M.later.weaken (Nat.le_refl _) (by simp +contextual)).trans (Q.on.weaken (by omega)
      (by simp +contextual)), Q.ok, Q.kept, by rw [Q.partsC, M.parts_ne hcl hxc.symm], by rw [Q.partsX, M.parts]; simp,
      ⟨h.size, ys, rfl, k.sem (Nat.le_refl _) M.isSem, Q.shows_⟩, ?_, ?_⟩
    · intro z hz; have := Q.freshE z hz; omega
    · intro z hz
      rcases List.mem_cons.1 hz with hz | hz
      · omega
      · have := Q.freshY z hz; omega

/-- `setPoseAttr` on a semantic element. -/
theorem poseAttr_does {E : Env} {h : Heap} (R : Reach E h) {s : Ref} {k : SemKind} (hs : (h.get s).kind = .semantic k)
    (t : Option Ref) : Does E (setPoseAttr s t) h fun _ h' =>
      (∀ N ≤ s, ∀ D, Onward N D h h') ∧ h'.size = h.size ∧ (∀ x, h'.parts x = h.parts x) ∧
      (∀ key, getAttribute h' s key = if t ≠ none ∧ key = "rigidtransformation".toList then t.map .obj else
        getAttribute h s key) ∧ (∀ x, x ≠ s → h'.get x = h.get x) ∧
      (∀ x, (h'.get x).kind = (h.get x).kind) ∧ (∀ x, (h'.get x).idName = (h.get x).idName) ∧
      (∀ x, (h'.get x).qualName = (h.get x).qualName) ∧ (∀ x, (h'.get x).parent = (h.get x).parent) ∧
      h'.nlists = h.nlists ∧ h'.lists = h.lists ∧ (∀ x, (h'.get x).vals = (h.get x).vals) := by
  unfold setPoseAttr
  cases t with
  | none =>
    exact .pure R ⟨fun _ _ _ => .refl _ _ _, rfl, fun _ => rfl, by simp, fun _ _ => rfl, fun _ => rfl, fun _ => rfl,
      fun _ => rfl, fun _ => rfl, rfl, rfl, fun _ => rfl⟩
  | some t =>
    obtain ⟨h', e, R', a1, a2, a3, a4, a5, a6, a7, a8, a9, -⟩ := attr_step R hs "rigidtransformation".toList (.obj t)
    refine ⟨by simp only [e]; exact R', fun _ h'' e' => ?_⟩
    simp only [e] at e'
    cases e'
    have hv : ∀ x, (h'.get x).vals = (h.get x).vals := by
      intro x
      unfold addNamedAttribute at e
      cases e
      rw [Heap.get_mod]
      split
      · next q => subst q; rfl
      · rfl
    refine ⟨a1, a2, a3, fun key => ?_, a5, a6, a7, a8, a9, ?_, ?_, hv⟩
    · unfold getAttribute
      rw [a4, Dict.get?_set]
      by_cases hk : key = "rigidtransformation".toList
      · subst hk; simp
      · rw [if_neg (by tauto), if_neg (by tauto)]
    · unfold addNamedAttribute at e; cases e; rfl
    · unfold addNamedAttribute at e; cases e; rfl

/-- What the reader made for a link in `c`. -/
structure LinkRead (I : FileIcon) (w : Ref) (ps : Params) (seen cpath : List Str) (c : Ref)
    (l : LinkDecl) (h : Heap) (I' : FileIcon) (h' : Heap) (es : List Ref) : Prop where
  on : Onward h.size [c] h h'
  ok : IconOk h' I' w ps (seen ++ l.targets cpath)
  kept : Kept cpath I I'
  partsC : h'.parts c = h.parts c ++ h.size :: es
  shows_ : ShowsLink h' ps seen cpath l h.size es
  fresh : ∀ x ∈ es, h.size ≤ x

theorem link_does {E : Env} {h : Heap} {I : FileIcon} {w : Ref} {ps : Params} {seen : List Str} (R : Reach E h)
    (o : IconOk h I w ps seen) {cpath : List Str} {c : Ref} (a : At h I cpath c) (l : LinkDecl) :
    Does E (I.visitLink E cpath l) h fun I' h' => ∃ es, LinkRead I w ps seen cpath c l h I' h' es := by
  have inv := R.good.inv
  have hcl := a.lt inv
  have plt := o.plt
  unfold FileIcon.visitLink
  refine (a.does R).bind fun _ h1 R1 q => ?_
  obtain ⟨rfl, rfl⟩ := q
  refine (node_does R o.fac _ hcl (by rw [a.kind]; simp)).bind fun x h1 R1 q => ?_
  obtain ⟨rfl, M⟩ := q
  have s1 := M.size
  have inv1 := R1.good.inv
  have p1 := M.path _ a.path
  have o1 := o.onward inv M.later (M.parts_ne plt a.params.symm)
  refine (sem_does R1 o.cog _ _ (p := h.size) (by omega) (by rw [M.kind]; simp) _ _).bind fun sv h2 R2 q => ?_
  obtain ⟨rfl, k, hk, M2⟩ := q
  cases hk
  have s2 := M2.size
  have inv2 := R2.good.inv
  have p2 := M2.path _ p1.1
  have o2 := o1.onward inv1 M2.later (M2.parts_ne (by omega) (by omega))
  have hel : PathTo h2 h1.size (cpath ++ l.name :: [l.name]) := by simpa using p2.1
  refine (pose_does R2 o2 a.ne hel ⟨_, M2.kind⟩ l.pose).bind fun r h3 R3 q => ?_
  obtain ⟨ts, Q⟩ := q
  have s3 := Q.on.size
  have inv3 := R3.good.inv
  have svk : (h3.get h1.size).kind = .semantic .kinLink := by rw [Q.on.kind _ (by omega), M2.kind]
  refine (poseAttr_does R3 svk r.2).bind fun _ h4 R4 q => ?_
  obtain ⟨b1, b2, b3, b4, b5, b6, b7, b8, b9, b10, b11, b12⟩ := q
  have inv4 := R4.good.inv
  -- the reader's invariant after writing the attribute
  have o4 : IconOk h4 r.1 w ps seen := by
    have b := Q.ok
    refine ⟨b.fac, b.cog, ?_, b.world, by rw [b2]; exact b.plt, by rw [b6, b.pkind], ?_, b.refs⟩
    · intro k x hx; rw [b2, b6, b8]; exact b.cache k x hx
    · rw [b3]
      refine b.params.imp fun v p hv => ⟨by rw [b6, hv.kind], by rw [b7, hv.name], by rw [b10, b12]; exact hv.ok, ?_⟩
      unfold Heap.valuesOf
      rw [b11, b12]; exact hv.values
  refine (remember_does R4 _ _).bind fun I5 h5 R5 q => ?_
  obtain ⟨rfl, rfl⟩ := q
  have n4 : ∀ z, z ≤ h.size → (h4.get z).kind = (h1.get z).kind ∧ (h4.get z).idName = (h1.get z).idName ∧
      (h4.get z).qualName = (h1.get z).qualName ∧ (h4.get z).parent = (h1.get z).parent := by
    intro z hz
    rw [b6, b7, b8, b9, Q.on.kind _ (by omega), Q.on.idName _ (by omega), Q.on.qualName _ (by omega),
      Q.on.parent _ (by omega), M2.later.kind _ (by omega), M2.later.idName _ (by omega),
      M2.later.qualName _ (by omega), M2.later.parent _ (by omega)]
    exact ⟨rfl, rfl, rfl, rfl⟩
  have qn : (h4.get h.size).qualName = Str.join '/' (cpath ++ [l.name]) := by
    rw [(n4 _ (Nat.le_refl _)).2.2.1, p1.2]
  have kx : (h4.get h.size).kind = .node := by rw [(n4 _ (Nat.le_refl _)).1, M.kind]
  have px : PathTo h4 h.size (cpath ++ [l.name]) :=
    p1.1.transfer_lt inv1 (by omega) (fun y hy => (n4 y (by omega)).2.2.2) (fun y hy => (n4 y (by omega)).2.1)
  have K5 : Kept cpath r.1 { r.1 with cache := r.1.cache.set (h4.get h.size).qualName h.size } :=
    Kept.remember a.ne qn _
  have o5 := o4.remember (x := h.size) (by omega) (.inl kx) (by rw [qn]; exact (join_longer a.ne _ _).2)
  have on4 : Onward h.size [c] h h4 :=
    (M.later.trans (M2.later.weaken (by omega) (by intro z hz hl; simp at hz; omega))).trans
      ((Q.on.weaken (by omega) (by intro z hz hl; simp at hz; omega)).trans (b1 h.size (by omega) _))
  have a5 := a.onward inv on4 (Q.kept.trans K5)
  have ax5 : At h4 { r.1 with cache := r.1.cache.set (h4.get h.size).qualName h.size } (cpath ++ [l.name]) h.size := by
    refine ⟨by simp, ?_, kx, px, ?_⟩
    · show (r.1.cache.set (h4.get h.size).qualName h.size).get? _ = _
      rw [qn]; exact Dict.get?_set_self _ _ _
    · show h.size ≠ r.1.params
      rw [Q.kept.params]; omega
  refine (linkBody_does R4 o5 a5 l ax5 (by omega)).mono fun I6 h6 R6 q => ?_
  obtain ⟨ys, es, B⟩ := q
  have pc4 : h4.parts c = h.parts c ++ [h.size] := by
    rw [b3, Q.on.only c (by omega) (by simp; omega), M2.parts_ne (by omega) (by omega), M.parts]
  have px4 : h4.parts h.size = [h1.size] := by
    rw [b3, Q.on.only _ (by omega) (by simp; omega), M2.parts, M.empty]; rfl
  have ps4 : h4.parts h1.size = ts := by rw [b3, Q.parts, M2.empty]; rfl
  have sem4 : IsSem h4 h1.size .kinLink l.name (linkAttrs l.name ts) ts := by
    refine ⟨by rw [b6, svk], by rw [b7, Q.on.idName _ (by omega), M2.idName], fun key => ?_, ps4⟩
    have ga : getAttribute h3 h1.size key = List.lookup key [("name".toList, AttrVal.str l.name)] := by
      have : IsSem h2 h1.size .kinLink l.name [("name".toList, AttrVal.str l.name)] [] := M2.isSem
      rw [← this.attrs key]
      unfold getAttribute
      rw [Q.on.attrs _ (by omega)]
    rw [b4, ga, Q.res]
    unfold linkAttrs
    cases ts with
    | nil => simp
    | cons t ts =>
      simp only [List.head?_cons, ne_eq, reduceCtorEq, not_false_eq_true, true_and, Option.map_some]
      by_cases hk : key = "rigidtransformation".toList
      · subst hk; rw [if_pos rfl]; rfl
      · rw [if_neg hk]
        simp only [List.lookup_cons, List.lookup_nil]
        by_cases hn : key = "name".toList
        · subst hn; rfl
        · have e1 : (key == "name".toList) = false := by simpa using hn
          have e2 : (key == "rigidtransformation".toList) = false := by simpa using hk
          rw [e1, e2]
  have pose4 : ShowsPose h4 ps l.name l.pose ts := by
    have e3 : (h2.get h1.size).idName = l.name := M2.idName
    have sp := Q.shows_
    rw [e3] at sp
    cases hp : l.pose with
    | none => rw [hp] at sp; exact sp
    | some p =>
      rw [hp] at sp
      obtain ⟨z, t, rr, ty, rfl, c1, c2⟩ := sp
      have hz := Q.fresh z (by simp)
      have zne : z ≠ h1.size := by omega
      refine ⟨z, t, rr, ty, rfl, c1, ⟨by rw [b6, c2.kind], by rw [b7, c2.name], fun key => ?_, by rw [b3, c2.parts]⟩⟩
      rw [← c2.attrs key]
      unfold getAttribute
      rw [b5 z zne]
  have kr : Carry h1.size h4 h6 := by
    refine ⟨inv4, ⟨_, B.on, by simp; omega⟩, ?_⟩
    intro z hz p hp
    rw [(n4 z (by omega)).2.2.2] at hp
    exact inv1.parent_lt hp
  have hs6 := B.on.size
  refine ⟨es, ⟨on4.trans (B.on.weaken (by omega) (by intro z hz hl; simp at hz; simp; omega)), B.ok,
    (Q.kept.trans K5).trans (B.kept.mono a.ne), by rw [B.partsC, pc4]; simp,
    ⟨h1.size, ts, ys, ⟨by rw [B.on.kind _ (by omega), kx], ?_, by rw [B.on.qualName _ (by omega), qn],
      by rw [B.partsX, px4]; rfl⟩, kr.sem (Nat.le_refl _) sem4, kr.pose ?_ pose4, B.shows_⟩, ?_⟩⟩
  · rw [B.on.idName _ (by omega), (n4 _ (Nat.le_refl _)).2.1, M.idName]
  · intro t ht; have := Q.fresh t ht; omega
  · intro z hz; have := B.freshE z hz; omega

end Rei
