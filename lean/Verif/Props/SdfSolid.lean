import Verif.Props.Sdf

/-!
# C66: visuals and collisions of a link
-/
namespace Rei

theorem mapM_all_ok {α β : Type} {f : α → Except Err β} {Q : α → β → Prop} : ∀ {l : List α},
    (∀ a ∈ l, ∃ b, f a = .ok b ∧ Q a b) → ∃ bs, l.mapM f = .ok bs ∧ List.Forall₂ Q l bs
  | [], _ => ⟨[], rfl, .nil⟩
  | a :: l, h => by
    obtain ⟨b, hb, qb⟩ := h a (by simp)
    obtain ⟨bs, hbs, qs⟩ := mapM_all_ok (l := l) fun x hx => h x (List.mem_cons_of_mem _ hx)
    refine ⟨b :: bs, ?_, .cons qb qs⟩
    rw [List.mapM_cons, hb]
    show (do let bs ← l.mapM f; pure (b :: bs)) = _
    rw [hbs]
    rfl

theorem mapM_err {α β : Type} {f : α → Except Err β} : ∀ {l : List α} {a : α} {e : Err}, a ∈ l → f a = .error e →
    ∃ e', l.mapM f = .error e'
  | x :: l, a, e, ha, hf => by
    rw [List.mapM_cons]
    cases hx : f x with
    | error e' => exact ⟨e', rfl⟩
    | ok b =>
      have : a ∈ l := by
        rcases List.mem_cons.1 ha with rfl | q
        · rw [hx] at hf; cases hf
        · exact q
      obtain ⟨e', he⟩ := mapM_err this hf
      refine ⟨e', ?_⟩
      show (do let bs ← l.mapM f; pure (b :: bs)) = _
      rw [he]
      rfl

theorem mapM_same {α β : Type} {f g : α → Except Err β} : ∀ {l : List α}, (∀ a ∈ l, f a = g a) → l.mapM f = l.mapM g
  | [], _ => rfl
  | a :: l, h => by
    rw [List.mapM_cons, List.mapM_cons, h a (by simp), mapM_same fun x hx => h x (List.mem_cons_of_mem _ hx)]

theorem ebind_ok {α β : Type} {x : Except Err α} {f : α → Except Err β} {a : α} (hx : x = .ok a) :
    (x >>= f) = f a := by rw [hx]; rfl

theorem ebind_err {α β : Type} {x : Except Err α} {f : α → Except Err β} {e : Err} (hx : x = .error e) :
    (x >>= f) = .error e := by rw [hx]; rfl

theorem forall₂_flatten {α β γ : Type} {R : β → γ → Prop} {f : α → List β} : ∀ {l : List α} {m : List (List γ)},
    List.Forall₂ (fun a r => List.Forall₂ R (f a) r) l m → List.Forall₂ R (l.flatMap f) m.flatten
  | [], [], _ => .nil
  | a :: l, r :: m, .cons h t => by
    rw [List.flatMap_cons, List.flatten_cons]
    exact List.rel_append h (forall₂_flatten t)

/-- The `<geometry>` element of one solid. -/
def IsGeometry (h : Heap) (e : Ref) (x : Xml) : Prop :=
  x.tag = "geometry".toList ∧ ∃ s, HasShape h e s ∧ x.children.head?.bind readShape = some s

theorem ownGeometries_ok {h : Heap} {v : Ref} (hs : ∀ e ∈ h.subGeometries v, ∃ s, HasShape h e s) :
    ∃ xs, ownGeometries h v = .ok xs ∧ List.Forall₂ (IsGeometry h) (h.subGeometries v) xs := by
  apply mapM_all_ok
  intro e he
  obtain ⟨s, hs⟩ := hs e he
  obtain ⟨x, hx, hr⟩ := C64_geometry hs
  refine ⟨geometryEl [x], ?_, rfl, s, hs, hr⟩
  rw [hx]; rfl

theorem farGeometries_ok {h : Heap} {v : Ref} (hs : ∀ e ∈ (h.subNodes v).flatMap h.subGeometries, ∃ s, HasShape h e s) :
    ∃ xs, farGeometries h v = .ok xs ∧ List.Forall₂ (IsGeometry h) ((h.subNodes v).flatMap h.subGeometries) xs := by
  obtain ⟨rows, hr, q⟩ := mapM_all_ok (l := h.subNodes v)
    (f := fun g => (h.subGeometries g).mapM (farGeometry h))
    (Q := fun g r => List.Forall₂ (IsGeometry h) (h.subGeometries g) r) (by
      intro g hg
      apply mapM_all_ok
      intro e he
      obtain ⟨s, hs⟩ := hs e (List.mem_flatMap.2 ⟨g, hg, he⟩)
      obtain ⟨x, hx, hr⟩ := C64_geometry hs
      refine ⟨geometryEl [x], ?_, rfl, s, hs, hr⟩
      unfold farGeometry
      rw [hx])
  refine ⟨rows.flatten, ?_, forall₂_flatten q⟩
  unfold farGeometries
  rw [ebind_ok hr]; rfl

theorem extractGeometry_ok {h : Heap} {v : Ref} (X : Exportable h v) :
    ∃ xs, extractGeometry h v = .ok xs ∧ List.Forall₂ (IsGeometry h) (geometriesAt h v) xs := by
  obtain ⟨a, ha, qa⟩ := ownGeometries_ok (h := h) (v := v) fun e he =>
    X.shapes e (List.mem_append_left _ he)
  obtain ⟨rows, hr, qr⟩ := mapM_all_ok (l := h.subPorts v)
    (f := portGeometries h)
    (Q := fun p r => List.Forall₂ (IsGeometry h) (match (h.get p).endpoint.bind fun r => (h.get r).parent with
      | none => []
      | some e => (h.outgoing e).flatMap fun x => match (h.get x).endpoint with
        | none => []
        | some u => (h.subNodes u).flatMap h.subGeometries) r) (by
      intro p hp
      obtain ⟨r, e, h1, h2, h3, h4⟩ := X.ports p hp
      have hpe : portEdge h p = .ok e := by
        unfold portEdge; rw [h1]; simp only [h2, if_pos h3]
      have hb : ((h.get p).endpoint.bind fun r => (h.get r).parent) = some e := by rw [h1]; exact h2
      obtain ⟨rows, hr, qr⟩ := mapM_all_ok (l := h.outgoing e)
        (f := relationGeometries h)
        (Q := fun x r => List.Forall₂ (IsGeometry h) (match (h.get x).endpoint with
          | none => []
          | some u => (h.subNodes u).flatMap h.subGeometries) r) (by
          intro x hx
          cases hu : (h.get x).endpoint with
          | none => exact absurd hu (h4 x hx)
          | some u =>
            have he : endpointOf h x = .ok u := by unfold endpointOf; rw [hu]
            obtain ⟨xs, hxs, q⟩ := farGeometries_ok (h := h) (v := u) (by
              intro y hy
              apply X.shapes y
              refine List.mem_append_right _ (List.mem_flatMap.2 ⟨p, hp, ?_⟩)
              rw [hb]
              refine List.mem_flatMap.2 ⟨x, hx, ?_⟩
              rw [hu]; exact hy)
            refine ⟨xs, ?_, q⟩
            unfold relationGeometries
            rw [ebind_ok he]; exact hxs)
      refine ⟨rows.flatten, ?_, ?_⟩
      · unfold portGeometries
        rw [ebind_ok hpe, ebind_ok hr]; rfl
      · rw [hb]; exact forall₂_flatten qr)
  refine ⟨a ++ rows.flatten, ?_, List.rel_append qa (forall₂_flatten qr)⟩
  unfold extractGeometry referencedGeometries
  rw [ebind_ok ha, hr]; rfl

theorem shapes_of {h : Heap} {l : List Ref} {xs ys : List Xml} (q : List.Forall₂ (IsGeometry h) l xs)
    (hy : ∀ y ∈ ys, y.tag ≠ "geometry".toList) :
    ∃ ss, List.Forall₂ (HasShape h) l ss ∧
      ((xs ++ ys).filter fun c => decide (c.tag = "geometry".toList)).map (fun g => g.children.head?.bind readShape) =
        ss.map some := by
  induction q with
  | nil =>
    refine ⟨[], .nil, ?_⟩
    rw [List.nil_append, List.filter_eq_nil_iff.2 (fun y h1 h2 => hy y h1 (of_decide_eq_true h2))]
    rfl
  | @cons e x l xs hx _ ih =>
    obtain ⟨ss, q, e2⟩ := ih
    obtain ⟨ht, s, hs, hr⟩ := hx
    refine ⟨s :: ss, .cons hs q, ?_⟩
    rw [List.cons_append, List.filter_cons]
    simp only [ht, decide_true, if_true, List.map_cons, e2, hr]

theorem capitalize_eq (s : Str) : capitalize s = (s.take 1).map Char.toUpper ++ (s.drop 1).map Char.toLower := by
  cases s <;> rfl

theorem encodeVisual_ok {h : Heap} {v m : Ref} (X : Exportable h v) {nm : Str}
    (hm : getAttribute h m "material_name".toList = some (.str nm)) (pre : Str) :
    ∃ x, encodeVisual h v m pre = .ok x ∧ ExportOf h "visual" pre v x ∧
      x.materialName = some [.str ("Gazebo/".toList ++ ((nm.take 1).map Char.toUpper ++ (nm.drop 1).map Char.toLower))] := by
  rw [← capitalize_eq]
  obtain ⟨xs, hx, q⟩ := extractGeometry_ok X
  unfold encodeVisual
  rw [hx]
  show ∃ x, (match getAttribute h m "material_name".toList with
    | some (.str m) => _
    | _ => _) = Except.ok x ∧ _
  rw [hm]
  refine ⟨_, rfl, ⟨rfl, ?_, ?_⟩, ?_⟩
  · simp [Xml.attr?, Xml.attrs, dottedName]
  · exact shapes_of q (by simp [Xml.tag])
  · have hf : ∀ y ∈ xs, y.tag = "geometry".toList := by
      intro y hy
      obtain ⟨i, hi, rfl⟩ := List.getElem_of_mem hy
      exact (q.get (by rw [q.length_eq]; exact hi) hi).1
    unfold Xml.materialName Xml.child?
    simp only [Xml.children]
    rw [List.find?_append, List.find?_eq_none.2 (by intro y hy; rw [hf y hy]; decide)]
    rfl

theorem encodeCollision_ok {h : Heap} {v : Ref} (X : Exportable h v) (pre : Str) :
    ∃ x, encodeCollision h v pre = .ok x ∧ ExportOf h "collision" pre v x := by
  obtain ⟨xs, hx, q⟩ := extractGeometry_ok X
  unfold encodeCollision
  rw [hx]
  refine ⟨_, rfl, ⟨rfl, ?_, ?_⟩⟩
  · simp [Xml.attr?, Xml.attrs, dottedName]
  · have := shapes_of q (ys := []) (by simp)
    rw [List.append_nil] at this
    exact this

/-- The dictionary of one visual node. -/
theorem get?_materials (m : Ref) : ∀ (l : List Ref) (d : Dict Ref Ref) (v : Ref),
    (l.foldl (fun d v => Dict.set d v m) d).get? v = if v ∈ l then some m else d.get? v
  | [], d, v => by simp
  | x :: l, d, v => by
    rw [List.foldl_cons, get?_materials m l, Dict.get?_set]
    by_cases hv : v ∈ l
    · simp [hv]
    · by_cases hx : v = x
      · subst hx; simp
      · rw [if_neg hv, if_neg (Ne.symm hx), if_neg (by simp [hx, hv])]

theorem solid_fold {h : Heap} : ∀ (cs : List Ref) (s : Solid),
    (cs.foldl (solidStep h) s).visual = s.visual ++ (cs.flatMap fun c => match h.subMaterials c with
      | m :: _ => (h.subNodes c).map fun v => (v, m)
      | [] => []).map Prod.fst ∧
    (cs.foldl (solidStep h) s).collision = s.collision ++ cs.flatMap fun c =>
      if h.subMaterials c = [] then h.subNodes c else []
  | [], s => by simp
  | c :: cs, s => by
    obtain ⟨a, b⟩ := solid_fold cs (solidStep h s c)
    rw [List.foldl_cons, a, b]
    unfold solidStep
    cases hm : h.subMaterials c with
    | nil => simp [List.flatMap_cons, hm]
    | cons m ms => simp [List.flatMap_cons, hm, Function.comp_def]

theorem solid_material {h : Heap} : ∀ (cs : List Ref) (s : Solid),
    ((cs.filter fun c => decide (h.subMaterials c ≠ [])) = [] →
      (cs.foldl (solidStep h) s).material = s.material) ∧
    (∀ c m ms, c ∈ (cs.filter fun c => decide (h.subMaterials c ≠ [])).getLast? → h.subMaterials c = m :: ms →
      (cs.foldl (solidStep h) s).material = (h.subNodes c).foldl (fun d v => Dict.set d v m) [])
  | [], s => ⟨fun _ => rfl, by simp⟩
  | c :: cs, s => by
    obtain ⟨a, b⟩ := solid_material cs (solidStep h s c)
    rw [List.foldl_cons]
    cases hm : h.subMaterials c with
    | nil =>
      rw [List.filter_cons_of_neg (by simp [hm])]
      refine ⟨fun q => (a q).trans ?_, b⟩
      unfold solidStep; rw [hm]
    | cons m ms =>
      rw [List.filter_cons_of_pos (by simp [hm])]
      refine ⟨by simp, ?_⟩
      intro c' m' ms' hc' hm'
      cases hl : cs.filter fun c => decide (h.subMaterials c ≠ []) with
      | nil =>
        rw [hl] at hc'
        simp only [List.getLast?_singleton, Option.mem_def, Option.some.injEq] at hc'
        subst hc'
        rw [a hl]
        rw [hm] at hm'; cases hm'
        unfold solidStep; rw [hm]
      | cons x xs =>
        refine b c' m' ms' ?_ hm'
        rw [hl] at hc' ⊢
        rwa [List.getLast?_cons_cons] at hc'

/-- What the statements about solids count as geometries, materials and elements of a class: the children of these classes,
in the order in which they were added; a geometry may be a plain one, a cylinder, an ellipsoid or a polyhedron. -/
theorem C66_parts (h : Heap) (n : Ref) :
    h.subGeometries n = ((h.subelements n).filter fun x => decide ((h.get x).kind ∈
      [Kind.semantic .geometry, .semantic .cylinder, .semantic .ellipsoid, .semantic .polyhedron])) ∧
    h.subMaterials n = ((h.subelements n).filter fun x => decide ((h.get x).kind = .semantic .material)) ∧
    (∀ k, h.subSemantic k n = ((h.subelements n).filter fun x => decide ((h.get x).kind = .semantic k))) ∧
    h.subNodes n = ((h.subelements n).filter fun x => decide ((h.get x).kind = .node)) ∧
    h.subPorts n = ((h.subelements n).filter fun x => decide ((h.get x).kind = .port)) := by
  refine ⟨?_, rfl, fun _ => rfl, rfl, rfl⟩
  unfold Heap.subGeometries Heap.getSubelements
  apply List.filter_congr
  intro x _
  cases hk : (h.get x).kind with
  | semantic k => cases k <;> simp [Kind.isGeometry]
  | _ => simp [Kind.isGeometry]

/-- **C66.** If at most one node of the link has a material, every node in it is exported as a visual with its
name, its solids (its own or the referenced ones) and that material, and every node in the other nodes as a
collision with its name and solids; each exactly once, in order. -/
theorem C66_solids_partial {h : Heap} {n : Ref} (pre : Str)
    (h1 : ((h.subNodes n).filter fun c => decide (h.subMaterials c ≠ [])).length ≤ 1)
    (hv : ∀ vm ∈ visualsOf h n, Exportable h vm.1 ∧ ∃ nm, getAttribute h vm.2 "material_name".toList = some (.str nm))
    (hc : ∀ c ∈ collisionsOf h n, Exportable h c) :
    ∃ vs cs, encodeGeometry h n pre = .ok (vs ++ cs) ∧
      List.Forall₂ (fun vm x => ExportOf h "visual" pre vm.1 x ∧ ∃ nm,
        getAttribute h vm.2 "material_name".toList = some (.str nm) ∧
        x.materialName = some [.str ("Gazebo/".toList ++ ((nm.take 1).map Char.toUpper ++ (nm.drop 1).map Char.toLower))]) (visualsOf h n) vs ∧
      List.Forall₂ (ExportOf h "collision" pre) (collisionsOf h n) cs := by
  obtain ⟨fv, fc⟩ := solid_fold (h := h) (h.subNodes n) {}
  obtain ⟨-, fm⟩ := solid_material (h := h) (h.subNodes n) {}
  generalize hs : (h.subNodes n).foldl (solidStep h) {} = s at fv fc fm
  have fv' : s.visual = (visualsOf h n).map Prod.fst := fv
  have fc' : s.collision = collisionsOf h n := fc
  have look : ∀ vm ∈ visualsOf h n, s.material.get? vm.1 = some vm.2 := by
    rintro ⟨v, m⟩ hvm
    obtain ⟨c, hcn, hvm⟩ := List.mem_flatMap.1 hvm
    cases hm : h.subMaterials c with
    | nil => rw [hm] at hvm; cases hvm
    | cons m' ms =>
      rw [hm] at hvm
      obtain ⟨w, hw, e⟩ := List.mem_map.1 hvm
      cases e
      have hcf : c ∈ (h.subNodes n).filter fun c => decide (h.subMaterials c ≠ []) :=
        List.mem_filter.2 ⟨hcn, by simp [hm]⟩
      have hone : (h.subNodes n).filter (fun c => decide (h.subMaterials c ≠ [])) = [c] := by
        match hl : (h.subNodes n).filter fun c => decide (h.subMaterials c ≠ []), h1, hcf with
        | [x], _, q => rw [List.mem_singleton.1 q]
        | _ :: _ :: _, q, _ => simp at q
      rw [fm c m ms (by rw [hone]; rfl) hm, get?_materials, if_pos hw]
  obtain ⟨vs, hvs, qv⟩ := mapM_all_ok (l := visualsOf h n) (f := fun vm => encodeVisual h vm.1 vm.2 pre)
    (Q := fun vm x => ExportOf h "visual" pre vm.1 x ∧ ∃ nm,
        getAttribute h vm.2 "material_name".toList = some (.str nm) ∧
        x.materialName = some [.str ("Gazebo/".toList ++ ((nm.take 1).map Char.toUpper ++ (nm.drop 1).map Char.toLower))]) (by
      intro vm hvm
      obtain ⟨X, nm, hnm⟩ := hv vm hvm
      obtain ⟨x, hx, e, hm⟩ := encodeVisual_ok X hnm pre
      exact ⟨x, hx, e, nm, hnm, hm⟩)
  obtain ⟨cs, hcs, qc⟩ := mapM_all_ok (l := collisionsOf h n) (f := fun c => encodeCollision h c pre)
    (Q := ExportOf h "collision" pre) (fun c hcc => encodeCollision_ok (hc c hcc) pre)
  refine ⟨vs, cs, ?_, qv, qc⟩
  unfold encodeGeometry
  rw [hs]
  have e1 : (s.visual.mapM fun v =>
      match s.material.get? v with
      | none => .error .keyError
      | some m => encodeVisual h v m pre) = Except.ok vs := by
    rw [fv', ← hvs, List.mapM_map]
    apply mapM_same
    intro vm hvm
    simp only [Function.comp, look vm hvm]
  have e2 : (s.collision.mapM fun c => encodeCollision h c pre) = Except.ok cs := by rw [fc']; exact hcs
  exact (ebind_ok e1).trans (ebind_ok e2)

/-- **C66, two visuals.** A link with two nodes that have a material and nodes in them cannot be exported. -/
theorem C66_two_visuals_refuted {E : Env} {h : Heap} (R : Reach E h) {n c1 c2 : Ref} (pre : Str)
    (h1 : c1 ∈ h.subNodes n) (h2 : c2 ∈ h.subNodes n) (hne : c1 ≠ c2)
    (hm1 : h.subMaterials c1 ≠ []) (hm2 : h.subMaterials c2 ≠ [])
    (hn1 : h.subNodes c1 ≠ []) (hn2 : h.subNodes c2 ≠ []) :
    ∃ e, encodeGeometry h n pre = .error e := by
  obtain ⟨fv, fc⟩ := solid_fold (h := h) (h.subNodes n) {}
  obtain ⟨-, fm⟩ := solid_material (h := h) (h.subNodes n) {}
  generalize hs : (h.subNodes n).foldl (solidStep h) {} = s at fv fc fm
  have fv' : s.visual = (visualsOf h n).map Prod.fst := fv
  have f1 : c1 ∈ (h.subNodes n).filter fun c => decide (h.subMaterials c ≠ []) :=
    List.mem_filter.2 ⟨h1, by simpa using hm1⟩
  have hlne : (h.subNodes n).filter (fun c => decide (h.subMaterials c ≠ [])) ≠ [] := List.ne_nil_of_mem f1
  obtain ⟨cl, hcl⟩ : ∃ cl, ((h.subNodes n).filter fun c => decide (h.subMaterials c ≠ [])).getLast? = some cl :=
    ⟨_, List.getLast?_eq_some_getLast hlne⟩
  have hclm := (List.mem_filter.1 (List.mem_of_getLast? hcl)).2
  obtain ⟨ml, mls, hml⟩ := List.exists_cons_of_ne_nil (of_decide_eq_true hclm)
  have hmat := fm cl ml mls hcl hml
  -- a node in the other one
  have key : ∀ c ∈ h.subNodes n, h.subMaterials c ≠ [] → h.subNodes c ≠ [] → c ≠ cl →
      ∃ v ∈ s.visual, s.material.get? v = none := by
    intro c hc hm hn hcl
    obtain ⟨v, vs, hv⟩ := List.exists_cons_of_ne_nil hn
    obtain ⟨m, ms, hm⟩ := List.exists_cons_of_ne_nil hm
    have hvc : v ∈ h.subNodes c := by rw [hv]; simp
    refine ⟨v, ?_, ?_⟩
    · rw [fv']
      refine List.mem_map.2 ⟨(v, m), List.mem_flatMap.2 ⟨c, hc, ?_⟩, rfl⟩
      rw [hm]
      exact List.mem_map.2 ⟨v, hvc, rfl⟩
    · rw [hmat, get?_materials, if_neg]
      · rfl
      · intro hv2
        have a := ((C01_containment_agrees R c).1 v).1 (List.mem_filter.1 hvc).1
        have b := ((C01_containment_agrees R cl).1 v).1 (List.mem_filter.1 hv2).1
        rw [a] at b
        exact hcl (Option.some.inj b)
  obtain ⟨v, hv, hvn⟩ : ∃ v ∈ s.visual, s.material.get? v = none := by
    by_cases hc : c1 = cl
    · exact key c2 h2 hm2 hn2 (fun e => hne (hc.trans e.symm))
    · exact key c1 h1 hm1 hn1 hc
  unfold encodeGeometry
  rw [hs]
  obtain ⟨e, he⟩ := mapM_err (l := s.visual) (f := fun v =>
      match s.material.get? v with
      | none => Except.error Err.keyError
      | some m => encodeVisual h v m pre) (a := v) (e := .keyError) hv (by simp only [hvn])
  exact ⟨e, ebind_err he⟩

end Rei
