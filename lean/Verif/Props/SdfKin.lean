import Verif.Spec.Sdf
import Verif.Props.SdfSolid
import Verif.Props.Encoding

/-!
# C67, C68, C69: kinematic graphs, joints and models in the SDF export
-/
namespace Rei

theorem mem_subSemantic {h : Heap} {k : SemKind} {n x : Ref} :
    x ∈ h.subSemantic k n ↔ x ∈ h.subelements n ∧ (h.get x).kind = .semantic k := by
  unfold Heap.subSemantic Heap.getSubelements
  rw [List.mem_filter, decide_eq_true_eq]

theorem subSemantic_head {h : Heap} {k : SemKind} {n d : Ref} {ds : List Ref} (e : h.subSemantic k n = d :: ds) :
    (h.subelements n).find? (fun x => decide ((h.get x).kind = .semantic k)) = some d := by
  unfold Heap.subSemantic Heap.getSubelements at e
  rw [← List.head?_filter, e]
  rfl

/-! ## C67 -/

theorem kinGraphLoop_run {h : Heap} : ∀ (n : Nat) (x : Ref) (l : List Str), PathTo h x l → l.length ≤ n →
    (∃ d g, kinGraphLoop h n x = .ok (some (d, g)) ∧ Within h g x ∧ IsKinGraphDef h d g ∧
      ∀ y, Within h y x → HasKinGraph h y → Within h y g) ∨
    (kinGraphLoop h n x = .ok none ∧ ∀ y, Within h y x → ¬ HasKinGraph h y)
  | 0, x, l, hp, hl => by cases hp <;> simp at hl
  | n + 1, x, l, hp, hl => by
    unfold kinGraphLoop
    cases hs : h.subSemantic .kinGraph x with
    | cons d ds =>
      left
      exact ⟨d, x, rfl, .inl rfl, subSemantic_head hs, fun y hy _ => hy⟩
    | nil =>
      have no : ¬ HasKinGraph h x := by
        rintro ⟨d, hd, hk⟩
        have := mem_subSemantic.2 ⟨hd, hk⟩
        rw [hs] at this
        cases this
      cases hp with
      | root hr =>
        right
        rw [hr]
        refine ⟨rfl, fun y hy => ?_⟩
        rcases hy with rfl | hy
        · exact no
        · cases hy with
          | direct e => rw [hr] at e; cases e
          | up e _ => rw [hr] at e; cases e
      | @child _ p l' he hp' =>
        rw [he]
        have up : ∀ {y}, Within h y x → HasKinGraph h y → Within h y p := by
          intro y hy hk
          rcases hy with rfl | hy
          · exact absurd hk no
          · cases hy with
            | direct e => rw [he] at e; cases e; exact .inl rfl
            | up e q => rw [he] at e; cases e; exact .inr q
        have down : ∀ {y}, Within h y p → Within h y x := by
          rintro y (rfl | q)
          · exact .inr (.direct he)
          · exact .inr (.up he q)
        rcases kinGraphLoop_run n p l' hp' (by simp at hl; omega) with ⟨d, g, e, a, b, c⟩ | ⟨e, a⟩
        · exact .inl ⟨d, g, e, down a, b, fun y hy hk => c y (up hy hk) hk⟩
        · exact .inr ⟨e, fun y hy hk => a y (up hy hk) hk⟩

/-- **C67.** In every reachable state the search for the kinematic graph of an element ends: with the first
kinematic graph definition of the nearest element around it (or itself) that has one, or with nothing when
there is none. -/
theorem C67_nearest_graph {E : Env} {h : Heap} (R : Reach E h) {x : Ref} (hx : x < h.size) :
    (∃ d g, parentKinematicGraph h (some x) = .ok (some (d, g)) ∧ Within h g x ∧ IsKinGraphDef h d g ∧
      ∀ y, Within h y x → HasKinGraph h y → Within h y g) ∨
    (parentKinematicGraph h (some x) = .ok none ∧ ∀ y, Within h y x → ¬ HasKinGraph h y) := by
  obtain ⟨l, hp, hl⟩ := R.good.inv.exists_path hx
  exact kinGraphLoop_run _ x l hp (by omega)

/-! ## C69 -/

/-- One more event at the end. -/
theorem elementsOf_snoc (evs : List SdfEvent) (ev : SdfEvent) (k : Nat) :
    elementsOf (evs ++ [ev]) k = elementsOf evs k ++
      (match ev with
        | .element x => if ownerOf evs evs.length = k then [x] else []
        | .model _ => []) := by
  unfold elementsOf
  rw [List.length_append, List.length_singleton, List.range_succ, List.filterMap_append]
  congr 1
  · apply List.filterMap_congr
    intro t ht
    rw [List.mem_range] at ht
    rw [List.getElem?_append_left ht]
    unfold ownerOf
    rw [List.take_append_of_le_length (le_of_lt ht)]
  · simp only [List.filterMap_cons, List.filterMap_nil, List.getElem?_append_right (le_refl _), Nat.sub_self,
      List.getElem?_cons_zero]
    have : ownerOf (evs ++ [ev]) evs.length = ownerOf evs evs.length := by
      unfold ownerOf
      rw [List.take_append_of_le_length (le_refl _)]
    cases ev with
    | element x =>
      simp only [this]
      by_cases h : ownerOf evs evs.length = k
      · simp [h]
      · simp [h]
    | model n => simp

theorem modelNames_snoc (evs : List SdfEvent) (ev : SdfEvent) :
    modelNames (evs ++ [ev]) = modelNames evs ++ (match ev with
      | .model n => [n]
      | .element _ => []) := by
  unfold modelNames
  rw [List.filterMap_append]
  congr 1
  cases ev <;> rfl

theorem Sdf.runEvents_snoc (s : Sdf) (evs : List SdfEvent) (ev : SdfEvent) :
    s.runEvents (evs ++ [ev]) = (s.runEvents evs).runEvent ev := by
  unfold Sdf.runEvents
  rw [List.foldl_append]
  rfl

theorem ownerOf_full (evs : List SdfEvent) : ownerOf evs evs.length = (modelNames evs).length - 1 := by
  unfold ownerOf
  rw [List.take_length]

theorem elementsOf_beyond (evs : List SdfEvent) {k : Nat} (hk : (modelNames evs).length ≤ k) (h1 : 1 ≤ k) :
    elementsOf evs k = [] := by
  unfold elementsOf
  rw [List.filterMap_eq_nil_iff]
  intro t ht
  have : ownerOf evs t ≤ (modelNames evs).length - 1 := by
    unfold ownerOf
    have : (modelNames (evs.take t)).length ≤ (modelNames evs).length := by
      unfold modelNames
      exact ((List.take_sublist t evs).filterMap _).length_le
    omega
  have hne : ownerOf evs t ≠ k := by omega
  cases evs[t]? with
  | none => rfl
  | some ev => cases ev <;> simp [hne]

theorem sdf_run_inv (evs : List SdfEvent) :
    ((({} : Sdf).runEvents evs).models.map Prod.fst = modelNames evs) ∧
    (modelNames evs = [] → (({} : Sdf).runEvents evs).cache = elementsOf evs 0) ∧
    (modelNames evs ≠ [] → (({} : Sdf).runEvents evs).cache = []) ∧
    ∀ (k : Nat) (m : Str × List Xml), (({} : Sdf).runEvents evs).models[k]? = some m → m.2 = elementsOf evs k := by
  induction evs using List.reverseRecOn with
  | nil => exact ⟨rfl, fun _ => rfl, fun h => absurd rfl h, fun k m h => by cases h⟩
  | append_singleton evs ev ih =>
    obtain ⟨a, b, c, d⟩ := ih
    rw [Sdf.runEvents_snoc, modelNames_snoc]
    generalize ({} : Sdf).runEvents evs = s at a b c d ⊢
    have hlen : s.models.length = (modelNames evs).length := by rw [← a, List.length_map]
    cases ev with
    | model n =>
      refine ⟨?_, ?_, fun _ => rfl, ?_⟩
      · simp only [Sdf.runEvent, Sdf.newModel, List.map_append, a, List.map_cons, List.map_nil]
      · intro h; simp at h
      · intro k m hm
        rw [elementsOf_snoc, List.append_nil]
        simp only [Sdf.runEvent, Sdf.newModel] at hm
        rw [List.getElem?_append] at hm
        split at hm
        · exact d k m hm
        · next hk =>
          have hk0 : k = s.models.length := by
            rcases Nat.lt_or_ge k (s.models.length + 1) with q | q
            · omega
            · rw [List.getElem?_eq_none (by simp; omega)] at hm; cases hm
          subst hk0
          rw [Nat.sub_self] at hm
          cases hm
          by_cases h0 : modelNames evs = []
          · rw [h0] at hlen
            rw [show s.models.length = 0 from hlen]
            exact b h0
          · rw [show (n, s.cache).2 = s.cache from rfl, c h0, elementsOf_beyond]
            · rw [hlen]
            · rw [hlen]; exact List.length_pos_iff.2 h0
    | element x =>
      rw [List.append_nil]
      simp only [Sdf.runEvent, Sdf.add]
      cases hl : s.models.getLast? with
      | none =>
        have hs0 : s.models = [] := List.getLast?_eq_none_iff.1 hl
        have h0 : modelNames evs = [] := by rw [← a, hs0]; rfl
        refine ⟨by rw [hs0, h0]; rfl, ?_, fun h => absurd h0 h, ?_⟩
        · intro _
          rw [elementsOf_snoc, ownerOf_full, h0]
          simp only [List.length_nil, Nat.zero_sub, if_true]
          rw [b h0]
        · intro k m hm; rw [hs0] at hm; cases hm
      | some m0 =>
        obtain ⟨n0, xs⟩ := m0
        have hs := List.dropLast_append_getLast? _ hl
        have hpos : s.models ≠ [] := by rintro e; rw [e] at hl; cases hl
        have h0 : modelNames evs ≠ [] := by rw [← a]; simpa using hpos
        refine ⟨?_, fun h => absurd h h0, fun _ => c h0, ?_⟩
        · rw [← a]
          conv_rhs => rw [← hs]
          rw [List.map_append, List.map_append]
          rfl
        · intro k m hm
          rw [elementsOf_snoc, ownerOf_full, ← hlen]
          simp only at hm ⊢
          rw [List.getElem?_append] at hm
          rw [List.length_dropLast] at hm
          split at hm
          · next hk =>
            rw [if_neg (by omega), List.append_nil]
            refine d k m ?_
            rw [List.getElem?_dropLast] at hm
            rw [if_pos (by omega)] at hm
            exact hm
          · next hk =>
            have hk0 : k = s.models.length - 1 := by
              rcases Nat.lt_or_ge k (s.models.length - 1 + 1) with q | q
              · omega
              · rw [List.getElem?_eq_none (by simp; omega)] at hm; cases hm
            subst hk0
            rw [Nat.sub_self] at hm
            cases hm
            rw [if_pos rfl, ← d (s.models.length - 1) (n0, xs) (by rw [← List.getLast?_eq_getElem?]; exact hl)]

/-- **C69.** Whatever the order in which models are opened and elements arrive: there is one model per opened
model, in order; element number `t` is in the model opened last before it, or in the first model if it came
before all models; elements keep their order; nothing is held back once a model exists. -/
theorem C69_grouping (evs : List SdfEvent) :
    (({} : Sdf).runEvents evs).models = (modelNames evs).zipIdx.map (fun nk => (nk.1, elementsOf evs nk.2)) ∧
    (({} : Sdf).runEvents evs).cache = if modelNames evs = [] then elementsOf evs 0 else [] := by
  obtain ⟨a, b, c, d⟩ := sdf_run_inv evs
  constructor
  · apply List.ext_getElem?
    intro k
    cases hk : (({} : Sdf).runEvents evs).models[k]? with
    | none =>
      rw [List.getElem?_eq_none_iff] at hk
      rw [List.getElem?_eq_none]
      rw [List.length_map, List.length_zipIdx, ← a, List.length_map]
      exact hk
    | some m =>
      have h1 : (modelNames evs)[k]? = some m.1 := by rw [← a, List.getElem?_map, hk]; rfl
      rw [List.getElem?_map, List.getElem?_zipIdx, h1]
      simp only [Option.map_some, Nat.zero_add, ← d k m hk]
  · split
    · next h => exact b h
    · next h => exact c h

/-! ## C68 -/

theorem joinPrefix_one (pre n : Str) : joinPrefix [n] pre = nameIn pre n := by
  unfold joinPrefix nameIn
  split
  · rfl
  · simp [Str.join, Str.joinS]

theorem jointOf_of {h : Heap} {o j : Ref} (q : JointOn h o j) : jointOf h o = .ok j := by
  unfold JointOn at q
  rw [← List.head?_filter] at q
  unfold jointOf Heap.subSemantic Heap.getSubelements
  cases hl : (h.subelements o).filter fun x => decide ((h.get x).kind = .semantic .kinJoint) with
  | nil => rw [hl] at q; cases q
  | cons a l => rw [hl] at q; cases q; rfl

theorem jointAxis_of {h : Heap} {j : Ref} {a b c : Rat} (q : AxisIs h j a b c) :
    jointAxis h j = .ok [.num a, .num b, .num c] := by
  unfold jointAxis
  rcases q with ⟨e, rfl, rfl, rfl⟩ | e
  · rw [e]; rfl
  · rw [e]
    simp only [numsAttr_of e]
    rfl

theorem rigidPose_of {h : Heap} {x : Ref} (q : IsTransform h x) (attrs : List (Str × Str)) :
    ∃ p, rigidPose h x attrs = .ok p ∧ PoseOf h x p ∧ p.attrs = attrs := by
  obtain ⟨t, r, ht, hr, lt, lr⟩ := q
  match t, lt with
  | [a, b, c], _ =>
    match r, lr with
    | [d, e, f], _ =>
      unfold rigidPose
      simp only [numsAttr_of ht, numsAttr_of hr]
      exact ⟨_, rfl, ⟨rfl, _, _, ht, hr, rfl⟩, rfl⟩

theorem jointType_of (h : Heap) (j : Ref) :
    jointType (getAttribute h j "joint_type".toList) = sdfJointType h j := by
  unfold sdfJointType jointType
  generalize getAttribute h j "joint_type".toList = a
  split
  · next s =>
    by_cases h1 : s = "fix".toList
    · subst h1; decide
    · by_cases h2 : s = "rev".toList
      · subst h2; decide
      · simp only [if_neg h1, if_neg h2, AttrVal.str.injEq, Option.some.injEq]
  · next hne =>
    rw [if_neg]
    rintro rfl
    exact hne _ rfl

theorem ebind_inv {α β : Type} {x : Except Err α} {f : α → Except Err β} {b : β} (e : (x >>= f) = .ok b) :
    ∃ a, x = .ok a ∧ f a = .ok b := by
  cases x with
  | error _ => cases e
  | ok a => exact ⟨a, rfl, e⟩

theorem encodeLink_name {h : Heap} {l : Ref} {pre : Str} {y : Xml} (e : encodeLink h l pre = .ok y) :
    y.tag = "link".toList ∧ y.attr? "name".toList = some (nameIn pre (h.get l).idName) := by
  unfold encodeLink at e
  obtain ⟨f, _, e⟩ := ebind_inv e
  obtain ⟨po, _, e⟩ := ebind_inv e
  obtain ⟨n, _, e⟩ := ebind_inv e
  obtain ⟨gs, _, e⟩ := ebind_inv e
  cases e
  refine ⟨rfl, ?_⟩
  rw [← joinPrefix_one]
  rfl

theorem forall₂_right {α β : Type} {P : α → β → Prop} : ∀ {l : List α} {m : List β}, List.Forall₂ P l m →
    ∀ b ∈ m, ∃ a ∈ l, P a b
  | _, _, .nil, b, hb => by cases hb
  | _, _, .cons h t, b, hb => by
    rcases List.mem_cons.1 hb with rfl | hb
    · exact ⟨_, List.mem_cons_self, h⟩
    · obtain ⟨a, ha, q⟩ := forall₂_right t b hb
      exact ⟨a, List.mem_cons_of_mem _ ha, q⟩

/-- **C68.** For an incoming and an outgoing relation of an edge with endpoints `p` and `v` and the joint `j` on
the outgoing one, with readable axis and transformations: one joint element is exported, with the name of `j`,
the type and axis of `j`, one pose per transformation of `j`, relative to the parent (`JointElement`); and it joins the
exported links of `p` and `v`, provided links are named like their nodes. -/
theorem C68_joint {h : Heap} {i o p v j : Ref} {a b c : Rat} (pre : Str)
    (hi : (h.get i).endpoint = some p) (ho : (h.get o).endpoint = some v) (hj : JointOn h o j)
    (ha : AxisIs h j a b c) (ht : ∀ x ∈ transformsOf h j, IsTransform h x) :
    ∃ x, jointBase h i o pre = .ok x ∧ JointElement h pre p v j x ∧
      (∀ l y, NamedLink h p l → encodeLink h l pre = .ok y →
        ∃ nm, y.attr? "name".toList = some nm ∧ x.childText "parent" = some [.str nm]) ∧
      (∀ l y, NamedLink h v l → encodeLink h l pre = .ok y →
        ∃ nm, y.attr? "name".toList = some nm ∧ x.childText "child" = some [.str nm]) := by
  obtain ⟨ps, hps, qps⟩ := mapM_all_ok (l := h.subSemantic .rigid j)
    (f := fun x => rigidPose h x [("relative_to".toList, joinPrefix [(h.get p).idName] pre)])
    (Q := fun x q => PoseOf h x q ∧ q.attrs = [("relative_to".toList, joinPrefix [(h.get p).idName] pre)])
    (by
      intro x hx
      exact rigidPose_of (ht x hx) _)
  have e1 : endpointOf h i = .ok p := by unfold endpointOf; rw [hi]
  have e2 : endpointOf h o = .ok v := by unfold endpointOf; rw [ho]
  have run : jointBase h i o pre = .ok (.el "joint".toList
      [("name".toList, joinPrefix [(h.get j).idName] pre),
        ("type".toList, jointType (getAttribute h j "joint_type".toList))] []
      ([textEl "parent" [.str (joinPrefix [(h.get p).idName] pre)],
        textEl "child" [.str (joinPrefix [(h.get v).idName] pre)],
        .el "axis".toList [] [] [textEl "xyz" [.num a, .num b, .num c]]] ++ ps)) := by
    unfold jointBase jointEl
    rw [ebind_ok (jointOf_of hj), ebind_ok e2, ebind_ok e1, ebind_ok (jointOf_of hj), ebind_ok (jointAxis_of ha),
      ebind_ok hps]
    rfl
  refine ⟨_, run, ⟨rfl, ?_, ?_, ⟨a, b, c, _, ha, rfl, rfl⟩, ?_, ?_, ?_⟩, ?_, ?_⟩
  · rw [← joinPrefix_one]; rfl
  · rw [← jointType_of]; rfl
  · rw [← joinPrefix_one]; rfl
  · rw [← joinPrefix_one]; rfl
  · have : Xml.every (.el "joint".toList
      [("name".toList, joinPrefix [(h.get j).idName] pre),
        ("type".toList, jointType (getAttribute h j "joint_type".toList))] []
      ([textEl "parent" [.str (joinPrefix [(h.get p).idName] pre)],
        textEl "child" [.str (joinPrefix [(h.get v).idName] pre)],
        .el "axis".toList [] [] [textEl "xyz" [.num a, .num b, .num c]]] ++ ps)) "pose" = ps := by
      unfold Xml.every Xml.children
      rw [List.filter_append]
      show [] ++ ps.filter _ = ps
      rw [List.nil_append, List.filter_eq_self]
      intro q hq
      obtain ⟨x, _, h1, _⟩ := forall₂_right qps q hq
      exact decide_eq_true h1.1
    rw [this]
    refine qps.imp fun x q h1 => ⟨h1.1, ?_⟩
    rw [← joinPrefix_one]
    unfold Xml.attr?
    rw [h1.2]
    rfl
  · rintro l y ⟨_, _, hn⟩ hl
    refine ⟨_, (encodeLink_name hl).2, ?_⟩
    rw [hn, ← joinPrefix_one]; rfl
  · rintro l y ⟨_, _, hn⟩ hl
    refine ⟨_, (encodeLink_name hl).2, ?_⟩
    rw [hn, ← joinPrefix_one]; rfl

end Rei
