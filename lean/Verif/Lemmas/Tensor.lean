import Verif.Spec.Tensor
import Verif.Props.Homomorphism

/-!
# Tensor conversion: what the traversal emits and what `fill_weights` leaves
-/
namespace Rei
open PyM

/-! ## Filling -/

/-- `w` is the weight of the last entry satisfying `P`; `d` if there is none. -/
def LastEntry (ts : List Entry) (P : Entry → Prop) (w d : Rat) : Prop :=
  (∃ l1 t l2, ts = l1 ++ t :: l2 ∧ P t ∧ (∀ q ∈ l2, ¬ P q) ∧ w = t.w) ∨
  ((∀ q ∈ ts, ¬ P q) ∧ w = d)

theorem LastEntry.snoc_pos {ts : List Entry} {P : Entry → Prop} {t : Entry} {d : Rat} (hp : P t) :
    LastEntry (ts ++ [t]) P t.w d :=
  .inl ⟨ts, t, [], rfl, hp, by simp, rfl⟩

theorem LastEntry.snoc_neg {ts : List Entry} {P : Entry → Prop} {t : Entry} {w d : Rat} (hp : ¬ P t)
    (l : LastEntry ts P w d) : LastEntry (ts ++ [t]) P w d := by
  rcases l with ⟨l1, s, l2, rfl, hs, hl, rfl⟩ | ⟨hn, rfl⟩
  · refine .inl ⟨l1, s, l2 ++ [t], by simp, hs, ?_, rfl⟩
    intro q hq
    rcases List.mem_append.1 hq with hq | hq
    · exact hl q hq
    · simp at hq; subst hq; exact hp
  · refine .inr ⟨?_, rfl⟩
    intro q hq
    rcases List.mem_append.1 hq with hq | hq
    · exact hn q hq
    · simp at hq; subst hq; exact hp

/-- `fill_weights` on entries within the arrays. -/
theorem fill_all (T : Tensors) (ts : List Entry)
    (hin : ∀ t ∈ ts, t.e < T.ne ∧ t.n0 < T.nn ∧ t.n1 < T.nn) :
    ∃ T', ts.foldlM Tensors.fill T = .ok T' ∧ T'.ne = T.ne ∧ T'.nn = T.nn ∧
      (∀ a b c, LastEntry ts (fun t => a = t.e ∧ b = t.n0 ∧ c = t.n1) (T'.W a b c) (T.W a b c)) ∧
      (∀ a b, LastEntry ts (fun t => a = t.e ∧ b = t.n0) (T'.Io a b) (T.Io a b)) ∧
      (∀ a b, LastEntry ts (fun t => a = t.e ∧ b = t.n1) (T'.Ii a b) (T.Ii a b)) := by
  induction ts using List.reverseRecOn with
  | nil => exact ⟨T, rfl, rfl, rfl, fun _ _ _ => .inr ⟨by simp, rfl⟩, fun _ _ => .inr ⟨by simp, rfl⟩,
      fun _ _ => .inr ⟨by simp, rfl⟩⟩
  | append_singleton ts t ih =>
    obtain ⟨T1, e1, hne, hnn, hW, hO, hI⟩ := ih fun q hq => hin q (List.mem_append_left _ hq)
    have ht := hin t (by simp)
    rw [← hne, ← hnn] at ht
    refine ⟨{ T1 with
      W := fun a b c => if a = t.e ∧ b = t.n0 ∧ c = t.n1 then t.w else T1.W a b c
      Io := fun a b => if a = t.e ∧ b = t.n0 then t.w else T1.Io a b
      Ii := fun a b => if a = t.e ∧ b = t.n1 then t.w else T1.Ii a b }, ?_, hne, hnn, ?_, ?_, ?_⟩
    · rw [List.foldlM_append, e1]
      simp only [List.foldlM_cons, List.foldlM_nil]
      change Tensors.fill T1 t >>= pure = _
      unfold Tensors.fill
      rw [if_pos ht]; rfl
    · intro a b c
      by_cases hp : a = t.e ∧ b = t.n0 ∧ c = t.n1
      · simp only [if_pos hp]; exact LastEntry.snoc_pos hp
      · simp only [if_neg hp]; exact LastEntry.snoc_neg hp (hW a b c)
    · intro a b
      by_cases hp : a = t.e ∧ b = t.n0
      · simp only [if_pos hp]; exact LastEntry.snoc_pos hp
      · simp only [if_neg hp]; exact LastEntry.snoc_neg hp (hO a b)
    · intro a b
      by_cases hp : a = t.e ∧ b = t.n1
      · simp only [if_pos hp]; exact LastEntry.snoc_pos hp
      · simp only [if_neg hp]; exact LastEntry.snoc_neg hp (hI a b)

theorem LastEntry.split {ts fs : List Entry} {P : Entry → Prop} {w d : Rat}
    (l : LastEntry (ts ++ fs) P w d) :
    (∃ t ∈ fs, P t ∧ w = t.w) ∨ ((∀ t ∈ fs, ¬ P t) ∧ LastEntry ts P w d) := by
  rcases l with ⟨l1, s, l2, e, hs, hl, rfl⟩ | ⟨hn, rfl⟩
  · rcases List.append_eq_append_iff.1 e with ⟨a, e1, e2⟩ | ⟨b, e1, e2⟩
    · exact .inl ⟨s, by rw [e2]; simp, hs, rfl⟩
    · cases b with
      | nil =>
        simp only [List.nil_append] at e2
        exact .inl ⟨s, by rw [← e2]; simp, hs, rfl⟩
      | cons s' b =>
        simp only [List.cons_append, List.cons.injEq] at e2
        obtain ⟨rfl, rfl⟩ := e2
        refine .inr ⟨fun t ht => hl t (by simp [ht]), .inl ⟨l1, s, b, e1, hs, fun q hq => hl q (by simp [hq]), rfl⟩⟩
  · exact .inr ⟨fun t ht => hn t (by simp [ht]), .inr ⟨fun q hq => hn q (by simp [hq]), rfl⟩⟩

/-- From entries to relations. -/
theorem LastEntry.transfer {h : Heap} {f : Ref → List Entry} {P : Entry → Prop} {Q : Ref → Prop}
    {rels : List Ref} {w : Rat} (hPQ : ∀ r ∈ rels, ∀ t ∈ f r, P t → Q r ∧ t.w = weightOf h r)
    (hQP : ∀ r ∈ rels, Q r → ∃ t ∈ f r, P t) (l : LastEntry (rels.flatMap f) P w 0) :
    LastWins h rels Q w := by
  induction rels using List.reverseRecOn generalizing w with
  | nil =>
    rcases l with ⟨l1, s, l2, e, _⟩ | ⟨_, rfl⟩
    · simp at e
    · exact .inr ⟨by simp, rfl⟩
  | append_singleton rels r ih =>
    rw [List.flatMap_append] at l
    have e : [r].flatMap f = f r := by simp
    rw [e] at l
    rcases l.split with ⟨t, ht, hp, rfl⟩ | ⟨hn, l⟩
    · obtain ⟨hq, hw⟩ := hPQ r (by simp) t ht hp
      exact .inl ⟨rels, r, [], rfl, hq, by simp, hw⟩
    · have hr : ¬ Q r := fun q => by
        obtain ⟨t, ht, hp⟩ := hQP r (by simp) q
        exact hn t ht hp
      rcases ih (fun r hr => hPQ r (by simp [hr])) (fun r hr => hQP r (by simp [hr])) l with
        ⟨l1, s, l2, rfl, hs, hl, rfl⟩ | ⟨hn, rfl⟩
      · refine .inl ⟨l1, s, l2 ++ [r], by simp, hs, ?_, rfl⟩
        intro q hq
        rcases List.mem_append.1 hq with hq | hq
        · exact hl q hq
        · simp at hq; subst hq; exact hr
      · refine .inr ⟨?_, rfl⟩
        intro q hq
        rcases List.mem_append.1 hq with hq | hq
        · exact hn q hq
        · simp at hq; subst hq; exact hr

theorem LastWins.drop_right {h : Heap} {A B : List Ref} {P : Ref → Prop} {w : Rat}
    (hB : ∀ q ∈ B, ¬ P q) (l : LastWins h (A ++ B) P w) : LastWins h A P w := by
  rcases l with ⟨l1, s, l2, e, hs, hl, rfl⟩ | ⟨hn, rfl⟩
  · rcases List.append_eq_append_iff.1 e with ⟨a, e1, e2⟩ | ⟨b, e1, e2⟩
    · exact absurd hs (hB s (by rw [e2]; simp))
    · cases b with
      | nil =>
        simp only [List.nil_append] at e2
        exact absurd hs (hB s (by rw [← e2]; simp))
      | cons s' b =>
        simp only [List.cons_append, List.cons.injEq] at e2
        obtain ⟨rfl, rfl⟩ := e2
        exact .inl ⟨l1, s, b, e1, hs, fun q hq => hl q (by simp [hq]), rfl⟩
  · exact .inr ⟨fun q hq => hn q (by simp [hq]), rfl⟩

theorem LastWins.drop_left {h : Heap} {A B : List Ref} {P : Ref → Prop} {w : Rat}
    (hA : ∀ q ∈ A, ¬ P q) (l : LastWins h (A ++ B) P w) : LastWins h B P w := by
  rcases l with ⟨l1, s, l2, e, hs, hl, rfl⟩ | ⟨hn, rfl⟩
  · rcases List.append_eq_append_iff.1 e with ⟨a, e1, e2⟩ | ⟨b, e1, e2⟩
    · exact .inl ⟨a, s, l2, e2, hs, hl, rfl⟩
    · cases b with
      | nil =>
        simp only [List.nil_append] at e2
        exact .inl ⟨[], s, l2, by simp [e2], hs, hl, rfl⟩
      | cons s' b =>
        simp only [List.cons_append, List.cons.injEq] at e2
        obtain ⟨rfl, _⟩ := e2
        exact absurd hs (hA s (by rw [e1]; simp))
  · exact .inr ⟨fun q hq => hn q (by simp [hq]), rfl⟩

/-! ## The traversal with depth 1 -/

theorem hyperTraverse_edges (h : Heap) (m : IndexHom) (max : Option Nat) (es : List Ref)
    (hes : ∀ x ∈ es, (h.get x).kind = .edge) (d b : Nat) (q : Fringe) (s : List (List Entry)) :
    hyperTraverse h m max (es.length + b) (es.map (fun v => (v, d)) ++ q) s =
      hyperTraverse h m max b (q ++ (es.flatMap h.subRelations).map fun v => (v, d)) s := by
  induction es generalizing q with
  | nil => simp
  | cons x es ih =>
    rw [List.length_cons, Nat.add_right_comm, List.map_cons, List.cons_append, hyperTraverse,
      hes x (by simp)]
    simp only
    rw [List.append_assoc, ih (fun y hy => hes y (by simp [hy]))]
    simp

theorem hyperTraverse_relations (h : Heap) (m : IndexHom) (max : Option Nat) (d : Nat)
    (hd : deeper max d = false) (F : Ref → List (List Entry)) (rs : List Ref)
    (hrs : ∀ r ∈ rs, (h.get r).kind = .relation ∧ relationBatches h m r = .ok (F r))
    (b : Nat) (s : List (List Entry)) :
    hyperTraverse h m max (rs.length + b + 1) (rs.map fun v => (v, d)) s =
      (.ok (), s ++ rs.flatMap F, []) := by
  induction rs generalizing s with
  | nil => simp [hyperTraverse]
  | cons r rs ih =>
    obtain ⟨hk, hF⟩ := hrs r (by simp)
    have e : (r :: rs).length + b + 1 = (rs.length + b + 1) + 1 := by simp; omega
    rw [e, List.map_cons, hyperTraverse, hk]
    simp only [hF, hd]
    rw [show (if false = true then _ else []) = ([] : Fringe) from rfl, List.append_nil,
      ih (fun y hy => hrs y (by simp [hy]))]
    simp

/-! ## Positions -/

theorem index_iff {m : IndexMap} {h : Heap} {l : List Ref}
    (N : Numbers m (l.map fun x => (h.get x).uuid)) (hn : (l.map fun x => (h.get x).uuid).Nodup)
    {i : Nat} {v : Ref} (hv : l[i]? = some v) : m.index (h.get v).uuid = .ok i := by
  rw [(C32_bijection N hn).1, N.uuid, List.getElem?_map, hv]; rfl

theorem sub_uuid_nodup {E : Env} {h : Heap} (R : Reach E h) (c : Ref) (f : Ref → Bool) :
    (((h.subelements c).filter f).map fun x => (h.get x).uuid).Nodup := by
  rw [List.nodup_map_iff_inj_on (((C01_containment_agrees R c).2).filter f)]
  intro x hx y hy e
  have px := (C01_containment_agrees R c).1 x |>.1 (List.mem_filter.1 hx).1
  have py := (C01_containment_agrees R c).1 y |>.1 (List.mem_filter.1 hy).1
  have gx := (SInv.get?_subs R.good.inv c (h.get x).uuid x).2 ⟨px, rfl⟩
  have gy := (SInv.get?_subs R.good.inv c (h.get x).uuid y).2 ⟨py, e.symm⟩
  rw [gx] at gy; exact Option.some.inj gy

theorem getElem?_inj' {l : List Ref} (hn : l.Nodup) {i j : Nat} {v : Ref} (hi : l[i]? = some v)
    (hj : l[j]? = some v) : i = j := by
  obtain ⟨hi', ei⟩ := List.getElem?_eq_some_iff.1 hi
  obtain ⟨hj', ej⟩ := List.getElem?_eq_some_iff.1 hj
  exact (List.Nodup.getElem_inj_iff hn).1 (ei.trans ej.symm)

/-! ## The entries of one relation -/

/-- Position of an element in a list. -/
def posIn (l : List Ref) (v : Ref) : Nat := l.idxOf v

theorem posIn_getElem? {l : List Ref} {v : Ref} (hv : v ∈ l) : l[posIn l v]? = some v := by
  unfold posIn
  have := List.idxOf_lt_length_of_mem hv
  rw [List.getElem?_eq_getElem this, List.getElem_idxOf]

theorem posIn_inj {l : List Ref} {v u : Ref} (hv : v ∈ l) (hu : u ∈ l) (e : posIn l v = posIn l u) :
    v = u := by
  have a := posIn_getElem? hv
  rw [e, posIn_getElem? hu] at a
  exact (Option.some.inj a).symm

theorem posIn_of_getElem? {l : List Ref} (hn : l.Nodup) {i : Nat} {v : Ref} (hv : l[i]? = some v) :
    posIn l v = i :=
  getElem?_inj' hn (posIn_getElem? (List.mem_of_getElem? hv)) hv

open scoped Classical in
/-- The batches of relation `r` with endpoint `v` of edge `x`. -/
noncomputable def batchesOf (h : Heap) (c x r : Ref) : List (List Entry) :=
  match (h.get r).endpoint with
  | none => []
  | some v =>
    let pos := posIn (h.subNodes c)
    let others := ((h.subRelations x).filterMap fun q => (h.get q).endpoint).filter fun u => pos u ≠ pos v
    (if (h.get r).direction.isIn ∧ weightOf h r ≠ 0 then
      [others.map fun u => ⟨pos v, pos u, posIn (h.subEdges c) x, weightOf h r⟩] else []) ++
    (if (h.get r).direction.isOut ∧ weightOf h r ≠ 0 then
      [others.map fun u => ⟨pos u, pos v, posIn (h.subEdges c) x, weightOf h r⟩] else [])

theorem relationWeight_eq {h : Heap} {r : Ref}
    (hv : ∀ v, (h.get r).weight = some v → (h.get v).kind = .value) :
    relationWeight h r = .ok (open scoped Classical in
      (if (h.get r).direction.isIn then weightOf h r else 0,
       if (h.get r).direction.isOut then weightOf h r else 0)) := by
  unfold relationWeight weightOf Dir.isIn Dir.isOut
  cases hw : (h.get r).weight with
  | none =>
    cases hd : (h.get r).direction <;> simp [incidenceValue, hw, hd]
  | some v =>
    cases hd : (h.get r).direction <;> simp [incidenceValue, hw, hd, hv v hw]

theorem nodeIds_eq {h : Heap} {m : IndexHom} {c x : Ref} (hx : (h.get x).kind = .edge)
    (hcl : ∀ r ∈ h.subRelations x, ∃ v ∈ h.subNodes c, (h.get r).endpoint = some v)
    (hidx : ∀ v ∈ h.subNodes c, m.nodes.index (h.get v).uuid = .ok (posIn (h.subNodes c) v)) :
    nodeIds h m x = .ok (((h.subRelations x).filterMap fun q => (h.get q).endpoint).map
      (posIn (h.subNodes c))) := by
  unfold nodeIds Heap.inducedSubset
  rw [if_pos hx]
  generalize h.subRelations x = rs at *
  induction rs with
  | nil => rfl
  | cons r rs ih =>
    obtain ⟨v, hv, e⟩ := hcl r (by simp)
    rw [List.map_cons, List.mapM_cons, e]
    simp only [hidx v hv]
    rw [ih fun q hq => hcl q (by simp [hq])]
    simp only [List.filterMap_cons, e, List.map_cons]
    rfl

theorem relationBatches_eq {h : Heap} {m : IndexHom} {c x r : Ref} (hx : (h.get x).kind = .edge)
    (hp : (h.get r).parent = some x) (hr : r ∈ h.subRelations x) (hxc : x ∈ h.subEdges c)
    (hcl : ∀ r ∈ h.subRelations x, ∃ v ∈ h.subNodes c, (h.get r).endpoint = some v)
    (hw : ∀ v, (h.get r).weight = some v → (h.get v).kind = .value)
    (hidx : ∀ v ∈ h.subNodes c, m.nodes.index (h.get v).uuid = .ok (posIn (h.subNodes c) v))
    (hide : ∀ v ∈ h.subEdges c, m.edges.index (h.get v).uuid = .ok (posIn (h.subEdges c) v)) :
    relationBatches h m r = .ok (batchesOf h c x r) := by
  unfold relationBatches batchesOf
  obtain ⟨v, hv, e⟩ := hcl r hr
  rw [hp, e]
  simp only [hide x hxc, relationWeight_eq hw, hidx v hv]
  change fillRelations h m _ _ _ x = _
  unfold fillRelations
  rw [nodeIds_eq hx hcl hidx]
  by_cases h1 : (h.get r).direction.isIn <;> by_cases h2 : (h.get r).direction.isOut <;>
    by_cases h3 : weightOf h r = 0 <;>
    simp [h1, h2, h3, bind, Except.bind, List.filter_map, Function.comp_def]

theorem mem_batchesOf {h : Heap} {c x r v : Ref} (e : (h.get r).endpoint = some v) (t : Entry) :
    t ∈ (batchesOf h c x r).flatten ↔ t.e = posIn (h.subEdges c) x ∧ t.w = weightOf h r ∧
      weightOf h r ≠ 0 ∧ ∃ u, Endpoint h x u ∧ posIn (h.subNodes c) u ≠ posIn (h.subNodes c) v ∧
        (((h.get r).direction.isIn ∧ t.n0 = posIn (h.subNodes c) v ∧ t.n1 = posIn (h.subNodes c) u) ∨
         ((h.get r).direction.isOut ∧ t.n0 = posIn (h.subNodes c) u ∧ t.n1 = posIn (h.subNodes c) v)) := by
  unfold batchesOf
  rw [e]
  simp only [List.flatten_append, List.mem_append]
  have key : ∀ (P : Prop) [Decidable P] (l : List Entry),
      t ∈ (if P then [l] else []).flatten ↔ P ∧ t ∈ l := by
    intro P _ l; split <;> simp [*]
  rw [key, key]
  simp only [List.mem_map, List.mem_filter, List.mem_filterMap, decide_eq_true_eq]
  unfold Endpoint
  cases t with
  | mk a b ee w =>
  simp only [Entry.mk.injEq]
  constructor
  · rintro (⟨⟨hi, hw⟩, u, ⟨⟨q, hq, eq⟩, hne⟩, rfl, rfl, rfl, rfl⟩ |
      ⟨⟨hi, hw⟩, u, ⟨⟨q, hq, eq⟩, hne⟩, rfl, rfl, rfl, rfl⟩)
    · exact ⟨rfl, rfl, hw, u, ⟨q, hq, eq⟩, hne, .inl ⟨hi, rfl, rfl⟩⟩
    · exact ⟨rfl, rfl, hw, u, ⟨q, hq, eq⟩, hne, .inr ⟨hi, rfl, rfl⟩⟩
  · rintro ⟨rfl, rfl, hw, u, ⟨q, hq, eq⟩, hne, ⟨hi, rfl, rfl⟩ | ⟨hi, rfl, rfl⟩⟩
    · exact .inl ⟨⟨hi, hw⟩, u, ⟨⟨q, hq, eq⟩, hne⟩, rfl, rfl, rfl, rfl⟩
    · exact .inr ⟨⟨hi, hw⟩, u, ⟨⟨q, hq, eq⟩, hne⟩, rfl, rfl, rfl, rfl⟩

end Rei
