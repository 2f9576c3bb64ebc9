import Verif.Spec.TensorLocal
import Verif.Props.DirectedPlan
import Verif.Props.Isomorphism

/-!
# C116: entries are local; growing and shrinking contexts
-/
namespace Rei
open PyM

section
variable {E E' : Env} {h h' : Heap} {c c' : Ref} {T T' : Tensors}

theorem SameEdge.ends {x : Ref} (S : SameEdge h h' x) (v : Ref) : Endpoint h' x v ↔ Endpoint h x v := by
  unfold Endpoint
  rw [S.1]
  constructor
  · rintro ⟨r, hr, e⟩
    exact ⟨r, hr, by rw [← e]; exact (congrArg Prod.fst (S.2 r hr).1).symm⟩
  · rintro ⟨r, hr, e⟩
    exact ⟨r, hr, by rw [← e]; exact congrArg Prod.fst (S.2 r hr).1⟩

theorem SameEdge.links {x : Ref} (S : SameEdge h h' x) {r : Ref} (hr : r ∈ h.subRelations x) (v u : Ref) :
    Links h x v u r ↔ Links h' x v u r := by
  obtain ⟨a, b⟩ := S.2 r hr
  simp only [Heap.linkAt, Prod.mk.injEq] at a
  unfold Links
  rw [S.ends, S.ends, b, a.1, a.2.1]

theorem SameEdge.wins {x : Ref} (S : SameEdge h h' x) {P P' : Ref → Prop} (e : ∀ r ∈ h.subRelations x, (P r ↔ P' r)) {w w' : Rat}
    (L : LastWins h (h.subRelations x) P w) (L' : LastWins h' (h'.subRelations x) P' w') : w' = w := by
  rw [S.1] at L'
  refine LastWins.same ?_ L L'
  rw [List.forall₂_same]
  exact fun r hr => ⟨e r hr, (S.2 r hr).2⟩

/-- **C116.** Entries are local: two conversions - of the same context at different times, or of different contexts - agree on
the entries of an edge at two nodes if the relations of that edge are the same. -/
theorem C116_local (R : Reach E h) (R' : Reach E' h') (K : Context h c) (K' : Context h' c') (hT : TensorOf h c T)
    (hT' : TensorOf h' c' T') {x : Ref} (S : SameEdge h h' x) {e e' : Nat} (he : (h.subEdges c)[e]? = some x)
    (he' : (h'.subEdges c')[e']? = some x) {v u : Ref} {i i' j j' : Nat} (hi : (h.subNodes c)[i]? = some v)
    (hi' : (h'.subNodes c')[i']? = some v) (hj : (h.subNodes c)[j]? = some u) (hj' : (h'.subNodes c')[j']? = some u) :
    T'.W e' i' j' = T.W e i j ∧ T'.Io e' i' = T.Io e i ∧ T'.Ii e' i' = T.Ii e i := by
  have En := hT.entries R K
  have En' := hT'.entries R' K'
  refine ⟨?_, ?_, ?_⟩
  · exact S.wins (fun r hr => S.links hr v u) (En.W e i j x v u he hi hj) (En'.W e' i' j' x v u he' hi' hj')
  · exact S.wins (fun r hr => exists_congr fun u => S.links hr v u) (En.Io e i x v he hi) (En'.Io e' i' x v he' hi')
  · exact S.wins (fun r hr => exists_congr fun u => S.links hr u v) (En.Ii e i x v he hi) (En'.Ii e' i' x v he' hi')

theorem no_wins {rs : List Ref} {P : Ref → Prop} {w : Rat} (no : ∀ q ∈ rs, ¬ P q) (L : LastWins h rs P w) : w = 0 := by
  rcases L with ⟨l1, r, l2, e, hp, -⟩ | ⟨-, e⟩
  · exact absurd hp (no r (by rw [e]; simp))
  · exact e

/-- The entries of an edge at a node that is no end of it. -/
theorem Entries.off (En : Entries h c T) {x v : Ref} {e i : Nat} (he : (h.subEdges c)[e]? = some x)
    (hi : (h.subNodes c)[i]? = some v) (no : ¬ Endpoint h x v) :
    (∀ j < T.nn, T.W e i j = 0 ∧ T.W e j i = 0) ∧ T.Io e i = 0 ∧ T.Ii e i = 0 := by
  refine ⟨fun j hj => ?_, ?_, ?_⟩
  · rw [En.nn] at hj
    have hu := List.getElem?_eq_getElem hj
    exact ⟨no_wins (fun q _ k => no k.2.2.1) (En.W e i j x v _ he hi hu),
      no_wins (fun q _ k => no k.2.2.2.1) (En.W e j i x _ v he hu hi)⟩
  · exact no_wins (fun q _ ⟨_, k⟩ => no k.2.2.1) (En.Io e i x v he hi)
  · exact no_wins (fun q _ ⟨_, k⟩ => no k.2.2.2.1) (En.Ii e i x v he hi)

theorem weightOf_congr {r : Ref} (hw : (h'.get r).weight = (h.get r).weight)
    (hv : ∀ v, (h.get r).weight = some v → h'.valuesOf v = h.valuesOf v) : weightOf h' r = weightOf h r := by
  unfold weightOf
  rw [hw]
  cases q : (h.get r).weight with
  | none => rfl
  | some v => simp only; rw [hv v q]

theorem Calm.valuesOf (C : Calm h h') {v : Ref} (hv : v < h.size) : h'.valuesOf v = h.valuesOf v := by
  unfold Heap.valuesOf
  rw [C.lists, C.vals v hv]

theorem Context.weight_lt (R : Reach E h) (K : Context h c) {x r v : Ref} (hx : x ∈ h.subEdges c) (hr : r ∈ h.subRelations x)
    (hv : (h.get r).weight = some v) : v < h.size :=
  R.good.inv.lt_of_kind (by rw [K.weights r ⟨x, hx, hr⟩ v hv]; simp)

theorem mem_sub_lt (R : Reach E h) {p : Ref} {f : Ref → Bool} {x : Ref} (hx : x ∈ h.getSubelements f p) : x < h.size := by
  have I := R.good.inv
  exact I.lt_of_parent ((I.mem_subelements p x).1 (List.mem_of_mem_filter hx))

theorem RowAdded.of (layers : T'.ne = T.ne) (rows : T'.nn = T.nn + 1)
    (W : ∀ e < T.ne, ∀ i ≤ T.nn, ∀ j ≤ T.nn, T'.W e i j = if i < T.nn ∧ j < T.nn then T.W e i j else 0)
    (Io : ∀ e < T.ne, ∀ i ≤ T.nn, T'.Io e i = if i < T.nn then T.Io e i else 0)
    (Ii : ∀ e < T.ne, ∀ i ≤ T.nn, T'.Ii e i = if i < T.nn then T.Ii e i else 0) : RowAdded T T' := by
  have deg : ∀ i ≤ T.nn, T'.degree i = if i < T.nn then T.degree i else 0 := by
    intro i hi
    unfold Tensors.degree
    rw [layers, sumTo_congr fun e he => Io e he i hi, sumTo_congr fun e he => Ii e he i hi]
    by_cases q : i < T.nn
    · simp only [q, if_true]
      have : (∀ e < T.ne, T'.Io e i = T'.Ii e i) ↔ ∀ e < T.ne, T.Io e i = T.Ii e i :=
        forall₂_congr fun e he => by rw [Io e he i hi, Ii e he i hi, if_pos q, if_pos q]
      simp only [this]
    · simp only [q, if_false, sumTo_zero]
      ring
  refine ⟨layers, rows, W, Io, Ii, deg, ?_, ?_⟩
  · unfold Tensors.totalDegree
    rw [rows, sumTo_sum, Finset.sum_range_succ, ← sumTo_sum, deg _ (Nat.le_refl _), if_neg (Nat.lt_irrefl _), add_zero]
    exact sumTo_congr fun i hi => by rw [deg i (Nat.le_of_lt hi), if_pos hi]
  · intro i hi j hj
    unfold Tensors.projectedLaplacian Tensors.diagDegree
    rw [layers, sumTo_congr fun e he => W e he i hi j hj, deg i hi]
    by_cases q : i < T.nn ∧ j < T.nn
    · rw [if_pos q, if_pos q.1]
      simp only [q, and_self, if_true]
    · rw [if_neg q]
      simp only [q, if_false, sumTo_zero, sub_zero]
      split
      · rename_i e
        subst e
        rw [if_neg fun k => q ⟨k, k⟩]
      · rfl

/-- Contexts with one more node, which no relation leads to. -/
theorem rowAdded (R : Reach E h) (R' : Reach E h') (K : Context h c) (K' : Context h' c) {n : Ref}
    (hN : h'.subNodes c = h.subNodes c ++ [n]) (hE : h'.subEdges c = h.subEdges c) (hn : n ∉ h.subNodes c)
    (S : ∀ x ∈ h.subEdges c, SameEdge h h' x) (hT : TensorOf h c T) (hT' : TensorOf h' c T') : RowAdded T T' := by
  have En := hT.entries R K
  have En' := hT'.entries R' K'
  have rows : T'.nn = T.nn + 1 := by rw [En'.nn, En.nn, hN]; simp
  have edge : ∀ e < T.ne, ∃ x, (h.subEdges c)[e]? = some x ∧ (h'.subEdges c)[e]? = some x := fun e he => by
    rw [En.ne] at he
    exact ⟨_, List.getElem?_eq_getElem he, by rw [hE, List.getElem?_eq_getElem he]⟩
  have node : ∀ i < T.nn, ∃ v, (h.subNodes c)[i]? = some v ∧ (h'.subNodes c)[i]? = some v := fun i hi => by
    rw [En.nn] at hi
    exact ⟨_, List.getElem?_eq_getElem hi, by rw [hN, List.getElem?_append_left hi, List.getElem?_eq_getElem hi]⟩
  have last : (h'.subNodes c)[T.nn]? = some n := by rw [hN, En.nn]; simp
  have off : ∀ e < T.ne, (∀ j < T'.nn, T'.W e T.nn j = 0 ∧ T'.W e j T.nn = 0) ∧ T'.Io e T.nn = 0 ∧ T'.Ii e T.nn = 0 := by
    intro e he
    obtain ⟨x, hx, hx'⟩ := edge e he
    refine En'.off hx' last fun k => hn ?_
    obtain ⟨r, hr, ee⟩ := ((S x (List.mem_of_getElem? hx)).ends n).1 k
    obtain ⟨v, hv, e2⟩ := K.closed r ⟨x, List.mem_of_getElem? hx, hr⟩
    rw [ee] at e2
    rw [Option.some.inj e2]
    exact hv
  have at_ : ∀ e < T.ne, ∀ i < T.nn, ∀ j < T.nn,
      T'.W e i j = T.W e i j ∧ T'.Io e i = T.Io e i ∧ T'.Ii e i = T.Ii e i := by
    intro e he i hi j hj
    obtain ⟨x, hx, hx'⟩ := edge e he
    obtain ⟨v, hv, hv'⟩ := node i hi
    obtain ⟨u, hu, hu'⟩ := node j hj
    exact C116_local R R' K K' hT hT' (S x (List.mem_of_getElem? hx)) hx hx' hv hv' hu hu'
  have hle : ∀ i, i ≤ T.nn → ¬ i < T.nn → i = T.nn := fun i h1 h2 => by omega
  refine .of (by rw [En'.ne, En.ne, hE]) rows ?_ ?_ ?_
  · intro e he i hi j hj
    split
    · rename_i q
      exact (at_ e he i q.1 j q.2).1
    · rename_i q
      by_cases qi : i < T.nn
      · rw [hle j hj fun k => q ⟨qi, k⟩]
        exact (((off e he).1 i (by omega)).2)
      · rw [hle i hi qi]
        exact (((off e he).1 j (by omega)).1)
  · intro e he i hi
    split
    · rename_i q
      exact (at_ e he i q i q).2.1
    · rename_i q
      rw [hle i hi q]
      exact (off e he).2.1
  · intro e he i hi
    split
    · rename_i q
      exact (at_ e he i q i q).2.2
    · rename_i q
      rw [hle i hi q]
      exact (off e he).2.2

/-- Every relation of an unchanged edge still leads to a node of the context and has a value node as weight. -/
theorem Context.carry (K : Context h c) (hk : (h'.get c).kind = .node) (hN : ∀ v ∈ h.subNodes c, v ∈ h'.subNodes c)
    (hE : ∀ x ∈ h'.subEdges c, x ∈ h.subEdges c) (S : ∀ x ∈ h.subEdges c, SameEdge h h' x)
    (hV : ∀ x ∈ h.subEdges c, ∀ r ∈ h.subRelations x, ∀ v, (h.get r).weight = some v → (h'.get v).kind = (h.get v).kind) :
    Context h' c := by
  refine ⟨hk, ?_, ?_⟩
  · rintro r ⟨x, hx, hr⟩
    have hx := hE x hx
    have s := S x hx
    rw [s.1] at hr
    obtain ⟨v, hv, e⟩ := K.closed r ⟨x, hx, hr⟩
    exact ⟨v, hN v hv, by rw [← e]; exact congrArg Prod.fst (s.2 r hr).1⟩
  · rintro r ⟨x, hx, hr⟩ v hv
    have hx := hE x hx
    have s := S x hx
    rw [s.1] at hr
    have e : (h'.get r).weight = (h.get r).weight := congrArg (·.2.2) (s.2 r hr).1
    rw [e] at hv
    rw [hV x hx r hr v hv]
    exact K.weights r ⟨x, hx, hr⟩ v hv

/-- **C116.** A node generated in a context: the context can still be converted, and its tensors get one row and column of zeros;
the old entries, degrees, the total degree and the projected Laplacian stay. -/
theorem C116_add_node {F : Factory} {nm : Str} {n : Ref} (R : Reach E h) (K : Context h c) (hF : F.clock ≠ none)
    (hT : TensorOf h c T) (run : F.generateNode E nm (some c) h = (.ok n, h')) :
    Reach E h' ∧ Context h' c ∧ h'.subNodes c = h.subNodes c ++ [n] ∧ h'.subEdges c = h.subEdges c ∧
      ∃ T', TensorOf h' c T' ∧ RowAdded T T' := by
  have I := R.good.inv
  have hc : c < h.size := I.lt_of_kind (by rw [K.node]; simp)
  rcases generateNode_cases R hF (p := some c) (by rintro _ ⟨⟩; exact hc) (by rintro _ ⟨⟩; rw [K.node]; simp) nm with
    ⟨_, _, _, _, e, -⟩ | ⟨-, _, e, C, R'⟩
  · rw [run] at e; cases e
  rw [run] at e
  cases e
  have calm := (calms_generateNode E F nm (some c) h).calm
  rw [run] at calm
  have rels : ∀ y < h.size, y ≠ c → h'.subRelations y = h.subRelations y := by
    intro y hy hne
    unfold Heap.subRelations Heap.getSubelements Heap.subelements
    rw [C.subs y hy, if_neg (by rintro ⟨⟩; exact hne rfl)]
    refine List.filter_congr fun z hz => ?_
    rw [C.kind z (I.lt_of_parent ((I.mem_subelements y z).1 hz))]
  have hnot : h.size ∉ h.subNodes c := fun hm => Nat.lt_irrefl _ (mem_sub_lt R hm)
  have sub : h'.subelements c = h.subelements c ++ [h.size] := by
    unfold Heap.subelements
    rw [C.subs c hc, if_pos rfl]
    simp [Dict.values]
  have hN : h'.subNodes c = h.subNodes c ++ [h.size] := by
    unfold Heap.subNodes Heap.getSubelements
    rw [sub, List.filter_append]
    simp only [List.filter_cons, C.kindN, decide_true, if_true, List.filter_nil]
    congr 1
    exact List.filter_congr fun z hz => by rw [C.kind z (I.lt_of_parent ((I.mem_subelements c z).1 hz))]
  have hE : h'.subEdges c = h.subEdges c := by
    unfold Heap.subEdges Heap.getSubelements
    rw [sub, List.filter_append]
    simp only [List.filter_cons, C.kindN, reduceCtorEq, decide_false, Bool.false_eq_true, if_false, List.filter_nil, List.append_nil]
    exact List.filter_congr fun z hz => by rw [C.kind z (I.lt_of_parent ((I.mem_subelements c z).1 hz))]
  have S : ∀ x ∈ h.subEdges c, SameEdge h h' x := by
    intro x hx
    have ne : x ≠ c := by
      rintro rfl
      have := (List.mem_filter.1 hx).2
      rw [K.node] at this
      simp at this
    refine ⟨rels x (mem_sub_lt R hx) ne, fun r hr => ?_⟩
    have hr' := mem_sub_lt R hr
    refine ⟨?_, weightOf_congr (C.weight r hr') fun v hv => calm.valuesOf (K.weight_lt R hx hr hv)⟩
    unfold Heap.linkAt
    rw [C.endpoint r hr', C.direction r hr', C.weight r hr']
  have K' : Context h' c := by
    refine K.carry (by rw [C.kind c hc, K.node]) (fun v hv => by rw [hN]; simp [hv]) (fun x hx => by rwa [hE] at hx) S ?_
    intro x hx r hr v hv
    exact C.kind v (K.weight_lt R hx hr hv)
  obtain ⟨T', hT'⟩ := C34_converts R' K'
  exact ⟨R', K', hN, hE, T', hT', rowAdded R R' K K' hN hE hnot S hT hT'⟩

/-- The entries of an edge whose relations lead to the nodes at given positions. -/
theorem Entries.planned (En : Entries h c T) (nd : (h.subNodes c).Nodup) {x : Ref} {e : Nat} (hx : (h.subEdges c)[e]? = some x)
    {ds : List PlanEnd} (ok : ∀ d ∈ ds, d.node < T.nn)
    (rels : (h.subRelations x).map h.linkAt = ds.map fun d => ((h.subNodes c)[d.node]?, d.dir, d.weight)) :
    (∀ i < T.nn, ∀ j < T.nn, T.W e i j = if i ≠ j ∧ i ∈ ds.map PlanEnd.node ∧ j ∈ ds.map PlanEnd.node then
      lastEnd h ds fun d => decide (d.node = i ∧ d.dir.isIn ∨ d.node = j ∧ d.dir.isOut) else 0) ∧
    (∀ i < T.nn, T.Io e i = if i ∈ ds.map PlanEnd.node ∧ ∃ j ∈ ds.map PlanEnd.node, j ≠ i then
      lastEnd h ds fun d => decide (d.node = i ∧ d.dir.isIn ∨ d.node ≠ i ∧ d.dir.isOut) else 0) ∧
    (∀ j < T.nn, T.Ii e j = if j ∈ ds.map PlanEnd.node ∧ ∃ i ∈ ds.map PlanEnd.node, i ≠ j then
      lastEnd h ds fun d => decide (d.node = j ∧ d.dir.isOut ∨ d.node ≠ j ∧ d.dir.isIn) else 0) := by
  have node : ∀ i < T.nn, ∃ v, (h.subNodes c)[i]? = some v := fun i hi => by
    rw [En.nn] at hi
    exact ⟨_, List.getElem?_eq_getElem hi⟩
  have len : (h.subRelations x).length = ds.length := by simpa using congrArg List.length rels
  have at_ : ∀ (k : Nat) r d, (h.subRelations x)[k]? = some r → ds[k]? = some d →
      (h.get r).endpoint = (h.subNodes c)[d.node]? ∧ (h.get r).direction = d.dir ∧ (h.get r).weight = d.weight := by
    intro k r d hr hd
    have := congrArg (·[k]?) rels
    simp only [List.getElem?_map, hr, hd, Option.map_some, Option.some.injEq, Heap.linkAt, Prod.mk.injEq] at this
    exact this
  have same : ∀ {i k : Nat} {v : Ref}, (h.subNodes c)[i]? = some v → ((h.subNodes c)[k]? = some v ↔ k = i) := by
    intro i k v hv
    constructor
    · intro q
      obtain ⟨h1, h2⟩ := List.getElem?_eq_some_iff.1 hv
      obtain ⟨h3, h4⟩ := List.getElem?_eq_some_iff.1 q
      exact (List.Nodup.getElem_inj_iff nd).1 (h4.trans h2.symm)
    · rintro rfl; exact hv
  have ends : ∀ {i : Nat} {v : Ref}, (h.subNodes c)[i]? = some v → (Endpoint h x v ↔ i ∈ ds.map PlanEnd.node) := by
    intro i v hv
    constructor
    · rintro ⟨r, hr, e⟩
      obtain ⟨k, hk, rfl⟩ := List.getElem_of_mem hr
      have lt : k < ds.length := len ▸ hk
      obtain ⟨a, -⟩ := at_ k _ _ (List.getElem?_eq_getElem hk) (List.getElem?_eq_getElem lt)
      exact List.mem_map.2 ⟨_, List.getElem_mem lt, (same hv).1 (a.symm.trans e)⟩
    · intro q
      obtain ⟨d, hd, e⟩ := List.mem_map.1 q
      obtain ⟨k, hk, rfl⟩ := List.getElem_of_mem hd
      have lt : k < (h.subRelations x).length := len.symm ▸ hk
      obtain ⟨a, -⟩ := at_ k _ _ (List.getElem?_eq_getElem lt) (List.getElem?_eq_getElem hk)
      exact ⟨_, List.getElem_mem lt, by rw [a, e, hv]⟩
  have wt : ∀ {r : Ref} {d : PlanEnd}, (h.get r).weight = d.weight → weightOf h r = d.value h := by
    intro r d q
    unfold weightOf PlanEnd.value
    rw [q]
    cases d.weight <;> rfl
  have other : ∀ {u : Ref}, Endpoint h x u → ∃ j : Nat, (h.subNodes c)[j]? = some u := by
    rintro u ⟨r, hr, q⟩
    obtain ⟨k, hk, rfl⟩ := List.getElem_of_mem hr
    have lt : k < ds.length := len ▸ hk
    obtain ⟨a, -⟩ := at_ k _ _ (List.getElem?_eq_getElem hk) (List.getElem?_eq_getElem lt)
    exact ⟨_, a.symm.trans q⟩
  have pick : ∀ {i : Nat} {v : Ref}, (h.subNodes c)[i]? = some v → ∀ j ∈ ds.map PlanEnd.node, j ≠ i →
      ∃ u, (h.subNodes c)[j]? = some u ∧ v ≠ u ∧ Endpoint h x u := by
    intro i v hv j hj hne
    obtain ⟨d', hd', rfl⟩ := List.mem_map.1 hj
    obtain ⟨u, hu⟩ := node _ (ok d' hd')
    refine ⟨u, hu, ?_, (ends hu).2 hj⟩
    rintro rfl
    exact hne ((same hv).1 hu)
  refine ⟨?_, ?_, ?_⟩
  · intro i hi j hj
    obtain ⟨v, hv⟩ := node i hi
    obtain ⟨u, hu⟩ := node j hj
    have L := En.W e i j x v u hx hv hu
    have ne : v ≠ u ↔ i ≠ j := by
      rw [Ne, Ne, not_iff_not]
      constructor
      · rintro rfl; exact ((same hv).1 hu).symm
      · rintro rfl; rw [hv] at hu; exact Option.some.inj hu
    split
    · rename_i q
      refine lastEnd_of len (fun k r d hr hd => ?_) L
      obtain ⟨a1, a2, a3⟩ := at_ k r d hr hd
      refine ⟨wt a3, ?_⟩
      unfold Links
      rw [wt a3, ne, ends hv, ends hu, a1, a2, same hv, same hu]
      simp only [q.1, q.2.1, q.2.2, decide_eq_true_eq, true_and, ne_eq, not_false_eq_true]
    · rename_i q
      refine no_wins (fun r hr k => q ?_) L
      obtain ⟨_, k1, k2, k3, _⟩ := k
      exact ⟨ne.1 k1, (ends hv).1 k2, (ends hu).1 k3⟩
  · intro i hi
    obtain ⟨v, hv⟩ := node i hi
    have L := En.Io e i x v hx hv
    split
    · rename_i q
      refine lastEnd_of len (fun k r d hr hd => ?_) L
      obtain ⟨a1, a2, a3⟩ := at_ k r d hr hd
      refine ⟨wt a3, ?_⟩
      unfold LeavesBy Links
      rw [decide_eq_true_eq]
      constructor
      · rintro ⟨u, k1, k2, k3, k4, k5⟩
        obtain ⟨j, hu⟩ := other k4
        rw [wt a3] at k1
        refine ⟨k1, ?_⟩
        rw [a1, a2, same hv, same hu] at k5
        rcases k5 with k5 | k5
        · exact .inl k5
        · refine .inr ⟨?_, k5.2⟩
          rw [k5.1]
          rintro rfl
          rw [hv] at hu
          exact k2 (Option.some.inj hu)
      · rintro ⟨k1, k5⟩
        have hdm : d.node ∈ ds.map PlanEnd.node := List.mem_map_of_mem (List.mem_of_getElem? hd)
        rcases k5 with k5 | k5
        · obtain ⟨j, hj, hne⟩ := q.2
          obtain ⟨u, hu, k2, k4⟩ := pick hv j hj hne
          exact ⟨u, by rw [wt a3]; exact k1, k2, (ends hv).2 q.1, k4, .inl ⟨by rw [a1, k5.1, hv], by rw [a2]; exact k5.2⟩⟩
        · obtain ⟨u, hu, k2, k4⟩ := pick hv d.node hdm k5.1
          exact ⟨u, by rw [wt a3]; exact k1, k2, (ends hv).2 q.1, k4, .inr ⟨by rw [a1, hu], by rw [a2]; exact k5.2⟩⟩
    · rename_i q
      refine no_wins (fun r hr k => q ?_) L
      obtain ⟨u, _, k2, k3, k4, _⟩ := k
      obtain ⟨j, hu⟩ := other k4
      refine ⟨(ends hv).1 k3, j, (ends hu).1 k4, ?_⟩
      rintro rfl
      rw [hv] at hu
      exact k2 (Option.some.inj hu)
  · intro i hi
    obtain ⟨v, hv⟩ := node i hi
    have L := En.Ii e i x v hx hv
    split
    · rename_i q
      refine lastEnd_of len (fun k r d hr hd => ?_) L
      obtain ⟨a1, a2, a3⟩ := at_ k r d hr hd
      refine ⟨wt a3, ?_⟩
      unfold EntersBy Links
      rw [decide_eq_true_eq]
      constructor
      · rintro ⟨u, k1, k2, k4, k3, k5⟩
        obtain ⟨j, hu⟩ := other k4
        rw [wt a3] at k1
        refine ⟨k1, ?_⟩
        rw [a1, a2, same hv, same hu] at k5
        rcases k5 with k5 | k5
        · refine .inr ⟨?_, k5.2⟩
          rw [k5.1]
          rintro rfl
          rw [hv] at hu
          exact k2 (Option.some.inj hu).symm
        · exact .inl k5
      · rintro ⟨k1, k5⟩
        have hdm : d.node ∈ ds.map PlanEnd.node := List.mem_map_of_mem (List.mem_of_getElem? hd)
        rcases k5 with k5 | k5
        · obtain ⟨j, hj, hne⟩ := q.2
          obtain ⟨u, hu, k2, k4⟩ := pick hv j hj hne
          exact ⟨u, by rw [wt a3]; exact k1, k2.symm, k4, (ends hv).2 q.1, .inr ⟨by rw [a1, k5.1, hv], by rw [a2]; exact k5.2⟩⟩
        · obtain ⟨u, hu, k2, k4⟩ := pick hv d.node hdm k5.1
          exact ⟨u, by rw [wt a3]; exact k1, k2.symm, k4, (ends hv).2 q.1, .inl ⟨by rw [a1, hu], by rw [a2]; exact k5.2⟩⟩
    · rename_i q
      refine no_wins (fun r hr k => q ?_) L
      obtain ⟨u, _, k2, k4, k3, _⟩ := k
      obtain ⟨j, hu⟩ := other k4
      refine ⟨(ends hv).1 k3, j, (ends hu).1 k4, ?_⟩
      rintro rfl
      rw [hv] at hu
      exact k2 (Option.some.inj hu).symm

/-- What a container holds after `connect_tuple_nodes` has made an edge in it. -/
theorem connectTuples_contents {F : Factory} {nm : Str} {ls : List Link} {x : Ref} (R : Reach E h) (hc : c < h.size)
    (ok : ∀ l ∈ ls, l.Ok h) (nosem : ∀ l ∈ ls, l.sem = none) (no : ∀ l ∈ ls, l.node ≠ c)
    (run : F.connectTuples E c nm ls h = (.ok x, h')) : h'.subelements c = h.subelements c ++ [x] := by
  unfold Factory.connectTuples at run
  cases hcr : F.createHyperedge E c nm h with
  | mk res h1 =>
  cases res with
  | error er => rw [bind_err hcr] at run; cases run
  | ok e' =>
  rw [bind_ok hcr] at run
  cases ha : connectAll E e' ls h1 with
  | mk res h2 =>
  cases res with
  | error er => rw [bind_err ha] at run; cases run
  | ok u =>
  rw [bind_ok ha] at run
  cases run
  have hF : F.clock ≠ none := by
    intro hF
    unfold Factory.createHyperedge at hcr
    rw [bind_err (generateUid_none hF _ _)] at hcr; cases hcr
  have hk : (h.get c).kind.isConceptual = true := by
    by_contra hk
    unfold Factory.createHyperedge at hcr
    obtain ⟨r, hu, _⟩ := F.generateUid_run (E := E) hF nm h
    obtain ⟨r', hr'⟩ := readClock_run (E := E) hF { h with reads := r }
    have hs : F.stampedIn E nm c { h with reads := r } = (.ok (.tup (Str.join '/' [(h.get c).qualName, nm] ++ '.' :: decimal (clockNow E F.clock { h with reads := r }))), { h with reads := r' }) := by
      unfold Factory.stampedIn
      rw [obj_bind_run, bind_ok hr']
      rfl
    rw [bind_ok hu, bind_ok hs, obj_bind_run, if_neg hk] at hcr
    cases hcr
  rcases F.createHyperedge_cases R hF hc hk nm with ⟨_, _, hr', _⟩ | ⟨_, _, hr', C, R1⟩
  · rw [hr'] at hcr; cases hcr
  rw [hr'] at hcr; cases hcr
  have hs1 := C.size
  have sm : ls.filterMap Link.sem = [] := by
    rw [List.filterMap_eq_nil_iff]
    exact nosem
  obtain ⟨_, qs, A⟩ := connectAll_rels ls R1 (by omega) C.kindN (fun l hl => linkOk (by have := (ok l hl).node; omega)
    (fun v hv => by have := (ok l hl).weight v hv; omega) (nosem l hl)) (by rw [sm]; exact List.nodup_nil) ha
  rw [A.untouched nosem c (by omega) (by omega) ?_]
  · unfold Heap.subelements
    rw [C.subs c hc, if_pos rfl]
    simp [Dict.values]
  · intro hm
    obtain ⟨l, hl, e⟩ := List.mem_map.1 hm
    exact no l hl e

/-- **C116.** An edge made in a context with `connect_tuple_nodes` between some of its nodes: the context can still be converted,
the old layers stay, and the new layer is what the ends, directions and weights say. -/
theorem C116_add_edge {F : Factory} {nm : Str} {ds : List PlanEnd} {x : Ref} (R : Reach E h) (K : Context h c)
    (hT : TensorOf h c T) (exist : ∀ d ∈ ds, d.node < (h.subNodes c).length)
    (weights : ∀ d ∈ ds, ∀ w, d.weight = some w → (h.get w).kind = .value)
    (run : F.connectEnds E c (h.subNodes c) (nm, ds) h = (.ok x, h')) :
    Reach E h' ∧ Context h' c ∧ h'.subNodes c = h.subNodes c ∧ h'.subEdges c = h.subEdges c ++ [x] ∧
      ∃ T', TensorOf h' c T' ∧ LayerAdded h ds T T' := by
  have I := R.good.inv
  have hc : c < h.size := I.lt_of_kind (by rw [K.node]; simp)
  obtain ⟨ls, run1, asked, len, at_⟩ := mapEach_ends ds exist h
  unfold Factory.connectEnds at run
  rw [bind_ok run1] at run
  have each : ∀ l ∈ ls, ∃ d ∈ ds, l.sem = none ∧ (h.subNodes c)[d.node]? = some l.node ∧ l.dir = d.dir ∧ l.weight = d.weight := by
    intro l hl
    obtain ⟨k, hk, rfl⟩ := List.getElem_of_mem hl
    have lt : k < ds.length := len ▸ hk
    exact ⟨_, List.getElem_mem lt, at_ k _ _ (List.getElem?_eq_getElem hk) (List.getElem?_eq_getElem lt)⟩
  have nosem : ∀ l ∈ ls, l.sem = none := fun l hl => by obtain ⟨d, _, a, -⟩ := each l hl; exact a
  have inside : ∀ l ∈ ls, l.node ∈ h.subNodes c := fun l hl => by
    obtain ⟨d, _, -, a, -⟩ := each l hl; exact List.mem_of_getElem? a
  have ok : ∀ l ∈ ls, l.Ok h := by
    intro l hl
    obtain ⟨d, hd, a, b, -, w⟩ := each l hl
    refine linkOk (mem_sub_lt R (inside l hl)) (fun v hv => ?_) a
    rw [w] at hv
    exact I.lt_of_kind (by rw [weights d hd v hv]; simp)
  have sm : ls.filterMap Link.sem = [] := by
    rw [List.filterMap_eq_nil_iff]
    exact nosem
  have self : ∀ y ∈ h.subelements c, y ≠ c := by
    rintro y hy rfl
    exact SInv.parent_ne I ((I.mem_subelements y y).1 hy) rfl
  obtain ⟨B, -⟩ := C40_connect_tuple_nodes R hc ok (by rw [sm]; exact List.nodup_nil) run
  have sub := connectTuples_contents R hc ok nosem (fun l hl => self _ (List.mem_of_mem_filter (inside l hl))) run
  have calm := (calms_connectTuples E F c nm ls h).calm
  have keeps := (calms_connectTuples E F c nm ls h).keeps
  rw [run] at calm keeps
  have old : ∀ z ∈ h.subelements c, (h'.get z).kind = (h.get z).kind := fun z hz =>
    keeps.kind z (I.lt_of_parent ((I.mem_subelements c z).1 hz))
  have hN : h'.subNodes c = h.subNodes c := by
    unfold Heap.subNodes Heap.getSubelements
    rw [sub, List.filter_append]
    simp only [List.filter_cons, B.kind, reduceCtorEq, decide_false, Bool.false_eq_true, if_false, List.filter_nil, List.append_nil]
    exact List.filter_congr fun z hz => by rw [old z hz]
  have hE : h'.subEdges c = h.subEdges c ++ [x] := by
    unfold Heap.subEdges Heap.getSubelements
    rw [sub, List.filter_append]
    simp only [List.filter_cons, B.kind, decide_true, if_true, List.filter_nil]
    congr 1
    exact List.filter_congr fun z hz => by rw [old z hz]
  have S : ∀ y ∈ h.subEdges c, SameEdge h h' y := by
    intro y hy
    refine ⟨B.others y (mem_sub_lt R hy), fun r hr => ?_⟩
    have hr' := mem_sub_lt R hr
    exact ⟨B.relEnds r hr', weightOf_congr (keeps.weight r hr') fun v hv => calm.valuesOf (K.weight_lt R hy hr hv)⟩
  have rels : (h'.subRelations x).map h'.linkAt = ds.map fun d => ((h'.subNodes c)[d.node]?, d.dir, d.weight) := by
    rw [B.relations, hN, ← asked]; rfl
  have new : ∀ r ∈ h'.subRelations x, ∃ d ∈ ds, h'.linkAt r = ((h.subNodes c)[d.node]?, d.dir, d.weight) := by
    intro r hr
    have : h'.linkAt r ∈ (h'.subRelations x).map h'.linkAt := List.mem_map_of_mem hr
    rw [rels, hN] at this
    obtain ⟨d, hd, e⟩ := List.mem_map.1 this
    exact ⟨d, hd, e.symm⟩
  have K' : Context h' c := by
    have mem : ∀ {y}, y ∈ h'.subEdges c → y ∈ h.subEdges c ∨ y = x := fun hy => by simpa [hE] using hy
    refine ⟨by rw [keeps.kind c hc, K.node], ?_, ?_⟩
    · rintro r ⟨y, hy, hr⟩
      rcases mem hy with hy | rfl
      · rw [(S y hy).1] at hr
        obtain ⟨v, hv, e⟩ := K.closed r ⟨y, hy, hr⟩
        exact ⟨v, by rw [hN]; exact hv, by rw [← e]; exact congrArg Prod.fst ((S y hy).2 r hr).1⟩
      · obtain ⟨d, hd, e⟩ := new r hr
        have e := congrArg Prod.fst e
        have lt := exist d hd
        refine ⟨(h.subNodes c)[d.node], by rw [hN]; exact List.getElem_mem lt, ?_⟩
        rw [← List.getElem?_eq_getElem lt]
        exact e
    · rintro r ⟨y, hy, hr⟩ v hv
      rcases mem hy with hy | rfl
      · rw [(S y hy).1] at hr
        rw [keeps.weight r (mem_sub_lt R hr)] at hv
        rw [keeps.kind v (K.weight_lt R hy hr hv)]
        exact K.weights r ⟨y, hy, hr⟩ v hv
      · obtain ⟨d, hd, e⟩ := new r hr
        have e : (h'.get r).weight = d.weight := congrArg (·.2.2) e
        have := weights d hd v (e ▸ hv)
        rw [keeps.kind v (I.lt_of_kind (by rw [this]; simp)), this]
  obtain ⟨T', hT'⟩ := C34_converts B.reach K'
  have En := hT.entries R K
  have En' := hT'.entries B.reach K'
  have rows : T'.nn = T.nn := by rw [En'.nn, En.nn, hN]
  have at' : ∀ e < T.ne, ∀ i < T.nn, ∀ j < T.nn,
      T'.W e i j = T.W e i j ∧ T'.Io e i = T.Io e i ∧ T'.Ii e i = T.Ii e i := by
    intro e he i hi j hj
    rw [En.ne] at he
    rw [En.nn] at hi hj
    have hx := List.getElem?_eq_getElem he
    exact C116_local R B.reach K K' hT hT' (S _ (List.mem_of_getElem? hx)) hx (by rw [hE, List.getElem?_append_left he, hx])
      (List.getElem?_eq_getElem hi) (by rw [hN]; exact List.getElem?_eq_getElem hi)
      (List.getElem?_eq_getElem hj) (by rw [hN]; exact List.getElem?_eq_getElem hj)
  obtain ⟨n1, n2, n3⟩ := En'.planned ((C01_containment_agrees B.reach c).2.filter _) (x := x) (e := T.ne)
    (by rw [hE, En.ne]; simp) (fun d hd => by rw [rows, En.nn]; exact exist d hd) rels
  have lt : ∀ d ∈ ds, ∀ w, d.weight = some w → w < h.size := fun d hd w hw =>
    I.lt_of_kind (by rw [weights d hd w hw]; simp)
  rw [rows] at n1 n2 n3
  refine ⟨B.reach, K', hN, hE, T', hT', by rw [En'.ne, En.ne, hE]; simp, rows, fun e he i hi j hj => (at' e he i hi j hj).1,
    fun e he i hi => (at' e he i hi i hi).2.1, fun e he i hi => (at' e he i hi i hi).2.2, ?_, ?_, ?_⟩
  · intro i hi j hj
    rw [n1 i hi j hj, lastEnd_calm calm lt]
  · intro i hi
    rw [n2 i hi, lastEnd_calm calm lt]
  · intro j hj
    rw [n3 j hj, lastEnd_calm calm lt]

/-! ## Removal -/

theorem filter_ne_getElem? {l : List Ref} (nd : l.Nodup) {k : Nat} {x : Ref} (hx : l[k]? = some x) (e : Nat) :
    (l.filter fun y => decide (y ≠ x))[e]? = l[skip k e]? := by
  obtain ⟨lt, ex⟩ := List.getElem?_eq_some_iff.1 hx
  obtain ⟨l1, l2, rfl, rfl⟩ : ∃ l1 l2, l = l1 ++ x :: l2 ∧ l1.length = k :=
    ⟨l.take k, l.drop (k + 1), by rw [← ex, List.getElem_cons_drop, List.take_append_drop], by rw [List.length_take]; omega⟩
  rw [List.nodup_append] at nd
  obtain ⟨-, n2, n3⟩ := nd
  have f1 : l1.filter (fun y => decide (y ≠ x)) = l1 := by
    rw [List.filter_eq_self]
    intro y hy
    simpa using n3 y hy x (by simp)
  have f2 : l2.filter (fun y => decide (y ≠ x)) = l2 := by
    rw [List.filter_eq_self]
    intro y hy
    simp only [ne_eq, decide_not, Bool.not_eq_true', decide_eq_false_iff_not]
    rintro rfl
    exact (List.nodup_cons.1 n2).1 hy
  rw [List.filter_append, List.filter_cons, f1, f2]
  simp only [ne_eq, not_true_eq_false, decide_false, Bool.false_eq_true, if_false]
  unfold skip
  split
  · rename_i q
    rw [List.getElem?_append_left q, List.getElem?_append_left q]
  · rename_i q
    rw [List.getElem?_append_right (by omega), List.getElem?_append_right (by omega),
      show e + 1 - l1.length = e - l1.length + 1 by omega, List.getElem?_cons_succ]

theorem without_length {l : List Ref} (nd : l.Nodup) {x : Ref} (hx : x ∈ l) :
    l.length = (l.filter fun y => decide (y ≠ x)).length + 1 := by
  have e : (l.filter fun y => decide (y ≠ x)) = l.erase x := by
    rw [nd.erase_eq_filter]
    exact List.filter_congr fun y _ => by by_cases q : y = x <;> simp [q]
  rw [e, List.length_erase_of_mem hx]
  have := List.length_pos_of_mem hx
  omega

/-- What removal by uuid from a context does. -/
structure Gone (E : Env) (c x : Ref) (h h' : Heap) : Prop where
  reach : Reach E h'
  kind : ∀ y, (h'.get y).kind = (h.get y).kind
  links : ∀ y, h'.linkAt y = h.linkAt y
  values : ∀ v, h'.valuesOf v = h.valuesOf v
  own : h'.subelements c = (h.subelements c).filter fun y => decide (y ≠ x)
  others : ∀ d, d ≠ c → h'.subelements d = h.subelements d

theorem gone {x : Ref} (R : Reach E h) (hk : (h.get c).kind = .node) (hx : x ∈ h.subelements c) :
    ∃ h', removeElement E c [] (some (h.get x).uuid) none h = (.ok [x], h') ∧ Gone E c x h h' := by
  have I := R.good.inv
  have hp := (I.mem_subelements c x).1 hx
  have hc : c < h.size := I.lt_of_kind (by rw [hk]; simp)
  obtain ⟨h', hr, sim, -, -⟩ := I.removeUuid E (lim := none) (nm := []) (by simp) hp (.inl rfl)
  obtain ⟨-, b, -, e, -, -⟩ := detached I hp sim
  have run : removeElement E c [] (some (h.get x).uuid) none h = (.ok [x], h') := by
    rw [removeElement_plain (by rw [hk]; simp) (by rw [hk]; simp)]; exact hr
  refine ⟨h', run, ?_, ?_, ?_, ?_, b, fun d hd => (e d hd).1⟩
  · have := Reach.step (E := E) (.remove c [] (some (h.get x).uuid) none) R hc ⟨by rw [hk]; simp, fun q => absurd rfl q⟩
    unfold Op.after at this
    rw [Op.run, void_run, run] at this
    exact this
  · intro y; rw [sim.kind, detachH_kind]
  · intro y
    unfold Heap.linkAt
    rw [sim.endpoint, sim.direction, sim.weight, detachH_proj (π := Obj.endpoint) (fun _ _ _ _ => rfl) (fun _ _ => rfl),
      detachH_proj (π := Obj.direction) (fun _ _ _ _ => rfl) (fun _ _ => rfl),
      detachH_proj (π := Obj.weight) (fun _ _ _ _ => rfl) (fun _ _ => rfl)]
  · intro v
    unfold Heap.valuesOf
    rw [sim.lists, sim.vals, detachH_proj (π := Obj.vals) (fun _ _ _ _ => rfl) (fun _ _ => rfl)]
    rfl

theorem Gone.sub {x : Ref} (g : Gone E c x h h') (k : Kind) :
    (h'.subelements c).filter (fun y => decide ((h'.get y).kind = k)) =
      ((h.subelements c).filter fun y => decide ((h.get y).kind = k)).filter fun y => decide (y ≠ x) := by
  rw [g.own]
  simp only [g.kind, List.filter_filter]
  exact List.filter_congr fun y _ => Bool.and_comm _ _

theorem Gone.edge {x y : Ref} (g : Gone E c x h h') (hk : (h.get c).kind = .node) (hy : y ∈ h.subEdges c) : SameEdge h h' y := by
  have ne : y ≠ c := by
    rintro rfl
    have := (List.mem_filter.1 hy).2
    rw [hk] at this
    simp at this
  refine ⟨?_, fun r _ => ⟨g.links r, weightOf_congr (congrArg (·.2.2) (g.links r)) fun v _ => g.values v⟩⟩
  unfold Heap.subRelations Heap.getSubelements
  rw [g.others y ne]
  exact List.filter_congr fun z _ => by rw [g.kind]

theorem keep_all {l : List Ref} {x : Ref} (no : x ∉ l) : l.filter (fun y => decide (y ≠ x)) = l := by
  rw [List.filter_eq_self]
  intro y hy
  simp only [ne_eq, decide_not, Bool.not_eq_true', decide_eq_false_iff_not]
  rintro rfl
  exact no hy

/-- **C116.** Removing an edge from a context: it can still be converted, the layer of the edge is gone, the layers behind it move
up by one, and nothing else changes. -/
theorem C116_remove_edge (R : Reach E h) (K : Context h c) (hT : TensorOf h c T) {k : Nat} {x : Ref}
    (hx : (h.subEdges c)[k]? = some x) :
    ∃ h', removeElement E c [] (some (h.get x).uuid) none h = (.ok [x], h') ∧ Reach E h' ∧ Context h' c ∧
      ∃ T', TensorOf h' c T' ∧ LayerRemoved k T T' := by
  have mx := List.mem_of_getElem? hx
  obtain ⟨h', run, g⟩ := gone R K.node (List.mem_of_mem_filter mx)
  have nd := (C01_containment_agrees R c).2
  have hE : h'.subEdges c = (h.subEdges c).filter fun y => decide (y ≠ x) := g.sub .edge
  have hN : h'.subNodes c = h.subNodes c := by
    rw [show h'.subNodes c = (h.subNodes c).filter fun y => decide (y ≠ x) from g.sub .node]
    refine keep_all fun hm => ?_
    have a := (List.mem_filter.1 mx).2
    have b := (List.mem_filter.1 hm).2
    simp only [decide_eq_true_eq] at a b
    rw [a] at b
    cases b
  have K' : Context h' c := K.carry (by rw [g.kind, K.node]) (fun v hv => by rw [hN]; exact hv)
    (fun y hy => by rw [hE] at hy; exact List.mem_of_mem_filter hy) (fun y hy => g.edge K.node hy) fun _ _ _ _ v _ => g.kind v
  obtain ⟨T', hT'⟩ := C34_converts g.reach K'
  have En := hT.entries R K
  have En' := hT'.entries g.reach K'
  have nde : (h.subEdges c).Nodup := nd.filter _
  have at' : ∀ e < T'.ne, ∀ i < T.nn, ∀ j < T.nn,
      T'.W e i j = T.W (skip k e) i j ∧ T'.Io e i = T.Io (skip k e) i ∧ T'.Ii e i = T.Ii (skip k e) i := by
    intro e he i hi j hj
    rw [En'.ne] at he
    rw [En.nn] at hi hj
    have h1 := List.getElem?_eq_getElem he
    have h2 : (h.subEdges c)[skip k e]? = some (h'.subEdges c)[e] := by rw [← h1, hE, filter_ne_getElem? nde hx]
    exact C116_local R g.reach K K' hT hT' (g.edge K.node (List.mem_of_getElem? h2)) h2 h1
      (List.getElem?_eq_getElem hi) (by rw [hN]; exact List.getElem?_eq_getElem hi)
      (List.getElem?_eq_getElem hj) (by rw [hN]; exact List.getElem?_eq_getElem hj)
  exact ⟨h', run, g.reach, K', T', hT', by rw [En.ne, En'.ne, hE]; exact without_length nde mx, by rw [En'.nn, En.nn, hN],
    fun e he i hi j hj => (at' e he i hi j hj).1, fun e he i hi => (at' e he i hi i hi).2.1,
    fun e he i hi => (at' e he i hi i hi).2.2⟩

theorem sumTo_skip {n k : Nat} (hk : k ≤ n) (f : Nat → Rat) : sumTo (n + 1) f = f k + sumTo n fun i => f (skip k i) := by
  rw [sumTo_sum, sumTo_sum]
  induction n with
  | zero =>
    have : k = 0 := by omega
    subst this
    simp
  | succ n ih =>
    rw [Finset.sum_range_succ, Finset.sum_range_succ (fun i => f (skip k i)) n]
    rcases Nat.lt_or_eq_of_le hk with q | rfl
    · rw [ih (by omega)]
      have : skip k n = n + 1 := by unfold skip; rw [if_neg (by omega)]
      rw [this]
      ring
    · rw [add_comm]
      congr 1
      rw [← Finset.sum_range_succ (fun i => f (skip (n + 1) i)) n]
      exact Finset.sum_congr rfl fun i hi => by
        unfold skip
        rw [if_pos (by simpa using hi)]

theorem skip_inj {k i j : Nat} : skip k i = skip k j ↔ i = j := by
  unfold skip
  split <;> split <;> omega

/-- **C116.** Removing a node that no relation of the context leads to: the context can still be converted, the row and column of
the node, which were zero, are gone, those behind move up by one; degrees, the total degree and the projected Laplacian stay. -/
theorem C116_remove_node (R : Reach E h) (K : Context h c) (hT : TensorOf h c T) {k : Nat} {v : Ref}
    (hv : (h.subNodes c)[k]? = some v) (free : ∀ r, RelationIn h c r → (h.get r).endpoint ≠ some v) :
    ∃ h', removeElement E c [] (some (h.get v).uuid) none h = (.ok [v], h') ∧ Reach E h' ∧ Context h' c ∧
      ∃ T', TensorOf h' c T' ∧ RowRemoved k T T' := by
  have mv := List.mem_of_getElem? hv
  obtain ⟨h', run, g⟩ := gone R K.node (List.mem_of_mem_filter mv)
  have nd := (C01_containment_agrees R c).2
  have hN : h'.subNodes c = (h.subNodes c).filter fun y => decide (y ≠ v) := g.sub .node
  have hE : h'.subEdges c = h.subEdges c := by
    rw [show h'.subEdges c = (h.subEdges c).filter fun y => decide (y ≠ v) from g.sub .edge]
    refine keep_all fun hm => ?_
    have a := (List.mem_filter.1 mv).2
    have b := (List.mem_filter.1 hm).2
    simp only [decide_eq_true_eq] at a b
    rw [a] at b
    cases b
  have K' : Context h' c := by
    refine ⟨by rw [g.kind, K.node], ?_, ?_⟩
    · rintro r ⟨x, hx, hr⟩
      rw [hE] at hx
      rw [(g.edge K.node hx).1] at hr
      obtain ⟨u, hu, e⟩ := K.closed r ⟨x, hx, hr⟩
      refine ⟨u, ?_, by rw [← e]; exact congrArg Prod.fst (g.links r)⟩
      rw [hN, List.mem_filter]
      refine ⟨hu, ?_⟩
      simp only [ne_eq, decide_not, Bool.not_eq_true', decide_eq_false_iff_not]
      rintro rfl
      exact free r ⟨x, hx, hr⟩ e
    · rintro r ⟨x, hx, hr⟩ w hw
      rw [hE] at hx
      rw [(g.edge K.node hx).1] at hr
      rw [show (h'.get r).weight = (h.get r).weight from congrArg (·.2.2) (g.links r)] at hw
      rw [g.kind]
      exact K.weights r ⟨x, hx, hr⟩ w hw
  obtain ⟨T', hT'⟩ := C34_converts g.reach K'
  have En := hT.entries R K
  have En' := hT'.entries g.reach K'
  have ndn : (h.subNodes c).Nodup := nd.filter _
  have layers : T'.ne = T.ne := by rw [En'.ne, En.ne, hE]
  have rows : T.nn = T'.nn + 1 := by rw [En.nn, En'.nn, hN]; exact without_length ndn mv
  have hk : k < T.nn := by rw [En.nn]; exact (List.getElem?_eq_some_iff.1 hv).1
  have node : ∀ i < T'.nn, ∃ u, (h'.subNodes c)[i]? = some u ∧ (h.subNodes c)[skip k i]? = some u := by
    intro i hi
    rw [En'.nn] at hi
    have h1 := List.getElem?_eq_getElem hi
    refine ⟨_, h1, ?_⟩
    rw [← h1, hN, filter_ne_getElem? ndn hv]
  have at' : ∀ e < T.ne, ∀ i < T'.nn, ∀ j < T'.nn,
      T'.W e i j = T.W e (skip k i) (skip k j) ∧ T'.Io e i = T.Io e (skip k i) ∧ T'.Ii e i = T.Ii e (skip k i) := by
    intro e he i hi j hj
    rw [En.ne] at he
    have hx := List.getElem?_eq_getElem he
    obtain ⟨u, hu', hu⟩ := node i hi
    obtain ⟨w, hw', hw⟩ := node j hj
    exact C116_local R g.reach K K' hT hT' (g.edge K.node (List.mem_of_getElem? hx)) hx (by rw [hE]; exact hx) hu hu' hw hw'
  have off : ∀ e < T.ne, (∀ j < T.nn, T.W e k j = 0 ∧ T.W e j k = 0) ∧ T.Io e k = 0 ∧ T.Ii e k = 0 := by
    intro e he
    rw [En.ne] at he
    have hx := List.getElem?_eq_getElem he
    refine En.off hx hv ?_
    rintro ⟨r, hr, ee⟩
    exact free r ⟨_, List.mem_of_getElem? hx, hr⟩ ee
  have deg : ∀ i < T'.nn, T'.degree i = T.degree (skip k i) := by
    intro i hi
    unfold Tensors.degree
    rw [layers, sumTo_congr fun e he => (at' e he i hi i hi).2.1, sumTo_congr fun e he => (at' e he i hi i hi).2.2]
    have : (∀ e < T.ne, T'.Io e i = T'.Ii e i) ↔ ∀ e < T.ne, T.Io e (skip k i) = T.Ii e (skip k i) :=
      forall₂_congr fun e he => by rw [(at' e he i hi i hi).2.1, (at' e he i hi i hi).2.2]
    simp only [this]
  have deg0 : T.degree k = 0 := by
    unfold Tensors.degree
    rw [sumTo_congr (g := fun _ => 0) fun e he => (off e he).2.1, sumTo_congr (g := fun _ => 0) fun e he => (off e he).2.2, sumTo_zero]
    ring
  refine ⟨h', run, g.reach, K', T', hT', layers, rows, fun e he i hi j hj => (at' e he i hi j hj).1,
    fun e he i hi => (at' e he i hi i hi).2.1, fun e he i hi => (at' e he i hi i hi).2.2, fun e he i hi => (off e he).1 i hi,
    fun e he => (off e he).2, deg, ?_, ?_⟩
  · unfold Tensors.totalDegree
    rw [rows, sumTo_skip (k := k) (by omega), deg0, zero_add]
    exact sumTo_congr deg
  · intro i hi j hj
    unfold Tensors.projectedLaplacian Tensors.diagDegree
    rw [layers, sumTo_congr fun e he => (at' e he i hi j hj).1, deg i hi]
    simp only [skip_inj]

/-! ## Changing a weight -/

/-- **C116.** Writing into a weight changes only the layers of edges with a relation whose weight holds the same list. -/
theorem C116_update_weight (R : Reach E h) (K : Context h c) (hT : TensorOf h c T) {v : Ref} (hv : (h.get v).kind = .value)
    {i : Int} {q : Rat} (run : updateValue v i q h = (.ok (), h')) :
    Reach E h' ∧ Context h' c ∧ h'.subNodes c = h.subNodes c ∧ h'.subEdges c = h.subEdges c ∧
      ∃ T', TensorOf h' c T' ∧ T'.ne = T.ne ∧ T'.nn = T.nn ∧
        ∀ e x, (h.subEdges c)[e]? = some x →
          (∀ r ∈ h.subRelations x, ∀ w, (h.get r).weight = some w → (h.get w).vals ≠ (h.get v).vals) →
          ∀ i < T.nn, ∀ j < T.nn, T'.W e i j = T.W e i j ∧ T'.Io e i = T.Io e i ∧ T'.Ii e i = T.Ii e i := by
  have I := R.good.inv
  have lt : v < h.size := I.lt_of_kind (by rw [hv]; simp)
  have R' : Reach E h' := by
    have := Reach.step (E := E) (.updateValue v i q) R ⟨lt, hv⟩ trivial
    unfold Op.after at this
    rw [Op.run, run] at this
    exact this
  have key : h'.get = h.get ∧ ∀ l, l ≠ (h.get v).vals → h'.lists l = h.lists l := by
    unfold updateValue at run
    rw [obj_bind_run] at run
    unfold setListItem at run
    split at run
    · cases run
    · cases run
      exact ⟨rfl, fun l hl => if_neg hl⟩
  obtain ⟨get, lists⟩ := key
  have sub : ∀ y, h'.subelements y = h.subelements y := fun y => by unfold Heap.subelements; rw [get]
  have hN : h'.subNodes c = h.subNodes c := by unfold Heap.subNodes Heap.getSubelements; rw [sub, get]
  have hE : h'.subEdges c = h.subEdges c := by unfold Heap.subEdges Heap.getSubelements; rw [sub, get]
  have hR : ∀ x, h'.subRelations x = h.subRelations x := fun x => by
    unfold Heap.subRelations Heap.getSubelements; rw [sub, get]
  have K' : Context h' c := by
    refine ⟨by rw [get]; exact K.node, ?_, ?_⟩
    · rintro r ⟨x, hx, hr⟩
      rw [hE] at hx; rw [hR] at hr
      rw [hN, get]
      exact K.closed r ⟨x, hx, hr⟩
    · rintro r ⟨x, hx, hr⟩
      rw [hE] at hx; rw [hR] at hr
      rw [get]
      exact K.weights r ⟨x, hx, hr⟩
  obtain ⟨T', hT'⟩ := C34_converts R' K'
  have En := hT.entries R K
  have En' := hT'.entries R' K'
  refine ⟨R', K', hN, hE, T', hT', by rw [En'.ne, En.ne, hE], by rw [En'.nn, En.nn, hN], ?_⟩
  intro e x hx no i hi j hj
  rw [En.nn] at hi hj
  have S : SameEdge h h' x := by
    refine ⟨hR x, fun r hr => ⟨by unfold Heap.linkAt; rw [get], weightOf_congr (by rw [get]) fun w hw => ?_⟩⟩
    unfold Heap.valuesOf
    rw [get, lists _ (no r hr w hw)]
  exact C116_local R R' K K' hT hT' S hx (by rw [hE]; exact hx) (List.getElem?_eq_getElem hi)
    (by rw [hN]; exact List.getElem?_eq_getElem hi) (List.getElem?_eq_getElem hj) (by rw [hN]; exact List.getElem?_eq_getElem hj)

end
/-! ## Instances -/

namespace Sample

/-- `u6` with a value node. -/
def l7 : Heap := (Op.mkValue [9] ['w'] (.str ['w']) (some [2, 1])).after E0 u6
/-- A third node in it. -/
def l8 : Heap := (F1.generateNode E0 ['d'] (some 0) l7).2
/-- An edge from the first to the third node, with the value node as weight. -/
def lEnds : List PlanEnd := [⟨0, .inwards, some 8⟩, ⟨2, .outwards, some 8⟩]
/-- See `lEnds`. -/
def l9 : Heap := (F1.connectEnds E0 0 (l8.subNodes 0) (['y'], lEnds) l8).2
/-- The weight is changed. -/
def l10 : Heap := (updateValue 8 0 (1 / 2) l9).2
/-- The first edge is removed. -/
def l11 : Heap := (removeElement E0 0 [] (some (l10.get 3).uuid) none l10).2

theorem reach_l7 : Reach E0 l7 := .step _ reach_u6 (by trivial) (by trivial)
theorem context_l7 : Context l7 0 :=
  ⟨by decide +kernel, forall_relationIn (by decide +kernel), Unweighted.valueWeights (forall_relationIn (by decide +kernel))⟩

theorem run_l8 : F1.generateNode E0 ['d'] (some 0) l7 = (.ok 9, l8) := Prod.ext (by decide +kernel) rfl
theorem run_ok {α : Type} {m : PyM α} {h h' : Heap} {a : α} (q : (m h).1 = .ok a) (e : h' = (m h).2) : m h = (.ok a, h') := by
  rw [e, ← q]
theorem run_l9 : F1.connectEnds E0 0 (l8.subNodes 0) (['y'], lEnds) l8 = (.ok 10, l9) := by
  refine run_ok ?_ (by unfold l9; rfl)
  decide +kernel
theorem run_l10 : updateValue 8 0 (1 / 2) l9 = (.ok (), l10) := by
  refine run_ok ?_ (by unfold l10; rfl)
  decide +kernel
attribute [local irreducible] l7 l8 l9 l10 l11

/-- The hypotheses of C116 are met: in a context with an undirected edge between two nodes, a third node comes, then an edge of
weight 3 from the first to the third node, then the weight is halved, then the first edge goes, then the second node. -/
theorem C116_case : ∃ h1 h2 h3 h4 n x T0 T1 T2 T3 T4 T5, F1.generateNode E0 ['d'] (some 0) l7 = (.ok n, h1) ∧
    F1.connectEnds E0 0 (h1.subNodes 0) (['y'], lEnds) h1 = (.ok x, h2) ∧ updateValue 8 0 (1 / 2) h2 = (.ok (), h3) ∧
    removeElement E0 0 [] (some (h3.get 3).uuid) none h3 = (.ok [3], h4) ∧
    TensorOf l7 0 T0 ∧ TensorOf h1 0 T1 ∧ TensorOf h2 0 T2 ∧ TensorOf h3 0 T3 ∧ TensorOf h4 0 T4 ∧
    RowAdded T0 T1 ∧ LayerAdded h1 lEnds T1 T2 ∧ T2.W 1 0 2 = 3 ∧ T2.W 1 2 0 = 0 ∧ T3.W 0 0 1 = T2.W 0 0 1 ∧
    LayerRemoved 0 T3 T4 ∧ RowRemoved 1 T4 T5 := by
  obtain ⟨T0, hT0⟩ := C34_converts reach_l7 context_l7
  obtain ⟨R1, K1, N1, E1, T1, hT1, a1⟩ := C116_add_node reach_l7 context_l7 (by decide) hT0 run_l8
  obtain ⟨R2, K2, N2, E2, T2, hT2, a2⟩ := C116_add_edge R1 K1 hT1 (by decide +kernel)
    (by
      intro d hd w hw
      have : w = 8 := by fin_cases hd <;> exact (Option.some.inj hw).symm
      subst this
      decide +kernel) run_l9
  obtain ⟨R3, K3, N3, E3, T3, hT3, s1, s2, a3⟩ := C116_update_weight R2 K2 hT2 (v := 8) (by decide +kernel) run_l10
  obtain ⟨h4, run4, R4, K4, T4, hT4, a4⟩ := C116_remove_edge R3 K3 hT3 (k := 0) (x := 3) (by rw [E3]; decide +kernel)
  have hh4 : h4 = l11 := by unfold l11; rw [run4]
  subst hh4
  obtain ⟨h5, run5, R5, K5, T5, hT5, a5⟩ := C116_remove_node R4 K4 hT4 (k := 1) (v := 2) (by decide +kernel)
    (forall_relationIn (by decide +kernel))
  have nn1 : T1.nn = 3 := by rw [(hT1.entries R1 K1).nn]; decide +kernel
  have ne1 : T1.ne = 1 := by rw [(hT1.entries R1 K1).ne]; decide +kernel
  refine ⟨l8, l9, l10, l11, 9, 10, T0, T1, T2, T3, T4, T5, run_l8, run_l9, run_l10, run4, hT0, hT1, hT2, hT3, hT4, a1, a2, ?_, ?_, ?_, a4, a5⟩
  · rw [← ne1, a2.newW 0 (by omega) 2 (by omega), if_pos (by decide)]
    decide +kernel
  · rw [← ne1, a2.newW 2 (by omega) 0 (by omega), if_pos (by decide)]
    decide +kernel
  · exact (a3 0 3 (by decide +kernel) (by decide +kernel) 0 (by rw [a2.rows]; omega) 1 (by rw [a2.rows]; omega)).1

end Sample

end Rei
