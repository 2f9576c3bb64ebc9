import Verif.Lemmas.Tensor
import Mathlib.Tactic.Ring
import Mathlib.Tactic.Linarith
import Mathlib.Algebra.Order.Ring.Unbundled.Rat

/-!
# C34–C38, C56: tensor representations
-/
namespace Rei
open PyM Sample

/-- Relation `r` of `x` writes row `v` of the outgoing incidence. -/
def LeavesBy (h : Heap) (x v r : Ref) : Prop := ∃ u, Links h x v u r
/-- Relation `r` of `x` writes row `u` of the incoming incidence. -/
def EntersBy (h : Heap) (x u r : Ref) : Prop := ∃ v, Links h x v u r

/-- **C56.** The conversion of a closed context with value-node weights, on idle queues and with enough
stack, returns arrays of the right size; each entry is the weight of the last relation that leads from
the one node to the other (0 if there is none), and likewise the incidences. -/
theorem C56_weights {E : Env} {h : Heap} (R : Reach E h) {c : Ref} (hk : (h.get c).kind = .node)
    (hcl : Closed h c) (hvw : ValueWeights h c) {budget : Nat} (hb : StackFor h c budget) :
    ∃ T, tensorExecute h (some 1) budget c [] [] = (.ok T, [], []) ∧
      T.ne = (h.subEdges c).length ∧ T.nn = (h.subNodes c).length ∧
      (∀ e i j x v u, (h.subEdges c)[e]? = some x → (h.subNodes c)[i]? = some v →
        (h.subNodes c)[j]? = some u → LastWins h (h.subRelations x) (Links h x v u) (T.W e i j)) ∧
      (∀ e i x v, (h.subEdges c)[e]? = some x → (h.subNodes c)[i]? = some v →
        LastWins h (h.subRelations x) (LeavesBy h x v) (T.Io e i)) ∧
      (∀ e i x v, (h.subEdges c)[e]? = some x → (h.subNodes c)[i]? = some v →
        LastWins h (h.subRelations x) (EntersBy h x v) (T.Ii e i)) := by
  have hC := C01_containment_agrees R
  -- the index homomorphism
  have hhb : HomBudget h 1 true budget c := by
    unfold HomBudget
    simp only [breadthFirst_one]
    refine ⟨hb.1, ?_, hb.2.1⟩
    have : ((h.subelements c).filter (isEdge h)).length = (h.subEdges c).length := rfl
    have := hb.2.2; omega
  obtain ⟨m, em, Nn, Ne, _⟩ := C33_insertion_order R {} c hhb
  have nn : ((h.subNodes c).map fun x => (h.get x).uuid).Nodup := sub_uuid_nodup R c _
  have ne : ((h.subEdges c).map fun x => (h.get x).uuid).Nodup := sub_uuid_nodup R c _
  have ndn : (h.subNodes c).Nodup := (hC c).2.filter _
  have nde : (h.subEdges c).Nodup := (hC c).2.filter _
  have hidx : ∀ v ∈ h.subNodes c, m.nodes.index (h.get v).uuid = .ok (posIn (h.subNodes c) v) :=
    fun v hv => index_iff Nn nn (posIn_getElem? hv)
  have hide : ∀ v ∈ h.subEdges c, m.edges.index (h.get v).uuid = .ok (posIn (h.subEdges c) v) :=
    fun v hv => index_iff Ne ne (posIn_getElem? hv)
  have hke : ∀ x ∈ h.subEdges c, (h.get x).kind = .edge := fun x hx =>
    of_decide_eq_true (List.mem_filter.1 hx).2
  have hkr : ∀ x r, r ∈ h.subRelations x → (h.get r).kind = .relation := fun x r hr =>
    of_decide_eq_true (List.mem_filter.1 hr).2
  have hpr : ∀ x r, r ∈ h.subRelations x → (h.get r).parent = some x := fun x r hr =>
    ((hC x).1 r).1 (List.mem_filter.1 hr).1
  -- the emitted batches
  let F : Ref → List (List Entry) := fun r =>
    match (h.get r).parent with
    | some x => batchesOf h c x r
    | none => []
  have hF : ∀ x r, r ∈ h.subRelations x → F r = batchesOf h c x r := by
    intro x r hr; simp only [F, hpr x r hr]
  have hB : ∀ x ∈ h.subEdges c, ∀ r ∈ h.subRelations x, relationBatches h m r = .ok (F r) := by
    intro x hx r hr
    rw [hF x r hr]
    exact relationBatches_eq (hke x hx) (hpr x r hr) hr hx
      (fun q hq => hcl q ⟨x, hx, hq⟩) (hvw r ⟨x, hx, hr⟩) hidx hide
  have hx : hyperExecute h m (some 1) budget c [] =
      (.ok (), ((h.subEdges c).flatMap h.subRelations).flatMap F, []) := by
    unfold hyperExecute
    obtain ⟨b, rfl⟩ : ∃ b, budget =
        ((h.subEdges c).length + ((((h.subEdges c).flatMap h.subRelations).length) + b + 1)) + 1 := by
      have := hb.2.2
      exact ⟨budget - ((h.subEdges c).length + ((h.subEdges c).flatMap h.subRelations).length + 2),
        by omega⟩
    rw [List.nil_append, hyperTraverse, hk]
    simp only
    have e1 := hyperTraverse_edges h m (some 1) (h.subEdges c) hke 0
      ((((h.subEdges c).flatMap h.subRelations).length) + b + 1) [] []
    rw [List.append_nil] at e1
    rw [List.nil_append, e1, List.nil_append]
    have e2 := hyperTraverse_relations h m (some 1) 0 rfl F ((h.subEdges c).flatMap h.subRelations)
      (by
        intro r hr
        obtain ⟨x, hx, hr⟩ := List.mem_flatMap.1 hr
        exact ⟨hkr x r hr, hB x hx r hr⟩) b []
    rw [e2, List.nil_append]
  -- the entries
  have hfl : (((h.subEdges c).flatMap h.subRelations).flatMap F).flatten =
      ((h.subEdges c).flatMap h.subRelations).flatMap fun r => (F r).flatten := by
    induction (h.subEdges c).flatMap h.subRelations with
    | nil => rfl
    | cons r rs ih => simp only [List.flatMap_cons, List.flatten_append, ih]
  have hmem : ∀ x ∈ h.subEdges c, ∀ r ∈ h.subRelations x, ∀ t, t ∈ (F r).flatten ↔
      t.w = weightOf h r ∧ t.e = posIn (h.subEdges c) x ∧ ∃ v ∈ h.subNodes c, ∃ u ∈ h.subNodes c,
        Links h x v u r ∧ t.n0 = posIn (h.subNodes c) v ∧ t.n1 = posIn (h.subNodes c) u := by
    intro x hx r hr t
    obtain ⟨y, hy, ey⟩ := hcl r ⟨x, hx, hr⟩
    rw [hF x r hr, mem_batchesOf ey]
    constructor
    · rintro ⟨a, b, d, u, ⟨q, hq, eq⟩, hne, ⟨hi, e0, e1⟩ | ⟨hi, e0, e1⟩⟩
      · obtain ⟨u', hu', eu⟩ := hcl q ⟨x, hx, hq⟩
        rw [eq] at eu; cases eu
        exact ⟨b, a, y, hy, u, hu', ⟨d, fun e => hne (by rw [e]), ⟨r, hr, ey⟩, ⟨q, hq, eq⟩,
          .inl ⟨ey, hi⟩⟩, e0, e1⟩
      · obtain ⟨u', hu', eu⟩ := hcl q ⟨x, hx, hq⟩
        rw [eq] at eu; cases eu
        exact ⟨b, a, u, hu', y, hy, ⟨d, fun e => hne (by rw [e]), ⟨q, hq, eq⟩, ⟨r, hr, ey⟩,
          .inr ⟨ey, hi⟩⟩, e0, e1⟩
    · rintro ⟨b, a, v, hv, u, hu, ⟨d, hne, hev, heu, ⟨ev, hi⟩ | ⟨eu, hi⟩⟩, e0, e1⟩
      · rw [ey] at ev; cases ev
        exact ⟨a, b, d, u, heu, fun e => hne (posIn_inj hu hv e).symm, .inl ⟨hi, e0, e1⟩⟩
      · rw [ey] at eu; cases eu
        exact ⟨a, b, d, v, hev, fun e => hne (posIn_inj hv hu e), .inr ⟨hi, e0, e1⟩⟩
  have hlt : ∀ {l : List Ref} {v : Ref}, v ∈ l → posIn l v < l.length := fun {l v} hv =>
    List.idxOf_lt_length_of_mem hv
  obtain ⟨T, eT, Tne, Tnn, hW, hO, hI⟩ := fill_all (Tensors.zeros m.edges.cnt m.nodes.cnt)
    ((((h.subEdges c).flatMap h.subRelations).flatMap F).flatten) (by
      intro t ht
      rw [hfl] at ht
      obtain ⟨r, hr, ht⟩ := List.mem_flatMap.1 ht
      obtain ⟨x, hx, hr⟩ := List.mem_flatMap.1 hr
      obtain ⟨_, e, v, hv, u, hu, _, e0, e1⟩ := (hmem x hx r hr t).1 ht
      simp only [Tensors.zeros]
      rw [e, e0, e1, Ne.cnt, Nn.cnt, List.length_map, List.length_map]
      exact ⟨hlt hx, hlt hv, hlt hu⟩)
  refine ⟨T, ?_, ?_, ?_, ?_, ?_, ?_⟩
  · unfold tensorExecute
    rw [em]
    simp only
    rw [hx]
    simp only [Prod.mk.injEq, and_true]
    exact eT
  · rw [Tne]; simp [Tensors.zeros, Ne.cnt]
  · rw [Tnn]; simp [Tensors.zeros, Nn.cnt]
  all_goals rw [hfl] at hW hO hI
  · intro e i j x v u hex hiv hju
    have hxm := List.mem_of_getElem? hex
    have hvm := List.mem_of_getElem? hiv
    have hum := List.mem_of_getElem? hju
    have pe := posIn_of_getElem? nde hex
    have pi := posIn_of_getElem? ndn hiv
    have pj := posIn_of_getElem? ndn hju
    have key := LastEntry.transfer (h := h) (Q := fun r => r ∈ h.subRelations x ∧ Links h x v u r)
      (by
        intro r hr t ht ⟨p1, p2, p3⟩
        obtain ⟨x', hx', hr⟩ := List.mem_flatMap.1 hr
        obtain ⟨w, e', v', hv', u', hu', L, e0, e1⟩ := (hmem x' hx' r hr t).1 ht
        have : x' = x := posIn_inj hx' hxm (by rw [← e', pe, p1])
        subst this
        have : v' = v := posIn_inj hv' hvm (by rw [← e0, pi, p2])
        subst this
        have : u' = u := posIn_inj hu' hum (by rw [← e1, pj, p3])
        subst this
        exact ⟨⟨hr, L⟩, w⟩)
      (by
        rintro r hr ⟨hrx, L⟩
        exact ⟨⟨i, j, e, weightOf h r⟩, (hmem x hxm r hrx _).2
          ⟨rfl, pe.symm, v, hvm, u, hum, L, pi.symm, pj.symm⟩, rfl, rfl, rfl⟩) (hW e i j)
    obtain ⟨A, B, eAB⟩ := List.append_of_mem hxm
    have hnd := nde; rw [eAB, List.nodup_append', List.nodup_cons] at hnd
    rw [eAB, List.flatMap_append, List.flatMap_cons] at key
    have out : ∀ (l : List Ref), x ∉ l → ∀ q ∈ l.flatMap h.subRelations, q ∉ h.subRelations x := by
      intro l hl q hq hqx
      obtain ⟨y, hy, hqy⟩ := List.mem_flatMap.1 hq
      have := (hpr y q hqy).symm.trans (hpr x q hqx)
      cases this; exact hl hy
    have k2 := LastWins.drop_right (fun q hq p => out B hnd.2.1.1 q hq p.1)
      (LastWins.drop_left (fun q hq p => out A (fun hx => List.disjoint_left.1 hnd.2.2 hx (by simp)) q hq p.1) key)
    rcases k2 with ⟨l1, r, l2, e2, hr, hl, ew⟩ | ⟨hn, ew⟩
    · exact .inl ⟨l1, r, l2, e2, hr.2, fun q hq L => hl q hq ⟨by rw [e2]; simp [hq], L⟩, ew⟩
    · exact .inr ⟨fun q hq L => hn q hq ⟨hq, L⟩, ew⟩
  · intro e i x v hex hiv
    have hxm := List.mem_of_getElem? hex
    have hvm := List.mem_of_getElem? hiv
    have pe := posIn_of_getElem? nde hex
    have pi := posIn_of_getElem? ndn hiv
    have key := LastEntry.transfer (h := h) (Q := fun r => r ∈ h.subRelations x ∧ LeavesBy h x v r)
      (by
        intro r hr t ht ⟨p1, p2⟩
        obtain ⟨x', hx', hr⟩ := List.mem_flatMap.1 hr
        obtain ⟨w, e', v', hv', u', hu', L, e0, e1⟩ := (hmem x' hx' r hr t).1 ht
        have : x' = x := posIn_inj hx' hxm (by rw [← e', pe, p1])
        subst this
        have : v' = v := posIn_inj hv' hvm (by rw [← e0, pi, p2])
        subst this
        exact ⟨⟨hr, u', L⟩, w⟩)
      (by
        rintro r hr ⟨hrx, u, L⟩
        obtain ⟨q, hq, eq⟩ := L.2.2.2.1
        obtain ⟨u', hu', eu⟩ := hcl q ⟨x, hxm, hq⟩
        rw [eq] at eu; cases eu
        exact ⟨⟨i, _, e, weightOf h r⟩, (hmem x hxm r hrx _).2
          ⟨rfl, pe.symm, v, hvm, u, hu', L, pi.symm, rfl⟩, rfl, rfl⟩) (hO e i)
    obtain ⟨A, B, eAB⟩ := List.append_of_mem hxm
    have hnd := nde; rw [eAB, List.nodup_append', List.nodup_cons] at hnd
    rw [eAB, List.flatMap_append, List.flatMap_cons] at key
    have out : ∀ (l : List Ref), x ∉ l → ∀ q ∈ l.flatMap h.subRelations, q ∉ h.subRelations x := by
      intro l hl q hq hqx
      obtain ⟨y, hy, hqy⟩ := List.mem_flatMap.1 hq
      have := (hpr y q hqy).symm.trans (hpr x q hqx)
      cases this; exact hl hy
    have k2 := LastWins.drop_right (fun q hq p => out B hnd.2.1.1 q hq p.1)
      (LastWins.drop_left (fun q hq p => out A (fun hx => List.disjoint_left.1 hnd.2.2 hx (by simp)) q hq p.1) key)
    rcases k2 with ⟨l1, r, l2, e2, hr, hl, ew⟩ | ⟨hn, ew⟩
    · exact .inl ⟨l1, r, l2, e2, hr.2, fun q hq L => hl q hq ⟨by rw [e2]; simp [hq], L⟩, ew⟩
    · exact .inr ⟨fun q hq L => hn q hq ⟨hq, L⟩, ew⟩
  · intro e i x v hex hiv
    have hxm := List.mem_of_getElem? hex
    have hvm := List.mem_of_getElem? hiv
    have pe := posIn_of_getElem? nde hex
    have pi := posIn_of_getElem? ndn hiv
    have key := LastEntry.transfer (h := h) (Q := fun r => r ∈ h.subRelations x ∧ EntersBy h x v r)
      (by
        intro r hr t ht ⟨p1, p2⟩
        obtain ⟨x', hx', hr⟩ := List.mem_flatMap.1 hr
        obtain ⟨w, e', v', hv', u', hu', L, e0, e1⟩ := (hmem x' hx' r hr t).1 ht
        have : x' = x := posIn_inj hx' hxm (by rw [← e', pe, p1])
        subst this
        have : u' = v := posIn_inj hu' hvm (by rw [← e1, pi, p2])
        subst this
        exact ⟨⟨hr, v', L⟩, w⟩)
      (by
        rintro r hr ⟨hrx, u, L⟩
        obtain ⟨q, hq, eq⟩ := L.2.2.1
        obtain ⟨u', hu', eu⟩ := hcl q ⟨x, hxm, hq⟩
        rw [eq] at eu; cases eu
        exact ⟨⟨_, i, e, weightOf h r⟩, (hmem x hxm r hrx _).2
          ⟨rfl, pe.symm, u, hu', v, hvm, L, rfl, pi.symm⟩, rfl, rfl⟩) (hI e i)
    obtain ⟨A, B, eAB⟩ := List.append_of_mem hxm
    have hnd := nde; rw [eAB, List.nodup_append', List.nodup_cons] at hnd
    rw [eAB, List.flatMap_append, List.flatMap_cons] at key
    have out : ∀ (l : List Ref), x ∉ l → ∀ q ∈ l.flatMap h.subRelations, q ∉ h.subRelations x := by
      intro l hl q hq hqx
      obtain ⟨y, hy, hqy⟩ := List.mem_flatMap.1 hq
      have := (hpr y q hqy).symm.trans (hpr x q hqx)
      cases this; exact hl hy
    have k2 := LastWins.drop_right (fun q hq p => out B hnd.2.1.1 q hq p.1)
      (LastWins.drop_left (fun q hq p => out A (fun hx => List.disjoint_left.1 hnd.2.2 hx (by simp)) q hq p.1) key)
    rcases k2 with ⟨l1, r, l2, e2, hr, hl, ew⟩ | ⟨hn, ew⟩
    · exact .inl ⟨l1, r, l2, e2, hr.2, fun q hq L => hl q hq ⟨by rw [e2]; simp [hq], L⟩, ew⟩
    · exact .inr ⟨fun q hq L => hn q hq ⟨hq, L⟩, ew⟩


/-! ## Unweighted contexts -/

/-- `T` is the result of converting the context `c` (with enough stack and idle queues). -/
def TensorOf (h : Heap) (c : Ref) (T : Tensors) : Prop :=
  ∃ budget, StackFor h c budget ∧ tensorExecute h (some 1) budget c [] [] = (.ok T, [], [])

/-- A context that can be converted: a node whose relations lead to its own nodes. -/
structure Context (h : Heap) (c : Ref) : Prop where
  node : (h.get c).kind = .node
  closed : Closed h c
  weights : ValueWeights h c

theorem Unweighted.valueWeights {h : Heap} {c : Ref} (hu : Unweighted h c) : ValueWeights h c :=
  fun r hr v hv => by rw [hu r hr] at hv; cases hv

/-- Every context can be converted. -/
theorem C34_converts {E : Env} {h : Heap} (R : Reach E h) {c : Ref} (K : Context h c) :
    ∃ T, TensorOf h c T := by
  obtain ⟨T, e, _⟩ := C56_weights R K.node K.closed K.weights
    (budget := (h.subNodes c).length + (h.subValues c).length +
      ((h.subEdges c).length + ((h.subEdges c).flatMap h.subRelations).length) + 2)
    ⟨by omega, by omega, by omega⟩
  exact ⟨T, _, ⟨by omega, by omega, by omega⟩, e⟩

/-- The entries of a converted context. -/
structure Entries (h : Heap) (c : Ref) (T : Tensors) : Prop where
  ne : T.ne = (h.subEdges c).length
  nn : T.nn = (h.subNodes c).length
  W : ∀ e i j x v u, (h.subEdges c)[e]? = some x → (h.subNodes c)[i]? = some v →
    (h.subNodes c)[j]? = some u → LastWins h (h.subRelations x) (Links h x v u) (T.W e i j)
  Io : ∀ e i x v, (h.subEdges c)[e]? = some x → (h.subNodes c)[i]? = some v →
    LastWins h (h.subRelations x) (LeavesBy h x v) (T.Io e i)
  Ii : ∀ e i x v, (h.subEdges c)[e]? = some x → (h.subNodes c)[i]? = some v →
    LastWins h (h.subRelations x) (EntersBy h x v) (T.Ii e i)

theorem TensorOf.entries {E : Env} {h : Heap} (R : Reach E h) {c : Ref} (K : Context h c) {T : Tensors}
    (hT : TensorOf h c T) : Entries h c T := by
  obtain ⟨b, hb, e⟩ := hT
  obtain ⟨T', e', a1, a2, a3, a4, a5⟩ := C56_weights R K.node K.closed K.weights hb
  rw [e] at e'
  have : T = T' := by
    have := congrArg Prod.fst e'
    exact Except.ok.inj this
  subst this
  exact ⟨a1, a2, a3, a4, a5⟩

/-- If all weights are 1, the last writer does not matter. -/
theorem LastWins.one {h : Heap} {l : List Ref} {P : Ref → Prop} {w : Rat}
    (h1 : ∀ r ∈ l, weightOf h r = 1) (L : LastWins h l P w) :
    ((∃ r ∈ l, P r) ∧ w = 1) ∨ ((¬ ∃ r ∈ l, P r) ∧ w = 0) := by
  rcases L with ⟨l1, r, l2, e, hp, _, ew⟩ | ⟨hn, ew⟩
  · have hr : r ∈ l := by rw [e]; simp
    exact .inl ⟨⟨r, hr, hp⟩, by rw [ew, h1 r hr]⟩
  · exact .inr ⟨fun ⟨r, hr, hp⟩ => hn r hr hp, ew⟩

theorem exists_links {h : Heap} {x v u : Ref} (h1 : ∀ r ∈ h.subRelations x, weightOf h r = 1) :
    (∃ r ∈ h.subRelations x, Links h x v u r) ↔
      v ≠ u ∧ Endpoint h x v ∧ Endpoint h x u ∧ (InEndpoint h x v ∨ OutEndpoint h x u) := by
  constructor
  · rintro ⟨r, hr, _, hne, hv, hu, ⟨e, d⟩ | ⟨e, d⟩⟩
    · exact ⟨hne, hv, hu, .inl ⟨r, hr, e, d⟩⟩
    · exact ⟨hne, hv, hu, .inr ⟨r, hr, e, d⟩⟩
  · rintro ⟨hne, hv, hu, ⟨r, hr, e, d⟩ | ⟨r, hr, e, d⟩⟩
    · exact ⟨r, hr, by rw [h1 r hr]; decide, hne, hv, hu, .inl ⟨e, d⟩⟩
    · exact ⟨r, hr, by rw [h1 r hr]; decide, hne, hv, hu, .inr ⟨e, d⟩⟩

theorem weight_one {h : Heap} {c x : Ref} (hw : Unweighted h c) (hx : x ∈ h.subEdges c) :
    ∀ r ∈ h.subRelations x, weightOf h r = 1 := by
  intro r hr
  unfold weightOf
  rw [hw r ⟨x, hx, hr⟩]

/-- **C35**, what holds: in an unweighted context `W[e,i,j]` is 1 exactly when `i` and `j` are different
endpoints of `e`, and `i` is incoming **or** `j` is outgoing; else it is 0. -/
theorem C35_exact_partial {E : Env} {h : Heap} (R : Reach E h) {c : Ref} (K : Context h c)
    (hw : Unweighted h c) {T : Tensors} (hT : TensorOf h c T) {e i j : Nat} {x v u : Ref}
    (hx : (h.subEdges c)[e]? = some x) (hv : (h.subNodes c)[i]? = some v)
    (hu : (h.subNodes c)[j]? = some u) :
    (T.W e i j = 1 ↔
      v ≠ u ∧ Endpoint h x v ∧ Endpoint h x u ∧ (InEndpoint h x v ∨ OutEndpoint h x u)) ∧
    (T.W e i j = 0 ↔
      ¬ (v ≠ u ∧ Endpoint h x v ∧ Endpoint h x u ∧ (InEndpoint h x v ∨ OutEndpoint h x u))) := by
  have h1 := weight_one hw (List.mem_of_getElem? hx)
  have L := ((hT.entries R K).W e i j x v u hx hv hu).one h1
  rw [exists_links h1] at L
  rcases L with ⟨p, w⟩ | ⟨p, w⟩ <;> rw [w]
  · exact ⟨⟨fun _ => p, fun _ => rfl⟩, ⟨fun q => by simp at q, fun q => absurd p q⟩⟩
  · exact ⟨⟨fun q => by simp at q, fun q => absurd q p⟩, ⟨fun _ => p, fun _ => rfl⟩⟩

/-- An edge with at most one incoming and at most one outgoing endpoint, each endpoint one of both. -/
structure BinaryDirected (h : Heap) (x : Ref) : Prop where
  oneIn : ∀ v u, InEndpoint h x v → InEndpoint h x u → v = u
  oneOut : ∀ v u, OutEndpoint h x v → OutEndpoint h x u → v = u

theorem endpoint_dir {h : Heap} {x v : Ref} (hv : Endpoint h x v) :
    InEndpoint h x v ∨ OutEndpoint h x v := by
  obtain ⟨r, hr, e⟩ := hv
  cases hd : (h.get r).direction with
  | inwards => exact .inl ⟨r, hr, e, .inl hd⟩
  | outwards => exact .inr ⟨r, hr, e, .inl hd⟩
  | bidirectional => exact .inl ⟨r, hr, e, .inr hd⟩

theorem InEndpoint.endpoint {h : Heap} {x v : Ref} (q : InEndpoint h x v) : Endpoint h x v := by
  obtain ⟨r, hr, e, _⟩ := q; exact ⟨r, hr, e⟩
theorem OutEndpoint.endpoint {h : Heap} {x v : Ref} (q : OutEndpoint h x v) : Endpoint h x v := by
  obtain ⟨r, hr, e, _⟩ := q; exact ⟨r, hr, e⟩

/-- **C35**, proved part: for edges with at most one incoming and at most one outgoing endpoint `W[e,i,j]`
is 1 exactly when `i` is incoming, `j` is outgoing and they differ. -/
theorem C35_binary_partial {E : Env} {h : Heap} (R : Reach E h) {c : Ref} (K : Context h c)
    (hw : Unweighted h c) {T : Tensors} (hT : TensorOf h c T) {e i j : Nat} {x v u : Ref}
    (hx : (h.subEdges c)[e]? = some x) (hv : (h.subNodes c)[i]? = some v)
    (hu : (h.subNodes c)[j]? = some u) (hB : BinaryDirected h x) :
    (T.W e i j = 1 ↔ v ≠ u ∧ InEndpoint h x v ∧ OutEndpoint h x u) := by
  rw [(C35_exact_partial R K hw hT hx hv hu).1]
  constructor
  · rintro ⟨hne, ev, eu, q | q⟩
    · refine ⟨hne, q, (endpoint_dir eu).resolve_left fun q' => hne (hB.oneIn v u q q')⟩
    · exact ⟨hne, (endpoint_dir ev).resolve_right fun q' => hne (hB.oneOut v u q' q), q⟩
  · rintro ⟨hne, q1, q2⟩
    exact ⟨hne, q1.endpoint, q2.endpoint, .inl q1⟩

theorem undirected_in {h : Heap} {c x : Ref} (hd : Undirected h c) (hx : x ∈ h.subEdges c) (v : Ref) :
    InEndpoint h x v ↔ Endpoint h x v :=
  ⟨fun q => q.endpoint, fun ⟨r, hr, e⟩ => ⟨r, hr, e, .inr (hd r ⟨x, hx, hr⟩)⟩⟩

/-- **C34.** In an undirected, unweighted context `W[e,i,j]` is 1 when `i` and `j` are different endpoints
of `e` and 0 otherwise; `W[e]` is symmetric with zero diagonal. -/
theorem C34_undirected {E : Env} {h : Heap} (R : Reach E h) {c : Ref} (K : Context h c)
    (hw : Unweighted h c) (hd : Undirected h c) {T : Tensors} (hT : TensorOf h c T) {e i j : Nat}
    {x v u : Ref} (hx : (h.subEdges c)[e]? = some x) (hv : (h.subNodes c)[i]? = some v)
    (hu : (h.subNodes c)[j]? = some u) :
    (v ≠ u ∧ Endpoint h x v ∧ Endpoint h x u → T.W e i j = 1) ∧
    (¬ (v ≠ u ∧ Endpoint h x v ∧ Endpoint h x u) → T.W e i j = 0) ∧
    T.W e i j = T.W e j i ∧ T.W e i i = 0 := by
  have hxm := List.mem_of_getElem? hx
  have key : ∀ {i j : Nat} {v u : Ref}, (h.subNodes c)[i]? = some v → (h.subNodes c)[j]? = some u →
      (v ≠ u ∧ Endpoint h x v ∧ Endpoint h x u → T.W e i j = 1) ∧
      (¬ (v ≠ u ∧ Endpoint h x v ∧ Endpoint h x u) → T.W e i j = 0) := by
    intro i j v u hv hu
    obtain ⟨a, b⟩ := C35_exact_partial R K hw hT hx hv hu
    constructor
    · rintro ⟨p1, p2, p3⟩
      exact a.2 ⟨p1, p2, p3, .inl ((undirected_in hd hxm v).2 p2)⟩
    · intro q
      exact b.2 fun ⟨p1, p2, p3, _⟩ => q ⟨p1, p2, p3⟩
  refine ⟨(key hv hu).1, (key hv hu).2, ?_, (key hv hv).2 fun q => q.1 rfl⟩
  by_cases p : v ≠ u ∧ Endpoint h x v ∧ Endpoint h x u
  · rw [(key hv hu).1 p, (key hu hv).1 ⟨fun q => p.1 q.symm, p.2.2, p.2.1⟩]
  · rw [(key hv hu).2 p, (key hu hv).2 fun q => p ⟨fun z => q.1 z.symm, q.2.2, q.2.1⟩]

/-! ## C36: incidence -/

/-- `e` can be left at `v`: there is another endpoint `u` to which `e` leads from `v`. -/
def CanLeave (h : Heap) (x v : Ref) : Prop :=
  ∃ u, v ≠ u ∧ Endpoint h x v ∧ Endpoint h x u ∧ (InEndpoint h x v ∨ OutEndpoint h x u)
/-- `e` can be entered at `u`. -/
def CanEnter (h : Heap) (x u : Ref) : Prop :=
  ∃ v, v ≠ u ∧ Endpoint h x v ∧ Endpoint h x u ∧ (InEndpoint h x v ∨ OutEndpoint h x u)

/-- **C36.** In an unweighted context `Io[e,i]` (`Ii[e,i]`) is 1 exactly when some `W[e,i,j]` (`W[j,i]`) is
1, i.e. when `e` leads from (to) node `i`, and 0 otherwise. -/
theorem C36_incidence {E : Env} {h : Heap} (R : Reach E h) {c : Ref} (K : Context h c)
    (hw : Unweighted h c) {T : Tensors} (hT : TensorOf h c T) {e i : Nat} {x v : Ref}
    (hx : (h.subEdges c)[e]? = some x) (hv : (h.subNodes c)[i]? = some v) :
    (CanLeave h x v → T.Io e i = 1) ∧ (¬ CanLeave h x v → T.Io e i = 0) ∧
    (CanEnter h x v → T.Ii e i = 1) ∧ (¬ CanEnter h x v → T.Ii e i = 0) ∧
    (T.Io e i = 1 ↔ ∃ j < T.nn, T.W e i j = 1) ∧ (T.Ii e i = 1 ↔ ∃ j < T.nn, T.W e j i = 1) := by
  have hxm := List.mem_of_getElem? hx
  have h1 := weight_one hw hxm
  have En := hT.entries R K
  have LO := (En.Io e i x v hx hv).one h1
  have LI := (En.Ii e i x v hx hv).one h1
  have eo : (∃ r ∈ h.subRelations x, LeavesBy h x v r) ↔ CanLeave h x v := by
    unfold LeavesBy CanLeave
    constructor
    · rintro ⟨r, hr, u, L⟩; exact ⟨u, (exists_links h1).1 ⟨r, hr, L⟩⟩
    · rintro ⟨u, q⟩
      obtain ⟨r, hr, L⟩ := (exists_links h1).2 q
      exact ⟨r, hr, u, L⟩
  have ei : (∃ r ∈ h.subRelations x, EntersBy h x v r) ↔ CanEnter h x v := by
    unfold EntersBy CanEnter
    constructor
    · rintro ⟨r, hr, u, L⟩; exact ⟨u, (exists_links h1).1 ⟨r, hr, L⟩⟩
    · rintro ⟨u, q⟩
      obtain ⟨r, hr, L⟩ := (exists_links h1).2 q
      exact ⟨r, hr, u, L⟩
  rw [eo] at LO
  rw [ei] at LI
  have node : ∀ u, Endpoint h x u → ∃ j < T.nn, (h.subNodes c)[j]? = some u := by
    rintro u ⟨r, hr, eu⟩
    obtain ⟨u', hu', eu'⟩ := K.closed r ⟨x, hxm, hr⟩
    rw [eu] at eu'; cases eu'
    refine ⟨posIn _ u, ?_, posIn_getElem? hu'⟩
    rw [En.nn]; exact List.idxOf_lt_length_of_mem hu'
  have get : ∀ j < T.nn, ∃ u, (h.subNodes c)[j]? = some u := by
    intro j hj; rw [En.nn] at hj; exact ⟨_, List.getElem?_eq_getElem hj⟩
  have so : CanLeave h x v ↔ ∃ j < T.nn, T.W e i j = 1 := by
    constructor
    · rintro ⟨u, q⟩
      obtain ⟨j, hj, eu⟩ := node u q.2.2.1
      exact ⟨j, hj, (C35_exact_partial R K hw hT hx hv eu).1.2 q⟩
    · rintro ⟨j, hj, ew⟩
      obtain ⟨u, eu⟩ := get j hj
      exact ⟨u, (C35_exact_partial R K hw hT hx hv eu).1.1 ew⟩
  have si : CanEnter h x v ↔ ∃ j < T.nn, T.W e j i = 1 := by
    constructor
    · rintro ⟨u, q⟩
      obtain ⟨j, hj, eu⟩ := node u q.2.1
      exact ⟨j, hj, (C35_exact_partial R K hw hT hx eu hv).1.2 q⟩
    · rintro ⟨j, hj, ew⟩
      obtain ⟨u, eu⟩ := get j hj
      exact ⟨u, (C35_exact_partial R K hw hT hx eu hv).1.1 ew⟩
  have z : (0 : Rat) ≠ 1 := by decide
  refine ⟨?_, ?_, ?_, ?_, ?_, ?_⟩
  · intro p; rcases LO with ⟨_, w⟩ | ⟨n, _⟩
    · exact w
    · exact absurd p n
  · intro p; rcases LO with ⟨n, _⟩ | ⟨_, w⟩
    · exact absurd n p
    · exact w
  · intro p; rcases LI with ⟨_, w⟩ | ⟨n, _⟩
    · exact w
    · exact absurd p n
  · intro p; rcases LI with ⟨n, _⟩ | ⟨_, w⟩
    · exact absurd n p
    · exact w
  · rw [← so]
    rcases LO with ⟨p, w⟩ | ⟨p, w⟩ <;> rw [w]
    · exact ⟨fun _ => p, fun _ => rfl⟩
    · exact ⟨fun q => absurd q z, fun q => absurd q p⟩
  · rw [← si]
    rcases LI with ⟨p, w⟩ | ⟨p, w⟩ <;> rw [w]
    · exact ⟨fun _ => p, fun _ => rfl⟩
    · exact ⟨fun q => absurd q z, fun q => absurd q p⟩

/-- No edge of the context has exactly one endpoint. -/
def NoLoops (h : Heap) (c : Ref) : Prop :=
  ∀ x ∈ h.subEdges c, ∀ v, Endpoint h x v → ∃ u, u ≠ v ∧ Endpoint h x u

/-- **C36.** In an undirected, unweighted context whose edges have at least two endpoints (or none)
`Io = Ii` is the incidence matrix. -/
theorem C36_undirected {E : Env} {h : Heap} (R : Reach E h) {c : Ref} (K : Context h c)
    (hw : Unweighted h c) (hd : Undirected h c) (hl : NoLoops h c) {T : Tensors} (hT : TensorOf h c T)
    {e i : Nat} {x v : Ref} (hx : (h.subEdges c)[e]? = some x) (hv : (h.subNodes c)[i]? = some v) :
    T.Io e i = T.Ii e i ∧ (Endpoint h x v → T.Io e i = 1) ∧ (¬ Endpoint h x v → T.Io e i = 0) := by
  have hxm := List.mem_of_getElem? hx
  obtain ⟨a1, a2, a3, a4, _, _⟩ := C36_incidence R K hw hT hx hv
  by_cases p : Endpoint h x v
  · obtain ⟨u, hne, hu⟩ := hl x hxm v p
    have q1 : CanLeave h x v :=
      ⟨u, fun z => hne z.symm, p, hu, .inl ((undirected_in hd hxm v).2 p)⟩
    have q2 : CanEnter h x v := ⟨u, hne, hu, p, .inl ((undirected_in hd hxm u).2 hu)⟩
    rw [a1 q1, a3 q2]
    exact ⟨rfl, fun _ => rfl, fun n => absurd p n⟩
  · have q1 : ¬ CanLeave h x v := fun ⟨_, _, q, _⟩ => p q
    have q2 : ¬ CanEnter h x v := fun ⟨_, _, _, q, _⟩ => p q
    rw [a2 q1, a4 q2]
    exact ⟨rfl, fun n => absurd n p, fun _ => rfl⟩

/-! ## C37: degrees -/

theorem sumTo_list {l : List Ref} {f : Nat → Rat} {g : Ref → Rat}
    (hfg : ∀ i x, l[i]? = some x → f i = g x) : sumTo l.length f = (l.map g).sum := by
  unfold sumTo
  congr 1
  apply List.ext_getElem
  · simp
  · intro i h1 h2
    simp only [List.getElem_map, List.getElem_range]
    exact hfg i _ (List.getElem?_eq_getElem (by simpa using h2))

theorem sum_indicator (l : List Ref) (P : Ref → Prop) [DecidablePred P] :
    (l.map fun x => if P x then (1 : Rat) else 0).sum = ((l.filter fun x => P x).length : Rat) := by
  induction l with
  | nil => rfl
  | cons x l ih =>
    rw [List.map_cons, List.sum_cons, ih]
    by_cases p : P x
    · simp [p]; ring
    · simp [p]

theorem sum_map_add' (m : List Ref) (f g : Ref → Rat) :
    (m.map fun y => f y + g y).sum = (m.map f).sum + (m.map g).sum := by
  induction m with
  | nil => simp
  | cons y m ih => simp only [List.map_cons, List.sum_cons, ih]; ring

theorem sum_map_zero' (m : List Ref) : (m.map fun _ => (0 : Rat)).sum = 0 := by
  induction m with
  | nil => rfl
  | cons y m ih => rw [List.map_cons, List.sum_cons, ih]; simp

theorem sum_map_comm (l m : List Ref) (f : Ref → Ref → Rat) :
    (l.map fun x => (m.map fun y => f x y).sum).sum = (m.map fun y => (l.map fun x => f x y).sum).sum := by
  induction l with
  | nil => simp only [List.map_nil, List.sum_nil]; exact (sum_map_zero' m).symm
  | cons x l ih => simp only [List.map_cons, List.sum_cons, ih, sum_map_add']

/-- The degree of a node is the number of edges it belongs to. -/
theorem degree_eq {E : Env} {h : Heap} (R : Reach E h) {c : Ref} (K : Context h c)
    (hw : Unweighted h c) (hd : Undirected h c) (hl : NoLoops h c) {T : Tensors} (hT : TensorOf h c T)
    {i : Nat} {v : Ref} (hv : (h.subNodes c)[i]? = some v) : T.degree i = (edgesAt h c v : Rat) := by
  classical
  have En := hT.entries R K
  have key : ∀ e x, (h.subEdges c)[e]? = some x → T.Io e i = (if Endpoint h x v then 1 else 0) ∧
      T.Io e i = T.Ii e i := by
    intro e x hx
    obtain ⟨a, b, d⟩ := C36_undirected R K hw hd hl hT hx hv
    refine ⟨?_, a⟩
    by_cases p : Endpoint h x v
    · rw [if_pos p, b p]
    · rw [if_neg p, d p]
  have hall : ∀ e < T.ne, T.Io e i = T.Ii e i := by
    intro e he
    rw [En.ne] at he
    exact (key e _ (List.getElem?_eq_getElem he)).2
  have s1 : sumTo T.ne (fun e => T.Io e i) = (edgesAt h c v : Rat) := by
    rw [En.ne, sumTo_list (g := fun x => if Endpoint h x v then 1 else 0) fun e x hx => (key e x hx).1,
      sum_indicator]
    unfold edgesAt
    congr
  have s2 : sumTo T.ne (fun e => T.Ii e i) = (edgesAt h c v : Rat) := by
    rw [En.ne, sumTo_list (g := fun x => if Endpoint h x v then 1 else 0)
      fun e x hx => (key e x hx).2.symm.trans (key e x hx).1, sum_indicator]
    unfold edgesAt
    congr
  unfold Tensors.degree
  simp only
  rw [if_pos hall, s1, s2]
  norm_num
  ring

/-- **C37.** In an undirected, unweighted context whose edges have at least two endpoints (or none)
`deg[i]` is the number of edges containing node `i`, and `total_deg` is the sum of the edge sizes. -/
theorem C37_degree {E : Env} {h : Heap} (R : Reach E h) {c : Ref} (K : Context h c)
    (hw : Unweighted h c) (hd : Undirected h c) (hl : NoLoops h c) {T : Tensors} (hT : TensorOf h c T) :
    (∀ i v, (h.subNodes c)[i]? = some v → T.degree i = (edgesAt h c v : Rat)) ∧
    T.totalDegree = (((h.subEdges c).map (edgeSize h c)).sum : Nat) := by
  classical
  refine ⟨fun i v hv => degree_eq R K hw hd hl hT hv, ?_⟩
  have En := hT.entries R K
  unfold Tensors.totalDegree
  rw [En.nn, sumTo_list (g := fun v => (edgesAt h c v : Rat)) fun i v hv => degree_eq R K hw hd hl hT hv]
  have e1 : ∀ v, (edgesAt h c v : Rat) =
      ((h.subEdges c).map fun x => if Endpoint h x v then (1 : Rat) else 0).sum := by
    intro v; rw [sum_indicator]; unfold edgesAt; congr
  have e2 : ∀ x, (edgeSize h c x : Rat) =
      ((h.subNodes c).map fun v => if Endpoint h x v then (1 : Rat) else 0).sum := by
    intro v; rw [sum_indicator]; unfold edgeSize; congr
  have e3 : ((((h.subEdges c).map (edgeSize h c)).sum : Nat) : Rat) =
      ((h.subEdges c).map fun x => (edgeSize h c x : Rat)).sum := by
    induction h.subEdges c with
    | nil => rfl
    | cons x l ih => simp only [List.map_cons, List.sum_cons, Nat.cast_add, ih]
  rw [e3]
  simp only [e1, e2]
  exact sum_map_comm _ _ _

/-! ## C38: Laplacians -/

theorem W_diag {E : Env} {h : Heap} (R : Reach E h) {c : Ref} (K : Context h c) {T : Tensors}
    (hT : TensorOf h c T) {e i : Nat} (he : e < T.ne) (hi : i < T.nn) : T.W e i i = 0 := by
  have En := hT.entries R K
  rw [En.ne] at he
  rw [En.nn] at hi
  have hx : (h.subEdges c)[e]? = some _ := List.getElem?_eq_getElem he
  have hv : (h.subNodes c)[i]? = some _ := List.getElem?_eq_getElem hi
  rcases En.W e i i _ _ _ hx hv hv with ⟨_, _, _, _, L, _⟩ | ⟨_, w⟩
  · exact absurd rfl L.2.1
  · exact w

theorem sumTo_congr {n : Nat} {f g : Nat → Rat} (hfg : ∀ i < n, f i = g i) : sumTo n f = sumTo n g := by
  unfold sumTo
  congr 1
  apply List.map_congr_left
  intro i hi
  exact hfg i (List.mem_range.1 hi)

theorem sumTo_zero (n : Nat) : sumTo n (fun _ => 0) = 0 := by
  unfold sumTo
  induction n with
  | zero => rfl
  | succ n ih => rw [List.range_succ, List.map_append, List.sum_append, ih]; simp

theorem sumTo_sub (n : Nat) (f g : Nat → Rat) :
    sumTo n (fun i => f i - g i) = sumTo n f - sumTo n g := by
  unfold sumTo
  induction n with
  | zero => simp
  | succ n ih =>
    simp only [List.range_succ, List.map_append, List.sum_append, List.map_cons, List.map_nil,
      List.sum_cons, List.sum_nil, ih]
    ring

/-- **C38**, proved part (1): the trace of the projected Laplacian is `total_deg`, for every context,
directed or weighted ones included. -/
theorem C38_trace_partial {E : Env} {h : Heap} (R : Reach E h) {c : Ref} (K : Context h c) {T : Tensors}
    (hT : TensorOf h c T) : sumTo T.nn (fun i => T.projectedLaplacian i i) = T.totalDegree := by
  unfold Tensors.totalDegree
  apply sumTo_congr
  intro i hi
  unfold Tensors.projectedLaplacian Tensors.diagDegree
  rw [if_pos rfl, sumTo_congr (g := fun _ => 0) fun e he => W_diag R K hT he hi, sumTo_zero]
  simp

/-- **C38**, proved part (2): off the diagonal the sum of the edge-wise Laplacians is the projected
Laplacian, for every tensor. -/
theorem C38_offdiagonal_partial (T : Tensors) {L : Nat → Nat → Nat → Rat} (hL : T.laplacian = .ok L)
    {i j : Nat} (hij : i ≠ j) : sumTo T.ne (fun e => L e i j) = T.projectedLaplacian i j := by
  unfold Tensors.laplacian Tensors.diagDegreeTensor at hL
  by_cases h0 : T.ne = 0
  · rw [if_pos h0] at hL; cases hL
  · rw [if_neg h0] at hL
    cases hL
    unfold Tensors.projectedLaplacian Tensors.diagDegree
    simp only [if_neg hij]
    rw [sumTo_sub, sumTo_zero]

theorem filter_ne_length {l : List Ref} (hn : l.Nodup) {P : Ref → Prop} [DecidablePred P] {v : Ref} (hv : v ∈ l)
    (hp : P v) : (l.filter fun u => P u).length = (l.filter fun u => v ≠ u ∧ P u).length + 1 := by
  induction l with
  | nil => cases hv
  | cons a l ih =>
    obtain ⟨ha, hl⟩ := List.nodup_cons.1 hn
    by_cases e : v = a
    · subst e
      have : l.filter (fun u => decide (v ≠ u ∧ P u)) = l.filter (fun u => decide (P u)) := by
        apply List.filter_congr
        intro u hu
        have : v ≠ u := fun e => ha (e ▸ hu)
        simp [this]
      simp [hp]
      simpa using congrArg List.length this.symm
    · have hv' : v ∈ l := by
        cases hv with
        | head => exact absurd rfl e
        | tail _ q => exact q
      have := ih hl hv'
      by_cases q : P a
      · simp only [List.filter_cons, q, e, ne_eq, not_false_eq_true, and_self, decide_true, if_true,
          List.length_cons]
        rw [← this]
      · simp only [List.filter_cons, q, e, ne_eq, not_false_eq_true, and_false, decide_false,
          Bool.false_eq_true, if_false]
        rw [this]

/-- The diagonal of the edge-wise Laplacian: half the number of other endpoints. -/
theorem laplacian_diag {E : Env} {h : Heap} (R : Reach E h) {c : Ref} (K : Context h c)
    (hw : Unweighted h c) (hd : Undirected h c) {T : Tensors} (hT : TensorOf h c T)
    {L : Nat → Nat → Nat → Rat} (hL : T.laplacian = .ok L) {e i : Nat} {x v : Ref}
    (hx : (h.subEdges c)[e]? = some x) (hv : (h.subNodes c)[i]? = some v) :
    L e i i = if Endpoint h x v then ((edgeSize h c x : Rat) - 1) / 2 else 0 := by
  have En := hT.entries R K
  have hxm := List.mem_of_getElem? hx
  have hvm := List.mem_of_getElem? hv
  have nd : (h.subNodes c).Nodup := (C01_containment_agrees R c).2.filter _
  have hi : i < T.nn := by rw [En.nn]; exact (List.getElem?_eq_some_iff.1 hv).1
  have he : e < T.ne := by rw [En.ne]; exact (List.getElem?_eq_some_iff.1 hx).1
  have hrow : sumTo T.nn (fun j => T.W e i j) =
      ((h.subNodes c).map fun u => if v ≠ u ∧ Endpoint h x v ∧ Endpoint h x u then (1 : Rat) else 0).sum := by
    rw [En.nn]
    apply sumTo_list
    intro j u hu
    obtain ⟨a, b, _⟩ := C34_undirected R K hw hd hT hx hv hu
    by_cases p : v ≠ u ∧ Endpoint h x v ∧ Endpoint h x u
    · rw [if_pos p, a p]
    · rw [if_neg p, b p]
  have hcol : sumTo T.nn (fun j => T.W e j i) = sumTo T.nn (fun j => T.W e i j) := by
    apply sumTo_congr
    intro j hj
    rw [En.nn] at hj
    exact ((C34_undirected R K hw hd hT hx hv (List.getElem?_eq_getElem hj)).2.2.1).symm
  have hval : sumTo T.nn (fun j => T.W e i j) =
      if Endpoint h x v then ((edgeSize h c x : Rat) - 1) else 0 := by
    rw [hrow, sum_indicator]
    by_cases p : Endpoint h x v
    · rw [if_pos p]
      have := filter_ne_length nd (P := fun u => Endpoint h x u) hvm p
      have e2 : edgeSize h c x = ((h.subNodes c).filter fun u => v ≠ u ∧ Endpoint h x u).length + 1 := by
        rw [← this]; rfl
      rw [e2]
      simp only [p, true_and]
      push_cast
      ring
    · rw [if_neg p]
      simp [p]
  have hdiag := W_diag R K hT he hi
  unfold Tensors.laplacian Tensors.diagDegreeTensor at hL
  by_cases h0 : T.ne = 0
  · omega
  · rw [if_neg h0] at hL
    cases hL
    simp only [if_true]
    have hcoeff : (if (sumTo T.nn fun j => T.W e j i) = sumTo T.nn fun j => T.W e i j then (1 : Rat) else 0) = 1 :=
      if_pos hcol
    rw [hcoeff, hcol, hval, hdiag]
    split
    · norm_num; ring
    · norm_num

/-- **C38**, proved part (3): on the diagonal the two agree at node `v` exactly when the edges at `v` have
three endpoints on average. -/
theorem C38_diagonal_partial {E : Env} {h : Heap} (R : Reach E h) {c : Ref} (K : Context h c)
    (hw : Unweighted h c) (hd : Undirected h c) (hl : NoLoops h c) {T : Tensors} (hT : TensorOf h c T)
    {L : Nat → Nat → Nat → Rat} (hL : T.laplacian = .ok L) {i : Nat} {v : Ref}
    (hv : (h.subNodes c)[i]? = some v) :
    sumTo T.ne (fun e => L e i i) = T.projectedLaplacian i i ↔
      (((h.subEdges c).filter fun x => Endpoint h x v).map (edgeSize h c)).sum = 3 * edgesAt h c v := by
  have En := hT.entries R K
  have hi : i < T.nn := by rw [En.nn]; exact (List.getElem?_eq_some_iff.1 hv).1
  have hp : T.projectedLaplacian i i = (edgesAt h c v : Rat) := by
    unfold Tensors.projectedLaplacian Tensors.diagDegree
    rw [if_pos rfl, sumTo_congr (g := fun _ => 0) fun e he => W_diag R K hT he hi, sumTo_zero,
      degree_eq R K hw hd hl hT hv]
    ring
  have hs : sumTo T.ne (fun e => L e i i) =
      (((((h.subEdges c).filter fun x => Endpoint h x v).map (edgeSize h c)).sum : Nat) -
        (edgesAt h c v : Rat)) / 2 := by
    rw [En.ne, sumTo_list fun e x hx => laplacian_diag R K hw hd hT hL hx hv]
    unfold edgesAt
    induction h.subEdges c with
    | nil => norm_num
    | cons x l ih =>
      rw [List.map_cons, List.sum_cons, ih]
      by_cases p : Endpoint h x v
      · simp only [p, if_true, List.filter_cons, decide_true, List.map_cons, List.sum_cons,
          List.length_cons]
        push_cast
        ring
      · simp only [p, if_false, List.filter_cons, decide_false, Bool.false_eq_true]
        ring
  rw [hp, hs]
  constructor
  · intro q
    have : ((((h.subEdges c).filter fun x => Endpoint h x v).map (edgeSize h c)).sum : Rat) =
        3 * (edgesAt h c v : Rat) := by linarith
    exact_mod_cast this
  · intro q
    rw [q]
    push_cast
    ring


/-! ## Degrees in directed contexts -/

/-- Every edge is oriented: no node can both be left and entered through it. -/
def Oriented (h : Heap) (c : Ref) : Prop :=
  ∀ x ∈ h.subEdges c, ∀ v, ¬ (CanLeave h x v ∧ CanEnter h x v)

open scoped Classical in
/-- **C37.** In an oriented, unweighted context `deg[i]` is the number of edges that can be left or entered
at node `i`. -/
theorem C37_oriented {E : Env} {h : Heap} (R : Reach E h) {c : Ref} (K : Context h c)
    (hw : Unweighted h c) (ho : Oriented h c) {T : Tensors} (hT : TensorOf h c T) {i : Nat} {v : Ref}
    (hv : (h.subNodes c)[i]? = some v) :
    T.degree i = (((h.subEdges c).filter fun x => CanLeave h x v ∨ CanEnter h x v).length : Rat) := by
  have En := hT.entries R K
  have kO : ∀ e x, (h.subEdges c)[e]? = some x → T.Io e i = if CanLeave h x v then 1 else 0 := by
    intro e x hx
    obtain ⟨a, b, _⟩ := C36_incidence R K hw hT hx hv
    by_cases p : CanLeave h x v
    · rw [if_pos p, a p]
    · rw [if_neg p, b p]
  have kI : ∀ e x, (h.subEdges c)[e]? = some x → T.Ii e i = if CanEnter h x v then 1 else 0 := by
    intro e x hx
    obtain ⟨_, _, a, b, _⟩ := C36_incidence R K hw hT hx hv
    by_cases p : CanEnter h x v
    · rw [if_pos p, a p]
    · rw [if_neg p, b p]
  have hs : sumTo T.ne (fun e => T.Io e i) + sumTo T.ne (fun e => T.Ii e i) =
      (((h.subEdges c).filter fun x => CanLeave h x v ∨ CanEnter h x v).length : Rat) := by
    rw [En.ne, sumTo_list kO, sumTo_list kI, ← sum_map_add', ← sum_indicator]
    congr 1
    apply List.map_congr_left
    intro x hx
    have := ho x hx v
    by_cases p : CanLeave h x v <;> by_cases q : CanEnter h x v
    · exact absurd ⟨p, q⟩ this
    all_goals simp [p, q]
  unfold Tensors.degree
  simp only
  rw [hs]
  by_cases hall : ∀ e < T.ne, T.Io e i = T.Ii e i
  · have : (h.subEdges c).filter (fun x => decide (CanLeave h x v ∨ CanEnter h x v)) = [] := by
      rw [List.filter_eq_nil_iff]
      intro x hx
      obtain ⟨e, he⟩ := List.getElem?_of_mem hx
      have he' : e < T.ne := by rw [En.ne]; exact (List.getElem?_eq_some_iff.1 he).1
      have := hall e he'
      rw [kO e x he, kI e x he] at this
      have ho' := ho x hx v
      by_cases p : CanLeave h x v <;> by_cases q : CanEnter h x v
      · exact absurd ⟨p, q⟩ ho'
      · simp [p, q] at this
      · simp [p, q] at this
      · simp [p, q]
    rw [this]
    simp
  · rw [if_neg hall]
    norm_num

/-! ## Instances and refutations -/

namespace Sample

/-- `a` and `b` joined by an undirected edge. -/
def u5 : Heap := (Op.unaryConnect 3 1 none .bidirectional none).after E0 g4
/-- See `u5`. -/
def u6 : Heap := (Op.unaryConnect 3 2 none .bidirectional none).after E0 u5
theorem reach_u5 : Reach E0 u5 :=
  .step _ reach4 ⟨by decide +kernel, by decide +kernel, okNone, okNone⟩ trivial
theorem reach_u6 : Reach E0 u6 :=
  .step _ reach_u5 ⟨by decide +kernel, by decide +kernel, okNone, okNone⟩ trivial

/-- Two incoming relations. -/
def w6 : Heap := (Op.unaryConnect 3 2 none .inwards none).after E0 g5
theorem reach_w6 : Reach E0 w6 :=
  .step _ reach5 ⟨by decide +kernel, by decide +kernel, okNone, okNone⟩ trivial

/-- Check a property of all relations of a context. -/
theorem forall_relationIn {h : Heap} {c : Ref} {P : Ref → Prop}
    (hp : ∀ r ∈ (h.subEdges c).flatMap h.subRelations, P r) : ∀ r, RelationIn h c r → P r :=
  fun r ⟨x, hx, hr⟩ => hp r (List.mem_flatMap.2 ⟨x, hx, hr⟩)

theorem unweighted_u6 : Unweighted u6 0 := forall_relationIn (by decide +kernel)
theorem undirected_u6 : Undirected u6 0 := forall_relationIn (by decide +kernel)
theorem closed_u6 : Closed u6 0 := forall_relationIn (by decide +kernel)
theorem context_u6 : Context u6 0 := ⟨by decide +kernel, closed_u6, unweighted_u6.valueWeights⟩
theorem unweighted_w6 : Unweighted w6 0 := forall_relationIn (by decide +kernel)
theorem closed_w6 : Closed w6 0 := forall_relationIn (by decide +kernel)
theorem context_w6 : Context w6 0 := ⟨by decide +kernel, closed_w6, unweighted_w6.valueWeights⟩

theorem endpoint_mem {h : Heap} {x v : Ref} : Endpoint h x v ↔ some v ∈ h.inducedSubset x := by
  unfold Endpoint Heap.inducedSubset
  rw [List.mem_map]

theorem noLoops_u6 : NoLoops u6 0 := by
  intro x hx v hv
  have hx' : u6.subEdges 0 = [3] := by decide +kernel
  rw [hx'] at hx
  simp only [List.mem_singleton] at hx
  subst hx
  have hi : u6.inducedSubset 3 = [some 1, some 2] := by decide +kernel
  rw [endpoint_mem, hi] at hv
  simp only [List.mem_cons, Option.some.injEq, List.not_mem_nil, or_false] at hv
  rcases hv with rfl | rfl
  · exact ⟨2, by decide, endpoint_mem.2 (by rw [hi]; simp)⟩
  · exact ⟨1, by decide, endpoint_mem.2 (by rw [hi]; simp)⟩

end Sample

/-- The hypotheses of C34, C36, C37 are met, with one edge of two nodes. -/
example : ∃ T, TensorOf u6 0 T ∧ T.W 0 0 1 = 1 ∧ T.degree 0 = 1 := by
  obtain ⟨T, hT⟩ := C34_converts reach_u6 context_u6
  refine ⟨T, hT, ?_, ?_⟩
  · refine (C34_undirected reach_u6 context_u6 unweighted_u6 undirected_u6 hT (e := 0) (i := 0) (j := 1)
      (x := 3) (v := 1) (u := 2) (by decide +kernel) (by decide +kernel) (by decide +kernel)).1 ?_
    decide +kernel
  · rw [(C37_degree reach_u6 context_u6 unweighted_u6 undirected_u6 noLoops_u6 hT).1 0 1 (by decide +kernel)]
    have : edgesAt u6 0 1 = 1 := by decide +kernel
    rw [this]; norm_num

/-- **C35 refuted**: two incoming endpoints of an edge are linked both ways, although none of them is
outgoing. -/
theorem C35_two_incoming_refuted : ∃ (E : Env) (h : Heap) (c x v u : Ref) (T : Tensors), Reach E h ∧
    Context h c ∧ Unweighted h c ∧ TensorOf h c T ∧ (h.subEdges c)[0]? = some x ∧
    (h.subNodes c)[0]? = some v ∧ (h.subNodes c)[1]? = some u ∧
    ¬ OutEndpoint h x u ∧ ¬ OutEndpoint h x v ∧ T.W 0 0 1 = 1 ∧ T.W 0 1 0 = 1 := by
  obtain ⟨T, hT⟩ := C34_converts reach_w6 context_w6
  refine ⟨E0, w6, 0, 3, 1, 2, T, reach_w6, context_w6, unweighted_w6, hT, by decide +kernel,
    by decide +kernel, by decide +kernel, by decide +kernel, by decide +kernel, ?_, ?_⟩
  · exact (C35_exact_partial reach_w6 context_w6 unweighted_w6 hT (x := 3) (v := 1) (u := 2)
      (by decide +kernel) (by decide +kernel) (by decide +kernel)).1.2 (by decide +kernel)
  · exact (C35_exact_partial reach_w6 context_w6 unweighted_w6 hT (x := 3) (v := 2) (u := 1)
      (by decide +kernel) (by decide +kernel) (by decide +kernel)).1.2 (by decide +kernel)

/-- **C38 refuted**: for a single edge with two endpoints the sum of the edge-wise Laplacians differs from
the projected Laplacian. -/
theorem C38_two_endpoints_refuted : ∃ (E : Env) (h : Heap) (c : Ref) (T : Tensors), Reach E h ∧
    Context h c ∧ Unweighted h c ∧ Undirected h c ∧ NoLoops h c ∧ TensorOf h c T ∧
    ∃ L, T.laplacian = .ok L ∧ sumTo T.ne (fun e => L e 0 0) ≠ T.projectedLaplacian 0 0 := by
  obtain ⟨T, hT⟩ := C34_converts reach_u6 context_u6
  have En := hT.entries reach_u6 context_u6
  have hne : T.ne ≠ 0 := by
    rw [En.ne]; decide +kernel
  obtain ⟨L, hL⟩ : ∃ L, T.laplacian = .ok L := by
    unfold Tensors.laplacian Tensors.diagDegreeTensor
    rw [if_neg hne]
    exact ⟨_, rfl⟩
  refine ⟨E0, u6, 0, T, reach_u6, context_u6, unweighted_u6, undirected_u6, noLoops_u6, hT, L, hL, ?_⟩
  rw [Ne, C38_diagonal_partial reach_u6 context_u6 unweighted_u6 undirected_u6 noLoops_u6 hT hL
    (i := 0) (v := 1) (by decide +kernel)]
  decide +kernel

end Rei
