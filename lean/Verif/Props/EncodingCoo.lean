import Verif.Props.EncodingTensor
import Verif.Props.HyperTraversal
import Verif.Props.TensorState

/-!
# C112: the coordinate lists of a message
-/
namespace Rei
open Sample

/-! ## Traversals with another numbering -/

/-- An entry under other indices. -/
def Entry.ren (f g : Nat → Nat) (t : Entry) : Entry := ⟨f t.n0, f t.n1, g t.e, t.w⟩

theorem nodeIds_ren {h : Heap} {m : IndexHom} {c x : Ref} {f : Nat → Nat} (hx : (h.get x).kind = .edge)
    (hcl : ∀ r ∈ h.subRelations x, ∃ v ∈ h.subNodes c, (h.get r).endpoint = some v)
    (hidx : ∀ v ∈ h.subNodes c, m.nodes.index (h.get v).uuid = .ok (f (posIn (h.subNodes c) v))) :
    nodeIds h m x = .ok (((h.subRelations x).filterMap fun q => (h.get q).endpoint).map
      fun v => f (posIn (h.subNodes c) v)) := by
  unfold nodeIds Heap.inducedSubset
  rw [if_pos hx]
  generalize h.subRelations x = rs at *
  induction rs with
  | nil => rfl
  | cons r rs ih =>
    obtain ⟨v, hv, e⟩ := hcl r (by simp)
    rw [List.map_cons, List.mapM_cons, e]
    simp only [hidx v hv]
    rw [ih fun q hq => hcl q (by simp [hq])]
    simp only [List.filterMap_cons, e, List.map_cons]
    rfl

theorem relationBatches_ren {h : Heap} {m : IndexHom} {c x r : Ref} {f g : Nat → Nat} (hx : (h.get x).kind = .edge)
    (hp : (h.get r).parent = some x) (hr : r ∈ h.subRelations x) (hxc : x ∈ h.subEdges c)
    (hcl : ∀ r ∈ h.subRelations x, ∃ v ∈ h.subNodes c, (h.get r).endpoint = some v)
    (hw : ∀ v, (h.get r).weight = some v → (h.get v).kind = .value)
    (finj : ∀ u ∈ h.subNodes c, ∀ v ∈ h.subNodes c, f (posIn (h.subNodes c) u) = f (posIn (h.subNodes c) v) → u = v)
    (hidx : ∀ v ∈ h.subNodes c, m.nodes.index (h.get v).uuid = .ok (f (posIn (h.subNodes c) v)))
    (hide : ∀ v ∈ h.subEdges c, m.edges.index (h.get v).uuid = .ok (g (posIn (h.subEdges c) v))) :
    relationBatches h m r = .ok ((batchesOf h c x r).map fun b => b.map (Entry.ren f g)) := by
  unfold relationBatches batchesOf
  obtain ⟨v, hv, e⟩ := hcl r hr
  rw [hp, e]
  simp only [hide x hxc, relationWeight_eq hw, hidx v hv]
  change fillRelations h m _ _ _ x = _
  unfold fillRelations
  rw [nodeIds_ren hx hcl hidx]
  have ff : ((h.subRelations x).filterMap fun q => (h.get q).endpoint).filter
        (fun u => decide (f (posIn (h.subNodes c) u) ≠ f (posIn (h.subNodes c) v))) =
      ((h.subRelations x).filterMap fun q => (h.get q).endpoint).filter
        (fun u => decide (posIn (h.subNodes c) u ≠ posIn (h.subNodes c) v)) := by
    refine List.filter_congr fun u hu => ?_
    obtain ⟨q, hq, eq⟩ := List.mem_filterMap.1 hu
    obtain ⟨u', hu', eu⟩ := hcl q hq
    rw [eq] at eu; cases eu
    refine decide_eq_decide.2 (not_congr ⟨fun k => ?_, fun k => by rw [k]⟩)
    rw [finj u hu' v hv k]
  simp only [ne_eq, decide_not] at ff
  by_cases h1 : (h.get r).direction.isIn <;> by_cases h2 : (h.get r).direction.isOut <;>
    by_cases h3 : weightOf h r = 0 <;>
    simp [h1, h2, h3, bind, Except.bind, List.filter_map, Function.comp_def, Entry.ren] <;>
    simp [ff]

/-- A traversal of a context none of whose relations leads to a node with further relations inside. -/
theorem hyperExecute_shallow {E : Env} {h : Heap} (R : Reach E h) {c : Ref} (K : Context h c) (hsh : Shallow h c)
    {m : IndexHom} {F : Ref → List (List Entry)} (hF : ∀ r, RelationIn h c r → relationBatches h m r = .ok (F r)) :
    ∃ N, ∀ budget ≥ N, ∀ depth : Option Nat,
      hyperExecute h m depth budget c [] = (.ok (), (relationsUnder h c).flatMap F, []) := by
  have hin : ∀ r ∈ relationsUnder h c, RelationIn h c r := fun r hr => by
    obtain ⟨x, hx, hr⟩ := List.mem_flatMap.1 hr
    exact ⟨x, hx, hr⟩
  let vs := ends h (relationsUnder h c)
  have node : ∀ x ∈ vs, (h.get x).kind = .node := fun x hx => by
    obtain ⟨r, hr, e⟩ := List.mem_flatMap.1 hx
    obtain ⟨v, hv, e'⟩ := K.closed r (hin r hr)
    rw [e'] at e
    simp only [Option.toList_some, List.mem_singleton] at e
    rw [e]
    exact of_decide_eq_true (List.mem_filter.1 hv).2
  have none_under : vs.flatMap (relationsUnder h) = [] := by
    rw [List.flatMap_eq_nil_iff]
    intro x hx
    obtain ⟨r, hr, e⟩ := List.mem_flatMap.1 hx
    exact hsh r (hin r hr) x (by simpa using e)
  refine ⟨1 + ((h.subEdges c).length + ((relationsUnder h c).length +
    (vs.length + ((vs.flatMap h.subEdges).length + 1)))), fun budget hb depth => ?_⟩
  obtain ⟨b, rfl⟩ : ∃ b, budget = 1 + ((h.subEdges c).length + ((relationsUnder h c).length +
      (vs.length + ((vs.flatMap h.subEdges).length + (0 + (b + 1)))))) :=
    ⟨budget - (1 + ((h.subEdges c).length + ((relationsUnder h c).length + (vs.length + ((vs.flatMap h.subEdges).length + 1))))),
      by omega⟩
  rw [walk_context R K.node hF]
  by_cases dp : deeper depth 0 = true
  · rw [if_pos dp]
    have := walk_round (B := relationBatches h m) (max := depth) F vs node (by rw [none_under]; simp) 1 (b + 1)
      ((relationsUnder h c).flatMap F)
    rw [none_under, List.length_nil] at this
    refine this.trans ?_
    simp [ends, walk]
  · rw [if_neg dp, show vs.length + ((vs.flatMap h.subEdges).length + (0 + (b + 1))) =
      vs.length + ((vs.flatMap h.subEdges).length + b) + 1 by omega, walk]

/-! ## Reading a list -/

theorem read_last {ts : List Entry} {P : Entry → Prop} {w : Rat} (L : LastEntry ts P w 0) (k : Entry → Coo)
    (kw : ∀ t, (k t).w = t.w) (p : Coo → Bool) (hp : ∀ t ∈ ts, p (k t) = true ↔ P t) :
    (((ts.map k).filter p).getLast?.map Coo.w).getD 0 = w := by
  rcases L with ⟨l1, t, l2, rfl, ht, hl, rfl⟩ | ⟨hn, rfl⟩
  · have e2 : (l2.map k).filter p = [] := by
      rw [List.filter_eq_nil_iff]
      intro s hs
      obtain ⟨q, hq, rfl⟩ := List.mem_map.1 hs
      exact fun k' => hl q hq ((hp q (by simp [hq])).1 k')
    have e1 : p (k t) = true := (hp t (by simp)).2 ht
    rw [List.map_append, List.map_cons, List.filter_append, List.filter_cons, if_pos e1, e2]
    simp [kw]
  · have e2 : (ts.map k).filter p = [] := by
      rw [List.filter_eq_nil_iff]
      intro s hs
      obtain ⟨q, hq, rfl⟩ := List.mem_map.1 hs
      exact fun k' => hn q hq ((hp q hq).1 k')
    simp [e2]

/-! ## The entries of a context -/

/-- The calls for a relation, by position. -/
noncomputable def callsOf (h : Heap) (c r : Ref) : List (List Entry) :=
  match (h.get r).parent with
  | some x => batchesOf h c x r
  | none => []

/-- The entries of a context, by position. -/
noncomputable def entriesOf (h : Heap) (c : Ref) : List Entry := ((relationsUnder h c).flatMap (callsOf h c)).flatten

theorem mem_entriesOf {E : Env} {h : Heap} (R : Reach E h) {c : Ref} (K : Context h c) {t : Entry} (ht : t ∈ entriesOf h c) :
    t.e < (h.subEdges c).length ∧ t.n0 < (h.subNodes c).length ∧ t.n1 < (h.subNodes c).length := by
  obtain ⟨b, hb, ht⟩ := List.mem_flatten.1 ht
  obtain ⟨r, hr, hb⟩ := List.mem_flatMap.1 hb
  obtain ⟨x, hx, hr⟩ := List.mem_flatMap.1 hr
  have hp : (h.get r).parent = some x := ((C01_containment_agrees R x).1 r).1 (List.mem_filter.1 hr).1
  obtain ⟨v, hv, ev⟩ := K.closed r ⟨x, hx, hr⟩
  unfold callsOf at hb
  rw [hp] at hb
  obtain ⟨e, -, -, u, ⟨q, hq, eq⟩, -, k⟩ := (mem_batchesOf ev t).1 (List.mem_flatten.2 ⟨b, hb, ht⟩)
  obtain ⟨u', hu', eu⟩ := K.closed q ⟨x, hx, hq⟩
  rw [eq] at eu; cases eu
  have hlt : ∀ {l : List Ref} {v : Ref}, v ∈ l → posIn l v < l.length := fun {l v} hv => List.idxOf_lt_length_of_mem hv
  refine ⟨by rw [e]; exact hlt hx, ?_⟩
  rcases k with ⟨-, e0, e1⟩ | ⟨-, e0, e1⟩ <;> rw [e0, e1]
  · exact ⟨hlt hv, hlt hu'⟩
  · exact ⟨hlt hu', hlt hv⟩

/-- The conversion of a context reads its entries. -/
theorem tensor_entriesOf {E : Env} {h : Heap} (R : Reach E h) {c : Ref} (K : Context h c) {T : Tensors} (hT : TensorOf h c T) :
    (∀ a b d, LastEntry (entriesOf h c) (fun t => a = t.e ∧ b = t.n0 ∧ d = t.n1) (T.W a b d) 0) ∧
    (∀ a b, LastEntry (entriesOf h c) (fun t => a = t.e ∧ b = t.n0) (T.Io a b) 0) ∧
    (∀ a b, LastEntry (entriesOf h c) (fun t => a = t.e ∧ b = t.n1) (T.Ii a b) 0) := by
  obtain ⟨budget, hb, e⟩ := hT
  have hC := C01_containment_agrees R
  have hhb : HomBudget h 1 true budget c := by
    unfold HomBudget
    simp only [breadthFirst_one]
    refine ⟨hb.1, ?_, hb.2.1⟩
    have : ((h.subelements c).filter (isEdge h)).length = (h.subEdges c).length := rfl
    have := hb.2.2; omega
  obtain ⟨m, em, Nn, Ne, _⟩ := C33_insertion_order R {} c hhb
  have nn : ((h.subNodes c).map fun x => (h.get x).uuid).Nodup := sub_uuid_nodup R c _
  have ne : ((h.subEdges c).map fun x => (h.get x).uuid).Nodup := sub_uuid_nodup R c _
  have hF : ∀ r, RelationIn h c r → relationBatches h m r = .ok (callsOf h c r) := by
    rintro r ⟨x, hx, hr⟩
    have hp : (h.get r).parent = some x := ((hC x).1 r).1 (List.mem_filter.1 hr).1
    unfold callsOf
    rw [hp]
    exact relationBatches_eq (of_decide_eq_true (List.mem_filter.1 hx).2) hp hr hx (fun q hq => K.closed q ⟨x, hx, hq⟩)
      (K.weights r ⟨x, hx, hr⟩) (fun v hv => index_iff Nn nn (posIn_getElem? hv)) (fun v hv => index_iff Ne ne (posIn_getElem? hv))
  obtain ⟨b, rfl⟩ : ∃ b, budget = 1 + ((h.subEdges c).length + ((relationsUnder h c).length + (b + 1))) := by
    have := hb.2.2
    have k : ((h.subEdges c).flatMap h.subRelations).length = (relationsUnder h c).length := rfl
    exact ⟨budget - (1 + ((h.subEdges c).length + ((relationsUnder h c).length + 1))), by omega⟩
  have run := walk_context R K.node hF (some 1) (b + 1)
  rw [if_neg (by decide), walk] at run
  have cn : m.nodes.cnt = (h.subNodes c).length := by rw [Nn.cnt, List.length_map]
  have ce : m.edges.cnt = (h.subEdges c).length := by rw [Ne.cnt, List.length_map]
  obtain ⟨T', e', -, -, hW, hO, hI⟩ := fill_all (Tensors.zeros m.edges.cnt m.nodes.cnt) (entriesOf h c) (by
    intro t ht
    have := mem_entriesOf R K ht
    simp only [Tensors.zeros, cn, ce]
    exact this)
  unfold tensorExecute at e
  rw [em] at e
  simp only [run] at e
  have e2 : (synchronize none m).fillWeights ((relationsUnder h c).flatMap (callsOf h c)) = .ok T' := e'
  rw [e2] at e
  have : T' = T := Except.ok.inj (congrArg Prod.fst e)
  subst this
  exact ⟨hW, hO, hI⟩

theorem entriesOf_weight {E : Env} {h : Heap} (R : Reach E h) {c : Ref} (K : Context h c) {t : Entry} (ht : t ∈ entriesOf h c) :
    t.w ≠ 0 := by
  obtain ⟨b, hb, ht⟩ := List.mem_flatten.1 ht
  obtain ⟨r, hr, hb⟩ := List.mem_flatMap.1 hb
  obtain ⟨x, hx, hr⟩ := List.mem_flatMap.1 hr
  have hp : (h.get r).parent = some x := ((C01_containment_agrees R x).1 r).1 (List.mem_filter.1 hr).1
  obtain ⟨v, hv, ev⟩ := K.closed r ⟨x, hx, hr⟩
  unfold callsOf at hb
  rw [hp] at hb
  obtain ⟨-, e, n, -⟩ := (mem_batchesOf ev t).1 (List.mem_flatten.2 ⟨b, hb, ht⟩)
  rw [e]; exact n

/-- An entry of the coordinate lists under the indices `f`, `g`. -/
def Entry.coo (f g : Nat → Nat) (t : Entry) : Coo := ⟨g t.e, f t.n0, f t.n1, t.w⟩

/-- The indices of the context's nodes in the numbering of `update_context`. -/
def nodeIx (h : Heap) (c : Ref) (i : Nat) : Nat :=
  (((h.subNodes c)[i]?).map fun v => (contextHom h c).nodes.at (h.get v).uuid).getD 0
/-- The indices of the context's edges in the numbering of `update_context`. -/
def edgeIx (h : Heap) (c : Ref) (i : Nat) : Nat :=
  (((h.subEdges c)[i]?).map fun v => (contextHom h c).edges.at (h.get v).uuid).getD 0

theorem ix_inj {h : Heap} {l : List Ref} {k : IndexMap} (nd : (l.map fun x => (h.get x).uuid).Nodup)
    (sound : ∀ u i, k.idx.get? u = some i → k.uid.get? i = some u)
    (has : ∀ x ∈ l, ∃ i, k.idx.get? (h.get x).uuid = some i) {i j : Nat} (hi : i < l.length) (hj : j < l.length)
    (e : ((l[i]?).map fun v => k.at (h.get v).uuid).getD 0 = ((l[j]?).map fun v => k.at (h.get v).uuid).getD 0) : i = j := by
  rw [List.getElem?_eq_getElem hi, List.getElem?_eq_getElem hj] at e
  simp only [Option.map_some, Option.getD_some] at e
  obtain ⟨a, ha⟩ := has _ (List.getElem_mem hi)
  obtain ⟨b, hb⟩ := has _ (List.getElem_mem hj)
  simp only [IndexMap.at, ha, hb, Option.getD_some] at e
  subst e
  have := sound _ _ ha
  rw [sound _ _ hb] at this
  have k := Option.some.inj this
  have hi' : i < (l.map fun x => (h.get x).uuid).length := by simpa using hi
  have hj' : j < (l.map fun x => (h.get x).uuid).length := by simpa using hj
  exact (List.getElem_inj (h₀ := hi') (h₁ := hj') nd).1 (by simpa using k.symm)

section
variable {E : Env} {h : Heap} {c : Ref}

theorem nodeIx_inj (R : Reach E h) (S : Sendable h c) {i j : Nat} (hi : i < (h.subNodes c).length)
    (hj : j < (h.subNodes c).length) (e : nodeIx h c i = nodeIx h c j) : i = j :=
  ix_inj (sub_uuid_nodup R c _) (fun u i => numbering_sound _ u i) (fun x hx => (hom_has S).1 x (List.mem_cons_of_mem _ hx)) hi hj e

theorem edgeIx_inj (R : Reach E h) (S : Sendable h c) {i j : Nat} (hi : i < (h.subEdges c).length)
    (hj : j < (h.subEdges c).length) (e : edgeIx h c i = edgeIx h c j) : i = j :=
  ix_inj (sub_uuid_nodup R c _) (fun u i => numbering_sound _ u i) (fun x hx => (hom_has S).2.1 x hx) hi hj e

theorem nodeIx_index (S : Sendable h c) {i : Nat} {v : Ref} (hv : (h.subNodes c)[i]? = some v) :
    (contextHom h c).nodes.index (h.get v).uuid = .ok (nodeIx h c i) := by
  obtain ⟨a, ha⟩ := (hom_has S).1 v (by simp [List.mem_of_getElem? hv])
  simp only [nodeIx, hv, Option.map_some, Option.getD_some, IndexMap.index, IndexMap.at, contextHom, ha]

theorem edgeIx_index (S : Sendable h c) {i : Nat} {v : Ref} (hv : (h.subEdges c)[i]? = some v) :
    (contextHom h c).edges.index (h.get v).uuid = .ok (edgeIx h c i) := by
  obtain ⟨a, ha⟩ := (hom_has S).2.1 v (List.mem_of_getElem? hv)
  simp only [edgeIx, hv, Option.map_some, Option.getD_some, IndexMap.index, IndexMap.at, contextHom, ha]

/-- What `update_coo` appends. -/
theorem updateCoo_ok (R : Reach E h) (S : Sendable h c) (K : Context h c) (hsh : Shallow h c) :
    ∃ N, ∀ budget ≥ N, ∀ I : Icon, I.context = c → I.updateCoo (contextHom h c) h budget [] =
      (.ok (), { I with coo := I.coo ++ (entriesOf h c).map (Entry.coo (nodeIx h c) (edgeIx h c)) }, []) := by
  have hC := C01_containment_agrees R
  have hF : ∀ r, RelationIn h c r → relationBatches h (contextHom h c) r =
      .ok ((callsOf h c r).map fun b => b.map (Entry.ren (nodeIx h c) (edgeIx h c))) := by
    rintro r ⟨x, hx, hr⟩
    have hp : (h.get r).parent = some x := ((hC x).1 r).1 (List.mem_filter.1 hr).1
    unfold callsOf
    rw [hp]
    refine relationBatches_ren (of_decide_eq_true (List.mem_filter.1 hx).2) hp hr hx (fun q hq => K.closed q ⟨x, hx, hq⟩)
      (K.weights r ⟨x, hx, hr⟩) ?_ (fun v hv => nodeIx_index S (posIn_getElem? hv)) (fun v hv => edgeIx_index S (posIn_getElem? hv))
    intro u hu v hv e
    exact posIn_inj hu hv (nodeIx_inj R S (List.idxOf_lt_length_of_mem hu) (List.idxOf_lt_length_of_mem hv) e)
  obtain ⟨N, hN⟩ := hyperExecute_shallow R K hsh hF
  refine ⟨N, fun budget hb I hI => ?_⟩
  unfold Icon.updateCoo
  rw [hI, hN budget hb none]
  simp only
  congr 3
  unfold entriesOf
  rw [← List.map_flatMap, ← List.map_flatten, List.map_map]
  rfl

theorem read_append {ts : List Entry} {P : Entry → Prop} {w : Rat} (L : LastEntry ts P w 0) (k : Entry → Coo)
    (kw : ∀ t, (k t).w = t.w) (p : Coo → Bool) (hp : ∀ t ∈ ts, p (k t) = true ↔ P t) (A : List Coo)
    (hA : (∀ t ∈ ts, ¬ P t) → ∀ t ∈ A, p t = false) :
    (((A ++ ts.map k).filter p).getLast?.map Coo.w).getD 0 = w := by
  by_cases q : ∀ t ∈ ts, ¬ P t
  · rw [List.filter_append, List.filter_eq_nil_iff.2 fun t ht => by simp [hA q t ht], List.nil_append]
    exact read_last L k kw p hp
  · simp only [not_forall, not_not] at q
    obtain ⟨t, ht, hP⟩ := q
    have ne : (ts.map k).filter p ≠ [] := by
      intro z
      exact List.filter_eq_nil_iff.1 z (k t) (List.mem_map_of_mem ht) ((hp t ht).2 hP)
    rw [List.filter_append, List.getLast?_append_of_ne_nil _ ne]
    exact read_last L k kw p hp

theorem encoded_edge (m : IndexHom) (coo : List Coo) {e : Nat} {X : EdgeMsg} (hX : (encoded h m c coo).edges[e]? = some X) :
    ∃ x, (h.subEdges c)[e]? = some x ∧ X.index = m.edges.at (h.get x).uuid := by
  unfold encoded at hX
  simp only [List.getElem?_map] at hX
  cases k : (h.subEdges c)[e]? with
  | none => rw [k] at hX; cases hX
  | some x => rw [k] at hX; cases hX; exact ⟨x, rfl, rfl⟩

theorem encoded_node (m : IndexHom) (coo : List Coo) {e : Nat} {X : NodeMsg} (hX : (encoded h m c coo).nodes[e + 1]? = some X) :
    ∃ x, (h.subNodes c)[e]? = some x ∧ X.index = m.nodes.at (h.get x).uuid := by
  unfold encoded at hX
  simp only [List.getElem?_map, List.getElem?_cons_succ] at hX
  cases k : (h.subNodes c)[e]? with
  | none => rw [k] at hX; cases hX
  | some x => rw [k] at hX; cases hX; exact ⟨x, rfl, rfl⟩

theorem coordinates (R : Reach E h) (S : Sendable h c) (K : Context h c) {T : Tensors} (hT : TensorOf h c T) {A : List Coo}
    (hA : Current h c (contextHom h c) T A) {msg : FullMsg}
    (hn : msg.nodes = (encoded h (contextHom h c) c []).nodes) (he : msg.edges = (encoded h (contextHom h c) c []).edges)
    (hc : msg.coo = A ++ (entriesOf h c).map (Entry.coo (nodeIx h c) (edgeIx h c))) : CoordinatesOf msg T := by
  obtain ⟨hW, hO, hI⟩ := tensor_entriesOf R K hT
  have En := hT.entries R K
  have ixe : ∀ {e : Nat} {X : EdgeMsg}, msg.edges[e]? = some X → e < (h.subEdges c).length ∧ X.index = edgeIx h c e := by
    intro e X hX
    rw [he] at hX
    obtain ⟨x, hx, e'⟩ := encoded_edge _ _ hX
    exact ⟨(List.getElem?_eq_some_iff.1 hx).1, by rw [e']; simp [edgeIx, hx]⟩
  have ixn : ∀ {e : Nat} {X : NodeMsg}, msg.nodes[e + 1]? = some X → e < (h.subNodes c).length ∧ X.index = nodeIx h c e := by
    intro e X hX
    rw [hn] at hX
    obtain ⟨x, hx, e'⟩ := encoded_node _ _ hX
    exact ⟨(List.getElem?_eq_some_iff.1 hx).1, by rw [e']; simp [nodeIx, hx]⟩
  have old : ∀ t ∈ A, ∃ e i j, e < (h.subEdges c).length ∧ i < (h.subNodes c).length ∧ j < (h.subNodes c).length ∧
      t.e = edgeIx h c e ∧ t.n = nodeIx h c i ∧ t.m = nodeIx h c j ∧ T.W e i j ≠ 0 := by
    intro t ht
    obtain ⟨e, i, j, x, v, u, a1, a2, a3, b1, b2, b3, w⟩ := hA t ht
    rw [edgeIx_index S a1] at b1
    rw [nodeIx_index S a2] at b2
    rw [nodeIx_index S a3] at b3
    exact ⟨e, i, j, (List.getElem?_eq_some_iff.1 a1).1, (List.getElem?_eq_some_iff.1 a2).1, (List.getElem?_eq_some_iff.1 a3).1,
      (Except.ok.inj b1).symm, (Except.ok.inj b2).symm, (Except.ok.inj b3).symm, w⟩
  have nz : ∀ {e i j}, T.W e i j ≠ 0 → ∃ t ∈ entriesOf h c, e = t.e ∧ i = t.n0 ∧ j = t.n1 := by
    intro e i j w
    rcases hW e i j with ⟨l1, t, l2, e', p, -, -⟩ | ⟨-, z⟩
    · exact ⟨t, by rw [e']; simp, p⟩
    · exact absurd z w
  refine ⟨?_, ?_, ?_, ?_, ?_, ?_⟩
  · rw [he, En.ne]; simp [encoded]
  · rw [hn, En.nn]; simp [encoded]
  · intro e i j x v u hx hv hu
    obtain ⟨le, ee⟩ := ixe hx
    obtain ⟨li, ei⟩ := ixn hv
    obtain ⟨lj, ej⟩ := ixn hu
    rw [ee, ei, ej, hc]
    refine read_append (hW e i j) _ (fun _ => rfl) _ (fun t ht => ?_) A (fun none t ht => ?_)
    · obtain ⟨r1, r2, r3⟩ := mem_entriesOf R K ht
      constructor
      · intro p
        obtain ⟨p1, p2, p3⟩ := of_decide_eq_true p
        exact ⟨(edgeIx_inj R S r1 le p1).symm, (nodeIx_inj R S r2 li p2).symm, (nodeIx_inj R S r3 lj p3).symm⟩
      · rintro ⟨rfl, rfl, rfl⟩; exact decide_eq_true ⟨rfl, rfl, rfl⟩
    · obtain ⟨e', i', j', r1, r2, r3, q1, q2, q3, w⟩ := old t ht
      rw [decide_eq_false_iff_not]
      rintro ⟨p1, p2, p3⟩
      obtain rfl := edgeIx_inj R S r1 le (q1.symm.trans p1)
      obtain rfl := nodeIx_inj R S r2 li (q2.symm.trans p2)
      obtain rfl := nodeIx_inj R S r3 lj (q3.symm.trans p3)
      obtain ⟨t, ht, p⟩ := nz w
      exact none t ht p
  · intro e i x v hx hv
    obtain ⟨le, ee⟩ := ixe hx
    obtain ⟨li, ei⟩ := ixn hv
    rw [ee, ei, hc]
    refine read_append (hO e i) _ (fun _ => rfl) _ (fun t ht => ?_) A (fun none t ht => ?_)
    · obtain ⟨r1, r2, r3⟩ := mem_entriesOf R K ht
      constructor
      · intro p
        obtain ⟨p1, p2⟩ := of_decide_eq_true p
        exact ⟨(edgeIx_inj R S r1 le p1).symm, (nodeIx_inj R S r2 li p2).symm⟩
      · rintro ⟨rfl, rfl⟩; exact decide_eq_true ⟨rfl, rfl⟩
    · obtain ⟨e', i', j', r1, r2, r3, q1, q2, q3, w⟩ := old t ht
      rw [decide_eq_false_iff_not]
      rintro ⟨p1, p2⟩
      obtain rfl := edgeIx_inj R S r1 le (q1.symm.trans p1)
      obtain rfl := nodeIx_inj R S r2 li (q2.symm.trans p2)
      obtain ⟨t, ht, p⟩ := nz w
      exact none t ht ⟨p.1, p.2.1⟩
  · intro e i x v hx hv
    obtain ⟨le, ee⟩ := ixe hx
    obtain ⟨li, ei⟩ := ixn hv
    rw [ee, ei, hc]
    refine read_append (hI e i) _ (fun _ => rfl) _ (fun t ht => ?_) A (fun none t ht => ?_)
    · obtain ⟨r1, r2, r3⟩ := mem_entriesOf R K ht
      constructor
      · intro p
        obtain ⟨p1, p2⟩ := of_decide_eq_true p
        exact ⟨(edgeIx_inj R S r1 le p1).symm, (nodeIx_inj R S r3 li p2).symm⟩
      · rintro ⟨rfl, rfl⟩; exact decide_eq_true ⟨rfl, rfl⟩
    · obtain ⟨e', i', j', r1, r2, r3, q1, q2, q3, w⟩ := old t ht
      rw [decide_eq_false_iff_not]
      rintro ⟨p1, p2⟩
      obtain rfl := edgeIx_inj R S r1 le (q1.symm.trans p1)
      obtain rfl := nodeIx_inj R S r3 li (q3.symm.trans p2)
      obtain ⟨t, ht, p⟩ := nz w
      exact none t ht ⟨p.1, p.2.2⟩
  · intro t ht
    have fin : ∀ {e i j}, e < (h.subEdges c).length → i < (h.subNodes c).length → j < (h.subNodes c).length →
        t.e = edgeIx h c e → t.n = nodeIx h c i → t.m = nodeIx h c j →
        ∃ (e i j : Nat) (x : EdgeMsg) (v u : NodeMsg), msg.edges[e]? = some x ∧ msg.nodes[i + 1]? = some v ∧
          msg.nodes[j + 1]? = some u ∧ t.e = x.index ∧ t.n = v.index ∧ t.m = u.index := by
      intro e i j le li lj p1 p2 p3
      have l1 : e < msg.edges.length := by rw [he]; simpa [encoded] using le
      have l2 : i + 1 < msg.nodes.length := by rw [hn]; simpa [encoded] using li
      have l3 : j + 1 < msg.nodes.length := by rw [hn]; simpa [encoded] using lj
      have g1 := List.getElem?_eq_getElem l1
      have g2 := List.getElem?_eq_getElem l2
      have g3 := List.getElem?_eq_getElem l3
      exact ⟨e, i, j, _, _, _, g1, g2, g3, by rw [p1, (ixe g1).2], by rw [p2, (ixn g2).2], by rw [p3, (ixn g3).2]⟩
    rw [hc] at ht
    rcases List.mem_append.1 ht with ht | ht
    · obtain ⟨e, i, j, r1, r2, r3, q1, q2, q3, -⟩ := old t ht
      exact fin r1 r2 r3 q1 q2 q3
    · obtain ⟨s, hs, rfl⟩ := List.mem_map.1 ht
      obtain ⟨r1, r2, r3⟩ := mem_entriesOf R K hs
      exact fin r1 r2 r3 rfl rfl rfl

/-- The entries a traversal appends are current. -/
theorem current_append (R : Reach E h) (S : Sendable h c) (K : Context h c) {T : Tensors} (hT : TensorOf h c T) {A : List Coo}
    (hA : Current h c (contextHom h c) T A) :
    Current h c (contextHom h c) T (A ++ (entriesOf h c).map (Entry.coo (nodeIx h c) (edgeIx h c))) := by
  obtain ⟨hW, -, -⟩ := tensor_entriesOf R K hT
  intro t ht
  rcases List.mem_append.1 ht with ht | ht
  · exact hA t ht
  · obtain ⟨s, hs, rfl⟩ := List.mem_map.1 ht
    obtain ⟨r1, r2, r3⟩ := mem_entriesOf R K hs
    have g1 := List.getElem?_eq_getElem r1
    have g2 := List.getElem?_eq_getElem r2
    have g3 := List.getElem?_eq_getElem r3
    refine ⟨s.e, s.n0, s.n1, _, _, _, g1, g2, g3, edgeIx_index S g1, nodeIx_index S g2, nodeIx_index S g3, ?_⟩
    rcases hW s.e s.n0 s.n1 with ⟨l1, q, l2, e', -, -, w⟩ | ⟨no, -⟩
    · rw [w]; exact entriesOf_weight R K (by rw [e']; simp)
    · exact absurd ⟨rfl, rfl, rfl⟩ (no s hs)

end

/-! ## C112 -/

/-- **C112, partial.** Take any encoder whose context can be sent and converted, call `update_context`, then `update_coo`: if
what the encoder collected before belongs to entries that are not 0 now (in particular if it is new), the next message's
coordinate lists describe the tensors of the context, with all directions and weights; and what it has collected now is of
that kind, so calling `update_coo` again does not change that. -/
theorem C112_coordinates_partial {E : Env} {h : Heap} (R : Reach E h) (I : Icon) (S : Sendable h I.context)
    (K : Context h I.context) (hsh : Shallow h I.context) {T : Tensors} (hT : TensorOf h I.context T) {budget : Nat}
    (hb : HomBudget h h.size false budget I.context) :
    ∃ I1 m N, I.updateContext h budget I.context [] = (.ok (), I1, []) ∧ I1.hom = some m ∧ I1.coo = I.coo ∧
      ∀ (A : List Coo), Current h I.context m T A → ∀ budget' ≥ N, ∃ I2 I3 msg,
        ({ I1 with coo := A } : Icon).updateCoo m h budget' [] = (.ok (), I2, []) ∧
        Current h I.context m T I2.coo ∧ I2.fullMsg h = (.ok msg, I3) ∧ CoordinatesOf msg T := by
  obtain ⟨N, hN⟩ := updateCoo_ok R S K hsh
  obtain ⟨h1, h2, h3⟩ := hom_has S
  refine ⟨_, contextHom h I.context, N, updateContext_ok R I S.exists_ hb, rfl, rfl, fun A hA budget' hb' => ?_⟩
  refine ⟨_, _, _, hN budget' hb' _ rfl, current_append R S K hT hA, fullMsg_acc (I := { I with hom := some (contextHom h I.context), coo := _ }) (m := contextHom h I.context)
    R S rfl rfl h1 h2 h3, ?_⟩
  exact coordinates R S K hT hA rfl rfl rfl

/-- **C112, exactly when.** If the encoder had collected coordinates with weights other than 0, the next message describes the
tensors exactly when each of them belongs to an entry that is not 0 now. -/
theorem C112_exactly_when {E : Env} {h : Heap} (R : Reach E h) (I : Icon) (S : Sendable h I.context)
    (K : Context h I.context) (hsh : Shallow h I.context) {T : Tensors} (hT : TensorOf h I.context T) {budget : Nat}
    (hb : HomBudget h h.size false budget I.context) (hw : ∀ t ∈ I.coo, t.w ≠ 0) :
    ∃ I1 m N, I.updateContext h budget I.context [] = (.ok (), I1, []) ∧ I1.hom = some m ∧
      ∀ budget' ≥ N, ∃ I2 I3 msg, I1.updateCoo m h budget' [] = (.ok (), I2, []) ∧ I2.fullMsg h = (.ok msg, I3) ∧
        (CoordinatesOf msg T ↔ Current h I.context m T I.coo) := by
  obtain ⟨N, hN⟩ := updateCoo_ok R S K hsh
  obtain ⟨h1, h2, h3⟩ := hom_has S
  refine ⟨_, contextHom h I.context, N, updateContext_ok R I S.exists_ hb, rfl, fun budget' hb' => ?_⟩
  refine ⟨_, _, _, hN budget' hb' _ rfl, fullMsg_acc (I := { I with hom := some (contextHom h I.context), coo := _ })
    (m := contextHom h I.context) R S rfl rfl h1 h2 h3, fun D => ?_, fun hA => coordinates R S K hT hA rfl rfl rfl⟩
  intro t ht
  obtain ⟨e, i, j, x, v, u, gx, gv, gu, q1, q2, q3⟩ := D.only t (List.mem_append_left _ ht)
  obtain ⟨x', hx', ex⟩ := encoded_edge (contextHom h I.context) [] gx
  obtain ⟨v', hv', ev⟩ := encoded_node (contextHom h I.context) [] gv
  obtain ⟨u', hu', eu⟩ := encoded_node (contextHom h I.context) [] gu
  have ix : x.index = edgeIx h I.context e := by rw [ex]; simp [edgeIx, hx']
  have iv : v.index = nodeIx h I.context i := by rw [ev]; simp [nodeIx, hv']
  have iu : u.index = nodeIx h I.context j := by rw [eu]; simp [nodeIx, hu']
  refine ⟨e, i, j, x', v', u', hx', hv', hu', by rw [q1, ix]; exact edgeIx_index S hx', by rw [q2, iv]; exact nodeIx_index S hv',
    by rw [q3, iu]; exact nodeIx_index S hu', ?_⟩
  intro z
  have r := D.W e i j x v u gx gv gu
  rw [z] at r
  have none : ((entriesOf h I.context).map (Entry.coo (nodeIx h I.context) (edgeIx h I.context))).filter
      (fun t => decide (t.e = x.index ∧ t.n = v.index ∧ t.m = u.index)) = [] := by
    rw [List.filter_eq_nil_iff]
    rintro s' hs' p
    obtain ⟨s, hs, rfl⟩ := List.mem_map.1 hs'
    obtain ⟨p1, p2, p3⟩ := of_decide_eq_true p
    obtain ⟨r1, r2, r3⟩ := mem_entriesOf R K hs
    have a1 := edgeIx_inj R S r1 (List.getElem?_eq_some_iff.1 hx').1 (p1.trans ix)
    have a2 := nodeIx_inj R S r2 (List.getElem?_eq_some_iff.1 hv').1 (p2.trans iv)
    have a3 := nodeIx_inj R S r3 (List.getElem?_eq_some_iff.1 hu').1 (p3.trans iu)
    obtain ⟨hW, -, -⟩ := tensor_entriesOf R K hT
    rcases hW e i j with ⟨l1, q, l2, e', -, -, w⟩ | ⟨no, -⟩
    · exact entriesOf_weight R K (t := q) (by rw [e']; simp) (w.symm.trans z)
    · exact no s hs ⟨a1.symm, a2.symm, a3.symm⟩
  replace r : ((((I.coo ++ (entriesOf h I.context).map (Entry.coo (nodeIx h I.context) (edgeIx h I.context))).filter
      (fun t => decide (t.e = x.index ∧ t.n = v.index ∧ t.m = u.index))).getLast?.map Coo.w).getD 0) = 0 := r
  rw [List.filter_append, none, List.append_nil] at r
  have ne : I.coo.filter (fun t => decide (t.e = x.index ∧ t.n = v.index ∧ t.m = u.index)) ≠ [] := by
    intro k
    exact List.filter_eq_nil_iff.1 k t ht (decide_eq_true ⟨q1, q2, q3⟩)
  rw [List.getLast?_eq_some_getLast ne] at r
  simp only [Option.map_some, Option.getD_some] at r
  exact hw _ (List.mem_filter.1 (List.getLast_mem ne)).1 r

/-- A relation whose edge and endpoints are numbered gives its calls. -/
theorem relationBatches_total {h : Heap} {m : IndexHom} {x r v : Ref} (hx : (h.get x).kind = .edge)
    (hp : (h.get r).parent = some x) (ev : (h.get r).endpoint = some v)
    (hw : ∀ w, (h.get r).weight = some w → (h.get w).kind = .value)
    (he : ∃ i, m.edges.index (h.get x).uuid = .ok i) (hv : ∃ i, m.nodes.index (h.get v).uuid = .ok i)
    (hn : ∀ q ∈ h.subRelations x, ∃ u i, (h.get q).endpoint = some u ∧ m.nodes.index (h.get u).uuid = .ok i) :
    ∃ l, relationBatches h m r = .ok l := by
  obtain ⟨a, ha⟩ := he
  obtain ⟨b, hb⟩ := hv
  have ids : ∃ l, nodeIds h m x = .ok l := by
    unfold nodeIds Heap.inducedSubset
    rw [if_pos hx]
    generalize h.subRelations x = rs at *
    induction rs with
    | nil => exact ⟨[], rfl⟩
    | cons q rs ih =>
      obtain ⟨u, i, e, hi⟩ := hn q (by simp)
      obtain ⟨l, hl⟩ := ih fun q hq => hn q (by simp [hq])
      rw [List.map_cons, List.mapM_cons, e]
      simp only [hi]
      rw [hl]
      exact ⟨i :: l, rfl⟩
  obtain ⟨l, hl⟩ := ids
  unfold relationBatches
  rw [hp, ev]
  simp only [ha, hb, relationWeight_eq hw]
  change ∃ l, fillRelations h m _ _ _ x = .ok l
  unfold fillRelations
  rw [hl]
  by_cases h1 : (h.get r).direction.isIn <;> by_cases h2 : (h.get r).direction.isOut <;>
    by_cases h3 : weightOf h r = 0 <;> simp [h1, h2, h3, bind, Except.bind]

/-- **C112, refuted.** A context that can be sent may have a relation that leads to the context itself.  Then `update_coo`
raises `RecursionError` however deep the stack is, and collects nothing. -/
theorem C112_self_refuted {E : Env} {h : Heap} (R : Reach E h) (I : Icon) (S : Sendable h I.context)
    (hvw : ValueWeights h I.context)
    (self : ∃ r, RelationIn h I.context r ∧ (h.get r).endpoint = some I.context)
    (flat : ∀ r, RelationIn h I.context r → ∃ v, (h.get r).endpoint = some v ∧
      (v = I.context ∨ v ∈ h.subNodes I.context ∧ relationsUnder h v = [])) {budget : Nat}
    (hb : HomBudget h h.size false budget I.context) :
    ∃ I1 m, I.updateContext h budget I.context [] = (.ok (), I1, []) ∧ I1.hom = some m ∧
      ∀ budget', (I1.updateCoo m h budget' []).1 = .error .recursionError ∧ (I1.updateCoo m h budget' []).2.1 = I1 := by
  refine ⟨_, contextHom h I.context, updateContext_ok R I S.exists_ hb, rfl, fun budget' => ?_⟩
  obtain ⟨h1, h2, -⟩ := hom_has S
  generalize hc : I.context = c at *
  have rels : ∀ n (vs : List Ref), (∀ v ∈ vs, v = c ∨ v ∈ h.subNodes c ∧ relationsUnder h v = []) →
      ∀ r ∈ rounds h n vs, RelationIn h c r := by
    intro n
    induction n with
    | zero => intro vs _ r hr; simp [rounds] at hr
    | succ n ih =>
      intro vs hvs r hr
      have here : ∀ r ∈ vs.flatMap (relationsUnder h), RelationIn h c r := by
        intro r hr
        obtain ⟨v, hv, hr⟩ := List.mem_flatMap.1 hr
        rcases hvs v hv with rfl | ⟨-, z⟩
        · obtain ⟨x, hx, hr⟩ := List.mem_flatMap.1 hr
          exact ⟨x, hx, hr⟩
        · rw [z] at hr; cases hr
      simp only [rounds] at hr
      rcases List.mem_append.1 hr with hr | hr
      · exact here r hr
      · refine ih _ (fun v hv => ?_) r hr
        obtain ⟨q, hq, e⟩ := List.mem_flatMap.1 hv
        obtain ⟨v', ev, k⟩ := flat q (here q hq)
        rw [ev] at e
        obtain rfl : v = v' := by simpa using e
        exact k
  have again : ∀ n (vs : List Ref), c ∈ vs → c ∈ reachedAfter h n vs := by
    intro n
    induction n with
    | zero => intro vs hv; exact hv
    | succ n ih =>
      intro vs hv
      refine ih _ ?_
      obtain ⟨r, ⟨x, hx, hr⟩, e⟩ := self
      exact List.mem_flatMap.2 ⟨r, List.mem_flatMap.2 ⟨c, hv, List.mem_flatMap.2 ⟨x, hx, hr⟩⟩, by simp [e]⟩
  have ok : ∀ r, RelationIn h c r → ∃ l, relationBatches h (contextHom h c) r = .ok l := by
    rintro r ⟨x, hx, hr⟩
    have hp : (h.get r).parent = some x := ((C01_containment_agrees R x).1 r).1 (List.mem_filter.1 hr).1
    have nd : ∀ q ∈ h.subRelations x, ∃ u i, (h.get q).endpoint = some u ∧ (contextHom h c).nodes.index (h.get u).uuid = .ok i := by
      intro q hq
      obtain ⟨u, eu, k⟩ := flat q ⟨x, hx, hq⟩
      obtain ⟨i, hi⟩ := h1 u (k.elim (fun e => e ▸ List.mem_cons_self) fun k => List.mem_cons_of_mem _ k.1)
      exact ⟨u, i, eu, by simp only [IndexMap.index, contextHom, hi]⟩
    obtain ⟨v, i, ev, hi⟩ := nd r hr
    obtain ⟨a, ha⟩ := h2 x hx
    exact relationBatches_total (of_decide_eq_true (List.mem_filter.1 hx).2) hp ev (hvw r ⟨x, hx, hr⟩)
      ⟨a, by simp only [IndexMap.index, contextHom, ha]⟩ ⟨i, hi⟩ nd
  have run : (hyperExecute h (contextHom h c) none budget' c []).1 = .error .recursionError := by
    unfold hyperExecute
    rw [hyperTraverse_eq_walk]
    refine walk_endless (B := relationBatches h (contextHom h c))
      (fun r => match relationBatches h (contextHom h c) r with | .ok l => l | .error _ => []) 0 [c] []
      (by simpa using S.node) (fun n r hr => ?_) (fun n k => by have := again n [c] (by simp); rw [k] at this; cases this) budget'
    have hr := rels n [c] (by simp) r hr
    obtain ⟨l, hl⟩ := ok r hr
    refine ⟨by rw [hl], fun v ev => ?_⟩
    obtain ⟨v', ev', k⟩ := flat r hr
    rw [ev'] at ev; cases ev
    rcases k with rfl | k
    · exact S.node
    · exact of_decide_eq_true (List.mem_filter.1 k.1).2
  unfold Icon.updateCoo
  simp only [hc]
  rcases k : hyperExecute h (contextHom h c) none budget' c [] with ⟨a, b, d⟩
  rw [k] at run
  simp only at run
  subst run
  exact ⟨rfl, rfl⟩

namespace Sample

theorem shallow_s12 : Shallow s12 0 := forall_relationIn (by decide +kernel)
theorem shallow_u6 : Shallow u6 0 := forall_relationIn (by decide +kernel)

/-- C112 at a directed edge: the message's value list has the direction. -/
theorem C112_case : ∃ I1 m N T, TensorOf s12 0 T ∧ T.W 0 1 0 = 0 ∧
    ({ clock := some .dummy, context := 0 } : Icon).updateContext s12 100 0 [] = (.ok (), I1, []) ∧ I1.hom = some m ∧
    ∀ budget' ≥ N, ∃ I2 I3 msg, I1.updateCoo m s12 budget' [] = (.ok (), I2, []) ∧ I2.fullMsg s12 = (.ok msg, I3) ∧
      CoordinatesOf msg T := by
  obtain ⟨T, hT⟩ := C34_converts reach_s12 context_s12
  obtain ⟨I1, m, N, a, b, c, d⟩ := C112_coordinates_partial reach_s12 { clock := some .dummy, context := 0 } send_s12 context_s12
    shallow_s12 hT budget_s12
  refine ⟨I1, m, N, T, hT, ?_, a, b, fun budget' hb => ?_⟩
  · have L := (hT.entries reach_s12 context_s12).W 0 1 0 3 2 1 (by decide +kernel) (by decide +kernel) (by decide +kernel)
    rcases L with ⟨l1, r, l2, e, k, -⟩ | ⟨-, z⟩
    · exfalso
      have hr : r ∈ s12.subRelations 3 := by rw [e]; simp
      rw [show s12.subRelations 3 = [4, 6] by decide +kernel] at hr
      have no : ∀ r ∈ [4, 6], ¬ (((s12.get r).endpoint = some 2 ∧ (s12.get r).direction.isIn) ∨
        ((s12.get r).endpoint = some 1 ∧ (s12.get r).direction.isOut)) := by decide +kernel
      exact no r hr k.2.2.2.2
    · exact z
  · obtain ⟨I2, I3, msg, x, -, y, z⟩ := d [] (fun t ht => by cases ht) budget' hb
    have e : ({ I1 with coo := [] } : Icon) = I1 := by
      have : I1.coo = [] := c
      cases I1
      simp only at this
      subst this
      rfl
    rw [e] at x
    exact ⟨I2, I3, msg, x, y, z⟩

/-- `u6` without one of the two relations of its edge. -/
def u6r : Heap := (Op.remove 3 [] (some (u6.get 6).uuid) none).after E0 u6

theorem reach_u6r : Reach E0 u6r :=
  Reach.step (.remove 3 [] (some (u6.get 6).uuid) none) reach_u6 (show 3 < u6.size by decide +kernel)
    (show (Op.remove 3 [] (some (u6.get 6).uuid) none).Safe u6 from ⟨by decide +kernel, fun e => absurd rfl e⟩)
theorem closed_u6r : Closed u6r 0 := forall_relationIn (by decide +kernel)
theorem unweighted_u6r : Unweighted u6r 0 := forall_relationIn (by decide +kernel)
theorem context_u6r : Context u6r 0 := ⟨by decide +kernel, closed_u6r, unweighted_u6r.valueWeights⟩
theorem shallow_u6r : Shallow u6r 0 := forall_relationIn (by decide +kernel)
theorem send_u6r : Sendable u6r 0 := by
  refine ⟨by decide +kernel, by decide +kernel, by decide +kernel, by decide +kernel, ?_⟩
  intro e he r hr
  obtain ⟨v, hv, ev⟩ := closed_u6r r ⟨e, he, hr⟩
  exact ⟨v, ev, .inr (.inl hv)⟩

/-- What an encoder collects in `u6`. -/
def collected : List Coo :=
  ((({ clock := some .dummy, context := 0 } : Icon).updateContext u6 100 0 []).2.1.updateCoo (contextHom u6 0) u6 100 []).2.1.coo

/-- C112 at a context with a relation to itself. -/
theorem C112_self_case : ∃ I1 m, ({ clock := some .dummy, context := 0 } : Icon).updateContext c3 100 0 [] = (.ok (), I1, []) ∧
    I1.hom = some m ∧ ∀ budget', (I1.updateCoo m c3 budget' []).1 = .error .recursionError := by
  have rel : RelationIn c3 0 2 := ⟨1, by decide +kernel, by decide +kernel⟩
  have all : ∀ r, RelationIn c3 0 r → (c3.get r).endpoint = some 0 ∧ (c3.get r).weight = none := forall_relationIn (by decide +kernel)
  obtain ⟨I1, m, a, b, d⟩ := C112_self_refuted reach_c3 { clock := some .dummy, context := 0 }
    ⟨by decide +kernel, by decide +kernel, by decide +kernel, by decide +kernel,
      fun e he r hr => ⟨0, (all r ⟨e, he, hr⟩).1, .inl rfl⟩⟩
    (fun r hr v hv => by rw [(all r hr).2] at hv; cases hv) ⟨2, rel, (all 2 rel).1⟩
    (fun r hr => ⟨0, (all r hr).1, .inl rfl⟩)
    (show HomBudget c3 c3.size false 100 0 by refine ⟨?_, ?_, ?_⟩ <;> decide +kernel)
  exact ⟨I1, m, a, b, fun b' => (d b').1⟩

end Sample

/-- The encoder of `C112_stale_refuted`, for any list collected before. -/
theorem stale_u6r (A : List Coo) (hw : ∀ t ∈ A, t.w ≠ 0) (ne : A ≠ []) {T : Tensors} (hT : TensorOf u6r 0 T) (I2 : Icon)
    (hc : I2.context = 0) (hA : I2.coo = A) :
    ∃ I1 m N, I2.updateContext u6r 100 0 [] = (.ok (), I1, []) ∧ I1.hom = some m ∧
      ∀ budget ≥ N, ∃ I3 I4 msg, I1.updateCoo m u6r budget [] = (.ok (), I3, []) ∧ I3.fullMsg u6r = (.ok msg, I4) ∧
        ¬ CoordinatesOf msg T := by
  have hb : HomBudget u6r u6r.size false 100 0 := by refine ⟨?_, ?_, ?_⟩ <;> decide +kernel
  obtain ⟨I1, m, N, a, b, d⟩ := C112_exactly_when reach_u6r I2 (by rw [hc]; exact send_u6r)
    (by rw [hc]; exact context_u6r) (by rw [hc]; exact shallow_u6r) (T := T) (by rw [hc]; exact hT) (by rw [hc]; exact hb)
    (by rw [hA]; exact hw)
  rw [hc] at a
  refine ⟨I1, m, N, a, b, fun budget hb => ?_⟩
  obtain ⟨I3, I4, msg, x, y, z⟩ := d budget hb
  refine ⟨I3, I4, msg, x, y, fun k => ?_⟩
  obtain ⟨t, ht⟩ := List.exists_mem_of_ne_nil A ne
  obtain ⟨e, i, j, x', v, u, g1, g2, g3, -, -, -, w⟩ := z.1 k t (by rw [hA]; exact ht)
  rw [hc] at g1 g2 g3
  have one : ∀ r, RelationIn u6r 0 r → (u6r.get r).endpoint = some 1 := forall_relationIn (by decide +kernel)
  rcases (hT.entries reach_u6r context_u6r).W e i j x' v u g1 g2 g3 with ⟨l1, r, l2, -, L, -⟩ | ⟨-, z⟩
  · obtain ⟨-, ne, ⟨q, hq, eq⟩, ⟨q', hq', eq'⟩, -⟩ := L
    rw [one q ⟨x', List.mem_of_getElem? g1, hq⟩] at eq
    rw [one q' ⟨x', List.mem_of_getElem? g1, hq'⟩] at eq'
    cases eq
    cases eq'
    exact ne rfl
  · exact w z

/-- **C112, refuted.** An encoder has collected the coordinates of a context; then a relation is removed, and `update_context`
and `update_coo` are called again: the message still has the coordinates of the removed relation. -/
theorem C112_stale_refuted : ∃ (E : Env) (h h' : Heap) (I I1 I2 : Icon) (m : IndexHom) (N : Nat) (T : Tensors), Reach E h ∧
    I.coo = [] ∧ I2.coo = ((I.updateContext h 100 0 []).2.1.updateCoo (contextHom h 0) h 100 []).2.1.coo ∧
    h' = (Op.remove 3 [] (some (h.get 6).uuid) none).after E h ∧ Reach E h' ∧ TensorOf h' 0 T ∧
    I2.updateContext h' 100 0 [] = (.ok (), I1, []) ∧ I1.hom = some m ∧
    ∀ budget ≥ N, ∃ I3 I4 msg, I1.updateCoo m h' budget [] = (.ok (), I3, []) ∧ I3.fullMsg h' = (.ok msg, I4) ∧
      ¬ CoordinatesOf msg T := by
  obtain ⟨T, hT⟩ := C34_converts reach_u6r context_u6r
  have hcol : collected = ((({ clock := some .dummy, context := 0 } : Icon).updateContext u6 100 0 []).2.1.updateCoo
    (contextHom u6 0) u6 100 []).2.1.coo := by unfold collected; with_reducible rfl
  have hrem : u6r = (Op.remove 3 [] (some (u6.get 6).uuid) none).after E0 u6 := by unfold u6r; with_reducible rfl
  have col : collected = [⟨0, 1, 2, 1⟩, ⟨0, 2, 1, 1⟩, ⟨0, 2, 1, 1⟩, ⟨0, 1, 2, 1⟩] := by decide +kernel
  obtain ⟨I1, m, N, d⟩ := stale_u6r collected (by rw [col]; decide +kernel) (by rw [col]; simp) hT
    { clock := some .dummy, context := 0, coo := collected } rfl rfl
  exact ⟨E0, u6, u6r, { clock := some .dummy, context := 0 }, I1, { clock := some .dummy, context := 0, coo := collected }, m, N, T,
    reach_u6, rfl, by with_reducible exact hcol, by with_reducible exact hrem, reach_u6r, hT, d⟩

end Rei
