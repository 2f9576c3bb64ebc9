import Verif.Spec.EarlyCoo
import Verif.Props.EncodingCoo

/-!
# C123: coordinates collected before `update_context`
-/
namespace Rei
open Sample

/-- The uuid of the node at a position of a context. -/
def nodeId (h : Heap) (c : Ref) (i : Nat) : Bytes := (((h.subNodes c)[i]?).map fun v => (h.get v).uuid).getD (h.get c).uuid
/-- The uuid of the edge at a position of a context. -/
def edgeId (h : Heap) (c : Ref) (i : Nat) : Bytes := (((h.subEdges c)[i]?).map fun v => (h.get v).uuid).getD (h.get c).uuid

/-- An entry with uuids. -/
def Entry.named (h : Heap) (c : Ref) (t : Entry) : UEntry := ⟨nodeId h c t.n0, nodeId h c t.n1, edgeId h c t.e, t.w⟩

theorem weightBy_sum (h : Heap) (r : Ref) : weightBy sumNorm h r = weightOf h r := by
  unfold weightBy weightOf
  cases (h.get r).weight with
  | none => rfl
  | some v => exact C104_sum_partial _

theorem nodup_getD_inj {h : Heap} {l : List Ref} {d : Bytes} (nd : (l.map fun x => (h.get x).uuid).Nodup) {i j : Nat}
    (hi : i < l.length) (hj : j < l.length)
    (e : ((l[i]?).map fun v => (h.get v).uuid).getD d = ((l[j]?).map fun v => (h.get v).uuid).getD d) : i = j := by
  rw [List.getElem?_eq_getElem hi, List.getElem?_eq_getElem hj] at e
  simp only [Option.map_some, Option.getD_some] at e
  have hi' : i < (l.map fun x => (h.get x).uuid).length := by simpa using hi
  have hj' : j < (l.map fun x => (h.get x).uuid).length := by simpa using hj
  exact (List.getElem_inj (h₀ := hi') (h₁ := hj') nd).1 (by simpa using e)

section
variable {E : Env} {h : Heap} {c : Ref}

theorem nodeId_inj (R : Reach E h) {i j : Nat} (hi : i < (h.subNodes c).length) (hj : j < (h.subNodes c).length)
    (e : nodeId h c i = nodeId h c j) : i = j := nodup_getD_inj (sub_uuid_nodup R c _) hi hj e

theorem edgeId_inj (R : Reach E h) {i j : Nat} (hi : i < (h.subEdges c).length) (hj : j < (h.subEdges c).length)
    (e : edgeId h c i = edgeId h c j) : i = j := nodup_getD_inj (sub_uuid_nodup R c _) hi hj e

theorem proper_of_context (R : Reach E h) (K : Context h c) {r : Ref} (hr : RelationIn h c r) : ProperRelation h r := by
  obtain ⟨x, hx, hr⟩ := hr
  have hp : (h.get r).parent = some x := ((C01_containment_agrees R x).1 r).1 (List.mem_filter.1 hr).1
  have ends : ∀ u ∈ endpointsOf h x, u ∈ h.subNodes c := by
    intro u hu
    obtain ⟨q, hq, e⟩ := List.mem_flatMap.1 hu
    obtain ⟨v, hv, e'⟩ := K.closed q ⟨x, hx, hq⟩
    rw [e'] at e
    simp only [Option.toList_some, List.mem_singleton] at e
    rw [e]; exact hv
  refine ⟨⟨x, hp, of_decide_eq_true (List.mem_filter.1 hx).2, fun q hq => ?_, fun u hu v hv e => ?_⟩, K.weights r ⟨x, hx, hr⟩⟩
  · obtain ⟨v, hv, e⟩ := K.closed q ⟨x, hx, hq⟩
    exact ⟨v, e, of_decide_eq_true (List.mem_filter.1 hv).2⟩
  · have nd : ((h.subNodes c).map fun x => (h.get x).uuid).Nodup := sub_uuid_nodup R c _
    exact List.inj_on_of_nodup_map nd (ends u hu) (ends v hv) e

theorem nodeId_pos {v : Ref} (hv : v ∈ h.subNodes c) : nodeId h c (posIn (h.subNodes c) v) = (h.get v).uuid := by
  simp [nodeId, posIn_getElem? hv]

theorem edgeId_pos {v : Ref} (hv : v ∈ h.subEdges c) : edgeId h c (posIn (h.subEdges c) v) = (h.get v).uuid := by
  simp [edgeId, posIn_getElem? hv]

theorem callsFor_batches (K : Context h c) {x v r : Ref} (hx : x ∈ h.subEdges c) (hr : r ∈ h.subRelations x)
    (ev : (h.get r).endpoint = some v) :
    callsFor sumNorm h x v r = (batchesOf h c x r).map fun b => b.map (Entry.named h c) := by
  obtain ⟨v', hv, ev'⟩ := K.closed r ⟨x, hx, hr⟩
  rw [ev] at ev'; cases ev'
  have ends : endpointsOf h x = (h.subRelations x).filterMap fun q => (h.get q).endpoint := by
    unfold endpointsOf
    induction h.subRelations x with
    | nil => rfl
    | cons q l ih =>
      rw [List.flatMap_cons, ih, List.filterMap_cons]
      cases (h.get q).endpoint <;> rfl
  have mem : ∀ u ∈ (h.subRelations x).filterMap fun q => (h.get q).endpoint, u ∈ h.subNodes c := by
    intro u hu
    obtain ⟨q, hq, e⟩ := List.mem_filterMap.1 hu
    obtain ⟨u', hu', e'⟩ := K.closed q ⟨x, hx, hq⟩
    rw [e] at e'; cases e'; exact hu'
  have ff : ((h.subRelations x).filterMap fun q => (h.get q).endpoint).filter
        (fun u => decide (posIn (h.subNodes c) u ≠ posIn (h.subNodes c) v)) =
      ((h.subRelations x).filterMap fun q => (h.get q).endpoint).filter (fun u => decide (u ≠ v)) := by
    refine List.filter_congr fun u hu => decide_eq_decide.2 (not_congr ⟨fun k => posIn_inj (mem u hu) hv k, fun k => by rw [k]⟩)
  unfold callsFor batchesOf
  rw [ev, weightBy_sum, ends]
  simp only [ff]
  have m1 : ∀ w : Rat, (((h.subRelations x).filterMap fun q => (h.get q).endpoint).filter (fun u => decide (u ≠ v))).map
        (fun u => (⟨(h.get v).uuid, (h.get u).uuid, (h.get x).uuid, w⟩ : UEntry)) =
      ((((h.subRelations x).filterMap fun q => (h.get q).endpoint).filter (fun u => decide (u ≠ v))).map
        (fun u => (⟨posIn (h.subNodes c) v, posIn (h.subNodes c) u, posIn (h.subEdges c) x, w⟩ : Entry))).map (Entry.named h c) := by
    intro w
    rw [List.map_map]
    refine List.map_congr_left fun u hu => ?_
    have mu := mem u (List.mem_filter.1 hu).1
    simp only [Function.comp, Entry.named, nodeId_pos hv, nodeId_pos mu, edgeId_pos hx]
  have m2 : ∀ w : Rat, (((h.subRelations x).filterMap fun q => (h.get q).endpoint).filter (fun u => decide (u ≠ v))).map
        (fun u => (⟨(h.get u).uuid, (h.get v).uuid, (h.get x).uuid, w⟩ : UEntry)) =
      ((((h.subRelations x).filterMap fun q => (h.get q).endpoint).filter (fun u => decide (u ≠ v))).map
        (fun u => (⟨posIn (h.subNodes c) u, posIn (h.subNodes c) v, posIn (h.subEdges c) x, w⟩ : Entry))).map (Entry.named h c) := by
    intro w
    rw [List.map_map]
    refine List.map_congr_left fun u hu => ?_
    have mu := mem u (List.mem_filter.1 hu).1
    simp only [Function.comp, Entry.named, nodeId_pos hv, nodeId_pos mu, edgeId_pos hx]
  rw [m1, m2]
  by_cases a : (h.get r).direction.isIn <;> by_cases b : (h.get r).direction.isOut <;> by_cases w : weightOf h r = 0 <;>
    simp only [a, b, w, ne_eq, not_true_eq_false, not_false_eq_true, and_true, and_false, and_self, if_true, if_false, List.map_append,
      List.map_cons, List.map_nil, List.append_nil, List.nil_append, false_and, true_and]

/-- What `update_coo` appends without homomorphism. -/
theorem earlyCoo_ok (R : Reach E h) (K : Context h c) (hsh : Shallow h c) :
    ∃ N, ∀ budget ≥ N, ∀ I : EarlyIcon, I.icon.context = c → I.icon.hom = none →
      I.updateCoo h budget [] = (.ok (), { I with raw := I.raw ++ (entriesOf h c).map (Entry.named h c) }, []) := by
  have one : rounds h 1 [c] = relationsUnder h c := by simp [rounds]
  have hin : ∀ r ∈ relationsUnder h c, RelationIn h c r := fun r hr => by
    obtain ⟨x, hx, hr⟩ := List.mem_flatMap.1 hr
    exact ⟨x, hx, hr⟩
  obtain ⟨F, hF, N, hN⟩ := C102_unlimited sumNorm R K.node 1 (fun r hr => proper_of_context R K (hin r (one ▸ hr)))
    (fun i hi => by obtain rfl : i = 0 := by omega
                    simp [reachedAfter]) (by
      rw [List.flatMap_eq_nil_iff]
      intro v hv
      simp only [reachedAfter, List.flatMap_cons, List.flatMap_nil, List.append_nil] at hv
      obtain ⟨r, hr, e⟩ := List.mem_flatMap.1 hv
      exact hsh r (hin r hr) v (by simpa using e))
  rw [one] at hF hN
  refine ⟨N, fun budget hb I hc hh => ?_⟩
  unfold EarlyIcon.updateCoo
  rw [hh, hc, hN budget hb]
  simp only
  congr 3
  have : (relationsUnder h c).flatMap F = (relationsUnder h c).flatMap fun r => (callsOf h c r).map fun b => b.map (Entry.named h c) := by
    have ext : ∀ l : List Ref, (∀ r ∈ l, F r = (callsOf h c r).map fun b => b.map (Entry.named h c)) →
        l.flatMap F = l.flatMap fun r => (callsOf h c r).map fun b => b.map (Entry.named h c) := by
      intro l hl
      induction l with
      | nil => rfl
      | cons r l ih => rw [List.flatMap_cons, List.flatMap_cons, hl r (by simp), ih fun q hq => hl q (by simp [hq])]
    refine ext _ fun r hr => ?_
    obtain ⟨x, v, hp, hv, e⟩ := hF r hr
    obtain ⟨x', hx, hr⟩ := List.mem_flatMap.1 hr
    have hp' : (h.get r).parent = some x' := ((C01_containment_agrees R x').1 r).1 (List.mem_filter.1 hr).1
    rw [hp] at hp'; cases hp'
    rw [e, callsFor_batches K hx hr hv]
    unfold callsOf
    rw [hp]
  rw [this]
  unfold entriesOf
  rw [← List.map_flatMap, ← List.map_flatten]

theorem uread_last {ts : List Entry} {P : Entry → Prop} {w : Rat} (L : LastEntry ts P w 0) (k : Entry → UEntry)
    (kw : ∀ t, (k t).w = t.w) (p : UEntry → Bool) (hp : ∀ t ∈ ts, p (k t) = true ↔ P t) :
    (((ts.map k).filter p).getLast?.map UEntry.w).getD 0 = w := by
  rcases L with ⟨l1, t, l2, rfl, ht, hl, rfl⟩ | ⟨hn, rfl⟩
  · have e2 : (l2.map k).filter p = [] := by
      rw [List.filter_eq_nil_iff]
      intro s hs
      obtain ⟨q, hq, rfl⟩ := List.mem_map.1 hs
      exact fun k' => hl q hq ((hp q (by simp [hq])).1 k')
    have e1 : p (k t) = true := (hp t (by simp)).2 ht
    rw [List.map_append, List.map_cons, List.filter_append, List.filter_cons, if_pos e1, e2]
    simp [kw]
  · have e2 : (ts.map k).filter p = [] := by
      rw [List.filter_eq_nil_iff]
      intro s hs
      obtain ⟨q, hq, rfl⟩ := List.mem_map.1 hs
      exact fun k' => hn q hq ((hp q hq).1 k')
    simp [e2]

theorem encoded_edge_id (m : IndexHom) (coo : List Coo) {e : Nat} {X : EdgeMsg} (hX : (encoded h m c coo).edges[e]? = some X) :
    e < (h.subEdges c).length ∧ X.uuid = edgeId h c e := by
  unfold encoded at hX
  simp only [List.getElem?_map] at hX
  cases k : (h.subEdges c)[e]? with
  | none => rw [k] at hX; cases hX
  | some x => rw [k] at hX; cases hX; exact ⟨(List.getElem?_eq_some_iff.1 k).1, by simp [edgeId, k]⟩

theorem encoded_node_id (m : IndexHom) (coo : List Coo) {e : Nat} {X : NodeMsg} (hX : (encoded h m c coo).nodes[e + 1]? = some X) :
    e < (h.subNodes c).length ∧ X.uuid = nodeId h c e := by
  unfold encoded at hX
  simp only [List.getElem?_map, List.getElem?_cons_succ] at hX
  cases k : (h.subNodes c)[e]? with
  | none => rw [k] at hX; cases hX
  | some x => rw [k] at hX; cases hX; exact ⟨(List.getElem?_eq_some_iff.1 k).1, by simp [nodeId, k]⟩

theorem uuid_coordinates (R : Reach E h) (K : Context h c) {T : Tensors} (hT : TensorOf h c T) {msg : FullMsg} {m : IndexHom}
    (hn : msg.nodes = (encoded h m c []).nodes) (he : msg.edges = (encoded h m c []).edges) :
    UuidCoordinatesOf ((entriesOf h c).map (Entry.named h c)) msg T := by
  obtain ⟨hW, hO, hI⟩ := tensor_entriesOf R K hT
  have En := hT.entries R K
  have ixe : ∀ {e : Nat} {X : EdgeMsg}, msg.edges[e]? = some X → e < (h.subEdges c).length ∧ X.uuid = edgeId h c e := by
    intro e X hX; rw [he] at hX; exact encoded_edge_id _ _ hX
  have ixn : ∀ {e : Nat} {X : NodeMsg}, msg.nodes[e + 1]? = some X → e < (h.subNodes c).length ∧ X.uuid = nodeId h c e := by
    intro e X hX; rw [hn] at hX; exact encoded_node_id _ _ hX
  refine ⟨by rw [he, En.ne]; simp [encoded], by rw [hn, En.nn]; simp [encoded], ?_, ?_, ?_, ?_⟩
  · intro e i j x v u hx hv hu
    obtain ⟨le, ee⟩ := ixe hx
    obtain ⟨li, ei⟩ := ixn hv
    obtain ⟨lj, ej⟩ := ixn hu
    rw [ee, ei, ej]
    refine uread_last (hW e i j) _ (fun _ => rfl) _ (fun t ht => ?_)
    obtain ⟨r1, r2, r3⟩ := mem_entriesOf R K ht
    constructor
    · intro p
      obtain ⟨p1, p2, p3⟩ := of_decide_eq_true p
      exact ⟨(edgeId_inj R r1 le p1).symm, (nodeId_inj R r2 li p2).symm, (nodeId_inj R r3 lj p3).symm⟩
    · rintro ⟨rfl, rfl, rfl⟩; exact decide_eq_true ⟨rfl, rfl, rfl⟩
  · intro e i x v hx hv
    obtain ⟨le, ee⟩ := ixe hx
    obtain ⟨li, ei⟩ := ixn hv
    rw [ee, ei]
    refine uread_last (hO e i) _ (fun _ => rfl) _ (fun t ht => ?_)
    obtain ⟨r1, r2, r3⟩ := mem_entriesOf R K ht
    constructor
    · intro p
      obtain ⟨p1, p2⟩ := of_decide_eq_true p
      exact ⟨(edgeId_inj R r1 le p1).symm, (nodeId_inj R r2 li p2).symm⟩
    · rintro ⟨rfl, rfl⟩; exact decide_eq_true ⟨rfl, rfl⟩
  · intro e i x v hx hv
    obtain ⟨le, ee⟩ := ixe hx
    obtain ⟨li, ei⟩ := ixn hv
    rw [ee, ei]
    refine uread_last (hI e i) _ (fun _ => rfl) _ (fun t ht => ?_)
    obtain ⟨r1, r2, r3⟩ := mem_entriesOf R K ht
    constructor
    · intro p
      obtain ⟨p1, p2⟩ := of_decide_eq_true p
      exact ⟨(edgeId_inj R r1 le p1).symm, (nodeId_inj R r3 li p2).symm⟩
    · rintro ⟨rfl, rfl⟩; exact decide_eq_true ⟨rfl, rfl⟩
  · intro t ht
    obtain ⟨s, hs, rfl⟩ := List.mem_map.1 ht
    obtain ⟨r1, r2, r3⟩ := mem_entriesOf R K hs
    have l1 : s.e < msg.edges.length := by rw [he]; simpa [encoded] using r1
    have l2 : s.n0 + 1 < msg.nodes.length := by rw [hn]; simpa [encoded] using r2
    have l3 : s.n1 + 1 < msg.nodes.length := by rw [hn]; simpa [encoded] using r3
    have g1 := List.getElem?_eq_getElem l1
    have g2 := List.getElem?_eq_getElem l2
    have g3 := List.getElem?_eq_getElem l3
    exact ⟨s.e, s.n0, s.n1, _, _, _, g1, g2, g3, (ixe g1).2.symm, (ixn g2).2.symm, (ixn g3).2.symm⟩

end

/-! ## C123 -/

theorem early_fullMsg {h : Heap} {J J' : Icon} {msg : FullMsg} {raw : List UEntry} (e : J.fullMsg h = (.ok msg, J')) :
    (⟨J, raw⟩ : EarlyIcon).fullMsg h = (.ok (raw, msg), ⟨J', raw⟩) := by unfold EarlyIcon.fullMsg; simp only [e]

theorem early_updateContext {h : Heap} {J J' : Icon} {raw : List UEntry} {b : Nat} {c : Ref} {q q' : Fringe} {r : Except Err Unit}
    (e : J.updateContext h b c q = (r, J', q')) :
    (⟨J, raw⟩ : EarlyIcon).updateContext h b c q = (r, ⟨J', raw⟩, q') := by unfold EarlyIcon.updateContext; simp only [e]

theorem early_updateCoo {h : Heap} {J J' : Icon} {m : IndexHom} {raw : List UEntry} {b : Nat} {q q' : Fringe} {r : Except Err Unit}
    (hm : J.hom = some m) (e : J.updateCoo m h b q = (r, J', q')) :
    (⟨J, raw⟩ : EarlyIcon).updateCoo h b q = (r, ⟨J', raw⟩, q') := by unfold EarlyIcon.updateCoo; simp only [hm, e]

/-- **C123.** Take a new encoder whose context can be sent and converted, and call `update_coo` before `update_context`: it
succeeds and changes nothing but the collected coordinates.  In the first message after `update_context` they describe the tensors
of the context through the uuids of the node and edge tuples, and there are no others.  If `update_coo` is called again after
`update_context`, they stay in front, and the index coordinates that follow describe the same tensors. -/
theorem C123_early_coordinates {E : Env} {h : Heap} (R : Reach E h) (ck : Option Clock) {c : Ref} (S : Sendable h c)
    (K : Context h c) (hsh : Shallow h c) {T : Tensors} (hT : TensorOf h c T) {budget : Nat}
    (hb : HomBudget h h.size false budget c) :
    ∃ N, ∀ b ≥ N, ∃ (I1 I2 I3 I4 I5 : EarlyIcon) (raw : List UEntry) (msg msg' : FullMsg),
      (⟨{ clock := ck, context := c }, []⟩ : EarlyIcon).updateCoo h b [] = (.ok (), I1, []) ∧
      I1.icon = { clock := ck, context := c } ∧
      I1.updateContext h budget c [] = (.ok (), I2, []) ∧
      I2.fullMsg h = (.ok (raw, msg), I3) ∧ UuidCoordinatesOf raw msg T ∧ msg.coo = [] ∧
      I2.updateCoo h b [] = (.ok (), I4, []) ∧
      I4.fullMsg h = (.ok (raw, msg'), I5) ∧ CoordinatesOf msg' T := by
  obtain ⟨N1, hN1⟩ := earlyCoo_ok R K hsh
  obtain ⟨N2, hN2⟩ := updateCoo_ok R S K hsh
  obtain ⟨h1, h2, h3⟩ := hom_has S
  refine ⟨max N1 N2, fun b hb' => ?_⟩
  have e1 := hN1 b (le_trans (le_max_left _ _) hb') ⟨{ clock := ck, context := c }, []⟩ rfl rfl
  have e3 := fullMsg_acc (I := { clock := ck, context := c, hom := some (contextHom h c) }) (m := contextHom h c) R S rfl rfl h1 h2 h3
  have e4 := hN2 b (le_trans (le_max_right _ _) hb') { clock := ck, context := c, hom := some (contextHom h c) } rfl
  have e5 := fullMsg_acc
    (I := { clock := ck, context := c, hom := some (contextHom h c), coo := [] ++ (entriesOf h c).map (Entry.coo (nodeIx h c) (edgeIx h c)) }) (m := contextHom h c) R S rfl rfl h1 h2 h3
  exact ⟨_, _, _, _, _, _, _, _, e1, rfl, early_updateContext (updateContext_ok R { clock := ck, context := c } S.exists_ hb),
    early_fullMsg e3, uuid_coordinates (m := contextHom h c) R K hT rfl rfl, rfl, early_updateCoo rfl e4, early_fullMsg e5,
    coordinates R S K hT (A := []) (fun t ht => by cases ht) rfl rfl rfl⟩

/-- **C123.** Before `update_context` an encoder cannot make a message: `full_msg` raises an `AttributeError` and changes nothing,
whatever the graph, and so does `msg_value_update` unless the context has no value nodes, when the update is empty. -/
theorem C123_no_message {h : Heap} (I : EarlyIcon) (hh : I.icon.hom = none) :
    I.fullMsg h = (.error .attributeError, I) ∧
      I.valueUpdate h = if h.subValues I.icon.context = [] then .ok [] else .error .attributeError := by
  obtain ⟨J, raw⟩ := I
  simp only at hh
  constructor
  · have : J.fullMsg h = (.error .attributeError, J) := by
      unfold Icon.fullMsg
      rw [List.mapM_cons, hh]
      rfl
    unfold EarlyIcon.fullMsg
    rw [this]
  · unfold EarlyIcon.valueUpdate Icon.valueUpdate
    simp only
    rw [hh]
    cases h.subValues J.context with
    | nil => rfl
    | cons v l => rw [List.mapM_cons, if_neg (by simp)]; rfl

/-- **C123.** Before `update_context`, whatever was collected and whatever happened to the graph, `update_coo` appends what a new
encoder of the same context would collect, and changes nothing else. -/
theorem C123_appended (I : EarlyIcon) (hh : I.icon.hom = none) (h : Heap) (b : Nat) (q : Fringe) :
    (I.updateCoo h b q).2.1.icon = I.icon ∧
      (I.updateCoo h b q).2.1.raw =
        I.raw ++ ((⟨{ clock := none, context := I.icon.context }, []⟩ : EarlyIcon).updateCoo h b q).2.1.raw := by
  obtain ⟨J, raw⟩ := I
  simp only at hh
  unfold EarlyIcon.updateCoo
  simp only [hh]
  rcases uuidExecute sumNorm h none b J.context q with ⟨a | a, ts, q'⟩
  · exact ⟨rfl, (List.append_nil _).symm⟩
  · exact ⟨rfl, rfl⟩

/-- **C123.** Whatever happens to the graph and to the encoder, coordinates collected before `update_context` stay in every later
message, in front: after `update_context` nothing removes, changes or extends them. -/
theorem C123_kept (I : EarlyIcon) {m : IndexHom} (hm : I.icon.hom = some m) (h : Heap) (b : Nat) (c : Ref) (q : Fringe) :
    (I.updateContext h b c q).2.1.raw = I.raw ∧ (∃ m', (I.updateContext h b c q).2.1.icon.hom = some m') ∧
    (I.updateCoo h b q).2.1.raw = I.raw ∧ (I.updateCoo h b q).2.1.icon.hom = some m ∧
    (I.fullMsg h).2.raw = I.raw ∧ (I.fullMsg h).2.icon.hom = some m ∧ ∀ raw msg, (I.fullMsg h).1 = .ok (raw, msg) → raw = I.raw := by
  obtain ⟨J, raw⟩ := I
  simp only at hm
  have coo : (J.updateCoo m h b q).2.1.hom = some m := by
    unfold Icon.updateCoo
    rcases hyperExecute h m none b J.context q with ⟨a | a, ts, q'⟩ <;> exact hm
  have full : (J.fullMsg h).2.hom = some m := by
    unfold Icon.fullMsg
    split
    · exact hm
    · split
      · exact hm
      · split
        · exact hm
        · split <;> exact hm
  refine ⟨rfl, ⟨_, rfl⟩, ?_, ?_, ?_⟩
  · unfold EarlyIcon.updateCoo
    simp only [hm]
  · unfold EarlyIcon.updateCoo
    simp only [hm]
    exact coo
  · unfold EarlyIcon.fullMsg
    simp only
    rcases k : J.fullMsg h with ⟨e | msg, J'⟩
    · rw [k] at full
      exact ⟨rfl, full, fun r m' e => by cases e⟩
    · rw [k] at full
      exact ⟨rfl, full, fun r m' e => by cases e; rfl⟩

namespace Sample

/-- C123 at a directed edge: the coordinates collected early name uuids. -/
theorem C123_case : ∃ T, TensorOf s12 0 T ∧ ∃ N, ∀ b ≥ N, ∃ (I1 I2 I3 : EarlyIcon) (raw : List UEntry) (msg : FullMsg),
    (⟨{ clock := some .dummy, context := 0 }, []⟩ : EarlyIcon).updateCoo s12 b [] = (.ok (), I1, []) ∧
    I1.updateContext s12 100 0 [] = (.ok (), I2, []) ∧ I2.fullMsg s12 = (.ok (raw, msg), I3) ∧ UuidCoordinatesOf raw msg T ∧
    msg.coo = [] := by
  obtain ⟨T, hT⟩ := C34_converts reach_s12 context_s12
  obtain ⟨N, H⟩ := C123_early_coordinates reach_s12 (some .dummy) send_s12 context_s12 shallow_s12 hT budget_s12
  refine ⟨T, hT, N, fun b hb => ?_⟩
  obtain ⟨I1, I2, I3, I4, I5, raw, msg, msg', a, -, c, d, e, f, -⟩ := H b hb
  exact ⟨I1, I2, I3, raw, msg, a, c, d, e, f⟩

/-- The early coordinates of the sample, with the uuids of its elements 1, 2 and 3. -/
theorem C123_early_sample : ((⟨{ clock := some .dummy, context := 0 }, []⟩ : EarlyIcon).updateCoo s12 100 []).2.1.raw =
    [⟨(s12.get 1).uuid, (s12.get 2).uuid, (s12.get 3).uuid, 1⟩, ⟨(s12.get 1).uuid, (s12.get 2).uuid, (s12.get 3).uuid, 1⟩] := by
  decide +kernel

/-- **C123, refuted.** Not every coordinate of a message is an index: here those collected early are in the message. -/
theorem C123_index_refuted : ∃ (E : Env) (h : Heap) (I1 I2 I3 : EarlyIcon) (raw : List UEntry) (msg : FullMsg), Reach E h ∧
    Sendable h 0 ∧ (⟨{ clock := some .dummy, context := 0 }, []⟩ : EarlyIcon).updateCoo h 100 [] = (.ok (), I1, []) ∧
    I1.updateContext h 100 0 [] = (.ok (), I2, []) ∧ I2.fullMsg h = (.ok (raw, msg), I3) ∧ raw ≠ [] := by
  have a : ((⟨{ clock := some .dummy, context := 0 }, []⟩ : EarlyIcon).updateCoo s12 100 []).1 = .ok () ∧
      ((⟨{ clock := some .dummy, context := 0 }, []⟩ : EarlyIcon).updateCoo s12 100 []).2.2 = [] := by decide +kernel
  have b : ((⟨{ clock := some .dummy, context := 0 }, []⟩ : EarlyIcon).updateCoo s12 100 []).2.1.icon =
      { clock := some .dummy, context := 0 } := by
    unfold EarlyIcon.updateCoo
    simp only
    rcases uuidExecute sumNorm s12 none 100 0 [] with ⟨x | x, y, z⟩ <;> rfl
  have r := C123_early_sample
  rcases k : (⟨{ clock := some .dummy, context := 0 }, []⟩ : EarlyIcon).updateCoo s12 100 [] with ⟨x, I1, q⟩
  rw [k] at a b r
  obtain ⟨a1, a2⟩ := a
  simp only at a1 a2 b r
  subst a1 a2
  obtain ⟨h1, h2, h3⟩ := hom_has send_s12
  have u := updateContext_ok reach_s12 { clock := some .dummy, context := 0 } send_s12.exists_ budget_s12
  rw [← b] at u
  obtain ⟨J, raw⟩ := I1
  exact ⟨E0, s12, _, _, _, _, _, reach_s12, send_s12, k, early_updateContext u,
    early_fullMsg (fullMsg_acc (m := contextHom s12 0) reach_s12 send_s12 (by simp only at b; rw [b]) rfl h1 h2 h3), by
      simp only at r; rw [r]; simp⟩

end Sample

end Rei
