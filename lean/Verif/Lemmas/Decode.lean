import Verif.Lemmas.Placed

/-!
# Decoding a well-formed message
-/
namespace Rei
open PyM

/-- The identifiers of the nodes and edges of a message, in the order they are built. -/
def FullMsg.uuids (m : FullMsg) : List Bytes := m.nodes.map (·.uuid) ++ m.edges.map (·.uuid)

/-- The object built for the node or edge `u` of the message when the first one is object `n0`. -/
def FullMsg.at (m : FullMsg) (n0 : Nat) (u : Bytes) : Ref := n0 + m.uuids.idxOf u

/-- What is built for a node. -/
def nodeItem (f : Bytes → Ref) (n : NodeMsg) : Item :=
  { c := n.parent.map f, kind := .node, uuid := n.uuid, name := n.name, prog := .str n.qual }

/-- What is built for an edge. -/
def edgeItem (f : Bytes → Ref) (e : EdgeMsg) : Item :=
  { c := some (f e.parent), kind := .edge, uuid := e.uuid, name := e.name, prog := .str e.qual }

/-- What is built for a relation. -/
def relItem (f : Bytes → Ref) (r : RelMsg) : Item :=
  { c := some (f r.edge), kind := .relation, uuid := r.uuid, name := r.name, prog := .str r.qual,
    endpoint := some (f r.endpoint) }

/-- What is built for a value node. -/
def valItem (f : Bytes → Ref) (v : ValMsg) : Item :=
  { c := some (f v.parent), kind := .value, uuid := v.uuid, name := v.name, prog := .bytes v.qual,
    vs := v.values }

/-- Everything that is built, in order. -/
def FullMsg.items (m : FullMsg) (n0 : Nat) : List Item :=
  m.nodes.map (nodeItem (m.at n0)) ++ m.edges.map (edgeItem (m.at n0)) ++ m.rels.map (relItem (m.at n0)) ++
    m.vals.map (valItem (m.at n0))

/-- A message from which a graph can be built. -/
structure FullMsg.WF (m : FullMsg) : Prop where
  root : ∃ r ns, m.nodes = r :: ns ∧ r.parent = none ∧ ∀ n ∈ ns, n.parent ≠ none
  distinct : m.uuids.Nodup
  nodes : ∀ (i : Nat) n p, m.nodes[i]? = some n → n.parent = some p → ∃ j < i, m.uuids[j]? = some p
  edges : ∀ (i : Nat) e, m.edges[i]? = some e → ∃ j < m.nodes.length + i, m.uuids[j]? = some e.parent
  rels : ∀ r ∈ m.rels, r.edge ∈ m.uuids ∧ r.endpoint ∈ m.uuids
  vals : ∀ v ∈ m.vals, v.parent ∈ m.uuids
  siblings : ∀ n0, ((m.items n0).map fun it => (it.c, it.uuid)).Nodup

theorem FullMsg.at_of_get {m : FullMsg} (hd : m.uuids.Nodup) (n0 : Nat) {j : Nat} {u : Bytes}
    (h : m.uuids[j]? = some u) : m.at n0 u = n0 + j := by
  obtain ⟨hj, e⟩ := List.getElem?_eq_some_iff.1 h
  unfold FullMsg.at
  rw [← e, hd.idxOf_getElem]

/-- The cache has the objects of the identifiers `us`. -/
def Cache (n0 : Nat) (us : List Bytes) (d : Dict Bytes Ref) : Prop :=
  ∀ (i : Nat) u, us[i]? = some u → d.get? u = some (n0 + i)

theorem Cache.snoc {n0 : Nat} {us : List Bytes} {d : Dict Bytes Ref} (C : Cache n0 us d) {u : Bytes}
    (hu : (us ++ [u]).Nodup) : Cache n0 (us ++ [u]) (d.set u (n0 + us.length)) := by
  intro i v hv
  rw [Dict.get?_set]
  by_cases hi : i < us.length
  · rw [List.getElem?_append_left hi] at hv
    rw [if_neg, C i v hv]
    rintro rfl
    rw [List.nodup_append] at hu
    exact hu.2.2 _ (List.mem_of_getElem? hv) _ (by simp) rfl
  · have : i = us.length := by
      have := (List.getElem?_eq_some_iff.1 hv).1
      simp at this; omega
    subst this
    simp at hv
    subst hv
    simp

theorem cached_run {d : Dict Bytes Ref} {u : Bytes} {x : Ref} (hx : d.get? u = some x) (h : Heap) :
    cached d u h = (.ok x, h) := by
  unfold cached
  rw [hx]
  rfl

/-- What holds while the objects are being built. -/
structure Building (E : Env) (h0 : Heap) (its : List Item) (h : Heap) : Prop where
  placed : Placed h0 its h
  reach : Reach E h

theorem Building.fresh {E : Env} {h0 h : Heap} {its : List Item} (B : Building E h0 its h) {it : Item}
    (hn : ((its ++ [it]).map fun it => (it.c, it.uuid)).Nodup) {q : Ref} (hc : it.c = some q)
    (hq : h0.size ≤ q ∧ q < h.size) : it.uuid ∉ (h.get q).subs.keys := by
  have hs := B.placed.size
  have e := B.placed.subs (q - h0.size) (by omega)
  rw [show h0.size + (q - h0.size) = q by omega] at e
  rw [e]
  intro hm
  obtain ⟨⟨u, y⟩, hm, hu⟩ := List.mem_map.1 hm
  simp only at hu
  subst hu
  obtain ⟨i, jt, hi, _, hu, hjc⟩ := mem_childrenOf.1 hm
  rw [List.map_append, List.nodup_append] at hn
  refine hn.2.2 (jt.c, jt.uuid) (List.mem_map.2 ⟨jt, List.mem_of_getElem? hi, rfl⟩) (it.c, it.uuid) (by simp) ?_
  rw [hjc, hc, hu]

/-- The container of the next item is one that has been built, a node or an edge. -/
def Item.Fits (it : Item) (h0 : Heap) (its : List Item) : Prop :=
  ∀ q, it.c = some q → ∃ (j : Nat) (jt : Item), its[j]? = some jt ∧ q = h0.size + j ∧ jt.kind.isHElement = true

theorem Building.container {E : Env} {h0 h : Heap} {its : List Item} (B : Building E h0 its h) {it : Item}
    (hf : it.Fits h0 its) {q : Ref} (hc : it.c = some q) :
    (h0.size ≤ q ∧ q < h.size) ∧ (h.get q).kind.isHElement = true ∧ (h.get q).genCtx ≠ none := by
  obtain ⟨j, jt, hj, rfl, hk⟩ := hf q hc
  have := (List.getElem?_eq_some_iff.1 hj).1
  have hs := B.placed.size
  have J := B.placed.item j jt hj
  refine ⟨by omega, by rw [J.kind]; exact hk, by rw [J.gen hk]; simp⟩

theorem Building.node {E : Env} {h0 h : Heap} {its : List Item} (B : Building E h0 its h) (ck : Clock)
    (nm : Str) (u : Bytes) (pn : PName) {c : Option Ref}
    (hn : ((its ++ [({ c := c, kind := .node, uuid := u, name := nm, prog := pn } : Item)]).map
      fun it => (it.c, it.uuid)).Nodup)
    (hf : ({ c := c, kind := .node, uuid := u, name := nm, prog := pn } : Item).Fits h0 its) :
    ∃ h1 h', newConceptual E .node nm u pn (some ck) none h = (.ok h.size, h1) ∧
      (∀ q, c = some q → addElement E q h.size h1 = (.ok (), h')) ∧ (c = none → h' = h1) ∧
      Building E h0 (its ++ [{ c := c, kind := .node, uuid := u, name := nm, prog := pn }]) h' := by
  obtain ⟨h1, r1, g1⟩ := new_conceptual (E := E) B.reach.good .node nm u pn ck
  have R1 := reach_newConceptual (k := .node) B.reach rfl nm u pn (some ck) (p := none) (by simp [okRef])
  replace R1 : Reach E h1 := by rw [r1] at R1; exact R1
  have m : ({ c := c, kind := .node, uuid := u, name := nm, prog := pn } : Item).Matches
      (builtObj .node nm u pn ck) := ⟨rfl, rfl, rfl, rfl, rfl, rfl, rfl, fun _ => rfl, rfl⟩
  cases c with
  | none =>
    refine ⟨h1, h1, r1, by simp, fun _ => rfl, ?_, R1⟩
    exact B.placed.snoc B.reach.good.inv g1 m (by intro h; cases h) (by intro q h; cases h)
  | some q =>
    obtain ⟨hq, hk, hg⟩ := B.container hf rfl
    obtain ⟨h2, r2, g2⟩ := attach_new (E := E) R1.good.inv rfl g1 hq.2
      (by intro e; rw [e] at hk; cases hk) (B.fresh hn rfl hq) (fun _ _ => hg)
    refine ⟨h1, h2, r1, by rintro _ ⟨⟩; exact r2, by simp, ?_, ?_⟩
    · exact B.placed.snoc B.reach.good.inv g2 m (by intro h; cases h) (by rintro _ ⟨⟩; exact hq)
    · have := reach_add R1 (c := q) (x := h.size) (by have := g1.size; omega) (by have := g1.size; omega)
        (addSafe_leaf R1.good.inv (congrArg Obj.parent g1.new) (congrArg Obj.subs g1.new))
      rw [r2] at this
      exact this

theorem Building.edge {E : Env} {h0 h : Heap} {its : List Item} (B : Building E h0 its h) (ck : Clock)
    (nm : Str) (u : Bytes) (pn : PName) {q : Ref}
    (hn : ((its ++ [({ c := some q, kind := .edge, uuid := u, name := nm, prog := pn } : Item)]).map
      fun it => (it.c, it.uuid)).Nodup)
    (hf : ({ c := some q, kind := .edge, uuid := u, name := nm, prog := pn } : Item).Fits h0 its) :
    ∃ h', newConceptual E .edge nm u pn (some ck) (some q) h = (.ok h.size, h') ∧
      Building E h0 (its ++ [{ c := some q, kind := .edge, uuid := u, name := nm, prog := pn }]) h' := by
  obtain ⟨hq, hk, hg⟩ := B.container hf rfl
  obtain ⟨h1, r1, g1⟩ := new_conceptual_in (E := E) B.reach.good (k := .edge) nm u pn ck hq.2
    (by intro e; rw [e] at hk; cases hk) (B.fresh hn rfl hq) (by decide)
  have R1 := reach_newConceptual (k := .edge) B.reach rfl nm u pn (some ck) (p := some q) (by rintro _ ⟨⟩; exact hq.2)
  replace R1 : Reach E h1 := by rw [r1] at R1; exact R1
  refine ⟨h1, r1, ?_, R1⟩
  exact B.placed.snoc B.reach.good.inv g1 ⟨rfl, rfl, rfl, rfl, rfl, rfl, rfl, fun _ => rfl, rfl⟩
    (by intro h; cases h) (by rintro _ ⟨⟩; exact hq)

theorem Building.relation {E : Env} {h0 h : Heap} {its : List Item} (B : Building E h0 its h)
    (nm : Str) (u : Bytes) (pn : PName) {q v : Ref} (hv : v < h.size)
    (hn : ((its ++ [({ c := some q, kind := .relation, uuid := u, name := nm, prog := pn, endpoint := some v } : Item)]).map
      fun it => (it.c, it.uuid)).Nodup)
    (hf : ({ c := some q, kind := .relation, uuid := u, name := nm, prog := pn, endpoint := some v } : Item).Fits h0 its) :
    ∃ h1 h', newRelation u nm pn (some v) none .bidirectional none h = (.ok h.size, h1) ∧
      addElement E q h.size h1 = (.ok (), h') ∧
      Building E h0 (its ++ [{ c := some q, kind := .relation, uuid := u, name := nm, prog := pn, endpoint := some v }]) h' := by
  obtain ⟨hq, hk, hg⟩ := B.container hf rfl
  obtain ⟨h1, r1, g1⟩ := new_plain (h := h) (o := relationObj u nm pn (some v) none .bidirectional none) rfl rfl
  have R1 := reach_newRelation B.reach u nm pn (ep := some v) (by rintro _ ⟨⟩; exact hv) .bidirectional
  change alloc _ h = _ at r1
  have r1' : newRelation u nm pn (some v) none .bidirectional none h = (.ok h.size, h1) := r1
  replace R1 : Reach E h1 := by rw [r1'] at R1; exact R1
  obtain ⟨h2, r2, g2⟩ := attach_new (E := E) R1.good.inv rfl g1 hq.2
    (by intro e; rw [e] at hk; cases hk) (B.fresh hn rfl hq) (fun _ _ => hg)
  refine ⟨h1, h2, r1, r2, ?_, ?_⟩
  · exact B.placed.snoc B.reach.good.inv g2 ⟨rfl, rfl, rfl, rfl, rfl, rfl, rfl, (by intro h; cases h), rfl⟩
      (by intro h; cases h) (by rintro _ ⟨⟩; exact hq)
  · have := reach_add R1 (c := q) (x := h.size) (by have := g1.size; omega) (by have := g1.size; omega)
      (addSafe_leaf R1.good.inv (congrArg Obj.parent g1.new) (congrArg Obj.subs g1.new))
    rw [r2] at this
    exact this

theorem Building.value {E : Env} {h0 h : Heap} {its : List Item} (B : Building E h0 its h)
    (nm : Str) (u : Bytes) (pn : PName) (vs : List Rat) {q : Ref}
    (hn : ((its ++ [({ c := some q, kind := .value, uuid := u, name := nm, prog := pn, vs := vs } : Item)]).map
      fun it => (it.c, it.uuid)).Nodup)
    (hf : ({ c := some q, kind := .value, uuid := u, name := nm, prog := pn, vs := vs } : Item).Fits h0 its) :
    ∃ h1 h', newValue u nm pn (some vs) h = (.ok h.size, h1) ∧ addElement E q h.size h1 = (.ok (), h') ∧
      Building E h0 (its ++ [{ c := some q, kind := .value, uuid := u, name := nm, prog := pn, vs := vs }]) h' := by
  obtain ⟨hq, hk, hg⟩ := B.container hf rfl
  obtain ⟨h1, r1, g1, hl, hls⟩ := new_value (h := h) u nm pn vs
  have R1 := reach_newValue B.reach u nm pn (some vs)
  replace R1 : Reach E h1 := by rw [r1] at R1; exact R1
  have hlf := addElement_leaf (E := E) R1.good.inv (c := q) (x := h.size) (by have := g1.size; omega)
    (by have := g1.size; omega) (by omega) (congrArg Obj.parent g1.new) (congrArg Obj.subs g1.new)
    (by rw [g1.others q hq.2 (by simp)]; intro e; rw [e] at hk; cases hk)
    (by
      have e : (h1.get h.size).uuid = u := congrArg Obj.uuid g1.new
      rw [g1.others q hq.2 (by simp), e]; exact B.fresh hn rfl hq)
    (by rw [g1.others q hq.2 (by simp)]; intro _ _; exact hg)
  obtain ⟨h2, r2, g2⟩ := attach_new (E := E) R1.good.inv rfl g1 hq.2
    (by intro e; rw [e] at hk; cases hk) (B.fresh hn rfl hq) (fun _ _ => hg)
  obtain ⟨h2', r2', L⟩ := hlf
  rw [r2] at r2'
  cases r2'
  refine ⟨h1, h2, r1, r2, ?_, ?_⟩
  · refine B.placed.snoc B.reach.good.inv g2 ⟨rfl, rfl, rfl, rfl, rfl, rfl, rfl, (by intro h; cases h), rfl⟩
      ?_ (by rintro _ ⟨⟩; exact hq)
    intro _
    refine ⟨?_, ?_, rfl⟩
    · rw [L.nlists, hl]; exact Nat.lt_succ_self _
    · rw [L.lists]; exact hls
  · have := reach_add R1 (c := q) (x := h.size) (by have := g1.size; omega) (by have := g1.size; omega)
      (addSafe_leaf R1.good.inv (congrArg Obj.parent g1.new) (congrArg Obj.subs g1.new))
    rw [r2] at this
    exact this

theorem nodup_prefix {m : FullMsg} (W : m.WF) {n0 : Nat} {its rest : List Item} (h : m.items n0 = its ++ rest) :
    (its.map fun it => (it.c, it.uuid)).Nodup := by
  have := W.siblings n0
  rw [h, List.map_append] at this
  exact this.sublist (List.sublist_append_left _ _)

theorem decodeNodes_ok {E : Env} {m : FullMsg} (W : m.WF) {h0 : Heap} (ck : Clock) (root : Option Ref) :
    ∀ (todo done : List NodeMsg) (d : Dict Bytes Ref) (h : Heap), m.nodes = done ++ todo →
      (∀ n ∈ todo, n.parent ≠ none) →
      Building E h0 (done.map (nodeItem (m.at h0.size))) h → Cache h0.size (done.map (·.uuid)) d →
      ∃ d' h', decodeNodes E (some ck) todo d root h = (.ok (d', root), h') ∧
        Building E h0 (m.nodes.map (nodeItem (m.at h0.size))) h' ∧ Cache h0.size (m.nodes.map (·.uuid)) d' := by
  intro todo
  induction todo with
  | nil =>
    intro done d h hm _ B C
    rw [List.append_nil] at hm
    subst hm
    exact ⟨d, h, rfl, B, C⟩
  | cons n ns ih =>
    intro done d h hm hp B C
    obtain ⟨p, hpn⟩ := Option.ne_none_iff_exists'.1 (hp n (by simp))
    have hi : m.nodes[done.length]? = some n := by rw [hm]; simp
    obtain ⟨j, hj, hjp⟩ := W.nodes _ _ _ hi hpn
    have hat := FullMsg.at_of_get W.distinct h0.size hjp
    have hjd : j < (done.map (·.uuid)).length := by simpa using hj
    have hjp' : (done.map (·.uuid))[j]? = some p := by
      unfold FullMsg.uuids at hjp
      rw [hm, List.map_append, List.append_assoc, List.getElem?_append_left hjd] at hjp
      exact hjp
    have hitem : nodeItem (m.at h0.size) n =
        { c := some (h0.size + j), kind := .node, uuid := n.uuid, name := n.name, prog := .str n.qual } := by
      unfold nodeItem; rw [hpn, ← hat]; rfl
    have hpre : m.items h0.size = (done.map (nodeItem (m.at h0.size)) ++ [nodeItem (m.at h0.size) n]) ++
        (ns.map (nodeItem (m.at h0.size)) ++ (m.edges.map (edgeItem (m.at h0.size)) ++
          (m.rels.map (relItem (m.at h0.size)) ++ m.vals.map (valItem (m.at h0.size))))) := by
      unfold FullMsg.items; rw [hm]; simp
    have hnd := nodup_prefix W hpre
    rw [hitem] at hnd
    obtain ⟨h1, h2, r1, r2, _, B'⟩ := B.node ck n.name n.uuid (.str n.qual) hnd (by
      rintro q ⟨⟩
      refine ⟨j, nodeItem (m.at h0.size) (done[j]'(by simpa using hjd)), ?_, rfl, rfl⟩
      simp [List.getElem?_eq_getElem hj])
    have hsz := B.placed.size
    rw [List.length_map] at hsz
    have hud : (done.map (·.uuid) ++ [n.uuid]).Nodup := by
      have := W.distinct
      unfold FullMsg.uuids at this
      rw [hm] at this
      simp only [List.map_append, List.map_cons, List.append_assoc] at this
      rw [show done.map (·.uuid) ++ (n.uuid :: ns.map (·.uuid) ++ m.edges.map (·.uuid)) =
        (done.map (·.uuid) ++ [n.uuid]) ++ (ns.map (·.uuid) ++ m.edges.map (·.uuid)) by simp] at this
      exact this.sublist (List.sublist_append_left _ _)
    have C' := C.snoc hud
    rw [List.length_map, ← hsz] at C'
    obtain ⟨d', h', r', B'', C''⟩ := ih (done ++ [n]) (d.set n.uuid h.size) h2 (by rw [hm]; simp)
      (fun k hk => hp k (by simp [hk])) (by rw [List.map_append, List.map_singleton, hitem]; exact B')
      (by rw [List.map_append]; exact C')
    refine ⟨d', h', ?_, B'', C''⟩
    unfold decodeNodes
    rw [bind_ok r1, hpn]
    simp only
    have hcp : (d.set n.uuid h.size).get? p = some (h0.size + j) :=
      C' j p (by rw [List.getElem?_append_left hjd]; exact hjp')
    rw [bind_ok (cached_run hcp h1), bind_ok (r2 _ rfl)]
    exact r'

theorem decodeEdges_ok {E : Env} {m : FullMsg} (W : m.WF) {h0 : Heap} (ck : Clock) :
    ∀ (todo done : List EdgeMsg) (d : Dict Bytes Ref) (h : Heap), m.edges = done ++ todo →
      Building E h0 (m.nodes.map (nodeItem (m.at h0.size)) ++ done.map (edgeItem (m.at h0.size))) h →
      Cache h0.size (m.nodes.map (·.uuid) ++ done.map (·.uuid)) d →
      ∃ d' h', decodeEdges E (some ck) todo d h = (.ok d', h') ∧
        Building E h0 (m.nodes.map (nodeItem (m.at h0.size)) ++ m.edges.map (edgeItem (m.at h0.size))) h' ∧
        Cache h0.size m.uuids d' := by
  intro todo
  induction todo with
  | nil =>
    intro done d h hm B C
    rw [List.append_nil] at hm
    subst hm
    exact ⟨d, h, rfl, B, C⟩
  | cons e es ih =>
    intro done d h hm B C
    have hi : m.edges[done.length]? = some e := by rw [hm]; simp
    obtain ⟨j, hj, hjp⟩ := W.edges _ _ hi
    have hat := FullMsg.at_of_get W.distinct h0.size hjp
    have hjd : j < (m.nodes.map (·.uuid) ++ done.map (·.uuid)).length := by simpa using hj
    have hjp' : (m.nodes.map (·.uuid) ++ done.map (·.uuid))[j]? = some e.parent := by
      unfold FullMsg.uuids at hjp
      rw [hm, List.map_append, ← List.append_assoc, List.getElem?_append_left hjd] at hjp
      exact hjp
    have hitem : edgeItem (m.at h0.size) e =
        { c := some (h0.size + j), kind := .edge, uuid := e.uuid, name := e.name, prog := .str e.qual } := by
      unfold edgeItem; rw [← hat]
    have hpre : m.items h0.size = (m.nodes.map (nodeItem (m.at h0.size)) ++ done.map (edgeItem (m.at h0.size)) ++
        [edgeItem (m.at h0.size) e]) ++ (es.map (edgeItem (m.at h0.size)) ++
          (m.rels.map (relItem (m.at h0.size)) ++ m.vals.map (valItem (m.at h0.size)))) := by
      unfold FullMsg.items; rw [hm]; simp
    have hnd := nodup_prefix W hpre
    rw [hitem] at hnd
    obtain ⟨h1, r1, B'⟩ := B.edge ck e.name e.uuid (.str e.qual) hnd (by
      rintro q ⟨⟩
      by_cases hjn : j < m.nodes.length
      · refine ⟨j, nodeItem (m.at h0.size) m.nodes[j], ?_, rfl, rfl⟩
        rw [List.getElem?_append_left (by simpa using hjn)]
        simp [List.getElem?_eq_getElem hjn]
      · refine ⟨j, edgeItem (m.at h0.size) (done[j - m.nodes.length]'(by omega)), ?_, rfl, rfl⟩
        rw [List.getElem?_append_right (by simpa using hjn)]
        simp [List.getElem?_eq_getElem (show j - m.nodes.length < done.length by omega)])
    have hsz := B.placed.size
    have hud : ((m.nodes.map (·.uuid) ++ done.map (·.uuid)) ++ [e.uuid]).Nodup := by
      have := W.distinct
      unfold FullMsg.uuids at this
      rw [hm] at this
      simp only [List.map_append, List.map_cons] at this
      rw [show m.nodes.map (·.uuid) ++ (done.map (·.uuid) ++ (e.uuid :: es.map (·.uuid))) =
        (m.nodes.map (·.uuid) ++ done.map (·.uuid) ++ [e.uuid]) ++ es.map (·.uuid) by simp] at this
      exact this.sublist (List.sublist_append_left _ _)
    have C' := C.snoc hud
    rw [show h0.size + (m.nodes.map (·.uuid) ++ done.map (·.uuid)).length = h.size by
      rw [hsz]; simp] at C'
    obtain ⟨d', h', r', B'', C''⟩ := ih (done ++ [e]) (d.set e.uuid h.size) h1 (by rw [hm]; simp)
      (by rw [List.map_append, List.map_singleton, hitem, ← List.append_assoc]; exact B')
      (by rw [List.map_append, ← List.append_assoc]; exact C')
    refine ⟨d', h', ?_, B'', C''⟩
    unfold decodeEdges
    rw [bind_ok (cached_run (C j _ hjp') h), bind_ok r1]
    exact r'

theorem fits_uuid {m : FullMsg} (W : m.WF) {h0 : Heap} {u : Bytes} (hu : u ∈ m.uuids) (rest : List Item) :
    ∃ (j : Nat) (jt : Item), (m.nodes.map (nodeItem (m.at h0.size)) ++ m.edges.map (edgeItem (m.at h0.size)) ++
      rest)[j]? = some jt ∧ m.at h0.size u = h0.size + j ∧ jt.kind.isHElement = true := by
  obtain ⟨j, hj⟩ := List.getElem?_of_mem hu
  have hlt := (List.getElem?_eq_some_iff.1 hj).1
  have hlen : m.uuids.length = m.nodes.length + m.edges.length := by unfold FullMsg.uuids; simp
  have hat := FullMsg.at_of_get W.distinct h0.size hj
  by_cases hjn : j < m.nodes.length
  · refine ⟨j, nodeItem (m.at h0.size) m.nodes[j], ?_, hat, rfl⟩
    rw [List.append_assoc, List.getElem?_append_left (by simpa using hjn)]
    simp [List.getElem?_eq_getElem hjn]
  · refine ⟨j, edgeItem (m.at h0.size) (m.edges[j - m.nodes.length]'(by omega)), ?_, hat, rfl⟩
    rw [List.getElem?_append_left (by simp; omega), List.getElem?_append_right (by simpa using hjn)]
    simp [List.getElem?_eq_getElem (show j - m.nodes.length < m.edges.length by omega)]

theorem Cache.at {m : FullMsg} (W : m.WF) {n0 : Nat} {d : Dict Bytes Ref} (C : Cache n0 m.uuids d) {u : Bytes}
    (hu : u ∈ m.uuids) : d.get? u = some (m.at n0 u) := by
  obtain ⟨j, hj⟩ := List.getElem?_of_mem hu
  rw [FullMsg.at_of_get W.distinct n0 hj]
  exact C j u hj

theorem decodeRels_ok {E : Env} {m : FullMsg} (W : m.WF) {h0 : Heap} {d : Dict Bytes Ref}
    (C : Cache h0.size m.uuids d) :
    ∀ (todo done : List RelMsg) (h : Heap), m.rels = done ++ todo →
      Building E h0 (m.nodes.map (nodeItem (m.at h0.size)) ++ m.edges.map (edgeItem (m.at h0.size)) ++
        done.map (relItem (m.at h0.size))) h →
      ∃ h', decodeRels E todo d h = (.ok (), h') ∧
        Building E h0 (m.nodes.map (nodeItem (m.at h0.size)) ++ m.edges.map (edgeItem (m.at h0.size)) ++
          m.rels.map (relItem (m.at h0.size))) h' := by
  intro todo
  induction todo with
  | nil =>
    intro done h hm B
    rw [List.append_nil] at hm
    subst hm
    exact ⟨h, rfl, B⟩
  | cons r rs ih =>
    intro done h hm B
    obtain ⟨hre, hrp⟩ := W.rels r (by rw [hm]; simp)
    have hpre : m.items h0.size = (m.nodes.map (nodeItem (m.at h0.size)) ++ m.edges.map (edgeItem (m.at h0.size)) ++
        done.map (relItem (m.at h0.size)) ++ [relItem (m.at h0.size) r]) ++
        (rs.map (relItem (m.at h0.size)) ++ m.vals.map (valItem (m.at h0.size))) := by
      unfold FullMsg.items; rw [hm]; simp
    have hsz := B.placed.size
    have hv : m.at h0.size r.endpoint < h.size := by
      obtain ⟨j, jt, hj, e, _⟩ := fits_uuid W (h0 := h0) hrp (done.map (relItem (m.at h0.size)))
      have := (List.getElem?_eq_some_iff.1 hj).1
      omega
    obtain ⟨h1, h2, r1, r2, B'⟩ := B.relation r.name r.uuid (.str r.qual) (q := m.at h0.size r.edge) hv
      (nodup_prefix W hpre) (by rintro q ⟨⟩; exact fits_uuid W hre _)
    obtain ⟨h', r', B''⟩ := ih (done ++ [r]) h2 (by rw [hm]; simp)
      (by rw [List.map_append, List.map_singleton, ← List.append_assoc]; exact B')
    refine ⟨h', ?_, B''⟩
    unfold decodeRels
    rw [bind_ok (cached_run (C.at W hrp) h), bind_ok (cached_run (C.at W hre) h), bind_ok r1, bind_ok r2]
    exact r'

theorem decodeVals_ok {E : Env} {m : FullMsg} (W : m.WF) {h0 : Heap} {d : Dict Bytes Ref}
    (C : Cache h0.size m.uuids d) :
    ∀ (todo done : List ValMsg) (h : Heap), m.vals = done ++ todo →
      Building E h0 (m.nodes.map (nodeItem (m.at h0.size)) ++ m.edges.map (edgeItem (m.at h0.size)) ++
        m.rels.map (relItem (m.at h0.size)) ++ done.map (valItem (m.at h0.size))) h →
      ∃ h', decodeVals E todo d h = (.ok (), h') ∧ Building E h0 (m.items h0.size) h' := by
  intro todo
  induction todo with
  | nil =>
    intro done h hm B
    rw [List.append_nil] at hm
    subst hm
    exact ⟨h, rfl, B⟩
  | cons r rs ih =>
    intro done h hm B
    have hrp := W.vals r (by rw [hm]; simp)
    have hpre : m.items h0.size = (m.nodes.map (nodeItem (m.at h0.size)) ++ m.edges.map (edgeItem (m.at h0.size)) ++
        m.rels.map (relItem (m.at h0.size)) ++ done.map (valItem (m.at h0.size)) ++ [valItem (m.at h0.size) r]) ++
        (rs.map (valItem (m.at h0.size))) := by
      unfold FullMsg.items; rw [hm]; simp
    obtain ⟨h1, h2, r1, r2, B'⟩ := B.value r.name r.uuid (.bytes r.qual) r.values (q := m.at h0.size r.parent)
      (nodup_prefix W hpre) (by rintro q ⟨⟩; rw [List.append_assoc]; exact fits_uuid W hrp _)
    obtain ⟨h', r', B''⟩ := ih (done ++ [r]) h2 (by rw [hm]; simp)
      (by rw [List.map_append, List.map_singleton, ← List.append_assoc]; exact B')
    refine ⟨h', ?_, B''⟩
    unfold decodeVals
    rw [bind_ok r1, bind_ok (cached_run (C.at W hrp) h1), bind_ok r2]
    exact r'

/-- Decoding a well-formed message builds exactly the objects it describes. -/
theorem createGraph_ok {E : Env} {h0 : Heap} (R : Reach E h0) {m : FullMsg} (W : m.WF) (ck : Clock) :
    ∃ h', createGraph E (some ck) m h0 = (.ok (some h0.size,
        ({} : IndexHom).resetFromBijection (m.nodes.map fun n => (n.uuid, n.index))
          (m.edges.map fun e => (e.uuid, e.index)) (m.vals.map fun v => (v.uuid, v.index))), h') ∧
      Placed h0 (m.items h0.size) h' ∧ Reach E h' := by
  obtain ⟨r, ns, hm, hr, hns⟩ := W.root
  have B0 : Building E h0 [] h0 := ⟨.init h0, R⟩
  obtain ⟨h1, h2, r1, _, e2, B1⟩ := B0.node ck r.name r.uuid (.str r.qual) (c := none) (by simp)
    (by rintro q ⟨⟩)
  have e2 := e2 rfl
  subst e2
  have hitem : nodeItem (m.at h0.size) r =
      { c := none, kind := .node, uuid := r.uuid, name := r.name, prog := .str r.qual } := by
    unfold nodeItem; rw [hr]; rfl
  obtain ⟨d1, h2, r2, B2, C2⟩ := decodeNodes_ok W ck (some h0.size) ns [r] (Dict.set ([] : Dict Bytes Ref) r.uuid h0.size) h2
    (by rw [hm]; rfl) hns (by rw [List.map_singleton, hitem]; exact B1)
    (by
      have C0 : Cache h0.size [] [] := by intro i u h; simp at h
      exact C0.snoc (u := r.uuid) (by simp))
  obtain ⟨d2, h3, r3, B3, C3⟩ := decodeEdges_ok W ck m.edges [] d1 h2 rfl (by simpa using B2) (by simpa using C2)
  obtain ⟨h4, r4, B4⟩ := decodeRels_ok W C3 m.rels [] h3 rfl (by simpa using B3)
  obtain ⟨h5, r5, B5⟩ := decodeVals_ok W C3 m.vals [] h4 rfl (by simpa using B4)
  refine ⟨h5, ?_, B5.placed, B5.reach⟩
  unfold createGraph
  have r0 : decodeNodes E (some ck) m.nodes [] none h0 = (.ok (d1, some h0.size), h2) := by
    rw [hm]
    unfold decodeNodes
    rw [bind_ok r1, hr]
    exact r2
  rw [bind_ok r0, bind_ok r3, bind_ok r4, bind_ok r5]
  rfl

end Rei
