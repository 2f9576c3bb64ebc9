import Verif.Props.DirectedPlan
import Verif.Props.EncodingTensor
import Verif.Props.EncodingCoo

/-!
# C118: planned graphs, sent and received
-/
namespace Rei
open PyM

/-- The graph can be sent, if no edge has its name. -/
theorem Stage.sendable {E : Env} (inj : Function.Injective E.sha) {F : Factory} {name : Str} {nodes : List Str} {c : Ref}
    {ns es : List Ref} {lines : List (Str × List Nat)} {h : Heap} (s : Stage E F name nodes c ns lines es h)
    (p : GraphPlan nodes lines) (hn : name ∉ lines.map Prod.fst) : Sendable h c where
  exists_ := s.lt
  node := s.kind
  root := s.root
  distinct := by
    intro x hx
    rw [s.graph.subNodes, s.graph.subEdges] at hx
    obtain ⟨t, ht⟩ := s.top
    rcases List.mem_append.1 hx with hx | hx
    · obtain ⟨a, t', -, ne, e⟩ := s.nodeUuid x hx
      rw [ht, e]
      exact fun q => ne (uidOf_time inj q).1
    · obtain ⟨l, hl, t', e⟩ := s.edgeUuid x hx
      rw [ht, e]
      intro q
      refine hn ?_
      rw [← s.name, ← (uidOf_time inj q).1]
      exact List.mem_map_of_mem hl
  closed := by
    intro x hx r hr
    obtain ⟨v, hv, e⟩ := (s.graph.context p).closed r ⟨x, hx, hr⟩
    exact ⟨v, e, .inr (.inl hv)⟩

theorem DStage.sendable {E : Env} (inj : Function.Injective E.sha) {F : Factory} {name : Str} {nodes : List Str} {c : Ref}
    {ns es : List Ref} {lines : List (Str × List PlanEnd)} {h0 h : Heap} (s : DStage E F name nodes c ns lines es h)
    (p : DirectedPlan h0 nodes lines) (K : Keeps h0 h) (hn : name ∉ lines.map Prod.fst) : Sendable h c where
  exists_ := s.lt
  node := s.kind
  root := s.root
  distinct := by
    intro x hx
    rw [s.graph.subNodes, s.graph.subEdges] at hx
    obtain ⟨t, ht⟩ := s.top
    rcases List.mem_append.1 hx with hx | hx
    · obtain ⟨a, t', -, ne, e⟩ := s.nodeUuid x hx
      rw [ht, e]
      exact fun q => ne (uidOf_time inj q).1
    · obtain ⟨l, hl, t', e⟩ := s.edgeUuid x hx
      rw [ht, e]
      intro q
      refine hn ?_
      rw [← s.name, ← (uidOf_time inj q).1]
      exact List.mem_map_of_mem hl
  closed := by
    intro x hx r hr
    obtain ⟨v, hv, e⟩ := (s.graph.context p K).closed r ⟨x, hx, hr⟩
    exact ⟨v, e, .inr (.inl hv)⟩

theorem DStage.shallow {E : Env} {F : Factory} {name : Str} {nodes : List Str} {c : Ref}
    {ns es : List Ref} {lines : List (Str × List PlanEnd)} {h0 h : Heap} (s : DStage E F name nodes c ns lines es h)
    (p : DirectedPlan h0 nodes lines) (K : Keeps h0 h) : Shallow h c := by
  intro r hr v hv
  obtain ⟨u, hu, e⟩ := (s.graph.context p K).closed r hr
  rw [hv] at e
  obtain rfl := Option.some.inj e
  rw [s.graph.subNodes] at hu
  unfold relationsUnder
  rw [s.hollow v hu]
  rfl

/-- Enough stack for numbering the elements. -/
theorem homBudget_exists (h : Heap) (c : Ref) : ∃ N, ∀ budget ≥ N, HomBudget h h.size false budget c :=
  ⟨max (breadthFirst h (isNode h) false c h.size).length (max (breadthFirst h (isEdge h) false c h.size).length
    (breadthFirst h (isValue h) false c h.size).length) + 1, fun b hb => ⟨by omega, by omega, by omega⟩⟩

theorem PlanTensors.copy {h b h' : Heap} {c c' : Ref} {φ : Ref → Ref} {name : Str} {nodes : List Str} {lines : List (Str × List Nat)}
    {ns es : List Ref} {T T' : Tensors} (g : GraphIn h name nodes lines c ns es) (P : PlanTensors nodes lines T)
    (C : Copy h c b h' c' φ) (S : SameRepresentation h c T h' c' T' φ φ) : PlanTensors nodes lines T' := by
  have node : ∀ i < nodes.length, ∃ v, (h.subNodes c)[i]? = some v ∧ (h'.subNodes c')[i]? = some (φ v) := fun i hi => by
    rw [← g.nodeLength, ← g.subNodes] at hi
    exact ⟨_, List.getElem?_eq_getElem hi, by rw [C.nodes, List.getElem?_map, List.getElem?_eq_getElem hi]; rfl⟩
  have edge : ∀ (e : Nat) (l : Str × List Nat), lines[e]? = some l →
      ∃ x, (h.subEdges c)[e]? = some x ∧ (h'.subEdges c')[e]? = some (φ x) := fun e l hl => by
    have := (List.getElem?_eq_some_iff.1 hl).1
    rw [← g.edgeLength, ← g.subEdges] at this
    exact ⟨_, List.getElem?_eq_getElem this, by rw [C.edges, List.getElem?_map, List.getElem?_eq_getElem this]; rfl⟩
  refine ⟨by rw [S.ne, P.layers], by rw [S.nn, P.rows], ?_, ?_, ?_, ?_, by rw [S.totalDegree, P.total], ?_, ?_⟩
  · intro e l he i hi j hj
    obtain ⟨x, x1, x2⟩ := edge e l he
    obtain ⟨v, v1, v2⟩ := node i hi
    obtain ⟨u, u1, u2⟩ := node j hj
    rw [S.W _ _ _ _ _ _ _ _ _ x1 v1 u1 x2 v2 u2, P.W e l he i hi j hj]
  · intro e l he i hi
    obtain ⟨x, x1, x2⟩ := edge e l he
    obtain ⟨v, v1, v2⟩ := node i hi
    rw [(S.incidence _ _ _ _ _ _ x1 v1 x2 v2).1, P.Io e l he i hi]
  · intro e l he i hi
    obtain ⟨x, x1, x2⟩ := edge e l he
    obtain ⟨v, v1, v2⟩ := node i hi
    rw [(S.incidence _ _ _ _ _ _ x1 v1 x2 v2).2, P.Ii e l he i hi]
  · intro i hi
    obtain ⟨v, v1, v2⟩ := node i hi
    rw [S.degree _ _ _ v1 v2, P.degree i hi]
  · intro i hi j hj
    obtain ⟨v, v1, v2⟩ := node i hi
    obtain ⟨u, u1, u2⟩ := node j hj
    rw [S.projected _ _ _ _ _ _ v1 u1 v2 u2, P.projected i hi j hj]
  · intro h2
    rw [S.entropy, P.entropy h2]

/-- The node `c` contains the nodes and the edges of the plan and nothing else that a message describes. -/
structure ReceivedAs (h : Heap) (name : Str) (nodes : List Str) (lines : List (Str × List Nat)) (c : Ref) : Prop where
  name : (h.get c).idName = name
  nodeNames : (h.subNodes c).map (fun n => (h.get n).idName) = nodes
  edgeNames : (h.subEdges c).map (fun e => (h.get e).idName) = lines.map Prod.fst
  ends : (h.subEdges c).map h.inducedSubset = lines.map fun l => l.2.map ((h.subNodes c)[·]?)

/-- **C118, the decoded graph.** A graph built from a plan, where no edge has the name of the graph, can be encoded, and the
message can be decoded in any other world: the new node there has the plan's name, nodes, edges and incidences, and its
conversion gives the tensors, degrees, Laplacian and entropy the plan says. -/
theorem C118_received {E E' : Env} (inj : Function.Injective E.sha) {h b : Heap} (R : Reach E h) (Rb : Reach E' b) {F : Factory}
    (hF : F.clock ≠ none) {name : Str} {nodes : List Str} {lines : List (Str × List Nat)} (p : GraphPlan nodes lines)
    (hn : name ∉ lines.map Prod.fst) (ck : Clock) :
    ∃ c ns es h', F.createGraph E name nodes lines h = (.ok (c, ns, es), h') ∧
      ∀ I J : Icon, I.context = c → I.rels = [] → J.clock = some ck → ∃ N, ∀ budget ≥ N, ∃ I1 I2 J' msg h'',
        I.updateContext h' budget c [] = (.ok (), I1, []) ∧ I1.fullMsg h' = (.ok msg, I2) ∧
        J.createGraph E' msg b = (.ok (some b.size), J', h'') ∧ ReceivedAs h'' name nodes lines b.size ∧
        ((∀ l ∈ lines, l.2.length ≠ 1) → ∃ T', TensorOf h'' b.size T' ∧ PlanTensors nodes lines T') := by
  obtain ⟨c, ns, es, h', run, s⟩ := graph_stage inj R hF name p
  have g := s.graph
  refine ⟨c, ns, es, h', run, ?_⟩
  rintro I J rfl hr hJ
  obtain ⟨N, hN⟩ := homBudget_exists h' I.context
  refine ⟨N, fun budget hb => ?_⟩
  obtain ⟨T, hT⟩ := C34_converts s.reach (g.context p)
  obtain ⟨I1, I2, J', msg, h'', φ, T', e1, e2, e3, hT', C, S, -⟩ := C109_undirected_partial s.reach Rb I (s.sendable inj p hn)
    (g.context p) g.unweighted g.undir hT hr J hJ (hN budget hb)
  have part : ∀ x, x ∈ I.context :: h'.subNodes I.context ++ h'.subEdges I.context → x ∈ h'.messageParts I.context := by
    intro x hx
    unfold Heap.messageParts
    simp only [List.mem_append, List.mem_cons] at hx ⊢
    tauto
  refine ⟨I1, I2, J', msg, h'', e1, e2, e3, ⟨?_, ?_, ?_, ?_⟩, fun p1 => ⟨T', hT', (g.tensors s.reach p p1 hT).copy g C S⟩⟩
  · rw [← C.top, C.name _ (part _ (by simp)), g.name]
  · rw [C.nodes, List.map_map, ← g.nodeNames, ← g.subNodes]
    exact List.map_congr_left fun x hx => C.name x (part x (by simp [hx]))
  · rw [C.edges, List.map_map, ← g.edgeNames, ← g.subEdges]
    exact List.map_congr_left fun x hx => C.name x (part x (by simp [hx]))
  · have each : ∀ x ∈ h'.subEdges I.context, h''.inducedSubset (φ x) = (h'.inducedSubset x).map (Option.map φ) := by
      intro x hx
      unfold Heap.inducedSubset
      rw [C.relations x hx, List.map_map, List.map_map]
      exact List.map_congr_left fun r hr => C.endpoints x hx r hr
    rw [C.edges, List.map_map, List.map_congr_left (f := h''.inducedSubset ∘ φ) (g := fun x => (h'.inducedSubset x).map (Option.map φ)) each]
    have := congrArg (List.map (List.map (Option.map φ))) g.ends
    rw [List.map_map, List.map_map] at this
    rw [g.subEdges]
    refine Eq.trans this (List.map_congr_left fun l hl => ?_)
    simp only [Function.comp_apply, List.map_map]
    refine List.map_congr_left fun i hi => ?_
    rw [C.nodes, g.subNodes, List.getElem?_map]
    rfl

/-- **C118, the coordinates.** A graph built from a plan with directions and weights, where no edge has the name of the graph,
can be encoded by a new transformer, and the coordinate list of the message describes exactly the tensors the plan says. -/
theorem C118_coordinates {E : Env} (inj : Function.Injective E.sha) {h : Heap} (R : Reach E h) {F : Factory}
    (hF : F.clock ≠ none) {name : Str} {nodes : List Str} {lines : List (Str × List PlanEnd)} (p : DirectedPlan h nodes lines)
    (hn : name ∉ lines.map Prod.fst) :
    ∃ c ns es h', F.createDirected E name nodes lines h = (.ok (c, ns, es), h') ∧
      ∀ I : Icon, I.context = c → I.coo = [] → ∃ N, ∀ budget ≥ N, ∃ I1 m I2 I3 msg T,
        I.updateContext h' budget c [] = (.ok (), I1, []) ∧ I1.hom = some m ∧ I1.updateCoo m h' budget [] = (.ok (), I2, []) ∧
        I2.fullMsg h' = (.ok msg, I3) ∧ TensorOf h' c T ∧ DirectedTensors h nodes lines T ∧ CoordinatesOf msg T := by
  obtain ⟨c, ns, es, h', run, s, K, C⟩ := directed_stage inj R hF name p
  have g := s.graph
  refine ⟨c, ns, es, h', run, ?_⟩
  rintro I rfl hc
  obtain ⟨N, hN⟩ := homBudget_exists h' I.context
  obtain ⟨T, hT⟩ := C34_converts s.reach (g.context p K)
  obtain ⟨N', hN'⟩ := updateCoo_ok s.reach (s.sendable inj p K hn) (g.context p K) (s.shallow p K)
  obtain ⟨a1, a2, a3⟩ := hom_has (s.sendable inj p K hn)
  refine ⟨max N N', fun budget hb => ⟨_, contextHom h' I.context, _, _, _, T, updateContext_ok s.reach I s.lt (hN budget (by omega)),
    rfl, hN' budget (by omega) _ rfl, fullMsg_acc (I := { I with hom := some (contextHom h' I.context), coo := _ })
      (m := contextHom h' I.context) s.reach (s.sendable inj p K hn) rfl rfl a1 a2 a3, hT,
    (g.tensors s.reach p K hT).calm C p, ?_⟩⟩
  refine coordinates s.reach (s.sendable inj p K hn) (g.context p K) hT (A := []) (by simp [Current]) rfl rfl ?_
  rw [hc]
  rfl

namespace Sample

/-- The graph `x` with the edges `x` and `y`, made with a clock that always reads the same. -/
def xGraph : Except Err (Ref × List Ref × List Ref) × Heap :=
  (⟨['x'], some .dummy⟩ : Factory).createGraph E1 ['x'] [['a'], ['b']] [(['x'], [0, 1]), (['y'], [0, 1])] Heap.empty

def xIcon : Icon := { clock := some .dummy, context := 0 }
def xContext : Except Err Unit × Icon × Fringe := xIcon.updateContext xGraph.2 100 0 []
def xMsg : Except Err FullMsg × Icon := xContext.2.1.fullMsg xGraph.2
def xBack : Except Err (Option Ref) × Icon × Heap :=
  match xMsg.1 with
  | .ok m => xIcon.createGraph E1 m Heap.empty
  | .error e => (.error e, xIcon, Heap.empty)


/-- The Fano plane, sent to a world with a value node. -/
example : ∃ c ns es h', createFano E1 "fano".toList (some .dummy) Heap.empty = (.ok (c, ns, es), h') ∧
    ∀ I J : Icon, I.context = c → I.rels = [] → J.clock = some .dummy → ∃ N, ∀ budget ≥ N, ∃ I1 I2 J' msg h'',
      I.updateContext h' budget c [] = (.ok (), I1, []) ∧ I1.fullMsg h' = (.ok msg, I2) ∧
      J.createGraph E1 msg valueWorld = (.ok (some valueWorld.size), J', h'') ∧
      ∃ T', TensorOf h'' valueWorld.size T' ∧ T'.totalDegree = 21 := by
  obtain ⟨c, ns, es, h', run, q⟩ := C118_received (E := E1) (E' := E1) wideSha_injective .init reach_valueWorld
    (F := ⟨"fano".toList, some .dummy⟩) (by simp) (name := "fano".toList) fano_plan (by decide +kernel) .dummy
  refine ⟨c, ns, es, h', run, fun I J i1 i2 i3 => ?_⟩
  obtain ⟨N, hN⟩ := q I J i1 i2 i3
  refine ⟨N, fun budget hb => ?_⟩
  obtain ⟨I1, I2, J', msg, h'', e1, e2, e3, -, t⟩ := hN budget hb
  obtain ⟨T', hT', P⟩ := t (by decide +kernel)
  refine ⟨I1, I2, J', msg, h'', e1, e2, e3, T', hT', ?_⟩
  rw [P.total, show (fanoLines.map fun l => l.2.length).sum = 21 by decide +kernel]
  norm_num

/-- Three arcs with a weight, encoded. -/
example : ∃ c ns es h', F1.createDirected E1 ['g'] [['a'], ['b'], ['c']] ([⟨['x'], 0, 1, some 0⟩, ⟨['y'], 1, 2, none⟩,
    ⟨['z'], 0, 2, none⟩].map Arc.line) valueWorld = (.ok (c, ns, es), h') ∧
    ∀ I : Icon, I.context = c → I.coo = [] → ∃ N, ∀ budget ≥ N, ∃ I1 m I2 I3 msg T,
      I.updateContext h' budget c [] = (.ok (), I1, []) ∧ I1.hom = some m ∧ I1.updateCoo m h' budget [] = (.ok (), I2, []) ∧
      I2.fullMsg h' = (.ok msg, I3) ∧ CoordinatesOf msg T ∧ T.W 0 0 1 = 5 / 2 := by
  obtain ⟨c, ns, es, h', run, q⟩ := C118_coordinates (E := E1) wideSha_injective reach_valueWorld (F := F1) (by decide)
    (name := ['g']) arcs_plan.plan (by decide +kernel)
  refine ⟨c, ns, es, h', run, fun I i1 i2 => ?_⟩
  obtain ⟨N, hN⟩ := q I i1 i2
  refine ⟨N, fun budget hb => ?_⟩
  obtain ⟨I1, m, I2, I3, msg, T, e1, e2, e3, e4, -, D, P⟩ := hN budget hb
  refine ⟨I1, m, I2, I3, msg, T, e1, e2, e3, e4, P, ?_⟩
  rw [(D.digraph arcs_plan).W 0 _ rfl 0 (by decide) 1 (by decide), if_pos ⟨rfl, rfl⟩]
  decide +kernel

end Sample

/-- **C118 needs the names to differ.** With a clock that stands still, an edge with the name of the graph has the graph's
identifier; the message of such a graph with two edges is decoded without an error, but the new node has one edge. -/
theorem C118_name_refuted : ∃ (E : Env) (F : Factory) (name : Str) (nodes : List Str) (lines : List (Str × List Nat)) (c : Ref)
    (ns es : List Ref) (h' : Heap) (I I1 I2 J J' : Icon) (msg : FullMsg) (h'' : Heap), Function.Injective E.sha ∧
    F.clock ≠ none ∧ GraphPlan nodes lines ∧ F.createGraph E name nodes lines Heap.empty = (.ok (c, ns, es), h') ∧
    I.context = c ∧ I.rels = [] ∧ I.updateContext h' 100 c [] = (.ok (), I1, []) ∧ I1.fullMsg h' = (.ok msg, I2) ∧
    J.clock = some .dummy ∧ J.createGraph E msg Heap.empty = (.ok (some 0), J', h'') ∧ lines.length = 2 ∧
    (h''.subEdges 0).length = 1 ∧ ¬ ReceivedAs h'' name nodes lines 0 := by
  open Sample in
  have e1 : xGraph.1 = .ok (0, [1, 2], [3, 8]) := by decide +kernel
  have e2 : xContext.1 = .ok () ∧ xContext.2.2 = [] := by decide +kernel
  have e3 : (match xMsg.1 with | .ok _ => true | .error _ => false) = true := by decide +kernel
  have e4 : xBack.1 = .ok (some 0) := by decide +kernel
  have e5 : (xBack.2.2.subEdges 0).length = 1 := by decide +kernel
  obtain ⟨msg, hm⟩ : ∃ msg, xMsg.1 = .ok msg := by
    cases q : xMsg.1 with
    | ok m => exact ⟨m, rfl⟩
    | error e => rw [q] at e3; cases e3
  have b : xBack = xIcon.createGraph E1 msg Heap.empty := by unfold xBack; rw [hm]
  refine ⟨E1, ⟨['x'], some .dummy⟩, ['x'], [['a'], ['b']], [(['x'], [0, 1]), (['y'], [0, 1])], 0, [1, 2], [3, 8], xGraph.2, xIcon,
    xContext.2.1, xMsg.2, xIcon, xBack.2.1, msg, xBack.2.2, wideSha_injective, by simp, ?_, ?_, rfl, rfl, ?_, ?_, rfl, ?_, rfl, e5, ?_⟩
  · exact ⟨by decide +kernel, by decide +kernel, by decide +kernel, by decide +kernel, by decide +kernel⟩
  · show xGraph = (.ok (0, [1, 2], [3, 8]), xGraph.2)
    rw [← e1]
  · show xContext = (.ok (), xContext.2.1, [])
    rw [← e2.1, ← e2.2]
  · show xMsg = (.ok msg, xMsg.2)
    rw [← hm]
  · rw [← b, ← e4]
  · intro r
    have := congrArg List.length r.edgeNames
    rw [List.length_map, e5] at this
    cases this

end Rei
