import Verif.Props.Encoding
import Verif.Props.Isomorphism

/-!
# C109: the tensors of a decoded graph
-/
namespace Rei
open Sample

/-- **C109, what the receiver computes.** Encode any context that can be sent and converted, decode the message in any other
program state, and convert the decoded graph: the result has the rows, columns and layers of the original in the same
order, and the weight of an entry is 1 or 0, according as the two nodes are different endpoints of the edge or not,
whatever directions and weights the relations have. -/
theorem C109_decoded {E E' : Env} {h b : Heap} (R : Reach E h) (Rb : Reach E' b) (I : Icon)
    (S : Sendable h I.context) (K : Context h I.context) (hr : I.rels = []) (J : Icon) {ck : Clock}
    (hck : J.clock = some ck) {budget : Nat} (hb : HomBudget h h.size false budget I.context) :
    ∃ I1 I2 J' msg h' φ T', I.updateContext h budget I.context [] = (.ok (), I1, []) ∧
      I1.fullMsg h = (.ok msg, I2) ∧ J.createGraph E' msg b = (.ok (some b.size), J', h') ∧
      Reach E' h' ∧ Context h' b.size ∧ Unweighted h' b.size ∧ Undirected h' b.size ∧
      Copy h I.context b h' b.size φ ∧ TensorOf h' b.size T' ∧
      T'.ne = (h.subEdges I.context).length ∧ T'.nn = (h.subNodes I.context).length ∧
      ∀ e i j x v u, (h.subEdges I.context)[e]? = some x → (h.subNodes I.context)[i]? = some v →
        (h.subNodes I.context)[j]? = some u →
        T'.W e i j = if v ≠ u ∧ Endpoint h x v ∧ Endpoint h x u then 1 else 0 := by
  obtain ⟨h1, h2, h3⟩ := hom_has S
  have hf := fullMsg_ok R S (I := { I with hom := some (contextHom h I.context) }) rfl rfl hr h1 h2 h3
  obtain ⟨h', r, R', Ko, C, D⟩ := encoded_createGraph R S (contextHom h I.context) I.coo Rb ck
  obtain ⟨J', rr⟩ : ∃ J', J.createGraph E' (encoded h (contextHom h I.context) I.context I.coo) b =
      (.ok (some b.size), J', h') := ⟨_, by unfold Icon.createGraph; rw [hck, r]⟩
  have part : ∀ {e q}, e ∈ h.subEdges I.context → q ∈ h.subRelations e → q ∈ h.messageParts I.context := fun he hq =>
    mem_messageParts.2 (.inr (.inr (.inr (.inl ⟨_, he, hq⟩))))
  have pn : ∀ {v}, v ∈ h.subNodes I.context → v ∈ h.messageParts I.context := fun hv =>
    mem_messageParts.2 (.inr (.inl hv))
  have back : ∀ q, RelationIn h' b.size q → ∃ e ∈ h.subEdges I.context, ∃ p ∈ h.subRelations e, q = copyOf h I.context b.size p := by
    rintro q ⟨x, hx, hq⟩
    rw [C.edges] at hx
    obtain ⟨e, he, rfl⟩ := List.mem_map.1 hx
    rw [C.relations e he] at hq
    obtain ⟨p, hp, rfl⟩ := List.mem_map.1 hq
    exact ⟨e, he, p, hp, rfl⟩
  have flat : ∀ q, RelationIn h' b.size q → (h'.get q).direction = .bidirectional ∧ (h'.get q).weight = none := by
    intro q hq
    obtain ⟨e, he, p, hp, rfl⟩ := back q hq
    obtain ⟨a1, a2⟩ := C.fresh p (part he hp)
    exact ⟨(D _ a1 a2).1, (D _ a1 a2).2.1⟩
  have hw : Unweighted h' b.size := fun q hq => (flat q hq).2
  have hd : Undirected h' b.size := fun q hq => (flat q hq).1
  have K' : Context h' b.size := by
    refine ⟨?_, ?_, hw.valueWeights⟩
    · have := C.kind I.context (mem_messageParts.2 (.inl rfl))
      rw [C.top] at this
      rw [this, S.node]
    · intro q hq
      obtain ⟨e, he, p, hp, rfl⟩ := back q hq
      obtain ⟨v, hv, ev⟩ := K.closed p ⟨e, he, hp⟩
      refine ⟨copyOf h I.context b.size v, ?_, ?_⟩
      · rw [C.nodes]; exact List.mem_map_of_mem hv
      · rw [C.endpoints e he p hp, ev]; rfl
  obtain ⟨T', hT'⟩ := C34_converts R' K'
  have En := hT'.entries R' K'
  have ends : ∀ {x v}, x ∈ h.subEdges I.context → v ∈ h.subNodes I.context →
      (Endpoint h' (copyOf h I.context b.size x) (copyOf h I.context b.size v) ↔ Endpoint h x v) := by
    intro x v hx hv
    constructor
    · rintro ⟨q, hq, eq⟩
      rw [C.relations x hx] at hq
      obtain ⟨p, hp, rfl⟩ := List.mem_map.1 hq
      obtain ⟨u, hu, eu⟩ := K.closed p ⟨x, hx, hp⟩
      rw [C.endpoints x hx p hp, eu] at eq
      have := C.inj u (pn hu) v (pn hv) (Option.some.inj eq)
      subst this
      exact ⟨p, hp, eu⟩
    · rintro ⟨p, hp, ep⟩
      refine ⟨copyOf h I.context b.size p, ?_, ?_⟩
      · rw [C.relations x hx]; exact List.mem_map_of_mem hp
      · rw [C.endpoints x hx p hp, ep]; rfl
  refine ⟨_, _, J', _, h', copyOf h I.context b.size, T', updateContext_ok R I S.exists_ hb, hf, rr, R', K', hw, hd, C, hT', ?_, ?_, ?_⟩
  · rw [En.ne, C.edges, List.length_map]
  · rw [En.nn, C.nodes, List.length_map]
  · intro e i j x v u hx hv hu
    have mx := List.mem_of_getElem? hx
    have mv := List.mem_of_getElem? hv
    have mu := List.mem_of_getElem? hu
    obtain ⟨a, b', -⟩ := C34_undirected R' K' hw hd hT' (e := e) (i := i) (j := j) (x := copyOf h I.context b.size x)
      (v := copyOf h I.context b.size v) (u := copyOf h I.context b.size u)
      (by rw [C.edges, List.getElem?_map, hx]; rfl) (by rw [C.nodes, List.getElem?_map, hv]; rfl)
      (by rw [C.nodes, List.getElem?_map, hu]; rfl)
    rw [ends mx mv, ends mx mu] at a b'
    have ne : copyOf h I.context b.size v ≠ copyOf h I.context b.size u ↔ v ≠ u :=
      not_congr ⟨fun q => C.inj v (pn mv) u (pn mu) q, fun q => by rw [q]⟩
    rw [ne] at a b'
    split
    · exact a ‹_›
    · exact b' ‹_›

/-- **C109 for undirected graphs without weights.** The receiver's representation is the sender's: the same entries in the
same places, and the same degrees, Laplacians and entropies. -/
theorem C109_undirected_partial {E E' : Env} {h b : Heap} (R : Reach E h) (Rb : Reach E' b) (I : Icon)
    (S : Sendable h I.context) (K : Context h I.context) (hw : Unweighted h I.context) (hd : Undirected h I.context)
    {T : Tensors} (hT : TensorOf h I.context T) (hr : I.rels = []) (J : Icon) {ck : Clock}
    (hck : J.clock = some ck) {budget : Nat} (hb : HomBudget h h.size false budget I.context) :
    ∃ I1 I2 J' msg h' φ T', I.updateContext h budget I.context [] = (.ok (), I1, []) ∧
      I1.fullMsg h = (.ok msg, I2) ∧ J.createGraph E' msg b = (.ok (some b.size), J', h') ∧
      TensorOf h' b.size T' ∧ Copy h I.context b h' b.size φ ∧ SameRepresentation h I.context T h' b.size T' φ φ ∧
      ∀ e i j, e < T.ne → i < T.nn → j < T.nn → T'.W e i j = T.W e i j := by
  obtain ⟨I1, I2, J', msg, h', φ, T', e1, e2, e3, R', K', hw', hd', C, hT', -, -, hW⟩ := C109_decoded R Rb I S K hr J hck hb
  have En := hT.entries R K
  refine ⟨I1, I2, J', msg, h', φ, T', e1, e2, e3, hT', C, ?_, ?_⟩
  · refine C107_same_structure R R' K K' hT hT' ⟨by rw [C.nodes], by rw [C.edges]⟩ ?_
    intro x hx
    unfold SameRelations
    rw [C.relations x hx, List.forall₂_map_right_iff, List.forall₂_same]
    intro r hr
    have hr' : RelationIn h' b.size (φ r) := ⟨φ x, by rw [C.edges]; exact List.mem_map_of_mem hx,
      by rw [C.relations x hx]; exact List.mem_map_of_mem hr⟩
    refine ⟨C.endpoints x hx r hr, ?_, ?_⟩
    · rw [hd' _ hr', hd r ⟨x, hx, hr⟩]
    · unfold weightOf
      rw [hw' _ hr', hw r ⟨x, hx, hr⟩]
  · intro e i j he hi hj
    rw [En.ne] at he
    rw [En.nn] at hi hj
    obtain ⟨a, b', -⟩ := C34_undirected R K hw hd hT (List.getElem?_eq_getElem he) (List.getElem?_eq_getElem hi)
      (List.getElem?_eq_getElem hj)
    rw [hW e i j _ _ _ (List.getElem?_eq_getElem he) (List.getElem?_eq_getElem hi) (List.getElem?_eq_getElem hj)]
    split
    · exact (a ‹_›).symm
    · exact (b' ‹_›).symm

/-- **C109, exactly when.** The receiver's weight tensor is the sender's exactly if the sender's has a 1 for any two
different endpoints of an edge. -/
theorem C109_exactly_when {E E' : Env} {h b : Heap} (R : Reach E h) (Rb : Reach E' b) (I : Icon)
    (S : Sendable h I.context) (K : Context h I.context) {T : Tensors} (hT : TensorOf h I.context T) (hr : I.rels = [])
    (J : Icon) {ck : Clock} (hck : J.clock = some ck) {budget : Nat} (hb : HomBudget h h.size false budget I.context) :
    ∃ I1 I2 J' msg h' T', I.updateContext h budget I.context [] = (.ok (), I1, []) ∧
      I1.fullMsg h = (.ok msg, I2) ∧ J.createGraph E' msg b = (.ok (some b.size), J', h') ∧
      TensorOf h' b.size T' ∧ T'.ne = T.ne ∧ T'.nn = T.nn ∧
      ((∀ e i j, e < T.ne → i < T.nn → j < T.nn → T'.W e i j = T.W e i j) ↔
        ∀ e i j x v u, (h.subEdges I.context)[e]? = some x → (h.subNodes I.context)[i]? = some v →
          (h.subNodes I.context)[j]? = some u → v ≠ u → Endpoint h x v → Endpoint h x u → T.W e i j = 1) := by
  obtain ⟨I1, I2, J', msg, h', φ, T', e1, e2, e3, R', K', hw', hd', C, hT', n1, n2, hW⟩ := C109_decoded R Rb I S K hr J hck hb
  have En := hT.entries R K
  refine ⟨I1, I2, J', msg, h', T', e1, e2, e3, hT', n1.trans En.ne.symm, n2.trans En.nn.symm, ?_, ?_⟩
  · intro q e i j x v u hx hv hu ne hv' hu'
    rw [← q e i j (by rw [En.ne]; exact (List.getElem?_eq_some_iff.1 hx).1)
      (by rw [En.nn]; exact (List.getElem?_eq_some_iff.1 hv).1) (by rw [En.nn]; exact (List.getElem?_eq_some_iff.1 hu).1),
      hW e i j x v u hx hv hu, if_pos ⟨ne, hv', hu'⟩]
  · intro q e i j he hi hj
    rw [En.ne] at he
    rw [En.nn] at hi hj
    have hx := List.getElem?_eq_getElem he
    have hv := List.getElem?_eq_getElem hi
    have hu := List.getElem?_eq_getElem hj
    rw [hW e i j _ _ _ hx hv hu]
    split
    · next c => exact (q e i j _ _ _ hx hv hu c.1 c.2.1 c.2.2).symm
    · next c =>
      have L := En.W e i j _ _ _ hx hv hu
      rcases L with ⟨l1, r, l2, -, P, -, -⟩ | ⟨-, z⟩
      · exact absurd ⟨P.2.1, P.2.2.1, P.2.2.2.1⟩ c
      · exact z.symm

/-- **C109 is false of directed graphs.** Whenever an edge has two endpoints, and leads neither in at the first nor out at
the second, the sender's tensor has a 0 where the receiver's has a 1. -/
theorem C109_directed_refuted {E E' : Env} {h b : Heap} (R : Reach E h) (Rb : Reach E' b) (I : Icon)
    (S : Sendable h I.context) (K : Context h I.context) {T : Tensors} (hT : TensorOf h I.context T) (hr : I.rels = [])
    (J : Icon) {ck : Clock} (hck : J.clock = some ck) {budget : Nat} (hb : HomBudget h h.size false budget I.context)
    {e i j : Nat} {x v u : Ref} (hx : (h.subEdges I.context)[e]? = some x) (hv : (h.subNodes I.context)[i]? = some v)
    (hu : (h.subNodes I.context)[j]? = some u) (ne : v ≠ u) (ev : Endpoint h x v) (eu : Endpoint h x u)
    (hi : ¬ InEndpoint h x v) (ho : ¬ OutEndpoint h x u) :
    ∃ I1 I2 J' msg h' T', I.updateContext h budget I.context [] = (.ok (), I1, []) ∧
      I1.fullMsg h = (.ok msg, I2) ∧ J.createGraph E' msg b = (.ok (some b.size), J', h') ∧
      TensorOf h' b.size T' ∧ T.W e i j = 0 ∧ T'.W e i j = 1 := by
  obtain ⟨I1, I2, J', msg, h', φ, T', e1, e2, e3, R', K', hw', hd', C, hT', n1, n2, hW⟩ := C109_decoded R Rb I S K hr J hck hb
  refine ⟨I1, I2, J', msg, h', T', e1, e2, e3, hT', ?_, by rw [hW e i j x v u hx hv hu, if_pos ⟨ne, ev, eu⟩]⟩
  rcases (hT.entries R K).W e i j x v u hx hv hu with ⟨l1, r, l2, el, P, -, -⟩ | ⟨-, z⟩
  · have hm : r ∈ h.subRelations x := by rw [el]; simp
    rcases P.2.2.2.2 with ⟨a, d⟩ | ⟨a, d⟩
    · exact absurd ⟨r, hm, a, d⟩ hi
    · exact absurd ⟨r, hm, a, d⟩ ho
  · exact z

namespace Sample

theorem context_s12 : Context s12 0 := by
  have rels : ∀ r, RelationIn s12 0 r → r = 4 ∨ r = 6 := by
    rintro r ⟨x, hx, hr⟩
    rw [show s12.subEdges 0 = [3] by decide +kernel] at hx
    obtain rfl : x = 3 := by simpa using hx
    rw [show s12.subRelations 3 = [4, 6] by decide +kernel] at hr
    simpa using hr
  refine ⟨by decide +kernel, ?_, ?_⟩
  · intro r hr
    rcases rels r hr with rfl | rfl
    · exact ⟨1, by decide +kernel, by decide +kernel⟩
    · exact ⟨2, by decide +kernel, by decide +kernel⟩
  · intro r hr v hv
    rcases rels r hr with rfl | rfl
    · rw [show (s12.get 4).weight = none by decide +kernel] at hv; cases hv
    · rw [show (s12.get 6).weight = none by decide +kernel] at hv; cases hv

/-- C109 at a graph with an edge from one node to another: the receiver has an edge in both directions. -/
theorem C109_case : ∃ I1 I2 J' msg h' T T', TensorOf s12 0 T ∧
    ({ clock := some .dummy, context := 0 } : Icon).updateContext s12 100 0 [] = (.ok (), I1, []) ∧
    I1.fullMsg s12 = (.ok msg, I2) ∧
    ({ clock := some .local, context := 0 } : Icon).createGraph E0 msg s12 = (.ok (some s12.size), J', h') ∧
    TensorOf h' s12.size T' ∧ T.W 0 1 0 = 0 ∧ T'.W 0 1 0 = 1 := by
  obtain ⟨T, hT⟩ := C34_converts reach_s12 context_s12
  obtain ⟨I1, I2, J', msg, h', T', a, b, c, d, e, f⟩ := C109_directed_refuted reach_s12 reach_s12
    { clock := some .dummy, context := 0 } send_s12 context_s12 hT rfl { clock := some .local, context := 0 } rfl budget_s12
    (e := 0) (i := 1) (j := 0) (x := 3) (v := 2) (u := 1) (by decide +kernel) (by decide +kernel) (by decide +kernel)
    (by decide) (by decide +kernel) (by decide +kernel) (by decide +kernel) (by decide +kernel)
  exact ⟨I1, I2, J', msg, h', T, T', hT, a, b, c, d, e, f⟩

theorem send_u6 : Sendable u6 0 := by
  refine ⟨by decide +kernel, by decide +kernel, by decide +kernel, by decide +kernel, ?_⟩
  intro e he r hr
  obtain ⟨v, hv, ev⟩ := closed_u6 r ⟨e, he, hr⟩
  exact ⟨v, ev, .inr (.inl hv)⟩

/-- C109 at an undirected graph. -/
example : ∃ I1 I2 J' msg h' φ T T', TensorOf u6 0 T ∧ T.W 0 0 1 = 1 ∧
    ({ clock := some .dummy, context := 0 } : Icon).updateContext u6 100 0 [] = (.ok (), I1, []) ∧
    I1.fullMsg u6 = (.ok msg, I2) ∧
    ({ clock := some .local, context := 0 } : Icon).createGraph E0 msg s12 = (.ok (some s12.size), J', h') ∧
    TensorOf h' s12.size T' ∧ SameRepresentation u6 0 T h' s12.size T' φ φ := by
  obtain ⟨T, hT⟩ := C34_converts reach_u6 context_u6
  obtain ⟨I1, I2, J', msg, h', φ, T', a, b, c, d, -, e, -⟩ := C109_undirected_partial reach_u6 reach_s12
    { clock := some .dummy, context := 0 } send_u6 context_u6 unweighted_u6 undirected_u6 hT rfl
    { clock := some .local, context := 0 } rfl
    (show HomBudget u6 u6.size false 100 0 by refine ⟨?_, ?_, ?_⟩ <;> decide +kernel)
  exact ⟨I1, I2, J', msg, h', φ, T, T', hT, (C34_undirected reach_u6 context_u6 unweighted_u6 undirected_u6 hT
    (e := 0) (i := 0) (j := 1) (x := 3) (v := 1) (u := 2) (by decide +kernel) (by decide +kernel) (by decide +kernel)).1
      (by decide +kernel), a, b, c, d, e⟩

end Sample

end Rei
