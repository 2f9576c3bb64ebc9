import Verif.Props.NamesDepth

/-!
# C19-C24: relations, ports, incidence
-/
namespace Rei
open PyM Sample

/-- Everything `unary_connect` without a semantic value node can do: it raises before the endpoint is
touched; or the endpoint refuses its port; or the edge refuses the relation (the endpoint keeps the
port); or it succeeds. -/
theorem unaryConnect_cases {E : Env} {h : Heap} (r : Reach E h) {e n : Ref} {w : Option Ref} {d : Dir}
    (hv : (Op.unaryConnect e n w d none).Valid h) (hk : (h.get e).kind = .edge) :
    (∃ er h', unaryConnect E e n w d none h = (.error er, h') ∧ (∀ y < h.size, h'.get y = h.get y)) ∨
    (∃ h', unaryConnect E e n w d none h = (.error .duplicateElement, h') ∧
      (∀ y < h.size, (h'.get y).subs = (h.get y).subs)) ∨
    (∃ h0 h1 h2, (∀ y < h.size, h0.get y = h.get y) ∧ h0.size = h.size + 1 ∧ Inv h0 ∧
      (h0.get h.size).kind = .relation ∧ (h0.get h.size).endpoint = some n ∧
      (h0.get h.size).weight = w ∧ (h0.get h.size).direction = d ∧ (h0.get h.size).parent = none ∧
      (h0.get h.size).subs = [] ∧ (h0.get h.size).ports = [] ∧
      (∃ ctx t, (h.get e).genCtx = some ctx ∧ (readClock E (h.get e).clock h).1 = .ok t ∧
        (h0.get h.size).uuid = elementUid E ctx (h.get n).idName ∧
        (h0.get h.size).idName = relName (h.get e).idName (h.get n).idName t) ∧
      Connected E n h.size h0 h1 ∧
      ((unaryConnect E e n w d none h = (.error .duplicateElement, h1)) ∨
       (unaryConnect E e n w d none h = (.ok h.size, h2) ∧ addElement E e h.size h1 = (.ok (), h2)))) := by
  have G := r.good
  have I := G.inv
  obtain ⟨he, hn, _, _⟩ := hv
  unfold unaryConnect
  simp only [obj_bind_run, hk, if_true]
  obtain ⟨hc1, hc2, hc3⟩ := G.readClock E (h.get e).clock
  have hclk : ∃ t, readClock E (h.get e).clock h = (.ok t, (readClock E (h.get e).clock h).2) := by
    have := I.clocked he (by rw [hk]; rfl)
    cases hcl : (h.get e).clock with
    | none => rw [hcl] at this; cases this
    | some ck => cases ck <;> exact ⟨_, rfl⟩
  obtain ⟨t, ht⟩ := hclk
  generalize (readClock E (h.get e).clock h).2 = hr at *
  rw [bind_ok ht]
  cases hctx : (h.get e).genCtx with
  | none => exact .inl ⟨_, hr, rfl, fun y _ => hc3 y⟩
  | some ctx =>
    simp only
    rw [show ∀ (u : Bytes) (nm : Str) (pn : PName), newRelation u nm pn (some n) w d none =
      alloc (relationObj u nm pn (some n) w d none) from fun _ _ _ => rfl]
    simp only [alloc_bind_run]
    generalize hro : relationObj (elementUid E ctx (h.get n).idName) (relName (h.get e).idName (h.get n).idName t)
      (.str (Str.join '/' [(h.get e).idName, relName (h.get e).idName (h.get n).idName t])) (some n) w d none = ro
    have F : Fresh ro := by rw [← hro]; exact ⟨rfl, rfl, rfl, rfl, rfl, fun h => by cases h⟩
    have hah : ({ (hr.set hr.size ro) with size := hr.size + 1 } : Heap) = allocH hr ro := rfl
    rw [hah, hc2]
    have I0 : Inv (allocH hr ro) := hc1.inv.allocH F
    have hget : ∀ y < h.size, (allocH hr ro).get y = h.get y := by
      intro y hy; rw [allocH_get_lt (by omega), hc3]
    have hnew : (allocH hr ro).get h.size = ro := by rw [← hc2]; simp [allocH]
    have hsz : (allocH hr ro).size = h.size + 1 := by rw [← hc2]; rfl
    generalize allocH hr ro = h0 at *
    have hnl : n < h0.size := by omega
    rcases connect_cases I0 E (n := n) (el := h.size) hnl with
      ⟨_, e1⟩ | ⟨_, ctx', _, ⟨_, h', e1, hh'⟩ | ⟨_, h1, e1, C⟩⟩
    · exact .inl ⟨_, h0, by rw [bind_err e1], hget⟩
    · refine .inr (.inl ⟨h', by rw [bind_err e1], ?_⟩)
      intro y hy
      rw [hh']
      simp only [Heap.get_mod]
      split
      · next e' => subst e'; rw [allocH_get_lt (by omega), hget y hy]
      · rw [allocH_get_lt (by omega), hget y hy]
    · rw [bind_ok e1]
      simp only [attachSem, pure_bind_run]
      have hs1 : h1.size = h0.size + 1 := C.size
      have hp1 : (h1.get h.size).parent = none := by
        rw [C.parent, if_neg (by omega), hnew]; exact F.parent
      have S : AddSafe h1 e h.size := by
        refine ⟨not_anc_of_childless C.inv ?_, fun p hp => by rw [hp1] at hp; cases hp⟩
        unfold Heap.subelements
        rw [C.subs h.size (by omega), if_neg (by omega), hnew, F.subs]; rfl
      have fields : (h0.get h.size).kind = .relation ∧ (h0.get h.size).endpoint = some n ∧
          (h0.get h.size).weight = w ∧ (h0.get h.size).direction = d ∧ (h0.get h.size).parent = none ∧
          (h0.get h.size).subs = [] ∧ (h0.get h.size).ports = [] := by
        rw [hnew, ← hro]; exact ⟨rfl, rfl, rfl, rfl, rfl, rfl, rfl⟩
      obtain ⟨f1, f2, f3, f4, f5, f6, f7⟩ := fields
      have names : ∃ ctx t, (h.get e).genCtx = some ctx ∧ (readClock E (h.get e).clock h).1 = .ok t ∧
          (h0.get h.size).uuid = elementUid E ctx (h.get n).idName ∧
          (h0.get h.size).idName = relName (h.get e).idName (h.get n).idName t := by
        refine ⟨ctx, t, hctx, by rw [ht], ?_, ?_⟩ <;> rw [hnew, ← hro] <;> rfl
      have hke : (h1.get e).kind = .edge := by rw [C.kind e (by omega), hget e he, hk]
      have hge : (h1.get e).genCtx = some ctx := by rw [C.genCtx e (by omega), hget e he, hctx]
      have hdisj : addElement E e h.size h1 = (.error .duplicateElement, h1) ∨
          ∃ h2, addElement E e h.size h1 = (.ok (), h2) := by
        by_cases hd : (h1.get h.size).uuid ∈ (h1.get e).subs.keys
        · left
          rw [addElement_edge hke, bind_err (baseAdd_dup (by omega) hd)]
        · right
          obtain ⟨h3, h3r, sim, _, _⟩ := C.inv.baseAdd E (c := e) (x := h.size) (by omega) (by omega)
            (by omega) hd S.1 S.2
          rw [addElement_edge hke, bind_ok h3r, obj_bind_run]
          have hkx : (h3.get h.size).kind = .relation := by
            rw [sim.kind, moveH_kind, C.kind _ (by omega), f1]
          have hgx : (h3.get e).genCtx = some ctx := by rw [sim.genCtx, moveH_genCtx, hge]
          rw [if_pos hkx, obj_bind_run, hgx]
          exact ⟨_, rfl⟩
      rcases hdisj with hd | ⟨h2, hd⟩
      · refine .inr (.inr ⟨h0, h1, h1, hget, hsz, I0, f1, f2, f3, f4, f5, f6, f7, hctx ▸ names, C, .inl ?_⟩)
        rw [bind_err hd]
      · refine .inr (.inr ⟨h0, h1, h2, hget, hsz, I0, f1, f2, f3, f4, f5, f6, f7, hctx ▸ names, C, .inr ⟨?_, hd⟩⟩)
        rw [bind_ok hd]; rfl

/-- **C19.** A successful `e.unary_connect(n, w, d)` adds exactly one relation, last in `e`, with endpoint
`n`, weight `w` and direction `d`, and exactly one port, last in `n`, that leads to it; all other
containers, the relations and ports of all other objects, and all endpoints are as before. -/
theorem C19_unary_connect {E : Env} {h h' : Heap} (r : Reach E h) {e n q : Ref} {w : Option Ref}
    {d : Dir} (hv : (Op.unaryConnect e n w d none).Valid h) (hk : (h.get e).kind = .edge)
    (hr : unaryConnect E e n w d none h = (.ok q, h')) :
    h.size ≤ q ∧ (h'.get q).kind = .relation ∧ (h'.get q).endpoint = some n ∧
    (h'.get q).weight = w ∧ (h'.get q).direction = d ∧ (h'.get q).parent = some e ∧
    h'.subRelations e = h.subRelations e ++ [q] ∧
    h'.inducedSubset e = h.inducedSubset e ++ [some n] ∧
    (∃ p, h.size ≤ p ∧ p ≠ q ∧ (h'.get p).kind = .port ∧ (h'.get p).endpoint = some q ∧
      (h'.get p).parent = some n ∧ h'.subPorts n = h.subPorts n ++ [p]) ∧
    (∀ y < h.size, y ≠ e → h'.subRelations y = h.subRelations y) ∧
    (∀ y < h.size, y ≠ n → h'.subPorts y = h.subPorts y) ∧
    (∀ y < h.size, y ≠ e → y ≠ n → h'.subelements y = h.subelements y) ∧
    (∀ y < h.size, (h'.get y).endpoint = (h.get y).endpoint) := by
  have I := r.good.inv
  obtain ⟨he, hn, _, _⟩ := id hv
  rcases unaryConnect_cases (E := E) r hv hk with ⟨_, _, e1, _⟩ | ⟨_, e1, _⟩ |
    ⟨h0, h1, h2, hget, hsz, I0, f1, f2, f3, f4, f5, f6, f7, N, C, e1 | ⟨e1, ha⟩⟩
  · rw [e1] at hr; cases hr
  · rw [e1] at hr; cases hr
  · rw [e1] at hr; cases hr
  rw [e1] at hr; cases hr
  rename' h' => h2
  have hs1 : h1.size = h.size + 2 := by rw [C.size, hsz]
  have hp1 : (h1.get h.size).parent = none := by rw [C.parent, if_neg (by omega), f5]
  have S : AddSafe h1 e h.size := by
    refine ⟨not_anc_of_childless C.inv ?_, fun p hp => by rw [hp1] at hp; cases hp⟩
    unfold Heap.subelements
    rw [C.subs h.size (by omega), if_neg (by omega), f6]; rfl
  obtain ⟨h3, m, hh⟩ := addElement_ok C.inv E (c := e) (x := h.size) (by omega) (by omega) S ha
  have hke : (h1.get e).kind = .edge := by rw [C.kind e (by omega), hget e he, hk]
  rcases hh with ⟨_, Q, hports, _, hend, hdir, hwt, _⟩ | ⟨hx, _⟩
  swap
  · rw [hke] at hx; cases hx
  -- kinds of all objects
  have kind' : ∀ y < h.size, (h2.get y).kind = (h.get y).kind := by
    intro y hy
    rw [Q.kind, m.sim.kind, moveH_kind, C.kind y (by omega), hget y hy]
  have kq : (h2.get h.size).kind = .relation := by
    rw [Q.kind, m.sim.kind, moveH_kind, C.kind _ (by omega), f1]
  have kp : (h2.get (h.size + 1)).kind = .port := by
    rw [Q.kind, m.sim.kind, moveH_kind, ← hsz, C.kindP]
  have sub' : ∀ y < h.size, h2.subelements y =
      h.subelements y ++ (if y = n then [h.size + 1] else []) ++ (if y = e then [h.size] else []) := by
    intro y hy
    unfold Heap.subelements
    rw [Q.subs, m.subs C.inv y, hp1]
    simp only [reduceCtorEq, if_false]
    have base : ∀ z < h.size, (h1.get z).subs.values =
        (h.get z).subs.values ++ (if z = n then [h.size + 1] else []) := by
      intro z hz
      rw [C.subs z (by omega)]
      split
      · next e' => subst e'; rw [hget z hz]; simp [Dict.values, hsz]
      · rw [hget z hz]; simp
    split
    · next e' => subst e'; rw [Dict.values_append, base y hy]; rfl
    · rw [base y hy]; simp
  have lt_of_mem : ∀ y z, z ∈ h.subelements y → z < h.size := by
    intro y z hz
    exact SInv.lt_of_parent I ((C01_containment_agrees r y).1 z |>.1 hz)
  have filt : ∀ (K : Kind) y, ((h.subelements y).filter fun x => decide ((h2.get x).kind = K)) =
      (h.subelements y).filter fun x => decide ((h.get x).kind = K) := by
    intro K y
    apply List.filter_congr
    intro z hz; rw [kind' z (lt_of_mem y z hz)]
  have rels : ∀ y < h.size, h2.subRelations y = h.subRelations y ++ (if y = e then [h.size] else []) := by
    intro y hy
    unfold Heap.subRelations Heap.getSubelements
    rw [sub' y hy, List.filter_append, List.filter_append, filt]
    have a : ((if y = n then [h.size + 1] else [] : List Nat).filter
        fun x => decide ((h2.get x).kind = .relation)) = [] := by
      split <;> simp [kp]
    have b : ((if y = e then [h.size] else [] : List Nat).filter
        fun x => decide ((h2.get x).kind = .relation)) = if y = e then [h.size] else [] := by
      split <;> simp [kq]
    rw [a, b]; simp
  have ports : ∀ y < h.size, h2.subPorts y = h.subPorts y ++ (if y = n then [h.size + 1] else []) := by
    intro y hy
    unfold Heap.subPorts Heap.getSubelements
    rw [sub' y hy, List.filter_append, List.filter_append, filt]
    have a : ((if y = n then [h.size + 1] else [] : List Nat).filter
        fun x => decide ((h2.get x).kind = .port)) = if y = n then [h.size + 1] else [] := by
      split <;> simp [kp]
    have b : ((if y = e then [h.size] else [] : List Nat).filter
        fun x => decide ((h2.get x).kind = .port)) = [] := by
      split <;> simp [kq]
    rw [a, b]; simp
  have epq : (h2.get h.size).endpoint = some n := by
    rw [hend, m.sim.endpoint, moveH_endpoint, C.endpoint _ (by omega), f2]
  have ep' : ∀ y < h.size, (h2.get y).endpoint = (h.get y).endpoint := by
    intro y hy
    rw [hend, m.sim.endpoint, moveH_endpoint, C.endpoint y (by omega), hget y hy]
  refine ⟨Nat.le_refl _, kq, epq, ?_, ?_, ?_, ?_, ?_, ?_, ?_, ?_, ?_, ep'⟩
  · rw [hwt, m.sim.weight, moveH_weight, C.weight _ (by omega), f3]
  · rw [hdir, m.sim.direction, moveH_direction, C.direction _ (by omega), f4]
  · rw [Q.parent, m.parent C.inv, if_pos rfl]
  · rw [rels e he, if_pos rfl]
  · unfold Heap.inducedSubset
    rw [rels e he, if_pos rfl, List.map_append]
    congr 1
    · apply List.map_congr_left
      intro z hz
      exact ep' z (lt_of_mem e z (List.mem_filter.1 hz).1)
    · simp [epq]
  · refine ⟨h.size + 1, by omega, by omega, kp, ?_, ?_, ?_⟩
    · rw [hend, m.sim.endpoint, moveH_endpoint, ← hsz, C.endP]
    · rw [Q.parent, m.parent C.inv, if_neg (by omega), C.parent, if_pos hsz.symm]
    · rw [ports n hn, if_pos rfl]
  · intro y hy hne; rw [rels y hy, if_neg hne]; simp
  · intro y hy hne; rw [ports y hy, if_neg hne]; simp
  · intro y hy h1' h2'; rw [sub' y hy, if_neg h1', if_neg h2']; simp

/-- **C19, names.** The new relation is called `rel<edge>.<endpoint>.<time>`, with the reading of the edge's
clock for the time, and its uuid is the digest of the edge's context and the endpoint's name; the port is
called `<endpoint>.port.<relation>`, and its uuid is the digest of the endpoint's context and the relation's
name. -/
theorem C19_names {E : Env} {h h' : Heap} (r : Reach E h) {e n q : Ref} {w : Option Ref}
    {d : Dir} (hv : (Op.unaryConnect e n w d none).Valid h) (hk : (h.get e).kind = .edge)
    (hr : unaryConnect E e n w d none h = (.ok q, h')) :
    ∃ p c c' t, h'.subPorts n = h.subPorts n ++ [p] ∧ (h'.get p).endpoint = some q ∧
      (h.get e).genCtx = some c ∧ (h.get n).genCtx = some c' ∧
      t = (if (h.get e).clock = some .local then E.time h.reads else 0) ∧
      (h'.get q).idName = "rel".toList ++ (h.get e).idName ++ ".".toList ++ (h.get n).idName ++ ".".toList ++ Nat.toDigits 10 t ∧
      (h'.get q).uuid = E.sha (c ++ "/".toList ++ (h.get n).idName) ∧
      (h'.get p).idName = (h.get n).idName ++ ".port.".toList ++ (h'.get q).idName ∧
      (h'.get p).uuid = E.sha (c' ++ "/".toList ++ (h'.get q).idName) := by
  obtain ⟨_, _, _, _, _, _, _, _, ⟨p, p0, pq, -, pe, pn, ps⟩, -⟩ := C19_unary_connect r hv hk hr
  have I := r.good.inv
  obtain ⟨he, hn, _, _⟩ := id hv
  rcases unaryConnect_cases (E := E) r hv hk with ⟨_, _, e1, _⟩ | ⟨_, e1, _⟩ |
    ⟨h0, h1, h2, hget, hsz, I0, f1, f2, f3, f4, f5, f6, f7, ⟨c, t, hc, ht, u, nm⟩, C, e1 | ⟨e1, ha⟩⟩
  · rw [e1] at hr; cases hr
  · rw [e1] at hr; cases hr
  · rw [e1] at hr; cases hr
  rw [e1] at hr; cases hr
  rename' h' => h2
  have hs1 : h1.size = h.size + 2 := by rw [C.size, hsz]
  have hp1 : (h1.get h.size).parent = none := by rw [C.parent, if_neg (by omega), f5]
  have S : AddSafe h1 e h.size := by
    refine ⟨not_anc_of_childless C.inv ?_, fun p hp => by rw [hp1] at hp; cases hp⟩
    unfold Heap.subelements
    rw [C.subs h.size (by omega), if_neg (by omega), f6]; rfl
  obtain ⟨h3, m, hh⟩ := addElement_ok C.inv E (c := e) (x := h.size) (by omega) (by omega) S ha
  have hke : (h1.get e).kind = .edge := by rw [C.kind e (by omega), hget e he, hk]
  rcases hh with ⟨_, Q, _⟩ | ⟨hx, _⟩
  swap
  · rw [hke] at hx; cases hx
  have name : ∀ y, (h2.get y).idName = (h1.get y).idName := fun y => by rw [Q.idName, m.sim.idName, moveH_idName]
  have uid : ∀ y, (h2.get y).uuid = (h1.get y).uuid := fun y => by rw [Q.uuid, m.sim.uuid, moveH_uuid]
  have pp : p = h.size + 1 := by
    rw [Q.parent, m.parent C.inv, if_neg pq, C.parent, hsz] at pn
    by_contra x
    rw [if_neg x] at pn
    have := SInv.lt_of_parent I0 pn
    omega
  obtain ⟨c', hc', up⟩ := C.ctx
  rw [hget n hn] at hc'
  have nq : (h2.get h.size).idName = relName (h.get e).idName (h.get n).idName t := by
    rw [name, C.idName _ (by omega), nm]
  refine ⟨p, c, c', t, ps, pe, hc, hc', ?_, ?_, ?_, ?_, ?_⟩
  · have := I.clocked he (by rw [hk]; rfl)
    cases hcl : (h.get e).clock with
    | none => rw [hcl] at this; cases this
    | some ck => rw [hcl] at ht; cases ck <;> cases ht <;> rfl
  · rw [nq]
    simp [relName, Str.join_cons_cons, Str.join_singleton, decimal]
  · rw [uid, C.uuid _ (by omega), u]
    simp [elementUid]
  · rw [pp, nq, name, ← hsz, C.nameP, hget n hn, nm]
    simp [Str.join_cons_cons, Str.join_singleton]
  · rw [pp, nq, uid, ← hsz, up, nm]
    simp [elementUid]

/-- **C20**, the part that holds: a failed `unary_connect` never adds anything to the edge, and when
the endpoint itself refuses (not a hypergraph element, or already holds a port of that name) no
container changes. Missing: when the *edge* refuses the relation, the endpoint keeps the new port. -/
theorem C20_failed_connect_partial {E : Env} {h h' : Heap} (r : Reach E h) {e n : Ref} {w : Option Ref}
    {d : Dir} {er : Err} (hv : (Op.unaryConnect e n w d none).Valid h) (hk : (h.get e).kind = .edge)
    (hr : unaryConnect E e n w d none h = (.error er, h')) :
    (∀ y < h.size, y ≠ n → h'.subelements y = h.subelements y) ∧
    (h'.subelements n = h.subelements n ∨ ∃ p, h'.subelements n = h.subelements n ++ [p] ∧
      (h'.get p).kind = .port) := by
  obtain ⟨he, hn, _, _⟩ := id hv
  rcases unaryConnect_cases (E := E) r hv hk with ⟨_, g, e1, hg⟩ | ⟨g, e1, hg⟩ |
    ⟨h0, h1, h2, hget, hsz, I0, f1, f2, f3, f4, f5, f6, f7, N, C, e1 | ⟨e1, ha⟩⟩
  · rw [e1] at hr; cases hr
    unfold Heap.subelements
    exact ⟨fun y hy _ => by rw [hg y hy], .inl (by rw [hg n hn])⟩
  · rw [e1] at hr; cases hr
    unfold Heap.subelements
    exact ⟨fun y hy _ => by rw [hg y hy], .inl (by rw [hg n hn])⟩
  · rw [e1] at hr; cases hr
    unfold Heap.subelements
    refine ⟨fun y hy hyn => by rw [C.subs y (by omega), if_neg hyn, hget y hy], .inr ⟨h0.size, ?_, C.kindP⟩⟩
    rw [C.subs n (by omega), if_pos rfl, hget n hn]
    simp [Dict.values]
  · rw [e1] at hr; cases hr

/-- **C20 refuted**: an edge is connected to two different nodes of the same name. The second call
raises `ErrorDuplicateElement`, but the second node has gained a port (to a relation that belongs to
no edge). -/
theorem C20_failed_connect_refuted : ∃ (E : Env) (h : Heap) (e n : Ref), Reach E h ∧
    (Op.unaryConnect e n none .inwards none).Valid h ∧ (h.get e).kind = .edge ∧
    (unaryConnect E e n none .inwards none h).1 = .error .duplicateElement ∧
    ((unaryConnect E e n none .inwards none h).2.subPorts n).length = (h.subPorts n).length + 1 := by
  refine ⟨E0, g8, 3, 9, reach8, ⟨by decide +kernel, by decide +kernel, okNone, okNone⟩, by decide +kernel,
    by decide +kernel, by decide +kernel⟩

/-! ## C21 -/

/-- **C21.** Every relation of an edge is incoming or outgoing. -/
theorem C21_classified (h : Heap) (e q : Ref) (hq : q ∈ h.subRelations e) :
    q ∈ h.incoming e ∨ q ∈ h.outgoing e := by
  unfold Heap.incoming Heap.outgoing
  simp only [List.mem_filter, hq, true_and, decide_eq_true_eq]
  cases (h.get q).direction <;> simp

/-- **C21.** It is both exactly when it is bidirectional. -/
theorem C21_both_iff (h : Heap) (e q : Ref) (hq : q ∈ h.subRelations e) :
    (q ∈ h.incoming e ∧ q ∈ h.outgoing e) ↔ (h.get q).direction = .bidirectional := by
  unfold Heap.incoming Heap.outgoing
  simp only [List.mem_filter, hq, true_and, decide_eq_true_eq]
  cases (h.get q).direction <;> simp

/-- **C21.** Incoming exactly when inward or bidirectional, outgoing exactly when outward or
bidirectional, and nothing but relations of the edge. -/
theorem C21_directions (h : Heap) (e q : Ref) :
    (q ∈ h.incoming e ↔ q ∈ h.subelements e ∧ (h.get q).kind = .relation ∧ (h.get q).direction ≠ .outwards) ∧
    (q ∈ h.outgoing e ↔ q ∈ h.subelements e ∧ (h.get q).kind = .relation ∧ (h.get q).direction ≠ .inwards) := by
  unfold Heap.incoming Heap.outgoing Heap.subRelations Heap.getSubelements
  simp only [List.mem_filter, decide_eq_true_eq]
  cases (h.get q).direction <;> simp

/-- **C21.** Both enumerations keep insertion order. -/
theorem C21_order (h : Heap) (e : Ref) :
    (h.incoming e).Sublist (h.subelements e) ∧ (h.outgoing e).Sublist (h.subelements e) :=
  ⟨List.filter_sublist.trans List.filter_sublist, List.filter_sublist.trans List.filter_sublist⟩

/-! ## C22 -/

/-- **C22 refuted**: `disconnect` after `connect` leaves the port behind. -/
theorem C22_disconnect_refuted : ∃ (E : Env) (h h1 h2 : Heap) (n q : Ref), Reach E h ∧
    connect E n q h = (.ok (), h1) ∧ disconnect E n q h1 = (.ok (), h2) ∧
    (h2.subPorts n).length = (h.subPorts n).length + 1 := by
  have e1 : (connect E0 1 2 g3).1 = .ok () := by decide +kernel
  have e2 : (disconnect E0 1 2 (connect E0 1 2 g3).2).1 = .ok () := by decide +kernel
  exact ⟨E0, g3, (connect E0 1 2 g3).2, (disconnect E0 1 2 (connect E0 1 2 g3).2).2, 1, 2, reach3,
    Prod.ext e1 rfl, Prod.ext e2 rfl, by decide +kernel⟩

/-- **C22**, what holds: `disconnect` forgets the association from the element to its port (a second
`disconnect` raises `KeyError`), and changes no container at all. Missing: the port object itself stays a sub-element. -/
theorem C22_disconnect_partial {E : Env} {h h1 : Heap} (r : Reach E h) {n q : Ref} (hn : n < h.size)
    (hq : q < h.size) (h1r : connect E n q h = (.ok (), h1)) :
    ∃ h2, disconnect E n q h1 = (.ok (), h2) ∧ (∀ y, h2.subelements y = h1.subelements y) ∧
      (disconnect E n q h2).1 = .error .keyError ∧
      ∀ y < h.size, (∀ x < h.size, (h.get x).uuid ≠ (h.get q).uuid →
        (h2.get y).ports.get? (h.get x).uuid = (h.get y).ports.get? (h.get x).uuid) := by
  have I := r.good.inv
  rcases connect_cases I E (n := n) (el := q) hn with
    ⟨_, e1⟩ | ⟨hk, ctx, hctx, ⟨_, h', e1, hh'⟩ | ⟨_, h', e1, C⟩⟩
  · rw [e1] at h1r; cases h1r
  · rw [e1] at h1r; cases h1r
  rw [e1] at h1r; cases h1r
  have k1 : (h1.get n).kind.isHElement = true := by rw [C.kind n hn]; exact hk
  have g1 : (h1.get n).genCtx = some ctx := by rw [C.genCtx n hn]; exact hctx
  have u1 : (h1.get q).uuid = (h.get q).uuid := C.uuid q hq
  have p1 : (h1.get n).ports.get? (h1.get q).uuid = some h.size := by
    rw [C.ports n hn, if_pos rfl, u1]; simp
  have hrun : disconnect E n q h1 = (.ok (), h1.mod n fun o => { o with ports := o.ports.erase (h1.get q).uuid }) := by
    unfold disconnect
    simp only [obj_bind_run, k1, if_true, g1, p1, modify_bind_run]
    rw [bind_ok removeElement_zero]; rfl
  refine ⟨_, hrun, ?_, ?_, ?_⟩
  · intro y; unfold Heap.subelements; simp only [Heap.get_mod]; split
    · next e => subst e; rfl
    · rfl
  · have key : ∀ h2 : Heap, (h2.get n).kind.isHElement = true → (h2.get n).genCtx = some ctx →
        (h2.get q).uuid = (h1.get q).uuid → (h2.get n).ports.get? (h1.get q).uuid = none →
        (disconnect E n q h2).1 = .error .keyError := by
      intro h2 a b c d
      unfold disconnect
      simp only [obj_bind_run, a, if_true, b, c, d]
      rfl
    apply key
    · simp only [Heap.get_mod, if_true]; exact k1
    · simp only [Heap.get_mod, if_true]; exact g1
    · simp only [Heap.get_mod]; split
      · next e => subst e; rfl
      · rfl
    · simp only [Heap.get_mod, if_true]
      rw [Dict.get?_erase, if_pos rfl]
  · intro y hy x hx hne
    simp only [Heap.get_mod]
    have hne' : (h.get q).uuid ≠ (h.get x).uuid := fun e => hne e.symm
    split
    · next e =>
      subst e
      rw [Dict.get?_erase, u1, if_neg hne', C.ports y hn, if_pos rfl, Dict.get?_set, if_neg hne']
    · next e => rw [C.ports y hy, if_neg e]

/-! ## C23 -/

/-- **C23 refuted**: removing a relation from its edge never yields it; it raises `TypeError` — for
every edge, every relation of it and every reachable state. -/
theorem C23_remove_relation_refuted {E : Env} {h : Heap} (r : Reach E h) {e q : Ref}
    (hk : (h.get e).kind = .edge) (hg : (h.get e).genCtx ≠ none) (hq : q ∈ h.subRelations e) :
    (removeElement E e [] (some (h.get q).uuid) none h).1 = .error .typeError := by
  unfold Heap.subRelations Heap.getSubelements at hq
  rw [List.mem_filter] at hq
  have hp := (C01_containment_agrees r e).1 q |>.1 hq.1
  obtain ⟨er, h', hr, _, _, _, ht, _⟩ := r.good.removeEdge E (lim := none) (nm := []) (by simp) hk hp (.inl rfl)
  rw [hr, ht hg (by simpa using hq.2)]

/-- **C23**, what holds: although it raises, the removal detaches exactly that relation. Missing: the
call raises `TypeError` instead of yielding the relation. -/
theorem C23_remove_relation_partial {E : Env} {h : Heap} (r : Reach E h) {e q : Ref}
    (hk : (h.get e).kind = .edge) (hq : q ∈ h.subRelations e) :
    ∃ er h', removeElement E e [] (some (h.get q).uuid) none h = (.error er, h') ∧
      (h'.get q).parent = none ∧
      h'.subelements e = ((h.subelements e).filter fun y => decide (y ≠ q)) ∧
      (∀ d, d ≠ e → h'.subelements d = h.subelements d) ∧
      (∀ y, y ≠ q → (h'.get y).parent = (h.get y).parent) := by
  have I := r.good.inv
  unfold Heap.subRelations Heap.getSubelements at hq
  rw [List.mem_filter] at hq
  have hp := (C01_containment_agrees r e).1 q |>.1 hq.1
  obtain ⟨er, h', hr, _, hpar, hsub, _, _⟩ := r.good.removeEdge E (lim := none) (nm := []) (by simp) hk hp (.inl rfl)
  have D := detached I hp (.refl _ _)
  refine ⟨er, h', hr, ?_, ?_, ?_, ?_⟩
  · rw [hpar]; exact D.1
  · unfold Heap.subelements at *; rw [hsub]; exact D.2.1
  · intro d hd
    have := (D.2.2.2.1 d hd).1
    unfold Heap.subelements at *; rw [hsub]; exact this
  · intro y hy; rw [hpar]; exact D.2.2.2.2.1 y hy

/-! ## C24 -/

/-- **C24.** The incidence value of an existing relation never changes, whatever calls are made, and it
is determined by the direction. -/
theorem C24_incidence {E : Env} {h h' : Heap} (l : Later E h h') {q : Ref} (hq : q < h.size) :
    (h'.get q).direction = (h.get q).direction ∧
    incidenceValue (h'.get q).direction = incidenceValue (h.get q).direction ∧
    (incidenceValue (h.get q).direction = (1, 1) ↔ (h.get q).direction = .bidirectional) ∧
    (incidenceValue (h.get q).direction = (1, 0) ↔ (h.get q).direction = .inwards) ∧
    (incidenceValue (h.get q).direction = (0, 1) ↔ (h.get q).direction = .outwards) := by
  have key : q < h'.size ∧ (h'.get q).direction = (h.get q).direction := by
    induction l with
    | refl => exact ⟨hq, rfl⟩
    | @step h' op l v ih =>
      by_cases hop : ∃ x k, op = .setClock x k
      · obtain ⟨y, k, rfl⟩ := hop
        have e0 : (Op.setClock y k).after E h' = h'.mod y fun o => { o with clock := k } := rfl
        rw [e0]
        refine ⟨ih.1, ?_⟩
        simp only [Heap.get_mod]
        split
        · next e' => subst e'; exact ih.2
        · exact ih.2
      · have K := (frames_run E op (fun x k e => hop ⟨x, k, e⟩) h').keeps
        exact ⟨Nat.lt_of_lt_of_le ih.1 K.size, (K.direction q ih.1).trans ih.2⟩
  refine ⟨key.2, by rw [key.2], ?_⟩
  cases (h.get q).direction <;> simp [incidenceValue]

/-! ### Instances -/

example : (unaryConnect E0 3 2 none .outwards none g5).1 = .ok 6 ∧ g6.subRelations 3 = [4, 6] ∧
    g6.subPorts 2 = [7] ∧ g6.incoming 3 = [4] ∧ g6.outgoing 3 = [6] ∧
    g6.inducedSubset 3 = [some 1, some 2] := by decide +kernel

/-- The names of `C19_names` on the sample graph. -/
example : (g6.get 6).idName ≠ (g6.get 4).idName ∧ (g6.get 7).idName = (g6.get 2).idName ++ ".port.".toList ++ (g6.get 6).idName := by
  decide +kernel

end Rei
