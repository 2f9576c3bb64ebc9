import Verif.Spec.SampleGraphs
import Verif.Lemmas.Visit
import Verif.Props.Factory

/-!
# Lemmas for C93 (sample graphs)
-/
namespace Rei
open PyM

/-! ## The nodes -/

/-- The container `c` with name `name` has exactly the nodes `ns`, made by the factory `F`, without sub-elements. -/
structure NodeRow (E : Env) (F : Factory) (name : Str) (c : Ref) (ns : List Ref) (h : Heap) : Prop where
  reach : Reach E h
  lt : c < h.size
  kind : (h.get c).kind = .node
  root : (h.get c).parent = none
  name : (h.get c).idName = name
  contents : h.subelements c = ns
  node : ∀ n ∈ ns, n < h.size ∧ n ≠ c ∧ (h.get n).kind = .node ∧ (h.get n).genCtx = some (h.get n).idName ∧ (h.get n).subs = []
  uuid : ∀ n ∈ ns, ∃ t, (h.get n).uuid = uidOf E F.name ((h.get c).qualName ++ '/' :: (h.get n).idName) t
  path : (h.get c).qualName = (h.get c).idName
  top : ∃ t, (h.get c).uuid = uidOf E F.name (h.get c).idName t

theorem NodeRow.next {E : Env} (inj : Function.Injective E.sha) {F : Factory} (hF : F.clock ≠ none) {name : Str} {c : Ref} {ns : List Ref} {h : Heap}
    (r : NodeRow E F name c ns h) {nm : Str} (new : nm ∉ ns.map fun n => (h.get n).idName) :
    ∃ h', F.generateNode E nm (some c) h = (.ok h.size, h') ∧ NodeRow E F name c (ns ++ [h.size]) h' ∧
      (∀ n ∈ ns, (h'.get n).idName = (h.get n).idName) ∧ (h'.get h.size).idName = nm := by
  have hpath : h.newPath nm (some c) = (h.get c).qualName ++ '/' :: nm := by
    unfold Heap.newPath
    simp only
    rw [Str.join_cons_cons, Str.join_singleton]
  obtain ⟨res, h1, run1, R1, made⟩ := node_step r.reach hF nm r.lt (by rw [r.kind]; simp)
  rcases generateNode_cases r.reach hF (p := some c) (by rintro x ⟨⟩; exact r.lt) (by rintro q ⟨⟩; rw [r.kind]; simp) nm with
    ⟨q, hq, hm, _⟩ | ⟨_, h', run, C, R⟩
  · cases hq
    obtain ⟨x, hx, hu⟩ := (r.reach.good.inv.mem_keys_iff _ _).1 hm
    rw [r.contents] at hx
    obtain ⟨t, ht⟩ := r.uuid x hx
    rw [ht, Factory.uid, hpath] at hu
    have := (uidOf_time inj hu).1
    rw [List.append_cancel_left_eq] at this
    cases this
    exact absurd (List.mem_map.2 ⟨x, hx, rfl⟩) new
  · rw [run] at run1
    cases run1
    obtain ⟨-, M⟩ := made _ rfl
    have hsz := C.size
    refine ⟨h1, run, ⟨R1, by have := r.lt; omega, by rw [C.kind _ r.lt, r.kind], by rw [C.parent _ r.lt, r.root],
      by rw [C.idName _ r.lt, r.name], ?_, ?_, ?_, by rw [M.later.qualName c r.lt, r.path, C.idName c r.lt],
      by rw [C.uuid c r.lt, C.idName c r.lt]; exact r.top⟩, fun n hn => C.idName n (r.node n hn).1, C.nameN⟩
    · rw [M.subs c r.lt, if_pos rfl, r.contents]
    · intro n hn
      rcases List.mem_append.1 hn with hn | hn
      · obtain ⟨a1, a2, a3, a4, a5⟩ := r.node n hn
        refine ⟨by omega, a2, by rw [C.kind n a1, a3], by rw [C.genCtx n a1, C.idName n a1, a4], ?_⟩
        rw [C.subs n a1, if_neg (by rintro ⟨⟩; exact a2 rfl), a5]
      · rw [List.mem_singleton] at hn
        subst hn
        exact ⟨by omega, by have := r.lt; omega, C.kindN, by rw [C.genN rfl, C.nameN], C.subsN⟩
    · intro n hn
      rw [M.later.qualName c r.lt]
      rcases List.mem_append.1 hn with hn | hn
      · obtain ⟨t, ht⟩ := r.uuid n hn
        exact ⟨t, by rw [C.uuid n (r.node n hn).1, C.idName n (r.node n hn).1, ht]⟩
      · rw [List.mem_singleton] at hn
        subst hn
        exact ⟨_, by rw [C.uuidN, C.nameN, Factory.uid, hpath]⟩

theorem NodeRow.all {E : Env} (inj : Function.Injective E.sha) {F : Factory} (hF : F.clock ≠ none) {name : Str} {c : Ref} (names : List Str)
    {ns : List Ref} {h : Heap} (r : NodeRow E F name c ns h) (nd : (ns.map (fun n => (h.get n).idName) ++ names).Nodup) :
    ∃ xs h', F.generateListNodes E names (some c) h = (.ok xs, h') ∧ NodeRow E F name c (ns ++ xs) h' ∧
      (ns ++ xs).map (fun n => (h'.get n).idName) = ns.map (fun n => (h.get n).idName) ++ names := by
  unfold Factory.generateListNodes
  induction names generalizing ns h with
  | nil => exact ⟨[], h, rfl, by simpa using r, by simp⟩
  | cons nm names ih =>
    obtain ⟨h1, run, r1, old, new⟩ := r.next inj hF (nm := nm) (by
      intro hm
      rw [List.nodup_append] at nd
      exact nd.2.2 nm hm nm (by simp) rfl)
    have e1 : (ns ++ [h.size]).map (fun n => (h1.get n).idName) = ns.map (fun n => (h.get n).idName) ++ [nm] := by
      rw [List.map_append, List.map_congr_left old, List.map_singleton, new]
    obtain ⟨xs, h2, run2, r2, e2⟩ := ih r1 (by rw [e1, List.append_assoc]; exact nd)
    refine ⟨h.size :: xs, h2, ?_, by simpa using r2, ?_⟩
    · unfold mapEach
      rw [bind_ok run, bind_ok run2]
      rfl
    · rw [e1] at e2
      simpa using e2

/-- A new root node is a container without nodes. -/
theorem nodeRow_root {E : Env} {h : Heap} (R : Reach E h) {F : Factory} (hF : F.clock ≠ none) (name : Str) :
    ∃ h', F.generateNode E name none h = (.ok h.size, h') ∧ NodeRow E F name h.size [] h' := by
  rcases generateNode_cases R hF (p := none) (by rintro x ⟨⟩) (by rintro q ⟨⟩) name with ⟨q, hq, _⟩ | ⟨_, h', run, C, R'⟩
  · cases hq
  · refine ⟨h', run, R', by rw [C.size]; omega, C.kindN, C.parentN, C.nameN, ?_, by simp, by simp, ?_, ⟨_, by rw [C.nameN]; exact C.uuidN⟩⟩
    · unfold Heap.subelements
      rw [C.subsN]; rfl
    · obtain ⟨l, hl, e⟩ := C.named
      rw [e]
      cases hl with
      | root _ => rfl
      | child q _ => rw [C.parentN] at q; cases q

theorem assertNew_ok {h : Heap} (ns : List Ref) {seen : List Bytes} (nd : (ns.map fun n => (h.get n).uuid).Nodup)
    (new : ∀ n ∈ ns, (h.get n).uuid ∉ seen) : assertNew seen ns h = (.ok (), h) := by
  induction ns generalizing seen with
  | nil => rfl
  | cons n ns ih =>
    rw [List.map_cons, List.nodup_cons] at nd
    unfold assertNew
    rw [obj_bind_run, if_neg (new n (by simp))]
    refine ih nd.2 fun m hm hs => ?_
    rcases List.mem_cons.1 hs with e | e
    · exact nd.1 (List.mem_map.2 ⟨m, hm, e⟩)
    · exact new m (by simp [hm]) e

theorem NodeRow.uuids {E : Env} (inj : Function.Injective E.sha) {F : Factory} {name : Str} {c : Ref} {ns : List Ref} {h : Heap}
    (r : NodeRow E F name c ns h) (nd : (ns.map fun n => (h.get n).idName).Nodup) : (ns.map fun n => (h.get n).uuid).Nodup := by
  refine List.Nodup.map_on (fun a ha b hb e => ?_) (List.Nodup.of_map _ nd)
  obtain ⟨t, ht⟩ := r.uuid a ha
  obtain ⟨t', ht'⟩ := r.uuid b hb
  rw [ht, ht'] at e
  have := (uidOf_time inj e).1
  rw [List.append_cancel_left_eq] at this
  injection this with _ this
  exact List.inj_on_of_nodup_map nd ha hb this

/-! ## The edges -/

/-- The effect of a successful `connect_nodes` without values. -/
structure JoinedAt (E : Env) (F : Factory) (c : Ref) (nm : Str) (nodes : List Ref) (d : Dir) (h h' : Heap) : Prop where
  built : Built E h h' c h.size nm (wanted nodes d none)
  ends : h'.inducedSubset h.size = nodes.map some
  keeps : Keeps h h'
  genCtx : ∀ y < h.size, (h'.get y).genCtx = (h.get y).genCtx
  parent : ∀ y < h.size, (h'.get y).parent = (h.get y).parent
  contents : h'.subelements c = h.subelements c ++ [h.size]
  uuid : ∃ t, (h'.get h.size).uuid = uidOf E F.name nm t
  ports : ∀ y < h.size, y ≠ c → ∀ u ∈ (h'.get y).subs.keys, u ∈ (h.get y).subs.keys ∨
    ∃ x t, (h.get y).genCtx = some x ∧ u = elementUid E x (relName nm (h.get y).idName t)

theorem frames_createHyperedge (E : Env) (F : Factory) (c : Ref) (nm : Str) : Frames E True (F.createHyperedge E c nm) := by
  unfold Factory.createHyperedge
  refine .bind (.bind (frames_readClock E _) fun _ => .pure _) fun _ => .bind (frames_stampedIn E F nm c) fun _ =>
    .bind (.obj c) fun _ => .ite (frames_newConceptual E .edge nm _ _ _ _ (.inl trivial)) (.raise _)

theorem connectNodes_joined {E : Env} (inj : Function.Injective E.sha) {h : Heap} (R : Reach E h)
    {F : Factory} (hF : F.clock ≠ none) {c : Ref} {nm : Str} {nodes : List Ref} {d : Dir} (hc : c < h.size)
    (hk : (h.get c).kind = .node) (hn : ∀ n ∈ nodes, n ≠ c ∧ CanJoin E h nm n)
    (names : (nodes.map fun n => (h.get n).idName).Nodup)
    (fresh : ∀ x ∈ h.subelements c, ∀ t, (h.get x).uuid ≠ uidOf E F.name nm t) :
    ∃ h', F.connectNodes E c nm nodes d none h = (.ok h.size, h') ∧ JoinedAt E F c nm nodes d h h' := by
  have I := R.good.inv
  rcases F.createHyperedge_cases R hF hc (by rw [hk]; rfl) nm with ⟨hm, _⟩ | ⟨_, h1, hcr, C, R1⟩
  · obtain ⟨x, hx, he⟩ := (I.mem_keys_iff _ _).1 hm
    exact absurd he (fresh x hx _)
  have hs1 := C.size
  obtain ⟨h2, h2r, g2, s2, p2⟩ := connectAll_succeeds inj (e := h.size) (ctx := nm) (nm := nm) (zipLinks nodes d none) R1
    (by omega) C.kindN (C.genN rfl) C.nameN (by
      intro l hl
      obtain ⟨a, _, b, w⟩ := mem_zipLinks hl
      obtain ⟨hne, J⟩ := hn _ a
      have J := J.joinable I
      refine ⟨b, fun v hv' => ?_, by have := J.lt; omega, by have := J.lt; omega, by rw [C.kind _ J.lt]; exact J.kind, ?_⟩
      · obtain ⟨vs, e1, e2⟩ := w v hv'
        cases e1
      · obtain ⟨ctx, hctx, hf⟩ := J.port
        refine ⟨ctx, by rw [C.genCtx _ J.lt, hctx], fun t => ?_⟩
        rw [C.subs _ J.lt, if_neg (by rintro ⟨⟩; exact hne rfl), C.idName _ J.lt]
        exact hf t)
    (by
      have e : (zipLinks nodes d none).map (fun l => (h1.get l.node).idName) = nodes.map fun n => (h.get n).idName := by
        unfold zipLinks
        rw [List.map_map]
        exact List.map_congr_left fun n hn' => C.idName _ (hn n hn').2.lt
      rw [e]
      exact names)
    (by intro l _; rw [C.subsN]; simp [Dict.keys])
  have hok : ∀ l ∈ zipLinks nodes d none, l.Ok h1 := by
    intro l hl
    obtain ⟨a, _, b, w⟩ := mem_zipLinks hl
    refine linkOk (by have := (hn _ a).2.lt; omega) (fun v hv' => ?_) b
    obtain ⟨vs, e1, e2⟩ := w v hv'
    cases e1
  obtain ⟨R2, qs, A⟩ := connectAll_rels _ R1 (by omega) C.kindN hok (by rw [zipLinks_sems]; exact List.nodup_nil) h2r
  have run : F.connectNodes E c nm nodes d none h = (.ok h.size, h2) := by
    unfold Factory.connectNodes
    have hw : wrongLength (none : Option (List (Option Ref))) nodes.length = false := rfl
    rw [bind_ok hcr, hw]
    simp only [Bool.false_eq_true, if_false]
    rw [bind_ok h2r]; rfl
  obtain ⟨B, ends⟩ := C40_connect_nodes R hc (fun n hn' => (hn n hn').2.lt) (by rintro vs ⟨⟩) run
  have K2 := A.keeps
  refine ⟨h2, run, B, ends, ?_, ?_, ?_, ?_, ⟨_, by rw [K2.uuid _ (by omega), C.uuidN]; rfl⟩, ?_⟩
  · have K1 := (frames_createHyperedge E F c nm h).keeps
    rw [hcr] at K1
    exact K1.trans K2
  · intro y hy
    rw [g2 y (by omega), C.genCtx y hy]
  · intro y hy
    rw [A.par y (by omega) ?_, C.parent y hy]
    intro hm
    obtain ⟨l, hl, e⟩ := List.mem_map.1 hm
    rw [(mem_zipLinks hl).2.2.1] at e
    cases e
  · unfold Heap.subelements
    rw [s2 c (by omega) (by omega) ?_, C.subs c hc, if_pos rfl]
    · simp [Dict.values]
    · intro hm
      obtain ⟨l, hl, e⟩ := List.mem_map.1 hm
      exact (hn _ (mem_zipLinks hl).1).1 e
  · intro y hy hyc u hu
    rcases p2 y (by omega) (by omega) u hu with q | ⟨x, t, q1, q2⟩
    · rw [C.subs y hy, if_neg (by rintro ⟨⟩; exact hyc rfl)] at q
      exact .inl q
    · rw [C.genCtx y hy] at q1
      rw [C.idName y hy] at q2
      exact .inr ⟨x, t, q1, q2⟩

theorem relName_edge {nm nm' n : Str} {t t' : Nat} (e : relName nm n t = relName nm' n t') : nm = nm' := by
  unfold relName at e
  simp only [Str.join_cons_cons, Str.join_singleton, List.append_cancel_left_eq] at e
  have e : (nm ++ '.' :: n) ++ '.' :: decimal t = (nm' ++ '.' :: n) ++ '.' :: decimal t' := by
    simpa using e
  have := (split_last e (dot_not_mem_decimal _) (dot_not_mem_decimal _)).1
  simpa using this

/-- The container `c` with its nodes `ns` and the edges `es`, made for `done`. -/
structure Stage (E : Env) (F : Factory) (name : Str) (nodes : List Str) (c : Ref) (ns : List Ref) (done : List (Str × List Nat))
    (es : List Ref) (h : Heap) : Prop where
  reach : Reach E h
  lt : c < h.size
  kind : (h.get c).kind = .node
  root : (h.get c).parent = none
  name : (h.get c).idName = name
  contents : h.subelements c = ns ++ es
  node : ∀ n ∈ ns, n < h.size ∧ n ≠ c ∧ (h.get n).kind = .node ∧ (h.get n).genCtx = some (h.get n).idName
  nodeNames : ns.map (fun n => (h.get n).idName) = nodes
  ports : ∀ n ∈ ns, ∀ u ∈ (h.get n).subs.keys, ∃ l ∈ done, ∃ t,
    u = elementUid E (h.get n).idName (relName l.1 (h.get n).idName t)
  nodeUuid : ∀ n ∈ ns, ∃ a t, '/' ∈ a ∧ a ≠ (h.get c).idName ∧ (h.get n).uuid = uidOf E F.name a t
  edge : ∀ e ∈ es, e < h.size ∧ (h.get e).kind = .edge
  edgeNames : es.map (fun e => (h.get e).idName) = done.map Prod.fst
  edgeUuid : ∀ e ∈ es, ∃ l ∈ done, ∃ t, (h.get e).uuid = uidOf E F.name l.1 t
  ends : es.map h.inducedSubset = done.map fun l => l.2.map (ns[·]?)
  undirected : ∀ e ∈ es, ∀ r ∈ h.subRelations e, (h.get r).direction = .bidirectional ∧ (h.get r).weight = none
  top : ∃ t, (h.get c).uuid = uidOf E F.name (h.get c).idName t

theorem NodeRow.nodeUuid {E : Env} {F : Factory} {name : Str} {c : Ref} {ns : List Ref} {h : Heap} (r : NodeRow E F name c ns h)
    {n : Ref} (hn : n ∈ ns) : ∃ a t, '/' ∈ a ∧ a ≠ (h.get c).idName ∧ (h.get n).uuid = uidOf E F.name a t := by
  obtain ⟨t, ht⟩ := r.uuid n hn
  refine ⟨_, t, by simp, fun e => ?_, ht⟩
  rw [r.path] at e
  have := congrArg List.length e
  simp only [List.length_append, List.length_cons] at this
  omega

theorem NodeRow.stage {E : Env} {F : Factory} {name : Str} {c : Ref} {ns : List Ref} {h : Heap} (r : NodeRow E F name c ns h) :
    Stage E F name (ns.map fun n => (h.get n).idName) c ns [] [] h where
  reach := r.reach
  lt := r.lt
  kind := r.kind
  root := r.root
  name := r.name
  contents := by rw [r.contents, List.append_nil]
  node n hn := ⟨(r.node n hn).1, (r.node n hn).2.1, (r.node n hn).2.2.1, (r.node n hn).2.2.2.1⟩
  nodeNames := rfl
  ports n hn u hu := by rw [(r.node n hn).2.2.2.2] at hu; cases hu
  nodeUuid n hn := r.nodeUuid hn
  top := r.top
  edge := by simp
  edgeNames := rfl
  edgeUuid := by simp
  ends := rfl
  undirected := by simp

theorem mapEach_itemAt {ns : List Ref} (is : List Nat) (hi : ∀ i ∈ is, i < ns.length) (h : Heap) :
    ∃ xs, mapEach is (itemAt ns) h = (.ok xs, h) ∧ xs.map some = is.map (ns[·]?) := by
  induction is with
  | nil => exact ⟨[], rfl, rfl⟩
  | cons i is ih =>
    obtain ⟨xs, run, e⟩ := ih fun j hj => hi j (by simp [hj])
    have hl := hi i (by simp)
    refine ⟨ns[i] :: xs, ?_, by simp [e, hl]⟩
    have run0 : itemAt ns i h = (.ok ns[i], h) := by
      unfold itemAt
      rw [List.getElem?_eq_getElem hl]
      rfl
    unfold mapEach
    rw [bind_ok run0, bind_ok run]
    rfl

theorem Stage.next {E : Env} (inj : Function.Injective E.sha) {F : Factory} (hF : F.clock ≠ none) {name : Str} {nodes : List Str}
    {c : Ref} {ns es : List Ref} {done : List (Str × List Nat)} {h : Heap} (s : Stage E F name nodes c ns done es h)
    (nd : nodes.Nodup) {l : Str × List Nat} (new : l.1 ∉ done.map Prod.fst) (slash : '/' ∉ l.1) (distinct : l.2.Nodup)
    (exist : ∀ i ∈ l.2, i < nodes.length) :
    ∃ h', F.connectItems E c ns l h = (.ok h.size, h') ∧ Stage E F name nodes c ns (done ++ [l]) (es ++ [h.size]) h' := by
  have hlen : ns.length = nodes.length := by rw [← s.nodeNames, List.length_map]
  have nnd : ns.Nodup := .of_map _ (by rw [s.nodeNames]; exact nd)
  obtain ⟨xs, run, e⟩ := mapEach_itemAt (ns := ns) l.2 (by rw [hlen]; exact exist) h
  have hxs : ∀ x ∈ xs, x ∈ ns := by
    intro x hx
    have : some x ∈ l.2.map (ns[·]?) := by rw [← e]; exact List.mem_map_of_mem hx
    obtain ⟨i, _, hi⟩ := List.mem_map.1 this
    exact List.mem_of_getElem? hi
  have hxnd : xs.Nodup := by
    refine List.Nodup.of_map some ?_
    rw [e]
    refine List.Nodup.map_on (fun i hi j hj hij => ?_) distinct
    have h1 := exist i hi
    have h2 := exist j hj
    rw [← hlen] at h1 h2
    exact (List.Nodup.getElem_inj_iff nnd).1 (by simpa [h1, h2] using hij)
  obtain ⟨h', run', J⟩ := connectNodes_joined inj s.reach hF (c := c) (nm := l.1) (nodes := xs) (d := .bidirectional) s.lt s.kind
    (by
      intro n hn
      obtain ⟨a1, a2, a3, a4⟩ := s.node n (hxs n hn)
      refine ⟨a2, a1, by rw [a3]; rfl, _, a4, fun x hx t hu => ?_⟩
      obtain ⟨m, hm, t', ht'⟩ := s.ports n (hxs n hn) _ ((s.reach.good.inv.mem_keys_iff _ _).2 ⟨x, hx, hu⟩)
      have := relName_edge (elementUid_inj inj ht')
      exact new (List.mem_map.2 ⟨m, hm, this.symm⟩))
    (hxnd.map_on fun a ha b hb hab => List.inj_on_of_nodup_map (by rw [s.nodeNames]; exact nd) (hxs a ha) (hxs b hb) hab)
    (by
      intro x hx t hu
      rw [s.contents] at hx
      rcases List.mem_append.1 hx with hx | hx
      · obtain ⟨a, t', ha, -, hu'⟩ := s.nodeUuid x hx
        rw [hu'] at hu
        exact slash ((uidOf_time inj hu).1 ▸ ha)
      · obtain ⟨m, hm, t', hu'⟩ := s.edgeUuid x hx
        rw [hu'] at hu
        exact new (List.mem_map.2 ⟨m, hm, (uidOf_time inj hu).1⟩))
  have B := J.built
  have K := J.keeps
  have hlt : h.size < h'.size := B.exists_
  refine ⟨h', ?_, ?_⟩
  · unfold Factory.connectItems
    rw [bind_ok run]
    exact run'
  · refine ⟨B.reach, by have := s.lt; omega, by rw [K.kind _ s.lt, s.kind], by rw [J.parent _ s.lt, s.root],
      by rw [K.idName _ s.lt, s.name], by rw [J.contents, s.contents, List.append_assoc], ?_, ?_, ?_, ?_, ?_, ?_, ?_, ?_, ?_,
      by rw [K.uuid c s.lt, K.idName c s.lt]; exact s.top⟩
    · intro n hn
      obtain ⟨a1, a2, a3, a4⟩ := s.node n hn
      exact ⟨by omega, a2, by rw [K.kind n a1, a3], by rw [J.genCtx n a1, K.idName n a1, a4]⟩
    · rw [← s.nodeNames]
      exact List.map_congr_left fun n hn => K.idName n (s.node n hn).1
    · intro n hn u hu
      obtain ⟨a1, a2, a3, a4⟩ := s.node n hn
      rw [K.idName n a1]
      rcases J.ports n a1 a2 u hu with q | ⟨x, t, q1, q2⟩
      · obtain ⟨m, hm, t, ht⟩ := s.ports n hn u q
        exact ⟨m, by simp [hm], t, ht⟩
      · rw [a4] at q1
        cases q1
        exact ⟨l, by simp, t, q2⟩
    · intro n hn
      rw [K.uuid n (s.node n hn).1, K.idName c s.lt]
      exact s.nodeUuid n hn
    · intro e' he
      rcases List.mem_append.1 he with he | he
      · exact ⟨by have := (s.edge e' he).1; omega, by rw [K.kind _ (s.edge e' he).1, (s.edge e' he).2]⟩
      · rw [List.mem_singleton] at he
        subst he
        exact ⟨hlt, B.kind⟩
    · rw [List.map_append, List.map_append, ← s.edgeNames, List.map_congr_left fun e' he => K.idName e' (s.edge e' he).1]
      simp [B.name]
    · intro e' he
      rcases List.mem_append.1 he with he | he
      · obtain ⟨m, hm, t, ht⟩ := s.edgeUuid e' he
        exact ⟨m, by simp [hm], t, by rw [K.uuid _ (s.edge e' he).1, ht]⟩
      · rw [List.mem_singleton] at he
        subst he
        obtain ⟨t, ht⟩ := J.uuid
        exact ⟨l, by simp, t, ht⟩
    · have old : es.map h'.inducedSubset = es.map h.inducedSubset := by
        refine List.map_congr_left fun e' he => ?_
        unfold Heap.inducedSubset
        rw [B.others _ (s.edge e' he).1]
        refine List.map_congr_left fun r hr => ?_
        have hr' : r < h.size := s.reach.good.inv.lt_of_parent ((s.reach.good.inv.mem_subelements e' r).1 (List.mem_of_mem_filter hr))
        exact congrArg Prod.fst (B.relEnds r hr')
      rw [List.map_append, List.map_append, old, s.ends, List.map_singleton, J.ends, e]
      rfl
    · intro e' he r hr
      rcases List.mem_append.1 he with he | he
      · rw [B.others _ (s.edge e' he).1] at hr
        have hr' : r < h.size := s.reach.good.inv.lt_of_parent ((s.reach.good.inv.mem_subelements e' r).1 (List.mem_of_mem_filter hr))
        have := B.relEnds r hr'
        unfold Heap.linkAt at this
        simp only [Prod.mk.injEq] at this
        rw [this.2.1, this.2.2]
        exact s.undirected e' he r hr
      · rw [List.mem_singleton] at he
        subst he
        have : h'.linkAt r ∈ wanted xs .bidirectional none := by
          rw [← B.relations]
          exact List.mem_map_of_mem hr
        rw [← zipLinks_asked] at this
        obtain ⟨k, hk, hx⟩ := List.mem_map.1 this
        obtain ⟨a, _, rfl⟩ := List.mem_map.1 hk
        unfold Heap.linkAt Link.asked at hx
        simp only [Prod.mk.injEq] at hx
        exact ⟨hx.2.1.symm, hx.2.2.symm⟩

end Rei
