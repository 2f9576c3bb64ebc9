import Verif.Spec.DirectedPlan
import Verif.Lemmas.SampleGraphs
import Verif.Props.SampleGraphs
import Verif.Lemmas.NewKinds

/-!
# Lemmas for C115 (plans with directions and weights)
-/
namespace Rei
open PyM

/-! ## What is not touched -/

theorem Frames.mapEach {E : Env} {L : Prop} {α β : Type} {f : α → PyM β} (hf : ∀ a, Frames E L (f a)) (xs : List α) :
    Frames E L (PyM.mapEach xs f) := by
  induction xs with
  | nil => exact .pure []
  | cons x xs ih =>
    unfold PyM.mapEach
    exact .bind (hf x) fun _ => .bind ih fun _ => .pure _

theorem calms_generateNode (E : Env) (F : Factory) (nm : Str) (p : Option Ref) : Frames E False (F.generateNode E nm p) := by
  intro h
  unfold Factory.generateNode
  rw [heap_bind_run]
  exact Frames.bind (.bind (frames_readClock E _) fun _ => .pure _)
    (fun _ => .bind (frames_stamped E F nm) fun _ => frames_newConceptual E .node nm _ _ _ _ (.inr (by simp))) h

theorem calms_createHyperedge (E : Env) (F : Factory) (c : Ref) (nm : Str) : Frames E False (F.createHyperedge E c nm) := by
  unfold Factory.createHyperedge
  refine .bind (.bind (frames_readClock E _) fun _ => .pure _) fun _ => .bind (frames_stampedIn E F nm c) fun _ =>
    .bind (.obj c) fun _ => .ite (frames_newConceptual E .edge nm _ _ _ _ (.inr (by simp))) (.raise _)

theorem calms_connectTuples (E : Env) (F : Factory) (c : Ref) (nm : Str) (ls : List Link) :
    Frames E False (F.connectTuples E c nm ls) := by
  unfold Factory.connectTuples connectAll
  exact .bind (calms_createHyperedge E F c nm) fun _ =>
    .bind (.forEach fun _ => frames_void (frames_unaryConnect E _ _ _ _ _)) fun _ => .pure _

theorem calms_assertNew (E : Env) (ns : List Ref) (seen : List Bytes) : Frames E False (assertNew seen ns) := by
  induction ns generalizing seen with
  | nil => exact .pure ()
  | cons n ns ih => exact .bind (.obj n) fun _ => .ite (.raise _) (ih _)

theorem calms_itemAt (E : Env) (ns : List Ref) (i : Nat) : Frames E False (itemAt ns i) := by
  unfold itemAt
  split
  · exact .raise _
  · exact .pure _

theorem calms_createDirected (E : Env) (F : Factory) (name : Str) (nodes : List Str) (lines : List (Str × List PlanEnd)) :
    Frames E False (F.createDirected E name nodes lines) := by
  unfold Factory.createDirected Factory.generateListNodes
  exact .bind (calms_generateNode E F _ _) fun _ => .bind (.mapEach (fun _ => calms_generateNode E F _ _) _) fun _ =>
    .bind (calms_assertNew E _ _) fun _ => .bind (.mapEach (fun _ => .bind (.mapEach (fun _ => .bind (calms_itemAt E _ _)
      fun _ => .pure _) _) fun _ => calms_connectTuples E F _ _ _) _) fun _ => .pure _

/-! ## The edges -/

/-- The effect of a successful `connect_tuple_nodes` without semantic values. -/
structure PlannedAt (E : Env) (F : Factory) (c : Ref) (nm : Str) (ls : List Link) (h h' : Heap) : Prop where
  built : Built E h h' c h.size nm (ls.map Link.asked)
  keeps : Keeps h h'
  genCtx : ∀ y < h.size, (h'.get y).genCtx = (h.get y).genCtx
  parent : ∀ y < h.size, (h'.get y).parent = (h.get y).parent
  contents : h'.subelements c = h.subelements c ++ [h.size]
  uuid : ∃ t, (h'.get h.size).uuid = uidOf E F.name nm t
  ports : ∀ y < h.size, y ≠ c → ∀ u ∈ (h'.get y).subs.keys, u ∈ (h.get y).subs.keys ∨
    ∃ x t, (h.get y).genCtx = some x ∧ u = elementUid E x (relName nm (h.get y).idName t)
  new : ∀ y, h.size < y → y < h'.size → (h'.get y).kind = .relation ∨ (h'.get y).kind = .port

theorem connectTuples_planned {E : Env} (inj : Function.Injective E.sha) {h : Heap} (R : Reach E h)
    {F : Factory} (hF : F.clock ≠ none) {c : Ref} {nm : Str} {ls : List Link} (hc : c < h.size)
    (hk : (h.get c).kind = .node)
    (hn : ∀ l ∈ ls, l.sem = none ∧ okRef h l.weight ∧ l.node ≠ c ∧ CanJoin E h nm l.node)
    (names : (ls.map fun l => (h.get l.node).idName).Nodup)
    (fresh : ∀ x ∈ h.subelements c, ∀ t, (h.get x).uuid ≠ uidOf E F.name nm t) :
    ∃ h', F.connectTuples E c nm ls h = (.ok h.size, h') ∧ PlannedAt E F c nm ls h h' := by
  have I := R.good.inv
  rcases F.createHyperedge_cases R hF hc (by rw [hk]; rfl) nm with ⟨hm, _⟩ | ⟨_, h1, hcr, C, R1⟩
  · obtain ⟨x, hx, he⟩ := (I.mem_keys_iff _ _).1 hm
    exact absurd he (fresh x hx _)
  have hs1 := C.size
  have nosem : ls.filterMap Link.sem = [] := by
    rw [List.filterMap_eq_nil_iff]
    exact fun l hl => (hn l hl).1
  obtain ⟨h2, h2r, g2, s2, p2⟩ := connectAll_succeeds inj (e := h.size) (ctx := nm) (nm := nm) ls R1
    (by omega) C.kindN (C.genN rfl) C.nameN (by
      intro l hl
      obtain ⟨a, w, hne, J⟩ := hn _ hl
      have J := J.joinable I
      refine ⟨a, fun v hv' => ?_, by have := J.lt; omega, by have := J.lt; omega, by rw [C.kind _ J.lt]; exact J.kind, ?_⟩
      · have := w v hv'; omega
      · obtain ⟨ctx, hctx, hf⟩ := J.port
        refine ⟨ctx, by rw [C.genCtx _ J.lt, hctx], fun t => ?_⟩
        rw [C.subs _ J.lt, if_neg (by rintro ⟨⟩; exact hne rfl), C.idName _ J.lt]
        exact hf t)
    (by
      have e : ls.map (fun l => (h1.get l.node).idName) = ls.map fun l => (h.get l.node).idName :=
        List.map_congr_left fun l hl => C.idName _ (hn l hl).2.2.2.lt
      rw [e]
      exact names)
    (by intro l _; rw [C.subsN]; simp [Dict.keys])
  have hok : ∀ l ∈ ls, l.Ok h1 := by
    intro l hl
    obtain ⟨a, w, hne, J⟩ := hn _ hl
    refine linkOk (by have := J.lt; omega) (fun v hv' => ?_) a
    have := w v hv'; omega
  obtain ⟨R2, qs, A⟩ := connectAll_rels _ R1 (by omega) C.kindN hok (by rw [nosem]; exact List.nodup_nil) h2r
  have run : F.connectTuples E c nm ls h = (.ok h.size, h2) := by
    unfold Factory.connectTuples
    rw [bind_ok hcr, bind_ok h2r]; rfl
  obtain ⟨B, -⟩ := C40_connect_tuple_nodes R hc (fun l hl => linkOk (hn l hl).2.2.2.lt (hn l hl).2.1 (hn l hl).1)
    (by rw [nosem]; exact List.nodup_nil) run
  have K2 := A.keeps
  refine ⟨h2, run, B, ?_, ?_, ?_, ?_, ⟨_, by rw [K2.uuid _ (by omega), C.uuidN]; rfl⟩, ?_, fun y a b => ?_⟩
  rotate_right
  · exact connectAll_new _ R1 (by omega) C.kindN (fun l hl => by
      obtain ⟨a, w, hne, J⟩ := hn _ hl
      exact ⟨a, fun v hv' => by have := w v hv'; omega, by have := J.lt; omega⟩) h2r y (by omega) b
  · have K1 := (frames_createHyperedge E F c nm h).keeps
    rw [hcr] at K1
    exact K1.trans K2
  · intro y hy
    rw [g2 y (by omega), C.genCtx y hy]
  · intro y hy
    rw [A.par y (by omega) ?_, C.parent y hy]
    intro hm
    obtain ⟨l, hl, e⟩ := List.mem_map.1 hm
    rw [(hn l hl).1] at e
    cases e
  · unfold Heap.subelements
    rw [s2 c (by omega) (by omega) ?_, C.subs c hc, if_pos rfl]
    · simp [Dict.values]
    · intro hm
      obtain ⟨l, hl, e⟩ := List.mem_map.1 hm
      exact (hn _ hl).2.2.1 e
  · intro y hy hyc u hu
    rcases p2 y (by omega) (by omega) u hu with q | ⟨x, t, q1, q2⟩
    · rw [C.subs y hy, if_neg (by rintro ⟨⟩; exact hyc rfl)] at q
      exact .inl q
    · rw [C.genCtx y hy] at q1
      rw [C.idName y hy] at q2
      exact .inr ⟨x, t, q1, q2⟩

/-- The container `c` with its nodes `ns` and the edges `es`, made for `done`. -/
structure DStage (E : Env) (F : Factory) (name : Str) (nodes : List Str) (c : Ref) (ns : List Ref)
    (done : List (Str × List PlanEnd)) (es : List Ref) (h : Heap) : Prop where
  reach : Reach E h
  lt : c < h.size
  kind : (h.get c).kind = .node
  root : (h.get c).parent = none
  name : (h.get c).idName = name
  contents : h.subelements c = ns ++ es
  node : ∀ n ∈ ns, n < h.size ∧ n ≠ c ∧ (h.get n).kind = .node ∧ (h.get n).genCtx = some (h.get n).idName
  nodeNames : ns.map (fun n => (h.get n).idName) = nodes
  ports : ∀ n ∈ ns, ∀ u ∈ (h.get n).subs.keys, ∃ l ∈ done, ∃ t,
    u = elementUid E (h.get n).idName (relName l.1 (h.get n).idName t)
  nodeUuid : ∀ n ∈ ns, ∃ a t, '/' ∈ a ∧ a ≠ (h.get c).idName ∧ (h.get n).uuid = uidOf E F.name a t
  edge : ∀ e ∈ es, e < h.size ∧ (h.get e).kind = .edge
  edgeNames : es.map (fun e => (h.get e).idName) = done.map Prod.fst
  edgeUuid : ∀ e ∈ es, ∃ l ∈ done, ∃ t, (h.get e).uuid = uidOf E F.name l.1 t
  ends : es.map (fun e => (h.subRelations e).map h.linkAt) =
    done.map fun l => l.2.map fun d => (ns[d.node]?, d.dir, d.weight)
  top : ∃ t, (h.get c).uuid = uidOf E F.name (h.get c).idName t
  hollow : ∀ n ∈ ns, h.subEdges n = []

theorem NodeRow.dstage {E : Env} {F : Factory} {name : Str} {c : Ref} {ns : List Ref} {h : Heap} (r : NodeRow E F name c ns h) :
    DStage E F name (ns.map fun n => (h.get n).idName) c ns [] [] h where
  reach := r.reach
  lt := r.lt
  kind := r.kind
  root := r.root
  name := r.name
  contents := by rw [r.contents, List.append_nil]
  node n hn := ⟨(r.node n hn).1, (r.node n hn).2.1, (r.node n hn).2.2.1, (r.node n hn).2.2.2.1⟩
  nodeNames := rfl
  ports n hn u hu := by rw [(r.node n hn).2.2.2.2] at hu; cases hu
  nodeUuid n hn := r.nodeUuid hn
  top := r.top
  hollow n hn := by
    unfold Heap.subEdges Heap.getSubelements Heap.subelements
    rw [(r.node n hn).2.2.2.2]; rfl
  edge := by simp
  edgeNames := rfl
  edgeUuid := by simp
  ends := rfl

theorem mapEach_ends {ns : List Ref} (ds : List PlanEnd) (hi : ∀ d ∈ ds, d.node < ns.length) (h : Heap) :
    ∃ ls : List Link, mapEach ds (fun d => do
        let n ← itemAt ns d.node
        pure (⟨n, d.dir, d.weight, none⟩ : Link)) h = (.ok ls, h) ∧
      ls.map Link.asked = ds.map (fun d => (ns[d.node]?, d.dir, d.weight)) ∧ ls.length = ds.length ∧
      ∀ (i : Nat) l d, ls[i]? = some l → ds[i]? = some d →
        l.sem = none ∧ ns[d.node]? = some l.node ∧ l.dir = d.dir ∧ l.weight = d.weight := by
  induction ds with
  | nil => exact ⟨[], rfl, rfl, rfl, by simp⟩
  | cons i is ih =>
    obtain ⟨xs, run, e, len, at_⟩ := ih fun j hj => hi j (by simp [hj])
    have hl := hi i (by simp)
    refine ⟨⟨ns[i.node], i.dir, i.weight, none⟩ :: xs, ?_, by simp [e, hl, Link.asked], by simp [len], ?_⟩
    · have run0 : itemAt ns i.node h = (.ok ns[i.node], h) := by
        unfold itemAt
        rw [List.getElem?_eq_getElem hl]
        rfl
      have run1 : (do
          let n ← itemAt ns i.node
          pure (⟨n, i.dir, i.weight, none⟩ : Link)) h = (.ok ⟨ns[i.node], i.dir, i.weight, none⟩, h) := by
        rw [bind_ok run0]; rfl
      unfold mapEach
      rw [bind_ok run1, bind_ok run]
      rfl
    · intro k l d h1 h2
      cases k with
      | zero =>
        simp only [List.getElem?_cons_zero, Option.some.injEq] at h1 h2
        subst h1; subst h2
        exact ⟨rfl, List.getElem?_eq_getElem hl, rfl, rfl⟩
      | succ k =>
        simp only [List.getElem?_cons_succ] at h1 h2
        exact at_ k l d h1 h2

theorem DStage.next {E : Env} (inj : Function.Injective E.sha) {F : Factory} (hF : F.clock ≠ none) {name : Str} {nodes : List Str}
    {c : Ref} {ns es : List Ref} {done : List (Str × List PlanEnd)} {h : Heap} (s : DStage E F name nodes c ns done es h)
    (nd : nodes.Nodup) {l : Str × List PlanEnd} (new : l.1 ∉ done.map Prod.fst) (slash : '/' ∉ l.1)
    (distinct : (l.2.map PlanEnd.node).Nodup) (exist : ∀ d ∈ l.2, d.node < nodes.length)
    (hw : ∀ d ∈ l.2, okRef h d.weight) :
    ∃ h', F.connectEnds E c ns l h = (.ok h.size, h') ∧ DStage E F name nodes c ns (done ++ [l]) (es ++ [h.size]) h' ∧
      h.size ≤ h'.size := by
  have hlen : ns.length = nodes.length := by rw [← s.nodeNames, List.length_map]
  have nnd : ns.Nodup := .of_map _ (by rw [s.nodeNames]; exact nd)
  obtain ⟨ls, run, e, ll, at_⟩ := mapEach_ends (ns := ns) l.2 (by rw [hlen]; exact exist) h
  have hls : ∀ x ∈ ls, x.sem = none ∧ okRef h x.weight ∧ x.node ∈ ns := by
    intro x hx
    obtain ⟨i, hi, rfl⟩ := List.getElem_of_mem hx
    have hd : l.2[i]? = some (l.2[i]'(ll ▸ hi)) := List.getElem?_eq_getElem _
    obtain ⟨a, b, _, w⟩ := at_ i _ _ (List.getElem?_eq_getElem hi) hd
    exact ⟨a, by rw [w]; exact hw _ (List.getElem_mem _), List.mem_of_getElem? b⟩
  have hnodes : ls.map (fun x => some x.node) = l.2.map fun d => ns[d.node]? := by
    have := congrArg (List.map Prod.fst) e
    rw [List.map_map, List.map_map] at this
    exact this
  have hxnd : (ls.map Link.node).Nodup := by
    refine List.Nodup.of_map some ?_
    rw [List.map_map]
    show (ls.map fun x => some x.node).Nodup
    rw [hnodes]
    have : l.2.map (fun d => ns[d.node]?) = (l.2.map PlanEnd.node).map fun i => ns[i]? := by rw [List.map_map]; rfl
    rw [this]
    refine List.Nodup.map_on (fun i hi j hj hij => ?_) distinct
    obtain ⟨d, hd, rfl⟩ := List.mem_map.1 hi
    obtain ⟨d', hd', rfl⟩ := List.mem_map.1 hj
    have h1 := exist d hd
    have h2 := exist d' hd'
    rw [← hlen] at h1 h2
    exact (List.Nodup.getElem_inj_iff nnd).1 (by simpa [h1, h2] using hij)
  obtain ⟨h', run', J⟩ := connectTuples_planned inj s.reach hF (c := c) (nm := l.1) (ls := ls) s.lt s.kind
    (by
      intro x hx
      obtain ⟨b1, b2, b3⟩ := hls x hx
      obtain ⟨a1, a2, a3, a4⟩ := s.node x.node b3
      refine ⟨b1, b2, a2, a1, by rw [a3]; rfl, _, a4, fun y hy t hu => ?_⟩
      obtain ⟨m, hm, t', ht'⟩ := s.ports x.node b3 _ ((s.reach.good.inv.mem_keys_iff _ _).2 ⟨y, hy, hu⟩)
      have := relName_edge (elementUid_inj inj ht')
      exact new (List.mem_map.2 ⟨m, hm, this.symm⟩))
    (by
      have : ls.map (fun l => (h.get l.node).idName) = (ls.map Link.node).map fun n => (h.get n).idName := by
        rw [List.map_map]; rfl
      rw [this]
      refine hxnd.map_on fun a ha b hb hab => ?_
      obtain ⟨x, hx, rfl⟩ := List.mem_map.1 ha
      obtain ⟨y, hy, rfl⟩ := List.mem_map.1 hb
      exact List.inj_on_of_nodup_map (by rw [s.nodeNames]; exact nd) (hls x hx).2.2 (hls y hy).2.2 hab)
    (by
      intro x hx t hu
      rw [s.contents] at hx
      rcases List.mem_append.1 hx with hx | hx
      · obtain ⟨a, t', ha, -, hu'⟩ := s.nodeUuid x hx
        rw [hu'] at hu
        exact slash ((uidOf_time inj hu).1 ▸ ha)
      · obtain ⟨m, hm, t', hu'⟩ := s.edgeUuid x hx
        rw [hu'] at hu
        exact new (List.mem_map.2 ⟨m, hm, (uidOf_time inj hu).1⟩))
  have B := J.built
  have K := J.keeps
  have hlt : h.size < h'.size := B.exists_
  refine ⟨h', ?_, ?_, by omega⟩
  · unfold Factory.connectEnds
    rw [bind_ok run]
    exact run'
  · refine ⟨B.reach, by have := s.lt; omega, by rw [K.kind _ s.lt, s.kind], by rw [J.parent _ s.lt, s.root],
      by rw [K.idName _ s.lt, s.name], by rw [J.contents, s.contents, List.append_assoc], ?_, ?_, ?_, ?_, ?_, ?_, ?_, ?_,
      by rw [K.uuid c s.lt, K.idName c s.lt]; exact s.top, ?_⟩
    rotate_right
    · intro n hn
      obtain ⟨a1, a2, a3, a4⟩ := s.node n hn
      rw [List.eq_nil_iff_forall_not_mem]
      intro x hx
      have I' := B.reach.good.inv
      have hp := (I'.mem_subelements n x).1 (List.mem_of_mem_filter hx)
      have hkx : (h'.get x).kind = .edge := by simpa using (List.mem_filter.1 hx).2
      rcases Nat.lt_trichotomy x h.size with q | q | q
      · rw [J.parent x q] at hp
        rw [K.kind x q] at hkx
        have : x ∈ h.subEdges n := List.mem_filter.2 ⟨(s.reach.good.inv.mem_subelements n x).2 hp, by simpa using hkx⟩
        rw [s.hollow n hn] at this
        cases this
      · have : h.size ∈ h'.subelements c := by rw [J.contents]; simp
        rw [q, (I'.mem_subelements c h.size).1 this] at hp
        exact a2 (Option.some.inj hp).symm
      · rcases J.new x q (I'.lt_of_parent hp) with k | k <;> rw [hkx] at k <;> cases k
    · intro n hn
      obtain ⟨a1, a2, a3, a4⟩ := s.node n hn
      exact ⟨by omega, a2, by rw [K.kind n a1, a3], by rw [J.genCtx n a1, K.idName n a1, a4]⟩
    · rw [← s.nodeNames]
      exact List.map_congr_left fun n hn => K.idName n (s.node n hn).1
    · intro n hn u hu
      obtain ⟨a1, a2, a3, a4⟩ := s.node n hn
      rw [K.idName n a1]
      rcases J.ports n a1 a2 u hu with q | ⟨x, t, q1, q2⟩
      · obtain ⟨m, hm, t, ht⟩ := s.ports n hn u q
        exact ⟨m, by simp [hm], t, ht⟩
      · rw [a4] at q1
        cases q1
        exact ⟨l, by simp, t, q2⟩
    · intro n hn
      rw [K.uuid n (s.node n hn).1, K.idName c s.lt]
      exact s.nodeUuid n hn
    · intro e' he
      rcases List.mem_append.1 he with he | he
      · exact ⟨by have := (s.edge e' he).1; omega, by rw [K.kind _ (s.edge e' he).1, (s.edge e' he).2]⟩
      · rw [List.mem_singleton] at he
        subst he
        exact ⟨hlt, B.kind⟩
    · rw [List.map_append, List.map_append, ← s.edgeNames, List.map_congr_left fun e' he => K.idName e' (s.edge e' he).1]
      simp [B.name]
    · intro e' he
      rcases List.mem_append.1 he with he | he
      · obtain ⟨m, hm, t, ht⟩ := s.edgeUuid e' he
        exact ⟨m, by simp [hm], t, by rw [K.uuid _ (s.edge e' he).1, ht]⟩
      · rw [List.mem_singleton] at he
        subst he
        obtain ⟨t, ht⟩ := J.uuid
        exact ⟨l, by simp, t, ht⟩
    · have old : es.map (fun e => (h'.subRelations e).map h'.linkAt) = es.map fun e => (h.subRelations e).map h.linkAt := by
        refine List.map_congr_left fun e' he => ?_
        rw [B.others _ (s.edge e' he).1]
        refine List.map_congr_left fun r hr => ?_
        have hr' : r < h.size := s.reach.good.inv.lt_of_parent ((s.reach.good.inv.mem_subelements e' r).1 (List.mem_of_mem_filter hr))
        exact B.relEnds r hr'
      rw [List.map_append, List.map_append, old, s.ends, List.map_singleton, B.relations, e]
      rfl

theorem DStage.all {E : Env} (inj : Function.Injective E.sha) {F : Factory} (hF : F.clock ≠ none) {name : Str} {nodes : List Str}
    {c : Ref} {ns : List Ref} {h0 : Heap} (lines : List (Str × List PlanEnd)) {es : List Ref}
    {done : List (Str × List PlanEnd)} {h : Heap} (s : DStage E F name nodes c ns done es h) (le : h0.size ≤ h.size)
    (p : DirectedPlan h0 nodes (done ++ lines)) :
    ∃ xs h', mapEach lines (F.connectEnds E c ns) h = (.ok xs, h') ∧
      DStage E F name nodes c ns (done ++ lines) (es ++ xs) h' := by
  induction lines generalizing es done h with
  | nil => exact ⟨[], h, rfl, by simpa using s⟩
  | cons l lines ih =>
    obtain ⟨h1, run, s1, le1⟩ := s.next inj hF p.apart (l := l)
      (by
        have := p.names
        rw [List.map_append, List.nodup_append] at this
        exact fun hm => this.2.2 _ hm l.1 (by simp) rfl)
      (p.slash l (by simp)) (p.distinct l (by simp)) (p.exist l (by simp))
      (fun d hd w hw => Nat.lt_of_lt_of_le (p.weights l (by simp) d hd w hw).1 le)
    obtain ⟨xs, h2, run2, s2⟩ := ih s1 (by omega) (by simpa using p)
    refine ⟨h.size :: xs, h2, ?_, by simpa using s2⟩
    unfold mapEach
    rw [bind_ok run, bind_ok run2]
    rfl

theorem DStage.graph {E : Env} {F : Factory} {name : Str} {nodes : List Str} {c : Ref} {ns es : List Ref}
    {lines : List (Str × List PlanEnd)} {h : Heap} (s : DStage E F name nodes c ns lines es h) :
    DirectedIn h name nodes lines c ns es where
  kind := s.kind
  root := s.root
  name := s.name
  contents := s.contents
  subNodes := by
    unfold Heap.subNodes Heap.getSubelements
    rw [s.contents, List.filter_append, List.filter_eq_self.2, List.filter_eq_nil_iff.2, List.append_nil]
    · intro e he; simp [(s.edge e he).2]
    · intro n hn; simp [(s.node n hn).2.2.1]
  subEdges := by
    unfold Heap.subEdges Heap.getSubelements
    rw [s.contents, List.filter_append, List.filter_eq_nil_iff.2, List.filter_eq_self.2, List.nil_append]
    · intro e he; simp [(s.edge e he).2]
    · intro n hn; simp [(s.node n hn).2.2.1]
  nodeNames := s.nodeNames
  edgeNames := s.edgeNames
  ends := s.ends

end Rei
