import Verif.Lemmas.Fuzzy

/-!
# C96: fuzzy systems
-/
namespace Rei
open PyM

/-- A link without weight and semantic value. -/
def Link.Plain (l : Link) : Prop := l.weight = none ∧ l.sem = none

theorem connectAll_onward {E : Env} {e : Ref} (ls : List Link) {h h' : Heap} (R : Reach E h) (he : e < h.size)
    (hk : (h.get e).kind = .edge) (hl : ∀ l ∈ ls, l.node < h.size ∧ l.Plain) (hr : connectAll E e ls h = (.ok (), h')) :
    Onward h.size [e] h h' := by
  induction ls generalizing h with
  | nil => cases hr; exact .refl _ _ _
  | cons l ls ih =>
    unfold connectAll at hr ih
    rw [forEach_cons] at hr
    obtain ⟨hn, hw, hs⟩ := hl l (by simp)
    cases hu : unaryConnect E e l.node l.weight l.dir l.sem h with
    | mk res h1 =>
    cases res with
    | error er => rw [bind_err (PyM.void_err hu)] at hr; cases hr
    | ok q =>
    rw [bind_ok (PyM.void_ok hu)] at hr
    rw [hw, hs] at hu
    have D := connect_does R l.dir he hk hn (sv := none) (w := none) (by rintro s ⟨⟩)
    obtain ⟨-, L⟩ := D.2 _ _ hu
    have R1 := D.1
    rw [hu] at R1
    replace R1 : Reach E h1 := R1
    have hs1 := L.size
    have o := ih R1 (by omega) (by rw [L.kind e he, hk])
      (fun l' hl' => ⟨by have := (hl l' (by simp [hl'])).1; omega, (hl l' (by simp [hl'])).2⟩) hr
    exact L.onward.trans (o.weaken (by omega) (by simp))

/-- The effect of a successful `connect_tuple_nodes` without weights and semantic values. -/
structure TuplesAt (E : Env) (c : Ref) (nm : Str) (ls : List Link) (h h' : Heap) : Prop where
  built : Built E h h' c h.size nm (ls.map Link.asked)
  onward : Onward h.size [c] h h'
  contents : h'.subelements c = h.subelements c ++ [h.size]
  others : ∀ y < h.size, y ≠ c → y ∉ ls.map Link.node → h'.subelements y = h.subelements y

theorem connectTuples_joined {E : Env} (inj : Function.Injective E.sha) {h : Heap} (R : Reach E h)
    {F : Factory} (hF : F.clock ≠ none) {c : Ref} {nm : Str} {ls : List Link} (hc : c < h.size)
    (hk : (h.get c).kind = .node) (hl : ∀ l ∈ ls, l.node ≠ c ∧ l.Plain ∧ CanJoin E h nm l.node)
    (names : (ls.map fun l => (h.get l.node).idName).Nodup)
    (fresh : ∀ x ∈ h.subelements c, ∀ t, (h.get x).uuid ≠ uidOf E F.name nm t) :
    ∃ h', F.connectTuples E c nm ls h = (.ok h.size, h') ∧ TuplesAt E c nm ls h h' := by
  have I := R.good.inv
  rcases F.createHyperedge_cases R hF hc (by rw [hk]; rfl) nm with ⟨hm, _⟩ | ⟨_, h1, hcr, C, R1⟩
  · obtain ⟨x, hx, he⟩ := (I.mem_keys_iff _ _).1 hm
    exact absurd he (fresh x hx _)
  have hs1 := C.size
  obtain ⟨h2, h2r, g2, s2, p2⟩ := connectAll_succeeds inj (e := h.size) (ctx := nm) (nm := nm) ls R1
    (by omega) C.kindN (C.genN rfl) C.nameN (by
      intro l hl'
      obtain ⟨hne, ⟨hw, hsm⟩, J⟩ := hl l hl'
      have J := J.joinable I
      refine ⟨hsm, by rw [hw]; rintro v ⟨⟩, by have := J.lt; omega, by have := J.lt; omega, by rw [C.kind _ J.lt]; exact J.kind, ?_⟩
      obtain ⟨ctx, hctx, hf⟩ := J.port
      refine ⟨ctx, by rw [C.genCtx _ J.lt, hctx], fun t => ?_⟩
      rw [C.subs _ J.lt, if_neg (by rintro ⟨⟩; exact hne rfl), C.idName _ J.lt]
      exact hf t)
    (by
      rw [List.map_congr_left fun l hl' => C.idName _ (hl l hl').2.2.lt]
      exact names)
    (by intro l _; rw [C.subsN]; simp [Dict.keys])
  have run : F.connectTuples E c nm ls h = (.ok h.size, h2) := by
    unfold Factory.connectTuples
    rw [bind_ok hcr, bind_ok h2r]; rfl
  have hsn : ls.filterMap Link.sem = [] := by
    rw [List.filterMap_eq_nil_iff]
    exact fun l hl' => (hl l hl').2.1.2
  have B := (C40_connect_tuple_nodes R hc (fun l hl' => linkOk (hl l hl').2.2.lt (by rw [(hl l hl').2.1.1]; rintro v ⟨⟩)
    (hl l hl').2.1.2) (by rw [hsn]; exact List.nodup_nil) run).1
  have M := ((edge_does R hF nm hc hk).2 _ _ hcr).2
  refine ⟨h2, run, B, ?_, ?_, ?_⟩
  · have o := connectAll_onward ls R1 (by omega) C.kindN
      (fun l hl' => ⟨by have := (hl l hl').2.2.lt; omega, (hl l hl').2.1⟩) h2r
    exact M.later.trans (o.weaken (by omega) (by simp))
  · unfold Heap.subelements
    rw [s2 c (by omega) (by omega) ?_, C.subs c hc, if_pos rfl]
    · simp [Dict.values]
    · intro hm
      obtain ⟨l, hl', e⟩ := List.mem_map.1 hm
      exact (hl _ hl').1 e
  · intro y hy hyc hyn
    unfold Heap.subelements
    rw [s2 y (by omega) (by omega) hyn, C.subs y hy, if_neg (by rintro ⟨⟩; exact hyc rfl)]

theorem SensorAt.canJoin {E : Env} (inj : Function.Injective E.sha) {F : Factory} {h : Heap} {n : Ref} {s : Sensor}
    (i : SensorAt E F h n s) (slash : '/' ∉ s.name) (fslash : '/' ∉ F.name) (other : s.name ≠ F.name) (nm : Str) :
    CanJoin E h nm n where
  lt := i.lt
  kind := by rw [i.kind]; rfl
  port := by
    refine ⟨s.name, i.gen, fun x hx t hu => ?_⟩
    obtain ⟨t', ht'⟩ := i.uuid x hx
    rw [ht'] at hu
    unfold uidOf elementUid at hu
    exact other (split_first (inj hu) fslash slash).1.symm

theorem subValues_of_parts {h h' : Heap} (I : Inv h) {n : Ref} (hp : h'.parts n = h.parts n)
    (hk : ∀ y < h.size, (h'.get y).kind = (h.get y).kind) (hv : ∀ y ∈ h.subelements n, (h.get y).kind = .value) :
    h'.subValues n = h.subelements n := by
  have e1 : h.parts n = h.subelements n := by
    unfold Heap.parts
    rw [List.filter_eq_self]
    intro y hy
    simp [hv y hy]
  have e2 : h'.subValues n = (h'.parts n).filter fun y => decide ((h'.get y).kind = .value) := by
    unfold Heap.subValues Heap.getSubelements Heap.parts
    rw [List.filter_filter]
    apply List.filter_congr
    intro y _
    by_cases e : (h'.get y).kind = .value
    · simp [e]
    · simp [e]
  rw [e2, hp, e1, List.filter_eq_self]
  intro y hy
  rw [hk y (I.lt_of_parent ((I.mem_subelements n y).1 hy)), hv y hy]
  rfl

theorem SensorAt.shown {E : Env} {F : Factory} {D : List Ref} {h h' : Heap} (I : Inv h) {n : Ref} {s : Sensor}
    (i : SensorAt E F h n s) (o : Onward h.size D h h') (hD : n ∉ D) : IsSensor h' n s := by
  have hv : ∀ y ∈ h.subelements n, (h.get y).kind = .value := by
    intro y hy
    have := i.values
    obtain ⟨j, hj, e⟩ := List.getElem_of_mem hy
    have := (List.forall₂_iff_get.1 this).2 j hj (by rw [← this.length_eq]; exact hj)
    rw [List.get_eq_getElem, e] at this
    exact this.kind
  refine ⟨by rw [o.kind n i.lt, i.kind], by rw [o.idName n i.lt, i.name], ?_⟩
  rw [subValues_of_parts I (o.only n i.lt hD) o.kind hv]
  refine i.values.imp fun v p q => ⟨by rw [o.kind v q.lt, q.kind], by rw [o.idName v q.lt, q.name], ?_⟩
  have := q.values
  unfold Heap.valuesOf at this ⊢
  rw [o.vals v q.lt, o.lists _ q.ok, this]

theorem filter_by {α β : Type} (f : α → β) (p : β → Bool) {l : List α} {m : List β} (h : l.map f = m) :
    (l.filter fun x => p (f x)).map f = m.filter p := by
  rw [← h, List.filter_map]
  rfl


/-- **C96.** The steps of the application, for any plan: they succeed whatever the clock shows, and what they make and print is
what the plan asks for. -/
theorem C96_system {E : Env} (inj : Function.Injective E.sha) {h : Heap} (R : Reach E h) {F : Factory} (hF : F.clock ≠ none)
    (system group exterior : Str) {inputs : List Sensor} {result : Sensor} {edge : Str} (p : FuzzyPlan F.name inputs result edge) :
    ∃ r h', F.fuzzySystem E system group inputs result edge exterior h = (.ok r, h') ∧ Reach E h' ∧
      FuzzyIn h' system group inputs result edge exterior r := by
  -- the system
  obtain ⟨h1, u1, run1, R1, P1⟩ := root_put R hF system
  have s1 := P1.created.size
  -- the group
  obtain ⟨h2, t2, run2, R2, P2⟩ := node_put R1 hF group (c := h.size) (by omega) P1.created.kindN (by rw [P1.empty]; simp)
  have s2 := P2.created.size
  -- the inputs
  obtain ⟨ns, h3, run3, R3, G3, K3⟩ := inputs_made inj hF inputs (b := h1.size) (ns := []) (done := []) R2
    ⟨by omega, P2.created.kindN, P2.empty, .nil, by simp, by simp⟩
    (by
      have := p.names
      rw [List.map_append, List.nodup_append] at this
      simpa using this.1)
    (fun s hs => p.values s (by simp [hs]))
  simp only [List.nil_append] at G3
  have s3 := K3.size
  have n3 : ∀ n ∈ ns, n < h3.size ∧ h2.size ≤ n := by
    intro n hn
    have hp := (R3.good.inv.mem_subelements _ n).1 (G3.contents ▸ hn)
    refine ⟨R3.good.inv.lt_of_parent hp, ?_⟩
    by_contra hlt
    have hlt : n < h2.size := by omega
    rw [K3.parent n hlt] at hp
    have : n ∈ h2.subelements h1.size := (R2.good.inv.mem_subelements _ n).2 hp
    rw [P2.empty] at this
    cases this
  -- the result
  obtain ⟨h4, u4, run4, R4, P4⟩ := root_put R3 hF result.name
  have s4 := P4.created.size
  obtain ⟨h5, run5, R5, S5, K5⟩ := fill_made inj hF result.values R4 (sensor_start (E := E) (F := F) P4)
    (by simpa using p.values result (by simp))
  simp only [List.nil_append] at S5
  have s5 := K5.size
  have K4 : Kept2 (fun _ => False) h3 h4 := P4.kept (by rintro q ⟨⟩)
  have G5 : GroupAt E F h5 h1.size ns inputs :=
    (G3.kept K4 R3.good.inv (by simp) (by simp)).kept K5 R4.good.inv (by omega) fun n hn => by have := (n3 n hn).1; omega
  -- the system so far
  have c5 : h.size < h5.size := by omega
  have k5 : (h5.get h.size).kind = .node := by
    rw [K5.kind _ (by omega), K4.kind _ (by omega), K3.kind _ (by omega), P2.created.kind _ (by omega), P1.created.kindN]
  have q5 : h5.subelements h.size = [h1.size] := by
    rw [K5.contents _ (by omega) (by omega), K4.contents _ (by omega) (by simp), K3.contents _ (by omega) (by omega),
      P2.contents (by omega), if_pos rfl, P1.empty]
    rfl
  have b5 : (h5.get h1.size).uuid = uidOf E F.name ((h1.get h.size).qualName ++ '/' :: group) t2 := by
    rw [K5.uuid _ (by omega), K4.uuid _ (by omega), K3.uuid _ (by omega), P2.created.uuidN]
  -- the edge
  have nodes : (inferLinks ns h3.size).map Link.node = ns ++ [h3.size] := by
    simp [inferLinks, Function.comp_def]
  have all5 : List.Forall₂ (SensorAt E F h5) (ns ++ [h3.size]) (inputs ++ [result]) := List.rel_append G5.inputs (.cons S5 .nil)
  have of_link : ∀ l ∈ inferLinks ns h3.size, l.node ∈ ns ++ [h3.size] ∧ l.Plain := by
    intro l hl
    refine ⟨by rw [← nodes]; exact List.mem_map_of_mem hl, ?_⟩
    simp only [inferLinks, List.mem_append, List.mem_map, List.mem_singleton] at hl
    rcases hl with ⟨n, _, rfl⟩ | rfl <;> exact ⟨rfl, rfl⟩
  have nlt : ∀ n ∈ ns ++ [h3.size], n < h5.size ∧ h2.size ≤ n := by
    intro n hn
    rw [List.mem_append, List.mem_singleton] at hn
    rcases hn with hn | rfl
    · have := n3 n hn; omega
    · omega
  obtain ⟨h6, run6, T⟩ := connectTuples_joined inj R5 hF (c := h.size) (nm := edge) (ls := inferLinks ns h3.size) c5 k5
    (by
      intro l hl
      obtain ⟨hm, hp⟩ := of_link l hl
      refine ⟨by have := nlt _ hm; omega, hp, ?_⟩
      obtain ⟨j, hj, e⟩ := List.getElem_of_mem hm
      have hj' : j < (inputs ++ [result]).length := by rw [← all5.length_eq]; exact hj
      have S := (List.forall₂_iff_get.1 all5).2 j hj hj'
      rw [List.get_eq_getElem, e] at S
      have hmem := List.getElem_mem hj'
      exact S.canJoin inj (p.slash _ hmem) p.factorySlash (p.other _ hmem) edge)
    (by
      rw [show (fun l : Link => (h5.get l.node).idName) = (fun n => (h5.get n).idName) ∘ Link.node from rfl, ← List.map_map,
        nodes, forall₂_names all5]
      exact p.names)
    (by
      intro x hx t hu
      rw [q5, List.mem_singleton] at hx
      subst hx
      rw [b5] at hu
      refine p.edgeSlash ?_
      rw [← (uidOf_time inj hu).1]
      simp)
  have B := T.built
  have e6 := B.exists_
  have R6 := B.reach
  -- the exterior
  obtain ⟨h7, u7, run7, R7, P7⟩ := root_put R6 hF exterior
  have M7 := ((root_does R6 hF exterior).2 _ _ run7).2
  have s7 := P7.created.size
  have s6 := T.onward.size
  have O : Onward h5.size [h.size] h5 h7 := T.onward.trans (M7.later.weaken (by omega) (by simp))
  have C7 := P7.created
  have keep : ∀ y < h6.size, h7.subelements y = h6.subelements y := fun y hy => by
    rw [P7.contents hy, if_neg (by simp), List.append_nil]
  have rel7 : h7.subRelations h5.size = h6.subRelations h5.size := by
    unfold Heap.subRelations Heap.getSubelements
    rw [keep _ e6]
    apply List.filter_congr
    intro y hy
    rw [C7.kind y (R6.good.inv.lt_of_parent ((R6.good.inv.mem_subelements _ y).1 hy))]
  have link7 : (h7.subRelations h5.size).map h7.linkAt = (inferLinks ns h3.size).map Link.asked := by
    rw [rel7, ← B.relations]
    refine List.map_congr_left fun y hy => ?_
    have hl := R6.good.inv.lt_of_parent ((R6.good.inv.mem_subelements _ y).1 (List.mem_of_mem_filter hy))
    unfold Heap.linkAt
    rw [C7.endpoint y hl, C7.direction y hl, C7.weight y hl]
  have notin : h1.size ∉ (inferLinks ns h3.size).map Link.node := by
    rw [nodes]
    intro hm
    have := nlt _ hm
    omega
  refine ⟨⟨h.size, h1.size, ns, h3.size, h5.size, h6.size, h7.incoming h5.size⟩, h7, ?_, R7, ?_⟩
  · have r4 : F.addSensor E none result h3 = (.ok h3.size, h5) := by
      unfold Factory.addSensor
      rw [bind_ok run4, bind_ok run5]
      rfl
    unfold Factory.fuzzySystem
    rw [bind_ok run1, bind_ok run2, bind_ok run3, bind_ok r4, bind_ok run6, bind_ok run7]
    rfl
  · refine ⟨⟨?_, ?_, ?_⟩, ⟨?_, ?_⟩, ⟨?_, ?_⟩, ⟨C7.kindN, C7.nameN, C7.parentN, P7.empty⟩, ?_, ?_, ?_, ⟨?_, ?_⟩, ?_, rfl, ?_, ?_, ?_⟩
    · rw [O.kind _ c5, k5]
    · rw [O.idName _ c5, K5.idName _ (by omega), K4.idName _ (by omega), K3.idName _ (by omega), P2.created.idName _ (by omega),
        P1.created.nameN]
    · rw [O.parent _ c5, K5.parent _ (by omega), K4.parent _ (by omega), K3.parent _ (by omega), P2.created.parent _ (by omega),
        P1.created.parentN]
    · rw [O.kind h1.size (by omega), G5.kind]
    · rw [O.idName h1.size (by omega), K5.idName _ (by omega), K4.idName _ (by omega), K3.idName _ (by omega), P2.created.nameN]
    · rw [C7.kind _ e6, B.kind]
    · rw [C7.idName _ e6, B.name]
    · rw [keep h.size (by omega), T.contents, q5]
      rfl
    · rw [keep h1.size (by omega), T.others _ (by omega) (by omega) notin, G5.contents]
    · have := G5.inputs
      refine List.forall₂_iff_get.2 ⟨this.length_eq, fun j h1 h2 => ?_⟩
      refine ((List.forall₂_iff_get.1 this).2 j h1 h2).shown R5.good.inv O ?_
      rw [List.mem_singleton]
      have := (n3 _ (List.get_mem ns ⟨j, h1⟩)).2
      omega
    · exact S5.shown R5.good.inv O (by rw [List.mem_singleton]; omega)
    · rw [O.parent h3.size (by omega), K5.parent _ (by omega), P4.created.parentN]
    · have := congrArg (List.map Prod.fst) link7
      rw [List.map_map, List.map_map] at this
      unfold Heap.inducedSubset
      refine Eq.trans this ?_
      rw [← nodes, List.map_map]
      rfl
    · have := congrArg (List.map Prod.fst) (filter_by h7.linkAt (fun l => decide (l.2.1 = .inwards ∨ l.2.1 = .bidirectional)) link7)
      rw [List.map_map] at this
      unfold Heap.incoming
      refine Eq.trans this ?_
      simp [inferLinks, Link.asked, List.filter_append, List.filter_map, Function.comp_def]
    · have := congrArg (List.map Prod.fst) (filter_by h7.linkAt (fun l => decide (l.2.1 = .outwards ∨ l.2.1 = .bidirectional)) link7)
      rw [List.map_map] at this
      unfold Heap.outgoing
      refine Eq.trans this ?_
      simp [inferLinks, Link.asked, List.filter_append, List.filter_map, Function.comp_def]
    · intro q hq
      have : h7.linkAt q ∈ (inferLinks ns h3.size).map Link.asked := by rw [← link7]; exact List.mem_map_of_mem hq
      obtain ⟨l, hl, e⟩ := List.mem_map.1 this
      have := congrArg (fun x => x.2.2) e
      exact this.symm.trans (of_link l hl).2.1

theorem battery_plan : FuzzyPlan "fuzzy_sys_factory".toList batterySensors batteryResult "battery_infer".toList where
  names := by decide +kernel
  values := by decide +kernel
  slash := by decide +kernel
  other := by decide +kernel
  factorySlash := by decide +kernel
  edgeSlash := by decide +kernel

/-- **C96.** `main` of the fuzzy application runs to its end, whatever the clock shows, builds the battery's nodes with
their values (zeros), memberships (ones) and an empty result, and prints exactly two relations, to the dynamic and to the static node of the battery, in this order. -/
theorem C96_main {E : Env} (inj : Function.Injective E.sha) {h : Heap} (R : Reach E h) :
    ∃ r h', accuFuzzy E h = (.ok r, h') ∧ Reach E h' ∧
      FuzzyIn h' "fuzzy_sys_cogni".toList "battery_node".toList
        [⟨"battery_dynamic_node".toList, [("values".toList, [0, 0, 0]), ("membership".toList, [1, 1, 1])]⟩,
          ⟨"battery_static_node".toList, [("values".toList, [0, 0, 0]), ("membership".toList, [1, 1, 1])]⟩]
        ⟨"battery_result".toList, [("battery_result_value".toList, [])]⟩ "battery_infer".toList
        "external_effects".toList r ∧
      ∃ a b q q', r.printed = [q, q'] ∧ (h'.get q).endpoint = some a ∧ (h'.get q').endpoint = some b ∧
        (h'.get a).idName = "battery_dynamic_node".toList ∧ (h'.get b).idName = "battery_static_node".toList := by
  obtain ⟨r, h', run, R', I⟩ := C96_system inj R (F := ⟨"fuzzy_sys_factory".toList, some .local⟩) (by simp)
    "fuzzy_sys_cogni".toList "battery_node".toList "external_effects".toList battery_plan
  refine ⟨r, h', run, R', I, ?_⟩
  have hi := I.inputNodes
  have hin := I.incoming
  rw [← I.printed] at hin
  revert hi hin
  generalize r.inputs = ns
  generalize r.printed = qs
  intro hi hin
  cases hi with
  | cons a hi =>
  cases hi with
  | cons b hi =>
  cases hi
  rename_i x y
  rcases qs with _ | ⟨q, _ | ⟨q', _ | ⟨q2, qs⟩⟩⟩ <;> simp at hin
  exact ⟨x, y, q, q', rfl, hin.1, hin.2, a.name, b.name⟩

/-- `main` in the empty world. -/
example : ∃ r h', accuFuzzy E1 Heap.empty = (.ok r, h') := by
  obtain ⟨r, h', e, -⟩ := C96_main (E := E1) wideSha_injective .init
  exact ⟨r, h', e⟩

end Rei
