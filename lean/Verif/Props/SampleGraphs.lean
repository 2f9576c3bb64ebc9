import Verif.Lemmas.SampleGraphs

/-!
# C93: sample graphs
-/
namespace Rei
open PyM

theorem Stage.all {E : Env} (inj : Function.Injective E.sha) {F : Factory} (hF : F.clock ≠ none) {name : Str} {nodes : List Str}
    {c : Ref} {ns : List Ref} (nd : nodes.Nodup) (lines : List (Str × List Nat)) {es : List Ref} {done : List (Str × List Nat)}
    {h : Heap} (s : Stage E F name nodes c ns done es h) (p : GraphPlan nodes (done ++ lines)) :
    ∃ xs h', mapEach lines (F.connectItems E c ns) h = (.ok xs, h') ∧
      Stage E F name nodes c ns (done ++ lines) (es ++ xs) h' := by
  induction lines generalizing es done h with
  | nil => exact ⟨[], h, rfl, by simpa using s⟩
  | cons l lines ih =>
    obtain ⟨h1, run, s1⟩ := s.next inj hF nd (l := l)
      (by
        have := p.names
        rw [List.map_append, List.nodup_append] at this
        exact fun hm => this.2.2 _ hm l.1 (by simp) rfl)
      (p.slash l (by simp)) (p.distinct l (by simp)) (p.exist l (by simp))
    obtain ⟨xs, h2, run2, s2⟩ := ih s1 (by simpa using p)
    refine ⟨h.size :: xs, h2, ?_, by simpa using s2⟩
    unfold mapEach
    rw [bind_ok run, bind_ok run2]
    rfl

theorem Stage.graph {E : Env} {F : Factory} {name : Str} {nodes : List Str} {c : Ref} {ns es : List Ref}
    {lines : List (Str × List Nat)} {h : Heap} (s : Stage E F name nodes c ns lines es h) :
    GraphIn h name nodes lines c ns es where
  kind := s.kind
  root := s.root
  name := s.name
  contents := s.contents
  subNodes := by
    unfold Heap.subNodes Heap.getSubelements
    rw [s.contents, List.filter_append, List.filter_eq_self.2, List.filter_eq_nil_iff.2, List.append_nil]
    · intro e he; simp [(s.edge e he).2]
    · intro n hn; simp [(s.node n hn).2.2.1]
  subEdges := by
    unfold Heap.subEdges Heap.getSubelements
    rw [s.contents, List.filter_append, List.filter_eq_nil_iff.2, List.filter_eq_self.2, List.nil_append]
    · intro e he; simp [(s.edge e he).2]
    · intro n hn; simp [(s.node n hn).2.2.1]
  nodeNames := s.nodeNames
  edgeNames := s.edgeNames
  ends := s.ends
  undirected := s.undirected

theorem graph_stage {E : Env} (inj : Function.Injective E.sha) {h : Heap} (R : Reach E h) {F : Factory}
    (hF : F.clock ≠ none) (name : Str) {nodes : List Str} {lines : List (Str × List Nat)} (p : GraphPlan nodes lines) :
    ∃ c ns es h', F.createGraph E name nodes lines h = (.ok (c, ns, es), h') ∧ Stage E F name nodes c ns lines es h' := by
  obtain ⟨h1, run1, r1⟩ := nodeRow_root R hF name
  obtain ⟨ns, h2, run2, r2, e2⟩ := r1.all inj hF nodes (by simpa using p.apart)
  simp only [List.nil_append, List.map_nil] at r2 e2
  have s2 := r2.stage
  rw [e2] at s2
  obtain ⟨es, h3, run3, s3⟩ := s2.all inj hF p.apart lines (by simpa using p)
  simp only [List.nil_append] at s3
  refine ⟨_, ns, es, h3, ?_, s3⟩
  unfold Factory.createGraph
  rw [bind_ok run1, bind_ok run2, bind_ok (assertNew_ok ns (r2.uuids inj (by rw [e2]; exact p.apart)) (by simp)), bind_ok run3]
  rfl

/-- **C93.** The steps of `create_fano_graph`, for any plan of nodes and edges, any name and any clock: they succeed, and
the new graph contains exactly the nodes, edges and incidences of the plan. -/
theorem C93_graph_built {E : Env} (inj : Function.Injective E.sha) {h : Heap} (R : Reach E h) {F : Factory}
    (hF : F.clock ≠ none) (name : Str) {nodes : List Str} {lines : List (Str × List Nat)} (p : GraphPlan nodes lines) :
    ∃ c ns es h', F.createGraph E name nodes lines h = (.ok (c, ns, es), h') ∧ Reach E h' ∧
      GraphIn h' name nodes lines c ns es := by
  obtain ⟨c, ns, es, h', run, s⟩ := graph_stage inj R hF name p
  exact ⟨c, ns, es, h', run, s.reach, s.graph⟩

theorem fano_plan : GraphPlan ((List.range 7).map decimal) fanoLines where
  apart := by decide +kernel
  names := by decide +kernel
  slash := by decide +kernel
  distinct := by decide +kernel
  exist := by decide +kernel

/-- The endpoints of the `j`th edge. -/
theorem GraphIn.on_iff {h : Heap} {name : Str} {nodes : List Str} {lines : List (Str × List Nat)} {c : Ref} {ns es : List Ref}
    (g : GraphIn h name nodes lines c ns es) (nd : ns.Nodup) {i j : Nat} {a e : Ref} (ha : ns[i]? = some a)
    (he : es[j]? = some e) : h.On a e ↔ ∃ l, lines[j]? = some l ∧ i ∈ l.2 := by
  have k := congrArg (·[j]?) g.ends
  simp only [List.getElem?_map, he, Option.map_some] at k
  cases q : lines[j]? with
  | none => rw [q] at k; cases k
  | some l =>
    rw [q] at k
    simp only [Option.map_some, Option.some.injEq] at k
    unfold Heap.On
    rw [k]
    simp only [List.mem_map, Option.some.injEq, exists_eq_left']
    constructor
    · rintro ⟨i', hi', e'⟩
      obtain ⟨h1, h2⟩ := List.getElem?_eq_some_iff.1 ha
      obtain ⟨h3, h4⟩ := List.getElem?_eq_some_iff.1 e'
      have : i = i' := (List.Nodup.getElem_inj_iff nd).1 (h2.trans h4.symm)
      rwa [this]
    · exact fun hi => ⟨i, hi, ha⟩

/-- **C93.** `create_fano_graph` makes the Fano plane, whatever the name and the clock: seven nodes and seven edges with three
nodes each; any two nodes lie on exactly one common edge, and any two edges have exactly one common node. -/
theorem C93_fano {E : Env} (inj : Function.Injective E.sha) {h : Heap} (R : Reach E h) (name : Str) {clock : Option Clock}
    (hc : clock ≠ none) :
    ∃ c ns es h', createFano E name clock h = (.ok (c, ns, es), h') ∧ Reach E h' ∧
      h'.subelements c = ns ++ es ∧ h'.subNodes c = ns ∧ h'.subEdges c = es ∧ ns.length = 7 ∧ es.length = 7 ∧
      ns.Nodup ∧ es.Nodup ∧ (∀ e ∈ es, (h'.inducedSubset e).length = 3) ∧
      (∀ a ∈ ns, ∀ b ∈ ns, a ≠ b → ∃! e, e ∈ es ∧ h'.On a e ∧ h'.On b e) ∧
      (∀ e ∈ es, ∀ f ∈ es, e ≠ f → ∃! a, a ∈ ns ∧ h'.On a e ∧ h'.On a f) := by
  obtain ⟨c, ns, es, h', run, R', g⟩ := C93_graph_built inj R (F := ⟨name, clock⟩) hc name fano_plan
  have ln : ns.length = 7 := by have := congrArg List.length g.nodeNames; simpa using this
  have le : es.length = 7 := by have := congrArg List.length g.edgeNames; simpa [fanoLines] using this
  have nn : ns.Nodup := .of_map _ (by rw [g.nodeNames]; exact fano_plan.apart)
  have ne : es.Nodup := .of_map _ (by rw [g.edgeNames]; exact fano_plan.names)
  have on : ∀ {i j : Nat} {a e : Ref}, ns[i]? = some a → es[j]? = some e →
      (h'.On a e ↔ ∃ l : Str × List Nat, fanoLines[j]? = some l ∧ i ∈ l.2) :=
    fun ha he => g.on_iff nn ha he
  have at_n : ∀ a ∈ ns, ∃ i : Fin 7, ns[i.1]? = some a := fun a ha => by
    obtain ⟨i, hi, e⟩ := List.getElem_of_mem ha
    exact ⟨⟨i, by omega⟩, by simp [e, hi]⟩
  have at_e : ∀ a ∈ es, ∃ i : Fin 7, es[i.1]? = some a := fun a ha => by
    obtain ⟨i, hi, e⟩ := List.getElem_of_mem ha
    exact ⟨⟨i, by omega⟩, by simp [e, hi]⟩
  refine ⟨c, ns, es, h', run, R', g.contents, g.subNodes, g.subEdges, ln, le, nn, ne, ?_, ?_, ?_⟩
  · intro e he
    have : h'.inducedSubset e ∈ es.map h'.inducedSubset := List.mem_map_of_mem he
    rw [g.ends] at this
    obtain ⟨l, hl, e'⟩ := List.mem_map.1 this
    rw [← e', List.length_map]
    exact (by decide +kernel : ∀ l ∈ fanoLines, l.2.length = 3) l hl
  · intro a ha b hb hab
    obtain ⟨i, hi⟩ := at_n a ha
    obtain ⟨j, hj⟩ := at_n b hb
    have hij : i ≠ j := by rintro rfl; rw [hi] at hj; exact hab (Option.some.inj hj)
    have key : ∀ i j : Fin 7, i ≠ j → ∃ k : Fin 7, (i.1 ∈ (fanoLines[k.1]).2 ∧ j.1 ∈ (fanoLines[k.1]).2) ∧
        ∀ k' : Fin 7, i.1 ∈ (fanoLines[k'.1]).2 ∧ j.1 ∈ (fanoLines[k'.1]).2 → k' = k := by decide +kernel
    obtain ⟨k, ⟨h1, h2⟩, h3⟩ := key i j hij
    have hk : es[k.1]? = some es[k.1] := List.getElem?_eq_getElem (by omega)
    have lk : ∀ k : Fin 7, fanoLines[k.1]? = some fanoLines[k.1] := by decide +kernel
    refine ⟨es[k.1], ⟨List.getElem_mem _, (on hi hk).2 ⟨_, lk k, h1⟩, (on hj hk).2 ⟨_, lk k, h2⟩⟩, ?_⟩
    rintro e ⟨he, o1, o2⟩
    obtain ⟨k', hk'⟩ := at_e e he
    obtain ⟨l, q1, q2⟩ := (on hi hk').1 o1
    obtain ⟨l', q3, q4⟩ := (on hj hk').1 o2
    rw [lk k'] at q1 q3
    cases q1
    cases q3
    have := h3 k' ⟨q2, q4⟩
    subst this
    rw [hk] at hk'
    exact (Option.some.inj hk').symm
  · intro e he f hf hef
    obtain ⟨i, hi⟩ := at_e e he
    obtain ⟨j, hj⟩ := at_e f hf
    have hij : i ≠ j := by rintro rfl; rw [hi] at hj; exact hef (Option.some.inj hj)
    have key : ∀ i j : Fin 7, i ≠ j → ∃ k : Fin 7, (k.1 ∈ (fanoLines[i.1]).2 ∧ k.1 ∈ (fanoLines[j.1]).2) ∧
        ∀ k' : Fin 7, k'.1 ∈ (fanoLines[i.1]).2 ∧ k'.1 ∈ (fanoLines[j.1]).2 → k' = k := by decide +kernel
    obtain ⟨k, ⟨h1, h2⟩, h3⟩ := key i j hij
    have hk : ns[k.1]? = some ns[k.1] := List.getElem?_eq_getElem (by omega)
    have lk : ∀ k : Fin 7, fanoLines[k.1]? = some fanoLines[k.1] := by decide +kernel
    refine ⟨ns[k.1], ⟨List.getElem_mem _, (on hk hi).2 ⟨_, lk i, h1⟩, (on hk hj).2 ⟨_, lk j, h2⟩⟩, ?_⟩
    rintro a ⟨ha, o1, o2⟩
    obtain ⟨k', hk'⟩ := at_n a ha
    obtain ⟨l, q1, q2⟩ := (on hk' hi).1 o1
    obtain ⟨l', q3, q4⟩ := (on hk' hj).1 o2
    rw [lk i] at q1
    rw [lk j] at q3
    cases q1
    cases q3
    have := h3 k' ⟨q2, q4⟩
    subst this
    rw [hk] at hk'
    exact (Option.some.inj hk').symm

/-- The Fano plane of `test_fano_graph.py` in the empty world, with a clock that stands still. -/
example : ∃ c ns es h', createFano E1 "fano".toList (some .dummy) Heap.empty = (.ok (c, ns, es), h') ∧ ns.length = 7 := by
  obtain ⟨c, ns, es, h', r, -, -, -, -, l, -⟩ := C93_fano (E := E1) wideSha_injective .init "fano".toList (clock := some .dummy) (by simp)
  exact ⟨c, ns, es, h', r, l⟩

end Rei
