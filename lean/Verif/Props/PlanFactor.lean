import Verif.Props.Factorization
import Verif.Props.PlanTensor

/-!
# C114: the factorization of a planned graph
-/
namespace Rei

/-- The endpoint is among the selected nodes. -/
def endB (sel : List Ref) : Option Ref → Bool
  | none => false
  | some v => decide (v ∈ sel)

/-- The endpoints make a wanted pair. -/
def apartB (h : Heap) (loops : Bool) : Option Ref → Option Ref → Bool
  | some a, some b => decide ((h.get a).uuid ≠ (h.get b).uuid) || loops
  | _, _ => false

/-- The pairs of a list that satisfy a condition, in order. -/
def planPairsOf {α : Type} (V : α → α → Bool) (l : List α) : List (α × α) :=
  l.flatMap fun a => (l.filter (V a)).map fun b => (a, b)

/-- The endpoints of a pair of relations. -/
def Heap.pairEnds (h : Heap) (p : Ref × Ref) : Option Ref × Option Ref := ((h.get p.1).endpoint, (h.get p.2).endpoint)

theorem pairs_ends {h : Heap} (loops : Bool) (rs : List Ref) :
    (pairs h loops rs rs).map h.pairEnds = planPairsOf (apartB h loops) (rs.map fun r => (h.get r).endpoint) := by
  have key : ∀ os : List Ref, ∀ is : List Ref, (pairs h loops is os).map h.pairEnds =
      (is.map fun r => (h.get r).endpoint).flatMap fun a =>
        ((os.map fun r => (h.get r).endpoint).filter (apartB h loops a)).map fun b => (a, b) := by
    intro os is
    unfold pairs
    rw [List.map_flatMap, List.flatMap_map]
    congr 1
    funext i
    rw [List.map_map, List.filter_map, List.map_map]
    rfl
  exact key rs rs

section
variable {E : Env} {h : Heap} {name : Str} {nodes : List Str} {lines : List (Str × List Nat)} {c : Ref} {ns es : List Ref}

theorem GraphIn.node_kind (g : GraphIn h name nodes lines c ns es) {v : Ref} (hv : v ∈ ns) : (h.get v).kind = .node := by
  rw [← g.subNodes] at hv
  simpa using (List.mem_filter.1 hv).2

theorem GraphIn.edge_kind (g : GraphIn h name nodes lines c ns es) {v : Ref} (hv : v ∈ es) : (h.get v).kind = .edge := by
  rw [← g.subEdges] at hv
  simpa using (List.mem_filter.1 hv).2

theorem GraphIn.uuid_eq (R : Reach E h) (g : GraphIn h name nodes lines c ns es) {v u : Ref} (hv : v ∈ ns) (hu : u ∈ ns)
    (e : (h.get v).uuid = (h.get u).uuid) : v = u := by
  have I := R.good.inv
  have pv : (h.get v).parent = some c := (I.mem_subelements c v).1 (by
    show v ∈ h.subelements c
    rw [g.contents]; exact List.mem_append_left _ hv)
  have pu : (h.get u).parent = some c := (I.mem_subelements c u).1 (by
    show u ∈ h.subelements c
    rw [g.contents]; exact List.mem_append_left _ hu)
  have a := (I.get?_subs c (h.get v).uuid v).2 ⟨pv, rfl⟩
  have b := (I.get?_subs c (h.get v).uuid u).2 ⟨pu, e.symm⟩
  exact Option.some.inj (a.symm.trans b)

/-- The wanted pairs of an edge of the plan: of its selected nodes, in order, without pairs of a node with itself unless
`loops`. -/
def planLinePairs (loops : Bool) (sel : List Nat) (l : List Nat) : List (Nat × Nat) :=
  planPairsOf (fun i k => decide (i ≠ k) || loops) (l.filter fun i => decide (i ∈ sel))

theorem GraphIn.factor (R : Reach E h) (g : GraphIn h name nodes lines c ns es) (p : GraphPlan nodes lines) (loops : Bool)
    {I J : List Nat} :
    ∃ l, subsetFactor h loops (I.filterMap (ns[·]?) ++ J.filterMap (es[·]?)) = .ok l ∧
      l.map h.pairEnds = ((J.filterMap (lines[·]?)).flatMap fun m => planLinePairs loops I m.2).map fun q => (ns[q.1]?, ns[q.2]?) := by
  refine ⟨_, subsetFactor_eq, ?_⟩
  have nd := g.nodeNodup p
  have hn : ∀ v ∈ I.filterMap (ns[·]?), v ∈ ns := fun v hv => by
    obtain ⟨i, -, e⟩ := List.mem_filterMap.1 hv
    exact List.mem_of_getElem? e
  have he : ∀ v ∈ J.filterMap (es[·]?), v ∈ es := fun v hv => by
    obtain ⟨i, -, e⟩ := List.mem_filterMap.1 hv
    exact List.mem_of_getElem? e
  have selE : (I.filterMap (ns[·]?) ++ J.filterMap (es[·]?)).filter (fun x => decide ((h.get x).kind = .edge)) =
      J.filterMap (es[·]?) := by
    rw [List.filter_append, List.filter_eq_nil_iff.2, List.filter_eq_self.2, List.nil_append]
    · intro v hv; simp [g.edge_kind (he v hv)]
    · intro v hv; simp [g.node_kind (hn v hv)]
  have selN : selectedNodes h (I.filterMap (ns[·]?) ++ J.filterMap (es[·]?)) = I.filterMap (ns[·]?) := by
    unfold selectedNodes
    rw [List.filter_append, List.filter_eq_self.2, List.filter_eq_nil_iff.2, List.append_nil]
    · intro v hv; simp [g.edge_kind (he v hv)]
    · intro v hv; simp [g.node_kind (hn v hv)]
  rw [selE, selN]
  clear selE selN
  have lift : ∀ J : List Nat, ((J.filterMap (es[·]?)).flatMap fun x =>
      pairs h loops ((h.incoming x).filter (endsIn h (I.filterMap (ns[·]?)))) ((h.outgoing x).filter (endsIn h (I.filterMap (ns[·]?))))).map h.pairEnds =
      ((J.filterMap (lines[·]?)).flatMap fun m => planLinePairs loops I m.2).map fun q => (ns[q.1]?, ns[q.2]?) := by
    intro J
    induction J with
    | nil => rfl
    | cons j J ih =>
      by_cases hj : j < lines.length
      · have hx : es[j]? = some (es[j]'(g.edgeLength ▸ hj)) := List.getElem?_eq_getElem _
        have hl := List.getElem?_eq_getElem hj
        rw [List.filterMap_cons_some hx, List.filterMap_cons_some hl, List.flatMap_cons, List.flatMap_cons, List.map_append,
          List.map_append, ih]
        congr 1
        generalize es[j]'(g.edgeLength ▸ hj) = x at hx
        generalize lines[j] = m at hl
        have xm := List.mem_of_getElem? hx
        have mm := List.mem_of_getElem? hl
        have inc : h.incoming x = h.subRelations x := by
          unfold Heap.incoming
          exact List.filter_eq_self.2 fun r hr => by simp [(g.undirected x xm r hr).1]
        have out : h.outgoing x = h.subRelations x := by
          unfold Heap.outgoing
          exact List.filter_eq_self.2 fun r hr => by simp [(g.undirected x xm r hr).1]
        have ends : h.inducedSubset x = m.2.map (ns[·]?) := by
          have := congrArg (·[j]?) g.ends
          simp only [List.getElem?_map, hx, hl, Option.map_some, Option.some.injEq] at this
          exact this
        rw [inc, out, pairs_ends]
        have e1 : ((h.subRelations x).filter (endsIn h (I.filterMap (ns[·]?)))).map (fun r => (h.get r).endpoint) =
            (m.2.filter fun i => decide (i ∈ I)).map (ns[·]?) := by
          have : endsIn h (I.filterMap (ns[·]?)) = endB (I.filterMap (ns[·]?)) ∘ fun r => (h.get r).endpoint := by
            funext r
            unfold endsIn endB
            simp only [Function.comp_apply]
            split <;> simp_all
          rw [this, ← List.filter_map]
          show (h.inducedSubset x).filter _ = _
          rw [ends, List.filter_map]
          congr 1
          refine List.filter_congr fun i hi => ?_
          have lt : i < ns.length := g.nodeLength ▸ p.exist m mm i hi
          simp only [Function.comp_apply, List.getElem?_eq_getElem lt, endB, decide_eq_decide]
          rw [List.mem_filterMap]
          constructor
          · rintro ⟨k, hk, e⟩
            obtain ⟨a1, a2⟩ := List.getElem?_eq_some_iff.1 e
            rw [← (nd.getElem_inj_iff).1 a2]
            exact hk
          · exact fun hi => ⟨i, hi, List.getElem?_eq_getElem lt⟩
        rw [e1]
        unfold planLinePairs planPairsOf
        have lt : ∀ i ∈ m.2.filter (fun i => decide (i ∈ I)), i < ns.length := fun i hi =>
          g.nodeLength ▸ p.exist m mm i (List.mem_filter.1 hi).1
        generalize m.2.filter (fun i => decide (i ∈ I)) = is at lt
        rw [List.flatMap_map, List.map_flatMap]
        refine List.flatMap_congr fun i hi => ?_
        rw [List.map_map, List.filter_map, List.map_map]
        have : is.filter (apartB h loops ns[i]? ∘ fun k => ns[k]?) = is.filter fun k => decide (i ≠ k) || loops := by
          refine List.filter_congr fun k hk => ?_
          simp only [Function.comp_apply, List.getElem?_eq_getElem (lt i hi), List.getElem?_eq_getElem (lt k hk), apartB]
          congr 1
          rw [decide_eq_decide, not_iff_not]
          constructor
          · intro e
            exact (nd.getElem_inj_iff).1 (g.uuid_eq R (List.getElem_mem _) (List.getElem_mem _) e)
          · rintro rfl; rfl
        rw [this]
        rfl
      · have hx : es[j]? = none := List.getElem?_eq_none (by rw [g.edgeLength]; omega)
        have hl : lines[j]? = none := List.getElem?_eq_none (by omega)
        rw [List.filterMap_cons_none hx, List.filterMap_cons_none hl, ih]
  exact lift J

theorem linePairs_length {sel l : List Nat} (nd : l.Nodup) :
    (planLinePairs true sel l).length = (l.filter fun i => decide (i ∈ sel)).length ^ 2 ∧
    (planLinePairs false sel l).length =
      (l.filter fun i => decide (i ∈ sel)).length * ((l.filter fun i => decide (i ∈ sel)).length - 1) := by
  unfold planLinePairs planPairsOf
  have nd := nd.filter fun i => decide (i ∈ sel)
  generalize l.filter (fun i => decide (i ∈ sel)) = m at nd
  constructor
  · rw [List.length_flatMap]
    simp [pow_two]
  · rw [List.length_flatMap, List.map_congr_left (g := fun _ => m.length - 1)]
    · simp
    · intro a ha
      rw [List.length_map]
      have : m.filter (fun b => decide (a ≠ b) || false) = m.erase a := by
        rw [nd.erase_eq_filter]
        refine List.filter_congr fun b _ => ?_
        by_cases q : b = a
        · subst q; simp
        · simp [q, Ne.symm q]
      rw [this, List.length_erase_of_mem ha]

/-- **C114.** The subset factorization of a selection of nodes and edges of a graph built from a plan: edge by edge, in the
order of the selection, the pairs of selected nodes of the edge, in the order of the plan; their number is the sum of
`k*(k-1)`, with self loops of `k*k`, over the selected edges, where `k` is the number of selected nodes of the edge. -/
theorem C114_plan_pairs {E : Env} (inj : Function.Injective E.sha) {h : Heap} (R : Reach E h) {F : Factory}
    (hF : F.clock ≠ none) (name : Str) {nodes : List Str} {lines : List (Str × List Nat)} (p : GraphPlan nodes lines) :
    ∃ c ns es h', F.createGraph E name nodes lines h = (.ok (c, ns, es), h') ∧
      ∀ (loops : Bool) (I J : List Nat), (∀ i ∈ I, i < nodes.length) → (∀ j ∈ J, j < lines.length) →
        ∃ l, subsetFactor h' loops (I.filterMap (ns[·]?) ++ J.filterMap (es[·]?)) = .ok l ∧
          l.map h'.pairEnds = ((J.filterMap (lines[·]?)).flatMap fun m => planLinePairs loops I m.2).map (fun q => (ns[q.1]?, ns[q.2]?)) ∧
          l.length = ((J.filterMap (lines[·]?)).map fun m => let k := (m.2.filter fun i => decide (i ∈ I)).length
            if loops then k * k else k * (k - 1)).sum := by
  obtain ⟨c, ns, es, h', run, R', g⟩ := C93_graph_built inj R hF name p
  refine ⟨c, ns, es, h', run, fun loops I J _ _ => ?_⟩
  obtain ⟨l, run, q⟩ := g.factor R' p loops (I := I) (J := J)
  refine ⟨l, run, q, ?_⟩
  have := congrArg List.length q
  rw [List.length_map, List.length_map, List.length_flatMap] at this
  rw [this]
  congr 1
  refine List.map_congr_left fun m hm => ?_
  have mm : m ∈ lines := by
    obtain ⟨j, -, e⟩ := List.mem_filterMap.1 hm
    exact List.mem_of_getElem? e
  cases loops
  · simpa using (linePairs_length (p.distinct m mm)).2
  · simpa [pow_two] using (linePairs_length (p.distinct m mm)).1

end

/-- The selections of `test_2subfactorziation.py`: the first two nodes and the first three edges of the Fano plane give two
pairs, with self loops five. -/
example : ∃ c ns es h', createFano E1 "fano".toList (some .dummy) Heap.empty = (.ok (c, ns, es), h') ∧
    (∃ l, subsetFactor h' false ([0, 1].filterMap (ns[·]?) ++ [0, 1, 2].filterMap (es[·]?)) = .ok l ∧ l.length = 2) ∧
    (∃ l, subsetFactor h' true ([0, 1].filterMap (ns[·]?) ++ [0, 1, 2].filterMap (es[·]?)) = .ok l ∧ l.length = 5) := by
  obtain ⟨c, ns, es, h', r, q⟩ := C114_plan_pairs (E := E1) wideSha_injective .init (F := ⟨"fano".toList, some .dummy⟩) (by simp)
    "fano".toList fano_plan
  refine ⟨c, ns, es, h', r, ?_, ?_⟩
  · obtain ⟨l, a, -, b⟩ := q false [0, 1] [0, 1, 2] (by decide) (by decide)
    exact ⟨l, a, b.trans (by decide)⟩
  · obtain ⟨l, a, -, b⟩ := q true [0, 1] [0, 1, 2] (by decide) (by decide)
    exact ⟨l, a, b.trans (by decide)⟩

end Rei
