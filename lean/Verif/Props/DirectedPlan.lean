import Verif.Lemmas.DirectedPlan
import Verif.Props.PlanTensor

/-!
# C115: graphs with directions and weights, from plan to tensors
-/
namespace Rei
open PyM

theorem lastEnd_of {h : Heap} {P : Ref → Prop} {Q : PlanEnd → Bool} {w : Rat} {rs : List Ref} {ds : List PlanEnd}
    (len : rs.length = ds.length)
    (at_ : ∀ (k : Nat) r d, rs[k]? = some r → ds[k]? = some d → weightOf h r = d.value h ∧ (P r ↔ d.value h ≠ 0 ∧ Q d = true))
    (L : LastWins h rs P w) : w = lastEnd h ds Q := by
  have none_ : ∀ (m : List Ref) (n : List PlanEnd) (o : Nat), m.length = n.length → (∀ k, m[k]? = rs[o + k]?) →
      (∀ k, n[k]? = ds[o + k]?) → (∀ q ∈ m, ¬ P q) → n.filter (fun d => decide (d.value h ≠ 0) && Q d) = [] := by
    intro m n o e hm hn no
    rw [List.filter_eq_nil_iff]
    intro d hd q
    obtain ⟨k, hk, rfl⟩ := List.getElem_of_mem hd
    have h1 : m[k]? = some (m[k]'(e ▸ hk)) := List.getElem?_eq_getElem _
    have h2 : n[k]? = some n[k] := List.getElem?_eq_getElem hk
    refine no _ (List.getElem_mem (e ▸ hk)) (((at_ (o + k) _ _ (hm k ▸ h1) (hn k ▸ h2)).2).2 ?_)
    simpa using q
  rcases L with ⟨l1, r, l2, e, hp, no, ew⟩ | ⟨no, ew⟩
  · have lt : l1.length < ds.length := by rw [← len, e]; simp
    have split : ds = ds.take l1.length ++ ds[l1.length] :: ds.drop (l1.length + 1) := by
      rw [List.getElem_cons_drop, List.take_append_drop]
    have hr : rs[l1.length]? = some r := by rw [e]; simp
    obtain ⟨a, b⟩ := at_ _ _ _ hr (List.getElem?_eq_getElem lt)
    have b := b.1 hp
    have nil := none_ l2 (ds.drop (l1.length + 1)) (l1.length + 1)
      (by rw [List.length_drop, ← len, e, List.length_append, List.length_cons]; omega)
      (by
        intro k
        rw [e, List.getElem?_append_right (by omega), show l1.length + 1 + k - l1.length = k + 1 by omega]
        rfl)
      (by intro k; rw [List.getElem?_drop]) no
    unfold lastEnd
    rw [split, List.filter_append, List.filter_cons, if_pos (by simpa using b), nil, List.getLast?_append]
    simp [ew, a]
  · unfold lastEnd
    rw [none_ rs ds 0 len (by simp) (by simp) no]
    exact ew

section
variable {E : Env} {h : Heap} {name : Str} {nodes : List Str} {lines : List (Str × List PlanEnd)} {c : Ref} {ns es : List Ref}

theorem DirectedIn.nodeLength (g : DirectedIn h name nodes lines c ns es) : ns.length = nodes.length := by
  rw [← g.nodeNames, List.length_map]

theorem DirectedIn.edgeLength (g : DirectedIn h name nodes lines c ns es) : es.length = lines.length := by
  have := congrArg List.length g.edgeNames
  simpa using this

theorem DirectedIn.rels (g : DirectedIn h name nodes lines c ns es) {j : Nat} {x : Ref} {l : Str × List PlanEnd}
    (hx : es[j]? = some x) (hl : lines[j]? = some l) :
    (h.subRelations x).map h.linkAt = l.2.map fun d => (ns[d.node]?, d.dir, d.weight) := by
  have := congrArg (·[j]?) g.ends
  simpa [hx, hl] using this

theorem DirectedIn.rel_at (g : DirectedIn h name nodes lines c ns es) {j : Nat} {x : Ref} {l : Str × List PlanEnd}
    (hx : es[j]? = some x) (hl : lines[j]? = some l) {k : Nat} {r : Ref} {d : PlanEnd} (hr : (h.subRelations x)[k]? = some r)
    (hd : l.2[k]? = some d) :
    (h.get r).endpoint = ns[d.node]? ∧ (h.get r).direction = d.dir ∧ (h.get r).weight = d.weight := by
  have := congrArg (·[k]?) (g.rels hx hl)
  simp only [List.getElem?_map, hr, hd, Option.map_some, Option.some.injEq, Heap.linkAt, Prod.mk.injEq] at this
  exact this

theorem DirectedIn.relLength (g : DirectedIn h name nodes lines c ns es) {j : Nat} {x : Ref} {l : Str × List PlanEnd}
    (hx : es[j]? = some x) (hl : lines[j]? = some l) : (h.subRelations x).length = l.2.length := by
  have := congrArg List.length (g.rels hx hl)
  simpa using this

theorem DirectedIn.line (g : DirectedIn h name nodes lines c ns es) {x : Ref} (hx : x ∈ es) :
    ∃ (j : Nat) (l : Str × List PlanEnd), es[j]? = some x ∧ lines[j]? = some l := by
  obtain ⟨j, hj, e⟩ := List.getElem_of_mem hx
  exact ⟨j, lines[j]'(g.edgeLength ▸ hj), by rw [List.getElem?_eq_getElem hj, e], List.getElem?_eq_getElem _⟩

theorem DirectedIn.end_of (g : DirectedIn h name nodes lines c ns es) {j : Nat} {x : Ref} {l : Str × List PlanEnd}
    (hx : es[j]? = some x) (hl : lines[j]? = some l) {r : Ref} (hr : r ∈ h.subRelations x) :
    ∃ d ∈ l.2, (h.get r).endpoint = ns[d.node]? ∧ (h.get r).direction = d.dir ∧ (h.get r).weight = d.weight := by
  obtain ⟨k, hk, rfl⟩ := List.getElem_of_mem hr
  have lt : k < l.2.length := g.relLength hx hl ▸ hk
  exact ⟨l.2[k], List.getElem_mem lt, g.rel_at hx hl (List.getElem?_eq_getElem hk) (List.getElem?_eq_getElem lt)⟩

theorem DirectedIn.nodeNodup {h0 : Heap} (g : DirectedIn h name nodes lines c ns es) (p : DirectedPlan h0 nodes lines) : ns.Nodup :=
  .of_map _ (by rw [g.nodeNames]; exact p.apart)

theorem DirectedIn.context {h0 : Heap} (g : DirectedIn h name nodes lines c ns es) (p : DirectedPlan h0 nodes lines)
    (K : Keeps h0 h) : Context h c := by
  refine ⟨g.kind, ?_, ?_⟩
  · rintro r ⟨x, hx, hr⟩
    rw [g.subEdges] at hx
    obtain ⟨j, l, hj, hl⟩ := g.line hx
    obtain ⟨d, hd, e, -⟩ := g.end_of hj hl hr
    have lt : d.node < ns.length := g.nodeLength ▸ p.exist l (List.mem_of_getElem? hl) d hd
    rw [List.getElem?_eq_getElem lt] at e
    exact ⟨_, by rw [g.subNodes]; exact List.getElem_mem lt, e⟩
  · rintro r ⟨x, hx, hr⟩ v hv
    rw [g.subEdges] at hx
    obtain ⟨j, l, hj, hl⟩ := g.line hx
    obtain ⟨d, hd, -, -, e⟩ := g.end_of hj hl hr
    obtain ⟨a, b⟩ := p.weights l (List.mem_of_getElem? hl) d hd v (e ▸ hv)
    rw [K.kind v a, b]

theorem DirectedIn.same {h0 : Heap} (g : DirectedIn h name nodes lines c ns es) (p : DirectedPlan h0 nodes lines) {i k : Nat}
    {v : Ref} (hv : ns[i]? = some v) : ns[k]? = some v ↔ k = i := by
  constructor
  · intro q
    obtain ⟨h1, h2⟩ := List.getElem?_eq_some_iff.1 hv
    obtain ⟨h3, h4⟩ := List.getElem?_eq_some_iff.1 q
    exact (List.Nodup.getElem_inj_iff (g.nodeNodup p)).1 (h4.trans h2.symm)
  · rintro rfl; exact hv

theorem DirectedIn.endpoint {h0 : Heap} (g : DirectedIn h name nodes lines c ns es) (p : DirectedPlan h0 nodes lines) {i j : Nat}
    {v x : Ref} {l : Str × List PlanEnd} (hv : ns[i]? = some v) (hx : es[j]? = some x) (hl : lines[j]? = some l) :
    Endpoint h x v ↔ i ∈ l.2.map PlanEnd.node := by
  constructor
  · rintro ⟨r, hr, e⟩
    obtain ⟨d, hd, e', -⟩ := g.end_of hx hl hr
    exact List.mem_map.2 ⟨d, hd, (g.same p hv).1 (e'.symm.trans e)⟩
  · intro q
    obtain ⟨d, hd, e⟩ := List.mem_map.1 q
    obtain ⟨k, hk, rfl⟩ := List.getElem_of_mem hd
    have lt : k < (h.subRelations x).length := (g.relLength hx hl).symm ▸ hk
    have := g.rel_at hx hl (List.getElem?_eq_getElem lt) (List.getElem?_eq_getElem hk)
    exact ⟨_, List.getElem_mem lt, by rw [this.1, e, hv]⟩

theorem two_ends {l : List PlanEnd} (nd : (l.map PlanEnd.node).Nodup) {i : Nat} (hi : i ∈ l.map PlanEnd.node) :
    2 ≤ l.length ↔ ∃ j ∈ l.map PlanEnd.node, j ≠ i := by
  constructor
  · intro h2
    by_contra q
    push Not at q
    match l, h2, nd, q with
    | a :: b :: t, _, nd, q =>
      have q1 := q a.node (by simp)
      have q2 := q b.node (by simp)
      simp [q1, q2] at nd
  · rintro ⟨j, hj, ne⟩
    match l, hi, hj with
    | [a], hi, hj =>
      simp only [List.map_cons, List.map_nil, List.mem_singleton] at hi hj
      exact absurd (hj.trans hi.symm) ne
    | a :: b :: t, _, _ => simp

theorem DirectedIn.tensors {h0 : Heap} (R : Reach E h) (g : DirectedIn h name nodes lines c ns es) (p : DirectedPlan h0 nodes lines)
    (K : Keeps h0 h) {T : Tensors} (hT : TensorOf h c T) : DirectedTensors h nodes lines T := by
  have C := g.context p K
  have En := hT.entries R C
  have node : ∀ i < nodes.length, ∃ v, ns[i]? = some v ∧ (h.subNodes c)[i]? = some v := fun i hi => by
    rw [← g.nodeLength] at hi
    exact ⟨_, List.getElem?_eq_getElem hi, by rw [g.subNodes, List.getElem?_eq_getElem hi]⟩
  have edge : ∀ (e : Nat) (l : Str × List PlanEnd), lines[e]? = some l → ∃ x, es[e]? = some x ∧ (h.subEdges c)[e]? = some x := fun e l hl => by
    have := (List.getElem?_eq_some_iff.1 hl).1
    rw [← g.edgeLength] at this
    exact ⟨_, List.getElem?_eq_getElem this, by rw [g.subEdges, List.getElem?_eq_getElem this]⟩
  have wt : ∀ {r : Ref} {d : PlanEnd}, (h.get r).weight = d.weight → weightOf h r = d.value h := by
    intro r d q
    unfold weightOf PlanEnd.value
    rw [q]
    cases d.weight <;> rfl
  have none_ : ∀ {rs : List Ref} {P : Ref → Prop} {w : Rat}, (∀ q ∈ rs, ¬ P q) → LastWins h rs P w → w = 0 := by
    rintro rs P w no (⟨l1, r, l2, e, hp, -⟩ | ⟨-, e⟩)
    · exact absurd hp (no r (by rw [e]; simp))
    · exact e
  have other : ∀ {e : Nat} {l : Str × List PlanEnd} {x u : Ref}, lines[e]? = some l → es[e]? = some x → Endpoint h x u →
      ∃ j < nodes.length, ns[j]? = some u := by
    rintro e l x u hl hx ⟨r, hr, q⟩
    obtain ⟨d, hd, e', -⟩ := g.end_of hx hl hr
    exact ⟨d.node, p.exist l (List.mem_of_getElem? hl) d hd, e'.symm.trans q⟩
  refine ⟨by rw [En.ne, g.subEdges, g.edgeLength], by rw [En.nn, g.subNodes, g.nodeLength], ?_, ?_, ?_⟩
  · intro e l he i hi j hj
    obtain ⟨x, hx, hx'⟩ := edge e l he
    obtain ⟨v, hv, hv'⟩ := node i hi
    obtain ⟨u, hu, hu'⟩ := node j hj
    have L := En.W e i j x v u hx' hv' hu'
    have ne : v ≠ u ↔ i ≠ j := by
      rw [Ne, Ne, not_iff_not]
      constructor
      · rintro rfl; exact ((g.same p hv).1 hu).symm
      · rintro rfl; rw [hv] at hu; exact Option.some.inj hu
    split
    · rename_i q
      refine lastEnd_of (g.relLength hx he) (fun k r d hr hd => ?_) L
      obtain ⟨a1, a2, a3⟩ := g.rel_at hx he hr hd
      refine ⟨wt a3, ?_⟩
      unfold Links
      rw [wt a3, ne, g.endpoint p hv hx he, g.endpoint p hu hx he, a1, a2, g.same p hv, g.same p hu]
      simp only [q.1, q.2.1, q.2.2, decide_eq_true_eq, true_and, ne_eq, not_false_eq_true]
    · rename_i q
      refine none_ (fun r hr k => q ?_) L
      obtain ⟨_, k1, k2, k3, _⟩ := k
      rw [ne] at k1
      rw [g.endpoint p hv hx he] at k2
      rw [g.endpoint p hu hx he] at k3
      exact ⟨k1, k2, k3⟩
  · intro e l he i hi
    obtain ⟨x, hx, hx'⟩ := edge e l he
    obtain ⟨v, hv, hv'⟩ := node i hi
    have L := En.Io e i x v hx' hv'
    have nd := p.distinct l (List.mem_of_getElem? he)
    split
    · rename_i q
      refine lastEnd_of (g.relLength hx he) (fun k r d hr hd => ?_) L
      obtain ⟨a1, a2, a3⟩ := g.rel_at hx he hr hd
      refine ⟨wt a3, ?_⟩
      unfold LeavesBy Links
      rw [decide_eq_true_eq]
      constructor
      · rintro ⟨u, k1, k2, k3, k4, k5⟩
        obtain ⟨j, hj, hu⟩ := other he hx k4
        rw [wt a3] at k1
        refine ⟨k1, ?_⟩
        rw [a1, a2, g.same p hv, g.same p hu] at k5
        rcases k5 with k5 | k5
        · exact .inl k5
        · refine .inr ⟨?_, k5.2⟩
          rw [k5.1]
          rintro rfl
          rw [hv] at hu
          exact k2 (Option.some.inj hu)
      · rintro ⟨k1, k5⟩
        have hdm : d.node ∈ l.2.map PlanEnd.node := List.mem_map_of_mem (List.mem_of_getElem? hd)
        have pick : ∀ j ∈ l.2.map PlanEnd.node, j ≠ i → ∃ u, ns[j]? = some u ∧ v ≠ u ∧ Endpoint h x u := by
          intro j hj hne
          obtain ⟨d', hd', rfl⟩ := List.mem_map.1 hj
          have lt : d'.node < ns.length := g.nodeLength ▸ p.exist l (List.mem_of_getElem? he) d' hd'
          have hu := List.getElem?_eq_getElem lt
          refine ⟨_, hu, fun z => hne ?_, (g.endpoint p hu hx he).2 hj⟩
          rw [← z] at hu
          exact (g.same p hv).1 hu
        rcases k5 with k5 | k5
        · obtain ⟨j, hj, hne⟩ := (two_ends nd q.1).1 q.2
          obtain ⟨u, hu, k2, k4⟩ := pick j hj hne
          exact ⟨u, by rw [wt a3]; exact k1, k2, (g.endpoint p hv hx he).2 q.1, k4, .inl ⟨by rw [a1, k5.1, hv], by rw [a2]; exact k5.2⟩⟩
        · obtain ⟨u, hu, k2, k4⟩ := pick d.node hdm k5.1
          exact ⟨u, by rw [wt a3]; exact k1, k2, (g.endpoint p hv hx he).2 q.1, k4, .inr ⟨by rw [a1, hu], by rw [a2]; exact k5.2⟩⟩
    · rename_i q
      refine none_ (fun r hr k => q ?_) L
      obtain ⟨u, _, k2, k3, k4, _⟩ := k
      obtain ⟨j, hj, hu⟩ := other he hx k4
      have k3 := (g.endpoint p hv hx he).1 k3
      refine ⟨k3, (two_ends nd k3).2 ⟨j, (g.endpoint p hu hx he).1 k4, ?_⟩⟩
      rintro rfl
      rw [hv] at hu
      exact k2 (Option.some.inj hu)
  · intro e l he i hi
    obtain ⟨x, hx, hx'⟩ := edge e l he
    obtain ⟨v, hv, hv'⟩ := node i hi
    have L := En.Ii e i x v hx' hv'
    have nd := p.distinct l (List.mem_of_getElem? he)
    split
    · rename_i q
      refine lastEnd_of (g.relLength hx he) (fun k r d hr hd => ?_) L
      obtain ⟨a1, a2, a3⟩ := g.rel_at hx he hr hd
      refine ⟨wt a3, ?_⟩
      unfold EntersBy Links
      rw [decide_eq_true_eq]
      constructor
      · rintro ⟨u, k1, k2, k4, k3, k5⟩
        obtain ⟨j, hj, hu⟩ := other he hx k4
        rw [wt a3] at k1
        refine ⟨k1, ?_⟩
        rw [a1, a2, g.same p hv, g.same p hu] at k5
        rcases k5 with k5 | k5
        · refine .inr ⟨?_, k5.2⟩
          rw [k5.1]
          rintro rfl
          rw [hv] at hu
          exact k2 (Option.some.inj hu).symm
        · exact .inl k5
      · rintro ⟨k1, k5⟩
        have hdm : d.node ∈ l.2.map PlanEnd.node := List.mem_map_of_mem (List.mem_of_getElem? hd)
        have pick : ∀ j ∈ l.2.map PlanEnd.node, j ≠ i → ∃ u, ns[j]? = some u ∧ u ≠ v ∧ Endpoint h x u := by
          intro j hj hne
          obtain ⟨d', hd', rfl⟩ := List.mem_map.1 hj
          have lt : d'.node < ns.length := g.nodeLength ▸ p.exist l (List.mem_of_getElem? he) d' hd'
          have hu := List.getElem?_eq_getElem lt
          refine ⟨_, hu, fun z => hne ?_, (g.endpoint p hu hx he).2 hj⟩
          rw [z] at hu
          exact (g.same p hv).1 hu
        rcases k5 with k5 | k5
        · obtain ⟨j, hj, hne⟩ := (two_ends nd q.1).1 q.2
          obtain ⟨u, hu, k2, k4⟩ := pick j hj hne
          exact ⟨u, by rw [wt a3]; exact k1, k2, k4, (g.endpoint p hv hx he).2 q.1, .inr ⟨by rw [a1, k5.1, hv], by rw [a2]; exact k5.2⟩⟩
        · obtain ⟨u, hu, k2, k4⟩ := pick d.node hdm k5.1
          exact ⟨u, by rw [wt a3]; exact k1, k2, k4, (g.endpoint p hv hx he).2 q.1, .inl ⟨by rw [a1, hu], by rw [a2]; exact k5.2⟩⟩
    · rename_i q
      refine none_ (fun r hr k => q ?_) L
      obtain ⟨u, _, k2, k4, k3, _⟩ := k
      obtain ⟨j, hj, hu⟩ := other he hx k4
      have k3 := (g.endpoint p hv hx he).1 k3
      refine ⟨k3, (two_ends nd k3).2 ⟨j, (g.endpoint p hu hx he).1 k4, ?_⟩⟩
      rintro rfl
      rw [hv] at hu
      exact k2 (Option.some.inj hu).symm

end

theorem lastEnd_calm {h h' : Heap} {ds : List PlanEnd} {Q : PlanEnd → Bool} (C : Calm h h')
    (lt : ∀ d ∈ ds, ∀ w, d.weight = some w → w < h.size) : lastEnd h' ds Q = lastEnd h ds Q := by
  have v : ∀ d ∈ ds, d.value h' = d.value h := by
    intro d hd
    unfold PlanEnd.value
    cases q : d.weight with
    | none => rfl
    | some w =>
      simp only
      unfold Heap.valuesOf
      rw [C.lists, C.vals w (lt d hd w q)]
  have e : ds.filter (fun d => decide (d.value h' ≠ 0) && Q d) = ds.filter fun d => decide (d.value h ≠ 0) && Q d :=
    List.filter_congr fun d hd => by rw [v d hd]
  unfold lastEnd
  rw [e]
  split
  · rfl
  · rename_i d q
    exact v d (List.mem_of_mem_filter (List.mem_of_getLast? q))

theorem DirectedTensors.calm {h h' : Heap} {nodes : List Str} {lines : List (Str × List PlanEnd)} {T : Tensors} (C : Calm h h')
    (p : DirectedPlan h nodes lines) (D : DirectedTensors h' nodes lines T) : DirectedTensors h nodes lines T := by
  have lt : ∀ l ∈ lines, ∀ d ∈ l.2, ∀ w, d.weight = some w → w < h.size := fun l hl d hd w hw => (p.weights l hl d hd w hw).1
  refine ⟨D.layers, D.rows, fun e l he i hi j hj => ?_, fun e l he i hi => ?_, fun e l he i hi => ?_⟩
  · rw [D.W e l he i hi j hj, lastEnd_calm C (lt l (List.mem_of_getElem? he))]
  · rw [D.Io e l he i hi, lastEnd_calm C (lt l (List.mem_of_getElem? he))]
  · rw [D.Ii e l he i hi, lastEnd_calm C (lt l (List.mem_of_getElem? he))]

theorem directed_stage {E : Env} (inj : Function.Injective E.sha) {h : Heap} (R : Reach E h) {F : Factory}
    (hF : F.clock ≠ none) (name : Str) {nodes : List Str} {lines : List (Str × List PlanEnd)} (p : DirectedPlan h nodes lines) :
    ∃ c ns es h', F.createDirected E name nodes lines h = (.ok (c, ns, es), h') ∧ DStage E F name nodes c ns lines es h' ∧
      Keeps h h' ∧ Calm h h' := by
  obtain ⟨h1, run1, r1⟩ := nodeRow_root R hF name
  obtain ⟨ns, h2, run2, r2, e2⟩ := r1.all inj hF nodes (by simpa using p.apart)
  simp only [List.nil_append, List.map_nil] at r2 e2
  have s2 := r2.dstage
  rw [e2] at s2
  have le1 : h.size ≤ h1.size := by
    have := (calms_generateNode E F name none h).keeps.size
    rwa [run1] at this
  have le2 : h1.size ≤ h2.size := by
    have := (Frames.mapEach (E := E) (L := False) (fun nm => calms_generateNode E F nm (some h.size)) nodes h1).keeps.size
    unfold Factory.generateListNodes at run2
    rwa [run2] at this
  obtain ⟨es, h3, run3, s3⟩ := s2.all inj hF (h0 := h) lines (by omega) (by simpa using p)
  simp only [List.nil_append] at s3
  have run : F.createDirected E name nodes lines h = (.ok (h.size, ns, es), h3) := by
    unfold Factory.createDirected
    rw [bind_ok run1, bind_ok run2, bind_ok (assertNew_ok ns (r2.uuids inj (by rw [e2]; exact p.apart)) (by simp)), bind_ok run3]
    rfl
  have S := calms_createDirected E F name nodes lines h
  rw [run] at S
  exact ⟨_, ns, es, h3, run, s3, S.keeps, S.calm⟩

/-- **C115.** A graph built from a plan with directions and weights, whatever the world it is built in, the name and the
clock: building succeeds, the new node contains exactly the nodes, edges and relations of the plan, it can be converted, and the
tensors have the entries the plan says, with the weights' values as they were before. -/
theorem C115_directed {E : Env} (inj : Function.Injective E.sha) {h : Heap} (R : Reach E h) {F : Factory}
    (hF : F.clock ≠ none) (name : Str) {nodes : List Str} {lines : List (Str × List PlanEnd)} (p : DirectedPlan h nodes lines) :
    ∃ c ns es h', F.createDirected E name nodes lines h = (.ok (c, ns, es), h') ∧ Reach E h' ∧
      DirectedIn h' name nodes lines c ns es ∧ (∃ T, TensorOf h' c T) ∧
      ∀ T, TensorOf h' c T → DirectedTensors h nodes lines T := by
  obtain ⟨c, ns, es, h', run, s, K, C⟩ := directed_stage inj R hF name p
  exact ⟨c, ns, es, h', run, s.reach, s.graph, C34_converts s.reach (s.graph.context p K),
    fun T hT => (s.graph.tensors s.reach p K hT).calm C p⟩

/-! ## Weighted directed graphs -/

theorem DigraphPlan.plan {h : Heap} {nodes : List Str} {arcs : List Arc} (p : DigraphPlan h nodes arcs) :
    DirectedPlan h nodes (arcs.map Arc.line) where
  apart := p.apart
  names := by rw [List.map_map]; exact p.names
  slash := by
    intro l hl
    obtain ⟨a, ha, rfl⟩ := List.mem_map.1 hl
    exact p.slash a ha
  distinct := by
    intro l hl
    obtain ⟨a, ha, rfl⟩ := List.mem_map.1 hl
    simpa [Arc.line] using p.loopless a ha
  exist := by
    intro l hl
    obtain ⟨a, ha, rfl⟩ := List.mem_map.1 hl
    simpa [Arc.line] using p.exist a ha
  weights := by
    intro l hl
    obtain ⟨a, ha, rfl⟩ := List.mem_map.1 hl
    simpa [Arc.line] using p.weights a ha

theorem sumTo_items {α : Type} {l : List α} {f : Nat → Rat} {g : α → Rat}
    (hfg : ∀ i x, l[i]? = some x → f i = g x) : sumTo l.length f = (l.map g).sum := by
  unfold sumTo
  congr 1
  apply List.ext_getElem
  · simp
  · intro k h1 h2
    have hk : k < l.length := by simpa using h2
    rw [List.getElem_map, List.getElem_map, List.getElem_range]
    exact hfg k _ (List.getElem?_eq_getElem hk)

theorem sum_nodes {α : Type} (n : Nat) (l : List α) (f : Nat → α → Rat) :
    sumTo n (fun i => (l.map (f i)).sum) = (l.map fun a => sumTo n fun i => f i a).sum := by
  induction l with
  | nil => simpa using sumTo_zero n
  | cons a l ih =>
    simp only [List.map_cons, List.sum_cons]
    rw [← ih, sumTo_sum, sumTo_sum, sumTo_sum, Finset.sum_add_distrib]

theorem DirectedTensors.digraph {h : Heap} {nodes : List Str} {arcs : List Arc} {T : Tensors} (p : DigraphPlan h nodes arcs)
    (D : DirectedTensors h nodes (arcs.map Arc.line) T) : DigraphTensors h nodes arcs T := by
  have line : ∀ (e : Nat) a, arcs[e]? = some a → (arcs.map Arc.line)[e]? = some a.line := fun e a q => by
    rw [List.getElem?_map, q]; rfl
  have val : ∀ (a : Arc) (n : Nat) (d : Dir), (⟨n, d, a.weight⟩ : PlanEnd).value h = a.value h := fun a n d => rfl
  have W : ∀ e a, arcs[e]? = some a → ∀ i < nodes.length, ∀ j < nodes.length,
      T.W e i j = if i = a.source ∧ j = a.target then a.value h else 0 := by
    intro e a q i hi j hj
    rw [D.W e _ (line e a q) i hi j hj]
    have ne := p.loopless a (List.mem_of_getElem? q)
    have ne' := ne.symm
    by_cases z : a.value h = 0
    · have : ∀ Q, lastEnd h a.line.2 Q = 0 := by intro Q; simp [lastEnd, Arc.line, val, z]
      rw [this, z]; simp
    · by_cases c1 : i = a.source <;> by_cases c2 : j = a.target <;>
        by_cases c3 : i = a.target <;> by_cases c4 : j = a.source <;>
        simp_all [lastEnd, Arc.line, Dir.isIn, Dir.isOut, List.filter_cons]
  have Io : ∀ e a, arcs[e]? = some a → ∀ i < nodes.length, T.Io e i = if i = a.source then a.value h else 0 := by
    intro e a q i hi
    rw [D.Io e _ (line e a q) i hi]
    have ne := p.loopless a (List.mem_of_getElem? q)
    have ne' := ne.symm
    by_cases z : a.value h = 0
    · have : ∀ Q, lastEnd h a.line.2 Q = 0 := by intro Q; simp [lastEnd, Arc.line, val, z]
      rw [this, z]; simp
    · by_cases c1 : i = a.source <;> by_cases c3 : i = a.target <;>
        simp_all [lastEnd, Arc.line, Dir.isIn, Dir.isOut, List.filter_cons]
  have Ii : ∀ e a, arcs[e]? = some a → ∀ i < nodes.length, T.Ii e i = if i = a.target then a.value h else 0 := by
    intro e a q i hi
    rw [D.Ii e _ (line e a q) i hi]
    have ne := p.loopless a (List.mem_of_getElem? q)
    have ne' := ne.symm
    by_cases z : a.value h = 0
    · have : ∀ Q, lastEnd h a.line.2 Q = 0 := by intro Q; simp [lastEnd, Arc.line, val, z]
      rw [this, z]; simp
    · by_cases c1 : i = a.source <;> by_cases c3 : i = a.target <;>
        simp_all [lastEnd, Arc.line, Dir.isIn, Dir.isOut, List.filter_cons]
  have ne_ : T.ne = arcs.length := by rw [D.layers, List.length_map]
  have deg : ∀ i < nodes.length,
      T.degree i = (arcs.map fun a => if i = a.source ∨ i = a.target then a.value h else 0).sum := by
    intro i hi
    have sumO : sumTo T.ne (fun e => T.Io e i) = (arcs.map fun a => if i = a.source then a.value h else 0).sum := by
      rw [ne_]; exact sumTo_items fun e a q => Io e a q i hi
    have sumI : sumTo T.ne (fun e => T.Ii e i) = (arcs.map fun a => if i = a.target then a.value h else 0).sum := by
      rw [ne_]; exact sumTo_items fun e a q => Ii e a q i hi
    have tot : (arcs.map fun a => if i = a.source then a.value h else 0).sum +
        (arcs.map fun a => if i = a.target then a.value h else 0).sum =
        (arcs.map fun a => if i = a.source ∨ i = a.target then a.value h else 0).sum := by
      rw [← List.sum_map_add]
      congr 1
      refine List.map_congr_left fun a ha => ?_
      have ne := p.loopless a ha
      by_cases c1 : i = a.source <;> by_cases c3 : i = a.target <;> simp_all
    unfold Tensors.degree
    rw [sumO, sumI, tot]
    by_cases c : ∀ e < T.ne, T.Io e i = T.Ii e i
    · have : (arcs.map fun a => if i = a.source ∨ i = a.target then a.value h else 0).sum = 0 := by
        refine List.sum_eq_zero fun x hx => ?_
        obtain ⟨a, ha, rfl⟩ := List.mem_map.1 hx
        obtain ⟨e, he, rfl⟩ := List.getElem_of_mem ha
        have q : arcs[e]? = some arcs[e] := List.getElem?_eq_getElem he
        have k := c e (by rw [ne_]; exact he)
        rw [Io e _ q i hi, Ii e _ q i hi] at k
        have ne := p.loopless _ ha
        clear sumO sumI tot c hx
        by_cases c1 : i = arcs[e].source
        · rw [if_pos (.inl c1)]
          rwa [if_pos c1, if_neg (by rw [c1]; exact ne)] at k
        · by_cases c3 : i = arcs[e].target
          · rw [if_pos (.inr c3)]
            rw [if_neg c1, if_pos c3] at k
            exact k.symm
          · rw [if_neg (by simp [c1, c3])]
      rw [this]; simp
    · rw [if_neg c]; simp
  have rows := D.rows
  refine ⟨ne_, rows, W, Io, Ii, deg, ?_, ?_⟩
  · unfold Tensors.totalDegree
    rw [rows, sumTo_congr deg, sum_nodes, ← List.sum_map_mul_left]
    congr 1
    refine List.map_congr_left fun a ha => ?_
    have ne := p.loopless a ha
    obtain ⟨l1, l2⟩ := p.exist a ha
    have : ∀ i, (if i = a.source ∨ i = a.target then a.value h else 0) =
        (if i = a.source then a.value h else 0) + if i = a.target then a.value h else 0 := by
      intro i
      by_cases c1 : i = a.source <;> by_cases c3 : i = a.target <;> simp_all
    simp only [this]
    rw [sumTo_sum, Finset.sum_add_distrib]
    simp only [Finset.sum_ite_eq', Finset.mem_range, l1, l2, if_true]
    ring
  · intro i hi j hj
    unfold Tensors.projectedLaplacian Tensors.diagDegree
    rw [ne_, sumTo_items fun e a q => W e a q i hi j hj]
    split
    · rename_i c
      subst c
      rw [deg i hi, List.sum_eq_zero (l := arcs.map fun a => if i = a.source ∧ i = a.target then a.value h else 0), sub_zero]
      intro x hx
      obtain ⟨a, ha, rfl⟩ := List.mem_map.1 hx
      have ne := p.loopless a ha
      rw [if_neg (by rintro ⟨rfl, q⟩; exact ne q)]
    · rw [zero_sub]

/-- **C115, weighted directed graphs.** If every edge is an arc from one node to another with a weight, the tensors are those of
the weighted directed graph: the weight tensor holds the weights of the arcs, the incidences those at sources and at targets, the
degree is the sum of the weights of the arcs at a node, the total degree twice the sum of all weights, and the projected Laplacian
has the degrees on the diagonal and the negated weights elsewhere. -/
theorem C115_digraph {E : Env} (inj : Function.Injective E.sha) {h : Heap} (R : Reach E h) {F : Factory}
    (hF : F.clock ≠ none) (name : Str) {nodes : List Str} {arcs : List Arc} (p : DigraphPlan h nodes arcs) :
    ∃ c ns es h', F.createDirected E name nodes (arcs.map Arc.line) h = (.ok (c, ns, es), h') ∧ (∃ T, TensorOf h' c T) ∧
      ∀ T, TensorOf h' c T → DigraphTensors h nodes arcs T := by
  obtain ⟨c, ns, es, h', run, -, -, t, q⟩ := C115_directed inj R hF name p.plan
  exact ⟨c, ns, es, h', run, t, fun T hT => (q T hT).digraph p⟩

namespace Sample

/-- A world with one value node. -/
def valueWorld : Heap := (Op.mkValue [1] ['w'] (.str ['w']) (some [2, 1 / 2])).after E1 Heap.empty

theorem reach_valueWorld : Reach E1 valueWorld := .step _ .init (by trivial) (by trivial)

/-- Three nodes and three arcs, one of which has a weight. -/
theorem arcs_plan : DigraphPlan valueWorld [['a'], ['b'], ['c']] [⟨['x'], 0, 1, some 0⟩, ⟨['y'], 1, 2, none⟩, ⟨['z'], 0, 2, none⟩] where
  apart := by decide +kernel
  names := by decide +kernel
  slash := by decide +kernel
  loopless := by decide +kernel
  exist := by decide +kernel
  weights := by
    intro a ha w hw
    have : w = 0 := by
      fin_cases ha
      · exact (Option.some.inj hw).symm
      · cases hw
      · cases hw
    subst this
    decide +kernel

/-- The plan in that world: the first arc weighs `5/2`, the total degree is 9. -/
example : ∃ c ns es h', F1.createDirected E1 ['g'] [['a'], ['b'], ['c']] ([⟨['x'], 0, 1, some 0⟩, ⟨['y'], 1, 2, none⟩,
    ⟨['z'], 0, 2, none⟩].map Arc.line) valueWorld = (.ok (c, ns, es), h') ∧
    ∃ T, TensorOf h' c T ∧ T.W 0 0 1 = 5 / 2 ∧ T.W 0 1 0 = 0 ∧ T.totalDegree = 9 := by
  obtain ⟨c, ns, es, h', run, ⟨T, hT⟩, q⟩ := C115_digraph (E := E1) wideSha_injective reach_valueWorld (F := F1) (by decide) ['g'] arcs_plan
  have D := q T hT
  have v : Arc.value valueWorld ⟨['x'], 0, 1, some 0⟩ = 5 / 2 := by decide +kernel
  refine ⟨c, ns, es, h', run, T, hT, ?_, ?_, ?_⟩
  · rw [D.W 0 _ rfl 0 (by decide) 1 (by decide), if_pos ⟨rfl, rfl⟩, v]
  · rw [D.W 0 _ rfl 1 (by decide) 0 (by decide), if_neg (by decide)]
  · rw [D.total]
    simp only [List.map_cons, List.map_nil, List.sum_cons, List.sum_nil, v]
    rw [show Arc.value valueWorld ⟨['y'], 1, 2, none⟩ = 1 from rfl, show Arc.value valueWorld ⟨['z'], 0, 2, none⟩ = 1 from rfl]
    norm_num

end Sample

end Rei
