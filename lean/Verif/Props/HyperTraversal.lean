import Verif.Spec.HyperTraversal
import Verif.Props.Tensor
import Verif.Props.Sample

/-!
# C102, C103: hypergraph traversals of any depth
-/
namespace Rei

section
variable {β : Type} {h : Heap} {B : Ref → Except Err (List β)} {max : Option Nat}

theorem hyperTraverse_eq_walk (m : IndexHom) : ∀ (b : Nat) (q : Fringe) (s : List (List Entry)),
    hyperTraverse h m max b q s = walk h (relationBatches h m) max b q s
  | 0, _, _ => rfl
  | _ + 1, [], _ => rfl
  | b + 1, (x, d) :: q, s => by
    rw [hyperTraverse, walk]
    cases k : (h.get x).kind <;> simp only [hyperTraverse_eq_walk m b]
    cases relationBatches h m x <;> rfl

theorem walk_nodes (vs : List Ref) (hvs : ∀ x ∈ vs, (h.get x).kind = .node) (d b : Nat) (q : Fringe) (s : List β) :
    walk h B max (vs.length + b) (vs.map (fun v => (v, d)) ++ q) s =
      walk h B max b (q ++ (vs.flatMap h.subEdges).map fun v => (v, d)) s := by
  induction vs generalizing q with
  | nil => simp
  | cons x es ih =>
    rw [List.length_cons, Nat.add_right_comm, List.map_cons, List.cons_append, walk, hvs x (by simp)]
    simp only
    rw [List.append_assoc, ih (fun y hy => hvs y (by simp [hy]))]
    simp

theorem walk_edges (es : List Ref) (hes : ∀ x ∈ es, (h.get x).kind = .edge) (d b : Nat) (q : Fringe) (s : List β) :
    walk h B max (es.length + b) (es.map (fun v => (v, d)) ++ q) s =
      walk h B max b (q ++ (es.flatMap h.subRelations).map fun v => (v, d)) s := by
  induction es generalizing q with
  | nil => simp
  | cons x es ih =>
    rw [List.length_cons, Nat.add_right_comm, List.map_cons, List.cons_append, walk, hes x (by simp)]
    simp only
    rw [List.append_assoc, ih (fun y hy => hes y (by simp [hy]))]
    simp

/-- What the relations `rs` put on the fringe. -/
def ends (h : Heap) (rs : List Ref) : List Ref := rs.flatMap fun r => ((h.get r).endpoint).toList

theorem walk_relations (F : Ref → List β) (rs : List Ref)
    (hrs : ∀ r ∈ rs, (h.get r).kind = .relation ∧ B r = .ok (F r)) (d b : Nat) (q : Fringe) (s : List β) :
    walk h B max (rs.length + b) (rs.map (fun v => (v, d)) ++ q) s =
      walk h B max b (q ++ if deeper max d then (ends h rs).map fun v => (v, d + 1) else []) (s ++ rs.flatMap F) := by
  induction rs generalizing q s with
  | nil => simp [ends]
  | cons r rs ih =>
    obtain ⟨hk, hF⟩ := hrs r (by simp)
    rw [List.length_cons, Nat.add_right_comm, List.map_cons, List.cons_append, walk, hk]
    simp only [hF]
    rw [List.append_assoc, ih (fun y hy => hrs y (by simp [hy]))]
    congr 1
    · split
      · cases e : (h.get r).endpoint <;> simp [ends, e]
      · simp
    · simp

theorem flatMap_under (vs : List Ref) : (vs.flatMap h.subEdges).flatMap h.subRelations = vs.flatMap (relationsUnder h) := by
  rw [List.flatMap_assoc]; rfl

theorem under_kind {v r : Ref} (hr : r ∈ relationsUnder h v) : (h.get r).kind = .relation := by
  obtain ⟨x, _, hx⟩ := List.mem_flatMap.1 hr
  exact of_decide_eq_true (List.mem_filter.1 hx).2

/-- One round. -/
theorem walk_round (F : Ref → List β) (vs : List Ref) (hvs : ∀ x ∈ vs, (h.get x).kind = .node)
    (hrs : ∀ r ∈ vs.flatMap (relationsUnder h), B r = .ok (F r)) (d b : Nat) (s : List β) :
    walk h B max (vs.length + ((vs.flatMap h.subEdges).length + ((vs.flatMap (relationsUnder h)).length + b)))
        (vs.map fun v => (v, d)) s =
      walk h B max b (if deeper max d then (ends h (vs.flatMap (relationsUnder h))).map fun v => (v, d + 1) else [])
        (s ++ (vs.flatMap (relationsUnder h)).flatMap F) := by
  have e1 := walk_nodes (B := B) (max := max) vs hvs d
    ((vs.flatMap h.subEdges).length + ((vs.flatMap (relationsUnder h)).length + b)) [] s
  rw [List.append_nil, List.nil_append] at e1
  have e2 := walk_edges (B := B) (max := max) (vs.flatMap h.subEdges) (by
    intro x hx
    obtain ⟨v, _, k⟩ := List.mem_flatMap.1 hx
    exact of_decide_eq_true (List.mem_filter.1 k).2) d ((vs.flatMap (relationsUnder h)).length + b) [] s
  rw [List.append_nil, List.nil_append, flatMap_under] at e2
  have e3 := walk_relations (B := B) (max := max) F (vs.flatMap (relationsUnder h)) (fun r hr => ⟨by
    obtain ⟨v, _, k⟩ := List.mem_flatMap.1 hr
    exact under_kind k, hrs r hr⟩) d b [] s
  rw [List.append_nil, List.nil_append] at e3
  rw [e1, e2, e3]

/-- All rounds. -/
theorem walk_rounds (F : Ref → List β) : ∀ (n d : Nat) (vs : List Ref) (s : List β), (∀ x ∈ vs, (h.get x).kind = .node) →
    (∀ r ∈ rounds h (n + 1) vs, B r = .ok (F r) ∧ ∀ v, (h.get r).endpoint = some v → (h.get v).kind = .node) →
    ∃ N, ∀ b ≥ N, walk h B (some (d + n + 1)) b (vs.map fun v => (v, d)) s =
      (.ok (), s ++ (rounds h (n + 1) vs).flatMap F, [])
  | n, d, vs, s, hvs, H => by
    have here : ∀ r ∈ vs.flatMap (relationsUnder h), B r = .ok (F r) := fun r hr =>
      (H r (by rw [rounds]; exact List.mem_append_left _ hr)).1
    cases n with
    | zero =>
      refine ⟨vs.length + ((vs.flatMap h.subEdges).length + ((vs.flatMap (relationsUnder h)).length + 1)), fun b hb => ?_⟩
      obtain ⟨b', rfl⟩ : ∃ b', b = vs.length + ((vs.flatMap h.subEdges).length + ((vs.flatMap (relationsUnder h)).length + (b' + 1))) :=
        ⟨b - (vs.length + ((vs.flatMap h.subEdges).length + ((vs.flatMap (relationsUnder h)).length + 1))), by omega⟩
      rw [walk_round F vs hvs here, show deeper (some (d + 0 + 1)) d = false by simp [deeper]]
      simp [walk, rounds]
    | succ n =>
      obtain ⟨N, k⟩ := walk_rounds F n (d + 1) (ends h (vs.flatMap (relationsUnder h)))
        (s ++ (vs.flatMap (relationsUnder h)).flatMap F) (fun x hx => by
          obtain ⟨r, hr, e⟩ := List.mem_flatMap.1 hx
          exact (H r (by rw [rounds]; exact List.mem_append_left _ hr)).2 x (by simpa using e)) (fun r hr =>
            H r (by rw [rounds]; exact List.mem_append_right _ hr))
      refine ⟨vs.length + ((vs.flatMap h.subEdges).length + ((vs.flatMap (relationsUnder h)).length + N)), fun b hb => ?_⟩
      obtain ⟨b', rfl, hb'⟩ : ∃ b', b = vs.length + ((vs.flatMap h.subEdges).length + ((vs.flatMap (relationsUnder h)).length + b')) ∧ b' ≥ N :=
        ⟨b - (vs.length + ((vs.flatMap h.subEdges).length + (vs.flatMap (relationsUnder h)).length)), by omega, by omega⟩
      rw [walk_round F vs hvs here, show deeper (some (d + (n + 1) + 1)) d = true by simp [deeper], if_pos rfl,
        show d + (n + 1) + 1 = d + 1 + n + 1 by omega, k b' hb']
      conv => rhs; rw [rounds]
      rw [List.flatMap_append, List.append_assoc]
      rfl

/-- Rounds without limit. -/
theorem walk_chain (F : Ref → List β) : ∀ (n d : Nat) (vs : List Ref) (s : List β), (∀ x ∈ vs, (h.get x).kind = .node) →
    (∀ r ∈ rounds h n vs, B r = .ok (F r) ∧ ∀ v, (h.get r).endpoint = some v → (h.get v).kind = .node) →
    (∀ i < n, reachedAfter h i vs ≠ []) →
    ∃ N ≥ n, ∀ b, walk h B none (N + b) (vs.map fun v => (v, d)) s =
      walk h B none b ((reachedAfter h n vs).map fun v => (v, d + n)) (s ++ (rounds h n vs).flatMap F)
  | 0, d, vs, s, _, _, _ => ⟨0, le_rfl, fun b => by simp [reachedAfter, rounds]⟩
  | n + 1, d, vs, s, hvs, H, ne => by
    have here : ∀ r ∈ vs.flatMap (relationsUnder h), B r = .ok (F r) := fun r hr =>
      (H r (by rw [rounds]; exact List.mem_append_left _ hr)).1
    obtain ⟨N, hN, k⟩ := walk_chain F n (d + 1) (ends h (vs.flatMap (relationsUnder h)))
      (s ++ (vs.flatMap (relationsUnder h)).flatMap F) (fun x hx => by
        obtain ⟨r, hr, e⟩ := List.mem_flatMap.1 hx
        exact (H r (by rw [rounds]; exact List.mem_append_left _ hr)).2 x (by simpa using e)) (fun r hr =>
          H r (by rw [rounds]; exact List.mem_append_right _ hr)) (fun i hi => by
          have := ne (i + 1) (by omega)
          rw [reachedAfter] at this
          exact this)
    have l1 : 0 < vs.length := List.length_pos_iff.2 (by simpa [reachedAfter] using ne 0 (by omega))
    refine ⟨vs.length + ((vs.flatMap h.subEdges).length + ((vs.flatMap (relationsUnder h)).length + N)), by omega, fun b => ?_⟩
    rw [show vs.length + ((vs.flatMap h.subEdges).length + ((vs.flatMap (relationsUnder h)).length + N)) + b =
      vs.length + ((vs.flatMap h.subEdges).length + ((vs.flatMap (relationsUnder h)).length + (N + b))) by omega,
      walk_round F vs hvs here, show deeper none d = true from rfl, if_pos rfl, k b]
    conv => rhs; rw [rounds, reachedAfter]
    rw [List.flatMap_append, List.append_assoc, show d + 1 + n = d + (n + 1) by omega]
    rfl

/-- A deeper stack changes nothing, unless it was exhausted. -/
theorem walk_more : ∀ (b : Nat) (q : Fringe) (s : List β), (walk h B max b q s).1 ≠ .error .recursionError →
    walk h B max (b + 1) q s = walk h B max b q s
  | 0, _, _, ne => absurd rfl ne
  | b + 1, [], _, _ => rfl
  | b + 1, (x, d) :: q, s, ne => by
    rw [walk] at ne
    conv => lhs; rw [walk]
    conv => rhs; rw [walk]
    cases k : (h.get x).kind <;> simp only [k] at ne ⊢ <;> first | exact walk_more b _ _ ne | skip
    cases e : B x with
    | error _ => rfl
    | ok bs => simp only [e] at ne ⊢; exact walk_more b _ _ ne

theorem walk_most {b b' : Nat} {q : Fringe} {s : List β} (hb : b ≤ b')
    (ne : (walk h B max b q s).1 ≠ .error .recursionError) : walk h B max b' q s = walk h B max b q s := by
  induction b', hb using Nat.le_induction with
  | base => rfl
  | succ b' _ ih => rw [walk_more b' q s (by rw [ih]; exact ne), ih]

theorem walk_endless (F : Ref → List β) (d : Nat) (vs : List Ref) (s : List β) (hvs : ∀ x ∈ vs, (h.get x).kind = .node)
    (H : ∀ n, ∀ r ∈ rounds h n vs, B r = .ok (F r) ∧ ∀ v, (h.get r).endpoint = some v → (h.get v).kind = .node)
    (ne : ∀ n, reachedAfter h n vs ≠ []) (b : Nat) :
    (walk h B none b (vs.map fun v => (v, d)) s).1 = .error .recursionError := by
  by_contra k
  obtain ⟨N, hN, e⟩ := walk_chain (B := B) F b d vs s hvs (H b) (fun i _ => ne i)
  have := e 0
  rw [Nat.add_zero, walk_most hN k] at this
  apply k
  rw [this, walk]

end

/-! ## C102 -/

theorem endpointUuids_eq {h : Heap} {x : Ref} (hx : (h.get x).kind = .edge)
    (he : ∀ q ∈ h.subRelations x, ∃ v, (h.get q).endpoint = some v ∧ (h.get v).kind = .node) :
    endpointUuids h x = .ok ((endpointsOf h x).map fun v => (h.get v).uuid) := by
  unfold endpointUuids endpointsOf Heap.inducedSubset
  rw [if_pos hx]
  clear hx
  revert he
  induction h.subRelations x with
  | nil => intro _; rfl
  | cons r l ih =>
    intro he
    obtain ⟨v, e, -⟩ := he r (by simp)
    rw [List.map_cons, List.mapM_cons, ih fun q hq => he q (by simp [hq]), e]
    simp [e, Functor.map, Except.map, bind, Except.bind, pure, Except.pure]

theorem relationWeightBy_eq (norm : List Rat → Rat) {h : Heap} {r : Ref}
    (hv : ∀ v, (h.get r).weight = some v → (h.get v).kind = .value) :
    relationWeightBy norm h r = .ok (open scoped Classical in
      (if (h.get r).direction.isIn then weightBy norm h r else 0,
       if (h.get r).direction.isOut then weightBy norm h r else 0)) := by
  unfold relationWeightBy weightBy Dir.isIn Dir.isOut
  cases hw : (h.get r).weight with
  | none =>
    cases hd : (h.get r).direction <;> simp [incidenceValue, hw, hd]
  | some v =>
    cases hd : (h.get r).direction <;> simp [incidenceValue, hw, hd, hv v hw]

theorem filter_map_uuid {h : Heap} (l : List Ref) (v : Ref) (hv : ∀ u ∈ l, (h.get u).uuid = (h.get v).uuid → u = v) :
    (l.map fun v => (h.get v).uuid).filter (fun x => decide (x ≠ (h.get v).uuid)) =
      (l.filter fun u => decide (u ≠ v)).map fun v => (h.get v).uuid := by
  rw [List.filter_map]
  congr 1
  apply List.filter_congr
  intro u hu
  simp only [Function.comp]
  by_cases e : u = v
  · simp [e]
  · have : (h.get u).uuid ≠ (h.get v).uuid := fun k => e (hv u hu k)
    simp [e, this]

theorem uuidBatches_eq (norm : List Rat → Rat) {h : Heap} {r x v : Ref} (P : ProperRelation h r) (hp : (h.get r).parent = some x)
    (hv : (h.get r).endpoint = some v) (hr : r ∈ h.subRelations x) : uuidBatches norm h r = .ok (callsFor norm h x v r) := by
  obtain ⟨y, e, hk, he, hu⟩ := P.edge
  rw [hp] at e; cases e
  have mv : v ∈ endpointsOf h x := List.mem_flatMap.2 ⟨r, hr, by simp [hv]⟩
  unfold uuidBatches callsFor
  rw [hp]
  simp only [relationWeightBy_eq norm P.weight, hv, endpointUuids_eq hk he, bind, Except.bind]
  rw [filter_map_uuid _ v fun u m => hu u m v mv]
  simp only [List.map_map, Function.comp_def]
  by_cases a : (h.get r).direction.isIn <;> by_cases b : (h.get r).direction.isOut <;> by_cases w : weightBy norm h r = 0 <;>
    simp [a, b, w]

theorem rounds_sub {E : Env} {h : Heap} (R : Reach E h) : ∀ (n : Nat) (vs : List Ref), ∀ r ∈ rounds h n vs,
    ∃ x, r ∈ h.subRelations x ∧ (h.get r).parent = some x := by
  intro n
  induction n with
  | zero => intro vs r hr; cases hr
  | succ n ih =>
    intro vs r hr
    rw [rounds] at hr
    rcases List.mem_append.1 hr with a | a
    · obtain ⟨v, _, b⟩ := List.mem_flatMap.1 a
      obtain ⟨x, _, c⟩ := List.mem_flatMap.1 b
      exact ⟨x, c, ((C01_containment_agrees R x).1 r).1 (List.mem_filter.1 c).1⟩
    · exact ih _ r a

open Classical in
/-- The calls for a relation. -/
noncomputable def callsAt (norm : List Rat → Rat) (h : Heap) (r : Ref) : List (List UEntry) :=
  match (h.get r).parent, (h.get r).endpoint with
  | some x, some v => callsFor norm h x v r
  | _, _ => []

theorem callsAt_spec (norm : List Rat → Rat) {E : Env} {h : Heap} (R : Reach E h) {n : Nat} {vs : List Ref} {r : Ref} (hr : r ∈ rounds h n vs)
    (P : ProperRelation h r) : CallsOf norm h r (callsAt norm h r) ∧ uuidBatches norm h r = .ok (callsAt norm h r) ∧
      ∀ v, (h.get r).endpoint = some v → (h.get v).kind = .node := by
  obtain ⟨x, m, hp⟩ := rounds_sub R _ _ r hr
  obtain ⟨y, e, hk, he, hu⟩ := P.edge
  rw [hp] at e; cases e
  obtain ⟨v, hv, kv⟩ := he r m
  have f : callsAt norm h r = callsFor norm h x v r := by simp only [callsAt, hp, hv]
  refine ⟨⟨x, v, hp, hv, f⟩, by rw [f]; exact uuidBatches_eq norm P hp hv m, fun u hu => ?_⟩
  rw [hv] at hu; cases hu; exact kv

/-- **C102.** A traversal without homomorphism, limited to any depth `k > 0`, from a node: if the relations it meets are as
connecting makes them and the stack is deep enough, it reports, for any norm, exactly the relations of `k` rounds, round by round, each once
for each time it is met, with the calls of `callsFor`; it raises nothing and leaves nothing behind. -/
theorem C102_rounds (norm : List Rat → Rat) {E : Env} {h : Heap} (R : Reach E h) {start : Ref} (hs : (h.get start).kind = .node) (k : Nat)
    (H : ∀ r ∈ rounds h (k + 1) [start], ProperRelation h r) :
    ∃ F : Ref → List (List UEntry), (∀ r ∈ rounds h (k + 1) [start], CallsOf norm h r (F r)) ∧
      ∃ N, ∀ budget ≥ N, uuidExecute norm h (some (k + 1)) budget start [] =
        (.ok (), (rounds h (k + 1) [start]).flatMap F, []) := by
  refine ⟨callsAt norm h, fun r hr => (callsAt_spec norm R hr (H r hr)).1, ?_⟩
  obtain ⟨N, e⟩ := walk_rounds (B := uuidBatches norm h) (callsAt norm h) k 0 [start] [] (by simpa using hs) fun r hr =>
    (callsAt_spec norm R hr (H r hr)).2
  refine ⟨N, fun budget hb => ?_⟩
  have := e budget hb
  rw [Nat.zero_add] at this
  exact this

/-- **C102.** Without limit: if the `n`-th round is the first to meet no relation, the traversal reports the relations of the
rounds before. -/
theorem C102_unlimited (norm : List Rat → Rat) {E : Env} {h : Heap} (R : Reach E h) {start : Ref} (hs : (h.get start).kind = .node) (n : Nat)
    (H : ∀ r ∈ rounds h n [start], ProperRelation h r) (ne : ∀ i < n, reachedAfter h i [start] ≠ [])
    (last : (reachedAfter h n [start]).flatMap (relationsUnder h) = []) :
    ∃ F : Ref → List (List UEntry), (∀ r ∈ rounds h n [start], CallsOf norm h r (F r)) ∧
      ∃ N, ∀ budget ≥ N, uuidExecute norm h none budget start [] = (.ok (), (rounds h n [start]).flatMap F, []) := by
  refine ⟨callsAt norm h, fun r hr => (callsAt_spec norm R hr (H r hr)).1, ?_⟩
  obtain ⟨N, -, e⟩ := walk_chain (B := uuidBatches norm h) (callsAt norm h) n 0 [start] [] (by simpa using hs) (fun r hr =>
    (callsAt_spec norm R hr (H r hr)).2) ne
  have nodes : ∀ x ∈ reachedAfter h n [start], (h.get x).kind = .node := by
    have : ∀ (n : Nat) (vs : List Ref), (∀ x ∈ vs, (h.get x).kind = .node) → (∀ r ∈ rounds h n vs, ProperRelation h r) →
        ∀ x ∈ reachedAfter h n vs, (h.get x).kind = .node := by
      intro n
      induction n with
      | zero => intro vs hvs _ x hx; exact hvs x hx
      | succ n ih =>
        intro vs hvs P
        rw [rounds] at P
        rw [reachedAfter]
        refine ih _ (fun x hx => ?_) fun r hr => P r (List.mem_append_right _ hr)
        obtain ⟨r, hr, k⟩ := List.mem_flatMap.1 hx
        have hr' : r ∈ rounds h (n + 1) vs := by rw [rounds]; exact List.mem_append_left _ hr
        exact (callsAt_spec norm R hr' (P r (List.mem_append_left _ hr))).2.2 x (by simpa using k)
    exact this n [start] (by simpa using hs) H
  refine ⟨N + ((reachedAfter h n [start]).length + (((reachedAfter h n [start]).flatMap h.subEdges).length + 1)), fun b hb => ?_⟩
  obtain ⟨b', rfl⟩ : ∃ b', b = N + ((reachedAfter h n [start]).length +
      (((reachedAfter h n [start]).flatMap h.subEdges).length + (0 + (b' + 1)))) :=
    ⟨b - (N + ((reachedAfter h n [start]).length + (((reachedAfter h n [start]).flatMap h.subEdges).length + 1))), by omega⟩
  unfold uuidExecute
  have e1 := e ((reachedAfter h n [start]).length + (((reachedAfter h n [start]).flatMap h.subEdges).length + (0 + (b' + 1))))
  have e2 := walk_round (B := uuidBatches norm h) (max := none) (callsAt norm h) (reachedAfter h n [start]) nodes (by rw [last]; simp)
    (0 + n) (b' + 1) ([] ++ (rounds h n [start]).flatMap (callsAt norm h))
  rw [last, List.length_nil] at e2
  refine e1.trans (e2.trans ?_)
  simp [ends, walk]

/-- **C102.** Without limit, from a node from which every round reaches further nodes, the traversal raises a recursion error,
however deep the stack. -/
theorem C102_endless (norm : List Rat → Rat) {E : Env} {h : Heap} (R : Reach E h) {start : Ref} (hs : (h.get start).kind = .node)
    (H : ∀ n, ∀ r ∈ rounds h n [start], ProperRelation h r) (ne : ∀ n, reachedAfter h n [start] ≠ []) (budget : Nat) :
    (uuidExecute norm h none budget start []).1 = .error .recursionError :=
  walk_endless (B := uuidBatches norm h) (callsAt norm h) 0 [start] [] (by simpa using hs) (fun _ r hr =>
    (callsAt_spec norm R hr (H _ r hr)).2) ne budget

/-! ## C103 -/

/-- The numbering of a context, and the calls for its relations. -/
theorem context_numbering {E : Env} {h : Heap} (R : Reach E h) {c : Ref} (hcl : Closed h c) (hvw : ValueWeights h c)
    {budget : Nat} (hb : StackFor h c budget) :
    ∃ m, ({} : IndexHom).execute h 1 true budget c [] = (.ok (), m, []) ∧
      Numbers m.edges ((h.subEdges c).map fun x => (h.get x).uuid) ∧
      ∃ F : Ref → List (List Entry), ∀ r, RelationIn h c r → relationBatches h m r = .ok (F r) := by
  have hC := C01_containment_agrees R
  have hhb : HomBudget h 1 true budget c := by
    unfold HomBudget
    simp only [breadthFirst_one]
    refine ⟨hb.1, ?_, hb.2.1⟩
    have : ((h.subelements c).filter (isEdge h)).length = (h.subEdges c).length := rfl
    have := hb.2.2; omega
  obtain ⟨m, em, Nn, Ne, _⟩ := C33_insertion_order R {} c hhb
  have nn : ((h.subNodes c).map fun x => (h.get x).uuid).Nodup := sub_uuid_nodup R c _
  have ne : ((h.subEdges c).map fun x => (h.get x).uuid).Nodup := sub_uuid_nodup R c _
  refine ⟨m, em, Ne, fun r => match relationBatches h m r with | .ok l => l | .error _ => [], ?_⟩
  rintro r ⟨x, hx, hr⟩
  have := relationBatches_eq (h := h) (m := m) (c := c) (x := x) (r := r) (of_decide_eq_true (List.mem_filter.1 hx).2)
    (((hC x).1 r).1 (List.mem_filter.1 hr).1) hr hx (fun q hq => hcl q ⟨x, hx, hq⟩) (hvw r ⟨x, hx, hr⟩)
    (fun v hv => index_iff Nn nn (posIn_getElem? hv)) (fun v hv => index_iff Ne ne (posIn_getElem? hv))
  simp only [this]

/-- The fringe after the relations of the context. -/
theorem walk_context {E : Env} {h : Heap} (_R : Reach E h) {c : Ref} (hk : (h.get c).kind = .node) {m : IndexHom}
    {F : Ref → List (List Entry)} (hF : ∀ r, RelationIn h c r → relationBatches h m r = .ok (F r)) (max : Option Nat) (b : Nat) :
    hyperExecute h m max (1 + ((h.subEdges c).length + ((relationsUnder h c).length + b))) c [] =
      walk h (relationBatches h m) max b (if deeper max 0 then (ends h (relationsUnder h c)).map fun v => (v, 1) else [])
        ((relationsUnder h c).flatMap F) := by
  unfold hyperExecute
  rw [hyperTraverse_eq_walk]
  have := walk_round (B := relationBatches h m) (max := max) F [c] (by simpa using hk) (fun r hr => hF r (by
    simp only [List.flatMap_cons, List.flatMap_nil, List.append_nil] at hr
    obtain ⟨x, hx, hr⟩ := List.mem_flatMap.1 hr
    exact ⟨x, hx, hr⟩)) 0 b []
  simpa using this

/-- **C103, partial.** For a context none of whose relations leads to a node with further relations inside, the conversion gives
the same result for every depth. -/
theorem C103_same_partial {E : Env} {h : Heap} (R : Reach E h) {c : Ref} (hk : (h.get c).kind = .node) (hcl : Closed h c)
    (hvw : ValueWeights h c) (hsh : Shallow h c) :
    ∃ N, ∀ budget ≥ N, ∃ T, ∀ depth : Option Nat, tensorExecute h depth budget c [] [] = (.ok T, [], []) := by
  have hin : ∀ r ∈ relationsUnder h c, RelationIn h c r := fun r hr => by
    obtain ⟨x, hx, hr⟩ := List.mem_flatMap.1 hr
    exact ⟨x, hx, hr⟩
  let vs := ends h (relationsUnder h c)
  have node : ∀ x ∈ vs, (h.get x).kind = .node := fun x hx => by
    obtain ⟨r, hr, e⟩ := List.mem_flatMap.1 hx
    obtain ⟨v, hv, e'⟩ := hcl r (hin r hr)
    rw [e'] at e
    simp only [Option.toList_some, List.mem_singleton] at e
    rw [e]
    exact of_decide_eq_true (List.mem_filter.1 hv).2
  have none_under : vs.flatMap (relationsUnder h) = [] := by
    rw [List.flatMap_eq_nil_iff]
    intro x hx
    obtain ⟨r, hr, e⟩ := List.mem_flatMap.1 hx
    exact hsh r (hin r hr) x (by simpa using e)
  refine ⟨(h.subNodes c).length + (h.subValues c).length + (h.subEdges c).length + (relationsUnder h c).length + 2 +
    (vs.length + ((vs.flatMap h.subEdges).length + 1)), fun budget hb => ?_⟩
  have hst : StackFor h c budget := by
    have : ((h.subEdges c).flatMap h.subRelations).length = (relationsUnder h c).length := rfl
    unfold StackFor; omega
  obtain ⟨T, e0, -⟩ := C56_weights R hk hcl hvw hst
  obtain ⟨m, em, -, F, hF⟩ := context_numbering R hcl hvw hst
  have all : ∀ depth : Option Nat, hyperExecute h m depth budget c [] = (.ok (), (relationsUnder h c).flatMap F, []) := by
    intro depth
    obtain ⟨b, rfl⟩ : ∃ b, budget = 1 + ((h.subEdges c).length + ((relationsUnder h c).length +
        (vs.length + ((vs.flatMap h.subEdges).length + (0 + (b + 1)))))) :=
      ⟨budget - (1 + ((h.subEdges c).length + ((relationsUnder h c).length + (vs.length + ((vs.flatMap h.subEdges).length + 1))))),
        by omega⟩
    rw [walk_context R hk hF]
    by_cases dp : deeper depth 0 = true
    · rw [if_pos dp]
      have := walk_round (B := relationBatches h m) (max := depth) F vs node (by rw [none_under]; simp) 1 (b + 1)
        ((relationsUnder h c).flatMap F)
      rw [none_under, List.length_nil] at this
      refine this.trans ?_
      simp [ends, walk]
    · rw [if_neg dp, show vs.length + ((vs.flatMap h.subEdges).length + (0 + (b + 1))) =
        vs.length + ((vs.flatMap h.subEdges).length + b) + 1 by omega, walk]
  refine ⟨T, fun depth => ?_⟩
  rw [← e0]
  unfold tensorExecute
  rw [em]
  simp only [all]

/-- **C103, refuted.** If a relation of the context leads to a node with further relations inside, and the depth is not 1 (or
0), the conversion raises `KeyError`: the edges inside are not numbered. -/
theorem C103_deeper_refuted {E : Env} {h : Heap} (R : Reach E h) {c : Ref} (hk : (h.get c).kind = .node) (hcl : Closed h c)
    (hvw : ValueWeights h c) (D : Deep h c) :
    ∃ N, ∀ budget ≥ N, ∀ depth : Option Nat, (∀ k, depth = some k → 2 ≤ k) →
      (tensorExecute h depth budget c [] []).1 = .error .keyError := by
  have hin : ∀ r ∈ relationsUnder h c, RelationIn h c r := fun r hr => by
    obtain ⟨x, hx, hr⟩ := List.mem_flatMap.1 hr
    exact ⟨x, hx, hr⟩
  let vs := ends h (relationsUnder h c)
  have node : ∀ x ∈ vs, (h.get x).kind = .node := fun x hx => by
    obtain ⟨r, hr, e⟩ := List.mem_flatMap.1 hx
    obtain ⟨v, hv, e'⟩ := hcl r (hin r hr)
    rw [e'] at e
    simp only [Option.toList_some, List.mem_singleton] at e
    rw [e]
    exact of_decide_eq_true (List.mem_filter.1 hv).2
  refine ⟨(h.subNodes c).length + (h.subValues c).length + (h.subEdges c).length + (relationsUnder h c).length + 2 +
    (vs.length + ((vs.flatMap h.subEdges).length + 1)), fun budget hb depth hd => ?_⟩
  have hst : StackFor h c budget := by
    have : ((h.subEdges c).flatMap h.subRelations).length = (relationsUnder h c).length := rfl
    unfold StackFor; omega
  obtain ⟨m, em, Ne, F, hF⟩ := context_numbering R hcl hvw hst
  have dp : deeper depth 0 = true := by
    cases depth with
    | none => rfl
    | some k => have := hd k rfl; simp [deeper]; omega
  obtain ⟨b, rfl⟩ : ∃ b, budget = 1 + ((h.subEdges c).length + ((relationsUnder h c).length +
      (vs.length + ((vs.flatMap h.subEdges).length + (b + 1))))) :=
    ⟨budget - (1 + ((h.subEdges c).length + ((relationsUnder h c).length + (vs.length + ((vs.flatMap h.subEdges).length + 1))))),
      by omega⟩
  have run := walk_context R hk hF depth (vs.length + ((vs.flatMap h.subEdges).length + (b + 1)))
  rw [if_pos dp] at run
  have e1 := walk_nodes (B := relationBatches h m) (max := depth) vs node 1 ((vs.flatMap h.subEdges).length + (b + 1)) []
    ((relationsUnder h c).flatMap F)
  rw [List.append_nil, List.nil_append] at e1
  have e2 := walk_edges (B := relationBatches h m) (max := depth) (vs.flatMap h.subEdges) (by
    intro x hx
    obtain ⟨v, _, k⟩ := List.mem_flatMap.1 hx
    exact of_decide_eq_true (List.mem_filter.1 k).2) 1 (b + 1) [] ((relationsUnder h c).flatMap F)
  rw [List.append_nil, List.nil_append, flatMap_under] at e2
  have run' := run.trans (e1.trans e2)
  obtain ⟨r, l, el⟩ : ∃ r l, vs.flatMap (relationsUnder h) = r :: l := by
    obtain ⟨r, v, a, b, d⟩ := D.inside
    obtain ⟨x, hx, hr⟩ := a
    apply List.exists_cons_of_ne_nil
    intro k
    rw [List.flatMap_eq_nil_iff] at k
    exact d (k v (List.mem_flatMap.2 ⟨r, List.mem_flatMap.2 ⟨x, hx, hr⟩, by simp [b]⟩))
  have hr : r ∈ vs.flatMap (relationsUnder h) := by rw [el]; simp
  have fails : relationBatches h m r = .error .keyError := by
    obtain ⟨v, hv, k⟩ := List.mem_flatMap.1 hr
    obtain ⟨x, hx, k⟩ := List.mem_flatMap.1 k
    obtain ⟨q, hq, e⟩ := List.mem_flatMap.1 hv
    have hp : (h.get r).parent = some x := ((C01_containment_agrees R x).1 r).1 (List.mem_filter.1 k).1
    have ni : (h.get x).uuid ∉ (h.subEdges c).map fun x => (h.get x).uuid := by
      intro hm
      obtain ⟨y, hy, e'⟩ := List.mem_map.1 hm
      exact D.apart q (hin q hq) v (by simpa using e) x hx y hy e'.symm
    unfold relationBatches
    rw [hp]
    simp only [Ne.index, List.idxOf?_eq_none_iff.2 ni]
    rfl
  have kr : (h.get r).kind = .relation := by
    obtain ⟨v, hv, k⟩ := List.mem_flatMap.1 hr
    exact under_kind k
  rw [el, List.map_cons, walk, kr] at run'
  simp only [fails] at run'
  unfold tensorExecute
  rw [em]
  simp only [run']

/-! ## C104 -/

theorem foldl_add_sum (l : List Rat) (a : Rat) : l.foldl (· + ·) a = a + l.sum := by
  induction l generalizing a with
  | nil => simp
  | cons x l ih => rw [List.foldl_cons, ih, List.sum_cons, add_assoc]

theorem foldl_zip_sum (l : List Rat) (a : Rat) :
    (l.zip l).foldl (fun s p => s + p.1 * p.2) a = a + (l.map fun x => x * x).sum := by
  induction l generalizing a with
  | nil => simp
  | cons x l ih => rw [List.zip_cons_cons, List.foldl_cons, ih, List.map_cons, List.sum_cons, add_assoc]

/-- **C104, partial.** `SumNorm` gives the sum of any list of numbers. -/
theorem C104_sum_partial (l : List Rat) : sumNorm l = l.sum := by
  unfold sumNorm; rw [foldl_add_sum, zero_add]

/-- **C104, partial.** What `ProdNorm` gives: the sum of the squares. -/
theorem C104_prod_partial (l : List Rat) : prodNorm l = (l.map fun x => x ^ 2).sum := by
  unfold prodNorm
  rw [foldl_zip_sum, zero_add]
  simp only [pow_two]

/-- **C104, refuted.** `ProdNorm` gives the product of a single number only if that is 0 or 1, never that of the empty list, and
that of two numbers only if both are 0. -/
theorem C104_prod_refuted : (∀ x : Rat, prodNorm [x] = x ↔ x = 0 ∨ x = 1) ∧ prodNorm [] ≠ ([] : List Rat).prod ∧
    ∀ x y : Rat, prodNorm [x, y] = x * y ↔ x = 0 ∧ y = 0 := by
  refine ⟨fun x => ?_, by norm_num [C104_prod_partial], fun x y => ?_⟩
  · rw [C104_prod_partial]
    simp only [List.map_cons, List.map_nil, List.sum_cons, List.sum_nil, add_zero]
    constructor
    · intro e
      have : x * (x - 1) = 0 := by linarith [pow_two x]
      rcases mul_eq_zero.1 this with k | k
      · exact .inl k
      · exact .inr (by linarith)
    · rintro (rfl | rfl) <;> norm_num
  · rw [C104_prod_partial]
    simp only [List.map_cons, List.map_nil, List.sum_cons, List.sum_nil, add_zero]
    constructor
    · intro e
      have e2 : (x - y / 2) ^ 2 + 3 / 4 * y ^ 2 = 0 := by linarith [e, sq (x - y / 2), pow_two x, pow_two y]
      have hy : y = 0 := by
        have a := sq_nonneg (x - y / 2)
        have b := sq_nonneg y
        have : y ^ 2 = 0 := by linarith
        exact pow_eq_zero_iff (two_ne_zero) |>.1 this
      subst hy
      have : x ^ 2 = 0 := by linarith
      exact ⟨pow_eq_zero_iff (two_ne_zero) |>.1 this, rfl⟩
    · rintro ⟨rfl, rfl⟩; norm_num

/-- **C104, refuted** for weights: with `ProdNorm` the relations that are left out are those whose weights are all 0, not those
with a weight 0. -/
theorem C104_zero_refuted {h : Heap} {r w : Ref} (hw : (h.get r).weight = some w) :
    weightBy prodNorm h r = 0 ↔ ∀ x ∈ h.valuesOf w, x = 0 := by
  unfold weightBy
  rw [hw]
  simp only [C104_prod_partial]
  generalize h.valuesOf w = l
  induction l with
  | nil => simp
  | cons x l ih =>
    simp only [List.map_cons, List.sum_cons, List.mem_cons, forall_eq_or_imp]
    have nn : 0 ≤ (l.map fun x => x ^ 2).sum := by
      clear ih
      induction l with
      | nil => simp
      | cons y l ih => rw [List.map_cons, List.sum_cons]; have := sq_nonneg y; linarith
    rw [← ih]
    constructor
    · intro e
      have a := sq_nonneg x
      have : x ^ 2 = 0 := by linarith
      exact ⟨pow_eq_zero_iff (two_ne_zero) |>.1 this, by linarith⟩
    · rintro ⟨rfl, e⟩; rw [e]; norm_num

/-! ## Instances -/

namespace Sample

/-- `8`: an edge `f` in the node `a` of `u6`. -/
def d7 : Heap := (mkEdge ['f'] 20 (some 1)).after E0 u6
/-- `9`: a relation from `f` to `b`. -/
def d8 : Heap := (Op.unaryConnect 8 2 none .bidirectional none).after E0 d7
/-- `9`: a relation from `f` to the root. -/
def c8 : Heap := (Op.unaryConnect 8 0 none .bidirectional none).after E0 d7

theorem reach_d7 : Reach E0 d7 := .step _ reach_u6 ⟨rfl, okSome (by decide +kernel)⟩ trivial
theorem reach_d8 : Reach E0 d8 := .step _ reach_d7 ⟨by decide +kernel, by decide +kernel, okNone, okNone⟩ trivial
theorem reach_c8 : Reach E0 c8 := .step _ reach_d7 ⟨by decide +kernel, by decide +kernel, okNone, okNone⟩ trivial

end Sample

open Sample

/-- Check that a relation is proper. -/
def properCheck (h : Heap) (r : Ref) : Bool :=
  (match (h.get r).parent with
   | none => false
   | some x => decide ((h.get x).kind = .edge) &&
      ((h.subRelations x).all fun q => match (h.get q).endpoint with
        | none => false
        | some v => decide ((h.get v).kind = .node)) &&
      decide (∀ u ∈ endpointsOf h x, ∀ v ∈ endpointsOf h x, (h.get u).uuid = (h.get v).uuid → u = v)) &&
  (match (h.get r).weight with
   | none => true
   | some v => decide ((h.get v).kind = .value))

theorem proper_of_check {h : Heap} {r : Ref} (k : properCheck h r = true) : ProperRelation h r := by
  unfold properCheck at k
  rw [Bool.and_eq_true] at k
  refine ⟨?_, fun v hv => by simpa [hv] using k.2⟩
  cases e : (h.get r).parent with
  | none => simp [e] at k
  | some x =>
    have k := k.1
    simp only [e, Bool.and_eq_true, decide_eq_true_eq, List.all_eq_true] at k
    refine ⟨x, rfl, k.1.1, fun q hq => ?_, k.2⟩
    have := k.1.2 q hq
    cases e' : (h.get q).endpoint with
    | none => simp [e'] at this
    | some v => exact ⟨v, rfl, by simpa [e'] using this⟩

/-- Two rounds from the root: the two relations of its edge, then the relation inside `a`. -/
example : Reach E0 d8 ∧ (d8.get 0).kind = .node ∧ rounds d8 2 [0] = [4, 6, 9] ∧ reachedAfter d8 2 [0] = [2] ∧
    ∀ r ∈ rounds d8 2 [0], ProperRelation d8 r :=
  ⟨reach_d8, by decide +kernel, by decide +kernel, by decide +kernel, fun r hr => proper_of_check (by
    revert r; decide +kernel)⟩

/-- The hypotheses of `C102_unlimited` are met. -/
example : ∃ F : Ref → List (List UEntry), ∃ N, ∀ budget ≥ N,
    uuidExecute sumNorm d8 none budget 0 [] = (.ok (), F 4 ++ F 6 ++ F 9, []) := by
  obtain ⟨F, -, N, k⟩ := C102_unlimited sumNorm reach_d8 (start := 0) (by decide +kernel) 2 (fun r hr => proper_of_check (by
    revert r; decide +kernel)) (by
      intro i hi
      have : i = 0 ∨ i = 1 := by omega
      rcases this with rfl | rfl <;> decide +kernel) (by decide +kernel)
  refine ⟨F, N, fun b hb => ?_⟩
  rw [k b hb, show rounds d8 2 [0] = [4, 6, 9] by decide +kernel]
  simp

/-- The hypotheses of `C102_endless` are met. -/
example (budget : Nat) : (uuidExecute sumNorm c8 none budget 0 []).1 = .error .recursionError := by
  have e0 : [0].flatMap (relationsUnder c8) = [4, 6] := by decide +kernel
  have e1 : [1, 2].flatMap (relationsUnder c8) = [9] := by decide +kernel
  have f0 : [4, 6].flatMap (fun r => ((c8.get r).endpoint).toList) = [1, 2] := by decide +kernel
  have f1 : [9].flatMap (fun r => ((c8.get r).endpoint).toList) = [0] := by decide +kernel
  have two : ∀ n, reachedAfter c8 (n + 2) [0] = reachedAfter c8 n [0] := fun n => by
    rw [reachedAfter, e0, f0, reachedAfter, e1, f1]
  have twoR : ∀ n, rounds c8 (n + 2) [0] = [4, 6] ++ ([9] ++ rounds c8 n [0]) := fun n => by
    rw [rounds, e0, f0, rounds, e1, f1]
  have proper : ∀ r ∈ [4, 6, 9], ProperRelation c8 r := fun r hr => proper_of_check (by revert r; decide +kernel)
  have s46 : ∀ r : Nat, r ∈ [4, 6] → r ∈ [4, 6, 9] := by simp
  have s9 : ∀ r : Nat, r ∈ [9] → r ∈ [4, 6, 9] := by simp
  have all : ∀ n, (∀ r ∈ rounds c8 n [0], r ∈ [4, 6, 9]) ∧ reachedAfter c8 n [0] ≠ [] := by
    intro n
    induction n using Nat.twoStepInduction with
    | zero => exact ⟨by simp [rounds], by simp [reachedAfter]⟩
    | one => exact ⟨by decide +kernel, by decide +kernel⟩
    | more n a _ =>
      rw [two, twoR]
      refine ⟨fun r hr => ?_, a.2⟩
      rcases List.mem_append.1 hr with k | k
      · exact s46 r k
      rcases List.mem_append.1 k with k | k
      · exact s9 r k
      · exact a.1 r k
  exact C102_endless sumNorm reach_c8 (by decide +kernel) (fun n r hr => proper r ((all n).1 r hr)) (fun n => (all n).2) budget

/-- The hypotheses of `C103_same_partial` are met. -/
example : ∃ N, ∀ budget ≥ N, ∃ T, ∀ depth : Option Nat, tensorExecute u6 depth budget 0 [] [] = (.ok T, [], []) :=
  C103_same_partial reach_u6 (by decide +kernel) closed_u6 unweighted_u6.valueWeights (forall_relationIn (by
    intro r hr v hv
    have h1 : (u6.subEdges 0).flatMap u6.subRelations = [4, 6] := by decide +kernel
    rw [h1] at hr
    simp only [List.mem_cons, List.not_mem_nil, or_false] at hr
    rcases hr with rfl | rfl
    · have : (u6.get 4).endpoint = some 1 := by decide +kernel
      rw [this] at hv; cases hv; decide +kernel
    · have : (u6.get 6).endpoint = some 2 := by decide +kernel
      rw [this] at hv; cases hv; decide +kernel))

/-- The hypotheses of `C103_deeper_refuted` are met: already at depth 2, and without limit, the conversion of `d8` fails,
although it succeeds at depth 1. -/
theorem C103_sample_refuted : ∃ (E : Env) (h : Heap) (c : Ref), Reach E h ∧ (∃ N, ∀ budget ≥ N,
    (∃ T, tensorExecute h (some 1) budget c [] [] = (.ok T, [], [])) ∧
    (tensorExecute h (some 2) budget c [] []).1 = .error .keyError ∧
    (tensorExecute h none budget c [] []).1 = .error .keyError) := by
  have rel : (d8.subEdges 0).flatMap d8.subRelations = [4, 6] := by decide +kernel
  have cl : Closed d8 0 := forall_relationIn (by decide +kernel)
  have uw : Unweighted d8 0 := forall_relationIn (by decide +kernel)
  have kd : (d8.get 0).kind = .node := by decide +kernel
  have D : Deep d8 0 := ⟨⟨4, 1, ⟨3, by decide +kernel, by decide +kernel⟩, by decide +kernel, by decide +kernel⟩,
    forall_relationIn (by
      intro r hr v hv
      rw [rel] at hr
      simp only [List.mem_cons, List.not_mem_nil, or_false] at hr
      rcases hr with rfl | rfl
      · have : (d8.get 4).endpoint = some 1 := by decide +kernel
        rw [this] at hv; cases hv; decide +kernel
      · have : (d8.get 6).endpoint = some 2 := by decide +kernel
        rw [this] at hv; cases hv; decide +kernel)⟩
  obtain ⟨N, k⟩ := C103_deeper_refuted reach_d8 kd cl uw.valueWeights D
  obtain ⟨b0, hb0⟩ : ∃ b0, ∀ b ≥ b0, StackFor d8 0 b :=
    ⟨(d8.subNodes 0).length + (d8.subValues 0).length + (d8.subEdges 0).length + ((d8.subEdges 0).flatMap d8.subRelations).length + 2,
      fun b hb => by unfold StackFor; omega⟩
  refine ⟨E0, d8, 0, reach_d8, max N b0, fun b hb => ⟨?_, k b (by omega) _ (by intro k e; cases e; exact le_rfl),
    k b (by omega) _ (by intro k e; cases e)⟩⟩
  obtain ⟨T, e, -⟩ := C56_weights reach_d8 kd cl uw.valueWeights (hb0 b (by omega))
  exact ⟨T, e⟩

end Rei
