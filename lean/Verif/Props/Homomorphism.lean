import Verif.Model.Homomorphism
import Verif.Props.Traversal

/-!
# C32, C33, C55: index homomorphisms
-/
namespace Rei
open PyM Sample

/-! ## Lists as index maps -/

/-- Specification: `m` numbers the uuids of `us` in order, from 0: the two lookups are mutually
inverse between `us` and the indices below `us.length`, and raise `KeyError` elsewhere. -/
structure Numbers (m : IndexMap) (us : List Bytes) : Prop where
  cnt : m.cnt = us.length
  index : ∀ u, m.index u = match us.idxOf? u with
    | some i => .ok i
    | none => .error .keyError
  uuid : ∀ i, m.uuid i = match us[i]? with
    | some u => .ok u
    | none => .error .keyError

theorem idxOf?_append_of_mem {us : List Bytes} {u v : Bytes} (hu : u ∈ us) :
    (us ++ [v]).idxOf? u = us.idxOf? u := by
  induction us with
  | nil => cases hu
  | cons a us ih =>
    rw [List.cons_append, List.idxOf?_cons, List.idxOf?_cons]
    by_cases e : a = u
    · simp [e]
    · have hm : u ∈ us := by
        cases hu with
        | head => exact absurd rfl e
        | tail _ hm => exact hm
      simp only [beq_eq_false_iff_ne.2 e]
      rw [ih hm]

theorem idxOf?_append_self {us : List Bytes} {v : Bytes} (hv : v ∉ us) :
    (us ++ [v]).idxOf? v = some us.length := by
  induction us with
  | nil => simp [List.idxOf?_cons]
  | cons a us ih =>
    have e : a ≠ v := fun e => hv (e ▸ List.mem_cons_self)
    have hv' : v ∉ us := fun q => hv (List.mem_cons_of_mem _ q)
    rw [List.cons_append, List.idxOf?_cons]
    simp only [beq_eq_false_iff_ne.2 e]
    rw [ih hv']
    simp

theorem idxOf?_append_none {us : List Bytes} {u v : Bytes} (hu : u ∉ us) (huv : u ≠ v) :
    (us ++ [v]).idxOf? u = us.idxOf? u := by
  rw [List.idxOf?_eq_none_iff.2 hu, List.idxOf?_eq_none_iff]
  simp [hu, huv]

/-- Adding a new uuid at the end. -/
theorem Numbers.add {m : IndexMap} {us : List Bytes} (N : Numbers m us) {v : Bytes} (hv : v ∉ us) :
    Numbers (m.add v) (us ++ [v]) where
  cnt := by simp [IndexMap.add, N.cnt]
  index u := by
    have := N.index u
    unfold IndexMap.index IndexMap.add at *
    simp only [Dict.get?_set]
    by_cases e : v = u
    · subst e
      rw [if_pos rfl, idxOf?_append_self hv, N.cnt]
    · rw [if_neg e]
      by_cases hu : u ∈ us
      · rw [idxOf?_append_of_mem hu]; exact this
      · rw [idxOf?_append_none hu (Ne.symm e)]; exact this
  uuid i := by
    have := N.uuid i
    unfold IndexMap.uuid IndexMap.add at *
    simp only [Dict.get?_set]
    rw [N.cnt]
    by_cases e : us.length = i
    · subst e
      rw [if_pos rfl]; simp
    · rw [if_neg e, this]
      by_cases hl : i < us.length
      · rw [List.getElem?_append_left hl]
      · have h1 : us.length ≤ i := by omega
        have h2 : (us ++ [v]).length ≤ i := by simp; omega
        rw [List.getElem?_eq_none h1, List.getElem?_eq_none h2]

theorem Numbers.empty : Numbers {} [] where
  cnt := rfl
  index _ := rfl
  uuid _ := rfl

theorem numbers_foldl {us vs : List Bytes} {m : IndexMap} (N : Numbers m us) (hn : (us ++ vs).Nodup) :
    Numbers (vs.foldl IndexMap.add m) (us ++ vs) := by
  induction vs generalizing us m with
  | nil => simpa using N
  | cons v vs ih =>
    have hv : v ∉ us := by
      intro hu
      have := List.nodup_append'.1 hn
      exact List.disjoint_left.1 this.2.2 hu List.mem_cons_self
    have := ih (N.add hv) (by simpa using hn)
    simpa using this

/-- The map that numbers the uuids of a list of elements. -/
def numbering (h : Heap) (l : List Ref) : IndexMap :=
  (l.map fun x => (h.get x).uuid).foldl IndexMap.add {}

theorem callAll_nodes (h : Heap) (l : List Ref) (m : IndexHom) :
    callAll (addNodeHom h) l m =
      (.ok (), { m with nodes := (l.map fun x => (h.get x).uuid).foldl IndexMap.add m.nodes }) := by
  induction l generalizing m with
  | nil => rfl
  | cons x l ih => rw [callAll]; simp only [addNodeHom]; rw [ih]; rfl

theorem callAll_edges (h : Heap) (l : List Ref) (m : IndexHom) :
    callAll (addEdgeHom h) l m =
      (.ok (), { m with edges := (l.map fun x => (h.get x).uuid).foldl IndexMap.add m.edges }) := by
  induction l generalizing m with
  | nil => rfl
  | cons x l ih => rw [callAll]; simp only [addEdgeHom]; rw [ih]; rfl

theorem callAll_vals (h : Heap) (l : List Ref) (m : IndexHom) :
    callAll (addValueHom h) l m =
      (.ok (), { m with vals := (l.map fun x => (h.get x).uuid).foldl IndexMap.add m.vals }) := by
  induction l generalizing m with
  | nil => rfl
  | cons x l ih => rw [callAll]; simp only [addValueHom]; rw [ih]; rfl

/-- Enough stack for the three traversals. -/
def HomBudget (h : Heap) (depth : Nat) (ig : Bool) (budget : Nat) (start : Ref) : Prop :=
  (breadthFirst h (isNode h) ig start depth).length < budget ∧
  (breadthFirst h (isEdge h) ig start depth).length < budget ∧
  (breadthFirst h (isValue h) ig start depth).length < budget

/-- **C33.** Executing on an idle queue with enough stack returns; the indices number the nodes, edges
and values in breadth-first order; the result does not depend on what was computed before. -/
theorem C33_execute (prior : IndexHom) (h : Heap) (depth : Nat) (ig : Bool) {budget : Nat} (start : Ref)
    (hb : HomBudget h depth ig budget start) :
    prior.execute h depth ig budget start [] =
      (.ok (), { nodes := numbering h (breadthFirst h (isNode h) ig start depth)
                 edges := numbering h (breadthFirst h (isEdge h) ig start depth)
                 vals := numbering h (breadthFirst h (isValue h) ig start depth) }, []) := by
  unfold IndexHom.execute IndexHom.executeMax
  have hr : prior.resetHomology = ({} : IndexHom) := rfl
  rw [hr]
  have a := C30_limited_bfs h (isNode h) start depth ig (addNodeHom h) ({} : IndexHom) hb.1
  rw [callAll_nodes] at a
  obtain ⟨a1, a2, a3⟩ := a
  have a3 := a3 rfl
  simp only [a1, a2, a3]
  have b := C30_limited_bfs h (isEdge h) start depth ig (addEdgeHom h)
    ({ nodes := numbering h (breadthFirst h (isNode h) ig start depth) } : IndexHom) hb.2.1
  rw [callAll_edges] at b
  obtain ⟨b1, b2, b3⟩ := b
  have b3 := b3 rfl
  simp only [numbering] at b1 b2 b3
  simp only [b1, b2, b3]
  have c := C30_limited_bfs h (isValue h) start depth ig (addValueHom h)
    ({ nodes := numbering h (breadthFirst h (isNode h) ig start depth),
       edges := numbering h (breadthFirst h (isEdge h) ig start depth) } : IndexHom) hb.2.2
  rw [callAll_vals] at c
  obtain ⟨c1, c2, c3⟩ := c
  have c3 := c3 rfl
  simp only [numbering] at c1 c2 c3 ⊢
  exact Prod.ext c1 (Prod.ext c2 c3)

/-- **C33.** Re-execution, also after executing on another element or in another state of the graph,
gives the maps of a fresh run. -/
theorem C33_idempotent (prior prior' : IndexHom) (h : Heap) (depth : Nat) (ig : Bool) (budget : Nat)
    (start : Ref) (q : Fringe) :
    prior.execute h depth ig budget start q = prior'.execute h depth ig budget start q := by
  unfold IndexHom.execute IndexHom.executeMax
  have e : prior.resetHomology = prior'.resetHomology := rfl
  rw [e]

/-- With depth 1 and the root ignored, the elements are the matching sub-elements in insertion
order. -/
theorem breadthFirst_one (h : Heap) (f : Ref → Bool) (start : Ref) :
    breadthFirst h f true start 1 = (h.subelements start).filter f := by
  unfold breadthFirst rootVisit
  simp [List.range_succ, level]

/-- **C33.** With `ignore_root` and depth 1 the `i`-th index belongs to the `i`-th sub-node (sub-edge,
sub-value) of the start element. -/
theorem C33_insertion_order {E : Env} {h : Heap} (R : Reach E h) (prior : IndexHom) {budget : Nat}
    (start : Ref) (hb : HomBudget h 1 true budget start) :
    ∃ m, prior.execute h 1 true budget start [] = (.ok (), m, []) ∧
      Numbers m.nodes ((h.subNodes start).map fun x => (h.get x).uuid) ∧
      Numbers m.edges ((h.subEdges start).map fun x => (h.get x).uuid) ∧
      Numbers m.vals ((h.subValues start).map fun x => (h.get x).uuid) := by
  refine ⟨_, C33_execute prior h 1 true start hb, ?_⟩
  have key : ∀ f : Ref → Bool, Numbers (numbering h (breadthFirst h f true start 1))
      (((h.subelements start).filter f).map fun x => (h.get x).uuid) := by
    intro f
    rw [breadthFirst_one]
    unfold numbering
    have hnd : (((h.subelements start).filter f).map fun x => (h.get x).uuid).Nodup := by
      rw [List.nodup_map_iff_inj_on (((C01_containment_agrees R start).2).filter f)]
      intro x hx y hy e
      have px := (C01_containment_agrees R start).1 x |>.1 (List.mem_filter.1 hx).1
      have py := (C01_containment_agrees R start).1 y |>.1 (List.mem_filter.1 hy).1
      have gx := (SInv.get?_subs R.good.inv start (h.get x).uuid x).2 ⟨px, rfl⟩
      have gy := (SInv.get?_subs R.good.inv start (h.get x).uuid y).2 ⟨py, e.symm⟩
      rw [gx] at gy; exact Option.some.inj gy
    have := numbers_foldl (us := []) Numbers.empty (by simpa using hnd)
    simpa using this
  exact ⟨key _, key _, key _⟩

/-! ## C32 -/

/-- The uuids of the elements a traversal indexes are distinct. -/
def DistinctUuids (h : Heap) (l : List Ref) : Prop := (l.map fun x => (h.get x).uuid).Nodup

theorem numbers_numbering {h : Heap} {l : List Ref} (hd : DistinctUuids h l) :
    Numbers (numbering h l) (l.map fun x => (h.get x).uuid) := by
  unfold numbering
  have := numbers_foldl (us := []) Numbers.empty (by simpa [DistinctUuids] using hd)
  simpa using this

/-- **C32.** A numbering of distinct uuids is a bijection: `index` and `uuid` are mutually inverse
between the indexed uuids and `0 .. cnt-1`, in both directions. -/
theorem C32_bijection {m : IndexMap} {us : List Bytes} (N : Numbers m us) (hd : us.Nodup) :
    (∀ u i, m.index u = .ok i ↔ m.uuid i = .ok u) ∧
    (∀ i, (∃ u, m.uuid i = .ok u) ↔ i < m.cnt) ∧
    (∀ u, (∃ i, m.index u = .ok i) ↔ u ∈ us) := by
  have key : ∀ u i, us.idxOf? u = some i ↔ us[i]? = some u := by
    intro u i
    constructor
    · intro e
      have := List.idxOf?_eq_some_iff.1 e
      obtain ⟨hlt, he, _⟩ := this
      rw [List.getElem?_eq_getElem hlt, he]
    · intro e
      have hlt : i < us.length := (List.getElem?_eq_some_iff.1 e).1
      have he : us[i] = u := (List.getElem?_eq_some_iff.1 e).2
      rw [List.idxOf?_eq_some_iff]
      refine ⟨hlt, he, ?_⟩
      intro j hj e'
      have := (List.Nodup.getElem_inj_iff hd (hi := by omega) (hj := hlt)).1 (e'.trans he.symm)
      omega
  refine ⟨?_, ?_, ?_⟩
  · intro u i
    rw [N.index, N.uuid]
    constructor
    · intro e
      cases hx : us.idxOf? u with
      | none => rw [hx] at e; cases e
      | some j =>
        rw [hx] at e
        cases e
        rw [(key u i).1 hx]
    · intro e
      cases hx : us[i]? with
      | none => rw [hx] at e; cases e
      | some v =>
        rw [hx] at e
        cases e
        rw [(key u i).2 hx]
  · intro i
    rw [N.uuid, N.cnt]
    cases hx : us[i]? with
    | none =>
      have := List.getElem?_eq_none_iff.1 hx
      constructor
      · rintro ⟨u, e⟩; cases e
      · intro q; omega
    | some v =>
      have := (List.getElem?_eq_some_iff.1 hx).1
      exact ⟨fun _ => this, fun _ => ⟨v, rfl⟩⟩
  · intro u
    rw [N.index]
    cases hx : us.idxOf? u with
    | none =>
      have := List.idxOf?_eq_none_iff.1 hx
      constructor
      · rintro ⟨i, e⟩; cases e
      · intro q; exact absurd q this
    | some j =>
      have hj := (key u j).1 hx
      exact ⟨fun _ => List.mem_of_getElem? hj, fun _ => ⟨j, rfl⟩⟩

/-- The elements `execute` is to index: the start element (unless ignored) and the elements at most
`depth` levels below it through elements of the same kind. -/
def Indexed (h : Heap) (f : Ref → Bool) (ig : Bool) (start : Ref) (depth : Nat) (y : Ref) : Prop :=
  (y = start ∧ f start = true ∧ ig = false) ∨ ∃ n, 1 ≤ n ∧ n ≤ depth ∧ DownTo h f start n y

/-- **C32.** After `execute`, node/dim, edge/depth and val/ival are bijections, provided the indexed
elements have distinct uuids (`C32_duplicate_uuid_refuted` shows this is needed; with depth 1 and the
root ignored it always holds, `C33_insertion_order`). -/
theorem C32_index_bijection (prior : IndexHom) (h : Heap) (depth : Nat) (ig : Bool) {budget : Nat}
    (start : Ref) (hb : HomBudget h depth ig budget start)
    (hn : DistinctUuids h (breadthFirst h (isNode h) ig start depth))
    (he : DistinctUuids h (breadthFirst h (isEdge h) ig start depth))
    (hv : DistinctUuids h (breadthFirst h (isValue h) ig start depth)) :
    ∃ m, prior.execute h depth ig budget start [] = (.ok (), m, []) ∧
      ∀ f k, (f, k) ∈ [(isNode, m.nodes), (isEdge, m.edges), (isValue, m.vals)] →
        (∀ u i, k.index u = .ok i ↔ k.uuid i = .ok u) ∧
        (∀ i, (∃ u, k.uuid i = .ok u) ↔ i < k.cnt) ∧
        (∀ u, (∃ i, k.index u = .ok i) ↔ ∃ y, Indexed h (f h) ig start depth y ∧ (h.get y).uuid = u) := by
  refine ⟨_, C33_execute prior h depth ig start hb, ?_⟩
  have key : ∀ f, DistinctUuids h (breadthFirst h f ig start depth) →
      let k := numbering h (breadthFirst h f ig start depth)
      (∀ u i, k.index u = .ok i ↔ k.uuid i = .ok u) ∧
        (∀ i, (∃ u, k.uuid i = .ok u) ↔ i < k.cnt) ∧
        (∀ u, (∃ i, k.index u = .ok i) ↔ ∃ y, Indexed h f ig start depth y ∧ (h.get y).uuid = u) := by
    intro f hf
    obtain ⟨a, b, c⟩ := C32_bijection (numbers_numbering hf) hf
    refine ⟨a, b, fun u => ?_⟩
    rw [c u, List.mem_map]
    constructor
    · rintro ⟨y, hy, e⟩
      exact ⟨y, (C30_exact_limit h f start depth ig y).1.1 hy, e⟩
    · rintro ⟨y, hy, e⟩
      exact ⟨y, (C30_exact_limit h f start depth ig y).1.2 hy, e⟩
  intro f k hk
  simp only [List.mem_cons, List.not_mem_nil, or_false, Prod.mk.injEq] at hk
  rcases hk with ⟨rfl, rfl⟩ | ⟨rfl, rfl⟩ | ⟨rfl, rfl⟩
  · exact key _ hn
  · exact key _ he
  · exact key _ hv

namespace Sample
/-- A root `r` (uuid 1) with a child `a` whose uuid is also 1: nothing forbids it. -/
def w2 : Heap := (mkNode ['a'] 1 (some 0)).after E0 g1
theorem reach_w2 : Reach E0 w2 := .step _ reach1 ⟨rfl, okSome (by decide +kernel)⟩ trivial
end Sample

/-- **C32 refuted** without distinct uuids: a child may have the uuid of the start element; with the
root included both get an index, but `node` only returns the second. -/
theorem C32_duplicate_uuid_refuted : ∃ (E : Env) (h : Heap) (m : IndexHom), Reach E h ∧
    ({} : IndexHom).execute h 1 false 100 0 [] = (.ok (), m, []) ∧
    m.nodes.cnt = 2 ∧ m.nodes.uuid 0 = .ok [1] ∧ m.nodes.index [1] = .ok 1 :=
  ⟨E0, w2, _, reach_w2, rfl, by decide +kernel, by decide +kernel, by decide +kernel⟩

/-! ## C55: `reset_from_bijection` -/

/-- The pairs of an index map, in order: what an encoder sends. -/
def enumPairs (us : List Bytes) : List (Bytes × Nat) := us.zipIdx

theorem ofPairs_zipIdx (us vs : List Bytes) (m : IndexMap) (hm : m.cnt = us.length) :
    (vs.zipIdx us.length).foldl
      (fun m p => { cnt := m.cnt + 1, idx := m.idx.set p.1 p.2, uid := m.uid.set p.2 p.1 }) m =
    vs.foldl IndexMap.add m := by
  induction vs generalizing us m with
  | nil => rfl
  | cons v vs ih =>
    simp only [List.zipIdx_cons, List.foldl_cons]
    have := ih (us ++ [v]) (m.add v) (by simp [IndexMap.add, hm])
    rw [List.length_append, List.length_singleton] at this
    rw [← this]
    unfold IndexMap.add
    rw [hm]

/-- **C55.** `reset_from_bijection` with the pairs `(uuid, index)` of a numbering restores exactly that
numbering, whatever the object contained before. -/
theorem C55_reset_restores (prior : IndexHom) (ns es vs : List Bytes) :
    prior.resetFromBijection (enumPairs ns) (enumPairs es) (enumPairs vs) =
      { nodes := ns.foldl IndexMap.add {}, edges := es.foldl IndexMap.add {},
        vals := vs.foldl IndexMap.add {} } := by
  unfold IndexHom.resetFromBijection enumPairs IndexMap.addPairs IndexHom.resetHomology
  have k : ∀ l : List Bytes, (l.zipIdx).foldl
      (fun m p => { cnt := m.cnt + 1, idx := m.idx.set p.1 p.2, uid := m.uid.set p.2 p.1 })
      ({} : IndexMap) = l.foldl IndexMap.add {} := fun l => ofPairs_zipIdx [] l {} rfl
  simp only [k]

/-- **C55.** Any list of pairs with distinct uuids and distinct indices is taken over exactly: both
lookups return what was given, `KeyError` elsewhere, and the count is the number of pairs. -/
theorem C55_reset_exact (l : List (Bytes × Nat)) (hu : (l.map Prod.fst).Nodup)
    (hi : (l.map Prod.snd).Nodup) :
    (IndexMap.addPairs {} l).cnt = l.length ∧
    (∀ u i, (IndexMap.addPairs {} l).index u = .ok i ↔ (u, i) ∈ l) ∧
    (∀ u i, (IndexMap.addPairs {} l).uuid i = .ok u ↔ (u, i) ∈ l) := by
  have gen : ∀ (l done : List (Bytes × Nat)) (m : IndexMap),
      ((done ++ l).map Prod.fst).Nodup → ((done ++ l).map Prod.snd).Nodup →
      m.cnt = done.length → (∀ u i, m.idx.get? u = some i ↔ (u, i) ∈ done) →
      (∀ u i, m.uid.get? i = some u ↔ (u, i) ∈ done) →
      let m' := l.foldl (fun m p =>
        { cnt := m.cnt + 1, idx := m.idx.set p.1 p.2, uid := m.uid.set p.2 p.1 }) m
      m'.cnt = (done ++ l).length ∧ (∀ u i, m'.idx.get? u = some i ↔ (u, i) ∈ done ++ l) ∧
      (∀ u i, m'.uid.get? i = some u ↔ (u, i) ∈ done ++ l) := by
    intro l
    induction l with
    | nil => intro done m _ _ a b c; simpa using ⟨a, b, c⟩
    | cons p l ih =>
      intro done m hu hi a b c
      have e : done ++ p :: l = (done ++ [p]) ++ l := by simp
      rw [e] at hu hi ⊢
      have hpu : ∀ q ∈ done, q.1 ≠ p.1 := by
        intro q hq e
        rw [List.append_assoc, List.map_append, List.nodup_append'] at hu
        exact List.disjoint_left.1 hu.2.2 (List.mem_map_of_mem hq) (by simp [e])
      have hpi : ∀ q ∈ done, q.2 ≠ p.2 := by
        intro q hq e
        rw [List.append_assoc, List.map_append, List.nodup_append'] at hi
        exact List.disjoint_left.1 hi.2.2 (List.mem_map_of_mem hq) (by simp [e])
      refine ih (done ++ [p]) _ hu hi (by simp [a]) ?_ ?_
      · intro u i
        rw [Dict.get?_set]
        by_cases e : p.1 = u
        · rw [if_pos e]
          constructor
          · intro q; cases q; subst e; simp
          · intro q
            simp only [List.mem_append, List.mem_singleton] at q
            rcases q with q | q
            · exact absurd e.symm (hpu _ q)
            · rw [← q]
        · rw [if_neg e, b]
          simp only [List.mem_append, List.mem_singleton]
          constructor
          · exact .inl
          · rintro (q | q)
            · exact q
            · exact absurd (by rw [← q]) e
      · intro u i
        rw [Dict.get?_set]
        by_cases e : p.2 = i
        · rw [if_pos e]
          constructor
          · intro q; cases q; subst e; simp
          · intro q
            simp only [List.mem_append, List.mem_singleton] at q
            rcases q with q | q
            · exact absurd e.symm (hpi _ q)
            · rw [← q]
        · rw [if_neg e, c]
          simp only [List.mem_append, List.mem_singleton]
          constructor
          · exact .inl
          · rintro (q | q)
            · exact q
            · exact absurd (by rw [← q]) e
  obtain ⟨a, b, c⟩ := gen l [] {} (by simpa using hu) (by simpa using hi) rfl
    (by simp) (by simp)
  rw [List.nil_append] at a b c
  change (IndexMap.addPairs {} l).cnt = _ at a
  change ∀ u i, (IndexMap.addPairs {} l).idx.get? u = _ ↔ _ at b
  change ∀ u i, (IndexMap.addPairs {} l).uid.get? i = _ ↔ _ at c
  refine ⟨a, ?_, ?_⟩
  · intro u i
    unfold IndexMap.index
    rw [← b u i]
    cases hx : (IndexMap.addPairs {} l).idx.get? u with
    | none => constructor <;> intro q <;> cases q
    | some j => constructor <;> intro q <;> cases q <;> rfl
  · intro u i
    unfold IndexMap.uuid
    rw [← c u i]
    cases hx : (IndexMap.addPairs {} l).uid.get? i with
    | none => constructor <;> intro q <;> cases q
    | some j => constructor <;> intro q <;> cases q <;> rfl

/-! ### Instances -/

example : Reach E0 g10 ∧ HomBudget g10 1 true 20 0 ∧
    DistinctUuids g10 (breadthFirst g10 (isNode g10) false 0 3) ∧
    (g10.subNodes 0, g10.subEdges 0) = ([1, 2, 9], [3]) :=
  ⟨reach10, ⟨by decide +kernel, by decide +kernel, by decide +kernel⟩, by
    unfold DistinctUuids; decide +kernel, by decide +kernel⟩

end Rei
