import Mathlib.Data.List.Nodup
import Verif.Spec.Factorization
import Verif.Props.Traversal
import Verif.Props.NamesDepth

/-!
# C43–C45: factorization
-/
namespace Rei
open PyM Sample

variable {h : Heap}

/-! ## Pairs -/

/-- The condition of `pairWanted` on relations with endpoints. -/
def wantB (h : Heap) (loops : Bool) (i o : Ref) : Bool :=
  match (h.get i).endpoint, (h.get o).endpoint with
  | some a, some b => decide ((h.get a).uuid ≠ (h.get b).uuid) || loops
  | _, _ => false

theorem pairWanted_ok {loops : Bool} {i o : Ref} (hi : (h.get i).endpoint.isSome)
    (ho : (h.get o).endpoint.isSome) : pairWanted h loops i o = .ok (wantB h loops i o) := by
  obtain ⟨a, ha⟩ := Option.isSome_iff_exists.1 hi
  obtain ⟨b, hb⟩ := Option.isSome_iff_exists.1 ho
  simp [pairWanted, wantB, ha, hb]

theorem wantB_iff {loops : Bool} {i o : Ref} (hi : (h.get i).endpoint.isSome)
    (ho : (h.get o).endpoint.isSome) :
    wantB h loops i o = true ↔ DistinctEnds h i o ∨ loops = true := by
  obtain ⟨a, ha⟩ := Option.isSome_iff_exists.1 hi
  obtain ⟨b, hb⟩ := Option.isSome_iff_exists.1 ho
  simp [wantB, ha, hb, DistinctEnds]

/-- The pairs of the two inner loops. -/
def pairs (h : Heap) (loops : Bool) (ins outs : List Ref) : List (Ref × Ref) :=
  ins.flatMap fun i => (outs.filter (wantB h loops i)).map fun o => (i, o)

theorem pairUp_ok {loops : Bool} {ins outs : List Ref} (hi : ∀ i ∈ ins, (h.get i).endpoint.isSome)
    (ho : ∀ o ∈ outs, (h.get o).endpoint.isSome) :
    pairUp h loops ins outs = .ok (pairs h loops ins outs) := by
  unfold pairUp
  rw [mapM_total (g := fun i => outs.map fun o => if wantB h loops i o then [(i, o)] else [])]
  · show Except.ok _ = _
    congr 1
    unfold pairs
    rw [List.flatMap_def, List.map_map]
    congr 1
    apply List.map_congr_left
    intro i _
    simp only [Function.comp]
    induction outs with
    | nil => rfl
    | cons o outs ih =>
      have := ih fun o ho' => ho o (List.mem_cons_of_mem _ ho')
      simp only [List.map_cons, List.flatten_cons, List.filter_cons, this]
      split <;> simp
  · intro i hii
    refine mapM_total _ ?_
    intro o hoo
    rw [pairWanted_ok (hi i hii) (ho o hoo)]
    rfl

theorem mem_pairs {loops : Bool} {ins outs : List Ref} {i o : Ref} :
    (i, o) ∈ pairs h loops ins outs ↔ i ∈ ins ∧ o ∈ outs ∧ wantB h loops i o = true := by
  simp only [pairs, List.mem_flatMap, List.mem_map, List.mem_filter, Prod.mk.injEq]
  constructor
  · rintro ⟨a, ha, b, ⟨hb, w⟩, rfl, rfl⟩; exact ⟨ha, hb, w⟩
  · rintro ⟨a, b, c⟩; exact ⟨i, a, o, ⟨b, c⟩, rfl, rfl⟩

theorem pairs_nodup {loops : Bool} {ins outs : List Ref} (hi : ins.Nodup) (ho : outs.Nodup) :
    (pairs h loops ins outs).Nodup := by
  unfold pairs
  rw [List.nodup_flatMap]
  refine ⟨fun i _ => (ho.filter _).map fun a b e => (Prod.mk.inj e).2, ?_⟩
  refine List.Pairwise.imp ?_ hi
  intro a b hab
  rw [Function.onFun, List.disjoint_left]
  intro p hp hq
  obtain ⟨_, _, rfl⟩ := List.mem_map.1 hp
  obtain ⟨_, _, e⟩ := List.mem_map.1 hq
  exact hab (Prod.mk.inj e).1.symm

/-! ## C43 -/

theorem endsIn_iff {sel : List Ref} {r : Ref} :
    endsIn h (selectedNodes h sel) r = true ↔ LeadsInto h sel r := by
  unfold endsIn LeadsInto selectedNodes
  cases hr : (h.get r).endpoint with
  | none => simp
  | some v =>
    simp only [List.mem_filter, decide_eq_true_eq, Option.some.injEq]
    constructor
    · rintro ⟨a, b⟩; exact ⟨v, a, b, rfl⟩
    · rintro ⟨w, a, b, rfl⟩; exact ⟨a, b⟩

theorem LeadsInto.isSome {sel : List Ref} {r : Ref} (q : LeadsInto h sel r) :
    (h.get r).endpoint.isSome := by
  obtain ⟨v, _, _, e⟩ := q
  rw [e]; rfl

theorem mem_incoming {x r : Ref} :
    r ∈ h.incoming x ↔ r ∈ h.subRelations x ∧ (h.get r).direction.isIn := by
  simp [Heap.incoming]

theorem mem_outgoing {x r : Ref} :
    r ∈ h.outgoing x ↔ r ∈ h.subRelations x ∧ (h.get r).direction.isOut := by
  simp [Heap.outgoing]

theorem subsetFactor_eq {loops : Bool} {sel : List Ref} : subsetFactor h loops sel =
    .ok ((sel.filter fun x => (h.get x).kind = .edge).flatMap fun x =>
      pairs h loops ((h.incoming x).filter (endsIn h (selectedNodes h sel)))
        ((h.outgoing x).filter (endsIn h (selectedNodes h sel)))) := by
  unfold subsetFactor
  rw [mapM_total (g := fun x => pairs h loops ((h.incoming x).filter (endsIn h (selectedNodes h sel)))
        ((h.outgoing x).filter (endsIn h (selectedNodes h sel))))]
  · rw [List.flatMap_def]; rfl
  · intro x _
    apply pairUp_ok
    · intro i hi; exact (endsIn_iff.1 (List.mem_filter.1 hi).2).isSome
    · intro i hi; exact (endsIn_iff.1 (List.mem_filter.1 hi).2).isSome

/-- **C43.** The subset factorization returns, and lists exactly the pairs of an incoming and an outgoing
relation of a selected edge that both lead to selected nodes; pairs whose endpoints have the same uuid are
left out unless `self_loop` is set. -/
theorem C43_exact (h : Heap) (loops : Bool) (sel : List Ref) :
    ∃ l, subsetFactor h loops sel = .ok l ∧ ∀ i o, (i, o) ∈ l ↔
      (∃ x ∈ sel, InOutPair h x i o) ∧ LeadsInto h sel i ∧ LeadsInto h sel o ∧
      (DistinctEnds h i o ∨ loops = true) := by
  refine ⟨_, subsetFactor_eq, ?_⟩
  intro i o
  simp only [List.mem_flatMap, List.mem_filter, decide_eq_true_eq, mem_pairs, mem_incoming,
    mem_outgoing, endsIn_iff]
  constructor
  · rintro ⟨x, ⟨hx, hk⟩, ⟨⟨a, b⟩, c⟩, ⟨⟨d, e⟩, f⟩, w⟩
    exact ⟨⟨x, hx, hk, a, d, b, e⟩, c, f, (wantB_iff c.isSome f.isSome).1 w⟩
  · rintro ⟨⟨x, hx, hk, a, d, b, e⟩, c, f, w⟩
    exact ⟨x, ⟨hx, hk⟩, ⟨⟨a, b⟩, c⟩, ⟨⟨d, e⟩, f⟩, (wantB_iff c.isSome f.isSome).2 w⟩

/-- **C43, distinct uuids.** If the selected nodes have different uuids, "same uuid" is "same node". -/
theorem C43_exact_identity (h : Heap) (loops : Bool) (sel : List Ref)
    (hu : ∀ v ∈ sel, ∀ w ∈ sel, (h.get v).kind = .node → (h.get w).kind = .node →
      (h.get v).uuid = (h.get w).uuid → v = w) :
    ∃ l, subsetFactor h loops sel = .ok l ∧ ∀ i o, (i, o) ∈ l ↔
      (∃ x ∈ sel, InOutPair h x i o) ∧ LeadsInto h sel i ∧ LeadsInto h sel o ∧
      ((h.get i).endpoint ≠ (h.get o).endpoint ∨ loops = true) := by
  obtain ⟨l, hl, q⟩ := C43_exact h loops sel
  refine ⟨l, hl, fun i o => (q i o).trans ?_⟩
  constructor
  · rintro ⟨a, b, c, d⟩
    refine ⟨a, b, c, d.imp_left ?_⟩
    rintro ⟨v, w, e1, e2, e3⟩ e
    rw [e1, e2] at e
    exact e3 (by rw [Option.some.inj e])
  · rintro ⟨a, b, c, d⟩
    refine ⟨a, b, c, d.imp_left ?_⟩
    intro e
    obtain ⟨v, hv, kv, ev⟩ := b
    obtain ⟨w, hw, kw, ew⟩ := c
    refine ⟨v, w, ev, ew, fun e' => e ?_⟩
    rw [ev, ew, hu v hv w hw kv kw e']

/-- **C43, once.** A selection without repetitions yields every pair once. -/
theorem C43_once {E : Env} (R : Reach E h) (loops : Bool) {sel : List Ref} (hs : sel.Nodup) :
    ∃ l, subsetFactor h loops sel = .ok l ∧ l.Nodup := by
  refine ⟨_, subsetFactor_eq, ?_⟩
  have hC := C01_containment_agrees R
  rw [List.nodup_flatMap]
  refine ⟨fun x _ => ?_, ?_⟩
  · have := ((hC x).2).filter fun y => decide ((h.get y).kind = .relation)
    exact pairs_nodup ((this.filter _).filter _) ((this.filter _).filter _)
  · refine List.Pairwise.imp ?_ (hs.filter _)
    intro a b hab
    rw [Function.onFun, List.disjoint_left]
    rintro ⟨i, o⟩ hp hq
    have h1 := (mem_incoming.1 (List.mem_filter.1 (mem_pairs.1 hp).1).1).1
    have h2 := (mem_incoming.1 (List.mem_filter.1 (mem_pairs.1 hq).1).1).1
    have e1 := (hC _).1 _ |>.1 (List.mem_filter.1 h1).1
    have e2 := (hC _).1 _ |>.1 (List.mem_filter.1 h2).1
    rw [e1] at e2
    exact hab (Option.some.inj e2)

/-- A concrete case: the sample edge has one incoming and one outgoing relation, to different nodes. -/
example : subsetFactor g10 false [0, 1, 2, 3] = .ok [(4, 6)] ∧
    subsetFactor g10 false [0, 1, 3] = .ok [] := by decide +kernel

/-! ## C44 -/

/-- Selected relations. -/
def selectedRels (h : Heap) (sel : List Ref) : List Ref :=
  sel.filter fun x => (h.get x).kind = .relation

/-- The group of a relation. -/
def groupOf (h : Heap) (r : Ref) : Option Bytes := (h.get r).parent.map fun p => (h.get p).uuid

theorem get?_groupInsert (d : Dict Bytes (List Ref)) (k k' : Bytes) (r : Ref) :
    (groupInsert d k r).get? k' = if k' = k then some ((d.get? k).getD [] ++ [r]) else d.get? k' := by
  unfold groupInsert
  rw [Dict.get?_set]
  by_cases e : k' = k
  · rw [if_pos e, if_pos e.symm]
  · rw [if_neg e, if_neg (Ne.symm e)]

/-- What the dictionaries hold: per key the list of relations with that key. -/
def Groups (h : Heap) (d : Dict Bytes (List Ref)) (rs : List Ref) : Prop :=
  d.keys.Nodup ∧ ∀ k, d.get? k =
    if (rs.filter fun r => groupOf h r = some k) = [] then none
    else some (rs.filter fun r => groupOf h r = some k)

theorem Groups.insert {d : Dict Bytes (List Ref)} {rs : List Ref} (q : Groups h d rs) {r p : Ref}
    (hp : (h.get r).parent = some p) : Groups h (groupInsert d (h.get p).uuid r) (rs ++ [r]) := by
  have hg : groupOf h r = some (h.get p).uuid := by simp [groupOf, hp]
  refine ⟨Dict.nodup_set _ _ q.1, ?_⟩
  intro k
  rw [get?_groupInsert, List.filter_append]
  split
  · next e =>
    subst e
    have : [r].filter (fun r => groupOf h r = some (h.get p).uuid) = [r] := by simp [hg]
    rw [this, if_neg (fun e => by simp at e), q.2]
    split
    · next e => rw [e]; rfl
    · rfl
  · next e =>
    have : [r].filter (fun r => groupOf h r = some k) = [] := by
      simp [hg, Ne.symm e]
    rw [this, List.append_nil, q.2]

theorem groupRelations_ok {rs as bs : List Ref} {d : Dict Bytes (List Ref) × Dict Bytes (List Ref)}
    (h1 : Groups h d.1 as) (h2 : Groups h d.2 bs) (hp : ∀ r ∈ rs, (h.get r).parent.isSome) :
    ∃ d', groupRelations h rs d = .ok d' ∧
      Groups h d'.1 (as ++ rs.filter fun r => (h.get r).direction.isIn) ∧
      Groups h d'.2 (bs ++ rs.filter fun r => (h.get r).direction = .outwards) := by
  induction rs generalizing as bs d with
  | nil => exact ⟨d, rfl, by simpa using h1, by simpa using h2⟩
  | cons r rs ih =>
    obtain ⟨p, hpr⟩ := Option.isSome_iff_exists.1 (hp r List.mem_cons_self)
    have hp' : ∀ r ∈ rs, (h.get r).parent.isSome := fun r hr => hp r (List.mem_cons_of_mem _ hr)
    simp only [groupRelations, hpr]
    split
    · next hd =>
      obtain ⟨d', e, a, b⟩ := ih (d := (groupInsert d.1 (h.get p).uuid r, d.2)) (h1.insert hpr) h2 hp'
      refine ⟨d', e, ?_, ?_⟩
      · rw [List.filter_cons_of_pos (by simpa using hd)]
        simpa using a
      · rw [List.filter_cons_of_neg (by
          rcases hd with hd | hd <;> simp [hd])]
        exact b
    · next hd =>
      obtain ⟨d', e, a, b⟩ := ih (d := (d.1, groupInsert d.2 (h.get p).uuid r)) h1 (h2.insert hpr) hp'
      have ho : (h.get r).direction = .outwards := by
        cases hdr : (h.get r).direction <;> simp [hdr] at hd ⊢
      refine ⟨d', e, ?_, ?_⟩
      · rw [List.filter_cons_of_neg (by simpa using hd)]
        exact a
      · rw [List.filter_cons_of_pos (by simpa using ho)]
        simpa using b

theorem pairGroups_ok {loops : Bool} {outs d : Dict Bytes (List Ref)}
    (hk : ∀ k ∈ d.keys, (outs.get? k).isSome)
    (hi : ∀ k is, (k, is) ∈ d → ∀ i ∈ is, (h.get i).endpoint.isSome)
    (ho : ∀ k os, outs.get? k = some os → ∀ o ∈ os, (h.get o).endpoint.isSome) :
    pairGroups h loops outs d =
      .ok (d.flatMap fun p => pairs h loops p.2 ((outs.get? p.1).getD [])) := by
  induction d with
  | nil => rfl
  | cons p d ih =>
    obtain ⟨k, is⟩ := p
    obtain ⟨os, hos⟩ := Option.isSome_iff_exists.1 (hk k (by simp))
    simp only [pairGroups, hos, List.flatMap_cons]
    rw [pairUp_ok (hi k is List.mem_cons_self) (ho k os hos),
      ih (fun k hk' => hk k (by simp [hk'])) (fun k is hm => hi k is (List.mem_cons_of_mem _ hm))]
    rfl

theorem Groups.mem {d : Dict Bytes (List Ref)} {rs : List Ref} (q : Groups h d rs) {k : Bytes}
    {l : List Ref} (hm : (k, l) ∈ d) : l = rs.filter (fun r => groupOf h r = some k) ∧ l ≠ [] := by
  have := Dict.get?_of_mem q.1 hm
  rw [q.2] at this
  split at this
  · cases this
  · next e =>
    obtain rfl := Option.some.inj this
    exact ⟨rfl, e⟩

theorem Groups.getD {d : Dict Bytes (List Ref)} {rs : List Ref} (q : Groups h d rs) (k : Bytes) :
    (d.get? k).getD [] = rs.filter fun r => groupOf h r = some k := by
  rw [q.2]
  split
  · next e => rw [e]; rfl
  · rfl

theorem Groups.nil : Groups h [] [] := ⟨List.nodup_nil, fun _ => rfl⟩

/-- The relation factorization on a selection of complete relations: returns unless some edge has an
incoming but no `OUTWARDS` selected relation. -/
theorem relationFactor_eq {loops : Bool} {sel : List Ref}
    (hr : ∀ r ∈ sel, (h.get r).kind = .relation → (h.get r).parent.isSome ∧ (h.get r).endpoint.isSome)
    (ho : ∀ i ∈ sel, (h.get i).kind = .relation → (h.get i).direction.isIn → ∃ o ∈ sel,
      (h.get o).kind = .relation ∧ (h.get o).direction = .outwards ∧ groupOf h o = groupOf h i) :
    ∃ d : Dict Bytes (List Ref),
      Groups h d ((selectedRels h sel).filter fun r => (h.get r).direction.isIn) ∧
      relationFactor h loops sel = .ok (d.flatMap fun p => pairs h loops p.2
        (((selectedRels h sel).filter fun r => (h.get r).direction = .outwards).filter
          fun r => groupOf h r = some p.1)) := by
  have hsel : ∀ r ∈ selectedRels h sel, r ∈ sel ∧ (h.get r).kind = .relation := by
    intro r hr'
    have := List.mem_filter.1 hr'
    exact ⟨this.1, by simpa using this.2⟩
  obtain ⟨d, e, a, b⟩ := groupRelations_ok (h := h) (rs := selectedRels h sel) (as := []) (bs := [])
    (d := ([], [])) Groups.nil Groups.nil
    (fun r hr' => (hr r (hsel r hr').1 (hsel r hr').2).1)
  rw [List.nil_append] at a b
  refine ⟨d.1, a, ?_⟩
  unfold relationFactor
  rw [show (sel.filter fun x => decide ((h.get x).kind = .relation)) = selectedRels h sel from rfl, e]
  show pairGroups h loops d.2 d.1 = _
  rw [pairGroups_ok]
  · simp only [b.getD]
  · intro k hk
    obtain ⟨is, his⟩ := Option.isSome_iff_exists.1 (Dict.get?_isSome_iff.2 hk)
    obtain ⟨e1, e2⟩ := a.mem (Dict.mem_of_get? his)
    obtain ⟨i, hi⟩ := List.exists_mem_of_ne_nil _ e2
    rw [e1] at hi
    simp only [List.mem_filter, decide_eq_true_eq] at hi
    obtain ⟨o, h1, h2, h3, h4⟩ := ho i (hsel i hi.1.1).1 (hsel i hi.1.1).2 hi.1.2
    rw [b.2]
    rw [if_neg]
    · rfl
    · apply List.ne_nil_of_mem (a := o)
      simp only [List.mem_filter, decide_eq_true_eq, selectedRels]
      exact ⟨⟨⟨h1, h2⟩, h3⟩, h4.trans hi.2⟩
  · intro k is hm i hi
    rw [(a.mem hm).1] at hi
    simp only [List.mem_filter] at hi
    exact (hr i (hsel i hi.1.1).1 (hsel i hi.1.1).2).2
  · intro k os hm o ho'
    have := b.getD k
    rw [hm] at this
    change os = _ at this
    rw [this] at ho'
    simp only [List.mem_filter] at ho'
    exact (hr o (hsel o ho'.1.1).1 (hsel o ho'.1.1).2).2

/-- The selection consists, as far as relations are concerned, of relations with a container and an
endpoint, whose containers have different uuids, and whenever it has an incoming relation of a container
it has an `OUTWARDS` one of the same container. -/
structure GoodSelection (h : Heap) (sel : List Ref) : Prop where
  complete : ∀ r ∈ sel, (h.get r).kind = .relation → (h.get r).parent.isSome ∧ (h.get r).endpoint.isSome
  distinct : ∀ r ∈ sel, ∀ q ∈ sel, ∀ x y, (h.get r).kind = .relation → (h.get q).kind = .relation →
    (h.get r).parent = some x → (h.get q).parent = some y → (h.get x).uuid = (h.get y).uuid → x = y
  answered : ∀ i ∈ sel, (h.get i).kind = .relation → (h.get i).direction.isIn → ∃ o ∈ sel,
    (h.get o).kind = .relation ∧ (h.get o).direction = .outwards ∧ (h.get o).parent = (h.get i).parent

theorem GoodSelection.group {sel : List Ref} (g : GoodSelection h sel) {i o : Ref} (hi : i ∈ sel)
    (ho : o ∈ sel) (ki : (h.get i).kind = .relation) (ko : (h.get o).kind = .relation) :
    groupOf h i = groupOf h o ↔ (h.get i).parent = (h.get o).parent := by
  obtain ⟨x, hx⟩ := Option.isSome_iff_exists.1 (g.complete i hi ki).1
  obtain ⟨y, hy⟩ := Option.isSome_iff_exists.1 (g.complete o ho ko).1
  unfold groupOf
  rw [hx, hy]
  simp only [Option.map_some, Option.some.injEq]
  exact ⟨fun e => g.distinct i hi o ho x y ki ko hx hy e, fun e => by rw [e]⟩

/-- What the relation factorization does on a good selection: it pairs each `INWARDS` or `BIDIRECTIONAL`
relation with each `OUTWARDS` relation of the same container. -/
theorem C44_pairs {sel : List Ref} (g : GoodSelection h sel) (loops : Bool) :
    ∃ l, relationFactor h loops sel = .ok l ∧ (sel.Nodup → l.Nodup) ∧ ∀ i o, (i, o) ∈ l ↔
      i ∈ sel ∧ o ∈ sel ∧ (h.get i).kind = .relation ∧ (h.get o).kind = .relation ∧
      (h.get i).parent = (h.get o).parent ∧ (h.get i).direction.isIn ∧
      (h.get o).direction = .outwards ∧ (DistinctEnds h i o ∨ loops = true) := by
  obtain ⟨d, a, e⟩ := relationFactor_eq (loops := loops) g.complete (by
    intro i hi ki di
    obtain ⟨o, ho, ko, d, p⟩ := g.answered i hi ki di
    exact ⟨o, ho, ko, d, (g.group ho hi ko ki).2 p⟩)
  refine ⟨_, e, ?_, ?_⟩
  · intro hs
    rw [List.nodup_flatMap]
    refine ⟨?_, ?_⟩
    · rintro ⟨k, is⟩ hm
      refine pairs_nodup ?_ (((hs.filter _).filter _).filter _)
      rw [(a.mem hm).1]
      exact ((hs.filter _).filter _).filter _
    · have hk := a.1
      unfold Dict.keys at hk
      rw [List.Nodup, List.pairwise_map] at hk
      refine List.Pairwise.imp_of_mem ?_ hk
      rintro ⟨k, is⟩ ⟨k', is'⟩ hm hm' hne
      rw [Function.onFun, List.disjoint_left]
      rintro ⟨i, o⟩ hp hq
      have h1 := (mem_pairs.1 hp).1
      have h2 := (mem_pairs.1 hq).1
      rw [(a.mem hm).1] at h1
      rw [(a.mem hm').1] at h2
      simp only [List.mem_filter, decide_eq_true_eq] at h1 h2
      have := h1.2.symm.trans h2.2
      exact hne (Option.some.inj this)
  · intro i o
    simp only [List.mem_flatMap, mem_pairs, List.mem_filter, decide_eq_true_eq, selectedRels]
    constructor
    · rintro ⟨⟨k, is⟩, hm, hi, ⟨⟨⟨ho, ko⟩, od⟩, og⟩, w⟩
      rw [(a.mem hm).1] at hi
      simp only [List.mem_filter, decide_eq_true_eq, selectedRels] at hi
      obtain ⟨⟨⟨hi, ki⟩, id⟩, ig⟩ := hi
      exact ⟨hi, ho, ki, ko, (g.group hi ho ki ko).1 (ig.trans og.symm), id, od,
        (wantB_iff (g.complete i hi ki).2 (g.complete o ho ko).2).1 w⟩
    · rintro ⟨hi, ho, ki, ko, p, id, od, w⟩
      have hg := (g.group hi ho ki ko).2 p
      obtain ⟨x, hx⟩ := Option.isSome_iff_exists.1 (g.complete i hi ki).1
      have hgi : groupOf h i = some (h.get x).uuid := by simp [groupOf, hx]
      have hmem : i ∈ ((selectedRels h sel).filter fun r => (h.get r).direction.isIn).filter
          (fun r => groupOf h r = some (h.get x).uuid) := by
        simp only [List.mem_filter, decide_eq_true_eq, selectedRels]
        exact ⟨⟨⟨hi, ki⟩, id⟩, hgi⟩
      refine ⟨((h.get x).uuid, _), Dict.mem_of_get? ?_, hmem, ⟨⟨⟨ho, ko⟩, od⟩, ?_⟩,
        (wantB_iff (g.complete i hi ki).2 (g.complete o ho ko).2).2 w⟩
      · rw [a.2, if_neg (List.ne_nil_of_mem hmem)]
      · rw [← hg]; exact hgi

/-- **C44 (partial).** On a selection of complete relations of edges with different uuids, none of them
`BIDIRECTIONAL`, where every edge with a selected incoming relation has a selected outgoing one, the result
lists each pair of an incoming and an outgoing selected relation of the same edge, with different endpoint
uuids or any with `self_loop`, exactly once.  Missing: `BIDIRECTIONAL` relations (only counted as incoming,
`C44_bidirectional_refuted`) and edges with only incoming relations (`C44_keyerror_refuted`). -/
theorem C44_partial {sel : List Ref} (g : GoodSelection h sel) (loops : Bool) (hs : sel.Nodup)
    (hb : ∀ r ∈ sel, (h.get r).kind = .relation → (h.get r).direction ≠ .bidirectional) :
    ∃ l, relationFactor h loops sel = .ok l ∧ l.Nodup ∧ ∀ i o, (i, o) ∈ l ↔
      i ∈ sel ∧ o ∈ sel ∧ (h.get i).kind = .relation ∧ (h.get o).kind = .relation ∧
      (h.get i).parent = (h.get o).parent ∧ (h.get i).direction.isIn ∧
      (h.get o).direction.isOut ∧ (DistinctEnds h i o ∨ loops = true) := by
  obtain ⟨l, e, n, q⟩ := C44_pairs g loops
  refine ⟨l, e, n hs, fun i o => (q i o).trans ?_⟩
  constructor
  · rintro ⟨a, b, c, d, e, f, g, k⟩; exact ⟨a, b, c, d, e, f, .inl g, k⟩
  · rintro ⟨a, b, c, d, e, f, g, k⟩
    refine ⟨a, b, c, d, e, f, ?_, k⟩
    rcases g with g | g
    · exact g
    · exact absurd g (hb o b d)

/-- The sample relations are a good selection. -/
theorem good_sample : GoodSelection g10 [4, 6] := by
  refine ⟨by decide +kernel, ?_, by decide +kernel⟩
  have e4 : (g10.get 4).parent = some 3 := by decide +kernel
  have e6 : (g10.get 6).parent = some 3 := by decide +kernel
  intro r hr q hq x y _ _ hx hy _
  simp only [List.mem_cons, List.not_mem_nil, or_false] at hr hq
  rcases hr with rfl | rfl <;> rcases hq with rfl | rfl <;> simp_all
example : relationFactor g10 false [4, 6] = .ok [(4, 6)] := by decide +kernel

/-- `e2`, an edge in `r` with two bidirectional relations, to `a` and to `b`. -/
def b1 : Heap := (mkEdge ['x'] 20 (some 0)).after E0 g4
def b2 : Heap := (Op.unaryConnect 4 1 none .bidirectional none).after E0 b1
def b3 : Heap := (Op.unaryConnect 4 2 none .bidirectional none).after E0 b2
/-- … and an outgoing relation to `r` itself. -/
def b5 : Heap := (Op.unaryConnect 4 0 none .outwards none).after E0 b3

theorem reachB3 : Reach E0 b3 := by
  refine .step _ (.step _ (.step _ reach4 ⟨rfl, okSome (by decide +kernel)⟩ trivial)
    ⟨by decide +kernel, by decide +kernel, okNone, okNone⟩ trivial)
    ⟨by decide +kernel, by decide +kernel, okNone, okNone⟩ trivial
theorem reachB5 : Reach E0 b5 :=
  .step _ reachB3 ⟨by decide +kernel, by decide +kernel, okNone, okNone⟩ trivial

/-- **C44 (refuted part).** A `BIDIRECTIONAL` relation is never counted as outgoing: two bidirectional
relations of one edge are not paired, although both are incoming and outgoing and their endpoints differ. -/
theorem C44_bidirectional_refuted : ∃ (E : Env) (h : Heap) (sel : List Ref) (i o : Ref),
    Reach E h ∧ GoodSelection h sel ∧ i ∈ sel ∧ o ∈ sel ∧ (h.get i).kind = .relation ∧
    (h.get o).kind = .relation ∧ (h.get i).parent = (h.get o).parent ∧ (h.get i).direction.isIn ∧
    (h.get o).direction.isOut ∧ DistinctEnds h i o ∧
    ∃ l, relationFactor h false sel = .ok l ∧ (i, o) ∉ l := by
  refine ⟨E0, b5, [5, 7, 9], 5, 7, reachB5, ?_, by decide, by decide, by decide +kernel,
    by decide +kernel, by decide +kernel, by decide +kernel, by decide +kernel,
    ⟨1, 2, by decide +kernel, by decide +kernel, by decide +kernel⟩,
    [(5, 9), (7, 9)], by decide +kernel, by decide⟩
  refine ⟨by decide +kernel, ?_, by decide +kernel⟩
  have e4 : (b5.get 5).parent = some 4 := by decide +kernel
  have e6 : (b5.get 7).parent = some 4 := by decide +kernel
  have e8 : (b5.get 9).parent = some 4 := by decide +kernel
  intro r hr q hq x y _ _ hx hy _
  simp only [List.mem_cons, List.not_mem_nil, or_false] at hr hq
  rcases hr with rfl | rfl | rfl <;> rcases hq with rfl | rfl | rfl <;> simp_all

/-- **C44 (refuted part).** A selection with an incoming but no `OUTWARDS` relation of an edge raises
`KeyError` instead of listing the other pairs. -/
theorem C44_keyerror_refuted : ∃ (E : Env) (h : Heap) (sel : List Ref), Reach E h ∧
    (∀ r ∈ sel, r < h.size ∧ (h.get r).kind = .relation ∧ (h.get r).parent.isSome ∧
      (h.get r).endpoint.isSome) ∧ relationFactor h false sel = .error .keyError :=
  ⟨E0, b3, [5, 7], reachB3, by decide +kernel, by decide +kernel⟩

/-! ## C45 -/

/-- The elements `n` steps from `start`, in the order in which they are taken from the queue. -/
def tfLevel (h : Heap) (q : List (Option Ref)) : Nat → List (Option Ref)
  | 0 => q
  | n + 1 => (tfLevel h q n).flatMap fun x => (twoFactorStep h x).1

theorem tfLevel_shift (q : List (Option Ref)) (n : Nat) :
    tfLevel h (q.flatMap fun x => (twoFactorStep h x).1) n = tfLevel h q (n + 1) := by
  induction n with
  | zero => rfl
  | succ n ih => rw [tfLevel, ih]; rfl

theorem twoFactorLoop_level (A B : List (Option Ref)) (n : Nat) (acc : List (Ref × List Ref)) :
    twoFactorLoop h (n + A.length) (A ++ B) acc =
      twoFactorLoop h n (B ++ A.flatMap fun x => (twoFactorStep h x).1)
        (acc ++ A.flatMap fun x => (twoFactorStep h x).2) := by
  induction A generalizing B acc with
  | nil => simp
  | cons x A ih =>
    rw [List.length_cons, ← Nat.add_assoc, List.cons_append, twoFactorLoop]
    rw [List.append_assoc, ih]
    simp [List.append_assoc]

/-- If level `K` is empty, enough budget makes the loop return the pairs of the levels below. -/
theorem twoFactorLoop_ok (K : Nat) (q : List (Option Ref)) (acc : List (Ref × List Ref))
    (hK : tfLevel h q K = []) (n : Nat)
    (hn : ((List.range K).flatMap (tfLevel h q)).length < n) :
    twoFactorLoop h n q acc = .ok (acc ++
      (List.range K).flatMap fun k => (tfLevel h q k).flatMap fun x => (twoFactorStep h x).2) := by
  induction K generalizing q acc n with
  | zero =>
    obtain ⟨m, rfl⟩ : ∃ m, n = m + 1 := ⟨n - 1, by omega⟩
    have : q = [] := hK
    rw [this]
    simp [twoFactorLoop]
  | succ K ih =>
    rw [List.range_succ_eq_map, List.flatMap_cons, List.length_append, List.flatMap_map] at hn
    have hl : (tfLevel h q 0).length = q.length := rfl
    obtain ⟨m, rfl⟩ : ∃ m, n = m + q.length := ⟨n - q.length, by omega⟩
    have := twoFactorLoop_level (h := h) q [] m acc
    rw [List.append_nil, List.nil_append] at this
    rw [this, ih]
    · rw [List.range_succ_eq_map, List.flatMap_cons, List.flatMap_map, List.append_assoc]
      congr 2
      congr 1
      congr 1
      funext k
      rw [tfLevel_shift]
    · rw [tfLevel_shift]; exact hK
    · have e : (tfLevel h (q.flatMap fun x => (twoFactorStep h x).1)) = fun k => tfLevel h q (k + 1) := by
        funext k; rw [tfLevel_shift]
      rw [e]
      simp only [Nat.succ_eq_add_one] at hn
      omega

theorem Walk.cons {a b c : Ref} {n : Nat} (l : Leads h a b) (w : Walk h n b c) :
    Walk h (n + 1) a c := by
  induction w with
  | refl => exact .step (.refl _) l
  | step _ l' ih => exact .step (ih l) l'

theorem Walk.uncons {a c : Ref} {n : Nat} (w : Walk h (n + 1) a c) :
    ∃ b, Leads h a b ∧ Walk h n b c := by
  generalize hm : n + 1 = m at w
  induction w generalizing n with
  | refl => cases hm
  | @step k a b c w l ih =>
    cases k with
    | zero =>
      cases w
      obtain rfl : n = 0 := by omega
      exact ⟨c, l, .refl _⟩
    | succ k =>
      obtain ⟨b', l', w'⟩ := ih rfl
      obtain rfl : n = k + 1 := by omega
      exact ⟨b', l', .step w' l⟩

theorem Walk.trans {a b c : Ref} {n m : Nat} (v : Walk h n a b) (w : Walk h m b c) :
    Walk h (n + m) a c := by
  induction w with
  | refl => exact v
  | step _ l ih => exact .step (ih v) l

theorem leads_iff {a b : Ref} : Leads h a b ↔ some b ∈ (twoFactorStep h (some a)).1 := by
  unfold Leads twoFactorStep
  cases hk : (h.get a).kind <;> simp [hk]

/-- A queue from which a cycle can be reached never empties. -/
theorem twoFactorLoop_cycle (n : Nat) (q : List (Option Ref)) (acc : List (Ref × List Ref)) {x : Ref}
    (hx : some x ∈ q) (hc : MeetsCycle h x) : twoFactorLoop h n q acc = .error .recursionError := by
  induction n generalizing q acc x with
  | zero => rfl
  | succ n ih =>
    cases q with
    | nil => cases hx
    | cons y q =>
      rw [twoFactorLoop]
      rcases List.mem_cons.1 hx with e | hx
      · subst e
        obtain ⟨a, k, m, w, c⟩ := hc
        have : ∃ z, Leads h x z ∧ MeetsCycle h z := by
          cases k with
          | zero =>
            cases w
            obtain ⟨z, l, w'⟩ := c.uncons
            exact ⟨z, l, x, m, m, w', c⟩
          | succ k =>
            obtain ⟨z, l, w'⟩ := w.uncons
            exact ⟨z, l, a, k, m, w', c⟩
        obtain ⟨z, l, hz⟩ := this
        exact ih _ _ (List.mem_append_right _ (leads_iff.1 l)) hz
      · exact ih _ _ (List.mem_append_left _ hx) hc

theorem leads_lt {E : Env} (R : Reach E h) {a b : Ref} (l : Leads h a b) : a < h.size := by
  apply Nat.lt_of_not_le
  intro hge
  have : (h.get a).kind = .conceptual := by
    have := R.good.inv.out a hge
    exact congrArg SObj.kind this
  rcases l with ⟨e, _⟩ | ⟨e, _⟩ <;> rw [this] at e <;> cases e

/-- Without reachable cycle, a walk visits different elements. -/
theorem walk_bound {E : Env} (R : Reach E h) {start a b : Ref} {n k : Nat} (hc : ¬ MeetsCycle h start)
    (v : Walk h k start a) (w : Walk h n a b) : n ≤ h.size := by
  suffices H : ∃ l : List Ref, l.length = n ∧ l.Nodup ∧ ∀ y ∈ l, y < h.size ∧ ∃ m, Walk h m a y by
    obtain ⟨l, rfl, hn, hl⟩ := H
    have : l.Subperm (List.range h.size) :=
      hn.subperm fun y hy => List.mem_range.2 (hl y hy).1
    simpa using this.length_le
  induction n generalizing a k with
  | zero => exact ⟨[], rfl, List.nodup_nil, by simp⟩
  | succ n ih =>
    obtain ⟨c, lc, w'⟩ := w.uncons
    obtain ⟨l, hl, hn, hy⟩ := ih (Walk.step v lc) w'
    refine ⟨a :: l, by simp [hl], ?_, ?_⟩
    · rw [List.nodup_cons]
      refine ⟨fun ha => ?_, hn⟩
      obtain ⟨_, m, hm⟩ := hy a ha
      exact hc ⟨a, k, m, v, Walk.cons lc hm⟩
    · intro y hy'
      rcases List.mem_cons.1 hy' with rfl | hy'
      · exact ⟨leads_lt R lc, 0, .refl _⟩
      · obtain ⟨a1, m, a2⟩ := hy y hy'
        exact ⟨a1, m + 1, a2.cons lc⟩

theorem mem_tfLevel {start x : Ref} {n : Nat} :
    some x ∈ tfLevel h [some start] n ↔ Walk h n start x := by
  induction n generalizing x with
  | zero =>
    simp only [tfLevel, List.mem_singleton, Option.some.injEq]
    constructor
    · rintro rfl; exact .refl _
    · intro w; cases w; rfl
  | succ n ih =>
    simp only [tfLevel, List.mem_flatMap]
    constructor
    · rintro ⟨y, hy, hx⟩
      cases y with
      | none => cases hx
      | some y => exact .step (ih.1 hy) (leads_iff.2 hx)
    · intro w
      cases w with
      | step w l => exact ⟨_, ih.2 w, leads_iff.1 l⟩

/-- Without reachable cycle the levels end. -/
theorem tfLevel_empty {E : Env} (R : Reach E h) {start : Ref} (hc : ¬ MeetsCycle h start) :
    tfLevel h [some start] (h.size + 2) = [] := by
  rw [List.eq_nil_iff_forall_not_mem]
  intro y hy
  rw [tfLevel, List.mem_flatMap] at hy
  obtain ⟨z, hz, _⟩ := hy
  cases z with
  | none => simp [twoFactorStep] at *
  | some z =>
    have := walk_bound R hc (.refl _) (mem_tfLevel.1 hz)
    omega

theorem mem_step_pairs {x : Option Ref} {p : Ref × List Ref} :
    p ∈ (twoFactorStep h x).2 ↔ ∃ y, x = some y ∧ (h.get y).kind = .edge ∧ p.1 ∈ h.incoming y ∧
      p.2 = h.outgoing y := by
  cases x with
  | none => simp [twoFactorStep]
  | some y =>
    unfold twoFactorStep
    obtain ⟨i, os⟩ := p
    cases hk : (h.get y).kind <;> simp [hk]
    exact fun _ => eq_comm

/-- **C45 (partial).** From a start element from which no cycle can be reached, the two-factorization
returns, given enough stack, and lists exactly the incoming relations of the edges it reaches, each with all
outgoing relations of its edge.  Missing: start elements that reach a cycle (`C45_cycle_refuted`). -/
theorem C45_terminates_partial {E : Env} (R : Reach E h) {start : Ref} (hc : ¬ MeetsCycle h start) :
    ∃ (N : Nat) (l : List (Ref × List Ref)), (∀ budget, N ≤ budget → twoFactor h budget start = .ok l) ∧
      ∀ i os, (i, os) ∈ l ↔ ∃ x n, Walk h n start x ∧ (h.get x).kind = .edge ∧ i ∈ h.incoming x ∧
        os = h.outgoing x := by
  refine ⟨((List.range (h.size + 2)).flatMap (tfLevel h [some start])).length + 1,
    [] ++ (List.range (h.size + 2)).flatMap fun k =>
      (tfLevel h [some start] k).flatMap fun x => (twoFactorStep h x).2, ?_, ?_⟩
  · intro budget hb
    exact twoFactorLoop_ok _ _ [] (tfLevel_empty R hc) budget (by omega)
  · intro i os
    simp only [List.nil_append, List.mem_flatMap, List.mem_range, mem_step_pairs]
    constructor
    · rintro ⟨n, _, _, hy, x, rfl, hk, hi, ho⟩
      exact ⟨x, n, mem_tfLevel.1 hy, hk, hi, ho⟩
    · rintro ⟨x, n, w, hk, hi, ho⟩
      have := walk_bound R hc (.refl _) w
      exact ⟨n, by omega, _, mem_tfLevel.2 w, x, rfl, hk, hi, ho⟩

/-- **C45, exactly when.** The two-factorization returns for some stack size if and only if no cycle can be
reached from the start element. -/
theorem C45_terminates_iff {E : Env} (R : Reach E h) {start : Ref} :
    (∃ budget l, twoFactor h budget start = .ok l) ↔ ¬ MeetsCycle h start := by
  constructor
  · rintro ⟨b, l, e⟩ hc
    rw [twoFactor, twoFactorLoop_cycle b _ _ (List.mem_singleton.2 rfl) hc] at e
    cases e
  · intro hc
    obtain ⟨N, l, e, _⟩ := C45_terminates_partial R hc
    exact ⟨N, l, e N (Nat.le_refl _)⟩

/-- Every node of a context whose edges only lead to nodes without edges (the usual shape) starts a
factorization that returns. -/
theorem C45_flat {E : Env} (R : Reach E h) {c : Ref} (hk : (h.get c).kind = .node)
    (hf : ∀ x ∈ h.subEdges c, ∀ r ∈ h.outgoing x, ∀ v, (h.get r).endpoint = some v →
      (h.get v).kind ≠ .edge ∧ h.subEdges v = []) :
    ∃ (N : Nat) (l : List (Ref × List Ref)), (∀ budget, N ≤ budget → twoFactor h budget c = .ok l) ∧
      ∀ i os, (i, os) ∈ l ↔ ∃ x ∈ h.subEdges c, i ∈ h.incoming x ∧ os = h.outgoing x := by
  have noStep : ∀ v, (h.get v).kind ≠ .edge → h.subEdges v = [] → ∀ w, ¬ Leads h v w := by
    rintro v h1 h2 w (⟨_, l⟩ | ⟨l, _⟩)
    · rw [h2] at l; cases l
    · exact h1 l
  have short : ∀ n y, Walk h n c y → n = 0 ∧ y = c ∨ n = 1 ∧ y ∈ h.subEdges c ∨
      n = 2 ∧ ∀ w, ¬ Leads h y w := by
    intro n y w
    induction w with
    | refl => exact .inl ⟨rfl, rfl⟩
    | @step n a b c' w l ih =>
      rcases ih hk hf with ⟨rfl, rfl⟩ | ⟨rfl, hb⟩ | ⟨_, hb⟩
      · rcases l with ⟨_, l⟩ | ⟨l, _⟩
        · exact .inr (.inl ⟨rfl, l⟩)
        · rw [hk] at l; cases l
      · have hkb : (h.get b).kind = .edge := by
          unfold Heap.subEdges Heap.getSubelements at hb
          simpa using (List.mem_filter.1 hb).2
        rcases l with ⟨l, _⟩ | ⟨_, r, hr, he⟩
        · rw [hkb] at l; cases l
        · obtain ⟨q1, q2⟩ := hf b hb r hr _ he
          exact .inr (.inr ⟨rfl, noStep _ q1 q2⟩)
      · exact absurd l (hb _)
  have hc : ¬ MeetsCycle h c := by
    rintro ⟨a, n, m, w, v⟩
    have short' : ∀ n y, Walk h n c y → n ≤ 2 := by
      intro n y w
      rcases short n y w with ⟨e, _⟩ | ⟨e, _⟩ | ⟨e, _⟩ <;> omega
    have h3 := short' _ _ (((w.trans v).trans v).trans v)
    omega
  obtain ⟨N, l, e, q⟩ := C45_terminates_partial R hc
  refine ⟨N, l, e, fun i os => (q i os).trans ?_⟩
  constructor
  · rintro ⟨x, n, w, kx, hi, ho⟩
    rcases short n x w with ⟨rfl, rfl⟩ | ⟨rfl, hx⟩ | ⟨rfl, hx⟩
    · rw [hk] at kx; cases kx
    · exact ⟨x, hx, hi, ho⟩
    · exfalso
      cases w with
      | @step _ _ b _ w l =>
        rcases short _ _ w with ⟨q, _⟩ | ⟨_, hb⟩ | ⟨q, _⟩
        · omega
        · have hkb : (h.get b).kind = .edge := by
            unfold Heap.subEdges Heap.getSubelements at hb
            simpa using (List.mem_filter.1 hb).2
          rcases l with ⟨l, _⟩ | ⟨_, r, hr, he⟩
          · rw [hkb] at l; cases l
          · exact (hf _ hb r hr _ he).1 kx
        · omega
  · rintro ⟨x, hx, hi, ho⟩
    refine ⟨x, 1, .step (.refl _) (.inl ⟨hk, hx⟩), ?_, hi, ho⟩
    unfold Heap.subEdges Heap.getSubelements at hx
    simpa using (List.mem_filter.1 hx).2

/-- The sample context has that shape. -/
example : (g10.get 0).kind = .node ∧ (∀ x ∈ g10.subEdges 0, ∀ r ∈ g10.outgoing x,
    ((g10.get r).endpoint.all fun v => decide ((g10.get v).kind ≠ .edge ∧ g10.subEdges v = [])) = true) ∧
    twoFactor g10 10 0 = .ok [(4, [6])] := by decide +kernel

/-- **C45 (refuted part).** An edge of a context with an outgoing relation to the context itself: the
factorization ends in `RecursionError` whatever the stack size. -/
theorem C45_cycle_refuted : ∃ (E : Env) (h : Heap) (start : Ref), Reach E h ∧ start < h.size ∧
    ∀ budget, twoFactor h budget start = .error .recursionError := by
  refine ⟨E0, b5, 0, reachB5, by decide +kernel, fun b => ?_⟩
  refine twoFactorLoop_cycle b _ _ (List.mem_singleton.2 rfl) ⟨0, 0, 1, .refl _, ?_⟩
  refine .step (b := 4) (.step (.refl _) (.inl (by decide +kernel))) (.inr ⟨by decide +kernel, 9, ?_⟩)
  decide +kernel

end Rei
