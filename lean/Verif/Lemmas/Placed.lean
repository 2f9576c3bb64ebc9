import Verif.Lemmas.Encoding
import Verif.Lemmas.Run

/-!
# Building a graph object by object
-/
namespace Rei
open PyM

/-- What an object to be built is made of. -/
structure Item where
  c : Option Ref
  kind : Kind
  uuid : Bytes
  name : Str
  prog : PName
  endpoint : Option Ref := none
  vs : List Rat := []

/-- `x` is the object described by `it` (its sub-elements aside). -/
structure Item.Is (it : Item) (h : Heap) (x : Ref) : Prop where
  kind : (h.get x).kind = it.kind
  uuid : (h.get x).uuid = it.uuid
  idName : (h.get x).idName = it.name
  progenitor : (h.get x).progenitor = it.prog
  parent : (h.get x).parent = it.c
  endpoint : (h.get x).endpoint = it.endpoint
  direction : (h.get x).direction = .bidirectional
  weight : (h.get x).weight = none
  gen : it.kind.isHElement = true → (h.get x).genCtx = some it.name
  values : it.kind = .value → (h.get x).vals < h.nlists ∧ h.valuesOf x = it.vs ∧ (h.get x).dim = it.vs.length
  named : NamedByPath h x

/-- The sub-elements of `x` among the items, the first of which is object `n0`. -/
def childrenOf (n0 : Nat) (its : List Item) (x : Ref) : Dict Bytes Ref :=
  (its.zipIdx n0).filterMap fun p => if p.1.c = some x then some (p.1.uuid, p.2) else none

theorem childrenOf_snoc (n0 : Nat) (its : List Item) (it : Item) (x : Ref) :
    childrenOf n0 (its ++ [it]) x =
      childrenOf n0 its x ++ if it.c = some x then [(it.uuid, n0 + its.length)] else [] := by
  unfold childrenOf
  rw [List.zipIdx_append, List.filterMap_append]
  congr 1
  simp only [List.zipIdx_cons, List.zipIdx_nil, List.filterMap_cons, List.filterMap_nil]
  split
  · next h => split at h
              · cases h
              · next hh => rw [if_neg hh]
  · next h => split at h
              · next hh => cases h; rw [if_pos hh]
              · cases h

theorem mem_childrenOf {n0 : Nat} {its : List Item} {x : Ref} {u : Bytes} {y : Ref} :
    (u, y) ∈ childrenOf n0 its x ↔ ∃ i it, its[i]? = some it ∧ y = n0 + i ∧ it.uuid = u ∧ it.c = some x := by
  unfold childrenOf
  rw [List.mem_filterMap]
  constructor
  · rintro ⟨⟨it, k⟩, hm, he⟩
    rw [List.mem_zipIdx_iff_le_and_getElem?_sub] at hm
    simp only at hm he
    split at he
    · next hh =>
      cases he
      exact ⟨y - n0, it, hm.2, by omega, rfl, hh⟩
    · cases he
  · rintro ⟨i, it, h1, rfl, rfl, h4⟩
    refine ⟨(it, n0 + i), ?_, ?_⟩
    · rw [List.mem_zipIdx_iff_le_and_getElem?_sub]
      simp only
      exact ⟨by omega, by rw [Nat.add_sub_cancel_left]; exact h1⟩
    · simp [h4]

/-- The objects of the program state after `h0` are the given items, and nothing that existed changed. -/
structure Placed (h0 : Heap) (its : List Item) (h : Heap) : Prop where
  size : h.size = h0.size + its.length
  nlists : h0.nlists ≤ h.nlists
  lists : ∀ l < h0.nlists, h.lists l = h0.lists l
  old : ∀ y < h0.size, h.get y = h0.get y
  item : ∀ (i : Nat) (it : Item), its[i]? = some it → it.Is h (h0.size + i)
  subs : ∀ i < its.length, (h.get (h0.size + i)).subs = childrenOf h0.size its (h0.size + i)
  wf : ∀ (i : Nat) (it : Item) (q : Ref), its[i]? = some it → it.c = some q → h0.size ≤ q ∧ q < h0.size + i

theorem Placed.init (h : Heap) : Placed h [] h :=
  ⟨rfl, Nat.le_refl _, fun _ _ => rfl, fun _ _ => rfl, by simp, by simp, by simp⟩

/-- The object `o` is the one described by `it`, up to lists. -/
structure Item.Matches (it : Item) (o : Obj) : Prop where
  kind : o.kind = it.kind
  uuid : o.uuid = it.uuid
  idName : o.idName = it.name
  progenitor : o.progenitor = it.prog
  endpoint : o.endpoint = it.endpoint
  direction : o.direction = .bidirectional
  weight : o.weight = none
  gen : it.kind.isHElement = true → o.genCtx = some it.name
  subs : o.subs = []

theorem Placed.snoc {h0 h h' : Heap} {its : List Item} (P : Placed h0 its h) (I : Inv h) {it : Item} {o : Obj}
    (g : Grown1 it.c o h h') (m : it.Matches o)
    (hv : it.kind = .value → o.vals < h'.nlists ∧ h'.lists o.vals = it.vs ∧ o.dim = it.vs.length)
    (hc : ∀ q, it.c = some q → h0.size ≤ q ∧ q < h.size) : Placed h0 (its ++ [it]) h' := by
  have hsz := P.size
  have keep : ∀ {α : Type} (π : Obj → α)
      (_ : ∀ (o : Obj) s i n k sr, π { o with subs := s, index := i, cnt := n, hist := k, subRels := sr } = π o),
      ∀ y < h.size, π (h'.get y) = π (h.get y) := by
    intro α π hπ y hy
    by_cases e : it.c = some y
    · obtain ⟨i, n, k, sr, e⟩ := g.cont y e
      rw [e, hπ]
    · rw [g.others y hy e]
  have e1 := Obj.core_eq_iff.1 g.new
  have nw : ∀ {α : Type} (π : Obj → α)
      (_ : ∀ (o : Obj) a b c d e, π { o with parent := a, cid := b, depth := c, qualName := d, timestamp := e } = π o),
      π (h'.get h.size) = π o := by
    intro α π hπ
    rw [e1]
    exact hπ o _ _ _ _ _
  refine ⟨?_, Nat.le_trans P.nlists g.nlists, ?_, ?_, ?_, ?_, ?_⟩
  · rw [g.size, hsz]; simp; omega
  · intro l hl
    rw [g.lists l (Nat.lt_of_lt_of_le hl P.nlists), P.lists l hl]
  · intro y hy
    rw [g.others y (by omega) (fun e => by have := (hc y e).1; omega), P.old y hy]
  · intro i jt hi
    by_cases hlt : i < its.length
    · rw [List.getElem?_append_left hlt] at hi
      have J := P.item i jt hi
      have hy : h0.size + i < h.size := by omega
      constructor
      · rw [keep (·.kind) (fun _ _ _ _ _ _ => rfl) _ hy]; exact J.kind
      · rw [keep (·.uuid) (fun _ _ _ _ _ _ => rfl) _ hy]; exact J.uuid
      · rw [keep (·.idName) (fun _ _ _ _ _ _ => rfl) _ hy]; exact J.idName
      · rw [keep (·.progenitor) (fun _ _ _ _ _ _ => rfl) _ hy]; exact J.progenitor
      · rw [keep (·.parent) (fun _ _ _ _ _ _ => rfl) _ hy]; exact J.parent
      · rw [keep (·.endpoint) (fun _ _ _ _ _ _ => rfl) _ hy]; exact J.endpoint
      · rw [keep (·.direction) (fun _ _ _ _ _ _ => rfl) _ hy]; exact J.direction
      · rw [keep (·.weight) (fun _ _ _ _ _ _ => rfl) _ hy]; exact J.weight
      · rw [keep (·.genCtx) (fun _ _ _ _ _ _ => rfl) _ hy]; exact J.gen
      · intro hk
        obtain ⟨a, b, c⟩ := J.values hk
        unfold Heap.valuesOf at b ⊢
        rw [keep (·.vals) (fun _ _ _ _ _ _ => rfl) _ hy, keep (·.dim) (fun _ _ _ _ _ _ => rfl) _ hy]
        exact ⟨Nat.lt_of_lt_of_le a g.nlists, (g.lists _ a).trans b, c⟩
      · obtain ⟨l, hl, e⟩ := J.named
        refine ⟨l, hl.transfer_lt I hy (keep (·.parent) (fun _ _ _ _ _ _ => rfl))
          (keep (·.idName) (fun _ _ _ _ _ _ => rfl)), ?_⟩
        rw [keep (·.qualName) (fun _ _ _ _ _ _ => rfl) _ hy]; exact e
    · have hi' : i = its.length := by
        have := (List.getElem?_eq_some_iff.1 hi).1
        simp at this; omega
      subst hi'
      simp at hi
      subst hi
      have hx : h0.size + its.length = h.size := hsz.symm
      rw [hx]
      constructor
      · rw [nw (·.kind) fun _ _ _ _ _ _ => rfl]; exact m.kind
      · rw [nw (·.uuid) fun _ _ _ _ _ _ => rfl]; exact m.uuid
      · rw [nw (·.idName) fun _ _ _ _ _ _ => rfl]; exact m.idName
      · rw [nw (·.progenitor) fun _ _ _ _ _ _ => rfl]; exact m.progenitor
      · rw [e1]
      · rw [nw (·.endpoint) fun _ _ _ _ _ _ => rfl]; exact m.endpoint
      · rw [nw (·.direction) fun _ _ _ _ _ _ => rfl]; exact m.direction
      · rw [nw (·.weight) fun _ _ _ _ _ _ => rfl]; exact m.weight
      · rw [nw (·.genCtx) fun _ _ _ _ _ _ => rfl]; exact m.gen
      · intro hk
        obtain ⟨a, b, c⟩ := hv hk
        unfold Heap.valuesOf
        rw [nw (·.vals) (fun _ _ _ _ _ _ => rfl), nw (·.dim) (fun _ _ _ _ _ _ => rfl)]
        exact ⟨a, b, c⟩
      · exact g.named
  · intro i hi
    rw [childrenOf_snoc]
    simp only [List.length_append, List.length_cons, List.length_nil] at hi
    by_cases hlt : i < its.length
    · rw [← P.subs i hlt]
      by_cases e : it.c = some (h0.size + i)
      · rw [if_pos e]
        obtain ⟨_, _, _, _, e'⟩ := g.cont _ e
        rw [e', ← m.uuid, hsz]
      · rw [if_neg e, g.others _ (by omega) e, List.append_nil]
    · have hi' : i = its.length := by omega
      subst hi'
      have hne : it.c ≠ some (h0.size + its.length) := by
        intro e
        have := (hc _ e).2
        omega
      rw [if_neg hne, List.append_nil]
      have hem : childrenOf h0.size its (h0.size + its.length) = [] := by
        rw [List.eq_nil_iff_forall_not_mem]
        rintro ⟨u, y⟩ hm
        obtain ⟨j, jt, hj, _, _, hjc⟩ := mem_childrenOf.1 hm
        have := (P.wf j jt _ hj hjc).2
        have := (List.getElem?_eq_some_iff.1 hj).1
        omega
      rw [hem, show h0.size + its.length = h.size from hsz.symm, nw (·.subs) fun _ _ _ _ _ _ => rfl]
      exact m.subs
  · intro i jt q hi hq
    by_cases hlt : i < its.length
    · rw [List.getElem?_append_left hlt] at hi
      exact P.wf i jt q hi hq
    · have hi' : i = its.length := by
        have := (List.getElem?_eq_some_iff.1 hi).1
        simp at this; omega
      subst hi'
      simp at hi
      subst hi
      have := hc q hq
      omega

end Rei
