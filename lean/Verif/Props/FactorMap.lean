import Verif.Props.Factorization

/-!
# C111: mapping a factorization
-/
namespace Rei

section
variable {α β σ : Type} {f : α → σ → Except Err β × σ}

/-- **C111, all calls succeed.** The list of a mapped factorization has the results of the calls for its pairs, in order,
each made once, when the list is made; afterwards nothing is left in the iterator. -/
theorem C111_list {s s' : σ} {l : List α} {bs : List β} (C : CallsInOrder f s l bs s') :
    MapIter.toList f (mapExecute l).rest s = (.ok bs, ⟨[]⟩, s') := by
  unfold mapExecute
  simp only
  induction C with
  | nil => rfl
  | cons e _ ih =>
    rw [MapIter.toList]
    unfold MapIter.next
    simp only [e, ih]

/-- Conversely: a list that was made is the list of the results of the calls. -/
theorem C111_list_only {s s' : σ} {l : List α} {bs : List β} {m : MapIter α}
    (h : MapIter.toList f (mapExecute l).rest s = (.ok bs, m, s')) : CallsInOrder f s l bs s' ∧ m.rest = [] := by
  unfold mapExecute at h
  simp only at h
  induction l generalizing s bs with
  | nil =>
    cases h
    exact ⟨.nil, rfl⟩
  | cons a l ih =>
    rw [MapIter.toList] at h
    unfold MapIter.next at h
    simp only at h
    rcases e : f a s with ⟨r, s1⟩
    rw [e] at h
    cases r with
    | error er => cases h
    | ok b =>
      simp only at h
      rcases e2 : MapIter.toList f l s1 with ⟨r2, m2, s2⟩
      rw [e2] at h
      cases r2 with
      | error er => cases h
      | ok bs2 =>
        cases h
        obtain ⟨c, d⟩ := ih e2
        exact ⟨.cons e c, d⟩

/-- **C111, a call raises.** Then the pairs before it have been handled, the exception is the one raised, and the iterator
goes on with the pairs after it. -/
theorem C111_raised {s : σ} {l : List α} {e : Err} {m : MapIter α} {s' : σ}
    (h : MapIter.toList f (mapExecute l).rest s = (.error e, m, s')) :
    ∃ l1 a l2 bs s1, l = l1 ++ a :: l2 ∧ CallsInOrder f s l1 bs s1 ∧ f a s1 = (.error e, s') ∧ m = ⟨l2⟩ := by
  unfold mapExecute at h
  simp only at h
  induction l generalizing s with
  | nil => cases h
  | cons a l ih =>
    rw [MapIter.toList] at h
    unfold MapIter.next at h
    simp only at h
    rcases e1 : f a s with ⟨r, s1⟩
    rw [e1] at h
    cases r with
    | error er =>
      cases h
      exact ⟨[], a, l, [], s, rfl, .nil, e1, rfl⟩
    | ok b =>
      simp only at h
      rcases e2 : MapIter.toList f l s1 with ⟨r2, m2, s2⟩
      rw [e2] at h
      cases r2 with
      | ok bs2 => cases h
      | error er =>
        cases h
        obtain ⟨l1, a', l2, bs, s2', q1, q2, q3, q4⟩ := ih e2
        exact ⟨a :: l1, a', l2, b :: bs, s2', by rw [q1]; rfl, .cons e1 q2, q3, q4⟩

/-- **C111, used up.** A second list of the same mapped factorization is empty, and the function is not called. -/
theorem C111_once {s s' t : σ} {l : List α} {bs : List β} {m : MapIter α}
    (h : MapIter.toList f (mapExecute l).rest s = (.ok bs, m, s')) : MapIter.toList f m.rest t = (.ok [], ⟨[]⟩, t) := by
  rw [(C111_list_only h).2]
  rfl

/-- One step: the next pair, and only it, is handled. -/
theorem C111_next {s : σ} {a : α} {l : List α} :
    MapIter.next f ⟨a :: l⟩ s = (some (f a s).1, ⟨l⟩, (f a s).2) ∧ MapIter.next f ⟨[]⟩ s = (none, ⟨[]⟩, s) := ⟨rfl, rfl⟩

end

/-- The function that the tests of the repository map: the pairs of the first relation with the others. -/
def factorTuple : Ref × List Ref → Unit → Except Err (List (Ref × Ref)) × Unit := fun x s => (.ok (x.2.map (x.1, ·)), s)

/-- **C111 for a two-factorization**: for a context whose edges lead out to nodes without edges, mapping the function of the
tests over the factorization gives exactly the pairs of an incoming and an outgoing relation of one edge of the context. -/
theorem C111_factor_graph {E : Env} {h : Heap} (R : Reach E h) {c : Ref} (hk : (h.get c).kind = .node)
    (hf : ∀ x ∈ h.subEdges c, ∀ r ∈ h.outgoing x, ∀ v, (h.get r).endpoint = some v →
      (h.get v).kind ≠ .edge ∧ h.subEdges v = []) :
    ∃ (N : Nat) (l : List (Ref × List Ref)) (bs : List (List (Ref × Ref))),
      (∀ budget, N ≤ budget → twoFactor h budget c = .ok l) ∧
      MapIter.toList factorTuple (mapExecute l).rest () = (.ok bs, ⟨[]⟩, ()) ∧ bs.length = l.length ∧
      ∀ i o, (i, o) ∈ bs.flatten ↔ ∃ x ∈ h.subEdges c, i ∈ h.incoming x ∧ o ∈ h.outgoing x := by
  obtain ⟨N, l, e, q⟩ := C45_flat R hk hf
  have calls : ∀ l : List (Ref × List Ref), CallsInOrder factorTuple () l (l.map fun x => x.2.map (x.1, ·)) () := by
    intro l
    induction l with
    | nil => exact .nil
    | cons a l ih => exact .cons rfl ih
  refine ⟨N, l, _, e, C111_list (calls l), by rw [List.length_map], ?_⟩
  intro i o
  rw [List.mem_flatten]
  constructor
  · rintro ⟨b, hb, hm⟩
    obtain ⟨⟨i', os⟩, hx, rfl⟩ := List.mem_map.1 hb
    obtain ⟨o', ho, e⟩ := List.mem_map.1 hm
    cases e
    obtain ⟨x, hx', hi, rfl⟩ := (q _ _).1 hx
    exact ⟨x, hx', hi, ho⟩
  · rintro ⟨x, hx, hi, ho⟩
    exact ⟨_, List.mem_map.2 ⟨(i, h.outgoing x), (q _ _).2 ⟨x, hx, hi, rfl⟩, rfl⟩, List.mem_map.2 ⟨o, ho, rfl⟩⟩

/-- A function that counts its calls and refuses 0. -/
def refusesZero : Nat → Nat → Except Err Nat × Nat := fun a s => (if a = 0 then .error .keyError else .ok (10 * a), s + 1)

/-- C111 at a list where the second call raises: the first was made, and the iterator goes on with the third. -/
example : MapIter.toList refusesZero (mapExecute [1, 0, 2]).rest 0 = (.error .keyError, ⟨[2]⟩, 2) ∧
    MapIter.toList refusesZero [2] 2 = (.ok [20], ⟨[]⟩, 3) ∧ CallsInOrder refusesZero 0 [1, 2] [10, 20] 2 :=
  ⟨rfl, rfl, .cons rfl (.cons rfl .nil)⟩

end Rei
