import Verif.Spec.LazyChildren
import Verif.Props.Removal
import Verif.Props.NamesDepth
import Verif.Props.Containment

/-!
# C126: looping over the children while the graph changes
-/
namespace Rei
open PyM Sample

variable {E : Env} {h : Heap} {odd : Children → Heap → Next × Children} {body : Ref → Heap → List Op}
  {c : Ref} {want : Kind → Bool}

theorem scan_some {h : Heap} {want : Kind → Bool} : ∀ (l : List Ref) (i : Nat) {x : Ref} {rest : List Ref},
    (l.filter fun x => want (h.get x).kind) = x :: rest →
    ∃ k, scanChildren h want l i = some (x, i + k) ∧
      ((l.drop k).filter fun x => want (h.get x).kind) = rest
  | [], _, _, _, q => by simp at q
  | y :: l, i, x, rest, q => by
    unfold scanChildren
    by_cases hy : want (h.get y).kind = true
    · rw [List.filter_cons, if_pos hy] at q
      obtain ⟨rfl, rfl⟩ := List.cons.inj q
      rw [if_pos hy]
      exact ⟨1, rfl, rfl⟩
    · rw [List.filter_cons, if_neg hy] at q
      rw [if_neg hy]
      obtain ⟨k, a, b⟩ := scan_some l (i + 1) q
      exact ⟨k + 1, by rw [a]; congr 2; omega, b⟩

theorem scan_none {h : Heap} {want : Kind → Bool} : ∀ (l : List Ref) (i : Nat),
    (l.filter fun x => want (h.get x).kind) = [] → scanChildren h want l i = none
  | [], _, _ => rfl
  | y :: l, i, q => by
    unfold scanChildren
    by_cases hy : want (h.get y).kind = true
    · rw [List.filter_cons, if_pos hy] at q
      cases q
    · rw [List.filter_cons, if_neg hy] at q
      rw [if_neg hy]
      exact scan_none l (i + 1) q

/-- The generator stands before the elements `rest` of the children in `h`. -/
structure Stands (h : Heap) (g : Children) (rest : List Ref) : Prop where
  isOpen : g.closed = false
  start : ∀ s, g.begun = some s → s = ((h.subelements g.cont).length, (h.get g.cont).hist)
  rest : (((h.subelements g.cont).drop g.pos).filter fun x => g.want (h.get x).kind) = rest

theorem Stands.next_item {g : Children} {x : Ref} {rest : List Ref} (s : Stands h g (x :: rest)) :
    ∃ g', g.next odd h = (.item x, g') ∧ g'.cont = g.cont ∧ g'.want = g.want ∧
      g'.begun = some ((h.subelements g.cont).length, (h.get g.cont).hist) ∧ Stands h g' rest := by
  obtain ⟨k, a, b⟩ := scan_some _ g.pos s.rest
  have hs : g.begun.getD ((h.subelements g.cont).length, (h.get g.cont).hist) =
      ((h.subelements g.cont).length, (h.get g.cont).hist) := by
    cases hb : g.begun with
    | none => rfl
    | some q => exact s.start q hb
  refine ⟨{ g with begun := some ((h.subelements g.cont).length, (h.get g.cont).hist), pos := g.pos + k },
    ?_, ?_, ?_, ?_, ?_⟩
  · unfold Children.next
    simp only [s.isOpen, hs, a, Bool.false_eq_true, if_false, ne_eq, not_true_eq_false]
  · rfl
  · rfl
  · rfl
  · exact ⟨s.isOpen, fun q e => (Option.some.inj e).symm, by rw [List.drop_drop] at b; exact b⟩

theorem Stands.next_stop {g : Children} (s : Stands h g []) : ∃ g', g.next odd h = (.stop, g') := by
  have a := scan_none _ g.pos s.rest
  have hs : g.begun.getD ((h.subelements g.cont).length, (h.get g.cont).hist) =
      ((h.subelements g.cont).length, (h.get g.cont).hist) := by
    cases hb : g.begun with
    | none => rfl
    | some q => exact s.start q hb
  refine ⟨{ g with begun := some ((h.subelements g.cont).length, (h.get g.cont).hist), closed := true }, ?_⟩
  unfold Children.next
  simp only [s.isOpen, hs, a, Bool.false_eq_true, if_false, ne_eq, not_true_eq_false]

theorem next_changed {g : Children} {s : Nat × Nat} (ho : g.closed = false) (hb : g.begun = some s)
    (hn : (h.subelements g.cont).length ≠ s.1) : g.next odd h = (.changed, { g with closed := true }) := by
  unfold Children.next
  have : s.1 ≠ (h.subelements g.cont).length := fun q => hn q.symm
  simp [ho, hb, this]

theorem later_trans {E : Env} {a b d : Heap} (p : Later E a b) (q : Later E b d) : Later E a d := by
  induction q with
  | refl => exact p
  | step op _ v ih => exact .step op ih v

theorem later_calls {E : Env} : ∀ (ops : List Op) {h : Heap}, ValidCalls E h ops → Later E h (afterCalls E h ops)
  | [], h, _ => .refl h
  | op :: ops, h, v => later_trans (.step op (.refl h) v.1) (later_calls ops v.2)

theorem Stands.later {g : Children} {rest : List Ref} {h' : Heap} (I : ∀ x ∈ h.subelements g.cont, x < h.size)
    (s : Stands h g rest) (l : Later E h h')
    (hs : h'.subelements g.cont = h.subelements g.cont) (hh : (h'.get g.cont).hist = (h.get g.cont).hist) :
    Stands h' g rest := by
  refine ⟨s.isOpen, fun q e => by rw [hs, hh]; exact s.start q e, ?_⟩
  rw [hs, ← s.rest]
  apply List.filter_congr
  intro x hx
  rw [(C18_identity_immutable l (I x (List.mem_of_mem_drop hx))).2.2.2.2]

/-- The rounds of a loop that leaves the children alone. -/
theorem loop_steady (xs : List Ref) : ∀ {h : Heap} {g : Children} {rest : List Ref} (n : Nat),
    (∀ x ∈ h.subelements g.cont, x < h.size) → Stands h g (xs ++ rest) →
    LeavesChildren E h g.cont body xs →
    ∃ g', loopChildren E odd body (xs.length + n) g h =
        (xs ++ (loopChildren E odd body n g' (graphAfter E body xs h)).1,
          (loopChildren E odd body n g' (graphAfter E body xs h)).2) ∧
      Stands (graphAfter E body xs h) g' rest ∧ g'.cont = g.cont ∧
      Later E h (graphAfter E body xs h) ∧
      (graphAfter E body xs h).subelements g.cont = h.subelements g.cont := by
  induction xs with
  | nil => intro h g rest n _ s _; exact ⟨g, by simp [graphAfter], s, rfl, .refl h, rfl⟩
  | cons x xs ih =>
    intro h g rest n I s L
    obtain ⟨g1, a, b, b', d, e⟩ := Stands.next_item (odd := odd) s
    obtain ⟨v, q1, q2⟩ := L x (by simp) h (.refl h)
    have l := later_calls (E := E) _ v
    have I1 : ∀ y ∈ h.subelements g1.cont, y < h.size := by rw [b]; exact I
    have s1 := Stands.later I1 e l (by rw [b]; exact q1) (by rw [b]; exact q2)
    obtain ⟨g2, p1, p2, p3, p4, p5⟩ := ih (h := afterCalls E h (body x h)) (g := g1) (rest := rest) n
      (by
        rw [b, q1]
        exact fun y hy => (C18_identity_immutable l (I y hy)).1) s1
      (by
        rw [b]
        exact fun y hy w lw => L y (by simp [hy]) w (later_trans l lw))
    refine ⟨g2, ?_, p2, p3.trans b, later_trans l p4, ?_⟩
    · have : (x :: xs).length + n = (xs.length + n) + 1 := by simp; omega
      rw [this, loopChildren, a]
      simp only
      change (x :: (loopChildren E odd body (xs.length + n) g1 (afterCalls E h (body x h))).1,
        (loopChildren E odd body (xs.length + n) g1 (afterCalls E h (body x h))).2) = _
      rw [p1]
      rfl
    · rw [b] at p5
      exact p5.trans q1

theorem fresh_stands (h : Heap) (c : Ref) (want : Kind → Bool) :
    Stands h { cont := c, want := want } (wantedChildren h want c) :=
  ⟨rfl, (fun _ e => nomatch e), rfl⟩

/-- A loop whose body neither adds a child to the element nor removes one from it visits exactly the wanted children,
each once, in the order in which they were added, and ends normally. The generator may have been
made long before: what counts is the graph when the loop starts. -/
theorem C126_undisturbed (r : Reach E h) (L : LeavesChildren E h c body (wantedChildren h want c)) {n : Nat}
    (hn : (wantedChildren h want c).length < n) :
    loopChildren E odd body n { cont := c, want := want } h =
      (wantedChildren h want c, .finished, graphAfter E body (wantedChildren h want c) h) := by
  obtain ⟨k, rfl⟩ : ∃ k, n = (wantedChildren h want c).length + (k + 1) :=
    ⟨n - (wantedChildren h want c).length - 1, by omega⟩
  obtain ⟨g', a, b, _⟩ := loop_steady (E := E) (odd := odd) (body := body) (wantedChildren h want c)
    (g := { cont := c, want := want }) (rest := []) (k + 1)
    (fun x hx => SInv.lt_of_parent r.good.inv ((C01_containment_agrees r c).1 x |>.1 hx)) (by rw [List.append_nil]; exact fresh_stands h c want) L
  rw [a]
  obtain ⟨g'', q⟩ := b.next_stop (odd := odd)
  rw [loopChildren, q]
  simp

/-- As soon as the body of a round leaves the element with another number of children, the loop raises
`RuntimeError` at the next round, also behind the last child; no other element is visited. -/
theorem C126_changed (r : Reach E h) {pre post : List Ref} {x : Ref}
    (hw : wantedChildren h want c = pre ++ x :: post) (L : LeavesChildren E h c body pre)
    (hx : ((afterCalls E (graphAfter E body pre h) (body x (graphAfter E body pre h))).subelements c).length ≠
      (h.subelements c).length) {n : Nat} (hn : pre.length + 1 < n) :
    loopChildren E odd body n { cont := c, want := want } h =
      (pre ++ [x], .runtimeError,
        afterCalls E (graphAfter E body pre h) (body x (graphAfter E body pre h))) := by
  obtain ⟨k, rfl⟩ : ∃ k, n = pre.length + (k + 2) := ⟨n - pre.length - 2, by omega⟩
  obtain ⟨g', a, b, e, _, f⟩ := loop_steady (E := E) (odd := odd) (body := body) pre
    (g := { cont := c, want := want }) (rest := x :: post) (k + 2)
    (fun x hx => SInv.lt_of_parent r.good.inv ((C01_containment_agrees r c).1 x |>.1 hx)) (by rw [← hw]; exact fresh_stands h c want) L
  rw [a]
  obtain ⟨g1, q, q1, q2, q3, q4⟩ := b.next_item (odd := odd)
  simp only at e f
  have hc : g1.cont = c := q1.trans e
  have := next_changed (odd := odd) (g := g1)
    (h := afterCalls E (graphAfter E body pre h) (body x (graphAfter E body pre h))) q4.isOpen q3
    (by rw [hc, e]; simp only; rw [f]; exact hx)
  rw [loopChildren, q]
  simp only
  rw [show (body x (graphAfter E body pre h)).foldl (fun h op => op.after E h) (graphAfter E body pre h) =
    afterCalls E (graphAfter E body pre h) (body x (graphAfter E body pre h)) from rfl]
  rw [loopChildren, this]

/-- The call of `removeFrom`, in a plain element. -/
theorem removeFrom_after (r : Reach E h) (hk : Plain h c) {x : Ref} (hx : x ∈ h.subelements c) :
    Reach E (afterCalls E h (removeFrom c x h)) ∧ ValidCalls E h (removeFrom c x h) ∧
      (afterCalls E h (removeFrom c x h)).subelements c = ((h.subelements c).filter fun y => decide (y ≠ x)) := by
  obtain ⟨h', a, _, _, d, _⟩ := C10_remove_uuid (nm := []) r hk hx (.inl rfl)
  have hc : c < h.size := SInv.parent_lt r.good.inv ((C01_containment_agrees r c).1 x |>.1 hx)
  have v : (Op.remove c [] (some (h.get x).uuid) none).Valid h := hc
  have s : (Op.remove c [] (some (h.get x).uuid) none).Safe h := ⟨hk.2, fun q => absurd rfl q⟩
  have e : afterCalls E h (removeFrom c x h) = (Op.remove c [] (some (h.get x).uuid) none).after E h := rfl
  have e' : (Op.remove c [] (some (h.get x).uuid) none).after E h = h' := by
    show ((removeElement E c [] (some (h.get x).uuid) none).void h).2 = h'
    rw [void_run, a]
  refine ⟨e ▸ .step _ r v s, ⟨v, trivial⟩, ?_⟩
  rw [e, e', d]

/-- `for x in c.sub_nodes: c.remove_element(uuid=x.uuid)` removes the first of the wanted children only, and raises
`RuntimeError`. -/
theorem C126_remove (r : Reach E h) (hk : Plain h c) {x : Ref} {post : List Ref}
    (hw : wantedChildren h want c = x :: post) {n : Nat} (hn : 1 < n) :
    ∃ h', loopChildren E odd (removeFrom c) n { cont := c, want := want } h = ([x], .runtimeError, h') ∧
      h'.subelements c = ((h.subelements c).filter fun y => decide (y ≠ x)) := by
  have hx : x ∈ h.subelements c := by
    have : x ∈ wantedChildren h want c := by rw [hw]; simp
    exact (List.mem_filter.1 this).1
  obtain ⟨_, _, a⟩ := removeFrom_after r hk hx
  refine ⟨_, C126_changed (pre := []) r hw (fun _ q => by cases q) ?_ (by simpa using hn), a⟩
  show ((afterCalls E h (removeFrom c x h)).subelements c).length ≠ _
  rw [a]
  have : ((h.subelements c).filter fun y => decide (y ≠ x)).length < (h.subelements c).length := by
    rw [List.length_filter_lt_length_iff_exists]
    exact ⟨x, hx, by simp⟩
  omega

theorem loopCopy_remove : ∀ (l : List Ref) {h : Heap}, Reach E h → Plain h c → c < h.size → l.Nodup →
    (∀ x ∈ l, x ∈ h.subelements c) →
    Reach E (loopCopy E (removeFrom c) l h) ∧
    (loopCopy E (removeFrom c) l h).subelements c = ((h.subelements c).filter fun y => decide (y ∉ l))
  | [], h, r, _, _, _, _ => ⟨r, by simp [loopCopy]⟩
  | x :: l, h, r, hk, hc, nd, sub => by
    obtain ⟨r', v, a⟩ := removeFrom_after r hk (sub x (by simp))
    have l1 := later_calls (E := E) _ v
    obtain ⟨hc', _, _, _, k'⟩ := C18_identity_immutable l1 hc
    have hk' : Plain (afterCalls E h (removeFrom c x h)) c := by
      unfold Plain
      rw [k']
      exact hk
    rw [List.nodup_cons] at nd
    obtain ⟨p, q⟩ := loopCopy_remove l r' hk' hc' nd.2 (by
      intro y hy
      rw [a, List.mem_filter]
      refine ⟨sub y (by simp [hy]), ?_⟩
      simp only [ne_eq, decide_eq_true_eq]
      rintro rfl
      exact nd.1 hy)
    refine ⟨p, ?_⟩
    show (loopCopy E (removeFrom c) l (afterCalls E h (removeFrom c x h))).subelements c = _
    rw [q, a, List.filter_filter]
    apply List.filter_congr
    intro y _
    by_cases h1 : y = x <;> simp [h1]

/-- The loop over a copy, `for x in list(c.sub_nodes): c.remove_element(uuid=x.uuid)`, removes exactly the wanted
children. -/
theorem C126_copy (r : Reach E h) (hk : Plain h c) :
    (loopCopy E (removeFrom c) (wantedChildren h want c) h).subelements c =
      ((h.subelements c).filter fun y => !want (h.get y).kind) := by
  by_cases he : wantedChildren h want c = []
  · rw [he]
    show h.subelements c = _
    symm
    rw [List.filter_eq_self]
    intro y hy
    have := List.filter_eq_nil_iff.1 he y hy
    simpa using this
  obtain ⟨x, hx⟩ := List.exists_mem_of_ne_nil _ he
  have hc : c < h.size := SInv.parent_lt r.good.inv ((C01_containment_agrees r c).1 x |>.1 (List.mem_filter.1 hx).1)
  obtain ⟨_, q⟩ := loopCopy_remove (wantedChildren h want c) r hk hc
    ((C01_containment_agrees r c).2.filter _) (fun x hx => (List.mem_filter.1 hx).1)
  rw [q]
  apply List.filter_congr
  intro y hy
  unfold wantedChildren
  simp [List.mem_filter, hy]

/-! ### Cases -/

/-- `sub_nodes`. -/
def nodesOnly (k : Kind) : Bool := k = .node

/-- In a graph with several nodes: the loop that removes them stops after the first, the loop over a copy
removes all. -/
theorem C126_case : Reach E0 g10 ∧ Plain g10 0 ∧ wantedChildren g10 nodesOnly 0 = [1, 2, 9] ∧
    (∃ w, loopChildren E0 (fun g _ => (.stop, g)) (removeFrom 0) 5 { cont := 0, want := nodesOnly } g10 =
      ([1], .runtimeError, w) ∧ w.subelements 0 = [2, 3, 9]) ∧
    (loopCopy E0 (removeFrom 0) [1, 2, 9] g10).subelements 0 = [3] := by
  refine ⟨reach10, by unfold Plain; decide +kernel, by decide +kernel, ?_, by decide +kernel⟩
  obtain ⟨w, a, b⟩ := C126_remove (odd := fun g _ => (.stop, g)) (want := nodesOnly) (n := 5) (post := [2, 9]) reach10
    (c := 0) (x := 1) (by unfold Plain; decide +kernel) (by decide +kernel) (by omega)
  refine ⟨w, a, ?_⟩
  rw [b]
  decide +kernel

example : LeavesChildren E0 g10 0 (fun _ _ => []) [1, 2, 9] := fun _ _ _ _ => ⟨trivial, rfl, rfl⟩

end Rei
