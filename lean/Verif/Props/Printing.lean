import Verif.Spec.Printing
import Verif.Props.Traversal
import Verif.Props.NamesDepth

/-!
# C97: printing a hierarchy
-/
namespace Rei
open Sample

section
variable {h : Heap}

theorem printElement_skips {x : Ref} (hx : h.isPrinted x = false) (out : List Line) : printElement h x out = (.ok (), out) := by
  unfold Heap.isPrinted at hx
  unfold printElement
  dsimp only
  split <;> first | rfl | (rename_i e; rw [e] at hx; cases hx)

theorem printElement_fails {x : Ref} (hx : ¬ Printable h x) (out : List Line) :
    printElement h x out = (.error .attributeError, out) := by
  unfold Printable at hx
  unfold printElement
  dsimp only
  split
  · next e => exact absurd ⟨by rw [e]; simp, by rw [e]; simp⟩ hx
  · next e =>
    split
    · rfl
    · next p q => exact absurd ⟨by rw [q]; simp, by rw [e]; simp⟩ hx
  · next e =>
    split
    · rfl
    · next p q => exact absurd ⟨by rw [e]; simp, by rw [q]; simp⟩ hx
  · next e1 e2 e3 => exact absurd ⟨fun q => absurd q e2, fun q => absurd q e3⟩ hx

theorem printElement_prints {E : Env} (R : Reach E h) {x : Ref} (hx : h.isPrinted x = true) (p : Printable h x) (out : List Line) :
    ∃ l, LineFor h x (h.get x).qualName l ∧ printElement h x out = (.ok (), out ++ [l]) := by
  have inside : ∀ {p}, (h.get x).parent = some p → x ∈ h.subelements p := fun e => ((C01_containment_agrees R _).1 _).2 e
  unfold Heap.isPrinted at hx
  unfold printElement
  dsimp only
  split
  · next e =>
    split
    · next q => exact ⟨_, .root e q, rfl⟩
    · next q => exact ⟨_, .node e (inside q), rfl⟩
  · next e =>
    split
    · next q => exact absurd q (p.1 e)
    · next q =>
      refine ⟨_, .edge e (inside q), ?_⟩
      rw [C02_count_exact R x]
      rfl
  · next e =>
    split
    · next q => exact absurd q (p.2 e)
    · next q =>
      cases d : (h.get x).direction with
      | outwards => exact ⟨_, .outwards e q d, by simp [directionText]⟩
      | inwards => exact ⟨_, .inwards e q d, by simp [directionText]⟩
      | bidirectional => exact ⟨_, .undirected e q d, by simp [directionText]⟩
  · next e1 e2 e3 =>
    exfalso
    revert hx
    split <;> simp_all

theorem callAll_prints {E : Env} (R : Reach E h) (xs : List Ref) (p : ∀ x ∈ xs, Printable h x) (out : List Line) :
    ∃ ls, callAll (printElement h) xs out = (.ok (), out ++ ls) ∧
      List.Forall₂ (fun x l => LineFor h x (h.get x).qualName l) (xs.filter h.isPrinted) ls := by
  induction xs generalizing out with
  | nil => exact ⟨[], by simp [callAll], .nil⟩
  | cons x xs ih =>
    unfold callAll
    cases hx : h.isPrinted x with
    | false =>
      rw [printElement_skips hx]
      obtain ⟨ls, e, f⟩ := ih (fun y hy => p y (by simp [hy])) out
      exact ⟨ls, e, by rw [List.filter_cons, if_neg (by simp [hx])]; exact f⟩
    | true =>
      obtain ⟨l, q, e⟩ := printElement_prints R hx (p x (by simp)) out
      rw [e]
      obtain ⟨ls, e, f⟩ := ih (fun y hy => p y (by simp [hy])) (out ++ [l])
      exact ⟨l :: ls, by simpa using e, by rw [List.filter_cons, if_pos (by simp [hx])]; exact .cons q f⟩

theorem callAll_stops {E : Env} (R : Reach E h) {xs ys : List Ref} {y : Ref} (p : ∀ x ∈ xs, Printable h x) (bad : ¬ Printable h y)
    (out : List Line) :
    ∃ ls, callAll (printElement h) (xs ++ y :: ys) out = (.error .attributeError, out ++ ls) ∧
      List.Forall₂ (fun x l => LineFor h x (h.get x).qualName l) (xs.filter h.isPrinted) ls := by
  induction xs generalizing out with
  | nil => exact ⟨[], by simp [callAll, printElement_fails bad], .nil⟩
  | cons x xs ih =>
    rw [List.cons_append]
    unfold callAll
    cases hx : h.isPrinted x with
    | false =>
      rw [printElement_skips hx]
      obtain ⟨ls, e, f⟩ := ih (fun y hy => p y (by simp [hy])) out
      exact ⟨ls, e, by rw [List.filter_cons, if_neg (by simp [hx])]; exact f⟩
    | true =>
      obtain ⟨l, q, e⟩ := printElement_prints R hx (p x (by simp)) out
      rw [e]
      obtain ⟨ls, e, f⟩ := ih (fun y hy => p y (by simp [hy])) (out ++ [l])
      exact ⟨l :: ls, by simpa using e, by rw [List.filter_cons, if_pos (by simp [hx])]; exact .cons q f⟩

/-- **C97.** `print_graph_hierarchy` prints one line for each node, edge and relation at and below `start`, in breadth-first
order, after what was printed before. -/
theorem C97_prints {E : Env} (R : Reach E h) {start : Ref} (hs : start < h.size) {budget : Nat}
    (hb : (breadthFirst h (fun _ => true) false start h.size).length < budget)
    (p : ∀ x ∈ breadthFirst h (fun _ => true) false start h.size, Printable h x) (out : List Line) :
    ∃ ls, printHierarchy h budget start [] out = (.ok (), out ++ ls, []) ∧
      List.Forall₂ (fun x l => LineFor h x (h.get x).qualName l)
        ((breadthFirst h (fun _ => true) false start h.size).filter h.isPrinted) ls := by
  obtain ⟨e1, e2, e3⟩ := C28_bfs_visits (f := fun _ => true) R hs false (printElement h) out hb
  obtain ⟨ls, e, f⟩ := callAll_prints R _ p out
  rw [e] at e1 e2 e3
  refine ⟨ls, ?_, f⟩
  unfold printHierarchy
  exact Prod.ext e1 (Prod.ext e2 (e3 rfl))

/-- **C97.** When elements are only detached without sub-elements (C07), the printed names are the paths. -/
theorem C97_paths {E : Env} (R : ReachLeafDetach E h) {start : Ref} (hs : start < h.size) {budget : Nat}
    (hb : (breadthFirst h (fun _ => true) false start h.size).length < budget)
    (p : ∀ x ∈ breadthFirst h (fun _ => true) false start h.size, Printable h x) (out : List Line) :
    ∃ ls, printHierarchy h budget start [] out = (.ok (), out ++ ls, []) ∧
      List.Forall₂ (fun x l => ∃ names, PathTo h x names ∧ LineFor h x (Str.join '/' names) l)
        ((breadthFirst h (fun _ => true) false start h.size).filter h.isPrinted) ls := by
  obtain ⟨ls, e, f⟩ := C97_prints R.reach hs hb p out
  refine ⟨ls, e, List.forall₂_iff_get.2 ⟨f.length_eq, fun i h1 h2 => ?_⟩⟩
  have q := (List.forall₂_iff_get.1 f).2 i h1 h2
  have hm := List.mem_of_mem_filter (List.get_mem _ ⟨i, h1⟩)
  have below : ∀ y ∈ breadthFirst h (fun _ => true) false start h.size, y < h.size := by
    intro y hm
    rcases (C28_complete (f := fun _ => true) R.reach hs false y).1 hm with ⟨e, _⟩ | ⟨n, _, d⟩
    · rw [e]; exact hs
    · cases d with
      | start => exact hs
      | step _ hy _ => exact R.reach.good.inv.lt_of_parent ((R.reach.good.inv.mem_subelements _ _).1 hy)
  have hlt := below _ hm
  obtain ⟨names, pt, e⟩ := C07_named_by_path R hlt
  exact ⟨names, pt, e ▸ q⟩

/-- **C97.** Otherwise it raises `AttributeError` at the first edge without container or relation without endpoint, after printing
what comes before; only `start` itself can be such an edge. -/
theorem C97_raises {E : Env} (R : Reach E h) {start : Ref} (hs : start < h.size) {budget : Nat}
    (hb : (breadthFirst h (fun _ => true) false start h.size).length < budget)
    (p : ∃ x ∈ breadthFirst h (fun _ => true) false start h.size, ¬ Printable h x) (out : List Line) :
    ∃ xs y ys ls q, breadthFirst h (fun _ => true) false start h.size = xs ++ y :: ys ∧ (∀ x ∈ xs, Printable h x) ∧
      ((h.get y).kind = .edge ∧ y = start ∨ (h.get y).kind = .relation ∧ (h.get y).endpoint = none) ∧
      printHierarchy h budget start [] out = (.error .attributeError, out ++ ls, q) ∧
      List.Forall₂ (fun x l => LineFor h x (h.get x).qualName l) (xs.filter h.isPrinted) ls := by
  have split : ∀ l : List Ref, (∃ x ∈ l, ¬ Printable h x) →
      ∃ xs y ys, l = xs ++ y :: ys ∧ (∀ x ∈ xs, Printable h x) ∧ ¬ Printable h y := by
    intro l
    induction l with
    | nil => simp
    | cons a l ih =>
      intro hex
      by_cases ha : Printable h a
      · obtain ⟨xs, y, ys, e, f, g⟩ := ih (by
          obtain ⟨x, hx, hp⟩ := hex
          rcases List.mem_cons.1 hx with rfl | hx
          · exact absurd ha hp
          · exact ⟨x, hx, hp⟩)
        exact ⟨a :: xs, y, ys, by rw [e]; rfl, by simpa [ha] using f, g⟩
      · exact ⟨[], a, l, rfl, by simp, ha⟩
  obtain ⟨xs, y, ys, e, f, g⟩ := split _ p
  obtain ⟨e1, e2, -⟩ := C28_bfs_visits (f := fun _ => true) R hs false (printElement h) out hb
  rw [e] at e1 e2
  obtain ⟨ls, r, t⟩ := callAll_stops R (ys := ys) f g out
  rw [r] at e1 e2
  refine ⟨xs, y, ys, ls, _, e, f, ?_, Prod.ext e1 (Prod.ext e2 rfl), t⟩
  by_cases hk : (h.get y).kind = .edge
  · refine .inl ⟨hk, ?_⟩
    have hm : y ∈ breadthFirst h (fun _ => true) false start h.size := by rw [e]; simp
    rcases (C28_complete (f := fun _ => true) R hs false _).1 hm with ⟨e, _⟩ | ⟨n, hn, d⟩
    · exact e
    · cases d with
      | start => rfl
      | step _ hy _ =>
        refine absurd ⟨fun _ => ?_, by rw [hk]; simp⟩ g
        rw [(R.good.inv.mem_subelements _ _).1 hy]
        simp
  · by_cases hr : (h.get y).kind = .relation
    · refine .inr ⟨hr, ?_⟩
      by_contra he
      exact g ⟨fun q => absurd q hk, fun _ => he⟩
    · exact absurd ⟨fun q => absurd q hk, fun q => absurd q hr⟩ g

end

/-- The sample graph can be printed: five nodes, an edge and its two relations. -/
example : (∀ x ∈ breadthFirst g10 (fun _ => true) false 0 g10.size, Printable g10 x) ∧
    (printHierarchy g10 100 0 [] []).2.1.map (·.text) = ["node r: r".toList, "node r/a: a <- r".toList, "node r/b: b <- r".toList,
      "edge r/e: e 2 <- r".toList, "node r/a: a <- r".toList, "relation r/e/rele.a.10: <- a:: ".toList,
      "relation r/e/rele.b.15: -> b:: ".toList, "node r/a/d: d <- a".toList] := by
  constructor
  · unfold Printable
    decide +kernel
  · decide +kernel

/-- A graph built without detaching anything. -/
theorem leafDetach4 : ReachLeafDetach E0 g4 :=
  .step _ (.step _ (.step _ (.step _ .init ⟨rfl, okNone⟩ trivial trivial) ⟨rfl, okSome (by decide +kernel)⟩ trivial trivial)
    ⟨rfl, okSome (by decide +kernel)⟩ trivial trivial) ⟨rfl, okSome (by decide +kernel)⟩ trivial trivial

example : (printHierarchy g4 5 0 [] []).1 = .ok () := by
  obtain ⟨ls, e, -⟩ := C97_paths leafDetach4 (start := 0) (by decide +kernel) (budget := 5) (by decide +kernel)
    (by unfold Printable; decide +kernel) []
  rw [e]

/-- Printing an edge that is in no container raises. -/
example : (printHierarchy ((Op.mkItem .edge ['e'] [7] (.str ['e']) (some .local) none).after E0 Heap.empty) 5 0 [] []).1 =
    .error .attributeError := by decide +kernel

end Rei
