import Verif.Spec.Traversal
import Verif.Props.Containment

/-!
# Lemmas about traversals
-/
namespace Rei

section
variable {σ : Type} {vis : Visitor σ} {h : Heap} {f : Ref → Bool}

theorem callAll_append (a b : List Ref) (s : σ) : callAll vis (a ++ b) s =
    match callAll vis a s with
    | (.ok _, s') => callAll vis b s'
    | (.error e, s') => (.error e, s') := by
  induction a generalizing s with
  | nil => rfl
  | cons x a ih =>
    simp only [List.cons_append, callAll]
    cases vis x s with
    | mk r s' => cases r with
      | error e => rfl
      | ok _ => exact ih s'

/-- The traversal result `r` is the outcome of calling the visitor as in `c`. -/
structure Outcome (r : Except Err Unit × σ × Fringe) (c : Except Err Unit × σ) : Prop where
  res : r.1 = c.1
  state : r.2.1 = c.2
  empty : c.1 = .ok () → r.2.2 = []

/-- Children of a list of elements. -/
def kids (h : Heap) (f : Ref → Bool) (L : List Ref) : List Ref :=
  L.flatMap fun x => (h.subelements x).filter f

theorem traverse_level (max : Option Nat) (A : List Ref) (d n : Nat) (B : Fringe) (s : σ) :
    ∃ lo, traverse h f max false vis (n + A.length) (A.map (fun x => (x, d)) ++ B) s =
      match callAll vis A s with
      | (.ok _, s') => traverse h f max false vis n
          (B ++ A.flatMap fun x => fillFringe h f max x d) s'
      | (.error e, s') => (.error e, s', lo) := by
  induction A generalizing B s with
  | nil => exact ⟨[], by simp [callAll]⟩
  | cons x A ih =>
    simp only [List.map_cons, List.cons_append, List.length_cons, callAll]
    rw [← Nat.add_assoc, traverse]
    cases vis x s with
    | mk r s' => cases r with
      | error e => exact ⟨_, rfl⟩
      | ok _ =>
        obtain ⟨lo, hlo⟩ := ih (B ++ fillFringe h f max x d) s'
        refine ⟨lo, ?_⟩
        simp only [putAll, Bool.false_eq_true, if_false, List.flatMap_cons]
        rw [List.append_assoc, hlo, List.append_assoc]

theorem flatMap_fill_under {max : Option Nat} {d : Nat} (hu : underLimit max d = true) (L : List Ref) :
    (L.flatMap fun x => fillFringe h f max x d) = (kids h f L).map fun v => (v, d + 1) := by
  unfold kids fillFringe
  simp only [hu, if_true, List.map_flatMap]
  rfl

theorem flatMap_fill_over {max : Option Nat} {d : Nat} (hu : underLimit max d = false) (L : List Ref) :
    (L.flatMap fun x => fillFringe h f max x d) = [] := by
  unfold fillFringe
  simp [hu]

/-- Iterated children. -/
def lv (h : Heap) (f : Ref → Bool) (L : List Ref) : Nat → List Ref
  | 0 => L
  | n + 1 => kids h f (lv h f L n)

theorem lv_kids (L : List Ref) (n : Nat) : lv h f (kids h f L) n = lv h f L (n + 1) := by
  induction n with
  | zero => rfl
  | succ n ih => rw [lv, ih]; rfl

theorem level_eq_lv (x : Ref) (n : Nat) : level h f x n = lv h f [x] n := by
  induction n with
  | zero => rfl
  | succ n ih => rw [level, ih]; rfl

theorem flatMap_range_succ (g : Nat → List Ref) (K : Nat) :
    (List.range (K + 1)).flatMap g = g 0 ++ (List.range K).flatMap fun n => g (n + 1) := by
  rw [List.range_succ_eq_map, List.flatMap_cons]
  congr 1
  simp [List.flatMap_map]

theorem traverse_bfs (K d : Nat) (L : List Ref) (n : Nat) (s : σ)
    (hn : ((List.range (K + 1)).flatMap (lv h f L)).length < n) :
    Outcome (traverse h f (some (d + K)) false vis n (L.map fun x => (x, d)) s)
      (callAll vis ((List.range (K + 1)).flatMap (lv h f L)) s) := by
  induction K generalizing d L n s with
  | zero =>
    have e : (List.range (0 + 1)).flatMap (lv h f L) = L := by
      simp [List.range_succ, lv]
    rw [e] at hn ⊢
    obtain ⟨m, rfl⟩ : ∃ m, n = (m + 1) + L.length := ⟨n - L.length - 1, by omega⟩
    obtain ⟨lo, hlo⟩ := traverse_level (h := h) (f := f) (vis := vis) (some (d + 0)) L d (m + 1) [] s
    rw [List.append_nil] at hlo
    rw [hlo, flatMap_fill_over (by simp [underLimit])]
    cases callAll vis L s with
    | mk r s' => cases r with
      | error e => exact ⟨rfl, rfl, fun q => by cases q⟩
      | ok _ => exact ⟨rfl, rfl, fun _ => rfl⟩
  | succ K ih =>
    rw [flatMap_range_succ] at hn ⊢
    have e0 : lv h f L 0 = L := rfl
    have e1 : (fun n => lv h f L (n + 1)) = lv h f (kids h f L) := by
      funext n; rw [lv_kids]
    rw [e0, e1] at hn ⊢
    rw [List.length_append] at hn
    obtain ⟨m, rfl⟩ : ∃ m, n = m + L.length := ⟨n - L.length, by omega⟩
    obtain ⟨lo, hlo⟩ := traverse_level (h := h) (f := f) (vis := vis) (some (d + (K + 1))) L d m [] s
    rw [List.append_nil] at hlo
    rw [hlo, callAll_append, flatMap_fill_under (by simp [underLimit]), List.nil_append]
    cases callAll vis L s with
    | mk r s' => cases r with
      | error e => exact ⟨rfl, rfl, fun q => by cases q⟩
      | ok _ =>
        have := ih (d + 1) (kids h f L) m s' (by omega)
        rw [show d + 1 + K = d + (K + 1) by omega] at this
        exact this

theorem traverse_dfs (K : Nat) : ∀ (x : Ref) (d n : Nat) (q : Fringe) (s : σ),
    ∃ lo, traverse h f (some (d + K)) true vis (n + (preorder h f K x).length) ((x, d) :: q) s =
      match callAll vis (preorder h f K x) s with
      | (.ok _, s') => traverse h f (some (d + K)) true vis n q s'
      | (.error e, s') => (.error e, s', lo) := by
  induction K with
  | zero =>
    intro x d n q s
    simp only [preorder, List.length_singleton, traverse, callAll]
    cases vis x s with
    | mk r s' => cases r with
      | error e => exact ⟨_, rfl⟩
      | ok _ =>
        refine ⟨[], ?_⟩
        simp [putAll, fillFringe, underLimit]
  | succ K ih =>
    have list : ∀ (L : List Ref) (d n : Nat) (q : Fringe) (s : σ),
        ∃ lo, traverse h f (some (d + K)) true vis (n + (L.flatMap (preorder h f K)).length)
            (L.map (fun v => (v, d)) ++ q) s =
          match callAll vis (L.flatMap (preorder h f K)) s with
          | (.ok _, s') => traverse h f (some (d + K)) true vis n q s'
          | (.error e, s') => (.error e, s', lo) := by
      intro L
      induction L with
      | nil => intro d n q s; exact ⟨[], by simp [callAll]⟩
      | cons x L ihL =>
        intro d n q s
        simp only [List.flatMap_cons, List.length_append, List.map_cons, List.cons_append]
        obtain ⟨lo, hlo⟩ := ih x d (n + (L.flatMap (preorder h f K)).length)
          (L.map (fun v => (v, d)) ++ q) s
        rw [show n + ((preorder h f K x).length + (L.flatMap (preorder h f K)).length) =
          n + (L.flatMap (preorder h f K)).length + (preorder h f K x).length by omega, hlo,
          callAll_append]
        cases callAll vis (preorder h f K x) s with
        | mk r s' => cases r with
          | error e => exact ⟨lo, rfl⟩
          | ok _ => exact ihL d n q s'
    intro x d n q s
    simp only [preorder, List.length_cons, callAll]
    rw [← Nat.add_assoc n _ 1, traverse]
    cases vis x s with
    | mk r s' => cases r with
      | error e => exact ⟨_, rfl⟩
      | ok _ =>
        obtain ⟨lo, hlo⟩ := list ((h.subelements x).filter f).reverse (d + 1) n q s'
        refine ⟨lo, ?_⟩
        have e : putAll true q (fillFringe h f (some (d + (K + 1))) x d) =
            ((h.subelements x).filter f).reverse.map (fun v => (v, d + 1)) ++ q := by
          unfold putAll fillFringe Heap.getSubelements
          have : underLimit (some (d + (K + 1))) d = true := by simp [underLimit]
          rw [this]
          simp [List.map_reverse]
        simp only [e]
        rw [show d + 1 + K = d + (K + 1) by omega] at hlo
        exact hlo

/-- The elements of a stack, one after the other. -/
theorem traverse_dfs_list (K : Nat) (L : List Ref) (d n : Nat) (s : σ)
    (hn : (L.flatMap (preorder h f K)).length < n) :
    Outcome (traverse h f (some (d + K)) true vis n (L.map fun v => (v, d)) s)
      (callAll vis (L.flatMap (preorder h f K)) s) := by
  induction L generalizing n s with
  | nil =>
    obtain ⟨m, rfl⟩ : ∃ m, n = m + 1 := ⟨n - 1, by simp at hn; omega⟩
    exact ⟨rfl, rfl, fun _ => rfl⟩
  | cons x L ih =>
    simp only [List.flatMap_cons, List.length_append, List.map_cons] at hn ⊢
    obtain ⟨m, rfl⟩ : ∃ m, n = m + (preorder h f K x).length :=
      ⟨n - (preorder h f K x).length, by omega⟩
    obtain ⟨lo, hlo⟩ := traverse_dfs (h := h) (f := f) (vis := vis) K x d m (L.map fun v => (v, d)) s
    rw [hlo, callAll_append]
    cases callAll vis (preorder h f K x) s with
    | mk r s' => cases r with
      | error e => exact ⟨rfl, rfl, fun q => by cases q⟩
      | ok _ => exact ih m s' (by omega)

theorem mem_level {start y : Ref} {n : Nat} : y ∈ level h f start n ↔ DownTo h f start n y := by
  induction n generalizing y with
  | zero =>
    simp only [level, List.mem_singleton]
    constructor
    · rintro rfl; exact .start
    · intro q; cases q; rfl
  | succ n ih =>
    simp only [level, List.mem_flatMap, List.mem_filter]
    constructor
    · rintro ⟨x, hx, hy, hf⟩; exact .step (ih.1 hx) hy hf
    · intro q
      cases q with
      | step p hy hf => exact ⟨_, ih.2 p, hy, hf⟩

/-- An unlimited traversal of a hierarchy of height below `K` is the one limited to `K`. -/
theorem traverse_unlimited {start : Ref} {K : Nat} {lifo : Bool}
    (hK : ∀ n y, DownTo h f start n y → n < K) (n : Nat) (q : Fringe) (s : σ)
    (hq : ∀ p ∈ q, DownTo h f start p.2 p.1) :
    traverse h f none lifo vis n q s = traverse h f (some K) lifo vis n q s := by
  induction n generalizing q s with
  | zero => rfl
  | succ n ih =>
    cases q with
    | nil => rfl
    | cons p q =>
      obtain ⟨x, d⟩ := p
      have hx : DownTo h f start d x := hq (x, d) List.mem_cons_self
      have hd := hK d x hx
      have e : fillFringe h f none x d = fillFringe h f (some K) x d := by
        unfold fillFringe
        simp [underLimit, hd]
      rw [traverse, traverse, e]
      cases vis x s with
      | mk r s' => cases r with
        | error e => rfl
        | ok _ =>
          apply ih
          intro p hp
          have hp' : p ∈ q ∨ p ∈ fillFringe h f (some K) x d := by
            unfold putAll at hp
            split at hp
            · simp only [List.mem_append, List.mem_reverse] at hp; exact hp.symm
            · simp only [List.mem_append] at hp; exact hp
          rcases hp' with hp | hp
          · exact hq p (List.mem_cons_of_mem _ hp)
          · unfold fillFringe Heap.getSubelements at hp
            split at hp
            · obtain ⟨v, hv, rfl⟩ := List.mem_map.1 hp
              have := List.mem_filter.1 hv
              exact .step hx this.1 this.2
            · cases hp

theorem execute_unlimited {start : Ref} {K : Nat} {lifo ig : Bool}
    (hK : ∀ n y, DownTo h f start n y → n < K) (n : Nat) (shared : Fringe) (s : σ)
    (hs : lifo = true ∨ shared = []) :
    Strategy.execute ⟨lifo, none, ig⟩ h f vis n start shared s =
      Strategy.execute ⟨lifo, some K, ig⟩ h f vis n start shared s := by
  unfold Strategy.execute
  have hd := hK 0 start .start
  have e : fillFringe h f none start 0 = fillFringe h f (some K) start 0 := by
    unfold fillFringe; simp [underLimit, hd]
  have e2 : (if lifo = true then [] else shared) = ([] : Fringe) := by
    rcases hs with rfl | rfl
    · rfl
    · split <;> rfl
  simp only [e, e2]
  cases (if (f start && !ig) = true then vis start s else (.ok (), s)) with
  | mk r s' => cases r with
    | error e => rfl
    | ok _ =>
      simp only
      rw [traverse_unlimited hK]
      intro p hp
      have hp : p ∈ fillFringe h f (some K) start 0 := by
        unfold putAll at hp; split at hp <;> simpa using hp
      unfold fillFringe Heap.getSubelements at hp
      split at hp
      · obtain ⟨v, hv, rfl⟩ := List.mem_map.1 hp
        have := List.mem_filter.1 hv
        exact .step .start this.1 this.2
      · cases hp

theorem preorder_cons (k : Nat) (x : Ref) : preorder h f k x = x :: (preorder h f k x).tail := by
  cases k <;> rfl

/-- A limited breadth-first traversal on an idle queue. -/
theorem execute_bfs {start : Ref} {k : Nat} {ig : Bool} (n : Nat) (s : σ)
    (hn : (breadthFirst h f ig start k).length < n) :
    Outcome (Strategy.execute ⟨false, some k, ig⟩ h f vis n start [] s)
      (callAll vis (breadthFirst h f ig start k) s) := by
  have hroot : (if (f start && !ig) = true then vis start s else (.ok (), s)) =
      callAll vis (rootVisit f ig start) s := by
    unfold rootVisit
    cases hf : f start <;> cases ig <;> simp [callAll]
    cases vis start s with
    | mk r s' => cases r <;> rfl
  have hkids : (List.range k).flatMap (fun n => level h f start (n + 1)) =
      (List.range k).flatMap (lv h f (kids h f [start])) := by
    congr 1; funext n; rw [lv_kids, level_eq_lv]
  unfold breadthFirst at hn ⊢
  rw [hkids, List.length_append] at hn
  unfold Strategy.execute
  rw [hkids, callAll_append]
  simp only [hroot]
  cases callAll vis (rootVisit f ig start) s with
  | mk r s' => cases r with
    | error e => exact ⟨rfl, rfl, fun q => by cases q⟩
    | ok _ =>
      cases k with
      | zero =>
        obtain ⟨m, rfl⟩ : ∃ m, n = m + 1 := ⟨n - 1, by omega⟩
        simp only [fillFringe, underLimit, putAll, Nat.lt_irrefl]
        exact ⟨rfl, rfl, fun _ => rfl⟩
      | succ k =>
        have e : fillFringe h f (some (k + 1)) start 0 = (kids h f [start]).map fun v => (v, 0 + 1) := by
          unfold fillFringe kids Heap.getSubelements; simp [underLimit]
        simp only [e, putAll, List.nil_append, if_false, Bool.false_eq_true]
        have := traverse_bfs (h := h) (f := f) (vis := vis) k 1 (kids h f [start]) n s' (by omega)
        rw [show 1 + k = k + 1 by omega] at this
        exact this

/-- A limited depth-first traversal, whatever is on the shared queue. -/
theorem execute_dfs {start : Ref} {k : Nat} {ig : Bool} (n : Nat) (shared : Fringe) (s : σ)
    (hn : (depthFirst h f ig start k).length < n) :
    (Strategy.execute ⟨true, some k, ig⟩ h f vis n start shared s).1 =
      (callAll vis (depthFirst h f ig start k) s).1 ∧
    (Strategy.execute ⟨true, some k, ig⟩ h f vis n start shared s).2.1 =
      (callAll vis (depthFirst h f ig start k) s).2 ∧
    (Strategy.execute ⟨true, some k, ig⟩ h f vis n start shared s).2.2 = shared := by
  have hroot : (if (f start && !ig) = true then vis start s else (.ok (), s)) =
      callAll vis (rootVisit f ig start) s := by
    unfold rootVisit
    cases hf : f start <;> cases ig <;> simp [callAll]
    cases vis start s with
    | mk r s' => cases r <;> rfl
  unfold depthFirst at hn ⊢
  rw [List.length_append] at hn
  unfold Strategy.execute
  rw [callAll_append]
  simp only [hroot]
  cases callAll vis (rootVisit f ig start) s with
  | mk r s' => cases r with
    | error e => exact ⟨rfl, rfl, rfl⟩
    | ok _ =>
      cases k with
      | zero =>
        obtain ⟨m, rfl⟩ : ∃ m, n = m + 1 := ⟨n - 1, by omega⟩
        simp only [fillFringe, underLimit, putAll, Nat.lt_irrefl]
        exact ⟨rfl, rfl, rfl⟩
      | succ k =>
        have e : putAll true [] (fillFringe h f (some (k + 1)) start 0) =
            ((h.subelements start).filter f).reverse.map fun v => (v, 0 + 1) := by
          unfold fillFringe putAll Heap.getSubelements; simp [underLimit, List.map_reverse]
        simp only [e, if_true]
        have := traverse_dfs_list (h := h) (f := f) (vis := vis) k
          ((h.subelements start).filter f).reverse 1 n s' (by simp only [preorder, List.tail_cons] at hn; omega)
        rw [show 1 + k = k + 1 by omega] at this
        exact ⟨this.res, this.state, trivial⟩

end

end Rei
