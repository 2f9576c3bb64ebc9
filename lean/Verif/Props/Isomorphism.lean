import Verif.Spec.Isomorphism
import Verif.Props.Projected
import Mathlib.LinearAlgebra.Matrix.Charpoly.Basic

/-!
# C107: representations depend on the structure only
-/
namespace Rei
open Finset

theorem forall₂_fst {α β : Type} {P : α → β → Prop} {l : List α} {m : List β} (F : List.Forall₂ P l m) {a : α}
    (ha : a ∈ l) : ∃ b ∈ m, P a b := by
  induction F with
  | nil => cases ha
  | cons p _ ih =>
    rcases List.mem_cons.1 ha with rfl | ha
    · exact ⟨_, by simp, p⟩
    · obtain ⟨b, hb, q⟩ := ih ha
      exact ⟨b, by simp [hb], q⟩

theorem forall₂_snd {α β : Type} {P : α → β → Prop} {l : List α} {m : List β} (F : List.Forall₂ P l m) {b : β}
    (hb : b ∈ m) : ∃ a ∈ l, P a b := by
  induction F with
  | nil => cases hb
  | cons p _ ih =>
    rcases List.mem_cons.1 hb with rfl | hb
    · exact ⟨_, by simp, p⟩
    · obtain ⟨a, ha, q⟩ := ih hb
      exact ⟨a, by simp [ha], q⟩

theorem forall₂_strengthen {α β : Type} {P Q : α → β → Prop} {l : List α} {m : List β} (F : List.Forall₂ P l m)
    (H : ∀ a ∈ l, ∀ b ∈ m, P a b → Q a b) : List.Forall₂ Q l m := by
  induction F with
  | nil => exact .nil
  | cons p _ ih =>
    exact .cons (H _ (by simp) _ (by simp) p) (ih fun a ha b hb => H a (by simp [ha]) b (by simp [hb]))

/-! ## Tensors that agree up to the order -/

/-- The arrays agree after renumbering edges by `s` and nodes by `t`. -/
structure Renumbered (T T' : Tensors) (s : Fin T.ne ≃ Fin T'.ne) (t : Fin T.nn ≃ Fin T'.nn) : Prop where
  W : ∀ e i j, T'.W (s e) (t i) (t j) = T.W e i j
  Io : ∀ e i, T'.Io (s e) (t i) = T.Io e i
  Ii : ∀ e i, T'.Ii (s e) (t i) = T.Ii e i

theorem sumTo_fin (n : Nat) (f : Nat → Rat) : sumTo n f = ∑ i : Fin n, f i := by
  rw [sumTo_sum, Finset.sum_range]

theorem listSum_fin (n : Nat) (f : Nat → ℝ) : ((List.range n).map f).sum = ∑ i : Fin n, f i := by
  rw [← Finset.sum_range]
  induction n with
  | zero => simp
  | succ n ih => rw [List.range_succ, List.map_append, List.sum_append, ih, Finset.sum_range_succ]; simp

section
variable {T T' : Tensors} {s : Fin T.ne ≃ Fin T'.ne} {t : Fin T.nn ≃ Fin T'.nn} (M : Renumbered T T' s t)
include M

theorem Renumbered.ne : T'.ne = T.ne := by simpa using (Fintype.card_congr s).symm
theorem Renumbered.nn : T'.nn = T.nn := by simpa using (Fintype.card_congr t).symm

theorem Renumbered.degree (i : Fin T.nn) : T'.degree (t i) = T.degree i := by
  unfold Tensors.degree
  have a : sumTo T'.ne (fun e => T'.Io e (t i)) = sumTo T.ne fun e => T.Io e i := by
    rw [sumTo_fin, sumTo_fin, ← s.sum_comp]
    exact sum_congr rfl fun e _ => M.Io e i
  have b : sumTo T'.ne (fun e => T'.Ii e (t i)) = sumTo T.ne fun e => T.Ii e i := by
    rw [sumTo_fin, sumTo_fin, ← s.sum_comp]
    exact sum_congr rfl fun e _ => M.Ii e i
  have c : (∀ e < T'.ne, T'.Io e (t i) = T'.Ii e (t i)) ↔ ∀ e < T.ne, T.Io e i = T.Ii e i := by
    constructor
    · intro H e he
      have := H (s ⟨e, he⟩) (s ⟨e, he⟩).2
      rwa [M.Io, M.Ii] at this
    · intro H e he
      have := H (s.symm ⟨e, he⟩) (s.symm ⟨e, he⟩).2
      rw [← M.Io, ← M.Ii, Equiv.apply_symm_apply] at this
      exact this
  simp only [a, b, c]

theorem Renumbered.totalDegree : T'.totalDegree = T.totalDegree := by
  unfold Tensors.totalDegree
  rw [sumTo_fin, sumTo_fin, ← t.sum_comp]
  exact sum_congr rfl fun i _ => M.degree i

theorem fin_eq (t : Fin T.nn ≃ Fin T'.nn) (i j : Fin T.nn) : ((t i : Nat) = (t j : Nat)) ↔ (i : Nat) = (j : Nat) := by
  rw [← Fin.ext_iff, ← Fin.ext_iff, t.apply_eq_iff_eq]

theorem Renumbered.projected (i j : Fin T.nn) : T'.projectedLaplacian (t i) (t j) = T.projectedLaplacian i j := by
  unfold Tensors.projectedLaplacian Tensors.diagDegree
  have a : sumTo T'.ne (fun e => T'.W e (t i) (t j)) = sumTo T.ne fun e => T.W e i j := by
    rw [sumTo_fin, sumTo_fin, ← s.sum_comp]
    exact sum_congr rfl fun e _ => M.W e i j
  rw [a, M.degree]
  simp only [fin_eq M t]

theorem Renumbered.laplacian : (∃ err, T.laplacian = .error err ∧ T'.laplacian = .error err) ∨
    ∃ L L', T.laplacian = .ok L ∧ T'.laplacian = .ok L' ∧
      ∀ (e : Fin T.ne) (i j : Fin T.nn), L' (s e) (t i) (t j) = L e i j := by
  unfold Tensors.laplacian Tensors.diagDegreeTensor
  by_cases h0 : T.ne = 0
  · rw [if_pos h0, if_pos (by rw [M.ne, h0])]
    exact .inl ⟨_, rfl, rfl⟩
  · rw [if_neg h0, if_neg (by rw [M.ne]; exact h0)]
    refine .inr ⟨_, _, rfl, rfl, fun e i j => ?_⟩
    have a : ∀ i, sumTo T'.nn (fun j => T'.W (s e) j (t i)) = sumTo T.nn fun j => T.W e j i := by
      intro i
      rw [sumTo_fin, sumTo_fin, ← t.sum_comp]
      exact sum_congr rfl fun j _ => M.W e j i
    have b : ∀ i, sumTo T'.nn (fun j => T'.W (s e) (t i) j) = sumTo T.nn fun j => T.W e i j := by
      intro i
      rw [sumTo_fin, sumTo_fin, ← t.sum_comp]
      exact sum_congr rfl fun j _ => M.W e i j
    simp only [a, b, M.W, fin_eq M t]

theorem Renumbered.entropy : T'.entropy = T.entropy := by
  unfold Tensors.entropy Tensors.entropyVector Tensors.normalizedLaplacian
  by_cases h1 : T.ne = 1
  · rw [if_pos h1, if_pos (by rw [M.ne, h1])]; rfl
  · rw [if_neg h1, if_neg (by rw [M.ne]; exact h1)]
    rcases M.laplacian with ⟨err, a, b⟩ | ⟨L, L', a, b, q⟩
    · rw [a, b]; rfl
    · rw [a, b]
      show Except.ok _ = Except.ok _
      congr 1
      rw [listSum_fin, listSum_fin, ← s.sum_comp]
      refine sum_congr rfl fun e _ => ?_
      rw [listSum_fin, listSum_fin, ← t.sum_comp]
      refine sum_congr rfl fun i _ => ?_
      simp only [q, M.degree, M.ne]

theorem Renumbered.entropyProjected : T'.entropyProjected = T.entropyProjected := by
  have m : T'.projectedMatrix = Matrix.reindex t t T.projectedMatrix := by
    funext i j
    have := M.projected (t.symm i) (t.symm j)
    rw [Equiv.apply_symm_apply, Equiv.apply_symm_apply] at this
    simp only [Tensors.projectedMatrix, Matrix.reindex_apply, Matrix.submatrix_apply, this, M.totalDegree]
  unfold Tensors.entropyProjected
  rw [m, Matrix.charpoly_reindex, M.totalDegree, M.nn]

end

/-! ## Entries of corresponding contexts -/

theorem LastWins.split {h : Heap} {a : Ref} {l : List Ref} {P : Ref → Prop} {w : Rat} (L : LastWins h (a :: l) P w) :
    (LastWins h l P w ∧ ∃ q ∈ l, P q) ∨ ((∀ q ∈ l, ¬ P q) ∧ P a ∧ w = weightOf h a) ∨
      ((∀ q ∈ l, ¬ P q) ∧ ¬ P a ∧ w = 0) := by
  rcases L with ⟨l1, r, l2, e, p, n, ew⟩ | ⟨n, ew⟩
  · cases l1 with
    | nil => cases e; exact .inr (.inl ⟨n, p, ew⟩)
    | cons b l1 =>
      cases e
      exact .inl ⟨.inl ⟨l1, r, l2, rfl, p, n, ew⟩, r, by simp, p⟩
  · exact .inr (.inr ⟨fun q hq => n q (by simp [hq]), n a (by simp), ew⟩)

theorem LastWins.same {h h' : Heap} {P P' : Ref → Prop} {l l' : List Ref}
    (F : List.Forall₂ (fun r r' => (P r ↔ P' r') ∧ weightOf h' r' = weightOf h r) l l') {w w' : Rat} (L : LastWins h l P w)
    (L' : LastWins h' l' P' w') : w' = w := by
  have ex : ∀ {l l' : List Ref}, List.Forall₂ (fun r r' => (P r ↔ P' r') ∧ weightOf h' r' = weightOf h r) l l' →
      ((∃ q ∈ l, P q) ↔ ∃ q ∈ l', P' q) := by
    intro l l' F
    induction F with
    | nil => simp
    | cons p _ ih => simp only [List.mem_cons, exists_eq_or_imp, p.1, ih]
  induction F generalizing w w' with
  | nil =>
    rcases L with ⟨l1, r, l2, e, -⟩ | ⟨-, rfl⟩
    · cases l1 <;> cases e
    · rcases L' with ⟨l1, r, l2, e, -⟩ | ⟨-, rfl⟩
      · cases l1 <;> cases e
      · rfl
  | @cons a a' l l' p F ih =>
    have e := ex F
    have no : (∀ q ∈ l, ¬ P q) → ¬ ∃ q ∈ l', P' q := fun n z => by
      obtain ⟨q, hq, hp⟩ := e.2 z
      exact n q hq hp
    have no' : (∀ q ∈ l', ¬ P' q) → ¬ ∃ q ∈ l, P q := fun n z => by
      obtain ⟨q, hq, hp⟩ := e.1 z
      exact n q hq hp
    rcases L.split with ⟨L, x⟩ | ⟨n, pa, ew⟩ | ⟨n, pa, ew⟩ <;> rcases L'.split with ⟨L', x'⟩ | ⟨n', pa', ew'⟩ | ⟨n', pa', ew'⟩
    · exact ih L L'
    · exact absurd x (no' n')
    · exact absurd x (no' n')
    · exact absurd x' (no n)
    · rw [ew, ew', p.2]
    · exact absurd (p.1.1 pa) pa'
    · exact absurd x' (no n)
    · exact absurd (p.1.2 pa') pa
    · rw [ew, ew']

section
variable {E E' : Env} {h h' : Heap} {c c' : Ref} {T T' : Tensors} {f g : Ref → Ref}

theorem sub_filter_nodup (R : Reach E h) (c : Ref) (p : Ref → Bool) : ((h.subelements c).filter p).Nodup :=
  (C01_containment_agrees R c).2.filter _

/-- The renumbering that goes with a correspondence of two lists. -/
theorem renumbering {l l' : List Ref} (hl' : l'.Nodup) {f : Ref → Ref} (P : (l.map f).Perm l') {n n' : Nat}
    (hn : n = l.length) (hn' : n' = l'.length) :
    ∃ t : Fin n ≃ Fin n', ∀ (i : Fin n) (i' : Nat) v, l[(i : Nat)]? = some v → (l'[i']? = some (f v) ↔ (t i : Nat) = i') := by
  subst hn hn'
  have hlen : l.length = l'.length := by simpa using P.length_eq
  have nd : (l.map f).Nodup := P.nodup_iff.2 hl'
  have ex : ∀ i : Fin l.length, ∃ j : Fin l'.length, l'[(j : Nat)] = f l[(i : Nat)] := by
    intro i
    have : f l[(i : Nat)] ∈ l' := P.mem_iff.1 (List.mem_map.2 ⟨_, List.getElem_mem _, rfl⟩)
    obtain ⟨j, hj, e⟩ := List.getElem_of_mem this
    exact ⟨⟨j, hj⟩, e⟩
  choose t ht using ex
  have inj : Function.Injective t := by
    intro i j e
    have a := ht i
    rw [e, ht j] at a
    have : (l.map f)[(j : Nat)]'(by simp) = (l.map f)[(i : Nat)]'(by simp) := by simpa using a
    exact Fin.ext (nd.getElem_inj_iff.1 this).symm
  refine ⟨Equiv.ofBijective t ((Fintype.bijective_iff_injective_and_card t).2 ⟨inj, by simpa using hlen⟩), ?_⟩
  intro i i' v hv
  have hv' : l[(i : Nat)] = v := by
    rw [List.getElem?_eq_getElem i.2] at hv; exact Option.some.inj hv
  have a := ht i
  rw [hv'] at a
  change _ ↔ (t i : Nat) = i'
  constructor
  · intro q
    obtain ⟨hq, q⟩ := List.getElem?_eq_some_iff.1 q
    exact hl'.getElem_inj_iff.1 (a.trans q.symm)
  · rintro rfl
    rw [List.getElem?_eq_getElem (t i).2, a]

/-- From entries that agree to representations that agree. -/
theorem sameRepresentation (R' : Reach E' h') (C : Carries h c h' c' f g)
    (ne : T.ne = (h.subEdges c).length) (nn : T.nn = (h.subNodes c).length)
    (ne' : T'.ne = (h'.subEdges c').length) (nn' : T'.nn = (h'.subNodes c').length)
    (W : ∀ e i j e' i' j' x v u, (h.subEdges c)[e]? = some x → (h.subNodes c)[i]? = some v → (h.subNodes c)[j]? = some u →
      (h'.subEdges c')[e']? = some (g x) → (h'.subNodes c')[i']? = some (f v) → (h'.subNodes c')[j']? = some (f u) →
      T'.W e' i' j' = T.W e i j)
    (I : ∀ e i e' i' x v, (h.subEdges c)[e]? = some x → (h.subNodes c)[i]? = some v →
      (h'.subEdges c')[e']? = some (g x) → (h'.subNodes c')[i']? = some (f v) →
      T'.Io e' i' = T.Io e i ∧ T'.Ii e' i' = T.Ii e i) : SameRepresentation h c T h' c' T' f g := by
  obtain ⟨s, hs⟩ := renumbering (sub_filter_nodup R' c' _) C.edges ne ne'
  obtain ⟨t, ht⟩ := renumbering (sub_filter_nodup R' c' _) C.nodes nn nn'
  have ge : ∀ e : Fin T.ne, (h.subEdges c)[(e : Nat)]? = some ((h.subEdges c)[(e : Nat)]'(ne ▸ e.2)) := fun e =>
    List.getElem?_eq_getElem _
  have gn : ∀ i : Fin T.nn, (h.subNodes c)[(i : Nat)]? = some ((h.subNodes c)[(i : Nat)]'(nn ▸ i.2)) := fun i =>
    List.getElem?_eq_getElem _
  have M : Renumbered T T' s t := by
    refine ⟨fun e i j => ?_, fun e i => ?_, fun e i => ?_⟩
    · exact W _ _ _ _ _ _ _ _ _ (ge e) (gn i) (gn j) ((hs e _ _ (ge e)).2 rfl) ((ht i _ _ (gn i)).2 rfl)
        ((ht j _ _ (gn j)).2 rfl)
    · exact (I _ _ _ _ _ _ (ge e) (gn i) ((hs e _ _ (ge e)).2 rfl) ((ht i _ _ (gn i)).2 rfl)).1
    · exact (I _ _ _ _ _ _ (ge e) (gn i) ((hs e _ _ (ge e)).2 rfl) ((ht i _ _ (gn i)).2 rfl)).2
  have node : ∀ {i i' : Nat} {v}, (h.subNodes c)[i]? = some v → (h'.subNodes c')[i']? = some (f v) →
      ∃ k : Fin T.nn, (k : Nat) = i ∧ (t k : Nat) = i' := by
    intro i i' v hv hv'
    have hi : i < T.nn := nn ▸ (List.getElem?_eq_some_iff.1 hv).1
    exact ⟨⟨i, hi⟩, rfl, (ht ⟨i, hi⟩ i' v hv).1 hv'⟩
  have edge : ∀ {i i' : Nat} {v}, (h.subEdges c)[i]? = some v → (h'.subEdges c')[i']? = some (g v) →
      ∃ k : Fin T.ne, (k : Nat) = i ∧ (s k : Nat) = i' := by
    intro i i' v hv hv'
    have hi : i < T.ne := ne ▸ (List.getElem?_eq_some_iff.1 hv).1
    exact ⟨⟨i, hi⟩, rfl, (hs ⟨i, hi⟩ i' v hv).1 hv'⟩
  refine ⟨M.ne, M.nn, W, I, ?_, ?_, ?_, M.totalDegree, M.entropy, M.entropyProjected⟩
  · intro i i' v hv hv'
    obtain ⟨k, rfl, rfl⟩ := node hv hv'
    exact M.degree k
  · intro i j i' j' v u hv hu hv' hu'
    obtain ⟨k, rfl, rfl⟩ := node hv hv'
    obtain ⟨m, rfl, rfl⟩ := node hu hu'
    exact M.projected k m
  · rcases M.laplacian with q | ⟨L, L', a, b, q⟩
    · exact .inl q
    · refine .inr ⟨L, L', a, b, ?_⟩
      intro e i j e' i' j' x v u hx hv hu hx' hv' hu'
      obtain ⟨n, rfl, rfl⟩ := edge hx hx'
      obtain ⟨k, rfl, rfl⟩ := node hv hv'
      obtain ⟨m, rfl, rfl⟩ := node hu hu'
      exact q n k m

theorem Carries.inj (R' : Reach E' h') (C : Carries h c h' c' f g) {v u : Ref} (hv : v ∈ h.subNodes c)
    (hu : u ∈ h.subNodes c) (e : f v = f u) : v = u := by
  have nd : ((h.subNodes c).map f).Nodup := C.nodes.nodup_iff.2 (sub_filter_nodup R' c' _)
  exact List.inj_on_of_nodup_map nd hv hu e

/-- **C107.** Two contexts, in the same or different program states, with nodes and edges that correspond one to one, such
that corresponding edges have the same relations, in the same order, to corresponding nodes, have the same representation
up to the order of nodes and edges: names, identifiers, containers, depth, time stamps and the order of insertion do not
matter. -/
theorem C107_same_structure (R : Reach E h) (R' : Reach E' h') (K : Context h c) (K' : Context h' c') (hT : TensorOf h c T)
    (hT' : TensorOf h' c' T') (C : Carries h c h' c' f g) (S : ∀ x ∈ h.subEdges c, SameRelations h h' f x (g x)) :
    SameRepresentation h c T h' c' T' f g := by
  have En := hT.entries R K
  have En' := hT'.entries R' K'
  have ends : ∀ x ∈ h.subEdges c, ∀ v ∈ h.subNodes c, (Endpoint h x v ↔ Endpoint h' (g x) (f v)) := by
    intro x hx v hv
    constructor
    · rintro ⟨r, hr, e⟩
      obtain ⟨r', hr', a, -⟩ := forall₂_fst (S x hx) hr
      exact ⟨r', hr', by rw [a, e]; rfl⟩
    · rintro ⟨r', hr', e⟩
      obtain ⟨r, hr, a, -⟩ := forall₂_snd (S x hx) hr'
      rw [e] at a
      obtain ⟨w, hw, ew⟩ := K.closed r ⟨x, hx, hr⟩
      rw [ew] at a
      have := C.inj R' hw hv (Option.some.inj a).symm
      exact ⟨r, hr, this ▸ ew⟩
  have links : ∀ x ∈ h.subEdges c, ∀ v ∈ h.subNodes c, ∀ u ∈ h.subNodes c, ∀ r ∈ h.subRelations x, ∀ r',
      ((h'.get r').endpoint = (h.get r).endpoint.map f ∧ (h'.get r').direction = (h.get r).direction ∧
        weightOf h' r' = weightOf h r) → (Links h x v u r ↔ Links h' (g x) (f v) (f u) r') := by
    rintro x hx v hv u hu r hr r' ⟨a, b, d⟩
    obtain ⟨w, hw, ew⟩ := K.closed r ⟨x, hx, hr⟩
    have at' : ∀ v ∈ h.subNodes c, ((h'.get r').endpoint = some (f v) ↔ (h.get r).endpoint = some v) := by
      intro v hv
      rw [a, ew]
      constructor
      · intro q; rw [C.inj R' hw hv (Option.some.inj q)]
      · intro q; cases q; rfl
    unfold Links
    rw [b, d, at' v hv, at' u hu, ← ends x hx v hv, ← ends x hx u hu]
    have : f v ≠ f u ↔ v ≠ u := not_congr ⟨fun q => C.inj R' hv hu q, fun q => by rw [q]⟩
    rw [this]
  have back : ∀ x ∈ h.subEdges c, ∀ u', Endpoint h' (g x) u' → ∃ u ∈ h.subNodes c, f u = u' := by
    rintro x hx u' ⟨r', hr', e⟩
    obtain ⟨u, hu, eu⟩ := K'.closed r' ⟨g x, C.edges.mem_iff.1 (List.mem_map.2 ⟨x, hx, rfl⟩), hr'⟩
    rw [e] at eu; cases eu
    obtain ⟨w, hw, q⟩ := List.mem_map.1 (C.nodes.mem_iff.2 hu)
    exact ⟨w, hw, q⟩
  have ofEnd : ∀ x ∈ h.subEdges c, ∀ u, Endpoint h x u → u ∈ h.subNodes c := by
    rintro x hx u ⟨r, hr, e⟩
    obtain ⟨w, hw, q⟩ := K.closed r ⟨x, hx, hr⟩
    rw [e] at q; cases q; exact hw
  refine sameRepresentation R' C En.ne En.nn En'.ne En'.nn ?_ ?_
  · intro e i j e' i' j' x v u hx hv hu hx' hv' hu'
    refine LastWins.same ?_ (En.W e i j x v u hx hv hu) (En'.W e' i' j' _ _ _ hx' hv' hu')
    refine forall₂_strengthen (S x (List.mem_of_getElem? hx)) fun r hr r' _ q => ⟨?_, q.2.2⟩
    exact links x (List.mem_of_getElem? hx) v (List.mem_of_getElem? hv) u (List.mem_of_getElem? hu) r hr r' q
  · intro e i e' i' x v hx hv hx' hv'
    have mx := List.mem_of_getElem? hx
    have mv := List.mem_of_getElem? hv
    constructor
    · refine LastWins.same ?_ (En.Io e i x v hx hv) (En'.Io e' i' _ _ hx' hv')
      refine forall₂_strengthen (S x mx) fun r hr r' _ q => ⟨?_, q.2.2⟩
      constructor
      · rintro ⟨u, hu⟩
        exact ⟨f u, (links x mx v mv u (ofEnd x mx u hu.2.2.2.1) r hr r' q).1 hu⟩
      · rintro ⟨u', hu⟩
        obtain ⟨u, mu, rfl⟩ := back x mx u' hu.2.2.2.1
        exact ⟨u, (links x mx v mv u mu r hr r' q).2 hu⟩
    · refine LastWins.same ?_ (En.Ii e i x v hx hv) (En'.Ii e' i' _ _ hx' hv')
      refine forall₂_strengthen (S x mx) fun r hr r' _ q => ⟨?_, q.2.2⟩
      constructor
      · rintro ⟨u, hu⟩
        exact ⟨f u, (links x mx u (ofEnd x mx u hu.2.2.1) v mv r hr r' q).1 hu⟩
      · rintro ⟨u', hu⟩
        obtain ⟨u, mu, rfl⟩ := back x mx u' hu.2.2.1
        exact ⟨u, (links x mx u mu v mv r hr r' q).2 hu⟩

/-- **C107.** In contexts without weights the order and the number of the relations of an edge do not matter either: it
suffices that corresponding edges lead in and out at corresponding nodes. -/
theorem C107_unweighted (R : Reach E h) (R' : Reach E' h') (K : Context h c) (K' : Context h' c') (hw : Unweighted h c)
    (hw' : Unweighted h' c') (hT : TensorOf h c T) (hT' : TensorOf h' c' T') (C : Carries h c h' c' f g)
    (S : ∀ x ∈ h.subEdges c, SameEnds h c h' f x (g x)) : SameRepresentation h c T h' c' T' f g := by
  have En := hT.entries R K
  have En' := hT'.entries R' K'
  have dirEnd : ∀ (h : Heap) (x v : Ref), Endpoint h x v ↔ InEndpoint h x v ∨ OutEndpoint h x v := fun h x v =>
    ⟨endpoint_dir, by rintro (⟨r, hr, e, -⟩ | ⟨r, hr, e, -⟩) <;> exact ⟨r, hr, e⟩⟩
  have ends : ∀ x ∈ h.subEdges c, ∀ v ∈ h.subNodes c, (Endpoint h x v ↔ Endpoint h' (g x) (f v)) := by
    intro x hx v hv
    rw [dirEnd, dirEnd, (S x hx v hv).1, (S x hx v hv).2]
  have back : ∀ x ∈ h.subEdges c, ∀ u', Endpoint h' (g x) u' → ∃ u ∈ h.subNodes c, f u = u' := by
    rintro x hx u' ⟨r', hr', e⟩
    obtain ⟨u, hu, eu⟩ := K'.closed r' ⟨g x, C.edges.mem_iff.1 (List.mem_map.2 ⟨x, hx, rfl⟩), hr'⟩
    rw [e] at eu; cases eu
    obtain ⟨w, hw, q⟩ := List.mem_map.1 (C.nodes.mem_iff.2 hu)
    exact ⟨w, hw, q⟩
  have ofEnd : ∀ x ∈ h.subEdges c, ∀ u, Endpoint h x u → u ∈ h.subNodes c := by
    rintro x hx u ⟨r, hr, e⟩
    obtain ⟨w, hw, q⟩ := K.closed r ⟨x, hx, hr⟩
    rw [e] at q; cases q; exact hw
  have neq : ∀ v ∈ h.subNodes c, ∀ u ∈ h.subNodes c, (f v ≠ f u ↔ v ≠ u) := fun v hv u hu =>
    not_congr ⟨fun q => C.inj R' hv hu q, fun q => by rw [q]⟩
  have cond : ∀ x ∈ h.subEdges c, ∀ v ∈ h.subNodes c, ∀ u ∈ h.subNodes c,
      ((v ≠ u ∧ Endpoint h x v ∧ Endpoint h x u ∧ (InEndpoint h x v ∨ OutEndpoint h x u)) ↔
        (f v ≠ f u ∧ Endpoint h' (g x) (f v) ∧ Endpoint h' (g x) (f u) ∧
          (InEndpoint h' (g x) (f v) ∨ OutEndpoint h' (g x) (f u)))) := by
    intro x hx v hv u hu
    rw [neq v hv u hu, ends x hx v hv, ends x hx u hu, (S x hx v hv).1, (S x hx u hu).2]
  refine sameRepresentation R' C En.ne En.nn En'.ne En'.nn ?_ ?_
  · intro e i j e' i' j' x v u hx hv hu hx' hv' hu'
    obtain ⟨a, b⟩ := C35_exact_partial R K hw hT hx hv hu
    obtain ⟨a', b'⟩ := C35_exact_partial R' K' hw' hT' hx' hv' hu'
    have q := cond x (List.mem_of_getElem? hx) v (List.mem_of_getElem? hv) u (List.mem_of_getElem? hu)
    rw [← q] at a' b'
    by_cases p : v ≠ u ∧ Endpoint h x v ∧ Endpoint h x u ∧ (InEndpoint h x v ∨ OutEndpoint h x u)
    · rw [a.2 p, a'.2 p]
    · rw [b.2 p, b'.2 p]
  · intro e i e' i' x v hx hv hx' hv'
    have mx := List.mem_of_getElem? hx
    have mv := List.mem_of_getElem? hv
    obtain ⟨a, b, d, k, -⟩ := C36_incidence R K hw hT hx hv
    obtain ⟨a', b', d', k', -⟩ := C36_incidence R' K' hw' hT' hx' hv'
    have leave : CanLeave h x v ↔ CanLeave h' (g x) (f v) := by
      constructor
      · rintro ⟨u, q⟩; exact ⟨f u, (cond x mx v mv u (ofEnd x mx u q.2.2.1)).1 q⟩
      · rintro ⟨u', q⟩
        obtain ⟨u, mu, rfl⟩ := back x mx u' q.2.2.1
        exact ⟨u, (cond x mx v mv u mu).2 q⟩
    have enter : CanEnter h x v ↔ CanEnter h' (g x) (f v) := by
      constructor
      · rintro ⟨u, q⟩; exact ⟨f u, (cond x mx u (ofEnd x mx u q.2.1) v mv).1 q⟩
      · rintro ⟨u', q⟩
        obtain ⟨u, mu, rfl⟩ := back x mx u' q.2.1
        exact ⟨u, (cond x mx u mu v mv).2 q⟩
    constructor
    · by_cases p : CanLeave h x v
      · rw [a p, a' (leave.1 p)]
      · rw [b p, b' (fun q => p (leave.2 q))]
    · by_cases p : CanEnter h x v
      · rw [d p, d' (enter.1 p)]
      · rw [k p, k' (fun q => p (enter.2 q))]

end

/-! ## Cases -/

namespace Sample

/-- `a` and `b` joined by an edge with weights 2 and 3. -/
def wa : Heap := (Op.unaryConnect 3 2 (some 5) .bidirectional none).after E0
  ((Op.unaryConnect 3 1 (some 4) .bidirectional none).after E0
  ((Op.mkValue [10] ['y'] (.str ['y']) (some [3])).after E0 ((Op.mkValue [9] ['x'] (.str ['x']) (some [2])).after E0 g4)))

/-- The same connections, in the other order. -/
def wb : Heap := (Op.unaryConnect 3 1 (some 4) .bidirectional none).after E0
  ((Op.unaryConnect 3 2 (some 5) .bidirectional none).after E0
  ((Op.mkValue [10] ['y'] (.str ['y']) (some [3])).after E0 ((Op.mkValue [9] ['x'] (.str ['x']) (some [2])).after E0 g4)))

/-- As `wa`, with other names and identifiers, and the nodes added in the other order. -/
def wc : Heap := (Op.unaryConnect 3 1 (some 5) .bidirectional none).after E0
  ((Op.unaryConnect 3 2 (some 4) .bidirectional none).after E0
  ((Op.mkValue [20] ['y'] (.str ['y']) (some [3])).after E0 ((Op.mkValue [19] ['x'] (.str ['x']) (some [1, 1])).after E0
  ((mkEdge ['k'] 34 (some 0)).after E0 ((mkNode ['p'] 33 (some 0)).after E0 ((mkNode ['q'] 32 (some 0)).after E0 g1))))))

theorem reach_wa : Reach E0 wa :=
  .step _ (.step _ (.step _ (.step _ reach4 trivial trivial) trivial trivial)
    ⟨by decide +kernel, by decide +kernel, okSome (by decide +kernel), okNone⟩ trivial)
    ⟨by decide +kernel, by decide +kernel, okSome (by decide +kernel), okNone⟩ trivial
theorem reach_wb : Reach E0 wb :=
  .step _ (.step _ (.step _ (.step _ reach4 trivial trivial) trivial trivial)
    ⟨by decide +kernel, by decide +kernel, okSome (by decide +kernel), okNone⟩ trivial)
    ⟨by decide +kernel, by decide +kernel, okSome (by decide +kernel), okNone⟩ trivial
theorem reach_wc : Reach E0 wc :=
  .step _ (.step _ (.step _ (.step _ (.step _ (.step _ (.step _ reach1 ⟨rfl, okSome (by decide +kernel)⟩ trivial)
    ⟨rfl, okSome (by decide +kernel)⟩ trivial) ⟨rfl, okSome (by decide +kernel)⟩ trivial) trivial trivial) trivial trivial)
    ⟨by decide +kernel, by decide +kernel, okSome (by decide +kernel), okNone⟩ trivial)
    ⟨by decide +kernel, by decide +kernel, okSome (by decide +kernel), okNone⟩ trivial

theorem context_of {h : Heap} {c : Ref} (a : (h.get c).kind = .node)
    (b : ∀ r ∈ (h.subEdges c).flatMap h.subRelations, ∃ v ∈ h.subNodes c, (h.get r).endpoint = some v)
    (d : ∀ r ∈ (h.subEdges c).flatMap h.subRelations, ∀ v ∈ (h.get r).weight, (h.get v).kind = .value) : Context h c :=
  ⟨a, forall_relationIn b, forall_relationIn d⟩

theorem context_wa : Context wa 0 := context_of (by decide +kernel) (by decide +kernel) (by decide +kernel)
theorem context_wb : Context wb 0 := context_of (by decide +kernel) (by decide +kernel) (by decide +kernel)
theorem context_wc : Context wc 0 := context_of (by decide +kernel) (by decide +kernel) (by decide +kernel)

/-- The two nodes change places. -/
def swap12 : Ref → Ref := fun v => if v = 1 then 2 else if v = 2 then 1 else v

/-- The edge of `u6`, connected in the other order. -/
def v6 : Heap := (Op.unaryConnect 3 1 none .bidirectional none).after E0
  ((Op.unaryConnect 3 2 none .bidirectional none).after E0 g4)
theorem reach_v6 : Reach E0 v6 :=
  .step _ (.step _ reach4 ⟨by decide +kernel, by decide +kernel, okNone, okNone⟩ trivial)
    ⟨by decide +kernel, by decide +kernel, okNone, okNone⟩ trivial
theorem unweighted_v6 : Unweighted v6 0 := forall_relationIn (by decide +kernel)
theorem context_v6 : Context v6 0 :=
  ⟨by decide +kernel, forall_relationIn (by decide +kernel), unweighted_v6.valueWeights⟩

end Sample
open Sample

/-- C107, at two weighted contexts with other names and another order of the nodes. -/
theorem C107_case : ∃ T T', TensorOf wa 0 T ∧ TensorOf wc 0 T' ∧ SameRepresentation wa 0 T wc 0 T' swap12 id ∧
    T'.W 0 1 0 = T.W 0 0 1 ∧ T'.entropyProjected = T.entropyProjected := by
  obtain ⟨T, hT⟩ := C34_converts reach_wa context_wa
  obtain ⟨T', hT'⟩ := C34_converts reach_wc context_wc
  have S : SameRepresentation wa 0 T wc 0 T' swap12 id := by
    refine C107_same_structure reach_wa reach_wc context_wa context_wc hT hT' ⟨by decide +kernel, by decide +kernel⟩ ?_
    intro x hx
    rw [show wa.subEdges 0 = [3] by decide +kernel] at hx
    obtain rfl : x = 3 := by simpa using hx
    unfold SameRelations
    rw [show wa.subRelations 3 = [6, 8] by decide +kernel, show wc.subRelations (id 3) = [6, 8] by decide +kernel]
    refine .cons ⟨?_, ?_, ?_⟩ (.cons ⟨?_, ?_, ?_⟩ .nil) <;> decide +kernel
  exact ⟨T, T', hT, hT', S, S.W 0 0 1 0 1 0 3 1 2 (by decide +kernel) (by decide +kernel) (by decide +kernel)
    (by decide +kernel) (by decide +kernel) (by decide +kernel), S.entropyProjected⟩

/-- C107, without weights, at two contexts that differ in the order of connection (and with the nodes exchanged). -/
example : ∃ T T', TensorOf u6 0 T ∧ TensorOf v6 0 T' ∧ SameRepresentation u6 0 T v6 0 T' swap12 id := by
  obtain ⟨T, hT⟩ := C34_converts reach_u6 context_u6
  obtain ⟨T', hT'⟩ := C34_converts reach_v6 context_v6
  refine ⟨T, T', hT, hT', C107_unweighted reach_u6 reach_v6 context_u6 context_v6 unweighted_u6 unweighted_v6 hT hT'
    ⟨by decide +kernel, by decide +kernel⟩ ?_⟩
  have e : u6.subEdges 0 = [3] := by decide +kernel
  have n : u6.subNodes 0 = [1, 2] := by decide +kernel
  unfold SameEnds
  rw [e, n]
  decide +kernel

/-- **C107 refuted** without its proviso: with weights the order in which an edge was connected matters. -/
theorem C107_order_refuted : ∃ (E : Env) (h h' : Heap) (c x : Ref) (T T' : Tensors), Reach E h ∧ Reach E h' ∧
    Context h c ∧ Context h' c ∧ TensorOf h c T ∧ TensorOf h' c T' ∧ Carries h c h' c id id ∧
    h.subEdges c = [x] ∧ h.subNodes c = h'.subNodes c ∧
    ((h.subRelations x).map fun r => ((h.get r).endpoint, (h.get r).direction, weightOf h r)).Perm
      ((h'.subRelations x).map fun r => ((h'.get r).endpoint, (h'.get r).direction, weightOf h' r)) ∧
    T.W 0 0 1 = 3 ∧ T'.W 0 0 1 = 2 := by
  obtain ⟨T, hT⟩ := C34_converts reach_wa context_wa
  obtain ⟨T', hT'⟩ := C34_converts reach_wb context_wb
  refine ⟨E0, wa, wb, 0, 3, T, T', reach_wa, reach_wb, context_wa, context_wb, hT, hT',
    ⟨by decide +kernel, by decide +kernel⟩, by decide +kernel, by decide +kernel, by decide +kernel, ?_, ?_⟩
  · have L := (hT.entries reach_wa context_wa).W 0 0 1 3 1 2 (by decide +kernel) (by decide +kernel) (by decide +kernel)
    rw [show wa.subRelations 3 = [6, 8] by decide +kernel] at L
    have p : Links wa 3 1 2 8 := by unfold Links; decide +kernel
    rcases L.split with ⟨L, -⟩ | ⟨n, -⟩ | ⟨n, -⟩
    · rcases L.split with ⟨-, q, hq, -⟩ | ⟨-, -, ew⟩ | ⟨-, n, -⟩
      · cases hq
      · rw [ew]; decide +kernel
      · exact absurd p n
    · exact absurd p (n 8 (by simp))
    · exact absurd p (n 8 (by simp))
  · have L := (hT'.entries reach_wb context_wb).W 0 0 1 3 1 2 (by decide +kernel) (by decide +kernel) (by decide +kernel)
    rw [show wb.subRelations 3 = [6, 8] by decide +kernel] at L
    have p : Links wb 3 1 2 8 := by unfold Links; decide +kernel
    rcases L.split with ⟨L, -⟩ | ⟨n, -⟩ | ⟨n, -⟩
    · rcases L.split with ⟨-, q, hq, -⟩ | ⟨-, -, ew⟩ | ⟨-, n, -⟩
      · cases hq
      · rw [ew]; decide +kernel
      · exact absurd p n
    · exact absurd p (n 8 (by simp))
    · exact absurd p (n 8 (by simp))

end Rei
