import Verif.Spec.Containment
import Verif.Props.Sample

/-!
# C01-C05: the containment hierarchy over all histories
-/
namespace Rei
open PyM Sample

/-- **C01.** In every state reached by safe calls, containment and `parent` agree. -/
theorem C01_containment_agrees {E : Env} {h : Heap} (r : Reach E h) : ContainmentAgrees h :=
  fun c => ⟨fun x => r.good.inv.mem_subelements c x, r.good.inv.values_nodup c⟩

/-- **C02.** In every state reached by safe calls, the element count is exact. -/
theorem C02_count_exact {E : Env} {h : Heap} (r : Reach E h) : CountExact h := by
  intro c
  have := r.good.inv.cnt c
  rw [show (h.get c).cnt = (h.st c).cnt from rfl, this]
  simp [Heap.subelements, Dict.values, Heap.st, Obj.st]

/-- **C03.** In every state reached by safe calls, a single-name lookup is the ordered list of the
children with that name. -/
theorem C03_lookup_exact {E : Env} {h : Heap} (r : Reach E h) : LookupExact h := by
  intro c nm hk hn
  unfold getElementByIdName
  rw [Str.split_of_not_mem hn]
  simp only [lookupTokens, hk, if_true]
  rw [r.good.inv.moveH_index_named]

/-- **C03**, second half: the result contains no duplicates. -/
theorem C03_lookup_nodup {E : Env} {h : Heap} (r : Reach E h) {c : Ref} {nm : Str} {l : List Ref}
    (hk : (h.get c).kind.isConceptual = true) (hn : '/' ∉ nm)
    (hl : getElementByIdName h c nm = .ok l) : l.Nodup := by
  rw [C03_lookup_exact r c nm hk hn] at hl
  cases hl
  exact ((C01_containment_agrees r c).2).filter _

/-- **C04.** Siblings have different context ids. -/
theorem C04_cid_unique {E : Env} {h : Heap} (r : Reach E h) {c x y : Ref}
    (hx : x ∈ h.subelements c) (hy : y ∈ h.subelements c) (he : (h.get x).cid = (h.get y).cid) :
    x = y :=
  r.good.inv.cidInj x y c ((C01_containment_agrees r c).1 x |>.1 hx)
    ((C01_containment_agrees r c).1 y |>.1 hy) he

theorem after_hist (E : Env) (op : Op) (h : Heap) {c : Ref} (hc : c < h.size) :
    h.size ≤ (op.after E h).size ∧ (h.get c).hist ≤ ((op.after E h).get c).hist := by
  by_cases hop : ∃ x k, op = .setClock x k
  · obtain ⟨x, k, rfl⟩ := hop
    refine ⟨Nat.le_refl _, ?_⟩
    show _ ≤ ((h.mod x fun o => { o with clock := k }).get c).hist
    simp only [Heap.get_mod]
    split
    · next e => subst e; exact Nat.le_refl _
    · exact Nat.le_refl _
  · have := (frames_run E op (fun x k e => hop ⟨x, k, e⟩) h).keeps
    exact ⟨this.size, this.hist c hc⟩

theorem Later.hist {E : Env} {h h' : Heap} (l : Later E h h') {c : Ref} (hc : c < h.size) :
    h.size ≤ h'.size ∧ (h.get c).hist ≤ (h'.get c).hist := by
  induction l with
  | refl => exact ⟨Nat.le_refl _, Nat.le_refl _⟩
  | step op _ _ ih =>
    have := after_hist E op _ (c := c) (Nat.lt_of_lt_of_le hc ih.1)
    exact ⟨ih.1.trans this.1, ih.2.trans this.2⟩

/-- The context id handed out by a successful add, and the one to be handed out next. -/
theorem added_cid {E : Env} {h h2 : Heap} (I : Inv h) {c x : Ref} (hc : c < h.size)
    (hx : x < h.size) (S : AddSafe h c x) (hr : addElement E c x h = (.ok (), h2)) :
    (h2.get x).cid = (h.get c).hist ∧ (h.get c).hist < (h2.get c).hist := by
  obtain ⟨h1, m, hh⟩ := addElement_ok I E hc hx S hr
  have h1x : (h1.get x).cid = (h.get c).hist := by
    rw [m.sim.cid, moveH_cid, if_pos rfl]
  have h1c : (h1.get c).hist = (h.get c).hist + 1 := by
    rw [m.sim.hist, moveH_hist _ _ _ _ m.ne.symm, if_pos rfl]
  have hsz : h1.size = h.size := by rw [m.sim.size, moveH_size]
  rcases hh with ⟨_, q, _⟩ | ⟨_, _, C⟩
  · rw [q.cid, q.hist, h1x, h1c]; exact ⟨rfl, Nat.lt_succ_self _⟩
  · rw [C.cid x (by omega), C.hist c (by omega), if_neg m.ne.symm, h1x, h1c]
    exact ⟨rfl, Nat.lt_succ_self _⟩

/-- **C04.** A context id handed out by a container is never handed out again: whatever calls are made
between two successful adds to `c` (removals included), the later one gets a larger id. -/
theorem C04_cid_never_reused {E : Env} {h h1 h2 h3 : Heap} (r : Reach E h) {c x y : Ref}
    (hv : (Op.add c x).Valid h) (hs : (Op.add c x).Safe h)
    (ha : addElement E c x h = (.ok (), h1)) (l : Later E h1 h2)
    (r2 : Reach E h2) (hv2 : (Op.add c y).Valid h2) (hs2 : (Op.add c y).Safe h2)
    (ha2 : addElement E c y h2 = (.ok (), h3)) : (h1.get x).cid < (h3.get y).cid := by
  have a := added_cid r.good.inv hv.1 hv.2 hs ha
  have b := added_cid r2.good.inv hv2.1 hv2.2 hs2 ha2
  have hc1 : c < h1.size := by
    have := (frames_addElement (L := False) E c x h).keeps.size
    rw [ha] at this; exact Nat.lt_of_lt_of_le hv.1 this
  have := (l.hist hc1).2
  rw [a.1, b.1]
  omega

/-- **C04.** Every sibling present has a context id below the next one to be handed out. -/
theorem C04_cid_below_next {E : Env} {h h2 : Heap} (r : Reach E h) {c x y : Ref}
    (hv : (Op.add c x).Valid h) (hs : (Op.add c x).Safe h)
    (ha : addElement E c x h = (.ok (), h2)) (hy : y ∈ h.subelements c) :
    (h.get y).cid < (h2.get x).cid := by
  have a := added_cid r.good.inv hv.1 hv.2 hs ha
  rw [a.1]
  exact r.good.inv.cidLt y c ((C01_containment_agrees r c).1 y |>.1 hy)

theorem rootIn_of_path {h : Heap} {x : Ref} {l : List Str} (q : PathTo h x l) :
    RootIn h x (l.length - 1) := by
  induction q with
  | root hp => exact .root hp
  | child hp q ih =>
    rename_i l
    have : 0 < l.length := by cases q <;> simp
    have e : ∀ a : Str, (l ++ [a]).length - 1 = (l.length - 1) + 1 := by intro a; simp; omega
    rw [e]
    exact .up hp ih

/-- **C05.** In every state reached by safe calls, following `parent` ends at a root, after fewer steps
than there are objects. -/
theorem C05_forest {E : Env} {h : Heap} (r : Reach E h) {x : Ref} (hx : x < h.size) :
    ∃ n < h.size, RootIn h x n := by
  obtain ⟨l, q, hl⟩ := r.good.inv.exists_path hx
  have : 0 < l.length := by cases q <;> simp
  exact ⟨l.length - 1, by omega, rootIn_of_path q⟩

/-- **C05.** No element contains itself, directly or through others. -/
theorem C05_no_self_containment {E : Env} {h : Heap} (r : Reach E h) (x : Ref) : ¬ Anc h x x :=
  r.good.inv.not_anc_self x

/-! ### The excluded calls break the properties -/

/-- **C05 refuted** for unrestricted calls: nothing stops a container from being added below itself;
the call raises `RecursionError` and leaves a containment cycle. -/
theorem C05_cycle_refuted : ∃ (E : Env) (h : Heap) (c x : Ref), Reach E h ∧ (Op.add c x).Valid h ∧
    x ≠ c ∧ (addElement E c x h).1 = .error .recursionError ∧
    ¬ Forest (addElement E c x h).2 := by
  refine ⟨E0, g2, 1, 0, reach2, ⟨by decide +kernel, by decide +kernel⟩, by decide,
    by decide +kernel, ?_⟩
  have p0 : ((addElement E0 1 0 g2).2.get 0).parent = some 1 := by decide +kernel
  have p1 : ((addElement E0 1 0 g2).2.get 1).parent = some 0 := by decide +kernel
  generalize (addElement E0 1 0 g2).2 = k at p0 p1
  intro f
  obtain ⟨n, hn⟩ := f 0
  have key : ∀ n : Nat, ∀ y : Nat, y < 2 → ¬ RootIn k y n := by
    intro n
    induction n with
    | zero =>
      intro y hy q
      cases q with
      | root hp =>
        have : y = 0 ∨ y = 1 := by omega
        rcases this with rfl | rfl
        · rw [p0] at hp; cases hp
        · rw [p1] at hp; cases hp
    | succ n ih =>
      intro y hy q
      cases q with
      | up hp q =>
        have : y = 0 ∨ y = 1 := by omega
        rcases this with rfl | rfl
        · rw [p0] at hp; cases hp; exact ih 1 (by omega) q
        · rw [p1] at hp; cases hp; exact ih 0 (by omega) q
  exact key n 0 (by omega) hn

/-- **C01 refuted** for moves out of an edge: adding a relation of an edge to another container raises
`KeyError` (the edge looks the relation up under its new context id) and leaves the relation listed in the new container but with no parent. -/
theorem C01_move_out_of_edge_refuted : ∃ (E : Env) (h : Heap) (c x : Ref), Reach E h ∧
    (Op.add c x).Valid h ∧ (addElement E c x h).1 = .error .keyError ∧
    ¬ ContainmentAgrees (addElement E c x h).2 := by
  refine ⟨E0, g6, 0, 4, reach6, ⟨by decide +kernel, by decide +kernel⟩, by decide +kernel, ?_⟩
  intro q
  have := (q 0).1 4
  revert this
  decide +kernel

/-- **C01 refuted** for a `(name, uuid)` removal whose name is that of another sub-element: it raises
`KeyError`, but the element is gone from the container while its `parent` still points there. -/
theorem C01_remove_wrong_name_refuted : ∃ (E : Env) (h : Heap) (c : Ref) (nm : Str) (u : Bytes),
    Reach E h ∧ c < h.size ∧ (removeElement E c nm (some u) none h).1 = .error .keyError ∧
    ¬ ContainmentAgrees (removeElement E c nm (some u) none h).2 := by
  refine ⟨E0, g3, 0, ['a'], [3], reach3, by decide +kernel, by decide +kernel, ?_⟩
  intro q
  have := (q 0).1 2
  revert this
  decide +kernel

/-- **C03 refuted** for a removal by name that is abandoned after the first of two matches: the other
one stays in the container but is not found by name any more. -/
theorem C03_abandoned_removal_refuted : ∃ (E : Env) (h : Heap) (c : Ref) (nm : Str),
    Reach E h ∧ c < h.size ∧ (∃ l, (removeElement E c nm none (some 1) h).1 = .ok l) ∧
    ¬ LookupExact (removeElement E c nm none (some 1) h).2 := by
  refine ⟨E0, g8, 0, ['a'], reach8, by decide +kernel, ⟨[1], by decide +kernel⟩, ?_⟩
  intro q
  have := q 0 ['a'] (by decide +kernel) (by decide)
  revert this
  decide +kernel

/-- **C02 refuted** when a clock has been set to `None`: removing the element raises
`ErrorClockNotSet` half way, and the container still counts it. -/
theorem C02_no_clock_refuted : ∃ (E : Env) (h : Heap) (c : Ref) (u : Bytes),
    ReachAny E h ∧ ContainmentAgrees h ∧ c < h.size ∧
    (removeElement E c [] (some u) none h).1 = .error .clockNotSet ∧
    ¬ CountExact (removeElement E c [] (some u) none h).2 := by
  have V : (Op.setClock 1 none).Valid g2 := show 1 < g2.size by decide +kernel
  refine ⟨E0, (Op.setClock 1 none).after E0 g2, 0, [2], .step _ reach2.any V, ?_, by decide +kernel,
    by decide +kernel, ?_⟩
  · have := C01_containment_agrees reach2
    intro c
    have h1 : ∀ y, (((Op.setClock 1 none).after E0 g2).get y).subs = (g2.get y).subs := by
      intro y; show ((g2.mod 1 fun o => { o with clock := none }).get y).subs = _; simp only [Heap.get_mod]; split
      · next e => subst e; rfl
      · rfl
    have h2 : ∀ y, (((Op.setClock 1 none).after E0 g2).get y).parent = (g2.get y).parent := by
      intro y; show ((g2.mod 1 fun o => { o with clock := none }).get y).parent = _; simp only [Heap.get_mod]; split
      · next e => subst e; rfl
      · rfl
    simp only [Heap.subelements, h1, h2]
    exact this c
  · intro q
    have := q 0
    revert this
    decide +kernel

/-- **C01 refuted** for removal on a relation: it takes out the sub-element whose uuid is that of the
relation's endpoint, without clearing its `parent`. -/
theorem C01_remove_on_relation_refuted : ∃ (E : Env) (h : Heap) (c : Ref), Reach E h ∧ c < h.size ∧
    (h.get c).kind = .relation ∧ (∃ l, (removeElement E c [] none none h).1 = .ok l) ∧
    ¬ ContainmentAgrees (removeElement E c [] none none h).2 := by
  -- a value node is endpoint and sub-element of a relation
  let s1 := (Op.mkValue [9] ['v'] (.str ['v']) none).after E0 Heap.empty
  let s2 := (Op.mkRelation [1] ['q'] (.str ['q']) (some 0) none .inwards none).after E0 s1
  let s3 := (Op.add 1 0).after E0 s2
  have r1 : Reach E0 s1 := .step _ .init trivial trivial
  have r2 : Reach E0 s2 := .step _ r1 ⟨okSome (by decide +kernel), okNone, okNone⟩ trivial
  have r3 : Reach E0 s3 := by
    refine .step _ r2 ⟨by decide +kernel, by decide +kernel⟩ ⟨?_, ?_⟩
    · exact not_anc_of_childless r2.good.inv (by decide +kernel)
    · intro p hp
      have : (s2.get 0).parent = none := by decide +kernel
      rw [this] at hp; cases hp
  refine ⟨E0, s3, 1, r3, by decide +kernel, by decide +kernel, ⟨[0], by decide +kernel⟩, ?_⟩
  intro q
  have := (q 1).1 0
  revert this
  decide +kernel

/-! ### The hypotheses are met by a non-trivial state -/

example : Reach E0 g10 ∧ g10.size = 11 ∧ g10.subelements 0 = [1, 2, 3, 9] ∧
    (g10.get 0).cnt = 4 ∧ getElementByIdName g10 0 ['a'] = .ok [1, 9] ∧
    (g10.get 9).cid = 3 := ⟨reach10, by decide +kernel⟩

example : addElement E0 2 8 g9 = (.ok (), g10) := by
  have : (addElement E0 2 8 g9).1 = .ok () := by decide +kernel
  exact Prod.ext this rfl

end Rei
