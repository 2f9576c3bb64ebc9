import Verif.Props.Containment

/-!
# C06, C08-C14: what one `add_element`, `remove_element`, `register` or `deregister` does
-/
namespace Rei
open PyM Sample

/-! ## Auxiliary facts -/

theorem Within.lt {h : Heap} (I : Inv h) {x y : Ref} (hx : x < h.size) (w : Within h x y) :
    y < h.size := by
  rcases w with rfl | q
  · exact hx
  · exact (q.lt I).2

theorem Quiet.anc {h h' : Heap} (q : Quiet h h') (a b : Ref) : Anc h' a b ↔ Anc h a b := by
  constructor
  · intro p
    induction p with
    | direct hp => exact .direct (by rw [← q.parent]; exact hp)
    | up hp _ ih => exact .up (by rw [← q.parent]; exact hp) ih
  · intro p
    induction p with
    | direct hp => exact .direct (by rw [q.parent]; exact hp)
    | up hp _ ih => exact .up (by rw [q.parent]; exact hp) ih

theorem Quiet.within {h h' : Heap} (q : Quiet h h') (a b : Ref) : Within h' a b ↔ Within h a b := by
  unfold Within; rw [q.anc]

theorem Quiet.pathTo {h h' : Heap} (q : Quiet h h') {x : Ref} {l : List Str} (p : PathTo h x l) :
    PathTo h' x l :=
  PathTo.of_same (D := fun _ => True) (fun y _ => q.parent y) (fun y _ => q.idName y)
    (fun _ _ _ _ => trivial) trivial p

theorem NamedByPath.quiet {h h' : Heap} (q : Quiet h h') {x : Ref} (n : NamedByPath h x) :
    NamedByPath h' x := by
  obtain ⟨l, p, e⟩ := n
  exact ⟨l, q.pathTo p, by rw [q.qualName, e]⟩

theorem Moved.named {c x : Ref} {h h' : Heap} (m : Moved c x h h') (hx : x < h.size) {y : Ref}
    (w : Within h' x y) : NamedByPath h' y := by
  have w' := (m.sim.within x y).1 w
  have hy : y < (moveH h c x).size := w'.lt m.inv (by rw [moveH_size]; exact hx)
  obtain ⟨l, p, _⟩ := m.inv.exists_path hy
  exact ⟨l, m.sim.pathTo p, m.names y w' l p⟩

/-- The elements of a dictionary keyed by uuid, after the removal of one key. -/
theorem values_erase {h : Heap} (I : Inv h) {p x : Ref} (hp : (h.get x).parent = some p) :
    ((h.get p).subs.erase (h.get x).uuid).values =
      (h.subelements p).filter fun y => decide (y ≠ x) := by
  have key : ∀ d : Dict Bytes Ref, (∀ q ∈ d, q ∈ (h.get p).subs) →
      (d.erase (h.get x).uuid).values = d.values.filter fun y => decide (y ≠ x) := by
    intro d
    induction d with
    | nil => intro _; rfl
    | cons q d ih =>
      intro hd
      have ih := ih fun r hr => hd r (List.mem_cons_of_mem _ hr)
      have hq := (I.mem p q.1 q.2).1 (hd q (by simp))
      have hq1 : (h.get q.2).parent = some p := hq.1
      have hq2 : (h.get q.2).uuid = q.1 := hq.2
      have hiff : q.1 = (h.get x).uuid ↔ q.2 = x := by
        constructor
        · intro e
          have a : (h.get p).subs.get? q.1 = some q.2 := (SInv.get?_subs I p q.1 q.2).2 ⟨hq1, hq2⟩
          have b : (h.get p).subs.get? q.1 = some x := (SInv.get?_subs I p q.1 x).2 ⟨hp, e.symm⟩
          rw [a] at b; cases b; rfl
        · intro e; rw [← e, hq2]
      simp only [Dict.erase, Dict.values_cons, List.filter_cons] at ih ⊢
      by_cases hc : q.2 = x
      · have hc' := hiff.2 hc
        simp only [hc, hc', ne_eq, not_true_eq_false, decide_false, Bool.false_eq_true, if_false]
        exact ih
      · have hc' : ¬ q.1 = (h.get x).uuid := fun e => hc (hiff.1 e)
        simp only [hc, hc', ne_eq, not_false_eq_true, decide_true, if_true, Dict.values_cons, ih]
  exact key _ fun q hq => hq

theorem filter_ne_of_not_mem {l : List Nat} {x : Nat} (hx : x ∉ l) :
    (l.filter fun y => decide (y ≠ x)) = l := by
  rw [List.filter_eq_self]
  intro y hy
  simp only [ne_eq, decide_eq_true_eq]
  intro e; exact hx (e ▸ hy)

/-! ## C06 -/

/-- **C06.** After a successful `c.add_element(x)`, `x` and everything below it is named by its path,
and nothing else changes its name. -/
theorem C06_requalify {E : Env} {h h' : Heap} (r : Reach E h) {c x : Ref}
    (hv : (Op.add c x).Valid h) (hs : (Op.add c x).Safe h)
    (ha : addElement E c x h = (.ok (), h')) :
    (∀ y, Within h' x y → NamedByPath h' y) ∧
    (∀ y < h.size, ¬ Within h' x y → (h'.get y).qualName = (h.get y).qualName) := by
  have I := r.good.inv
  obtain ⟨h1, m, hh⟩ := addElement_ok I E hv.1 hv.2 hs ha
  have hsz : h1.size = h.size := by rw [m.sim.size, moveH_size]
  have hout : ∀ y, ¬ Within h1 x y → (h1.get y).qualName = (h.get y).qualName := by
    intro y w
    rw [m.sim.same y (fun q => w ((m.sim.within x y).2 q)), moveH_qualName]
  rcases hh with ⟨_, q, _⟩ | ⟨_, _, C⟩
  · constructor
    · intro y w
      exact (m.named hv.2 ((q.within x y).1 w)).quiet q
    · intro y _ w
      rw [q.qualName]; exact hout y fun p => w ((q.within x y).2 p)
  · have hanc : ∀ {a y}, y < h1.size → (Anc h' a y ↔ Anc h1 a y) := by
      intro a y hy
      have hp : ∀ z < h1.size, (h'.get z).parent = (h1.get z).parent := by
        intro z hz; rw [C.parent, if_neg (Nat.ne_of_lt hz)]
      constructor
      · exact anc_of_parent_same m.inv' hp hy
      · intro q
        induction q with
        | direct hq => exact .direct (by rw [hp _ hy]; exact hq)
        | up hq _ ih => exact .up (by rw [hp _ hy]; exact hq) (ih (SInv.parent_lt m.inv' hq))
    constructor
    · intro y w
      by_cases hy : y = h1.size
      · subst hy; exact C.namedP
      · have hyl : y < h1.size := by
          have := w.lt C.inv (by rw [C.size]; have := hv.2; omega)
          rw [C.size] at this; omega
        have w1 : Within h1 x y := by
          rcases w with e | q
          · exact .inl e
          · exact .inr ((hanc hyl).1 q)
        obtain ⟨l, p, e⟩ := m.named hv.2 w1
        refine ⟨l, ?_, by rw [C.qualName y hyl, e]⟩
        refine PathTo.of_same (D := fun z => z < h1.size) ?_ ?_ ?_ hyl p
        · intro z hz; rw [C.parent, if_neg (Nat.ne_of_lt hz)]
        · intro z hz; exact C.idName z hz
        · intro z p _ hp; exact SInv.parent_lt m.inv' hp
    · intro y hy w
      rw [C.qualName y (by omega)]
      apply hout
      rintro (e | q)
      · exact w (.inl e)
      · exact w (.inr ((hanc (by omega)).2 q))

/-! ## C08 -/

/-- **C08.** Adding an element to itself is refused, in every state and for every class. -/
theorem C08_refuse_self (E : Env) (h : Heap) (c : Ref) :
    addElement E c c h = (.error .recursiveHierarchy, h) := by
  by_cases hk : (h.get c).kind = .relation
  · rw [addElement_relation hk, bind_err baseAdd_self]
  by_cases hk' : (h.get c).kind = .edge
  · rw [addElement_edge hk', bind_err baseAdd_self]
  · rw [addElement_plain hk hk', baseAdd_self]

/-- **C08.** Adding an element whose uuid is already present is refused without any change. -/
theorem C08_refuse_duplicate {E : Env} {h : Heap} (r : Reach E h) {c x y : Ref} (hx : x ≠ c)
    (hy : y ∈ h.subelements c) (hu : (h.get y).uuid = (h.get x).uuid) :
    addElement E c x h = (.error .duplicateElement, h) := by
  have hd : (h.get x).uuid ∈ (h.get c).subs.keys := by
    have hp := (C01_containment_agrees r c).1 y |>.1 hy
    have := (r.good.inv.mem c (h.get y).uuid y).2 ⟨hp, rfl⟩
    rw [← hu]; exact Dict.mem_keys_of_mem this
  by_cases hk : (h.get c).kind = .relation
  · rw [addElement_relation hk, bind_err (baseAdd_dup hx hd)]
  by_cases hk' : (h.get c).kind = .edge
  · rw [addElement_edge hk', bind_err (baseAdd_dup hx hd)]
  · rw [addElement_plain hk hk', baseAdd_dup hx hd]

/-- **C08.** A safe add to a container that is not a relation either is refused for one of these two
reasons, or succeeds, or the container is an edge whose constructor did not finish. -/
theorem C08_add_total {E : Env} {h : Heap} (r : Reach E h) {c x : Ref}
    (hv : (Op.add c x).Valid h) (hs : (Op.add c x).Safe h)
    (hk : (h.get c).kind ≠ .relation) (hg : (h.get c).kind = .edge → (h.get c).genCtx ≠ none) :
    x = c ∨ (∃ y ∈ h.subelements c, (h.get y).uuid = (h.get x).uuid) ∨
      ∃ h', addElement E c x h = (.ok (), h') := by
  rcases r.good.baseAdd_cases E hv.1 hv.2 hs with ⟨e, _⟩ | ⟨_, hd, _⟩ | ⟨hne, hd, h1, h1r, sim, _⟩
  · exact .inl e
  · refine .inr (.inl ?_)
    obtain ⟨⟨u, y⟩, hm, rfl⟩ := List.mem_map.1 hd
    have := (r.good.inv.mem c _ y).1 hm
    exact ⟨y, (C01_containment_agrees r c).1 y |>.2 this.1, this.2⟩
  · refine .inr (.inr ?_)
    by_cases hk' : (h.get c).kind = .edge
    · rw [addElement_edge hk', bind_ok h1r, obj_bind_run]
      by_cases hrel : (h1.get x).kind = .relation
      · rw [if_pos hrel, obj_bind_run]
        have : (h1.get c).genCtx = (h.get c).genCtx := by rw [sim.genCtx, moveH_genCtx]
        cases hgc : (h1.get c).genCtx with
        | none => rw [hgc] at this; exact absurd this.symm (hg hk')
        | some ctx => exact ⟨_, rfl⟩
      · rw [if_neg hrel]; exact ⟨_, rfl⟩
    · rw [addElement_plain hk hk']; exact ⟨_, h1r⟩

/-! ## C09 -/

/-- **C09.** Adding `x` to `c` while it is in `p` moves it: last in `c`, gone from `p` (others in order),
both counts adjusted, all other containers as before. (When `c` is a relation and `x` a hypergraph
element, `x` also gets a port, the object created by the call: `x`'s own children are excluded.) -/
theorem C09_move {E : Env} {h h' : Heap} (r : Reach E h) {c x p : Ref}
    (hv : (Op.add c x).Valid h) (hs : (Op.add c x).Safe h) (hp : (h.get x).parent = some p)
    (ha : addElement E c x h = (.ok (), h')) :
    c ≠ p ∧ (h'.get x).parent = some c ∧
    h'.subelements c = h.subelements c ++ [x] ∧
    h'.subelements p = ((h.subelements p).filter fun y => decide (y ≠ x)) ∧
    (h'.get c).cnt = (h.get c).cnt + 1 ∧ (h'.get p).cnt = (h.get p).cnt - 1 ∧
    (∀ d < h.size, d ≠ c → d ≠ p → d ≠ x →
      h'.subelements d = h.subelements d ∧ (h'.get d).cnt = (h.get d).cnt) ∧
    (∀ y < h.size, y ≠ x → (h'.get y).parent = (h.get y).parent) := by
  have I := r.good.inv
  have r' : Reach E h' := by
    have := Reach.step _ r hv hs
    have e : (Op.add c x).after E h = h' := by show (addElement E c x h).2 = h'; rw [ha]
    rwa [e] at this
  obtain ⟨h1, m, hh⟩ := addElement_ok I E hv.1 hv.2 hs ha
  have hsz : h1.size = h.size := by rw [m.sim.size, moveH_size]
  have hcp : c ≠ p := by
    intro e; subst e
    exact I.parent_ne_of_not_mem m.new hp
  have hpx : p ≠ x := SInv.parent_ne I hp
  have hpl : p < h.size := SInv.parent_lt I hp
  -- sub-elements and parents of old objects other than x
  have hsubs : ∀ d < h.size, d ≠ x → (h'.get d).subs = (h1.get d).subs := by
    intro d hd hdx
    rcases hh with ⟨_, q, _⟩ | ⟨_, _, C⟩
    · exact q.subs d
    · rw [C.subs d (by omega), if_neg hdx]
  have hpar : ∀ y < h.size, (h'.get y).parent = (h1.get y).parent := by
    intro y hy
    rcases hh with ⟨_, q, _⟩ | ⟨_, _, C⟩
    · exact q.parent y
    · rw [C.parent y, if_neg (by omega)]
  have sc : h'.subelements c = h.subelements c ++ [x] := by
    unfold Heap.subelements
    rw [hsubs c hv.1 m.ne.symm, m.subs I c, if_pos rfl]
    simp [Dict.values]
  have sp : h'.subelements p = ((h.subelements p).filter fun y => decide (y ≠ x)) := by
    rw [← values_erase I hp]
    unfold Heap.subelements
    rw [hsubs p hpl hpx, m.subs I p, if_neg hcp.symm, if_pos hp]
  have sd : ∀ d < h.size, d ≠ c → d ≠ p → d ≠ x → h'.subelements d = h.subelements d := by
    intro d hd hdc hdp hdx
    unfold Heap.subelements
    rw [hsubs d hd hdx, m.subs I d, if_neg hdc, if_neg (by rw [hp]; intro e; exact hdp (by cases e; rfl))]
  have cnt := C02_count_exact r
  have cnt' := C02_count_exact r'
  have hxp : x ∈ h.subelements p := (C01_containment_agrees r p).1 x |>.2 hp
  refine ⟨hcp, ?_, sc, sp, ?_, ?_, ?_, ?_⟩
  · rw [hpar x hv.2, m.parent I x, if_pos rfl]
  · rw [cnt' c, cnt c, sc]; simp
  · rw [cnt' p, cnt p, sp]
    have := List.length_eq_length_filter_add (l := h.subelements p) fun y => decide (y ≠ x)
    have one : ((h.subelements p).filter fun y => !decide (y ≠ x)).length = 1 := by
      have hnd := (C01_containment_agrees r p).2
      have e : ((h.subelements p).filter fun y => !decide (y ≠ x)) =
          (h.subelements p).filter fun y => y == x := by
        congr 1; funext y; simp
        by_cases hy : y = x <;> simp [hy]
      rw [e, List.filter_beq, List.length_replicate]
      exact List.count_eq_one_of_mem hnd hxp
    omega
  · intro d hd hdc hdp hdx
    have e := sd d hd hdc hdp hdx
    refine ⟨e, ?_⟩
    rw [cnt' d, cnt d, e]
  · intro y hy hyx
    rw [hpar y hy, m.parent I y, if_neg hyx]

/-- **C09**, name lookups after the move. -/
theorem C09_lookup {E : Env} {h h' : Heap} (r : Reach E h) {c x p : Ref}
    (hv : (Op.add c x).Valid h) (hs : (Op.add c x).Safe h) (hp : (h.get x).parent = some p)
    (ha : addElement E c x h = (.ok (), h')) {nm : Str} (hn : '/' ∉ nm) {lc lp : List Ref}
    (hc : getElementByIdName h c nm = .ok lc) (hl : getElementByIdName h p nm = .ok lp) :
    getElementByIdName h' c nm = .ok (if (h.get x).idName = nm then lc ++ [x] else lc) ∧
    getElementByIdName h' p nm = .ok (lp.filter fun y => decide (y ≠ x)) := by
  have I := r.good.inv
  have r' : Reach E h' := by
    have := Reach.step _ r hv hs
    have e : (Op.add c x).after E h = h' := by show (addElement E c x h).2 = h'; rw [ha]
    rwa [e] at this
  have conc : ∀ d l, getElementByIdName h d nm = .ok l → (h.get d).kind.isConceptual = true := by
    intro d l hd
    unfold getElementByIdName at hd
    rw [Str.split_of_not_mem hn] at hd
    simp only [lookupTokens] at hd
    by_cases hk : (h.get d).kind.isConceptual = true
    · exact hk
    · rw [if_neg hk] at hd; cases hd
  have K := (frames_addElement (L := False) E c x h).keeps
  rw [ha] at K
  have hpl : p < h.size := SInv.parent_lt I hp
  have idn : ∀ d < h.size, (h'.get d).idName = (h.get d).idName := K.idName
  have kc := conc c _ hc
  have kp := conc p _ hl
  obtain ⟨_, _, sc, sp, _⟩ := C09_move r hv hs hp ha
  have A := C03_lookup_exact r
  have A' := C03_lookup_exact r'
  have hcongr : ∀ l : List Ref, (∀ y ∈ l, y < h.size) →
      (l.filter fun y => decide ((h'.get y).idName = nm)) =
        l.filter fun y => decide ((h.get y).idName = nm) := by
    intro l hl
    apply List.filter_congr
    intro y hy; rw [idn y (hl y hy)]
  have hlt : ∀ d, ∀ y ∈ h.subelements d, y < h.size := by
    intro d y hy
    exact SInv.lt_of_parent I ((C01_containment_agrees r d).1 y |>.1 hy)
  have ec := A c nm kc hn
  have ep := A p nm kp hn
  rw [hc] at ec; rw [hl] at ep
  cases ec; cases ep
  constructor
  · rw [A' c nm (by rw [K.kind c hv.1]; exact kc) hn, sc, hcongr]
    · rw [List.filter_append]
      by_cases hx : (h.get x).idName = nm
      · simp [hx]
      · simp [hx]
    · intro y hy
      rcases List.mem_append.1 hy with hy | hy
      · exact hlt c y hy
      · simp at hy; subst hy; exact hv.2
  · rw [A' p nm (by rw [K.kind p hpl]; exact kp) hn, sp, hcongr]
    · rw [List.filter_filter, List.filter_filter]
      congr 2; funext y; exact Bool.and_comm _ _
    · intro y hy
      exact hlt p y (List.mem_filter.1 hy).1

end Rei
