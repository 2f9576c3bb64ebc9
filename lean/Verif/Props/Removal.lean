import Verif.Props.Moves

/-!
# C10-C14: removal, laziness, register and deregister
-/
namespace Rei
open PyM Sample

/-- The container is of a class that uses the removal of the hierarchy base class: not an edge, not a
relation. -/
def Plain (h : Heap) (c : Ref) : Prop := (h.get c).kind ≠ .edge ∧ (h.get c).kind ≠ .relation

/-- Adding an element that is in no container: it becomes the last sub-element of `c`. -/
theorem C09_add_free {E : Env} {h h' : Heap} (r : Reach E h) {c x : Ref}
    (hv : (Op.add c x).Valid h) (hs : (Op.add c x).Safe h) (hp : (h.get x).parent = none)
    (ha : addElement E c x h = (.ok (), h')) :
    (h'.get x).parent = some c ∧ h'.subelements c = h.subelements c ++ [x] ∧
    (h'.get c).cnt = (h.get c).cnt + 1 ∧
    (∀ d < h.size, d ≠ c → d ≠ x →
      h'.subelements d = h.subelements d ∧ (h'.get d).cnt = (h.get d).cnt) ∧
    (∀ y < h.size, y ≠ x → (h'.get y).parent = (h.get y).parent) := by
  have I := r.good.inv
  have r' : Reach E h' := by
    have := Reach.step _ r hv hs
    have e : (Op.add c x).after E h = h' := by show (addElement E c x h).2 = h'; rw [ha]
    rwa [e] at this
  obtain ⟨h1, m, hh⟩ := addElement_ok I E hv.1 hv.2 hs ha
  have hsz : h1.size = h.size := by rw [m.sim.size, moveH_size]
  have hsubs : ∀ d < h.size, d ≠ x → (h'.get d).subs = (h1.get d).subs := by
    intro d hd hdx
    rcases hh with ⟨_, q, _⟩ | ⟨_, _, C⟩
    · exact q.subs d
    · rw [C.subs d (by omega), if_neg hdx]
  have hpar : ∀ y < h.size, (h'.get y).parent = (h1.get y).parent := by
    intro y hy
    rcases hh with ⟨_, q, _⟩ | ⟨_, _, C⟩
    · exact q.parent y
    · rw [C.parent y, if_neg (by omega)]
  have sc : h'.subelements c = h.subelements c ++ [x] := by
    unfold Heap.subelements
    rw [hsubs c hv.1 m.ne.symm, m.subs I c, if_pos rfl]
    simp [Dict.values]
  have sd : ∀ d < h.size, d ≠ c → d ≠ x → h'.subelements d = h.subelements d := by
    intro d hd hdc hdx
    unfold Heap.subelements
    rw [hsubs d hd hdx, m.subs I d, if_neg hdc, if_neg (by rw [hp]; intro e; cases e)]
  have cnt := C02_count_exact r
  have cnt' := C02_count_exact r'
  refine ⟨?_, sc, ?_, ?_, ?_⟩
  · rw [hpar x hv.2, m.parent I x, if_pos rfl]
  · rw [cnt' c, cnt c, sc]; simp
  · intro d hd hdc hdx
    have e := sd d hd hdc hdx
    exact ⟨e, by rw [cnt' d, cnt d, e]⟩
  · intro y hy hyx
    rw [hpar y hy, m.parent I y, if_neg hyx]

/-- The state after one element has been detached from its container. -/
theorem detached {h h' : Heap} (I : Inv h) {c x : Ref} (hp : (h.get x).parent = some c)
    (sim : Sim (· = x) (detachH h c x) h') :
    (h'.get x).parent = none ∧
    h'.subelements c = ((h.subelements c).filter fun y => decide (y ≠ x)) ∧
    (h'.get c).cnt = (h.get c).cnt - 1 ∧
    (∀ d, d ≠ c → h'.subelements d = h.subelements d ∧ (h'.get d).cnt = (h.get d).cnt) ∧
    (∀ y, y ≠ x → (h'.get y).parent = (h.get y).parent) ∧
    (∀ y, y ≠ x → (h'.get y).qualName = (h.get y).qualName) := by
  have hcx : c ≠ x := SInv.parent_ne I hp
  have hcnt : ∀ y, ((detachH h c x).get y).cnt = if y = c then (h.get c).cnt - 1 else (h.get y).cnt := by
    intro y
    have := sDetach_cnt (s := h.st) (p := c) (x := x) hcx y
    rw [← detachH_st] at this
    exact this
  refine ⟨?_, ?_, ?_, ?_, ?_, ?_⟩
  · rw [sim.parent, detachH_parent, if_pos rfl]
  · rw [← values_erase I hp]
    unfold Heap.subelements
    rw [sim.subs, detachH_subs _ _ _ _ hcx, if_pos rfl]
  · rw [sim.cnt, hcnt, if_pos rfl]
  · intro d hd
    unfold Heap.subelements
    rw [sim.subs, detachH_subs _ _ _ _ hcx, if_neg hd, sim.cnt, hcnt, if_neg hd]
    exact ⟨rfl, rfl⟩
  · intro y hy; rw [sim.parent, detachH_parent, if_neg hy]
  · intro y hy; rw [sim.same y hy, detachH_qualName]

/-- **C10.** Removal of a present element by uuid (with or without its name) yields exactly it. -/
theorem C10_remove_uuid {E : Env} {h : Heap} (r : Reach E h) {c x : Ref} {nm : Str}
    (hk : Plain h c) (hx : x ∈ h.subelements c) (hnm : nm = [] ∨ nm = (h.get x).idName) :
    ∃ h', removeElement E c nm (some (h.get x).uuid) none h = (.ok [x], h') ∧
      (h'.get x).parent = none ∧ (h'.get x).qualName = (h.get x).idName ∧
      h'.subelements c = ((h.subelements c).filter fun y => decide (y ≠ x)) ∧
      (h'.get c).cnt = (h.get c).cnt - 1 ∧
      (∀ d, d ≠ c → h'.subelements d = h.subelements d ∧ (h'.get d).cnt = (h.get d).cnt) ∧
      (∀ y, y ≠ x → (h'.get y).parent = (h.get y).parent ∧
        (h'.get y).qualName = (h.get y).qualName) := by
  have I := r.good.inv
  have hp := (C01_containment_agrees r c).1 x |>.1 hx
  obtain ⟨h', hr, sim, hq, _⟩ := I.removeUuid E (lim := none) (by simp) hp hnm
  obtain ⟨a, b, d, e, f, g⟩ := detached I hp sim
  exact ⟨h', by rw [removeElement_plain hk.1 hk.2]; exact hr, a, hq, b, d, e, fun y hy => ⟨f y hy, g y hy⟩⟩

theorem anc_of_detached {h h1 : Heap} {x : Ref} (a : (h1.get x).parent = none)
    (f : ∀ y, y ≠ x → (h1.get y).parent = (h.get y).parent) {a' b' : Ref} (q : Anc h1 a' b') :
    Anc h a' b' := by
  induction q with
  | @direct y p hq =>
    by_cases hy : y = x
    · subst hy; rw [a] at hq; cases hq
    · exact .direct (by rw [← f y hy]; exact hq)
  | @up y p _ hq _ ih =>
    by_cases hy : y = x
    · subst hy; rw [a] at hq; cases hq
    · exact .up (by rw [← f y hy]; exact hq) ih

/-- **C10**, last part: the removed element can be added again. -/
theorem C10_add_again {E : Env} {h h' : Heap} (r : Reach E h) {c x : Ref}
    (hk : Plain h c) (hx : x ∈ h.subelements c)
    (hr : removeElement E c [] (some (h.get x).uuid) none h = (.ok [x], h')) :
    ∃ h2, addElement E c x h' = (.ok (), h2) ∧
      h2.subelements c = ((h.subelements c).filter fun y => decide (y ≠ x)) ++ [x] := by
  have I := r.good.inv
  have hp := (C01_containment_agrees r c).1 x |>.1 hx
  obtain ⟨h1, hr1, sim, _, _⟩ := I.removeUuid E (lim := none) (nm := []) (by simp) hp (.inl rfl)
  have hh : h' = h1 := by
    rw [removeElement_plain hk.1 hk.2, hr1] at hr
    cases hr; rfl
  subst hh
  obtain ⟨a, b, _, _, f, _⟩ := detached I hp sim
  have hcl : c < h.size := SInv.parent_lt I hp
  have hxl : x < h.size := SInv.lt_of_parent I hp
  have r' : Reach E h' := by
    have S : (Op.remove c [] (some (h.get x).uuid) none).Safe h := ⟨hk.2, fun e => absurd rfl e⟩
    have := Reach.step (.remove c [] (some (h.get x).uuid) none) r hcl S
    have e : (Op.remove c [] (some (h.get x).uuid) none).after E h = h' := by
      show ((removeElement E c [] (some (h.get x).uuid) none).void h).2 = h'
      rw [void_run, removeElement_plain hk.1 hk.2, hr1]
    rwa [e] at this
  have hsz : h'.size = h.size := by rw [sim.size, detachH_size]
  have hcx : c ≠ x := SInv.parent_ne I hp
  have hkc : (h'.get c).kind = (h.get c).kind := by rw [sim.kind, detachH_kind]
  have S : AddSafe h' c x := by
    refine ⟨?_, fun p hq => by rw [a] at hq; cases hq⟩
    intro q
    have hq2 : Anc h x c := anc_of_detached a f q
    exact I.not_anc_self x (hq2.trans (.direct hp))
  have V : (Op.add c x).Valid h' := ⟨by omega, by omega⟩
  rcases C08_add_total r' V S (by rw [hkc]; exact hk.2) (fun e => absurd (hkc ▸ e) hk.1) with
    e | ⟨y, hy, hu⟩ | ⟨h2, h2r⟩
  · exact absurd e.symm hcx
  · exfalso
    rw [b, List.mem_filter] at hy
    have hyx : y ≠ x := by simpa using hy.2
    have hyp := (C01_containment_agrees r c).1 y |>.1 hy.1
    have hu' : (h.get y).uuid = (h.get x).uuid := by
      rw [sim.uuid, sim.uuid, detachH_uuid, detachH_uuid] at hu; exact hu
    have a1 := (SInv.get?_subs I c (h.get x).uuid y).2 ⟨hyp, hu'⟩
    have a2 := (SInv.get?_subs I c (h.get x).uuid x).2 ⟨hp, rfl⟩
    rw [a1] at a2; cases a2; exact hyx rfl
  · obtain ⟨_, sc, _⟩ := C09_add_free r' V S a h2r
    exact ⟨h2, h2r, by rw [sc, b]⟩

/-! ## Removal by name -/

theorem filter_filter_ne {l : List Nat} {v : Nat} {vs : List Nat} :
    ((l.filter fun y => decide (y ≠ v)).filter fun y => decide (y ∉ vs)) =
      l.filter fun y => decide (y ∉ v :: vs) := by
  rw [List.filter_filter]
  congr 1; funext y
  simp only [List.mem_cons, not_or, ne_eq, Bool.decide_and]
  exact Bool.and_comm _ _

theorem detachAll_eff {h : Heap} (I : Inv h) {c : Ref} {vs : List Ref} (hn : vs.Nodup)
    (hv : ∀ v ∈ vs, (h.get v).parent = some c) :
    (detachAllH h c vs).subelements c = ((h.subelements c).filter fun y => decide (y ∉ vs)) ∧
    ((detachAllH h c vs).get c).cnt = (h.get c).cnt - vs.length ∧
    (∀ d, d ≠ c → (detachAllH h c vs).subelements d = h.subelements d ∧
      ((detachAllH h c vs).get d).cnt = (h.get d).cnt) := by
  induction vs generalizing h with
  | nil => simp [detachAllH]
  | cons v vs ih =>
    rw [List.nodup_cons] at hn
    have hp := hv v (by simp)
    have I1 := I.detachH hp
    obtain ⟨a, b, cc, e, f, _⟩ := detached I hp (.refl _ _)
    have := ih I1 hn.2 (by
      intro w hw
      rw [f w (fun e => hn.1 (e ▸ hw))]
      exact hv w (List.mem_cons_of_mem _ hw))
    simp only [detachAllH]
    obtain ⟨t1, t2, t3⟩ := this
    refine ⟨?_, ?_, ?_⟩
    · rw [t1, b, filter_filter_ne]
    · rw [t2, cc]; simp; omega
    · intro d hd
      exact ⟨(t3 d hd).1.trans (e d hd).1, (t3 d hd).2.trans (e d hd).2⟩

/-- What a removal by name does when the consumer takes `lim` results. -/
theorem remove_name_eff {E : Env} {h : Heap} (I : Inv h) {c : Ref} {nm : Str} {lim : Option Nat}
    (hk : Plain h c) (hne : nm ≠ []) (hl : lim ≠ some 0)
    (hsome : ∃ x ∈ h.subelements c, (h.get x).idName = nm) :
    ∃ h', removeElement E c nm none lim h =
        (.ok (takeLim lim ((h.subelements c).filter fun x => decide ((h.get x).idName = nm))), h') ∧
      (∀ v ∈ takeLim lim ((h.subelements c).filter fun x => decide ((h.get x).idName = nm)),
        (h'.get v).parent = none ∧ (h'.get v).qualName = (h.get v).idName) ∧
      (∀ y, y ∉ takeLim lim ((h.subelements c).filter fun x => decide ((h.get x).idName = nm)) →
        (h'.get y).parent = (h.get y).parent ∧ (h'.get y).qualName = (h.get y).qualName) ∧
      h'.subelements c = ((h.subelements c).filter fun y => decide (y ∉
        takeLim lim ((h.subelements c).filter fun x => decide ((h.get x).idName = nm)))) ∧
      (h'.get c).cnt = (h.get c).cnt -
        (takeLim lim ((h.subelements c).filter fun x => decide ((h.get x).idName = nm))).length ∧
      (∀ d, d ≠ c → h'.subelements d = h.subelements d ∧ (h'.get d).cnt = (h.get d).cnt) := by
  rw [removeElement_plain hk.1 hk.2]
  unfold Rei.baseRemove
  simp only [if_neg hl, ne_eq, hne, not_false_eq_true, if_true, obj_bind_run]
  obtain ⟨x, hx, hxn⟩ := hsome
  have hxp := (I.mem_subelements c x).1 hx
  obtain ⟨d, hi, _, _⟩ := I.index_get hxp
  rw [hxn] at hi
  rw [hi]
  simp only [modify_bind_run]
  obtain ⟨f1, f2, f3⟩ := fixH_start I hi
  rw [named_eq] at f3
  generalize hh1 : (h.mod c fun o => { o with index := o.index.set nm [] }) = h1 at *
  have I1 : Inv (fixH h1 c nm) := by
    refine I.congr (by rw [← hh1]; rfl) ?_
    funext y; unfold Heap.st; rw [f1]
  obtain ⟨h', hr, hsim, I', hidx', hnm', hqn, _, hid⟩ := removeNamed_run (E := E) d.values lim h1 c
    nm I1 (by rw [← hh1]; simp) (by rw [f2, f3, named_eq])
  rw [f3] at hr hsim hqn
  rw [show d.values = _ from f3, hr]
  generalize hvs : takeLim lim ((h.subelements c).filter fun x => decide ((h.get x).idName = nm)) = vs
    at *
  have hsub : vs.Sublist (h.subelements c) := by
    rw [← hvs]; unfold takeLim
    cases lim with
    | none => exact List.filter_sublist
    | some k => exact (List.take_sublist _ _).trans List.filter_sublist
  have hnd : vs.Nodup := hsub.nodup (SInv.values_nodup I c)
  have hvp : ∀ v ∈ vs, (h.get v).parent = some c := fun v hv =>
    (I.mem_subelements c v).1 (hsub.subset hv)
  have eff := detachAll_eff I hnd hvp
  have hdet : ∀ y, (detachAllH (fixH h1 c nm) c vs).get y = (detachAllH h c vs).get y := by
    have e : (fixH h1 c nm).get = h.get := funext f1
    intro y
    have : ∀ (ws : List Ref) (a b : Heap), a.get = b.get → (detachAllH a c ws).get = (detachAllH b c ws).get := by
      intro ws
      induction ws with
      | nil => intro a b e; exact e
      | cons w ws ih =>
        intro a b e
        simp only [detachAllH]
        apply ih
        funext z
        simp only [detachH, Heap.set]
        rw [e]
    rw [this vs _ _ e]
  have π : ∀ {α : Type} (f : Obj → α) (_ : ∀ o i, f { o with index := i } = f o) (y : Ref),
      f ((fixH h' c nm).get y) = f (h'.get y) := fun f hf y => fixH_proj f hf h' c nm y
  refine ⟨h', rfl, ?_, ?_, ?_, ?_, ?_⟩
  · intro v hv
    constructor
    · rw [← π (·.parent) (fun _ _ => rfl), hsim.parent, hdet, detachAllH_parent, if_pos hv]
    · rw [hqn v hv, ← hh1]; simp only [Heap.get_mod]; split
      · next e => subst e; rfl
      · rfl
  · intro y hy
    constructor
    · rw [← π (·.parent) (fun _ _ => rfl), hsim.parent, hdet, detachAllH_parent, if_neg hy]
    · rw [← π (·.qualName) (fun _ _ => rfl), hsim.same y hy, hdet,
        detachAllH_proj (·.qualName) (fun _ _ _ => detachH_qualName _ _ _ _)]
  · rw [← eff.1]; unfold Heap.subelements
    rw [← π (·.subs) (fun _ _ => rfl), hsim.subs, hdet]
  · rw [← eff.2.1, ← π (·.cnt) (fun _ _ => rfl), hsim.cnt, hdet]
  · intro d hd
    have := eff.2.2 d hd
    unfold Heap.subelements at *
    rw [← π (·.subs) (fun _ _ => rfl), hsim.subs, hdet, ← π (·.cnt) (fun _ _ => rfl) d, hsim.cnt, hdet]
    exact this

/-- **C11.** `list(c.remove_element(name))` yields all and only the sub-elements of that name, in
order, detaches each of them, and leaves everything else alone. -/
theorem C11_remove_name {E : Env} {h : Heap} (r : Reach E h) {c : Ref} {nm : Str}
    (hk : Plain h c) (hne : nm ≠ []) (hsome : ∃ x ∈ h.subelements c, (h.get x).idName = nm) :
    ∃ vs h', vs = ((h.subelements c).filter fun x => decide ((h.get x).idName = nm)) ∧
      removeElement E c nm none none h = (.ok vs, h') ∧
      (∀ v ∈ vs, (h'.get v).parent = none ∧ (h'.get v).qualName = (h.get v).idName) ∧
      (∀ y, y ∉ vs → (h'.get y).parent = (h.get y).parent ∧
        (h'.get y).qualName = (h.get y).qualName) ∧
      h'.subelements c = ((h.subelements c).filter fun x => decide ((h.get x).idName ≠ nm)) ∧
      (h'.get c).cnt = (h.get c).cnt - vs.length ∧
      (∀ d, d ≠ c → h'.subelements d = h.subelements d ∧ (h'.get d).cnt = (h.get d).cnt) := by
  obtain ⟨h', a, b, d, e, f, g⟩ := remove_name_eff (E := E) r.good.inv hk hne (lim := none) (by simp) hsome
  refine ⟨_, h', rfl, a, b, d, ?_, f, g⟩
  rw [e]
  apply List.filter_congr
  intro y hy
  simp only [takeLim, List.mem_filter, hy, true_and, decide_eq_true_eq]

/-- **C13.** A removal that is not advanced changes nothing, for every class of container. -/
theorem C13_lazy (E : Env) (h : Heap) (c : Ref) (nm : Str) (u : Option Bytes) :
    removeElement E c nm u (some 0) h = (.ok [], h) := removeElement_zero

/-- **C13.** A removal by name abandoned after `k` results has detached exactly the first `k` matches;
the others are still there, in order. -/
theorem C13_abandoned {E : Env} {h : Heap} (r : Reach E h) {c : Ref} {nm : Str} {k : Nat}
    (hk : Plain h c) (hne : nm ≠ []) (hk0 : k ≠ 0)
    (hsome : ∃ x ∈ h.subelements c, (h.get x).idName = nm) :
    ∃ vs h', vs = ((h.subelements c).filter fun x => decide ((h.get x).idName = nm)).take k ∧
      removeElement E c nm none (some k) h = (.ok vs, h') ∧
      (∀ v ∈ vs, (h'.get v).parent = none) ∧
      (∀ y, y ∉ vs → (h'.get y).parent = (h.get y).parent) ∧
      h'.subelements c = ((h.subelements c).filter fun y => decide (y ∉ vs)) ∧
      (h'.get c).cnt = (h.get c).cnt - vs.length := by
  obtain ⟨h', a, b, d, e, f, g⟩ := remove_name_eff (E := E) r.good.inv hk hne (lim := some k)
    (by simpa using hk0) hsome
  exact ⟨_, h', rfl, a, fun v hv => (b v hv).1, fun y hy => (d y hy).1, e, f⟩

/-! ## Failed removals -/

/-- **C12.** `remove_element()` without a query raises `ErrorInvalidQuery` and changes nothing. -/
theorem C12_no_query {E : Env} {h : Heap} {c : Ref} (hk : (h.get c).kind ≠ .relation) :
    removeElement E c [] none none h = (.error .invalidQuery, h) := by
  have hb : ∀ l, l ≠ some 0 → baseRemove E c [] none l h = (.error .invalidQuery, h) := by
    intro l hl; unfold baseRemove; simp [hl]
  by_cases hk' : (h.get c).kind = .edge
  · unfold removeElement
    simp only [obj_bind_run, hk']
    rw [if_neg (by simp), bind_err (hb _ (by simp))]
  · rw [removeElement_plain hk' hk, hb _ (by simp)]

/-- **C12.** An unknown uuid (with or without a name) raises `KeyError` and changes nothing. -/
theorem C12_unknown_uuid {E : Env} {h : Heap} (r : Reach E h) {c : Ref} {nm : Str} {u : Bytes}
    (hk : (h.get c).kind ≠ .relation) (hu : ∀ x ∈ h.subelements c, (h.get x).uuid ≠ u) :
    removeElement E c nm (some u) none h = (.error .keyError, h) := by
  have hx : (h.get c).subs.get? u = none := by
    cases hg : (h.get c).subs.get? u with
    | none => rfl
    | some x =>
      have := (SInv.get?_subs r.good.inv c u x).1 hg
      exact absurd this.2 (hu x ((C01_containment_agrees r c).1 x |>.2 this.1))
  by_cases hk' : (h.get c).kind = .edge
  · unfold removeElement
    simp only [obj_bind_run, hk']
    rw [if_neg (by simp), bind_err (baseRemove_absent (by simp) hx)]
  · rw [removeElement_plain hk' hk, baseRemove_absent (by simp) hx]

/-- **C12.** A name that no sub-element has: `KeyError` or an empty result, and no change. -/
theorem C12_unknown_name {E : Env} {h : Heap} (r : Reach E h) {c : Ref} {nm : Str}
    (hk : (h.get c).kind ≠ .relation) (hne : nm ≠ [])
    (hu : ∀ x ∈ h.subelements c, (h.get x).idName ≠ nm) :
    removeElement E c nm none none h = (.error .keyError, h) ∨
    removeElement E c nm none none h = (.ok [], h) := by
  have I := r.good.inv
  have hb : ∀ lim, lim ≠ some 0 → baseRemove E c nm none lim h = (.error .keyError, h) ∨
      baseRemove E c nm none lim h = (.ok [], h) := by
    intro lim hl
    unfold baseRemove
    simp only [if_neg hl, ne_eq, hne, not_false_eq_true, if_true, obj_bind_run]
    cases hi : (h.get c).index.get? nm with
    | none => exact .inl rfl
    | some d =>
      right
      have hd : d.values = [] := by
        have := I.moveH_index_named c nm
        rw [hi] at this
        rw [show d.values = _ from this, List.filter_eq_nil_iff]
        intro x hx; simpa using hu x hx
      have hd' : d = [] := by
        cases d with
        | nil => rfl
        | cons a b => simp at hd
      simp only [modify_bind_run, hd, removeNamed, pure_run]
      rw [hd'] at hi
      congr 1
      show (h.mod c _) = h
      have : h.get = (h.mod c fun o => { o with index := o.index.set nm [] }).get := by
        funext y
        simp only [Heap.get_mod]
        split
        · next e => subst e; rw [Dict.set_get hi]
        · rfl
      cases h
      simp only [Heap.mod, Heap.set, Heap.mk.injEq, true_and, and_true] at this ⊢
      exact this.symm
  by_cases hk' : (h.get c).kind = .edge
  · unfold removeElement
    simp only [obj_bind_run, hk']
    rw [if_neg (by simp)]
    rcases hb (some 1) (by simp) with e | e
    · rw [bind_err e]; exact .inl rfl
    · rw [bind_ok e]; exact .inr rfl
  · rw [removeElement_plain hk' hk]; exact hb none (by simp)

/-- **C12 refuted** in its strict form: a name that was removed before does not raise any more. -/
theorem C12_removed_name_silent_refuted : ∃ (E : Env) (h : Heap) (c : Ref) (nm : Str), Reach E h ∧
    nm ≠ [] ∧ (∀ x ∈ h.subelements c, (h.get x).idName ≠ nm) ∧
    (removeElement E c nm none none h).1 = .ok [] := by
  refine ⟨E0, (Op.remove 0 ['a'] none none).after E0 g2, 0, ['a'], ?_, by simp, by decide +kernel,
    by decide +kernel⟩
  exact .step _ reach2 (by show 0 < g2.size; decide +kernel)
    ⟨by decide +kernel, fun _ => ⟨by decide +kernel, fun k hk => by cases hk⟩⟩

/-! ## C53: mismatching (name, uuid) pairs -/

/-- **C53**, proved part: a `(name, uuid)` pair that no sub-element has always raises `KeyError` and
changes no object except the container itself, and nothing at all if no sub-element has that uuid.
Missing (and false, `C53_mismatch_refuted`): the container is unchanged when a sub-element has that
uuid but another name. -/
theorem C53_mismatch_partial {E : Env} {h : Heap} (r : Reach E h) {c : Ref} {nm : Str} {u : Bytes}
    (hk : (h.get c).kind ≠ .relation) (hne : nm ≠ [])
    (hu : ∀ x ∈ h.subelements c, ¬ ((h.get x).uuid = u ∧ (h.get x).idName = nm)) :
    (removeElement E c nm (some u) none h).1 = .error .keyError ∧
    (∀ y, y ≠ c → (removeElement E c nm (some u) none h).2.get y = h.get y) ∧
    ((∀ x ∈ h.subelements c, (h.get x).uuid ≠ u) →
      (removeElement E c nm (some u) none h).2 = h) := by
  by_cases habs : ∀ x ∈ h.subelements c, (h.get x).uuid ≠ u
  · rw [C12_unknown_uuid r hk habs]; exact ⟨rfl, fun _ _ => rfl, fun _ => rfl⟩
  have I := r.good.inv
  cases hg : (h.get c).subs.get? u with
  | none =>
    exfalso; apply habs
    intro x hx e
    have := (SInv.get?_subs I c u x).2 ⟨(C01_containment_agrees r c).1 x |>.1 hx, e⟩
    rw [show (h.st c).subs = (h.get c).subs from rfl, hg] at this; cases this
  | some x =>
    have hx := (SInv.get?_subs I c u x).1 hg
    have hm : x ∈ h.subelements c := (C01_containment_agrees r c).1 x |>.2 hx.1
    have hpi : ∀ d, (h.get c).index.get? nm = some d → d.has u = false := by
      intro d hd
      have hix := I.index c nm
      rw [show (h.st c).index = (h.get c).index from rfl, hd] at hix
      rw [Dict.has_false_iff]
      intro hin
      rw [show d = _ from hix] at hin
      unfold Dict.keys at hin
      obtain ⟨p, hp, e⟩ := List.mem_map.1 hin
      have hp := List.mem_filter.1 hp
      have hpm := (I.mem c p.1 p.2).1 hp.1
      exact hu p.2 ((C01_containment_agrees r c).1 p.2 |>.2 hpm.1)
        ⟨hpm.2.trans e, of_decide_eq_true hp.2⟩
    have hb : ∀ lim, lim ≠ some 0 → baseRemove E c nm (some u) lim h =
        (.error .keyError, h.mod c fun o => { o with subs := o.subs.erase u }) := by
      intro lim hl
      have hps : popSub c u h = (.ok x, h.mod c fun o => { o with subs := o.subs.erase u }) := by
        unfold popSub; simp only [obj_bind_run, hg, modify_bind_run]; rfl
      unfold baseRemove
      rw [if_neg hl, if_pos hne]
      simp only
      rw [bind_ok hps]
      have hpx : popIndex c nm u (h.mod c fun o => { o with subs := o.subs.erase u }) =
          (.error .keyError, h.mod c fun o => { o with subs := o.subs.erase u }) := by
        unfold popIndex
        simp only [obj_bind_run, Heap.get_mod, if_true]
        cases hi : (h.get c).index.get? nm with
        | none => rfl
        | some d =>
          simp only [hpi d hi]
          rfl
      rw [bind_err hpx]
    have hrun : removeElement E c nm (some u) none h =
        (.error .keyError, h.mod c fun o => { o with subs := o.subs.erase u }) := by
      by_cases hk' : (h.get c).kind = .edge
      · unfold removeElement
        simp only [obj_bind_run, hk']
        rw [if_neg (by simp), bind_err (hb _ (by simp))]
      · rw [removeElement_plain hk' hk]; exact hb none (by simp)
    rw [hrun]
    refine ⟨rfl, fun y hy => ?_, fun q => absurd q habs⟩
    simp only [Heap.get_mod, if_neg hy]

open Sample in
/-- **C53 refuted**: a pair whose uuid is that of a sub-element with another name raises `KeyError` but
the sub-element is gone from the container. -/
theorem C53_mismatch_refuted : ∃ (E : Env) (h : Heap) (c x : Ref) (nm : Str) (u : Bytes), Reach E h ∧
    (h.get c).kind = .node ∧ nm ≠ [] ∧ x ∈ h.subelements c ∧
    (∀ x ∈ h.subelements c, ¬ ((h.get x).uuid = u ∧ (h.get x).idName = nm)) ∧
    (removeElement E c nm (some u) none h).1 = .error .keyError ∧
    x ∉ (removeElement E c nm (some u) none h).2.subelements c :=
  ⟨E0, g3, 0, 2, ['a'], [3], reach3, by decide +kernel, by simp, by decide +kernel,
    by decide +kernel, by decide +kernel, by decide +kernel⟩

/-! ## register / deregister -/

/-- **C14.** `deregister` of an element whose container is neither an edge nor a relation detaches
it. -/
theorem C14_deregister {E : Env} {h : Heap} (r : Reach E h) {x c : Ref}
    (hx : (h.get x).kind.isHElement = true) (hp : (h.get x).parent = some c) (hk : Plain h c) :
    ∃ h', deregister E x h = (.ok (), h') ∧ (h'.get x).parent = none ∧
      (h'.get x).qualName = (h.get x).idName ∧
      h'.subelements c = ((h.subelements c).filter fun y => decide (y ≠ x)) ∧
      (∀ d, d ≠ c → h'.subelements d = h.subelements d) ∧
      (∀ y, y ≠ x → (h'.get y).parent = (h.get y).parent) := by
  have I := r.good.inv
  have hcx : c ≠ x := SInv.parent_ne I hp
  have hxl := SInv.lt_of_parent I hp
  obtain ⟨d, hi, hd, _⟩ := I.index_get hp
  obtain ⟨h1, h1r, sim, hq, _⟩ := I.removeUuid E (lim := none) (nm := []) (by simp) hp (.inl rfl)
  obtain ⟨a, b, _, e, f, _⟩ := detached I hp sim
  have I1 : Inv h1 := sim.inv (I.detachH hp)
  have hsz : h1.size = h.size := by rw [sim.size, detachH_size]
  obtain ⟨l, t, rd, hpath, _, hup⟩ := I1.update E (x := x) (by omega)
  have hrun : deregister E x h = (.ok (), restamp h1 x (Str.join '/' l) t rd) := by
    unfold deregister
    simp only [obj_bind_run, hx, if_true]
    unfold leaveParent
    simp only [obj_bind_run, hp]
    rw [bind_ok (by rw [removeElement_plain hk.1 hk.2]; exact h1r)]
    simp only [forEach_cons, forEach_nil]
    rw [bind_ok hup]; rfl
  have s2 := restamp_sim h1 x (Str.join '/' l) t rd
  refine ⟨_, hrun, ?_, ?_, ?_, ?_, ?_⟩
  · rw [s2.parent]; exact a
  · have : l = [(h1.get x).idName] := hpath.functional (.root a)
    subst this
    simp [restamp, sim.idName, detachH_idName]
  · unfold Heap.subelements; rw [s2.subs]; exact b
  · intro d hd; unfold Heap.subelements; rw [s2.subs]; exact (e d hd).1
  · intro y hy; rw [s2.parent]; exact f y hy

/-- **C14.** `deregister` of a root changes nothing. -/
theorem C14_deregister_root {E : Env} {h : Heap} {x : Ref}
    (hx : (h.get x).kind.isHElement = true) (hp : (h.get x).parent = none) :
    deregister E x h = (.ok (), h) := by
  unfold deregister leaveParent
  simp only [obj_bind_run, hx, if_true, hp]
  rfl

/-- **C14.** `register(c)` is `c.add_element(x)`; for a free element it makes `x` the last sub-element
of `c`, named by its path. -/
theorem C14_register {E : Env} {h h' : Heap} (r : Reach E h) {x c : Ref}
    (hv : (Op.register x c).Valid h) (hs : (Op.register x c).Safe h)
    (hx : (h.get x).kind.isHElement = true) (hp : (h.get x).parent = none)
    (hr : register E x c h = (.ok (), h')) :
    (h'.get x).parent = some c ∧ h'.subelements c = h.subelements c ++ [x] ∧ NamedByPath h' x := by
  unfold register at hr
  simp only [obj_bind_run, hx, if_true] at hr
  obtain ⟨a, b, _⟩ := C09_add_free r (hv : (Op.add c x).Valid h) hs hp hr
  exact ⟨a, b, (C06_requalify r (hv : (Op.add c x).Valid h) hs hr).1 x (.inl rfl)⟩

/-- **C14.** Deregistering and registering again in the same container: `x` ends up last, everything
else in the container stays in order. -/
theorem C14_inverse {E : Env} {h h1 : Heap} (r : Reach E h) {x c : Ref}
    (hx : (h.get x).kind.isHElement = true) (hp : (h.get x).parent = some c) (hk : Plain h c)
    (h1r : deregister E x h = (.ok (), h1)) :
    ∃ h2, register E x c h1 = (.ok (), h2) ∧ (h2.get x).parent = some c ∧
      h2.subelements c = ((h.subelements c).filter fun y => decide (y ≠ x)) ++ [x] ∧
      NamedByPath h2 x := by
  have I := r.good.inv
  obtain ⟨h1', h1r', a, _, b, e, f⟩ := C14_deregister (E := E) r hx hp hk
  rw [h1r] at h1r'; cases h1r'
  have hcl := SInv.parent_lt I hp
  have hxl := SInv.lt_of_parent I hp
  have K := (frames_deregister (L := False) E x h).keeps
  rw [h1r] at K
  have r1 : Reach E h1 := by
    have := Reach.step (.deregister x) r hxl (fun p hp' => by rw [hp] at hp'; cases hp'; exact hk.2)
    have e : (Op.deregister x).after E h = h1 := by show (deregister E x h).2 = h1; rw [h1r]
    rwa [e] at this
  have hkx : (h1.get x).kind.isHElement = true := by rw [K.kind x hxl]; exact hx
  have hkc : (h1.get c).kind = (h.get c).kind := K.kind c hcl
  have S : AddSafe h1 c x := by
    refine ⟨?_, fun p hq => by rw [a] at hq; cases hq⟩
    intro q
    exact I.not_anc_self x ((anc_of_detached a f q).trans (.direct hp))
  have V : (Op.add c x).Valid h1 := ⟨Nat.lt_of_lt_of_le hcl K.size, Nat.lt_of_lt_of_le hxl K.size⟩
  rcases C08_add_total r1 V S (by rw [hkc]; exact hk.2) (fun e => absurd (hkc ▸ e) hk.1) with
    e' | ⟨y, hy, hu⟩ | ⟨h2, h2r⟩
  · exact absurd e'.symm (SInv.parent_ne I hp)
  · exfalso
    rw [b, List.mem_filter] at hy
    have hyx : y ≠ x := by simpa using hy.2
    have hyp := (C01_containment_agrees r c).1 y |>.1 hy.1
    rw [K.uuid y (SInv.lt_of_parent I hyp), K.uuid x hxl] at hu
    have a1 := (SInv.get?_subs I c (h.get x).uuid y).2 ⟨hyp, hu⟩
    have a2 := (SInv.get?_subs I c (h.get x).uuid x).2 ⟨hp, rfl⟩
    rw [a1] at a2; cases a2; exact hyx rfl
  · have h2r' : register E x c h1 = (.ok (), h2) := by
      unfold register
      simp only [obj_bind_run, hkx, if_true]; exact h2r
    obtain ⟨t1, t2, t3⟩ := C14_register r1 (show (Op.register x c).Valid h1 from V) S hkx a h2r'
    exact ⟨h2, h2r', t1, by rw [t2, b], t3⟩

/-- **C14 refuted** for elements of an edge: `deregister` raises `KeyError` (after having detached the
element). -/
theorem C14_deregister_from_edge_refuted : ∃ (E : Env) (h : Heap) (x : Ref), Reach E h ∧
    (h.get x).kind.isHElement = true ∧ (deregister E x h).1 = .error .keyError := by
  let s := (mkNode ['z'] 20 (some 3)).after E0 g6
  refine ⟨E0, s, 8, .step _ reach6 ⟨rfl, okSome (by decide +kernel)⟩ trivial, by decide +kernel,
    by decide +kernel⟩

/-! ### Instances -/

example : Reach E0 g10 ∧ Plain g10 0 ∧ 9 ∈ g10.subelements 0 ∧
    (∃ x ∈ g10.subelements 0, (g10.get x).idName = ['a']) ∧
    (removeElement E0 0 ['a'] none none g10).1 = .ok [1, 9] ∧
    (removeElement E0 0 [] (some [10]) none g10).1 = .ok [9] :=
  ⟨reach10, ⟨by decide +kernel, by decide +kernel⟩, by decide +kernel⟩

/-- A move: `d` (object 10) from node 9 to node 2. -/
example : (g10.get 10).parent = some 9 ∧ (addElement E0 2 10 g10).1 = .ok () ∧
    (Op.add 2 10).Safe g10 ∧ ((addElement E0 2 10 g10).2.get 10).qualName = ['r', '/', 'b', '/', 'd'] := by
  refine ⟨by decide +kernel, by decide +kernel, ⟨?_, ?_⟩, by decide +kernel⟩
  · exact not_anc_of_childless reach10.good.inv (by decide +kernel)
  · intro p hp
    have e : (g10.get 10).parent = some 9 := by decide +kernel
    rw [e] at hp; cases hp
    exact ⟨by decide +kernel, by decide +kernel⟩

end Rei
