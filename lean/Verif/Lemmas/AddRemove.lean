import Verif.Lemmas.Update

/-!
# Exact effects of `add_element` and `remove_element` on invariant heaps
-/
namespace Rei
open PyM

/-- The old container after `x` has left it. -/
def detachObj (op ox : Obj) : Obj :=
  { op with
    subs := op.subs.erase ox.uuid
    index := op.index.set ox.idName (((op.index.get? ox.idName).getD []).erase ox.uuid)
    cnt := op.cnt - 1 }

/-- `x` leaves `p`. -/
def detachH (h : Heap) (p x : Ref) : Heap :=
  (h.set p (detachObj (h.get p) (h.get x))).set x { h.get x with parent := none }

/-- `x` leaves its container, if any. -/
def leaveH (h : Heap) (x : Ref) : Heap :=
  match (h.get x).parent with
  | none => h
  | some p => detachH h p x

/-- The new container after `x` has joined it. -/
def attachObj (oc ox : Obj) (x : Ref) : Obj :=
  { oc with
    subs := oc.subs.set ox.uuid x
    index := oc.index.set ox.idName (((oc.index.get? ox.idName).getD []).set ox.uuid x)
    cnt := oc.cnt + 1
    hist := oc.hist + 1 }

/-- `x` joins `c`. -/
def attachH (h : Heap) (c x : Ref) : Heap :=
  (h.set c (attachObj (h.get c) (h.get x) x)).set x
    { h.get x with parent := some c, cid := (h.get c).hist, depth := (h.get c).depth + 1 }

/-- `x` leaves its container and joins `c`. -/
def moveH (h : Heap) (c x : Ref) : Heap := attachH (leaveH h x) c x

theorem Sim.of_get {D : Ref → Prop} {a b : Heap} (h1 : b.size = a.size) (h2 : b.nlists = a.nlists)
    (h3 : b.lists = a.lists) (h4 : ∀ y, b.get y = a.get y) : Sim D a b :=
  ⟨h1, h2, h3, fun y => by rw [h4], fun y _ => h4 y⟩

theorem detachH_st {h : Heap} {p x : Ref} : (detachH h p x).st = sDetach h.st p x := by
  funext y
  unfold Heap.st detachH sDetach upd
  simp only [Heap.get_set]
  split
  · rfl
  · split
    · rfl
    · rfl

theorem attachH_st {h : Heap} {c x : Ref} : (attachH h c x).st = sAttach h.st c x := by
  funext y
  unfold Heap.st attachH sAttach upd
  simp only [Heap.get_set]
  split
  · rfl
  · split
    · rfl
    · rfl

theorem Inv.detachH {h : Heap} (I : Inv h) {p x : Ref} (hp : (h.get x).parent = some p) :
    Inv (detachH h p x) := by
  unfold Inv; rw [detachH_st]; exact SInv.detach I hp

theorem Inv.leaveH {h : Heap} (I : Inv h) (x : Ref) : Inv (leaveH h x) := by
  unfold Rei.leaveH
  split
  · exact I
  · exact I.detachH ‹_›

theorem leaveH_size (h : Heap) (x : Ref) : (leaveH h x).size = h.size := by
  unfold leaveH; split <;> rfl

theorem leaveH_nlists (h : Heap) (x : Ref) : (leaveH h x).nlists = h.nlists := by
  unfold leaveH; split <;> rfl

theorem leaveH_lists (h : Heap) (x : Ref) : (leaveH h x).lists = h.lists := by
  unfold leaveH; split <;> rfl

theorem moveH_size (h : Heap) (c x : Ref) : (moveH h c x).size = h.size := leaveH_size h x

theorem moveH_nlists (h : Heap) (c x : Ref) : (moveH h c x).nlists = h.nlists := leaveH_nlists h x

theorem moveH_lists (h : Heap) (c x : Ref) : (moveH h c x).lists = h.lists := leaveH_lists h x

theorem leaveH_parent {h : Heap} (I : Inv h) (x y : Ref) :
    ((leaveH h x).get y).parent = if y = x then none else (h.get y).parent := by
  unfold leaveH
  split
  · next hp =>
    split
    · next h => rw [h, hp]
    · rfl
  · next p hp =>
    have hpx : p ≠ x := SInv.parent_ne I hp
    unfold detachH
    simp only [Heap.get_set]
    split
    · rfl
    · split
      · next h => subst h; rfl
      · rfl

theorem leaveH_anc {h : Heap} (I : Inv h) {x a b : Ref} (q : Anc (leaveH h x) a b) : Anc h a b := by
  induction q with
  | direct hp =>
    rw [leaveH_parent I] at hp
    split at hp
    · cases hp
    · exact .direct hp
  | up hp _ ih =>
    rw [leaveH_parent I] at hp
    split at hp
    · cases hp
    · exact .up hp ih

theorem leaveH_get_ne {h : Heap} {x y : Ref} (hy : y ≠ x) (hp : (h.get x).parent ≠ some y) :
    (leaveH h x).get y = h.get y := by
  unfold leaveH
  split
  · rfl
  · next p hp' =>
    have : y ≠ p := by rintro rfl; exact hp hp'
    unfold detachH
    simp [hy, this]

theorem leaveH_get_self (h : Heap) (x : Ref) :
    (leaveH h x).get x = { h.get x with parent := none } := by
  unfold leaveH
  split
  · next hp => cases hh : h.get x; rw [hh] at hp; simp at hp; simp [hp]
  · unfold detachH; simp

theorem Inv.parent_ne_of_not_mem {h : Heap} (I : Inv h) {c x : Ref}
    (hdup : (h.get x).uuid ∉ (h.get c).subs.keys) : (h.get x).parent ≠ some c := by
  intro hp
  exact hdup (Dict.mem_keys_of_mem ((I.mem c _ x).2 ⟨hp, rfl⟩))

theorem Inv.moveH {h : Heap} (I : Inv h) {c x : Ref} (hc : c < h.size) (hx : x < h.size)
    (hcx : x ≠ c) (hdup : (h.get x).uuid ∉ (h.get c).subs.keys) (hanc : ¬ Anc h x c) :
    Inv (moveH h c x) := by
  unfold Rei.moveH
  have hpc := I.parent_ne_of_not_mem hdup
  have J := I.leaveH x
  unfold Inv
  rw [attachH_st]
  have hsz := leaveH_size h x
  have hgc := leaveH_get_ne (Ne.symm hcx) hpc
  refine SInv.attach (n := (Rei.leaveH h x).size) J (by rw [hsz]; exact hc) (by rw [hsz]; exact hx)
    (Ne.symm hcx) ?_ ?_ ?_
  · show ((Rei.leaveH h x).get x).parent = none
    rw [leaveH_parent I, if_pos rfl]
  · show ((Rei.leaveH h x).get x).uuid ∉ ((Rei.leaveH h x).get c).subs.keys
    rw [hgc, leaveH_get_self]; exact hdup
  · rw [← anc_iff]
    intro q
    exact hanc (leaveH_anc I q)

/-- `update` of an element without container. -/
theorem update_root {E : Env} {h : Heap} {x : Ref} (hs : 0 < h.size)
    (hc : (h.get x).kind.isConceptual = true → (h.get x).clock.isSome = true)
    (hp : (h.get x).parent = none) :
    ∃ t rd, h.reads ≤ rd ∧ update E x h = (.ok (), restamp h x (h.get x).idName t rd) := by
  have hl : nameChain h h.size x = some [(h.get x).idName] := by
    cases hz : h.size with
    | zero => omega
    | succ n => simp only [nameChain, hp]
  obtain ⟨t, rd, hrd, hu⟩ := update_run (E := E) hc hl
  exact ⟨t, rd, hrd, hu⟩

/-- The common part of the removals by uuid. -/
theorem release_run {E : Env} {h : Heap} {p x : Ref} (hpx : p ≠ x) (hs : 0 < h.size)
    (hc : (h.get x).kind.isConceptual = true → (h.get x).clock.isSome = true) :
    ∃ h', release E p x h = (.ok (), h') ∧
      Sim (· = x) ((h.mod x fun o => { o with parent := none }).mod p
        fun o => { o with cnt := o.cnt - 1 }) h' ∧
      (h'.get x).qualName = (h.get x).idName ∧ h.reads ≤ h'.reads := by
  unfold release
  simp only [modify_bind_run]
  generalize hh1 : (h.mod x fun o => { o with parent := none }) = h1
  have hx1 : h1.get x = { h.get x with parent := none } := by rw [← hh1]; simp
  obtain ⟨t, rd, hrd, hu⟩ := update_root (E := E) (h := h1) (x := x) (by rw [← hh1]; exact hs)
    (by rw [hx1]; exact hc) (by rw [hx1])
  rw [bind_ok hu, modify_run]
  refine ⟨_, rfl, ?_, ?_, ?_⟩
  · exact (restamp_sim h1 x _ t rd).mod p (fun _ _ _ => rfl)
  · simp [Ne.symm hpx, hx1]
  · show h.reads ≤ rd
    rw [← hh1] at hrd; exact hrd

theorem popSub_run {h : Heap} {c x : Ref} {u : Bytes} (hg : (h.get c).subs.get? u = some x) :
    popSub c u h = (.ok x, h.mod c fun o => { o with subs := o.subs.erase u }) := by
  unfold popSub
  simp only [obj_bind_run, hg, modify_bind_run, pure_run]

theorem popSub_none {h : Heap} {c : Ref} {u : Bytes} (hg : (h.get c).subs.get? u = none) :
    popSub c u h = (.error .keyError, h) := by
  unfold popSub
  simp only [obj_bind_run, hg, raise_run]

theorem popIndex_run {h : Heap} {c : Ref} {nm : Str} {u : Bytes} {d : Dict Bytes Ref}
    (hg : (h.get c).index.get? nm = some d) (hd : d.has u = true) :
    popIndex c nm u h = (.ok (), h.mod c fun o => { o with index := o.index.set nm (d.erase u) }) := by
  unfold popIndex
  simp only [obj_bind_run, hg, hd, if_true, modify_run]

/-- Removal by uuid, with or without the matching name, from local facts only. -/
theorem removeUuid_run {E : Env} {h : Heap} {p x : Ref} {u : Bytes} {d : Dict Bytes Ref} {nm : Str}
    {lim : Option Nat} (hlim : lim ≠ some 0) (hpx : p ≠ x) (hs : 0 < h.size)
    (hsub : (h.get p).subs.get? u = some x) (hu : (h.get x).uuid = u)
    (hidx : (h.get p).index.get? (h.get x).idName = some d) (hd : d.has u = true)
    (hc : (h.get x).kind.isConceptual = true → (h.get x).clock.isSome = true)
    (hnm : nm = [] ∨ nm = (h.get x).idName) :
    ∃ h', baseRemove E p nm (some u) lim h = (.ok [x], h') ∧ Sim (· = x) (detachH h p x) h' ∧
      (h'.get x).qualName = (h.get x).idName ∧ h.reads ≤ h'.reads := by
  generalize hh2 : ((h.mod p fun o => { o with subs := o.subs.erase u }).mod p
    fun o => { o with index := o.index.set (h.get x).idName (d.erase u) }) = h2
  have hx2 : h2.get x = h.get x := by rw [← hh2]; simp [Ne.symm hpx]
  obtain ⟨h', hrel, hsim, hq, hrd⟩ := release_run (E := E) (h := h2) hpx
    (by rw [← hh2]; exact hs) (by rw [hx2]; exact hc)
  rw [hx2] at hq
  have hpi : popIndex p (h.get x).idName u
      (h.mod p fun o => { o with subs := o.subs.erase u }) = (.ok (), h2) := by
    rw [popIndex_run (d := d) _ hd, hh2]
    simpa using hidx
  refine ⟨h', ?_, ?_, hq, ?_⟩
  · unfold baseRemove
    rw [if_neg hlim]
    by_cases hnil : nm = []
    · simp only [hnil, ne_eq, not_true, if_false]
      rw [bind_ok (popSub_run hsub)]
      simp only [obj_bind_run, Heap.get_mod, if_neg (Ne.symm hpx)]
      rw [bind_ok hpi, bind_ok hrel, pure_run]
    · rcases hnm with h0 | hnm
      · exact absurd h0 hnil
      · simp only [ne_eq, hnil, not_false_eq_true, if_true]
        rw [bind_ok (popSub_run hsub), hnm, bind_ok hpi, bind_ok hrel, pure_run]
  · refine Sim.trans (Sim.of_get ?_ ?_ ?_ ?_) hsim
    · rw [← hh2]; rfl
    · rw [← hh2]; rfl
    · rw [← hh2]; rfl
    · intro y
      rw [← hh2]
      unfold detachH detachObj
      by_cases h1 : y = x
      · subst h1; simp [Ne.symm hpx]
      · by_cases h3 : y = p
        · subst h3; simp [hpx, hidx, hu]
        · simp [h1, h3]
  · rw [← hh2] at hrd; exact hrd

theorem Inv.index_get {h : Heap} (I : Inv h) {p x : Ref} (hp : (h.get x).parent = some p) :
    ∃ d, (h.get p).index.get? (h.get x).idName = some d ∧ d.has (h.get x).uuid = true ∧
      d = (h.get p).subs.filter fun q => decide ((h.get q.2).idName = (h.get x).idName) := by
  have hi := I.index p (h.get x).idName
  have hm : ((h.get x).uuid, x) ∈ (h.get p).subs := (I.mem p _ x).2 ⟨hp, rfl⟩
  have hf : ((h.get x).uuid, x) ∈
      (h.get p).subs.filter fun q => decide ((h.get q.2).idName = (h.get x).idName) :=
    List.mem_filter.2 ⟨hm, by simp⟩
  change ((h.get p).index.get? (h.get x).idName).getD [] =
    (h.get p).subs.filter (fun q => decide ((h.get q.2).idName = (h.get x).idName)) at hi
  cases hg : (h.get p).index.get? (h.get x).idName with
  | none => rw [hg] at hi; rw [← hi] at hf; cases hf
  | some d =>
    rw [hg] at hi
    refine ⟨d, rfl, ?_, hi⟩
    rw [Dict.has_iff]
    rw [← hi] at hf
    exact Dict.mem_keys_of_mem hf

/-- Removal by uuid on an invariant heap. -/
theorem Inv.removeUuid {h : Heap} (I : Inv h) (E : Env) {p x : Ref} {nm : Str} {lim : Option Nat}
    (hlim : lim ≠ some 0) (hp : (h.get x).parent = some p)
    (hnm : nm = [] ∨ nm = (h.get x).idName) :
    ∃ h', baseRemove E p nm (some (h.get x).uuid) lim h = (.ok [x], h') ∧
      Sim (· = x) (Rei.detachH h p x) h' ∧
      (h'.get x).qualName = (h.get x).idName ∧ h.reads ≤ h'.reads := by
  obtain ⟨d, hd, hu, _⟩ := I.index_get hp
  have hx := I.lt_of_parent hp
  exact removeUuid_run hlim (SInv.parent_ne I hp) (Nat.lt_of_le_of_lt (Nat.zero_le _) hx)
    ((SInv.get?_subs I p _ x).2 ⟨hp, rfl⟩) rfl hd hu (I.clocked hx) hnm

theorem removeElement_plain {E : Env} {h : Heap} {c : Ref} {nm : Str} {u : Option Bytes}
    {lim : Option Nat} (h1 : (h.get c).kind ≠ .edge) (h2 : (h.get c).kind ≠ .relation) :
    removeElement E c nm u lim h = baseRemove E c nm u lim h := by
  unfold removeElement
  simp only [obj_bind_run]

/-- `leaveParent` from local facts, for a container that is neither edge nor relation. -/
theorem leaveParent_run {E : Env} {h : Heap} {p x : Ref} {d : Dict Bytes Ref}
    (hp : (h.get x).parent = some p) (hpx : p ≠ x) (hs : 0 < h.size)
    (h1 : (h.get p).kind ≠ .edge) (h2 : (h.get p).kind ≠ .relation)
    (hsub : (h.get p).subs.get? (h.get x).uuid = some x)
    (hidx : (h.get p).index.get? (h.get x).idName = some d) (hd : d.has (h.get x).uuid = true)
    (hc : (h.get x).kind.isConceptual = true → (h.get x).clock.isSome = true) :
    ∃ h', leaveParent E x h = (.ok (), h') ∧ Sim (· = x) (detachH h p x) h' ∧
      (h'.get x).qualName = (h.get x).idName ∧ h.reads ≤ h'.reads := by
  obtain ⟨h', hr, hsim, hq, hrd⟩ := removeUuid_run (E := E) (lim := none) (nm := []) (by simp) hpx hs
    hsub rfl hidx hd hc (.inl rfl)
  have hx' : ((detachH h p x).get x) = { h.get x with parent := none } := by
    unfold detachH; simp
  obtain ⟨t, rd, hrd', hu⟩ := update_root (E := E) (h := h') (x := x)
    (by rw [hsim.size]; exact hs)
    (by rw [hsim.kind, hsim.clock, hx']; exact hc)
    (by rw [hsim.parent, hx'])
  unfold leaveParent
  simp only [obj_bind_run, hp]
  rw [bind_ok ((removeElement_plain h1 h2).trans hr)]
  simp only [forEach_cons, forEach_nil]
  rw [bind_ok hu, pure_run]
  refine ⟨_, rfl, hsim.trans (restamp_sim h' x _ t rd), ?_, ?_⟩
  · rw [restamp_get, if_pos rfl]
    show (h'.get x).idName = _
    rw [hsim.idName, hx']
  · exact Nat.le_trans hrd hrd'

theorem Sim.get_mod_ext {D : Ref → Prop} {a b : Heap} (p : Sim D a b) {a' : Heap}
    (h1 : a.size = a'.size) (h2 : a.nlists = a'.nlists) (h3 : a.lists = a'.lists)
    (h4 : ∀ y, a.get y = a'.get y) : Sim D a' b :=
  (Sim.of_get h1 h2 h3 h4).trans p

/-- `add_element` on an invariant heap: `x` is moved and its subtree re-qualified. -/
theorem Inv.baseAdd {h : Heap} (I : Inv h) (E : Env) {c x : Ref} (hc : c < h.size)
    (hx : x < h.size) (hcx : x ≠ c) (hdup : (h.get x).uuid ∉ (h.get c).subs.keys)
    (hanc : ¬ Anc h x c) (hmov : Movable h x) :
    ∃ h', baseAdd E c x h = (.ok (), h') ∧ Sim (Within (Rei.moveH h c x) x) (Rei.moveH h c x) h' ∧
      h.reads ≤ h'.reads ∧
      ∀ y, Within (Rei.moveH h c x) x y → ∀ l, PathTo (Rei.moveH h c x) y l →
        (h'.get y).qualName = Str.join '/' l := by
  have hpc := I.parent_ne_of_not_mem hdup
  have hs : 0 < h.size := Nat.lt_of_le_of_lt (Nat.zero_le _) hx
  have Ig := I.moveH hc hx hcx hdup hanc
  generalize hg : Rei.moveH h c x = g at *
  -- the state before `leaveParent`
  generalize hh3 : (((h.mod c fun oc => { oc with subs := oc.subs.set (h.get x).uuid x }).mod c
      fun oc => { oc with index := (oc.index.set (h.get x).idName
          (((oc.index.get? (h.get x).idName).getD []).set (h.get x).uuid x)) }).mod x
      fun ox => { ox with cid := (h.get c).hist }) = h3
  have hx3 : h3.get x = { h.get x with cid := (h.get c).hist } := by rw [← hh3]; simp [hcx]
  have hs3 : h3.size = h.size := by rw [← hh3]; rfl
  -- after `leaveParent`
  have hleave : ∃ h4, leaveParent E x h3 = (.ok (), h4) ∧
      Sim (· = x) (Rei.leaveH h3 x) h4 ∧ h.reads ≤ h4.reads := by
    cases hp : (h.get x).parent with
    | none =>
      refine ⟨h3, ?_, ?_, ?_⟩
      · unfold leaveParent
        simp only [obj_bind_run, hx3, hp, pure_run]
      · unfold Rei.leaveH
        rw [hx3]
        simp only [hp]
        exact .refl _ _
      · rw [← hh3]; exact Nat.le_refl _
    | some p =>
      have hpx : p ≠ x := SInv.parent_ne I hp
      have hpc' : p ≠ c := by rintro rfl; exact hpc hp
      have hp3 : h3.get p = h.get p := by rw [← hh3]; simp [hpx, hpc']
      obtain ⟨d, hd, hu, _⟩ := I.index_get hp
      obtain ⟨h4, hr, hsim, _, hrd⟩ := leaveParent_run (E := E) (h := h3) (p := p) (x := x) (d := d)
        (by rw [hx3]; exact hp) hpx (by rw [hs3]; exact hs)
        (by rw [hp3]; exact (hmov p hp).1) (by rw [hp3]; exact (hmov p hp).2)
        (by rw [hp3, hx3]; exact (SInv.get?_subs I p _ x).2 ⟨hp, rfl⟩)
        (by rw [hp3, hx3]; exact hd) (by rw [hx3]; exact hu) (by rw [hx3]; exact I.clocked hx)
      refine ⟨h4, hr, ?_, ?_⟩
      · unfold Rei.leaveH
        rw [hx3]
        simp only [hp]
        exact hsim
      · rw [← hh3] at hrd; exact hrd
  obtain ⟨h4, hlv, hsim4, hrd4⟩ := hleave
  -- after the remaining assignments
  generalize hh8 : ((((h4.mod x fun ox => { ox with parent := some c }).mod x
      fun ox => { ox with depth := (h.get c).depth + 1 }).mod c
      fun oc => { oc with cnt := oc.cnt + 1 }).mod c
      fun oc => { oc with hist := oc.hist + 1 }) = h8
  have hsim8 : Sim (· = x) g h8 := by
    rw [← hh8]
    have := (((hsim4.mod x (f := fun ox => { ox with parent := some c }) (fun _ _ _ => rfl)).mod x
      (f := fun ox => { ox with depth := (h.get c).depth + 1 }) (fun _ _ _ => rfl)).mod c
      (f := fun oc => { oc with cnt := oc.cnt + 1 }) (fun _ _ _ => rfl)).mod c
      (f := fun oc => { oc with hist := oc.hist + 1 }) (fun _ _ _ => rfl)
    refine this.get_mod_ext ?_ ?_ ?_ ?_
    · rw [← hg]
      simp only [Heap.size_mod, leaveH_size, hs3, moveH_size]
    · rw [← hg, ← hh3]
      simp only [Heap.nlists_mod, leaveH_nlists, moveH_nlists]
    · rw [← hg, ← hh3]
      simp only [Heap.lists_mod, leaveH_lists, moveH_lists]
    · intro y
      have hcx' : c ≠ x := Ne.symm hcx
      have e1 : (Rei.leaveH h x).get c = h.get c := leaveH_get_ne hcx' hpc
      have e2 : (Rei.leaveH h x).get x = { h.get x with parent := none } := leaveH_get_self h x
      have e3 : (Rei.leaveH h3 x).get c = h3.get c :=
        leaveH_get_ne hcx' (by rw [hx3]; exact hpc)
      have e4 : (Rei.leaveH h3 x).get x = { h3.get x with parent := none } := leaveH_get_self h3 x
      rw [← hg]
      unfold Rei.moveH attachH attachObj
      by_cases h1 : y = x
      · subst h1
        simp [hcx, e1, e2, e4, hx3]
      · by_cases h2 : y = c
        · subst h2
          simp [hcx', e1, e2, e3]
          rw [← hh3]
          simp [hcx']
        · simp only [Heap.get_mod, Heap.get_set, if_neg h1, if_neg h2]
          unfold Rei.leaveH
          rw [hx3]
          cases hp : (h.get x).parent with
          | none =>
            simp only
            rw [← hh3]; simp [h1, h2]
          | some p =>
            simp only
            unfold Rei.detachH
            simp only [Heap.get_set, if_neg h1]
            have hpx : p ≠ x := SInv.parent_ne I hp
            have hpc' : p ≠ c := by rintro rfl; exact hpc hp
            have hp3 : h3.get p = h.get p := by rw [← hh3]; simp [hpx, hpc']
            have hy3 : h3.get y = h.get y := by rw [← hh3]; simp [h1, h2]
            rw [hp3, hy3]
            split
            · unfold detachObj; rw [hx3]
            · rfl
  have I8 : Inv h8 := hsim8.inv Ig
  have hxs : x < h8.size := by
    rw [hsim8.size, ← hg]
    show x < (Rei.leaveH h x).size
    rw [leaveH_size]; exact hx
  obtain ⟨h', hrun, hs', hrd', hq⟩ := I8.updateElement E hxs
  refine ⟨h', ?_, ?_, ?_, ?_⟩
  · unfold Rei.baseAdd
    rw [if_neg hcx]
    simp only [obj_bind_run]
    rw [if_neg (by rw [Dict.has_iff]; exact hdup)]
    simp only [modify_bind_run, if_neg hpc]
    have hii : indexInsert c x (h.mod c fun oc => { oc with subs := oc.subs.set (h.get x).uuid x }) =
        (.ok (), (h.mod c fun oc => { oc with subs := oc.subs.set (h.get x).uuid x }).mod c
      fun oc => { oc with index := (oc.index.set (h.get x).idName
          (((oc.index.get? (h.get x).idName).getD []).set (h.get x).uuid x)) }) := by
      unfold indexInsert
      simp only [obj_bind_run, modify_run, Heap.get_mod, if_neg hcx]
    rw [bind_ok hii]
    simp only [modify_bind_run]
    rw [hh3, bind_ok hlv]
    simp only [modify_bind_run, obj_bind_run]
    have hdep : ((h4.mod x fun ox => { ox with parent := some c }).get c).depth =
        (h.get c).depth := by
      simp only [Heap.get_mod, if_neg (Ne.symm hcx)]
      rw [hsim4.depth, leaveH_get_ne (Ne.symm hcx) (by rw [hx3]; exact hpc), ← hh3]
      simp [Ne.symm hcx]
    rw [hdep, hh8]
    exact hrun
  · refine Sim.trans (hsim8.mono ?_) (hs'.mono ?_)
    · rintro y rfl; exact .inl rfl
    · intro y hy; exact (hsim8.within x y).1 hy
  · have : h8.reads = h4.reads := by rw [← hh8]; rfl
    omega
  · intro y hy l hl
    exact hq y ((hsim8.within x y).2 hy) l (hsim8.pathTo hl)

/-- Refused adds. -/
theorem baseAdd_self {E : Env} {h : Heap} {c : Ref} :
    baseAdd E c c h = (.error .recursiveHierarchy, h) := by
  unfold baseAdd; rw [if_pos rfl]; rfl

theorem baseAdd_dup {E : Env} {h : Heap} {c x : Ref} (hcx : x ≠ c)
    (hd : (h.get x).uuid ∈ (h.get c).subs.keys) :
    baseAdd E c x h = (.error .duplicateElement, h) := by
  unfold baseAdd
  rw [if_neg hcx]
  simp only [obj_bind_run]
  rw [if_pos (Dict.has_iff.2 hd)]; rfl

end Rei
