import Verif.Lemmas.Run

/-!
# Calls as sequences of containment actions

Every safe call is a sequence of the four actions below.  Invariants that talk about names and depths
are proved once per action.
-/
namespace Rei
open PyM

/-- `x` has no sub-elements. -/
def Childless (h : Heap) (x : Ref) : Prop := ∀ y, (h.get y).parent ≠ some x

/-- A change that leaves containment, names and depths alone. -/
structure Quiet (h h' : Heap) : Prop where
  size : h'.size = h.size
  kind : ∀ y, (h'.get y).kind = (h.get y).kind
  uuid : ∀ y, (h'.get y).uuid = (h.get y).uuid
  idName : ∀ y, (h'.get y).idName = (h.get y).idName
  qualName : ∀ y, (h'.get y).qualName = (h.get y).qualName
  parent : ∀ y, (h'.get y).parent = (h.get y).parent
  depth : ∀ y, (h'.get y).depth = (h.get y).depth
  cid : ∀ y, (h'.get y).cid = (h.get y).cid
  cnt : ∀ y, (h'.get y).cnt = (h.get y).cnt
  hist : ∀ y, (h'.get y).hist = (h.get y).hist
  subs : ∀ y, (h'.get y).subs = (h.get y).subs
  index : ∀ y, (h'.get y).index = (h.get y).index
  clock : ∀ y, y < h.size → (h.get y).clock.isSome = true → (h'.get y).clock.isSome = true
  out : ∀ y, h.size ≤ y → (h'.get y).clock = (h.get y).clock

theorem Quiet.refl (h : Heap) : Quiet h h := by
  constructor <;> intros <;> first | rfl | assumption

theorem Quiet.mod {h : Heap} {x : Ref} {f : Obj → Obj} (hf : (f (h.get x)).st = (h.get x).st)
    (hq : (f (h.get x)).qualName = (h.get x).qualName)
    (hd : (f (h.get x)).depth = (h.get x).depth)
    (hc : (f (h.get x)).clock = (h.get x).clock) : Quiet h (h.mod x f) := by
  constructor
  · rfl
  all_goals
    intro y
    simp only [Heap.get_mod]
    split
    · next e =>
      subst e
      first
        | exact congrArg SObj.kind hf | exact congrArg SObj.uuid hf | exact congrArg SObj.idName hf
        | exact hq | exact congrArg SObj.parent hf | exact hd | exact congrArg SObj.cid hf
        | exact congrArg SObj.cnt hf | exact congrArg SObj.hist hf | exact congrArg SObj.subs hf
        | exact congrArg SObj.index hf | (intro _; rw [hc]; exact id) | (intro _; exact hc)
    · first | rfl | (intro _; exact id) | (intro _; rfl)

theorem Quiet.congr {h h' : Heap} (hs : h'.size = h.size) (hg : ∀ y, h'.get y = h.get y) :
    Quiet h h' := by
  constructor
  · exact hs
  all_goals
    intro y
    rw [hg]
    try (intro _; exact id)
    try (intro _; rfl)

theorem Inv.quiet {h h' : Heap} (I : Inv h) (q : Quiet h h') : Inv h' := by
  refine { out := ?_, nodup := ?_, mem := ?_, index := ?_, cnt := ?_, cidLt := ?_, cidInj := ?_,
           rank := ?_, clock := ?_ }
  · intro y hy
    have hy' : h.size ≤ y := by rw [← q.size]; exact hy
    have := I.out y hy'
    unfold Heap.st Obj.st at this ⊢
    rw [q.kind, q.uuid, q.idName, q.parent, q.cid, q.cnt, q.hist, q.subs, q.index, q.out y hy']
    exact this
  · intro a
    have := I.nodup a
    unfold Heap.st Obj.st at this ⊢
    simp only [q.subs]; exact this
  · intro a u y
    have := I.mem a u y
    unfold Heap.st Obj.st at this ⊢
    simp only [q.subs, q.parent, q.uuid]; exact this
  · intro a nm
    have := I.index a nm
    unfold Heap.st Obj.st at this ⊢
    simp only [q.subs, q.index, q.idName]; exact this
  · intro a
    have := I.cnt a
    unfold Heap.st Obj.st at this ⊢
    simp only [q.subs, q.cnt]; exact this
  · intro y a
    have := I.cidLt y a
    unfold Heap.st Obj.st at this ⊢
    simp only [q.parent, q.cid, q.hist]; exact this
  · intro y z a
    have := I.cidInj y z a
    unfold Heap.st Obj.st at this ⊢
    simp only [q.parent, q.cid]; exact this
  · obtain ⟨rank, hr⟩ := I.rank
    refine ⟨rank, fun y p => ?_⟩
    have := hr y p
    unfold Heap.st Obj.st at this ⊢
    simp only [q.parent]; exact this
  · intro y hy
    have hy' : y < h.size := by rw [← q.size]; exact hy
    have := I.clock y hy'
    unfold Heap.st Obj.st at this ⊢
    simp only [q.kind]
    exact fun hk => q.clock y hy' (this hk)

/-- Restrictions on the actions of a history: whether elements may be detached, whether only
childless elements are detached, whether only childless elements are added. -/
structure Mode where
  detach : Prop
  leafDetach : Prop
  leafAdd : Prop

/-- One containment action. -/
inductive Act (M : Mode) : Heap → Heap → Prop
  | alloc {h : Heap} {o : Obj} (F : Fresh o) (hq : o.qualName = o.idName) (hd : o.depth = 0) :
      Act M h (allocH h o)
  | quiet {h h' : Heap} (q : Quiet h h') : Act M h h'
  | move {h h' : Heap} {c x : Ref} (hc : c < h.size) (hx : x < h.size) (hcx : x ≠ c)
      (hd : (h.get x).uuid ∉ (h.get c).subs.keys) (ha : ¬ Anc h x c)
      (hl : M.leafAdd → Childless h x)
      (sim : Sim (Within (moveH h c x) x) (moveH h c x) h')
      (hq : ∀ y, Within (moveH h c x) x y → ∀ l, PathTo (moveH h c x) y l →
        (h'.get y).qualName = Str.join '/' l) : Act M h h'
  | detach {h h' : Heap} {c : Ref} {vs : List Ref} (hn : vs.Nodup)
      (hv : ∀ v ∈ vs, (h.get v).parent = some c) (hm : vs ≠ [] → M.detach)
      (hl : M.leafDetach → ∀ v ∈ vs, Childless h v)
      (sim : Sim (· ∈ vs) (detachAllH h c vs) h')
      (hq : ∀ v ∈ vs, (h'.get v).qualName = (h.get v).idName) : Act M h h'

/-- Sequences of actions. -/
inductive Acts (M : Mode) : Heap → Heap → Prop
  | refl (h : Heap) : Acts M h h
  | tail {h h' h'' : Heap} : Acts M h h' → Act M h' h'' → Acts M h h''

variable {M : Mode}

theorem Acts.one {h h' : Heap} (a : Act M h h') : Acts M h h' := .tail (.refl h) a

theorem Acts.trans {a b c : Heap} (p : Acts M a b) (q : Acts M b c) : Acts M a c := by
  induction q with
  | refl => exact p
  | tail _ r ih => exact .tail ih r

theorem detachAllH_parent {c : Ref} (vs : List Ref) (h : Heap) (y : Ref) :
    ((detachAllH h c vs).get y).parent = if y ∈ vs then none else (h.get y).parent := by
  induction vs generalizing h with
  | nil => simp [detachAllH]
  | cons v vs ih =>
    rw [detachAllH, ih, detachH_parent]
    by_cases h1 : y ∈ vs
    · simp [h1]
    · by_cases h2 : y = v
      · simp [h2]
      · simp [h1, h2]

theorem detachAllH_proj {α : Type} (π : Obj → α) {c : Ref}
    (hp : ∀ h x y, π ((detachH h c x).get y) = π (h.get y)) (vs : List Ref) (h : Heap) (y : Ref) :
    π ((detachAllH h c vs).get y) = π (h.get y) := by
  induction vs generalizing h with
  | nil => rfl
  | cons v vs ih => rw [detachAllH, ih, hp]

theorem detachAllH_size {c : Ref} (vs : List Ref) (h : Heap) : (detachAllH h c vs).size = h.size := by
  induction vs generalizing h with
  | nil => rfl
  | cons v vs ih => rw [detachAllH, ih, detachH_size]

theorem Inv.detachAllH {h : Heap} (I : Inv h) {c : Ref} {vs : List Ref} (hn : vs.Nodup)
    (hv : ∀ v ∈ vs, (h.get v).parent = some c) : Inv (detachAllH h c vs) := by
  induction vs generalizing h with
  | nil => exact I
  | cons v vs ih =>
    rw [Rei.detachAllH]
    rw [List.nodup_cons] at hn
    refine ih (I.detachH (hv v (List.mem_cons_self ..))) hn.2 ?_
    intro w hw
    rw [detachH_parent, if_neg (by rintro rfl; exact hn.1 hw)]
    exact hv w (List.mem_cons_of_mem _ hw)

theorem Act.inv {h h' : Heap} (a : Act M h h') (I : Inv h) : Inv h' := by
  cases a with
  | alloc F => exact I.allocH F
  | quiet q => exact I.quiet q
  | move hc hx hcx hd ha _ sim => exact sim.inv (I.moveH hc hx hcx hd ha)
  | detach hn hv _ _ sim => exact sim.inv (I.detachAllH hn hv)

theorem Acts.inv {h h' : Heap} (a : Acts M h h') (I : Inv h) : Inv h' := by
  induction a with
  | refl => exact I
  | tail _ b ih => exact b.inv ih

/-! ### every function -/

theorem acts_baseAdd {h : Heap} (I : Inv h) (E : Env) {c x : Ref} (hc : c < h.size)
    (hx : x < h.size) (S : AddSafe h c x) (hl : M.leafAdd → Childless h x) :
    Acts M h (baseAdd E c x h).2 ∧
    ∀ y, y ≠ x → ((baseAdd E c x h).2.get y).parent = (h.get y).parent := by
  by_cases hcx : x = c
  · subst hcx; rw [baseAdd_self]; exact ⟨.refl _, fun _ _ => rfl⟩
  by_cases hd : (h.get x).uuid ∈ (h.get c).subs.keys
  · rw [baseAdd_dup hcx hd]; exact ⟨.refl _, fun _ _ => rfl⟩
  obtain ⟨h', h1, h2, h3, h4⟩ := I.baseAdd E hc hx hcx hd S.1 S.2
  rw [h1]
  refine ⟨.one (.move hc hx hcx hd S.1 hl h2 h4), fun y hy => ?_⟩
  show (h'.get y).parent = _
  rw [h2.parent, moveH_parent _ _ _ _ I, if_neg hy]

theorem acts_connect {h : Heap} (I : Inv h) (E : Env) {n el : Ref} (hn : n < h.size) :
    Acts M h (connect E n el h).2 ∧
    (∀ y < h.size, ((connect E n el h).2.get y).parent = (h.get y).parent) ∧
    (∀ y q, ((connect E n el h).2.get y).parent = some q → (h.get y).parent = some q ∨ q = n) := by
  by_cases hk : (h.get n).kind.isHElement = true
  · cases hctx : (h.get n).genCtx with
    | none => rw [connect_none (.inr hctx)]; exact ⟨.refl _, fun _ _ => rfl, fun _ _ => .inl⟩
    | some ctx =>
      rw [connect_some hk hctx]
      simp only [alloc_bind_run, modify_bind_run]
      have F : Fresh (portObj E ctx (h.get n) (h.get el) el) :=
        ⟨rfl, rfl, rfl, rfl, rfl, fun h => by cases h⟩
      have a1 : Acts M h (allocH h (portObj E ctx (h.get n) (h.get el) el)) :=
        .one (.alloc F rfl rfl)
      have hp1 : ∀ y, ((allocH h (portObj E ctx (h.get n) (h.get el) el)).get y).parent =
        (h.get y).parent := allocH_parent I F
      change Acts M h (baseAdd E n h.size ((allocH h (portObj E ctx (h.get n) (h.get el) el)).mod n
        fun o => { o with ports := o.ports.set (h.get el).uuid h.size })).2 ∧
        (∀ y < h.size, (((baseAdd E n h.size ((allocH h (portObj E ctx (h.get n) (h.get el) el)).mod n
        fun o => { o with ports := o.ports.set (h.get el).uuid h.size })).2).get y).parent = _) ∧
        (∀ y q, (((baseAdd E n h.size ((allocH h (portObj E ctx (h.get n) (h.get el) el)).mod n
        fun o => { o with ports := o.ports.set (h.get el).uuid h.size })).2).get y).parent = some q → _)
      have hs1 : (allocH h (portObj E ctx (h.get n) (h.get el) el)).size = h.size + 1 := rfl
      generalize allocH h (portObj E ctx (h.get n) (h.get el) el) = h1 at *
      have q2 : Quiet h1 (h1.mod n fun o => { o with ports := o.ports.set (h.get el).uuid h.size }) :=
        Quiet.mod rfl rfl rfl rfl
      have hs2 : (h1.mod n fun o =>
        { o with ports := o.ports.set (h.get el).uuid h.size }).size = h.size + 1 := hs1
      generalize (h1.mod n fun o => { o with ports := o.ports.set (h.get el).uuid h.size }) = h2 at *
      have a2 : Acts M h h2 := a1.tail (.quiet q2)
      have I2 := a2.inv I
      have hp2 : ∀ y, (h2.get y).parent = (h.get y).parent := fun y => (q2.parent y).trans (hp1 y)
      have hcl : Childless h2 h.size := by
        intro y hy; rw [hp2] at hy
        exact absurd (SInv.parent_lt I hy) (Nat.lt_irrefl _)
      have hpn : (h2.get h.size).parent = none := by
        rw [hp2]; exact (I.get_out (Nat.le_refl _)).1
      have S : AddSafe h2 n h.size := by
        refine ⟨?_, fun p hp => by rw [hpn] at hp; cases hp⟩
        intro q
        obtain ⟨b, hb, _⟩ := q.cases_down
        exact hcl b hb
      have hb := acts_baseAdd (M := M) I2 E (c := n) (x := h.size) (by omega) (by omega) S fun _ => hcl
      refine ⟨a2.trans hb.1, ?_, ?_⟩
      · intro y hy
        rw [hb.2 y (by omega), hp2]
      · intro y q
        by_cases hy : y = h.size
        · subst hy
          by_cases hd : (h2.get h.size).uuid ∈ (h2.get n).subs.keys
          · rw [baseAdd_dup (by omega) hd]
            intro hh
            rw [show ((Except.error Err.duplicateElement, h2) : Except Err Unit × Heap).2 = h2 from rfl,
              hpn] at hh
            cases hh
          · obtain ⟨h', h1, h3, _⟩ := I2.baseAdd E (c := n) (x := h.size) (by omega) (by omega)
              (by omega) hd S.1 S.2
            rw [h1]
            show (h'.get h.size).parent = _ → _
            rw [h3.parent, moveH_parent _ _ _ _ I2, if_pos rfl]
            intro hh; cases hh; exact .inr rfl
        · rw [hb.2 y hy, hp2]; exact .inl
  · rw [connect_none (.inl hk)]; exact ⟨.refl _, fun _ _ => rfl, fun _ _ => .inl⟩

/-- The heap after `c.add_element(x)` is the heap after `HierarchicalElement.add_element`, possibly
followed by a quiet change or a `connect`. -/
theorem addElement_after (E : Env) (c x : Ref) (h : Heap) :
    (addElement E c x h).2 = (baseAdd E c x h).2 ∨
    Quiet (baseAdd E c x h).2 (addElement E c x h).2 ∨
    (addElement E c x h).2 = (connect E x c (baseAdd E c x h).2).2 := by
  by_cases hk : (h.get c).kind = .relation
  · rw [addElement_relation hk]
    cases hr : baseAdd E c x h with
    | mk r h1 =>
      cases r with
      | error e => rw [bind_err hr]; exact .inl rfl
      | ok _ =>
        rw [bind_ok hr, obj_bind_run]
        split
        · exact .inr (.inr rfl)
        · exact .inl rfl
  by_cases hk' : (h.get c).kind = .edge
  · rw [addElement_edge hk']
    cases hr : baseAdd E c x h with
    | mk r h1 =>
      cases r with
      | error e => rw [bind_err hr]; exact .inl rfl
      | ok _ =>
        rw [bind_ok hr, obj_bind_run]
        by_cases hx : (h1.get x).kind = .relation
        · rw [if_pos hx, obj_bind_run]
          cases hg : (h1.get c).genCtx with
          | none => exact .inl rfl
          | some _ =>
            refine .inr (.inl ?_)
            exact Quiet.mod (h := h1) (x := c)
              (f := fun oc => { oc with subRels := oc.subRels.set (h1.get x).cid x }) rfl rfl rfl rfl
        · rw [if_neg hx]; exact .inl rfl
  · rw [addElement_plain hk hk']; exact .inl rfl

theorem acts_addElement {h : Heap} (I : Inv h) (E : Env) {c x : Ref} (hc : c < h.size)
    (hx : x < h.size) (S : AddSafe h c x) (hl : M.leafAdd → Childless h x) :
    Acts M h (addElement E c x h).2 ∧
    ∀ y < h.size, y ≠ x → ((addElement E c x h).2.get y).parent = (h.get y).parent := by
  have a := acts_baseAdd I E hc hx S hl
  rcases addElement_after E c x h with e | e | e
  · rw [e]; exact ⟨a.1, fun y _ hy => a.2 y hy⟩
  · refine ⟨a.1.tail (.quiet e), fun y _ hy => ?_⟩
    rw [e.parent, a.2 y hy]
  · rw [e]
    have hs := (frames_baseAdd (L := False) E c x h).keeps.size
    have b := acts_connect (M := M) (a.1.inv I) E (n := x) (el := c) (Nat.lt_of_lt_of_le hx hs)
    refine ⟨a.1.trans b.1, fun y hy hyx => ?_⟩
    rw [b.2.1 y (Nat.lt_of_lt_of_le hy hs), a.2 y hyx]

theorem acts_detach {h h' : Heap} {c x : Ref} (hp : (h.get x).parent = some c) (hm : M.detach)
    (hl : M.leafDetach → Childless h x) (sim : Sim (· = x) (detachH h c x) h')
    (hq : (h'.get x).qualName = (h.get x).idName) : Acts M h h' := by
  refine .one (.detach (c := c) (vs := [x]) (by simp) ?_ (fun _ => hm) ?_ ?_ ?_)
  · intro v hv; rw [List.mem_singleton] at hv; subst hv; exact hp
  · intro hh v hv; rw [List.mem_singleton] at hv; subst hv; exact hl hh
  · exact sim.mono fun y hy => by rw [hy]; exact List.mem_singleton.2 rfl
  · intro v hv; rw [List.mem_singleton] at hv; subst hv; exact hq

/-- After removal by uuid from an edge. -/
theorem removeEdge_after {h : Heap} (I : Inv h) (E : Env) {c x : Ref} {nm : Str} {lim : Option Nat}
    (hl : lim ≠ some 0) (hk : (h.get c).kind = .edge) (hp : (h.get x).parent = some c)
    (hnm : nm = [] ∨ nm = (h.get x).idName) :
    ∃ e h1, removeElement E c nm (some (h.get x).uuid) lim h = (.error e, (removeElement E c nm
        (some (h.get x).uuid) lim h).2) ∧ Sim (· = x) (detachH h c x) h1 ∧
      (h1.get x).qualName = (h.get x).idName ∧
      Quiet h1 (removeElement E c nm (some (h.get x).uuid) lim h).2 := by
  obtain ⟨h1, hr, hsim, hq, hrd⟩ := I.removeUuid E (lim := some 1) (by simp) hp hnm
  unfold removeElement
  rw [obj_bind_run]
  simp only [hk, if_neg hl]
  rw [bind_ok hr]
  simp only [obj_bind_run]
  cases hg : (h1.get c).genCtx with
  | none => exact ⟨_, h1, rfl, hsim, hq, .refl _⟩
  | some ctx =>
    cases hsr : (h1.get c).subRels.get? (h1.get x).cid with
    | none => exact ⟨_, h1, rfl, hsim, hq, .refl _⟩
    | some y =>
      simp only [modify_bind_run, raise_run]
      exact ⟨_, h1, rfl, hsim, hq, Quiet.mod rfl rfl rfl rfl⟩

theorem acts_removeElement {h : Heap} (I : Inv h) (E : Env) {c : Ref} {nm : Str}
    {u : Option Bytes} {lim : Option Nat} (S : RemoveSafe h c nm u lim) (hm : M.detach)
    (hlf : M.leafDetach → ∀ x ∈ h.subelements c,
      (u = some (h.get x).uuid ∨ u = none ∧ (h.get x).idName = nm) → Childless h x) :
    Acts M h (removeElement E c nm u lim h).2 := by
  obtain ⟨hrel, hS⟩ := S
  by_cases hl : lim = some 0
  · subst hl; rw [removeElement_zero]; exact .refl _
  cases u with
  | some u =>
    cases hx : (h.get c).subs.get? u with
    | none =>
      by_cases hk : (h.get c).kind = .edge
      · unfold Rei.removeElement
        simp only [obj_bind_run, hk, if_neg hl]
        rw [bind_err (baseRemove_absent (by simp) hx)]
        exact .refl _
      · rw [removeElement_plain hk hrel, baseRemove_absent hl hx]; exact .refl _
    | some x =>
      have hpx := (SInv.get?_subs I c u x).1 hx
      have hp : (h.get x).parent = some c := hpx.1
      have hu : (h.get x).uuid = u := hpx.2
      subst hu
      have hmem := (I.mem_subelements c x).2 hp
      have hnm : nm = [] ∨ nm = (h.get x).idName := by
        by_cases hn : nm = []
        · exact .inl hn
        · exact .inr (hS hn x hmem rfl).symm
      by_cases hk : (h.get c).kind = .edge
      · obtain ⟨e, h1, _, hsim, hq, hqu⟩ := removeEdge_after I E hl hk hp hnm
        exact (acts_detach hp hm (fun hh => hlf hh x hmem (.inl rfl)) hsim hq).tail (.quiet hqu)
      · rw [removeElement_plain hk hrel]
        obtain ⟨h', hr, hsim, hq, _⟩ := I.removeUuid E hl hp hnm
        rw [hr]
        exact acts_detach hp hm (fun hh => hlf hh x hmem (.inl rfl)) hsim hq
  | none =>
    by_cases hn : nm = []
    · subst hn
      have hb : ∀ l, l ≠ some 0 → Rei.baseRemove E c [] none l h = (.error .invalidQuery, h) := by
        intro l hl; unfold baseRemove; simp [hl]
      by_cases hk : (h.get c).kind = .edge
      · unfold Rei.removeElement
        simp only [obj_bind_run, hk, if_neg hl]
        rw [bind_err (hb _ (by simp))]
        exact .refl _
      · rw [removeElement_plain hk hrel, hb _ hl]; exact .refl _
    · obtain ⟨hk, hlim⟩ := hS hn
      rw [removeElement_plain hk hrel]
      unfold Rei.baseRemove
      simp only [if_neg hl, ne_eq, hn, not_false_eq_true, if_true, obj_bind_run]
      cases hi : (h.get c).index.get? nm with
      | none => exact .refl _
      | some d =>
        simp only [modify_bind_run]
        obtain ⟨f1, f2, f3⟩ := fixH_start I hi
        generalize hh1 : (h.mod c fun o => { o with index := o.index.set nm [] }) = h1 at *
        have I1 : Inv (fixH h1 c nm) := by
          refine I.congr (by rw [← hh1]; rfl) ?_
          funext y; unfold Heap.st; rw [f1]
        obtain ⟨h', hr, hsim, I', hidx', hnm', hqn, _⟩ := removeNamed_run (E := E) d.values lim h1 c
          nm I1 (by rw [← hh1]; simp) (by rw [f2, f3])
        rw [hr]
        have hnamed : ∀ v ∈ d.values, v ∈ h.subelements c ∧ (h.get v).idName = nm := by
          intro v hv
          rw [f3, named_eq, List.mem_filter] at hv
          exact ⟨hv.1, by simpa using hv.2⟩
        have htake : takeLim lim d.values = d.values := by
          unfold takeLim
          cases lim with
          | none => rfl
          | some k =>
            rcases hlim k rfl with h0 | h0
            · subst h0; exact absurd rfl hl
            · rw [← named_eq, ← f3] at h0
              exact List.take_of_length_le h0
        rw [htake] at hsim hnm' hqn
        have hd := fixH_done hidx' (by rw [hnm']; simp)
        have hpar : ∀ v ∈ d.values, (h.get v).parent = some c :=
          fun v hv => (I.mem_subelements c v).1 (hnamed v hv).1
        have hid1 : ∀ y, (h1.get y).idName = (h.get y).idName := by
          intro y; rw [← hh1]; simp only [Heap.get_mod]; split
          · next e => subst e; rfl
          · rfl
        have a1 : Act M h (fixH h1 c nm) := .quiet (.congr (by rw [← hh1]; rfl) f1)
        refine ((Acts.one a1).tail (.detach (h' := fixH h' c nm) (c := c) (vs := d.values)
          ?_ ?_ ?_ ?_ hsim ?_)).tail
          (.quiet (.congr rfl fun y => (hd y).symm))
        · have := SInv.values_nodup I c
          rw [f3, named_eq]
          exact this.sublist List.filter_sublist
        · intro v hv; rw [f1]; exact hpar v hv
        · exact fun _ => hm
        · intro hh v hv y
          rw [f1]
          exact hlf hh v (hnamed v hv).1 (.inr ⟨rfl, (hnamed v hv).2⟩) y
        · intro v hv
          rw [hd, f1, hqn v hv, hid1]

theorem acts_leaveParent {h : Heap} (I : Inv h) (E : Env) {x : Ref} (hm : M.detach)
    (hl : M.leafDetach → Childless h x)
    (S : ∀ p, (h.get x).parent = some p → (h.get p).kind ≠ .relation) :
    Acts M h (leaveParent E x h).2 := by
  cases hp : (h.get x).parent with
  | none =>
    unfold Rei.leaveParent
    simp only [obj_bind_run, hp]; exact .refl _
  | some p =>
    by_cases hk : (h.get p).kind = .edge
    · obtain ⟨e, h1, hr, hsim, hq, hqu⟩ :=
        removeEdge_after I E (lim := none) (nm := []) (by simp) hk hp (.inl rfl)
      unfold Rei.leaveParent
      simp only [obj_bind_run, hp]
      rw [bind_err hr]
      exact (acts_detach hp hm hl hsim hq).tail (.quiet hqu)
    · obtain ⟨d, hd, hu, _⟩ := I.index_get hp
      have hx := SInv.lt_of_parent I hp
      obtain ⟨h', hr, hsim, hq, _⟩ := leaveParent_run (E := E) hp (SInv.parent_ne I hp)
        (Nat.lt_of_le_of_lt (Nat.zero_le _) hx) hk (S p hp)
        ((SInv.get?_subs I p _ x).2 ⟨hp, rfl⟩) hd hu (I.clocked hx)
      rw [hr]
      exact acts_detach hp hm hl hsim hq

theorem Sim.quiet {D : Ref → Prop} {h h' : Heap} (p : Sim D h h')
    (hq : ∀ y, (h'.get y).qualName = (h.get y).qualName) : Quiet h h' where
  size := p.size
  kind := p.kind
  uuid := p.uuid
  idName := p.idName
  qualName := hq
  parent := p.parent
  depth := p.depth
  cid := p.cid
  cnt := p.cnt
  hist := p.hist
  subs := p.subs
  index := p.index
  clock := fun y _ h => by rw [p.clock]; exact h
  out := fun y _ => p.clock y

theorem acts_newConceptual {h : Heap} (G : Good h) (E : Env) {k : Kind} {nm : Str} {u : Bytes}
    {pn : PName} {ck : Option Clock} {p : Option Ref} (hp : okRef h p) :
    Acts M h (newConceptual E k nm u pn ck p h).2 := by
  cases ck with
  | none => unfold Rei.newConceptual; simp only [if_true]; exact .refl _
  | some ck =>
    have I := G.inv
    have F : Fresh (conceptualObj k nm u pn (some ck)) := fresh_conceptual
    obtain ⟨h1, G1, hsim, hrd, hqn, hrun⟩ := newConceptual_start (E := E) G k nm u pn ck p
    rw [hrun]
    have a1 : Acts M h h1 := (Acts.one (.alloc F rfl rfl)).tail (.quiet (hsim.quiet hqn))
    have hsz : h1.size = h.size + 1 := by rw [hsim.size]; rfl
    have hpar : ∀ y, (h1.get y).parent = (h.get y).parent := by
      intro y; rw [hsim.parent, allocH_parent G.inv F]
    have hnochild : Childless h1 h.size := by
      intro y hy; rw [hpar] at hy
      exact absurd (G.inv.parent_lt hy) (Nat.lt_irrefl _)
    have hxp : (h1.get h.size).parent = none := by
      rw [hpar]; exact (G.inv.get_out (Nat.le_refl _)).1
    have fin : ∀ h2, Acts M h h2 → Acts M h ((if k.isHElement = true then do
        PyM.modify h.size fun o => { o with genCtx := some nm }
        pure h.size
      else pure h.size : PyM Ref) h2).2 := by
      intro h2 a2
      split
      · simp only [modify_bind_run, pure_run]
        exact a2.tail (.quiet (Quiet.mod rfl rfl rfl rfl))
      · exact a2
    have S : ∀ q, AddSafe h1 q h.size := by
      intro q
      refine ⟨?_, fun p' hp' => ?_⟩
      · intro qq
        obtain ⟨b, hb, _⟩ := qq.cases_down
        exact hnochild b hb
      · rw [hxp] at hp'; cases hp'
    cases p with
    | none => simp only [adopt, pure_bind_run]; exact fin h1 a1
    | some q =>
      have hq := hp q rfl
      have a2 : Acts M h (addElement E q h.size h1).2 :=
        a1.trans (acts_addElement G1.inv E (by omega) (by omega) (S q) fun _ => hnochild).1
      simp only [adopt]
      cases hr : Rei.addElement E q h.size h1 with
      | mk r h2 =>
        rw [hr] at a2
        cases r with
        | error e => rw [bind_err hr]; exact a2
        | ok _ => rw [bind_ok hr]; exact fin h2 a2

theorem acts_unaryConnect {h : Heap} (I : Inv h) (E : Env) {e n : Ref} {w : Option Ref} {d : Dir}
    {sv : Option Ref} (he : e < h.size) (hn : n < h.size) (hsv : okRef h sv)
    (S : ∀ s, sv = some s → ¬ Anc h s e ∧ s ≠ e ∧ Movable h s)
    (hl : M.leafAdd → sv = none) :
    Acts M h (unaryConnect E e n w d sv h).2 := by
  unfold Rei.unaryConnect
  rw [obj_bind_run]
  by_cases hke : (h.get e).kind = .edge
  · rw [if_pos hke, obj_bind_run]
    cases hr : Rei.readClock E (h.get e).clock h with
    | mk r h0 =>
      have hrc : h0.size = h.size ∧ ∀ y, h0.get y = h.get y := by
        unfold Rei.readClock at hr
        split at hr <;> (cases hr; exact ⟨rfl, fun _ => rfl⟩)
      obtain ⟨hs0, hg0⟩ := hrc
      have a0 : Acts M h h0 := .one (.quiet (.congr hs0 hg0))
      have I0 := a0.inv I
      cases r with
      | error _ => rw [bind_err hr]; exact a0
      | ok t =>
        rw [bind_ok hr]
        cases hctx : (h.get e).genCtx with
        | none => exact a0
        | some ctx =>
          unfold newRelation
          simp only [alloc_bind_run]
          generalize ho : relationObj (elementUid E ctx (h.get n).idName)
            (relName (h.get e).idName (h.get n).idName t) _ (some n) w d sv = o
          have F : Fresh o := by rw [← ho]; exact ⟨rfl, rfl, rfl, rfl, rfl, fun h => by cases h⟩
          change Acts M h (((Rei.connect E n h0.size) >>= _) (Rei.allocH h0 o)).2
          have a1 : Acts M h (Rei.allocH h0 o) :=
            a0.tail (.alloc F (by rw [← ho]; rfl) (by rw [← ho]; rfl))
          have I1 := a1.inv I
          have hs1 : (Rei.allocH h0 o).size = h.size + 1 := by rw [allocH_size, hs0]
          have hp1 : ∀ y, ((Rei.allocH h0 o).get y).parent = (h.get y).parent := by
            intro y; rw [allocH_parent I0 F]; exact congrArg Obj.parent (hg0 y)
          have hkd1 : ∀ y < h.size, ((Rei.allocH h0 o).get y).kind = (h.get y).kind := by
            intro y hy; rw [allocH_get_lt (by omega)]; exact congrArg Obj.kind (hg0 y)
          rw [hs0]
          generalize Rei.allocH h0 o = h1 at *
          have hnochild : ∀ y, (h1.get y).parent ≠ some h.size := by
            intro y hy; rw [hp1] at hy
            exact absurd (SInv.parent_lt I hy) (Nat.lt_irrefl _)
          have hrp : (h1.get h.size).parent = none := by
            rw [hp1]; exact (I.get_out (Nat.le_refl _)).1
          have hcon := acts_connect (M := M) I1 E (n := n) (el := h.size) (by omega)
          have hkc := (frames_connect (L := False) E n h.size h1).keeps
          cases hr2 : Rei.connect E n h.size h1 with
          | mk r2 h2 =>
            rw [hr2] at hcon hkc
            obtain ⟨(a2 : Acts M h1 h2),
              (hp2 : ∀ y < h1.size, (h2.get y).parent = (h1.get y).parent),
              (hp2' : ∀ y q, (h2.get y).parent = some q → (h1.get y).parent = some q ∨ q = n)⟩ := hcon
            have a12 := a1.trans a2
            have I2 := a12.inv I
            cases r2 with
            | error _ => rw [bind_err hr2]; exact a12
            | ok _ =>
              rw [bind_ok hr2]
              have hs2 : h1.size ≤ h2.size := hkc.size
              have hanc2 : ∀ a y, y < h1.size → Anc h2 a y → Anc h1 a y :=
                fun a y hy q => anc_of_parent_same I1 hp2 hy q
              have hrp2 : (h2.get h.size).parent = none := by
                rw [hp2 _ (by omega)]; exact hrp
              have hnoanc : ∀ a, ¬ Anc h2 a h.size := by
                intro a q
                cases q with
                | direct hq => rw [hrp2] at hq; cases hq
                | up hq _ => rw [hrp2] at hq; cases hq
              have hnobelow : ∀ y, y < h1.size → ¬ Anc h2 h.size y := by
                intro y hy q
                obtain ⟨b, hb, _⟩ := (hanc2 _ _ hy q).cases_down
                exact hnochild b hb
              have last : ∀ h3, Acts M h h3 → h2.size ≤ h3.size → ¬ Anc h3 h.size e →
                  (h3.get h.size).parent = none → (M.leafAdd → Childless h3 h.size) →
                  Acts M h (((addElement E e h.size) >>= fun _ => (pure h.size : PyM Ref)) h3).2 := by
                intro h3 a3 hs3 hb hpn hcl
                have a4 := a3.trans (acts_addElement (M := M) (a3.inv I) E (c := e) (x := h.size)
                  (by omega) (by omega) ⟨hb, fun p hp => by rw [hpn] at hp; cases hp⟩ hcl).1
                cases hr3 : Rei.addElement E e h.size h3 with
                | mk r3 h4 =>
                  rw [hr3] at a4
                  cases r3 with
                  | error _ => rw [bind_err hr3]; exact a4
                  | ok _ => rw [bind_ok hr3]; exact a4
              cases sv with
              | none =>
                simp only [attachSem, pure_bind_run]
                refine last h2 a12 (Nat.le_refl _) (hnobelow e (by omega)) hrp2 ?_
                intro _ y hy
                rcases hp2' y _ hy with h3 | h3
                · exact hnochild y h3
                · omega
              | some s =>
                obtain ⟨S1, S2, S3⟩ := S s rfl
                have hs := hsv s rfl
                simp only [attachSem]
                have hmov : Movable h2 s := by
                  intro p hp
                  rw [hp2 _ (by omega), hp1] at hp
                  have hplt := SInv.parent_lt I hp
                  have := S3 p hp
                  have hk2 : (h2.get p).kind = (h.get p).kind := by
                    rw [hkc.kind p (by omega), hkd1 p hplt]
                  rw [hk2]; exact this
                have hleaf : ¬ M.leafAdd := fun hh => by cases hl hh
                have hadd := acts_addElement (M := M) I2 E (c := h.size) (x := s) (by omega)
                  (by omega) ⟨hnoanc s, hmov⟩ fun hh => absurd hh hleaf
                have a3 := a12.trans hadd.1
                have hka := (frames_addElement (L := False) E h.size s h2).keeps
                cases hr3 : Rei.addElement E h.size s h2 with
                | mk r3 h3 =>
                  rw [hr3] at hadd hka a3
                  have hp3 : ∀ y < h2.size, y ≠ s →
                    (h3.get y).parent = (h2.get y).parent := hadd.2
                  cases r3 with
                  | error _ => rw [bind_err hr3]; exact a3
                  | ok _ =>
                    rw [bind_ok hr3]
                    have hs3 : h2.size ≤ h3.size := hka.size
                    have hne : h.size ≠ s := by omega
                    have hw : ¬ Within h2 s e := by
                      rintro (q | q)
                      · exact S2 q.symm
                      · apply S1
                        have q1 := hanc2 _ _ (by omega) q
                        exact anc_of_parent_same (h' := h1) I (fun y _ => hp1 y) he q1
                    refine last h3 a3 hs3 ?_ ?_ (fun hh => absurd hh hleaf)
                    · exact fun q => hnobelow e (by omega)
                          (anc_of_parent_same_except I2 hp3 (by omega) hw q)
                    · rw [hp3 _ (by omega) hne, hrp2]
  · rw [if_neg hke]; exact .refl _

end Rei
