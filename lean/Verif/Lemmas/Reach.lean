import Verif.Lemmas.RemoveNamed

/-!
# Every safe call preserves the invariants
-/
namespace Rei
open PyM

/-- `_sub_relations` of a fully constructed edge lists exactly its relations, by context id. -/
def RelInv (h : Heap) : Prop :=
  ∀ e, (h.get e).kind = .edge → (h.get e).genCtx ≠ none → ∀ k r,
    (h.get e).subRels.get? k = some r ↔
      (h.get r).parent = some e ∧ (h.get r).kind = .relation ∧ (h.get r).cid = k

/-- Both invariants. -/
structure Good (h : Heap) : Prop where
  inv : Inv h
  rel : RelInv h

theorem RelInv.sim {D : Ref → Prop} {a b : Heap} (R : RelInv a) (p : Sim D a b) : RelInv b := by
  intro e h1 h2 k r
  rw [p.kind] at h1
  rw [p.genCtx] at h2
  rw [p.subRels, p.parent, p.kind, p.cid]
  exact R e h1 h2 k r

theorem Good.sim {D : Ref → Prop} {a b : Heap} (G : Good a) (p : Sim D a b) : Good b :=
  ⟨p.inv G.inv, G.rel.sim p⟩

/-- `x` is not contained in an edge. -/
def NotInEdge (h : Heap) (x : Ref) : Prop := ∀ e, (h.get x).parent = some e → (h.get e).kind ≠ .edge

theorem Movable.notInEdge {h : Heap} {x : Ref} (m : Movable h x) : NotInEdge h x :=
  fun e he => (m e he).1

theorem RelInv.detach {h : Heap} (R : RelInv h) {p x : Ref} (hx : NotInEdge h x) :
    RelInv (detachH h p x) := by
  intro e h1 h2 k r
  rw [detachH_kind] at h1
  rw [detachH_genCtx] at h2
  rw [detachH_subRels, detachH_parent, detachH_kind, detachH_cid, R e h1 h2]
  by_cases hr : r = x
  · subst hr
    rw [if_pos rfl]
    constructor
    · rintro ⟨h3, _⟩; exact absurd h1 (hx e h3)
    · rintro ⟨h3, _⟩; cases h3
  · rw [if_neg hr]

theorem RelInv.move {h : Heap} (R : RelInv h) (I : Inv h) {c x : Ref} (hx : NotInEdge h x)
    (hc : (h.get c).kind ≠ .edge ∨ (h.get x).kind ≠ .relation ∨ (h.get c).genCtx = none) :
    RelInv (moveH h c x) := by
  intro e h1 h2 k r
  rw [moveH_kind] at h1
  rw [moveH_genCtx] at h2
  rw [moveH_subRels, moveH_parent _ _ _ _ I, moveH_kind, moveH_cid, R e h1 h2]
  by_cases hr : r = x
  · subst hr
    rw [if_pos rfl]
    constructor
    · rintro ⟨h3, _⟩; exact absurd h1 (hx e h3)
    · rintro ⟨h3, h4, _⟩
      cases h3
      rcases hc with hc | hc | hc
      · exact absurd h1 hc
      · exact absurd h4 hc
      · exact absurd hc h2
  · rw [if_neg hr, if_neg hr]

theorem RelInv.moveRel {h g : Heap} {D : Ref → Prop} (R : RelInv h) (I : Inv h) {c x : Ref}
    (hcx : x ≠ c) (hx : NotInEdge h x) (hr : (h.get x).kind = .relation)
    (p : Sim D (moveH h c x) g) :
    RelInv (g.mod c fun o => { o with subRels := o.subRels.set (g.get x).cid x }) := by
  have hk : (g.get x).cid = (h.get c).hist := by rw [p.cid, moveH_cid, if_pos rfl]
  rw [hk]
  have hcx' : c ≠ x := Ne.symm hcx
  have hpar : ∀ y, (g.get y).parent = if y = x then some c else (h.get y).parent := by
    intro y; rw [p.parent, moveH_parent _ _ _ _ I]
  have hkd : ∀ y, (g.get y).kind = (h.get y).kind := by
    intro y; rw [p.kind, moveH_kind]
  have hci : ∀ y, (g.get y).cid = if y = x then (h.get c).hist else (h.get y).cid := by
    intro y; rw [p.cid, moveH_cid]
  generalize hg' : (g.mod c fun o => { o with subRels := o.subRels.set (h.get c).hist x }) = g'
  have f1 : ∀ y, (g'.get y).parent = if y = x then some c else (h.get y).parent := by
    intro y; rw [← hpar, ← hg']; simp only [Heap.get_mod]; split
    · next e => subst e; rfl
    · rfl
  have f2 : ∀ y, (g'.get y).kind = (h.get y).kind := by
    intro y; rw [← hkd, ← hg']; simp only [Heap.get_mod]; split
    · next e => subst e; rfl
    · rfl
  have f3 : ∀ y, (g'.get y).cid = if y = x then (h.get c).hist else (h.get y).cid := by
    intro y; rw [← hci, ← hg']; simp only [Heap.get_mod]; split
    · next e => subst e; rfl
    · rfl
  have f4 : ∀ y, (g'.get y).genCtx = (h.get y).genCtx := by
    intro y; rw [← moveH_genCtx h c x y, ← p.genCtx, ← hg']; simp only [Heap.get_mod]; split
    · next e => subst e; rfl
    · rfl
  have f5 : ∀ y, (g'.get y).subRels =
      if y = c then (h.get c).subRels.set (h.get c).hist x else (h.get y).subRels := by
    intro y; rw [← hg']; simp only [Heap.get_mod]; split
    · next e => simp only [p.subRels, moveH_subRels]
    · simp only [p.subRels, moveH_subRels]
  intro e h1 h2 k r
  rw [f2] at h1
  rw [f4] at h2
  rw [f1, f2, f3, f5]
  have hR := R e h1 h2 k r
  by_cases hec : e = c
  · subst hec
    rw [if_pos rfl, Dict.get?_set]
    by_cases hkk : (h.get e).hist = k
    · subst hkk
      rw [if_pos rfl]
      by_cases hrx : r = x
      · subst hrx; simp [hr]
      · simp only [if_neg hrx]
        constructor
        · intro h3; exact absurd (Option.some.inj h3).symm hrx
        · rintro ⟨h3, _, h5⟩
          have hlt : (h.get r).cid < (h.get e).hist := I.cidLt r e h3
          rw [h5] at hlt
          exact absurd hlt (Nat.lt_irrefl _)
    · rw [if_neg hkk, hR]
      by_cases hrx : r = x
      · subst hrx
        rw [if_pos rfl, if_pos rfl]
        constructor
        · rintro ⟨h3, _⟩; exact absurd h1 (hx e h3)
        · rintro ⟨_, _, h5⟩; exact absurd h5 hkk
      · rw [if_neg hrx, if_neg hrx]
  · rw [if_neg hec, hR]
    by_cases hrx : r = x
    · subst hrx
      rw [if_pos rfl, if_pos rfl]
      constructor
      · rintro ⟨h3, _⟩; exact absurd h1 (hx e h3)
      · rintro ⟨h3, _⟩; exact absurd (Option.some.inj h3).symm hec
    · rw [if_neg hrx, if_neg hrx]

/-- A write that leaves containment data and `_sub_relations` alone. -/
theorem Good.mod {h : Heap} (G : Good h) {x : Ref} {f : Obj → Obj}
    (hf : (f (h.get x)).st = (h.get x).st) (hg : (f (h.get x)).genCtx = (h.get x).genCtx)
    (hr : (f (h.get x)).subRels = (h.get x).subRels) : Good (h.mod x f) := by
  refine ⟨G.inv.mod hf, ?_⟩
  have e : ∀ {α : Type} (π : Obj → α), π (f (h.get x)) = π (h.get x) → ∀ y,
      π ((h.mod x f).get y) = π (h.get y) := by
    intro α π hπ y
    simp only [Heap.get_mod]
    split
    · next e => subst e; exact hπ
    · rfl
  intro a h1 h2 k r
  rw [e (·.kind) (congrArg SObj.kind hf)] at h1
  rw [e (·.genCtx) hg] at h2
  rw [e (·.subRels) hr, e (·.parent) (congrArg SObj.parent hf), e (·.kind) (congrArg SObj.kind hf),
    e (·.cid) (congrArg SObj.cid hf)]
  exact G.rel a h1 h2 k r

theorem Good.congr {h h' : Heap} (G : Good h) (hs : h'.size = h.size)
    (hg : ∀ y, h'.get y = h.get y) : Good h' := by
  refine ⟨G.inv.congr hs (by funext y; unfold Heap.st; rw [hg]), ?_⟩
  intro e h1 h2 k r
  rw [hg] at h1 h2
  rw [hg, hg]
  exact G.rel e h1 h2 k r

theorem Good.allocH {h : Heap} (G : Good h) {o : Obj} (F : Fresh o) : Good (allocH h o) := by
  refine ⟨G.inv.allocH F, ?_⟩
  intro e h1 h2 k r
  rw [allocH_parent G.inv F]
  by_cases he : e = h.size
  · rw [he, allocH_get, if_pos rfl, F.subRels]
    constructor
    · intro h3; cases h3
    · rintro ⟨h3, _⟩
      exact absurd (G.inv.parent_lt h3) (Nat.lt_irrefl _)
  · rw [allocH_get, if_neg he] at h1 h2 ⊢
    rw [G.rel e h1 h2]
    constructor
    · rintro ⟨h3, h4, h5⟩
      rw [allocH_get_lt (G.inv.lt_of_parent h3)]
      exact ⟨h3, h4, h5⟩
    · rintro ⟨h3, h4, h5⟩
      rw [allocH_get_lt (G.inv.lt_of_parent h3)] at h4 h5
      exact ⟨h3, h4, h5⟩

theorem Good.empty : Good Heap.empty := by
  refine ⟨?_, ?_⟩
  · refine { out := fun x _ => rfl, nodup := fun c => List.nodup_nil, mem := ?_, index := fun c nm => rfl,
             cnt := fun c => rfl, cidLt := ?_, cidInj := ?_, rank := ⟨fun _ => 0, ?_⟩, clock := ?_ }
    · intro c u x
      constructor
      · intro h; cases h
      · rintro ⟨h, _⟩; cases h
    · intro x c h; cases h
    · intro x y c h; cases h
    · intro x p h; cases h
    · intro x h; exact absurd h (Nat.not_lt_zero _)
  · intro e h; cases h

/-! ### add -/

/-- The three outcomes of `HierarchicalElement.add_element` for a safe call. -/
theorem Good.baseAdd_cases {h : Heap} (G : Good h) (E : Env) {c x : Ref} (hc : c < h.size)
    (hx : x < h.size) (S : AddSafe h c x) :
    (x = c ∧ baseAdd E c x h = (.error .recursiveHierarchy, h)) ∨
    (x ≠ c ∧ (h.get x).uuid ∈ (h.get c).subs.keys ∧
      baseAdd E c x h = (.error .duplicateElement, h)) ∨
    (x ≠ c ∧ (h.get x).uuid ∉ (h.get c).subs.keys ∧ ∃ h', baseAdd E c x h = (.ok (), h') ∧
      Sim (Within (moveH h c x) x) (moveH h c x) h' ∧ h.reads ≤ h'.reads ∧ Inv (moveH h c x) ∧
      ∀ y, Within (moveH h c x) x y → ∀ l, PathTo (moveH h c x) y l →
        (h'.get y).qualName = Str.join '/' l) := by
  by_cases hcx : x = c
  · subst hcx; exact .inl ⟨rfl, baseAdd_self⟩
  · right
    by_cases hd : (h.get x).uuid ∈ (h.get c).subs.keys
    · exact .inl ⟨hcx, hd, baseAdd_dup hcx hd⟩
    · obtain ⟨h', h1, h2, h3, h4⟩ := G.inv.baseAdd E hc hx hcx hd S.1 S.2
      exact .inr ⟨hcx, hd, h', h1, h2, h3, G.inv.moveH hc hx hcx hd S.1, h4⟩

theorem addElement_relation {E : Env} {h : Heap} {c x : Ref} (hk : (h.get c).kind = .relation) :
    addElement E c x h = (do
      baseAdd E c x
      let ox ← obj x
      if ox.kind.isHElement then Rei.connect E x c else pure ()) h := by
  unfold addElement
  rw [obj_bind_run, hk]

theorem addElement_edge {E : Env} {h : Heap} {c x : Ref} (hk : (h.get c).kind = .edge) :
    addElement E c x h = (do
      baseAdd E c x
      let ox ← obj x
      if ox.kind = Kind.relation then do
        let oc ← obj c
        match oc.genCtx with
        | none => raise .attributeError
        | some _ => PyM.modify c fun oc => { oc with subRels := oc.subRels.set ox.cid x }
      else pure ()) h := by
  unfold addElement
  rw [obj_bind_run, hk]; rfl

theorem addElement_plain {E : Env} {h : Heap} {c x : Ref} (h1 : (h.get c).kind ≠ .relation)
    (h2 : (h.get c).kind ≠ .edge) : addElement E c x h = baseAdd E c x h := by
  unfold addElement
  rw [obj_bind_run]
  cases hk : (h.get c).kind <;> first | rfl | exact absurd hk h1 | exact absurd hk h2

theorem connect_some {E : Env} {h : Heap} {n el : Ref} {ctx : Str}
    (hk : (h.get n).kind.isHElement = true) (hg : (h.get n).genCtx = some ctx) :
    Rei.connect E n el h = (do
      let p ← alloc (portObj E ctx (h.get n) (h.get el) el)
      PyM.modify n fun o => { o with ports := o.ports.set (h.get el).uuid p }
      baseAdd E n p) h := by
  unfold Rei.connect
  rw [obj_bind_run, if_pos hk, hg]
  rfl

theorem connect_none {E : Env} {h : Heap} {n el : Ref}
    (hk : (h.get n).kind.isHElement ≠ true ∨ (h.get n).genCtx = none) :
    Rei.connect E n el h = (.error .attributeError, h) := by
  unfold Rei.connect
  rw [obj_bind_run]
  by_cases hh : (h.get n).kind.isHElement = true
  · rw [if_pos hh]
    rcases hk with hk | hk
    · exact absurd hh hk
    · rw [hk]; rfl
  · rw [if_neg hh]; rfl

/-- `connect` creates at most one object, a port, and changes the parent of no other. -/
theorem Good.connect {h : Heap} (G : Good h) (E : Env) {n el : Ref} (hn : n < h.size) :
    Good (connect E n el h).2 ∧
    (∀ y < h.size, ((Rei.connect E n el h).2.get y).parent = (h.get y).parent) := by
  by_cases hk : (h.get n).kind.isHElement = true
  · cases hctx : (h.get n).genCtx with
    | none => rw [connect_none (.inr hctx)]; exact ⟨G, fun _ _ => rfl⟩
    | some ctx =>
      rw [connect_some hk hctx]
      simp only [alloc_bind_run, modify_bind_run]
      have F : Fresh (portObj E ctx (h.get n) (h.get el) el) :=
        ⟨rfl, rfl, rfl, rfl, rfl, fun h => by cases h⟩
      have G1 : Good (Rei.allocH h (portObj E ctx (h.get n) (h.get el) el)) := G.allocH F
      change Good (baseAdd E n h.size ((Rei.allocH h (portObj E ctx (h.get n) (h.get el) el)).mod n
        fun o => { o with ports := o.ports.set (h.get el).uuid h.size })).2 ∧
        ∀ y < h.size, (((baseAdd E n h.size ((Rei.allocH h (portObj E ctx (h.get n) (h.get el) el)).mod n
        fun o => { o with ports := o.ports.set (h.get el).uuid h.size })).2).get y).parent = _
      generalize hh1 : Rei.allocH h (portObj E ctx (h.get n) (h.get el) el) = h1 at *
      have G2 : Good (h1.mod n fun o => { o with ports := o.ports.set (h.get el).uuid h.size }) :=
        G1.mod rfl rfl rfl
      have hp2 : ∀ y, ((h1.mod n fun o =>
          { o with ports := o.ports.set (h.get el).uuid h.size }).get y).parent =
          (h.get y).parent := by
        intro y
        rw [← allocH_parent G.inv F y, hh1]
        simp only [Heap.get_mod]; split
        · next e => subst e; rfl
        · rfl
      have hk2 : ((h1.mod n fun o =>
          { o with ports := o.ports.set (h.get el).uuid h.size }).get h.size).kind = .port := by
        simp only [Heap.get_mod, if_neg (Nat.ne_of_gt hn)]
        rw [← hh1, allocH_get, if_pos rfl]; rfl
      have hs2 : (h1.mod n fun o =>
          { o with ports := o.ports.set (h.get el).uuid h.size }).size = h.size + 1 := by
        rw [← hh1]; rfl
      generalize hh2 : (h1.mod n fun o =>
          { o with ports := o.ports.set (h.get el).uuid h.size }) = h2 at *
      have hpn : (h2.get h.size).parent = none := by
        rw [hp2]; exact (G.inv.get_out (Nat.le_refl _)).1
      have S : AddSafe h2 n h.size := by
        refine ⟨?_, ?_⟩
        · intro q
          obtain ⟨b, hb, _⟩ := q.cases_down
          rw [hp2] at hb
          exact absurd (G.inv.parent_lt hb) (Nat.lt_irrefl _)
        · intro p hp; rw [hpn] at hp; cases hp
      rcases G2.baseAdd_cases E (c := n) (x := h.size) (by omega) (by omega) S with
        ⟨h3, _⟩ | ⟨_, _, hr⟩ | ⟨_, _, h', hr, hsim, _, Ig, _⟩
      · omega
      · rw [hr]; exact ⟨G2, fun y hy => hp2 y⟩
      · rw [hr]
        refine ⟨⟨hsim.inv Ig, ?_⟩, ?_⟩
        · refine RelInv.sim (G2.rel.move G2.inv S.2.notInEdge ?_) hsim
          right; left; rw [hk2]; simp
        · intro y hy
          rw [hsim.parent, moveH_parent _ _ _ _ G2.inv, if_neg (by omega), hp2]
  · rw [connect_none (.inl hk)]; exact ⟨G, fun _ _ => rfl⟩

theorem Good.addElement {h : Heap} (G : Good h) (E : Env) {c x : Ref} (hc : c < h.size)
    (hx : x < h.size) (S : AddSafe h c x) :
    Good (addElement E c x h).2 ∧
    (∀ y < h.size, y ≠ x → ((Rei.addElement E c x h).2.get y).parent = (h.get y).parent) := by
  have base : ((h.get c).kind ≠ .edge ∨ (h.get x).kind ≠ .relation ∨ (h.get c).genCtx = none) →
      Good (Rei.baseAdd E c x h).2 ∧ (∀ y, y ≠ x →
        ((Rei.baseAdd E c x h).2.get y).parent = (h.get y).parent) := by
    intro hcase
    rcases G.baseAdd_cases E hc hx S with ⟨_, hr⟩ | ⟨_, _, hr⟩ | ⟨_, _, h', hr, hsim, _, Ig, _⟩
    · rw [hr]; exact ⟨G, fun _ _ => rfl⟩
    · rw [hr]; exact ⟨G, fun _ _ => rfl⟩
    · rw [hr]
      refine ⟨⟨hsim.inv Ig, (G.rel.move G.inv S.2.notInEdge hcase).sim hsim⟩, ?_⟩
      intro y hy
      rw [hsim.parent, moveH_parent _ _ _ _ G.inv, if_neg hy]
  have hkeep := (frames_baseAdd (L := False) E c x h).keeps
  by_cases hk : (h.get c).kind = .relation
  · rw [addElement_relation hk]
    have hb := base (.inl (by rw [hk]; simp))
    cases hr : Rei.baseAdd E c x h with
    | mk r h1 =>
      rw [hr] at hb hkeep
      cases r with
      | error e => rw [bind_err hr]; exact ⟨hb.1, fun y _ hy => hb.2 y hy⟩
      | ok _ =>
        rw [bind_ok hr]
        simp only [obj_bind_run]
        split
        · have hc' := hb.1.connect E (n := x) (el := c) (Nat.lt_of_lt_of_le hx hkeep.size)
          refine ⟨hc'.1, fun y hy hyx => ?_⟩
          rw [hc'.2 y (Nat.lt_of_lt_of_le hy hkeep.size), hb.2 y hyx]
        · exact ⟨hb.1, fun y _ hy => hb.2 y hy⟩
  by_cases hk' : (h.get c).kind = .edge
  · rw [addElement_edge hk']
    by_cases hrel : (h.get x).kind = .relation
    · by_cases hg : (h.get c).genCtx = none
      · have hb := base (.inr (.inr hg))
        have hg' : ∀ h1, (∃ r, Rei.baseAdd E c x h = (r, h1)) → Good h1 := by
          rintro h1 ⟨r, hr⟩; rw [hr] at hb; exact hb.1
        rcases G.baseAdd_cases E hc hx S with ⟨_, hr⟩ | ⟨_, _, hr⟩ | ⟨_, _, h', hr, hsim, _, Ig, _⟩
        · rw [bind_err hr]; exact ⟨G, fun _ _ _ => rfl⟩
        · rw [bind_err hr]; exact ⟨G, fun _ _ _ => rfl⟩
        · rw [hr] at hb
          rw [bind_ok hr]
          simp only [obj_bind_run]
          have e1 : (h'.get x).kind = .relation := by rw [hsim.kind, moveH_kind, hrel]
          have e2 : (h'.get c).genCtx = none := by rw [hsim.genCtx, moveH_genCtx, hg]
          simp only [e1, if_true, obj_bind_run, e2]
          exact ⟨hb.1, fun y _ hy => hb.2 y hy⟩
      · rcases G.baseAdd_cases E hc hx S with ⟨_, hr⟩ | ⟨_, _, hr⟩ | ⟨hcx, _, h', hr, hsim, _, Ig, _⟩
        · rw [bind_err hr]; exact ⟨G, fun _ _ _ => rfl⟩
        · rw [bind_err hr]; exact ⟨G, fun _ _ _ => rfl⟩
        · rw [bind_ok hr]
          simp only [obj_bind_run]
          have e1 : (h'.get x).kind = .relation := by rw [hsim.kind, moveH_kind, hrel]
          have e2 : (h'.get c).genCtx = (h.get c).genCtx := by rw [hsim.genCtx, moveH_genCtx]
          simp only [e1, if_true, obj_bind_run, e2]
          cases hgg : (h.get c).genCtx with
          | none => exact absurd hgg hg
          | some ctx =>
            simp only [modify_run]
            refine ⟨⟨(hsim.inv Ig).mod rfl, G.rel.moveRel G.inv hcx S.2.notInEdge hrel hsim⟩, ?_⟩
            intro y _ hy
            have : ((h'.mod c fun oc => { oc with subRels := oc.subRels.set (h'.get x).cid x }).get
                y).parent = (h'.get y).parent := by
              simp only [Heap.get_mod]; split
              · next e => subst e; rfl
              · rfl
            rw [this, hsim.parent, moveH_parent _ _ _ _ G.inv, if_neg hy]
    · have hb := base (.inr (.inl hrel))
      cases hr : Rei.baseAdd E c x h with
      | mk r h1 =>
        rw [hr] at hb hkeep
        cases r with
        | error e => rw [bind_err hr]; exact ⟨hb.1, fun y _ hy => hb.2 y hy⟩
        | ok _ =>
          rw [bind_ok hr]
          simp only [obj_bind_run]
          have e1 : ¬ (h1.get x).kind = .relation := by rw [hkeep.kind x hx]; exact hrel
          rw [if_neg e1]
          exact ⟨hb.1, fun y _ hy => hb.2 y hy⟩
  · rw [addElement_plain hk hk']
    have hb := base (.inl hk')
    exact ⟨hb.1, fun y _ hy => hb.2 y hy⟩

/-! ### remove -/

theorem Good.detachAllH {h : Heap} {c : Ref} (hc : (h.get c).kind ≠ .edge) {vs : List Ref}
    (R : RelInv h) (hv : ∀ v ∈ vs, (h.get v).parent = some c ∨ (h.get v).parent = none) :
    RelInv (detachAllH h c vs) := by
  induction vs generalizing h with
  | nil => exact R
  | cons v vs ih =>
    refine ih ?_ (R.detach ?_) ?_
    · rw [detachH_kind]; exact hc
    · intro e he
      rcases hv v (List.mem_cons_self ..) with h1 | h1
      · rw [h1] at he; cases he; exact hc
      · rw [h1] at he; cases he
    · intro w hw
      rw [detachH_parent]
      split
      · exact .inr rfl
      · exact hv w (List.mem_cons_of_mem _ hw)

/-- Removal by uuid of something that is not there. -/
theorem baseRemove_absent {E : Env} {h : Heap} {c : Ref} {nm : Str} {u : Bytes} {lim : Option Nat}
    (hl : lim ≠ some 0) (hu : (h.get c).subs.get? u = none) :
    baseRemove E c nm (some u) lim h = (.error .keyError, h) := by
  unfold baseRemove
  rw [if_neg hl]
  split
  · simp only []
    rw [bind_err (popSub_none hu)]
  · simp only []
    rw [bind_err (popSub_none hu)]

theorem removeElement_zero {E : Env} {h : Heap} {c : Ref} {nm : Str} {u : Option Bytes} :
    removeElement E c nm u (some 0) h = (.ok [], h) := by
  by_cases h1 : (h.get c).kind = .edge
  · unfold removeElement
    rw [obj_bind_run, h1]; rfl
  by_cases h2 : (h.get c).kind = .relation
  · unfold removeElement
    rw [obj_bind_run, h2]; rfl
  rw [removeElement_plain h1 h2]
  unfold baseRemove; simp

/-- Removal by uuid from an edge: the element is detached, then an exception is raised. -/
theorem Good.removeEdge {h : Heap} (G : Good h) (E : Env) {c x : Ref} {nm : Str} {lim : Option Nat}
    (hl : lim ≠ some 0) (hk : (h.get c).kind = .edge) (hp : (h.get x).parent = some c)
    (hnm : nm = [] ∨ nm = (h.get x).idName) :
    ∃ e h', removeElement E c nm (some (h.get x).uuid) lim h = (.error e, h') ∧ Good h' ∧
      (∀ y, (h'.get y).parent = ((detachH h c x).get y).parent) ∧
      (∀ y, (h'.get y).subs = ((detachH h c x).get y).subs) ∧
      ((h.get c).genCtx ≠ none → (h.get x).kind = .relation → e = .typeError) ∧
      ((h.get c).genCtx ≠ none → (h.get x).kind ≠ .relation → e = .keyError) := by
  obtain ⟨h1, hr, hsim, hq, hrd⟩ := G.inv.removeUuid E (lim := some 1) (by simp) hp hnm
  have hcx : c ≠ x := SInv.parent_ne G.inv hp
  have I1 : Inv h1 := hsim.inv (G.inv.detachH hp)
  have e1 : (h1.get c).genCtx = (h.get c).genCtx := by rw [hsim.genCtx, detachH_genCtx]
  have e2 : (h1.get c).subRels = (h.get c).subRels := by rw [hsim.subRels, detachH_subRels]
  have e3 : (h1.get x).cid = (h.get x).cid := by rw [hsim.cid, detachH_cid]
  unfold removeElement
  simp only [obj_bind_run, hk, if_neg hl]
  rw [bind_ok hr]
  simp only [obj_bind_run, e1]
  -- relations of other edges are untouched
  have hother : ∀ e, e ≠ c → (h1.get e).kind = .edge → (h1.get e).genCtx ≠ none → ∀ k r,
      (h1.get e).subRels.get? k = some r ↔
      (h1.get r).parent = some e ∧ (h1.get r).kind = .relation ∧ (h1.get r).cid = k := by
    intro e he h2 h3 k r
    rw [hsim.kind, detachH_kind] at h2
    rw [hsim.genCtx, detachH_genCtx] at h3
    rw [hsim.subRels, detachH_subRels, hsim.parent, detachH_parent, hsim.kind, detachH_kind,
      hsim.cid, detachH_cid, G.rel e h2 h3]
    by_cases hrx : r = x
    · subst hrx
      rw [if_pos rfl, hp]
      constructor
      · rintro ⟨h4, _⟩; exact absurd (Option.some.inj h4).symm he
      · rintro ⟨h4, _⟩; cases h4
    · rw [if_neg hrx]
  cases hg : (h.get c).genCtx with
  | none =>
    refine ⟨_, h1, rfl, ⟨I1, ?_⟩, fun y => hsim.parent y, fun y => hsim.subs y, by simp, by simp⟩
    intro e h2 h3
    by_cases he : e = c
    · subst he; rw [e1, hg] at h3; exact absurd rfl h3
    · exact hother e he h2 h3
  | some ctx =>
    have hgc : (h.get c).genCtx ≠ none := by rw [hg]; simp
    simp only [e2, e3]
    have hR := G.rel c hk hgc
    cases hsr : (h.get c).subRels.get? (h.get x).cid with
    | none =>
      have hnr : (h.get x).kind ≠ .relation := by
        intro hxr
        have := (hR (h.get x).cid x).2 ⟨hp, hxr, rfl⟩
        rw [hsr] at this; cases this
      refine ⟨_, h1, rfl, ⟨I1, ?_⟩, fun y => hsim.parent y, fun y => hsim.subs y,
        fun _ h2 => absurd h2 hnr, fun _ _ => rfl⟩
      intro e h2 h3 k r
      by_cases he : e = c
      · subst he
        rw [e2, hsim.parent, detachH_parent, hsim.kind, detachH_kind, hsim.cid, detachH_cid, hR]
        by_cases hrx : r = x
        · subst hrx
          rw [if_pos rfl]
          constructor
          · rintro ⟨_, h4, _⟩; exact absurd h4 hnr
          · rintro ⟨h4, _⟩; cases h4
        · rw [if_neg hrx]
      · exact hother e he h2 h3 k r
    | some y =>
      have hy := (hR (h.get x).cid y).1 hsr
      have hyx : y = x := G.inv.cidInj y x c hy.1 hp hy.2.2
      subst hyx
      simp only [modify_bind_run, raise_run]
      refine ⟨_, _, rfl, ⟨I1.mod rfl, ?_⟩, ?_, ?_, fun _ _ => rfl, fun _ h2 => absurd hy.2.1 h2⟩
      · intro e h2 h3 k r
        have f : ∀ {α : Type} (π : Obj → α) (_ : ∀ o s, π { o with subRels := s } = π o) (z : Ref),
            π ((h1.mod c fun o => { o with subRels := o.subRels.erase (h.get y).cid }).get z) =
              π (h1.get z) := by
          intro α π hπ z
          simp only [Heap.get_mod]
          split
          · next e => subst e; exact hπ _ _
          · rfl
        rw [f (·.kind) (fun _ _ => rfl)] at h2
        rw [f (·.genCtx) (fun _ _ => rfl)] at h3
        rw [f (·.parent) (fun _ _ => rfl), f (·.kind) (fun _ _ => rfl), f (·.cid) (fun _ _ => rfl)]
        by_cases he : e = c
        · subst he
          simp only [Heap.get_mod, if_true, e2]
          rw [Dict.get?_erase, hsim.parent, detachH_parent, hsim.kind, detachH_kind, hsim.cid,
            detachH_cid]
          by_cases hkk : (h.get y).cid = k
          · subst hkk
            simp only [if_true]
            constructor
            · intro h4; cases h4
            · rintro ⟨h4, h5, h6⟩
              split at h4
              · cases h4
              · next hne => exact absurd (G.inv.cidInj r y e h4 hp h6) hne
          · simp only [hkk, if_false]
            rw [hR]
            by_cases hrx : r = y
            · subst hrx
              rw [if_pos rfl]
              constructor
              · rintro ⟨_, _, h6⟩; exact absurd h6 hkk
              · rintro ⟨h4, _⟩; cases h4
            · rw [if_neg hrx]
        · simp only [Heap.get_mod, if_neg he]
          exact hother e he h2 h3 k r
      · intro z
        rw [← hsim.parent]
        simp only [Heap.get_mod]
        split
        · next e => subst e; rfl
        · rfl
      · intro z
        rw [← hsim.subs]
        simp only [Heap.get_mod]
        split
        · next e => subst e; rfl
        · rfl

theorem Good.removeElement {h : Heap} (G : Good h) (E : Env) {c : Ref} {nm : Str}
    {u : Option Bytes} {lim : Option Nat} (S : RemoveSafe h c nm u lim) :
    Good (removeElement E c nm u lim h).2 := by
  obtain ⟨hrel, hS⟩ := S
  by_cases hl : lim = some 0
  · subst hl; rw [removeElement_zero]; exact G
  cases u with
  | some u =>
    cases hx : (h.get c).subs.get? u with
    | none =>
      by_cases hk : (h.get c).kind = .edge
      · unfold Rei.removeElement
        simp only [obj_bind_run, hk, if_neg hl]
        rw [bind_err (baseRemove_absent (by simp) hx)]
        exact G
      · rw [removeElement_plain hk hrel, baseRemove_absent hl hx]; exact G
    | some x =>
      have hpx := (SInv.get?_subs G.inv c u x).1 hx
      have hp : (h.get x).parent = some c := hpx.1
      have hu : (h.get x).uuid = u := hpx.2
      subst hu
      have hnm : nm = [] ∨ nm = (h.get x).idName := by
        by_cases hn : nm = []
        · exact .inl hn
        · exact .inr (hS hn x ((G.inv.mem_subelements c x).2 hp) rfl).symm
      by_cases hk : (h.get c).kind = .edge
      · obtain ⟨e, h', hr, G', _⟩ := G.removeEdge E hl hk hp hnm
        rw [hr]; exact G'
      · rw [removeElement_plain hk hrel]
        obtain ⟨h', hr, hsim, _, _⟩ := G.inv.removeUuid E hl hp hnm
        rw [hr]
        refine ⟨hsim.inv (G.inv.detachH hp), (G.rel.detach ?_).sim hsim⟩
        intro e he; rw [hp] at he; cases he; exact hk
  | none =>
    by_cases hn : nm = []
    · subst hn
      have hb : ∀ l, l ≠ some 0 → Rei.baseRemove E c [] none l h = (.error .invalidQuery, h) := by
        intro l hl; unfold baseRemove; simp [hl]
      by_cases hk : (h.get c).kind = .edge
      · unfold Rei.removeElement
        simp only [obj_bind_run, hk, if_neg hl]
        rw [bind_err (hb _ (by simp))]
        exact G
      · rw [removeElement_plain hk hrel, hb _ hl]; exact G
    · obtain ⟨hk, hlim⟩ := hS hn
      rw [removeElement_plain hk hrel]
      unfold Rei.baseRemove
      simp only [if_neg hl, ne_eq, hn, not_false_eq_true, if_true, obj_bind_run]
      cases hi : (h.get c).index.get? nm with
      | none => exact G
      | some d =>
        simp only [modify_bind_run]
        obtain ⟨f1, f2, f3⟩ := fixH_start G.inv hi
        generalize hh1 : (h.mod c fun o => { o with index := o.index.set nm [] }) = h1 at *
        have I1 : Inv (fixH h1 c nm) := by
          refine G.inv.congr (by rw [← hh1]; rfl) ?_
          funext y; unfold Heap.st; rw [f1]
        obtain ⟨h', hr, hsim, I', hidx', hnm', _⟩ := removeNamed_run (E := E) d.values lim h1 c nm I1
          (by rw [← hh1]; simp) (by rw [f2, f3])
        rw [hr]
        have htake : takeLim lim d.values = d.values := by
          unfold takeLim
          cases lim with
          | none => rfl
          | some k =>
            rcases hlim k rfl with h0 | h0
            · subst h0; exact absurd rfl hl
            · rw [← named_eq, ← f3] at h0
              exact List.take_of_length_le h0
        rw [htake] at hsim hnm'
        have hd := fixH_done hidx' (by rw [hnm']; simp)
        have G' : Good (fixH h' c nm) := by
          refine ⟨I', RelInv.sim ?_ hsim⟩
          refine Good.detachAllH ?_ ?_ ?_
          · rw [f1]; exact hk
          · exact (G.congr (by rw [← hh1]; rfl) f1).rel
          · intro v hv
            left
            rw [f1]
            rw [f3, named_eq, List.mem_filter] at hv
            exact (G.inv.mem_subelements c v).1 hv.1
        exact G'.congr rfl fun y => (hd y).symm

/-- What remains below an element when other elements move. -/
theorem anc_of_parent_same {h h' : Heap} (I : Inv h)
    (hp : ∀ y < h.size, (h'.get y).parent = (h.get y).parent) {a y : Ref} (hy : y < h.size)
    (q : Anc h' a y) : Anc h a y := by
  induction q with
  | direct hq => rw [hp _ hy] at hq; exact .direct hq
  | up hq _ ih => rw [hp _ hy] at hq; exact .up hq (ih (I.parent_lt hq))

theorem anc_of_parent_same_except {h h' : Heap} (I : Inv h) {s : Ref}
    (hp : ∀ y < h.size, y ≠ s → (h'.get y).parent = (h.get y).parent) {a y : Ref} (hy : y < h.size)
    (hw : ¬ Within h s y) (q : Anc h' a y) : Anc h a y := by
  induction q with
  | direct hq =>
    rw [hp _ hy (fun e => hw (.inl e))] at hq; exact .direct hq
  | up hq _ ih =>
    rw [hp _ hy (fun e => hw (.inl e))] at hq
    refine .up hq (ih (I.parent_lt hq) ?_)
    rintro (e | e)
    · subst e; exact hw (.inr (.direct hq))
    · exact hw (.inr (.up hq e))

theorem Good.leaveParent {h : Heap} (G : Good h) (E : Env) {x : Ref}
    (S : ∀ p, (h.get x).parent = some p → (h.get p).kind ≠ .relation) :
    Good (leaveParent E x h).2 := by
  cases hp : (h.get x).parent with
  | none =>
    unfold Rei.leaveParent
    simp only [obj_bind_run, hp]; exact G
  | some p =>
    by_cases hk : (h.get p).kind = .edge
    · obtain ⟨e, h', hr, G', _⟩ := G.removeEdge E (lim := none) (nm := []) (by simp) hk hp (.inl rfl)
      unfold Rei.leaveParent
      simp only [obj_bind_run, hp]
      rw [bind_err hr]; exact G'
    · obtain ⟨d, hd, hu, _⟩ := G.inv.index_get hp
      have hx := G.inv.lt_of_parent hp
      obtain ⟨h', hr, hsim, _⟩ := leaveParent_run (E := E) hp (SInv.parent_ne G.inv hp)
        (Nat.lt_of_le_of_lt (Nat.zero_le _) hx) hk (S p hp)
        ((SInv.get?_subs G.inv p _ x).2 ⟨hp, rfl⟩) hd hu (G.inv.clocked hx)
      rw [hr]
      refine ⟨hsim.inv (G.inv.detachH hp), (G.rel.detach ?_).sim hsim⟩
      intro e he; rw [hp] at he; cases he; exact hk

/-! ### constructors -/

theorem fresh_conceptual {k : Kind} {nm : Str} {u : Bytes} {pn : PName} {ck : Clock} :
    Fresh (conceptualObj k nm u pn (some ck)) := ⟨rfl, rfl, rfl, rfl, rfl, fun _ => rfl⟩

theorem updateTimestamp_run {E : Env} {h : Heap} {x : Ref} (hc : (h.get x).clock.isSome = true) :
    ∃ h', updateTimestamp E x h = (.ok (), h') ∧ Sim (· = x) h h' ∧ h.reads ≤ h'.reads ∧
      ∀ y, (h'.get y).qualName = (h.get y).qualName := by
  have hqn : ∀ t y, ((h.mod x fun o => { o with timestamp := t }).get y).qualName =
      (h.get y).qualName := by
    intro t y
    simp only [Heap.get_mod]; split
    · next e => subst e; rfl
    · rfl
  unfold updateTimestamp
  cases hck : (h.get x).clock with
  | none => rw [hck] at hc; cases hc
  | some ck =>
    have hs : ∀ t, Sim (· = x) h (h.mod x fun o => { o with timestamp := t }) := by
      intro t
      refine ⟨rfl, rfl, rfl, fun y => ?_, fun y hy => ?_⟩
      · simp only [Heap.get_mod]; split
        · next e => subst e; rfl
        · rfl
      · simp [hy]
    cases ck with
    | dummy => exact ⟨_, rfl, hs 0, Nat.le_refl _, hqn 0⟩
    | «local» =>
      refine ⟨_, rfl, ?_, Nat.le_succ _, hqn (E.time h.reads)⟩
      have := hs (E.time h.reads)
      exact ⟨this.size, this.nlists, this.lists, this.core, this.same⟩

/-- The state after a constructor with a clock, up to the point where the parent adopts the new
object. -/
theorem newConceptual_start {E : Env} {h : Heap} (G : Good h) (k : Kind) (nm : Str) (u : Bytes)
    (pn : PName) (ck : Clock) (p : Option Ref) :
    ∃ h1, Good h1 ∧ Sim (· = h.size) (allocH h (conceptualObj k nm u pn (some ck))) h1 ∧
      h.reads ≤ h1.reads ∧
      (∀ y, (h1.get y).qualName = ((allocH h (conceptualObj k nm u pn (some ck))).get y).qualName) ∧
      newConceptual E k nm u pn (some ck) p h =
        (do adopt E p h.size
            if k.isHElement then do
              modify h.size fun o => { o with genCtx := some nm }
              pure h.size
            else pure h.size) h1 := by
  have F : Fresh (conceptualObj k nm u pn (some ck)) := fresh_conceptual
  have G0 := G.allocH F
  obtain ⟨h1, hr, hsim, hrd, hqn⟩ := updateTimestamp_run (E := E) (x := h.size)
    (h := allocH h (conceptualObj k nm u pn (some ck))) (by rw [allocH_get, if_pos rfl]; rfl)
  refine ⟨h1, G0.sim hsim, hsim, hrd, hqn, ?_⟩
  unfold newConceptual
  rw [if_neg (by simp)]
  simp only [alloc_bind_run]
  change ((updateTimestamp E h.size) >>= _) (allocH h (conceptualObj k nm u pn (some ck))) = _
  rw [bind_ok hr]

theorem Good.newConceptual {h : Heap} (G : Good h) (E : Env) {k : Kind} {nm : Str} {u : Bytes}
    {pn : PName} {ck : Option Clock} {p : Option Ref} (hp : okRef h p) :
    Good (newConceptual E k nm u pn ck p h).2 := by
  cases ck with
  | none => unfold Rei.newConceptual; simp only [if_true]; exact G
  | some ck =>
    have F : Fresh (conceptualObj k nm u pn (some ck)) := fresh_conceptual
    obtain ⟨h1, G1, hsim, hrd, _, hrun⟩ := newConceptual_start (E := E) G k nm u pn ck p
    rw [hrun]
    have hsz : h1.size = h.size + 1 := by rw [hsim.size]; rfl
    have hpar : ∀ y, (h1.get y).parent = (h.get y).parent := by
      intro y; rw [hsim.parent, allocH_parent G.inv F]
    have hnochild : ∀ y, (h1.get y).parent ≠ some h.size := by
      intro y hy; rw [hpar] at hy
      exact absurd (G.inv.parent_lt hy) (Nat.lt_irrefl _)
    have hx1 : (h1.get h.size).kind = k := by
      rw [hsim.kind, allocH_get, if_pos rfl]; rfl
    have hxg : (h1.get h.size).genCtx = none := by
      rw [hsim.genCtx, allocH_get, if_pos rfl]; rfl
    have hxs : (h1.get h.size).subRels = [] := by
      rw [hsim.subRels, allocH_get, if_pos rfl]; rfl
    have hxp : (h1.get h.size).parent = none := by
      rw [hpar]; exact (G.inv.get_out (Nat.le_refl _)).1
    -- setting `genCtx` on a childless element
    have fin : ∀ h2, Good h2 → (h2.get h.size).subRels = [] →
        (∀ y, (h2.get y).parent ≠ some h.size) →
        Good (h2.mod h.size fun o => { o with genCtx := some nm }) := by
      intro h2 G2 hs2 hc2
      refine ⟨G2.inv.mod rfl, ?_⟩
      have f : ∀ {α : Type} (π : Obj → α) (_ : ∀ o s, π { o with genCtx := s } = π o) (z : Ref),
          π ((h2.mod h.size fun o => { o with genCtx := some nm }).get z) = π (h2.get z) := by
        intro α π hπ z
        simp only [Heap.get_mod]
        split
        · next e => subst e; exact hπ _ _
        · rfl
      intro e e1 e2 kk r
      rw [f (·.kind) (fun _ _ => rfl)] at e1
      rw [f (·.subRels) (fun _ _ => rfl), f (·.parent) (fun _ _ => rfl), f (·.kind) (fun _ _ => rfl),
        f (·.cid) (fun _ _ => rfl)]
      by_cases he : e = h.size
      · subst he
        rw [hs2]
        constructor
        · intro h; cases h
        · rintro ⟨h3, _⟩; exact absurd h3 (hc2 r)
      · have : (h2.get e).genCtx ≠ none := by
          simpa [Heap.get_mod, he] using e2
        exact G2.rel e e1 this kk r
    cases p with
    | none =>
      simp only [adopt, pure_bind_run]
      split
      · simp only [modify_bind_run, pure_run]
        exact fin h1 G1 hxs hnochild
      · exact G1
    | some q =>
      have hq := hp q rfl
      have S : AddSafe h1 q h.size := by
        refine ⟨?_, fun p' hp' => ?_⟩
        · intro qq
          obtain ⟨b, hb, _⟩ := qq.cases_down
          exact hnochild b hb
        · rw [hxp] at hp'; cases hp'
      have hadd := G1.addElement E (c := q) (x := h.size) (by omega) (by omega) S
      simp only [adopt]
      cases hr : Rei.addElement E q h.size h1 with
      | mk r h2 =>
        rw [hr] at hadd
        cases r with
        | error e => rw [bind_err hr]; exact hadd.1
        | ok _ =>
          rw [bind_ok hr]
          split
          · next hH =>
            simp only [modify_bind_run, pure_run]
            -- the call returned, so the parent is not a relation and nothing was put below
            have key : (h2.get h.size).subRels = [] ∧ ∀ y, (h2.get y).parent ≠ some h.size := by
              have hb := G1.baseAdd_cases E (c := q) (x := h.size) (by omega) (by omega) S
              have after : ∀ h3, Sim (Within (moveH h1 q h.size) h.size) (moveH h1 q h.size) h3 →
                  (h3.get h.size).subRels = [] ∧ ∀ y, (h3.get y).parent ≠ some h.size := by
                intro h3 hs3
                refine ⟨by rw [hs3.subRels, moveH_subRels, hxs], fun y hy => ?_⟩
                rw [hs3.parent, moveH_parent _ _ _ _ G1.inv] at hy
                split at hy
                · cases hy; omega
                · exact hnochild y hy
              rcases hb with ⟨e1, _⟩ | ⟨_, _, hb⟩ | ⟨hne, _, h3, hb, hs3, _⟩
              · omega
              · by_cases k1 : (h1.get q).kind = .relation
                · rw [addElement_relation k1, bind_err hb] at hr; cases hr
                by_cases k2 : (h1.get q).kind = .edge
                · rw [addElement_edge k2, bind_err hb] at hr; cases hr
                · rw [addElement_plain k1 k2, hb] at hr; cases hr
              · have ha := after h3 hs3
                have hk3 : (h3.get h.size).kind = k := by rw [hs3.kind, moveH_kind, hx1]
                by_cases k1 : (h1.get q).kind = .relation
                · rw [addElement_relation k1, bind_ok hb] at hr
                  simp only [obj_bind_run, hk3, hH, if_true] at hr
                  have hg3 : (h3.get h.size).genCtx = none := by
                    rw [hs3.genCtx, moveH_genCtx, hxg]
                  rw [connect_none (.inr hg3)] at hr
                  cases hr
                by_cases k2 : (h1.get q).kind = .edge
                · rw [addElement_edge k2, bind_ok hb] at hr
                  simp only [obj_bind_run, hk3] at hr
                  have hkr : ¬ k = .relation := by rintro rfl; cases hH
                  rw [if_neg hkr] at hr
                  cases hr; exact ha
                · rw [addElement_plain k1 k2, hb] at hr; cases hr; exact ha
            exact fin h2 hadd.1 key.1 key.2
          · exact hadd.1

theorem Good.readClock {h : Heap} (G : Good h) (E : Env) (c : Option Clock) :
    Good (readClock E c h).2 ∧ ((readClock E c h).2.size = h.size) ∧
      ∀ y, (Rei.readClock E c h).2.get y = h.get y := by
  unfold Rei.readClock
  split
  · exact ⟨G, rfl, fun _ => rfl⟩
  · exact ⟨G, rfl, fun _ => rfl⟩
  · exact ⟨G.congr rfl fun _ => rfl, rfl, fun _ => rfl⟩

theorem Good.unaryConnect {h : Heap} (G : Good h) (E : Env) {e n : Ref} {w : Option Ref} {d : Dir}
    {sv : Option Ref} (he : e < h.size) (hn : n < h.size) (hsv : okRef h sv)
    (S : ∀ s, sv = some s → ¬ Anc h s e ∧ s ≠ e ∧ Movable h s) :
    Good (unaryConnect E e n w d sv h).2 := by
  unfold Rei.unaryConnect
  rw [obj_bind_run]
  by_cases hke : (h.get e).kind = .edge
  · rw [if_pos hke, obj_bind_run]
    have hrc := G.readClock E (h.get e).clock
    cases hr : Rei.readClock E (h.get e).clock h with
    | mk r h0 =>
      rw [hr] at hrc
      cases r with
      | error _ => rw [bind_err hr]; exact hrc.1
      | ok t =>
        rw [bind_ok hr]
        obtain ⟨G0, hs0, hg0⟩ := hrc
        cases hctx : (h.get e).genCtx with
        | none => exact G0
        | some ctx =>
          unfold newRelation
          simp only [alloc_bind_run]
          generalize ho : relationObj (elementUid E ctx (h.get n).idName)
            (relName (h.get e).idName (h.get n).idName t) _ (some n) w d sv = o
          have F : Fresh o := by rw [← ho]; exact ⟨rfl, rfl, rfl, rfl, rfl, fun h => by cases h⟩
          change Good (((Rei.connect E n h0.size) >>= _) (Rei.allocH h0 o)).2
          have G1 := G0.allocH F
          have hs1 : (Rei.allocH h0 o).size = h.size + 1 := by rw [allocH_size, hs0]
          have hp1 : ∀ y, ((Rei.allocH h0 o).get y).parent = (h.get y).parent := by
            intro y; rw [allocH_parent G0.inv F]; exact congrArg Obj.parent (hg0 y)
          have hs0' : h0.size = h.size := hs0
          have hkd1 : ∀ y < h.size, ((Rei.allocH h0 o).get y).kind = (h.get y).kind := by
            intro y hy; rw [allocH_get_lt (by omega)]; exact congrArg Obj.kind (hg0 y)
          rw [hs0']
          generalize Rei.allocH h0 o = h1 at *
          have hnochild : ∀ y, (h1.get y).parent ≠ some h.size := by
            intro y hy; rw [hp1] at hy
            exact absurd (G.inv.parent_lt hy) (Nat.lt_irrefl _)
          have hrp : (h1.get h.size).parent = none := by
            rw [hp1]; exact (G.inv.get_out (Nat.le_refl _)).1
          have hcon := G1.connect E (n := n) (el := h.size) (by omega)
          have hkc := (frames_connect (L := False) E n h.size h1).keeps
          cases hr2 : Rei.connect E n h.size h1 with
          | mk r2 h2 =>
            rw [hr2] at hcon hkc
            obtain ⟨(G2 : Good h2), (hp2 : ∀ y < h1.size, (h2.get y).parent = (h1.get y).parent)⟩ := hcon
            cases r2 with
            | error _ => rw [bind_err hr2]; exact G2
            | ok _ =>
              rw [bind_ok hr2]
              have hs2 : h1.size ≤ h2.size := hkc.size
              -- ancestors in `h2` of objects of `h1`
              have hanc2 : ∀ a y, y < h1.size → Anc h2 a y → Anc h1 a y :=
                fun a y hy q => anc_of_parent_same G1.inv hp2 hy q
              have hrp2 : (h2.get h.size).parent = none := by
                rw [hp2 _ (by omega)]; exact hrp
              have hnoanc : ∀ a, ¬ Anc h2 a h.size := by
                intro a q
                cases q with
                | direct hq => rw [hrp2] at hq; cases hq
                | up hq _ => rw [hrp2] at hq; cases hq
              have hnobelow : ∀ y, y < h1.size → ¬ Anc h2 h.size y := by
                intro y hy q
                obtain ⟨b, hb, _⟩ := (hanc2 _ _ hy q).cases_down
                exact hnochild b hb
              cases sv with
              | none =>
                simp only [attachSem, pure_bind_run]
                have hadd := G2.addElement E (c := e) (x := h.size) (by omega) (by omega)
                  ⟨hnobelow e (by omega), fun p hp => by rw [hrp2] at hp; cases hp⟩
                cases hr3 : Rei.addElement E e h.size h2 with
                | mk r3 h3 =>
                  rw [hr3] at hadd
                  cases r3 with
                  | error _ => rw [bind_err hr3]; exact hadd.1
                  | ok _ => rw [bind_ok hr3]; exact hadd.1
              | some s =>
                obtain ⟨S1, S2, S3⟩ := S s rfl
                have hs := hsv s rfl
                simp only [attachSem]
                have hmov : Movable h2 s := by
                  intro p hp
                  rw [hp2 _ (by omega), hp1] at hp
                  have hplt := G.inv.parent_lt hp
                  have := S3 p hp
                  have hk2 : (h2.get p).kind = (h.get p).kind := by
                    rw [hkc.kind p (by omega), hkd1 p hplt]
                  rw [hk2]; exact this
                have hadd := G2.addElement E (c := h.size) (x := s) (by omega) (by omega)
                  ⟨hnoanc s, hmov⟩
                have hka := (frames_addElement (L := False) E h.size s h2).keeps
                cases hr3 : Rei.addElement E h.size s h2 with
                | mk r3 h3 =>
                  rw [hr3] at hadd hka
                  obtain ⟨(G3 : Good h3), (hp3 : ∀ y < h2.size, y ≠ s →
                    (h3.get y).parent = (h2.get y).parent)⟩ := hadd
                  cases r3 with
                  | error _ => rw [bind_err hr3]; exact G3
                  | ok _ =>
                    rw [bind_ok hr3]
                    have hs3 : h2.size ≤ h3.size := hka.size
                    have hne : h.size ≠ s := by omega
                    have hw : ¬ Within h2 s e := by
                      rintro (q | q)
                      · exact S2 q.symm
                      · apply S1
                        have q1 := hanc2 _ _ (by omega) q
                        exact anc_of_parent_same (h' := h1) G.inv (fun y _ => hp1 y) he q1
                    have hadd2 := G3.addElement E (c := e) (x := h.size) (by omega) (by omega)
                      ⟨fun q => hnobelow e (by omega)
                          (anc_of_parent_same_except G2.inv hp3 (by omega) hw q),
                        fun p hp => by
                          rw [hp3 _ (by omega) hne, hrp2] at hp; cases hp⟩
                    cases hr4 : Rei.addElement E e h.size h3 with
                    | mk r4 h4 =>
                      rw [hr4] at hadd2
                      cases r4 with
                      | error _ => rw [bind_err hr4]; exact hadd2.1
                      | ok _ => rw [bind_ok hr4]; exact hadd2.1
  · rw [if_neg hke]; exact G

end Rei
