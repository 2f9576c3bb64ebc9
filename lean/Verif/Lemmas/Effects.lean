import Verif.Lemmas.Names

/-!
# Exact effect of successful adds and connects
-/
namespace Rei
open PyM

theorem Inv.moveH_index_named {h : Heap} (I : Inv h) (c : Ref) (nm : Str) :
    (((h.get c).index.get? nm).getD []).values =
      (h.subelements c).filter fun x => decide ((h.get x).idName = nm) := by
  have hi := I.index c nm
  change ((h.get c).index.get? nm).getD [] =
    (h.get c).subs.filter (fun q => decide ((h.get q.2).idName = nm)) at hi
  rw [hi]
  exact named_eq h c nm

/-- The effect of a successful `connect`. -/
structure Connected (E : Env) (n el : Ref) (h h' : Heap) : Prop where
  size : h'.size = h.size + 1
  ctx : ∃ ctx, (h.get n).genCtx = some ctx ∧
    (h'.get h.size).uuid = elementUid E ctx (h.get el).idName
  fresh : ∀ u x, (u, x) ∈ (h.get n).subs → u ≠ (h'.get h.size).uuid
  kindP : (h'.get h.size).kind = .port
  nameP : (h'.get h.size).idName = Str.join '.' [(h.get n).idName, ['p', 'o', 'r', 't'], (h.get el).idName]
  endP : (h'.get h.size).endpoint = some el
  subsP : (h'.get h.size).subs = []
  parent : ∀ y, (h'.get y).parent = if y = h.size then some n else (h.get y).parent
  subs : ∀ y < h.size, (h'.get y).subs =
    if y = n then (h.get n).subs ++ [((h'.get h.size).uuid, h.size)] else (h.get y).subs
  ports : ∀ y < h.size, (h'.get y).ports =
    if y = n then (h.get n).ports.set (h.get el).uuid h.size else (h.get y).ports
  kind : ∀ y < h.size, (h'.get y).kind = (h.get y).kind
  uuid : ∀ y < h.size, (h'.get y).uuid = (h.get y).uuid
  idName : ∀ y < h.size, (h'.get y).idName = (h.get y).idName
  genCtx : ∀ y < h.size, (h'.get y).genCtx = (h.get y).genCtx
  endpoint : ∀ y < h.size, (h'.get y).endpoint = (h.get y).endpoint
  direction : ∀ y < h.size, (h'.get y).direction = (h.get y).direction
  weight : ∀ y < h.size, (h'.get y).weight = (h.get y).weight
  semNode : ∀ y < h.size, (h'.get y).semNode = (h.get y).semNode
  subRels : ∀ y < h.size, (h'.get y).subRels = (h.get y).subRels
  cid : ∀ y < h.size, (h'.get y).cid = (h.get y).cid
  depth : ∀ y < h.size, (h'.get y).depth = (h.get y).depth
  qualName : ∀ y < h.size, (h'.get y).qualName = (h.get y).qualName
  nlists : h'.nlists = h.nlists
  lists : h'.lists = h.lists
  namedP : NamedByPath h' h.size
  hist : ∀ y < h.size, (h'.get y).hist = if y = n then (h.get n).hist + 1 else (h.get y).hist
  inv : Inv h'

theorem connect_cases {h : Heap} (I : Inv h) (E : Env) {n el : Ref} (hn : n < h.size) :
    ((h.get n).kind.isHElement ≠ true ∨ (h.get n).genCtx = none) ∧
      connect E n el h = (.error .attributeError, h) ∨
    (h.get n).kind.isHElement = true ∧ ∃ ctx, (h.get n).genCtx = some ctx ∧
      (elementUid E ctx (h.get el).idName ∈ (h.get n).subs.keys ∧
        (∃ h', connect E n el h = (.error .duplicateElement, h') ∧
          h' = ((allocH h (portObj E ctx (h.get n) (h.get el) el)).mod n
            fun o => { o with ports := o.ports.set (h.get el).uuid h.size })) ∨
      elementUid E ctx (h.get el).idName ∉ (h.get n).subs.keys ∧
        ∃ h', connect E n el h = (.ok (), h') ∧ Connected E n el h h') := by
  by_cases hk : (h.get n).kind.isHElement = true
  swap
  · exact .inl ⟨.inl hk, connect_none (.inl hk)⟩
  cases hctx : (h.get n).genCtx with
  | none => exact .inl ⟨.inr rfl, connect_none (.inr hctx)⟩
  | some ctx =>
    refine .inr ⟨hk, ctx, rfl, ?_⟩
    rw [connect_some hk hctx]
    simp only [alloc_bind_run, modify_bind_run]
    have F : Fresh (portObj E ctx (h.get n) (h.get el) el) :=
      ⟨rfl, rfl, rfl, rfl, rfl, fun h => by cases h⟩
    change (_ ∧ ∃ h', baseAdd E n h.size ((allocH h (portObj E ctx (h.get n) (h.get el) el)).mod n
        fun o => { o with ports := o.ports.set (h.get el).uuid h.size }) = _ ∧ _) ∨
      (_ ∧ ∃ h', baseAdd E n h.size ((allocH h (portObj E ctx (h.get n) (h.get el) el)).mod n
        fun o => { o with ports := o.ports.set (h.get el).uuid h.size }) = _ ∧ _)
    have I1 : Inv (allocH h (portObj E ctx (h.get n) (h.get el) el)) := I.allocH F
    have I2 : Inv ((allocH h (portObj E ctx (h.get n) (h.get el) el)).mod n
        fun o => { o with ports := o.ports.set (h.get el).uuid h.size }) := I1.mod rfl
    have hnh : n ≠ h.size := Nat.ne_of_lt hn
    have hnew : (((allocH h (portObj E ctx (h.get n) (h.get el) el)).mod n
        fun o => { o with ports := o.ports.set (h.get el).uuid h.size }).get h.size) =
        portObj E ctx (h.get n) (h.get el) el := by
      simp only [Heap.get_mod, if_neg (Ne.symm hnh), allocH_get, if_true]
    have hold : ∀ y, y < h.size → (((allocH h (portObj E ctx (h.get n) (h.get el) el)).mod n
        fun o => { o with ports := o.ports.set (h.get el).uuid h.size }).get y) =
        if y = n then { h.get n with ports := (h.get n).ports.set (h.get el).uuid h.size }
        else h.get y := by
      intro y hy
      simp only [Heap.get_mod]
      split
      · next e => subst e; rw [allocH_get_lt hy]
      · rw [allocH_get_lt hy]
    have hsz : ((allocH h (portObj E ctx (h.get n) (h.get el) el)).mod n
        fun o => { o with ports := o.ports.set (h.get el).uuid h.size }).size = h.size + 1 := rfl
    have hnl : ((allocH h (portObj E ctx (h.get n) (h.get el) el)).mod n
        fun o => { o with ports := o.ports.set (h.get el).uuid h.size }).nlists = h.nlists := rfl
    have hli : ((allocH h (portObj E ctx (h.get n) (h.get el) el)).mod n
        fun o => { o with ports := o.ports.set (h.get el).uuid h.size }).lists = h.lists := rfl
    generalize ((allocH h (portObj E ctx (h.get n) (h.get el) el)).mod n
        fun o => { o with ports := o.ports.set (h.get el).uuid h.size }) = h2 at *
    have hpn : (h2.get h.size).parent = none := by rw [hnew]; rfl
    have hsubn : (h2.get n).subs = (h.get n).subs := by rw [hold n hn, if_pos rfl]
    have hu : (h2.get h.size).uuid = elementUid E ctx (h.get el).idName := by rw [hnew]; rfl
    have π : ∀ {α : Type} (f : Obj → α) (_ : ∀ o s, f { o with ports := s } = f o) (y : Ref),
        y < h.size → f (h2.get y) = f (h.get y) := by
      intro α f hf y hy
      rw [hold y hy]; split
      · next e => subst e; exact hf _ _
      · rfl
    have hpar2 : ∀ y, (h2.get y).parent = (h.get y).parent := by
      intro y
      by_cases hy : y < h.size
      · exact π (·.parent) (fun _ _ => rfl) y hy
      · rw [(I.get_out (Nat.not_lt.1 hy)).1]
        by_cases hy' : y = h.size
        · rw [hy', hpn]
        · exact (I2.get_out (by omega)).1
    have S : AddSafe h2 n h.size := by
      refine ⟨?_, fun p hp => by rw [hpn] at hp; cases hp⟩
      intro q
      obtain ⟨b, hb, _⟩ := q.cases_down
      rw [hpar2] at hb
      exact absurd (SInv.parent_lt I hb) (Nat.lt_irrefl _)
    by_cases hd : elementUid E ctx (h.get el).idName ∈ (h.get n).subs.keys
    · refine .inl ⟨hd, h2, ?_, rfl⟩
      exact baseAdd_dup (Ne.symm hnh) (by rw [hu, hsubn]; exact hd)
    · refine .inr ⟨hd, ?_⟩
      have hd2 : (h2.get h.size).uuid ∉ (h2.get n).subs.keys := by rw [hu, hsubn]; exact hd
      obtain ⟨h', hr, sim, _, hq⟩ := I2.baseAdd E (c := n) (x := h.size) (by omega) (by omega)
        (Ne.symm hnh) hd2 S.1 S.2
      have Ig := I2.moveH (c := n) (x := h.size) (by omega) (by omega) (Ne.symm hnh) hd2 S.1
      have hpar : ∀ y, (h'.get y).parent = if y = h.size then some n else (h.get y).parent := by
        intro y; rw [sim.parent, moveH_parent _ _ _ _ I2, hpar2]
      have hw : ∀ y, y < h.size → ¬ Within (moveH h2 n h.size) h.size y := by
        rintro y hy (q | q)
        · omega
        · obtain ⟨b, hb, _⟩ := q.cases_down
          rw [moveH_parent _ _ _ _ I2, hpar2] at hb
          split at hb
          · cases hb; omega
          · exact absurd (SInv.parent_lt I hb) (Nat.lt_irrefl _)
      refine ⟨h', hr, ?_⟩
      have huu : (h'.get h.size).uuid = elementUid E ctx (h.get el).idName := by
        rw [sim.uuid, moveH_uuid, hu]
      refine { size := ?_, ctx := ⟨ctx, hctx, huu⟩, fresh := ?_, kindP := ?_, nameP := ?_, endP := ?_,
               subsP := ?_, parent := hpar, subs := ?_, ports := ?_, kind := ?_, uuid := ?_, idName := ?_,
               genCtx := ?_, endpoint := ?_, direction := ?_, weight := ?_, semNode := ?_, subRels := ?_,
               cid := ?_, depth := ?_, qualName := ?_, nlists := ?_, lists := ?_, namedP := ?_, hist := ?_,
               inv := sim.inv Ig }
      · rw [sim.size, moveH_size, hsz]
      · intro u x hm hh
        apply hd
        rw [← huu, ← hh]; exact Dict.mem_keys_of_mem hm
      · rw [sim.kind, moveH_kind, hnew]; rfl
      · rw [sim.idName, moveH_idName, hnew]; rfl
      · rw [sim.endpoint, moveH_endpoint, hnew]; rfl
      · rw [sim.subs, moveH_subs I2 (Ne.symm hnh) hd2, if_neg (Ne.symm hnh), hpn, hnew]
        rfl
      · intro y hy
        rw [sim.subs, moveH_subs I2 (Ne.symm hnh) hd2, hpn, huu, hu, hsubn]
        split
        · rfl
        · simp only [reduceCtorEq, if_false]
          exact π (·.subs) (fun _ _ => rfl) y hy
      · intro y hy
        rw [sim.ports, moveH_ports, hold y hy]
        split
        · next e => simp
        · rfl
      · intro y hy; rw [sim.kind, moveH_kind]; exact π (·.kind) (fun _ _ => rfl) y hy
      · intro y hy; rw [sim.uuid, moveH_uuid]; exact π (·.uuid) (fun _ _ => rfl) y hy
      · intro y hy; rw [sim.idName, moveH_idName]; exact π (·.idName) (fun _ _ => rfl) y hy
      · intro y hy; rw [sim.genCtx, moveH_genCtx]; exact π (·.genCtx) (fun _ _ => rfl) y hy
      · intro y hy; rw [sim.endpoint, moveH_endpoint]; exact π (·.endpoint) (fun _ _ => rfl) y hy
      · intro y hy; rw [sim.direction, moveH_direction]; exact π (·.direction) (fun _ _ => rfl) y hy
      · intro y hy; rw [sim.weight, moveH_weight]; exact π (·.weight) (fun _ _ => rfl) y hy
      · intro y hy; rw [sim.semNode, moveH_semNode]; exact π (·.semNode) (fun _ _ => rfl) y hy
      · intro y hy; rw [sim.subRels, moveH_subRels]; exact π (·.subRels) (fun _ _ => rfl) y hy
      · intro y hy
        rw [sim.cid, moveH_cid, if_neg (by omega)]; exact π (·.cid) (fun _ _ => rfl) y hy
      · intro y hy
        rw [sim.depth, moveH_depth, if_neg (by omega)]; exact π (·.depth) (fun _ _ => rfl) y hy
      · intro y hy
        rw [sim.same y (hw y hy), moveH_qualName]; exact π (·.qualName) (fun _ _ => rfl) y hy
      · rw [sim.nlists, moveH_nlists, hnl]
      · rw [sim.lists, moveH_lists, hli]
      · obtain ⟨l, hl⟩ := Ig.exists_path (x := h.size) (by rw [moveH_size]; omega)
        exact ⟨l, sim.pathTo hl.1, hq h.size (.inl rfl) l hl.1⟩
      · intro y hy
        rw [sim.hist, moveH_hist _ _ _ _ hnh, π (·.hist) (fun _ _ => rfl) y hy,
          π (·.hist) (fun _ _ => rfl) n hn]

/-- The effect of `HierarchicalElement.add_element` when it succeeds. -/
structure Moved (c x : Ref) (h h' : Heap) : Prop where
  ne : x ≠ c
  new : (h.get x).uuid ∉ (h.get c).subs.keys
  sim : Sim (Within (moveH h c x) x) (moveH h c x) h'
  inv : Inv (moveH h c x)
  names : ∀ y, Within (moveH h c x) x y → ∀ l, PathTo (moveH h c x) y l →
    (h'.get y).qualName = Str.join '/' l

theorem Moved.inv' {c x : Ref} {h h' : Heap} (m : Moved c x h h') : Inv h' := m.sim.inv m.inv

theorem Moved.parent {c x : Ref} {h h' : Heap} (m : Moved c x h h') (I : Inv h) (y : Ref) :
    (h'.get y).parent = if y = x then some c else (h.get y).parent := by
  rw [m.sim.parent, moveH_parent _ _ _ _ I]

theorem Moved.subs {c x : Ref} {h h' : Heap} (m : Moved c x h h') (I : Inv h) (y : Ref) :
    (h'.get y).subs = if y = c then (h.get c).subs ++ [((h.get x).uuid, x)]
      else if (h.get x).parent = some y then (h.get y).subs.erase (h.get x).uuid
      else (h.get y).subs := by
  rw [m.sim.subs, moveH_subs I m.ne m.new]

/-- A successful `add_element`: the element moved, then at most `_sub_relations` of an edge changed, or
the element was connected to the relation it was added to. -/
theorem addElement_ok {h : Heap} (I : Inv h) (E : Env) {c x : Ref} (hc : c < h.size)
    (hx : x < h.size) (S : AddSafe h c x) {h2 : Heap} (hr : addElement E c x h = (.ok (), h2)) :
    ∃ h1, Moved c x h h1 ∧
      ((((h.get c).kind ≠ .relation ∨ (h.get x).kind.isHElement = false) ∧ Quiet h1 h2 ∧
        (∀ y, (h2.get y).ports = (h1.get y).ports) ∧ (∀ y, (h2.get y).genCtx = (h1.get y).genCtx) ∧
        (∀ y, (h2.get y).endpoint = (h1.get y).endpoint) ∧
        (∀ y, (h2.get y).direction = (h1.get y).direction) ∧
        (∀ y, (h2.get y).weight = (h1.get y).weight) ∧
        (∀ y, (h2.get y).semNode = (h1.get y).semNode) ∧
        (h2.nlists = h1.nlists) ∧ (h2.lists = h1.lists)) ∨
      (h.get c).kind = .relation ∧ (h.get x).kind.isHElement = true ∧ Connected E x c h1 h2) := by
  by_cases hcx : x = c
  · subst hcx
    exfalso
    by_cases hk : (h.get x).kind = .relation
    · rw [addElement_relation hk, bind_err baseAdd_self] at hr; cases hr
    by_cases hk' : (h.get x).kind = .edge
    · rw [addElement_edge hk', bind_err baseAdd_self] at hr; cases hr
    · rw [addElement_plain hk hk', baseAdd_self] at hr; cases hr
  by_cases hd : (h.get x).uuid ∈ (h.get c).subs.keys
  · exfalso
    by_cases hk : (h.get c).kind = .relation
    · rw [addElement_relation hk, bind_err (baseAdd_dup hcx hd)] at hr; cases hr
    by_cases hk' : (h.get c).kind = .edge
    · rw [addElement_edge hk', bind_err (baseAdd_dup hcx hd)] at hr; cases hr
    · rw [addElement_plain hk hk', baseAdd_dup hcx hd] at hr; cases hr
  obtain ⟨h1, h1r, sim, _, hq⟩ := I.baseAdd E hc hx hcx hd S.1 S.2
  have Ig := I.moveH hc hx hcx hd S.1
  have m : Moved c x h h1 := ⟨hcx, hd, sim, Ig, hq⟩
  refine ⟨h1, m, ?_⟩
  have hkx : (h1.get x).kind = (h.get x).kind := by rw [sim.kind, moveH_kind]
  by_cases hk : (h.get c).kind = .relation
  · rw [addElement_relation hk, bind_ok h1r, obj_bind_run, hkx] at hr
    by_cases hh : (h.get x).kind.isHElement = true
    · rw [if_pos hh] at hr
      right
      refine ⟨hk, hh, ?_⟩
      have I1 := m.inv'
      have hsz : h1.size = h.size := by rw [sim.size, moveH_size]
      rcases connect_cases I1 E (n := x) (el := c) (by omega) with
        ⟨_, e⟩ | ⟨_, ctx, _, ⟨_, h', e, _⟩ | ⟨_, h', e, C⟩⟩
      · rw [e] at hr; cases hr
      · rw [e] at hr; cases hr
      · rw [e] at hr; cases hr; exact C
    · rw [if_neg hh] at hr
      cases hr
      left
      exact ⟨.inr (by simpa using hh), .refl _, fun _ => rfl, fun _ => rfl, fun _ => rfl, fun _ => rfl,
        fun _ => rfl, fun _ => rfl, rfl, rfl⟩
  · left
    refine ⟨.inl hk, ?_⟩
    by_cases hk' : (h.get c).kind = .edge
    · rw [addElement_edge hk', bind_ok h1r, obj_bind_run, hkx] at hr
      by_cases hrel : (h.get x).kind = .relation
      · rw [if_pos hrel, obj_bind_run] at hr
        cases hg : (h1.get c).genCtx with
        | none => rw [hg] at hr; cases hr
        | some _ =>
          rw [hg] at hr
          cases hr
          have f : ∀ {α : Type} (π : Obj → α) (_ : ∀ o s, π { o with subRels := s } = π o) (z : Ref),
              π ((h1.mod c fun o => { o with subRels := o.subRels.set (h1.get x).cid x }).get z) =
                π (h1.get z) := by
            intro α π hπ z
            simp only [Heap.get_mod]
            split
            · next e => subst e; exact hπ _ _
            · rfl
          exact ⟨Quiet.mod rfl rfl rfl rfl, f (·.ports) (fun _ _ => rfl), f (·.genCtx) (fun _ _ => rfl),
            f (·.endpoint) (fun _ _ => rfl), f (·.direction) (fun _ _ => rfl),
            f (·.weight) (fun _ _ => rfl), f (·.semNode) (fun _ _ => rfl), rfl, rfl⟩
      · rw [if_neg hrel] at hr
        cases hr
        exact ⟨.refl _, fun _ => rfl, fun _ => rfl, fun _ => rfl, fun _ => rfl,
          fun _ => rfl, fun _ => rfl, rfl, rfl⟩
    · rw [addElement_plain hk hk', h1r] at hr
      cases hr
      exact ⟨.refl _, fun _ => rfl, fun _ => rfl, fun _ => rfl, fun _ => rfl,
          fun _ => rfl, fun _ => rfl, rfl, rfl⟩

end Rei
