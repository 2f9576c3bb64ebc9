import Verif.Spec.Factory
import Verif.Props.Relations

/-!
# What the factory methods do
-/
namespace Rei
open PyM Sample

theorem PathTo.transfer {h h' : Heap} {x : Ref} {l : List Str} (p : PathTo h x l)
    (hp : ∀ y, (h'.get y).parent = (h.get y).parent) (hn : ∀ y, (h'.get y).idName = (h.get y).idName) :
    PathTo h' x l := by
  induction p with
  | root q => rw [← hn]; exact .root (by rw [hp]; exact q)
  | child q _ ih => rw [← hn]; exact .child (by rw [hp]; exact q) ih

/-- `add_element` to a container that is not a relation succeeds unless the uuid is taken. -/
theorem addElement_succeeds {h : Heap} (I : Inv h) (E : Env) {c x : Ref} (hc : c < h.size)
    (hx : x < h.size) (S : AddSafe h c x) (hcx : x ≠ c) (hk : (h.get c).kind ≠ .relation)
    (hd : (h.get x).uuid ∉ (h.get c).subs.keys)
    (hrel : (h.get c).kind = .edge → (h.get x).kind = .relation → (h.get c).genCtx ≠ none) :
    ∃ h2, addElement E c x h = (.ok (), h2) := by
  obtain ⟨h1, h1r, sim, _, _⟩ := I.baseAdd E hc hx hcx hd S.1 S.2
  by_cases hk' : (h.get c).kind = .edge
  · rw [addElement_edge hk', bind_ok h1r, obj_bind_run]
    by_cases hr : (h1.get x).kind = .relation
    · rw [if_pos hr, obj_bind_run]
      have : (h.get x).kind = .relation := by rw [← hr, sim.kind, moveH_kind]
      have hg := hrel hk' this
      rw [← moveH_genCtx h c x c, ← sim.genCtx] at hg
      cases hg' : (h1.get c).genCtx with
      | none => exact absurd hg' hg
      | some _ => exact ⟨_, rfl⟩
    · rw [if_neg hr]; exact ⟨_, rfl⟩
  · rw [addElement_plain hk hk']; exact ⟨_, h1r⟩

/-- `add_element` of a taken uuid changes nothing. -/
theorem addElement_refused {h : Heap} (E : Env) {c x : Ref} (hcx : x ≠ c)
    (hd : (h.get x).uuid ∈ (h.get c).subs.keys) :
    addElement E c x h = (.error .duplicateElement, h) := by
  by_cases hk : (h.get c).kind = .relation
  · rw [addElement_relation hk, bind_err (baseAdd_dup hcx hd)]
  by_cases hk' : (h.get c).kind = .edge
  · rw [addElement_edge hk', bind_err (baseAdd_dup hcx hd)]
  · rw [addElement_plain hk hk', baseAdd_dup hcx hd]

/-- The effect of a successful constructor call of a class with a clock. -/
structure Created (k : Kind) (nm : Str) (u : Bytes) (p : Option Ref) (h h' : Heap) : Prop where
  size : h'.size = h.size + 1
  kindN : (h'.get h.size).kind = k
  uuidN : (h'.get h.size).uuid = u
  nameN : (h'.get h.size).idName = nm
  parentN : (h'.get h.size).parent = p
  subsN : (h'.get h.size).subs = []
  genN : k.isHElement = true → (h'.get h.size).genCtx = some nm
  subs : ∀ y < h.size, (h'.get y).subs =
    if p = some y then (h.get y).subs ++ [(u, h.size)] else (h.get y).subs
  kind : ∀ y < h.size, (h'.get y).kind = (h.get y).kind
  uuid : ∀ y < h.size, (h'.get y).uuid = (h.get y).uuid
  idName : ∀ y < h.size, (h'.get y).idName = (h.get y).idName
  genCtx : ∀ y < h.size, (h'.get y).genCtx = (h.get y).genCtx
  endpoint : ∀ y < h.size, (h'.get y).endpoint = (h.get y).endpoint
  direction : ∀ y < h.size, (h'.get y).direction = (h.get y).direction
  weight : ∀ y < h.size, (h'.get y).weight = (h.get y).weight
  parent : ∀ y < h.size, (h'.get y).parent = (h.get y).parent
  named : NamedByPath h' h.size

/-- A constructor of a class with a clock, in a container that is not a relation: either the container
refuses the uuid and nothing that existed changes, or it succeeds. -/
theorem newConceptual_cases {h : Heap} (G : Good h) (E : Env) {k : Kind} (nm : Str) (u : Bytes)
    (pn : PName) (ck : Clock) {p : Option Ref} (hp : okRef h p)
    (hk : ∀ q, p = some q → (h.get q).kind ≠ .relation) (hkk : k ≠ .relation) :
    (∃ q h', p = some q ∧ u ∈ (h.get q).subs.keys ∧
      newConceptual E k nm u pn (some ck) p h = (.error .duplicateElement, h') ∧
      (∀ y < h.size, h'.get y = h.get y)) ∨
    ((∀ q, p = some q → u ∉ (h.get q).subs.keys) ∧
      ∃ h', newConceptual E k nm u pn (some ck) p h = (.ok h.size, h') ∧ Created k nm u p h h') := by
  have F : Fresh (conceptualObj k nm u pn (some ck)) := fresh_conceptual
  obtain ⟨h1, G1, hsim, hrd, hqn, hrun⟩ := newConceptual_start (E := E) G k nm u pn ck p
  rw [hrun]
  have hsz : h1.size = h.size + 1 := by rw [hsim.size]; rfl
  have hpar : ∀ y, (h1.get y).parent = (h.get y).parent := by
    intro y; rw [hsim.parent, allocH_parent G.inv F]
  have hnochild : ∀ y, (h1.get y).parent ≠ some h.size := by
    intro y hy; rw [hpar] at hy
    exact absurd (G.inv.parent_lt hy) (Nat.lt_irrefl _)
  have hxp : (h1.get h.size).parent = none := by
    rw [hpar]; exact (G.inv.get_out (Nat.le_refl _)).1
  have old : ∀ y < h.size, h1.get y = h.get y := by
    intro y hy
    rw [hsim.same y (by omega), allocH_get_lt hy]
  have new : (h1.get h.size).core = (conceptualObj k nm u pn (some ck)).core := by
    rw [hsim.core, allocH_get, if_pos rfl]
  have nk : (h1.get h.size).kind = k := congrArg Obj.kind new
  have nu : (h1.get h.size).uuid = u := congrArg Obj.uuid new
  have nn : (h1.get h.size).idName = nm := congrArg Obj.idName new
  have ns : (h1.get h.size).subs = [] := congrArg Obj.subs new
  have nq : (h1.get h.size).qualName = nm := by rw [hqn, allocH_get, if_pos rfl]; rfl
  -- the last statement of the constructor
  have fin : ∀ h2, (do
      if k.isHElement then do
        modify h.size fun o => { o with genCtx := some nm }
        pure h.size
      else pure h.size : PyM Nat) h2 = (.ok h.size, if k.isHElement then
        h2.mod h.size (fun o => { o with genCtx := some nm }) else h2) := by
    intro h2; split <;> rfl
  have pres : ∀ {α : Type} (π : Obj → α) (_ : ∀ o s, π { o with genCtx := s } = π o) (h2 : Heap) (z : Ref),
      π ((if k.isHElement then h2.mod h.size (fun o => { o with genCtx := some nm }) else h2).get z) =
        π (h2.get z) := by
    intro α π hπ h2 z
    split
    · simp only [Heap.get_mod]
      split
      · next e => subst e; exact hπ _ _
      · rfl
    · rfl
  have sz : ∀ h2 : Heap, (if k.isHElement then
      h2.mod h.size (fun o => { o with genCtx := some nm }) else h2).size = h2.size := by
    intro h2; split <;> rfl
  have gen : ∀ h2 : Heap, k.isHElement = true → ((if k.isHElement then
      h2.mod h.size (fun o => { o with genCtx := some nm }) else h2).get h.size).genCtx = some nm := by
    intro h2 hH; rw [if_pos hH]; simp
  have genO : ∀ (h2 : Heap) y, y < h.size → ((if k.isHElement then
      h2.mod h.size (fun o => { o with genCtx := some nm }) else h2).get y).genCtx =
        (h2.get y).genCtx := by
    intro h2 y hy
    split
    · simp [Nat.ne_of_lt hy]
    · rfl
  have nbp : ∀ h2 : Heap, NamedByPath h2 h.size → NamedByPath (if k.isHElement then
      h2.mod h.size (fun o => { o with genCtx := some nm }) else h2) h.size := by
    rintro h2 ⟨l, hl, hq⟩
    refine ⟨l, ?_, (pres (·.qualName) (fun _ _ => rfl) h2 _).trans hq⟩
    exact hl.transfer (pres (·.parent) (fun _ _ => rfl) h2) (pres (·.idName) (fun _ _ => rfl) h2)
  cases p with
  | none =>
    right
    refine ⟨fun q hq => (by cases hq), ?_⟩
    simp only [adopt, pure_bind_run]
    rw [fin]
    refine ⟨_, rfl, ?_⟩
    constructor
    · rw [sz, hsz]
    · rw [pres (·.kind) fun _ _ => rfl]; exact nk
    · rw [pres (·.uuid) fun _ _ => rfl]; exact nu
    · rw [pres (·.idName) fun _ _ => rfl]; exact nn
    · rw [pres (·.parent) fun _ _ => rfl]; exact hxp
    · rw [pres (·.subs) fun _ _ => rfl]; exact ns
    · exact gen h1
    · intro y hy; rw [pres (·.subs) fun _ _ => rfl, old y hy]; simp
    · intro y hy; rw [pres (·.kind) fun _ _ => rfl, old y hy]
    · intro y hy; rw [pres (·.uuid) fun _ _ => rfl, old y hy]
    · intro y hy; rw [pres (·.idName) fun _ _ => rfl, old y hy]
    · intro y hy; rw [genO _ _ hy, old y hy]
    · intro y hy; rw [pres (·.endpoint) fun _ _ => rfl, old y hy]
    · intro y hy; rw [pres (·.direction) fun _ _ => rfl, old y hy]
    · intro y hy; rw [pres (·.weight) fun _ _ => rfl, old y hy]
    · intro y hy; rw [pres (·.parent) fun _ _ => rfl, old y hy]
    · exact nbp h1 ⟨[nm], by rw [← nn]; exact .root hxp, by rw [nq]; rfl⟩
  | some q =>
    have hq := hp q rfl
    have hne : h.size ≠ q := by omega
    have S : AddSafe h1 q h.size := by
      refine ⟨?_, fun p' hp' => by rw [hxp] at hp'; cases hp'⟩
      intro qq
      obtain ⟨b, hb, _⟩ := qq.cases_down
      exact hnochild b hb
    simp only [adopt]
    by_cases hd : u ∈ (h.get q).subs.keys
    · left
      refine ⟨q, h1, rfl, hd, ?_, old⟩
      rw [bind_err (addElement_refused E hne (by rw [nu, old q hq]; exact hd))]
    · right
      refine ⟨fun q' hq' => by cases hq'; exact hd, ?_⟩
      obtain ⟨h2, h2r⟩ := addElement_succeeds G1.inv E (c := q) (x := h.size) (by omega) (by omega) S hne
        (by rw [old q hq]; exact hk q rfl) (by rw [nu, old q hq]; exact hd)
        (fun _ hr => absurd (nk ▸ hr) hkk)
      rw [bind_ok h2r, fin]
      refine ⟨_, rfl, ?_⟩
      obtain ⟨h3, m, hh⟩ := addElement_ok G1.inv E (c := q) (x := h.size) (by omega) (by omega) S h2r
      rcases hh with ⟨_, Q, hports, hgen, hend, hdir, hwt, _⟩ | ⟨hx, _⟩
      swap
      · rw [old q hq] at hx; exact absurd hx (hk q rfl)
      have fK : ∀ y, (h2.get y).kind = (h1.get y).kind := fun y => by
        rw [Q.kind, m.sim.kind, moveH_kind]
      have fU : ∀ y, (h2.get y).uuid = (h1.get y).uuid := fun y => by
        rw [Q.uuid, m.sim.uuid, moveH_uuid]
      have fN : ∀ y, (h2.get y).idName = (h1.get y).idName := fun y => by
        rw [Q.idName, m.sim.idName, moveH_idName]
      have fP : ∀ y, (h2.get y).parent = if y = h.size then some q else (h1.get y).parent := fun y => by
        rw [Q.parent, m.parent G1.inv]
      have fS : ∀ y, (h2.get y).subs =
          if y = q then (h1.get y).subs ++ [(u, h.size)] else (h1.get y).subs := by
        intro y
        rw [Q.subs, m.subs G1.inv y, hxp, nu]
        split
        · next e => subst e; rfl
        · simp
      constructor
      · rw [sz, Q.size, m.sim.size, moveH_size, hsz]
      · rw [pres (·.kind) fun _ _ => rfl, fK]; exact nk
      · rw [pres (·.uuid) fun _ _ => rfl, fU]; exact nu
      · rw [pres (·.idName) fun _ _ => rfl, fN]; exact nn
      · rw [pres (·.parent) fun _ _ => rfl, fP, if_pos rfl]
      · rw [pres (·.subs) fun _ _ => rfl, fS, if_neg hne]; exact ns
      · exact gen h2
      · intro y hy
        rw [pres (·.subs) fun _ _ => rfl, fS, old y hy]
        by_cases e : y = q
        · subst e; simp
        · rw [if_neg e, if_neg (by rintro ⟨⟩; exact e rfl)]
      · intro y hy; rw [pres (·.kind) fun _ _ => rfl, fK, old y hy]
      · intro y hy; rw [pres (·.uuid) fun _ _ => rfl, fU, old y hy]
      · intro y hy; rw [pres (·.idName) fun _ _ => rfl, fN, old y hy]
      · intro y hy; rw [genO _ _ hy, hgen, m.sim.genCtx, moveH_genCtx, old y hy]
      · intro y hy; rw [pres (·.endpoint) fun _ _ => rfl, hend, m.sim.endpoint, moveH_endpoint, old y hy]
      · intro y hy; rw [pres (·.direction) fun _ _ => rfl, hdir, m.sim.direction, moveH_direction, old y hy]
      · intro y hy; rw [pres (·.weight) fun _ _ => rfl, hwt, m.sim.weight, moveH_weight, old y hy]
      · intro y hy; rw [pres (·.parent) fun _ _ => rfl, fP, if_neg (by omega), old y hy]
      · apply nbp
        obtain ⟨l, hl, _⟩ := m.inv.exists_path (x := h.size) (by rw [moveH_size, hsz]; omega)
        refine ⟨l, ?_, ?_⟩
        · exact (m.sim.pathTo hl).transfer Q.parent Q.idName
        · rw [Q.qualName]; exact m.names _ (.inl rfl) l hl

/-- The effect of one successful `unary_connect` on relations. -/
structure RelAdded (e q : Ref) (l : Link) (h h' : Heap) : Prop where
  fresh : h.size ≤ q
  lt : q < h'.size
  kind : (h'.get q).kind = .relation
  endpoint : (h'.get q).endpoint = some l.node
  weight : (h'.get q).weight = l.weight
  direction : (h'.get q).direction = l.dir
  parent : (h'.get q).parent = some e
  sem : ∀ s, l.sem = some s → h'.subelements q = [s]
  rels : h'.subRelations e = h.subRelations e ++ [q]
  others : ∀ y < h.size, y ≠ e → h'.subRelations y = h.subRelations y
  ends : ∀ y < h.size, (h'.get y).endpoint = (h.get y).endpoint
  inside : ∀ y < h.size, (h.get y).kind = .relation → h'.subelements y = h.subelements y
  par : ∀ y < h.size, l.sem ≠ some y → (h'.get y).parent = (h.get y).parent
  leaf : ∀ y < h.size, (h.get y).kind.isHElement = false → h.subelements y = [] → h'.subelements y = []
  untouched : l.sem = none → ∀ y < h.size, y ≠ e → y ≠ l.node → h'.subelements y = h.subelements y

/-- The arguments of a connection exist; a semantic value node has no sub-elements and lies in no edge or
relation. -/
structure Link.Ok (h : Heap) (l : Link) : Prop where
  node : l.node < h.size
  weight : okRef h l.weight
  sem : okRef h l.sem
  semKind : ∀ s, l.sem = some s → ∃ k, (h.get s).kind = .semantic k
  semFree : ∀ s, l.sem = some s → Movable h s
  semLeaf : ∀ s, l.sem = some s → h.subelements s = []

theorem filter_values_erase {d : Dict Bytes Ref} {u : Bytes} {P : Ref → Bool}
    (hu : ∀ v, (u, v) ∈ d → P v = false) : (d.erase u).values.filter P = d.values.filter P := by
  induction d with
  | nil => rfl
  | cons p d ih =>
    obtain ⟨k, v⟩ := p
    have ih := ih fun v hv => hu v (by simp [hv])
    unfold Dict.erase Dict.values at ih ⊢
    by_cases hk : k = u
    · subst hk
      have := hu v (by simp)
      simp [this]
      simpa using ih
    · simp only [List.filter_cons, ne_eq, hk, not_false_eq_true, decide_true, if_true, List.map_cons]
      rw [ih]

theorem unaryConnect_rels {E : Env} {h h' : Heap} (R : Reach E h) {e q : Ref} {l : Link}
    (he : e < h.size) (hk : (h.get e).kind = .edge) (ok : l.Ok h)
    (hr : unaryConnect E e l.node l.weight l.dir l.sem h = (.ok q, h')) :
    Reach E h' ∧ RelAdded e q l h h' := by
  obtain ⟨n, d, w, sv⟩ := l
  obtain ⟨hn, hw, hs, hsk, hsf, hsc⟩ := ok
  simp only at hn hw hs hsk hsf hsc hr
  have G := R.good
  have I := G.inv
  have hsafe : (Op.unaryConnect e n w d sv).Safe h := by
    cases sv with
    | none => trivial
    | some s =>
      refine ⟨not_anc_of_childless G.inv (hsc s rfl), ?_, hsf s rfl⟩
      rintro rfl
      obtain ⟨k, hk'⟩ := hsk _ rfl
      rw [hk] at hk'; cases hk'
  have hreach : Reach E h' := by
    have := Reach.step (E := E) (Op.unaryConnect e n w d sv) R ⟨he, hn, hw, hs⟩ hsafe
    unfold Op.after at this
    rw [Op.run, void_run, hr] at this
    exact this
  refine ⟨hreach, ?_⟩
  unfold unaryConnect at hr
  simp only [obj_bind_run, hk, if_true] at hr
  obtain ⟨hc1, hc2, hc3⟩ := G.readClock E (h.get e).clock
  obtain ⟨t, ht⟩ : ∃ t, readClock E (h.get e).clock h = (.ok t, (readClock E (h.get e).clock h).2) := by
    have := I.clocked he (by rw [hk]; rfl)
    cases hcl : (h.get e).clock with
    | none => rw [hcl] at this; cases this
    | some ck => cases ck <;> exact ⟨_, rfl⟩
  generalize (readClock E (h.get e).clock h).2 = hrd at *
  rw [bind_ok ht] at hr
  cases hctx : (h.get e).genCtx with
  | none => rw [hctx] at hr; cases hr
  | some ctx =>
  rw [hctx] at hr
  simp only at hr
  unfold newRelation at hr
  simp only [alloc_bind_run] at hr
  generalize hro : relationObj (elementUid E ctx (h.get n).idName) (relName (h.get e).idName (h.get n).idName t)
      (.str (Str.join '/' [(h.get e).idName, relName (h.get e).idName (h.get n).idName t])) (some n) w d sv = ro at hr
  have F : Fresh ro := by rw [← hro]; exact ⟨rfl, rfl, rfl, rfl, rfl, fun h => by cases h⟩
  change ((connect E n hrd.size) >>= _) (allocH hrd ro) = _ at hr
  rw [hc2] at hr
  have I0 : Inv (allocH hrd ro) := hc1.inv.allocH F
  have hget : ∀ y < h.size, (allocH hrd ro).get y = h.get y := by
    intro y hy; rw [allocH_get_lt (by omega), hc3]
  have hnew : (allocH hrd ro).get h.size = ro := by rw [← hc2]; simp [allocH]
  have hsz : (allocH hrd ro).size = h.size + 1 := by rw [← hc2]; rfl
  generalize allocH hrd ro = h0 at *
  rcases connect_cases I0 E (n := n) (el := h.size) (by omega) with
      ⟨_, e1⟩ | ⟨hkn, ctx', _, ⟨_, _, e1, _⟩ | ⟨_, h1, e1, C⟩⟩
  · rw [bind_err e1] at hr; cases hr
  · rw [bind_err e1] at hr; cases hr
  rw [bind_ok e1] at hr
  rw [hget n hn] at hkn
  obtain ⟨f1, f2, f3, f4, f5, f6⟩ : (h0.get h.size).kind = .relation ∧ (h0.get h.size).endpoint = some n ∧
      (h0.get h.size).weight = w ∧ (h0.get h.size).direction = d ∧ (h0.get h.size).parent = none ∧
      (h0.get h.size).subs = [] := by
    rw [hnew, ← hro]; exact ⟨rfl, rfl, rfl, rfl, rfl, rfl⟩
  -- the state after `connect`
  have s1 : h1.size = h.size + 2 := by rw [C.size, hsz]
  have kp1 : (h1.get (h.size + 1)).kind = .port := by rw [← hsz, C.kindP]
  have hp1 : (h1.get h.size).parent = none := by rw [C.parent, if_neg (by omega), f5]
  have sub1 : ∀ y < h.size, (h1.get y).subs.values =
      (h.get y).subs.values ++ (if y = n then [h.size + 1] else []) := by
    intro z hz
    rw [C.subs z (by omega)]
    split
    · next e' => subst e'; rw [hget z hz]; simp [Dict.values, hsz]
    · rw [hget z hz]; simp
  have par1 : ∀ y < h.size, (h1.get y).parent = (h.get y).parent := by
    intro y hy; rw [C.parent, if_neg (by omega), hget y hy]
  have kd1 : ∀ y < h.size, (h1.get y).kind = (h.get y).kind := by
    intro y hy; rw [C.kind y (by omega), hget y hy]
  have ep1 : ∀ y < h.size, (h1.get y).endpoint = (h.get y).endpoint := by
    intro y hy; rw [C.endpoint y (by omega), hget y hy]
  have below1 : ∀ y, ¬ Anc h1 h.size y := by
    intro y
    apply not_anc_of_childless C.inv
    unfold Heap.subelements
    rw [C.subs h.size (by omega), if_neg (by omega), f6]; rfl
  -- the state after the semantic value node is attached
  obtain ⟨h3, e3, I3, s3, kd3, ep3, wt3, dr3, par3, sub3, subr3, below3, ge3, pr3, lf3, un3⟩ : ∃ h3,
      attachSem E h.size sv h1 = (.ok (), h3) ∧ Inv h3 ∧ h3.size = h1.size ∧
      (∀ y, (h3.get y).kind = (h1.get y).kind) ∧ (∀ y, (h3.get y).endpoint = (h1.get y).endpoint) ∧
      (∀ y, (h3.get y).weight = (h1.get y).weight) ∧ (∀ y, (h3.get y).direction = (h1.get y).direction) ∧
      (h3.get h.size).parent = none ∧
      (∀ y < h.size, ((h3.get y).kind = .relation → (h3.get y).subs.values = (h1.get y).subs.values) ∧
        (h3.get y).subs.values.filter (fun x => decide ((h1.get x).kind = .relation)) =
        (h1.get y).subs.values.filter (fun x => decide ((h1.get x).kind = .relation))) ∧
      (∀ s, sv = some s → (h3.get h.size).subs.values = [s]) ∧
      ¬ Anc h3 h.size e ∧ (h3.get e).genCtx = (h1.get e).genCtx ∧
      (∀ y < h.size, sv ≠ some y → (h3.get y).parent = (h1.get y).parent) ∧
      (∀ y < h.size, (h1.get y).subs.values = [] → (h3.get y).subs.values = []) ∧
      (sv = none → ∀ y, (h3.get y).subs.values = (h1.get y).subs.values) := by
    cases sv with
    | none =>
      exact ⟨h1, rfl, C.inv, rfl, fun _ => rfl, fun _ => rfl, fun _ => rfl, fun _ => rfl, hp1,
        fun y _ => ⟨fun _ => rfl, rfl⟩, (fun s hs => by cases hs), below1 e, rfl, fun _ _ _ => rfl,
        fun _ _ => id, fun _ _ => rfl⟩
    | some s =>
      have hsl := hs s rfl
      obtain ⟨k, hks⟩ := hsk s rfl
      have hks1 : (h1.get s).kind = .semantic k := by rw [kd1 s hsl, hks]
      have S : AddSafe h1 h.size s := by
        refine ⟨fun qq => ?_, fun p hp => ?_⟩
        · cases qq with
          | direct hq => rw [hp1] at hq; cases hq
          | up hq _ => rw [hp1] at hq; cases hq
        · rw [par1 s hsl] at hp
          rw [kd1 p (I.parent_lt hp)]
          exact hsf s rfl p hp
      unfold attachSem at hr
      cases ha : addElement E h.size s h1 with
      | mk res h3 =>
        cases res with
        | error er => rw [bind_err ha] at hr; cases hr
        | ok _ =>
        obtain ⟨h2, m, hh⟩ := addElement_ok C.inv E (c := h.size) (x := s) (by omega) (by omega) S ha
        rcases hh with ⟨_, Q, hports, hgen, hend, hdir, hwt, _⟩ | ⟨_, hx, _⟩
        swap
        · rw [hks1] at hx; cases hx
        have par : ∀ y, (h3.get y).parent = if y = s then some h.size else (h1.get y).parent := by
          intro y; rw [Q.parent, m.parent C.inv]
        have subs : ∀ y, (h3.get y).subs = if y = h.size then (h1.get h.size).subs ++ [((h1.get s).uuid, s)]
            else if (h1.get s).parent = some y then (h1.get y).subs.erase (h1.get s).uuid
            else (h1.get y).subs := fun y => by rw [Q.subs, m.subs C.inv]
        refine ⟨h3, ha, ?_, ?_, ?_, ?_, ?_, ?_, ?_, ?_, ?_, ?_, ?_, ?_, ?_, by rintro ⟨⟩⟩
        · exact m.inv'.quiet Q
        · rw [Q.size, m.sim.size, moveH_size]
        · intro y; rw [Q.kind, m.sim.kind, moveH_kind]
        · intro y; rw [hend, m.sim.endpoint, moveH_endpoint]
        · intro y; rw [hwt, m.sim.weight, moveH_weight]
        · intro y; rw [hdir, m.sim.direction, moveH_direction]
        · rw [par, if_neg (by omega), hp1]
        · intro y hy
          rw [subs y, if_neg (by omega)]
          constructor
          · intro hky
            rw [Q.kind, m.sim.kind, moveH_kind, kd1 y hy] at hky
            split
            · next e' =>
              rw [par1 s hsl] at e'
              exact absurd hky (hsf s rfl y e').2
            · rfl
          · split
            · apply filter_values_erase
              intro v hv
              have : v = s := by
                have nd := C.inv.nodup y
                have hv' := Dict.get?_of_mem nd hv
                have hs' := Dict.get?_of_mem nd ((C.inv.mem y _ s).2 ⟨‹_›, rfl⟩)
                exact Option.some.inj (hv'.symm.trans hs')
              subst this
              simp [hks1]
            · rfl
        · intro s' hs'; cases hs'
          rw [subs, if_pos rfl, C.subs h.size (by omega), if_neg (by omega), f6]; rfl
        · intro qq
          have hw : ¬ Within h1 s e := by
            rintro (q' | q')
            · subst q'; rw [hk] at hks; cases hks
            · refine not_anc_of_childless I (hsc s rfl) (anc_of_parent_same (h' := h1) I (fun y hy => par1 y hy) he q')
          exact below1 e (anc_of_parent_same_except C.inv
            (fun y _ hys => by rw [par, if_neg hys]) (by omega) hw qq)
        · rw [hgen, m.sim.genCtx, moveH_genCtx]
        · intro y _ hys; rw [par, if_neg (by rintro rfl; exact hys rfl)]
        · intro y hy hys
          rw [subs y, if_neg (by omega)]
          have : (h1.get y).subs = [] := by simpa [Dict.values] using hys
          split
          · rw [this]; rfl
          · exact hys
  rw [bind_ok e3] at hr
  have S : AddSafe h3 e h.size := ⟨below3, fun p hp => by rw [par3] at hp; cases hp⟩
  cases ha : addElement E e h.size h3 with
  | mk res h4 =>
  cases res with
  | error er => rw [bind_err ha] at hr; cases hr
  | ok _ =>
  rw [bind_ok ha] at hr
  cases hr
  obtain ⟨h5, m, hh⟩ := addElement_ok I3 E (c := e) (x := h.size) (by omega) (by omega) S ha
  rcases hh with ⟨_, Q, hports, _, hend, hdir, hwt, _⟩ | ⟨hx, _⟩
  swap
  · rw [kd3, kd1 e he, hk] at hx; cases hx
  have kd : ∀ y, (h'.get y).kind = (h1.get y).kind := fun y => by
    rw [Q.kind, m.sim.kind, moveH_kind, kd3]
  have sub : ∀ y, (h'.get y).subs.values = (h3.get y).subs.values ++ if y = e then [h.size] else [] := by
    intro y
    rw [Q.subs, m.subs I3, par3]
    simp only [reduceCtorEq, if_false]
    split
    · next e' => subst e'; rw [Dict.values_append]; rfl
    · simp
  have rels : ∀ y < h.size, h'.subRelations y = h.subRelations y ++ (if y = e then [h.size] else []) := by
    intro y hy
    unfold Heap.subRelations Heap.getSubelements Heap.subelements
    simp only [kd]
    rw [sub, List.filter_append, (sub3 y hy).2, sub1 y hy, List.filter_append]
    have a : ((if y = n then [h.size + 1] else [] : List Nat).filter
        fun x => decide ((h1.get x).kind = .relation)) = [] := by
      split <;> simp [kp1]
    have b : ((if y = e then [h.size] else [] : List Nat).filter
        fun x => decide ((h1.get x).kind = .relation)) = if y = e then [h.size] else [] := by
      split
      · simp [C.kind h.size (by omega), f1]
      · rfl
    rw [a, b, List.append_nil]
    congr 1
    apply List.filter_congr
    intro z hz
    have : z < h.size := I.lt_of_parent ((I.mem_subelements y z).1 hz)
    rw [kd1 z this]
  refine ⟨Nat.le_refl _, ?_, ?_, ?_, ?_, ?_, ?_, ?_, ?_, ?_, ?_, ?_, ?_, ?_, ?_⟩
  · rw [Q.size, m.sim.size, moveH_size]; omega
  · rw [kd, C.kind _ (by omega), f1]
  · rw [hend, m.sim.endpoint, moveH_endpoint, ep3, C.endpoint _ (by omega), f2]
  · rw [hwt, m.sim.weight, moveH_weight, wt3, C.weight _ (by omega), f3]
  · rw [hdir, m.sim.direction, moveH_direction, dr3, C.direction _ (by omega), f4]
  · rw [Q.parent, m.parent I3, if_pos rfl]
  · intro s hs'
    unfold Heap.subelements
    rw [sub, if_neg (by omega), subr3 s hs', List.append_nil]
  · rw [rels e he, if_pos rfl]
  · intro y hy hne; rw [rels y hy, if_neg hne]; simp
  · intro y hy; rw [hend, m.sim.endpoint, moveH_endpoint, ep3, ep1 y hy]
  · intro y hy hky
    unfold Heap.subelements
    rw [sub, if_neg (by rintro rfl; rw [hk] at hky; cases hky), (sub3 y hy).1 (by rw [kd3, kd1 y hy, hky]), sub1 y hy,
      if_neg (by rintro rfl; rw [hky] at hkn; cases hkn)]
    simp
  · intro y hy hys
    rw [Q.parent, m.parent I3, if_neg (by omega), pr3 y hy hys, par1 y hy]
  · intro y hy hky hsub
    unfold Heap.subelements at hsub ⊢
    rw [sub, if_neg (by rintro rfl; rw [hk] at hky; cases hky), List.append_nil]
    apply lf3 y hy
    rw [sub1 y hy, if_neg (by rintro rfl; rw [hky] at hkn; cases hkn), hsub]
    rfl
  · intro hs' y hy hye hyn
    unfold Heap.subelements
    rw [sub, if_neg hye, List.append_nil, un3 hs' y, sub1 y hy, if_neg hyn, List.append_nil]

/-- What a requested relation says. -/
def Link.asked (l : Link) : Option Ref × Dir × Option Ref := (some l.node, l.dir, l.weight)

/-- The effect of a successful run of `connectAll`. -/
structure RelsAdded (e : Ref) (qs : List Ref) (ls : List Link) (h h' : Heap) : Prop where
  asked : qs.map h'.linkAt = ls.map Link.asked
  rels : h'.subRelations e = h.subRelations e ++ qs
  sems : ∀ (i : Nat) (q : Ref) (l : Link) (s : Ref), qs[i]? = some q → ls[i]? = some l → l.sem = some s → h'.subelements q = [s]
  others : ∀ y < h.size, y ≠ e → h'.subRelations y = h.subRelations y
  ends : ∀ y < h.size, (h'.get y).endpoint = (h.get y).endpoint
  keeps : Keeps h h'
  inside : ∀ y < h.size, (h.get y).kind = .relation → h'.subelements y = h.subelements y
  par : ∀ y < h.size, some y ∉ ls.map Link.sem → (h'.get y).parent = (h.get y).parent
  untouched : (∀ l ∈ ls, l.sem = none) → ∀ y < h.size, y ≠ e → y ∉ ls.map Link.node → h'.subelements y = h.subelements y

theorem PyM.void_err {α} {m : PyM α} {h h' : Heap} {er : Err} (hm : m h = (.error er, h')) :
    m.void h = (.error er, h') := by
  unfold PyM.void; rw [bind_run, hm]

theorem PyM.void_ok {α} {m : PyM α} {h h' : Heap} {a : α} (hm : m h = (.ok a, h')) :
    m.void h = (.ok (), h') := by
  unfold PyM.void; rw [bind_run, hm]; rfl

theorem connectAll_rels {E : Env} {e : Ref} (ls : List Link) {h h' : Heap} (R : Reach E h)
    (he : e < h.size) (hk : (h.get e).kind = .edge) (ok : ∀ l ∈ ls, l.Ok h)
    (nd : (ls.filterMap Link.sem).Nodup) (hr : connectAll E e ls h = (.ok (), h')) :
    Reach E h' ∧ ∃ qs, RelsAdded e qs ls h h' := by
  induction ls generalizing h with
  | nil =>
    cases hr
    exact ⟨R, [], rfl, by simp, by simp, fun _ _ _ => rfl, fun _ _ => rfl, .refl _, fun _ _ _ => rfl,
      fun _ _ _ => rfl, fun _ _ _ _ _ => rfl⟩
  | cons l ls ih =>
    unfold connectAll at hr ih
    rw [forEach_cons] at hr
    cases hu : unaryConnect E e l.node l.weight l.dir l.sem h with
    | mk res h1 =>
    cases res with
    | error er => rw [bind_err (PyM.void_err hu)] at hr; cases hr
    | ok q =>
    rw [bind_ok (PyM.void_ok hu)] at hr
    have okl := ok l (by simp)
    obtain ⟨R1, A⟩ := unaryConnect_rels R he hk okl hu
    have K1 := (frames_unaryConnect (L := False) E e l.node l.weight l.dir l.sem h).keeps
    rw [hu] at K1
    have hsz := K1.size
    have nd' : (ls.filterMap Link.sem).Nodup ∧ ∀ s, l.sem = some s → ∀ l' ∈ ls, l'.sem ≠ some s := by
      cases hs : l.sem with
      | none => rw [List.filterMap_cons_none hs] at nd; exact ⟨nd, fun s h => by cases h⟩
      | some s =>
        rw [List.filterMap_cons_some hs, List.nodup_cons] at nd
        refine ⟨nd.2, fun s' hs' l' hl' e' => ?_⟩
        cases hs'
        exact nd.1 (List.mem_filterMap.2 ⟨l', hl', e'⟩)
    have ok1 : ∀ l' ∈ ls, l'.Ok h1 := by
      intro l' hl'
      have o := ok l' (by simp [hl'])
      have hs : ∀ s, l'.sem = some s → l.sem ≠ some s := fun s hs e' => nd'.2 s e' l' hl' hs
      refine ⟨Nat.lt_of_lt_of_le o.node hsz, fun x hx => Nat.lt_of_lt_of_le (o.weight x hx) hsz,
        fun x hx => Nat.lt_of_lt_of_le (o.sem x hx) hsz, ?_, ?_, ?_⟩
      · intro s hs'; rw [K1.kind s (o.sem s hs')]; exact o.semKind s hs'
      · intro s hs' p hp
        rw [A.par s (o.sem s hs') (hs s hs')] at hp
        rw [K1.kind p (R.good.inv.parent_lt hp)]
        exact o.semFree s hs' p hp
      · intro s hs'
        obtain ⟨k, hk'⟩ := o.semKind s hs'
        exact A.leaf s (o.sem s hs') (by rw [hk']; rfl) (o.semLeaf s hs')
    obtain ⟨R2, qs, B⟩ := ih R1 (Nat.lt_of_lt_of_le he hsz) (by rw [K1.kind e he, hk]) ok1 nd'.1 hr
    refine ⟨R2, q :: qs, ?_, ?_, ?_, ?_, ?_, ?_, ?_, ?_, ?_⟩
    · rw [List.map_cons, List.map_cons, B.asked]
      congr 1
      unfold Heap.linkAt Link.asked
      rw [B.ends q A.lt, B.keeps.direction q A.lt, B.keeps.weight q A.lt, A.endpoint, A.direction, A.weight]
    · rw [B.rels, A.rels, List.append_assoc]; rfl
    · intro i q' l' s h1' h2' h3'
      cases i with
      | zero =>
        simp only [List.getElem?_cons_zero, Option.some.injEq] at h1' h2'
        subst h1' h2'
        rw [B.inside q A.lt A.kind, A.sem s h3']
      | succ i =>
        simp only [List.getElem?_cons_succ] at h1' h2'
        exact B.sems i q' l' s h1' h2' h3'
    · intro y hy hne
      rw [B.others y (Nat.lt_of_lt_of_le hy hsz) hne, A.others y hy hne]
    · intro y hy; rw [B.ends y (Nat.lt_of_lt_of_le hy hsz), A.ends y hy]
    · exact K1.trans B.keeps
    · intro y hy hky
      rw [B.inside y (Nat.lt_of_lt_of_le hy hsz) (by rw [K1.kind y hy, hky]), A.inside y hy hky]
    · intro y hy hm
      simp only [List.map_cons, List.mem_cons, not_or] at hm
      rw [B.par y (Nat.lt_of_lt_of_le hy hsz) hm.2, A.par y hy (fun e' => hm.1 e'.symm)]
    · intro hs' y hy hye hyn
      simp only [List.map_cons, List.mem_cons, not_or] at hyn
      rw [B.untouched (fun l hl => hs' l (by simp [hl])) y (Nat.lt_of_lt_of_le hy hsz) hye hyn.2,
        A.untouched (hs' l (by simp)) y hy hye hyn.1]

theorem readClock_some {E : Env} {c : Option Clock} {h h' : Heap} {t : Nat}
    (hr : readClock E c h = (.ok t, h')) : t = clockNow E c h ∧ h'.size = h.size ∧
      (∀ y, h'.get y = h.get y) ∧ h'.lists = h.lists ∧ h'.nlists = h.nlists ∧
      h'.reads = h.reads + (if c = some .local then 1 else 0) := by
  unfold readClock at hr
  rcases c with _ | _ | _ <;> cases hr
  · exact ⟨rfl, rfl, fun _ => rfl, rfl, rfl, rfl⟩
  · exact ⟨rfl, rfl, fun _ => rfl, rfl, rfl, rfl⟩

theorem reach_readClock {E : Env} {h : Heap} (R : Reach E h) (c : Option Clock) :
    Reach E (readClock E c h).2 := by
  have := Reach.step (E := E) (.readClock c) R trivial trivial
  unfold Op.after at this
  rwa [Op.run, void_run] at this

theorem readClock_run {E : Env} {c : Option Clock} (hc : c ≠ none) (h : Heap) :
    ∃ r, readClock E c h = (.ok (clockNow E c h), { h with reads := r }) := by
  rcases c with _ | _ | _
  · exact absurd rfl hc
  · exact ⟨h.reads, rfl⟩
  · exact ⟨h.reads + 1, rfl⟩

theorem Created.of_reads {k : Kind} {nm : Str} {u : Bytes} {p : Option Ref} {h h' : Heap} {r : Nat}
    (C : Created k nm u p { h with reads := r } h') : Created k nm u p h h' := by
  cases C; constructor <;> assumption

/-- The uuid a factory gives to the name `arg` now. -/
def Factory.uid (E : Env) (F : Factory) (arg : Str) (h : Heap) : Bytes :=
  uidOf E F.name arg (clockNow E F.clock h)

theorem Factory.generateUid_run {E : Env} {F : Factory} (hF : F.clock ≠ none) (arg : Str) (h : Heap) :
    ∃ r, F.generateUid E arg h = (.ok (F.uid E arg h), { h with reads := r }) ∧
      ({ h with reads := r } : Heap) = (readClock E F.clock h).2 := by
  obtain ⟨r, hr⟩ := readClock_run (E := E) hF h
  refine ⟨r, ?_, by rw [hr]⟩
  unfold Factory.generateUid
  rw [bind_ok hr]
  rfl

theorem Factory.createHyperedge_cases {E : Env} {h : Heap} (R : Reach E h) {F : Factory}
    (hF : F.clock ≠ none) {c : Ref} (hc : c < h.size) (hk : (h.get c).kind.isConceptual = true) (nm : Str) :
    (F.uid E nm h ∈ (h.get c).subs.keys ∧ ∃ h', F.createHyperedge E c nm h = (.error .duplicateElement, h') ∧
      (∀ y < h.size, h'.get y = h.get y) ∧ Reach E h') ∨
    (F.uid E nm h ∉ (h.get c).subs.keys ∧ ∃ h', F.createHyperedge E c nm h = (.ok h.size, h') ∧
      Created .edge nm (F.uid E nm h) (some c) h h' ∧ Reach E h') := by
  obtain ⟨r, hu, hu2⟩ := F.generateUid_run (E := E) hF nm h
  have R1 : Reach E { h with reads := r } := by rw [hu2]; exact reach_readClock R _
  obtain ⟨r', hr'⟩ := readClock_run (E := E) hF { h with reads := r }
  have R2 : Reach E { h with reads := r' } := by
    have := reach_readClock R1 F.clock
    rw [hr'] at this; exact this
  obtain ⟨ck, hck⟩ := Option.isSome_iff_exists.1 (R2.good.inv.clocked (x := c) hc hk)
  have hrel : ∀ q, some c = some q → ((({ h with reads := r' } : Heap).get q).kind ≠ .relation) := by
    rintro q ⟨⟩ hq
    rw [show (({ h with reads := r' } : Heap).get c) = h.get c from rfl] at hq
    rw [hq] at hk; cases hk
  have key := newConceptual_cases R2.good E (k := .edge) nm (F.uid E nm h)
    (.tup (Str.join '/' [(h.get c).qualName, nm] ++ '.' :: decimal (clockNow E F.clock { h with reads := r })))
    ck (p := some c) (by rintro x ⟨⟩; exact hc) hrel (by simp)
  have run : F.createHyperedge E c nm h = newConceptual E .edge nm (F.uid E nm h)
    (.tup (Str.join '/' [(h.get c).qualName, nm] ++ '.' :: decimal (clockNow E F.clock { h with reads := r })))
    (some ck) (some c) { h with reads := r' } := by
    unfold Factory.createHyperedge
    rw [bind_ok hu]
    have hs : F.stampedIn E nm c { h with reads := r } = (.ok (.tup (Str.join '/' [(h.get c).qualName, nm] ++ '.' :: decimal (clockNow E F.clock { h with reads := r }))), { h with reads := r' }) := by
      unfold Factory.stampedIn
      rw [obj_bind_run, bind_ok hr']
      rfl
    rw [bind_ok hs, obj_bind_run]
    rw [show (({ h with reads := r' } : Heap).get c) = h.get c from rfl] at hck ⊢
    rw [if_pos hk, hck]
  have reach : Reach E (F.createHyperedge E c nm h).2 := by
    have := Reach.step (E := E) (.mkItem .edge nm (F.uid E nm h)
      (.tup (Str.join '/' [(h.get c).qualName, nm] ++ '.' :: decimal (clockNow E F.clock { h with reads := r })))
      (some ck) (some c)) R2 ⟨rfl, by rintro x ⟨⟩; exact hc⟩ trivial
    unfold Op.after at this
    rw [Op.run, void_run] at this
    rw [run]; exact this
  rcases key with ⟨q, h', hq, hm, hrun, hold⟩ | ⟨hn, h', hrun, C⟩
  · cases hq
    refine .inl ⟨hm, h', by rw [run, hrun], hold, ?_⟩
    rw [run, hrun] at reach; exact reach
  · refine .inr ⟨hn c rfl, h', by rw [run, hrun], C.of_reads, ?_⟩
    rw [run, hrun] at reach; exact reach

/-- When `unary_connect` (without a semantic value node) succeeds. -/
theorem unaryConnect_succeeds {E : Env} {h : Heap} (R : Reach E h) {e n : Ref} {w : Option Ref} {d : Dir}
    (he : e < h.size) (hn : n < h.size) (hne : n ≠ e) (hk : (h.get e).kind = .edge) {ctx ctx' : Str}
    (hctx : (h.get e).genCtx = some ctx) (hkn : (h.get n).kind.isHElement = true)
    (hctx' : (h.get n).genCtx = some ctx')
    (fn : ∀ t, elementUid E ctx' (relName (h.get e).idName (h.get n).idName t) ∉ (h.get n).subs.keys)
    (fe : elementUid E ctx (h.get n).idName ∉ (h.get e).subs.keys) :
    ∃ h', unaryConnect E e n w d none h = (.ok h.size, h') ∧
      (h'.get e).subs.keys = (h.get e).subs.keys ++ [elementUid E ctx (h.get n).idName] ∧
      (∀ y < h.size, y ≠ n → y ≠ e → (h'.get y).subs = (h.get y).subs) ∧
      (∀ y < h.size, (h'.get y).genCtx = (h.get y).genCtx) ∧
      (∃ t, (h'.get n).subs.keys = (h.get n).subs.keys ++
        [elementUid E ctx' (relName (h.get e).idName (h.get n).idName t)]) := by
  have G := R.good
  have I := G.inv
  unfold unaryConnect
  simp only [obj_bind_run, hk, if_true]
  obtain ⟨hc1, hc2, hc3⟩ := G.readClock E (h.get e).clock
  have hclk : ∃ t, readClock E (h.get e).clock h = (.ok t, (readClock E (h.get e).clock h).2) := by
    have := I.clocked he (by rw [hk]; rfl)
    cases hcl : (h.get e).clock with
    | none => rw [hcl] at this; cases this
    | some ck => cases ck <;> exact ⟨_, rfl⟩
  obtain ⟨t, ht⟩ := hclk
  generalize (readClock E (h.get e).clock h).2 = hr at *
  rw [bind_ok ht]
  simp only [hctx]
  rw [show ∀ (u : Bytes) (nm : Str) (pn : PName), newRelation u nm pn (some n) w d none =
    alloc (relationObj u nm pn (some n) w d none) from fun _ _ _ => rfl]
  simp only [alloc_bind_run]
  generalize hro : relationObj (elementUid E ctx (h.get n).idName) (relName (h.get e).idName (h.get n).idName t)
    (.str (Str.join '/' [(h.get e).idName, relName (h.get e).idName (h.get n).idName t])) (some n) w d none = ro
  have F : Fresh ro := by rw [← hro]; exact ⟨rfl, rfl, rfl, rfl, rfl, fun h => by cases h⟩
  have hah : ({ (hr.set hr.size ro) with size := hr.size + 1 } : Heap) = allocH hr ro := rfl
  rw [hah, hc2]
  have I0 : Inv (allocH hr ro) := hc1.inv.allocH F
  have hget : ∀ y < h.size, (allocH hr ro).get y = h.get y := by
    intro y hy; rw [allocH_get_lt (by omega), hc3]
  have hnew : (allocH hr ro).get h.size = ro := by rw [← hc2]; simp [allocH]
  have hsz : (allocH hr ro).size = h.size + 1 := by rw [← hc2]; rfl
  generalize allocH hr ro = h0 at *
  have hnl : n < h0.size := by omega
  have rn : ro.idName = relName (h.get e).idName (h.get n).idName t := by rw [← hro]; rfl
  have ru : ro.uuid = elementUid E ctx (h.get n).idName := by rw [← hro]; rfl
  have rk : ro.kind = .relation := by rw [← hro]; rfl
  rcases connect_cases I0 E (n := n) (el := h.size) hnl with
    ⟨hb, e1⟩ | ⟨_, c2, hc2', ⟨hb, h', e1, hh'⟩ | ⟨_, h1, e1, C⟩⟩
  · rw [hget n hn] at hb
    rcases hb with hb | hb
    · exact absurd hkn hb
    · rw [hctx'] at hb; cases hb
  · rw [hget n hn, hctx'] at hc2'
    cases hc2'
    rw [hget n hn, hnew, rn] at hb
    exact absurd hb (fn t)
  · rw [bind_ok e1]
    simp only [attachSem, pure_bind_run]
    have hs1 : h1.size = h0.size + 1 := C.size
    have hp1 : (h1.get h.size).parent = none := by
      rw [C.parent, if_neg (by omega), hnew]; exact F.parent
    have S : AddSafe h1 e h.size := by
      refine ⟨not_anc_of_childless C.inv ?_, fun p hp => by rw [hp1] at hp; cases hp⟩
      unfold Heap.subelements
      rw [C.subs h.size (by omega), if_neg (by omega), hnew, F.subs]; rfl
    have hke : (h1.get e).kind = .edge := by rw [C.kind e (by omega), hget e he, hk]
    have hge : (h1.get e).genCtx = some ctx := by rw [C.genCtx e (by omega), hget e he, hctx]
    have hue : (h1.get h.size).uuid = elementUid E ctx (h.get n).idName := by
      rw [C.uuid _ (by omega), hnew, ru]
    have hse : (h1.get e).subs = (h.get e).subs := by
      rw [C.subs e (by omega), if_neg (Ne.symm hne), hget e he]
    have hd : (h1.get h.size).uuid ∉ (h1.get e).subs.keys := by rw [hue, hse]; exact fe
    obtain ⟨h3, h3r, sim, _, _⟩ := C.inv.baseAdd E (c := e) (x := h.size) (by omega) (by omega)
      (by omega) hd S.1 S.2
    have hkx : (h3.get h.size).kind = .relation := by
      rw [sim.kind, moveH_kind, C.kind _ (by omega), hnew, rk]
    have hgx : (h3.get e).genCtx = some ctx := by rw [sim.genCtx, moveH_genCtx, hge]
    have hadd : addElement E e h.size h1 = (.ok (), h3.mod e fun oc =>
        { oc with subRels := oc.subRels.set (h3.get h.size).cid h.size }) := by
      rw [addElement_edge hke, bind_ok h3r, obj_bind_run, if_pos hkx, obj_bind_run, hgx]
      rfl
    rw [bind_ok hadd]
    have hsub : ∀ y < h.size, y ≠ n → (h3.get y).subs = if y = e then (h.get y).subs ++
        [(elementUid E ctx (h.get n).idName, h.size)] else (h.get y).subs := by
      intro y hy hyn
      rw [sim.subs, moveH_subs C.inv (by omega) hd]
      have := C.subs y (by omega)
      rw [if_neg hyn, hget y hy] at this
      rw [hue, hp1, this]
      by_cases hye : y = e
      · subst hye; simp [hse]
      · simp [hye]
    refine ⟨_, rfl, ?_, ?_, ?_, t, ?_⟩
    · rw [Heap.get_mod, if_pos rfl]
      show (h3.get e).subs.keys = _
      rw [hsub e he (Ne.symm hne), if_pos rfl]
      simp [Dict.keys]
    · intro y hy hyn hye
      rw [Heap.get_mod, if_neg hye, hsub y hy hyn, if_neg hye]
    · intro y hy
      rw [Heap.get_mod]
      split
      · next e' => subst e'; show (h3.get y).genCtx = _; rw [hgx, hctx]
      · rw [sim.genCtx, moveH_genCtx, C.genCtx y (by omega), hget y hy]
    · obtain ⟨c3, hc3', hu3⟩ := C.ctx
      rw [hget n hn, hctx'] at hc3'
      cases hc3'
      rw [hnew, rn] at hu3
      rw [Heap.get_mod, if_neg hne, sim.subs, moveH_subs C.inv (by omega) hd]
      have := C.subs n (by omega)
      rw [if_pos rfl, hget n hn, hu3] at this
      rw [hp1, this]
      simp [hne, Dict.keys]

/-- The node can take part in a new edge named `nm`: it is a fully constructed hypergraph element and none
of its sub-elements has the uuid a port to such an edge would get. -/
structure Joinable (E : Env) (h : Heap) (nm : Str) (n : Ref) : Prop where
  lt : n < h.size
  kind : (h.get n).kind.isHElement = true
  port : ∃ ctx, (h.get n).genCtx = some ctx ∧
    ∀ t, elementUid E ctx (relName nm (h.get n).idName t) ∉ (h.get n).subs.keys

theorem elementUid_inj {E : Env} (inj : Function.Injective E.sha) {ctx a b : Str}
    (hab : elementUid E ctx a = elementUid E ctx b) : a = b := by
  have := inj hab
  simpa using this

theorem connectAll_succeeds {E : Env} (inj : Function.Injective E.sha) {e : Ref} {ctx nm : Str} (ls : List Link)
    {h : Heap} (R : Reach E h) (he : e < h.size) (hk : (h.get e).kind = .edge)
    (hctx : (h.get e).genCtx = some ctx) (hnm : (h.get e).idName = nm)
    (hs : ∀ l ∈ ls, l.sem = none ∧ okRef h l.weight ∧ l.node ≠ e ∧ Joinable E h nm l.node)
    (nd : (ls.map fun l => (h.get l.node).idName).Nodup)
    (fe : ∀ l ∈ ls, elementUid E ctx (h.get l.node).idName ∉ (h.get e).subs.keys) :
    ∃ h', connectAll E e ls h = (.ok (), h') ∧ (∀ y < h.size, (h'.get y).genCtx = (h.get y).genCtx) ∧
      (∀ y < h.size, y ≠ e → y ∉ ls.map Link.node → (h'.get y).subs = (h.get y).subs) ∧
      (∀ y < h.size, y ≠ e → ∀ u ∈ (h'.get y).subs.keys, u ∈ (h.get y).subs.keys ∨
        ∃ c t, (h.get y).genCtx = some c ∧ u = elementUid E c (relName nm (h.get y).idName t)) := by
  induction ls generalizing h with
  | nil => exact ⟨h, rfl, fun _ _ => rfl, fun _ _ _ _ => rfl, fun _ _ _ _ hu => .inl hu⟩
  | cons l ls ih =>
    obtain ⟨h1s, h1w, h1n, J⟩ := hs l (by simp)
    obtain ⟨ctx', hc', hf'⟩ := J.port
    obtain ⟨h1, hr, ke, ky, kg, tn, kn⟩ := unaryConnect_succeeds (w := l.weight) (d := l.dir) R he J.lt h1n hk hctx J.kind hc'
      (by rw [hnm]; exact hf') (fe l (by simp))
    rw [← h1s] at hr
    unfold connectAll at ih ⊢
    rw [forEach_cons, bind_ok (PyM.void_ok hr)]
    obtain ⟨R1, _⟩ := unaryConnect_rels R he hk ⟨J.lt, h1w, by rw [h1s]; rintro x ⟨⟩, by rw [h1s]; rintro x ⟨⟩,
      by rw [h1s]; rintro x ⟨⟩, by rw [h1s]; rintro x ⟨⟩⟩ hr
    have K1 := (frames_unaryConnect (L := False) E e l.node l.weight l.dir l.sem h).keeps
    rw [hr] at K1
    have hsz := K1.size
    simp only [List.map_cons, List.nodup_cons, List.mem_map, not_exists, not_and] at nd
    have nm' : ∀ l' ∈ ls, (h1.get l'.node).idName = (h.get l'.node).idName := fun l' hl' =>
      K1.idName _ (hs l' (by simp [hl'])).2.2.2.lt
    have nnode : ∀ l' ∈ ls, l'.node ≠ l.node := by
      intro l' hl' e'
      exact nd.1 l' hl' (by rw [e'])
    have fin : (∃ h', (forEach ls fun l => (unaryConnect E e l.node l.weight l.dir l.sem).void) h1 = (.ok (), h') ∧
        (∀ y < h1.size, (h'.get y).genCtx = (h1.get y).genCtx) ∧
        (∀ y < h1.size, y ≠ e → y ∉ ls.map Link.node → (h'.get y).subs = (h1.get y).subs) ∧
        (∀ y < h1.size, y ≠ e → ∀ u ∈ (h'.get y).subs.keys, u ∈ (h1.get y).subs.keys ∨
          ∃ c t, (h1.get y).genCtx = some c ∧ u = elementUid E c (relName nm (h1.get y).idName t))) := ?_
    · obtain ⟨h', r, g, s, p⟩ := fin
      refine ⟨h', r, fun y hy => by rw [g y (Nat.lt_of_lt_of_le hy hsz), kg y hy], fun y hy hye hyn => ?_, fun y hy hye u hu => ?_⟩
      · simp only [List.map_cons, List.mem_cons, not_or] at hyn
        rw [s y (Nat.lt_of_lt_of_le hy hsz) hye hyn.2, ky y hy hyn.1 hye]
      · rcases p y (Nat.lt_of_lt_of_le hy hsz) hye u hu with q | ⟨c, t, q1, q2⟩
        · by_cases hyn : y = l.node
          · subst hyn
            rw [kn, List.mem_append, List.mem_singleton, hnm] at q
            exact q.imp id fun q => ⟨ctx', tn, hc', q⟩
          · rw [ky y hy hyn hye] at q
            exact .inl q
        · rw [kg y hy] at q1
          rw [K1.idName y hy] at q2
          exact .inr ⟨c, t, q1, q2⟩
    apply ih R1 (Nat.lt_of_lt_of_le he hsz) (by rw [K1.kind e he, hk]) (by rw [kg e he, hctx])
      (by rw [K1.idName e he, hnm])
    · intro l' hl'
      obtain ⟨a, b, c, J'⟩ := hs l' (by simp [hl'])
      refine ⟨a, fun x hx => Nat.lt_of_lt_of_le (b x hx) hsz, c, Nat.lt_of_lt_of_le J'.lt hsz, ?_, ?_⟩
      · rw [K1.kind _ J'.lt]; exact J'.kind
      · obtain ⟨c2, hc2, hf2⟩ := J'.port
        refine ⟨c2, by rw [kg _ J'.lt, hc2], fun t => ?_⟩
        rw [ky _ J'.lt (nnode l' hl') c, nm' l' hl']
        exact hf2 t
    · rw [List.map_congr_left nm']; exact nd.2
    · intro l' hl'
      rw [ke, nm' l' hl', List.mem_append, not_or]
      refine ⟨fe l' (by simp [hl']), fun hm => ?_⟩
      rw [List.mem_singleton] at hm
      exact nd.1 l' hl' (elementUid_inj inj hm)

end Rei
