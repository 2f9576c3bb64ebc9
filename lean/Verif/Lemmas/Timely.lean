import Verif.Lemmas.ReadFile

/-!
# Clock readings and uuids

When no two clock readings agree and no two strings have the same digest, an object made now cannot collide with one
made before.
-/
namespace Rei
open PyM

/-- No two clock readings agree, no two strings have the same digest. -/
structure Ideal (E : Env) : Prop where
  sha : ∀ a b, E.sha a = E.sha b → a = b
  time : ∀ i j, E.time i = E.time j → i = j

/-- The digest of a string that ends in one of the first `n` clock readings. -/
def StampedBy (E : Env) (n : Nat) (u : Bytes) : Prop := ∃ s j, j < n ∧ u = E.sha (s ++ '.' :: decimal (E.time j))

theorem StampedBy.mono {E : Env} {n m : Nat} {u : Bytes} (a : StampedBy E n u) (hnm : n ≤ m) : StampedBy E m u := by
  obtain ⟨s, j, hj, e⟩ := a
  exact ⟨s, j, by omega, e⟩

/-- The objects from `lo` on are what a reader with a wall clock made. -/
structure Timely (E : Env) (lo : Nat) (h : Heap) : Prop where
  le : lo ≤ h.size
  stamp : ∀ v, lo ≤ v → v < h.size → (h.get v).kind ≠ .relation → StampedBy E h.reads (h.get v).uuid
  rel : ∀ v, lo ≤ v → v < h.size → (h.get v).kind = .relation → ∃ e t, (h.get v).parent = some e ∧
    (h.get e).kind = .edge ∧ (h.get v).endpoint = some t ∧ t < h.size ∧
    (h.get v).uuid = elementUid E (h.get e).idName (h.get t).idName
  fresh : ∀ v p, v < h.size → (h.get v).parent = some p → lo ≤ p → lo ≤ v
  under : ∀ v p, v < h.size → (h.get v).parent = some p → lo ≤ p → (h.get p).kind = .edge → (h.get v).kind = .relation
  clock : ∀ v, lo ≤ v → v < h.size → (h.get v).kind.isConceptual = true → (h.get v).clock = some .local
  ctx : ∀ v, lo ≤ v → v < h.size → (h.get v).kind.isHElement = true → (h.get v).genCtx = some (h.get v).idName
  port : ∀ v, lo ≤ v → v < h.size → (h.get v).kind = .port → '.' ∈ (h.get v).idName

namespace Timely
variable {E : Env} {lo : Nat} {h h' : Heap}

theorem reads (T : Timely E lo h) {r : Nat} (hr : h.reads ≤ r) : Timely E lo { h with reads := r } :=
  ⟨T.le, fun v a b c => (T.stamp v a b c).mono hr, T.rel, T.fresh, T.under, T.clock, T.ctx, T.port⟩

/-- Nothing in `c` has the uuid of an object made now. -/
theorem free (T : Timely E lo h) (X : Ideal E) (I : Inv h) {c : Ref} (hc : lo ≤ c) (hk : (h.get c).kind ≠ .edge)
    {s : Str} {j : Nat} (hj : h.reads ≤ j) {u : Bytes} (hu : u = E.sha (s ++ '.' :: decimal (E.time j))) :
    u ∉ (h.get c).subs.keys := by
  intro hm
  obtain ⟨v, hv⟩ : ∃ v, (u, v) ∈ (h.get c).subs := by
    obtain ⟨⟨a, b⟩, hab, rfl⟩ := List.mem_map.1 hm
    exact ⟨b, hab⟩
  obtain ⟨hp, hvu⟩ := (I.mem c u v).1 hv
  change (h.get v).parent = some c at hp
  change (h.get v).uuid = u at hvu
  have hlt := I.lt_of_parent hp
  have hlo := T.fresh v c hlt hp hc
  by_cases hr : (h.get v).kind = .relation
  · obtain ⟨e, t, a, b, -⟩ := T.rel v hlo hlt hr
    rw [hp] at a; cases a
    exact hk b
  · obtain ⟨s', j', hj', e'⟩ := T.stamp v hlo hlt hr
    rw [hvu, hu] at e'
    have := X.time _ _ (decimal_inj (split_last (X.sha _ _ e') (dot_not_mem_decimal _) (dot_not_mem_decimal _)).2)
    omega

/-- One new object. -/
theorem grown (T : Timely E lo h) {c : Option Ref} {o : Obj} (g : Grown1 c o h h') (I : Inv h) (hr : h.reads ≤ h'.reads)
    (hs : StampedBy E h'.reads o.uuid) (hk : o.kind ≠ .relation) (hkp : o.kind ≠ .port)
    (hcl : o.kind.isConceptual = true → o.clock = some .local)
    (hct : o.kind.isHElement = true → o.genCtx = some o.idName)
    (hc : ∀ p, c = some p → p < h.size ∧ (h.get p).kind ≠ .edge) : Timely E lo h' := by
  have get : ∀ {α : Type} (π : Obj → α) (_ : ∀ (o : Obj) s i n k sr, π { o with
      subs := s, index := i, cnt := n, hist := k, subRels := sr } = π o) (x : Ref), x < h.size →
      π (h'.get x) = π (h.get x) := by
    intro α π hπ x hx
    by_cases hxc : c = some x
    · obtain ⟨i, n, k, sr, e⟩ := g.cont x hxc
      rw [e, hπ]
    · rw [g.others x hx hxc]
  have kd := get (·.kind) (fun _ _ _ _ _ _ => rfl)
  have nm := get (·.idName) (fun _ _ _ _ _ _ => rfl)
  have uu := get (·.uuid) (fun _ _ _ _ _ _ => rfl)
  have pa := get (·.parent) (fun _ _ _ _ _ _ => rfl)
  have ep := get (·.endpoint) (fun _ _ _ _ _ _ => rfl)
  have ck := get (·.clock) (fun _ _ _ _ _ _ => rfl)
  have cx := get (·.genCtx) (fun _ _ _ _ _ _ => rfl)
  have kn : (h'.get h.size).kind = o.kind := by have := congrArg Obj.kind g.new; exact this
  have un : (h'.get h.size).uuid = o.uuid := by have := congrArg Obj.uuid g.new; exact this
  have nn : (h'.get h.size).idName = o.idName := by have := congrArg Obj.idName g.new; exact this
  have pn : (h'.get h.size).parent = c := by have := congrArg Obj.parent g.new; exact this
  have cn : (h'.get h.size).clock = o.clock := by have := congrArg Obj.clock g.new; exact this
  have gn : (h'.get h.size).genCtx = o.genCtx := by have := congrArg Obj.genCtx g.new; exact this
  have sz := g.size
  have cas : ∀ v, v < h'.size → v < h.size ∨ v = h.size := fun v hv => by omega
  have le := T.le
  refine ⟨by omega, ?_, ?_, ?_, ?_, ?_, ?_, ?_⟩
  · intro v hl hv hkv
    rcases cas v hv with hv | rfl
    · rw [kd v hv] at hkv; rw [uu v hv]; exact (T.stamp v hl hv hkv).mono hr
    · rw [un]; exact hs
  · intro v hl hv hkv
    rcases cas v hv with hv | rfl
    · rw [kd v hv] at hkv
      obtain ⟨e, t, a, b, c', d, f⟩ := T.rel v hl hv hkv
      have he : e < h.size := I.parent_lt a
      exact ⟨e, t, by rw [pa v hv, a], by rw [kd e he, b], by rw [ep v hv, c'], by omega, by rw [uu v hv, nm e he, nm t d, f]⟩
    · rw [kn] at hkv; exact absurd hkv hk
  · intro v p hv hp hl
    rcases cas v hv with hv | rfl
    · rw [pa v hv] at hp; exact T.fresh v p hv hp hl
    · exact le
  · intro v p hv hp hl hkp
    rcases cas v hv with hv | rfl
    · rw [pa v hv] at hp; rw [kd v hv]; rw [kd p (I.parent_lt hp)] at hkp; exact T.under v p hv hp hl hkp
    · rw [pn] at hp
      obtain ⟨a, b⟩ := hc p hp
      rw [kd p a] at hkp; exact absurd hkp b
  · intro v hl hv hkv
    rcases cas v hv with hv | rfl
    · rw [kd v hv] at hkv; rw [ck v hv]; exact T.clock v hl hv hkv
    · rw [kn] at hkv; rw [cn]; exact hcl hkv
  · intro v hl hv hkv
    rcases cas v hv with hv | rfl
    · rw [kd v hv] at hkv; rw [cx v hv, nm v hv]; exact T.ctx v hl hv hkv
    · rw [kn] at hkv; rw [gn, nn]; exact hct hkv
  · intro v hl hv hkv
    rcases cas v hv with hv | rfl
    · rw [kd v hv] at hkv; rw [nm v hv]; exact T.port v hl hv hkv
    · rw [kn] at hkv; exact absurd hkv hkp

/-- Writing an attribute. -/
theorem attr (T : Timely E lo h) (s : Ref) (key : Str) (a : AttrVal) :
    Timely E lo (h.mod s fun o => { o with attrs := o.attrs.set key a }) := by
  have f : ∀ {α : Type} (π : Obj → α) (_ : ∀ o t, π { o with attrs := t } = π o) (z : Ref),
      π ((h.mod s fun o => { o with attrs := o.attrs.set key a }).get z) = π (h.get z) := by
    intro α π hπ z
    simp only [Heap.get_mod]
    split
    · next e => subst e; exact hπ _ _
    · rfl
  have kd := f (·.kind) (fun _ _ => rfl)
  have nm := f (·.idName) (fun _ _ => rfl)
  have uu := f (·.uuid) (fun _ _ => rfl)
  have pa := f (·.parent) (fun _ _ => rfl)
  have ep := f (·.endpoint) (fun _ _ => rfl)
  have ck := f (·.clock) (fun _ _ => rfl)
  have cx := f (·.genCtx) (fun _ _ => rfl)
  refine ⟨T.le, ?_, ?_, ?_, ?_, ?_, ?_, ?_⟩ <;> simp only [kd, nm, uu, pa, ep, ck, cx]
  · exact T.stamp
  · exact T.rel
  · exact T.fresh
  · exact T.under
  · exact T.clock
  · exact T.ctx
  · exact T.port

end Timely

theorem Factory.uid_local (E : Env) {F : Factory} (hF : F.clock = some .local) (arg : Str) (h : Heap) :
    F.uid E arg h = E.sha ((F.name ++ '/' :: arg) ++ '.' :: decimal (E.time h.reads)) := by
  unfold Factory.uid uidOf clockNow
  rw [hF]; simp [decimal]

/-- `m` returns from `h`, and afterwards `P` holds. -/
def Fine {α : Type} (P : Heap → Prop) (m : PyM α) (h : Heap) : Prop := ∃ a h', m h = (.ok a, h') ∧ P h'

namespace Fine
variable {E : Env} {α β : Type} {P : Heap → Prop} {h : Heap}

theorem pure {a : α} (p : P h) : Fine P (Pure.pure a : PyM α) h := ⟨a, h, rfl, p⟩

theorem bind {m : PyM α} {f : α → PyM β} {Q : α → Heap → Prop} (s : Fine P m h) (d : Does E m h Q)
    (k : ∀ a h', Reach E h' → P h' → Q a h' → Fine P (f a) h') : Fine P (m >>= f) h := by
  obtain ⟨a, h', e, p⟩ := s
  obtain ⟨b, h'', e', p'⟩ := k a h' (by have := d.1; rw [e] at this; exact this) p (d.2 a h' e)
  exact ⟨b, h'', by rw [bind_ok e]; exact e', p'⟩

theorem void {m : PyM α} (s : Fine P m h) : Fine P m.void h := by
  obtain ⟨a, h', e, p⟩ := s
  refine ⟨(), h', ?_, p⟩
  unfold PyM.void
  rw [bind_ok e]; rfl

theorem obj {x : Ref} (p : P h) : Fine P (PyM.obj x) h := ⟨_, h, rfl, p⟩
theorem heap (p : P h) : Fine P PyM.heap h := ⟨_, h, rfl, p⟩
theorem liftE {a : α} {r : Except Err α} (e : r = .ok a) (p : P h) : Fine P (Rei.liftE r) h :=
  ⟨a, h, by unfold Rei.liftE; rw [e], p⟩

end Fine

section
variable {E : Env} {lo : Nat} {h : Heap}

/-- `generate_node` in `c`. -/
theorem node_fine (X : Ideal E) (R : Reach E h) (T : Timely E lo h) {F : Factory} (hF : F.clock = some .local)
    (nm : Str) {c : Ref} (hl : lo ≤ c) (hc : c < h.size) (hk : (h.get c).kind = .node) :
    Fine (Timely E lo) (F.generateNode E nm (some c)) h := by
  have hu := generateUid_local (E := E) hF (h.newPath nm (some c)) h
  have R1 : Reach E { h with reads := h.reads + 1 } := by
    have := reach_readClock R F.clock
    rw [hF] at this; exact this
  obtain ⟨r2, t, hs, hs2⟩ := stamped_run (E := E) (F := F) (by rw [hF]; simp) nm { h with reads := h.reads + 1 }
  have er2 : r2 = h.reads + 2 := by
    have := congrArg Heap.reads hs2
    rw [hF] at this; exact this
  subst er2
  have R2 : Reach E { h with reads := h.reads + 2 } := by
    have := reach_readClock R1 F.clock
    rw [← hs2] at this; exact this
  have T2 := T.reads (r := h.reads + 2) (by omega)
  have hd := T.free X R.good.inv hl (by rw [hk]; simp) (Nat.le_refl _)
    (Factory.uid_local E hF (h.newPath nm (some c)) h)
  obtain ⟨h1, e, g⟩ := new_conceptual_in (E := E) R2.good (k := .node) nm (F.uid E (h.newPath nm (some c)) h)
    (.str (Str.join '/' [F.name, nm ++ '.' :: decimal t])) .local (c := c) hc (by
      show (h.get c).kind ≠ _
      rw [hk]; simp) hd (by simp)
  have K := (frames_newConceptual E (L := True) .node nm (F.uid E (h.newPath nm (some c)) h)
    (.str (Str.join '/' [F.name, nm ++ '.' :: decimal t])) (some .local) (some c) (.inl trivial)
    { h with reads := h.reads + 2 }).keeps
  rw [e] at K
  have kr : h.reads + 2 ≤ h1.reads := K.reads
  refine ⟨h.size, h1, ?_, ?_⟩
  · unfold Factory.generateNode
    rw [heap_bind_run, bind_ok hu, bind_ok hs, hF, e]
  · refine T2.grown g R2.good.inv K.reads ⟨_, h.reads, by omega, Factory.uid_local E hF _ h⟩ (by simp [builtObj, conceptualObj]) (by simp [builtObj, conceptualObj])
      (fun _ => rfl) (fun _ => rfl) ?_
    rintro p ⟨⟩
    exact ⟨hc, by show (h.get c).kind ≠ _; rw [hk]; simp⟩

/-- `generate_node` without a container. -/
theorem root_fine (R : Reach E h) (T : Timely E lo h) {F : Factory} (hF : F.clock = some .local)
    (nm : Str) : Fine (Timely E lo) (F.generateNode E nm none) h := by
  have hu := generateUid_local (E := E) hF (h.newPath nm none) h
  have R1 : Reach E { h with reads := h.reads + 1 } := by
    have := reach_readClock R F.clock
    rw [hF] at this; exact this
  obtain ⟨r2, t, hs, hs2⟩ := stamped_run (E := E) (F := F) (by rw [hF]; simp) nm { h with reads := h.reads + 1 }
  have er2 : r2 = h.reads + 2 := by
    have := congrArg Heap.reads hs2
    rw [hF] at this; exact this
  subst er2
  have R2 : Reach E { h with reads := h.reads + 2 } := by
    have := reach_readClock R1 F.clock
    rw [← hs2] at this; exact this
  have T2 := T.reads (r := h.reads + 2) (by omega)
  obtain ⟨h1, e, g⟩ := new_conceptual (E := E) R2.good .node nm (F.uid E (h.newPath nm none) h)
    (.str (Str.join '/' [F.name, nm ++ '.' :: decimal t])) .local
  have K := (frames_newConceptual E (L := True) .node nm (F.uid E (h.newPath nm none) h)
    (.str (Str.join '/' [F.name, nm ++ '.' :: decimal t])) (some .local) none (.inl trivial)
    { h with reads := h.reads + 2 }).keeps
  rw [e] at K
  have kr : h.reads + 2 ≤ h1.reads := K.reads
  refine ⟨h.size, h1, ?_, ?_⟩
  · unfold Factory.generateNode
    rw [heap_bind_run, bind_ok hu, bind_ok hs, hF, e]
  · exact T2.grown g R2.good.inv K.reads ⟨_, h.reads, by omega, Factory.uid_local E hF _ h⟩ (by simp [builtObj, conceptualObj]) (by simp [builtObj, conceptualObj])
      (fun _ => rfl) (fun _ => rfl) (by rintro p ⟨⟩)

/-- `create_hyperedge` in `c`. -/
theorem edge_fine (X : Ideal E) (R : Reach E h) (T : Timely E lo h) {F : Factory} (hF : F.clock = some .local)
    (nm : Str) {c : Ref} (hl : lo ≤ c) (hc : c < h.size) (hk : (h.get c).kind = .node) :
    Fine (Timely E lo) (F.createHyperedge E c nm) h := by
  have hu := generateUid_local (E := E) hF nm h
  have R1 : Reach E { h with reads := h.reads + 1 } := by
    have := reach_readClock R F.clock
    rw [hF] at this; exact this
  obtain ⟨r2, t, hs, hs2⟩ := stampedIn_run (E := E) (F := F) (by rw [hF]; simp) nm c { h with reads := h.reads + 1 }
  have er2 : r2 = h.reads + 2 := by
    have := congrArg Heap.reads hs2
    rw [hF] at this; exact this
  subst er2
  have R2 : Reach E { h with reads := h.reads + 2 } := by
    have := reach_readClock R1 F.clock
    rw [← hs2] at this; exact this
  have T2 := T.reads (r := h.reads + 2) (by omega)
  have hd := T.free X R.good.inv hl (by rw [hk]; simp) (Nat.le_refl _) (Factory.uid_local E hF nm h)
  have hck := T.clock c hl hc (by rw [hk]; rfl)
  obtain ⟨h1, e, g⟩ := new_conceptual_in (E := E) R2.good (k := .edge) nm (F.uid E nm h)
    (.tup (Str.join '/' [(h.get c).qualName, nm] ++ '.' :: decimal t)) .local (c := c) hc (by
      show (h.get c).kind ≠ _
      rw [hk]; simp) hd (by simp)
  have K := (frames_newConceptual E (L := True) .edge nm (F.uid E nm h)
    (.tup (Str.join '/' [(h.get c).qualName, nm] ++ '.' :: decimal t)) (some .local) (some c) (.inl trivial)
    { h with reads := h.reads + 2 }).keeps
  rw [e] at K
  have kr : h.reads + 2 ≤ h1.reads := K.reads
  refine ⟨h.size, h1, ?_, ?_⟩
  · unfold Factory.createHyperedge
    rw [bind_ok hu, bind_ok hs, obj_bind_run]
    change (if (h.get c).kind.isConceptual = true then newConceptual E .edge nm _ _ (h.get c).clock (some c) else _) _ = _
    rw [if_pos (by rw [hk]; rfl), hck, ← e]
  · refine T2.grown g R2.good.inv K.reads ⟨_, h.reads, by omega, Factory.uid_local E hF _ h⟩ (by simp [builtObj, conceptualObj]) (by simp [builtObj, conceptualObj])
      (fun _ => rfl) (fun _ => rfl) ?_
    rintro p ⟨⟩
    exact ⟨hc, by show (h.get c).kind ≠ _; rw [hk]; simp⟩

/-- `create_value` in `p`. -/
theorem value_fine (X : Ideal E) (R : Reach E h) (T : Timely E lo h) {F : Factory} (hF : F.clock = some .local)
    (nm : Str) {p : Ref} (hl : lo ≤ p) (hp : p < h.size) (hk : (h.get p).kind = .node) (vs : List Rat) :
    Fine (Timely E lo) (F.createValue E (some p) nm (some vs)) h := by
  have hu := generateUid_local (E := E) hF nm h
  have R1 : Reach E { h with reads := h.reads + 1 } := by
    have := reach_readClock R F.clock
    rw [hF] at this; exact this
  obtain ⟨r2, t, hs, hs2⟩ := stampedIn_run (E := E) (F := F) (by rw [hF]; simp) nm p { h with reads := h.reads + 1 }
  have er2 : r2 = h.reads + 2 := by
    have := congrArg Heap.reads hs2
    rw [hF] at this; exact this
  subst er2
  have R2 : Reach E { h with reads := h.reads + 2 } := by
    have := reach_readClock R1 F.clock
    rw [← hs2] at this; exact this
  have T2 := T.reads (r := h.reads + 2) (by omega)
  have hd := T.free X R.good.inv hl (by rw [hk]; simp) (Nat.le_refl _) (Factory.uid_local E hF nm h)
  generalize hpn : PName.tup (Str.join '/' [(h.get p).qualName, nm] ++ '.' :: decimal t) = pn at *
  obtain ⟨h1, e1, G, n1, l1⟩ := new_value (h := { h with reads := h.reads + 2 }) (F.uid E nm h) nm pn vs
  have R3 := reach_newValue R2 (F.uid E nm h) nm pn (some vs)
  have K1 := (frames_newValue E (L := True) trivial (F.uid E nm h) nm pn (some vs) { h with reads := h.reads + 2 }).keeps
  rw [e1] at R3 K1
  replace R3 : Reach E h1 := R3
  have kr1 : h.reads + 2 ≤ h1.reads := K1.reads
  obtain ⟨h2, ha2, G2⟩ := attach_new (E := E) R3.good.inv rfl G (c := p) hp (by
    show (h.get p).kind ≠ _
    rw [hk]; simp) hd (by rintro _ ⟨⟩)
  have K2 := (frames_addElement (L := False) E p h.size h1).keeps
  change addElement E p h.size h1 = _ at ha2
  rw [ha2] at K2
  have kr2 : h1.reads ≤ h2.reads := K2.reads
  refine ⟨h.size, h2, ?_, ?_⟩
  · unfold Factory.createValue
    rw [bind_ok hu]
    simp only
    rw [bind_ok hs, bind_ok e1]
    show (addElement E p h.size >>= _) h1 = _
    rw [bind_ok ha2]; rfl
  · refine T2.grown G2 R2.good.inv (by show h.reads + 2 ≤ _; omega) ⟨_, h.reads, by omega, Factory.uid_local E hF _ h⟩
      (by simp [valueObj]) (by simp [valueObj]) (by intro a; cases a) (by intro a; cases a) ?_
    rintro q ⟨⟩
    exact ⟨hp, by show (h.get p).kind ≠ _; rw [hk]; simp⟩

/-- `generate_semantic_element` in `p`. -/
theorem sem_fine (X : Ideal E) (R : Reach E h) (T : Timely E lo h) {F : Factory} (hF : F.clock = some .local)
    {raw : Str} (name : Str) {p : Ref} (hl : lo ≤ p) (hp : p < h.size)
    (hk : (h.get p).kind = .node ∨ ∃ sk, (h.get p).kind = .semantic sk) {attr : Dict Str AttrVal}
    (ha : attr ≠ []) (values : Option AttrVal) {k : SemKind} (hc : semanticClass (normaliseType raw) = some k) :
    Fine (Timely E lo) (F.generateSemantic E raw name p attr values) h := by
  have hu := generateUid_local (E := E) hF name h
  have hke : (h.get p).kind ≠ .edge := by rcases hk with hk | ⟨sk, hk⟩ <;> rw [hk] <;> simp
  have hkr : (h.get p).kind ≠ .relation := by rcases hk with hk | ⟨sk, hk⟩ <;> rw [hk] <;> simp
  have hd := T.free X R.good.inv hl hke (Nat.le_refl _) (Factory.uid_local E hF name h)
  obtain ⟨r, q, h1, R3, G, -, run⟩ := generateSemantic_start (p := p) (name := name) R (F := F) (by rw [hF]; simp) ha values hc
  have n2 : (h1.get h.size).parent = none := by have := congrArg Obj.parent G.new; exact this
  have n3 : (h1.get h.size).subs = [] := by have := congrArg Obj.subs G.new; exact this
  have G' := G.reads
  obtain ⟨h2, ha2, G2⟩ := attach_new (E := E) R3.good.inv rfl G' (c := p) hp hkr hd (by rintro _ ⟨⟩)
  have later : ∀ h', (∃ a, F.generateSemantic E raw name p attr values h = (.ok a, h')) → h.reads + 1 ≤ h'.reads := by
    rintro h' ⟨a, e⟩
    unfold Factory.generateSemantic at e
    rw [if_neg ha, bind_ok hu, hc] at e
    simp only at e
    obtain rfl := congrArg Prod.snd e
    refine (Steps.keeps (E := E) (L := True) (h := { h with reads := h.reads + 1 }) ?_).reads
    refine Frames.bind (frames_stampedIn E F name p) (fun q => .bind (frames_newSemantic E _ _ _ _ _) fun x =>
        .bind (frames_addElement E _ _) fun _ => ?_) _
    cases values with
    | none => exact .pure _
    | some v => exact .bind (.modify _ _ (by have : True := trivial; same_ident)) fun _ => .pure _
  cases values with
  | none =>
    have e : F.generateSemantic E raw name p attr none h = (.ok h.size, h2) := by
      rw [run, bind_ok ha2]; rfl
    have kr := later h2 ⟨_, e⟩
    refine ⟨_, _, e, T.grown G2 R.good.inv (by omega) ⟨_, h.reads, by omega, Factory.uid_local E hF _ h⟩
      (by simp [semObj]) (by simp [semObj]) (by intro a; cases a) (by intro a; cases a) ?_⟩
    rintro q ⟨⟩
    exact ⟨hp, hke⟩
  | some v =>
    have e : F.generateSemantic E raw name p attr (some v) h =
        (.ok h.size, h2.mod h.size fun o => { o with attrs := o.attrs.set valuesKey v }) := by
      rw [run, bind_ok ha2]; rfl
    have kr := later _ ⟨_, e⟩
    refine ⟨_, _, e, Timely.attr (T.grown G2 R.good.inv (by change h.reads + 1 ≤ h2.reads at kr; omega)
      ⟨_, h.reads, by change h.reads + 1 ≤ h2.reads at kr; omega, Factory.uid_local E hF _ h⟩
      (by simp [semObj]) (by simp [semObj]) (by intro a; cases a) (by intro a; cases a) ?_) _ _ _⟩
    rintro q ⟨⟩
    exact ⟨hp, hke⟩

theorem relName_stamp (ctx a b : Str) (t : Nat) :
    ctx ++ '/' :: relName a b t = (ctx ++ '/' :: (['r', 'e', 'l'] ++ a ++ '.' :: b)) ++ '.' :: decimal t := by
  unfold relName
  rw [Str.join_cons_cons, Str.join_cons_cons, Str.join_singleton]
  simp

/-- `unary_connect` of an edge with a node of a new name. -/
theorem connect_fine (X : Ideal E) (R : Reach E h) (T : Timely E lo h) {e n : Ref} (d : Dir) {sv w : Option Ref}
    (hle : lo ≤ e) (he : e < h.size) (hk : (h.get e).kind = .edge) (hln : lo ≤ n) (hn : n < h.size)
    (hkn : (h.get n).kind = .node)
    (hs : ∀ s, sv = some s → lo ≤ s ∧ s < h.size ∧ (∃ k, (h.get s).kind = .semantic k) ∧ ¬ Anc h s e ∧ Movable h s)
    (hnew : ∀ v ∈ h.parts e, ∀ t, (h.get v).endpoint = some t → (h.get t).idName ≠ (h.get n).idName)
    (hwl : ∀ v, w = some v → v < h.size := by rintro _ ⟨⟩) :
    Fine (Timely E lo) (unaryConnect E e n w d sv) h := by
  have G := R.good
  have I := G.inv
  have hne : e ≠ n := by rintro rfl; rw [hk] at hkn; cases hkn
  obtain ⟨h4, run, un, up, np, cx, kreads⟩ : ∃ h4, unaryConnect E e n w d sv h = (.ok h.size, h4) ∧
      (h4.get h.size).uuid = elementUid E (h.get e).idName (h.get n).idName ∧
      (h4.get (h.size + 1)).uuid =
        elementUid E (h.get n).idName (relName (h.get e).idName (h.get n).idName (E.time h.reads)) ∧
      '.' ∈ (h4.get (h.size + 1)).idName ∧
      (∀ y < h.size, (h4.get y).genCtx = (h.get y).genCtx) ∧ h.reads + 1 ≤ h4.reads := by
    unfold unaryConnect
    simp only [obj_bind_run, hk, if_true]
    have ht : readClock E (h.get e).clock h = (.ok (E.time h.reads), { h with reads := h.reads + 1 }) := by
      rw [T.clock e hle he (by rw [hk]; rfl)]; rfl
    obtain ⟨hc1, -, -⟩ := G.readClock E (h.get e).clock
    rw [ht] at hc1
    simp only at hc1
    rw [bind_ok ht, T.ctx e hle he (by rw [hk]; rfl)]
    simp only
    unfold newRelation
    simp only [alloc_bind_run]
    generalize hro : relationObj (elementUid E (h.get e).idName (h.get n).idName)
      (relName (h.get e).idName (h.get n).idName (E.time h.reads))
      (.str (Str.join '/' [(h.get e).idName, relName (h.get e).idName (h.get n).idName (E.time h.reads)])) (some n) w d sv = ro
    have F : Fresh ro := by rw [← hro]; exact ⟨rfl, rfl, rfl, rfl, rfl, fun h => by cases h⟩
    obtain ⟨hrd, ehrd⟩ : ∃ x : Heap, x = { h with reads := h.reads + 1 } := ⟨_, rfl⟩
    change ∃ h4, ((connect E n h.size) >>= fun _ => (do attachSem E h.size sv; addElement E e h.size; pure h.size))
      (allocH { h with reads := h.reads + 1 } ro) = _ ∧ _
    rw [← ehrd] at hc1 ⊢
    have hc2 : hrd.size = h.size := by rw [ehrd]
    have hc3 : ∀ y, hrd.get y = h.get y := fun y => by rw [ehrd]
    have rd0 : (allocH hrd ro).reads = h.reads + 1 := by rw [ehrd]; rfl
    have I0 : Inv (allocH hrd ro) := hc1.inv.allocH F
    have hget : ∀ y < h.size, (allocH hrd ro).get y = h.get y := by
      intro y hy; rw [allocH_get_lt (by omega), hc3]
    have hnew0 : (allocH hrd ro).get h.size = ro := by rw [← hc2]; simp [allocH]
    have hsz : (allocH hrd ro).size = h.size + 1 := by rw [← hc2]; rfl
    generalize allocH hrd ro = h0 at *
    have nro : (h0.get h.size).idName = relName (h.get e).idName (h.get n).idName (E.time h.reads) := by
      rw [hnew0, ← hro]; rfl
    have uro : (h0.get h.size).uuid = elementUid E (h.get e).idName (h.get n).idName := by
      rw [hnew0, ← hro]; rfl
    obtain ⟨f1, f5, f6⟩ : (h0.get h.size).kind = .relation ∧ (h0.get h.size).parent = none ∧
        (h0.get h.size).subs = [] := by
      rw [hnew0, ← hro]; exact ⟨rfl, rfl, rfl⟩
    have cn := T.ctx n hln hn (by rw [hkn]; rfl)
    rcases connect_cases I0 E (n := n) (el := h.size) (by omega) with
        ⟨hb, _⟩ | ⟨_, ctx', hctx', ⟨hb, _⟩ | ⟨_, h1, e1, C⟩⟩
    · exfalso
      rw [hget n hn, hkn, cn] at hb
      rcases hb with hb | hb
      · exact hb rfl
      · cases hb
    · exfalso
      rw [hget n hn] at hb hctx'
      rw [cn] at hctx'
      cases hctx'
      rw [nro] at hb
      refine T.free X I hln (by rw [hkn]; simp) (Nat.le_refl _) (s := ?_) ?_ hb
      rotate_left
      · unfold elementUid
        rw [relName_stamp]
    rw [bind_ok e1]
    obtain ⟨ctx'', hctx'', uport⟩ := C.ctx
    rw [hget n hn, cn] at hctx''
    cases hctx''
    rw [nro, hsz] at uport
    have s1 : h1.size = h.size + 2 := by rw [C.size, hsz]
    have hp1 : (h1.get h.size).parent = none := by rw [C.parent, if_neg (by omega), f5]
    have par1 : ∀ y < h.size, (h1.get y).parent = (h.get y).parent := by
      intro y hy; rw [C.parent, if_neg (by omega), hget y hy]
    have kd1 : ∀ y < h.size, (h1.get y).kind = (h.get y).kind := by
      intro y hy; rw [C.kind y (by omega), hget y hy]
    have cx1 : ∀ y < h.size, (h1.get y).genCtx = (h.get y).genCtx := by
      intro y hy; rw [C.genCtx y (by omega), hget y hy]
    have sube : (h1.get e).subs = (h.get e).subs := by
      rw [C.subs e (by omega), if_neg hne, hget e he]
    have subr : (h1.get h.size).subs = [] := by
      rw [C.subs h.size (by omega), if_neg (by omega), f6]
    have below1 : ∀ y, ¬ Anc h1 h.size y := by
      intro y
      apply Sample.not_anc_of_childless C.inv
      unfold Heap.subelements
      rw [subr]; rfl
    obtain ⟨h3, e3, I3, s3, kd3, uu3, nm3, cx3, par3, sub3, below3⟩ : ∃ h3,
        attachSem E h.size sv h1 = (.ok (), h3) ∧ Inv h3 ∧ h3.size = h1.size ∧
        (∀ y, (h3.get y).kind = (h1.get y).kind) ∧ (∀ y, (h3.get y).uuid = (h1.get y).uuid) ∧
        (∀ y, (h3.get y).idName = (h1.get y).idName) ∧
        (∀ y, (h3.get y).genCtx = (h1.get y).genCtx) ∧
        (h3.get h.size).parent = none ∧ (h3.get e).subs = (h1.get e).subs ∧ ¬ Anc h3 h.size e := by
      cases sv with
      | none => exact ⟨h1, rfl, C.inv, rfl, fun _ => rfl, fun _ => rfl, fun _ => rfl, fun _ => rfl, hp1, rfl, below1 e⟩
      | some s =>
        obtain ⟨hsl', hsl, ⟨k, hks⟩, hsa, hsf⟩ := hs s rfl
        have hks1 : (h1.get s).kind = .semantic k := by rw [kd1 s hsl, hks]
        have S : AddSafe h1 h.size s := by
          refine ⟨fun qq => ?_, fun p hp => ?_⟩
          · cases qq with
            | direct hq => rw [hp1] at hq; cases hq
            | up hq _ => rw [hp1] at hq; cases hq
          · rw [par1 s hsl] at hp
            rw [kd1 p (I.parent_lt hp)]
            exact hsf p hp
        obtain ⟨h2, h2r, sim, -, hq⟩ := C.inv.baseAdd E (c := h.size) (x := s) (by omega) (by omega) (by omega)
          (by rw [subr]; simp) S.1 S.2
        have ha : addElement E h.size s h1 = (.ok (), h2) := by
          rw [addElement_relation (by rw [C.kind _ (by omega), f1]), bind_ok h2r, obj_bind_run, if_neg]
          · rfl
          · rw [sim.kind, moveH_kind, hks1]; simp [Kind.isHElement]
        have Ig := C.inv.moveH (c := h.size) (x := s) (by omega) (by omega) (by omega) (by rw [subr]; simp) S.1
        have par : ∀ y, (h2.get y).parent = if y = s then some h.size else (h1.get y).parent := by
          intro y; rw [sim.parent, moveH_parent _ _ _ _ C.inv]
        refine ⟨h2, ha, sim.inv Ig, by rw [sim.size, moveH_size], fun y => by rw [sim.kind, moveH_kind],
          fun y => by rw [sim.uuid, moveH_uuid], fun y => by rw [sim.idName, moveH_idName], fun y => by rw [sim.genCtx, moveH_genCtx], ?_, ?_, ?_⟩
        · rw [par, if_neg (by omega), hp1]
        · have M : Moved h.size s h1 h2 := ⟨by omega, by rw [subr]; simp, sim, Ig, hq⟩
          rw [M.subs C.inv, if_neg (by omega), if_neg]
          rw [par1 s hsl]
          intro q
          have := hsf e q
          rw [hk] at this
          exact this.1 rfl
        · intro qq
          refine below1 e (anc_of_parent_same_except C.inv
            (fun y _ hys => by rw [par, if_neg hys]) (by omega) ?_ qq)
          rintro (q | q)
          · subst q; rw [hk] at hks; cases hks
          · exact hsa (anc_of_parent_same (h' := h1) I par1 he q)
    rw [bind_ok e3]
    have S : AddSafe h3 e h.size := ⟨below3, fun p hp => by rw [par3] at hp; cases hp⟩
    have hd : (h3.get h.size).uuid ∉ (h3.get e).subs.keys := by
      rw [uu3, C.uuid _ (by omega), uro, sub3, sube]
      intro hm
      obtain ⟨v, hv⟩ : ∃ v, (elementUid E (h.get e).idName (h.get n).idName, v) ∈ (h.get e).subs := by
        obtain ⟨⟨a, b⟩, hab, rfl⟩ := List.mem_map.1 hm
        exact ⟨b, hab⟩
      obtain ⟨hp, hvu⟩ := (I.mem e _ v).1 hv
      change (h.get v).parent = some e at hp
      change (h.get v).uuid = _ at hvu
      have hvl := I.lt_of_parent hp
      have hr := T.under v e hvl hp hle hk
      obtain ⟨e', t, a, b, c, d', f⟩ := T.rel v (T.fresh v e hvl hp hle) hvl hr
      rw [hp] at a; cases a
      rw [hvu] at f
      have f := X.sha _ _ f
      simp only [List.append_cancel_left_eq, List.cons.injEq, true_and] at f
      refine hnew v ?_ t c f.symm
      rw [mem_parts, hr]
      exact ⟨(I.mem_subelements e v).2 hp, by simp⟩
    obtain ⟨h4, ha⟩ := addElement_succeeds I3 E (c := e) (x := h.size) (by omega) (by omega) S (by omega)
      (by rw [kd3, kd1 e he, hk]; simp) hd (by
        intro _ _
        rw [cx3, cx1 e he, T.ctx e hle he (by rw [hk]; rfl)]; simp)
    rw [bind_ok ha]
    obtain ⟨h5, m, hh⟩ := addElement_ok I3 E (c := e) (x := h.size) (by omega) (by omega) S ha
    rcases hh with ⟨_, Q, hports, hgen, hend, hdir, hwt, _⟩ | ⟨hx, _⟩
    swap
    · rw [kd3, kd1 e he, hk] at hx; cases hx
    refine ⟨h4, rfl, ?_, ?_, ?_, ?_, ?_⟩
    · rw [Q.uuid, m.sim.uuid, moveH_uuid, uu3, C.uuid _ (by omega), uro]
    · rw [Q.uuid, m.sim.uuid, moveH_uuid, uu3, uport]
    · have np := C.nameP
      rw [hsz] at np
      rw [Q.idName, m.sim.idName, moveH_idName, nm3, np, Str.join_cons_cons]
      simp
    · intro y hy
      rw [hgen, m.sim.genCtx, moveH_genCtx, cx3, cx1 y hy]
    · have k1 := (frames_connect (L := False) E n h.size h0).keeps.reads
      rw [e1, rd0] at k1
      have k2 := (frames_attachSem (L := False) E h.size sv h1).keeps.reads
      rw [e3] at k2
      have k3 := (frames_addElement (L := False) E e h.size h3).keeps.reads
      rw [ha] at k3
      simp only at k1 k2 k3
      omega
  refine ⟨h.size, h4, run, ?_⟩
  have L := ((connect_does R d he hk hn (fun s e => (hs s e).2) hwl).2 _ _ run).2
  have K := (frames_unaryConnect (L := False) E e n w d sv h).keeps
  rw [run] at K
  have sz := L.size
  have le := T.le
  have cas : ∀ v, v < h4.size → v < h.size ∨ v = h.size ∨ v = h.size + 1 := fun v hv => by omega
  have par : ∀ v < h.size, (h4.get v).parent = (h.get v).parent ∨ sv = some v ∧ (h4.get v).parent = some h.size := by
    intro v hv
    by_cases hsv : sv = some v
    · exact .inr ⟨hsv, L.semPar v hsv⟩
    · exact .inl (L.parent v hv hsv)
  refine ⟨by omega, ?_, ?_, ?_, ?_, ?_, ?_, ?_⟩
  · intro v hl hv hkv
    rcases cas v hv with hv | rfl | rfl
    · rw [L.kind v hv] at hkv; rw [K.uuid v hv]; exact (T.stamp v hl hv hkv).mono K.reads
    · exact absurd L.relKind hkv
    · rw [up]
      unfold elementUid
      rw [relName_stamp]
      exact ⟨_, h.reads, by omega, rfl⟩
  · intro v hl hv hkv
    rcases cas v hv with hv | rfl | rfl
    · rw [L.kind v hv] at hkv
      obtain ⟨e', t, a, b, c', d', f⟩ := T.rel v hl hv hkv
      have he' : e' < h.size := I.parent_lt a
      refine ⟨e', t, ?_, by rw [L.kind e' he', b], by rw [L.endpoint v hv, c'], by omega,
        by rw [K.uuid v hv, L.idName e' he', L.idName t d', f]⟩
      rcases par v hv with q | ⟨q, -⟩
      · rw [q, a]
      · obtain ⟨-, -, ⟨k, q'⟩, -⟩ := hs v q
        rw [hkv] at q'; cases q'
    · exact ⟨e, n, L.relPar, by rw [L.kind e he, hk], L.relEnd, by omega, by rw [un, L.idName e he, L.idName n hn]⟩
    · rw [L.portKind] at hkv; cases hkv
  · intro v p hv hp hl
    rcases cas v hv with hv | rfl | rfl
    · rcases par v hv with q | ⟨q, -⟩
      · rw [q] at hp; exact T.fresh v p hv hp hl
      · exact (hs v q).1
    · exact le
    · omega
  · intro v p hv hp hl hkp
    rcases cas v hv with hv | rfl | rfl
    · rcases par v hv with q | ⟨q, q'⟩
      · rw [q] at hp; rw [L.kind v hv]; rw [L.kind p (I.parent_lt hp)] at hkp; exact T.under v p hv hp hl hkp
      · rw [q'] at hp; cases hp
        rw [L.relKind] at hkp; cases hkp
    · exact L.relKind
    · rw [L.portPar] at hp; cases hp
      rw [L.kind n hn, hkn] at hkp; cases hkp
  · intro v hl hv hkv
    rcases cas v hv with hv | rfl | rfl
    · rw [L.kind v hv] at hkv; rw [K.clock v hv]; exact T.clock v hl hv hkv
    · rw [L.relKind] at hkv; cases hkv
    · rw [L.portKind] at hkv; cases hkv
  · intro v hl hv hkv
    rcases cas v hv with hv | rfl | rfl
    · rw [L.kind v hv] at hkv; rw [cx v hv, L.idName v hv]; exact T.ctx v hl hv hkv
    · rw [L.relKind] at hkv; cases hkv
    · rw [L.portKind] at hkv; cases hkv
  · intro v hl hv hkv
    rcases cas v hv with hv | rfl | rfl
    · rw [L.kind v hv] at hkv; rw [L.idName v hv]; exact T.port v hl hv hkv
    · rw [L.relKind] at hkv; cases hkv
    · exact np

end

end Rei
