import Verif.Props.Encoding

/-!
# C62: decoding any message
-/
namespace Rei
open PyM

theorem new_conceptual_dup {E : Env} {h : Heap} (G : Good h) {k : Kind} (nm : Str) (u : Bytes) (pn : PName)
    (ck : Clock) {c : Ref} (hc : c < h.size) (hd : u ∈ (h.get c).subs.keys) :
    ∃ h1, newConceptual E k nm u pn (some ck) (some c) h = (.error .duplicateElement, h1) ∧
      h1.size = h.size + 1 ∧ h1.nlists = h.nlists ∧ h1.lists = h.lists ∧ ∀ y < h.size, h1.get y = h.get y := by
  obtain ⟨h1, G1, hsim, hrd, hqn, hrun⟩ := newConceptual_start (E := E) G k nm u pn ck (some c)
  have new := hsim.core h.size
  rw [allocH_get, if_pos rfl] at new
  have old : ∀ y < h.size, h1.get y = h.get y := by
    intro y hy
    rw [hsim.same y (by omega), allocH_get_lt hy]
  have nu : (h1.get h.size).uuid = u := congrArg Obj.uuid new
  refine ⟨h1, ?_, by rw [hsim.size]; rfl, by rw [hsim.nlists]; rfl, by rw [hsim.lists]; rfl, old⟩
  rw [hrun]
  simp only [adopt]
  rw [bind_err (addElement_refused E (by omega) (by rw [nu, old c hc]; exact hd))]

theorem addElement_self {E : Env} {h : Heap} {c : Ref} (hk : (h.get c).kind ≠ .relation) :
    ∃ e, addElement E c c h = (.error e, h) := by
  by_cases hk' : (h.get c).kind = .edge
  · exact ⟨_, by rw [addElement_edge hk', bind_err baseAdd_self]⟩
  · exact ⟨_, by rw [addElement_plain hk hk', baseAdd_self]⟩

/-- The state while any message is being decoded. -/
structure Decoding (E : Env) (b : Heap) (d : Dict Bytes Ref) (h : Heap) : Prop where
  reach : Reach E h
  size : b.size ≤ h.size
  old : ∀ y < b.size, h.get y = b.get y
  nlists : b.nlists ≤ h.nlists
  lists : ∀ l < b.nlists, h.lists l = b.lists l
  cache : ∀ u x, d.get? u = some x → b.size ≤ x ∧ x < h.size ∧ (h.get x).kind.isHElement = true ∧
    (h.get x).genCtx ≠ none

theorem Decoding.keeps {E : Env} {b h : Heap} {d : Dict Bytes Ref} (D : Decoding E b d h) : KeepsOld b h :=
  ⟨D.size, D.old, D.lists⟩

theorem Decoding.set {E : Env} {b h : Heap} {d : Dict Bytes Ref} (D : Decoding E b d h) {u : Bytes} {x : Ref}
    (hx : b.size ≤ x ∧ x < h.size ∧ (h.get x).kind.isHElement = true ∧ (h.get x).genCtx ≠ none) :
    Decoding E b (d.set u x) h := by
  refine ⟨D.reach, D.size, D.old, D.nlists, D.lists, ?_⟩
  intro v y hy
  rw [Dict.get?_set] at hy
  split at hy
  · cases hy; exact hx
  · exact D.cache v y hy

/-- Growing by one object, in a container created since `b`, keeps the invariant. -/
theorem Decoding.grow {E : Env} {b h h' : Heap} {d : Dict Bytes Ref} (D : Decoding E b d h) {c : Option Ref} {o : Obj}
    (g : Grown1 c o h h') (hc : ∀ q, c = some q → b.size ≤ q) (R : Reach E h') : Decoding E b d h' := by
  have keep : ∀ y < h.size, (h'.get y).kind = (h.get y).kind ∧ (h'.get y).genCtx = (h.get y).genCtx := by
    intro y hy
    by_cases e : c = some y
    · obtain ⟨_, _, _, _, e⟩ := g.cont y e
      rw [e]; exact ⟨rfl, rfl⟩
    · rw [g.others y hy e]; exact ⟨rfl, rfl⟩
  have hs := D.size
  refine ⟨R, by rw [g.size]; omega, ?_, Nat.le_trans D.nlists g.nlists, ?_, ?_⟩
  · intro y hy
    rw [g.others y (by omega) (fun e => by have := hc y e; omega), D.old y hy]
  · intro l hl
    rw [g.lists l (Nat.lt_of_lt_of_le hl D.nlists), D.lists l hl]
  · intro u x hx
    obtain ⟨a1, a2, a3, a4⟩ := D.cache u x hx
    obtain ⟨k1, k2⟩ := keep x a2
    exact ⟨a1, by rw [g.size]; omega, by rw [k1]; exact a3, by rw [k2]; exact a4⟩

/-- Attaching the newest object to a cached one: it works or nothing happens. -/
theorem Decoding.attach {E : Env} {b h h1 : Heap} {d d' : Dict Bytes Ref} (D : Decoding E b d h) {o : Obj}
    (g : Grown1 none o h h1) (hos : o.subs = []) (R1 : Reach E h1) (D1 : Decoding E b d' h1) {c : Ref}
    (hc : b.size ≤ c ∧ c < h1.size ∧ (h1.get c).kind.isHElement = true ∧ (h1.get c).genCtx ≠ none) :
    ∃ r h2, addElement E c h.size h1 = (r, h2) ∧ Decoding E b d' h2 := by
  have hk : (h1.get c).kind ≠ .relation := by
    intro e; rw [e] at hc; cases hc.2.2.1
  by_cases hcx : c = h.size
  · subst hcx
    obtain ⟨e, he⟩ := addElement_self (E := E) hk
    exact ⟨_, _, he, D1⟩
  · have hlt : c < h.size := by have := g.size; omega
    have e0 := g.others c hlt (by simp)
    by_cases hd : o.uuid ∈ (h.get c).subs.keys
    · refine ⟨_, _, addElement_refused E (Ne.symm hcx) ?_, D1⟩
      have : (h1.get h.size).uuid = o.uuid := by have := congrArg Obj.uuid g.new; exact this
      rw [this, e0]; exact hd
    · obtain ⟨h2, r2, g2⟩ := attach_new (E := E) R1.good.inv hos g hlt (by rw [← e0]; exact hk) hd
        (by rw [← e0]; intro _ _; exact hc.2.2.2)
      refine ⟨_, _, r2, ?_⟩
      have R2 := reach_add R1 (c := c) (x := h.size) hc.2.1 (by have := g.size; omega)
        (addSafe_leaf R1.good.inv (congrArg Obj.parent g.new) ((congrArg Obj.subs g.new).trans hos))
      rw [r2] at R2
      have hL := g2.size
      -- the cache of `d'` survives as well
      have keep : ∀ y < h1.size, (h2.get y).kind = (h1.get y).kind ∧ (h2.get y).genCtx = (h1.get y).genCtx := by
        intro y hy
        by_cases e : y = h.size
        · subst e
          have e1 := Obj.core_eq_iff.1 g.new
          have e2 := Obj.core_eq_iff.1 g2.new
          rw [e1, e2]; exact ⟨rfl, rfl⟩
        · have hy' : y < h.size := by have := g.size; omega
          rw [g.others y hy' (by simp)]
          by_cases e : c = y
          · subst e
            obtain ⟨_, _, _, _, e⟩ := g2.cont c rfl
            rw [e]; exact ⟨rfl, rfl⟩
          · rw [g2.others y hy' (by simpa using e)]; exact ⟨rfl, rfl⟩
      have D2 := D.grow g2 (by rintro q ⟨⟩; exact hc.1) R2
      refine ⟨R2, D2.size, D2.old, D2.nlists, D2.lists, ?_⟩
      intro u x hx
      obtain ⟨a1, a2, a3, a4⟩ := D1.cache u x hx
      obtain ⟨k1, k2⟩ := keep x a2
      exact ⟨a1, by have := g.size; omega, by rw [k1]; exact a3, by rw [k2]; exact a4⟩

theorem cached_cases (d : Dict Bytes Ref) (u : Bytes) (h : Heap) :
    cached d u h = (.error .keyError, h) ∨ ∃ x, d.get? u = some x ∧ cached d u h = (.ok x, h) := by
  cases hx : d.get? u with
  | none => left; unfold cached; rw [hx]; rfl
  | some x => exact .inr ⟨x, rfl, cached_run hx h⟩

theorem decodeNodes_safe {E : Env} {b : Heap} (ck : Clock) : ∀ (ns : List NodeMsg) (d : Dict Bytes Ref)
    (root : Option Ref) (h : Heap), Decoding E b d h → ∃ r h' , decodeNodes E (some ck) ns d root h = (r, h') ∧
      KeepsOld b h' ∧ Reach E h' ∧ ∀ s, r = .ok s → Decoding E b s.1 h' := by
  intro ns
  induction ns with
  | nil => intro d root h D; exact ⟨_, h, rfl, D.keeps, D.reach, by rintro s ⟨⟩; exact D⟩
  | cons n ns ih =>
    intro d root h D
    obtain ⟨h1, r1, g1⟩ := new_conceptual (E := E) D.reach.good .node n.name n.uuid (.str n.qual) ck
    have R1 := reach_newConceptual (k := .node) D.reach rfl n.name n.uuid (.str n.qual) (some ck) (p := none) (by simp [okRef])
    replace R1 : Reach E h1 := by rw [r1] at R1; exact R1
    have D1 : Decoding E b (d.set n.uuid h.size) h1 := (D.grow g1 (by rintro q ⟨⟩) R1).set
      ⟨D.size, by have := g1.size; omega, by
        rw [show (h1.get h.size).kind = .node from congrArg Obj.kind g1.new]; rfl, by
        rw [show (h1.get h.size).genCtx = some n.name from congrArg Obj.genCtx g1.new]; simp⟩
    unfold decodeNodes
    rw [bind_ok r1]
    cases hp : n.parent with
    | none => exact ih _ _ h1 D1
    | some p =>
      simp only
      rcases cached_cases (d.set n.uuid h.size) p h1 with e | ⟨c, hc, e⟩
      · rw [bind_err e]; exact ⟨_, _, rfl, D1.keeps, R1, by rintro s ⟨⟩⟩
      · rw [bind_ok e]
        obtain ⟨r, h2, r2, D2⟩ := D.attach g1 rfl R1 D1 (D1.cache _ _ hc)
        cases r with
        | error e => rw [bind_err r2]; exact ⟨_, _, rfl, D2.keeps, D2.reach, by rintro s ⟨⟩⟩
        | ok u => rw [bind_ok r2]; exact ih _ _ h2 D2

theorem decodeEdges_safe {E : Env} {b : Heap} (ck : Clock) : ∀ (es : List EdgeMsg) (d : Dict Bytes Ref)
    (h : Heap), Decoding E b d h → ∃ r h' , decodeEdges E (some ck) es d h = (r, h') ∧
      KeepsOld b h' ∧ Reach E h' ∧ ∀ s, r = .ok s → Decoding E b s h' := by
  intro es
  induction es with
  | nil => intro d h D; exact ⟨_, h, rfl, D.keeps, D.reach, by rintro s ⟨⟩; exact D⟩
  | cons n ns ih =>
    intro d h D
    unfold decodeEdges
    rcases cached_cases d n.parent h with e | ⟨c, hc, e⟩
    · rw [bind_err e]; exact ⟨_, _, rfl, D.keeps, D.reach, by rintro s ⟨⟩⟩
    · rw [bind_ok e]
      obtain ⟨a1, a2, a3, a4⟩ := D.cache _ _ hc
      have R1 := reach_newConceptual (k := .edge) D.reach rfl n.name n.uuid (.str n.qual) (some ck) (p := some c)
        (by rintro _ ⟨⟩; exact a2)
      by_cases hd : n.uuid ∈ (h.get c).subs.keys
      · obtain ⟨h1, r1, b1, b2, b3, b4⟩ := new_conceptual_dup (E := E) D.reach.good (k := .edge) n.name n.uuid
          (.str n.qual) ck a2 hd
        replace R1 : Reach E h1 := by rw [r1] at R1; exact R1
        rw [bind_err r1]
        refine ⟨_, _, rfl, ⟨by have := D.size; omega, ?_, ?_⟩, R1, by rintro s ⟨⟩⟩
        · intro y hy; rw [b4 y (by have := D.size; omega), D.old y hy]
        · intro l hl; rw [b3, D.lists l hl]
      · obtain ⟨h1, r1, g1⟩ := new_conceptual_in (E := E) D.reach.good (k := .edge) n.name n.uuid
          (.str n.qual) ck a2 (by intro e; rw [e] at a3; cases a3) hd (by decide)
        replace R1 : Reach E h1 := by rw [r1] at R1; exact R1
        rw [bind_ok r1]
        exact ih _ h1 ((D.grow g1 (by rintro q ⟨⟩; exact a1) R1).set
          ⟨D.size, by have := g1.size; omega, by
            rw [show (h1.get h.size).kind = .edge from congrArg Obj.kind g1.new]; rfl, by
            rw [show (h1.get h.size).genCtx = some n.name from congrArg Obj.genCtx g1.new]; simp⟩)

theorem decodeRels_safe {E : Env} {b : Heap} : ∀ (rs : List RelMsg) (d : Dict Bytes Ref)
    (h : Heap), Decoding E b d h → ∃ r h' , decodeRels E rs d h = (r, h') ∧ Decoding E b d h' := by
  intro rs
  induction rs with
  | nil => intro d h D; exact ⟨_, h, rfl, D⟩
  | cons n ns ih =>
    intro d h D
    unfold decodeRels
    rcases cached_cases d n.endpoint h with e | ⟨v, hv, e⟩
    · rw [bind_err e]; exact ⟨_, _, rfl, D⟩
    rw [bind_ok e]
    rcases cached_cases d n.edge h with e | ⟨c, hc, e⟩
    · rw [bind_err e]; exact ⟨_, _, rfl, D⟩
    rw [bind_ok e]
    obtain ⟨h1, r1, g1⟩ := new_plain (h := h)
      (o := relationObj n.uuid n.name (.str n.qual) (some v) none .bidirectional none) rfl rfl
    have r1' : newRelation n.uuid n.name (.str n.qual) (some v) none .bidirectional none h = (.ok h.size, h1) := r1
    have R1 := reach_newRelation D.reach n.uuid n.name (.str n.qual) (ep := some v)
      (by rintro _ ⟨⟩; exact (D.cache _ _ hv).2.1) .bidirectional
    replace R1 : Reach E h1 := by rw [r1'] at R1; exact R1
    rw [bind_ok r1']
    have D1 := D.grow g1 (by rintro q ⟨⟩) R1
    obtain ⟨r, h2, r2, D2⟩ := D.attach g1 rfl R1 D1 (D1.cache _ _ hc)
    cases r with
    | error e => rw [bind_err r2]; exact ⟨_, _, rfl, D2⟩
    | ok u => rw [bind_ok r2]; exact ih _ h2 D2

theorem decodeVals_safe {E : Env} {b : Heap} : ∀ (vs : List ValMsg) (d : Dict Bytes Ref)
    (h : Heap), Decoding E b d h → ∃ r h' , decodeVals E vs d h = (r, h') ∧ Decoding E b d h' := by
  intro vs
  induction vs with
  | nil => intro d h D; exact ⟨_, h, rfl, D⟩
  | cons n ns ih =>
    intro d h D
    unfold decodeVals
    obtain ⟨h1, r1, g1, _⟩ := new_value (h := h) n.uuid n.name (.bytes n.qual) n.values
    have R1 := reach_newValue D.reach n.uuid n.name (.bytes n.qual) (some n.values)
    replace R1 : Reach E h1 := by rw [r1] at R1; exact R1
    rw [bind_ok r1]
    have D1 := D.grow g1 (by rintro q ⟨⟩) R1
    rcases cached_cases d n.parent h1 with e | ⟨c, hc, e⟩
    · rw [bind_err e]; exact ⟨_, _, rfl, D1⟩
    rw [bind_ok e]
    obtain ⟨r, h2, r2, D2⟩ := D.attach g1 rfl R1 D1 (D1.cache _ _ hc)
    cases r with
    | error e => rw [bind_err r2]; exact ⟨_, _, rfl, D2⟩
    | ok u => rw [bind_ok r2]; exact ih _ h2 D2

/-- **C62.** Whatever message `create_graph` is given and whether it returns or raises: everything that existed
is unchanged, and the state is one that ordinary calls reach, so all properties of reachable states hold for
the new objects, too. -/
theorem C62_decoding_is_safe {E : Env} {h : Heap} (R : Reach E h) (J : Icon) {ck : Clock}
    (hck : J.clock = some ck) (msg : FullMsg) :
    ∃ r J' h', J.createGraph E msg h = (r, J', h') ∧ Reach E h' ∧ KeepsOld h h' ∧
      (∀ e, r = .error e → J' = J) := by
  have D0 : Decoding E h [] h := ⟨R, Nat.le_refl _, fun _ _ => rfl, Nat.le_refl _, fun _ _ => rfl,
    by intro u x hx; cases hx⟩
  have key : ∃ r h', createGraph E (some ck) msg h = (r, h') ∧ Reach E h' ∧ KeepsOld h h' := by
    unfold createGraph
    obtain ⟨r1, h1, e1, k1, q1, n1⟩ := decodeNodes_safe ck msg.nodes [] none h D0
    cases r1 with
    | error e => rw [bind_err e1]; exact ⟨_, _, rfl, q1, k1⟩
    | ok s =>
      rw [bind_ok e1]
      obtain ⟨r2, h2, e2, k2, q2, n2⟩ := decodeEdges_safe ck msg.edges s.1 h1 (n1 s rfl)
      cases r2 with
      | error e => rw [bind_err e2]; exact ⟨_, _, rfl, q2, k2⟩
      | ok d =>
        rw [bind_ok e2]
        obtain ⟨r3, h3, e3, n3⟩ := decodeRels_safe msg.rels d h2 (n2 d rfl)
        cases r3 with
        | error e => rw [bind_err e3]; exact ⟨_, _, rfl, n3.reach, n3.keeps⟩
        | ok _ =>
          rw [bind_ok e3]
          obtain ⟨r4, h4, e4, n4⟩ := decodeVals_safe msg.vals d h3 n3
          cases r4 with
          | error e => rw [bind_err e4]; exact ⟨_, _, rfl, n4.reach, n4.keeps⟩
          | ok _ => rw [bind_ok e4]; exact ⟨_, _, rfl, n4.reach, n4.keeps⟩
  obtain ⟨r, h', e, q, k⟩ := key
  unfold Icon.createGraph
  rw [hck, e]
  cases r with
  | error e => exact ⟨_, _, _, rfl, q, k, fun _ _ => rfl⟩
  | ok v => exact ⟨_, _, _, rfl, q, k, by rintro e ⟨⟩⟩

open Sample in
/-- A message whose second node is its own parent. -/
example := C62_decoding_is_safe reach_s12 { clock := some .dummy, context := 0 } rfl
  { nodes := [⟨[1], ['r'], 0, none, ['r']⟩, ⟨[2], ['x'], 1, some [2], ['x']⟩], edges := [], rels := [], vals := [],
    coo := [] }

end Rei
