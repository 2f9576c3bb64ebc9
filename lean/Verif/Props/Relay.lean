import Verif.Spec.Relay
import Verif.Props.EncodingTensor

/-!
# C121: decoded graphs can be sent on
-/
namespace Rei
open PyM

/-- Copies of copies are copies. -/
theorem Copy.trans {h h1 h2 b b2 : Heap} {c c1 c2 : Ref} {φ ψ : Ref → Ref} (C : Copy h c b h1 c1 φ)
    (D : Copy h1 c1 b2 h2 c2 ψ) : Copy h c b2 h2 c2 (ψ ∘ φ) := by
  have mem : ∀ x ∈ h.messageParts c, φ x ∈ h1.messageParts c1 := by
    intro x hx
    rw [mem_messageParts] at hx ⊢
    rcases hx with rfl | hx | hx | ⟨e, he, hx⟩ | hx
    · exact .inl C.top
    · exact .inr (.inl (by rw [C.nodes]; exact List.mem_map_of_mem hx))
    · exact .inr (.inr (.inl (by rw [C.edges]; exact List.mem_map_of_mem hx)))
    · exact .inr (.inr (.inr (.inl ⟨φ e, by rw [C.edges]; exact List.mem_map_of_mem he,
        by rw [C.relations e he]; exact List.mem_map_of_mem hx⟩)))
    · exact .inr (.inr (.inr (.inr (by rw [C.values]; exact List.mem_map_of_mem hx))))
  have back : ∀ y ∈ h1.messageParts c1, ∃ x ∈ h.messageParts c, φ x = y := by
    intro y hy
    rw [mem_messageParts] at hy
    rcases hy with rfl | hy | hy | ⟨e, he, hy⟩ | hy
    · exact ⟨c, mem_messageParts.2 (.inl rfl), C.top⟩
    · rw [C.nodes] at hy
      obtain ⟨x, hx, rfl⟩ := List.mem_map.1 hy
      exact ⟨x, mem_messageParts.2 (.inr (.inl hx)), rfl⟩
    · rw [C.edges] at hy
      obtain ⟨x, hx, rfl⟩ := List.mem_map.1 hy
      exact ⟨x, mem_messageParts.2 (.inr (.inr (.inl hx))), rfl⟩
    · rw [C.edges] at he
      obtain ⟨e', he', rfl⟩ := List.mem_map.1 he
      rw [C.relations e' he'] at hy
      obtain ⟨x, hx, rfl⟩ := List.mem_map.1 hy
      exact ⟨x, mem_messageParts.2 (.inr (.inr (.inr (.inl ⟨e', he', hx⟩)))), rfl⟩
    · rw [C.values] at hy
      obtain ⟨x, hx, rfl⟩ := List.mem_map.1 hy
      exact ⟨x, mem_messageParts.2 (.inr (.inr (.inr (.inr hx)))), rfl⟩
  have edge : ∀ e ∈ h.subEdges c, φ e ∈ h1.subEdges c1 := by
    intro e he
    rw [C.edges]
    exact List.mem_map_of_mem he
  have value : ∀ e ∈ h.subValues c, φ e ∈ h1.subValues c1 := by
    intro e he
    rw [C.values]
    exact List.mem_map_of_mem he
  refine ⟨?_, ?_, ?_, ?_, ?_, ?_, ?_, ?_, ?_, ?_, ?_, ?_, ?_, ?_⟩
  · simp only [Function.comp, C.top, D.top]
  · exact fun x hx => D.fresh _ (mem x hx)
  · exact fun x hx y hy e => C.inj x hx y hy (D.inj _ (mem x hx) _ (mem y hy) e)
  · intro y h1' h2'
    obtain ⟨z, hz, rfl⟩ := D.all y h1' h2'
    obtain ⟨x, hx, rfl⟩ := back z hz
    exact ⟨x, hx, rfl⟩
  · exact fun x hx => (D.kind _ (mem x hx)).trans (C.kind x hx)
  · exact fun x hx => (D.uuid _ (mem x hx)).trans (C.uuid x hx)
  · exact fun x hx => (D.name _ (mem x hx)).trans (C.name x hx)
  · intro x hx
    simp only [Function.comp]
    rw [D.parent _ (mem x hx), C.parent x hx, Option.map_map]
  · rw [D.nodes, C.nodes, List.map_map]
  · rw [D.edges, C.edges, List.map_map]
  · rw [D.values, C.values, List.map_map]
  · intro e he
    simp only [Function.comp]
    rw [D.relations _ (edge e he), C.relations e he, List.map_map]
  · intro e he r hr
    simp only [Function.comp]
    rw [D.endpoints _ (edge e he) (φ r) (by rw [C.relations e he]; exact List.mem_map_of_mem hr), C.endpoints e he r hr,
      Option.map_map]
  · intro v hv
    obtain ⟨a, b⟩ := D.content _ (value v hv)
    obtain ⟨a', b'⟩ := C.content v hv
    refine ⟨a.trans a', ?_⟩
    show (h2.get (ψ (φ v))).dim = _
    rw [b, a']

/-- What arrives in a process: a copy made of new objects, with plain relations and with paths as names. -/
structure Arrived (h : Heap) (c : Ref) (E' : Env) (b h' : Heap) (c' : Ref) (φ : Ref → Ref) : Prop where
  before : Reach E' b
  after : Reach E' h'
  keeps : KeepsOld b h'
  copy : Copy h c b h' c' φ
  made : ∀ r, b.size ≤ r → r < h'.size → (h'.get r).direction = .bidirectional ∧ (h'.get r).weight = none ∧
    NamedByPath h' r

section
variable {E E' : Env} {h b h' : Heap} {c c' : Ref} {φ : Ref → Ref}

/-- What a hop does. -/
theorem hop_arrived (R : Reach E h) (S : Sendable h c) {msg : FullMsg} (H : Hop h c msg E' h' c') :
    msg = encoded h (contextHom h c) c [] ∧ ∃ b φ, Arrived h c E' b h' c' φ := by
  obtain ⟨I, I1, I2, J, J', b, ck, N, rfl, hr, hco, Rb, hck, hu, hf, hj⟩ := H
  obtain ⟨M, hM⟩ : ∃ N, ∀ budget ≥ N, HomBudget h h.size false budget I.context :=
    ⟨max (breadthFirst h (isNode h) false I.context h.size).length (max (breadthFirst h (isEdge h) false I.context h.size).length
      (breadthFirst h (isValue h) false I.context h.size).length) + 1, fun b hb => ⟨by omega, by omega, by omega⟩⟩
  have u := hu (max N M) (Nat.le_max_left _ _)
  rw [updateContext_ok R I S.exists_ (hM _ (Nat.le_max_right _ _))] at u
  obtain rfl : { I with hom := some (contextHom h I.context) } = I1 := by
    have := congrArg (fun t => t.2.1) u
    exact this
  obtain ⟨h1, h2, h3⟩ := hom_has S
  rw [fullMsg_ok R S (I := { I with hom := some (contextHom h I.context) }) rfl rfl hr h1 h2 h3] at hf
  have em : encoded h (contextHom h I.context) I.context [] = msg := by
    have := congrArg Prod.fst hf
    rw [← hco]
    exact Except.ok.inj this
  obtain ⟨h'', r, R', K, C, D⟩ := encoded_createGraph R S (contextHom h I.context) [] Rb ck
  rw [em] at r
  obtain ⟨J'', this⟩ : ∃ J'', J.createGraph E' msg b = (.ok (some b.size), J'', h'') :=
    ⟨_, by unfold Icon.createGraph; rw [hck, r]⟩
  rw [this] at hj
  have e1 : b.size = c' := Option.some.inj (Except.ok.inj (congrArg Prod.fst hj))
  have e2 : h'' = h' := congrArg (fun t => t.2.2) hj
  subst e1 e2
  exact ⟨em.symm, b, _, Rb, R', K, C, D⟩

/-- A graph that can be sent can be sent to any process. -/
theorem hop_exists (R : Reach E h) (S : Sendable h c) {b : Heap} (Rb : Reach E' b) (J : Icon) (ck : Clock)
    (hJ : J.clock = some ck) : ∃ msg h', Hop h c msg E' h' b.size := by
  obtain ⟨M, hM⟩ : ∃ N, ∀ budget ≥ N, HomBudget h h.size false budget c :=
    ⟨max (breadthFirst h (isNode h) false c h.size).length (max (breadthFirst h (isEdge h) false c h.size).length
      (breadthFirst h (isValue h) false c h.size).length) + 1, fun b hb => ⟨by omega, by omega, by omega⟩⟩
  obtain ⟨h1, h2, h3⟩ := hom_has S
  obtain ⟨h'', r, -⟩ := encoded_createGraph R S (contextHom h c) [] Rb ck
  let I : Icon := { clock := none, context := c }
  obtain ⟨J'', this⟩ : ∃ J'', J.createGraph E' (encoded h (contextHom h c) c []) b = (.ok (some b.size), J'', h'') :=
    ⟨_, by unfold Icon.createGraph; rw [hJ, r]⟩
  exact ⟨_, h'', I, _, _, J, J'', b, ck, M, rfl, rfl, rfl, Rb, hJ, fun budget hb => updateContext_ok R I S.exists_ (hM _ hb),
    fullMsg_ok R S (I := { I with hom := some (contextHom h c) }) rfl rfl rfl h1 h2 h3, this⟩

theorem Arrived.onward (A : Arrived h c E' b h' c' φ) {E2 : Env} {b2 h2 : Heap} {c2 : Ref} {ψ : Ref → Ref}
    (B : Arrived h' c' E2 b2 h2 c2 ψ) : Arrived h c E2 b2 h2 c2 (ψ ∘ φ) :=
  ⟨B.before, B.after, B.keeps, A.copy.trans B.copy, B.made⟩

/-- A decoded graph can be sent. -/
theorem Arrived.sendable (R : Reach E h) (S : Sendable h c) (A : Arrived h c E' b h' c' φ) : Sendable h' c' := by
  have C := A.copy
  have pc : c ∈ h.messageParts c := mem_messageParts.2 (.inl rfl)
  refine ⟨?_, ?_, ?_, ?_, ?_⟩
  · have := (C.fresh c pc).2
    rwa [C.top] at this
  · have := C.kind c pc
    rw [C.top] at this
    exact this.trans S.node
  · have := C.parent c pc
    rw [C.top, S.root] at this
    exact this
  · intro x hx
    have tc := C.uuid c pc
    rw [C.top] at tc
    rw [C.nodes, C.edges, ← List.map_append] at hx
    obtain ⟨y, hy, rfl⟩ := List.mem_map.1 hx
    have py : y ∈ h.messageParts c := by
      rw [mem_messageParts]
      rcases List.mem_append.1 hy with hy | hy
      · exact .inr (.inl hy)
      · exact .inr (.inr (.inl hy))
    rw [C.uuid y py, tc]
    exact S.distinct y hy
  · intro e he r hr
    rw [C.edges] at he
    obtain ⟨e', he', rfl⟩ := List.mem_map.1 he
    rw [C.relations e' he'] at hr
    obtain ⟨r', hr', rfl⟩ := List.mem_map.1 hr
    obtain ⟨v, ev, hv⟩ := S.closed e' he' r' hr'
    refine ⟨φ v, by rw [C.endpoints e' he' r' hr', ev]; rfl, ?_⟩
    rcases hv with rfl | hv | hv
    · exact .inl C.top
    · exact .inr (.inl (by rw [C.nodes]; exact List.mem_map_of_mem hv))
    · exact .inr (.inr (by rw [C.edges]; exact List.mem_map_of_mem hv))

/-- The elements below a copy are copies. -/
theorem Arrived.below (R : Reach E h) (S : Sendable h c) (A : Arrived h c E' b h' c' φ) {x y : Ref}
    (hx : x ∈ h.messageParts c) (hy : y ∈ h'.subelements (φ x)) :
    ∃ z ∈ h.messageParts c, φ z = y ∧ (h.get z).parent = some x := by
  have C := A.copy
  have hp : (h'.get y).parent = some (φ x) := ((C01_containment_agrees A.after (φ x)).1 y).1 hy
  have ly : y < h'.size := A.after.good.inv.lt_of_parent hp
  have gy : b.size ≤ y := by
    by_contra q
    have q : y < b.size := Nat.lt_of_not_le q
    rw [A.keeps.2.1 y q] at hp
    have := A.before.good.inv.parent_lt hp
    have := (C.fresh x hx).1
    omega
  obtain ⟨z, hz, rfl⟩ := C.all y gy ly
  refine ⟨z, hz, rfl, ?_⟩
  rw [C.parent z hz] at hp
  obtain ⟨p, ep, e⟩ := Option.map_eq_some_iff.1 hp
  rw [ep]
  have pp : p ∈ h.messageParts c := by
    rw [mem_messageParts] at hz ⊢
    rcases hz with rfl | hz | hz | ⟨e, he, hz⟩ | hz
    · rw [S.root] at ep; cases ep
    · rw [sub_parent R hz] at ep; cases ep; exact .inl rfl
    · rw [sub_parent R hz] at ep; cases ep; exact .inl rfl
    · rw [sub_parent R hz] at ep; cases ep; exact .inr (.inr (.inl he))
    · rw [sub_parent R hz] at ep; cases ep; exact .inl rfl
  rw [C.inj p pp x hx e]

theorem level_flat (f : Ref → Bool) (hf : ∀ x ∈ (h'.subelements c').filter f, (h'.subelements x).filter f = []) :
    ∀ k, level h' f c' (k + 2) = [] := by
  intro k
  induction k with
  | zero =>
    show (level h' f c' 1).flatMap _ = []
    have : level h' f c' 1 = (h'.subelements c').filter f := by simp [level]
    rw [this, List.flatMap_eq_nil_iff]
    exact hf
  | succ k ih =>
    show (level h' f c' (k + 2)).flatMap _ = []
    rw [ih]; rfl

theorem breadthFirst_flat (f : Ref → Bool) (hf : ∀ x ∈ (h'.subelements c').filter f, (h'.subelements x).filter f = [])
    {n : Nat} (hn : 0 < n) :
    breadthFirst h' f false c' n = (if f c' = true then [c'] else []) ++ (h'.subelements c').filter f := by
  obtain ⟨m, rfl⟩ : ∃ m, n = m + 1 := ⟨n - 1, by omega⟩
  unfold breadthFirst rootVisit
  rw [List.range_succ_eq_map, List.flatMap_cons, List.flatMap_map]
  have : ((List.range m).flatMap fun a => level h' f c' (Nat.succ a + 1)) = [] := by
    rw [List.flatMap_eq_nil_iff]
    intro k _
    exact level_flat f hf k
  rw [this]
  simp [level]

theorem numbering_pos {us : List Bytes} (nd : us.Nodup) {i : Nat} {u : Bytes} (hi : us[i]? = some u) :
    (us.foldl IndexMap.add {}).at u = i := by
  have N := numbers_foldl (us := []) (vs := us) Numbers.empty (by simpa using nd)
  have h1 := N.index u
  rw [List.nil_append] at h1
  have : us.idxOf? u = some i := by
    obtain ⟨hlt, e⟩ := List.getElem?_eq_some_iff.1 hi
    rw [List.idxOf?_eq_some_iff]
    refine ⟨hlt, by rw [e], ?_⟩
    intro j hj e'
    have hjl : j < us.length := by omega
    have e2 : us[j] = us[i] := by rw [e]; simpa using e'
    have := (List.Nodup.getElem_inj_iff nd (hi := hjl) (hj := hlt)).1 e2
    omega
  rw [this] at h1
  unfold IndexMap.index at h1
  unfold IndexMap.at
  cases hx : (us.foldl IndexMap.add {}).idx.get? u with
  | none => rw [hx] at h1; cases h1
  | some j => rw [hx] at h1; cases h1; rfl

theorem pathTo_root {x : Ref} {l : List Str} (hp : (h.get x).parent = none) (P : PathTo h x l) : l = [(h.get x).idName] := by
  cases P with
  | root _ => rfl
  | child e _ => rw [hp] at e; cases e

theorem pathTo_child {x p : Ref} {l : List Str} (hp : (h.get x).parent = some p) (P : PathTo h x l) :
    ∃ l', PathTo h p l' ∧ l = l' ++ [(h.get x).idName] := by
  cases P with
  | root e => rw [hp] at e; cases e
  | child e q => rw [hp] at e; cases e; exact ⟨_, q, rfl⟩

/-- A decoded graph is sent as the plain message of the graph it is a copy of. -/
theorem Arrived.message (R : Reach E h) (S : Sendable h c) (A : Arrived h c E' b h' c' φ) :
    encoded h' (contextHom h' c') c' [] = plainMsg h c := by
  have C := A.copy
  have pc : c ∈ h.messageParts c := mem_messageParts.2 (.inl rfl)
  have pn : ∀ {v}, v ∈ h.subNodes c → v ∈ h.messageParts c := fun hv => mem_messageParts.2 (.inr (.inl hv))
  have pe : ∀ {v}, v ∈ h.subEdges c → v ∈ h.messageParts c := fun hv => mem_messageParts.2 (.inr (.inr (.inl hv)))
  have pr : ∀ {e v}, e ∈ h.subEdges c → v ∈ h.subRelations e → v ∈ h.messageParts c := fun he hv =>
    mem_messageParts.2 (.inr (.inr (.inr (.inl ⟨_, he, hv⟩))))
  have pv : ∀ {v}, v ∈ h.subValues c → v ∈ h.messageParts c := fun hv =>
    mem_messageParts.2 (.inr (.inr (.inr (.inr hv))))
  have S' := A.sendable R S
  have hs : 0 < h'.size := Nat.lt_of_le_of_lt (Nat.zero_le _) S'.exists_
  have uc : (h'.get c').uuid = (h.get c).uuid := by have := C.uuid c pc; rwa [C.top] at this
  have nc : (h'.get c').idName = (h.get c).idName := by have := C.name c pc; rwa [C.top] at this
  -- the copies have no further nodes, edges or values below them
  have none_below : ∀ (k : Kind), (k = .node ∨ k = .edge ∨ k = .value) →
      ∀ x, x ∈ h.messageParts c → x ≠ c → (h'.subelements (φ x)).filter (fun y => decide ((h'.get y).kind = k)) = [] := by
    intro k hk x hx hxc
    rw [List.filter_eq_nil_iff]
    intro y hy
    obtain ⟨z, hz, rfl, hp⟩ := A.below R S hx hy
    have kz := C.kind z hz
    have top : ∀ {p : Ref → Bool}, z ∈ h.getSubelements p c → False := fun q => by
      rw [sub_parent R q] at hp
      exact hxc (Option.some.inj hp).symm
    rw [mem_messageParts] at hz
    rcases hz with rfl | hz | hz | ⟨e, he, hz⟩ | hz
    · rw [S.root] at hp; cases hp
    · exact (top hz).elim
    · exact (top hz).elim
    · rw [kz, kind_subRelations hz]
      rcases hk with rfl | rfl | rfl <;> simp
    · exact (top hz).elim
  have hx0 : ∀ {l l' : List Ref} {x : Ref}, l' = l.map φ → (∀ x ∈ l, x ∈ h.messageParts c) → (l.map fun x => (h.get x).uuid) =
      l'.map fun x => (h'.get x).uuid := by
    intro l l' x e hl
    rw [e, List.map_map]
    exact List.map_congr_left fun x hx => (C.uuid x (hl x hx)).symm
  have idx : ∀ {l l' : List Ref}, l' = l.map φ → (∀ x ∈ l, x ∈ h.messageParts c) → DistinctUuids h l →
      ∀ x ∈ l, (numbering h' l').at (h'.get (φ x)).uuid = l.idxOf x := by
    intro l l' e hl hd x hx
    unfold numbering
    rw [← hx0 (x := x) e hl, C.uuid x (hl x hx)]
    refine numbering_pos hd ?_
    rw [List.getElem?_map]
    have := List.idxOf_lt_length_of_mem hx
    rw [List.getElem?_eq_getElem this, List.getElem_idxOf]
    rfl
  have kc : (h'.get c').kind = .node := S'.node
  have flatN : ∀ x ∈ (h'.subelements c').filter (isNode h'), (h'.subelements x).filter (isNode h') = [] := by
    intro x hx
    have : x ∈ h'.subNodes c' := hx
    rw [C.nodes] at this
    obtain ⟨y, hy, rfl⟩ := List.mem_map.1 this
    exact none_below .node (.inl rfl) y (pn hy) (fun e => by have := sub_parent R hy; rw [e, S.root] at this; cases this)
  have flatE : ∀ x ∈ (h'.subelements c').filter (isEdge h'), (h'.subelements x).filter (isEdge h') = [] := by
    intro x hx
    have : x ∈ h'.subEdges c' := hx
    rw [C.edges] at this
    obtain ⟨y, hy, rfl⟩ := List.mem_map.1 this
    exact none_below .edge (.inr (.inl rfl)) y (pe hy) (fun e => by have := sub_parent R hy; rw [e, S.root] at this; cases this)
  have flatV : ∀ x ∈ (h'.subelements c').filter (isValue h'), (h'.subelements x).filter (isValue h') = [] := by
    intro x hx
    have : x ∈ h'.subValues c' := hx
    rw [C.values] at this
    obtain ⟨y, hy, rfl⟩ := List.mem_map.1 this
    exact none_below .value (.inr (.inr rfl)) y (pv hy) (fun e => by have := sub_parent R hy; rw [e, S.root] at this; cases this)
  have bN : breadthFirst h' (isNode h') false c' h'.size = c' :: h'.subNodes c' := by
    rw [breadthFirst_flat _ flatN hs, if_pos (by simp [isNode, kc])]
    rfl
  have bE : breadthFirst h' (isEdge h') false c' h'.size = h'.subEdges c' := by
    rw [breadthFirst_flat _ flatE hs, if_neg (by simp [isEdge, kc])]
    rfl
  have bV : breadthFirst h' (isValue h') false c' h'.size = h'.subValues c' := by
    rw [breadthFirst_flat _ flatV hs, if_neg (by simp [isValue, kc])]
    rfl
  have made : ∀ {x}, x ∈ h.messageParts c → (h'.get (φ x)).direction = .bidirectional ∧ NamedByPath h' (φ x) := fun {x} hx =>
    let ⟨a, b⟩ := C.fresh x hx
    ⟨(A.made _ a b).1, (A.made _ a b).2.2⟩
  have rootPath : ∀ {l}, PathTo h' c' l → l = [(h.get c).idName] := by
    intro l P
    rw [pathTo_root S'.root P, nc]
  have childPath : ∀ {p : Ref → Bool} {x}, x ∈ h.getSubelements p c → x ∈ h.messageParts c → ∀ {l}, PathTo h' (φ x) l →
      l = [(h.get c).idName, (h.get x).idName] := by
    intro p x hx px l P
    have hp : (h'.get (φ x)).parent = some c' := by
      rw [C.parent x px, sub_parent R hx, Option.map_some, C.top]
    obtain ⟨l', P', e⟩ := pathTo_child hp P
    rw [e, rootPath P', C.name x px]
    rfl
  have qual : ∀ {p : Ref → Bool} {x}, x ∈ h.getSubelements p c → x ∈ h.messageParts c →
      (h'.get (φ x)).qualName = Str.join '/' [(h.get c).idName, (h.get x).idName] := by
    intro p x hx px
    obtain ⟨l, P, e⟩ := (made px).2
    rw [e, childPath hx px P]
  have ne_top : ∀ {p : Ref → Bool} {x}, x ∈ h.getSubelements p c → x ≠ c := by
    intro p x hx e
    have := sub_parent R hx
    rw [e, S.root] at this; cases this
  have nodes : (c' :: h'.subNodes c') = (c :: h.subNodes c).map φ := by
    rw [List.map_cons, C.top, C.nodes]
  have pnc : ∀ x ∈ c :: h.subNodes c, x ∈ h.messageParts c := by
    intro x hx
    rcases List.mem_cons.1 hx with rfl | hx
    · exact pc
    · exact pn hx
  unfold encoded plainMsg
  simp only [contextHom, bN, bE, bV]
  refine FullMsg.mk.injEq .. |>.mpr ⟨?_, ?_, ?_, ?_, rfl⟩
  · rw [nodes, List.map_map]
    refine List.map_congr_left fun x hx => ?_
    have px := pnc x hx
    simp only [Function.comp]
    rw [← nodes, idx nodes pnc (top_distinct R S) x hx, C.uuid x px, C.name x px, C.parent x px]
    rcases List.mem_cons.1 hx with rfl | hx
    · obtain ⟨l, P, e⟩ := (made px).2
      rw [C.top] at P
      rw [S.root, e, rootPath P, if_pos rfl, if_pos rfl]
      rfl
    · rw [sub_parent R hx, qual hx px, if_neg (ne_top hx), if_neg (ne_top hx), Option.map_some, Option.map_some, C.top, uc]
  · rw [C.edges, List.map_map]
    refine List.map_congr_left fun x hx => ?_
    have px := pe hx
    simp only [Function.comp]
    rw [← C.edges, idx C.edges (fun _ => pe) (sub_distinct R _) x hx, C.uuid x px, C.name x px, uc, qual hx px]
  · unfold Heap.contextRelations
    rw [C.edges, List.flatMap_map, List.map_flatMap]
    refine List.flatMap_congr fun e he => ?_
    rw [C.relations e he, List.map_map]
    refine List.map_congr_left fun r hr => ?_
    have px := pr he hr
    have hp : (h'.get (φ r)).parent = some (φ e) := by
      rw [C.parent r px, sub_parent R hr, Option.map_some]
    obtain ⟨v, ev, hv⟩ := S.closed e he r hr
    have pvv : v ∈ h.messageParts c := by
      rcases hv with rfl | hv | hv
      · exact pc
      · exact pn hv
      · exact pe hv
    obtain ⟨l, P, el⟩ := (made px).2
    obtain ⟨l', P', e'⟩ := pathTo_child hp P
    simp only [Function.comp]
    rw [el, e', childPath he (pe he) P', C.uuid r px, C.name r px, (made px).1, C.endpoints e he r hr, ev, hp]
    simp only [Option.map_some, Option.getD_some]
    rw [C.uuid v pvv, C.uuid e (pe he)]
    rfl
  · rw [C.values, List.map_map]
    refine List.map_congr_left fun x hx => ?_
    have px := pv hx
    simp only [Function.comp]
    rw [← C.values, idx C.values (fun _ => pv) (sub_distinct R _) x hx, C.uuid x px, C.name x px, uc, qual hx px,
      (C.content x hx).1]

/-- The tensors of a copy. -/
theorem Arrived.tensors (A : Arrived h c E' b h' c' φ) (K : Context h c) :
    Context h' c' ∧ Unweighted h' c' ∧ Undirected h' c' ∧ ∃ T', TensorOf h' c' T' ∧
      T'.ne = (h.subEdges c).length ∧ T'.nn = (h.subNodes c).length ∧
      ∀ e i j x v u, (h.subEdges c)[e]? = some x → (h.subNodes c)[i]? = some v → (h.subNodes c)[j]? = some u →
        T'.W e i j = if v ≠ u ∧ Endpoint h x v ∧ Endpoint h x u then 1 else 0 := by
  have C := A.copy
  have part : ∀ {e q}, e ∈ h.subEdges c → q ∈ h.subRelations e → q ∈ h.messageParts c := fun he hq =>
    mem_messageParts.2 (.inr (.inr (.inr (.inl ⟨_, he, hq⟩))))
  have pn : ∀ {v}, v ∈ h.subNodes c → v ∈ h.messageParts c := fun hv =>
    mem_messageParts.2 (.inr (.inl hv))
  have back : ∀ q, RelationIn h' c' q → ∃ e ∈ h.subEdges c, ∃ p ∈ h.subRelations e, q = φ p := by
    rintro q ⟨x, hx, hq⟩
    rw [C.edges] at hx
    obtain ⟨e, he, rfl⟩ := List.mem_map.1 hx
    rw [C.relations e he] at hq
    obtain ⟨p, hp, rfl⟩ := List.mem_map.1 hq
    exact ⟨e, he, p, hp, rfl⟩
  have flat : ∀ q, RelationIn h' c' q → (h'.get q).direction = .bidirectional ∧ (h'.get q).weight = none := by
    intro q hq
    obtain ⟨e, he, p, hp, rfl⟩ := back q hq
    obtain ⟨a1, a2⟩ := C.fresh p (part he hp)
    exact ⟨(A.made _ a1 a2).1, (A.made _ a1 a2).2.1⟩
  have hw : Unweighted h' c' := fun q hq => (flat q hq).2
  have hd : Undirected h' c' := fun q hq => (flat q hq).1
  have K' : Context h' c' := by
    refine ⟨?_, ?_, hw.valueWeights⟩
    · have := C.kind c (mem_messageParts.2 (.inl rfl))
      rw [C.top] at this
      rw [this, K.node]
    · intro q hq
      obtain ⟨e, he, p, hp, rfl⟩ := back q hq
      obtain ⟨v, hv, ev⟩ := K.closed p ⟨e, he, hp⟩
      refine ⟨φ v, ?_, ?_⟩
      · rw [C.nodes]; exact List.mem_map_of_mem hv
      · rw [C.endpoints e he p hp, ev]; rfl
  obtain ⟨T', hT'⟩ := C34_converts A.after K'
  have En := hT'.entries A.after K'
  have ends : ∀ {x v}, x ∈ h.subEdges c → v ∈ h.subNodes c →
      (Endpoint h' (φ x) (φ v) ↔ Endpoint h x v) := by
    intro x v hx hv
    constructor
    · rintro ⟨q, hq, eq⟩
      rw [C.relations x hx] at hq
      obtain ⟨p, hp, rfl⟩ := List.mem_map.1 hq
      obtain ⟨u, hu, eu⟩ := K.closed p ⟨x, hx, hp⟩
      rw [C.endpoints x hx p hp, eu] at eq
      have := C.inj u (pn hu) v (pn hv) (Option.some.inj eq)
      subst this
      exact ⟨p, hp, eu⟩
    · rintro ⟨p, hp, ep⟩
      refine ⟨φ p, ?_, ?_⟩
      · rw [C.relations x hx]; exact List.mem_map_of_mem hp
      · rw [C.endpoints x hx p hp, ep]; rfl
  refine ⟨K', hw, hd, T', hT', ?_, ?_, ?_⟩
  · rw [En.ne, C.edges, List.length_map]
  · rw [En.nn, C.nodes, List.length_map]
  · intro e i j x v u hx hv hu
    have mx := List.mem_of_getElem? hx
    have mv := List.mem_of_getElem? hv
    have mu := List.mem_of_getElem? hu
    obtain ⟨a, b', -⟩ := C34_undirected A.after K' hw hd hT' (e := e) (i := i) (j := j) (x := φ x)
      (v := φ v) (u := φ u)
      (by rw [C.edges, List.getElem?_map, hx]; rfl) (by rw [C.nodes, List.getElem?_map, hv]; rfl)
      (by rw [C.nodes, List.getElem?_map, hu]; rfl)
    rw [ends mx mv, ends mx mu] at a b'
    have ne : φ v ≠ φ u ↔ v ≠ u :=
      not_congr ⟨fun q => C.inj v (pn mv) u (pn mu) q, fun q => by rw [q]⟩
    rw [ne] at a b'
    split
    · exact a ‹_›
    · exact b' ‹_›

theorem relay_arrived (R : Reach E h) (S : Sendable h c) {ms : List FullMsg} (H : Relay h c ms E' h' c') :
    (∃ b φ, Arrived h c E' b h' c' φ) ∧ ms ≠ [] ∧ ∀ m ∈ ms.tail, m = plainMsg h c := by
  induction H with
  | one H => exact ⟨(hop_arrived R S H).2, by simp, by simp⟩
  | @more ms msg E1 h1 c1 E' h' c' _ H ih =>
    obtain ⟨⟨b, φ, A⟩, ne, q⟩ := ih
    obtain ⟨em, b2, ψ, B⟩ := hop_arrived A.after (A.sendable R S) H
    refine ⟨⟨b2, _, A.onward B⟩, by simp, ?_⟩
    intro m hm
    rw [List.tail_append_of_ne_nil ne, List.mem_append] at hm
    rcases hm with hm | hm
    · exact q m hm
    · rw [List.mem_singleton.1 hm, em]
      exact A.message R S

/-- **C121.** A graph that was sent through any number of processes has arrived as a copy of the original, with all
relations bidirectional and without weights, and every message but the first is the plain message of the original. -/
theorem C121_relay (R : Reach E h) (S : Sendable h c) {ms : List FullMsg} (H : Relay h c ms E' h' c') :
    Reach E' h' ∧ Sendable h' c' ∧ (∃ b φ, Reach E' b ∧ KeepsOld b h' ∧ Copy h c b h' c' φ) ∧
    (∀ e ∈ h'.subEdges c', ∀ r ∈ h'.subRelations e, (h'.get r).direction = .bidirectional ∧ (h'.get r).weight = none) ∧
    ∀ m ∈ ms.tail, m = plainMsg h c := by
  obtain ⟨⟨b, φ, A⟩, -, q⟩ := relay_arrived R S H
  refine ⟨A.after, A.sendable R S, ⟨b, φ, A.before, A.keeps, A.copy⟩, ?_, q⟩
  intro e he r hr
  rw [A.copy.edges] at he
  obtain ⟨e', he', rfl⟩ := List.mem_map.1 he
  rw [A.copy.relations e' he'] at hr
  obtain ⟨r', hr', rfl⟩ := List.mem_map.1 hr
  obtain ⟨a1, a2⟩ := A.copy.fresh r' (mem_messageParts.2 (.inr (.inr (.inr (.inl ⟨_, he', hr'⟩)))))
  exact ⟨(A.made _ a1 a2).1, (A.made _ a1 a2).2.1⟩

/-- **C121, it can be sent on.** From wherever it has arrived the graph can be sent to any further process. -/
theorem C121_onward (R : Reach E h) (S : Sendable h c) {E2 : Env} {b2 : Heap} (Rb : Reach E2 b2) (J : Icon) {ck : Clock}
    (hJ : J.clock = some ck) :
    (∃ msg h2, Relay h c [msg] E2 h2 b2.size) ∧
    ∀ ms E' h' c', Relay h c ms E' h' c' → ∃ msg h2, Relay h c (ms ++ [msg]) E2 h2 b2.size := by
  constructor
  · obtain ⟨msg, h2, H⟩ := hop_exists R S Rb J ck hJ
    exact ⟨msg, h2, .one H⟩
  · intro ms E' h' c' H
    obtain ⟨⟨b, φ, A⟩, -, -⟩ := relay_arrived R S H
    obtain ⟨msg, h2, H2⟩ := hop_exists A.after (A.sendable R S) Rb J ck hJ
    exact ⟨msg, h2, .more H H2⟩

/-- **C121, tensors.** If the original can be converted, so can the graph wherever it arrives, and the arrays are the same
everywhere: 1 for two different nodes on one edge, in the order of the original, else 0. -/
theorem C121_tensors (R : Reach E h) (S : Sendable h c) (K : Context h c) {ms : List FullMsg} (H : Relay h c ms E' h' c') :
    Context h' c' ∧ Unweighted h' c' ∧ Undirected h' c' ∧ ∃ T', TensorOf h' c' T' ∧
      T'.ne = (h.subEdges c).length ∧ T'.nn = (h.subNodes c).length ∧
      ∀ e i j x v u, (h.subEdges c)[e]? = some x → (h.subNodes c)[i]? = some v → (h.subNodes c)[j]? = some u →
        T'.W e i j = if v ≠ u ∧ Endpoint h x v ∧ Endpoint h x u then 1 else 0 := by
  obtain ⟨⟨b, φ, A⟩, -, -⟩ := relay_arrived R S H
  exact A.tensors K

end

open Sample in
/-- The graph of `s12` through three processes. -/
example : ∃ m1 h3 c3, Relay s12 0 [m1, plainMsg s12 0, plainMsg s12 0] E0 h3 c3 := by
  obtain ⟨⟨m1, h1, H1⟩, q⟩ := C121_onward (E := E0) (E2 := E0) reach_s12 send_s12 reach10 { clock := some .dummy, context := 0 } rfl
  obtain ⟨m2, h2, H2⟩ := q _ _ _ _ H1
  obtain ⟨m3, h3, H3⟩ := q _ _ _ _ H2
  have t := (C121_relay reach_s12 send_s12 H3).2.2.2.2
  have e2 := t m2 (by simp)
  have e3 := t m3 (by simp)
  exact ⟨m1, h3, _, by rw [e2, e3] at H3; exact H3⟩

open Sample in
example := fun ms E' h' c' (H : Relay s12 0 ms E' h' c') => C121_tensors reach_s12 send_s12 context_s12 H

end Rei
