import Verif.Lemmas.Factory

/-!
# C39-C42, C60-C62: factories
-/
namespace Rei
open PyM Sample

theorem split_last {c : Char} {a a' d d' : Str} (h : a ++ c :: d = a' ++ c :: d') (hd : c ∉ d)
    (hd' : c ∉ d') : a = a' ∧ d = d' := by
  rcases List.append_eq_append_iff.1 h with ⟨as, e1, e2⟩ | ⟨as, e1, e2⟩
  · cases as with
    | nil => simp at e1 e2; exact ⟨e1.symm, e2⟩
    | cons x as =>
      simp only [List.cons_append, List.cons.injEq] at e2
      exact absurd (e2.2 ▸ (by simp : c ∈ as ++ c :: d')) hd
  · cases as with
    | nil => simp at e1 e2; exact ⟨e1, e2.symm⟩
    | cons x as =>
      simp only [List.cons_append, List.cons.injEq] at e2
      exact absurd (e2.2 ▸ (by simp : c ∈ as ++ c :: d)) hd'

theorem split_first {c : Char} {a a' d d' : Str} (h : a ++ c :: d = a' ++ c :: d') (ha : c ∉ a)
    (ha' : c ∉ a') : a = a' ∧ d = d' := by
  rcases List.append_eq_append_iff.1 h with ⟨as, e1, e2⟩ | ⟨as, e1, e2⟩
  · cases as with
    | nil => simp at e1 e2; exact ⟨e1.symm, e2⟩
    | cons x as =>
      simp only [List.cons_append, List.cons.injEq] at e2
      exact absurd (by rw [e1, ← e2.1]; simp) ha'
  · cases as with
    | nil => simp at e1 e2; exact ⟨e1, e2.symm⟩
    | cons x as =>
      simp only [List.cons_append, List.cons.injEq] at e2
      exact absurd (by rw [e1, ← e2.1]; simp) ha

theorem dot_not_mem_decimal (t : Nat) : '.' ∉ decimal t := by
  intro h
  have := Nat.isDigit_of_mem_toDigits (by decide) (by decide) h
  simp [Char.isDigit] at this

theorem decimal_inj {t t' : Nat} (h : decimal t = decimal t') : t = t' := by
  have := congrArg (Nat.ofDigitChars 10 · 0) h
  unfold decimal at this
  simpa only [Nat.ofDigitChars_ten_toDigits] using this

theorem uidOf_time {E : Env} (inj : Function.Injective E.sha) {f arg arg' : Str} {t t' : Nat}
    (h : uidOf E f arg t = uidOf E f arg' t') : arg = arg' ∧ t = t' := by
  have := inj h
  simp only [List.append_cancel_left_eq, List.cons.injEq, true_and] at this
  obtain ⟨h1, h2⟩ := split_last this (dot_not_mem_decimal _) (dot_not_mem_decimal _)
  exact ⟨h1, decimal_inj h2⟩

/-! ## C39 -/

/-- **C39**, distinctness: two factories whose names contain no `/` give the same uuid only for the same
factory name, the same name or path and the same clock reading. -/
theorem C39_distinct {E : Env} (inj : Function.Injective E.sha) {f f' arg arg' : Str} {t t' : Nat}
    (hf : '/' ∉ f) (hf' : '/' ∉ f') (h : uidOf E f arg t = uidOf E f' arg' t') :
    f = f' ∧ arg = arg' ∧ t = t' := by
  have := inj h
  obtain ⟨h1, h2⟩ := split_first this hf hf'
  subst h1
  exact ⟨rfl, uidOf_time inj h⟩

/-- **C39** fails for factory names that contain `/`. -/
theorem C39_slash_in_factory_name_refuted : ∃ (f f' arg arg' : Str), (f, arg) ≠ (f', arg') ∧
    ∀ (E : Env) (t : Nat), uidOf E f arg t = uidOf E f' arg' t :=
  ⟨['a', '/', 'b'], ['a'], ['c'], ['b', '/', 'c'], by decide, fun _ _ => rfl⟩

theorem generateNode_cases {E : Env} {h : Heap} (R : Reach E h) {F : Factory}
    (hF : F.clock ≠ none) {p : Option Ref} (hp : okRef h p) (hk : ∀ q, p = some q → (h.get q).kind ≠ .relation)
    (nm : Str) :
    (∃ q, p = some q ∧ F.uid E (h.newPath nm p) h ∈ (h.get q).subs.keys ∧
      ∃ h', F.generateNode E nm p h = (.error .duplicateElement, h') ∧
      (∀ y < h.size, h'.get y = h.get y) ∧ Reach E h') ∨
    ((∀ q, p = some q → F.uid E (h.newPath nm p) h ∉ (h.get q).subs.keys) ∧
      ∃ h', F.generateNode E nm p h = (.ok h.size, h') ∧
      Created .node nm (F.uid E (h.newPath nm p) h) p h h' ∧ Reach E h') := by
  obtain ⟨r, hu, hu2⟩ := F.generateUid_run (E := E) hF (h.newPath nm p) h
  have R1 : Reach E { h with reads := r } := by rw [hu2]; exact reach_readClock R _
  obtain ⟨r', hr'⟩ := readClock_run (E := E) hF { h with reads := r }
  have R2 : Reach E { h with reads := r' } := by
    have := reach_readClock R1 F.clock
    rw [hr'] at this; exact this
  obtain ⟨ck, hck⟩ := Option.ne_none_iff_exists'.1 hF
  generalize hpn : PName.str (Str.join '/' [F.name, nm ++ '.' :: decimal (clockNow E F.clock { h with reads := r })]) = pn
  have key := newConceptual_cases R2.good E (k := .node) nm (F.uid E (h.newPath nm p) h) pn
    ck (p := p) hp hk (by simp)
  have run : F.generateNode E nm p h = newConceptual E .node nm (F.uid E (h.newPath nm p) h) pn
    (some ck) p { h with reads := r' } := by
    unfold Factory.generateNode
    rw [heap_bind_run, bind_ok hu]
    have hs : F.stamped E nm { h with reads := r } = (.ok (nm ++ '.' :: decimal (clockNow E F.clock { h with reads := r })), { h with reads := r' }) := by
      unfold Factory.stamped
      rw [bind_ok hr']
      rfl
    rw [bind_ok hs, hck, ← hpn, hck]
  have reach : Reach E (F.generateNode E nm p h).2 := by
    have := Reach.step (E := E) (.mkItem .node nm (F.uid E (h.newPath nm p) h) pn
      (some ck) p) R2 ⟨rfl, hp⟩ trivial
    unfold Op.after at this
    rw [Op.run, void_run] at this
    rw [run]; exact this
  rcases key with ⟨q, h', hq, hm, hrun, hold⟩ | ⟨hn, h', hrun, C⟩
  · refine .inl ⟨q, hq, hm, h', by rw [run, hrun], hold, ?_⟩
    rw [run, hrun] at reach; exact reach
  · refine .inr ⟨hn, h', by rw [run, hrun], C.of_reads, ?_⟩
    rw [run, hrun] at reach; exact reach

theorem generateUid_none {E : Env} {F : Factory} (hF : F.clock = none) (arg : Str) (h : Heap) :
    F.generateUid E arg h = (.error .attributeError, h) := by
  unfold Factory.generateUid readClock
  rw [hF]; rfl

/-- **C39.** The uuid of a node made by a factory is the digest of factory name, path (the parent's current
qualified name and the node's name) and clock reading, and of nothing else. -/
theorem C39_node_uuid {E : Env} {h h' : Heap} (R : Reach E h) {F : Factory} {nm : Str} {p : Option Ref} {x : Ref}
    (hp : okRef h p) (hk : ∀ q, p = some q → (h.get q).kind = .node)
    (hr : F.generateNode E nm p h = (.ok x, h')) :
    (h'.get x).uuid = uidOf E F.name (pathIn h nm p) (clockNow E F.clock h) := by
  by_cases hF : F.clock = none
  · unfold Factory.generateNode at hr
    rw [heap_bind_run, bind_err (generateUid_none hF _ _)] at hr; cases hr
  rcases generateNode_cases R hF hp (fun q hq => by rw [hk q hq]; simp) nm with
    ⟨_, _, _, _, hr', _⟩ | ⟨_, _, hr', C, _⟩
  · rw [hr'] at hr; cases hr
  · rw [hr'] at hr; cases hr
    rw [C.uuidN]
    unfold Factory.uid Heap.newPath pathIn
    cases p <;> simp [Str.join_cons_cons]

/-- **C39.** The uuid of an edge made by a factory is the digest of factory name, edge name and clock
reading, and of nothing else. -/
theorem C39_edge_uuid {E : Env} {h h' : Heap} (R : Reach E h) {F : Factory} {nm : Str} {c : Ref} {x : Ref}
    (hc : c < h.size) (hr : F.createHyperedge E c nm h = (.ok x, h')) :
    (h'.get x).uuid = uidOf E F.name nm (clockNow E F.clock h) := by
  by_cases hF : F.clock = none
  · unfold Factory.createHyperedge at hr
    rw [bind_err (generateUid_none hF _ _)] at hr; cases hr
  by_cases hk : (h.get c).kind.isConceptual = true
  · rcases F.createHyperedge_cases R hF hc hk nm with ⟨_, _, hr', _⟩ | ⟨_, _, hr', C, _⟩
    · rw [hr'] at hr; cases hr
    · rw [hr'] at hr; cases hr
      exact C.uuidN
  · unfold Factory.createHyperedge at hr
    obtain ⟨r, hu, _⟩ := F.generateUid_run (E := E) hF nm h
    obtain ⟨r', hr'⟩ := readClock_run (E := E) hF { h with reads := r }
    rw [bind_ok hu] at hr
    have hs : F.stampedIn E nm c { h with reads := r } = (.ok (.tup (Str.join '/' [(h.get c).qualName, nm] ++ '.' :: decimal (clockNow E F.clock { h with reads := r }))), { h with reads := r' }) := by
      unfold Factory.stampedIn
      rw [obj_bind_run, bind_ok hr']
      rfl
    rw [bind_ok hs, obj_bind_run, if_neg hk] at hr
    cases hr

theorem newValue_run (u : Bytes) (nm : Str) (pn : PName) (vs : Option (List Rat)) (h : Heap) :
    ∃ h', newValue u nm pn vs h = (.ok h.size, h') ∧ h'.size = h.size + 1 ∧ (h'.get h.size).uuid = u ∧
      (h'.get h.size).idName = nm ∧ h'.reads = h.reads ∧ (h'.get h.size).kind = .value ∧
      h'.valuesOf h.size = vs.getD [] := by
  refine ⟨_, rfl, rfl, ?_, ?_, rfl, ?_, ?_⟩ <;> simp [Heap.valuesOf]

/-- **C39.** The uuid of a value node made by a factory is the digest of factory name, value name and clock
reading, and of nothing else. -/
theorem C39_value_uuid {E : Env} {h h' : Heap} {F : Factory} {nm : Str} {p : Option Ref} {x : Ref}
    {vs : Option (List Rat)} (hr : F.createValue E p nm vs h = (.ok x, h')) :
    (h'.get x).uuid = uidOf E F.name nm (clockNow E F.clock h) := by
  by_cases hF : F.clock = none
  · unfold Factory.createValue at hr
    rw [bind_err (generateUid_none hF _ _)] at hr; cases hr
  obtain ⟨r, hu, _⟩ := F.generateUid_run (E := E) hF nm h
  obtain ⟨r', hr'⟩ := readClock_run (E := E) hF { h with reads := r }
  unfold Factory.createValue at hr
  rw [bind_ok hu] at hr
  cases p with
  | none =>
    have hs : F.stamped E nm { h with reads := r } = (.ok (nm ++ '.' :: decimal (clockNow E F.clock { h with reads := r })), { h with reads := r' }) := by
      unfold Factory.stamped
      rw [bind_ok hr']
      rfl
    simp only at hr
    rw [bind_ok hs] at hr
    obtain ⟨h2, e2, _, e3, _⟩ := newValue_run (F.uid E nm h) nm (.str (nm ++ '.' :: decimal (clockNow E F.clock { h with reads := r }))) vs { h with reads := r' }
    rw [e2] at hr; cases hr
    exact e3
  | some q =>
    have hs : F.stampedIn E nm q { h with reads := r } = (.ok (.tup (Str.join '/' [(h.get q).qualName, nm] ++ '.' :: decimal (clockNow E F.clock { h with reads := r }))), { h with reads := r' }) := by
      unfold Factory.stampedIn
      rw [obj_bind_run, bind_ok hr']
      rfl
    simp only at hr
    rw [bind_ok hs] at hr
    obtain ⟨h2, e2, es, e3, _⟩ := newValue_run (F.uid E nm h) nm (.tup (Str.join '/' [(h.get q).qualName, nm] ++ '.' :: decimal (clockNow E F.clock { h with reads := r }))) vs { h with reads := r' }
    rw [bind_ok e2] at hr
    have K := (frames_addElement (L := False) E q h.size h2).keeps
    cases ha : addElement E q h.size h2 with
    | mk res h3 =>
    rw [ha] at K
    cases res with
    | error er => rw [bind_err ha] at hr; cases hr
    | ok u =>
      rw [bind_ok ha] at hr
      cases hr
      rw [K.uuid h.size (by rw [es]; exact Nat.lt_succ_self _)]
      exact e3

/-! ## C60 -/

theorem Later.reads {E : Env} {h h' : Heap} (l : Later E h h') :
    h.reads ≤ h'.reads ∧ h.size ≤ h'.size ∧ ∀ x < h.size, (h'.get x).uuid = (h.get x).uuid := by
  induction l with
  | refl => exact ⟨Nat.le_refl _, Nat.le_refl _, fun _ _ => rfl⟩
  | @step h' op l v ih =>
    have key : h'.reads ≤ (op.after E h').reads ∧ h'.size ≤ (op.after E h').size ∧
        ∀ x < h'.size, ((op.after E h').get x).uuid = (h'.get x).uuid := by
      by_cases hop : ∃ x k, op = .setClock x k
      · obtain ⟨y, k, rfl⟩ := hop
        refine ⟨Nat.le_refl _, Nat.le_refl _, fun x _ => ?_⟩
        show ((h'.mod y fun o => { o with clock := k }).get x).uuid = _
        rw [Heap.get_mod]
        split
        · next e => subst e; rfl
        · rfl
      · have K := (frames_run E op (fun x k e => hop ⟨x, k, e⟩) h').keeps
        exact ⟨K.reads, K.size, K.uuid⟩
    exact ⟨Nat.le_trans ih.1 key.1, Nat.le_trans ih.2.1 key.2.1, fun x hx =>
      (key.2.2 x (Nat.lt_of_lt_of_le hx ih.2.1)).trans (ih.2.2 x hx)⟩

theorem generateUid_local {E : Env} {F : Factory} (hF : F.clock = some .local) (arg : Str) (h : Heap) :
    F.generateUid E arg h = (.ok (F.uid E arg h), { h with reads := h.reads + 1 }) := by
  unfold Factory.generateUid
  rw [bind_ok (show readClock E F.clock h = (.ok (E.time h.reads), { h with reads := h.reads + 1 }) by rw [hF]; rfl)]
  unfold Factory.uid clockNow
  rw [hF]; rfl

theorem frames_stamped (E : Env) {L : Prop} (F : Factory) (nm : Str) : Frames E L (F.stamped E nm) :=
  .bind (frames_readClock E _) fun _ => .pure _

theorem frames_stampedIn (E : Env) {L : Prop} (F : Factory) (nm : Str) (p : Ref) :
    Frames E L (F.stampedIn E nm p) :=
  .bind (.obj _) fun _ => .bind (frames_readClock E _) fun _ => .pure _

theorem Made.facts {E : Env} {F : Factory} (hF : F.clock = some .local) {h h' : Heap} {x : Ref} (R : Reach E h)
    (m : Made E F h x h') : (∃ arg, (h'.get x).uuid = uidOf E F.name arg (E.time h.reads)) ∧
      h.reads < h'.reads ∧ x < h'.size ∧ ∀ y < h.size, (h'.get y).uuid = (h.get y).uuid := by
  have hF' : F.clock ≠ none := by rw [hF]; simp
  have hc : clockNow E F.clock h = E.time h.reads := by unfold clockNow; rw [hF]
  cases m with
  | @node nm p hp hk hr =>
    have hu := C39_node_uuid R hp hk hr
    rw [hc] at hu
    have hr0 := hr
    unfold Factory.generateNode at hr0
    rw [heap_bind_run, bind_ok (generateUid_local hF _ _)] at hr0
    have K := (Frames.bind (frames_stamped E (L := True) F nm) (fun q => frames_newConceptual E .node nm
      (F.uid E (h.newPath nm p) h) (.str (Str.join '/' [F.name, q])) F.clock p (.inl trivial))
      { h with reads := h.reads + 1 }).keeps
    rw [hr0] at K
    refine ⟨⟨_, hu⟩, K.reads, ?_, K.uuid⟩
    · rcases generateNode_cases R hF' hp (fun q hq => by rw [hk q hq]; simp) nm with
        ⟨_, _, _, _, hr', _⟩ | ⟨_, _, hr', C, _⟩
      · rw [hr'] at hr; cases hr
      · rw [hr'] at hr; cases hr
        rw [C.size]; exact Nat.lt_succ_self _
  | @edge nm c hcl hr =>
    have hu := C39_edge_uuid R hcl hr
    rw [hc] at hu
    have hr0 := hr
    unfold Factory.createHyperedge at hr
    rw [bind_ok (generateUid_local hF _ _)] at hr
    have FR : Frames E True (do
        let q ← F.stampedIn E nm c
        let o ← obj c
        if o.kind.isConceptual then newConceptual E .edge nm (F.uid E nm h) q o.clock (some c)
        else raise .attributeError) :=
      .bind (frames_stampedIn E F nm c) fun q => .bind (.obj c) fun o =>
        .ite (frames_newConceptual E .edge nm _ q o.clock (some c) (.inl trivial)) (.raise _)
    have K := (FR { h with reads := h.reads + 1 }).keeps
    rw [hr] at K
    refine ⟨⟨_, hu⟩, K.reads, ?_, K.uuid⟩
    by_cases hk : (h.get c).kind.isConceptual = true
    · rcases F.createHyperedge_cases R hF' hcl hk nm with ⟨_, _, hr', _⟩ | ⟨_, _, hr', C, _⟩
      · rw [hr'] at hr0; cases hr0
      · rw [hr'] at hr0; cases hr0
        rw [C.size]; exact Nat.lt_succ_self _
    · exfalso
      obtain ⟨r', hr'⟩ := readClock_run (E := E) hF' { h with reads := h.reads + 1 }
      have hs : F.stampedIn E nm c { h with reads := h.reads + 1 } = (.ok (.tup (Str.join '/' [(h.get c).qualName, nm] ++ '.' :: decimal (clockNow E F.clock { h with reads := h.reads + 1 }))), { h with reads := r' }) := by
        unfold Factory.stampedIn
        rw [obj_bind_run, bind_ok hr']
        rfl
      rw [bind_ok hs, obj_bind_run, if_neg hk] at hr
      cases hr
  | @value nm p vs hp hr =>
    have hu := C39_value_uuid hr
    rw [hc] at hu
    have hr0 := hr
    unfold Factory.createValue at hr
    rw [bind_ok (generateUid_local hF _ _)] at hr
    obtain ⟨r', hr'⟩ := readClock_run (E := E) hF' { h with reads := h.reads + 1 }
    cases p with
    | none =>
      have hs : F.stamped E nm { h with reads := h.reads + 1 } = (.ok (nm ++ '.' :: decimal (clockNow E F.clock { h with reads := h.reads + 1 })), { h with reads := r' }) := by
        unfold Factory.stamped
        rw [bind_ok hr']
        rfl
      have K := (frames_stamped E (L := True) F nm { h with reads := h.reads + 1 }).keeps
      rw [hs] at K
      simp only at hr
      rw [bind_ok hs] at hr
      have K2 := fun pn => (frames_newValue E (L := True) trivial (F.uid E nm h) nm pn vs { h with reads := r' }).keeps
      obtain ⟨h2, e2, es, _, _, er, _⟩ := newValue_run (F.uid E nm h) nm (.str (nm ++ '.' :: decimal (clockNow E F.clock { h with reads := h.reads + 1 }))) vs { h with reads := r' }
      rw [e2] at hr; cases hr
      have K2 := K2 (.str (nm ++ '.' :: decimal (clockNow E F.clock { h with reads := h.reads + 1 })))
      rw [e2] at K2
      exact ⟨⟨_, hu⟩, by rw [er]; exact K.reads, by rw [es]; exact Nat.lt_succ_self _, K2.uuid⟩
    | some q =>
      have hs : F.stampedIn E nm q { h with reads := h.reads + 1 } = (.ok (.tup (Str.join '/' [(h.get q).qualName, nm] ++ '.' :: decimal (clockNow E F.clock { h with reads := h.reads + 1 }))), { h with reads := r' }) := by
        unfold Factory.stampedIn
        rw [obj_bind_run, bind_ok hr']
        rfl
      have K1 := (frames_stampedIn E (L := True) F nm q { h with reads := h.reads + 1 }).keeps
      rw [hs] at K1
      simp only at hr
      rw [bind_ok hs] at hr
      have K2 := fun pn => (frames_newValue E (L := True) trivial (F.uid E nm h) nm pn vs { h with reads := r' }).keeps
      obtain ⟨h2, e2, es, _, _, er, _⟩ := newValue_run (F.uid E nm h) nm (.tup (Str.join '/' [(h.get q).qualName, nm] ++ '.' :: decimal (clockNow E F.clock { h with reads := h.reads + 1 }))) vs { h with reads := r' }
      rw [bind_ok e2] at hr
      have K := (frames_addElement (L := False) E q h.size h2).keeps
      cases ha : addElement E q h.size h2 with
      | mk res h3 =>
      rw [ha] at K
      cases res with
      | error er => rw [bind_err ha] at hr; cases hr
      | ok u =>
        rw [bind_ok ha] at hr
        cases hr
        have K2 := K2 (.tup (Str.join '/' [(h.get q).qualName, nm] ++ '.' :: decimal (clockNow E F.clock { h with reads := h.reads + 1 })))
        rw [e2] at K2
        refine ⟨⟨_, hu⟩, ?_, ?_, (K2.trans K).uuid⟩
        · have := K.reads; rw [er] at this
          exact Nat.lt_of_lt_of_le K1.reads this
        · refine Nat.lt_of_lt_of_le ?_ K.size
          rw [es]; exact Nat.lt_succ_self _

/-- **C60**, what holds: with a wall clock whose readings strictly increase, two elements made by the same
factory at different moments of a program have different uuids, whatever their names. Missing: clocks that can
return the same reading twice (`DummyClock`). -/
theorem C60_factory_uuids_partial {E : Env} (inj : Function.Injective E.sha) (mono : ∀ i j, i < j → E.time i < E.time j)
    {F : Factory} (hF : F.clock = some .local) {h h1 h2 h3 : Heap} {x y : Ref} (R : Reach E h) (R2 : Reach E h2)
    (m1 : Made E F h x h1) (l : Later E h1 h2) (m2 : Made E F h2 y h3) :
    (h3.get x).uuid ≠ (h3.get y).uuid := by
  obtain ⟨⟨a1, u1⟩, r1, s1, _⟩ := m1.facts hF R
  obtain ⟨⟨a2, u2⟩, r2, s2, l2u⟩ := m2.facts hF R2
  obtain ⟨l1r, l1s, l1u⟩ := l.reads
  rw [l2u x (Nat.lt_of_lt_of_le s1 l1s), l1u x s1, u1, u2]
  intro he
  have := (uidOf_time inj he).2
  have := mono h.reads h2.reads (by omega)
  omega

/-- An idealised digest: four bytes per character. -/
def wideSha (s : Str) : Bytes :=
  s.flatMap fun c => [UInt8.ofNat (c.toNat / 16777216), UInt8.ofNat (c.toNat / 65536), UInt8.ofNat (c.toNat / 256),
    UInt8.ofNat c.toNat]

theorem wideSha_injective : Function.Injective wideSha := by
  intro s
  induction s with
  | nil => intro t h; cases t with
    | nil => rfl
    | cons c t => simp [wideSha] at h
  | cons a s ih =>
    intro t h
    cases t with
    | nil => simp [wideSha] at h
    | cons b t =>
      unfold wideSha at h
      simp only [List.flatMap_cons, List.cons_append, List.nil_append, List.cons.injEq] at h
      obtain ⟨h1, h2, h3, h4, h5⟩ := h
      have e : s = t := ih h5
      have n1 := congrArg UInt8.toNat h1
      have n2 := congrArg UInt8.toNat h2
      have n3 := congrArg UInt8.toNat h3
      have n4 := congrArg UInt8.toNat h4
      simp only [UInt8.toNat_ofNat'] at n1 n2 n3 n4
      have ha : a.toNat < 4294967296 := by
        show a.val.toNat < 2 ^ 32; exact a.val.toNat_lt
      have hb : b.toNat < 4294967296 := by
        show b.val.toNat < 2 ^ 32; exact b.val.toNat_lt
      have : a.toNat = b.toNat := by omega
      rw [e, Char.toNat_inj.1 this]

/-- A world with an injective digest and a clock whose readings strictly increase. -/
def E1 : Env := { sha := wideSha, time := fun n => 5 * n }

/-- A factory with a wall clock. -/
def F1 : Factory := { name := ['f'], clock := some .local }
/-- A factory with a dummy clock. -/
def F0 : Factory := { name := ['f'], clock := some .dummy }

/-- An edge `k` in node `a`. -/
def k1 : Heap := (F0.createHyperedge E0 1 ['k'] g10).2
/-- An edge `k` in node `b`. -/
def k2 : Heap := (F0.createHyperedge E0 2 ['k'] k1).2

/-- **C60 refuted**: under a `DummyClock` two edges of the same name in different containers, made by the
same factory, have the same uuid. -/
theorem C60_factory_uuids_refuted : ∃ (E : Env) (F : Factory) (h h1 h2 : Heap) (c c' x y : Ref) (nm : Str),
    Reach E h ∧ c ≠ c' ∧ F.createHyperedge E c nm h = (.ok x, h1) ∧
    F.createHyperedge E c' nm h1 = (.ok y, h2) ∧ x ≠ y ∧ (h2.get x).uuid = (h2.get y).uuid := by
  refine ⟨E0, F0, g10, k1, k2, 1, 2, 11, 12, ['k'], reach10, by decide, Prod.ext ?_ rfl, Prod.ext ?_ rfl, by decide, ?_⟩
  · show (F0.createHyperedge E0 1 ['k'] g10).1 = .ok 11
    decide +kernel
  · show (F0.createHyperedge E0 2 ['k'] k1).1 = .ok 12
    decide +kernel
  · decide +kernel

/-- The hypotheses of `C60_factory_uuids_partial` are met: a node and, later, a value node in it. -/
example : ∃ (h h1 h3 : Heap) (x y : Ref), Reach E1 h ∧ Reach E1 h1 ∧ Made E1 F1 h x h1 ∧ Later E1 h1 h1 ∧
    Made E1 F1 h1 y h3 := by
  have e1 : (F1.generateNode E1 ['r'] none Heap.empty).1 = .ok 0 := by decide +kernel
  have r1 : Reach E1 (F1.generateNode E1 ['r'] none Heap.empty).2 := by
    rcases generateNode_cases (E := E1) .init (F := F1) (by decide) okNone (by rintro q ⟨⟩) ['r'] with
      ⟨_, h, _⟩ | ⟨_, h', hr, _, r⟩
    · cases h
    · rw [hr]; exact r
  have e2 : (F1.createValue E1 (some 0) ['v'] none (F1.generateNode E1 ['r'] none Heap.empty).2).1 = .ok 1 := by
    decide +kernel
  exact ⟨_, _, _, 0, 1, .init, r1, .node okNone (by rintro q ⟨⟩) (Prod.ext e1 rfl), .refl _,
    .value (okSome (by decide +kernel)) (Prod.ext e2 rfl)⟩

/-! ## C61 -/

theorem frames_generateNode (E : Env) (F : Factory) (nm : Str) (p : Option Ref) :
    Frames E True (F.generateNode E nm p) := by
  intro h
  unfold Factory.generateNode
  rw [heap_bind_run]
  exact Frames.bind (.bind (frames_readClock E _) fun _ => .pure _)
    (fun _ => .bind (frames_stamped E F nm) fun _ => frames_newConceptual E .node nm _ _ _ _ (.inl trivial)) h

/-- **C61.** `generate_list_nodes(names, parent)` returns one new node per name, in order, each with that
name and that container, in which they come last in that order; nothing else changes its container. -/
theorem C61_generate_list_nodes {E : Env} {F : Factory} {p : Option Ref} (names : List Str) {h h' : Heap}
    (R : Reach E h) {xs : List Ref} (hp : okRef h p) (hk : ∀ q, p = some q → (h.get q).kind = .node)
    (hr : F.generateListNodes E names p h = (.ok xs, h')) :
    Reach E h' ∧ xs.map (fun x => (h'.get x).idName) = names ∧ xs.Nodup ∧
    (∀ x ∈ xs, h.size ≤ x ∧ (h'.get x).kind = .node ∧ (h'.get x).parent = p) ∧
    (∀ q, p = some q → h'.subelements q = h.subelements q ++ xs) ∧
    (∀ y < h.size, (h'.get y).parent = (h.get y).parent ∧
      (p ≠ some y → h'.subelements y = h.subelements y)) := by
  induction names generalizing h xs with
  | nil =>
    cases hr
    exact ⟨R, rfl, by simp, by simp, by simp, fun _ _ => ⟨rfl, fun _ => rfl⟩⟩
  | cons nm names ih =>
    unfold Factory.generateListNodes mapEach at hr
    cases hF : F.clock with
    | none =>
      have : F.generateNode E nm p h = (.error .attributeError, h) := by
        unfold Factory.generateNode
        rw [heap_bind_run, bind_err (generateUid_none hF _ _)]
      rw [bind_err this] at hr; cases hr
    | some ck =>
    have hF' : F.clock ≠ none := by rw [hF]; simp
    rcases generateNode_cases R hF' hp (fun q hq => by rw [hk q hq]; simp) nm with
      ⟨_, _, _, _, hr', _⟩ | ⟨_, h1, hr', C, R1⟩
    · rw [bind_err hr'] at hr; cases hr
    rw [bind_ok hr'] at hr
    cases hm : mapEach names (fun nm => F.generateNode E nm p) h1 with
    | mk res h2 =>
    cases res with
    | error er => rw [bind_err hm] at hr; cases hr
    | ok ys =>
    rw [bind_ok hm] at hr
    cases hr
    have hlt : ∀ q, p = some q → q < h.size := fun q hq => hp q hq
    obtain ⟨R2, n2, nd2, all2, sub2, old2⟩ := ih R1 (fun q hq => by rw [C.size]; have := hp q hq; omega)
      (fun q hq => by rw [C.kind q (hp q hq)]; exact hk q hq) hm
    have hx1 : h.size < h1.size := by rw [C.size]; omega
    have K : (h'.get h.size).idName = nm ∧ (h'.get h.size).kind = .node := by
      have FR : Frames E True (mapEach names (fun nm => F.generateNode E nm p)) := by
        clear hm ih n2
        induction names with
        | nil => exact .pure _
        | cons a l ih =>
          exact .bind (frames_generateNode E F a p) fun _ => .bind ih fun _ => .pure _
      have K := (FR h1).keeps
      rw [hm] at K
      exact ⟨by rw [K.idName _ hx1, C.nameN], by rw [K.kind _ hx1, C.kindN]⟩
    have hsz := C.size
    refine ⟨R2, ?_, ?_, ?_, ?_, ?_⟩
    · rw [List.map_cons, n2, K.1]
    · refine List.nodup_cons.2 ⟨fun hm' => ?_, nd2⟩
      have := (all2 _ hm').1
      omega
    · intro x hx
      rcases List.mem_cons.1 hx with rfl | hx
      · exact ⟨Nat.le_refl _, K.2, by rw [(old2 _ hx1).1, C.parentN]⟩
      · exact ⟨by have := (all2 x hx).1; omega, (all2 x hx).2⟩
    · intro q hq
      rw [sub2 q hq]
      unfold Heap.subelements
      rw [C.subs q (hp q hq), if_pos hq]
      simp [Dict.values]
    · intro y hy
      refine ⟨by rw [(old2 y (by omega)).1, C.parent y hy], fun hne => ?_⟩
      rw [(old2 y (by omega)).2 hne]
      unfold Heap.subelements
      rw [C.subs y hy, if_neg hne]

example : (F1.generateListNodes E1 [['a'], ['b'], ['a']] none Heap.empty).1 = .ok [0, 1, 2] := by decide +kernel

/-! ## C40 -/

/-- A list of links without semantic value nodes, on existing objects. -/
theorem linkOk {h : Heap} {l : Link} (hn : l.node < h.size) (hw : okRef h l.weight) (hs : l.sem = none) :
    l.Ok h :=
  ⟨hn, hw, by rw [hs]; rintro x ⟨⟩, by rw [hs]; rintro x ⟨⟩, by rw [hs]; rintro x ⟨⟩, by rw [hs]; rintro x ⟨⟩⟩

theorem zipLinks_asked (nodes : List Ref) (d : Dir) (values : Option (List (Option Ref))) :
    (zipLinks nodes d values).map Link.asked = wanted nodes d values := by
  unfold zipLinks wanted Link.asked
  cases values with
  | none =>
    simp only [List.map_map, Option.getD_none]
    induction nodes with
    | nil => rfl
    | cons n l ih => simp only [List.map_cons, List.length_cons, List.replicate_succ, List.zipWith_cons_cons, ih]; rfl
  | some vs =>
    simp only [List.map_map, Option.getD_some]
    rw [List.zip, List.map_zipWith]; rfl

theorem mem_zipLinks {nodes : List Ref} {d : Dir} {values : Option (List (Option Ref))} {l : Link}
    (hl : l ∈ zipLinks nodes d values) : l.node ∈ nodes ∧ l.dir = d ∧ l.sem = none ∧
      ∀ v, l.weight = some v → ∃ vs, values = some vs ∧ some v ∈ vs := by
  unfold zipLinks at hl
  cases values with
  | none =>
    simp only [List.mem_map] at hl
    obtain ⟨n, hn, rfl⟩ := hl
    exact ⟨hn, rfl, rfl, by rintro v ⟨⟩⟩
  | some vs =>
    simp only [List.mem_map] at hl
    obtain ⟨p, hp, rfl⟩ := hl
    have := List.of_mem_zip (a := p.1) (b := p.2) hp
    refine ⟨this.1, rfl, rfl, fun v hv => ⟨vs, rfl, ?_⟩⟩
    rw [← show p.2 = some v from hv]; exact this.2

theorem zipLinks_sems (nodes : List Ref) (d : Dir) (values : Option (List (Option Ref))) :
    (zipLinks nodes d values).filterMap Link.sem = [] := by
  rw [List.filterMap_eq_nil_iff]
  intro l hl
  exact (mem_zipLinks hl).2.2.1

/-- What a new edge built by a factory looks like: an edge named `nm` in `c` whose relations are exactly
`links`, in order; no other edge changes. -/
structure Built (E : Env) (h h' : Heap) (c e : Ref) (nm : Str) (links : List (Option Ref × Dir × Option Ref)) :
    Prop where
  fresh : h.size ≤ e
  exists_ : e < h'.size
  kind : (h'.get e).kind = .edge
  name : (h'.get e).idName = nm
  parent : (h'.get e).parent = some c
  inside : e ∈ h'.subEdges c
  relations : (h'.subRelations e).map h'.linkAt = links
  others : ∀ y < h.size, h'.subRelations y = h.subRelations y
  relEnds : ∀ y < h.size, h'.linkAt y = h.linkAt y
  reach : Reach E h'

/-- Creating the edge and then connecting all links. -/
theorem build_edge {E : Env} {h h1 h' : Heap} (R : Reach E h) {F : Factory} {c e : Ref} {nm : Str}
    (hc : c < h.size) (hcr : F.createHyperedge E c nm h = (.ok e, h1)) {ls : List Link}
    (ok : ∀ l ∈ ls, l.Ok h) (nd : (ls.filterMap Link.sem).Nodup)
    (hr : connectAll E e ls h1 = (.ok (), h')) :
    Built E h h' c e nm (ls.map Link.asked) ∧ (∀ (i : Nat) (q : Ref) (l : Link) (s : Ref),
      (h'.subRelations e)[i]? = some q → ls[i]? = some l → l.sem = some s → h'.subelements q = [s]) := by
  have hcr0 := hcr
  have hF : F.clock ≠ none := by
    intro hF
    unfold Factory.createHyperedge at hcr
    rw [bind_err (generateUid_none hF _ _)] at hcr; cases hcr
  have hk : (h.get c).kind.isConceptual = true := by
    by_contra hk
    unfold Factory.createHyperedge at hcr
    obtain ⟨r, hu, _⟩ := F.generateUid_run (E := E) hF nm h
    obtain ⟨r', hr'⟩ := readClock_run (E := E) hF { h with reads := r }
    have hs : F.stampedIn E nm c { h with reads := r } = (.ok (.tup (Str.join '/' [(h.get c).qualName, nm] ++ '.' :: decimal (clockNow E F.clock { h with reads := r }))), { h with reads := r' }) := by
      unfold Factory.stampedIn
      rw [obj_bind_run, bind_ok hr']
      rfl
    rw [bind_ok hu, bind_ok hs, obj_bind_run, if_neg hk] at hcr
    cases hcr
  rcases F.createHyperedge_cases R hF hc hk nm with ⟨_, _, hr', _⟩ | ⟨_, _, hr', C, R1⟩
  · rw [hr'] at hcr; cases hcr
  rw [hr'] at hcr; cases hcr
  have hs1 := C.size
  have I := R.good.inv
  have subOld : ∀ y < h.size, y ≠ c → h1.subelements y = h.subelements y := by
    intro y hy hne
    unfold Heap.subelements
    rw [C.subs y hy, if_neg (by rintro ⟨⟩; exact hne rfl)]
  have ok1 : ∀ l ∈ ls, l.Ok h1 := by
    intro l hl
    have o := ok l hl
    have up : ∀ x, x < h.size → x < h1.size := fun x hx => by omega
    refine ⟨up _ o.node, fun x hx => up x (o.weight x hx), fun x hx => up x (o.sem x hx), ?_, ?_, ?_⟩
    · intro s hs; rw [C.kind s (o.sem s hs)]; exact o.semKind s hs
    · intro s hs p hp
      rw [C.parent s (o.sem s hs)] at hp
      rw [C.kind p (I.parent_lt hp)]
      exact o.semFree s hs p hp
    · intro s hs
      have hne : s ≠ c := by
        rintro rfl
        obtain ⟨k, hk'⟩ := o.semKind s hs
        rw [hk'] at hk; cases hk
      rw [subOld s (o.sem s hs) hne]
      exact o.semLeaf s hs
  obtain ⟨R2, qs, A⟩ := connectAll_rels ls R1 (by omega) C.kindN ok1 nd hr
  have hne : h1.subRelations h.size = [] := by
    unfold Heap.subRelations Heap.getSubelements Heap.subelements
    rw [C.subsN]; rfl
  have hrel1 : ∀ y < h.size, h1.subRelations y = h.subRelations y := by
    intro y hy
    unfold Heap.subRelations Heap.getSubelements Heap.subelements
    rw [C.subs y hy]
    split
    · next e =>
      cases e
      unfold Dict.values
      rw [List.map_append, List.filter_append]
      have : (List.map Prod.snd [(F.uid E nm h, h.size)]).filter (fun x => decide ((h1.get x).kind = .relation)) = [] := by
        simp [C.kindN]
      rw [this, List.append_nil]
      apply List.filter_congr
      intro z hz
      have : z < h.size := I.lt_of_parent ((I.mem_subelements c z).1 hz)
      rw [C.kind z this]
    · apply List.filter_congr
      intro z hz
      have : z < h.size := I.lt_of_parent ((I.mem_subelements y z).1 hz)
      rw [C.kind z this]
  have hpar : (h'.get h.size).parent = some c := by
    rw [A.par h.size (by omega) ?_, C.parentN]
    intro hm
    obtain ⟨l, hl, hs⟩ := List.mem_map.1 hm
    have := (ok l hl).sem _ hs
    omega
  have hkE : (h'.get h.size).kind = .edge := by rw [A.keeps.kind _ (by omega), C.kindN]
  have hlt : h.size < h'.size := Nat.lt_of_lt_of_le (by omega) A.keeps.size
  refine ⟨⟨Nat.le_refl _, hlt, hkE, ?_, hpar, ?_, ?_, ?_, ?_, R2⟩, ?_⟩
  · rw [A.keeps.idName _ (by omega), C.nameN]
  · unfold Heap.subEdges Heap.getSubelements
    rw [List.mem_filter]
    exact ⟨(R2.good.inv.mem_subelements c h.size).2 hpar, by simp [hkE]⟩
  · rw [A.rels, hne, List.nil_append, A.asked]
  · intro y hy
    rw [A.others y (by omega) (by omega), hrel1 y hy]
  · intro y hy
    unfold Heap.linkAt
    rw [A.ends y (by omega), A.keeps.direction y (by omega), A.keeps.weight y (by omega), C.endpoint y hy,
      C.direction y hy, C.weight y hy]
  · intro i q l s hq hl hs
    rw [A.rels, hne, List.nil_append] at hq
    exact A.sems i q l s hq hl hs

/-- **C40.** When `connect_nodes(c, nm, nodes, d, values)` returns `e`, `e` is a new edge named `nm` inside
`c` whose relations are, in order, one for each node, with that endpoint, direction `d` and that weight; the
relations of all other edges are untouched. -/
theorem C40_connect_nodes {E : Env} {h h' : Heap} (R : Reach E h) {F : Factory} {c e : Ref} {nm : Str}
    {nodes : List Ref} {d : Dir} {values : Option (List (Option Ref))} (hc : c < h.size)
    (hn : ∀ n ∈ nodes, n < h.size) (hv : ∀ vs, values = some vs → ∀ v, some v ∈ vs → v < h.size)
    (hr : F.connectNodes E c nm nodes d values h = (.ok e, h')) :
    Built E h h' c e nm (wanted nodes d values) ∧
    (h'.inducedSubset e) = nodes.map some := by
  unfold Factory.connectNodes at hr
  cases hcr : F.createHyperedge E c nm h with
  | mk res h1 =>
  cases res with
  | error er => rw [bind_err hcr] at hr; cases hr
  | ok e' =>
  rw [bind_ok hcr] at hr
  split at hr
  · cases hr
  next hw =>
  cases ha : connectAll E e' (zipLinks nodes d values) h1 with
  | mk res h2 =>
  cases res with
  | error er => rw [bind_err ha] at hr; cases hr
  | ok u =>
  rw [bind_ok ha] at hr
  cases hr
  have key := (build_edge R hc hcr (ls := zipLinks nodes d values) (fun l hl => by
    obtain ⟨a, _, b, c⟩ := mem_zipLinks hl
    exact linkOk (hn _ a) (fun v hv' => by obtain ⟨vs, h1, h2⟩ := c v hv'; exact hv vs h1 v h2) b)
    (by rw [zipLinks_sems]; exact List.nodup_nil) ha).1
  rw [zipLinks_asked] at key
  refine ⟨key, ?_⟩
  have := congrArg (List.map Prod.fst) key.relations
  rw [List.map_map] at this
  unfold Heap.inducedSubset
  refine Eq.trans ?_ (this.trans ?_)
  · rfl
  · unfold wanted
    rw [List.map_zipWith]
    have hl : (values.getD (List.replicate nodes.length none)).length = nodes.length := by
      cases values with
      | none => simp
      | some vs => simpa [wrongLength] using hw
    generalize values.getD (List.replicate nodes.length none) = vs at hl
    clear this key ha hcr hw hn hv
    induction nodes generalizing vs with
    | nil => simp
    | cons n l ih =>
      cases vs with
      | nil => simp at hl
      | cons v vs => simp only [List.zipWith_cons_cons, List.map_cons]; rw [ih _ (by simpa using hl)]

theorem Inv.mem_keys_iff {h : Heap} (I : Inv h) (c : Ref) (u : Bytes) :
    u ∈ (h.get c).subs.keys ↔ ∃ x ∈ h.subelements c, (h.get x).uuid = u := by
  constructor
  · intro hm
    obtain ⟨p, hp, rfl⟩ := List.mem_map.1 hm
    exact ⟨p.2, List.mem_map_of_mem hp, ((I.mem c p.1 p.2).1 hp).2⟩
  · rintro ⟨x, hx, rfl⟩
    obtain ⟨p, hp, rfl⟩ := List.mem_map.1 hx
    have := ((I.mem c p.1 p.2).1 hp).2
    exact List.mem_map.2 ⟨p, hp, this.symm⟩

theorem CanJoin.joinable {E : Env} {h : Heap} (I : Inv h) {nm : Str} {n : Ref} (J : CanJoin E h nm n) :
    Joinable E h nm n := by
  obtain ⟨ctx, hc, hx⟩ := J.port
  refine ⟨J.lt, J.kind, ctx, hc, fun t hm => ?_⟩
  obtain ⟨x, hx', he⟩ := (I.mem_keys_iff _ _).1 hm
  exact hx x hx' t he

/-- **C40.** `connect_nodes` does return: if no sub-element of `c` has the new edge's uuid, the nodes have
distinct names, none of them is `c`, and none of them has a port with the uuid of the port to be created. -/
theorem C40_connect_nodes_returns {E : Env} (inj : Function.Injective E.sha) {h : Heap} (R : Reach E h)
    {F : Factory} (hF : F.clock ≠ none) {c : Ref} {nm : Str}
    {nodes : List Ref} {d : Dir} {values : Option (List (Option Ref))} (hc : c < h.size)
    (hk : (h.get c).kind = .node) (hn : ∀ n ∈ nodes, n ≠ c ∧ CanJoin E h nm n)
    (names : (nodes.map fun n => (h.get n).idName).Nodup)
    (hv : ∀ vs, values = some vs → vs.length = nodes.length ∧ ∀ v, some v ∈ vs → v < h.size)
    (fresh : ∀ x ∈ h.subelements c, (h.get x).uuid ≠ uidOf E F.name nm (clockNow E F.clock h)) :
    ∃ e h', F.connectNodes E c nm nodes d values h = (.ok e, h') := by
  have I := R.good.inv
  rcases F.createHyperedge_cases R hF hc (by rw [hk]; rfl) nm with ⟨hm, _⟩ | ⟨_, h1, hcr, C, R1⟩
  · obtain ⟨x, hx, he⟩ := (I.mem_keys_iff _ _).1 hm
    exact absurd he (fresh x hx)
  have hs1 := C.size
  have hmap : ∀ l : List Link, (∀ x ∈ l, x.node ∈ nodes) →
      l.map (fun l => (h1.get l.node).idName) = l.map (fun l => (h.get l.node).idName) := by
    intro l hl
    apply List.map_congr_left
    intro x hx
    exact C.idName _ (hn _ (hl x hx)).2.lt
  have hnodes : (zipLinks nodes d values).map Link.node = nodes := by
    unfold zipLinks
    cases values with
    | none => simp [Function.comp_def]
    | some vs =>
      simp only [List.map_map]
      show (nodes.zip vs).map Prod.fst = nodes
      exact List.map_fst_zip (Nat.le_of_eq (hv vs rfl).1.symm)
  obtain ⟨h2, h2r, -⟩ := connectAll_succeeds inj (e := h.size) (ctx := nm) (nm := nm) (zipLinks nodes d values) R1
    (by omega) C.kindN (C.genN rfl) C.nameN (by
      intro l hl
      obtain ⟨a, _, b, w⟩ := mem_zipLinks hl
      obtain ⟨hne, J⟩ := hn _ a
      have J := J.joinable I
      refine ⟨b, fun v hv' => ?_, by have := J.lt; omega, by have := J.lt; omega, by rw [C.kind _ J.lt]; exact J.kind, ?_⟩
      · obtain ⟨vs, e1, e2⟩ := w v hv'
        have := (hv vs e1).2 v e2
        omega
      · obtain ⟨ctx, hctx, hf⟩ := J.port
        refine ⟨ctx, by rw [C.genCtx _ J.lt, hctx], fun t => ?_⟩
        rw [C.subs _ J.lt, if_neg (by rintro ⟨⟩; exact hne rfl), C.idName _ J.lt]
        exact hf t)
    (by
      rw [hmap _ (fun x hx => (mem_zipLinks hx).1)]
      rw [show (fun l : Link => (h.get l.node).idName) = (fun n => (h.get n).idName) ∘ Link.node from rfl,
        ← List.map_map, hnodes]
      exact names)
    (by intro l _; rw [C.subsN]; simp [Dict.keys])
  refine ⟨h.size, h2, ?_⟩
  unfold Factory.connectNodes
  have hw : wrongLength values nodes.length = false := by
    unfold wrongLength
    cases values with
    | none => rfl
    | some vs => simp [(hv vs rfl).1]
  rw [bind_ok hcr, hw]
  simp only [Bool.false_eq_true, if_false]
  rw [bind_ok h2r]; rfl

/-- **C40.** The same for `connect_tuple_nodes`, whose links have individual directions, weights and
semantic value nodes (distinct, without sub-elements, in no edge or relation); each semantic value node becomes
the only sub-element of its relation. -/
theorem C40_connect_tuple_nodes {E : Env} {h h' : Heap} (R : Reach E h) {F : Factory} {c e : Ref} {nm : Str}
    {links : List Link} (hc : c < h.size) (ok : ∀ l ∈ links, l.Ok h) (nd : (links.filterMap Link.sem).Nodup)
    (hr : F.connectTuples E c nm links h = (.ok e, h')) :
    Built E h h' c e nm (links.map fun l => (some l.node, l.dir, l.weight)) ∧
    (∀ (i : Nat) (q : Ref) (l : Link) (s : Ref),
      (h'.subRelations e)[i]? = some q → links[i]? = some l → l.sem = some s → h'.subelements q = [s]) := by
  unfold Factory.connectTuples at hr
  cases hcr : F.createHyperedge E c nm h with
  | mk res h1 =>
  cases res with
  | error er => rw [bind_err hcr] at hr; cases hr
  | ok e' =>
  rw [bind_ok hcr] at hr
  cases ha : connectAll E e' links h1 with
  | mk res h2 =>
  cases res with
  | error er => rw [bind_err ha] at hr; cases hr
  | ok u =>
  rw [bind_ok ha] at hr
  cases hr
  exact build_edge R hc hcr ok nd ha

/-! ## C41 -/

theorem connectAll_append {E : Env} {e : Ref} (l1 l2 : List Link) (h : Heap) :
    connectAll E e (l1 ++ l2) h = (connectAll E e l1 >>= fun _ => connectAll E e l2) h := by
  induction l1 generalizing h with
  | nil => rfl
  | cons l l1 ih =>
    unfold connectAll at ih ⊢
    rw [List.cons_append, forEach_cons, forEach_cons, bind_run, bind_run, bind_run]
    cases hx : (unaryConnect E e l.node l.weight l.dir l.sem).void h with
    | mk res h1 =>
    cases res with
    | error er => rfl
    | ok u => simp only; rw [ih, bind_run]

/-- What `connect_2factor_edges` really builds: every node, on both sides, gets the first direction. -/
theorem connect2Factor_built {E : Env} {h h' : Heap} (R : Reach E h) {F : Factory} {c e : Ref} {nm : Str}
    {ins outs : List Ref} {dirs : Dir × Dir} {values : Option (List (Option Ref))} (hc : c < h.size)
    (hn : ∀ n ∈ ins ++ outs, n < h.size) (hv : ∀ vs, values = some vs → ∀ v, some v ∈ vs → v < h.size)
    (hr : F.connect2Factor E c nm ins outs dirs values h = (.ok e, h')) :
    Built E h h' c e nm (wanted ins dirs.1 (values.map (·.take ins.length)) ++
      wanted outs dirs.1 (values.map (·.drop ins.length))) := by
  unfold Factory.connect2Factor at hr
  cases hcr : F.createHyperedge E c nm h with
  | mk res h1 =>
  cases res with
  | error er => rw [bind_err hcr] at hr; cases hr
  | ok e' =>
  rw [bind_ok hcr] at hr
  split at hr
  · cases hr
  next hw =>
  cases ha : connectAll E e' (zipLinks ins dirs.1 (values.map (·.take ins.length)) ++
      zipLinks outs dirs.1 (values.map (·.drop ins.length))) h1 with
  | mk res h2 =>
  have ha' := ha
  rw [connectAll_append, bind_run] at ha'
  cases h3 : connectAll E e' (zipLinks ins dirs.1 (values.map (·.take ins.length))) h1 with
  | mk res3 h3' =>
  rw [h3] at ha'
  cases res3 with
  | error er => rw [bind_err h3] at hr; cases hr
  | ok u =>
  rw [bind_ok h3] at hr
  simp only at ha'
  cases res with
  | error er => rw [bind_err ha'] at hr; cases hr
  | ok u =>
  rw [bind_ok ha'] at hr
  cases hr
  have key := (build_edge R hc hcr (fun l hl => by
    have : l.node ∈ ins ++ outs ∧ l.sem = none ∧ ∀ v, l.weight = some v → ∃ vs, values = some vs ∧ some v ∈ vs := by
      rcases List.mem_append.1 hl with hl | hl
      · obtain ⟨a, _, b, c⟩ := mem_zipLinks hl
        refine ⟨by simp [a], b, fun v hv' => ?_⟩
        obtain ⟨vs, e1, e2⟩ := c v hv'
        obtain ⟨vs', rfl, rfl⟩ := Option.map_eq_some_iff.1 e1
        exact ⟨vs', rfl, List.mem_of_mem_take e2⟩
      · obtain ⟨a, _, b, c⟩ := mem_zipLinks hl
        refine ⟨by simp [a], b, fun v hv' => ?_⟩
        obtain ⟨vs, e1, e2⟩ := c v hv'
        obtain ⟨vs', rfl, rfl⟩ := Option.map_eq_some_iff.1 e1
        exact ⟨vs', rfl, List.mem_of_mem_drop e2⟩
    exact linkOk (hn _ this.1) (fun v hv' => by obtain ⟨vs, h1, h2⟩ := this.2.2 v hv'; exact hv vs h1 v h2) this.2.1)
    (by rw [List.filterMap_append, zipLinks_sems, zipLinks_sems]; exact List.nodup_nil) ha).1
  rw [List.map_append, zipLinks_asked, zipLinks_asked] at key
  exact key

/-- **C41**, what holds: endpoints, weights and order are as requested and the in-nodes get the first
direction; if both directions are the same the whole edge is as requested. Missing: the out-nodes get the first
direction too. -/
theorem C41_two_sided_partial {E : Env} {h h' : Heap} (R : Reach E h) {F : Factory} {c e : Ref} {nm : Str}
    {ins outs : List Ref} {dirs : Dir × Dir} {values : Option (List (Option Ref))} (hc : c < h.size)
    (hn : ∀ n ∈ ins ++ outs, n < h.size) (hv : ∀ vs, values = some vs → ∀ v, some v ∈ vs → v < h.size)
    (hr : F.connect2Factor E c nm ins outs dirs values h = (.ok e, h')) :
    Built E h h' c e nm (wanted ins dirs.1 (values.map (·.take ins.length)) ++
      wanted outs dirs.1 (values.map (·.drop ins.length))) ∧
    (dirs.1 = dirs.2 → Built E h h' c e nm (wanted ins dirs.1 (values.map (·.take ins.length)) ++
      wanted outs dirs.2 (values.map (·.drop ins.length)))) := by
  have key := connect2Factor_built R hc hn hv hr
  exact ⟨key, fun hd => by rw [← hd]; exact key⟩

/-- **C41 refuted**: no call of `connect_dir_edges` with an out-node ever makes a relation with an outward
direction; all relations point inwards. -/
theorem C41_dir_edges_refuted {E : Env} {h h' : Heap} (R : Reach E h) {F : Factory} {c e : Ref} {nm : Str}
    {ins outs : List Ref} (hc : c < h.size) (hn : ∀ n ∈ ins ++ outs, n < h.size)
    (hr : F.connectDir E c nm ins outs h = (.ok e, h')) :
    (h'.subRelations e).map (fun q => (h'.get q).direction) = List.replicate (ins.length + outs.length) .inwards ∧
    h'.outgoing e = [] := by
  have key := connect2Factor_built R hc hn (by rintro vs ⟨⟩) hr
  have hd := congrArg (List.map fun p => p.2.1) key.relations
  rw [List.map_map] at hd
  have hw : ∀ (l : List Ref) (d : Dir), (wanted l d none).map (fun p => p.2.1) = List.replicate l.length d := by
    intro l d
    unfold wanted
    induction l with
    | nil => rfl
    | cons n l ih => simpa [List.replicate_succ] using ih
  have e1 : (h'.subRelations e).map (fun q => (h'.get q).direction) =
      List.replicate (ins.length + outs.length) .inwards := by
    refine Eq.trans ?_ (hd.trans ?_)
    · rfl
    · simp only [Option.map_none, List.map_append, hw, List.replicate_append_replicate]
  refine ⟨e1, ?_⟩
  unfold Heap.outgoing
  rw [List.filter_eq_nil_iff]
  intro q hq
  have : (h'.get q).direction ∈ (h'.subRelations e).map (fun q => (h'.get q).direction) := List.mem_map_of_mem hq
  rw [e1] at this
  rw [(List.mem_replicate.1 this).2]
  simp

/-! ## C42 -/

/-- **C42 refuted**, in every case: a value list of the wrong length makes `connect_nodes` raise
`ErrorInsufficientValues`, but the container has got a new, empty edge. -/
theorem C42_rejected_values_refuted {E : Env} {h : Heap} (R : Reach E h) {F : Factory} (hF : F.clock ≠ none)
    {c : Ref} {nm : Str} {nodes : List Ref} {d : Dir} {vs : List (Option Ref)} (hc : c < h.size)
    (hk : (h.get c).kind = .node) (hl : vs.length ≠ nodes.length)
    (fresh : ∀ x ∈ h.subelements c, (h.get x).uuid ≠ uidOf E F.name nm (clockNow E F.clock h)) :
    ∃ h', F.connectNodes E c nm nodes d (some vs) h = (.error .insufficientValues, h') ∧
      h'.subelements c = h.subelements c ++ [h.size] ∧ (h'.get h.size).kind = .edge := by
  rcases F.createHyperedge_cases R hF hc (by rw [hk]; rfl) nm with ⟨hm, _⟩ | ⟨_, h1, hcr, C, R1⟩
  · obtain ⟨x, hx, he⟩ := (R.good.inv.mem_keys_iff _ _).1 hm
    exact absurd he (fresh x hx)
  refine ⟨h1, ?_, ?_, C.kindN⟩
  · unfold Factory.connectNodes
    rw [bind_ok hcr, if_pos (by simp [wrongLength, hl])]; rfl
  · unfold Heap.subelements
    rw [C.subs c hc, if_pos rfl]
    simp [Dict.values]

/-- **C42**, what holds: with a value list of the wrong length `connect_nodes` never returns; it raises
`ErrorInsufficientValues` (or the refusal of the edge itself), no relation and no port is made anywhere, and apart
from the edge left in `c` all containers are unchanged. Missing: `c` keeps the new edge. -/
theorem C42_rejected_values_partial {E : Env} {h : Heap} (R : Reach E h) {F : Factory} (hF : F.clock ≠ none)
    {c : Ref} {nm : Str} {nodes : List Ref} {d : Dir} {vs : List (Option Ref)} (hc : c < h.size)
    (hk : (h.get c).kind = .node) (hl : vs.length ≠ nodes.length) :
    ∃ er h', F.connectNodes E c nm nodes d (some vs) h = (.error er, h') ∧
      (er = .insufficientValues ∨ er = .duplicateElement) ∧
      (∀ y < h.size, y ≠ c → h'.subelements y = h.subelements y) ∧
      (h'.subelements c = h.subelements c ∨ h'.subelements c = h.subelements c ++ [h.size]) ∧
      Reach E h' := by
  rcases F.createHyperedge_cases R hF hc (by rw [hk]; rfl) nm with ⟨hm, h1, hcr, hold, R1⟩ | ⟨_, h1, hcr, C, R1⟩
  · refine ⟨_, h1, ?_, .inr rfl, fun y hy _ => ?_, .inl ?_, R1⟩
    · unfold Factory.connectNodes; rw [bind_err hcr]
    · unfold Heap.subelements; rw [hold y hy]
    · unfold Heap.subelements; rw [hold c hc]
  · refine ⟨.insufficientValues, h1, ?_, .inl rfl, fun y hy hne => ?_, .inr ?_, R1⟩
    · unfold Factory.connectNodes
      rw [bind_ok hcr, if_pos (by simp [wrongLength, hl])]; rfl
    · unfold Heap.subelements
      rw [C.subs y hy, if_neg (by rintro ⟨⟩; exact hne rfl)]
    · unfold Heap.subelements
      rw [C.subs c hc, if_pos rfl]
      simp [Dict.values]

/-! ## The hypotheses are met -/

theorem reach_generateNode {E : Env} {h : Heap} (R : Reach E h) (F : Factory) (hF : F.clock ≠ none)
    {p : Option Ref} (hp : okRef h p) (hk : ∀ q, p = some q → (h.get q).kind ≠ .relation) (nm : Str) :
    Reach E (F.generateNode E nm p h).2 := by
  rcases generateNode_cases R hF hp hk nm with ⟨_, _, _, h', hr, _, r⟩ | ⟨_, h', hr, _, r⟩
  · rw [hr]; exact r
  · rw [hr]; exact r

/-- `0`: a node `r`. -/
def s1 : Heap := (F1.generateNode E1 ['r'] none Heap.empty).2
/-- `1`: a node `a` in it. -/
def s2 : Heap := (F1.generateNode E1 ['a'] (some 0) s1).2
/-- `2`: a node `b` in it. -/
def s3 : Heap := (F1.generateNode E1 ['b'] (some 0) s2).2

theorem reach_s1 : Reach E1 s1 := reach_generateNode .init F1 (by decide) okNone (by rintro q ⟨⟩) _
theorem reach_s2 : Reach E1 s2 :=
  reach_generateNode reach_s1 F1 (by decide) (okSome (by decide +kernel)) (by rintro q ⟨⟩; decide +kernel) _
theorem reach_s3 : Reach E1 s3 :=
  reach_generateNode reach_s2 F1 (by decide) (okSome (by decide +kernel)) (by rintro q ⟨⟩; decide +kernel) _

/-- `connect_nodes` on the nodes `a` and `b`: the hypotheses of `C40_connect_nodes_returns` hold, so the call
returns, and `C40_connect_nodes` applies to it. -/
example : ∃ e h', F1.connectNodes E1 0 ['e'] [1, 2] .inwards none s3 = (.ok e, h') := by
  apply C40_connect_nodes_returns wideSha_injective reach_s3 (by decide) (by decide +kernel) (by decide +kernel)
  · intro n hn
    simp only [List.mem_cons, List.not_mem_nil, or_false] at hn
    rcases hn with rfl | rfl
    · exact ⟨by decide, by decide +kernel, by decide +kernel, ['a'], by decide +kernel, by
        have : s3.subelements 1 = [] := by decide +kernel
        rw [this]; intro x hx; cases hx⟩
    · exact ⟨by decide, by decide +kernel, by decide +kernel, ['b'], by decide +kernel, by
        have : s3.subelements 2 = [] := by decide +kernel
        rw [this]; intro x hx; cases hx⟩
  · decide +kernel
  · rintro vs ⟨⟩
  · decide +kernel

/-- `connect_dir_edges` returns on the same state: `C41_dir_edges_refuted` is not vacuous. -/
example : ∃ e, (F1.connectDir E1 0 ['e'] [1] [2] s3).1 = .ok e := ⟨3, by decide +kernel⟩

/-- `connect_tuple_nodes` with different directions. -/
example : (F1.connectTuples E1 0 ['e'] [{ node := 1, dir := .inwards }, { node := 2, dir := .outwards }] s3).1 = .ok 3 := by
  decide +kernel

/-- `C42_rejected_values_refuted` is not vacuous. -/
example : (F1.connectNodes E1 0 ['e'] [1, 2] .inwards (some [none]) s3).1 = .error .insufficientValues := by
  decide +kernel

/-- A case of C39: the uuid of `a` in `r`. -/
example : (s3.get 1).uuid = uidOf E1 ['f'] ['r', '/', 'a'] 15 := by decide +kernel

end Rei
