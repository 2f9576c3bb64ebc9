import Verif.Spec.Names
import Verif.Props.Removal

/-!
# C07, C15-C18: qualified names, paths, depth, timestamps, identity
-/
namespace Rei
open PyM Sample

theorem childless_of {h : Heap} (I : Inv h) {x : Ref} (hx : h.subelements x = []) : Childless h x := by
  intro y hy
  have := (I.mem_subelements x y).2 hy
  have hx' : (h.get x).subs.values = [] := hx
  rw [hx'] at this; cases this

theorem ReachLeafDetach.reach {E : Env} {h : Heap} (r : ReachLeafDetach E h) : Reach E h := by
  induction r with
  | init => exact .init
  | step op _ v s _ ih => exact .step op ih v s

theorem ReachTopDown.reach {E : Env} {h : Heap} (r : ReachTopDown E h) : Reach E h := by
  induction r with
  | init => exact .init
  | step op _ v s _ ih => exact .step op ih v s

/-- **C07.** In every state reached by safe calls that detach only elements without sub-elements, every
qualified name is the path of `id_name`s from the root. -/
theorem C07_named_by_path {E : Env} {h : Heap} (r : ReachLeafDetach E h) {x : Ref}
    (hx : x < h.size) : NamedByPath h x := by
  have : Named h := by
    clear hx
    induction r with
    | init => intro x hx; exact absurd hx (Nat.not_lt_zero _)
    | @step h op r v s d ih =>
      have G := r.reach.good
      have I := G.inv
      refine (acts_run (M := ⟨True, True, False⟩) G E v s ?_).named trivial I ?_
      · cases op <;> try trivial
        case remove c nm u lim =>
          exact ⟨trivial, fun _ x hx hc => childless_of I (d x hx hc)⟩
        case deregister x => exact ⟨trivial, fun _ => childless_of I d⟩
        all_goals (intro f; exact f.elim)
      · exact ih
  exact this x hx

/-- **C07 refuted** for removals of elements with sub-elements: the detached element is renamed, those
below it keep their old qualified names. -/
theorem C07_detach_subtree_refuted : ∃ (E : Env) (h : Heap) (c x y : Ref), Reach E h ∧
    x ∈ h.subelements c ∧ y ∈ h.subelements x ∧
    (removeElement E c [] (some (h.get x).uuid) none h).1 = .ok [x] ∧
    NamedByPath h y ∧
    ¬ NamedByPath (removeElement E c [] (some (h.get x).uuid) none h).2 y := by
  refine ⟨E0, g9, 0, 9, 10, reach9, by decide +kernel, by decide +kernel, by decide +kernel,
    ?_, ?_⟩
  · refine ⟨[['r'], ['a'], ['d']], ?_, by decide +kernel⟩
    have p10 : (g9.get 10).parent = some 9 := by decide +kernel
    have p9 : (g9.get 9).parent = some 0 := by decide +kernel
    have p0 : (g9.get 0).parent = none := by decide +kernel
    have n10 : (g9.get 10).idName = ['d'] := by decide +kernel
    have n9 : (g9.get 9).idName = ['a'] := by decide +kernel
    have n0 : (g9.get 0).idName = ['r'] := by decide +kernel
    have a := PathTo.root p0
    have b := PathTo.child p9 a
    have c := PathTo.child p10 b
    rw [n0, n9, n10] at c
    exact c
  · rintro ⟨l, q, e⟩
    have p10 : ((removeElement E0 0 [] (some (g9.get 9).uuid) none g9).2.get 10).parent = some 9 := by
      decide +kernel
    have p9 : ((removeElement E0 0 [] (some (g9.get 9).uuid) none g9).2.get 9).parent = none := by
      decide +kernel
    have a := PathTo.root p9
    have b := PathTo.child p10 a
    have := q.functional b
    subst this
    revert e
    decide +kernel

/-! ## C15 -/

theorem follow_iff {h : Heap} {ts : List Str} {c y : Ref} : y ∈ follow h ts c ↔ Follows h c ts y := by
  induction ts generalizing c with
  | nil => simp only [follow, List.not_mem_nil, false_iff]; intro q; cases q
  | cons t ts ih =>
    cases ts with
    | nil =>
      simp only [follow, List.mem_filter, decide_eq_true_eq]
      constructor
      · rintro ⟨a, b⟩; exact .last a b
      · intro q
        cases q with
        | last a b => exact ⟨a, b⟩
        | next _ _ q => cases q
    | cons t' ts =>
      simp only [follow, List.mem_flatMap, List.mem_filter, decide_eq_true_eq]
      constructor
      · rintro ⟨v, ⟨a, b⟩, q⟩; exact .next a b (ih.1 q)
      · intro q
        cases q with
        | next a b q => exact ⟨_, ⟨a, b⟩, ih.2 q⟩

theorem mapM_ok {α β : Type} {f : α → Except Err β} {g : α → β} (l : List α)
    (hf : ∀ a ∈ l, ∀ b, f a = .ok b → b = g a) {r : List β} (h : l.mapM f = .ok r) : r = l.map g := by
  induction l generalizing r with
  | nil => rw [List.mapM_nil] at h; cases h; rfl
  | cons a l ih =>
    rw [List.mapM_cons] at h
    cases ha : f a with
    | error e => rw [ha] at h; cases h
    | ok b =>
      rw [ha] at h
      cases hl : l.mapM f with
      | error e => rw [hl] at h; cases h
      | ok bs =>
        rw [hl] at h
        cases h
        rw [List.map_cons, ← hf a (by simp) b ha, ih (fun a ha => hf a (List.mem_cons_of_mem _ ha)) hl]

theorem mapM_total {α β : Type} {f : α → Except Err β} {g : α → β} (l : List α)
    (hf : ∀ a ∈ l, f a = .ok (g a)) : l.mapM f = .ok (l.map g) := by
  induction l with
  | nil => rw [List.mapM_nil]; rfl
  | cons a l ih =>
    rw [List.mapM_cons, hf a (by simp), ih fun a ha => hf a (List.mem_cons_of_mem _ ha)]
    rfl

theorem lookup_follow {h : Heap} (I : Inv h) (ts : List Str) (c : Ref) {l : List Ref}
    (hl : lookupTokens h ts c = .ok l) : l = follow h ts c := by
  induction ts generalizing c l with
  | nil => cases hl
  | cons t ts ih =>
    cases ts with
    | nil =>
      simp only [lookupTokens] at hl
      split at hl
      · cases hl; rw [I.moveH_index_named]; rfl
      · cases hl
    | cons t' ts =>
      simp only [lookupTokens] at hl
      split at hl
      · cases hi : (h.get c).index.get? t with
        | none => rw [hi] at hl; cases hl
        | some d =>
          rw [hi] at hl
          simp only at hl
          have hd : d.values = (h.subelements c).filter fun x => decide ((h.get x).idName = t) := by
            have := I.moveH_index_named c t
            rw [hi] at this; exact this
          cases hm : d.values.mapM (lookupTokens h (t' :: ts)) with
          | error e => rw [hm] at hl; cases hl
          | ok r =>
            rw [hm] at hl
            cases hl
            rw [mapM_ok (g := follow h (t' :: ts)) _ (fun a _ b hb => ih a hb) hm, hd]
            simp only [follow, List.flatMap]
      · cases hl

/-- **C15.** When a path lookup yields a list, that list is the ordered list of the elements reached by
following the names; in particular it contains exactly those elements. -/
theorem C15_path_lookup {E : Env} {h : Heap} (r : Reach E h) {c : Ref} {ts : List Str}
    (hne : ts ≠ []) (ht : ∀ t ∈ ts, '/' ∉ t) {l : List Ref}
    (hl : getElementByIdName h c (Str.join '/' ts) = .ok l) :
    l = follow h ts c ∧ ∀ y, y ∈ l ↔ Follows h c ts y := by
  unfold getElementByIdName at hl
  rw [Str.split_join hne ht] at hl
  have e := lookup_follow r.good.inv ts c hl
  exact ⟨e, fun y => by rw [e]; exact follow_iff⟩

/-- **C15.** A path lookup yields a list, without an exception, if on the way every container it comes
to is an item with a name index and has a sub-element with the next name. -/
theorem C15_path_lookup_total {E : Env} {h : Heap} (r : Reach E h) {c : Ref} {ts : List Str} {t : Str}
    (ht : ∀ t' ∈ ts ++ [t], '/' ∉ t') (hc : (h.get c).kind.isConceptual = true)
    (hk : ∀ us v, us <+: ts → Follows h c us v → (h.get v).kind.isConceptual = true)
    (hs : ∀ us u, (us ++ [u]) <+: ts → ∀ v, (us = [] ∧ v = c ∨ Follows h c us v) →
      ∃ w ∈ h.subelements v, (h.get w).idName = u) :
    getElementByIdName h c (Str.join '/' (ts ++ [t])) = .ok (follow h (ts ++ [t]) c) := by
  unfold getElementByIdName
  rw [Str.split_join (by simp) ht]
  have I := r.good.inv
  clear ht
  induction ts generalizing c with
  | nil =>
    simp only [List.nil_append, lookupTokens, hc, if_true, follow]
    rw [I.moveH_index_named]
  | cons s ts ih =>
    have hcons : ∃ t' ts', ts ++ [t] = t' :: ts' := by cases ts <;> simp
    obtain ⟨t', ts', e⟩ := hcons
    rw [List.cons_append, e]
    simp only [lookupTokens, hc, if_true]
    obtain ⟨w, hw, hwn⟩ := hs [] s (by simp) c (.inl ⟨rfl, rfl⟩)
    have hwp := (I.mem_subelements c w).1 hw
    obtain ⟨d, hi, _, _⟩ := I.index_get hwp
    rw [hwn] at hi
    rw [hi]
    simp only
    have hd : d.values = (h.subelements c).filter fun x => decide ((h.get x).idName = s) := by
      have := I.moveH_index_named c s
      rw [hi] at this; exact this
    rw [mapM_total (g := follow h (t' :: ts')), hd]
    · simp only [follow, List.flatMap]; rfl
    · intro v hv
      rw [hd, List.mem_filter] at hv
      have hv2 : (h.get v).idName = s := by simpa using hv.2
      rw [← e]
      apply ih
      · exact hk [s] v (by simp) (.last hv.1 hv2)
      · intro us x hu q
        exact hk (s :: us) x (by simpa using hu) (.next hv.1 hv2 q)
      · intro us u hu x hx
        refine hs (s :: us) u (by simpa using hu) x (.inr ?_)
        rcases hx with ⟨rfl, rfl⟩ | q
        · exact .last hv.1 hv2
        · exact .next hv.1 hv2 q

/-- **C15 refuted**: with a missing intermediate name a path lookup raises `KeyError` instead of
yielding nothing. -/
theorem C15_missing_intermediate_refuted : ∃ (E : Env) (h : Heap) (c : Ref) (ts : List Str), Reach E h ∧
    (∀ y, ¬ Follows h c ts y) ∧ getElementByIdName h c (Str.join '/' ts) = .error .keyError := by
  refine ⟨E0, g3, 0, [['x'], ['y']], reach3, ?_, by decide +kernel⟩
  intro y q
  have : y ∈ follow g3 [['x'], ['y']] 0 := follow_iff.2 q
  revert this
  have : follow g3 [['x'], ['y']] 0 = [] := by decide +kernel
  rw [this]; simp

/-- **C15 refuted**: a path through a relation or port raises `AttributeError`. -/
theorem C15_through_port_refuted : ∃ (E : Env) (h : Heap) (c : Ref) (name : Str), Reach E h ∧
    getElementByIdName h c name = .error .attributeError := by
  refine ⟨E0, (Op.add 2 8).after E0 g7, 2, ['v', '/', 'w'], ?_, by decide +kernel⟩
  refine .step _ reach7 ⟨by decide +kernel, by decide +kernel⟩ ⟨?_, ?_⟩
  · exact not_anc_of_childless reach7.good.inv (by decide +kernel)
  · intro p hp
    have : (g7.get 8).parent = none := by decide +kernel
    rw [this] at hp; cases hp

/-! ## C16 -/

theorem rootIn_iff_height {h : Heap} {x : Ref} {n : Nat} : RootIn h x n ↔ Height h x n := by
  constructor
  · intro q
    induction q with
    | root hp => exact .root hp
    | up hp _ ih => exact .child hp ih
  · intro q
    induction q with
    | root hp => exact .root hp
    | child hp _ ih => exact .up hp ih

/-- **C16.** In every state reached by safe top-down calls, `depth` is the number of containers
above. -/
theorem C16_depth {E : Env} {h : Heap} (r : ReachTopDown E h) {x : Ref} (hx : x < h.size) :
    RootIn h x (h.get x).depth := by
  rw [rootIn_iff_height]
  have : DepthOk h := by
    clear hx
    induction r with
    | init => intro x hx; exact absurd hx (Nat.not_lt_zero _)
    | @step h op r v s d ih =>
      have G := r.reach.good
      have I := G.inv
      refine (acts_run (M := ⟨False, False, True⟩) G E v s ?_).depthOk trivial (fun f => f) I ih
      cases op <;> try trivial
      case add c x => exact fun _ => childless_of I d
      case register x c => exact fun _ => childless_of I d
      case unaryConnect => exact fun _ => d
  exact this x hx

/-- **C16 refuted** when a container with contents is moved: `depth` below it is not adjusted. -/
theorem C16_move_subtree_refuted : ∃ (E : Env) (h : Heap) (op : Op) (x : Ref), ReachTopDown E h ∧
    op.Valid h ∧ op.Safe h ∧ x < h.size ∧ ¬ RootIn (op.after E h) x ((op.after E h).get x).depth := by
  let s1 := (mkNode ['p'] 1 none).after E0 Heap.empty
  let s2 := (mkNode ['q'] 2 (some 0)).after E0 s1
  let s3 := (mkNode ['r'] 3 none).after E0 s2
  have r1 : ReachTopDown E0 s1 := .step _ .init ⟨rfl, okNone⟩ trivial trivial
  have r2 : ReachTopDown E0 s2 := .step _ r1 ⟨rfl, okSome (by decide +kernel)⟩ trivial trivial
  have r3 : ReachTopDown E0 s3 := .step _ r2 ⟨rfl, okNone⟩ trivial trivial
  refine ⟨E0, s3, .add 2 0, 1, r3, ⟨by decide +kernel, by decide +kernel⟩, ⟨?_, ?_⟩, by decide +kernel, ?_⟩
  · intro q
    cases q with
    | direct hp =>
      have : (s3.get 2).parent = none := by decide +kernel
      rw [this] at hp; cases hp
    | up hp _ =>
      have : (s3.get 2).parent = none := by decide +kernel
      rw [this] at hp; cases hp
  · intro p hp
    have : (s3.get 0).parent = none := by decide +kernel
    rw [this] at hp; cases hp
  · have d1 : (((Op.add 2 0).after E0 s3).get 1).depth = 1 := by decide +kernel
    have p1 : (((Op.add 2 0).after E0 s3).get 1).parent = some 0 := by decide +kernel
    have p0 : (((Op.add 2 0).after E0 s3).get 0).parent = some 2 := by decide +kernel
    rw [d1]
    intro q
    cases q with
    | up hp q =>
      rw [p1] at hp; cases hp
      cases q with
      | root hp => rw [p0] at hp; cases hp

/-! ## C17 -/

/-- Every timestamp is the old one, or a reading taken in between, or zero for a dummy clock. -/
def Stamped (E : Env) (h h' : Heap) : Prop :=
  ∀ x < h.size, (h'.get x).timestamp = (h.get x).timestamp ∨
    ((h.get x).clock = some .dummy ∧ (h'.get x).timestamp = 0) ∨
    ((h.get x).clock = some .local ∧
      ∃ k, h.reads ≤ k ∧ k < h'.reads ∧ (h'.get x).timestamp = E.time k)

theorem Prim.stamped {E : Env} {h h' : Heap} (p : Prim E True h h') : Stamped E h h' := by
  intro x hx
  cases p with
  | field y f hf =>
    left
    simp only [Heap.get_mod]
    split
    · next e => subst e; exact (hf _).timestamp
    · rfl
  | stampDummy y hc =>
    simp only [Heap.get_mod]
    split
    · next e => subst e; exact .inr (.inl ⟨hc, rfl⟩)
    · exact .inl rfl
  | stampLocal y hc =>
    simp only [Heap.get_mod]
    split
    · next e => subst e; exact .inr (.inr ⟨hc, h.reads, Nat.le_refl _, Nat.lt_succ_self _, rfl⟩)
    · exact .inl rfl
  | read => exact .inl rfl
  | alloc o ht _ =>
    left
    simp only [Heap.get_set]
    rw [if_neg (Nat.ne_of_lt hx)]
  | lists => exact .inl rfl

theorem Stamped.trans {E : Env} {a b c : Heap} (p : Stamped E a b) (q : Stamped E b c)
    (K : Keeps a b) (K' : Keeps b c) : Stamped E a c := by
  intro x hx
  have hx' : x < b.size := Nat.lt_of_lt_of_le hx K.size
  rcases q x hx' with e | ⟨e, t⟩ | ⟨e, k, k1, k2, t⟩
  · rcases p x hx with e' | ⟨e', t'⟩ | ⟨e', k', k1', k2', t'⟩
    · exact .inl (e.trans e')
    · exact .inr (.inl ⟨e', e.trans t'⟩)
    · exact .inr (.inr ⟨e', k', k1', Nat.lt_of_lt_of_le k2' K'.reads, e.trans t'⟩)
  · exact .inr (.inl ⟨by rw [← K.clock x hx]; exact e, t⟩)
  · exact .inr (.inr ⟨by rw [← K.clock x hx]; exact e, k, Nat.le_trans K.reads k1, k2, t⟩)

theorem Steps.stamped {E : Env} {h h' : Heap} (s : Steps E True h h') : Stamped E h h' := by
  induction s with
  | refl => exact fun _ _ => .inl rfl
  | tail s p ih => exact ih.trans p.stamped s.keeps p.keeps

/-- **C17.** A call changes a timestamp only to a reading of that element's clock taken during the
call (`0` for the dummy clock). -/
theorem C17_stamp_is_reading (E : Env) (op : Op) (hop : ∀ x c, op ≠ .setClock x c) (h : Heap) {x : Ref}
    (hx : x < h.size) :
    ((op.after E h).get x).timestamp = (h.get x).timestamp ∨
    ((h.get x).clock = some .dummy ∧ ((op.after E h).get x).timestamp = 0) ∨
    ((h.get x).clock = some .local ∧
      ∃ k, h.reads ≤ k ∧ k < (op.after E h).reads ∧ ((op.after E h).get x).timestamp = E.time k) :=
  (frames_run E op hop h).stamped x hx

/-- What holds of timestamps as long as no clock is replaced. -/
def ClockInv (E : Env) (h : Heap) : Prop :=
  ∀ x < h.size, ((h.get x).clock = some .dummy → (h.get x).timestamp = 0) ∧
    ((h.get x).timestamp = 0 ∨ ∃ k < h.reads, (h.get x).timestamp = E.time k)

theorem Prim.clockInv {E : Env} {h h' : Heap} (p : Prim E True h h') (C : ClockInv E h) : ClockInv E h' := by
  have old : ∀ x < h.size, ((h'.get x).clock = some .dummy → (h'.get x).timestamp = 0) ∧
      ((h'.get x).timestamp = 0 ∨ ∃ k < h'.reads, (h'.get x).timestamp = E.time k) := by
    intro x hx
    have K := p.keeps
    rcases p.stamped x hx with e | ⟨e, t⟩ | ⟨e, k, _, k2, t⟩
    · rw [e, K.clock x hx]
      refine ⟨(C x hx).1, ?_⟩
      rcases (C x hx).2 with z | ⟨k, hk, z⟩
      · exact .inl z
      · exact .inr ⟨k, Nat.lt_of_lt_of_le hk K.reads, z⟩
    · exact ⟨fun _ => t, .inl t⟩
    · refine ⟨fun q => ?_, .inr ⟨k, k2, t⟩⟩
      rw [K.clock x hx, e] at q; cases q
  intro x hx
  by_cases hl : x < h.size
  · exact old x hl
  · cases p with
    | alloc o ht _ =>
      have : x = h.size := by
        change x < h.size + 1 at hx; omega
      subst this
      simp only [Heap.get_set, if_true]
      exact ⟨fun _ => ht, .inl ht⟩
    | field => exact absurd hx hl
    | stampDummy => exact absurd hx hl
    | stampLocal => exact absurd hx hl
    | read => exact absurd hx hl
    | lists => exact absurd hx hl

theorem Steps.clockInv {E : Env} {h h' : Heap} (s : Steps E True h h') (C : ClockInv E h) :
    ClockInv E h' := by
  induction s with
  | refl => exact C
  | tail _ p ih => exact p.clockInv ih

theorem LaterSameClocks.steps {E : Env} {h h' : Heap} (l : LaterSameClocks E h h') : Steps E True h h' := by
  induction l with
  | refl => exact .refl _
  | step op _ _ hop ih => exact ih.trans (frames_run E op hop _)

/-- **C17.** Under a clock whose readings never decrease, over any history that starts from the empty
program and never replaces a clock, no timestamp ever decreases. -/
theorem C17_timestamp_monotone {E : Env} (ht : ∀ i j, i ≤ j → E.time i ≤ E.time j) {h h' : Heap}
    (r : LaterSameClocks E Heap.empty h) (l : LaterSameClocks E h h') {x : Ref} (hx : x < h.size) :
    (h.get x).timestamp ≤ (h'.get x).timestamp := by
  have C : ClockInv E h := r.steps.clockInv (fun x hx => absurd hx (Nat.not_lt_zero _))
  rcases l.steps.stamped x hx with e | ⟨e, t⟩ | ⟨_, k, k1, _, t⟩
  · rw [e]
  · rw [(C x hx).1 e]; exact Nat.zero_le _
  · rcases (C x hx).2 with z | ⟨k', hk', z⟩
    · rw [z]; exact Nat.zero_le _
    · rw [z, t]; exact ht _ _ (by omega)

/-- **C17.** A constructor without a clock raises `ErrorClockNotSet` and attaches nothing. -/
theorem C17_no_clock (E : Env) (h : Heap) (k : Kind) (nm : Str) (u : Bytes) (pn : PName)
    (p : Option Ref) : newConceptual E k nm u pn none p h = (.error .clockNotSet, h) := rfl

/-- **C17 refuted** when a clock is replaced: switching to the dummy clock sets the timestamp back. -/
theorem C17_clock_replaced_refuted : ∃ (E : Env) (h h' : Heap) (x : Ref),
    (∀ i j, i ≤ j → E.time i ≤ E.time j) ∧ Reach E h ∧ Later E h h' ∧ Reach E h' ∧ x < h.size ∧
    (h'.get x).timestamp < (h.get x).timestamp := by
  -- the edge `3` (local clock) is moved below node `a`, its clock is replaced, it is deregistered
  let t1 := (Op.add 1 3).after E0 g5
  have vt : (Op.add 1 3).Valid g5 := ⟨by decide +kernel, by decide +kernel⟩
  have st : (Op.add 1 3).Safe g5 := by
    have p1 : (g5.get 1).parent = some 0 := by decide +kernel
    have p0 : (g5.get 0).parent = none := by decide +kernel
    have p3 : (g5.get 3).parent = some 0 := by decide +kernel
    constructor
    · intro q
      cases q with
      | direct hp => rw [p1] at hp; cases hp
      | up hp q =>
        rw [p1] at hp; cases hp
        cases q with
        | direct hp => rw [p0] at hp; cases hp
        | up hp _ => rw [p0] at hp; cases hp
    · intro p hp
      rw [p3] at hp; cases hp
      exact ⟨by decide +kernel, by decide +kernel⟩
  have rt : Reach E0 t1 := .step _ reach5 vt st
  let t2 := (Op.setClock 3 (some .dummy)).after E0 t1
  have vt2 : (Op.setClock 3 (some .dummy)).Valid t1 := show 3 < t1.size by decide +kernel
  have rt2 : Reach E0 t2 := .step _ rt vt2 (by show some Clock.dummy ≠ none; simp)
  let t3 := (Op.deregister 3).after E0 t2
  have vt3 : (Op.deregister 3).Valid t2 := show 3 < t2.size by decide +kernel
  have st3 : (Op.deregister 3).Safe t2 := by
    intro p hp
    have p3 : (t2.get 3).parent = some 1 := by decide +kernel
    rw [p3] at hp; cases hp; decide +kernel
  refine ⟨E0, t1, t3, 3, ?_, rt, .step _ (.step _ (.refl _) vt2) vt3, .step _ rt2 vt3 st3,
    by decide +kernel, by decide +kernel⟩
  intro i j hij
  show 5 * i ≤ 5 * j
  omega

/-! ## C18 -/

/-- **C18.** `uuid`, `id_name` and `progenitor_qualified_name` (and the class) of an object never
change, whatever calls are made, successful or not, safe or not. -/
theorem C18_identity_immutable {E : Env} {h h' : Heap} (l : Later E h h') {x : Ref} (hx : x < h.size) :
    x < h'.size ∧ (h'.get x).uuid = (h.get x).uuid ∧ (h'.get x).idName = (h.get x).idName ∧
    (h'.get x).progenitor = (h.get x).progenitor ∧ (h'.get x).kind = (h.get x).kind := by
  induction l with
  | refl => exact ⟨hx, rfl, rfl, rfl, rfl⟩
  | @step h' op l v ih =>
    obtain ⟨a, b, c, d, e⟩ := ih
    by_cases hop : ∃ x k, op = .setClock x k
    · obtain ⟨y, k, rfl⟩ := hop
      have e0 : (Op.setClock y k).after E h' = h'.mod y fun o => { o with clock := k } := rfl
      rw [e0]
      refine ⟨a, ?_⟩
      simp only [Heap.get_mod]
      split
      · next e' => subst e'; exact ⟨b, c, d, e⟩
      · exact ⟨b, c, d, e⟩
    · have K := (frames_run E op (fun x k e => hop ⟨x, k, e⟩) h').keeps
      exact ⟨Nat.lt_of_lt_of_le a K.size, (K.uuid x a).trans b, (K.idName x a).trans c,
        (K.progenitor x a).trans d, (K.kind x a).trans e⟩

/-! ### Instances -/

example : follow g10 [['a'], ['d']] 0 = [10] ∧
    getElementByIdName g10 0 (Str.join '/' [['a'], ['d']]) = .ok [10] ∧
    (g10.get 10).depth = 2 := by decide +kernel

end Rei
