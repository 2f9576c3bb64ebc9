import Verif.Spec.Encoding
import Verif.Model.Semantics

/-!
# Code that works only on objects created since a given state
-/
namespace Rei
open PyM

/-- Parent, sub-elements and index of an object all lie at or above `n`. -/
structure ObjIn (n : Nat) (o : Obj) : Prop where
  parent : ∀ p, o.parent = some p → n ≤ p
  subs : ∀ p ∈ o.subs, n ≤ p.2
  index : ∀ p ∈ o.index, ∀ q ∈ p.2, n ≤ q.2

/-- Since `b`, only new objects were touched, and they are not linked into the old hierarchy. -/
structure Region (b h : Heap) : Prop where
  size : b.size ≤ h.size
  old : ∀ y < b.size, h.get y = b.get y
  nlists : b.nlists ≤ h.nlists
  lists : ∀ l < b.nlists, h.lists l = b.lists l
  new : ∀ x, b.size ≤ x → ObjIn b.size (h.get x)

theorem Region.keepsOld {b h : Heap} (r : Region b h) : KeepsOld b h := ⟨r.size, r.old, r.lists⟩

/-- `m` stays in the region, returning or raising; what it returns satisfies `Q`. -/
def Stays (b : Heap) {α : Type} (m : PyM α) (Q : α → Prop) : Prop :=
  ∀ h, Region b h → Region b (m h).2 ∧ ∀ a, (m h).1 = .ok a → Q a

namespace Stays
variable {b : Heap} {α β : Type} {Q : α → Prop} {P : β → Prop}

theorem pure {a : α} (ha : Q a) : Stays b (Pure.pure a : PyM α) Q := fun _ r => ⟨r, by rintro _ ⟨⟩; exact ha⟩
theorem raise (e : Err) : Stays b (PyM.raise e : PyM α) Q := fun _ r => ⟨r, by rintro _ ⟨⟩⟩

theorem bind {m : PyM α} {f : α → PyM β} (hm : Stays b m Q) (hf : ∀ a, Q a → Stays b (f a) P) :
    Stays b (m >>= f) P := by
  intro h r
  obtain ⟨r1, q1⟩ := hm h r
  rw [bind_run]
  cases hr : m h with
  | mk x h1 =>
    rw [hr] at r1 q1
    cases x with
    | error e => exact ⟨r1, by rintro _ ⟨⟩⟩
    | ok a => exact hf a (q1 a rfl) h1 r1

theorem mono {Q' : α → Prop} {m : PyM α} (hm : Stays b m Q) (hQ : ∀ a, Q a → Q' a) : Stays b m Q' :=
  fun h r => ⟨(hm h r).1, fun a ha => hQ a ((hm h r).2 a ha)⟩

theorem ite {c : Prop} [Decidable c] {x y : PyM α} (hx : c → Stays b x Q) (hy : ¬ c → Stays b y Q) :
    Stays b (if c then x else y) Q := by
  split
  · next h => exact hx h
  · next h => exact hy h

theorem obj {x : Ref} (hx : b.size ≤ x) : Stays b (PyM.obj x) (ObjIn b.size) :=
  fun _ r => ⟨r, by rintro _ ⟨⟩; exact r.new x hx⟩

theorem obj' (x : Ref) : Stays b (PyM.obj x) (fun _ => True) := fun _ r => ⟨r, fun _ _ => trivial⟩

theorem modify {x : Ref} {f : Obj → Obj} (hx : b.size ≤ x) (hf : ∀ o, ObjIn b.size o → ObjIn b.size (f o)) :
    Stays b (PyM.modify x f) (fun _ => True) := by
  intro h r
  refine ⟨⟨r.size, ?_, r.nlists, r.lists, ?_⟩, fun _ _ => trivial⟩
  · intro y hy
    rw [modify_run]
    simp only [Heap.get_mod, if_neg (show y ≠ x by omega)]
    exact r.old y hy
  · intro y hy
    rw [modify_run]
    simp only [Heap.get_mod]
    split
    · exact hf _ (r.new x hx)
    · exact r.new y hy

theorem alloc {o : Obj} (ho : ObjIn b.size o) : Stays b (PyM.alloc o) (b.size ≤ ·) := by
  intro h r
  have := r.size
  refine ⟨⟨by rw [alloc_run]; simp; omega, ?_, r.nlists, r.lists, ?_⟩, by rintro _ ⟨⟩; exact r.size⟩
  · intro y hy
    rw [alloc_run]
    simp only [Heap.get_set, if_neg (show y ≠ h.size by omega)]
    exact r.old y hy
  · intro y hy
    rw [alloc_run]
    simp only [Heap.get_set]
    split
    · exact ho
    · exact r.new y hy

theorem void {m : PyM α} (hm : Stays b m Q) : Stays b m.void (fun _ => True) :=
  hm.bind fun _ _ => pure trivial

theorem forEach {xs : List α} {f : α → PyM Unit} (hf : ∀ a ∈ xs, Stays b (f a) fun _ => True) :
    Stays b (PyM.forEach xs f) fun _ => True := by
  induction xs with
  | nil => exact pure trivial
  | cons x xs ih =>
    rw [forEach_cons]
    exact (hf x (by simp)).bind fun _ _ => ih fun a ha => hf a (by simp [ha])

end Stays

theorem Region.same {b h h' : Heap} (r : Region b h) (hs : h'.size = h.size) (hg : h'.get = h.get)
    (hn : h'.nlists = h.nlists) (hl : h'.lists = h.lists) : Region b h' :=
  ⟨by rw [hs]; exact r.size, by rw [hg]; exact r.old, by rw [hn]; exact r.nlists, by rw [hl]; exact r.lists,
    by rw [hg]; exact r.new⟩

theorem Region.mod {b h : Heap} (r : Region b h) {x : Ref} {f : Obj → Obj} (hx : b.size ≤ x)
    (hf : ∀ o, ObjIn b.size o → ObjIn b.size (f o)) : Region b (h.mod x f) :=
  (Stays.modify hx hf h r).1

theorem mem_set {κ α : Type} [DecidableEq κ] {d : Dict κ α} {k : κ} {v : α} {p : κ × α} (h : p ∈ d.set k v) :
    p = (k, v) ∨ p ∈ d := by
  induction d with
  | nil => simpa [Dict.set] using h
  | cons q d ih =>
    obtain ⟨j, w⟩ := q
    unfold Dict.set at h
    split at h
    · rcases List.mem_cons.1 h with h | h
      · exact .inl h
      · exact .inr (by simp [h])
    · rcases List.mem_cons.1 h with h | h
      · exact .inr (by simp [h])
      · rcases ih h with h | h
        · exact .inl h
        · exact .inr (by simp [h])

section
variable {b : Heap}

theorem stays_updateTimestamp (E : Env) {x : Ref} (hx : b.size ≤ x) : Stays b (updateTimestamp E x) fun _ => True := by
  intro h r
  refine ⟨?_, fun _ _ => trivial⟩
  unfold updateTimestamp
  split
  · exact r
  · refine r.mod (x := x) (f := fun o => { o with timestamp := 0 }) hx ?_
    intro o ho; exact ⟨ho.parent, ho.subs, ho.index⟩
  · refine (r.mod (x := x) (f := fun o => { o with timestamp := E.time h.reads }) hx ?_).same rfl rfl rfl rfl
    intro o ho; exact ⟨ho.parent, ho.subs, ho.index⟩

theorem stays_requalify {x : Ref} (hx : b.size ≤ x) : Stays b (requalify x) fun _ => True := by
  intro h r
  refine ⟨?_, fun _ _ => trivial⟩
  unfold requalify
  split
  · exact r
  · next l _ =>
    refine r.mod (x := x) (f := fun o => { o with qualName := Str.join '/' l.reverse }) hx ?_
    intro o ho; exact ⟨ho.parent, ho.subs, ho.index⟩

theorem stays_update (E : Env) {x : Ref} (hx : b.size ≤ x) : Stays b (update E x) fun _ => True := by
  unfold update
  exact (Stays.obj' x).bind fun o _ => .ite
    (fun _ => (stays_updateTimestamp E hx).bind fun _ _ => stays_requalify hx) (fun _ => stays_requalify hx)

theorem stays_updateLoop (E : Env) : ∀ (fuel : Nat) (q : List Ref), (∀ x ∈ q, b.size ≤ x) →
    Stays b (updateLoop E fuel q) fun _ => True := by
  intro fuel
  induction fuel with
  | zero =>
    intro q hq
    cases q with
    | nil => exact .pure trivial
    | cons x q => exact .raise _
  | succ fuel ih =>
    intro q hq
    cases q with
    | nil => exact .pure trivial
    | cons x q =>
      have hx := hq x (by simp)
      unfold updateLoop
      refine (stays_update E hx).bind fun _ _ => (Stays.obj hx).bind fun o ho => ih _ ?_
      intro y hy
      rcases List.mem_append.1 hy with hy | hy
      · exact hq y (by simp [hy])
      · obtain ⟨p, hp, rfl⟩ := List.mem_map.1 hy
        exact ho.subs p hp

theorem stays_updateElement (E : Env) {x : Ref} (hx : b.size ≤ x) : Stays b (updateElement E x) fun _ => True := by
  intro h r
  exact stays_updateLoop E _ _ (by simpa using hx) h r

theorem stays_popSub {c : Ref} (hc : b.size ≤ c) (u : Bytes) : Stays b (popSub c u) (b.size ≤ ·) := by
  unfold popSub
  refine (Stays.obj hc).bind fun o ho => ?_
  split
  · exact .raise _
  · next el he =>
    refine (Stays.modify hc (by
      intro o ho; exact ⟨ho.parent, fun p hp => ho.subs p (Dict.mem_erase.1 hp).1, ho.index⟩)).bind fun _ _ => .pure ?_
    exact ho.subs _ (Dict.mem_of_get? he)

theorem stays_popIndex {c : Ref} (hc : b.size ≤ c) (nm : Str) (u : Bytes) : Stays b (popIndex c nm u) fun _ => True := by
  unfold popIndex
  refine (Stays.obj hc).bind fun o ho => ?_
  split
  · exact .raise _
  · next d hd =>
    refine .ite (fun _ => Stays.modify hc fun o' ho' => ⟨ho'.parent, ho'.subs, ?_⟩) (fun _ => .raise _)
    intro p hp
    rcases mem_set hp with rfl | hp
    · intro q hq
      exact ho.index _ (Dict.mem_of_get? hd) q (Dict.mem_erase.1 hq).1
    · exact ho'.index p hp

theorem stays_release (E : Env) {c x : Ref} (hc : b.size ≤ c) (hx : b.size ≤ x) :
    Stays b (release E c x) fun _ => True := by
  unfold release
  exact (Stays.modify hx (by intro o ho; exact ⟨by rintro p ⟨⟩, ho.subs, ho.index⟩)).bind fun _ _ =>
    (stays_update E hx).bind fun _ _ => .modify hc (by intro o ho; exact ⟨ho.parent, ho.subs, ho.index⟩)

theorem stays_baseRemove (E : Env) {c : Ref} (hc : b.size ≤ c) (u : Bytes) (lim : Option Nat) :
    Stays b (baseRemove E c [] (some u) lim) fun l => ∀ x ∈ l, b.size ≤ x := by
  unfold baseRemove
  refine .ite (fun _ => .pure (by simp)) fun _ => .ite (fun h => absurd rfl h) fun _ => ?_
  exact (stays_popSub hc u).bind fun x hx => (Stays.obj' x).bind fun o _ => (stays_popIndex hc _ u).bind
    fun _ _ => (stays_release E hc hx).bind fun _ _ => .pure (by simpa using hx)

theorem stays_removeElement (E : Env) {c : Ref} (hc : b.size ≤ c) (u : Bytes) (lim : Option Nat) :
    Stays b (removeElement E c [] (some u) lim) fun l => ∀ x ∈ l, b.size ≤ x := by
  unfold removeElement
  refine (Stays.obj' c).bind fun o _ => ?_
  split
  · refine .ite (fun _ => .pure (by simp)) fun _ => (stays_baseRemove E hc u _).bind fun l hl => ?_
    split
    · exact .pure (by simp)
    · refine (Stays.obj' _).bind fun ov _ => (Stays.obj' c).bind fun oc _ => ?_
      split
      · exact .raise _
      · split
        · exact .raise _
        · exact (Stays.modify hc (by intro o ho; exact ⟨ho.parent, ho.subs, ho.index⟩)).bind fun _ _ => .raise _
  · refine .ite (fun _ => .pure (by simp)) fun _ => ?_
    split
    · exact .raise _
    · refine (Stays.obj' _).bind fun oe _ => (stays_popSub hc _).bind fun x hx => ?_
      exact (Stays.modify hc (by intro o ho; exact ⟨ho.parent, ho.subs, ho.index⟩)).bind fun _ _ => .pure (by simpa using hx)
  · exact stays_baseRemove E hc u lim

theorem stays_leaveParent (E : Env) {x : Ref} (hx : b.size ≤ x) : Stays b (leaveParent E x) fun _ => True := by
  unfold leaveParent
  refine (Stays.obj hx).bind fun o ho => ?_
  split
  · exact .pure trivial
  · next p hp =>
    exact (stays_removeElement E (ho.parent p hp) _ _).bind fun l hl => .forEach fun y hy => stays_update E (hl y hy)

theorem stays_indexInsert {c x : Ref} (hc : b.size ≤ c) (hx : b.size ≤ x) :
    Stays b (indexInsert c x) fun _ => True := by
  unfold indexInsert
  refine (Stays.obj' x).bind fun o _ => Stays.modify hc fun oc ho => ⟨ho.parent, ho.subs, ?_⟩
  intro p hp
  rcases mem_set hp with rfl | hp
  · intro q hq
    rcases mem_set hq with rfl | hq
    · exact hx
    · cases hd : oc.index.get? o.idName with
      | none => rw [hd] at hq; cases hq
      | some d => rw [hd] at hq; exact ho.index _ (Dict.mem_of_get? hd) q hq
  · exact ho.index p hp

theorem stays_baseAdd (E : Env) {c x : Ref} (hc : b.size ≤ c) (hx : b.size ≤ x) :
    Stays b (baseAdd E c x) fun _ => True := by
  have simple : ∀ (y : Ref) (f : Obj → Obj), b.size ≤ y → (∀ o, ObjIn b.size o → ObjIn b.size (f o)) →
      Stays b (PyM.modify y f) fun _ => True := fun y f hy hf => .modify hy hf
  unfold baseAdd
  refine .ite (fun _ => .raise _) fun _ => (Stays.obj' x).bind fun o _ => (Stays.obj' c).bind fun oc _ => .ite (fun _ => .raise _) fun _ => ?_
  refine (Stays.modify hc (by
    intro o ho
    refine ⟨ho.parent, ?_, ho.index⟩
    intro p hp
    rcases mem_set hp with rfl | hp
    · exact hx
    · exact ho.subs p hp)).bind fun _ _ => .ite (fun _ => .pure trivial) fun _ => ?_
  refine (stays_indexInsert hc hx).bind fun _ _ => ?_
  refine (simple x _ hx (by intro o ho; exact ⟨ho.parent, ho.subs, ho.index⟩)).bind fun _ _ => ?_
  refine (stays_leaveParent E hx).bind fun _ _ => ?_
  refine (simple x _ hx (by intro o ho; exact ⟨by rintro p ⟨⟩; exact hc, ho.subs, ho.index⟩)).bind fun _ _ => ?_
  refine (Stays.obj' c).bind fun oc _ => ?_
  refine (simple x _ hx (by intro o ho; exact ⟨ho.parent, ho.subs, ho.index⟩)).bind fun _ _ => ?_
  refine (simple c _ hc (by intro o ho; exact ⟨ho.parent, ho.subs, ho.index⟩)).bind fun _ _ => ?_
  refine (simple c _ hc (by intro o ho; exact ⟨ho.parent, ho.subs, ho.index⟩)).bind fun _ _ => ?_
  exact stays_updateElement E hx

theorem stays_connect (E : Env) {n el : Ref} (hn : b.size ≤ n) : Stays b (connect E n el) fun _ => True := by
  unfold connect
  refine (Stays.obj' n).bind fun o _ => .ite (fun _ => ?_) (fun _ => .raise _)
  split
  · exact .raise _
  · refine (Stays.obj' el).bind fun e _ => (Stays.alloc ⟨by rintro p ⟨⟩, by simp [portObj], by simp [portObj]⟩).bind fun p hp => ?_
    exact (Stays.modify hn (by intro o ho; exact ⟨ho.parent, ho.subs, ho.index⟩)).bind fun _ _ => stays_baseAdd E hn hp

theorem stays_addElement (E : Env) {c x : Ref} (hc : b.size ≤ c) (hx : b.size ≤ x) :
    Stays b (addElement E c x) fun _ => True := by
  unfold addElement
  refine (Stays.obj' c).bind fun o _ => ?_
  split
  · exact (stays_baseAdd E hc hx).bind fun _ _ => (Stays.obj' x).bind fun ox _ =>
      .ite (fun _ => stays_connect E hx) (fun _ => .pure trivial)
  · refine (stays_baseAdd E hc hx).bind fun _ _ => (Stays.obj' x).bind fun ox _ =>
      .ite (fun _ => (Stays.obj' c).bind fun oc _ => ?_) (fun _ => .pure trivial)
    split
    · exact .raise _
    · exact .modify hc (by intro o ho; exact ⟨ho.parent, ho.subs, ho.index⟩)
  · exact stays_baseAdd E hc hx

theorem stays_newConceptual (E : Env) (k : Kind) (nm : Str) (u : Bytes) (pn : PName) (ck : Option Clock)
    {p : Option Ref} (hp : ∀ c, p = some c → b.size ≤ c) : Stays b (newConceptual E k nm u pn ck p) (b.size ≤ ·) := by
  unfold newConceptual
  refine .ite (fun _ => .raise _) fun _ => ?_
  refine (Stays.alloc ⟨by rintro p ⟨⟩, by simp [conceptualObj], by simp [conceptualObj]⟩).bind fun x hx => ?_
  refine (stays_updateTimestamp E hx).bind fun _ _ => ?_
  have ha : Stays b (adopt E p x) fun _ => True := by
    unfold adopt
    split
    · exact .pure trivial
    · exact stays_addElement E (hp _ rfl) hx
  refine ha.bind fun _ _ => .ite (fun _ => ?_) fun _ => .pure hx
  exact (Stays.modify hx (by intro o ho; exact ⟨ho.parent, ho.subs, ho.index⟩)).bind fun _ _ => .pure hx

theorem stays_readClock (E : Env) (c : Option Clock) : Stays b (readClock E c) fun _ => True := by
  intro h r
  refine ⟨?_, fun _ _ => trivial⟩
  unfold readClock
  split
  · exact r
  · exact r
  · exact r.same rfl rfl rfl rfl

theorem stays_unaryConnect (E : Env) {e n : Ref} (w : Option Ref) (d : Dir) {sv : Option Ref} (he : b.size ≤ e)
    (hn : b.size ≤ n) (hs : ∀ s, sv = some s → b.size ≤ s) : Stays b (unaryConnect E e n w d sv) (b.size ≤ ·) := by
  unfold unaryConnect
  refine (Stays.obj' e).bind fun o _ => .ite (fun _ => ?_) (fun _ => .raise _)
  refine (Stays.obj' n).bind fun on _ => (stays_readClock E _).bind fun t _ => ?_
  split
  · exact .raise _
  · unfold newRelation
    refine (Stays.alloc ⟨by rintro p ⟨⟩, by simp [relationObj], by simp [relationObj]⟩).bind fun r hr => ?_
    refine (stays_connect E hn).bind fun _ _ => ?_
    have ha : Stays b (attachSem E r sv) fun _ => True := by
      unfold attachSem
      split
      · exact .pure trivial
      · exact stays_addElement E hr (hs _ rfl)
    exact ha.bind fun _ _ => (stays_addElement E he hr).bind fun _ _ => .pure hr

theorem stays_generateUid (E : Env) (F : Factory) (s : Str) : Stays b (F.generateUid E s) fun _ => True :=
  (stays_readClock E _).bind fun _ _ => .pure trivial

theorem stays_stamped (E : Env) (F : Factory) (s : Str) : Stays b (F.stamped E s) fun _ => True :=
  (stays_readClock E _).bind fun _ _ => .pure trivial

theorem stays_stampedIn (E : Env) (F : Factory) (s : Str) (p : Ref) : Stays b (F.stampedIn E s p) fun _ => True :=
  (Stays.obj' p).bind fun _ _ => (stays_readClock E _).bind fun _ _ => .pure trivial

theorem stays_heap : Stays b PyM.heap fun _ => True := fun _ r => ⟨r, fun _ _ => trivial⟩

theorem stays_heap' : Stays b PyM.heap (Region b) := fun _ r => ⟨r, by rintro _ ⟨⟩; exact r⟩

theorem stays_generateNode (E : Env) (F : Factory) (nm : Str) {p : Option Ref} (hp : ∀ c, p = some c → b.size ≤ c) :
    Stays b (F.generateNode E nm p) (b.size ≤ ·) :=
  stays_heap.bind fun _ _ => (stays_generateUid E F _).bind fun _ _ => (stays_stamped E F nm).bind fun _ _ =>
    stays_newConceptual E _ _ _ _ _ hp

theorem stays_createHyperedge (E : Env) (F : Factory) {c : Ref} (hc : b.size ≤ c) (nm : Str) :
    Stays b (F.createHyperedge E c nm) (b.size ≤ ·) :=
  (stays_generateUid E F _).bind fun _ _ => (stays_stampedIn E F nm c).bind fun _ _ => (Stays.obj' c).bind fun o _ =>
    .ite (fun _ => stays_newConceptual E _ _ _ _ _ (by rintro _ ⟨⟩; exact hc)) (fun _ => .raise _)

theorem stays_newList (l : List Rat) : Stays b (newList l) fun _ => True := by
  intro h r
  refine ⟨⟨r.size, r.old, Nat.le_succ_of_le r.nlists, ?_, r.new⟩, fun _ _ => trivial⟩
  intro i hi
  have := r.nlists
  unfold newList
  simp only [if_neg (show i ≠ h.nlists by omega)]
  exact r.lists i hi

theorem stays_newValue (u : Bytes) (nm : Str) (pn : PName) (vs : Option (List Rat)) :
    Stays b (newValue u nm pn vs) (b.size ≤ ·) :=
  (stays_newList _).bind fun _ _ => .alloc ⟨by rintro p ⟨⟩, by simp, by simp⟩

theorem stays_createValue (E : Env) (F : Factory) {p : Option Ref} (hp : ∀ c, p = some c → b.size ≤ c) (nm : Str)
    (vs : Option (List Rat)) : Stays b (F.createValue E p nm vs) (b.size ≤ ·) := by
  unfold Factory.createValue
  refine (stays_generateUid E F _).bind fun u _ => ?_
  split
  · exact (stays_stampedIn E F nm _).bind fun q _ => (stays_newValue u nm q vs).bind fun v hv =>
      (stays_addElement E (hp _ rfl) hv).bind fun _ _ => .pure hv
  · exact (stays_stamped E F nm).bind fun q _ => stays_newValue u nm _ vs

theorem stays_addNamedAttribute {s : Ref} (hs : b.size ≤ s) (k : Str) (a : AttrVal) :
    Stays b (addNamedAttribute s k a) fun _ => True :=
  .modify hs (by intro o ho; exact ⟨ho.parent, ho.subs, ho.index⟩)

theorem stays_generateSemantic (E : Env) (F : Factory) (raw nm : Str) {p : Ref} (hp : b.size ≤ p)
    (attr : Dict Str AttrVal) (vs : Option AttrVal) : Stays b (F.generateSemantic E raw nm p attr vs) (b.size ≤ ·) := by
  unfold Factory.generateSemantic
  refine .ite (fun _ => .raise _) fun _ => (stays_generateUid E F _).bind fun u _ => ?_
  split
  · exact .raise _
  · refine (stays_stampedIn E F nm p).bind fun q _ => ?_
    unfold newSemantic
    refine (Stays.alloc ⟨by rintro p ⟨⟩, by simp, by simp⟩).bind fun x hx => (stays_addElement E hp hx).bind fun _ _ => ?_
    split
    · exact .pure hx
    · exact (stays_addNamedAttribute hx _ _).bind fun _ _ => .pure hx

/-- Looking up a name from a new element finds new elements only. -/
theorem lookupTokens_new {h : Heap} (r : Region b h) : ∀ (ts : List Str) (c : Ref), b.size ≤ c →
    ∀ l, lookupTokens h ts c = .ok l → ∀ x ∈ l, b.size ≤ x := by
  intro ts
  induction ts with
  | nil => intro c _ l hl; cases hl
  | cons t ts ih =>
    intro c hc l hl x hx
    cases ts with
    | nil =>
      unfold lookupTokens at hl
      split at hl
      · cases hl
        obtain ⟨p, hp, rfl⟩ := List.mem_map.1 hx
        cases hd : (h.get c).index.get? t with
        | none => rw [hd] at hp; cases hp
        | some d => rw [hd] at hp; exact (r.new c hc).index _ (Dict.mem_of_get? hd) p hp
      · cases hl
    | cons t' ts =>
      unfold lookupTokens at hl
      split at hl
      · split at hl
        · cases hl
        · next d hd =>
          have hv : ∀ v ∈ d.values, b.size ≤ v := by
            intro v hv
            obtain ⟨p, hp, rfl⟩ := List.mem_map.1 hv
            exact (r.new c hc).index _ (Dict.mem_of_get? hd) p hp
          generalize d.values = vs at hl hv
          have key : ∀ (vs : List Ref), (∀ v ∈ vs, b.size ≤ v) → ∀ L, vs.mapM (lookupTokens h (t' :: ts)) = .ok L →
              ∀ x ∈ L.flatten, b.size ≤ x := by
            intro vs
            induction vs with
            | nil => intro _ L hL x hx; cases hL; cases hx
            | cons v vs ihv =>
              intro hv L hL x hx
              rw [List.mapM_cons] at hL
              cases h1 : lookupTokens h (t' :: ts) v with
              | error e => rw [h1] at hL; cases hL
              | ok a =>
                rw [h1] at hL
                cases h2 : vs.mapM (lookupTokens h (t' :: ts)) with
                | error e => rw [h2] at hL; cases hL
                | ok L' =>
                  rw [h2] at hL
                  cases hL
                  rw [List.flatten_cons] at hx
                  rcases List.mem_append.1 hx with hx | hx
                  · exact ih v (hv v (by simp)) a h1 x hx
                  · exact ihv (fun v hv' => hv v (by simp [hv'])) L' h2 x hx
          cases hm : vs.mapM (lookupTokens h (t' :: ts)) with
          | error e => rw [hm] at hl; cases hl
          | ok L => rw [hm] at hl; cases hl; exact key vs hv L hm x hx
      · cases hl
end

end Rei
