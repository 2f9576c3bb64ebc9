import Verif.Model.System

/-!
# Framing: every method is a sequence of primitive writes

`Prim E L` lists the kinds of writes the code performs; `Steps E L` is its reflexive transitive closure.
Every modelled method, whether it returns or raises, takes the heap along `Steps E L`.
-/
namespace Rei
open PyM

/-- The fields no method ever writes after construction, the add counter, which never goes down, and
the value list and the attributes, written only if `L` (calls on value nodes). -/
structure SameIdent (L : Prop) (o o' : Obj) : Prop where
  kind : o'.kind = o.kind
  uuid : o'.uuid = o.uuid
  idName : o'.idName = o.idName
  progenitor : o'.progenitor = o.progenitor
  clock : o'.clock = o.clock
  timestamp : o'.timestamp = o.timestamp
  direction : o'.direction = o.direction
  weight : o'.weight = o.weight
  genCtx : o.genCtx.isSome = true → o'.genCtx.isSome = true
  hist : o.hist ≤ o'.hist
  dim : o'.dim = o.dim
  vals : L ∨ o'.vals = o.vals
  attrs : L ∨ o'.attrs = o.attrs

/-- One primitive write. -/
inductive Prim (E : Env) (L : Prop) : Heap → Heap → Prop
  | field (h : Heap) (x : Ref) (f : Obj → Obj) (hf : ∀ o, SameIdent L o (f o)) : Prim E L h (h.mod x f)
  | stampDummy (h : Heap) (x : Ref) (hc : (h.get x).clock = some .dummy) :
      Prim E L h (h.mod x fun o => { o with timestamp := 0 })
  | stampLocal (h : Heap) (x : Ref) (hc : (h.get x).clock = some .local) :
      Prim E L h { (h.mod x fun o => { o with timestamp := E.time h.reads }) with
        reads := h.reads + 1 }
  | read (h : Heap) : Prim E L h { h with reads := h.reads + 1 }
  | alloc (h : Heap) (o : Obj) (ht : o.timestamp = 0) (hk : L ∨ o.kind ≠ .value) :
      Prim E L h { (h.set h.size o) with size := h.size + 1 }
  | lists (h : Heap) (hL : L) (n : Nat) (hn : h.nlists ≤ n) (ls : Nat → List Rat) :
      Prim E L h { h with nlists := n, lists := ls }

/-- Sequences of primitive writes. -/
inductive Steps (E : Env) (L : Prop) : Heap → Heap → Prop
  | refl (h : Heap) : Steps E L h h
  | tail {h h' h'' : Heap} : Steps E L h h' → Prim E L h' h'' → Steps E L h h''

theorem Steps.single {E : Env} {L : Prop} {h h' : Heap} (p : Prim E L h h') : Steps E L h h' :=
  .tail (.refl h) p

theorem Steps.trans {E : Env} {L : Prop} {h h' h'' : Heap} (a : Steps E L h h') (b : Steps E L h' h'') :
    Steps E L h h'' := by
  induction b with
  | refl => exact a
  | tail _ p ih => exact .tail ih p

/-- `m` takes the heap along primitive writes, returning or raising. -/
def Frames (E : Env) (L : Prop) {α : Type} (m : PyM α) : Prop := ∀ h, Steps E L h (m h).2

namespace Frames
variable {E : Env} {L : Prop} {α β : Type}

theorem pure (a : α) : Frames E L (Pure.pure a : PyM α) := fun h => .refl h
theorem raise (e : Err) : Frames E L (PyM.raise e : PyM α) := fun h => .refl h
theorem heap : Frames E L PyM.heap := fun h => .refl h
theorem obj (r : Ref) : Frames E L (PyM.obj r) := fun h => .refl h
theorem modify (x : Ref) (f : Obj → Obj) (hf : ∀ o, SameIdent L o (f o)) :
    Frames E L (PyM.modify x f) := fun h => .single (.field h x f hf)
theorem alloc (o : Obj) (ht : o.timestamp = 0) (hk : L ∨ o.kind ≠ .value) :
    Frames E L (PyM.alloc o) := fun h => .single (.alloc h o ht hk)

theorem bind {m : PyM α} {f : α → PyM β} (hm : Frames E L m) (hf : ∀ a, Frames E L (f a)) :
    Frames E L (m >>= f) := by
  intro h
  rw [bind_run]
  have := hm h
  revert this
  cases hh : m h with
  | mk r h' =>
    intro this
    cases r with
    | ok a => exact this.trans (hf a h')
    | error e => exact this

theorem ite {c : Prop} [Decidable c] {a b : PyM α} (ha : Frames E L a) (hb : Frames E L b) :
    Frames E L (if c then a else b) := by split <;> assumption

theorem forEach {xs : List β} {f : β → PyM Unit} (hf : ∀ a, Frames E L (f a)) :
    Frames E L (PyM.forEach xs f) := by
  induction xs with
  | nil => exact .pure ()
  | cons x xs ih => exact .bind (hf x) fun _ => ih

end Frames

macro "same_ident" : tactic => `(tactic| (intro o; constructor <;> first | rfl | exact id | exact fun _ => rfl | exact Nat.le_refl _ | exact Nat.le_succ _ | exact .inr rfl | exact .inl ‹_›))

theorem frames_updateTimestamp (E : Env) {L : Prop} (x : Ref) : Frames E L (updateTimestamp E x) := by
  intro h
  unfold updateTimestamp
  split
  · exact .refl h
  · exact .single (.stampDummy h x ‹_›)
  · exact .single (.stampLocal h x ‹_›)

theorem frames_requalify (E : Env) {L : Prop} (x : Ref) : Frames E L (requalify x) := by
  intro h
  unfold requalify
  split
  · exact .refl h
  · exact .single (.field h x (fun o => { o with qualName := _ }) (by same_ident))

theorem frames_update (E : Env) {L : Prop} (x : Ref) : Frames E L (update E x) := by
  unfold update
  refine .bind (.obj x) fun o => .ite ?_ (frames_requalify E x)
  exact .bind (frames_updateTimestamp E x) fun _ => frames_requalify E x

theorem frames_updateLoop (E : Env) {L : Prop} (fuel : Nat) (q : List Ref) : Frames E L (updateLoop E fuel q) := by
  induction fuel generalizing q with
  | zero => cases q with
    | nil => simp only [updateLoop]; exact .pure ()
    | cons => simp only [updateLoop]; exact .raise _
  | succ n ih => cases q with
    | nil => simp only [updateLoop]; exact .pure ()
    | cons x q =>
      simp only [updateLoop]
      exact .bind (frames_update E x) fun _ => .bind (.obj x) fun _ => ih _

theorem frames_updateElement (E : Env) {L : Prop} (x : Ref) : Frames E L (updateElement E x) :=
  fun h => frames_updateLoop E _ _ h

theorem frames_popSub (E : Env) {L : Prop} (c : Ref) (u : Bytes) : Frames E L (popSub c u) := by
  unfold popSub
  refine .bind (.obj c) fun o => ?_
  split
  · exact .raise _
  · exact .bind (.modify _ _ (by same_ident)) fun _ => .pure _

theorem frames_popIndex (E : Env) {L : Prop} (c : Ref) (n : Str) (u : Bytes) : Frames E L (popIndex c n u) := by
  unfold popIndex
  refine .bind (.obj c) fun o => ?_
  split
  · exact .raise _
  · exact .ite (.modify _ _ (by same_ident)) (.raise _)

theorem frames_release (E : Env) {L : Prop} (c el : Ref) : Frames E L (release E c el) := by
  unfold release
  exact .bind (.modify _ _ (by same_ident)) fun _ => .bind (frames_update E el) fun _ =>
    .modify _ _ (by same_ident)

theorem frames_removeNamed (E : Env) {L : Prop} (c : Ref) (vs : List Ref) (lim : Option Nat) :
    Frames E L (removeNamed E c vs lim) := by
  induction vs generalizing lim with
  | nil => simp only [removeNamed]; exact .pure _
  | cons v vs ih =>
    simp only [removeNamed]
    refine .ite (.pure _) ?_
    exact .bind (.obj v) fun _ => .bind (frames_popSub E c _) fun _ =>
      .bind (frames_release E c _) fun _ => .bind (ih _) fun _ => .pure _

theorem frames_baseRemove (E : Env) {L : Prop} (c : Ref) (n : Str) (u : Option Bytes) (lim : Option Nat) :
    Frames E L (baseRemove E c n u lim) := by
  unfold baseRemove
  refine .ite (.pure _) (.ite ?_ ?_)
  · split
    · exact .bind (frames_popSub E c _) fun _ => .bind (frames_popIndex E c _ _) fun _ =>
        .bind (frames_release E c _) fun _ => .pure _
    · refine .bind (.obj c) fun _ => ?_
      split
      · exact .raise _
      · exact .bind (.modify _ _ (by same_ident)) fun _ => frames_removeNamed E c _ _
  · split
    · exact .bind (frames_popSub E c _) fun _ => .bind (.obj _) fun _ =>
        .bind (frames_popIndex E c _ _) fun _ => .bind (frames_release E c _) fun _ => .pure _
    · exact .raise _

theorem frames_removeElement (E : Env) {L : Prop} (c : Ref) (n : Str) (u : Option Bytes) (lim : Option Nat) :
    Frames E L (removeElement E c n u lim) := by
  unfold removeElement
  refine .bind (.obj c) fun o => ?_
  split
  · refine .ite (.pure _) (.bind (frames_baseRemove E c _ _ _) fun r => ?_)
    split
    · exact .pure _
    · refine .bind (.obj _) fun _ => .bind (.obj _) fun _ => ?_
      split
      · exact .raise _
      · split
        · exact .raise _
        · exact .bind (.modify _ _ (by same_ident)) fun _ => .raise _
  · refine .ite (.pure _) ?_
    split
    · exact .raise _
    · exact .bind (.obj _) fun _ => .bind (frames_popSub E c _) fun _ =>
        .bind (.modify _ _ (by same_ident)) fun _ => .pure _
  · exact frames_baseRemove E c n u lim

theorem frames_leaveParent (E : Env) {L : Prop} (x : Ref) : Frames E L (leaveParent E x) := by
  unfold leaveParent
  refine .bind (.obj x) fun o => ?_
  split
  · exact .pure _
  · exact .bind (frames_removeElement E _ _ _ _) fun _ => .forEach fun a => frames_update E a

theorem frames_baseAdd (E : Env) {L : Prop} (c x : Ref) : Frames E L (baseAdd E c x) := by
  unfold baseAdd
  refine .ite (.raise _) (.bind (.obj x) fun _ => .bind (.obj c) fun _ => .ite (.raise _) ?_)
  refine .bind (.modify _ _ (by same_ident)) fun _ => .ite (.pure _) ?_
  unfold indexInsert
  exact .bind (.bind (.obj x) fun _ => .modify _ _ (by same_ident)) fun _ =>
    .bind (.modify _ _ (by same_ident)) fun _ => .bind (frames_leaveParent E x) fun _ =>
    .bind (.modify _ _ (by same_ident)) fun _ => .bind (.obj c) fun _ =>
    .bind (.modify _ _ (by same_ident)) fun _ => .bind (.modify _ _ (by same_ident)) fun _ =>
    .bind (.modify _ _ (by same_ident)) fun _ => frames_updateElement E x

theorem frames_connect (E : Env) {L : Prop} (n el : Ref) : Frames E L (connect E n el) := by
  unfold connect
  refine .bind (.obj n) fun o => .ite ?_ (.raise _)
  split
  · exact .raise _
  · exact .bind (.obj el) fun _ => .bind (.alloc _ rfl (.inr Kind.noConfusion)) fun _ =>
      .bind (.modify _ _ (by same_ident)) fun _ => frames_baseAdd E n _

theorem frames_disconnect (E : Env) {L : Prop} (n el : Ref) : Frames E L (disconnect E n el) := by
  unfold disconnect
  refine .bind (.obj n) fun o => .ite ?_ (.raise _)
  split
  · exact .raise _
  · refine .bind (.obj el) fun _ => ?_
    split
    · exact .raise _
    · exact .bind (.modify _ _ (by same_ident)) fun _ => .bind (.obj _) fun _ =>
        .bind (frames_removeElement E _ _ _ _) fun _ => .pure _

theorem frames_addElement (E : Env) {L : Prop} (c x : Ref) : Frames E L (addElement E c x) := by
  unfold addElement
  refine .bind (.obj c) fun o => ?_
  split
  · exact .bind (frames_baseAdd E c x) fun _ => .bind (.obj x) fun _ =>
      .ite (frames_connect E x c) (.pure _)
  · refine .bind (frames_baseAdd E c x) fun _ => .bind (.obj x) fun _ => .ite ?_ (.pure _)
    refine .bind (.obj c) fun _ => ?_
    split
    · exact .raise _
    · exact .modify _ _ (by same_ident)
  · exact frames_baseAdd E c x

theorem frames_deregister (E : Env) {L : Prop} (x : Ref) : Frames E L (deregister E x) :=
  .bind (.obj x) fun _ => .ite (frames_leaveParent E x) (.raise _)

theorem frames_register (E : Env) {L : Prop} (x c : Ref) : Frames E L (register E x c) :=
  .bind (.obj x) fun _ => .ite (frames_addElement E c x) (.raise _)

theorem frames_adopt (E : Env) {L : Prop} (p : Option Ref) (x : Ref) : Frames E L (adopt E p x) := by
  unfold adopt
  split
  · exact .pure _
  · exact frames_addElement E _ x

theorem frames_attachSem (E : Env) {L : Prop} (r : Ref) (sv : Option Ref) : Frames E L (attachSem E r sv) := by
  unfold attachSem
  split
  · exact .pure _
  · exact frames_addElement E r _

theorem frames_newConceptual (E : Env) {L : Prop} (k : Kind) (nm : Str) (u : Bytes) (pn : PName)
    (ck : Option Clock) (p : Option Ref) (hk : L ∨ k ≠ .value) : Frames E L (newConceptual E k nm u pn ck p) := by
  unfold newConceptual
  refine .ite (.raise _) (.bind (.alloc _ rfl hk) fun x => .bind (frames_updateTimestamp E x) fun _ => ?_)
  exact .bind (frames_adopt E p x) fun _ =>
      .ite (.bind (.modify _ _ (by same_ident)) fun _ => .pure _) (.pure _)

theorem frames_readClock (E : Env) {L : Prop} (c : Option Clock) : Frames E L (readClock E c) := by
  intro h
  unfold readClock
  split
  · exact .refl h
  · exact .refl h
  · exact .single (.read h)

theorem frames_newList (E : Env) {L : Prop} (hL : L) (l : List Rat) : Frames E L (newList l) :=
  fun h => .single (.lists h hL _ (Nat.le_succ _) _)

theorem frames_newRelation (E : Env) {L : Prop} (u : Bytes) (nm : Str) (pn : PName) (ep w : Option Ref)
    (d : Dir) (sv : Option Ref) : Frames E L (newRelation u nm pn ep w d sv) := .alloc _ rfl (.inr Kind.noConfusion)

theorem frames_newPort (E : Env) {L : Prop} (u : Bytes) (nm : Str) (pn : PName) (ep : Option Ref) :
    Frames E L (newPort u nm pn ep) := .alloc _ rfl (.inr Kind.noConfusion)

theorem frames_newSemantic (E : Env) {L : Prop} (k : SemKind) (u : Bytes) (nm : Str) (pn : PName)
    (a : Dict Str AttrVal) : Frames E L (newSemantic k u nm pn a) := .alloc _ rfl (.inr Kind.noConfusion)

theorem frames_newValue (E : Env) {L : Prop} (hL : L) (u : Bytes) (nm : Str) (pn : PName) (vs : Option (List Rat)) :
    Frames E L (newValue u nm pn vs) :=
  .bind (frames_newList E hL _) fun _ => .alloc _ rfl (.inl hL)

theorem frames_unaryConnect (E : Env) {L : Prop} (e n : Ref) (w : Option Ref) (d : Dir) (sv : Option Ref) :
    Frames E L (unaryConnect E e n w d sv) := by
  unfold unaryConnect
  refine .bind (.obj e) fun _ => .ite ?_ (.raise _)
  refine .bind (.obj n) fun _ => .bind (frames_readClock E _) fun _ => ?_
  split
  · exact .raise _
  · exact .bind (frames_newRelation E _ _ _ _ _ _ _) fun r => .bind (frames_connect E n r) fun _ =>
      .bind (frames_attachSem E r sv) fun _ => .bind (frames_addElement E e r) fun _ => .pure _

theorem frames_setListItem (E : Env) {L : Prop} (hL : L) (l : Nat) (i : Int) (q : Rat) :
    Frames E L (setListItem l i q) := by
  intro h
  unfold setListItem
  split
  · exact .refl h
  · exact .single (.lists h hL _ (Nat.le_refl _) _)

theorem frames_void {E : Env} {L : Prop} {α : Type} {m : PyM α} (hm : Frames E L m) : Frames E L m.void :=
  .bind hm fun _ => .pure _

/-- Calls that write value lists or attributes, or create value nodes. -/
def Op.TouchesValues : Op → Prop
  | .mkItem k .. => k = .value
  | .mkValue .. | .mkList _ | .setItem .. | .appendItem .. | .updateValue .. | .updateValues ..
  | .getValues _ | .addAttr .. | .removeAttr .. => True
  | _ => False

/-- Every call except the clock setter is a sequence of primitive writes. -/
theorem frames_run' (E : Env) {L : Prop} (op : Op) (hop : ∀ x c, op ≠ .setClock x c)
    (hL : L ∨ ¬ op.TouchesValues) : Frames E L (op.run E) := by
  have hL' : op.TouchesValues → L := fun t => hL.resolve_right fun n => n t
  cases op <;> simp only [Op.run]
  case setClock x c => exact absurd rfl (hop x c)
  case mkItem => exact frames_void (by apply frames_newConceptual; exact hL)
  case mkRelation => exact frames_void (by apply frames_newRelation)
  case mkPort => exact frames_void (by apply frames_newPort)
  case mkValue => exact frames_void (by apply frames_newValue; exact hL' trivial)
  case mkSemantic => exact frames_void (by apply frames_newSemantic)
  case mkList => exact frames_void (by apply frames_newList; exact hL' trivial)
  case add => apply frames_addElement
  case remove => exact frames_void (by apply frames_removeElement)
  case register => apply frames_register
  case deregister => apply frames_deregister
  case connect => apply frames_connect
  case disconnect => apply frames_disconnect
  case unaryConnect => exact frames_void (by apply frames_unaryConnect)
  case setItem => apply frames_setListItem; exact hL' trivial
  case appendItem => exact fun h => .single (.lists h (hL' trivial) _ (Nat.le_refl _) _)
  case updateValue => exact .bind (.obj _) fun _ => frames_setListItem E (hL' trivial) _ _ _
  case updateValues => have := hL' trivial; exact .modify _ _ (by same_ident)
  case getValues => exact frames_void fun h => frames_newList E (hL' trivial) _ h
  case addAttr => have := hL' trivial; exact .modify _ _ (by same_ident)
  case removeAttr =>
    have := hL' trivial
    exact .bind (.obj _) fun _ => .ite (.modify _ _ (by same_ident)) (.pure _)
  case readClock => exact frames_void (frames_readClock E _)
  case setSem => exact .modify _ _ (by same_ident)

/-- Every call except the clock setter is a sequence of primitive writes. -/
theorem frames_run (E : Env) (op : Op) (hop : ∀ x c, op ≠ .setClock x c) :
    Frames E True (op.run E) := frames_run' E op hop (.inl trivial)

/-- What primitive writes never change: objects persist, with their identity. -/
structure Keeps (h h' : Heap) : Prop where
  size : h.size ≤ h'.size
  nlists : h.nlists ≤ h'.nlists
  reads : h.reads ≤ h'.reads
  kind : ∀ x < h.size, (h'.get x).kind = (h.get x).kind
  uuid : ∀ x < h.size, (h'.get x).uuid = (h.get x).uuid
  idName : ∀ x < h.size, (h'.get x).idName = (h.get x).idName
  progenitor : ∀ x < h.size, (h'.get x).progenitor = (h.get x).progenitor
  direction : ∀ x < h.size, (h'.get x).direction = (h.get x).direction
  weight : ∀ x < h.size, (h'.get x).weight = (h.get x).weight
  clock : ∀ x < h.size, (h'.get x).clock = (h.get x).clock
  genCtx : ∀ x < h.size, (h.get x).genCtx.isSome = true → (h'.get x).genCtx.isSome = true
  hist : ∀ x < h.size, (h.get x).hist ≤ (h'.get x).hist

theorem Keeps.refl (h : Heap) : Keeps h h := by
  constructor <;> intros <;> first | rfl | assumption | exact Nat.le_refl _

theorem Keeps.trans {a b c : Heap} (p : Keeps a b) (q : Keeps b c) : Keeps a c where
  size := Nat.le_trans p.size q.size
  nlists := Nat.le_trans p.nlists q.nlists
  reads := Nat.le_trans p.reads q.reads
  kind x hx := (q.kind x (Nat.lt_of_lt_of_le hx p.size)).trans (p.kind x hx)
  uuid x hx := (q.uuid x (Nat.lt_of_lt_of_le hx p.size)).trans (p.uuid x hx)
  idName x hx := (q.idName x (Nat.lt_of_lt_of_le hx p.size)).trans (p.idName x hx)
  progenitor x hx := (q.progenitor x (Nat.lt_of_lt_of_le hx p.size)).trans (p.progenitor x hx)
  direction x hx := (q.direction x (Nat.lt_of_lt_of_le hx p.size)).trans (p.direction x hx)
  weight x hx := (q.weight x (Nat.lt_of_lt_of_le hx p.size)).trans (p.weight x hx)
  clock x hx := (q.clock x (Nat.lt_of_lt_of_le hx p.size)).trans (p.clock x hx)
  genCtx x hx g := q.genCtx x (Nat.lt_of_lt_of_le hx p.size) (p.genCtx x hx g)
  hist x hx := Nat.le_trans (p.hist x hx) (q.hist x (Nat.lt_of_lt_of_le hx p.size))

theorem Prim.keeps {E : Env} {L : Prop} {h h' : Heap} (p : Prim E L h h') : Keeps h h' := by
  cases p with
  | field x f hf =>
    constructor <;> try exact Nat.le_refl _
    all_goals
      intro y _
      simp only [Heap.get_mod]
      split
      · subst_vars
        first
          | exact (hf _).kind | exact (hf _).uuid | exact (hf _).idName | exact (hf _).progenitor
          | exact (hf _).direction | exact (hf _).weight | exact (hf _).clock | exact (hf _).hist
          | exact (hf _).genCtx
      · first | rfl | exact id | assumption | exact Nat.le_refl _
  | stampDummy x =>
    constructor <;> try exact Nat.le_refl _
    all_goals
      intro y _
      simp only [Heap.get_mod]
      split
      · subst_vars; first | rfl | exact id | assumption | exact Nat.le_refl _
      · first | rfl | exact id | assumption | exact Nat.le_refl _
  | stampLocal x =>
    constructor <;> try first | exact Nat.le_refl _ | exact Nat.le_succ _
    all_goals
      intro y _
      simp only [Heap.get_mod]
      split
      · subst_vars; first | rfl | exact id | assumption | exact Nat.le_refl _
      · first | rfl | exact id | assumption | exact Nat.le_refl _
  | read => constructor <;> intros <;> first | rfl | exact id | assumption | exact Nat.le_refl _ | exact Nat.le_succ _
  | alloc o ht _ =>
    constructor <;> try first | exact Nat.le_refl _ | exact Nat.le_succ _
    all_goals
      intro y hy
      simp only [Heap.get_set]
      rw [if_neg (Nat.ne_of_lt hy)]
      try first | exact id | exact Nat.le_refl _
  | lists hL n hn ls =>
    constructor <;> intros <;> first | rfl | exact id | assumption | exact Nat.le_refl _ | exact hn

theorem Steps.keeps {E : Env} {L : Prop} {h h' : Heap} (p : Steps E L h h') : Keeps h h' := by
  induction p with
  | refl => exact .refl _
  | tail _ p ih => exact ih.trans p.keeps

/-- What a call that does not touch values leaves alone. -/
structure Calm (h h' : Heap) : Prop where
  nlists : h'.nlists = h.nlists
  lists : h'.lists = h.lists
  vals : ∀ x < h.size, (h'.get x).vals = (h.get x).vals
  dim : ∀ x < h.size, (h'.get x).dim = (h.get x).dim
  attrs : ∀ x < h.size, (h'.get x).attrs = (h.get x).attrs
  fresh : ∀ x, h.size ≤ x → x < h'.size → (h'.get x).kind ≠ .value

theorem Prim.calm {E : Env} {h h' : Heap} (p : Prim E False h h') : Calm h h' := by
  cases p with
  | field x f hf =>
    constructor
    · rfl
    · rfl
    · intro y _; rw [Heap.get_mod]; split
      · subst_vars; exact (hf _).vals.resolve_left id
      · rfl
    · intro y _; rw [Heap.get_mod]; split
      · subst_vars; exact (hf _).dim
      · rfl
    · intro y _; rw [Heap.get_mod]; split
      · subst_vars; exact (hf _).attrs.resolve_left id
      · rfl
    · intro y a b; exact absurd b (Nat.not_lt.2 a)
  | stampDummy x =>
    constructor <;> first | rfl | skip
    iterate 3 (intro y _; simp only [Heap.get_mod]; split <;> (try subst_vars) <;> rfl)
    intro y a b; exact absurd b (Nat.not_lt.2 a)
  | stampLocal x =>
    constructor <;> first | rfl | skip
    iterate 3 (intro y _; simp only [Heap.get_mod]; split <;> (try subst_vars) <;> rfl)
    intro y a b; exact absurd b (Nat.not_lt.2 a)
  | read =>
    constructor <;> first | rfl | skip
    iterate 3 (intro y _; rfl)
    intro y a b; exact absurd b (Nat.not_lt.2 a)
  | alloc o ht hk =>
    constructor <;> first | rfl | skip
    iterate 3 (intro y hy; simp only [Heap.get_set]; rw [if_neg (Nat.ne_of_lt hy)])
    intro y a b
    change y < h.size + 1 at b
    have : y = h.size := by omega
    subst this
    simp only [Heap.get_set, if_true]
    exact hk.resolve_left id
  | lists hL => exact hL.elim

theorem Steps.calm {E : Env} {h h' : Heap} (p : Steps E False h h') : Calm h h' := by
  induction p with
  | refl =>
    constructor <;> first | rfl | skip
    iterate 3 (intro y _; rfl)
    intro y a b; exact absurd b (Nat.not_lt.2 a)
  | @tail b c s p ih =>
    have q := p.calm
    have ks := s.keeps
    have kp := p.keeps
    constructor
    · exact q.nlists.trans ih.nlists
    · exact q.lists.trans ih.lists
    · exact fun x hx => (q.vals x (Nat.lt_of_lt_of_le hx ks.size)).trans (ih.vals x hx)
    · exact fun x hx => (q.dim x (Nat.lt_of_lt_of_le hx ks.size)).trans (ih.dim x hx)
    · exact fun x hx => (q.attrs x (Nat.lt_of_lt_of_le hx ks.size)).trans (ih.attrs x hx)
    · intro x a hx
      by_cases hb : x < b.size
      · rw [kp.kind x hb]; exact ih.fresh x a hb
      · exact q.fresh x (Nat.not_lt.1 hb) hx

end Rei
