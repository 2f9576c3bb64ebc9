import Verif.Lemmas.Connect

/-!
# Reading a CogniLang file: calculus, invariant, transport
-/
namespace Rei
open PyM

/-- Running `m` from `h` ends in a reachable state, whether it returns or raises; if it returns, `Q` holds. -/
def Does (E : Env) {α : Type} (m : PyM α) (h : Heap) (Q : α → Heap → Prop) : Prop :=
  Reach E (m h).2 ∧ ∀ a h', m h = (.ok a, h') → Q a h'

namespace Does
variable {E : Env} {α β : Type} {h : Heap}

theorem pure {a : α} {Q : α → Heap → Prop} (R : Reach E h) (q : Q a h) : Does E (Pure.pure a : PyM α) h Q :=
  ⟨R, by rintro _ _ ⟨⟩; exact q⟩

theorem raise {er : Err} {Q : α → Heap → Prop} (R : Reach E h) : Does E (raise er : PyM α) h Q :=
  ⟨R, by rintro _ _ ⟨⟩⟩

theorem bind {m : PyM α} {f : α → PyM β} {Q : α → Heap → Prop} {Q' : β → Heap → Prop} (a : Does E m h Q)
    (b : ∀ x h', Reach E h' → Q x h' → Does E (f x) h' Q') : Does E (m >>= f) h Q' := by
  obtain ⟨R, q⟩ := a
  cases hm : m h with
  | mk r h1 =>
    rw [hm] at R
    cases r with
    | error er =>
      constructor
      · rw [bind_err hm]; exact R
      · intro x h' e; rw [bind_err hm] at e; cases e
    | ok x =>
      have := b x h1 R (q x h1 hm)
      constructor
      · rw [bind_ok hm]; exact this.1
      · intro y h' e; rw [bind_ok hm] at e; exact this.2 y h' e

theorem mono {m : PyM α} {Q Q' : α → Heap → Prop} (a : Does E m h Q) (b : ∀ x h', Reach E h' → Q x h' → Q' x h') :
    Does E m h Q' :=
  ⟨a.1, fun x h' e => b x h' (by have := a.1; rw [e] at this; exact this) (a.2 x h' e)⟩

theorem void {m : PyM α} {Q : α → Heap → Prop} (a : Does E m h Q) : Does E m.void h fun _ h' => ∃ x, Q x h' := by
  unfold PyM.void
  exact a.bind fun x h' R q => .pure R ⟨x, q⟩

theorem obj {x : Ref} (R : Reach E h) : Does E (obj x) h fun o h' => h = h' ∧ o = h.get x :=
  ⟨R, by rintro _ _ ⟨⟩; exact ⟨rfl, rfl⟩⟩

theorem heap (R : Reach E h) : Does E heap h fun o h' => h = h' ∧ h = o :=
  ⟨R, by rintro _ _ ⟨⟩; exact ⟨rfl, rfl⟩⟩

theorem liftE {r : Except Err α} (R : Reach E h) : Does E (liftE r) h fun a h' => h = h' ∧ r = .ok a :=
  ⟨R, by rintro _ _ e; cases e; exact ⟨rfl, rfl⟩⟩

theorem of_run {m : PyM α} {Q : α → Heap → Prop}
    (a : ∃ r h', m h = (r, h') ∧ Reach E h' ∧ ∀ x, r = .ok x → Q x h') : Does E m h Q := by
  obtain ⟨r, h', e, R, q⟩ := a
  exact ⟨by rw [e]; exact R, fun x h'' e' => by rw [e] at e'; cases e'; exact q x rfl⟩

end Does

theorem node_does {E : Env} {h : Heap} (R : Reach E h) {F : Factory} (hF : F.clock ≠ none) (nm : Str) {c : Ref}
    (hc : c < h.size) (hck : (h.get c).kind ≠ .relation) :
    Does E (F.generateNode E nm (some c)) h fun x h' => x = h.size ∧ MadeIn c .node nm [] h h' :=
  .of_run (node_step R hF nm hc hck)

theorem edge_does {E : Env} {h : Heap} (R : Reach E h) {F : Factory} (hF : F.clock ≠ none) (nm : Str) {c : Ref}
    (hc : c < h.size) (hck : (h.get c).kind = .node) :
    Does E (F.createHyperedge E c nm) h fun x h' => x = h.size ∧ MadeIn c .edge nm [] h h' :=
  .of_run (edge_step R hF nm hc hck)

theorem sem_does {E : Env} {h : Heap} (R : Reach E h) {F : Factory} (hF : F.clock ≠ none) (raw name : Str) {p : Ref}
    (hp : p < h.size) (hpk : (h.get p).kind ≠ .relation) (attr : Dict Str AttrVal) (values : Option AttrVal) :
    Does E (F.generateSemantic E raw name p attr values) h fun x h' => x = h.size ∧
      ∃ k, semanticClass (normaliseType raw) = some k ∧
        MadeIn p (.semantic k) name (match values with | none => attr | some v => attr.set valuesKey v) h h' :=
  .of_run (sem_step R hF raw name hp hpk attr values)

theorem connect_does {E : Env} {h : Heap} (R : Reach E h) {e n : Ref} (d : Dir) {sv w : Option Ref}
    (he : e < h.size) (hk : (h.get e).kind = .edge) (hn : n < h.size)
    (hs : ∀ s, sv = some s → s < h.size ∧ (∃ k, (h.get s).kind = .semantic k) ∧ ¬ Anc h s e ∧ Movable h s)
    (hwl : ∀ v, w = some v → v < h.size := by rintro _ ⟨⟩) :
    Does E (unaryConnect E e n w d sv) h fun q h' => q = h.size ∧ Linked e n d sv h h' w :=
  .of_run (connect_step R d he hk hn hs hwl)

/-- `create_value` in `p`. -/
theorem value_does {E : Env} {h : Heap} (R : Reach E h) {F : Factory} (hF : F.clock ≠ none) (nm : Str) {p : Ref}
    (hp : p < h.size) (hpk : (h.get p).kind ≠ .relation) (vs : List Rat) :
    Does E (F.createValue E (some p) nm (some vs)) h fun x h' => x = h.size ∧ MadeIn p .value nm [] h h' ∧
      h'.valuesOf h.size = vs ∧ (h'.get h.size).vals < h'.nlists := by
  apply Does.of_run
  obtain ⟨r1, hu, hu2⟩ := F.generateUid_run (E := E) hF nm h
  have R1 : Reach E { h with reads := r1 } := by rw [hu2]; exact reach_readClock R _
  obtain ⟨r2, t, hs, hs2⟩ := stampedIn_run (E := E) hF nm p { h with reads := r1 }
  have R2 : Reach E { h with reads := r2 } := by
    have := reach_readClock R1 F.clock
    rw [← hs2] at this; exact this
  generalize hpn : PName.tup (Str.join '/' [(h.get p).qualName, nm] ++ '.' :: decimal t) = pn at *
  obtain ⟨h1, e1, G, n1, l1⟩ := new_value (h := { h with reads := r2 }) (F.uid E nm h) nm pn vs
  have R3 := reach_newValue R2 (F.uid E nm h) nm pn (some vs)
  rw [e1] at R3
  replace R3 : Reach E h1 := R3
  replace G := G.reads
  have m1 : (h1.get h.size).parent = none := by have := congrArg Obj.parent G.new; exact this
  have m2 : (h1.get h.size).subs = [] := by have := congrArg Obj.subs G.new; exact this
  have m3 : (h1.get h.size).uuid = F.uid E nm h := by have := congrArg Obj.uuid G.new; exact this
  have s1 : h1.size = h.size + 1 := G.size
  have R4 := reach_add (E := E) R3 (c := p) (x := h.size) (by omega) (by omega) (addSafe_leaf R3.good.inv m1 m2)
  have run : F.createValue E (some p) nm (some vs) h = (do addElement E p h.size; pure h.size : PyM Ref) h1 := by
    unfold Factory.createValue
    rw [bind_ok hu]
    simp only
    rw [bind_ok hs]
    rw [bind_ok e1]
  by_cases hd : F.uid E nm h ∈ (h.get p).subs.keys
  · have e := addElement_refused (h := h1) E (c := p) (x := h.size) (by omega) (by
      rw [G.others p hp (by simp), m3]; exact hd)
    rw [e] at R4
    exact ⟨.error .duplicateElement, h1, by rw [run, bind_err e], R4, by rintro x ⟨⟩⟩
  · obtain ⟨h2, ha2, G2⟩ := attach_new (E := E) R3.good.inv rfl G (c := p) hp hpk hd (by rintro _ ⟨⟩)
    rw [ha2] at R4
    refine ⟨.ok h.size, h2, by rw [run, bind_ok ha2]; rfl, R4, ?_⟩
    rintro x ⟨⟩
    refine ⟨rfl, G2.made R.good.inv (by simp [valueObj]) rfl hp, ?_⟩
    have hv : (h2.get h.size).vals = h.nlists := by have := congrArg Obj.vals G2.new; exact this
    have cm := (frames_addElement (L := False) E p h.size h1).calm
    rw [ha2] at cm
    constructor
    · unfold Heap.valuesOf
      rw [hv, cm.lists]; exact l1
    · rw [hv, cm.nlists, n1]; exact Nat.lt_succ_self _


/-! ## The invariant of the reader -/

/-- `v` is the value node of the parameter `p`. -/
structure ParamAt (h : Heap) (v : Ref) (p : Str × Rat) : Prop where
  kind : (h.get v).kind = .value
  name : (h.get v).idName = p.1
  ok : (h.get v).vals < h.nlists
  values : h.valuesOf v = [p.2]

/-- What holds between two steps of the reader: `ps` are the parameters declared so far, `seen` the names referred to. -/
structure IconOk (h : Heap) (I : FileIcon) (w : Ref) (ps : Params) (seen : List Str) : Prop where
  fac : I.fac.clock ≠ none
  cog : I.cog.clock ≠ none
  cache : ∀ k x, I.cache.get? k = some x → x < h.size ∧
    ((h.get x).kind = .node ∧ (h.get x).qualName = k ∨ ∃ sk, (h.get x).kind = .semantic sk)
  world : I.cache.get? "world".toList = some w
  plt : I.params < h.size
  pkind : (h.get I.params).kind = .node
  params : List.Forall₂ (ParamAt h) (h.parts I.params) ps
  refs : ∀ k, I.refs.has k = true ↔ k ∈ seen

/-- The step from `I` to `I'` writes only keys below the path `P`. -/
structure Kept (P : List Str) (I I' : FileIcon) : Prop where
  fac : I'.fac = I.fac
  cog : I'.cog = I.cog
  params : I'.params = I.params
  root : I'.root = I.root
  cache : ∀ k, k.length ≤ (pathKey P).length ∨ '/' ∉ k → I'.cache.get? k = I.cache.get? k

theorem Kept.refl (P : List Str) (I : FileIcon) : Kept P I I := ⟨rfl, rfl, rfl, rfl, fun _ _ => rfl⟩

theorem Kept.trans {P : List Str} {I J K : FileIcon} (a : Kept P I J) (b : Kept P J K) : Kept P I K :=
  ⟨b.fac.trans a.fac, b.cog.trans a.cog, b.params.trans a.params, b.root.trans a.root,
    fun k hk => (b.cache k hk).trans (a.cache k hk)⟩

theorem join_longer {P : List Str} (hP : P ≠ []) (n : Str) (ns : List Str) :
    (Str.join '/' P).length < (Str.join '/' (P ++ n :: ns)).length ∧ '/' ∈ Str.join '/' (P ++ n :: ns) := by
  induction P with
  | nil => exact absurd rfl hP
  | cons p P ih =>
    cases P with
    | nil =>
      show _ ∧ '/' ∈ Str.join '/' (p :: n :: ns)
      change (Str.join '/' [p]).length < (Str.join '/' (p :: n :: ns)).length ∧ _
      rw [Str.join_cons_cons, Str.join_singleton]
      simp
    | cons q P =>
      obtain ⟨a, b⟩ := ih (by simp)
      change (Str.join '/' (p :: q :: P)).length < (Str.join '/' (p :: q :: (P ++ n :: ns))).length ∧
        '/' ∈ Str.join '/' (p :: q :: (P ++ n :: ns))
      rw [Str.join_cons_cons, Str.join_cons_cons]
      change (Str.join '/' (q :: P)).length < (Str.join '/' (q :: (P ++ n :: ns))).length at a
      constructor
      · simp; exact a
      · simp

theorem Kept.mono {P : List Str} (hP : P ≠ []) {n : Str} {I I' : FileIcon} (a : Kept (P ++ [n]) I I') : Kept P I I' := by
  refine ⟨a.fac, a.cog, a.params, a.root, fun k hk => a.cache k ?_⟩
  rcases hk with hk | hk
  · left
    have := (join_longer hP n []).1
    unfold pathKey at hk ⊢
    omega
  · exact .inr hk

/-- Remembering an element below `P`. -/
theorem Kept.remember {P : List Str} (hP : P ≠ []) {I : FileIcon} {key : Str} {n : Str} {ns : List Str}
    (hk : key = Str.join '/' (P ++ n :: ns)) (x : Ref) : Kept P I { I with cache := I.cache.set key x } := by
  refine ⟨rfl, rfl, rfl, rfl, fun k h => ?_⟩
  show (I.cache.set key x).get? k = _
  rw [Dict.get?_set, if_neg]
  rintro rfl
  obtain ⟨a, b⟩ := join_longer hP n ns
  rw [hk] at h
  rcases h with h | h
  · unfold pathKey at h; omega
  · exact h b

theorem remember_does {E : Env} {h : Heap} (R : Reach E h) (I : FileIcon) (x : Ref) :
    Does E (I.remember x) h fun I' h' => h = h' ∧ I' = { I with cache := I.cache.set (h.get x).qualName x } := by
  unfold FileIcon.remember
  refine (Does.obj R).bind fun o h1 R1 q => ?_
  obtain ⟨rfl, rfl⟩ := q
  exact .pure R ⟨rfl, rfl⟩

theorem IconOk.remember {h : Heap} {I : FileIcon} {w : Ref} {ps : Params} {seen : List Str} (o : IconOk h I w ps seen)
    {x : Ref} (hx : x < h.size) (hk : (h.get x).kind = .node ∨ ∃ sk, (h.get x).kind = .semantic sk)
    (hq : '/' ∈ (h.get x).qualName) : IconOk h { I with cache := I.cache.set (h.get x).qualName x } w ps seen := by
  refine ⟨o.fac, o.cog, ?_, ?_, o.plt, o.pkind, o.params, o.refs⟩
  · intro k y hy
    change (I.cache.set (h.get x).qualName x).get? k = some y at hy
    rw [Dict.get?_set] at hy
    split at hy
    · next e =>
      cases hy
      exact ⟨hx, hk.imp (fun a => ⟨a, e⟩) id⟩
    · exact o.cache k y hy
  · show (I.cache.set (h.get x).qualName x).get? _ = some w
    rw [Dict.get?_set, if_neg]
    · exact o.world
    · intro e; rw [e] at hq; revert hq; decide

/-- Everything the invariant says survives a step that leaves the parameters alone. -/
theorem IconOk.onward {h h' : Heap} {I : FileIcon} {w : Ref} {ps : Params} {seen : List Str} (o : IconOk h I w ps seen)
    (inv : Inv h) {D : List Ref} (a : Onward h.size D h h') (hp : h'.parts I.params = h.parts I.params) :
    IconOk h' I w ps seen := by
  refine ⟨o.fac, o.cog, ?_, o.world, Nat.lt_of_lt_of_le o.plt a.size, by rw [a.kind _ o.plt, o.pkind], ?_, o.refs⟩
  · intro k x hx
    obtain ⟨b, c⟩ := o.cache k x hx
    rw [a.kind x b, a.qualName x b]
    exact ⟨Nat.lt_of_lt_of_le b a.size, c⟩
  · rw [hp]
    have : ∀ (l : List Ref) (ps : Params), (∀ v ∈ l, v < h.size) → List.Forall₂ (ParamAt h) l ps →
        List.Forall₂ (ParamAt h') l ps := by
      intro l ps hl f
      induction f with
      | nil => exact .nil
      | @cons v p l ps hv _ ih =>
        have lt := hl v (by simp)
        refine .cons ⟨by rw [a.kind v lt, hv.kind], by rw [a.idName v lt, hv.name],
          by rw [a.vals v lt]; exact Nat.lt_of_lt_of_le hv.ok a.nlists, ?_⟩ (ih fun v hv => hl v (by simp [hv]))
        unfold Heap.valuesOf
        rw [a.vals v lt, a.lists _ hv.ok]; exact hv.values
    exact this _ _ (fun v hv => inv.parts_lt hv) o.params

/-! ## Numbers -/

theorem param_means {h : Heap} {l : List Ref} {ps : Params} (f : List.Forall₂ (ParamAt h) l ps) {n : Str} {v : Ref}
    (hv : l.find? (fun x => decide ((h.get x).kind = .value) && decide ((h.get x).idName = n)) = some v) :
    ∃ q, ps.lookup n = some q ∧ h.valuesOf v = [q] := by
  induction f with
  | nil => cases hv
  | @cons x p l ps hx _ ih =>
    obtain ⟨m, q⟩ := p
    rw [List.find?_cons] at hv
    have hn : (h.get x).idName = m := hx.name
    by_cases e : m = n
    · subst e
      simp only [hx.kind, hn, decide_true, Bool.and_self] at hv
      cases hv
      exact ⟨q, by simp [List.lookup], hx.values⟩
    · simp only [hx.kind, hn, e, decide_false, Bool.and_false] at hv
      obtain ⟨q', a, b⟩ := ih hv
      refine ⟨q', ?_, b⟩
      rw [List.lookup_cons, a]
      have : (n == m) = false := by simpa using Ne.symm e
      rw [this]

theorem paramNode_parts (h : Heap) (P : Ref) (n : Str) : h.paramNode P n =
    (h.parts P).find? (fun x => decide ((h.get x).kind = .value) && decide ((h.get x).idName = n)) := by
  unfold Heap.paramNode Heap.parts
  rw [List.find?_filter]
  congr 1
  funext x
  by_cases hk : (h.get x).kind = .value <;> simp [hk]

theorem floatVec_means {h : Heap} {P : Ref} {ps : Params} (f : List.Forall₂ (ParamAt h) (h.parts P) ps)
    {v : List FVal} {l : List Rat} (e : floatVec h P v = .ok l) : VecMeans ps v l := by
  induction v generalizing l with
  | nil => cases e; exact .nil
  | cons a v ih =>
    unfold floatVec at e
    cases ha : floatsOf h P a with
    | error er => rw [ha] at e; cases e
    | ok x =>
    cases hb : floatVec h P v with
    | error er => rw [ha, hb] at e; cases e
    | ok y =>
    rw [ha, hb] at e
    cases e
    cases a with
    | num q => cases ha; exact .cons (.num q) (ih hb)
    | param n =>
      unfold floatsOf at ha
      simp only [paramNode_parts] at ha
      split at ha
      · cases ha
      · next w hw =>
        cases ha
        obtain ⟨q, a, b⟩ := param_means f hw
        rw [b]
        exact .cons (.param n q a) (ih hb)

theorem poseValues_means {h : Heap} {P : Ref} {ps : Params} (f : List.Forall₂ (ParamAt h) (h.parts P) ps) {p : Pose}
    {t r : List Rat} {ty : Str} (e : poseValues h P p = .ok (t, r, ty)) : PoseMeans ps p t r ty := by
  obtain ⟨tr, rot⟩ := p
  unfold poseValues at e
  cases ha : floatVec h P tr with
  | error er => simp only [ha] at e; cases e
  | ok a =>
  have ma := floatVec_means f ha
  simp only [ha] at e
  cases rot with
  | none => cases e; exact .plain ma
  | some mv =>
    obtain ⟨m, v⟩ := mv
    cases hb : floatVec h P v with
    | error er => simp only [hb] at e; cases e
    | ok b =>
    have mb := floatVec_means f hb
    simp only [hb] at e
    cases m with
    | none => cases e; exact .unmarked ma mb
    | some m => cases m <;> cases e; exacts [.degrees ma mb, .radians ma mb]

/-! ## Transport to later states -/

/-- A step from `h` to `h'` in which, among the objects from `lo` on that exist in `h`, nothing changes. -/
structure Carry (lo : Nat) (h h' : Heap) : Prop where
  inv : Inv h
  on : ∃ D, Onward h.size D h h' ∧ ∀ x ∈ D, x < lo
  closed : ∀ x < lo, ∀ p, (h.get x).parent = some p → p < lo

namespace Carry
variable {lo : Nat} {h h' : Heap} (k : Carry lo h h')
include k

theorem parts {x : Ref} (hl : lo ≤ x) (hx : x < h.size) : h'.parts x = h.parts x := by
  obtain ⟨D, on, low⟩ := k.on
  exact on.only x hx fun hD => by have := low x hD; omega

theorem child {x y : Ref} (hl : lo ≤ x) (hy : y ∈ h.parts x) : lo ≤ y := by
  apply Decidable.byContradiction
  intro hn
  have := k.closed y (by omega) x (k.inv.parts_parent hy)
  omega

theorem node {x : Ref} {nm : Str} {path : List Str} {l : List Ref} (hl : lo ≤ x) (n : IsNode h x nm path l) :
    IsNode h' x nm path l := by
  obtain ⟨D, on, low⟩ := k.on
  have hx := k.inv.lt_of_kind (x := x) (by rw [n.kind]; simp)
  exact ⟨by rw [on.kind x hx, n.kind], by rw [on.idName x hx, n.name], by rw [on.qualName x hx, n.path],
    by rw [k.parts hl hx, n.parts]⟩

theorem edge {x : Ref} {nm : Str} {path : List Str} {l : List Ref} (hl : lo ≤ x) (n : IsEdge h x nm path l) :
    IsEdge h' x nm path l := by
  obtain ⟨D, on, low⟩ := k.on
  have hx := k.inv.lt_of_kind (x := x) (by rw [n.kind]; simp)
  exact ⟨by rw [on.kind x hx, n.kind], by rw [on.idName x hx, n.name], by rw [on.qualName x hx, n.path],
    by rw [k.parts hl hx, n.parts]⟩

theorem rel {x t : Ref} {d : Dir} {l : List Ref} {w : Option Ref} (hl : lo ≤ x) (n : IsRel h x d t l w) : IsRel h' x d t l w := by
  obtain ⟨D, on, low⟩ := k.on
  have hx := k.inv.lt_of_kind (x := x) (by rw [n.kind]; simp)
  exact ⟨by rw [on.kind x hx, n.kind], by rw [on.direction x hx, n.dir], by rw [on.endpoint x hx, n.endpoint],
    by rw [k.parts hl hx, n.parts], by rw [on.weight x hx, n.weight]⟩

theorem sem {x : Ref} {sk : SemKind} {nm : Str} {attrs : List (Str × AttrVal)} {l : List Ref} (hl : lo ≤ x)
    (n : IsSem h x sk nm attrs l) : IsSem h' x sk nm attrs l := by
  obtain ⟨D, on, low⟩ := k.on
  have hx := k.inv.lt_of_kind (x := x) (by rw [n.kind]; simp)
  refine ⟨by rw [on.kind x hx, n.kind], by rw [on.idName x hx, n.name], fun key => ?_, by rw [k.parts hl hx, n.parts]⟩
  rw [← n.attrs key]
  unfold getAttribute
  rw [on.attrs x hx]

theorem pose {ps : Params} {owner : Str} {p : Option Pose} {l : List Ref} (hl : ∀ x ∈ l, lo ≤ x)
    (s : ShowsPose h ps owner p l) : ShowsPose h' ps owner p l := by
  cases p with
  | none => exact s
  | some p =>
    obtain ⟨x, t, r, ty, rfl, a, b⟩ := s
    exact ⟨x, t, r, ty, rfl, a, k.sem (hl x (by simp)) b⟩

theorem geom {ps : Params} {seen cpath around : List Str} {gname : Str} {g : Ref} {G : Geom} {es : List Ref}
    (hg : lo ≤ g) (hg' : g < h.size) (he : ∀ x ∈ es, lo ≤ x) (s : ShowsGeom h ps seen cpath around gname g G es) :
    ShowsGeom h' ps seen cpath around gname g G es := by
  obtain ⟨D, on, low⟩ := k.on
  cases G with
  | solid c f =>
    obtain ⟨a, s, kk, v, l, b1, b2, b3, b4, b5⟩ := s
    exact ⟨a, s, kk, v, l, b1, b2, b3, by rw [k.parts hg hg', b4], k.sem (k.child hg (by rw [b4]; simp)) b5⟩
  | ref id =>
    obtain ⟨a, b⟩ := s
    refine ⟨by rw [k.parts hg hg', a], ?_⟩
    split at b
    · next hm => rw [if_pos hm]; exact b
    · next hm =>
      rw [if_neg hm]
      obtain ⟨e, r1, r2, t, rfl, b1, b2, b3, b4, b5⟩ := b
      have le := he e (by simp)
      have ht := k.inv.lt_of_kind (x := t) (by rw [b4]; simp)
      exact ⟨e, r1, r2, t, rfl, k.edge le b1, k.rel (k.child le (by rw [b1.parts]; simp)) b2,
        k.rel (k.child le (by rw [b1.parts]; simp)) b3, by rw [on.kind t ht, b4], by rw [on.qualName t ht, b5]⟩

theorem solid {ps : Params} {seen path : List Str} {s : SolidDecl} {y : Ref} {es : List Ref} (hy : lo ≤ y)
    (he : ∀ x ∈ es, lo ≤ x) (sh : ShowsSolid h ps seen path s y es) : ShowsSolid h' ps seen path s y es := by
  obtain ⟨g, ms, a, b, c, d⟩ := sh
  have hg : lo ≤ g := k.child hy (by rw [a.parts]; simp)
  have hg' := k.inv.lt_of_kind (x := g) (by rw [b.kind]; simp)
  refine ⟨g, ms, k.node hy a, ?_, k.geom hg hg' he c, ?_⟩
  · rw [k.parts hg hg']; exact k.node hg b
  · split at d
    · next hv =>
      rw [if_pos hv]
      obtain ⟨m, rfl, d⟩ := d
      exact ⟨m, rfl, k.sem (k.child hy (by rw [a.parts]; simp)) d⟩
    · next hv => rw [if_neg hv]; exact d

theorem solids {ps : Params} {path : List Str} {ss : List SolidDecl} : ∀ {seen : List Str} {ys es : List Ref},
    (∀ x ∈ ys, lo ≤ x) → (∀ x ∈ es, lo ≤ x) → ShowsSolids h ps path seen ss ys es →
    ShowsSolids h' ps path seen ss ys es := by
  induction ss with
  | nil => intro _ _ _ _ _ s; exact s
  | cons s ss ih =>
    intro seen ys es hy he sh
    obtain ⟨y, ys', es1, es2, rfl, rfl, a, b⟩ := sh
    exact ⟨y, ys', es1, es2, rfl, rfl, k.solid (hy y (by simp)) (fun x hx => he x (by simp [hx])) a,
      ih (fun x hx => hy x (by simp [hx])) (fun x hx => he x (by simp [hx])) b⟩

theorem linkBody {ps : Params} {seen path : List Str} {b : Option LinkBody} {ys es : List Ref}
    (hy : ∀ x ∈ ys, lo ≤ x) (he : ∀ x ∈ es, lo ≤ x) (sh : ShowsLinkBody h ps seen path b ys es) :
    ShowsLinkBody h' ps seen path b ys es := by
  cases b with
  | none => exact sh
  | some b =>
    obtain ⟨i, ys', rfl, a, c⟩ := sh
    exact ⟨i, ys', rfl, k.sem (hy i (by simp)) a, k.solids (fun x hx => hy x (by simp [hx])) he c⟩

theorem link {ps : Params} {seen path : List Str} {l : LinkDecl} {x : Ref} {es : List Ref} (hx : lo ≤ x)
    (he : ∀ x ∈ es, lo ≤ x) (sh : ShowsLink h ps seen path l x es) : ShowsLink h' ps seen path l x es := by
  obtain ⟨sv, ts, ys, a, b, c, d⟩ := sh
  have hsv : lo ≤ sv := k.child hx (by rw [a.parts]; simp)
  exact ⟨sv, ts, ys, k.node hx a, k.sem hsv b, k.pose (fun t ht => k.child hsv (by rw [b.parts]; exact ht)) c,
    k.linkBody (fun y hy => k.child hx (by rw [a.parts]; simp [hy])) he d⟩

theorem leads {c t : Ref} {ns : List Str} (l : LeadsBy h c ns t) : LeadsBy h' c ns t := by
  obtain ⟨D, on, low⟩ := k.on
  have mem : ∀ {c x : Ref}, x ∈ h.parts c → x ∈ h'.parts c := fun {c x} hx =>
    (on.prefix_ c (k.inv.parent_lt (k.inv.parts_parent hx))).subset hx
  induction l with
  | last ht hn => exact .last (mem ht) (by rw [on.idName _ (k.inv.parts_lt ht), hn])
  | next hx hn _ ih => exact .next (mem hx) (by rw [on.idName _ (k.inv.parts_lt hx), hn]) ih

theorem endpoint {w c t : Ref} {ref : Str} (l : IsEndpoint h w c ref t) : IsEndpoint h' w c ref t := by
  obtain ⟨D, on, low⟩ := k.on
  unfold IsEndpoint at l ⊢
  split
  · next e => rw [if_pos e] at l; exact l
  · next e =>
    rw [if_neg e] at l
    split
    · next n hn =>
      rw [hn] at l
      simp only at l
      have hc : c < h.size := k.inv.parent_lt (k.inv.parts_parent (List.mem_of_find?_eq_some l))
      obtain ⟨z, hz⟩ := on.prefix_ c hc
      rw [← hz, List.find?_append]
      have : (h.parts c).find? (fun x => decide ((h'.get x).idName = n)) =
          (h.parts c).find? (fun x => decide ((h.get x).idName = n)) := by
        have := k.inv
        have key : ∀ l : List Ref, (∀ x ∈ l, x < h.size) → l.find? (fun x => decide ((h'.get x).idName = n)) =
            l.find? (fun x => decide ((h.get x).idName = n)) := by
          intro l
          induction l with
          | nil => intro _; rfl
          | cons x l ih =>
            intro hl
            rw [List.find?_cons, List.find?_cons, on.idName x (hl x (by simp)), ih fun y hy => hl y (by simp [hy])]
        exact key _ fun x hx => k.inv.parts_lt hx
      rw [this, l]; rfl
    · next ns hns =>
      split at l
      · next m hm => exact absurd hm (by intro hm; exact hns m hm)
      · exact k.leads l

theorem joint {w c : Ref} {ps : Params} {path : List Str} {j : JointDecl} {e : Ref} (he : lo ≤ e)
    (sh : ShowsJoint h w c ps path j e) : ShowsJoint h' w c ps path j e := by
  obtain ⟨rs, a, f⟩ := sh
  refine ⟨rs, k.edge he a, ?_⟩
  have hrs : ∀ r ∈ rs, lo ≤ r := fun r hr => k.child he (by rw [a.parts]; exact hr)
  clear a
  generalize j.rels = js at f
  induction f with
  | nil => exact .nil
  | @cons j' r _ _ hr _ ih =>
    refine .cons ?_ (ih fun r hr => hrs r (by simp [hr]))
    obtain ⟨d, t, s, ts, ax, b1, b2, b3, b4, b5, b6⟩ := hr
    have hr' := hrs r (by simp)
    have hs : lo ≤ s := k.child hr' (by rw [b3.parts]; simp)
    exact ⟨d, t, s, ts, ax, b1, k.endpoint b2, k.rel hr' b3, b4, k.sem hs b5,
      k.pose (fun t ht => k.child hs (by rw [b5.parts]; exact ht)) b6⟩

theorem shows_ {w : Ref} {items : Items} : ∀ {c : Ref} {top : Bool} {ps : Params} {seen path : List Str} {l : List Ref},
    (∀ x ∈ l, lo ≤ x) → Shows h w c top ps seen path items l → Shows h' w c top ps seen path items l := by
  induction items with
  | nil => intro _ _ _ _ _ _ _ s; exact s
  | kinematic name body rest ihb ihr =>
    intro c top ps seen path l hl sh
    obtain ⟨x, s, ys, l', rfl, a, b, d, e⟩ := sh
    have hx := hl x (by simp)
    exact ⟨x, s, ys, l', rfl, k.node hx a, k.sem (k.child hx (by rw [a.parts]; simp)) b,
      ihb (fun y hy => k.child hx (by rw [a.parts]; simp [hy])) d, ihr (fun y hy => hl y (by simp [hy])) e⟩
  | ambient name body rest ihb ihr =>
    intro c top ps seen path l hl sh
    obtain ⟨x, ys, l', rfl, a, d, e⟩ := sh
    have hx := hl x (by simp)
    exact ⟨x, ys, l', rfl, k.node hx a,
      ihb (fun y hy => k.child hx (by rw [a.parts]; exact hy)) d, ihr (fun y hy => hl y (by simp [hy])) e⟩
  | device name rest ihr =>
    intro c top ps seen path l hl sh
    obtain ⟨x, l', rfl, a, e⟩ := sh
    exact ⟨x, l', rfl, k.node (hl x (by simp)) a, ihr (fun y hy => hl y (by simp [hy])) e⟩
  | link d rest ihr =>
    intro c top ps seen path l hl sh
    obtain ⟨x, es, l', rfl, a, e⟩ := sh
    exact ⟨x, es, l', rfl, k.link (hl x (by simp)) (fun y hy => hl y (by simp [hy])) a,
      ihr (fun y hy => hl y (by simp [hy])) e⟩
  | joint j rest ihr =>
    intro c top ps seen path l hl sh
    obtain ⟨x, l', rfl, a, e⟩ := sh
    exact ⟨x, l', rfl, k.joint (hl x (by simp)) a, ihr (fun y hy => hl y (by simp [hy])) e⟩
  | params qs rest ihr =>
    intro c top ps seen path l hl sh
    exact ihr (c := c) (top := top) hl sh
  | skipped rest ihr =>
    intro c top ps seen path l hl sh
    exact ihr (c := c) (top := top) hl sh

end Carry

/-- The part of a step sequence from the object `lo` on, carried over the next step. -/
theorem Onward.carry {lo : Heap} {D0 D : List Ref} {h h' : Heap} (I0 : Inv lo) (a : Onward lo.size D0 lo h) (I : Inv h)
    (b : Onward h.size D h h') (hD : ∀ x ∈ D, x < lo.size) : Carry lo.size h h' where
  inv := I
  on := ⟨D, b, hD⟩
  closed x hx p hp := by
    rw [a.parent x hx] at hp
    exact I0.parent_lt hp

end Rei
