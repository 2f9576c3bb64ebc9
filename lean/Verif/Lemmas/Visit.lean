import Verif.Spec.CogniLang
import Verif.Props.Semantics
import Verif.Props.EncodingSafety
import Verif.Props.CogniSafety

/-!
# Steps of the CogniLang reader
-/
namespace Rei
open PyM

theorem Inv.lt_of_kind {h : Heap} (I : Inv h) {x : Ref} (hk : (h.get x).kind ≠ .conceptual) : x < h.size := by
  apply Decidable.byContradiction
  intro hx
  have := congrArg SObj.kind (SInv.out I x (by omega))
  exact hk this

theorem Region.start {h : Heap} (I : Inv h) : Region h h := by
  refine ⟨Nat.le_refl _, fun _ _ => rfl, Nat.le_refl _, fun _ _ => rfl, ?_⟩
  intro x hx
  have e := SInv.out I x hx
  have e1 : (h.get x).parent = none := congrArg SObj.parent e
  have e2 : (h.get x).subs = [] := congrArg SObj.subs e
  have e3 : (h.get x).index = [] := congrArg SObj.index e
  exact ⟨by rw [e1]; rintro p ⟨⟩, by rw [e2]; simp, by rw [e3]; simp⟩

/-- From `h` to the later state `h'`, the objects below `N` stay where and what they are; their lists of parts may grow
at the end, for those in `D` only. -/
structure Onward (N : Nat) (D : List Ref) (h h' : Heap) : Prop where
  size : h.size ≤ h'.size
  nlists : h.nlists ≤ h'.nlists
  lists : ∀ l < h.nlists, h'.lists l = h.lists l
  kind : ∀ x < N, (h'.get x).kind = (h.get x).kind
  idName : ∀ x < N, (h'.get x).idName = (h.get x).idName
  attrs : ∀ x < N, (h'.get x).attrs = (h.get x).attrs
  endpoint : ∀ x < N, (h'.get x).endpoint = (h.get x).endpoint
  direction : ∀ x < N, (h'.get x).direction = (h.get x).direction
  weight : ∀ x < N, (h'.get x).weight = (h.get x).weight
  vals : ∀ x < N, (h'.get x).vals = (h.get x).vals
  qualName : ∀ x < N, (h'.get x).qualName = (h.get x).qualName
  parent : ∀ x < N, (h'.get x).parent = (h.get x).parent
  prefix_ : ∀ x < N, h.parts x <+: h'.parts x
  only : ∀ x < N, x ∉ D → h'.parts x = h.parts x

namespace Onward
variable {N M : Nat} {D D' : List Ref} {h h' h'' : Heap}

theorem refl (N : Nat) (D : List Ref) (h : Heap) : Onward N D h h := by
  constructor <;> intros <;> rfl

theorem trans (a : Onward N D h h') (b : Onward N D h' h'') : Onward N D h h'' where
  size := Nat.le_trans a.size b.size
  nlists := Nat.le_trans a.nlists b.nlists
  lists l hl := (b.lists l (Nat.lt_of_lt_of_le hl a.nlists)).trans (a.lists l hl)
  kind x hx := (b.kind x hx).trans (a.kind x hx)
  idName x hx := (b.idName x hx).trans (a.idName x hx)
  attrs x hx := (b.attrs x hx).trans (a.attrs x hx)
  endpoint x hx := (b.endpoint x hx).trans (a.endpoint x hx)
  direction x hx := (b.direction x hx).trans (a.direction x hx)
  weight x hx := (b.weight x hx).trans (a.weight x hx)
  vals x hx := (b.vals x hx).trans (a.vals x hx)
  qualName x hx := (b.qualName x hx).trans (a.qualName x hx)
  parent x hx := (b.parent x hx).trans (a.parent x hx)
  prefix_ x hx := (a.prefix_ x hx).trans (b.prefix_ x hx)
  only x hx hd := (b.only x hx hd).trans (a.only x hx hd)

/-- Fewer objects; containers at or above the bound need not be listed. -/
theorem weaken (a : Onward M D h h') (hN : N ≤ M) (hD : ∀ x ∈ D, x < N → x ∈ D') : Onward N D' h h' where
  size := a.size
  nlists := a.nlists
  lists := a.lists
  kind x hx := a.kind x (by omega)
  idName x hx := a.idName x (by omega)
  attrs x hx := a.attrs x (by omega)
  endpoint x hx := a.endpoint x (by omega)
  direction x hx := a.direction x (by omega)
  weight x hx := a.weight x (by omega)
  vals x hx := a.vals x (by omega)
  qualName x hx := a.qualName x (by omega)
  parent x hx := a.parent x (by omega)
  prefix_ x hx := a.prefix_ x (by omega)
  only x hx hd := a.only x (by omega) fun h => hd (hD x h hx)

theorem path (a : Onward h.size D h h') (I : Inv h) {x : Ref} (hx : x < h.size) {l : List Str} (p : PathTo h x l) :
    PathTo h' x l := p.transfer_lt I hx a.parent a.idName

end Onward

theorem mem_parts {h : Heap} {x y : Ref} : y ∈ h.parts x ↔ y ∈ h.subelements x ∧ (h.get y).kind ≠ .port := by
  unfold Heap.parts
  rw [List.mem_filter]
  simp

theorem Inv.parts_lt {h : Heap} (I : Inv h) {x y : Ref} (hy : y ∈ h.parts x) : y < h.size :=
  I.lt_of_parent ((I.mem_subelements x y).1 (mem_parts.1 hy).1)

theorem Inv.parts_parent {h : Heap} (I : Inv h) {x y : Ref} (hy : y ∈ h.parts x) : (h.get y).parent = some x :=
  (I.mem_subelements x y).1 (mem_parts.1 hy).1

theorem parts_congr {h h' : Heap} (I : Inv h) {x : Ref} (hs : h'.subelements x = h.subelements x)
    (hk : ∀ y < h.size, (h'.get y).kind = (h.get y).kind) : h'.parts x = h.parts x := by
  unfold Heap.parts
  rw [hs]
  apply List.filter_congr
  intro y hy
  rw [hk y (I.lt_of_parent ((I.mem_subelements x y).1 hy))]

theorem Inv.parts_out {h : Heap} (I : Inv h) {x : Ref} (hx : h.size ≤ x) : h.parts x = [] := by
  unfold Heap.parts Heap.subelements
  have e2 : (h.get x).subs = [] := congrArg SObj.subs (SInv.out I x hx)
  rw [e2]; rfl

/-- What one new object in `c` changes. -/
theorem Grown1.onward {c : Ref} {o : Obj} {h h' : Heap} (g : Grown1 (some c) o h h') (I : Inv h)
    (ho : o.kind ≠ .port) (hc : c < h.size) : Onward h.size [c] h h' ∧ h'.parts c = h.parts c ++ [h.size] := by
  obtain ⟨i, n, k, sr, e⟩ := g.cont c rfl
  have get : ∀ {α : Type} (π : Obj → α) (_ : ∀ (o : Obj) s i n k sr, π { o with
      subs := s, index := i, cnt := n, hist := k, subRels := sr } = π o) (x : Ref), x < h.size →
      π (h'.get x) = π (h.get x) := by
    intro α π hπ x hx
    by_cases hxc : x = c
    · subst hxc; rw [e, hπ]
    · rw [g.others x hx (by simpa using Ne.symm hxc)]
  have kd := get (·.kind) (fun _ _ _ _ _ _ => rfl)
  have kn : (h'.get h.size).kind = o.kind := by have := congrArg Obj.kind g.new; exact this
  have pc : h'.parts c = h.parts c ++ [h.size] := by
    unfold Heap.parts Heap.subelements
    rw [e]
    simp only [Dict.values_append, List.filter_append]
    congr 1
    · apply List.filter_congr
      intro y hy
      rw [kd y (I.lt_of_parent ((I.mem_subelements c y).1 hy))]
    · simp [Dict.values, kn, ho]
  have po : ∀ x < h.size, x ≠ c → h'.parts x = h.parts x := by
    intro x hx hxc
    refine parts_congr I ?_ kd
    unfold Heap.subelements
    rw [g.others x hx (by simpa using Ne.symm hxc)]
  refine ⟨⟨by rw [g.size]; omega, g.nlists, g.lists, kd, get (·.idName) (fun _ _ _ _ _ _ => rfl),
    get (·.attrs) (fun _ _ _ _ _ _ => rfl), get (·.endpoint) (fun _ _ _ _ _ _ => rfl),
    get (·.direction) (fun _ _ _ _ _ _ => rfl), get (·.weight) (fun _ _ _ _ _ _ => rfl), get (·.vals) (fun _ _ _ _ _ _ => rfl),
    get (·.qualName) (fun _ _ _ _ _ _ => rfl), get (·.parent) (fun _ _ _ _ _ _ => rfl), ?_, ?_⟩, pc⟩
  · intro x hx
    by_cases hxc : x = c
    · subst hxc; rw [pc]; exact List.prefix_append _ _
    · rw [po x hx hxc]
  · intro x hx hd
    exact po x hx (by simpa using hd)

/-- The new object itself. -/
theorem Grown1.newParts {c : Option Ref} {o : Obj} {h h' : Heap} (g : Grown1 c o h h') (ho : o.subs = []) :
    h'.parts h.size = [] := by
  unfold Heap.parts Heap.subelements
  have : (h'.get h.size).subs = o.subs := by have := congrArg Obj.subs g.new; exact this
  rw [this, ho]; rfl

theorem Grown1.reads {c : Option Ref} {o : Obj} {h h' : Heap} {r : Nat} (g : Grown1 c o { h with reads := r } h') :
    Grown1 c o h h' := ⟨g.size, g.nlists, g.lists, g.others, g.new, g.cont, g.named, g.depth⟩

/-- `PathTo` is unique. -/
theorem PathTo.unique {h : Heap} {x : Ref} {l l' : List Str} (p : PathTo h x l) (q : PathTo h x l') : l = l' := by
  induction p generalizing l' with
  | root hp =>
    cases q with
    | root _ => rfl
    | child hq _ => rw [hp] at hq; cases hq
  | child hp _ ih =>
    cases q with
    | root hq => rw [hp] at hq; cases hq
    | child hq q =>
      rw [hp] at hq; cases hq
      rw [ih q]

/-- The path and the qualified name of a new object in `c`. -/
theorem Grown1.path {c : Ref} {o : Obj} {h h' : Heap} (g : Grown1 (some c) o h h') (I : Inv h) (hk : o.kind ≠ .port)
    (hc : c < h.size) {l : List Str} (p : PathTo h c l) :
    PathTo h' h.size (l ++ [o.idName]) ∧ (h'.get h.size).qualName = Str.join '/' (l ++ [o.idName]) := by
  have pa : (h'.get h.size).parent = some c := by have := congrArg Obj.parent g.new; exact this
  have nm : (h'.get h.size).idName = o.idName := by have := congrArg Obj.idName g.new; exact this
  have q : PathTo h' h.size (l ++ [o.idName]) := by
    rw [← nm]; exact .child pa ((g.onward I hk hc).1.path I hc p)
  obtain ⟨l', hl', e⟩ := g.named
  exact ⟨q, by rw [e, hl'.unique q]⟩

/-- Making an object of a class with a clock in `c`. -/
theorem conceptual_step {E : Env} {h : Heap} (R : Reach E h) {k : Kind} (hk : k.isConceptual = true) (nm : Str)
    (u : Bytes) (pn : PName) (ck : Clock) {c : Ref} (hc : c < h.size) (hck : (h.get c).kind ≠ .relation) :
    ∃ r h', newConceptual E k nm u pn (some ck) (some c) h = (r, h') ∧ Reach E h' ∧
      ∀ x, r = .ok x → x = h.size ∧ Grown1 (some c) (builtObj k nm u pn ck) h h' := by
  have R' := reach_newConceptual R hk nm u pn (some ck) (p := some c) (by rintro x ⟨⟩; exact hc)
  by_cases hd : u ∈ (h.get c).subs.keys
  · obtain ⟨h1, e, -⟩ := new_conceptual_dup (E := E) R.good (k := k) nm u pn ck hc hd
    rw [e] at R'
    exact ⟨_, _, e, R', by rintro x ⟨⟩⟩
  · obtain ⟨h1, e, g⟩ := new_conceptual_in (E := E) R.good (k := k) nm u pn ck hc hck hd (by rintro rfl; cases hk)
    rw [e] at R'
    exact ⟨_, _, e, R', by rintro x ⟨⟩; exact ⟨rfl, g⟩⟩

theorem stamped_run {E : Env} {F : Factory} (hF : F.clock ≠ none) (nm : Str) (h : Heap) :
    ∃ r t, F.stamped E nm h = (.ok (nm ++ '.' :: decimal t), { h with reads := r }) ∧
      ({ h with reads := r } : Heap) = (readClock E F.clock h).2 := by
  obtain ⟨r, hr⟩ := readClock_run (E := E) hF h
  refine ⟨r, clockNow E F.clock h, ?_, by rw [hr]⟩
  unfold Factory.stamped
  rw [bind_ok hr]
  rfl

/-- Everything a step says about the object it made in `c`. -/
structure MadeIn (c : Ref) (k : Kind) (nm : Str) (attrs : Dict Str AttrVal) (h h' : Heap) : Prop where
  later : Onward h.size [c] h h'
  size : h'.size = h.size + 1
  subs : ∀ x < h.size, h'.subelements x = h.subelements x ++ if x = c then [h.size] else []
  parts : h'.parts c = h.parts c ++ [h.size]
  empty : h'.parts h.size = []
  kind : (h'.get h.size).kind = k
  idName : (h'.get h.size).idName = nm
  attrs : (h'.get h.size).attrs = attrs
  parent : (h'.get h.size).parent = some c
  depth : (h'.get h.size).depth = (h.get c).depth + 1
  depths : ∀ x < h.size, (h'.get x).depth = (h.get x).depth
  uuids : ∀ x < h.size, (h'.get x).uuid = (h.get x).uuid
  path : ∀ l, PathTo h c l → PathTo h' h.size (l ++ [nm]) ∧ (h'.get h.size).qualName = Str.join '/' (l ++ [nm])

theorem Grown1.made {c : Ref} {o : Obj} {h h' : Heap} (g : Grown1 (some c) o h h') (I : Inv h) (hk : o.kind ≠ .port)
    (hs : o.subs = []) (hc : c < h.size) : MadeIn c o.kind o.idName o.attrs h h' where
  later := (g.onward I hk hc).1
  size := g.size
  subs x hx := by
    unfold Heap.subelements
    split
    · next e =>
      subst e
      obtain ⟨i, n, k, sr, e⟩ := g.cont x rfl
      rw [e, Dict.values_append]
      rfl
    · next e => rw [g.others x hx (by simpa using Ne.symm e)]; simp
  parts := (g.onward I hk hc).2
  empty := g.newParts hs
  kind := by have := congrArg Obj.kind g.new; exact this
  idName := by have := congrArg Obj.idName g.new; exact this
  attrs := by have := congrArg Obj.attrs g.new; exact this
  parent := by have := congrArg Obj.parent g.new; exact this
  depth := g.depth
  depths x hx := by
    by_cases e : x = c
    · subst e
      obtain ⟨i, n, k, sr, e⟩ := g.cont x rfl
      rw [e]
    · rw [g.others x hx (by simpa using Ne.symm e)]
  uuids x hx := by
    by_cases e : x = c
    · subst e
      obtain ⟨i, n, k, sr, e⟩ := g.cont x rfl
      rw [e]
    · rw [g.others x hx (by simpa using Ne.symm e)]
  path _ p := g.path I hk hc p

/-- `generate_node` in `c`. -/
theorem node_step {E : Env} {h : Heap} (R : Reach E h) {F : Factory} (hF : F.clock ≠ none) (nm : Str) {c : Ref}
    (hc : c < h.size) (hck : (h.get c).kind ≠ .relation) :
    ∃ r h', F.generateNode E nm (some c) h = (r, h') ∧ Reach E h' ∧
      ∀ x, r = .ok x → x = h.size ∧ MadeIn c .node nm [] h h' := by
  obtain ⟨r1, hu, hu2⟩ := F.generateUid_run (E := E) hF (h.newPath nm (some c)) h
  have R1 : Reach E { h with reads := r1 } := by rw [hu2]; exact reach_readClock R _
  obtain ⟨r2, t, hs, hs2⟩ := stamped_run (E := E) hF nm { h with reads := r1 }
  have R2 : Reach E { h with reads := r2 } := by
    have := reach_readClock R1 F.clock
    rw [← hs2] at this; exact this
  obtain ⟨ck, hck'⟩ := Option.ne_none_iff_exists'.1 hF
  obtain ⟨r, h', e, R', key⟩ := conceptual_step R2 (k := .node) rfl nm (F.uid E (h.newPath nm (some c)) h)
    (.str (Str.join '/' [F.name, nm ++ '.' :: decimal t])) ck (c := c) hc hck
  refine ⟨r, h', ?_, R', fun x hx => ?_⟩
  · unfold Factory.generateNode
    rw [heap_bind_run, bind_ok hu, bind_ok hs, hck', e]
  · obtain ⟨e1, g⟩ := key x hx
    exact ⟨e1, g.reads.made R.good.inv (by simp [builtObj, conceptualObj]) rfl hc⟩

/-- `create_hyperedge` in `c`. -/
theorem edge_step {E : Env} {h : Heap} (R : Reach E h) {F : Factory} (hF : F.clock ≠ none) (nm : Str) {c : Ref}
    (hc : c < h.size) (hck : (h.get c).kind = .node) :
    ∃ r h', F.createHyperedge E c nm h = (r, h') ∧ Reach E h' ∧
      ∀ x, r = .ok x → x = h.size ∧ MadeIn c .edge nm [] h h' := by
  obtain ⟨r1, hu, hu2⟩ := F.generateUid_run (E := E) hF nm h
  have R1 : Reach E { h with reads := r1 } := by rw [hu2]; exact reach_readClock R _
  obtain ⟨r2, t, hs, hs2⟩ := stampedIn_run (E := E) hF nm c { h with reads := r1 }
  have R2 : Reach E { h with reads := r2 } := by
    have := reach_readClock R1 F.clock
    rw [← hs2] at this; exact this
  obtain ⟨ck, hck'⟩ := Option.isSome_iff_exists.1 (R2.good.inv.clocked (x := c) hc (by
    show (h.get c).kind.isConceptual = true
    rw [hck]; rfl))
  obtain ⟨r, h', e, R', key⟩ := conceptual_step R2 (k := .edge) rfl nm (F.uid E nm h)
    (.tup (Str.join '/' [(h.get c).qualName, nm] ++ '.' :: decimal t)) ck (c := c) hc (by
      show (h.get c).kind ≠ _
      rw [hck]; simp)
  refine ⟨r, h', ?_, R', fun x hx => ?_⟩
  · unfold Factory.createHyperedge
    rw [bind_ok hu, bind_ok hs, obj_bind_run]
    change (h.get c).clock = _ at hck'
    change (if (h.get c).kind.isConceptual = true then newConceptual E .edge nm _ _ (h.get c).clock (some c) else _) _ = _
    rw [if_pos (by rw [hck]; rfl), hck', ← e]
  · obtain ⟨e1, g⟩ := key x hx
    exact ⟨e1, g.reads.made R.good.inv (by simp [builtObj, conceptualObj]) rfl hc⟩

/-- Writing an attribute of an existing semantic element. -/
theorem attr_step {E : Env} {h : Heap} (R : Reach E h) {s : Ref} {k : SemKind} (hs : (h.get s).kind = .semantic k)
    (key : Str) (a : AttrVal) : ∃ h', addNamedAttribute s key a h = (.ok (), h') ∧ Reach E h' ∧
      (∀ N ≤ s, ∀ D, Onward N D h h') ∧ h'.size = h.size ∧ (∀ x, h'.parts x = h.parts x) ∧
      (h'.get s).attrs = (h.get s).attrs.set key a ∧ (∀ x, x ≠ s → h'.get x = h.get x) ∧
      (∀ x, (h'.get x).kind = (h.get x).kind) ∧ (∀ x, (h'.get x).idName = (h.get x).idName) ∧
      (∀ x, (h'.get x).qualName = (h.get x).qualName) ∧ (∀ x, (h'.get x).parent = (h.get x).parent) ∧
      (∀ x, h'.subelements x = h.subelements x) ∧ (∀ x, (h'.get x).depth = (h.get x).depth) ∧
      ∀ x, (h'.get x).uuid = (h.get x).uuid := by
  have hlt := R.good.inv.lt_of_kind (x := s) (by rw [hs]; simp)
  have ne : ∀ x, x ≠ s → (h.mod s fun o => { o with attrs := o.attrs.set key a }).get x = h.get x := by
    intro x hx; simp [hx]
  have f : ∀ {α : Type} (π : Obj → α) (_ : ∀ o t, π { o with attrs := t } = π o) (z : Ref),
      π ((h.mod s fun o => { o with attrs := o.attrs.set key a }).get z) = π (h.get z) := by
    intro α π hπ z
    simp only [Heap.get_mod]
    split
    · next e => subst e; exact hπ _ _
    · rfl
  have pt : ∀ x, (h.mod s fun o => { o with attrs := o.attrs.set key a }).parts x = h.parts x := by
    intro x
    unfold Heap.parts Heap.subelements
    rw [f (·.subs) (fun _ _ => rfl)]
    apply List.filter_congr
    intro y _
    rw [f (·.kind) (fun _ _ => rfl)]
  refine ⟨_, rfl, Reach.step (E := E) (.addAttr s key a) R ⟨hlt, k, hs⟩ trivial, ?_, rfl, pt, by simp, ne,
    f (·.kind) (fun _ _ => rfl), f (·.idName) (fun _ _ => rfl), f (·.qualName) (fun _ _ => rfl),
    f (·.parent) (fun _ _ => rfl), fun x => by unfold Heap.subelements; rw [f (·.subs) (fun _ _ => rfl)],
    f (·.depth) (fun _ _ => rfl), f (·.uuid) (fun _ _ => rfl)⟩
  intro N hN D
  have g : ∀ x < N, (h.mod s fun o => { o with attrs := o.attrs.set key a }).get x = h.get x :=
    fun x hx => ne x (by omega)
  constructor <;> intros <;> first
    | rfl | exact Nat.le_refl _ | rw [g _ ‹_›] | rw [pt]

/-- `generate_semantic_element` in `p`. -/
theorem sem_step {E : Env} {h : Heap} (R : Reach E h) {F : Factory} (hF : F.clock ≠ none) (raw name : Str) {p : Ref}
    (hp : p < h.size) (hpk : (h.get p).kind ≠ .relation) (attr : Dict Str AttrVal) (values : Option AttrVal) :
    ∃ r h', F.generateSemantic E raw name p attr values h = (r, h') ∧ Reach E h' ∧
      ∀ x, r = .ok x → x = h.size ∧ ∃ k, semanticClass (normaliseType raw) = some k ∧
        MadeIn p (.semantic k) name (match values with | none => attr | some v => attr.set valuesKey v) h h' := by
  by_cases ha : attr = []
  · subst ha
    exact ⟨_, h, rfl, R, by rintro x ⟨⟩⟩
  cases hk : semanticClass (normaliseType raw) with
  | none =>
    obtain ⟨r1, hu, hu2⟩ := F.generateUid_run (E := E) hF name h
    refine ⟨.error .invalidSemanticType, { h with reads := r1 }, ?_, by rw [hu2]; exact reach_readClock R _, by rintro x ⟨⟩⟩
    unfold Factory.generateSemantic
    rw [if_neg ha, bind_ok hu]
    simp only [hk]
    rfl
  | some k =>
    obtain ⟨r, q, h1, R1, G, -, run⟩ := generateSemantic_start (p := p) (name := name) R hF ha values hk
    replace G := G.reads
    have n1 : (h1.get h.size).parent = none := by have := congrArg Obj.parent G.new; exact this
    have n2 : (h1.get h.size).subs = [] := by have := congrArg Obj.subs G.new; exact this
    have n3 : (h1.get h.size).uuid = F.uid E name h := by have := congrArg Obj.uuid G.new; exact this
    have s1 : h1.size = h.size + 1 := G.size
    have R2 := reach_add (E := E) R1 (c := p) (x := h.size) (by omega) (by omega) (addSafe_leaf R1.good.inv n1 n2)
    by_cases hd : F.uid E name h ∈ (h.get p).subs.keys
    · have e := addElement_refused (h := h1) E (c := p) (x := h.size) (by omega) (by
        rw [G.others p hp (by simp), n3]; exact hd)
      rw [e] at R2
      exact ⟨.error .duplicateElement, h1, by rw [run, bind_err e], R2, by rintro x ⟨⟩⟩
    · obtain ⟨h2, ha2, G2⟩ := attach_new (E := E) R1.good.inv rfl G (c := p) hp hpk hd (by rintro _ ⟨⟩)
      rw [ha2] at R2
      have M : MadeIn p (.semantic k) name attr h h2 := G2.made R.good.inv (by simp [semObj]) rfl hp
      cases values with
      | none =>
        exact ⟨_, h2, by rw [run, bind_ok ha2]; rfl, R2, by rintro x ⟨⟩; exact ⟨rfl, k, rfl, M⟩⟩
      | some v =>
        obtain ⟨h3, e3, R3, L3, s3, p3, a3, o3, k3, i3, q3, pa3, su3, dp3, uu3⟩ := attr_step R2 M.kind valuesKey v
        refine ⟨.ok h.size, h3, by rw [run, bind_ok ha2]; simp only; rw [bind_ok e3]; rfl, R3, ?_⟩
        rintro x ⟨⟩
        refine ⟨rfl, k, rfl, M.later.trans (L3 _ (Nat.le_refl _) _), by rw [s3, M.size],
          fun x hx => by rw [su3, M.subs x hx], by rw [p3, M.parts],
          by rw [p3, M.empty], by rw [k3, M.kind], by rw [i3, M.idName], by rw [a3, M.attrs], by rw [pa3, M.parent],
          by rw [dp3, M.depth], fun x hx => by rw [dp3, M.depths x hx],
          fun x hx => by rw [uu3, M.uuids x hx], ?_⟩
        intro l hl
        obtain ⟨a, b⟩ := M.path l hl
        exact ⟨a.transfer pa3 i3, by rw [q3, b]⟩

end Rei
