import Verif.Lemmas.Timely
import Verif.Spec.CogniAccept

/-!
# The reader accepts well-formed files: poses, geometries, solids, links
-/
namespace Rei
open PyM

/-- `m` returns from `h`; afterwards the clock has done its work and `Q` holds. -/
def Goes {α : Type} (E : Env) (lo : Nat) (m : PyM α) (h : Heap) (Q : α → Heap → Prop) : Prop :=
  ∃ a h', m h = (.ok a, h') ∧ Timely E lo h' ∧ Q a h'

namespace Goes
variable {E : Env} {lo : Nat} {α β : Type} {h : Heap}

theorem pure {a : α} {Q : α → Heap → Prop} (T : Timely E lo h) (q : Q a h) : Goes E lo (Pure.pure a : PyM α) h Q :=
  ⟨a, h, rfl, T, q⟩

theorem bind {m : PyM α} {f : α → PyM β} {Q1 Q : α → Heap → Prop} {Q2 : β → Heap → Prop} (s : Goes E lo m h Q1)
    (d : Does E m h Q) (k : ∀ a h', Reach E h' → Timely E lo h' → Q1 a h' → Q a h' → Goes E lo (f a) h' Q2) :
    Goes E lo (m >>= f) h Q2 := by
  obtain ⟨a, h', e, p, q⟩ := s
  obtain ⟨b, h'', e', p', q'⟩ := k a h' (by have := d.1; rw [e] at this; exact this) p q (d.2 a h' e)
  exact ⟨b, h'', by rw [bind_ok e]; exact e', p', q'⟩

theorem mono {m : PyM α} {Q1 Q Q2 : α → Heap → Prop} (s : Goes E lo m h Q1) (d : Does E m h Q)
    (k : ∀ a h', Reach E h' → Timely E lo h' → Q1 a h' → Q a h' → Q2 a h') : Goes E lo m h Q2 := by
  obtain ⟨a, h', e, p, q⟩ := s
  exact ⟨a, h', e, p, k a h' (by have := d.1; rw [e] at this; exact this) p q (d.2 a h' e)⟩

theorem void {m : PyM α} {Q : α → Heap → Prop} {Q2 : Unit → Heap → Prop} (s : Goes E lo m h Q)
    (k : ∀ a h', Q a h' → Q2 () h') : Goes E lo m.void h Q2 := by
  obtain ⟨a, h', e, p, q⟩ := s
  refine ⟨(), h', ?_, p, k a h' q⟩
  unfold PyM.void
  rw [bind_ok e]; rfl

theorem of_fine {m : PyM α} (s : Fine (Timely E lo) m h) : Goes E lo m h fun _ _ => True := by
  obtain ⟨a, h', e, p⟩ := s
  exact ⟨a, h', e, p, trivial⟩

theorem objB {x : Ref} {f : Obj → PyM β} {Q : β → Heap → Prop} (g : Goes E lo (f (h.get x)) h Q) :
    Goes E lo (PyM.obj x >>= f) h Q := by
  obtain ⟨a, h', e, p⟩ := g
  exact ⟨a, h', by rw [obj_bind_run]; exact e, p⟩

theorem heapB {f : Heap → PyM β} {Q : β → Heap → Prop} (g : Goes E lo (f h) h Q) : Goes E lo (PyM.heap >>= f) h Q := by
  obtain ⟨a, h', e, p⟩ := g
  exact ⟨a, h', by rw [heap_bind_run]; exact e, p⟩

theorem liftB {r : Except Err α} {a : α} {f : α → PyM β} {Q : β → Heap → Prop} (e : r = .ok a)
    (g : Goes E lo (f a) h Q) : Goes E lo (Rei.liftE r >>= f) h Q := by
  obtain ⟨b, h', e', p⟩ := g
  refine ⟨b, h', ?_, p⟩
  rw [bind_ok (a := a) (h' := h) (by unfold Rei.liftE; rw [e])]; exact e'

theorem rememberB {I : FileIcon} {x : Ref} {f : FileIcon → PyM β} {Q : β → Heap → Prop}
    (g : Goes E lo (f { I with cache := I.cache.set (h.get x).qualName x }) h Q) :
    Goes E lo (I.remember x >>= f) h Q := by
  obtain ⟨b, h', e', p⟩ := g
  refine ⟨b, h', ?_, p⟩
  have e0 : I.remember x h = (.ok { I with cache := I.cache.set (h.get x).qualName x }, h) := rfl
  rw [bind_ok e0]; exact e'

theorem remember {I : FileIcon} {x : Ref} {Q : FileIcon → Heap → Prop} (T : Timely E lo h)
    (q : Q { I with cache := I.cache.set (h.get x).qualName x } h) : Goes E lo (I.remember x) h Q :=
  ⟨_, h, rfl, T, q⟩

theorem cachedB {I : FileIcon} {k : Str} {x : Ref} {f : Ref → PyM β} {Q : β → Heap → Prop}
    (e : I.cache.get? k = some x) (g : Goes E lo (f x) h Q) : Goes E lo (I.cached k >>= f) h Q := by
  obtain ⟨b, h', e', p⟩ := g
  refine ⟨b, h', ?_, p⟩
  rw [bind_ok (a := x) (h' := h) (by unfold FileIcon.cached; rw [e]; rfl)]; exact e'

end Goes

/-- The name under which a node is known. -/
def Heap.nodeName? (h : Heap) (x : Ref) : Option Str := if (h.get x).kind = .node then some (h.get x).idName else none

/-- What the names in use say about the cache of the reader, all of whose objects are new. -/
structure Knows (h : Heap) (I : FileIcon) (w : Ref) (lo : Nat) (seen : List Str) (W : Known) : Prop where
  fac : I.fac.clock = some .local
  cog : I.cog.clock = some .local
  params : lo ≤ I.params
  cache : ∀ k, W.lookup k = (I.cache.get? k).map h.nodeName?
  low : ∀ k x, I.cache.get? k = some x → lo ≤ x
  seen : ∀ k ∈ seen, I.cache.get? k ≠ none
  wname : (h.get w).idName = "world".toList
  wkind : (h.get w).kind = .node

section
variable {E : Env} {lo : Nat} {h h' : Heap} {I : FileIcon} {w : Ref} {ps : Params} {seen : List Str} {W : Known}

theorem Knows.steady (K : Knows h I w lo seen W) (o : IconOk h I w ps seen)
    (hk : ∀ x < h.size, (h'.get x).kind = (h.get x).kind) (hn : ∀ x < h.size, (h.get x).kind = .node → (h'.get x).idName = (h.get x).idName) :
    Knows h' I w lo seen W := by
  have wl := (o.cache _ _ o.world).1
  refine ⟨K.fac, K.cog, K.params, fun k => ?_, K.low, K.seen, by rw [hn w wl K.wkind, K.wname], by rw [hk w wl, K.wkind]⟩
  rw [K.cache k]
  cases e : I.cache.get? k with
  | none => rfl
  | some x =>
    have := (o.cache k x e).1
    simp only [Option.map_some]
    unfold Heap.nodeName?
    rw [hk x this]
    split
    · next e => rw [hn x this e]
    · rfl

theorem Knows.onward (K : Knows h I w lo seen W) (o : IconOk h I w ps seen) {D : List Ref}
    (a : Onward h.size D h h') : Knows h' I w lo seen W := K.steady o a.kind fun x hx _ => a.idName x hx

theorem Knows.remember (K : Knows h I w lo seen W) {x : Ref} (hx : lo ≤ x) {k : Str} (hq : (h.get x).qualName = k)
    {n : Option Str} (hn : h.nodeName? x = n) :
    Knows h { I with cache := I.cache.set (h.get x).qualName x } w lo seen ((k, n) :: W) := by
  subst hq hn
  refine ⟨K.fac, K.cog, K.params, fun k => ?_, fun k y hy => ?_, fun k hk => ?_, K.wname, K.wkind⟩
  · show _ = ((I.cache.set (h.get x).qualName x).get? k).map _
    rw [Dict.get?_set, List.lookup_cons]
    by_cases e : (h.get x).qualName = k
    · subst e; simp
    · have : (k == (h.get x).qualName) = false := by simpa using Ne.symm e
      rw [this, if_neg e, K.cache k]
  · change (I.cache.set (h.get x).qualName x).get? k = some y at hy
    rw [Dict.get?_set] at hy
    split at hy
    · cases hy; exact hx
    · exact K.low k y hy
  · show (I.cache.set (h.get x).qualName x).get? k ≠ none
    rw [Dict.get?_set]
    split
    · simp
    · exact K.seen k hk

theorem nodeName?_node {x : Ref} (hk : (h.get x).kind = .node) : h.nodeName? x = some (h.get x).idName := by
  unfold Heap.nodeName?; rw [if_pos hk]

theorem nodeName?_sem {x : Ref} {sk : SemKind} (hk : (h.get x).kind = .semantic sk) : h.nodeName? x = none := by
  unfold Heap.nodeName?; rw [hk, if_neg (by simp)]

/-! ### Numbers -/

theorem param_found {l : List Ref} (f : List.Forall₂ (ParamAt h) l ps) {n : Str} (hn : (ps.lookup n).isSome = true) :
    ∃ v, l.find? (fun x => decide ((h.get x).kind = .value) && decide ((h.get x).idName = n)) = some v := by
  induction f with
  | nil => cases hn
  | @cons x p l ps hx _ ih =>
    obtain ⟨m, q⟩ := p
    rw [List.find?_cons]
    have hm : (h.get x).idName = m := hx.name
    by_cases e : m = n
    · subst e
      simp only [hx.kind, hm, decide_true, Bool.and_self]
      exact ⟨x, rfl⟩
    · simp only [hx.kind, hm, e, decide_false, Bool.and_false]
      refine ih ?_
      rw [List.lookup_cons] at hn
      have : (n == m) = false := by simpa using Ne.symm e
      rw [this] at hn
      exact hn

theorem floatVec_ok {P : Ref} (f : List.Forall₂ (ParamAt h) (h.parts P) ps) {v : List FVal}
    (hv : vecKnown ps v = true) : ∃ l, floatVec h P v = .ok l := by
  induction v with
  | nil => exact ⟨[], rfl⟩
  | cons a v ih =>
    unfold vecKnown at hv
    rw [List.all_cons, Bool.and_eq_true] at hv
    obtain ⟨l, e⟩ := ih hv.2
    have : ∃ x, floatsOf h P a = .ok x := by
      cases a with
      | num q => exact ⟨[q], rfl⟩
      | param n =>
        obtain ⟨x, hx⟩ := param_found f hv.1
        unfold floatsOf
        simp only [paramNode_parts, hx]
        exact ⟨_, rfl⟩
    obtain ⟨x, hx⟩ := this
    unfold floatVec
    rw [hx, e]
    exact ⟨_, rfl⟩

theorem poseValues_ok {P : Ref} (f : List.Forall₂ (ParamAt h) (h.parts P) ps) {p : Pose}
    (hp : p.known ps = true) : ∃ v, poseValues h P p = .ok v := by
  obtain ⟨tr, rot⟩ := p
  unfold Pose.known at hp
  rw [Bool.and_eq_true] at hp
  obtain ⟨t, ht⟩ := floatVec_ok f hp.1
  unfold poseValues
  simp only at ht
  simp only [ht]
  cases rot with
  | none => exact ⟨_, rfl⟩
  | some mv =>
    obtain ⟨m, v⟩ := mv
    obtain ⟨r, hr⟩ := floatVec_ok f (v := v) (by simpa using hp.2)
    simp only [hr]
    exact ⟨_, rfl⟩

/-! ### Poses -/

theorem pose_goes (X : Ideal E) (R : Reach E h) (T : Timely E lo h) (o : IconOk h I w ps seen)
    (K : Knows h I w lo seen W) {el : Ref} {P : List Str}
    (hel : PathTo h el P) (hk : ∃ k, (h.get el).kind = .semantic k) (hlo : lo ≤ el) (p : Option Pose)
    (hp : p.all (Pose.known ps) = true) :
    Goes E lo (I.poseElement E p el) h fun r h' => Knows h' r.1 w lo seen (poseNames P (h.get el).idName p ++ W) := by
  unfold FileIcon.poseElement
  obtain ⟨k, hk⟩ := hk
  have hlt : el < h.size := R.good.inv.lt_of_kind (by rw [hk]; simp)
  cases p with
  | none => exact .pure T K
  | some p =>
    obtain ⟨v, hv⟩ := poseValues_ok o.params (p := p) (by simpa using hp)
    refine .heapB (.liftB hv (.objB ?_))
    refine (Goes.of_fine (sem_fine X R T K.cog _ hlo hlt (.inr ⟨k, hk⟩) (by simp) _ (k := .rigid) (by decide +kernel))).bind
      (sem_does R o.cog _ _ hlt (by rw [hk]; simp) _ _) fun t h2 R2 T2 _ q => ?_
    obtain ⟨rfl, k', hk', M⟩ := q
    cases hk'
    refine .rememberB (.pure T2 ?_)
    have K2 := K.onward o M.later
    have pq := M.path _ hel
    rw [join_transformation] at pq
    exact K2.remember T.le pq.2 (nodeName?_sem M.kind)

/-! ### Geometries -/

theorem reference_goes (X : Ideal E) (R : Reach E h) (T : Timely E lo h) (o : IconOk h I w ps seen)
    (K : Knows h I w lo seen W) {cpath : List Str} {c : Ref} (a : At h I cpath c) (ln : Str) (v : Str) {g : Ref}
    (hg : (h.get g).kind = .node) (hlo : lo ≤ g) (id : Str)
    (ok : (Geom.ref id).wellFormed ps seen W (cpath ++ [ln] ++ [v]) (h.get g).idName = true) :
    Goes E lo (I.addReference E (cpath ++ [ln] ++ [v]) g id) h fun I' h' =>
      Knows h' I' w lo (seen ++ (Geom.ref id).targets (cpath ++ [ln] ++ [v])) W := by
  have inv := R.good.inv
  have hgl : g < h.size := inv.lt_of_kind (by rw [hg]; simp)
  have hcl := a.lt inv
  have clo := K.low _ _ a.cached
  unfold FileIcon.addReference
  have e1 : (cpath ++ [ln] ++ [v]).take ((cpath ++ [ln] ++ [v]).length - 2) = cpath := by
    rw [List.append_assoc]
    simp
  rw [e1]
  refine .cachedB a.cached ?_
  have key : inferredName (cpath ++ [ln] ++ [v]) id = targetName (cpath ++ [ln] ++ [v]) id := rfl
  rw [key]
  have targets : (Geom.ref id).targets (cpath ++ [ln] ++ [v]) = [targetName (cpath ++ [ln] ++ [v]) id] := rfl
  rw [targets]
  unfold Geom.wellFormed at ok
  clear key targets
  rw [Bool.or_eq_true, decide_eq_true_eq] at ok
  generalize targetName (cpath ++ [ln] ++ [v]) id = Tn at ok ⊢
  cases ht : I.cache.get? Tn with
  | none =>
    exfalso
    rcases ok with ok | ok
    · exact K.seen _ ok ht
    · rw [K.cache, ht] at ok; cases ok
  | some t =>
    simp only
    by_cases hr : I.refs.has Tn = true
    · rw [if_pos hr]
      refine .pure T ⟨K.fac, K.cog, K.params, K.cache, K.low, fun k hk => ?_, K.wname, K.wkind⟩
      rcases List.mem_append.1 hk with hk | hk
      · exact K.seen k hk
      · simp at hk; subst hk; rw [ht]; simp
    · rw [if_neg hr]
      have hs : Tn ∉ seen := fun q => hr ((o.refs Tn).2 q)
      obtain ⟨tk, tn⟩ : (h.get t).kind = .node ∧ (h.get t).idName ≠ (h.get g).idName := by
        rcases ok with ok | ok
        · exact absurd ok hs
        · rw [K.cache, ht] at ok
          simp only [Option.map_some] at ok
          unfold Heap.nodeName? at ok
          by_cases hk : (h.get t).kind = .node
          · rw [if_pos hk] at ok
            exact ⟨hk, by simpa using ok⟩
          · rw [if_neg hk] at ok; cases ok
      obtain ⟨htl, -⟩ := o.cache Tn t ht
      have tlo := K.low _ _ ht
      refine .objB ?_
      refine (Goes.of_fine (edge_fine X R T K.fac _ clo hcl a.kind)).bind (edge_does R o.fac _ hcl a.kind)
        fun e h1 R1 T1 _ q => ?_
      obtain ⟨rfl, M⟩ := q
      have sz1 := M.size
      refine ((Goes.of_fine (connect_fine X R1 T1 .outwards (n := t) (sv := none) T.le (by omega) M.kind tlo (by omega)
        (by rw [M.later.kind t htl, tk]) (by rintro s ⟨⟩) (by rw [M.empty]; simp))).void (Q2 := fun _ _ => True)
        (fun _ _ _ => trivial)).bind
        (connect_does R1 .outwards (n := t) (by omega) M.kind (by omega) (by rintro s ⟨⟩)).void fun _ h2 R2 T2 _ q => ?_
      obtain ⟨_, -, L1⟩ := q
      have sz2 := L1.size
      refine ((Goes.of_fine (connect_fine X R2 T2 .inwards (n := g) (sv := none) T.le (by omega)
        (by rw [L1.kind _ (by omega), M.kind]) hlo (by omega)
        (by rw [L1.kind _ (by omega), M.later.kind g hgl, hg]) (by rintro s ⟨⟩) ?_)).void (Q2 := fun _ _ => True)
        (fun _ _ _ => trivial)).bind
        (connect_does R2 .inwards (n := g) (by omega) (by rw [L1.kind _ (by omega), M.kind]) (by omega)
        (by rintro s ⟨⟩)).void fun _ h3 R3 T3 _ q => ?_
      · intro r hr t' ht'
        rw [L1.parts_edge (by omega), M.empty] at hr
        simp at hr
        subst hr
        rw [L1.relEnd] at ht'
        cases ht'
        rw [L1.idName t (by omega), L1.idName g (by omega), M.later.idName t htl, M.later.idName g hgl]
        exact tn
      obtain ⟨_, -, L2⟩ := q
      have sz3 := L2.size
      have K3 : Knows h3 I w lo seen W := K.steady o
        (fun x hx => by rw [L2.kind x (by omega), L1.kind x (by omega), M.later.kind x hx])
        (fun x hx _ => by rw [L2.idName x (by omega), L1.idName x (by omega), M.later.idName x hx])
      refine .pure T3 ⟨K3.fac, K3.cog, K3.params, K3.cache, K3.low, fun k hk => ?_, K3.wname, K3.wkind⟩
      rcases List.mem_append.1 hk with hk | hk
      · exact K.seen k hk
      · simp at hk; subst hk; show I.cache.get? _ ≠ none; rw [ht]; simp

/-- The qualified name that the body of a geometry adds. -/
def geomNames (P : List Str) (gname : Str) : Geom → Known
  | .solid _ _ => [(Str.join '/' (P ++ [gname]), none)]
  | .ref _ => []

theorem geomBody_goes (X : Ideal E) (R : Reach E h) (T : Timely E lo h) (o : IconOk h I w ps seen)
    (K : Knows h I w lo seen W) {cpath : List Str} {c : Ref} (a : At h I cpath c) (ln : Str) (v : Str) {g : Ref}
    (hg : (h.get g).kind = .node) (hlo : lo ≤ g) {P : List Str} (hgpath : PathTo h g P) (G : Geom)
    (ok : G.wellFormed ps seen W (cpath ++ [ln] ++ [v]) (h.get g).idName = true) :
    Goes E lo (I.geomBody E (cpath ++ [ln] ++ [v]) g (h.get g).idName G) h fun I' h' =>
      Knows h' I' w lo (seen ++ G.targets (cpath ++ [ln] ++ [v])) (geomNames P (h.get g).idName G ++ W) := by
  have inv := R.good.inv
  have hgl : g < h.size := inv.lt_of_kind (by rw [hg]; simp)
  cases G with
  | ref id => exact reference_goes X R T o K a ln v hg hlo id ok
  | solid cl f =>
    unfold FileIcon.geomBody
    cases f with
    | ref n => cases ok
    | vec vv =>
      unfold Geom.wellFormed at ok
      rw [Bool.and_eq_true] at ok
      obtain ⟨l, hl⟩ := floatVec_ok o.params ok.2
      obtain ⟨k, hk⟩ : ∃ k, semanticClass (normaliseType (geomWord cl)) = some k := by
        cases cl with
        | cylinder => exact ⟨.cylinder, by decide +kernel⟩
        | polyhedron => exact ⟨.polyhedron, by decide +kernel⟩
        | ellipsoid => exact ⟨.ellipsoid, by decide +kernel⟩
        | mesh => cases ok.1
      refine .heapB (.liftB (a := l) hl ?_)
      refine (Goes.of_fine (sem_fine X R T K.cog _ hlo hgl (.inl hg) (by simp) _ hk)).bind
        (sem_does R o.cog _ _ hgl (by rw [hg]; simp) _ _) fun s h2 R2 T2 _ q => ?_
      obtain ⟨rfl, k, hk, M⟩ := q
      refine .remember T2 ?_
      have pq := M.path _ hgpath
      have := (K.onward o M.later).remember T.le pq.2 (nodeName?_sem M.kind)
      have e : (Geom.solid cl (FField.vec vv)).targets (cpath ++ [ln] ++ [v]) = [] := rfl
      rw [e, List.append_nil]
      exact this

theorem geometry_goes (X : Ideal E) (R : Reach E h) (T : Timely E lo h) (o : IconOk h I w ps seen)
    (K : Knows h I w lo seen W) {cpath : List Str} {c : Ref} (a : At h I cpath c) (ln : Str) (v : Str) {x : Ref}
    (hx : (h.get x).kind = .node) (hlo : lo ≤ x) (hxp : x ≠ I.params)
    (hpath : PathTo h x (cpath ++ [ln] ++ [(h.get x).idName])) (G : Geom)
    (ok : G.wellFormed ps seen W (cpath ++ [ln] ++ [v]) ("geom_".toList ++ (h.get x).idName) = true) :
    Goes E lo (I.geometry E (cpath ++ [ln] ++ [v]) x G) h fun I' h' =>
      Knows h' I' w lo (seen ++ G.targets (cpath ++ [ln] ++ [v]))
        ((Str.join '/' (cpath ++ [ln] ++ [(h.get x).idName, "geom_".toList ++ (h.get x).idName]),
          some ("geom_".toList ++ (h.get x).idName)) ::
          geomNames (cpath ++ [ln] ++ [(h.get x).idName, "geom_".toList ++ (h.get x).idName])
            ("geom_".toList ++ (h.get x).idName) G ++ W) := by
  have inv := R.good.inv
  have hxl : x < h.size := inv.lt_of_kind (by rw [hx]; simp)
  unfold FileIcon.geometry
  refine .objB ?_
  simp only [join_geom]
  refine (Goes.of_fine (node_fine X R T K.fac _ hlo hxl hx)).bind (node_does R o.fac _ hxl (by rw [hx]; simp))
    fun g h1 R1 T1 _ q => ?_
  obtain ⟨rfl, M⟩ := q
  have sz := M.size
  have o1 := o.onward inv M.later (M.parts_ne o.plt hxp.symm)
  have a1 := a.onward inv M.later (Kept.refl _ I)
  have K1 := K.onward o M.later
  have pq := M.path _ hpath
  have e1 : cpath ++ [ln] ++ [(h.get x).idName] ++ ["geom_".toList ++ (h.get x).idName] =
    cpath ++ [ln] ++ [(h.get x).idName, "geom_".toList ++ (h.get x).idName] := by simp
  rw [e1] at pq
  have plt := o.plt
  have hcl := a.lt inv
  have d := geomBody_does R1 o1 a1 ln v (g := h.size) M.kind M.empty (by omega) (by omega) pq.1 G
  have s := geomBody_goes X R1 T1 o1 K1 a1 ln v (g := h.size) M.kind T.le pq.1 G (by rw [M.idName]; exact ok)
  rw [M.idName] at d s
  refine s.bind d fun I2 h2 R2 T2 K2 q => ?_
  obtain ⟨es, Q⟩ := q
  have qn : (h2.get h.size).qualName = Str.join '/' (cpath ++ [ln] ++
      [(h.get x).idName, "geom_".toList ++ (h.get x).idName]) := by rw [Q.on.qualName _ (by omega), pq.2]
  have kd : (h2.get h.size).kind = .node := by rw [Q.on.kind _ (by omega), M.kind]
  have nm : (h2.get h.size).idName = "geom_".toList ++ (h.get x).idName := by rw [Q.on.idName _ (by omega), M.idName]
  exact .remember T2 (K2.remember T.le qn (by rw [nodeName?_node kd, nm]))

/-! ### Solids and links -/

theorem geomNames_solid (path : List Str) (s : SolidDecl) :
    geomNames (path ++ [s.nodeName path, "geom_".toList ++ s.nodeName path]) ("geom_".toList ++ s.nodeName path) s.geom =
      (match s.geom with
        | .solid _ _ => [(Str.join '/' (path ++ [s.nodeName path, "geom_".toList ++ s.nodeName path,
            "geom_".toList ++ s.nodeName path]), none)]
        | .ref _ => []) := by
  cases s.geom <;> simp [geomNames]

theorem solid_goes (X : Ideal E) (R : Reach E h) (T : Timely E lo h) (o : IconOk h I w ps seen)
    (K : Knows h I w lo seen W) {cpath : List Str} {c : Ref} (a : At h I cpath c) {ln : Str} {x : Ref}
    (ax : At h I (cpath ++ [ln]) x) (s : SolidDecl)
    (ok : s.wellFormed ps seen (cpath ++ [ln]) W = true) :
    Goes E lo (I.visitSolid E (cpath ++ [ln]) s) h fun I' h' =>
      Knows h' I' w lo (seen ++ s.geom.targets (s.around (cpath ++ [ln]))) (s.names (cpath ++ [ln]) ++ W) := by
  have inv := R.good.inv
  have hxl := ax.lt inv
  have hcl := a.lt inv
  have plt := o.plt
  have xlo := K.low _ _ ax.cached
  unfold FileIcon.visitSolid
  refine .cachedB ax.cached ?_
  refine (Goes.of_fine (node_fine X R T K.fac _ xlo hxl ax.kind)).bind
    (node_does R o.fac _ hxl (by rw [ax.kind]; simp)) fun y h1 R1 T1 _ q => ?_
  obtain ⟨rfl, M⟩ := q
  have sz := M.size
  have inv1 := R1.good.inv
  refine .rememberB ?_
  have pq := M.path _ ax.path
  have o1 := o.onward inv M.later (M.parts_ne plt ax.params.symm)
  have o2 := o1.remember (x := h.size) (by omega) (.inl M.kind) (by rw [pq.2]; exact (join_longer (by simp) _ _).2)
  have K1 : Kept (cpath ++ [ln]) I { I with cache := I.cache.set (h1.get h.size).qualName h.size } :=
    Kept.remember (by simp) pq.2 _
  have a2 := a.onward inv M.later (K1.mono a.ne)
  have KK := (K.onward o M.later).remember (x := h.size) T.le pq.2 (nodeName?_node M.kind)
  have d := geometry_does R1 o2 a2 ln (s.id.getD "None".toList) (x := h.size) M.kind (by omega)
    (by show h.size ≠ I.params; omega) (by rw [M.idName]; exact pq.1) s.geom
  have g := geometry_goes X R1 T1 o2 KK a2 ln (s.id.getD "None".toList) (x := h.size) M.kind T.le
    (by show h.size ≠ I.params; omega) (by rw [M.idName]; exact pq.1) s.geom (by rw [M.idName]; exact ok)
  rw [M.idName] at d g
  refine g.bind d fun I2 h2 R2 T2 K2 q => ?_
  obtain ⟨es, Q⟩ := q
  rw [geomNames_solid] at K2
  cases hv : s.visual with
  | false =>
    rw [if_neg (by simp)]
    refine .pure T2 ?_
    have e : s.names (cpath ++ [ln]) ++ W = (Str.join '/' (cpath ++ [ln] ++ [s.nodeName (cpath ++ [ln]),
        "geom_".toList ++ s.nodeName (cpath ++ [ln])]), some ("geom_".toList ++ s.nodeName (cpath ++ [ln]))) ::
        (match s.geom with
        | .solid _ _ => [(Str.join '/' (cpath ++ [ln] ++ [s.nodeName (cpath ++ [ln]), "geom_".toList ++ s.nodeName (cpath ++ [ln]),
            "geom_".toList ++ s.nodeName (cpath ++ [ln])]), none)]
        | .ref _ => []) ++ (Str.join '/' (cpath ++ [ln] ++ [s.nodeName (cpath ++ [ln])]), some (s.nodeName (cpath ++ [ln]))) :: W := by
      unfold SolidDecl.names; cases s.geom <;> simp [hv]
    rw [e]; exact K2
  | true =>
    rw [if_pos rfl]
    unfold FileIcon.material
    refine .objB ?_
    simp only
    have ky : (h2.get h.size).kind = .node := by rw [Q.on.kind _ (by omega), M.kind]
    have nm : (h2.get h.size).idName = s.nodeName (cpath ++ [ln]) := by rw [Q.on.idName _ (by omega), M.idName]
    have hs2 := Q.on.size
    rw [nm]
    refine (Goes.of_fine (sem_fine X R2 T2 K2.cog _ T.le (by omega) (.inl ky) (by simp) _ (k := .material)
      (by decide +kernel))).bind (sem_does R2 Q.ok.cog _ _ (p := h.size) (by omega) (by rw [ky]; simp) _ _)
      fun m h3 R3 T3 _ q => ?_
    obtain ⟨rfl, k, hk, M2⟩ := q
    have pY : PathTo h2 h.size (cpath ++ [ln] ++ [s.nodeName (cpath ++ [ln])]) := Q.on.path inv1 (by omega) pq.1
    have pm := M2.path _ pY
    refine .remember T3 ?_
    have K3 := (K2.onward Q.ok M2.later).remember (x := h2.size) T2.le pm.2 (nodeName?_sem M2.kind)
    have e : s.names (cpath ++ [ln]) ++ W = (Str.join '/' (cpath ++ [ln] ++ [s.nodeName (cpath ++ [ln])] ++
        ["material_".toList ++ s.nodeName (cpath ++ [ln])]), none) :: ((Str.join '/' (cpath ++ [ln] ++ [s.nodeName (cpath ++ [ln]),
        "geom_".toList ++ s.nodeName (cpath ++ [ln])]), some ("geom_".toList ++ s.nodeName (cpath ++ [ln]))) ::
        (match s.geom with
        | .solid _ _ => [(Str.join '/' (cpath ++ [ln] ++ [s.nodeName (cpath ++ [ln]), "geom_".toList ++ s.nodeName (cpath ++ [ln]),
            "geom_".toList ++ s.nodeName (cpath ++ [ln])]), none)]
        | .ref _ => []) ++ (Str.join '/' (cpath ++ [ln] ++ [s.nodeName (cpath ++ [ln])]), some (s.nodeName (cpath ++ [ln]))) :: W) := by
      unfold SolidDecl.names; cases s.geom <;> simp [hv]
    rw [e]; exact K3

theorem solids_goes (X : Ideal E) {cpath : List Str} {c : Ref} {ln : Str} {x : Ref} (hxc : x ≠ c)
    (ss : List SolidDecl) : ∀ {h : Heap} {I : FileIcon} {seen : List Str} {W : Known} (_ : Reach E h) (_ : Timely E lo h)
    (_ : IconOk h I w ps seen) (_ : Knows h I w lo seen W) (_ : At h I cpath c) (_ : At h I (cpath ++ [ln]) x)
    (_ : solidsWellFormed ps (cpath ++ [ln]) seen W ss = true),
    Goes E lo (FileIcon.visitSolids E (cpath ++ [ln]) I ss) h fun I' h' =>
      Knows h' I' w lo (seen ++ ss.flatMap fun s => s.geom.targets (s.around (cpath ++ [ln])))
        (solidsNames (cpath ++ [ln]) ss ++ W) := by
  induction ss with
  | nil =>
    intro h I seen W R T o K a ax _
    exact .pure T (by simpa [solidsNames] using K)
  | cons s ss ih =>
    intro h I seen W R T o K a ax ok
    have inv := R.good.inv
    unfold FileIcon.visitSolids
    unfold solidsWellFormed at ok
    rw [Bool.and_eq_true] at ok
    refine (solid_goes X R T o K a ax s ok.1).bind (solid_does R o a ax hxc s) fun I1 h1 R1 T1 K1 q => ?_
    obtain ⟨es1, Q1⟩ := q
    have g := ih R1 T1 Q1.ok K1 (a.onward inv Q1.on (Q1.kept.mono a.ne)) (ax.onward inv Q1.on Q1.kept) ok.2
    rw [List.flatMap_cons, ← List.append_assoc]
    have e : solidsNames (cpath ++ [ln]) (s :: ss) ++ W = solidsNames (cpath ++ [ln]) ss ++ (s.names (cpath ++ [ln]) ++ W) := by
      rw [solidsNames, List.append_assoc]
    rw [e]
    exact g

theorem linkBody_goes (X : Ideal E) (R : Reach E h) (T : Timely E lo h) (o : IconOk h I w ps seen)
    (K : Knows h I w lo seen W) {cpath : List Str} {c : Ref} (a : At h I cpath c) {x : Ref} (l : LinkDecl)
    (ax : At h I (cpath ++ [l.name]) x) (hxc : x ≠ c)
    (ok : solidsWellFormed ps (cpath ++ [l.name]) seen W l.solids = true) :
    Goes E lo (I.visitLinkBody E (cpath ++ [l.name]) l.body) h fun I' h' =>
      Knows h' I' w lo (seen ++ l.targets cpath) (solidsNames (cpath ++ [l.name]) l.solids ++ W) := by
  have inv := R.good.inv
  have hxl := ax.lt inv
  have plt := o.plt
  have xlo := K.low _ _ ax.cached
  unfold LinkDecl.solids at ok ⊢
  unfold FileIcon.visitLinkBody LinkDecl.targets
  cases hb : l.body with
  | none => exact .pure T (by simpa [solidsNames] using K)
  | some b =>
    rw [hb] at ok
    simp only at ok ⊢
    unfold FileIcon.visitInertia
    refine Goes.bind (Q1 := fun _ _ => True) (Q := fun _ h' => MadeIn x (.semantic .inertia) ("inertia_".toList ++ pathKey (cpath ++ [l.name]))
      [("mass".toList, .num b.mass)] h h') ?_ ?_ ?_
    · refine .cachedB ax.cached ?_
      exact (Goes.of_fine (sem_fine X R T K.cog _ xlo hxl (.inl ax.kind) (by simp) _ (k := .inertia)
        (by decide +kernel))).void fun _ _ q => q
    · refine (ax.does R).bind fun _ h1 R1 q => ?_
      obtain ⟨rfl, rfl⟩ := q
      refine (sem_does R o.cog _ _ hxl (by rw [ax.kind]; simp) _ _).void.mono fun _ h1 R1 q => ?_
      obtain ⟨_, -, k, hk, M⟩ := q
      cases hk
      exact M
    intro _ h1 R1 T1 _ M
    have o1 := o.onward inv M.later (M.parts_ne plt ax.params.symm)
    exact solids_goes X hxc b.solids R1 T1 o1 (K.onward o M.later) (a.onward inv M.later (.refl _ _))
      (ax.onward inv M.later (.refl _ _)) ok

theorem poseAttr_goes (T : Timely E lo h) (s : Ref) (t : Option Ref) :
    Goes E lo (setPoseAttr s t) h fun _ _ => True := by
  unfold setPoseAttr
  cases t with
  | none => exact .pure T trivial
  | some t => exact ⟨(), _, rfl, T.attr _ _ _, trivial⟩

theorem link_goes (X : Ideal E) (R : Reach E h) (T : Timely E lo h) (o : IconOk h I w ps seen)
    (K : Knows h I w lo seen W) {cpath : List Str} {c : Ref} (a : At h I cpath c) (l : LinkDecl)
    (ok : l.wellFormed ps seen cpath W = true) :
    Goes E lo (I.visitLink E cpath l) h fun I' h' =>
      Knows h' I' w lo (seen ++ l.targets cpath) (l.names cpath ++ W) := by
  have inv := R.good.inv
  have hcl := a.lt inv
  have plt := o.plt
  have clo := K.low _ _ a.cached
  unfold LinkDecl.wellFormed at ok
  rw [Bool.and_eq_true] at ok
  unfold FileIcon.visitLink
  refine .cachedB a.cached ?_
  refine (Goes.of_fine (node_fine X R T K.fac _ clo hcl a.kind)).bind (node_does R o.fac _ hcl (by rw [a.kind]; simp))
    fun x h1 R1 T1 _ q => ?_
  obtain ⟨rfl, M⟩ := q
  have s1 := M.size
  have inv1 := R1.good.inv
  have p1 := M.path _ a.path
  have o1 := o.onward inv M.later (M.parts_ne plt a.params.symm)
  have K1 := K.onward o M.later
  refine (Goes.of_fine (sem_fine X R1 T1 K.cog _ T.le (by omega) (.inl M.kind) (by simp) _ (k := .kinLink)
    (by decide +kernel))).bind (sem_does R1 o.cog _ _ (p := h.size) (by omega) (by rw [M.kind]; simp) _ _)
    fun sv h2 R2 T2 _ q => ?_
  obtain ⟨rfl, k, hk, M2⟩ := q
  cases hk
  have s2 := M2.size
  have inv2 := R2.good.inv
  have p2 := M2.path _ p1.1
  have o2 := o1.onward inv1 M2.later (M2.parts_ne (by omega) (by omega))
  have K2 := K1.onward o1 M2.later
  have hel : PathTo h2 h1.size (cpath ++ l.name :: [l.name]) := by simpa using p2.1
  have g := pose_goes X R2 T2 o2 K2 hel ⟨_, M2.kind⟩ T1.le l.pose ok.1
  have n2 : (h2.get h1.size).idName = l.name := M2.idName
  rw [n2] at g
  refine g.bind (pose_does R2 o2 a.ne hel ⟨_, M2.kind⟩ l.pose) fun r h3 R3 T3 K3 q => ?_
  obtain ⟨ts, Q⟩ := q
  have s3 := Q.on.size
  have inv3 := R3.good.inv
  have svk : (h3.get h1.size).kind = .semantic .kinLink := by rw [Q.on.kind _ (by omega), M2.kind]
  refine (poseAttr_goes T3 h1.size r.2).bind (poseAttr_does R3 svk r.2) fun _ h4 R4 T4 _ q => ?_
  obtain ⟨b1, b2, b3, b4, b5, b6, b7, b8, b9, b10, b11, b12⟩ := q
  have inv4 := R4.good.inv
  have o4 : IconOk h4 r.1 w ps seen := by
    have b := Q.ok
    refine ⟨b.fac, b.cog, ?_, b.world, by rw [b2]; exact b.plt, by rw [b6, b.pkind], ?_, b.refs⟩
    · intro k x hx; rw [b2, b6, b8]; exact b.cache k x hx
    · rw [b3]
      refine b.params.imp fun v p hv => ⟨by rw [b6, hv.kind], by rw [b7, hv.name], by rw [b10, b12]; exact hv.ok, ?_⟩
      unfold Heap.valuesOf
      rw [b11, b12]; exact hv.values
  have K4 := K3.steady Q.ok (h' := h4) (fun x _ => b6 x) (fun x _ _ => b7 x)
  refine .rememberB ?_
  have n4 : ∀ z, z ≤ h.size → (h4.get z).kind = (h1.get z).kind ∧ (h4.get z).idName = (h1.get z).idName ∧
      (h4.get z).qualName = (h1.get z).qualName ∧ (h4.get z).parent = (h1.get z).parent := by
    intro z hz
    rw [b6, b7, b8, b9, Q.on.kind _ (by omega), Q.on.idName _ (by omega), Q.on.qualName _ (by omega),
      Q.on.parent _ (by omega), M2.later.kind _ (by omega), M2.later.idName _ (by omega),
      M2.later.qualName _ (by omega), M2.later.parent _ (by omega)]
    exact ⟨rfl, rfl, rfl, rfl⟩
  have qn : (h4.get h.size).qualName = Str.join '/' (cpath ++ [l.name]) := by
    rw [(n4 _ (Nat.le_refl _)).2.2.1, p1.2]
  have kx : (h4.get h.size).kind = .node := by rw [(n4 _ (Nat.le_refl _)).1, M.kind]
  have nx : (h4.get h.size).idName = l.name := by rw [(n4 _ (Nat.le_refl _)).2.1, M.idName]
  have px : PathTo h4 h.size (cpath ++ [l.name]) :=
    p1.1.transfer_lt inv1 (by omega) (fun y hy => (n4 y (by omega)).2.2.2) (fun y hy => (n4 y (by omega)).2.1)
  have K5 : Kept cpath r.1 { r.1 with cache := r.1.cache.set (h4.get h.size).qualName h.size } :=
    Kept.remember a.ne qn _
  have o5 := o4.remember (x := h.size) (by omega) (.inl kx) (by rw [qn]; exact (join_longer a.ne _ _).2)
  have KK := K4.remember (x := h.size) T.le qn (by rw [nodeName?_node kx, nx])
  have on4 : Onward h.size [c] h h4 :=
    (M.later.trans (M2.later.weaken (by omega) (by intro z hz hl; simp at hz; omega))).trans
      ((Q.on.weaken (by omega) (by intro z hz hl; simp at hz; omega)).trans (b1 h.size (by omega) _))
  have a5 := a.onward inv on4 (Q.kept.trans K5)
  have ax5 : At h4 { r.1 with cache := r.1.cache.set (h4.get h.size).qualName h.size } (cpath ++ [l.name]) h.size := by
    refine ⟨by simp, ?_, kx, px, ?_⟩
    · show (r.1.cache.set (h4.get h.size).qualName h.size).get? _ = _
      rw [qn]; exact Dict.get?_set_self _ _ _
    · show h.size ≠ r.1.params
      rw [Q.kept.params]; omega
  have := linkBody_goes X R4 T4 o5 KK a5 l ax5 (by omega) ok.2
  unfold LinkDecl.names LinkDecl.ownNames
  rw [List.append_assoc]
  exact this

end

end Rei
