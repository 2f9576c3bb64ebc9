import Verif.Lemmas.Visit

/-!
# What connecting an edge to a node changes
-/
namespace Rei
open PyM

theorem values_erase_filter {d : Dict Bytes Ref} {u : Bytes} {s : Ref} (H : ∀ k v, (k, v) ∈ d → (k = u ↔ v = s)) :
    (d.erase u).values = d.values.filter fun v => decide (v ≠ s) := by
  induction d with
  | nil => rfl
  | cons p d ih =>
    obtain ⟨k, v⟩ := p
    have ih := ih fun k v hv => H k v (by simp [hv])
    have hh := H k v (by simp)
    unfold Dict.erase Dict.values at ih ⊢
    by_cases hk : k = u
    · simp [hk, hh.1 hk]; simpa using ih
    · have hv : v ≠ s := fun e => hk (hh.2 e)
      simp [hk, hv]; simpa using ih

/-- After one successful `unary_connect` of the edge `e` with `n`: the relation `h.size` is the last part of `e`, the
semantic value node has moved into it; nothing else about the objects of `h` has changed. -/
structure Linked (e n : Ref) (d : Dir) (sv : Option Ref) (h h' : Heap) (w : Option Ref := none) : Prop where
  target : (h.get n).kind.isHElement = true
  size : h'.size = h.size + 2
  nlists : h'.nlists = h.nlists
  lists : h'.lists = h.lists
  kind : ∀ x < h.size, (h'.get x).kind = (h.get x).kind
  idName : ∀ x < h.size, (h'.get x).idName = (h.get x).idName
  attrs : ∀ x < h.size, (h'.get x).attrs = (h.get x).attrs
  endpoint : ∀ x < h.size, (h'.get x).endpoint = (h.get x).endpoint
  direction : ∀ x < h.size, (h'.get x).direction = (h.get x).direction
  vals : ∀ x < h.size, (h'.get x).vals = (h.get x).vals
  parent : ∀ x < h.size, sv ≠ some x → (h'.get x).parent = (h.get x).parent
  qualName : ∀ x < h.size, (∀ s, sv = some s → ¬ Within h s x) → (h'.get x).qualName = (h.get x).qualName
  parts : ∀ x < h.size, h'.parts x =
    ((h.parts x).filter fun y => decide (sv ≠ some y)) ++ if x = e then [h.size] else []
  subs : ∀ x < h.size, h'.subelements x = ((h.subelements x).filter fun y => decide (sv ≠ some y)) ++
    (if x = n then [h.size + 1] else []) ++ if x = e then [h.size] else []
  portEnd : (h'.get (h.size + 1)).endpoint = some h.size
  relKind : (h'.get h.size).kind = .relation
  relEnd : (h'.get h.size).endpoint = some n
  relDir : (h'.get h.size).direction = d
  relPar : (h'.get h.size).parent = some e
  relParts : h'.parts h.size = sv.toList
  uuid : ∀ x < h.size, (h'.get x).uuid = (h.get x).uuid
  depth : ∀ x < h.size, sv ≠ some x → (h'.get x).depth = (h.get x).depth
  semPar : ∀ s, sv = some s → (h'.get s).parent = some h.size
  portPar : (h'.get (h.size + 1)).parent = some n
  portKind : (h'.get (h.size + 1)).kind = .port
  weight : ∀ x < h.size, (h'.get x).weight = (h.get x).weight
  relWeight : (h'.get h.size).weight = w

theorem connect_step {E : Env} {h : Heap} (R : Reach E h) {e n : Ref} (d : Dir) {sv w : Option Ref}
    (he : e < h.size) (hk : (h.get e).kind = .edge) (hn : n < h.size)
    (hs : ∀ s, sv = some s → s < h.size ∧ (∃ k, (h.get s).kind = .semantic k) ∧ ¬ Anc h s e ∧ Movable h s)
    (hwl : ∀ v, w = some v → v < h.size := by rintro _ ⟨⟩) :
    ∃ r h', unaryConnect E e n w d sv h = (r, h') ∧ Reach E h' ∧
      ∀ q, r = .ok q → q = h.size ∧ Linked e n d sv h h' w := by
  have hsafe : (Op.unaryConnect e n w d sv).Safe h := by
    cases sv with
    | none => trivial
    | some s =>
      obtain ⟨_, ⟨k, hk'⟩, ha, hm⟩ := hs s rfl
      refine ⟨ha, ?_, hm⟩
      rintro rfl
      rw [hk] at hk'; cases hk'
  have hreach : Reach E (unaryConnect E e n w d sv h).2 := by
    have := Reach.step (E := E) (Op.unaryConnect e n w d sv) R ⟨he, hn, hwl, fun s e => (hs s e).1⟩ hsafe
    unfold Op.after at this
    rw [Op.run, void_run] at this
    cases hr : unaryConnect E e n w d sv h with
    | mk r h' => rw [hr] at this; cases r <;> exact this
  suffices H : ∀ q h', unaryConnect E e n w d sv h = (.ok q, h') → q = h.size ∧ Linked e n d sv h h' w by
    cases hr : unaryConnect E e n w d sv h with
    | mk r h' =>
      rw [hr] at hreach
      refine ⟨r, h', rfl, hreach, ?_⟩
      rintro q rfl
      exact H q h' hr
  intro q h' hr
  have KK := (frames_unaryConnect (L := False) E e n w d sv h).keeps
  have CC := (frames_unaryConnect (L := False) E e n w d sv h).calm
  rw [hr] at KK CC
  have G := R.good
  have I := G.inv
  unfold unaryConnect at hr
  simp only [obj_bind_run, hk, if_true] at hr
  obtain ⟨hc1, hc2, hc3⟩ := G.readClock E (h.get e).clock
  obtain ⟨t, ht⟩ : ∃ t, readClock E (h.get e).clock h = (.ok t, (readClock E (h.get e).clock h).2) := by
    have := I.clocked he (by rw [hk]; rfl)
    cases hcl : (h.get e).clock with
    | none => rw [hcl] at this; cases this
    | some ck => cases ck <;> exact ⟨_, rfl⟩
  generalize (readClock E (h.get e).clock h).2 = hrd at *
  rw [bind_ok ht] at hr
  cases hctx : (h.get e).genCtx with
  | none => rw [hctx] at hr; cases hr
  | some ctx =>
  rw [hctx] at hr
  simp only at hr
  unfold newRelation at hr
  simp only [alloc_bind_run] at hr
  generalize hro : relationObj (elementUid E ctx (h.get n).idName) (relName (h.get e).idName (h.get n).idName t)
      (.str (Str.join '/' [(h.get e).idName, relName (h.get e).idName (h.get n).idName t])) (some n) w d sv = ro at hr
  have F : Fresh ro := by rw [← hro]; exact ⟨rfl, rfl, rfl, rfl, rfl, fun h => by cases h⟩
  change ((connect E n hrd.size) >>= _) (allocH hrd ro) = _ at hr
  rw [hc2] at hr
  have I0 : Inv (allocH hrd ro) := hc1.inv.allocH F
  have hget : ∀ y < h.size, (allocH hrd ro).get y = h.get y := by
    intro y hy; rw [allocH_get_lt (by omega), hc3]
  have hnew : (allocH hrd ro).get h.size = ro := by rw [← hc2]; simp [allocH]
  have hsz : (allocH hrd ro).size = h.size + 1 := by rw [← hc2]; rfl
  generalize allocH hrd ro = h0 at *
  rcases connect_cases I0 E (n := n) (el := h.size) (by omega) with
      ⟨_, e1⟩ | ⟨hkn, ctx', _, ⟨_, _, e1, _⟩ | ⟨_, h1, e1, C⟩⟩
  · rw [bind_err e1] at hr; cases hr
  · rw [bind_err e1] at hr; cases hr
  rw [bind_ok e1] at hr
  rw [hget n hn] at hkn
  obtain ⟨f1, f2, f4, f5, f6, f7⟩ : (h0.get h.size).kind = .relation ∧ (h0.get h.size).endpoint = some n ∧
      (h0.get h.size).direction = d ∧ (h0.get h.size).parent = none ∧
      (h0.get h.size).subs = [] ∧ (h0.get h.size).weight = w := by
    rw [hnew, ← hro]; exact ⟨rfl, rfl, rfl, rfl, rfl, rfl⟩
  have s1 : h1.size = h.size + 2 := by rw [C.size, hsz]
  have kp1 : (h1.get (h.size + 1)).kind = .port := by rw [← hsz, C.kindP]
  have hp1 : (h1.get h.size).parent = none := by rw [C.parent, if_neg (by omega), f5]
  have pp1 : (h1.get (h.size + 1)).parent = some n := by rw [C.parent, if_pos hsz.symm]
  have sub1 : ∀ y < h.size, (h1.get y).subs.values =
      (h.get y).subs.values ++ (if y = n then [h.size + 1] else []) := by
    intro z hz
    rw [C.subs z (by omega)]
    split
    · next e' => subst e'; rw [hget z hz]; simp [Dict.values, hsz]
    · rw [hget z hz]; simp
  have par1 : ∀ y < h.size, (h1.get y).parent = (h.get y).parent := by
    intro y hy; rw [C.parent, if_neg (by omega), hget y hy]
  have kd1 : ∀ y < h.size, (h1.get y).kind = (h.get y).kind := by
    intro y hy; rw [C.kind y (by omega), hget y hy]
  have ep1 : ∀ y < h.size, (h1.get y).endpoint = (h.get y).endpoint := by
    intro y hy; rw [C.endpoint y (by omega), hget y hy]
  have qn1 : ∀ y < h.size, (h1.get y).qualName = (h.get y).qualName := by
    intro y hy; rw [C.qualName y (by omega), hget y hy]
  have below1 : ∀ y, ¬ Anc h1 h.size y := by
    intro y
    apply Sample.not_anc_of_childless C.inv
    unfold Heap.subelements
    rw [C.subs h.size (by omega), if_neg (by omega), f6]; rfl
  obtain ⟨h3, e3, I3, s3, kd3, ep3, dr3, par3, sub3, subr3, below3, qn3, pr3, dp3, wt3⟩ : ∃ h3,
      attachSem E h.size sv h1 = (.ok (), h3) ∧ Inv h3 ∧ h3.size = h1.size ∧
      (∀ y, (h3.get y).kind = (h1.get y).kind) ∧ (∀ y, (h3.get y).endpoint = (h1.get y).endpoint) ∧
      (∀ y, (h3.get y).direction = (h1.get y).direction) ∧
      (h3.get h.size).parent = none ∧
      (∀ y < h.size, (h3.get y).subs.values = (h1.get y).subs.values.filter fun z => decide (sv ≠ some z)) ∧
      (h3.get h.size).subs.values = sv.toList ∧
      ¬ Anc h3 h.size e ∧
      (∀ x < h.size, (∀ s, sv = some s → ¬ Within h s x) → (h3.get x).qualName = (h1.get x).qualName) ∧
      (∀ y, (h3.get y).parent = if sv = some y then some h.size else (h1.get y).parent) ∧
      (∀ y, sv ≠ some y → (h3.get y).depth = (h1.get y).depth) ∧
      (∀ y, (h3.get y).weight = (h1.get y).weight) := by
    cases sv with
    | none =>
      exact ⟨h1, rfl, C.inv, rfl, fun _ => rfl, fun _ => rfl, fun _ => rfl, hp1,
        fun y _ => (List.filter_eq_self.2 (by simp)).symm, by rw [C.subs h.size (by omega), if_neg (by omega), f6]; rfl,
        below1 e, fun _ _ _ => rfl, fun y => by simp, fun _ _ => rfl, fun _ => rfl⟩
    | some s =>
      obtain ⟨hsl, ⟨k, hks⟩, hsa, hsf⟩ := hs s rfl
      have hks1 : (h1.get s).kind = .semantic k := by rw [kd1 s hsl, hks]
      have S : AddSafe h1 h.size s := by
        refine ⟨fun qq => ?_, fun p hp => ?_⟩
        · cases qq with
          | direct hq => rw [hp1] at hq; cases hq
          | up hq _ => rw [hp1] at hq; cases hq
        · rw [par1 s hsl] at hp
          rw [kd1 p (I.parent_lt hp)]
          exact hsf p hp
      unfold attachSem at hr
      cases ha : addElement E h.size s h1 with
      | mk res h3 =>
        cases res with
        | error er => rw [bind_err ha] at hr; cases hr
        | ok _ =>
        obtain ⟨h2, m, hh⟩ := addElement_ok C.inv E (c := h.size) (x := s) (by omega) (by omega) S ha
        rcases hh with ⟨_, Q, hports, hgen, hend, hdir, hwt, _⟩ | ⟨_, hx, _⟩
        swap
        · rw [hks1] at hx; cases hx
        have par : ∀ y, (h3.get y).parent = if y = s then some h.size else (h1.get y).parent := by
          intro y; rw [Q.parent, m.parent C.inv]
        have subs : ∀ y, (h3.get y).subs = if y = h.size then (h1.get h.size).subs ++ [((h1.get s).uuid, s)]
            else if (h1.get s).parent = some y then (h1.get y).subs.erase (h1.get s).uuid
            else (h1.get y).subs := fun y => by rw [Q.subs, m.subs C.inv]
        have wback : ∀ y < h.size, Within h1 s y → Within h s y := by
          rintro y hy (q | q)
          · exact .inl q
          · exact .inr (anc_of_parent_same (h' := h1) I par1 hy q)
        have hwe : ¬ Within h1 s e := by
          intro w
          rcases wback e he w with q | q
          · subst q; rw [hk] at hks; cases hks
          · exact hsa q
        refine ⟨h3, ha, ?_, ?_, ?_, ?_, ?_, ?_, ?_, ?_, ?_, ?_, ?_, ?_, ?_⟩
        · exact m.inv'.quiet Q
        · rw [Q.size, m.sim.size, moveH_size]
        · intro y; rw [Q.kind, m.sim.kind, moveH_kind]
        · intro y; rw [hend, m.sim.endpoint, moveH_endpoint]
        · intro y; rw [hdir, m.sim.direction, moveH_direction]
        · rw [par, if_neg (by omega), hp1]
        · intro y hy
          rw [subs y, if_neg (by omega)]
          split
          · next hpy =>
            rw [values_erase_filter (s := s)]
            · congr 1; funext v; simp [eq_comm]
            · intro k' v hv
              obtain ⟨hvp, hvu⟩ := (C.inv.mem y k' v).1 hv
              constructor
              · rintro rfl
                have nd := C.inv.nodup y
                have hv' := Dict.get?_of_mem nd hv
                have hs' := Dict.get?_of_mem nd ((C.inv.mem y _ s).2 ⟨‹_›, rfl⟩)
                exact Option.some.inj (hv'.symm.trans hs')
              · rintro rfl; exact hvu.symm
          · next hpy =>
            symm
            apply List.filter_eq_self.2
            intro v hv
            have := (C.inv.mem_subelements y v).1 hv
            simp only [ne_eq, Option.some.injEq, decide_eq_true_eq]
            rintro rfl
            exact hpy this
        · rw [subs, if_pos rfl, C.subs h.size (by omega), if_neg (by omega), f6]; rfl
        · intro qq
          exact below1 e (anc_of_parent_same_except C.inv
            (fun y _ hys => by rw [par, if_neg hys]) (by omega) hwe qq)
        · intro x hx hw
          have hw := hw s rfl
          rw [Q.qualName, m.sim.same x, moveH_qualName]
          rintro (q | q)
          · exact hw (.inl q)
          · have hw1 : ¬ Within h1 s x := fun w => hw (wback x hx w)
            exact hw1 (.inr (anc_of_parent_same_except C.inv
              (fun y _ hys => by rw [moveH_parent _ _ _ _ C.inv, if_neg hys]) (by omega) hw1 q))
        · intro y; rw [par]
          by_cases hys : y = s
          · simp [hys]
          · rw [if_neg hys, if_neg (by simpa using Ne.symm hys)]
        · intro y hys; rw [Q.depth, m.sim.depth, moveH_depth, if_neg (by rintro rfl; exact hys rfl)]
        · intro y; rw [hwt, m.sim.weight, moveH_weight]
  rw [bind_ok e3] at hr
  have S : AddSafe h3 e h.size := ⟨below3, fun p hp => by rw [par3] at hp; cases hp⟩
  cases ha : addElement E e h.size h3 with
  | mk res h4 =>
  cases res with
  | error er => rw [bind_err ha] at hr; cases hr
  | ok _ =>
  rw [bind_ok ha] at hr
  cases hr
  obtain ⟨h5, m, hh⟩ := addElement_ok I3 E (c := e) (x := h.size) (by omega) (by omega) S ha
  rcases hh with ⟨_, Q, hports, _, hend, hdir, hwt, _⟩ | ⟨hx, _⟩
  swap
  · rw [kd3, kd1 e he, hk] at hx; cases hx
  have kd : ∀ y, (h'.get y).kind = (h1.get y).kind := fun y => by
    rw [Q.kind, m.sim.kind, moveH_kind, kd3]
  have sub : ∀ y, (h'.get y).subs.values = (h3.get y).subs.values ++ if y = e then [h.size] else [] := by
    intro y
    rw [Q.subs, m.subs I3, par3]
    simp only [reduceCtorEq, if_false]
    split
    · next e' => subst e'; rw [Dict.values_append]; rfl
    · simp
  have par : ∀ y, (h'.get y).parent = if y = h.size then some e else (h3.get y).parent := by
    intro y; rw [Q.parent, m.parent I3]
  refine ⟨rfl, hkn, ?_, CC.nlists, CC.lists, KK.kind, KK.idName, CC.attrs, ?_, KK.direction, CC.vals, ?_, ?_, ?_, ?_, ?_, ?_,
    ?_, ?_, ?_, ?_, ?_, ?_, ?_, ?_, by rw [kd, kp1], KK.weight, by
      rw [hwt, m.sim.weight, moveH_weight, wt3, C.weight _ (by omega), f7]⟩
  · rw [Q.size, m.sim.size, moveH_size]; omega
  · intro y hy; rw [hend, m.sim.endpoint, moveH_endpoint, ep3, ep1 y hy]
  · intro y hy hys; rw [par, if_neg (by omega), pr3, if_neg hys, par1 y hy]
  · intro x hx hw
    rw [Q.qualName, m.sim.same x, moveH_qualName, qn3 x hx hw, qn1 x hx]
    have hw3 : ¬ Within h3 h.size x := by
      rintro (q | q)
      · omega
      · -- the way from `x` up to the relation enters it from the semantic value node
        have key : ∀ a y, Anc h3 a y → a = h.size → y < h.size → ∃ s, sv = some s ∧ Within h s y := by
          intro a y q
          induction q with
          | @direct x p hp =>
            rintro rfl hy
            rw [pr3] at hp
            split at hp
            · next e' => exact ⟨x, e', .inl rfl⟩
            · rw [par1 x hy] at hp; have := I.parent_lt hp; omega
          | @up x p a hp _ ih =>
            rintro rfl hy
            rw [pr3] at hp
            split at hp
            · next e' => exact ⟨x, e', .inl rfl⟩
            · rw [par1 x hy] at hp
              obtain ⟨s, hs', w⟩ := ih rfl (I.parent_lt hp)
              refine ⟨s, hs', ?_⟩
              rcases w with w | w
              · subst w; exact .inr (.direct hp)
              · exact .inr (.up hp w)
        obtain ⟨s, hs', w⟩ := key _ _ q rfl hx
        exact hw s hs' w
    rintro (q | q)
    · exact hw3 (.inl q)
    · exact hw3 (.inr (anc_of_parent_same_except I3
        (fun y _ hys => by rw [moveH_parent _ _ _ _ I3, if_neg hys]) (by omega) hw3 q))
  · intro x hx
    unfold Heap.parts Heap.subelements
    simp only [kd]
    rw [sub, sub3 x hx, sub1 x hx, List.filter_append, List.filter_append, List.filter_append]
    have a : (((if x = n then [h.size + 1] else [] : List Nat).filter fun z => decide (sv ≠ some z)).filter
        fun y => decide ((h1.get y).kind ≠ .port)) = [] := by
      apply List.filter_eq_nil_iff.2
      intro y hy
      have := List.mem_of_mem_filter hy
      split at this
      · rw [List.mem_singleton.1 this, kp1]; simp
      · cases this
    have b : ((if x = e then [h.size] else [] : List Nat).filter
        fun y => decide ((h1.get y).kind ≠ .port)) = if x = e then [h.size] else [] := by
      split
      · simp [C.kind h.size (by omega), f1]
      · rfl
    rw [a, b, List.append_nil, List.filter_filter, List.filter_filter]
    congr 1
    apply List.filter_congr
    intro z hz
    have : z < h.size := I.lt_of_parent ((I.mem_subelements x z).1 hz)
    rw [kd1 z this, Bool.and_comm]
  · intro x hx
    unfold Heap.subelements
    rw [sub, sub3 x hx, sub1 x hx, List.filter_append]
    congr 2
    apply List.filter_eq_self.2
    intro y hy
    have : y = h.size + 1 := by
      split at hy
      · exact List.mem_singleton.1 hy
      · cases hy
    simp only [ne_eq, decide_eq_true_eq]
    intro e'
    have := (hs _ e').1
    omega
  · rw [hend, m.sim.endpoint, moveH_endpoint, ep3, ← hsz, C.endP]
  · rw [kd, C.kind _ (by omega), f1]
  · rw [hend, m.sim.endpoint, moveH_endpoint, ep3, C.endpoint _ (by omega), f2]
  · rw [hdir, m.sim.direction, moveH_direction, dr3, C.direction _ (by omega), f4]
  · rw [par, if_pos rfl]
  · unfold Heap.parts Heap.subelements
    rw [sub, if_neg (by omega), subr3, List.append_nil]
    apply List.filter_eq_self.2
    intro y hy
    obtain ⟨hy', ⟨k, hky⟩, _⟩ := hs y (Option.mem_toList.1 hy)
    rw [kd, kd1 y hy', hky]; simp
  · exact KK.uuid
  · intro y hy hys
    rw [Q.depth, m.sim.depth, moveH_depth, if_neg (by omega), dp3 y hys, C.depth y (by omega), hget y hy]
  · intro s hs'; rw [par, if_neg (by have := (hs s hs').1; omega), pr3, if_pos hs']
  · rw [par, if_neg (by omega), pr3, if_neg ?_, pp1]
    intro e'; have := (hs _ e').1; omega

end Rei
