import Verif.Props.Moves
import Verif.Lemmas.Encoding
import Verif.Spec.Stack
import Verif.Props.Removal
import Verif.Lemmas.Factory
import Verif.Props.Sample

/-!
# C105: adding under a recursion limit
-/
namespace Rei
open PyM

/-- Both versions of `add_element` reach the same state before the names are updated. -/
theorem Inv.add_start {h : Heap} (I : Inv h) (E : Env) {c x : Ref} (hc : c < h.size)
    (hx : x < h.size) (hcx : x ≠ c) (hdup : (h.get x).uuid ∉ (h.get c).subs.keys)
    (hanc : ¬ Anc h x c) (hmov : Movable h x) :
    ∃ h8, Sim (· = x) (Rei.moveH h c x) h8 ∧ Rei.baseAdd E c x h = Rei.updateElement E x h8 ∧
      (∀ limit, addWithin limit E c x h = updateElementWithin limit E x h8) ∧
      ((h.get x).parent = none → (h8.get x).qualName = (h.get x).qualName) := by
  have hpc := I.parent_ne_of_not_mem hdup
  have hs : 0 < h.size := Nat.lt_of_le_of_lt (Nat.zero_le _) hx
  have Ig := I.moveH hc hx hcx hdup hanc
  generalize hg : Rei.moveH h c x = g at *
  -- the state before `leaveParent`
  generalize hh3 : (((h.mod c fun oc => { oc with subs := oc.subs.set (h.get x).uuid x }).mod c
      fun oc => { oc with index := (oc.index.set (h.get x).idName
          (((oc.index.get? (h.get x).idName).getD []).set (h.get x).uuid x)) }).mod x
      fun ox => { ox with cid := (h.get c).hist }) = h3
  have hx3 : h3.get x = { h.get x with cid := (h.get c).hist } := by rw [← hh3]; simp [hcx]
  have hs3 : h3.size = h.size := by rw [← hh3]; rfl
  -- after `leaveParent`
  have hleave : ∃ h4, leaveParent E x h3 = (.ok (), h4) ∧
      Sim (· = x) (Rei.leaveH h3 x) h4 ∧ ((h.get x).parent = none → h4 = h3) := by
    cases hp : (h.get x).parent with
    | none =>
      refine ⟨h3, ?_, ?_, ?_⟩
      · unfold leaveParent
        simp only [obj_bind_run, hx3, hp, pure_run]
      · unfold Rei.leaveH
        rw [hx3]
        simp only [hp]
        exact .refl _ _
      · intro _; rfl
    | some p =>
      have hpx : p ≠ x := SInv.parent_ne I hp
      have hpc' : p ≠ c := by rintro rfl; exact hpc hp
      have hp3 : h3.get p = h.get p := by rw [← hh3]; simp [hpx, hpc']
      obtain ⟨d, hd, hu, _⟩ := I.index_get hp
      obtain ⟨h4, hr, hsim, _, hrd⟩ := leaveParent_run (E := E) (h := h3) (p := p) (x := x) (d := d)
        (by rw [hx3]; exact hp) hpx (by rw [hs3]; exact hs)
        (by rw [hp3]; exact (hmov p hp).1) (by rw [hp3]; exact (hmov p hp).2)
        (by rw [hp3, hx3]; exact (SInv.get?_subs I p _ x).2 ⟨hp, rfl⟩)
        (by rw [hp3, hx3]; exact hd) (by rw [hx3]; exact hu) (by rw [hx3]; exact I.clocked hx)
      refine ⟨h4, hr, ?_, ?_⟩
      · unfold Rei.leaveH
        rw [hx3]
        simp only [hp]
        exact hsim
      · intro k; cases k
  obtain ⟨h4, hlv, hsim4, hfree⟩ := hleave
  -- after the remaining assignments
  generalize hh8 : ((((h4.mod x fun ox => { ox with parent := some c }).mod x
      fun ox => { ox with depth := (h.get c).depth + 1 }).mod c
      fun oc => { oc with cnt := oc.cnt + 1 }).mod c
      fun oc => { oc with hist := oc.hist + 1 }) = h8
  have hsim8 : Sim (· = x) g h8 := by
    rw [← hh8]
    have := (((hsim4.mod x (f := fun ox => { ox with parent := some c }) (fun _ _ _ => rfl)).mod x
      (f := fun ox => { ox with depth := (h.get c).depth + 1 }) (fun _ _ _ => rfl)).mod c
      (f := fun oc => { oc with cnt := oc.cnt + 1 }) (fun _ _ _ => rfl)).mod c
      (f := fun oc => { oc with hist := oc.hist + 1 }) (fun _ _ _ => rfl)
    refine this.get_mod_ext ?_ ?_ ?_ ?_
    · rw [← hg]
      simp only [Heap.size_mod, leaveH_size, hs3, moveH_size]
    · rw [← hg, ← hh3]
      simp only [Heap.nlists_mod, leaveH_nlists, moveH_nlists]
    · rw [← hg, ← hh3]
      simp only [Heap.lists_mod, leaveH_lists, moveH_lists]
    · intro y
      have hcx' : c ≠ x := Ne.symm hcx
      have e1 : (Rei.leaveH h x).get c = h.get c := leaveH_get_ne hcx' hpc
      have e2 : (Rei.leaveH h x).get x = { h.get x with parent := none } := leaveH_get_self h x
      have e3 : (Rei.leaveH h3 x).get c = h3.get c :=
        leaveH_get_ne hcx' (by rw [hx3]; exact hpc)
      have e4 : (Rei.leaveH h3 x).get x = { h3.get x with parent := none } := leaveH_get_self h3 x
      rw [← hg]
      unfold Rei.moveH attachH attachObj
      by_cases h1 : y = x
      · subst h1
        simp [hcx, e1, e2, e4, hx3]
      · by_cases h2 : y = c
        · subst h2
          simp [hcx', e1, e2, e3]
          rw [← hh3]
          simp [hcx']
        · simp only [Heap.get_mod, Heap.get_set, if_neg h1, if_neg h2]
          unfold Rei.leaveH
          rw [hx3]
          cases hp : (h.get x).parent with
          | none =>
            simp only
            rw [← hh3]; simp [h1, h2]
          | some p =>
            simp only
            unfold Rei.detachH
            simp only [Heap.get_set, if_neg h1]
            have hpx : p ≠ x := SInv.parent_ne I hp
            have hpc' : p ≠ c := by rintro rfl; exact hpc hp
            have hp3 : h3.get p = h.get p := by rw [← hh3]; simp [hpx, hpc']
            have hy3 : h3.get y = h.get y := by rw [← hh3]; simp [h1, h2]
            rw [hp3, hy3]
            split
            · unfold detachObj; rw [hx3]
            · rfl
  have hii : indexInsert c x (h.mod c fun oc => { oc with subs := oc.subs.set (h.get x).uuid x }) =
      (.ok (), (h.mod c fun oc => { oc with subs := oc.subs.set (h.get x).uuid x }).mod c
    fun oc => { oc with index := (oc.index.set (h.get x).idName
        (((oc.index.get? (h.get x).idName).getD []).set (h.get x).uuid x)) }) := by
    unfold indexInsert
    simp only [obj_bind_run, modify_run, Heap.get_mod, if_neg hcx]
  have hdep : ((h4.mod x fun ox => { ox with parent := some c }).get c).depth =
      (h.get c).depth := by
    simp only [Heap.get_mod, if_neg (Ne.symm hcx)]
    rw [hsim4.depth, leaveH_get_ne (Ne.symm hcx) (by rw [hx3]; exact hpc), ← hh3]
    simp [Ne.symm hcx]
  refine ⟨h8, hsim8, ?_, fun limit => ?_, fun k => ?_⟩
  · unfold Rei.baseAdd
    rw [if_neg hcx]
    simp only [obj_bind_run]
    rw [if_neg (by rw [Dict.has_iff]; exact hdup)]
    simp only [modify_bind_run, if_neg hpc]
    rw [bind_ok hii]
    simp only [modify_bind_run]
    rw [hh3, bind_ok hlv]
    simp only [modify_bind_run, obj_bind_run]
    rw [hdep, hh8]
  · unfold addWithin
    rw [if_neg hcx]
    simp only [obj_bind_run]
    rw [if_neg (by rw [Dict.has_iff]; exact hdup)]
    simp only [modify_bind_run, if_neg hpc]
    rw [bind_ok hii]
    simp only [modify_bind_run]
    rw [hh3, bind_ok hlv]
    simp only [modify_bind_run, obj_bind_run]
    rw [hdep, hh8]
  · rw [← hh8, hfree k]
    simp only [Heap.get_mod, if_neg hcx, if_true]
    rw [hx3]

/-! ### One update -/

/-- What the time stamp changes. -/
structure OnlyStamped (x : Ref) (h h' : Heap) : Prop where
  sim : Sim (· = x) h h'
  names : ∀ y, (h'.get y).qualName = (h.get y).qualName

theorem updateTimestamp_stamped {E : Env} {h : Heap} {x : Ref} (hc : (h.get x).clock.isSome = true) :
    ∃ h', updateTimestamp E x h = (.ok (), h') ∧ OnlyStamped x h h' := by
  unfold updateTimestamp
  have key : ∀ t rd, OnlyStamped x h { (h.mod x fun o => { o with timestamp := t }) with reads := rd } := by
    intro t rd
    refine ⟨⟨rfl, rfl, rfl, fun y => ?_, fun y hy => ?_⟩, fun y => ?_⟩
    · show (if y = x then _ else _ : Obj).core = _
      split
      · next e => subst e; rfl
      · rfl
    · show (if y = x then _ else _ : Obj) = _
      rw [if_neg hy]
    · show (if y = x then _ else _ : Obj).qualName = _
      split
      · next e => subst e; rfl
      · rfl
  cases ck : (h.get x).clock with
  | none => rw [ck] at hc; cases hc
  | some k =>
    cases k with
    | dummy => exact ⟨_, rfl, key 0 h.reads⟩
    | «local» => exact ⟨_, rfl, key _ _⟩

theorem requalifyWithin_fits {limit : Nat} {h : Heap} {x : Ref} {l : List Str} (hp : PathTo h x l) (hl : l.length ≤ limit)
    (hs : l.length ≤ h.size) : requalifyWithin limit x h = requalify x h := by
  unfold requalifyWithin requalify
  rw [pathTo_nameChain hp hl, pathTo_nameChain hp hs]

theorem requalifyWithin_deep {limit : Nat} {h : Heap} {x : Ref} {l : List Str} (hp : PathTo h x l) (hl : limit < l.length) :
    requalifyWithin limit x h = (.error .recursionError, h) := by
  unfold requalifyWithin
  cases e : nameChain h limit x with
  | none => rfl
  | some m =>
    have := (nameChain_pathTo e).functional hp
    have len : ∀ {fuel : Nat} {x : Ref} {m : List Str}, nameChain h fuel x = some m → m.length ≤ fuel := by
      intro fuel
      induction fuel with
      | zero => intro x m e; cases e
      | succ n ih =>
        intro x m e
        rw [nameChain] at e
        split at e
        · cases e; simp
        · rename_i p _
          cases e' : nameChain h n p with
          | none => rw [e'] at e; cases e
          | some k => rw [e'] at e; cases e; have := ih e'; simp; omega
    have := len e
    have : m.length = l.length := by rw [hp.functional (nameChain_pathTo e), List.length_reverse]
    omega

theorem updateWithin_fits {limit : Nat} {E : Env} {h : Heap} (I : Inv h) {x : Ref} (hx : x < h.size) {l : List Str}
    (hp : PathTo h x l) (hl : l.length ≤ limit) : updateWithin limit E x h = update E x h := by
  have hs : l.length ≤ h.size := by
    obtain ⟨m, hm, k⟩ := I.exists_path hx
    rw [hp.functional hm]; exact k
  unfold updateWithin update
  simp only [obj_bind_run]
  by_cases hk : (h.get x).kind.isConceptual = true
  · simp only [hk, if_true]
    obtain ⟨h1, e, S⟩ := updateTimestamp_stamped (E := E) (I.clocked hx hk)
    rw [bind_ok e, bind_ok e, requalifyWithin_fits (S.sim.pathTo hp) hl (by rw [S.sim.size]; exact hs)]
  · simp only [hk]
    exact requalifyWithin_fits hp hl hs

theorem updateWithin_deep {limit : Nat} {E : Env} {h : Heap} (I : Inv h) {x : Ref} (hx : x < h.size) {l : List Str}
    (hp : PathTo h x l) (hl : limit < l.length) :
    ∃ h', updateWithin limit E x h = (.error .recursionError, h') ∧ OnlyStamped x h h' := by
  unfold updateWithin
  simp only [obj_bind_run]
  by_cases hk : (h.get x).kind.isConceptual = true
  · simp only [hk, if_true]
    obtain ⟨h1, e, S⟩ := updateTimestamp_stamped (E := E) (I.clocked hx hk)
    refine ⟨h1, ?_, S⟩
    rw [bind_ok e, requalifyWithin_deep (S.sim.pathTo hp) hl]
  · simp only [hk]
    exact ⟨h, requalifyWithin_deep hp hl, .refl _ _, fun _ => rfl⟩

/-! ### The loop -/

/-- An element at or below `q` has a path longer than `limit`. -/
def Overflows (limit : Nat) (h : Heap) (q : List Ref) : Prop := ∃ y l, Under h q y ∧ PathTo h y l ∧ limit < l.length

theorem updateLoopWithin_fits {limit : Nat} {E : Env} : ∀ (fuel : Nat) (h : Heap) (_ : Inv h) (q : List Ref)
    (_ : ∀ x ∈ q, x < h.size) (_ : ¬ Overflows limit h q), updateLoopWithin limit E fuel q h = updateLoop E fuel q h
  | 0, h, _, [], _, _ => rfl
  | 0, h, _, _ :: _, _, _ => rfl
  | _ + 1, h, _, [], _, _ => rfl
  | fuel + 1, h, I, x :: q, hq, no => by
    have hx := hq x (by simp)
    obtain ⟨l, t, rd, hp, -, run⟩ := I.update E hx
    have hl : l.length ≤ limit := by
      by_contra k
      exact no ⟨x, l, ⟨x, by simp, .inl rfl⟩, hp, by omega⟩
    have S := restamp_sim h x (Str.join '/' l) t rd
    rw [updateLoopWithin, updateLoop]
    have run' : updateWithin limit E x h = _ := (updateWithin_fits I hx hp hl).trans run
    rw [bind_ok run, bind_ok run']
    simp only [obj_bind_run]
    have I1 := S.inv I
    have kids : ∀ b, b ∈ ((restamp h x (Str.join '/' l) t rd).get x).subs.values ↔ (h.get b).parent = some x := fun b => by
      rw [I1.mem_subelements, S.parent]
    refine updateLoopWithin_fits fuel _ I1 _ (fun y hy => ?_) ?_
    · rw [S.size]
      rcases List.mem_append.1 hy with k | k
      · exact hq y (by simp [k])
      · exact I.lt_of_parent ((kids y).1 k)
    · rintro ⟨y, m, ⟨a, ha, w⟩, pm, hm⟩
      rw [S.within] at w
      refine no ⟨y, m, ?_, S.symm.pathTo pm, hm⟩
      rcases List.mem_append.1 ha with k | k
      · exact ⟨a, by simp [k], w⟩
      · refine ⟨x, by simp, .inr ?_⟩
        have := (kids a).1 k
        rcases w with rfl | w
        · exact .direct this
        · exact (Anc.direct this).trans w

theorem updateLoopWithin_deep {limit : Nat} {E : Env} : ∀ (fuel : Nat) (h : Heap) (_ : Inv h) (q : List Ref)
    (_ : ∀ x ∈ q, x < h.size) (_ : Overflows limit h q) (_ : ∃ h', updateLoop E fuel q h = (.ok (), h')),
    ∃ h', updateLoopWithin limit E fuel q h = (.error .recursionError, h') ∧ Sim (Under h q) h h' ∧
      ∀ y l, PathTo h y l → limit < l.length → (h'.get y).qualName = (h.get y).qualName
  | 0, h, _, [], _, ov, _ => by obtain ⟨_, _, ⟨_, a, _⟩, _⟩ := ov; cases a
  | 0, h, _, _ :: _, _, _, ok => by obtain ⟨_, k⟩ := ok; cases k
  | _ + 1, h, _, [], _, ov, _ => by obtain ⟨_, _, ⟨_, a, _⟩, _⟩ := ov; cases a
  | fuel + 1, h, I, x :: q, hq, ov, ok => by
    have hx := hq x (by simp)
    obtain ⟨l, t, rd, hp, -, run⟩ := I.update E hx
    by_cases hl : l.length ≤ limit
    · have S := restamp_sim h x (Str.join '/' l) t rd
      have run' : updateWithin limit E x h = _ := (updateWithin_fits I hx hp hl).trans run
      rw [updateLoop] at ok
      rw [updateLoopWithin, bind_ok run']
      rw [bind_ok run] at ok
      simp only [obj_bind_run] at ok ⊢
      have I1 := S.inv I
      have kids : ∀ b, b ∈ ((restamp h x (Str.join '/' l) t rd).get x).subs.values ↔ (h.get b).parent = some x := fun b => by
        rw [I1.mem_subelements, S.parent]
      obtain ⟨h', e, S', keep⟩ := updateLoopWithin_deep (limit := limit) fuel _ I1 _ (fun y hy => by
          rw [S.size]
          rcases List.mem_append.1 hy with k | k
          · exact hq y (by simp [k])
          · exact I.lt_of_parent ((kids y).1 k)) (by
          obtain ⟨y, m, ⟨a, ha, w⟩, pm, hm⟩ := ov
          refine ⟨y, m, ?_, S.pathTo pm, hm⟩
          rcases List.mem_cons.1 ha with rfl | ha
          · rcases w with rfl | w
            · have := hp.functional pm
              subst this; omega
            · obtain ⟨b, hb, w⟩ := w.cases_down
              exact ⟨b, List.mem_append.2 (.inr ((kids b).2 hb)), (S.within _ _).2 w⟩
          · exact ⟨a, List.mem_append.2 (.inl ha), (S.within _ _).2 w⟩) ok
      refine ⟨h', e, Sim.trans (S.mono ?_) (S'.mono ?_), fun y m pm hm => ?_⟩
      · rintro y rfl; exact ⟨y, by simp, .inl rfl⟩
      · rintro y ⟨a, ha, w⟩
        rw [S.within] at w
        rcases List.mem_append.1 ha with k | k
        · exact ⟨a, by simp [k], w⟩
        · refine ⟨x, by simp, .inr ?_⟩
          have := (kids a).1 k
          rcases w with rfl | w
          · exact .direct this
          · exact (Anc.direct this).trans w
      · rw [keep y m (S.pathTo pm) hm, restamp_get]
        split
        · next e' =>
          subst e'
          have := hp.functional pm
          subst this; omega
        · rfl
    · obtain ⟨h', e, S⟩ := updateWithin_deep (E := E) I hx hp (by omega : limit < l.length)
      refine ⟨h', ?_, S.sim.mono ?_, fun y _ _ _ => S.names y⟩
      · rw [updateLoopWithin, bind_err e]
      · rintro y rfl; exact ⟨y, by simp, .inl rfl⟩

/-! ## C105 -/

theorem sameHierarchy_of_sim {D D' : Ref → Prop} {a h h' : Heap} (S : Sim D a h) (S' : Sim D' a h') : SameHierarchy h h' :=
  ⟨fun y => (S'.parent y).trans (S.parent y).symm,
    fun y => by show (h'.get y).subs.values = (h.get y).subs.values; rw [S'.subs, S.subs],
    fun y => (S'.cnt y).trans (S.cnt y).symm,
    fun y => ⟨(S'.uuid y).trans (S.uuid y).symm, (S'.idName y).trans (S.idName y).symm⟩⟩

/-- **C105, partial.** Where an element and what lies below it come to lie no deeper than the recursion limit allows,
`add_element` does the same as without limit. -/
theorem C105_within_partial {E : Env} {h h' : Heap} (r : Reach E h) {c x : Ref} (hv : (Op.add c x).Valid h)
    (hs : (Op.add c x).Safe h) (h1 : (h.get c).kind ≠ .relation) (h2 : (h.get c).kind ≠ .edge)
    (ha : addElement E c x h = (.ok (), h')) {limit : Nat} (fits : FitsIn limit h' x) :
    addWithin limit E c x h = (.ok (), h') := by
  have I := r.good.inv
  rw [addElement_plain h1 h2] at ha
  rcases r.good.baseAdd_cases E hv.1 hv.2 hs with ⟨_, e⟩ | ⟨_, _, e⟩ | ⟨hne, hd, h1r, e, sim, -, Im, -⟩
  · rw [e] at ha; cases ha
  · rw [e] at ha; cases ha
  · rw [e] at ha; cases ha
    obtain ⟨h8, S8, e1, e2, e3⟩ := I.add_start E hv.1 hv.2 hne hd hs.1 hs.2
    have I8 := S8.inv Im
    rw [e2, ← e, e1]
    unfold updateElementWithin updateElement
    refine updateLoopWithin_fits _ h8 I8 [x] ?_ ?_
    · simp only [List.mem_singleton, forall_eq]
      rw [S8.size, moveH_size]; exact hv.2
    · rintro ⟨y, l, ⟨a, ha, w⟩, pl, hl⟩
      rw [List.mem_singleton] at ha; subst ha
      have := fits y l ((sim.within _ _).2 ((S8.within _ _).1 w)) (sim.pathTo (S8.symm.pathTo pl))
      omega

/-- **C105, refuted.** Where an element would come to lie deeper than the recursion limit allows, `add_element` raises
`RecursionError`, but the hierarchy is the one after a successful addition; and all elements that lie too deep keep their old
qualified names (an added element that is moved there has left its previous container, and has the name it has without). -/
theorem C105_too_deep_refuted {E : Env} {h h' : Heap} (r : Reach E h) {c x : Ref} (hv : (Op.add c x).Valid h)
    (hs : (Op.add c x).Safe h) (h1 : (h.get c).kind ≠ .relation) (h2 : (h.get c).kind ≠ .edge)
    (ha : addElement E c x h = (.ok (), h')) {limit : Nat} (deep : ¬ FitsIn limit h' x) :
    ∃ h'', addWithin limit E c x h = (.error .recursionError, h'') ∧ SameHierarchy h' h'' ∧
      ∀ y l, PathTo h'' y l → limit < l.length → (y = x → (h.get x).parent = none) →
        (h''.get y).qualName = (h.get y).qualName := by
  have I := r.good.inv
  rw [addElement_plain h1 h2] at ha
  rcases r.good.baseAdd_cases E hv.1 hv.2 hs with ⟨_, e⟩ | ⟨_, _, e⟩ | ⟨hne, hd, h1r, e, sim, -, Im, -⟩
  · rw [e] at ha; cases ha
  · rw [e] at ha; cases ha
  · rw [e] at ha; cases ha
    obtain ⟨h8, S8, e1, e2, e3⟩ := I.add_start E hv.1 hv.2 hne hd hs.1 hs.2
    have I8 := S8.inv Im
    rw [e1] at e
    unfold updateElement at e
    obtain ⟨y, l, w, pl, hl⟩ : ∃ y l, Within h' x y ∧ PathTo h' y l ∧ limit < l.length := by
      unfold FitsIn at deep
      push_neg at deep
      exact deep
    obtain ⟨h'', e', S', keep⟩ := updateLoopWithin_deep (limit := limit) (E := E) (2 ^ h8.size) h8 I8 [x] (by
        simp only [List.mem_singleton, forall_eq]
        rw [S8.size, moveH_size]; exact hv.2)
      ⟨y, l, ⟨x, by simp, (S8.within _ _).2 ((sim.within _ _).1 w)⟩, S8.pathTo (sim.symm.pathTo pl), hl⟩ ⟨_, e⟩
    refine ⟨h'', by rw [e2]; exact e', sameHierarchy_of_sim sim (S8.mono (D' := fun _ => True) (fun _ _ => trivial) |>.trans
      (S'.mono fun _ _ => trivial)), fun y l pl hl free => ?_⟩
    rw [keep y l (S'.symm.pathTo pl) hl]
    by_cases k : y = x
    · subst k
      exact e3 (free rfl)
    · rw [S8.same y k, moveH_qualName]

/-- A chain of `n + 1` nested nodes. -/
theorem chain_exists (E : Env) (n : Nat) : ∃ h c l, Reach E h ∧ c < h.size ∧ (h.get c).kind = .node ∧ h.subelements c = [] ∧
    PathTo h c l ∧ l.length = n + 1 := by
  induction n with
  | zero =>
    rcases newConceptual_cases (Reach.init (E := E)).good E (k := .node) ['r'] [0] (.str ['r']) .dummy (p := none)
        (fun _ h => by cases h) (fun _ h => by cases h) (by decide) with ⟨_, _, k, _⟩ | ⟨_, h', e, C⟩
    · cases k
    · have R := reach_newConceptual (Reach.init (E := E)) (k := .node) rfl ['r'] [0] (.str ['r']) (some .dummy) (p := none)
        (fun _ h => by cases h)
      rw [e] at R
      refine ⟨h', _, _, R, by rw [C.size]; omega, C.kindN, ?_, .root C.parentN, rfl⟩
      show (h'.get _).subs.values = []
      rw [C.subsN]; rfl
  | succ n ih =>
    obtain ⟨h, c, l, R, hc, hk, hs, hp, hl⟩ := ih
    have ok : okRef h (some c) := fun _ h => by cases h; exact hc
    rcases newConceptual_cases R.good E (k := .node) ['r'] [0] (.str ['r']) .dummy (p := some c) ok
        (fun _ h => by cases h; rw [hk]; decide) (by decide) with ⟨q, _, k, k', _⟩ | ⟨_, h', e, C⟩
    · cases k
      have : (h.get c).subs.values = [] := hs
      rw [Dict.values, List.map_eq_nil_iff] at this
      rw [this] at k'; cases k'
    · have R' := reach_newConceptual R (k := .node) rfl ['r'] [0] (.str ['r']) (some .dummy) ok
      rw [e] at R'
      have old : ∀ {y l}, PathTo h y l → y < h.size → PathTo h' y l := by
        intro y l p
        induction p with
        | root hp => intro hy; rw [← C.idName _ hy]; exact .root ((C.parent _ hy).trans hp)
        | @child y q l hp _ ih =>
          intro hy
          rw [← C.idName _ hy]
          exact .child ((C.parent _ hy).trans hp) (ih (R.good.inv.parent_lt hp))
      refine ⟨h', _, _, R', by rw [C.size]; omega, C.kindN, ?_, .child C.parentN (old hp hc), ?_⟩
      · show (h'.get _).subs.values = []
        rw [C.subsN]; rfl
      · simp [hl]

/-- **C105, refuted** for every recursion limit: in some reachable state, in which an element `x` without container bears the
name that its position gives it, adding `x` to a node `c` raises `RecursionError`, after which `x` is nevertheless in `c`, and
bears a name that is not the one its position gives it. -/
theorem C105_every_limit_refuted (E : Env) (limit : Nat) : ∃ h c x h'', Reach E h ∧ (Op.add c x).Valid h ∧ (Op.add c x).Safe h ∧
    (h.get c).kind = .node ∧ (h.get x).kind = .node ∧ (h.get x).parent = none ∧ NamedByPath h x ∧
    addWithin limit E c x h = (.error .recursionError, h'') ∧
    x ∈ h''.subelements c ∧ (h''.get x).parent = some c ∧ ¬ NamedByPath h'' x := by
  obtain ⟨h, c, l, R, hc, hk, hs, hp, hl⟩ := chain_exists E limit
  rcases newConceptual_cases R.good E (k := .node) ['x'] [1] (.str ['x']) .dummy (p := none)
      (fun _ h => by cases h) (fun _ h => by cases h) (by decide) with ⟨_, _, k, _⟩ | ⟨_, h1, e, C⟩
  · cases k
  have R1 := reach_newConceptual R (k := .node) rfl ['x'] [1] (.str ['x']) (some .dummy) (p := none) (fun _ h => by cases h)
  rw [e] at R1
  have old : ∀ {y l}, PathTo h y l → y < h.size → PathTo h1 y l := by
    intro y l p
    induction p with
    | root hp => intro hy; rw [← C.idName _ hy]; exact .root ((C.parent _ hy).trans hp)
    | @child y q l hp _ ih =>
      intro hy
      rw [← C.idName _ hy]
      exact .child ((C.parent _ hy).trans hp) (ih (R.good.inv.parent_lt hp))
  have hp1 := old hp hc
  have hv : (Op.add c h.size).Valid h1 := ⟨by rw [C.size]; omega, by rw [C.size]; omega⟩
  have hsafe : (Op.add c h.size).Safe h1 := by
    refine ⟨?_, fun p hp => by rw [C.parentN] at hp; cases hp⟩
    intro a
    obtain ⟨b, hb, _⟩ := a.cases_down
    have := (R1.good.inv.mem_subelements _ _).2 hb
    change b ∈ (h1.get h.size).subs.values at this
    rw [C.subsN] at this
    cases this
  have hkc : (h1.get c).kind = .node := by rw [C.kind c hc, hk]
  have hsc : (h1.get c).subs = [] := by
    rw [C.subs c hc, if_neg (by simp)]
    have : (h.get c).subs.values = [] := hs
    rwa [Dict.values, List.map_eq_nil_iff] at this
  obtain ⟨h2, e2, sim2, Im⟩ : ∃ h2, addElement E c h.size h1 = (.ok (), h2) ∧
      Sim (Within (moveH h1 c h.size) h.size) (moveH h1 c h.size) h2 ∧ Inv (moveH h1 c h.size) := by
    rw [addElement_plain (by rw [hkc]; decide) (by rw [hkc]; decide)]
    rcases R1.good.baseAdd_cases E hv.1 hv.2 hsafe with ⟨k, _⟩ | ⟨_, k, _⟩ | ⟨_, _, h2, e, s, _, Im, _⟩
    · omega
    · rw [hsc] at k; cases k
    · exact ⟨h2, e, s, Im⟩
  have free := C09_add_free R1 hv hsafe C.parentN e2
  have par : ∀ y, (h2.get y).parent = if y = h.size then some c else (h1.get y).parent := fun y => by
    rw [sim2.parent, moveH_parent _ _ _ _ R1.good.inv]
  have ids : ∀ y, (h2.get y).idName = (h1.get y).idName := fun y => by rw [sim2.idName, moveH_idName]
  have old2 : ∀ {y l}, PathTo h1 y l → y < h.size → PathTo h2 y l := by
    intro y l p
    induction p with
    | @root y hp => intro hy; rw [← ids y]; exact .root (by rw [par, if_neg (by omega)]; exact hp)
    | @child y q l hp _ ih =>
      intro hy
      rw [← ids y]
      have := R.good.inv.parent_lt ((C.parent y hy).symm.trans hp)
      exact .child (by rw [par, if_neg (by omega)]; exact hp) (ih this)
  have hp2 : PathTo h2 h.size (l ++ [(h2.get h.size).idName]) := .child (by rw [par, if_pos rfl]) (old2 hp1 hc)
  obtain ⟨h3, e3, S, keep⟩ := C105_too_deep_refuted R1 hv hsafe (by rw [hkc]; decide) (by rw [hkc]; decide) e2 (limit := limit)
    (fun f => by
      have := f _ _ (.inl rfl) hp2
      rw [List.length_append, hl] at this
      simp at this
      omega)
  have p3 : ∀ {y l}, PathTo h2 y l → PathTo h3 y l := by
    intro y l p
    induction p with
    | @root y hp => rw [← (S.identity y).2]; exact .root ((S.parent y).trans hp)
    | @child y q l hp _ ih => rw [← (S.identity y).2]; exact .child ((S.parent y).trans hp) ih
  refine ⟨h1, c, h.size, h3, R1, hv, hsafe, hkc, C.kindN, C.parentN, C.named, e3, ?_, ?_, ?_⟩
  · rw [S.subelements, free.2.1]; simp
  · rw [S.parent, free.1]
  · rintro ⟨m, pm, hm⟩
    have em := pm.functional (p3 hp2)
    rw [keep _ _ (p3 hp2) (by rw [List.length_append, hl]; simp; omega) (fun _ => C.parentN)] at hm
    obtain ⟨m', pm', hm'⟩ := C.named
    have em' := pm'.functional (.root C.parentN)
    rw [hm', em', em, Str.join_singleton, Str.join_append_singleton (by intro k; rw [k] at hl; simp at hl), ids] at hm
    have := congrArg List.length hm
    simp at this
    omega

/-! ### Instances -/

section
open Sample

/-- A node `x` without container, beside the sample. -/
def gFree : Heap := (mkNode ['x'] 20 none).after E0 g10

/-- Limit 4: `x` comes to lie at `r/a/d/x`, and is named so. -/
example : (addWithin 4 E0 10 g10.size gFree).1 = .ok () ∧
    ((addWithin 4 E0 10 g10.size gFree).2.get g10.size).qualName = ['r', '/', 'a', '/', 'd', '/', 'x'] := by decide +kernel

/-- Limit 3: the call raises, `x` is in `d` nevertheless, and is named `x`. -/
example : (addWithin 3 E0 10 g10.size gFree).1 = .error .recursionError ∧
    ((addWithin 3 E0 10 g10.size gFree).2.get g10.size).parent = some 10 ∧
    (addWithin 3 E0 10 g10.size gFree).2.subelements 10 = [g10.size] ∧
    ((addWithin 3 E0 10 g10.size gFree).2.get g10.size).qualName = ['x'] := by decide +kernel

end

end Rei
