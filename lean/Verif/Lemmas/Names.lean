import Verif.Lemmas.Acts

/-!
# Names and depths along a history
-/
namespace Rei
open PyM

variable {M : Mode}

/-- The call respects the restrictions of `M`. -/
def Op.Fits (M : Mode) (h : Heap) : Op → Prop
  | .remove c nm u _ => M.detach ∧ (M.leafDetach → ∀ x ∈ h.subelements c,
      (u = some (h.get x).uuid ∨ u = none ∧ (h.get x).idName = nm) → Childless h x)
  | .deregister x => M.detach ∧ (M.leafDetach → Childless h x)
  | .add _ x => M.leafAdd → Childless h x
  | .register x _ => M.leafAdd → Childless h x
  | .unaryConnect _ _ _ _ sv => M.leafAdd → sv = none
  | _ => True

theorem acts_run {h : Heap} (G : Good h) (E : Env) {op : Op} (V : op.Valid h) (S : op.Safe h)
    (F : op.Fits M h) : Acts M h (op.after E h) := by
  have I := G.inv
  unfold Op.after
  cases op with
  | mkItem k nm u pn ck p => rw [Op.run, void_run]; exact acts_newConceptual G E V.2
  | mkRelation u nm pn ep w d sv =>
    rw [Op.run, void_run]
    exact .one (.alloc ⟨rfl, rfl, rfl, rfl, rfl, fun h => by cases h⟩ rfl rfl)
  | mkPort u nm pn ep =>
    rw [Op.run, void_run]
    exact .one (.alloc ⟨rfl, rfl, rfl, rfl, rfl, fun h => by cases h⟩ rfl rfl)
  | mkValue u nm pn vs =>
    rw [Op.run, void_run]
    unfold newValue
    rw [bind_ok (x := newList _) (a := h.nlists) rfl]
    refine Acts.tail (h' := (newList (vs.getD []) h).2) (.one (.quiet (.congr rfl fun _ => rfl)))
      (.alloc (o := ⟨.value, u, nm, pn, nm, none, 0, 0, 0, 0, [], [], none, 0, none, [], none,
          .bidirectional, none, none, [], h.nlists, (vs.getD []).length, []⟩)
        ⟨rfl, rfl, rfl, rfl, rfl, fun h => by cases h⟩ rfl rfl)
  | mkSemantic k u nm pn at_ =>
    rw [Op.run, void_run]
    exact .one (.alloc ⟨rfl, rfl, rfl, rfl, rfl, fun h => by cases h⟩ rfl rfl)
  | mkList l => rw [Op.run, void_run]; exact .one (.quiet (.congr rfl fun _ => rfl))
  | add c x => exact (acts_addElement I E V.1 V.2 S F).1
  | remove c nm u lim => rw [Op.run, void_run]; exact acts_removeElement I E S F.1 F.2
  | register x c =>
    rw [Op.run]; unfold Rei.register
    rw [obj_bind_run]
    split
    · exact (acts_addElement I E V.1 V.2 S F).1
    · exact .refl _
  | deregister x =>
    rw [Op.run]; unfold Rei.deregister
    rw [obj_bind_run]
    split
    · exact acts_leaveParent I E F.1 F.2 S
    · exact .refl _
  | connect n el => exact (acts_connect I E V.1).1
  | disconnect n el =>
    rw [Op.run]
    rcases disconnect_after E n el h with e | e
    · rw [e]; exact .refl _
    · rw [e]; exact .one (.quiet (Quiet.mod rfl rfl rfl rfl))
  | unaryConnect e n w d sv =>
    rw [Op.run, void_run]
    refine acts_unaryConnect I E V.1 V.2.1 V.2.2.2 ?_ F
    intro s hs; subst hs; exact S
  | setClock x c =>
    have hsome : c.isSome = true := by
      cases c with
      | none => exact absurd rfl S
      | some _ => rfl
    refine .one (.quiet ?_)
    show Quiet h (h.mod x fun o => { o with clock := c })
    constructor
    · rfl
    all_goals
      intro y
      simp only [Heap.get_mod]
      split
      · next e =>
        subst e
        first
          | rfl
          | (intro _ _; exact hsome)
          | (intro hy; exact absurd V (Nat.not_lt.2 hy))
      · first | rfl | (intro _; exact id) | (intro _; rfl)
  | setItem l i q =>
    rw [Op.run]; unfold setListItem
    cases pyIndex (h.lists l).length i with
    | none => exact .refl _
    | some n => exact .one (.quiet (.congr rfl fun _ => rfl))
  | appendItem l q => rw [Op.run]; exact .one (.quiet (.congr rfl fun _ => rfl))
  | updateValue v i q =>
    rw [Op.run]; unfold Rei.updateValue
    rw [obj_bind_run]; unfold setListItem
    cases pyIndex (h.lists (h.get v).vals).length i with
    | none => exact .refl _
    | some n => exact .one (.quiet (.congr rfl fun _ => rfl))
  | updateValues v l =>
    rw [Op.run]; unfold Rei.updateValues
    exact .one (.quiet (Quiet.mod (x := v) (f := fun o => { o with vals := l }) rfl rfl rfl rfl))
  | getValues v => rw [Op.run, void_run]; exact .one (.quiet (.congr rfl fun _ => rfl))
  | addAttr s k a =>
    rw [Op.run]; unfold addNamedAttribute
    exact .one (.quiet (Quiet.mod (x := s) (f := fun o => { o with attrs := o.attrs.set k a })
      rfl rfl rfl rfl))
  | removeAttr s k =>
    rw [Op.run]; unfold removeNamedAttribute
    rw [obj_bind_run]
    split
    · exact .one (.quiet (Quiet.mod (x := s) (f := fun o => { o with attrs := o.attrs.erase k })
        rfl rfl rfl rfl))
    · exact .refl _
  | setSem r sv =>
    exact .one (.quiet (Quiet.mod (x := r) (f := fun o => { o with semNode := sv }) rfl rfl rfl rfl))
  | readClock c =>
    rw [Op.run, void_run]
    rcases c with _ | _ | _
    · exact .refl _
    · exact .refl _
    · exact .one (.quiet (.congr rfl fun _ => rfl))

/-! ### paths under changes -/

theorem PathTo.of_same {h h' : Heap} {D : Ref → Prop} (hp : ∀ y, D y → (h'.get y).parent = (h.get y).parent)
    (hn : ∀ y, D y → (h'.get y).idName = (h.get y).idName)
    (hu : ∀ y p, D y → (h.get y).parent = some p → D p) {x : Ref} (hx : D x) {l : List Str}
    (q : PathTo h x l) : PathTo h' x l := by
  induction q with
  | @root x h0 =>
    rw [← hn x hx]
    exact .root ((hp x hx).trans h0)
  | @child x p l h0 _ ih =>
    rw [← hn x hx]
    exact .child ((hp x hx).trans h0) (ih (hu x p hx h0))

/-- All qualified names are paths. -/
def Named (h : Heap) : Prop := ∀ x < h.size, NamedByPath h x

theorem Act.named {h h' : Heap} (a : Act M h h') (hM : M.leafDetach) (I : Inv h) (N : Named h) :
    Named h' := by
  cases a with
  | @alloc o F hq hd =>
    intro x hx
    have hx' : x < h.size + 1 := hx
    by_cases he : x = h.size
    · subst he
      refine ⟨[o.idName], ?_, ?_⟩
      · have : ((Rei.allocH h o).get h.size).idName = o.idName := by rw [allocH_get, if_pos rfl]
        rw [← this]
        refine .root ?_
        rw [allocH_get, if_pos rfl]; exact F.parent
      · rw [allocH_get, if_pos rfl, hq]; rfl
    · have hlt : x < h.size := by omega
      obtain ⟨l, hl, hq'⟩ := N x hlt
      refine ⟨l, ?_, ?_⟩
      · refine PathTo.of_same (D := (· < h.size)) ?_ ?_ ?_ hlt hl
        · intro y hy; rw [allocH_get_lt hy]
        · intro y hy; rw [allocH_get_lt hy]
        · intro y p _ hp; exact SInv.parent_lt I hp
      · rw [allocH_get_lt hlt]; exact hq'
  | quiet q =>
    intro x hx
    obtain ⟨l, hl, hq'⟩ := N x (by rw [← q.size]; exact hx)
    exact ⟨l, PathTo.of_same (D := fun _ => True) (fun y _ => q.parent y) (fun y _ => q.idName y)
      (fun _ _ _ _ => trivial) trivial hl, by rw [q.qualName]; exact hq'⟩
  | @move _ c x0 hc hx0 hcx hd ha hl sim hq =>
    intro x hx
    have Ig := I.moveH hc hx0 hcx hd ha
    have hxs : x < h.size := by rw [sim.size, moveH_size] at hx; exact hx
    by_cases hw : Within (moveH h c x0) x0 x
    · obtain ⟨l, hl⟩ := Ig.exists_path (x := x) (by rw [moveH_size]; exact hxs)
      exact ⟨l, sim.pathTo hl.1, hq x hw l hl.1⟩
    · obtain ⟨l, hl, hq'⟩ := N x hxs
      refine ⟨l, sim.pathTo ?_, ?_⟩
      · refine PathTo.of_same (D := fun y => ¬ Within (moveH h c x0) x0 y) ?_ ?_ ?_ hw hl
        · intro y hy
          rw [moveH_parent _ _ _ _ I, if_neg]
          rintro rfl; exact hy (.inl rfl)
        · intro y _; rw [moveH_idName]
        · intro y p hy hp hwp
          have hyx : y ≠ x0 := by rintro rfl; exact hy (.inl rfl)
          have hp' : ((moveH h c x0).get y).parent = some p := by
            rw [moveH_parent _ _ _ _ I, if_neg hyx]; exact hp
          apply hy
          rcases hwp with rfl | hwp
          · exact .inr (.direct hp')
          · exact .inr (.up hp' hwp)
      · rw [sim.same x hw, moveH_qualName]; exact hq'
  | @detach _ c vs hn hv hm hl sim hq =>
    intro x hx
    have hxs : x < h.size := by rw [sim.size, detachAllH_size] at hx; exact hx
    have hpar : ∀ y, (h'.get y).parent = if y ∈ vs then none else (h.get y).parent := by
      intro y; rw [sim.parent, detachAllH_parent]
    have hid : ∀ y, (h'.get y).idName = (h.get y).idName := by
      intro y
      rw [sim.idName]
      exact detachAllH_proj (·.idName) (fun h x y => detachH_idName h c x y) vs h y
    by_cases hxv : x ∈ vs
    · refine ⟨[(h'.get x).idName], .root ?_, ?_⟩
      · rw [hpar, if_pos hxv]
      · rw [hq x hxv, hid]; rfl
    · obtain ⟨l, hl', hq'⟩ := N x hxs
      refine ⟨l, ?_, ?_⟩
      · refine PathTo.of_same (D := fun y => y ∉ vs) ?_ ?_ ?_ hxv hl'
        · intro y hy; rw [hpar, if_neg hy]
        · intro y _; exact hid y
        · intro y p hy hp hpv
          exact hl hM p hpv y hp
      · rw [sim.same x hxv]
        rw [detachAllH_proj (·.qualName) (fun h x y => detachH_qualName h c x y) vs h x]
        exact hq'

theorem Acts.named {h h' : Heap} (a : Acts M h h') (hM : M.leafDetach) (I : Inv h) (N : Named h) :
    Named h' := by
  induction a with
  | refl => exact N
  | tail a b ih => exact b.named hM (a.inv I) ih

/-- `n` is the number of containers above `x`. -/
inductive Height (h : Heap) : Ref → Nat → Prop
  | root {x} : (h.get x).parent = none → Height h x 0
  | child {x p n} : (h.get x).parent = some p → Height h p n → Height h x (n + 1)

/-- All depths are the number of containers above. -/
def DepthOk (h : Heap) : Prop := ∀ x < h.size, Height h x (h.get x).depth

theorem Height.of_same {h h' : Heap} {D : Ref → Prop} (hp : ∀ y, D y → (h'.get y).parent = (h.get y).parent)
    (hu : ∀ y p, D y → (h.get y).parent = some p → D p) {x : Ref} (hx : D x) {n : Nat}
    (q : Height h x n) : Height h' x n := by
  induction q with
  | @root x h0 => exact .root ((hp x hx).trans h0)
  | @child x p l h0 _ ih => exact .child ((hp x hx).trans h0) (ih (hu x p hx h0))

theorem Act.depthOk {h h' : Heap} (a : Act M h h') (hM : M.leafAdd) (hM' : ¬ M.detach) (I : Inv h)
    (N : DepthOk h) : DepthOk h' := by
  cases a with
  | @alloc o F hq hd =>
    intro x hx
    have hx' : x < h.size + 1 := hx
    by_cases he : x = h.size
    · subst he
      rw [allocH_get, if_pos rfl, hd]
      refine .root ?_
      rw [allocH_get, if_pos rfl]; exact F.parent
    · have hlt : x < h.size := by omega
      rw [allocH_get_lt hlt]
      refine Height.of_same (D := (· < h.size)) ?_ ?_ hlt (N x hlt)
      · intro y hy; rw [allocH_get_lt hy]
      · intro y p _ hp; exact SInv.parent_lt I hp
  | quiet q =>
    intro x hx
    rw [q.depth]
    exact Height.of_same (D := fun _ => True) (fun y _ => q.parent y)
      (fun _ _ _ _ => trivial) trivial (N x (by rw [← q.size]; exact hx))
  | @move _ c x0 hc hx0 hcx hd ha hl sim hq =>
    intro x hx
    have hxs : x < h.size := by rw [sim.size, moveH_size] at hx; exact hx
    have hcl := hl hM
    have hpar : ∀ y, (h'.get y).parent = if y = x0 then some c else (h.get y).parent := by
      intro y; rw [sim.parent, moveH_parent _ _ _ _ I]
    have old : ∀ y n, y ≠ x0 → Height h y n → Height h' y n := by
      intro y n hy q
      refine Height.of_same (D := fun y => y ≠ x0) ?_ ?_ hy q
      · intro y hy; rw [hpar, if_neg hy]
      · intro y p hy hp hpx; subst hpx; exact hcl y hp
    rw [sim.depth, moveH_depth]
    by_cases he : x = x0
    · subst he
      rw [if_pos rfl]
      exact .child (by rw [hpar, if_pos rfl]) (old c _ (Ne.symm hcx) (N c hc))
    · rw [if_neg he]; exact old x _ he (N x hxs)
  | @detach _ c vs hn hv hm hl sim hq =>
    have : vs = [] := by
      by_cases hh : vs = []
      · exact hh
      · exact absurd (hm hh) hM'
    subst this
    intro x hx
    have sim' : Sim (· ∈ ([] : List Ref)) h h' := sim
    rw [sim'.depth]
    exact Height.of_same (D := fun _ => True) (fun y _ => sim'.parent y)
      (fun _ _ _ _ => trivial) trivial (N x (by rw [← sim'.size]; exact hx))

theorem Acts.depthOk {h h' : Heap} (a : Acts M h h') (hM : M.leafAdd) (hM' : ¬ M.detach) (I : Inv h)
    (N : DepthOk h) : DepthOk h' := by
  induction a with
  | refl => exact N
  | tail a b ih => exact b.depthOk hM hM' (a.inv I) ih

end Rei
