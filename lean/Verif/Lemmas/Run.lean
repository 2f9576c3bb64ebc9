import Verif.Lemmas.Reach

/-!
# Every state of a safe history satisfies the invariants
-/
namespace Rei
open PyM

theorem void_run {α : Type} (m : PyM α) (h : Heap) : (m.void h).2 = (m h).2 := by
  unfold PyM.void
  rw [bind_run]
  cases hm : m h with
  | mk r h' => cases r <;> rfl

/-- `disconnect` only changes the `_ports` of its element. -/
theorem disconnect_after (E : Env) (n el : Ref) (h : Heap) :
    (disconnect E n el h).2 = h ∨
    (disconnect E n el h).2 = h.mod n fun o => { o with ports := o.ports.erase (h.get el).uuid } := by
  unfold disconnect
  rw [obj_bind_run]
  by_cases hk : (h.get n).kind.isHElement = true
  · rw [if_pos hk]
    cases hg : (h.get n).genCtx with
    | none => exact .inl rfl
    | some ctx =>
      simp only [obj_bind_run]
      cases hp : (h.get n).ports.get? (h.get el).uuid with
      | none => exact .inl rfl
      | some p =>
        simp only [modify_bind_run, obj_bind_run]
        rw [bind_ok removeElement_zero]
        exact .inr rfl
  · rw [if_neg hk]; exact .inl rfl

theorem Good.setClock {h : Heap} (G : Good h) {x : Ref} {c : Option Clock} (hx : x < h.size)
    (hc : c.isSome = true) : Good (h.mod x fun o => { o with clock := c }) := by
  have f : ∀ {α : Type} (π : Obj → α) (_ : ∀ o s, π { o with clock := s } = π o) (z : Ref),
      π ((h.mod x fun o => { o with clock := c }).get z) = π (h.get z) := by
    intro α π hπ z
    simp only [Heap.get_mod]
    split
    · next e => subst e; exact hπ _ _
    · rfl
  have I := G.inv
  refine ⟨?_, ?_⟩
  · refine { out := ?_, nodup := ?_, mem := ?_, index := ?_, cnt := ?_, cidLt := ?_, cidInj := ?_,
             rank := ?_, clock := ?_ }
    · intro y hy
      have hne : y ≠ x := by rintro rfl; exact absurd hx (Nat.not_lt.2 hy)
      unfold Heap.st
      simp only [Heap.get_mod, if_neg hne]
      exact I.out y hy
    · intro c; exact (f (fun o => o.subs.keys.Nodup) (fun _ _ => rfl) c).symm ▸ I.nodup c
    · intro a u y
      have := I.mem a u y
      unfold Heap.st Obj.st at this ⊢
      simp only [f (·.subs) (fun _ _ => rfl), f (·.parent) (fun _ _ => rfl),
        f (·.uuid) (fun _ _ => rfl)]
      exact this
    · intro a nm
      have := I.index a nm
      unfold Heap.st Obj.st at this ⊢
      simp only [f (·.subs) (fun _ _ => rfl), f (·.index) (fun _ _ => rfl),
        f (·.idName) (fun _ _ => rfl)]
      exact this
    · intro a
      have := I.cnt a
      unfold Heap.st Obj.st at this ⊢
      simp only [f (·.subs) (fun _ _ => rfl), f (·.cnt) (fun _ _ => rfl)]
      exact this
    · intro y a
      have := I.cidLt y a
      unfold Heap.st Obj.st at this ⊢
      simp only [f (·.parent) (fun _ _ => rfl), f (·.cid) (fun _ _ => rfl),
        f (·.hist) (fun _ _ => rfl)]
      exact this
    · intro y z a
      have := I.cidInj y z a
      unfold Heap.st Obj.st at this ⊢
      simp only [f (·.parent) (fun _ _ => rfl), f (·.cid) (fun _ _ => rfl)]
      exact this
    · obtain ⟨rank, hr⟩ := I.rank
      refine ⟨rank, fun y p => ?_⟩
      have := hr y p
      unfold Heap.st Obj.st at this ⊢
      simp only [f (·.parent) (fun _ _ => rfl)]
      exact this
    · intro y hy
      have := I.clock y hy
      unfold Heap.st Obj.st at this ⊢
      simp only [f (·.kind) (fun _ _ => rfl)]
      by_cases hyx : y = x
      · intro _; simp only [Heap.get_mod, if_pos hyx]; exact hc
      · simp only [Heap.get_mod, if_neg hyx]; exact this
  · intro e h1 h2 k r
    rw [f (·.kind) (fun _ _ => rfl)] at h1
    rw [f (·.genCtx) (fun _ _ => rfl)] at h2
    rw [f (·.subRels) (fun _ _ => rfl), f (·.parent) (fun _ _ => rfl), f (·.kind) (fun _ _ => rfl),
      f (·.cid) (fun _ _ => rfl)]
    exact G.rel e h1 h2 k r

theorem Good.modify {h : Heap} (G : Good h) {x : Ref} {f : Obj → Obj}
    (hf : (f (h.get x)).st = (h.get x).st) (hg : (f (h.get x)).genCtx = (h.get x).genCtx)
    (hr : (f (h.get x)).subRels = (h.get x).subRels) : Good (PyM.modify x f h).2 := G.mod hf hg hr

theorem Good.run {h : Heap} (G : Good h) (E : Env) {op : Op} (V : op.Valid h) (S : op.Safe h) :
    Good (op.after E h) := by
  unfold Op.after
  cases op with
  | mkItem k nm u pn ck p =>
    rw [Op.run, void_run]
    exact G.newConceptual E V.2
  | mkRelation u nm pn ep w d sv =>
    rw [Op.run, void_run]
    exact G.allocH ⟨rfl, rfl, rfl, rfl, rfl, fun h => by cases h⟩
  | mkPort u nm pn ep =>
    rw [Op.run, void_run]
    exact G.allocH ⟨rfl, rfl, rfl, rfl, rfl, fun h => by cases h⟩
  | mkValue u nm pn vs =>
    rw [Op.run, void_run]
    unfold newValue
    rw [bind_ok (x := newList _) (a := h.nlists) rfl]
    refine Good.allocH (h := { h with nlists := _, lists := _ }) ?_
      ⟨rfl, rfl, rfl, rfl, rfl, fun h => by cases h⟩
    exact G.congr rfl fun _ => rfl
  | mkSemantic k u nm pn at_ =>
    rw [Op.run, void_run]
    exact G.allocH ⟨rfl, rfl, rfl, rfl, rfl, fun h => by cases h⟩
  | mkList l => rw [Op.run, void_run]; exact G.congr rfl fun _ => rfl
  | add c x => exact (G.addElement E V.1 V.2 S).1
  | remove c nm u lim => rw [Op.run, void_run]; exact G.removeElement E S
  | register x c =>
    rw [Op.run]; unfold Rei.register
    rw [obj_bind_run]
    split
    · exact (G.addElement E V.1 V.2 S).1
    · exact G
  | deregister x =>
    rw [Op.run]; unfold Rei.deregister
    rw [obj_bind_run]
    split
    · exact G.leaveParent E S
    · exact G
  | connect n el => exact (G.connect E V.1).1
  | disconnect n el =>
    rw [Op.run]
    rcases disconnect_after E n el h with e | e
    · rw [e]; exact G
    · rw [e]; exact G.mod rfl rfl rfl
  | unaryConnect e n w d sv =>
    rw [Op.run, void_run]
    refine G.unaryConnect E V.1 V.2.1 V.2.2.2 ?_
    intro s hs; subst hs; exact S
  | setClock x c =>
    have hsome : c.isSome = true := by
      cases c with
      | none => exact absurd rfl S
      | some _ => rfl
    exact G.setClock V hsome
  | setItem l i q =>
    rw [Op.run]; unfold setListItem
    cases pyIndex (h.lists l).length i with
    | none => exact G
    | some n => exact G.congr rfl fun _ => rfl
  | appendItem l q => rw [Op.run]; exact G.congr rfl fun _ => rfl
  | updateValue v i q =>
    rw [Op.run]; unfold Rei.updateValue
    rw [obj_bind_run]; unfold setListItem
    cases pyIndex (h.lists (h.get v).vals).length i with
    | none => exact G
    | some n => exact G.congr rfl fun _ => rfl
  | updateValues v l => rw [Op.run]; unfold Rei.updateValues; exact G.modify rfl rfl rfl
  | getValues v => rw [Op.run, void_run]; exact G.congr rfl fun _ => rfl
  | addAttr s k a => rw [Op.run]; unfold addNamedAttribute; exact G.modify rfl rfl rfl
  | removeAttr s k =>
    rw [Op.run]; unfold removeNamedAttribute
    rw [obj_bind_run]
    split
    · exact G.modify rfl rfl rfl
    · exact G
  | setSem r sv => rw [Op.run]; exact G.modify rfl rfl rfl
  | readClock c =>
    rw [Op.run, void_run]
    rcases c with _ | _ | _
    · exact G
    · exact G
    · exact G.congr rfl fun _ => rfl

theorem Reach.good {E : Env} {h : Heap} (r : Reach E h) : Good h := by
  induction r with
  | init => exact Good.empty
  | step op _ V S ih => exact ih.run E V S

theorem Reach.any {E : Env} {h : Heap} (r : Reach E h) : ReachAny E h := by
  induction r with
  | init => exact .init
  | step op _ V _ ih => exact .step op ih V

end Rei
