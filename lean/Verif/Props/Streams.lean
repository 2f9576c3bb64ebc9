import Verif.Spec.Streams
import Verif.Props.Encoding
import Verif.Props.NamesDepth

/-!
# C120: a stream of value messages
-/
namespace Rei
open PyM

theorem reach_setDecoded {E : Env} {h0 g : Heap} (R : Reach E g) (l : Later E h0 g) (root : Option Ref) (m : Option IndexHom)
    (p : Nat × List Rat) :
    Reach E (setDecodedValue root m p g).2 ∧ Later E h0 (setDecodedValue root m p g).2 := by
  unfold setDecodedValue
  cases m with
  | none => exact ⟨R, l⟩
  | some m =>
    simp only
    cases m.vals.uuid p.1 with
    | error e => exact ⟨R, l⟩
    | ok u =>
    cases root with
    | none => exact ⟨R, l⟩
    | some c =>
      simp only
      rw [obj_bind_run]
      cases hv : (g.get c).subs.get? u with
      | none => exact ⟨R, l⟩
      | some v =>
        simp only
        rw [obj_bind_run]
        by_cases hk : (g.get v).kind = .value
        · rw [if_pos hk]
          have hs : v < g.size := by
            have := (SInv.get?_subs R.good.inv c u v).1 hv
            exact R.good.inv.lt_of_parent this.1
          have R1 : Reach E ((Op.mkList p.2).after E g) := .step _ R trivial trivial
          have l1 : Later E h0 ((Op.mkList p.2).after E g) := .step _ l trivial
          have V : (Op.updateValues v g.nlists).Valid ((Op.mkList p.2).after E g) :=
            ⟨hs, hk, Nat.lt_succ_self g.nlists⟩
          exact ⟨.step _ R1 V trivial, .step _ l1 V⟩
        · rw [if_neg hk]
          exact ⟨R, l⟩

theorem reach_applyUpdate {E : Env} {h0 g : Heap} (R : Reach E g) (l : Later E h0 g) (J : Icon) : ∀ m : ValueMsg,
    Reach E (J.applyUpdate m g).2 ∧ Later E h0 (J.applyUpdate m g).2 := by
  intro m
  unfold Icon.applyUpdate
  induction m generalizing g with
  | nil => exact ⟨R, l⟩
  | cons p m ih =>
    obtain ⟨a, b⟩ := reach_setDecoded R l J.decoded J.decodedHom p
    rw [forEach_cons, bind_run]
    revert a b
    cases setDecodedValue J.decoded J.decodedHom p g with
    | mk r g1 =>
      intro a b
      cases r with
      | error e => exact ⟨a, b⟩
      | ok _ => exact ih a b

/-- Both processes of a session stay in reachable states, and the messages are what the source sent. -/
theorem Session.reach {E E' : Env} {I J : Icon} {h h' s g : Heap} {L : List (Heap × ValueMsg)} (R : Reach E h)
    (R' : Reach E' h') (H : Session E E' I J h h' s g L) :
    Reach E s ∧ Reach E' g ∧ Later E' h' g ∧ ∀ p ∈ L, Reach E p.1 ∧ I.valueUpdate p.1 = .ok p.2 := by
  induction H with
  | start => exact ⟨R, R', .refl _, by simp⟩
  | source op _ V S ih => exact ⟨.step op ih.1 V S, ih.2⟩
  | target op _ V S ih => exact ⟨ih.1, .step op ih.2.1 V S, .step op ih.2.2.1 V, ih.2.2.2⟩
  | send _ hm ih =>
    refine ⟨ih.1, ih.2.1, ih.2.2.1, ?_⟩
    intro p hp
    rcases List.mem_cons.1 hp with rfl | hp
    · exact ⟨ih.1, hm⟩
    · exact ih.2.2.2 p hp
  | deliver _ _ ih =>
    obtain ⟨a, b⟩ := reach_applyUpdate ih.2.1 ih.2.2.1 J _
    exact ⟨ih.1, a, b, ih.2.2.2⟩

/-- **C120.** After a round trip (`update_context`, `full_msg`, `create_graph`), let the two processes go on with any
calls, sending and delivering value messages in any order, possibly repeated or lost.  At any time: `msg_value_update`
returns a message if the context has no new value nodes; and a delivered message that was made in such a state `s0` of
the source, at any earlier time, is applied without error as long as the copies of the value nodes it describes are
still in the decoded graph, makes these copies equal to what the source had in `s0`, and changes nothing else. -/
theorem C120_delivered {E E' : Env} {h b : Heap} (R : Reach E h) (Rb : Reach E' b) (I : Icon)
    (S : Sendable h I.context) (hr : I.rels = []) (J : Icon) {ck : Clock}
    (hck : J.clock = some ck) {budget : Nat} (hb : HomBudget h h.size false budget I.context) :
    ∃ I1 I2 J' msg h' φ, I.updateContext h budget I.context [] = (.ok (), I1, []) ∧
      I1.fullMsg h = (.ok msg, I2) ∧ J.createGraph E' msg b = (.ok (some b.size), J', h') ∧
      Copy h I.context b h' b.size φ ∧
      ∀ s g L, Session E E' I2 J' h h' s g L →
        (NoNewValues h I.context s → ∃ m, I2.valueUpdate s = .ok m) ∧
        ∀ s0 m, (s0, m) ∈ L → NoNewValues h I.context s0 → CopiesPresent h I.context s0 g b.size φ →
          ∃ g', J'.applyUpdate m g = (.ok (), g') ∧ InStep h I.context s0 g' φ ∧
            (∀ y, (∀ v ∈ h.subValues I.context, y ≠ φ v) → g'.get y = g.get y) ∧
            (∀ v ∈ h.subValues I.context, g'.get (φ v) = { g.get (φ v) with vals := (g'.get (φ v)).vals }) ∧
            g'.size = g.size ∧ ∀ l < g.nlists, g'.lists l = g.lists l := by
  obtain ⟨h1, h2, h3⟩ := hom_has S
  have hf := fullMsg_ok R S (I := { I with hom := some (contextHom h I.context) }) rfl rfl hr h1 h2 h3
  obtain ⟨h', r, R', K, C, D⟩ := encoded_createGraph R S (contextHom h I.context) I.coo Rb ck
  have SI := sameIndices R S I.coo
  let M := ({} : IndexHom).resetFromBijection
    ((encoded h (contextHom h I.context) I.context I.coo).nodes.map fun n => (n.uuid, n.index))
    ((encoded h (contextHom h I.context) I.context I.coo).edges.map fun e => (e.uuid, e.index))
    ((encoded h (contextHom h I.context) I.context I.coo).vals.map fun v => (v.uuid, v.index))
  have rr : J.createGraph E' (encoded h (contextHom h I.context) I.context I.coo) b =
      (.ok (some b.size), { J with decoded := some b.size, decodedHom := some M }, h') := by
    unfold Icon.createGraph; rw [hck, r]
  refine ⟨_, _, _, _, h', copyOf h I.context b.size, updateContext_ok R I S.exists_ hb, hf, rr, C, ?_⟩
  let c := I.context
  let φ := copyOf h I.context b.size
  let idx := fun (hs : Heap) v => (contextHom h c).vals.at (hs.get v).uuid
  have hidx : ∀ hs, NoNewValues h c hs → ∀ v ∈ hs.subValues c,
      (contextHom h c).vals.index (hs.get v).uuid = .ok (idx hs v) ∧ M.vals.uuid (idx hs v) = .ok (hs.get v).uuid := by
    intro hs hn v hv
    obtain ⟨v0, hv0, e0⟩ := hn v hv
    obtain ⟨i, a1, a2, a3⟩ := SI.vals v0 hv0
    rw [← e0] at a1 a3
    have : idx hs v = i := by
      show ((contextHom h c).vals.idx.get? (hs.get v).uuid).getD 0 = i
      unfold IndexMap.index at a1
      cases hx : (contextHom h I.context).vals.idx.get? (hs.get v).uuid with
      | none => rw [hx] at a1; cases a1
      | some j => rw [hx] at a1; cases a1; rfl
    rw [this]
    exact ⟨a1, a3⟩
  have hupd : ∀ hs, NoNewValues h c hs →
      (({ I with hom := some (contextHom h I.context), rels := (encoded h (contextHom h I.context) I.context I.coo).rels } : Icon)).valueUpdate hs =
      .ok ((hs.subValues c).map fun v => (idx hs v, hs.valuesOf v)) := by
    intro hs hn
    unfold Icon.valueUpdate
    apply mapM_all
    intro v hv
    simp only [homIndex]
    rw [(hidx hs hn v hv).1]
    rfl
  intro s g L H
  obtain ⟨Rs, Rg, lg, hL⟩ := H.reach R R'
  refine ⟨fun hn => ⟨_, hupd s hn⟩, ?_⟩
  intro hs m hm hn hp
  obtain ⟨Rs0, hm0⟩ := hL _ hm
  have em : m = (hs.subValues c).map fun v => (idx hs v, hs.valuesOf v) := by
    have := hupd hs hn
    rw [hm0] at this
    exact Except.ok.inj this
  have hex : ∀ v, ∃ v0, v ∈ hs.subValues c → v0 ∈ h.subValues c ∧ (hs.get v).uuid = (h.get v0).uuid := by
    intro v
    by_cases hv : v ∈ hs.subValues c
    · obtain ⟨v0, a, b⟩ := hn v hv
      exact ⟨v0, fun _ => ⟨a, b⟩⟩
    · exact ⟨0, fun q => absurd q hv⟩
  obtain ⟨σ, hσ⟩ := Classical.axiomOfChoice hex
  have hpart : ∀ v0 ∈ h.subValues c, v0 ∈ h.messageParts c := fun v0 hv0 =>
    mem_messageParts.2 (.inr (.inr (.inr (.inr hv0))))
  have σinj : ∀ v ∈ hs.subValues c, ∀ w ∈ hs.subValues c, σ v = σ w → v = w := by
    intro v hv w hw e
    have e1 := (hσ v hv).2
    rw [e, ← (hσ w hw).2] at e1
    exact sibling_inj Rs0 (sub_parent Rs0 hv) (sub_parent Rs0 hw) e1
  let T := (hs.subValues c).map fun v => (idx hs v, hs.valuesOf v, φ (σ v))
  have hT : T.map (fun t => (t.1, t.2.1)) = (hs.subValues c).map fun v => (idx hs v, hs.valuesOf v) := by
    simp [T, Function.comp_def]
  obtain ⟨g', q, a1, a2, a3, a4, a5⟩ := forEach_setDecoded b.size M T g
    (by
      rw [List.map_map, List.nodup_map_iff_inj_on (show (hs.subValues c).Nodup from sub_nodup Rs0 _ c)]
      intro v hv w hw e
      simp only [Function.comp] at e
      exact σinj v hv w hw (C.inj _ (hpart _ (hσ v hv).1) _ (hpart _ (hσ w hw).1) e))
    (by
      intro t ht
      obtain ⟨v, hv, rfl⟩ := List.mem_map.1 ht
      have hv0 := (hσ v hv).1
      obtain ⟨f1, f2⟩ := C.fresh _ (hpart _ hv0)
      obtain ⟨_, iu, _, _, ik⟩ := C18_identity_immutable lg f2
      refine ⟨(hs.get v).uuid, (hidx hs hn v hv).2, ?_, ?_⟩
      · refine (SInv.get?_subs Rg.good.inv b.size _ (φ (σ v))).2 ⟨hp _ hv0 ⟨v, hv, (hσ v hv).2⟩, ?_⟩
        exact iu.trans ((C.uuid _ (hpart _ hv0)).trans (hσ v hv).2.symm)
      · exact ik.trans ((C.kind _ (hpart _ hv0)).trans (kind_subValues hv0)))
  rw [hT, ← em] at q
  refine ⟨g', q, ?_, ?_, ?_, a1, a3⟩
  · intro v hv v0 hv0 e
    have : σ v = v0 := by
      rw [(hσ v hv).2] at e
      exact sibling_inj R (sub_parent R (hσ v hv).1) (sub_parent R hv0) e
    have h5 := (a5 _ (List.mem_map.2 ⟨v, hv, rfl⟩)).2.1
    simp only at h5
    rw [this] at h5
    exact h5
  · intro y hy
    apply a4
    intro t ht
    obtain ⟨v, hv, rfl⟩ := List.mem_map.1 ht
    exact hy _ (hσ v hv).1
  · intro v0 hv0
    by_cases hin : ∃ v ∈ hs.subValues c, σ v = v0
    · obtain ⟨v, hv, rfl⟩ := hin
      exact (a5 _ (List.mem_map.2 ⟨v, hv, rfl⟩)).1
    · rw [a4]
      intro t ht e
      obtain ⟨v, hv, rfl⟩ := List.mem_map.1 ht
      exact hin ⟨v, hv, (C.inj _ (hpart _ hv0) _ (hpart _ (hσ v hv).1) e).symm⟩

/-- The message of the current state makes the copies equal to the current state. -/
theorem C120_in_step {E E' : Env} {h b : Heap} (R : Reach E h) (Rb : Reach E' b) (I : Icon)
    (S : Sendable h I.context) (hr : I.rels = []) (J : Icon) {ck : Clock}
    (hck : J.clock = some ck) {budget : Nat} (hb : HomBudget h h.size false budget I.context) :
    ∃ I1 I2 J' msg h' φ, I.updateContext h budget I.context [] = (.ok (), I1, []) ∧
      I1.fullMsg h = (.ok msg, I2) ∧ J.createGraph E' msg b = (.ok (some b.size), J', h') ∧
      Copy h I.context b h' b.size φ ∧
      ∀ s g L, Session E E' I2 J' h h' s g L → NoNewValues h I.context s → CopiesPresent h I.context s g b.size φ →
        ∃ m g', I2.valueUpdate s = .ok m ∧ J'.applyUpdate m g = (.ok (), g') ∧ InStep h I.context s g' φ ∧
          Session E E' I2 J' h h' s g' ((s, m) :: L) := by
  obtain ⟨I1, I2, J', msg, h', φ, a, b, c, d, e⟩ := C120_delivered R Rb I S hr J hck hb
  refine ⟨I1, I2, J', msg, h', φ, a, b, c, d, ?_⟩
  intro s g L H hn hp
  obtain ⟨m, hm⟩ := (e s g L H).1 hn
  have H1 := H.send hm
  obtain ⟨g', q, w, _⟩ := (e s g _ H1).2 s m (by simp) hn hp
  refine ⟨m, g', hm, q, w, ?_⟩
  have H2 := H1.deliver (s0 := s) (m := m) (by simp)
  rw [q] at H2
  exact H2

namespace Sample

/-- The value node of `s12` gets another value. -/
def s13 : Heap := (Op.updateValue 11 0 7).after E0 s12

theorem reach_s13 : Reach E0 s13 := .step _ reach_s12 ⟨by decide +kernel, by decide +kernel⟩ trivial

end Sample

open Sample in
/-- **C120 refuted** for messages out of order: messages carry no time, so that an older message delivered late takes
the copies back to the older values. -/
theorem C120_stale_refuted : ∃ I J h' φ, Copy s12 0 s12 h' s12.size φ ∧
    ∃ s g m m0, Session E0 E0 I J s12 h' s g [(s, m), (s12, m0)] ∧ InStep s12 0 s g φ ∧
      ¬ InStep s12 0 s (J.applyUpdate m0 g).2 φ := by
  obtain ⟨I1, I2, J', msg, h', φ, _, _, _, C, q⟩ := C120_delivered reach_s12 reach_s12 { clock := some .dummy, context := 0 } send_s12 rfl
    { clock := some .dummy, context := 0 } rfl budget_s12
  have n0 : NoNewValues s12 0 s12 := fun v hv => ⟨v, hv, rfl⟩
  have e12 : s12.subValues 0 = [11] := by decide +kernel
  have e13 : s13.subValues 0 = [11] := by decide +kernel
  have eu : (s13.get 11).uuid = (s12.get 11).uuid := by decide +kernel
  have n1 : NoNewValues s12 0 s13 := by
    intro v hv
    rw [e13, List.mem_singleton] at hv
    subst hv
    exact ⟨11, by rw [e12]; simp, eu⟩
  obtain ⟨m0, hm0⟩ := (q _ _ _ .start).1 n0
  have H1 := (Session.start (E := E0) (E' := E0) (I := I2) (J := J') (h := s12) (h' := h')).send hm0
  have H2 := H1.source (.updateValue 11 0 7) ⟨by decide +kernel, by decide +kernel⟩ trivial
  obtain ⟨m, hm⟩ := (q _ _ _ H2).1 n1
  have H3 := H2.send hm
  have top : (h'.get (φ 11)).parent = some s12.size := by
    have := C.parent 11 (mem_messageParts.2 (.inr (.inr (.inr (.inr (by rw [e12]; simp))))))
    have p11 : (s12.get 11).parent = some 0 := by decide +kernel
    rw [this, p11, Option.map_some, C.top]
  obtain ⟨g1, r1, w1, f1, f2, -⟩ := (q _ _ _ H3).2 s13 m (by simp [s13]) n1 (by
    intro v0 hv0 _
    rw [e12, List.mem_singleton] at hv0
    subst hv0
    exact top)
  have H4 := H3.deliver (s0 := s13) (m := m) (by simp [s13])
  rw [r1] at H4
  obtain ⟨g2, r2, w2, -⟩ := (q _ _ _ H4).2 s12 m0 (by simp) n0 (by
    intro v0 hv0 _
    rw [e12, List.mem_singleton] at hv0
    subst hv0
    rw [f2 11 (by rw [e12]; simp)]
    exact top)
  refine ⟨I2, J', h', φ, C, _, g1, m, m0, H4, w1, ?_⟩
  intro w
  rw [r2] at w
  have a := w 11 (by rw [show (Op.updateValue 11 0 7).after E0 s12 = s13 from rfl, e13]; simp) 11 (by rw [e12]; simp) eu
  have b := w2 11 (by rw [e12]; simp) 11 (by rw [e12]; simp) rfl
  rw [b] at a
  have : s12.valuesOf 11 ≠ s13.valuesOf 11 := by decide +kernel
  exact this a

open Sample in
example := C120_in_step reach_s12 reach_s12 { clock := some .dummy, context := 0 } send_s12 rfl
  { clock := some .dummy, context := 0 } rfl budget_s12

end Rei
