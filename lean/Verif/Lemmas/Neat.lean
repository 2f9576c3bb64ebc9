import Verif.Lemmas.ReadFile
import Verif.Props.Factory

/-!
# What the reader leaves out

Nothing but what a file declares: how the new objects hang together, including the ports.
-/
namespace Rei
open PyM

/-- If `m` returns from `h`, then `Q` holds. -/
def Yields {α : Type} (m : PyM α) (h : Heap) (Q : α → Heap → Prop) : Prop := ∀ a h', m h = (.ok a, h') → Q a h'

namespace Yields
variable {α β : Type} {h : Heap}

theorem pure {a : α} {Q : α → Heap → Prop} (q : Q a h) : Yields (Pure.pure a : PyM α) h Q := by
  rintro _ _ ⟨⟩; exact q

theorem raise {er : Err} {Q : α → Heap → Prop} : Yields (raise er : PyM α) h Q := by rintro _ _ ⟨⟩

theorem bind {m : PyM α} {f : α → PyM β} {Q : α → Heap → Prop} {Q' : β → Heap → Prop} (a : Yields m h Q)
    (b : ∀ x h', Q x h' → Yields (f x) h' Q') : Yields (m >>= f) h Q' := by
  intro y h' e
  cases hm : m h with
  | mk r h1 =>
    cases r with
    | error er => rw [bind_err hm] at e; cases e
    | ok x => rw [bind_ok hm] at e; exact b x h1 (a x h1 hm) y h' e

theorem mono {m : PyM α} {Q Q' : α → Heap → Prop} (a : Yields m h Q) (b : ∀ x h', Q x h' → Q' x h') : Yields m h Q' :=
  fun x h' e => b x h' (a x h' e)

theorem void {m : PyM α} {Q : α → Heap → Prop} (a : Yields m h Q) : Yields m.void h fun _ h' => ∃ x, Q x h' := by
  unfold PyM.void
  exact a.bind fun x h' q => .pure ⟨x, q⟩

theorem obj {x : Ref} : Yields (obj x) h fun o h' => h = h' ∧ o = h.get x := by rintro _ _ ⟨⟩; exact ⟨rfl, rfl⟩

theorem heap : Yields heap h fun o h' => h = h' ∧ h = o := by rintro _ _ ⟨⟩; exact ⟨rfl, rfl⟩

theorem liftE {r : Except Err α} : Yields (liftE r) h fun a h' => h = h' ∧ r = .ok a := by
  rintro _ _ e; cases e; exact ⟨rfl, rfl⟩

end Yields

theorem Does.yields {E : Env} {α : Type} {h : Heap} {m : PyM α} {Q : α → Heap → Prop} (d : Does E m h Q) :
    Yields m h fun a h' => Reach E h' ∧ Q a h' :=
  fun a h' e => ⟨by have := d.1; rw [e] at this; exact this, d.2 a h' e⟩

/-- The objects from `N` on hang together as the reader leaves them between two steps. -/
structure Neat (U : Bytes → Prop) (N : Nat) (h : Heap) : Prop where
  size : N ≤ h.size
  par : ∀ x, N ≤ x → x < h.size → ∃ c, (h.get x).parent = some c ∧ (h.get c).kind ≠ .port ∧ (h.get c).kind ≠ .value
  edge : ∀ x, N ≤ x → (h.get x).kind = .edge → ∃ c, (h.get x).parent = some c ∧ (h.get c).kind = .node
  port : ∀ p, N ≤ p → (h.get p).kind = .port → ∃ r n, p = r + 1 ∧ N ≤ r ∧ (h.get r).kind = .relation ∧
    (h.get p).endpoint = some r ∧ (h.get p).parent = some n ∧ (h.get r).endpoint = some n
  rel : ∀ r, N ≤ r → (h.get r).kind = .relation → ∃ e n, N ≤ e ∧ e < r ∧ (h.get r).parent = some e ∧ (h.get e).kind = .edge ∧
    (h.get r).endpoint = some n ∧ (h.get (r + 1)).kind = .port ∧ (h.get (r + 1)).parent = some n ∧
    (h.get (r + 1)).endpoint = some r
  nest : ∀ r e x, N ≤ r → (h.get r).kind = .relation → (h.get r).parent = some e → (h.get x).kind = .edge → e < x → r < x
  sorted : ∀ x, N ≤ x → (h.subelements x).Pairwise (· < ·)
  deep : ∀ x c, N ≤ x → (h.get x).kind = .node → (h.get x).parent = some c → (h.get c).kind = .node →
    (h.get x).depth = (h.get c).depth + 1
  uid : ∀ x, N ≤ x → (h.get x).kind = .node → U (h.get x).uuid

theorem Neat.start {U : Bytes → Prop} {h : Heap} (I : Inv h) : Neat U h.size h := by
  have no : ∀ x, h.size ≤ x → ∀ k, (h.get x).kind = k → k ≠ .conceptual → False := by
    intro x hx k hk hn
    have := I.lt_of_kind (x := x) (by rw [hk]; exact hn)
    omega
  refine ⟨Nat.le_refl _, fun x a b => by omega, fun x a b => (no x a _ b (by simp)).elim,
    fun x a b => (no x a _ b (by simp)).elim, fun x a b => (no x a _ b (by simp)).elim,
    fun r e x a b => (no r a _ b (by simp)).elim, fun x hx => ?_, fun x c a b => (no x a _ b (by simp)).elim,
    fun x a b => (no x a _ b (by simp)).elim⟩
  have e2 : (h.get x).subs = [] := congrArg SObj.subs (SInv.out I x hx)
  unfold Heap.subelements
  rw [e2]; exact .nil

theorem Inv.childless {h : Heap} (I : Inv h) {x : Ref} (hn : ∀ y < h.size, (h.get y).parent ≠ some x) :
    h.subelements x = [] := by
  rw [List.eq_nil_iff_forall_not_mem]
  intro y hy
  have := (I.mem_subelements x y).1 hy
  exact hn y (I.lt_of_parent this) this

/-- One more object, other than a relation or a port. -/
theorem MadeIn.neat {U : Bytes → Prop} {c : Ref} {k : Kind} {nm : Str} {attrs : Dict Str AttrVal} {h h' : Heap} {N : Nat}
    (M : MadeIn c k nm attrs h h') (I : Inv h) (I' : Inv h') (n : Neat U N h) (hc : c < h.size) (hk1 : k ≠ .port) (hk2 : k ≠ .relation)
    (hc1 : (h.get c).kind ≠ .port) (hc2 : (h.get c).kind ≠ .value) (hce : k = .edge → (h.get c).kind = .node)
    (hU : k = .node → U (h'.get h.size).uuid) :
    Neat U N h' := by
  have sz := M.size
  have nsz := n.size
  have L := M.later
  have lt' : ∀ {x k'}, (h'.get x).kind = k' → k' ≠ .conceptual → x < h.size ∨ x = h.size := by
    intro x k' hx hn
    have := I'.lt_of_kind (x := x) (by rw [hx]; exact hn)
    omega
  have old : ∀ {x k'}, (h'.get x).kind = k' → k' ≠ .conceptual → k ≠ k' → x < h.size := by
    intro x k' hx hn hne
    rcases lt' hx hn with a | rfl
    · exact a
    · rw [M.kind] at hx; exact absurd hx hne
  refine ⟨by omega, ?_, ?_, ?_, ?_, ?_, ?_, ?_, ?_⟩
  · intro x a b
    by_cases hx : x = h.size
    · subst hx
      exact ⟨c, M.parent, by rw [L.kind c hc]; exact hc1, by rw [L.kind c hc]; exact hc2⟩
    · have hx : x < h.size := by omega
      obtain ⟨d, p, q⟩ := n.par x a hx
      exact ⟨d, by rw [L.parent x hx, p], by rw [L.kind d (I.parent_lt p)]; exact q⟩
  · intro x a b
    rcases lt' b (by simp) with hx | rfl
    · rw [L.kind x hx] at b
      obtain ⟨d, p, q⟩ := n.edge x a b
      exact ⟨d, by rw [L.parent x hx, p], by rw [L.kind d (I.parent_lt p)]; exact q⟩
    · rw [M.kind] at b
      exact ⟨c, M.parent, by rw [L.kind c hc]; exact hce b⟩
  · intro p a b
    have hp := old b (by simp) hk1
    rw [L.kind p hp] at b
    obtain ⟨r, m, b1, b2, b3, b4, b5, b6⟩ := n.port p a b
    have hr : r < h.size := by omega
    exact ⟨r, m, b1, b2, by rw [L.kind r hr, b3], by rw [L.endpoint p hp, b4], by rw [L.parent p hp, b5],
      by rw [L.endpoint r hr, b6]⟩
  · intro r a b
    have hr := old b (by simp) hk2
    rw [L.kind r hr] at b
    obtain ⟨e, m, b1, b0, b2, b3, b4, b5, b6, b7⟩ := n.rel r a b
    have hp : r + 1 < h.size := I.lt_of_kind (by rw [b5]; simp)
    exact ⟨e, m, b1, b0, by rw [L.parent r hr, b2], by rw [L.kind e (I.parent_lt b2), b3], by rw [L.endpoint r hr, b4],
      by rw [L.kind _ hp, b5], by rw [L.parent _ hp, b6], by rw [L.endpoint _ hp, b7]⟩
  · intro r e x a b p d q
    have hr := old b (by simp) hk2
    rw [L.kind r hr] at b
    rw [L.parent r hr] at p
    rcases lt' d (by simp) with hx | rfl
    · rw [L.kind x hx] at d
      exact n.nest r e x a b p d q
    · exact hr
  · intro x a
    by_cases hx : x < h.size
    · rw [M.subs x hx]
      refine List.pairwise_append.2 ⟨n.sorted x a, by split <;> simp, ?_⟩
      intro y hy z hz
      have := I.lt_of_parent ((I.mem_subelements x y).1 hy)
      split at hz
      · rw [List.mem_singleton.1 hz]; exact this
      · cases hz
    · rw [I'.childless]
      · exact .nil
      · intro y hy e
        by_cases hyn : y = h.size
        · subst hyn; rw [M.parent] at e; cases e; exact hx hc
        · rw [L.parent y (by omega)] at e
          exact hx (I.parent_lt e)
  · intro x c' a b p q
    rcases lt' b (by simp) with hx | rfl
    · rw [L.kind x hx] at b
      rw [L.parent x hx] at p
      have hc' := I.parent_lt p
      rw [L.kind c' hc'] at q
      rw [M.depths x hx, M.depths c' hc']
      exact n.deep x c' a b p q
    · rw [M.parent] at p; cases p
      rw [M.depth, M.depths _ hc]
  · intro x a b
    rcases lt' b (by simp) with hx | rfl
    · rw [L.kind x hx] at b
      rw [M.uuids x hx]
      exact n.uid x a b
    · rw [M.kind] at b
      exact hU b

/-- One more relation and its port. -/
theorem Linked.neat {U : Bytes → Prop} {e m : Ref} {d : Dir} {sv w : Option Ref} {h h' : Heap} {N : Nat}
    (L : Linked e m d sv h h' w)
    (I : Inv h) (I' : Inv h') (n : Neat U N h) (he : e < h.size) (hN : N ≤ e) (hk : (h.get e).kind = .edge)
    (hm : m < h.size) (hme : m ≠ e) (hs : ∀ s, sv = some s → ∃ k, (h.get s).kind = .semantic k)
    (last : ∀ x, (h.get x).kind = .edge → x ≤ e) : Neat U N h' := by
  have sz := L.size
  have nsz := n.size
  have mk : (h.get m).kind ≠ .port ∧ (h.get m).kind ≠ .value := by
    constructor <;> (intro e; have := L.target; rw [e] at this; cases this)
  have par : ∀ x < h.size, (∀ k, (h.get x).kind ≠ .semantic k) → (h'.get x).parent = (h.get x).parent := by
    intro x hx hn
    refine L.parent x hx ?_
    intro e
    obtain ⟨k, hk⟩ := hs x e
    exact hn k hk
  have cases3 : ∀ {x}, x < h'.size → x < h.size ∨ x = h.size ∨ x = h.size + 1 := by intro x hx; omega
  have lt' : ∀ {x k'}, (h'.get x).kind = k' → k' ≠ .conceptual → x < h.size ∨ x = h.size ∨ x = h.size + 1 := by
    intro x k' hx hn
    exact cases3 (I'.lt_of_kind (x := x) (by rw [hx]; exact hn))
  refine ⟨by omega, ?_, ?_, ?_, ?_, ?_, ?_, ?_, ?_⟩
  · intro x a b
    rcases cases3 b with hx | rfl | rfl
    · by_cases hsx : sv = some x
      · exact ⟨h.size, L.semPar x hsx, by rw [L.relKind]; simp, by rw [L.relKind]; simp⟩
      · obtain ⟨c, p, q⟩ := n.par x a hx
        exact ⟨c, by rw [L.parent x hx hsx, p], by rw [L.kind c (I.parent_lt p)]; exact q⟩
    · exact ⟨e, L.relPar, by rw [L.kind e he, hk]; simp, by rw [L.kind e he, hk]; simp⟩
    · exact ⟨m, L.portPar, by rw [L.kind m hm]; exact mk.1, by rw [L.kind m hm]; exact mk.2⟩
  · intro x a b
    rcases lt' b (by simp) with hx | rfl | rfl
    · rw [L.kind x hx] at b
      obtain ⟨c, p, q⟩ := n.edge x a b
      exact ⟨c, by rw [par x hx (by rw [b]; simp), p], by rw [L.kind c (I.parent_lt p)]; exact q⟩
    · rw [L.relKind] at b; cases b
    · rw [L.portKind] at b; cases b
  · intro p a b
    rcases lt' b (by simp) with hp | rfl | rfl
    · rw [L.kind p hp] at b
      obtain ⟨r, q, b1, b2, b3, b4, b5, b6⟩ := n.port p a b
      have hr : r < h.size := by omega
      exact ⟨r, q, b1, b2, by rw [L.kind r hr, b3], by rw [L.endpoint p hp, b4],
        by rw [par p hp (by rw [b]; simp), b5], by rw [L.endpoint r hr, b6]⟩
    · rw [L.relKind] at b; cases b
    · exact ⟨h.size, m, rfl, nsz, L.relKind, L.portEnd, L.portPar, L.relEnd⟩
  · intro r a b
    rcases lt' b (by simp) with hr | rfl | rfl
    · rw [L.kind r hr] at b
      obtain ⟨e', q, b1, b0, b2, b3, b4, b5, b6, b7⟩ := n.rel r a b
      have hp : r + 1 < h.size := I.lt_of_kind (by rw [b5]; simp)
      exact ⟨e', q, b1, b0, by rw [par r hr (by rw [b]; simp), b2], by rw [L.kind e' (I.parent_lt b2), b3],
        by rw [L.endpoint r hr, b4], by rw [L.kind _ hp, b5], by rw [par _ hp (by rw [b5]; simp), b6],
        by rw [L.endpoint _ hp, b7]⟩
    · exact ⟨e, m, hN, he, L.relPar, by rw [L.kind e he, hk], L.relEnd, L.portKind, L.portPar, L.portEnd⟩
    · rw [L.portKind] at b; cases b
  · intro r e' x a b p q lt
    rcases lt' b (by simp) with hr | rfl | rfl
    · rw [L.kind r hr] at b
      rw [par r hr (by rw [b]; simp)] at p
      rcases lt' q (by simp) with hx | rfl | rfl
      · rw [L.kind x hx] at q
        exact n.nest r e' x a b p q lt
      · exact hr
      · omega
    · rw [L.relPar] at p
      cases p
      rcases lt' q (by simp) with hx | rfl | rfl
      · rw [L.kind x hx] at q
        have := last x q
        omega
      · rw [L.relKind] at q; cases q
      · rw [L.portKind] at q; cases q
    · rw [L.portKind] at b; cases b
  · intro x a
    by_cases hx : x < h.size
    · rw [L.subs x hx]
      have low : ∀ y ∈ (h.subelements x).filter (fun y => decide (sv ≠ some y)), y < h.size := fun y hy =>
        I.lt_of_parent ((I.mem_subelements x y).1 (List.mem_of_mem_filter hy))
      by_cases h1 : x = m
      · have h2 : x ≠ e := by rw [h1]; exact hme
        rw [if_pos h1, if_neg h2, List.append_nil]
        refine List.pairwise_append.2 ⟨(n.sorted x a).filter _, by simp, ?_⟩
        intro y hy z hz
        have := low y hy
        rw [List.mem_singleton.1 hz]; omega
      · rw [if_neg h1, List.append_nil]
        refine List.pairwise_append.2 ⟨(n.sorted x a).filter _, by split <;> simp, ?_⟩
        intro y hy z hz
        have := low y hy
        split at hz
        · rw [List.mem_singleton.1 hz]; omega
        · cases hz
    · by_cases h1 : x = h.size
      · subst h1
        have : ∀ y ∈ h'.subelements h.size, sv = some y := by
          intro y hy
          have p := (I'.mem_subelements _ y).1 hy
          rcases cases3 (I'.lt_of_parent p) with hy | rfl | rfl
          · by_cases q : sv = some y
            · exact q
            · rw [L.parent y hy q] at p
              have := I.parent_lt p; omega
          · rw [L.relPar] at p; cases p; omega
          · rw [L.portPar] at p; cases p; omega
        have nd : (h'.subelements h.size).Nodup := SInv.values_nodup I' h.size
        rcases hl : h'.subelements h.size with - | ⟨y, - | ⟨z, l⟩⟩
        · exact .nil
        · simp
        · rw [hl] at this nd
          have a := this y (by simp)
          have b := this z (by simp)
          rw [a] at b; cases b
          simp at nd
      · rw [I'.childless]
        · exact .nil
        · intro y hy p
          rcases cases3 hy with hy | rfl | rfl
          · by_cases q : sv = some y
            · rw [L.semPar y q] at p; cases p; exact h1 rfl
            · rw [L.parent y hy q] at p
              have := I.parent_lt p; omega
          · rw [L.relPar] at p; cases p; exact hx he
          · rw [L.portPar] at p; cases p; exact hx hm
  · intro x c' a b p q
    have notSem : ∀ y, (h.get y).kind = .node → sv ≠ some y := by
      intro y hy e
      obtain ⟨k, hk⟩ := hs y e
      rw [hy] at hk; cases hk
    rcases lt' b (by simp) with hx | rfl | rfl
    · rw [L.kind x hx] at b
      rw [L.parent x hx (notSem x b)] at p
      have hc' := I.parent_lt p
      rw [L.kind c' hc'] at q
      rw [L.depth x hx (notSem x b), L.depth c' hc' (notSem c' q)]
      exact n.deep x c' a b p q
    · rw [L.relKind] at b; cases b
    · rw [L.portKind] at b; cases b
  · intro x a b
    rcases lt' b (by simp) with hx | rfl | rfl
    · rw [L.kind x hx] at b
      rw [L.uuid x hx]
      exact n.uid x a b
    · rw [L.relKind] at b; cases b
    · rw [L.portKind] at b; cases b

/-- Attributes do not matter. -/
theorem Neat.attr {U : Bytes → Prop} {N : Nat} {h h' : Heap} (n : Neat U N h) (hz : h'.size = h.size)
    (hk : ∀ x, (h'.get x).kind = (h.get x).kind) (hp : ∀ x, (h'.get x).parent = (h.get x).parent)
    (he : ∀ x, (h'.get x).endpoint = (h.get x).endpoint) (hs : ∀ x, h'.subelements x = h.subelements x)
    (hd : ∀ x, (h'.get x).depth = (h.get x).depth) (hu : ∀ x, (h'.get x).uuid = (h.get x).uuid) : Neat U N h' := by
  constructor
  · rw [hz]; exact n.size
  · simp only [hz, hk, hp]; exact n.par
  · simp only [hk, hp]; exact n.edge
  · simp only [hk, hp, he]; exact n.port
  · simp only [hk, hp, he]; exact n.rel
  · simp only [hk, hp]; exact n.nest
  · simp only [hs]; exact n.sorted
  · simp only [hk, hp, hd]; exact n.deep
  · simp only [hk, hu]; exact n.uid

/-! ## The reader is neat -/

/-- What the steps of the reader need to know about its memory. -/
structure Tame (E : Env) (U : Bytes → Prop) (h : Heap) (I : FileIcon) : Prop where
  fac : I.fac.clock ≠ none
  cog : I.cog.clock ≠ none
  cache : ∀ k x, I.cache.get? k = some x → x < h.size ∧ ((h.get x).kind = .node ∨ ∃ sk, (h.get x).kind = .semantic sk)
  plt : I.params < h.size
  pkind : (h.get I.params).kind = .node
  uid : ∀ a t, '/' ∈ a → U (uidOf E I.fac.name a t)

/-- Nothing goes away or changes its class, nodes keep their depth. -/
structure Grows (h h' : Heap) : Prop where
  size : h.size ≤ h'.size
  kind : ∀ x < h.size, (h'.get x).kind = (h.get x).kind
  depth : ∀ x < h.size, (h.get x).kind = .node → (h'.get x).depth = (h.get x).depth
  uuid : ∀ x < h.size, (h'.get x).uuid = (h.get x).uuid

theorem Grows.refl (h : Heap) : Grows h h := ⟨Nat.le_refl _, fun _ _ => rfl, fun _ _ _ => rfl, fun _ _ => rfl⟩

theorem Grows.trans {a b c : Heap} (p : Grows a b) (q : Grows b c) : Grows a c :=
  ⟨Nat.le_trans p.size q.size, fun x hx => (q.kind x (Nat.lt_of_lt_of_le hx p.size)).trans (p.kind x hx),
    fun x hx hk => (q.depth x (Nat.lt_of_lt_of_le hx p.size) (by rw [p.kind x hx, hk])).trans (p.depth x hx hk),
    fun x hx => (q.uuid x (Nat.lt_of_lt_of_le hx p.size)).trans (p.uuid x hx)⟩

theorem MadeIn.grows {c : Ref} {k : Kind} {nm : Str} {attrs : Dict Str AttrVal} {h h' : Heap}
    (M : MadeIn c k nm attrs h h') : Grows h h' := ⟨M.later.size, M.later.kind, fun x hx _ => M.depths x hx, M.uuids⟩

theorem Linked.grows {e m : Ref} {d : Dir} {sv w : Option Ref} {h h' : Heap} (L : Linked e m d sv h h' w)
    (hs : ∀ s, sv = some s → ∃ k, (h.get s).kind = .semantic k) : Grows h h' :=
  ⟨by have := L.size; omega, L.kind, fun x hx hk => L.depth x hx (fun e => by
    obtain ⟨k, q⟩ := hs x e; rw [hk] at q; cases q), L.uuid⟩

theorem Tame.grows {E : Env} {U : Bytes → Prop} {h h' : Heap} {I : FileIcon} (t : Tame E U h I) (g : Grows h h') : Tame E U h' I := by
  refine ⟨t.fac, t.cog, fun k x hx => ?_, Nat.lt_of_lt_of_le t.plt g.size, by rw [g.kind _ t.plt, t.pkind], t.uid⟩
  obtain ⟨a, b⟩ := t.cache k x hx
  rw [g.kind x a]
  exact ⟨Nat.lt_of_lt_of_le a g.size, b⟩

theorem Tame.remember {E : Env} {U : Bytes → Prop} {h : Heap} {I : FileIcon} (t : Tame E U h I) {x : Ref} {key : Str}
    (hk : (h.get x).kind = .node ∨ ∃ sk, (h.get x).kind = .semantic sk) (hx : x < h.size) :
    Tame E U h { I with cache := I.cache.set key x } := by
  refine ⟨t.fac, t.cog, fun k y hy => ?_, t.plt, t.pkind, t.uid⟩
  change (I.cache.set key x).get? k = some y at hy
  rw [Dict.get?_set] at hy
  split at hy
  · cases hy; exact ⟨hx, hk⟩
  · exact t.cache k y hy

/-- After a step: reachable, neat, and nothing gone. -/
structure After (E : Env) (U : Bytes → Prop) (N : Nat) (h h' : Heap) : Prop where
  reach : Reach E h'
  neat : Neat U N h'
  grows : Grows h h'

theorem After.trans {E : Env} {U : Bytes → Prop} {N : Nat} {a b c : Heap} (p : After E U N a b) (q : After E U N b c) : After E U N a c :=
  ⟨q.reach, q.neat, p.grows.trans q.grows⟩

section
variable {E : Env} {U : Bytes → Prop} {N : Nat} {h : Heap}

theorem After.refl (R : Reach E h) (n : Neat U N h) : After E U N h h := ⟨R, n, .refl h⟩

theorem yields_remember (I : FileIcon) (x : Ref) :
    Yields (I.remember x) h fun I' h' => h = h' ∧ I' = { I with cache := I.cache.set (h.get x).qualName x } := by
  unfold FileIcon.remember
  refine Yields.obj.bind fun o h1 q => ?_
  obtain ⟨rfl, rfl⟩ := q
  exact .pure ⟨rfl, rfl⟩

theorem yields_cached {I : FileIcon} (t : Tame E U h I) (k : Str) : Yields (I.cached k) h fun c h' => h = h' ∧ c < h.size ∧
    ((h.get c).kind = .node ∨ ∃ sk, (h.get c).kind = .semantic sk) := by
  unfold FileIcon.cached
  split
  · exact .raise
  · next x hx => exact .pure ⟨rfl, t.cache _ _ hx⟩

theorem ok_kind {k : Kind} (hk : k = .node ∨ ∃ sk, k = .semantic sk) : k ≠ .relation ∧ k ≠ .port ∧ k ≠ .value := by
  rcases hk with rfl | ⟨_, rfl⟩ <;> simp

theorem generateNode_uid (R : Reach E h) {F : Factory} (hF : F.clock ≠ none) (nm : Str) {p : Option Ref}
    (hp : ∀ c, p = some c → c < h.size ∧ (h.get c).kind ≠ .relation) :
    Yields (F.generateNode E nm p) h fun x h' => (h'.get x).uuid = F.uid E (h.newPath nm p) h := by
  intro x h' e
  rcases generateNode_cases R hF (p := p) (fun c hc => (hp c hc).1) (fun c hc => (hp c hc).2) nm with
      ⟨_, _, _, _, e', _⟩ | ⟨_, _, e', C, _⟩
  · rw [e] at e'; cases e'
  · rw [e] at e'; cases e'
    exact C.uuidN

theorem yields_node (R : Reach E h) (n : Neat U N h) {F : Factory} (hF : F.clock ≠ none)
    (hU : ∀ a t, '/' ∈ a → U (uidOf E F.name a t)) (nm : Str) {c : Ref}
    (hc : c < h.size) (hk : (h.get c).kind = .node ∨ ∃ sk, (h.get c).kind = .semantic sk) :
    Yields (F.generateNode E nm (some c)) h fun x h' => After E U N h h' ∧ x = h.size ∧ x < h'.size ∧ (h'.get x).kind = .node := by
  obtain ⟨k1, k2, k3⟩ := ok_kind hk
  intro x h' e
  obtain ⟨R', rfl, M⟩ := (node_does R hF nm hc k1).yields x h' e
  have u := generateNode_uid R hF nm (by rintro _ ⟨⟩; exact ⟨hc, k1⟩) _ h' e
  refine ⟨⟨R', M.neat R.good.inv R'.good.inv n hc (by simp) (by simp) k2 k3 (by simp) (fun _ => ?_), M.grows⟩, rfl, by rw [M.size]; omega,
    M.kind⟩
  rw [u]
  exact hU _ _ (by simp [Heap.newPath, Str.join_cons_cons])

theorem yields_sem (R : Reach E h) (n : Neat U N h) {F : Factory} (hF : F.clock ≠ none) (raw nm : Str) {c : Ref}
    (hc : c < h.size) (hk : (h.get c).kind = .node ∨ ∃ sk, (h.get c).kind = .semantic sk) (attr : Dict Str AttrVal)
    (vs : Option AttrVal) :
    Yields (F.generateSemantic E raw nm c attr vs) h fun x h' => After E U N h h' ∧ x = h.size ∧ x < h'.size ∧
      (∃ k, (h'.get x).kind = .semantic k) ∧ (h'.get x).parent = some c ∧ ∀ y < h.size, (h'.get y).parent = (h.get y).parent := by
  obtain ⟨k1, k2, k3⟩ := ok_kind hk
  refine (sem_does R hF raw nm hc k1 attr vs).yields.mono fun x h' q => ?_
  obtain ⟨R', rfl, k, _, M⟩ := q
  exact ⟨⟨R', M.neat R.good.inv R'.good.inv n hc (by simp) (by simp) k2 k3 (by simp) (by simp), M.grows⟩, rfl, by rw [M.size]; omega,
    ⟨k, M.kind⟩, M.parent, M.later.parent⟩

theorem yields_edge (R : Reach E h) (n : Neat U N h) {F : Factory} (hF : F.clock ≠ none) (nm : Str) {c : Ref}
    (hc : c < h.size) (hk : (h.get c).kind = .node ∨ ∃ sk, (h.get c).kind = .semantic sk) :
    Yields (F.createHyperedge E c nm) h fun x h' => After E U N h h' ∧ x = h.size ∧ h'.size = h.size + 1 ∧
      (h'.get x).kind = .edge ∧ (h'.get x).parent = some c ∧ (h.get c).kind = .node ∧
      ∀ y < h.size, (h'.get y).parent = (h.get y).parent := by
  rcases hk with hk | ⟨sk, hk⟩
  · refine (edge_does R hF nm hc hk).yields.mono fun x h' q => ?_
    obtain ⟨R', rfl, M⟩ := q
    exact ⟨⟨R', M.neat R.good.inv R'.good.inv n hc (by simp) (by simp) (by rw [hk]; simp) (by rw [hk]; simp) (fun _ => hk) (by simp),
      M.grows⟩, rfl, M.size, M.kind, M.parent, hk, M.later.parent⟩
  · intro a h' e
    unfold Factory.createHyperedge at e
    obtain ⟨r1, hu, -⟩ := F.generateUid_run (E := E) hF nm h
    obtain ⟨r2, t, hs, -⟩ := stampedIn_run (E := E) hF nm c { h with reads := r1 }
    rw [bind_ok hu, bind_ok hs, obj_bind_run, if_neg] at e
    · cases e
    · change ¬ (h.get c).kind.isConceptual = true
      rw [hk]; simp [Kind.isConceptual]

theorem yields_attr (R : Reach E h) (n : Neat U N h) {s : Ref} {k : SemKind} (hs : (h.get s).kind = .semantic k) (key : Str)
    (a : AttrVal) : Yields (addNamedAttribute s key a) h fun _ h' => After E U N h h' ∧ h'.size = h.size ∧
      ∀ y, (h'.get y).parent = (h.get y).parent := by
  obtain ⟨h', e, R', _, a2, _, _, a5, a6, _, _, a9, a10, a11, a12⟩ := attr_step R hs key a
  intro _ h'' e'
  rw [e] at e'
  cases e'
  refine ⟨⟨R', n.attr a2 a6 a9 (fun x => ?_) a10 a11 a12, by rw [a2], fun x _ => a6 x, fun x _ _ => a11 x, fun x _ => a12 x⟩, a2, a9⟩
  by_cases hx : x = s
  · subst hx
    unfold addNamedAttribute at e
    cases e
    simp
  · rw [a5 x hx]

theorem yields_pose {I : FileIcon} (R : Reach E h) (n : Neat U N h) (t : Tame E U h I) (p : Option Pose) {el : Ref}
    (hk : ∃ k, (h.get el).kind = .semantic k) :
    Yields (I.poseElement E p el) h fun a h' => After E U N h h' ∧ Tame E U h' a.1 ∧
      (∀ v, a.2 = some v → v < h'.size) ∧ ∀ y < h.size, (h'.get y).parent = (h.get y).parent := by
  have hlt : el < h.size := R.good.inv.lt_of_kind (by obtain ⟨k, hk⟩ := hk; rw [hk]; simp)
  unfold FileIcon.poseElement
  cases p with
  | none => exact .pure ⟨.refl R n, t, by rintro _ ⟨⟩, fun _ _ => rfl⟩
  | some p =>
    refine Yields.heap.bind fun _ h1 q => ?_
    obtain ⟨rfl, rfl⟩ := q
    refine Yields.liftE.bind fun v h1 q => ?_
    obtain ⟨rfl, -⟩ := q
    refine Yields.obj.bind fun o h1 q => ?_
    obtain ⟨rfl, rfl⟩ := q
    refine (yields_sem R n t.cog _ _ hlt (.inr hk) _ _).bind fun s h1 q => ?_
    obtain ⟨A, rfl, a, b, c, d⟩ := q
    refine (yields_remember _ _).bind fun I1 h2 q => ?_
    obtain ⟨rfl, rfl⟩ := q
    exact .pure ⟨A, (t.grows A.grows).remember (.inr b) a, by rintro _ ⟨⟩; exact a, d⟩

theorem yields_reference {I : FileIcon} (R : Reach E h) (n : Neat U N h) (t : Tame E U h I) (names : List Str) {g : Ref}
    (hg : g < h.size) (id : Str) : Yields (I.addReference E names g id) h fun I' h' => After E U N h h' ∧ Tame E U h' I' := by
  unfold FileIcon.addReference
  refine (yields_cached t _).bind fun c h1 q => ?_
  obtain ⟨rfl, hc, hck⟩ := q
  split
  · exact .raise
  · next T hT =>
    split
    · exact .pure ⟨.refl R n, t⟩
    · refine Yields.obj.bind fun o h1 q => ?_
      obtain ⟨rfl, rfl⟩ := q
      refine (yields_edge R n t.fac _ hc hck).bind fun e h1 q => ?_
      obtain ⟨A, rfl, sz, ek, -⟩ := q
      obtain ⟨hTl, -⟩ := t.cache _ _ hT
      have inv1 := A.reach.good.inv
      have nsz := n.size
      refine ((connect_does A.reach .outwards (n := T) (by omega) ek (by omega)
        (by rintro s ⟨⟩)).void).yields.bind fun _ h2 q => ?_
      obtain ⟨R2, _, -, L1⟩ := q
      have n2 := L1.neat inv1 R2.good.inv A.neat (by omega) nsz ek (by omega) (by omega) (by rintro s ⟨⟩)
        (fun x hx => by have := inv1.lt_of_kind (x := x) (by rw [hx]; simp); omega)
      have sz2 := L1.size
      have ek2 : (h2.get h.size).kind = .edge := by rw [L1.kind _ (by omega), ek]
      refine ((connect_does R2 .inwards (n := g) (by omega) ek2 (by omega)
        (by rintro s ⟨⟩)).void).yields.bind fun _ h3 q => ?_
      obtain ⟨R3, _, -, L2⟩ := q
      have n3 := L2.neat R2.good.inv R3.good.inv n2 (by omega) nsz ek2 (by omega) (by omega) (by rintro s ⟨⟩)
        (fun x hx => by
          have := R2.good.inv.lt_of_kind (x := x) (by rw [hx]; simp)
          by_cases q1 : x = h1.size
          · subst q1; rw [L1.relKind] at hx; cases hx
          · by_cases q2 : x = h1.size + 1
            · subst q2; rw [L1.portKind] at hx; cases hx
            · omega)
      have G := (A.grows.trans (L1.grows (by rintro s ⟨⟩))).trans (L2.grows (by rintro s ⟨⟩))
      have t' := t.grows G
      exact .pure ⟨⟨R3, n3, G⟩, ⟨t'.fac, t'.cog, t'.cache, t'.plt, t'.pkind, t'.uid⟩⟩

theorem yields_geometry {I : FileIcon} (R : Reach E h) (n : Neat U N h) (t : Tame E U h I) (names : List Str) {x : Ref}
    (hx : x < h.size) (hk : (h.get x).kind = .node) (G : Geom) :
    Yields (I.geometry E names x G) h fun I' h' => After E U N h h' ∧ Tame E U h' I' := by
  unfold FileIcon.geometry
  refine Yields.obj.bind fun o h1 q => ?_
  obtain ⟨rfl, rfl⟩ := q
  refine (yields_node R n t.fac t.uid _ hx (.inl hk)).bind fun g h1 q => ?_
  obtain ⟨A, -, hg, hgk⟩ := q
  have t1 := t.grows A.grows
  suffices H : ∀ nm, Yields (I.geomBody E names g nm G) h1 fun I' h' => After E U N h1 h' ∧ Tame E U h' I' by
    refine (H _).bind fun I1 h2 q => ?_
    obtain ⟨B, t2⟩ := q
    refine (yields_remember _ _).mono fun I2 h3 q => ?_
    obtain ⟨rfl, rfl⟩ := q
    exact ⟨A.trans B, t2.remember (.inl (by rw [B.grows.kind g hg, hgk])) (Nat.lt_of_lt_of_le hg B.grows.size)⟩
  intro nm
  unfold FileIcon.geomBody
  split
  · exact yields_reference A.reach A.neat t1 names hg _
  · refine Yields.heap.bind fun _ h2 q => ?_
    obtain ⟨rfl, rfl⟩ := q
    refine Yields.liftE.bind fun v h2 q => ?_
    obtain ⟨rfl, -⟩ := q
    refine (yields_sem A.reach A.neat t1.cog _ _ hg (.inl hgk) _ _).bind fun s h2 q => ?_
    obtain ⟨B, -, a, b, c, d⟩ := q
    refine (yields_remember _ _).mono fun I2 h3 q => ?_
    obtain ⟨rfl, rfl⟩ := q
    exact ⟨B, (t1.grows B.grows).remember (.inr b) a⟩

theorem yields_solid {I : FileIcon} (R : Reach E h) (n : Neat U N h) (t : Tame E U h I) (path : List Str) (s : SolidDecl) :
    Yields (I.visitSolid E path s) h fun I' h' => After E U N h h' ∧ Tame E U h' I' := by
  unfold FileIcon.visitSolid
  refine (yields_cached t _).bind fun c h1 q => ?_
  obtain ⟨rfl, hc, hck⟩ := q
  refine (yields_node R n t.fac t.uid _ hc hck).bind fun x h1 q => ?_
  obtain ⟨A, -, hx, hxk⟩ := q
  refine (yields_remember _ _).bind fun I1 h2 q => ?_
  obtain ⟨rfl, rfl⟩ := q
  have t1 := (t.grows A.grows).remember (key := (h1.get x).qualName) (.inl hxk) hx
  refine (yields_geometry A.reach A.neat t1 _ hx hxk _).bind fun I2 h2 q => ?_
  obtain ⟨B, t2⟩ := q
  split
  · unfold FileIcon.material
    refine Yields.obj.bind fun o h3 q => ?_
    obtain ⟨rfl, rfl⟩ := q
    refine (yields_sem B.reach B.neat t2.cog _ _ (Nat.lt_of_lt_of_le hx B.grows.size)
      (.inl (by rw [B.grows.kind x hx, hxk])) _ _).bind fun m h3 q => ?_
    obtain ⟨C, -, a, b, -⟩ := q
    refine (yields_remember _ _).mono fun I2 h4 q => ?_
    obtain ⟨rfl, rfl⟩ := q
    exact ⟨(A.trans B).trans C, (t2.grows C.grows).remember (.inr b) a⟩
  · exact .pure ⟨A.trans B, t2⟩

theorem yields_solids (path : List Str) : ∀ (ss : List SolidDecl) {h : Heap} {I : FileIcon}, Reach E h → Neat U N h →
    Tame E U h I → Yields (FileIcon.visitSolids E path I ss) h fun I' h' => After E U N h h' ∧ Tame E U h' I'
  | [], _, _, R, n, t => .pure ⟨.refl R n, t⟩
  | s :: ss, _, _, R, n, t => (yields_solid R n t path s).bind fun _ _ q =>
      (yields_solids path ss q.1.reach q.1.neat q.2).mono fun _ _ q' => ⟨q.1.trans q'.1, q'.2⟩

theorem yields_inertia {I : FileIcon} (R : Reach E h) (n : Neat U N h) (t : Tame E U h I) (path : List Str) (m : Rat) :
    Yields (I.visitInertia E path m) h fun _ h' => After E U N h h' := by
  unfold FileIcon.visitInertia
  refine (yields_cached t _).bind fun c h1 q => ?_
  obtain ⟨rfl, hc, hck⟩ := q
  exact ((yields_sem R n t.cog _ _ hc hck _ _).void).mono fun _ _ q => by obtain ⟨_, q, -⟩ := q; exact q

theorem yields_link {I : FileIcon} (R : Reach E h) (n : Neat U N h) (t : Tame E U h I) (path : List Str) (l : LinkDecl) :
    Yields (I.visitLink E path l) h fun I' h' => After E U N h h' ∧ Tame E U h' I' := by
  unfold FileIcon.visitLink
  refine (yields_cached t _).bind fun c h1 q => ?_
  obtain ⟨rfl, hc, hck⟩ := q
  refine (yields_node R n t.fac t.uid _ hc hck).bind fun x h1 q => ?_
  obtain ⟨A, -, hx, hxk⟩ := q
  have t1 := t.grows A.grows
  refine (yields_sem A.reach A.neat t1.cog _ _ hx (.inl hxk) _ _).bind fun sv h2 q => ?_
  obtain ⟨B, -, hs, hsk, -⟩ := q
  have t2 := t1.grows B.grows
  refine (yields_pose B.reach B.neat t2 _ hsk).bind fun r h3 q => ?_
  obtain ⟨C, t3, -, -⟩ := q
  obtain ⟨k, hsk⟩ := hsk
  have ha : Yields (setPoseAttr sv r.2) h3 fun _ h' => After E U N h3 h' := by
    unfold setPoseAttr
    split
    · exact .pure (.refl C.reach C.neat)
    · exact (yields_attr C.reach C.neat (k := k) (by rw [C.grows.kind sv hs, hsk]) _ _).mono fun _ _ q => q.1
  refine ha.bind fun _ h4 D => ?_
  have G := (B.grows.trans C.grows).trans D.grows
  refine (yields_remember _ _).bind fun I2 h5 q => ?_
  obtain ⟨rfl, rfl⟩ := q
  have t4 := (t3.grows D.grows).remember (x := x) (key := (h4.get x).qualName) (.inl (by rw [G.kind x hx, hxk]))
    (Nat.lt_of_lt_of_le hx G.size)
  have base := ((A.trans B).trans C).trans D
  unfold FileIcon.visitLinkBody
  split
  · exact .pure ⟨base, t4⟩
  · refine (yields_inertia D.reach D.neat t4 _ _).bind fun _ h5 F => ?_
    exact (yields_solids _ _ F.reach F.neat (t4.grows F.grows)).mono fun _ _ q => ⟨(base.trans F).trans q.1, q.2⟩

/-- A link of a joint before its connection: the target, and the semantic element in `c`. -/
structure Loose (h : Heap) (c : Ref) (l : Link) : Prop where
  node : l.node < h.size
  weight : ∀ v, l.weight = some v → v < h.size
  sem : ∃ s, l.sem = some s ∧ s < h.size ∧ (∃ k, (h.get s).kind = .semantic k) ∧ (h.get s).parent = some c

theorem Loose.grows {h h' : Heap} {c : Ref} {l : Link} (a : Loose h c l) (g : Grows h h')
    (hp : ∀ y < h.size, (h'.get y).parent = (h.get y).parent) : Loose h' c l := by
  obtain ⟨s, b1, b2, ⟨k, b3⟩, b4⟩ := a.sem
  exact ⟨Nat.lt_of_lt_of_le a.node g.size, fun v hv => Nat.lt_of_lt_of_le (a.weight v hv) g.size, s, b1, Nat.lt_of_lt_of_le b2 g.size, ⟨k, by rw [g.kind s b2, b3]⟩,
    by rw [hp s b2, b4]⟩

theorem yields_endpoint {I : FileIcon} (R : Reach E h) (t : Tame E U h I) (c : Ref) (ref : Str) :
    Yields (I.endpoint c ref) h fun x h' => h = h' ∧ x < h.size := by
  unfold FileIcon.endpoint
  split
  · exact (yields_cached t _).mono fun x h' q => ⟨q.1, q.2.1⟩
  · refine Yields.heap.bind fun _ h1 q => ?_
    obtain ⟨rfl, rfl⟩ := q
    refine Yields.liftE.bind fun l h1 q => ?_
    obtain ⟨rfl, hl⟩ := q
    split
    · exact .raise
    · exact .pure ⟨rfl, lookup_lt R.good.inv _ _ _ hl _ (by simp)⟩

theorem yields_jointRel {I : FileIcon} (R : Reach E h) (n : Neat U N h) (t : Tame E U h I) {c : Ref} (hc : c < h.size)
    (hck : (h.get c).kind = .node ∨ ∃ sk, (h.get c).kind = .semantic sk) (nm : Str) (r : JointRel) :
    Yields (I.jointRel E c nm r) h fun a h' => After E U N h h' ∧ Tame E U h' a.1 ∧ Loose h' c a.2 ∧ a.2.sem = some h.size ∧
      ∀ y < h.size, (h'.get y).parent = (h.get y).parent := by
  unfold FileIcon.jointRel
  refine (yields_endpoint R t c _).bind fun x h1 q => ?_
  obtain ⟨rfl, hx⟩ := q
  refine Yields.liftE.bind fun d h1 q => ?_
  obtain ⟨rfl, -⟩ := q
  refine (yields_sem R n t.cog _ _ hc hck _ _).bind fun sv h1 q => ?_
  obtain ⟨A, rfl, hs, ⟨k, hk⟩, hp, hq⟩ := q
  have ha : Yields (I.setAxis h.size r.axis) h1 fun _ h' => After E U N h1 h' ∧ ∀ y, (h'.get y).parent = (h1.get y).parent := by
    unfold FileIcon.setAxis
    split
    · exact .pure ⟨.refl A.reach A.neat, fun _ => rfl⟩
    · refine Yields.heap.bind fun _ h2 q => ?_
      obtain ⟨rfl, rfl⟩ := q
      refine Yields.liftE.bind fun v h2 q => ?_
      obtain ⟨rfl, -⟩ := q
      exact (yields_attr A.reach A.neat hk _ _).mono fun _ _ q => ⟨q.1, q.2.2⟩
  refine ha.bind fun _ h2 q => ?_
  obtain ⟨B, hb⟩ := q
  have AB := A.trans B
  refine (yields_pose B.reach B.neat (t.grows AB.grows) _ ⟨k, by rw [B.grows.kind _ hs, hk]⟩).bind fun p h3 q => ?_
  obtain ⟨C, t3, hw, hd⟩ := q
  have s1 := A.grows.size
  have s2 := B.grows.size
  have s3 := C.grows.size
  refine .pure ⟨AB.trans C, t3, ⟨show x < h3.size by omega, hw, h.size, rfl, by omega, ⟨k, ?_⟩, ?_⟩, rfl, fun y hy => ?_⟩
  · rw [C.grows.kind _ (by omega), B.grows.kind _ hs, hk]
  · rw [hd _ (by omega), hb, hp]
  · rw [hd y (by omega), hb, hq y hy]

theorem yields_jointRels {c : Ref} (nm : Str) : ∀ (rs : List JointRel) {h : Heap} {I : FileIcon}, Reach E h → Neat U N h →
    Tame E U h I → c < h.size → ((h.get c).kind = .node ∨ ∃ sk, (h.get c).kind = .semantic sk) →
    Yields (FileIcon.jointRels E c nm I rs) h fun a h' => After E U N h h' ∧ Tame E U h' a.1 ∧ (∀ l ∈ a.2, Loose h' c l) ∧
      (∀ l ∈ a.2, ∀ s, l.sem = some s → h.size ≤ s) ∧ a.2.Pairwise (fun l l' => l.sem ≠ l'.sem) ∧
      ∀ y < h.size, (h'.get y).parent = (h.get y).parent
  | [], _, _, R, n, t, hc, hk => .pure ⟨.refl R n, t, by simp, by simp, .nil, fun _ _ => rfl⟩
  | r :: rs, h, I, R, n, t, hc, hk => by
    refine (yields_jointRel R n t hc hk nm r).bind fun a h1 q => ?_
    obtain ⟨A, t1, l1, e1, p1⟩ := q
    have s1 : h.size < h1.size := by
      obtain ⟨s, a, b, -⟩ := l1.sem
      rw [e1] at a; cases a; exact b
    refine (yields_jointRels nm rs A.reach A.neat t1 (Nat.lt_trans hc s1) (by rw [A.grows.kind c hc]; exact hk)).bind
      fun b h2 q => ?_
    obtain ⟨B, t2, l2, f2, w2, p2⟩ := q
    refine .pure ⟨A.trans B, t2, ?_, ?_, List.pairwise_cons.2 ⟨?_, w2⟩, ?_⟩
    · intro l hl
      rcases List.mem_cons.1 hl with rfl | hl
      · exact l1.grows B.grows p2
      · exact l2 l hl
    · intro l hl s hs
      rcases List.mem_cons.1 hl with rfl | hl
      · rw [e1] at hs; cases hs; exact Nat.le_refl _
      · have := f2 l hl s hs; omega
    · intro l hl e
      rw [e1] at e
      have := f2 l hl _ e.symm
      omega
    · intro y hy
      rw [p2 y (by omega), p1 y hy]

theorem yields_connectAll {c e : Ref} (hN : N ≤ e) : ∀ (ls : List Link) {h : Heap}, Reach E h → Neat U N h → e < h.size →
    (h.get e).kind = .edge → (h.get e).parent = some c → (h.get c).kind = .node → (∀ x, (h.get x).kind = .edge → x ≤ e) →
    (∀ l ∈ ls, Loose h c l ∧ l.node < e) → ls.Pairwise (fun l l' => l.sem ≠ l'.sem) →
    Yields (connectAll E e ls) h fun _ h' => After E U N h h'
  | [], _, R, n, _, _, _, _, _, _, _ => .pure (.refl R n)
  | l :: ls, h, R, n, he, ek, ep, hck, last, hl, hw => by
    have inv := R.good.inv
    unfold connectAll
    rw [forEach_cons]
    obtain ⟨hln, w0, s, q1, q2, ⟨k, q3⟩, q4⟩ := (hl l (by simp)).1
    have hlt := (hl l (by simp)).2
    have mv : Movable h s := by
      intro p hp
      rw [q4] at hp; cases hp
      rw [hck]; simp
    have na : ¬ Anc h s e := by
      intro q
      have sc : s ≠ c := by rintro rfl; rw [hck] at q3; cases q3
      cases q with
      | direct hp => rw [ep] at hp; cases hp; exact sc rfl
      | up hp q =>
        rw [ep] at hp; cases hp
        exact inv.not_anc_self _ ((Anc.direct q4).trans q)
    rw [q1]
    refine ((connect_does R l.dir (n := l.node) he ek hln (sv := some s) (by
      rintro s' ⟨⟩; exact ⟨q2, ⟨k, q3⟩, na, mv⟩) w0).void).yields.bind fun _ h1 q => ?_
    obtain ⟨R1, _, -, L⟩ := q
    have n1 := L.neat inv R1.good.inv n he hN ek hln (by omega) (by rintro s' ⟨⟩; exact ⟨k, q3⟩) last
    have sz := L.size
    have es : some s ≠ some e := by
      intro e'; cases e'; rw [ek] at q3; cases q3
    have hcl : c < h.size := inv.parent_lt ep
    refine (yields_connectAll hN ls R1 n1 (by omega) (by rw [L.kind e he, ek]) (by rw [L.parent e he es, ep])
      (by rw [L.kind c hcl, hck]) ?_ ?_ (List.pairwise_cons.1 hw).2).mono fun _ h2 A =>
        (After.mk R1 n1 (L.grows (by rintro s' ⟨⟩; exact ⟨k, q3⟩))).trans A
    · intro x hx
      have := R1.good.inv.lt_of_kind (x := x) (by rw [hx]; simp)
      by_cases q1 : x = h.size
      · subst q1; rw [L.relKind] at hx; cases hx
      · by_cases q2 : x = h.size + 1
        · subst q2; rw [L.portKind] at hx; cases hx
        · rw [L.kind x (by omega)] at hx
          exact last x hx
    · intro l' hl'
      obtain ⟨⟨hln, w0', s', p1, p2, ⟨k', p3⟩, p4⟩, b⟩ := hl l' (by simp [hl'])
      have ne : some s ≠ some s' := by
        have := (List.pairwise_cons.1 hw).1 l' hl'
        rw [q1, p1] at this; exact this
      exact ⟨⟨by omega, fun v hv => by have := w0' v hv; omega, s', p1, by omega, ⟨k', by rw [L.kind s' p2, p3]⟩, by rw [L.parent s' p2 ne, p4]⟩, b⟩

theorem yields_joint {I : FileIcon} (R : Reach E h) (n : Neat U N h) (t : Tame E U h I) (path : List Str) (j : JointDecl) :
    Yields (I.visitJoint E path j) h fun I' h' => After E U N h h' ∧ Tame E U h' I' := by
  unfold FileIcon.visitJoint
  refine (yields_cached t _).bind fun c h1 q => ?_
  obtain ⟨rfl, hc, hck⟩ := q
  refine (yields_jointRels _ _ R n t hc hck).bind fun a h1 q => ?_
  obtain ⟨A, t1, l1, -, w1, -⟩ := q
  have s1 := A.grows.size
  suffices H : Yields (a.1.fac.connectTuples E c j.name a.2) h1 fun _ h' => After E U N h1 h' by
    refine (H.void).bind fun _ h2 q => ?_
    obtain ⟨_, B⟩ := q
    exact .pure ⟨A.trans B, t1.grows B.grows⟩
  unfold Factory.connectTuples
  refine (yields_edge A.reach A.neat t1.fac _ (Nat.lt_of_lt_of_le hc s1) (by rw [A.grows.kind c hc]; exact hck)).bind
    fun e h2 q => ?_
  obtain ⟨B, rfl, sz, ek, ep, hcn, pp⟩ := q
  have inv2 := B.reach.good.inv
  refine (yields_connectAll (c := c) A.neat.size _ B.reach B.neat (by omega) ek ep
    (by rw [B.grows.kind c (Nat.lt_of_lt_of_le hc s1), hcn])
    (fun x hx => by have := inv2.lt_of_kind (x := x) (by rw [hx]; simp); omega)
    (fun l hl => ⟨(l1 l hl).grows B.grows pp, (l1 l hl).node⟩) w1).bind fun _ h3 C => ?_
  exact .pure (B.trans C)

theorem yields_params {I : FileIcon} (path : List Str) : ∀ (qs : Params) {h : Heap}, Reach E h → Neat U N h → Tame E U h I →
    Yields (forEach qs fun p => I.visitParam E path p) h fun _ h' => After E U N h h'
  | [], _, R, n, _ => .pure (.refl R n)
  | q :: qs, h, R, n, t => by
    rw [forEach_cons]
    have H : Yields (I.visitParam E path q) h fun _ h' => After E U N h h' := by
      unfold FileIcon.visitParam
      refine (yields_cached t _).bind fun c h1 z => ?_
      obtain ⟨rfl, -⟩ := z
      split
      · refine ((value_does R t.fac q.1 t.plt (by rw [t.pkind]; simp) [q.2]).void).yields.mono fun _ h1 z => ?_
        obtain ⟨R1, _, rfl, M, -⟩ := z
        exact ⟨R1, M.neat R.good.inv R1.good.inv n t.plt (by simp) (by simp) (by rw [t.pkind]; simp)
          (by rw [t.pkind]; simp) (by simp) (by simp), M.grows⟩
      · exact .pure (.refl R n)
    exact H.bind fun _ h1 A => (yields_params path qs A.reach A.neat (t.grows A.grows)).mono fun _ _ B => A.trans B

theorem yields_visitNode {I : FileIcon} (R : Reach E h) (n : Neat U N h) (t : Tame E U h I) (path : List Str) (nm : Str) :
    Yields (I.visitNode E path nm) h fun I' h' => After E U N h h' ∧ Tame E U h' I' := by
  unfold FileIcon.visitNode
  refine (yields_cached t _).bind fun c h1 q => ?_
  obtain ⟨rfl, hc, hck⟩ := q
  refine (yields_node R n t.fac t.uid _ hc hck).bind fun x h1 q => ?_
  obtain ⟨A, -, hx, hxk⟩ := q
  refine (yields_remember _ _).mono fun I1 h2 q => ?_
  obtain ⟨rfl, rfl⟩ := q
  exact ⟨A, (t.grows A.grows).remember (.inl hxk) hx⟩

theorem yields_visitKinematic {I : FileIcon} (R : Reach E h) (n : Neat U N h) (t : Tame E U h I) (path : List Str) (nm : Str) :
    Yields (I.visitKinematic E path nm) h fun I' h' => After E U N h h' ∧ Tame E U h' I' := by
  unfold FileIcon.visitKinematic
  refine (yields_cached t _).bind fun c h1 q => ?_
  obtain ⟨rfl, hc, hck⟩ := q
  refine (yields_node R n t.fac t.uid _ hc hck).bind fun x h1 q => ?_
  obtain ⟨A, -, hx, hxk⟩ := q
  refine ((yields_sem A.reach A.neat t.cog _ _ hx (.inl hxk) _ _).void).bind fun _ h2 q => ?_
  obtain ⟨_, B, -⟩ := q
  refine (yields_remember _ _).mono fun I1 h2 q => ?_
  obtain ⟨rfl, rfl⟩ := q
  exact ⟨A.trans B, (t.grows (A.trans B).grows).remember (.inl (by rw [B.grows.kind x hx, hxk]))
    (Nat.lt_of_lt_of_le hx B.grows.size)⟩

theorem yields_items (its : Items) : ∀ (path : List Str) {h : Heap} {I : FileIcon}, Reach E h → Neat U N h → Tame E U h I →
    Yields (FileIcon.visitItems E path I its) h fun I' h' => After E U N h h' ∧ Tame E U h' I' := by
  have two : ∀ {m : PyM FileIcon} {f : FileIcon → PyM FileIcon} {h : Heap},
      Yields m h (fun I' h' => After E U N h h' ∧ Tame E U h' I') →
      (∀ {h1 I1}, Reach E h1 → Neat U N h1 → Tame E U h1 I1 → Yields (f I1) h1 fun I' h' => After E U N h1 h' ∧ Tame E U h' I') →
      Yields (m >>= f) h fun I' h' => After E U N h h' ∧ Tame E U h' I' := by
    intro m f h a b
    exact a.bind fun _ _ q => (b q.1.reach q.1.neat q.2).mono fun _ _ q' => ⟨q.1.trans q'.1, q'.2⟩
  induction its with
  | nil => intro path h I R n t; exact .pure ⟨.refl R n, t⟩
  | kinematic nm body rest ih1 ih2 =>
    intro path h I R n t
    exact two (yields_visitKinematic R n t path nm) fun R n t => two (ih1 _ R n t) fun R n t => ih2 _ R n t
  | ambient nm body rest ih1 ih2 =>
    intro path h I R n t
    exact two (yields_visitNode R n t path nm) fun R n t => two (ih1 _ R n t) fun R n t => ih2 _ R n t
  | device nm rest ih => intro path h I R n t; exact two (yields_visitNode R n t path nm) fun R n t => ih _ R n t
  | link l rest ih => intro path h I R n t; exact two (yields_link R n t path l) fun R n t => ih _ R n t
  | joint j rest ih => intro path h I R n t; exact two (yields_joint R n t path j) fun R n t => ih _ R n t
  | params ps rest ih =>
    intro path h I R n t
    refine (yields_params path ps R n t).bind fun _ _ A => ?_
    exact (ih _ A.reach A.neat (t.grows A.grows)).mono fun _ _ q => ⟨A.trans q.1, q.2⟩
  | skipped rest ih => intro path h I R n t; exact ih _ R n t

end

theorem yields_newFileIcon {E : Env} {h : Heap} (R : Reach E h) (nm : Str) (ck : Clock) :
    Yields (newFileIcon E nm ck) h fun I h' => I.fac.name = "factory_".toList ++ nm ∧
      ∃ t, (h'.get h.size).uuid = uidOf E ("factory_".toList ++ nm) "world".toList t := by
  unfold newFileIcon
  refine Yields.bind (h := h) (Q := fun w h1 => Reach E h1 ∧ w = h.size ∧ MadeRoot "world".toList h h1 ∧
    (h1.get w).uuid = Factory.uid E { name := "factory_".toList ++ nm, clock := some ck } "world".toList h)
    (fun w h1 e => ?_) fun w h1 q => ?_
  · obtain ⟨R1, rfl, M⟩ := (root_does R (F := { name := "factory_".toList ++ nm, clock := some ck }) (by simp) _).yields _ _ e
    exact ⟨R1, rfl, M, generateNode_uid R (by simp) _ (by rintro _ ⟨⟩) _ _ e⟩
  · obtain ⟨R1, rfl, M, u⟩ := q
    refine (root_does R1 (F := { name := "factory_".toList ++ nm, clock := some ck }) (by simp) _).yields.bind fun p h2 q => ?_
    obtain ⟨-, rfl, M2⟩ := q
    refine .pure ⟨rfl, clockNow E (some ck) h, ?_⟩
    rw [M2.uuids _ (by have := M.size; omega), u]
    rfl

/-- The uuids of the nodes that a reader called `nm` makes in a container. -/
def InnerUid (E : Env) (nm : Str) (u : Bytes) : Prop := ∃ a t, '/' ∈ a ∧ u = uidOf E ("factory_".toList ++ nm) a t

/-- Reading a file leaves everything after its root neat. -/
theorem yields_readFile {E : Env} {h : Heap} (R : Reach E h) (nm : Str) (ck : Clock) (f : EntityDecl) :
    Yields (readFile E nm ck f) h fun _ h' => Neat (InnerUid E nm) (h.size + 3) h' ∧ (h'.get (h.size + 2)).depth = 0 ∧
      ∃ t, (h'.get h.size).uuid = uidOf E ("factory_".toList ++ nm) "world".toList t := by
  unfold readFile
  refine Yields.bind (Q := fun I h1 => _ ∧ _) (fun I h1 e => ⟨(newFileIcon_does R nm ck).yields I h1 e,
    yields_newFileIcon R nm ck I h1 e⟩) fun I h1 q => ?_
  obtain ⟨⟨R1, o, -, s1, -⟩, nmF, t0, ut⟩ := q
  unfold FileIcon.visit
  refine (root_does R1 o.ok.fac f.name).yields.bind fun x h2 q => ?_
  obtain ⟨R2, rfl, M⟩ := q
  have s2 := M.size
  have n2 : Neat (InnerUid E nm) (h.size + 3) h2 := by
    rw [show h.size + 3 = h2.size by omega]
    exact .start R2.good.inv
  have t1 : Tame E (InnerUid E nm) h1 I := ⟨o.ok.fac, o.ok.cog, fun k x hx => by
    obtain ⟨a, b⟩ := o.ok.cache k x hx
    exact ⟨a, b.imp (fun b => b.1) id⟩, o.ok.plt, o.ok.pkind, fun a t ha => ⟨a, t, ha, by rw [nmF]⟩⟩
  have t2 : Tame E (InnerUid E nm) h2 I := t1.grows ⟨M.later.size, M.later.kind, M.depths, M.uuids⟩
  have t2' : Tame E (InnerUid E nm) h2 { I with root := some h1.size } := ⟨t2.fac, t2.cog, t2.cache, t2.plt, t2.pkind, t2.uid⟩
  refine ((yields_sem R2 n2 (F := I.cog) t2.cog _ _ (by omega) (.inl M.kind) _ _).void).bind fun _ h3 q => ?_
  obtain ⟨_, A, -⟩ := q
  refine (yields_remember _ _).bind fun I2 h4 q => ?_
  obtain ⟨rfl, rfl⟩ := q
  have lt : h1.size < h2.size := by omega
  refine (yields_items _ _ A.reach A.neat ((t2'.grows A.grows).remember (.inl ?_) ?_)).mono fun _ _ q =>
    ⟨q.1.neat, by rw [show h.size + 2 = h1.size by omega, (A.grows.trans q.1.grows).depth _ lt M.kind, M.depth],
      t0, by rw [(A.grows.trans q.1.grows).uuid _ (by omega), M.uuids _ (by omega), ut]⟩
  · rw [A.grows.kind _ lt, M.kind]
  · exact Nat.lt_of_lt_of_le lt A.grows.size

end Rei
