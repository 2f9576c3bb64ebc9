import Verif.Lemmas.Frame

/-!
# The structural invariant of the containment hierarchy
-/
namespace Rei

/-- The part of an object that the containment invariant talks about. -/
structure SObj where
  kind : Kind
  uuid : Bytes
  idName : Str
  parent : Option Ref
  cid : Nat
  cnt : Int
  hist : Nat
  subs : Dict Bytes Ref
  index : Dict Str (Dict Bytes Ref)
  clocked : Bool

/-- Projection of an object. -/
def Obj.st (o : Obj) : SObj :=
  { kind := o.kind, uuid := o.uuid, idName := o.idName, parent := o.parent, cid := o.cid,
    cnt := o.cnt, hist := o.hist, subs := o.subs, index := o.index, clocked := o.clock.isSome }

/-- Projection of a heap. -/
def Heap.st (h : Heap) : Ref → SObj := fun y => (h.get y).st

/-- Pointwise update. -/
def upd (s : Ref → SObj) (x : Ref) (o : SObj) : Ref → SObj := fun y => if y = x then o else s y

/-- The invariant. -/
structure SInv (n : Nat) (s : Ref → SObj) : Prop where
  out : ∀ x, n ≤ x → s x = Obj.blank.st
  nodup : ∀ c, ((s c).subs.keys).Nodup
  mem : ∀ c u x, (u, x) ∈ (s c).subs ↔ (s x).parent = some c ∧ (s x).uuid = u
  index : ∀ c nm, ((s c).index.get? nm).getD [] =
    (s c).subs.filter (fun p => decide ((s p.2).idName = nm))
  cnt : ∀ c, (s c).cnt = (s c).subs.length
  cidLt : ∀ x c, (s x).parent = some c → (s x).cid < (s c).hist
  cidInj : ∀ x y c, (s x).parent = some c → (s y).parent = some c → (s x).cid = (s y).cid → x = y
  rank : ∃ rank : Ref → Nat, ∀ x p, (s x).parent = some p → rank p < rank x
  clock : ∀ x, x < n → (s x).kind.isConceptual = true → (s x).clocked = true

/-- The invariant of a heap. -/
def Inv (h : Heap) : Prop := SInv h.size h.st

/-- `a` is above `x` (on projections). -/
inductive SAnc (s : Ref → SObj) : Ref → Ref → Prop
  | direct {x p} : (s x).parent = some p → SAnc s p x
  | up {x p a} : (s x).parent = some p → SAnc s a p → SAnc s a x

theorem anc_iff (h : Heap) (a x : Ref) : Anc h a x ↔ SAnc h.st a x := by
  constructor
  · intro q
    induction q with
    | direct hp => exact .direct hp
    | up hp _ ih => exact .up hp ih
  · intro q
    induction q with
    | direct hp => exact .direct hp
    | up hp _ ih => exact .up hp ih

theorem SAnc.trans {s : Ref → SObj} {a b c : Ref} (p : SAnc s a b) (q : SAnc s b c) :
    SAnc s a c := by
  induction q with
  | direct hp => exact .up hp p
  | up hp _ ih => exact .up hp (ih p)

namespace SInv
variable {n : Nat} {s : Ref → SObj}

theorem lt_of_parent (I : SInv n s) {x c : Ref} (hp : (s x).parent = some c) : x < n := by
  apply Decidable.byContradiction
  intro hx
  rw [I.out x (Nat.le_of_not_lt hx)] at hp
  exact absurd hp (by simp [Obj.blank, Obj.st])

theorem parent_lt (I : SInv n s) {x c : Ref} (hp : (s x).parent = some c) : c < n := by
  apply Decidable.byContradiction
  intro hx
  have := (I.mem c (s x).uuid x).2 ⟨hp, rfl⟩
  rw [I.out c (Nat.le_of_not_lt hx)] at this
  simp [Obj.blank, Obj.st] at this

theorem rank_anc {rank : Ref → Nat} (hr : ∀ x p, (s x).parent = some p → rank p < rank x)
    {a x : Ref} (q : SAnc s a x) : rank a < rank x := by
  induction q with
  | direct hp => exact hr _ _ hp
  | up hp _ ih => exact Nat.lt_trans ih (hr _ _ hp)

theorem not_anc_self (I : SInv n s) (x : Ref) : ¬ SAnc s x x := by
  obtain ⟨rank, hr⟩ := I.rank
  intro q
  exact Nat.lt_irrefl _ (rank_anc hr q)

theorem parent_ne (I : SInv n s) {x c : Ref} (hp : (s x).parent = some c) : c ≠ x := by
  rintro rfl
  exact I.not_anc_self _ (.direct hp)

theorem get?_subs (I : SInv n s) (c : Ref) (u : Bytes) (x : Ref) :
    (s c).subs.get? u = some x ↔ (s x).parent = some c ∧ (s x).uuid = u := by
  rw [Dict.get?_iff_mem (I.nodup c), I.mem]

theorem mem_values (I : SInv n s) (c x : Ref) :
    x ∈ (s c).subs.values ↔ (s x).parent = some c := by
  unfold Dict.values
  rw [List.mem_map]
  constructor
  · rintro ⟨⟨u, y⟩, hm, rfl⟩
    exact ((I.mem c u y).1 hm).1
  · intro hp
    exact ⟨((s x).uuid, x), (I.mem _ _ _).2 ⟨hp, rfl⟩, rfl⟩

theorem values_nodup (I : SInv n s) (c : Ref) : ((s c).subs.values).Nodup := by
  have h1 := I.nodup c
  have h2 : ∀ p ∈ (s c).subs, p.1 = (s p.2).uuid := by
    rintro ⟨u, x⟩ hp
    exact ((I.mem c u x).1 hp).2.symm
  generalize (s c).subs = d at h1 h2
  induction d with
  | nil => exact List.nodup_nil
  | cons p d ih =>
    rw [Dict.keys_cons, List.nodup_cons] at h1
    rw [Dict.values_cons, List.nodup_cons]
    refine ⟨?_, ih h1.2 fun q hq => h2 q (List.mem_cons_of_mem _ hq)⟩
    intro hm
    unfold Dict.values at hm
    rw [List.mem_map] at hm
    obtain ⟨q, hq, hqe⟩ := hm
    apply h1.1
    rw [h2 p (List.mem_cons_self ..), ← hqe, ← h2 q (List.mem_cons_of_mem _ hq)]
    exact Dict.mem_keys_of_mem hq

end SInv

/-- Detaching `x` from `p` on projections. -/
def sDetach (s : Ref → SObj) (p x : Ref) : Ref → SObj :=
  upd (upd s p { s p with
    subs := (s p).subs.erase (s x).uuid
    index := (s p).index.set (s x).idName
      ((((s p).index.get? (s x).idName).getD []).erase (s x).uuid)
    cnt := (s p).cnt - 1 }) x { s x with parent := none }

/-- Attaching `x` to `c` on projections. -/
def sAttach (s : Ref → SObj) (c x : Ref) : Ref → SObj :=
  upd (upd s c { s c with
    subs := (s c).subs.set (s x).uuid x
    index := (s c).index.set (s x).idName
      ((((s c).index.get? (s x).idName).getD []).set (s x).uuid x)
    cnt := (s c).cnt + 1
    hist := (s c).hist + 1 }) x { s x with parent := some c, cid := (s c).hist }

section detach
variable {n : Nat} {s : Ref → SObj} {p x : Ref}

theorem sDetach_at (y : Ref) (_hpx : p ≠ x) : sDetach s p x y =
    if y = x then { s x with parent := none }
    else if y = p then { s p with
      subs := (s p).subs.erase (s x).uuid
      index := (s p).index.set (s x).idName
        ((((s p).index.get? (s x).idName).getD []).erase (s x).uuid)
      cnt := (s p).cnt - 1 }
    else s y := by
  unfold sDetach upd
  simp

theorem sDetach_idName (hpx : p ≠ x) (y : Ref) : (sDetach s p x y).idName = (s y).idName := by
  rw [sDetach_at y hpx]; split
  · subst_vars; rfl
  · split
    · subst_vars; rfl
    · rfl
theorem sDetach_uuid (hpx : p ≠ x) (y : Ref) : (sDetach s p x y).uuid = (s y).uuid := by
  rw [sDetach_at y hpx]; split
  · subst_vars; rfl
  · split
    · subst_vars; rfl
    · rfl
theorem sDetach_kind (hpx : p ≠ x) (y : Ref) : (sDetach s p x y).kind = (s y).kind := by
  rw [sDetach_at y hpx]; split
  · subst_vars; rfl
  · split
    · subst_vars; rfl
    · rfl
theorem sDetach_clocked (hpx : p ≠ x) (y : Ref) :
    (sDetach s p x y).clocked = (s y).clocked := by
  rw [sDetach_at y hpx]; split
  · subst_vars; rfl
  · split
    · subst_vars; rfl
    · rfl
theorem sDetach_hist (hpx : p ≠ x) (y : Ref) : (sDetach s p x y).hist = (s y).hist := by
  rw [sDetach_at y hpx]; split
  · subst_vars; rfl
  · split
    · subst_vars; rfl
    · rfl
theorem sDetach_cid (hpx : p ≠ x) (y : Ref) : (sDetach s p x y).cid = (s y).cid := by
  rw [sDetach_at y hpx]; split
  · subst_vars; rfl
  · split
    · subst_vars; rfl
    · rfl
theorem sDetach_parent (hpx : p ≠ x) (y : Ref) :
    (sDetach s p x y).parent = if y = x then none else (s y).parent := by
  rw [sDetach_at y hpx]; split
  · rfl
  · split
    · subst_vars; rfl
    · rfl
theorem sDetach_subs (hpx : p ≠ x) (y : Ref) :
    (sDetach s p x y).subs = if y = p then (s p).subs.erase (s x).uuid else (s y).subs := by
  rw [sDetach_at y hpx]
  by_cases h1 : y = x
  · subst h1; rw [if_pos rfl, if_neg (Ne.symm hpx)]
  · rw [if_neg h1]; split
    · rfl
    · rfl
theorem sDetach_cnt (hpx : p ≠ x) (y : Ref) :
    (sDetach s p x y).cnt = if y = p then (s p).cnt - 1 else (s y).cnt := by
  rw [sDetach_at y hpx]
  by_cases h1 : y = x
  · subst h1; rw [if_pos rfl, if_neg (Ne.symm hpx)]
  · rw [if_neg h1]; split
    · rfl
    · rfl
theorem sDetach_index (hpx : p ≠ x) (y : Ref) :
    (sDetach s p x y).index = if y = p then (s p).index.set (s x).idName
        ((((s p).index.get? (s x).idName).getD []).erase (s x).uuid) else (s y).index := by
  rw [sDetach_at y hpx]
  by_cases h1 : y = x
  · subst h1; rw [if_pos rfl, if_neg (Ne.symm hpx)]
  · rw [if_neg h1]; split
    · rfl
    · rfl

theorem erase_filter_comm (d : Dict Bytes Ref) (f : Bytes × Ref → Bool) (u : Bytes) :
    Dict.erase (d.filter f) u = (d.erase u).filter f := by
  unfold Dict.erase
  rw [List.filter_filter, List.filter_filter]
  apply List.filter_congr
  intro q _
  exact Bool.and_comm _ _

theorem erase_filter_of_ne {d : Dict Bytes Ref} {f : Bytes × Ref → Bool} {u : Bytes}
    (hf : ∀ q ∈ d, q.1 = u → f q = false) : (d.erase u).filter f = d.filter f := by
  unfold Dict.erase
  rw [List.filter_filter]
  apply List.filter_congr
  intro q hq
  by_cases h : q.1 = u
  · simp [hf q hq h]
  · simp [h]

theorem SInv.detach (I : SInv n s) (hp : (s x).parent = some p) : SInv n (sDetach s p x) := by
  have hpx : p ≠ x := I.parent_ne hp
  have hxn := I.lt_of_parent hp
  have hpn := I.parent_lt hp
  have hmem : ((s x).uuid, x) ∈ (s p).subs := (I.mem _ _ _).2 ⟨hp, rfl⟩
  refine { out := ?_, nodup := ?_, mem := ?_, index := ?_, cnt := ?_, cidLt := ?_, cidInj := ?_,
           rank := ?_, clock := ?_ }
  · intro y hy
    rw [sDetach_at y hpx, if_neg (by omega), if_neg (by omega)]
    exact I.out y hy
  · intro c
    rw [sDetach_subs hpx]
    split
    · exact Dict.nodup_erase _ (I.nodup p)
    · exact I.nodup c
  · intro c u y
    rw [sDetach_subs hpx, sDetach_parent hpx, sDetach_uuid hpx]
    split
    · next hc =>
      subst hc
      rw [Dict.mem_erase, I.mem]
      constructor
      · rintro ⟨⟨h1, h2⟩, h3⟩
        rw [if_neg]
        · exact ⟨h1, h2⟩
        · rintro rfl; exact h3 h2.symm
      · rintro ⟨h1, h2⟩
        by_cases hy : y = x
        · rw [if_pos hy] at h1; cases h1
        · rw [if_neg hy] at h1
          refine ⟨⟨h1, h2⟩, ?_⟩
          intro h3
          have ha := (I.get?_subs c u y).2 ⟨h1, h2⟩
          have hb := (I.get?_subs c u x).2 ⟨hp, h3.symm⟩
          rw [ha] at hb
          exact hy (Option.some.inj hb)
    · next hc =>
      rw [I.mem]
      by_cases hy : y = x
      · subst hy
        rw [if_pos rfl]
        constructor
        · rintro ⟨h1, _⟩
          rw [hp] at h1
          exact absurd (Option.some.inj h1).symm hc
        · rintro ⟨h1, _⟩; cases h1
      · rw [if_neg hy]
  · intro c nm
    have hidn : (fun q : Bytes × Ref => decide ((sDetach s p x q.2).idName = nm)) =
        fun q => decide ((s q.2).idName = nm) := by
      funext q; rw [sDetach_idName hpx]
    rw [hidn, sDetach_subs hpx, sDetach_index hpx]
    split
    · next hc =>
      subst hc
      rw [Dict.get?_set]
      by_cases hnm : nm = (s x).idName
      · rw [if_pos (by first | exact hnm | exact hnm.symm)]
        subst hnm
        rw [Option.getD_some, I.index, erase_filter_comm]
      · rw [if_neg (by first | exact hnm | exact fun h => hnm h.symm), I.index, erase_filter_of_ne]
        rintro ⟨u, y⟩ hq hu
        have hu' : u = (s x).uuid := hu
        have hb := (I.get?_subs c u x).2 ⟨hp, hu'.symm⟩
        have ha := (Dict.get?_iff_mem (I.nodup c)).2 hq
        rw [ha] at hb
        have := Option.some.inj hb
        subst this
        simp
        exact fun h => hnm h.symm
    · exact I.index c nm
  · intro c
    rw [sDetach_cnt hpx, sDetach_subs hpx]
    split
    · have hl := Dict.length_erase (I.nodup p) (Dict.mem_keys_of_mem hmem)
      rw [I.cnt p]
      simp only at hl
      have : 0 < (s p).subs.length := List.length_pos_of_mem hmem
      omega
    · exact I.cnt c
  · intro y c hy
    rw [sDetach_parent hpx] at hy
    rw [sDetach_cid hpx, sDetach_hist hpx]
    split at hy
    · cases hy
    · exact I.cidLt y c hy
  · intro y z c hy hz
    rw [sDetach_parent hpx] at hy hz
    rw [sDetach_cid hpx, sDetach_cid hpx]
    split at hy
    · cases hy
    · split at hz
      · cases hz
      · exact I.cidInj y z c hy hz
  · obtain ⟨rank, hr⟩ := I.rank
    refine ⟨rank, fun y q hy => ?_⟩
    rw [sDetach_parent hpx] at hy
    split at hy
    · cases hy
    · exact hr y q hy
  · intro y hy
    rw [sDetach_kind hpx, sDetach_clocked hpx]
    exact I.clock y hy

end detach

section attach
variable {n : Nat} {s : Ref → SObj} {c x : Ref}

theorem sAttach_at (y : Ref) (_hcx : c ≠ x) : sAttach s c x y =
    if y = x then { s x with parent := some c, cid := (s c).hist }
    else if y = c then { s c with
      subs := (s c).subs.set (s x).uuid x
      index := (s c).index.set (s x).idName
        ((((s c).index.get? (s x).idName).getD []).set (s x).uuid x)
      cnt := (s c).cnt + 1
      hist := (s c).hist + 1 }
    else s y := by
  unfold sAttach upd
  simp

theorem sAttach_idName (hcx : c ≠ x) (y : Ref) : (sAttach s c x y).idName = (s y).idName := by
  rw [sAttach_at y hcx]; split
  · subst_vars; rfl
  · split
    · subst_vars; rfl
    · rfl
theorem sAttach_uuid (hcx : c ≠ x) (y : Ref) : (sAttach s c x y).uuid = (s y).uuid := by
  rw [sAttach_at y hcx]; split
  · subst_vars; rfl
  · split
    · subst_vars; rfl
    · rfl
theorem sAttach_kind (hcx : c ≠ x) (y : Ref) : (sAttach s c x y).kind = (s y).kind := by
  rw [sAttach_at y hcx]; split
  · subst_vars; rfl
  · split
    · subst_vars; rfl
    · rfl
theorem sAttach_clocked (hcx : c ≠ x) (y : Ref) :
    (sAttach s c x y).clocked = (s y).clocked := by
  rw [sAttach_at y hcx]; split
  · subst_vars; rfl
  · split
    · subst_vars; rfl
    · rfl
theorem sAttach_hist (hcx : c ≠ x) (y : Ref) :
    (sAttach s c x y).hist = if y = c then (s c).hist + 1 else (s y).hist := by
  rw [sAttach_at y hcx]
  by_cases h1 : y = x
  · subst h1; rw [if_pos rfl, if_neg (Ne.symm hcx)]
  · rw [if_neg h1]; split
    · rfl
    · rfl
theorem sAttach_cid (hcx : c ≠ x) (y : Ref) :
    (sAttach s c x y).cid = if y = x then (s c).hist else (s y).cid := by
  rw [sAttach_at y hcx]; split
  · rfl
  · split
    · subst_vars; rfl
    · rfl
theorem sAttach_parent (hcx : c ≠ x) (y : Ref) :
    (sAttach s c x y).parent = if y = x then some c else (s y).parent := by
  rw [sAttach_at y hcx]; split
  · rfl
  · split
    · subst_vars; rfl
    · rfl
theorem sAttach_subs (hcx : c ≠ x) (y : Ref) :
    (sAttach s c x y).subs = if y = c then (s c).subs.set (s x).uuid x else (s y).subs := by
  rw [sAttach_at y hcx]
  by_cases h1 : y = x
  · subst h1; rw [if_pos rfl, if_neg (Ne.symm hcx)]
  · rw [if_neg h1]; split
    · rfl
    · rfl
theorem sAttach_cnt (hcx : c ≠ x) (y : Ref) :
    (sAttach s c x y).cnt = if y = c then (s c).cnt + 1 else (s y).cnt := by
  rw [sAttach_at y hcx]
  by_cases h1 : y = x
  · subst h1; rw [if_pos rfl, if_neg (Ne.symm hcx)]
  · rw [if_neg h1]; split
    · rfl
    · rfl
theorem sAttach_index (hcx : c ≠ x) (y : Ref) :
    (sAttach s c x y).index = if y = c then (s c).index.set (s x).idName
        ((((s c).index.get? (s x).idName).getD []).set (s x).uuid x) else (s y).index := by
  rw [sAttach_at y hcx]
  by_cases h1 : y = x
  · subst h1; rw [if_pos rfl, if_neg (Ne.symm hcx)]
  · rw [if_neg h1]; split
    · rfl
    · rfl

theorem SInv.attach (I : SInv n s) (hcn : c < n) (hxn : x < n) (hcx : c ≠ x)
    (hp : (s x).parent = none) (hu : (s x).uuid ∉ (s c).subs.keys) (ha : ¬ SAnc s x c) :
    SInv n (sAttach s c x) := by
  have hset : (s c).subs.set (s x).uuid x = (s c).subs ++ [((s x).uuid, x)] :=
    Dict.set_of_not_mem x hu
  refine { out := ?_, nodup := ?_, mem := ?_, index := ?_, cnt := ?_, cidLt := ?_, cidInj := ?_,
           rank := ?_, clock := ?_ }
  · intro y hy
    rw [sAttach_at y hcx, if_neg (by omega), if_neg (by omega)]
    exact I.out y hy
  · intro d
    rw [sAttach_subs hcx]
    split
    · exact Dict.nodup_set _ _ (I.nodup c)
    · exact I.nodup d
  · intro d u y
    rw [sAttach_subs hcx, sAttach_parent hcx, sAttach_uuid hcx]
    split
    · next hc =>
      subst hc
      rw [hset, List.mem_append, I.mem, List.mem_singleton]
      constructor
      · rintro (⟨h1, h2⟩ | h)
        · rw [if_neg]
          · exact ⟨h1, h2⟩
          · rintro rfl; rw [hp] at h1; cases h1
        · cases h; exact ⟨if_pos rfl, rfl⟩
      · rintro ⟨h1, h2⟩
        by_cases hy : y = x
        · subst hy; right; rw [h2]
        · left; rw [if_neg hy] at h1; exact ⟨h1, h2⟩
    · next hc =>
      rw [I.mem]
      by_cases hy : y = x
      · subst hy
        rw [if_pos rfl, hp]
        constructor
        · rintro ⟨h1, _⟩; cases h1
        · rintro ⟨h1, _⟩; exact absurd (Option.some.inj h1).symm hc
      · rw [if_neg hy]
  · intro d nm
    have hidn : (fun q : Bytes × Ref => decide ((sAttach s c x q.2).idName = nm)) =
        fun q => decide ((s q.2).idName = nm) := by
      funext q; rw [sAttach_idName hcx]
    rw [hidn, sAttach_subs hcx, sAttach_index hcx]
    split
    · next hc =>
      subst hc
      rw [Dict.get?_set, hset, List.filter_append]
      by_cases hnm : nm = (s x).idName
      · rw [if_pos (by first | exact hnm | exact hnm.symm)]
        subst hnm
        rw [Option.getD_some, I.index, Dict.set_of_not_mem]
        · simp
        · intro hm
          apply hu
          unfold Dict.keys at hm ⊢
          rw [List.mem_map] at hm ⊢
          obtain ⟨q, hq, he⟩ := hm
          exact ⟨q, (List.mem_filter.1 hq).1, he⟩
      · rw [if_neg (by first | exact hnm | exact fun h => hnm h.symm), I.index]
        have : ¬ (s x).idName = nm := fun h => hnm h.symm
        simp [this]
    · exact I.index d nm
  · intro d
    rw [sAttach_cnt hcx, sAttach_subs hcx]
    split
    · rw [hset, I.cnt c]; simp
    · exact I.cnt d
  · intro y d hy
    rw [sAttach_parent hcx] at hy
    rw [sAttach_cid hcx, sAttach_hist hcx]
    by_cases h1 : y = x
    · rw [if_pos h1] at hy ⊢
      cases hy
      rw [if_pos rfl]; omega
    · rw [if_neg h1] at hy ⊢
      have := I.cidLt y d hy
      split
      · next h => subst h; omega
      · exact this
  · intro y z d hy hz
    rw [sAttach_parent hcx] at hy hz
    rw [sAttach_cid hcx, sAttach_cid hcx]
    by_cases h1 : y = x <;> by_cases h2 : z = x
    · intro _; rw [h1, h2]
    · rw [if_pos h1] at hy ⊢
      rw [if_neg h2] at hz ⊢
      cases hy
      have := I.cidLt z c hz
      intro h; omega
    · rw [if_neg h1] at hy ⊢
      rw [if_pos h2] at hz ⊢
      cases hz
      have := I.cidLt y c hy
      intro h; omega
    · rw [if_neg h1] at hy ⊢
      rw [if_neg h2] at hz ⊢
      exact I.cidInj y z d hy hz
  · obtain ⟨rank, hr⟩ := I.rank
    classical
    refine ⟨fun y => if y = x ∨ SAnc s x y then rank y + rank c + 1 else rank y, fun y q hy => ?_⟩
    rw [sAttach_parent hcx] at hy
    by_cases h1 : y = x
    · rw [if_pos h1] at hy
      cases hy
      have : ¬ (c = x ∨ SAnc s x c) := by
        rintro (h | h)
        · exact hcx h
        · exact ha h
      simp only [this, if_false, h1, true_or, if_true]
      omega
    · rw [if_neg h1] at hy
      have := hr y q hy
      by_cases h2 : q = x ∨ SAnc s x q
      · have h3 : y = x ∨ SAnc s x y := by
          right
          rcases h2 with rfl | h2
          · exact .direct hy
          · exact .up hy h2
        simp only [h2, h3, if_true]; omega
      · simp only [h2, if_false]
        split <;> omega
  · intro y hy
    rw [sAttach_kind hcx, sAttach_clocked hcx]
    exact I.clock y hy

end attach

/-- Allocation of an object without containment data. -/
theorem SInv.alloc {n : Nat} {s : Ref → SObj} (I : SInv n s) (o : SObj) (hp : o.parent = none)
    (hs : o.subs = []) (hi : o.index = []) (hc : o.cnt = 0)
    (hk : o.kind.isConceptual = true → o.clocked = true) : SInv (n + 1) (upd s n o) := by
  have hat : ∀ y, upd s n o y = if y = n then o else s y := fun _ => rfl
  have hn := I.out n (Nat.le_refl _)
  have hpar : ∀ y, (upd s n o y).parent = (s y).parent := by
    intro y; rw [hat]; split
    · next h => rw [h, hn, hp]; rfl
    · rfl
  have hsub : ∀ y, (upd s n o y).subs = (s y).subs := by
    intro y; rw [hat]; split
    · next h => rw [h, hn, hs]; rfl
    · rfl
  have hind : ∀ y, (upd s n o y).index = (s y).index := by
    intro y; rw [hat]; split
    · next h => rw [h, hn, hi]; rfl
    · rfl
  have hcnt : ∀ y, (upd s n o y).cnt = (s y).cnt := by
    intro y; rw [hat]; split
    · next h => rw [h, hn, hc]; rfl
    · rfl
  have hlt : ∀ y c, (s y).parent = some c → upd s n o y = s y ∧ upd s n o c = s c := by
    intro y c h
    have h1 := I.lt_of_parent h
    have h2 := I.parent_lt h
    rw [hat, hat, if_neg (Nat.ne_of_lt h1), if_neg (Nat.ne_of_lt h2)]
    exact ⟨rfl, rfl⟩
  refine { out := ?_, nodup := ?_, mem := ?_, index := ?_, cnt := ?_, cidLt := ?_, cidInj := ?_,
           rank := ?_, clock := ?_ }
  · intro y hy
    rw [hat, if_neg (by omega)]
    exact I.out y (by omega)
  · intro c; rw [hsub]; exact I.nodup c
  · intro c u y
    rw [hsub, hpar, I.mem]
    constructor
    · rintro ⟨h1, h2⟩
      rw [(hlt y c h1).1]; exact ⟨h1, h2⟩
    · rintro ⟨h1, h2⟩
      rw [(hlt y c h1).1] at h2; exact ⟨h1, h2⟩
  · intro c nm
    rw [hsub, hind, I.index]
    apply List.filter_congr
    rintro ⟨u, y⟩ hq
    rw [(hlt y c ((I.mem c u y).1 hq).1).1]
  · intro c; rw [hsub, hcnt]; exact I.cnt c
  · intro y c hy
    rw [hpar] at hy
    rw [(hlt y c hy).1, (hlt y c hy).2]
    exact I.cidLt y c hy
  · intro y z c hy hz
    rw [hpar] at hy hz
    rw [(hlt y c hy).1, (hlt z c hz).1]
    exact I.cidInj y z c hy hz
  · obtain ⟨rank, hr⟩ := I.rank
    refine ⟨rank, fun y q hy => hr y q ?_⟩
    rw [← hpar]; exact hy
  · intro y hy
    rw [hat]; split
    · exact hk
    · exact I.clock y (by omega)

end Rei
