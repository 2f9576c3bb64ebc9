import Verif.Lemmas.Struct
import Verif.Spec.Hierarchy
import Mathlib.Data.Finset.Card
import Mathlib.Data.Finset.Range
import Mathlib.Data.List.Nodup

/-!
# `update` and the update queue
-/
namespace Rei
open PyM

/-- An object without its qualified name and timestamp. -/
def Obj.core (o : Obj) : Obj := { o with qualName := [], timestamp := 0 }

theorem Obj.core_eq_iff {o o' : Obj} : o'.core = o.core ↔
    o' = { o with qualName := o'.qualName, timestamp := o'.timestamp } := by
  constructor
  · intro h
    cases o; cases o'
    simp only [Obj.core, Obj.mk.injEq] at h ⊢
    simp_all
  · intro h
    rw [h]; rfl

/-- `h'` differs from `h` at most in the qualified names and timestamps of the objects in `D`, and in
the number of clock readings. -/
structure Sim (D : Ref → Prop) (h h' : Heap) : Prop where
  size : h'.size = h.size
  nlists : h'.nlists = h.nlists
  lists : h'.lists = h.lists
  core : ∀ y, (h'.get y).core = (h.get y).core
  same : ∀ y, ¬ D y → h'.get y = h.get y

theorem Sim.refl (D : Ref → Prop) (h : Heap) : Sim D h h := ⟨rfl, rfl, rfl, fun _ => rfl, fun _ _ => rfl⟩

theorem Sim.trans {D : Ref → Prop} {a b c : Heap} (p : Sim D a b) (q : Sim D b c) : Sim D a c :=
  ⟨q.size.trans p.size, q.nlists.trans p.nlists, q.lists.trans p.lists,
    fun y => (q.core y).trans (p.core y), fun y hy => (q.same y hy).trans (p.same y hy)⟩

theorem Sim.mono {D D' : Ref → Prop} {a b : Heap} (p : Sim D a b) (hD : ∀ y, D y → D' y) :
    Sim D' a b :=
  ⟨p.size, p.nlists, p.lists, p.core, fun y hy => p.same y fun h => hy (hD y h)⟩

/-- `f` does not look at qualified name and timestamp, except to pass them on. -/
def CoreFn (f : Obj → Obj) : Prop :=
  ∀ (o : Obj) (q : Str) (t : Nat), (f { o with qualName := q, timestamp := t }).core = (f o).core

theorem Sim.mod {D : Ref → Prop} {a b : Heap} (p : Sim D a b) (x : Ref) {f : Obj → Obj}
    (hf : CoreFn f) : Sim D (a.mod x f) (b.mod x f) := by
  refine ⟨p.size, p.nlists, p.lists, fun y => ?_, fun y hy => ?_⟩
  · simp only [Heap.get_mod]
    split
    · have := Obj.core_eq_iff.1 (p.core x)
      rw [this]; exact hf _ _ _
    · exact p.core y
  · simp only [Heap.get_mod]
    split
    · next h => rw [← h, p.same y hy]
    · exact p.same y hy

section fields
variable {D : Ref → Prop} {a b : Heap}
theorem Sim.parent (p : Sim D a b) (y : Ref) : (b.get y).parent = (a.get y).parent :=
  by have := congrArg Obj.parent (p.core y); exact this
theorem Sim.idName (p : Sim D a b) (y : Ref) : (b.get y).idName = (a.get y).idName :=
  by have := congrArg Obj.idName (p.core y); exact this
theorem Sim.uuid (p : Sim D a b) (y : Ref) : (b.get y).uuid = (a.get y).uuid :=
  by have := congrArg Obj.uuid (p.core y); exact this
theorem Sim.kind (p : Sim D a b) (y : Ref) : (b.get y).kind = (a.get y).kind :=
  by have := congrArg Obj.kind (p.core y); exact this
theorem Sim.subs (p : Sim D a b) (y : Ref) : (b.get y).subs = (a.get y).subs :=
  by have := congrArg Obj.subs (p.core y); exact this
theorem Sim.index (p : Sim D a b) (y : Ref) : (b.get y).index = (a.get y).index :=
  by have := congrArg Obj.index (p.core y); exact this
theorem Sim.cid (p : Sim D a b) (y : Ref) : (b.get y).cid = (a.get y).cid :=
  by have := congrArg Obj.cid (p.core y); exact this
theorem Sim.cnt (p : Sim D a b) (y : Ref) : (b.get y).cnt = (a.get y).cnt :=
  by have := congrArg Obj.cnt (p.core y); exact this
theorem Sim.hist (p : Sim D a b) (y : Ref) : (b.get y).hist = (a.get y).hist :=
  by have := congrArg Obj.hist (p.core y); exact this
theorem Sim.depth (p : Sim D a b) (y : Ref) : (b.get y).depth = (a.get y).depth :=
  by have := congrArg Obj.depth (p.core y); exact this
theorem Sim.clock (p : Sim D a b) (y : Ref) : (b.get y).clock = (a.get y).clock :=
  by have := congrArg Obj.clock (p.core y); exact this
theorem Sim.genCtx (p : Sim D a b) (y : Ref) : (b.get y).genCtx = (a.get y).genCtx :=
  by have := congrArg Obj.genCtx (p.core y); exact this
theorem Sim.ports (p : Sim D a b) (y : Ref) : (b.get y).ports = (a.get y).ports :=
  by have := congrArg Obj.ports (p.core y); exact this
theorem Sim.endpoint (p : Sim D a b) (y : Ref) : (b.get y).endpoint = (a.get y).endpoint :=
  by have := congrArg Obj.endpoint (p.core y); exact this
theorem Sim.direction (p : Sim D a b) (y : Ref) : (b.get y).direction = (a.get y).direction :=
  by have := congrArg Obj.direction (p.core y); exact this
theorem Sim.weight (p : Sim D a b) (y : Ref) : (b.get y).weight = (a.get y).weight :=
  by have := congrArg Obj.weight (p.core y); exact this
theorem Sim.semNode (p : Sim D a b) (y : Ref) : (b.get y).semNode = (a.get y).semNode :=
  by have := congrArg Obj.semNode (p.core y); exact this
theorem Sim.subRels (p : Sim D a b) (y : Ref) : (b.get y).subRels = (a.get y).subRels :=
  by have := congrArg Obj.subRels (p.core y); exact this
theorem Sim.vals (p : Sim D a b) (y : Ref) : (b.get y).vals = (a.get y).vals :=
  by have := congrArg Obj.vals (p.core y); exact this
theorem Sim.dim (p : Sim D a b) (y : Ref) : (b.get y).dim = (a.get y).dim :=
  by have := congrArg Obj.dim (p.core y); exact this
theorem Sim.attrs (p : Sim D a b) (y : Ref) : (b.get y).attrs = (a.get y).attrs :=
  by have := congrArg Obj.attrs (p.core y); exact this

theorem Sim.st (p : Sim D a b) : b.st = a.st := by
  funext y
  have := Obj.core_eq_iff.1 (p.core y)
  unfold Heap.st
  rw [this]; rfl

theorem Sim.inv (p : Sim D a b) (I : Inv a) : Inv b := by
  unfold Inv at *
  rw [p.size, p.st]; exact I

theorem Sim.anc (p : Sim D a b) (x y : Ref) : Anc b x y ↔ Anc a x y := by
  rw [anc_iff, anc_iff, p.st]

theorem Sim.within (p : Sim D a b) (x y : Ref) : Within b x y ↔ Within a x y := by
  unfold Within; rw [p.anc]

theorem Sim.pathTo (p : Sim D a b) {x : Ref} {l : List Str} (q : PathTo a x l) : PathTo b x l := by
  induction q with
  | root hp => rw [← p.idName]; exact .root ((p.parent _).trans hp)
  | child hp _ ih => rw [← p.idName]; exact .child ((p.parent _).trans hp) ih

theorem Sim.symm (p : Sim D a b) : Sim D b a :=
  ⟨p.size.symm, p.nlists.symm, p.lists.symm, fun y => (p.core y).symm, fun y h => (p.same y h).symm⟩

end fields

/-! ### The walk up -/

theorem nameChain_congr {h h' : Heap} (hp : ∀ y, (h'.get y).parent = (h.get y).parent)
    (hn : ∀ y, (h'.get y).idName = (h.get y).idName) (fuel : Nat) (x : Ref) :
    nameChain h' fuel x = nameChain h fuel x := by
  induction fuel generalizing x with
  | zero => rfl
  | succ n ih =>
    simp only [nameChain, hp, hn, ih]

theorem nameChain_pathTo {h : Heap} {fuel : Nat} {x : Ref} {l : List Str}
    (hl : nameChain h fuel x = some l) : PathTo h x l.reverse := by
  induction fuel generalizing x l with
  | zero => cases hl
  | succ n ih =>
    rw [nameChain] at hl
    split at hl
    · next hp => cases hl; exact .root hp
    · next p hp =>
      cases hc : nameChain h n p with
      | none => rw [hc] at hl; cases hl
      | some m =>
        rw [hc] at hl; cases hl
        rw [List.reverse_cons]
        exact .child hp (ih hc)

theorem pathTo_nameChain {h : Heap} {x : Ref} {l : List Str} (q : PathTo h x l) {fuel : Nat}
    (hf : l.length ≤ fuel) : nameChain h fuel x = some l.reverse := by
  induction q generalizing fuel with
  | root hp =>
    cases fuel with
    | zero => simp at hf
    | succ n => simp only [nameChain, hp]; rfl
  | child hp _ ih =>
    cases fuel with
    | zero => simp at hf
    | succ n =>
      have hf' := hf
      rw [List.length_append, List.length_singleton] at hf'
      simp only [nameChain, hp, ih (Nat.le_of_succ_le_succ hf')]
      simp

theorem PathTo.functional {h : Heap} {x : Ref} {l m : List Str} (p : PathTo h x l)
    (q : PathTo h x m) : l = m := by
  induction p generalizing m with
  | root hp =>
    cases q with
    | root _ => rfl
    | child hp' _ => rw [hp] at hp'; cases hp'
  | child hp _ ih =>
    cases q with
    | root hp' => rw [hp] at hp'; cases hp'
    | child hp' q' =>
      rw [hp] at hp'; cases hp'
      rw [ih q']

/-- On an invariant heap every object has a path, no longer than the number of objects. -/
theorem Inv.exists_path {h : Heap} (I : Inv h) {x : Ref} (hx : x < h.size) :
    ∃ l, PathTo h x l ∧ l.length ≤ h.size := by
  obtain ⟨rank, hr⟩ := I.rank
  -- a path together with the references on it
  suffices hs : ∀ k x, rank x = k → x < h.size → ∃ (l : List Str) (rs : List Ref),
      PathTo h x l ∧ rs.length = l.length ∧ rs.Nodup ∧ ∀ y ∈ rs, y < h.size ∧ rank y ≤ rank x by
    obtain ⟨l, rs, hp, hlen, hnd, hlt⟩ := hs _ x rfl hx
    refine ⟨l, hp, ?_⟩
    rw [← hlen]
    have hsub : rs ⊆ List.range h.size := fun y hy => List.mem_range.2 (hlt y hy).1
    have := (List.subperm_of_subset hnd hsub).length_le
    simpa using this
  intro k
  induction k using Nat.strongRecOn with
  | _ k ih =>
    intro x hk hx
    cases hp : (h.get x).parent with
    | none => exact ⟨_, [x], .root hp, rfl, by simp, by simp [hx]⟩
    | some p =>
      have h1 : rank p < rank x := hr x p hp
      obtain ⟨l, rs, hpl, hlen, hnd, hlt⟩ := ih (rank p) (hk ▸ h1) p rfl (I.parent_lt hp)
      refine ⟨_, x :: rs, .child hp hpl, by simp [hlen], ?_, ?_⟩
      · refine List.nodup_cons.2 ⟨fun hm => ?_, hnd⟩
        have := (hlt x hm).2; omega
      · intro y hy
        rcases List.mem_cons.1 hy with rfl | hy
        · exact ⟨hx, Nat.le_refl _⟩
        · have := hlt y hy
          exact ⟨this.1, by omega⟩

theorem Inv.nameChain {h : Heap} (I : Inv h) {x : Ref} (hx : x < h.size) :
    ∃ l, PathTo h x l ∧ Rei.nameChain h h.size x = some l.reverse := by
  obtain ⟨l, hp, hl⟩ := I.exists_path hx
  exact ⟨l, hp, pathTo_nameChain hp hl⟩

/-! ### One update -/

/-- The heap after a successful `update` of `x`. -/
def restamp (h : Heap) (x : Ref) (q : Str) (t rd : Nat) : Heap :=
  { (h.mod x fun o => { o with qualName := q, timestamp := t }) with reads := rd }

theorem restamp_sim (h : Heap) (x : Ref) (q : Str) (t rd : Nat) :
    Sim (· = x) h (restamp h x q t rd) := by
  refine ⟨rfl, rfl, rfl, fun y => ?_, fun y hy => ?_⟩
  · show (if y = x then _ else _ : Obj).core = _
    split
    · next h => subst h; rfl
    · rfl
  · show (if y = x then _ else _ : Obj) = _
    rw [if_neg hy]

@[simp] theorem restamp_get (h : Heap) (x : Ref) (q : Str) (t rd : Nat) (y : Ref) :
    (restamp h x q t rd).get y =
      if y = x then { h.get x with qualName := q, timestamp := t } else h.get y := rfl

theorem requalify_run {h : Heap} {x : Ref} {l : List Str}
    (hl : nameChain h h.size x = some l) :
    requalify x h = (.ok (), h.mod x fun o => { o with qualName := Str.join '/' l.reverse }) := by
  unfold requalify; rw [hl]

theorem update_run {E : Env} {h : Heap} {x : Ref} {l : List Str}
    (hc : (h.get x).kind.isConceptual = true → (h.get x).clock.isSome = true)
    (hl : nameChain h h.size x = some l) :
    ∃ t rd, h.reads ≤ rd ∧
      update E x h = (.ok (), restamp h x (Str.join '/' l.reverse) t rd) := by
  unfold update
  simp only [obj_bind_run]
  by_cases hk : (h.get x).kind.isConceptual = true
  · simp only [hk, if_true]
    have hcs := hc hk
    cases hck : (h.get x).clock with
    | none => rw [hck] at hcs; cases hcs
    | some ck =>
      cases ck with
      | dummy =>
        have h1 : updateTimestamp E x h =
            (.ok (), h.mod x fun o => { o with timestamp := 0 }) := by
          unfold updateTimestamp; rw [hck]
        rw [bind_ok h1]
        have hl' : nameChain (h.mod x fun o => { o with timestamp := 0 }) h.size x = some l := by
          rw [← hl]
          apply nameChain_congr
          · intro y; simp only [Heap.get_mod]; split
            · next h => subst h; rfl
            · rfl
          · intro y; simp only [Heap.get_mod]; split
            · next h => subst h; rfl
            · rfl
        refine ⟨0, h.reads, Nat.le_refl _, ?_⟩
        rw [requalify_run hl']
        simp only [restamp, Heap.mod, Heap.set, if_true]
        congr 2
        funext i
        split <;> rfl
      | «local» =>
        have h1 : updateTimestamp E x h =
            (.ok (), { (h.mod x fun o => { o with timestamp := E.time h.reads }) with
              reads := h.reads + 1 }) := by
          unfold updateTimestamp; rw [hck]
        rw [bind_ok h1]
        have hl' : nameChain { (h.mod x fun o => { o with timestamp := E.time h.reads }) with
              reads := h.reads + 1 } h.size x = some l := by
          rw [← hl]
          apply nameChain_congr
          · intro y; simp only [Heap.get_mod]; split
            · next h => subst h; rfl
            · rfl
          · intro y; simp only [Heap.get_mod]; split
            · next h => subst h; rfl
            · rfl
        refine ⟨E.time h.reads, h.reads + 1, Nat.le_succ _, ?_⟩
        rw [requalify_run hl']
        simp only [restamp, Heap.mod, Heap.set, if_true]
        congr 2
        funext i
        split <;> rfl
  · have hk' : (h.get x).kind.isConceptual = false := by simpa using hk
    simp only [hk', Bool.false_eq_true, if_false]
    refine ⟨(h.get x).timestamp, h.reads, Nat.le_refl _, ?_⟩
    rw [requalify_run hl]
    simp only [restamp, Heap.mod, Heap.set]

theorem Inv.clocked {h : Heap} (I : Inv h) {x : Ref} (hx : x < h.size) :
    (h.get x).kind.isConceptual = true → (h.get x).clock.isSome = true := I.clock x hx

/-- `update` succeeds on an invariant heap and sets the path name. -/
theorem Inv.update {h : Heap} (I : Inv h) (E : Env) {x : Ref} (hx : x < h.size) :
    ∃ l t rd, PathTo h x l ∧ h.reads ≤ rd ∧
      update E x h = (.ok (), restamp h x (Str.join '/' l) t rd) := by
  obtain ⟨l, hp, hl⟩ := I.nameChain hx
  obtain ⟨t, rd, hrd, hu⟩ := update_run (E := E) (I.clocked hx) hl
  rw [List.reverse_reverse] at hu
  exact ⟨l, t, rd, hp, hrd, hu⟩

/-! ### The queue -/

/-- The elements at or below a member of `q`. -/
def Under (h : Heap) (q : List Ref) (y : Ref) : Prop := ∃ a ∈ q, Within h a y

theorem Anc.trans {h : Heap} {a b c : Ref} (p : Anc h a b) (q : Anc h b c) : Anc h a c := by
  rw [anc_iff] at *; exact p.trans q

theorem Inv.not_anc_self {h : Heap} (I : Inv h) (x : Ref) : ¬ Anc h x x := by
  rw [anc_iff]; exact SInv.not_anc_self I x

theorem Anc.lt {h : Heap} (I : Inv h) {a x : Ref} (p : Anc h a x) : a < h.size ∧ x < h.size := by
  induction p with
  | direct hp => exact ⟨I.parent_lt hp, I.lt_of_parent hp⟩
  | up hp _ ih => exact ⟨ih.1, I.lt_of_parent hp⟩

theorem Inv.mem_subelements {h : Heap} (I : Inv h) (c x : Ref) :
    x ∈ (h.get c).subs.values ↔ (h.get x).parent = some c := SInv.mem_values I c x

theorem Anc.cases_down {h : Heap} {a y : Ref} (p : Anc h a y) :
    ∃ b, (h.get b).parent = some a ∧ Within h b y := by
  induction p with
  | direct hp => exact ⟨_, hp, .inl rfl⟩
  | up hp _ ih =>
    obtain ⟨b, hb, hw⟩ := ih
    refine ⟨b, hb, .inr ?_⟩
    rcases hw with rfl | hw
    · exact .direct hp
    · exact .up hp hw

theorem updateLoop_run {E : Env} (fuel : Nat) (h : Heap) (I : Inv h) (q : List Ref)
    (hq : ∀ x ∈ q, x < h.size) (hnd : q.Nodup)
    (hanti : ∀ a ∈ q, ∀ b ∈ q, ¬ Anc h a b)
    (S : Finset Nat) (hS : ∀ y, Under h q y → y ∈ S) (hcard : S.card ≤ fuel) :
    ∃ h', updateLoop E fuel q h = (.ok (), h') ∧ Sim (Under h q) h h' ∧ h.reads ≤ h'.reads ∧
      ∀ y, Under h q y → ∀ l, PathTo h y l → (h'.get y).qualName = Str.join '/' l := by
  induction fuel generalizing h q S with
  | zero =>
    cases q with
    | nil =>
      refine ⟨h, rfl, .refl _ _, Nat.le_refl _, ?_⟩
      rintro y ⟨a, ha, _⟩; cases ha
    | cons x q =>
      have := hS x ⟨x, List.mem_cons_self .., .inl rfl⟩
      have := Finset.card_pos.2 ⟨x, this⟩
      omega
  | succ n ih =>
    cases q with
    | nil =>
      refine ⟨h, rfl, .refl _ _, Nat.le_refl _, ?_⟩
      rintro y ⟨a, ha, _⟩; cases ha
    | cons x q =>
      have hx := hq x (List.mem_cons_self ..)
      obtain ⟨lx, t, rd, hpx, hrd, hu⟩ := I.update E hx
      have hsim := restamp_sim h x (Str.join '/' lx) t rd
      generalize hh1 : restamp h x (Str.join '/' lx) t rd = h1 at *
      have I1 : Inv h1 := hsim.inv I
      have hxq : x ∉ q := (List.nodup_cons.1 hnd).1
      have hkids : ∀ b, b ∈ (h1.get x).subs.values ↔ (h.get b).parent = some x := by
        intro b
        rw [I1.mem_subelements, hsim.parent]
      have hxU : ∀ y, Under h1 (q ++ (h1.get x).subs.values) y → Under h (x :: q) y ∧ y ≠ x := by
        rintro y ⟨a, ha, hw⟩
        rw [hsim.within] at hw
        rcases List.mem_append.1 ha with ha' | ha
        · refine ⟨⟨a, List.mem_cons_of_mem _ ha', hw⟩, ?_⟩
          rintro rfl
          rcases hw with rfl | hw
          · exact hxq ha'
          · exact hanti a (List.mem_cons_of_mem _ ha') y (List.mem_cons_self ..) hw
        · have hpa := (hkids a).1 ha
          have hxy : Anc h x y := by
            rcases hw with rfl | hw
            · exact .direct hpa
            · exact (Anc.direct hpa).trans hw
          refine ⟨⟨x, List.mem_cons_self .., .inr hxy⟩, ?_⟩
          rintro rfl
          exact I.not_anc_self _ hxy
      have hUx : ∀ y, Under h (x :: q) y → y = x ∨ Under h1 (q ++ (h1.get x).subs.values) y := by
        rintro y ⟨a, ha, hw⟩
        rcases List.mem_cons.1 ha with rfl | ha
        · rcases hw with rfl | hw
          · exact .inl rfl
          · obtain ⟨b, hb, hw⟩ := hw.cases_down
            refine .inr ⟨b, List.mem_append.2 (.inr ((hkids b).2 hb)), ?_⟩
            rw [hsim.within]; exact hw
        · refine .inr ⟨a, List.mem_append.2 (.inl ha), ?_⟩
          rw [hsim.within]; exact hw
      have hxS : x ∈ S := hS x ⟨x, List.mem_cons_self .., .inl rfl⟩
      obtain ⟨h', hrun, hs', hrd', hqn⟩ := ih h1 I1 (q ++ (h1.get x).subs.values)
        (by
          intro y hy
          rw [hsim.size]
          rcases List.mem_append.1 hy with hy | hy
          · exact hq y (List.mem_cons_of_mem _ hy)
          · exact I.lt_of_parent ((hkids y).1 hy))
        (by
          rw [List.nodup_append]
          refine ⟨(List.nodup_cons.1 hnd).2, SInv.values_nodup I1 x, ?_⟩
          rintro a ha b hb rfl
          exact hanti x (List.mem_cons_self ..) a (List.mem_cons_of_mem _ ha)
            (.direct ((hkids a).1 hb)))
        (by
          intro a ha b hb
          rw [hsim.anc]
          intro hab
          rcases List.mem_append.1 ha with ha | ha <;> rcases List.mem_append.1 hb with hb | hb
          · exact hanti a (List.mem_cons_of_mem _ ha) b (List.mem_cons_of_mem _ hb) hab
          · have hpb := (hkids b).1 hb
            cases hab with
            | direct hp =>
              have hp : (h.get b).parent = some a := hp
              rw [hpb] at hp; cases hp; exact hxq ha
            | up hp hab =>
              have hp := hp
              rw [hpb] at hp; cases hp
              exact hanti a (List.mem_cons_of_mem _ ha) x (List.mem_cons_self ..) hab
          · have hpa := (hkids a).1 ha
            exact hanti x (List.mem_cons_self ..) b (List.mem_cons_of_mem _ hb)
              ((Anc.direct hpa).trans hab)
          · have hpa := (hkids a).1 ha
            have hpb := (hkids b).1 hb
            cases hab with
            | direct hp =>
              have hp : (h.get b).parent = some a := hp
              rw [hpb] at hp; cases hp
              exact I.not_anc_self _ (.direct hpa)
            | up hp hab =>
              have hp := hp
              rw [hpb] at hp; cases hp
              exact I.not_anc_self _ ((Anc.direct hpa).trans hab))
        (S.erase x)
        (by
          intro y hy
          have := hxU y hy
          exact Finset.mem_erase.2 ⟨this.2, hS y this.1⟩)
        (by
          rw [Finset.card_erase_of_mem hxS]; omega)
      refine ⟨h', ?_, ?_, ?_, ?_⟩
      · simp only [updateLoop]
        rw [bind_ok hu]
        simp only [obj_bind_run]
        exact hrun
      · refine Sim.trans (hsim.mono ?_) (hs'.mono fun y hy => (hxU y hy).1)
        rintro y rfl
        exact ⟨y, List.mem_cons_self .., .inl rfl⟩
      · have : h1.reads = rd := by rw [← hh1]; rfl
        omega
      · intro y hy l hl
        rcases hUx y hy with rfl | hy'
        · have hny : ¬ Under h1 (q ++ (h1.get y).subs.values) y := fun hc => (hxU y hc).2 rfl
          rw [hs'.same y hny, ← hh1, restamp_get, if_pos rfl, hl.functional hpx]
        · exact hqn y hy' l (hsim.pathTo hl)

/-- `__update_element` on an invariant heap: succeeds, re-qualifies exactly the subtree of `x`. -/
theorem Inv.updateElement {h : Heap} (I : Inv h) (E : Env) {x : Ref} (hx : x < h.size) :
    ∃ h', updateElement E x h = (.ok (), h') ∧ Sim (Within h x) h h' ∧ h.reads ≤ h'.reads ∧
      ∀ y, Within h x y → ∀ l, PathTo h y l → (h'.get y).qualName = Str.join '/' l := by
  have hU : ∀ y, Under h [x] y ↔ Within h x y := by
    intro y
    constructor
    · rintro ⟨a, ha, hw⟩
      rw [List.mem_singleton] at ha; subst ha; exact hw
    · intro hw; exact ⟨x, List.mem_singleton.2 rfl, hw⟩
  obtain ⟨h', hr, hs, hrd, hq⟩ := updateLoop_run (E := E) (2 ^ h.size) h I [x]
    (by simpa using hx) (by simp) (by simpa using I.not_anc_self x) (Finset.range h.size)
    (by
      intro y hy
      rw [Finset.mem_range]
      rcases (hU y).1 hy with rfl | hy
      · exact hx
      · exact (hy.lt I).2)
    (by rw [Finset.card_range]; exact Nat.le_of_lt Nat.lt_two_pow_self)
  refine ⟨h', hr, hs.mono fun y hy => (hU y).1 hy, hrd, fun y hy => hq y ((hU y).2 hy)⟩

end Rei
