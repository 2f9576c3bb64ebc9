import Verif.Lemmas.AddRemove

/-!
# What `detachH` and `moveH` do to each attribute
-/
namespace Rei
open PyM

theorem detachH_proj {α : Type} (π : Obj → α)
    (h1 : ∀ o s i n, π { o with subs := s, index := i, cnt := n } = π o)
    (h2 : ∀ o p, π { o with parent := p } = π o) (h : Heap) (p x y : Ref) :
    π ((detachH h p x).get y) = π (h.get y) := by
  unfold detachH detachObj
  simp only [Heap.get_set]
  split
  · next e => subst e; exact h2 _ _
  · split
    · next e => subst e; exact h1 _ _ _ _
    · rfl

theorem leaveH_proj {α : Type} (π : Obj → α)
    (h1 : ∀ o s i n, π { o with subs := s, index := i, cnt := n } = π o)
    (h2 : ∀ o p, π { o with parent := p } = π o) (h : Heap) (x y : Ref) :
    π ((leaveH h x).get y) = π (h.get y) := by
  unfold leaveH
  split
  · rfl
  · exact detachH_proj π h1 h2 h _ x y

theorem attachH_proj {α : Type} (π : Obj → α)
    (h1 : ∀ o s i n k, π { o with subs := s, index := i, cnt := n, hist := k } = π o)
    (h2 : ∀ o p k d, π { o with parent := p, cid := k, depth := d } = π o) (h : Heap) (c x y : Ref) :
    π ((attachH h c x).get y) = π (h.get y) := by
  unfold attachH attachObj
  simp only [Heap.get_set]
  split
  · next e => subst e; exact h2 _ _ _ _
  · split
    · next e => subst e; exact h1 _ _ _ _ _
    · rfl

theorem moveH_proj {α : Type} (π : Obj → α)
    (h1 : ∀ o s i n k, π { o with subs := s, index := i, cnt := n, hist := k } = π o)
    (h2 : ∀ o p k d, π { o with parent := p, cid := k, depth := d } = π o) (h : Heap) (c x y : Ref) :
    π ((moveH h c x).get y) = π (h.get y) := by
  unfold moveH
  rw [attachH_proj π h1 h2, leaveH_proj π (fun o s i n => h1 o s i n o.hist)
    (fun o p => h2 o p o.cid o.depth)]

section
variable (h : Heap) (c x y : Ref)
theorem moveH_kind : ((moveH h c x).get y).kind = (h.get y).kind :=
  moveH_proj (·.kind) (fun _ _ _ _ _ => rfl) (fun _ _ _ _ => rfl) h c x y
theorem moveH_uuid : ((moveH h c x).get y).uuid = (h.get y).uuid :=
  moveH_proj (·.uuid) (fun _ _ _ _ _ => rfl) (fun _ _ _ _ => rfl) h c x y
theorem moveH_idName : ((moveH h c x).get y).idName = (h.get y).idName :=
  moveH_proj (·.idName) (fun _ _ _ _ _ => rfl) (fun _ _ _ _ => rfl) h c x y
theorem moveH_genCtx : ((moveH h c x).get y).genCtx = (h.get y).genCtx :=
  moveH_proj (·.genCtx) (fun _ _ _ _ _ => rfl) (fun _ _ _ _ => rfl) h c x y
theorem moveH_subRels : ((moveH h c x).get y).subRels = (h.get y).subRels :=
  moveH_proj (·.subRels) (fun _ _ _ _ _ => rfl) (fun _ _ _ _ => rfl) h c x y
theorem moveH_ports : ((moveH h c x).get y).ports = (h.get y).ports :=
  moveH_proj (·.ports) (fun _ _ _ _ _ => rfl) (fun _ _ _ _ => rfl) h c x y
theorem moveH_endpoint : ((moveH h c x).get y).endpoint = (h.get y).endpoint :=
  moveH_proj (·.endpoint) (fun _ _ _ _ _ => rfl) (fun _ _ _ _ => rfl) h c x y
theorem moveH_direction : ((moveH h c x).get y).direction = (h.get y).direction :=
  moveH_proj (·.direction) (fun _ _ _ _ _ => rfl) (fun _ _ _ _ => rfl) h c x y
theorem moveH_weight : ((moveH h c x).get y).weight = (h.get y).weight :=
  moveH_proj (·.weight) (fun _ _ _ _ _ => rfl) (fun _ _ _ _ => rfl) h c x y
theorem moveH_semNode : ((moveH h c x).get y).semNode = (h.get y).semNode :=
  moveH_proj (·.semNode) (fun _ _ _ _ _ => rfl) (fun _ _ _ _ => rfl) h c x y
theorem moveH_clock : ((moveH h c x).get y).clock = (h.get y).clock :=
  moveH_proj (·.clock) (fun _ _ _ _ _ => rfl) (fun _ _ _ _ => rfl) h c x y
theorem moveH_qualName : ((moveH h c x).get y).qualName = (h.get y).qualName :=
  moveH_proj (·.qualName) (fun _ _ _ _ _ => rfl) (fun _ _ _ _ => rfl) h c x y

theorem detachH_kind : ((detachH h c x).get y).kind = (h.get y).kind :=
  detachH_proj (·.kind) (fun _ _ _ _ => rfl) (fun _ _ => rfl) h c x y
theorem detachH_uuid : ((detachH h c x).get y).uuid = (h.get y).uuid :=
  detachH_proj (·.uuid) (fun _ _ _ _ => rfl) (fun _ _ => rfl) h c x y
theorem detachH_idName : ((detachH h c x).get y).idName = (h.get y).idName :=
  detachH_proj (·.idName) (fun _ _ _ _ => rfl) (fun _ _ => rfl) h c x y
theorem detachH_genCtx : ((detachH h c x).get y).genCtx = (h.get y).genCtx :=
  detachH_proj (·.genCtx) (fun _ _ _ _ => rfl) (fun _ _ => rfl) h c x y
theorem detachH_subRels : ((detachH h c x).get y).subRels = (h.get y).subRels :=
  detachH_proj (·.subRels) (fun _ _ _ _ => rfl) (fun _ _ => rfl) h c x y
theorem detachH_cid : ((detachH h c x).get y).cid = (h.get y).cid :=
  detachH_proj (·.cid) (fun _ _ _ _ => rfl) (fun _ _ => rfl) h c x y
theorem detachH_hist : ((detachH h c x).get y).hist = (h.get y).hist :=
  detachH_proj (·.hist) (fun _ _ _ _ => rfl) (fun _ _ => rfl) h c x y
theorem detachH_clock : ((detachH h c x).get y).clock = (h.get y).clock :=
  detachH_proj (·.clock) (fun _ _ _ _ => rfl) (fun _ _ => rfl) h c x y
theorem detachH_qualName : ((detachH h c x).get y).qualName = (h.get y).qualName :=
  detachH_proj (·.qualName) (fun _ _ _ _ => rfl) (fun _ _ => rfl) h c x y

theorem detachH_parent : ((detachH h c x).get y).parent =
    if y = x then none else (h.get y).parent := by
  unfold detachH detachObj
  simp only [Heap.get_set]
  split
  · rfl
  · split
    · next e => subst e; rfl
    · rfl

theorem detachH_subs (hcx : c ≠ x) : ((detachH h c x).get y).subs =
    if y = c then (h.get c).subs.erase (h.get x).uuid else (h.get y).subs := by
  unfold detachH detachObj
  simp only [Heap.get_set]
  by_cases h1 : y = x
  · subst h1; simp [Ne.symm hcx]
  · by_cases h2 : y = c <;> simp [h1, h2, hcx]

theorem detachH_size : (detachH h c x).size = h.size := rfl

theorem attachH_parent : ((attachH h c x).get y).parent =
    if y = x then some c else (h.get y).parent := by
  unfold attachH attachObj
  simp only [Heap.get_set]
  split
  · rfl
  · split
    · next e => subst e; rfl
    · rfl

theorem attachH_cid : ((attachH h c x).get y).cid =
    if y = x then (h.get c).hist else (h.get y).cid := by
  unfold attachH attachObj
  simp only [Heap.get_set]
  split
  · rfl
  · split
    · next e => subst e; rfl
    · rfl

theorem leaveH_cid : ((leaveH h x).get y).cid = (h.get y).cid :=
  leaveH_proj (·.cid) (fun _ _ _ _ => rfl) (fun _ _ => rfl) h x y

theorem leaveH_hist : ((leaveH h x).get y).hist = (h.get y).hist :=
  leaveH_proj (·.hist) (fun _ _ _ _ => rfl) (fun _ _ => rfl) h x y

theorem leaveH_depth : ((leaveH h x).get y).depth = (h.get y).depth :=
  leaveH_proj (·.depth) (fun _ _ _ _ => rfl) (fun _ _ => rfl) h x y

theorem moveH_cid : ((moveH h c x).get y).cid =
    if y = x then (h.get c).hist else (h.get y).cid := by
  unfold moveH
  rw [attachH_cid, leaveH_hist, leaveH_cid]

theorem attachH_hist (hcx : c ≠ x) : ((attachH h c x).get y).hist =
    if y = c then (h.get c).hist + 1 else (h.get y).hist := by
  unfold attachH attachObj
  simp only [Heap.get_set]
  by_cases h1 : y = x
  · subst h1; simp [Ne.symm hcx]
  · by_cases h2 : y = c <;> simp [h1, h2, hcx]

theorem moveH_hist (hcx : c ≠ x) : ((moveH h c x).get y).hist =
    if y = c then (h.get c).hist + 1 else (h.get y).hist := by
  unfold moveH
  rw [attachH_hist _ _ _ _ hcx, leaveH_hist, leaveH_hist]

theorem attachH_depth : ((attachH h c x).get y).depth =
    if y = x then (h.get c).depth + 1 else (h.get y).depth := by
  unfold attachH attachObj
  simp only [Heap.get_set]
  split
  · rfl
  · split
    · next e => subst e; rfl
    · rfl

theorem moveH_depth : ((moveH h c x).get y).depth =
    if y = x then (h.get c).depth + 1 else (h.get y).depth := by
  unfold moveH
  rw [attachH_depth, leaveH_depth, leaveH_depth]

theorem moveH_parent (I : Inv h) : ((moveH h c x).get y).parent =
    if y = x then some c else (h.get y).parent := by
  unfold moveH
  rw [attachH_parent]
  split
  · rfl
  · next e => rw [leaveH_parent I, if_neg e]

theorem attachH_subs (hcx : c ≠ x) : ((attachH h c x).get y).subs =
    if y = c then (h.get c).subs.set (h.get x).uuid x else (h.get y).subs := by
  unfold attachH attachObj
  simp only [Heap.get_set]
  by_cases h1 : y = x
  · subst h1; simp [Ne.symm hcx]
  · by_cases h2 : y = c <;> simp [h1, h2, hcx]

end

/-- Sub-elements after a move: `x` is appended to `c`, erased from its old container. -/
theorem moveH_subs {h : Heap} (I : Inv h) {c x : Ref} (hcx : x ≠ c)
    (hdup : (h.get x).uuid ∉ (h.get c).subs.keys) (y : Ref) :
    ((moveH h c x).get y).subs =
      if y = c then (h.get c).subs ++ [((h.get x).uuid, x)]
      else if (h.get x).parent = some y then (h.get y).subs.erase (h.get x).uuid
      else (h.get y).subs := by
  have hpc := I.parent_ne_of_not_mem hdup
  unfold moveH
  rw [attachH_subs _ _ _ _ (Ne.symm hcx), leaveH_get_ne (Ne.symm hcx) hpc, leaveH_get_self]
  split
  · exact Dict.set_of_not_mem _ hdup
  · unfold leaveH
    cases hp : (h.get x).parent with
    | none => simp
    | some p =>
      simp only [Option.some.injEq]
      rw [detachH_subs _ _ _ _ (SInv.parent_ne I hp)]
      by_cases h1 : y = p
      · subst h1; simp
      · simp [h1, Ne.symm h1]

/-- The restriction of a well-formed change to containment data. -/
theorem Inv.congr {h h' : Heap} (I : Inv h) (hs : h'.size = h.size) (hst : h'.st = h.st) : Inv h' := by
  unfold Inv; rw [hs, hst]; exact I

theorem st_mod {h : Heap} {x : Ref} {f : Obj → Obj} (hf : (f (h.get x)).st = (h.get x).st) :
    (h.mod x f).st = h.st := by
  funext y
  unfold Heap.st
  simp only [Heap.get_mod]
  split
  · next e => subst e; exact hf
  · rfl

theorem Inv.mod {h : Heap} (I : Inv h) {x : Ref} {f : Obj → Obj}
    (hf : (f (h.get x)).st = (h.get x).st) : Inv (h.mod x f) :=
  I.congr rfl (st_mod hf)

/-- Allocation. -/
def allocH (h : Heap) (o : Obj) : Heap := { (h.set h.size o) with size := h.size + 1 }

@[simp] theorem allocH_size (h : Heap) (o : Obj) : (allocH h o).size = h.size + 1 := rfl
@[simp] theorem allocH_get (h : Heap) (o : Obj) (y : Ref) :
    (allocH h o).get y = if y = h.size then o else h.get y := rfl

theorem allocH_get_lt {h : Heap} {o : Obj} {y : Ref} (hy : y < h.size) :
    (allocH h o).get y = h.get y := by
  rw [allocH_get, if_neg (Nat.ne_of_lt hy)]

/-- An object as a constructor leaves it, apart from its own data. -/
structure Fresh (o : Obj) : Prop where
  parent : o.parent = none
  subs : o.subs = []
  index : o.index = []
  cnt : o.cnt = 0
  subRels : o.subRels = []
  clock : o.kind.isConceptual = true → o.clock.isSome = true

theorem Inv.allocH {h : Heap} (I : Inv h) {o : Obj} (F : Fresh o) : Inv (allocH h o) := by
  have : (Rei.allocH h o).st = upd h.st h.size o.st := by
    funext y
    unfold Heap.st upd
    rw [allocH_get]
    split <;> rfl
  unfold Inv
  rw [this]
  exact SInv.alloc I o.st F.parent F.subs F.index F.cnt F.clock

theorem Inv.get_out {h : Heap} (I : Inv h) {x : Ref} (hx : h.size ≤ x) :
    (h.get x).parent = none ∧ (h.get x).subs = [] := by
  have := I.out x hx
  exact ⟨congrArg SObj.parent this, congrArg SObj.subs this⟩

/-- Nothing lies below a new object. -/
theorem allocH_not_anc {h : Heap} (I : Inv h) {o : Obj} (F : Fresh o) (y : Ref) :
    ¬ Anc (allocH h o) h.size y := by
  intro q
  obtain ⟨b, hb, _⟩ := q.cases_down
  rw [allocH_get] at hb
  split at hb
  · rw [F.parent] at hb; cases hb
  · exact absurd (I.parent_lt hb) (Nat.lt_irrefl _)

theorem allocH_parent {h : Heap} (I : Inv h) {o : Obj} (F : Fresh o) (y : Ref) :
    ((allocH h o).get y).parent = (h.get y).parent := by
  rw [allocH_get]; split
  · next e => rw [F.parent, e]; exact (I.get_out (Nat.le_refl _)).1.symm
  · rfl

theorem allocH_anc {h : Heap} (I : Inv h) {o : Obj} (F : Fresh o) (a b : Ref) :
    Anc (allocH h o) a b ↔ Anc h a b := by
  constructor
  · intro q
    induction q with
    | direct hp => rw [allocH_parent I F] at hp; exact .direct hp
    | up hp _ ih => rw [allocH_parent I F] at hp; exact .up hp ih
  · intro q
    induction q with
    | direct hp => rw [← allocH_parent I F] at hp; exact .direct hp
    | up hp _ ih => rw [← allocH_parent I F] at hp; exact .up hp ih

end Rei
