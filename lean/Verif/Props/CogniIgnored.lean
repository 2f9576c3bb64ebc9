import Verif.Props.CogniFile

/-!
# Declarations that a reader ignores (C82)
-/
namespace Rei
open PyM

/-- A link without its inertia matrix. -/
def LinkDecl.essential (l : LinkDecl) : LinkDecl := { l with body := l.body.map fun b => { b with inertia := none } }

/-- A body without skipped items, without inertia matrices and, below the entity, without parameters. -/
def Items.essential : (top : Bool) → Items → Items
  | _, .nil => .nil
  | top, .kinematic name body rest => .kinematic name (Items.essential false body) (Items.essential top rest)
  | top, .ambient name body rest => .ambient name (Items.essential false body) (Items.essential top rest)
  | top, .device name rest => .device name (Items.essential top rest)
  | top, .link l rest => .link l.essential (Items.essential top rest)
  | top, .joint j rest => .joint j (Items.essential top rest)
  | true, .params qs rest => .params qs (Items.essential true rest)
  | false, .params _ rest => Items.essential false rest
  | top, .skipped rest => Items.essential top rest

/-- The file without what the reader ignores. -/
def EntityDecl.essential (f : EntityDecl) : EntityDecl := { f with body := f.body.essential true }

theorem same_bind {α β : Type} {m m' : PyM α} {k k' : α → PyM β} {h : Heap} (e : m h = m' h)
    (q : ∀ a h', m h = (.ok a, h') → k a h' = k' a h') : (m >>= k) h = (m' >>= k') h := by
  cases hm : m h with
  | mk r h1 =>
    cases r with
    | error er => rw [bind_err hm, bind_err (e ▸ hm)]
    | ok a =>
      rw [bind_ok hm, bind_ok (e ▸ hm)]
      exact q a h1 hm

theorem Does.reach_of {E : Env} {α : Type} {m : PyM α} {h h' : Heap} {Q : α → Heap → Prop} {r : Except Err α}
    (d : Does E m h Q) (e : m h = (r, h')) : Reach E h' := by
  have := d.1
  rw [e] at this
  exact this

theorem link_essential {E : Env} {I : FileIcon} {path : List Str} (l : LinkDecl) :
    I.visitLink E path l.essential = I.visitLink E path l := by
  unfold FileIcon.visitLink LinkDecl.essential
  cases l.body <;> rfl

theorem params_low_same {E : Env} {I : FileIcon} {path : List Str} {c : Ref} {h : Heap}
    (hr : some c ≠ I.root) (hc : I.cache.get? (pathKey path) = some c) : ∀ (qs : Params),
    (forEach qs fun p => I.visitParam E path p) h = (.ok (), h)
  | [] => rfl
  | q :: qs => by
    have e : I.visitParam E path q h = (.ok (), h) := by
      unfold FileIcon.visitParam FileIcon.cached
      rw [hc]
      show (if some c = I.root then _ else _ : PyM Unit) h = _
      rw [if_neg hr]
      rfl
    rw [forEach_cons, bind_ok e]
    exact params_low_same hr hc qs

theorem items_essential {E : Env} {w : Ref} (items : Items) : ∀ {h : Heap} {I : FileIcon} {top : Bool} {ps : Params}
    {seen path : List Str} {c : Ref} (_ : Reach E h) (_ : IconOk h I w ps seen) (_ : At h I path c)
    (_ : top = true ↔ some c = I.root) (_ : ∀ x, I.root = some x → x < h.size),
    FileIcon.visitItems E path I (items.essential top) h = FileIcon.visitItems E path I items h := by
  induction items with
  | nil => intros; rfl
  | kinematic name body rest ihb ihr =>
    intro h I top ps seen path c R o a ht hroot
    have inv := R.good.inv
    unfold Items.essential FileIcon.visitItems
    refine same_bind rfl fun I1 h1 e1 => ?_
    have D := kinematic_visit_does R o a name
    have R1 : Reach E h1 := D.reach_of e1
    obtain ⟨s, N, S, sf⟩ := D.2 _ _ e1
    have s1 := N.on.size
    have hf : false = true ↔ some h.size = I1.root := by
      simp only [Bool.false_eq_true, false_iff]
      intro e
      rw [N.kept.root] at e
      have := hroot _ e.symm
      omega
    have hr1 : ∀ x, I1.root = some x → x < h1.size := by
      intro x hx
      rw [N.kept.root] at hx
      have := hroot x hx
      omega
    refine same_bind (ihb R1 N.ok N.at_ hf hr1) fun I2 h2 e2 => ?_
    rw [ihb R1 N.ok N.at_ hf hr1] at e2
    have D2 := items_does (top := false) body R1 N.ok N.at_ hf hr1
    have R2 : Reach E h2 := D2.reach_of e2
    obtain ⟨ys, B⟩ := D2.2 _ _ e2
    have s2 := B.on.size
    have on2 : Onward h.size [c, I.params] h h2 := by
      refine (N.on.weaken (Nat.le_refl _) (by simp +contextual)).trans (B.on.weaken s1 ?_)
      rw [N.kept.params]
      intro x hx hl
      simp at hx ⊢
      omega
    have k2 : Kept path I I2 := N.kept.trans (B.kept.mono a.ne)
    have a2 := a.onward inv on2 k2
    have o2 : IconOk h2 I2 w ps (seen ++ body.targets (path ++ [name])) := by simpa using B.ok
    refine ihr R2 o2 a2 (by rw [k2.root]; exact ht) ?_
    intro x hx
    rw [k2.root] at hx
    have := hroot x hx
    omega
  | ambient name body rest ihb ihr =>
    intro h I top ps seen path c R o a ht hroot
    have inv := R.good.inv
    unfold Items.essential FileIcon.visitItems
    refine same_bind rfl fun I1 h1 e1 => ?_
    have D := node_visit_does R o a name
    have R1 : Reach E h1 := D.reach_of e1
    have N := D.2 _ _ e1
    have s1 := N.on.size
    have hf : false = true ↔ some h.size = I1.root := by
      simp only [Bool.false_eq_true, false_iff]
      intro e
      rw [N.kept.root] at e
      have := hroot _ e.symm
      omega
    have hr1 : ∀ x, I1.root = some x → x < h1.size := by
      intro x hx
      rw [N.kept.root] at hx
      have := hroot x hx
      omega
    refine same_bind (ihb R1 N.ok N.at_ hf hr1) fun I2 h2 e2 => ?_
    rw [ihb R1 N.ok N.at_ hf hr1] at e2
    have D2 := items_does (top := false) body R1 N.ok N.at_ hf hr1
    have R2 : Reach E h2 := D2.reach_of e2
    obtain ⟨ys, B⟩ := D2.2 _ _ e2
    have s2 := B.on.size
    have on2 : Onward h.size [c, I.params] h h2 := by
      refine (N.on.weaken (Nat.le_refl _) (by simp +contextual)).trans (B.on.weaken s1 ?_)
      rw [N.kept.params]
      intro x hx hl
      simp at hx ⊢
      omega
    have k2 : Kept path I I2 := N.kept.trans (B.kept.mono a.ne)
    have a2 := a.onward inv on2 k2
    have o2 : IconOk h2 I2 w ps (seen ++ body.targets (path ++ [name])) := by simpa using B.ok
    refine ihr R2 o2 a2 (by rw [k2.root]; exact ht) ?_
    intro x hx
    rw [k2.root] at hx
    have := hroot x hx
    omega
  | device name rest ihr =>
    intro h I top ps seen path c R o a ht hroot
    have inv := R.good.inv
    unfold Items.essential FileIcon.visitItems
    refine same_bind rfl fun I1 h1 e1 => ?_
    have D := node_visit_does R o a name
    have R1 : Reach E h1 := D.reach_of e1
    have N := D.2 _ _ e1
    have s1 := N.on.size
    refine ihr R1 N.ok (a.onward inv N.on N.kept) (by rw [N.kept.root]; exact ht) ?_
    intro x hx
    rw [N.kept.root] at hx
    have := hroot x hx
    omega
  | link d rest ihr =>
    intro h I top ps seen path c R o a ht hroot
    have inv := R.good.inv
    unfold Items.essential FileIcon.visitItems
    rw [link_essential]
    refine same_bind rfl fun I1 h1 e1 => ?_
    have D := link_does R o a d
    have R1 : Reach E h1 := D.reach_of e1
    obtain ⟨es, N⟩ := D.2 _ _ e1
    have s1 := N.on.size
    refine ihr R1 N.ok (a.onward inv N.on N.kept) (by rw [N.kept.root]; exact ht) ?_
    intro x hx
    rw [N.kept.root] at hx
    have := hroot x hx
    omega
  | joint j rest ihr =>
    intro h I top ps seen path c R o a ht hroot
    have inv := R.good.inv
    unfold Items.essential FileIcon.visitItems
    refine same_bind rfl fun I1 h1 e1 => ?_
    have D := joint_does R o a j
    have R1 : Reach E h1 := D.reach_of e1
    obtain ⟨es, N⟩ := D.2 _ _ e1
    have s1 := N.on.size
    refine ihr R1 N.ok (a.onward inv N.on N.kept) (by rw [N.kept.root]; exact ht) ?_
    intro x hx
    rw [N.kept.root] at hx
    have := hroot x hx
    omega
  | params qs rest ihr =>
    intro h I top ps seen path c R o a ht hroot
    have inv := R.good.inv
    cases top with
    | true =>
      unfold Items.essential FileIcon.visitItems
      refine same_bind rfl fun _ h1 e1 => ?_
      have D := params_top_does (ht.1 rfl) qs R o a
      have R1 : Reach E h1 := D.reach_of e1
      have N := D.2 _ _ e1
      have s1 := N.on.size
      exact ihr R1 N.ok (a.onward inv N.on (.refl path I)) ht fun x hx => by have := hroot x hx; omega
    | false =>
      have ht' : some c ≠ I.root := fun e => by have := ht.2 e; cases this
      unfold Items.essential
      rw [ihr R o a ht hroot]
      conv => rhs; unfold FileIcon.visitItems
      rw [bind_ok (params_low_same ht' a.cached qs)]
  | skipped rest ihr =>
    intro h I top ps seen path c R o a ht hroot
    unfold Items.essential
    rw [ihr R o a ht hroot]
    rfl

theorem visit_essential {E : Env} {h : Heap} {I : FileIcon} {w : Ref} (R : Reach E h) (o : IconNewborn h I w)
    (f : EntityDecl) : I.visit E f.essential h = I.visit E f h := by
  have inv := R.good.inv
  have plt := o.ok.plt
  unfold FileIcon.visit
  refine same_bind rfl fun x h1 e1 => ?_
  have D := root_does R o.ok.fac f.name
  have R1 : Reach E h1 := D.reach_of e1
  obtain ⟨rfl, M⟩ := D.2 _ _ e1
  have s1 := M.size
  have inv1 := R1.good.inv
  have o1 := o.ok.onward inv M.later (M.later.only _ plt (by simp))
  refine same_bind rfl fun _ h2 e2 => ?_
  have D2 := (sem_does R1 o.ok.cog "cognitiveentity".toList f.name (p := h.size) (by omega) (by rw [M.kind]; simp)
    [("name".toList, .str f.name)] none).void
  have R2 : Reach E h2 := D2.reach_of e2
  obtain ⟨_, rfl, k, hk, M2⟩ := D2.2 _ _ e2
  cases hk
  have s2 := M2.size
  have inv2 := R2.good.inv
  have o2 := o1.onward inv1 M2.later (M2.parts_ne (by omega) (by omega))
  refine same_bind rfl fun I2 h3 e3 => ?_
  have D3 := remember_does R2 { I with root := some h.size } h.size
  obtain ⟨rfl, rfl⟩ := D3.2 _ _ e3
  have kx : (h2.get h.size).kind = .node := by rw [M2.later.kind _ (by omega), M.kind]
  have qx : (h2.get h.size).qualName = f.name := by rw [M2.later.qualName _ (by omega), M.qualName]
  rw [qx]
  show FileIcon.visitItems E [f.name] _ (f.body.essential true) h2 = FileIcon.visitItems E [f.name] _ f.body h2
  generalize hw : (if f.name = "world".toList then h.size else w) = w'
  generalize hI : ({ I with root := some h.size, cache := I.cache.set f.name h.size } : FileIcon) = I2
  have e1 : I2.root = some h.size := by rw [← hI]
  have e2 : I2.params = I.params := by rw [← hI]
  have e3 : I2.cache = I.cache.set f.name h.size := by rw [← hI]
  have e4 : I2.fac = I.fac := by rw [← hI]
  have e5 : I2.cog = I.cog := by rw [← hI]
  have e6 : I2.refs = I.refs := by rw [← hI]
  have o3 : IconOk h2 I2 w' [] [] := by
    refine ⟨by rw [e4]; exact o2.fac, by rw [e5]; exact o2.cog, ?_, ?_, by rw [e2]; exact o2.plt,
      by rw [e2]; exact o2.pkind, by rw [e2]; exact o2.params, by rw [e6]; exact o2.refs⟩
    · intro k y hy
      rw [e3, Dict.get?_set] at hy
      split at hy
      · next e =>
        cases hy
        exact ⟨by omega, .inl ⟨kx, by rw [qx, e]⟩⟩
      · exact o2.cache k y hy
    · rw [e3, Dict.get?_set, ← hw]
      split
      · rfl
      · exact o2.world
  have a3 : At h2 I2 [f.name] h.size := by
    refine ⟨by simp, ?_, kx, M2.later.path inv1 (by omega) M.path, by rw [e2]; omega⟩
    rw [e3]
    unfold pathKey
    rw [Str.join_singleton]
    exact Dict.get?_set_self _ _ _
  exact items_essential f.body R2 o3 a3 (by simp [e1]) (by intro y hy; rw [e1] at hy; cases hy; omega)

/-- **C82.** Reading a file gives, error or not, exactly what reading it without its plain nodes and edges, templates,
ports and ambience edges (`skipped`), without its inertia matrices and without the parameters below the entity gives. -/
theorem C82_ignored {E : Env} {h : Heap} (R : Reach E h) (nm : Str) (ck : Clock) (f : EntityDecl) :
    readFile E nm ck f h = readFile E nm ck f.essential h := by
  unfold readFile
  refine same_bind rfl fun I h1 e => ?_
  have D := newFileIcon_does R nm ck
  have R1 : Reach E h1 := D.reach_of e
  exact (visit_essential R1 (D.2 _ _ e).1 f).symm

/-- C82: a file and its essence. -/
example : (EntityDecl.mk ['e'] (.params [(['R'], 1)] (.kinematic ['k'] (.params [(['X'], 9)] (.link ⟨['l'], none, some ⟨1,
      some (.vec [.num 1]), []⟩⟩ .nil)) (.skipped .nil)))).essential =
    EntityDecl.mk ['e'] (.params [(['R'], 1)] (.kinematic ['k'] (.link ⟨['l'], none, some ⟨1, none, []⟩⟩ .nil) .nil)) := by
  decide

end Rei
