import Verif.Lemmas.Factory
import Verif.Model.Encoding

/-!
# Attaching newly created objects, one by one
-/
namespace Rei
open PyM

/-- The effect of `add_element` on a leaf without container. -/
structure Leafed (c x : Ref) (h h' : Heap) : Prop where
  size : h'.size = h.size
  nlists : h'.nlists = h.nlists
  lists : h'.lists = h.lists
  others : ∀ y, y ≠ c → y ≠ x → h'.get y = h.get y
  new : (h'.get x).core =
    ({ h.get x with parent := some c, cid := (h.get c).hist, depth := (h.get c).depth + 1 } : Obj).core
  cont : ∃ sr, h'.get c = { attachObj (h.get c) (h.get x) x with subRels := sr }
  named : NamedByPath h' x

theorem Inv.no_child_of_leaf {h : Heap} (I : Inv h) {x : Ref} (hs : (h.get x).subs = []) (y : Ref) :
    (h.get y).parent ≠ some x := by
  intro hy
  have := (SInv.mem I x (h.get y).uuid y).2 ⟨hy, rfl⟩
  change (_, y) ∈ (h.get x).subs at this
  rw [hs] at this
  cases this

theorem addElement_leaf {h : Heap} (I : Inv h) (E : Env) {c x : Ref} (hc : c < h.size)
    (hx : x < h.size) (hcx : x ≠ c) (hpx : (h.get x).parent = none) (hsx : (h.get x).subs = [])
    (hk : (h.get c).kind ≠ .relation) (hd : (h.get x).uuid ∉ (h.get c).subs.keys)
    (hrel : (h.get c).kind = .edge → (h.get x).kind = .relation → (h.get c).genCtx ≠ none) :
    ∃ h', addElement E c x h = (.ok (), h') ∧ Leafed c x h h' := by
  have hnc := I.no_child_of_leaf hsx
  have S : AddSafe h c x := by
    refine ⟨?_, fun p hp => by rw [hpx] at hp; cases hp⟩
    intro q
    obtain ⟨b, hb, _⟩ := q.cases_down
    exact hnc b hb
  obtain ⟨h1, h1r, sim, _, hq⟩ := I.baseAdd E hc hx hcx hd S.1 S.2
  have Ig := I.moveH hc hx hcx hd S.1
  have hl : leaveH h x = h := by unfold leaveH; rw [hpx]
  have hm : moveH h c x = attachH h c x := by unfold moveH; rw [hl]
  have hw : ∀ y, Within (moveH h c x) x y → y = x := by
    rintro y (q | q)
    · exact q
    · exfalso
      obtain ⟨b, hb, _⟩ := q.cases_down
      rw [moveH_parent _ _ _ _ I] at hb
      split at hb
      · cases hb; exact hcx rfl
      · exact hnc b hb
  have L : Leafed c x h h1 := by
    refine ⟨by rw [sim.size, moveH_size], by rw [sim.nlists, hm]; rfl, by rw [sim.lists, hm]; rfl, ?_, ?_,
      ?_, ?_⟩
    · intro y h1 h2
      rw [sim.same y (fun w => h2 (hw y w)), hm]
      unfold attachH
      simp [h1, h2]
    · rw [sim.core, hm]
      unfold attachH
      simp
    · refine ⟨(h.get c).subRels, ?_⟩
      rw [sim.same c (fun w => hcx (hw c w).symm), hm]
      unfold attachH
      simp [Ne.symm hcx, attachObj]
    · obtain ⟨l, hl, _⟩ := Ig.exists_path (x := x) (by rw [moveH_size]; exact hx)
      exact ⟨l, sim.pathTo hl, hq _ (.inl rfl) l hl⟩
  have hkx : (h1.get x).kind = (h.get x).kind := by rw [sim.kind, moveH_kind]
  by_cases hk' : (h.get c).kind = .edge
  · rw [addElement_edge hk', bind_ok h1r, obj_bind_run]
    by_cases hr : (h1.get x).kind = .relation
    · rw [if_pos hr, obj_bind_run]
      have hg := hrel hk' (by rw [← hkx]; exact hr)
      rw [← moveH_genCtx h c x c, ← sim.genCtx] at hg
      cases hg' : (h1.get c).genCtx with
      | none => exact absurd hg' hg
      | some _ =>
        refine ⟨_, rfl, ?_⟩
        refine ⟨L.size, L.nlists, L.lists, ?_, ?_, ?_, ?_⟩
        · intro y h1 h2
          simp only [Heap.get_mod, if_neg h1]
          exact L.others y h1 h2
        · simp only [Heap.get_mod, if_neg hcx]; exact L.new
        · obtain ⟨sr, e⟩ := L.cont
          simp only [Heap.get_mod, if_true]
          rw [e]
          exact ⟨_, rfl⟩
        · obtain ⟨l, hl, e⟩ := L.named
          refine ⟨l, hl.transfer (fun y => ?_) (fun y => ?_), ?_⟩
          · simp only [Heap.get_mod]; split
            · next e => subst e; rfl
            · rfl
          · simp only [Heap.get_mod]; split
            · next e => subst e; rfl
            · rfl
          · simp only [Heap.get_mod, if_neg hcx]; exact e
    · rw [if_neg hr]; exact ⟨_, rfl, L⟩
  · rw [addElement_plain hk hk']; exact ⟨_, h1r, L⟩

/-- The program state grew by one object `o`, attached to `c`. -/
structure Grown1 (c : Option Ref) (o : Obj) (h h' : Heap) : Prop where
  size : h'.size = h.size + 1
  nlists : h.nlists ≤ h'.nlists
  lists : ∀ l < h.nlists, h'.lists l = h.lists l
  others : ∀ y < h.size, c ≠ some y → h'.get y = h.get y
  new : (h'.get h.size).core = ({ o with
    parent := c, cid := (h'.get h.size).cid, depth := (h'.get h.size).depth } : Obj).core
  cont : ∀ q, c = some q → ∃ i n k sr, h'.get q =
    { h.get q with subs := (h.get q).subs ++ [(o.uuid, h.size)], index := i, cnt := n, hist := k, subRels := sr }
  named : NamedByPath h' h.size
  depth : (h'.get h.size).depth = match c with
    | none => o.depth
    | some q => (h.get q).depth + 1

/-- A newly created root object. -/
theorem attach_new {E : Env} {h h1 : Heap} (I : Inv h1) {o : Obj} (hos : o.subs = [])
    (g : Grown1 none o h h1) {c : Ref} (hc : c < h.size)
    (hk : (h.get c).kind ≠ .relation) (hd : o.uuid ∉ (h.get c).subs.keys)
    (hrel : (h.get c).kind = .edge → o.kind = .relation → (h.get c).genCtx ≠ none) :
    ∃ h2, addElement E c h.size h1 = (.ok (), h2) ∧ Grown1 (some c) o h h2 := by
  have hco : h1.get c = h.get c := g.others c hc (by simp)
  have hsz := g.size
  have n1 : (h1.get h.size).parent = none := by
    have := congrArg Obj.parent g.new; exact this
  have n2 : (h1.get h.size).subs = [] := by
    have := congrArg Obj.subs g.new; exact this.trans hos
  have n3 : (h1.get h.size).uuid = o.uuid := by
    have := congrArg Obj.uuid g.new; exact this
  have n4 : (h1.get h.size).kind = o.kind := by
    have := congrArg Obj.kind g.new; exact this
  obtain ⟨h2, hr, L⟩ := addElement_leaf I E (c := c) (x := h.size) (by omega) (by omega) (by omega) n1 n2
    (by rw [hco]; exact hk) (by rw [hco, n3]; exact hd) (by rw [hco, n4]; exact hrel)
  refine ⟨h2, hr, by rw [L.size, hsz], by rw [L.nlists]; exact g.nlists, ?_, ?_, ?_, ?_, L.named,
    by show _ = (h.get c).depth + 1; have := congrArg Obj.depth L.new; rw [← hco]; exact this⟩
  · intro l hl; rw [L.lists]; exact g.lists l hl
  · intro y hy hne
    rw [L.others y (by rintro rfl; exact hne rfl) (by omega)]
    exact g.others y hy (by simp)
  · have e1 := Obj.core_eq_iff.1 L.new
    have e2 := Obj.core_eq_iff.1 g.new
    rw [Obj.core_eq_iff]
    rw [e1, e2]
  · rintro q ⟨⟩
    obtain ⟨sr, e⟩ := L.cont
    rw [e, hco]
    unfold attachObj
    rw [n3, Dict.set_of_not_mem _ hd]
    exact ⟨_, _, _, sr, rfl⟩

/-- What a constructor of a class with a clock leaves behind, without container. -/
def builtObj (k : Kind) (nm : Str) (u : Bytes) (pn : PName) (ck : Clock) : Obj :=
  { conceptualObj k nm u pn (some ck) with genCtx := if k.isHElement then some nm else none }

theorem new_conceptual {E : Env} {h : Heap} (G : Good h) (k : Kind) (nm : Str) (u : Bytes) (pn : PName)
    (ck : Clock) : ∃ h1, newConceptual E k nm u pn (some ck) none h = (.ok h.size, h1) ∧
      Grown1 none (builtObj k nm u pn ck) h h1 := by
  have F : Fresh (conceptualObj k nm u pn (some ck)) := fresh_conceptual
  obtain ⟨h1, G1, hsim, hrd, hqn, hrun⟩ := newConceptual_start (E := E) G k nm u pn ck none
  have hsz : h1.size = h.size + 1 := by rw [hsim.size]; rfl
  have new := hsim.core h.size
  rw [allocH_get, if_pos rfl] at new
  have old : ∀ y < h.size, h1.get y = h.get y := by
    intro y hy
    rw [hsim.same y (by omega), allocH_get_lt hy]
  have hxp : (h1.get h.size).parent = none := congrArg Obj.parent new
  have nn : (h1.get h.size).idName = nm := congrArg Obj.idName new
  have nq : (h1.get h.size).qualName = nm := by rw [hqn, allocH_get, if_pos rfl]; rfl
  have e1 := Obj.core_eq_iff.1 new
  rw [hrun]
  simp only [adopt, pure_bind_run]
  by_cases hH : k.isHElement = true
  · rw [if_pos hH]
    refine ⟨_, rfl, hsz, by rw [Heap.nlists_mod, hsim.nlists]; exact Nat.le_refl _,
      fun l _ => by rw [Heap.lists_mod, hsim.lists]; rfl, ?_, ?_, ?_, ?_, ?_⟩
    · intro y hy _
      rw [Heap.get_mod, if_neg (by omega)]
      exact old y hy
    · simp only [Heap.get_mod, if_true]
      rw [e1]
      simp only [builtObj, if_pos hH]
      rfl
    · rintro q ⟨⟩
    · refine ⟨[nm], ?_, ?_⟩
      · have e : ((h1.mod h.size fun o => { o with genCtx := some nm }).get h.size).idName = nm := by
          simp [nn]
        have := PathTo.root (h := h1.mod h.size fun o => { o with genCtx := some nm }) (x := h.size)
          (by simp [hxp])
        rwa [e] at this
      · simp only [Heap.get_mod, if_true]
        rw [nq]
        rfl
    · simp only [Heap.get_mod, if_true]
      have := congrArg Obj.depth new
      exact this
  · rw [if_neg hH]
    refine ⟨_, rfl, hsz, by rw [hsim.nlists]; exact Nat.le_refl _, fun l _ => by rw [hsim.lists]; rfl,
      fun y hy _ => old y hy, ?_, ?_, ?_, by have := congrArg Obj.depth new; exact this⟩
    · rw [e1]
      simp only [builtObj, if_neg hH]
      rfl
    · rintro q ⟨⟩
    · refine ⟨[nm], ?_, ?_⟩
      · rw [← nn]; exact .root hxp
      · rw [nq]; rfl

theorem new_conceptual_in {E : Env} {h : Heap} (G : Good h) {k : Kind} (nm : Str) (u : Bytes) (pn : PName)
    (ck : Clock) {c : Ref} (hc : c < h.size) (hk : (h.get c).kind ≠ .relation)
    (hd : u ∉ (h.get c).subs.keys) (hkk : k ≠ .relation) :
    ∃ h1, newConceptual E k nm u pn (some ck) (some c) h = (.ok h.size, h1) ∧
      Grown1 (some c) (builtObj k nm u pn ck) h h1 := by
  obtain ⟨h1, G1, hsim, hrd, hqn, hrun⟩ := newConceptual_start (E := E) G k nm u pn ck (some c)
  have hsz : h1.size = h.size + 1 := by rw [hsim.size]; rfl
  have new := hsim.core h.size
  rw [allocH_get, if_pos rfl] at new
  have old : ∀ y < h.size, h1.get y = h.get y := by
    intro y hy
    rw [hsim.same y (by omega), allocH_get_lt hy]
  have nq : (h1.get h.size).qualName = nm := by rw [hqn, allocH_get, if_pos rfl]; rfl
  have nn : (h1.get h.size).idName = nm := congrArg Obj.idName new
  have g1 : Grown1 none (conceptualObj k nm u pn (some ck)) h h1 := by
    refine ⟨hsz, by rw [hsim.nlists]; exact Nat.le_refl _, fun l _ => by rw [hsim.lists]; rfl,
      fun y hy _ => old y hy, ?_, ?_, ?_, by have := congrArg Obj.depth new; exact this⟩
    · have e1 := Obj.core_eq_iff.1 new
      rw [e1]; rfl
    · rintro q ⟨⟩
    · refine ⟨[nm], ?_, ?_⟩
      · rw [← nn]; exact .root (congrArg Obj.parent new)
      · rw [nq]; rfl
  obtain ⟨h2, hr, g2⟩ := attach_new (E := E) G1.inv rfl g1 hc hk hd (fun _ q => absurd q hkk)
  rw [hrun]
  simp only [adopt]
  rw [bind_ok hr]
  have e2 := Obj.core_eq_iff.1 g2.new
  have hcne : c ≠ h.size := by omega
  by_cases hH : k.isHElement = true
  · rw [if_pos hH]
    refine ⟨_, rfl, g2.size, g2.nlists, g2.lists, ?_, ?_, ?_, ?_, by
      simp only [Heap.get_mod, if_true]; exact g2.depth⟩
    · intro y hy hne
      rw [Heap.get_mod, if_neg (by omega)]
      exact g2.others y hy hne
    · simp only [Heap.get_mod, if_true]
      rw [e2]
      simp only [builtObj, if_pos hH]
      rfl
    · rintro q ⟨⟩
      simp only [Heap.get_mod, if_neg hcne]
      exact g2.cont c rfl
    · obtain ⟨l, hl, e⟩ := g2.named
      refine ⟨l, hl.transfer (fun y => ?_) (fun y => ?_), ?_⟩
      · simp only [Heap.get_mod]; split
        · next e => subst e; rfl
        · rfl
      · simp only [Heap.get_mod]; split
        · next e => subst e; rfl
        · rfl
      · simp only [Heap.get_mod, if_true]; exact e
  · rw [if_neg hH]
    refine ⟨_, rfl, g2.size, g2.nlists, g2.lists, g2.others, ?_, g2.cont, g2.named, g2.depth⟩
    rw [e2]
    simp only [builtObj, if_neg hH]
    rfl

theorem new_plain {h : Heap} {o : Obj} (hp : o.parent = none) (hq : o.qualName = o.idName) :
    ∃ h1, alloc o h = (.ok h.size, h1) ∧ Grown1 none o h h1 := by
  refine ⟨_, alloc_run o h, rfl, Nat.le_refl _, fun _ _ => rfl, ?_, ?_, ?_, ?_, by simp⟩
  · intro y hy _
    simp [Nat.ne_of_lt hy]
  · simp [← hp]
  · rintro q ⟨⟩
  · refine ⟨[o.idName], ?_, ?_⟩
    · have e : (({ (h.set h.size o) with size := h.size + 1 } : Heap).get h.size).idName = o.idName := by simp
      have := PathTo.root (h := { (h.set h.size o) with size := h.size + 1 }) (x := h.size) (by simp [hp])
      rwa [e] at this
    · simp only [Heap.get_set, if_true]
      rw [hq]
      rfl

/-- The object of a value node. -/
def valueObj (u : Bytes) (nm : Str) (pn : PName) (vs : List Rat) (l : Nat) : Obj :=
  { kind := .value, uuid := u, idName := nm, progenitor := pn, qualName := nm, vals := l, dim := vs.length }

theorem new_value {h : Heap} (u : Bytes) (nm : Str) (pn : PName) (vs : List Rat) :
    ∃ h1, newValue u nm pn (some vs) h = (.ok h.size, h1) ∧ Grown1 none (valueObj u nm pn vs h.nlists) h h1 ∧
      h1.nlists = h.nlists + 1 ∧ h1.lists h.nlists = vs := by
  unfold newValue
  have hl : newList ((some vs).getD []) h = (.ok h.nlists,
    { h with nlists := h.nlists + 1, lists := fun i => if i = h.nlists then vs else h.lists i }) := rfl
  rw [bind_ok hl]
  obtain ⟨h1, hr, g⟩ := new_plain (h := { h with nlists := h.nlists + 1, lists := fun i => if i = h.nlists then vs else h.lists i })
    (o := valueObj u nm pn vs h.nlists) rfl rfl
  rw [alloc_run] at hr
  cases hr
  refine ⟨_, rfl, ⟨g.size, Nat.le_succ _, ?_, g.others, g.new, g.cont, g.named, g.depth⟩, rfl, ?_⟩
  · intro l hl
    simp [Nat.ne_of_lt hl]
  · simp

theorem PathTo.transfer_lt {h h' : Heap} (I : Inv h) {x : Ref} {l : List Str} (p : PathTo h x l) (hx : x < h.size)
    (hp : ∀ y < h.size, (h'.get y).parent = (h.get y).parent)
    (hn : ∀ y < h.size, (h'.get y).idName = (h.get y).idName) : PathTo h' x l := by
  induction p with
  | root q => rw [← hn _ hx]; exact .root (by rw [hp _ hx]; exact q)
  | child q _ ih => rw [← hn _ hx]; exact .child (by rw [hp _ hx]; exact q) (ih (I.parent_lt q))

theorem reach_newConceptual {E : Env} {h : Heap} (R : Reach E h) {k : Kind} (hk : k.isConceptual = true) (nm : Str)
    (u : Bytes) (pn : PName) (ck : Option Clock) {p : Option Ref} (hp : okRef h p) :
    Reach E (newConceptual E k nm u pn ck p h).2 := by
  have := Reach.step (E := E) (.mkItem k nm u pn ck p) R ⟨hk, hp⟩ trivial
  unfold Op.after at this
  rwa [Op.run, void_run] at this

theorem reach_newRelation {E : Env} {h : Heap} (R : Reach E h) (u : Bytes) (nm : Str) (pn : PName)
    {ep : Option Ref} (hp : okRef h ep) (d : Dir) :
    Reach E (newRelation u nm pn ep none d none h).2 := by
  have := Reach.step (E := E) (.mkRelation u nm pn ep none d none) R
    ⟨hp, (by simp [okRef]), (by simp [okRef])⟩ trivial
  unfold Op.after at this
  rwa [Op.run, void_run] at this

theorem reach_newValue {E : Env} {h : Heap} (R : Reach E h) (u : Bytes) (nm : Str) (pn : PName)
    (vs : Option (List Rat)) : Reach E (newValue u nm pn vs h).2 := by
  have := Reach.step (E := E) (.mkValue u nm pn vs) R trivial trivial
  unfold Op.after at this
  rwa [Op.run, void_run] at this

theorem reach_add {E : Env} {h : Heap} (R : Reach E h) {c x : Ref} (hc : c < h.size) (hx : x < h.size)
    (S : AddSafe h c x) : Reach E (addElement E c x h).2 :=
  Reach.step (E := E) (.add c x) R ⟨hc, hx⟩ S

/-- Adding a leaf without container is always safe. -/
theorem addSafe_leaf {h : Heap} (I : Inv h) {c x : Ref} (hp : (h.get x).parent = none) (hs : (h.get x).subs = []) :
    AddSafe h c x := by
  refine ⟨?_, fun p hp' => by rw [hp] at hp'; cases hp'⟩
  intro q
  obtain ⟨b, hb, _⟩ := q.cases_down
  exact I.no_child_of_leaf hs b hb

end Rei
