import Verif.Lemmas.ReadLink

/-!
# Reading a CogniLang file: joints
-/
namespace Rei
open PyM

/-- Between `h0` and `h` only semantic elements were made, those in `c` being `ss`. -/
structure Gathered (c : Ref) (h0 h : Heap) (ss : List Ref) : Prop where
  on : Onward h0.size [c] h0 h
  parts : h.parts c = h0.parts c ++ ss
  sems : ∀ x, h0.size ≤ x → x < h.size → ∃ sk, (h.get x).kind = .semantic sk
  fresh : ∀ s ∈ ss, h0.size ≤ s
  nodup : ss.Nodup

theorem Gathered.refl (c : Ref) (h : Heap) : Gathered c h h [] :=
  ⟨.refl _ _ _, by simp, fun x a b => by omega, by simp, .nil⟩

theorem Gathered.old {c : Ref} {h0 h : Heap} {ss : List Ref} (g : Gathered c h0 h ss) {x : Ref} (hx : x < h.size)
    (hk : ∀ sk, (h.get x).kind ≠ .semantic sk) : x < h0.size := by
  apply Decidable.byContradiction
  intro hn
  obtain ⟨sk, h⟩ := g.sems x (by omega) hx
  exact hk sk h

theorem index_sub {h : Heap} (I : Inv h) {c : Ref} {n : Str} :
    (((h.get c).index.get? n).getD []).values = (h.subelements c).filter fun x => decide ((h.get x).idName = n) := by
  have := I.index c n
  change ((h.get c).index.get? n).getD [] = (h.get c).subs.filter (fun p => decide ((h.get p.2).idName = n)) at this
  rw [this]
  unfold Heap.subelements Dict.values
  rw [List.filter_map]
  rfl

theorem find?_filter_of {α : Type} {p q : α → Bool} {t : α} : ∀ {l : List α}, l.find? q = some t → p t = true →
    (l.filter p).find? q = some t := by
  intro l
  induction l with
  | nil => intro h _; cases h
  | cons a l ih =>
    intro h hp
    rw [List.find?_cons] at h
    cases hq : q a with
    | true => rw [hq] at h; cases h; rw [List.filter_cons, if_pos hp, List.find?_cons, hq]
    | false =>
      rw [hq] at h
      rw [List.filter_cons]
      split
      · rw [List.find?_cons, hq]; exact ih h hp
      · exact ih h hp

theorem lookup_leads {h0 h : Heap} (I0 : Inv h0) (I : Inv h) {c0 : Ref} {ss : List Ref} (g : Gathered c0 h0 h ss)
    {t : Ref} (ht : (h.get t).kind.isHElement = true) : ∀ (ns : List Str) (c : Ref), c < h0.size → ∀ l,
    lookupTokens h ns c = .ok l → t ∈ l → LeadsBy h0 c ns t := by
  have down : ∀ {c x : Ref} {n : Str}, x ∈ (((h.get c).index.get? n).getD []).values →
      (h.get x).kind ≠ .port → (∀ sk, (h.get x).kind ≠ .semantic sk) →
      x ∈ h0.parts c ∧ (h0.get x).idName = n ∧ x < h0.size := by
    intro c x n hx hp hs
    rw [index_sub I, List.mem_filter] at hx
    have par := (I.mem_subelements c x).1 hx.1
    have lt := g.old (I.lt_of_parent par) hs
    rw [g.on.parent x lt] at par
    refine ⟨mem_parts.2 ⟨(I0.mem_subelements c x).2 par, by rw [← g.on.kind x lt]; exact hp⟩, ?_, lt⟩
    rw [← g.on.idName x lt]
    simpa using hx.2
  have tp : (h.get t).kind ≠ .port := fun e => by rw [e] at ht; cases ht
  have ts : ∀ sk, (h.get t).kind ≠ .semantic sk := fun sk e => by rw [e] at ht; cases ht
  intro ns
  induction ns with
  | nil => intro c _ l hl; cases hl
  | cons n ns ih =>
    intro c hc l hl htl
    cases ns with
    | nil =>
      unfold lookupTokens at hl
      split at hl
      · cases hl
        obtain ⟨a, b, -⟩ := down htl tp ts
        exact .last a b
      · cases hl
    | cons n' ns =>
      unfold lookupTokens at hl
      split at hl
      · split at hl
        · cases hl
        · next d hd =>
          cases hm : d.values.mapM (lookupTokens h (n' :: ns)) with
          | error er => rw [hm] at hl; cases hl
          | ok ll =>
            rw [hm] at hl
            cases hl
            obtain ⟨l1, hl1, ht1⟩ := List.mem_flatten.1 htl
            obtain ⟨x, hx, e⟩ : ∃ x ∈ d.values, lookupTokens h (n' :: ns) x = .ok l1 := by
              clear htl hd
              generalize d.values = vs at hm
              induction vs generalizing ll with
              | nil => cases hm; cases hl1
              | cons v vs ihv =>
                rw [List.mapM_cons] at hm
                cases hv : lookupTokens h (n' :: ns) v with
                | error er => rw [hv] at hm; cases hm
                | ok lv =>
                  cases hvs : vs.mapM (lookupTokens h (n' :: ns)) with
                  | error er => rw [hv, hvs] at hm; cases hm
                  | ok lvs =>
                    rw [hv, hvs] at hm
                    cases hm
                    rcases List.mem_cons.1 hl1 with e | e
                    · subst e; exact ⟨v, by simp, hv⟩
                    · obtain ⟨x, hx, ex⟩ := ihv lvs e hvs
                      exact ⟨x, by simp [hx], ex⟩
            have hc' : (h.get x).kind.isConceptual = true := by
              apply Decidable.byContradiction
              intro hn
              cases ns <;> (unfold lookupTokens at e; rw [if_neg hn] at e; cases e)
            have hx' : x ∈ (((h.get c).index.get? n).getD []).values := by rw [hd]; exact hx
            obtain ⟨a, b, lt⟩ := down hx' (fun e => by rw [e] at hc'; cases hc') (fun sk e => by rw [e] at hc'; cases hc')
            exact .next a b (ih x lt l1 e ht1)
      · cases hl

/-- An element that is found exists. -/
theorem lookup_lt {h : Heap} (inv : Inv h) : ∀ (ns : List Str) (c : Ref) (l : List Ref), lookupTokens h ns c = .ok l →
    ∀ t ∈ l, t < h.size := by
  intro ns
  induction ns with
  | nil => intro c l hl; cases hl
  | cons n ns ih =>
    intro c l hl t ht
    cases ns with
    | nil =>
      unfold lookupTokens at hl
      split at hl
      · cases hl
        rw [index_sub inv, List.mem_filter] at ht
        exact inv.lt_of_parent ((inv.mem_subelements c t).1 ht.1)
      · cases hl
    | cons n' ns =>
      unfold lookupTokens at hl
      split at hl
      · split at hl
        · cases hl
        · next d hd =>
          cases hm : d.values.mapM (lookupTokens h (n' :: ns)) with
          | error er => rw [hm] at hl; cases hl
          | ok ll =>
            rw [hm] at hl
            cases hl
            clear hd
            generalize d.values = vs at hm
            induction vs generalizing ll with
            | nil => cases hm; cases ht
            | cons v vs ihv =>
              rw [List.mapM_cons] at hm
              cases hv : lookupTokens h (n' :: ns) v with
              | error er => rw [hv] at hm; cases hm
              | ok lv =>
                cases hvs : vs.mapM (lookupTokens h (n' :: ns)) with
                | error er => rw [hv, hvs] at hm; cases hm
                | ok lvs =>
                  rw [hv, hvs] at hm
                  cases hm
                  rw [List.flatten_cons] at ht
                  rcases List.mem_append.1 ht with e | e
                  · exact ih v lv hv t e
                  · exact ihv lvs e hvs
      · cases hl

/-- What the reader takes for a reference is what the reference means, if it can be connected at all. -/
theorem endpoint_does {E : Env} {h0 h : Heap} {I : FileIcon} {w : Ref} {ps : Params} {seen : List Str} (R0 : Reach E h0)
    (R : Reach E h) (o : IconOk h I w ps seen) {c : Ref} (hc : c < h0.size) {ss : List Ref} (g : Gathered c h0 h ss)
    (ref : Str) : Does E (I.endpoint c ref) h fun t h' => h = h' ∧ t < h.size ∧
      ((h.get t).kind.isHElement = true → IsEndpoint h0 w c ref t) := by
  have I0 := R0.good.inv
  have inv := R.good.inv
  unfold FileIcon.endpoint
  split
  · next e =>
    unfold FileIcon.cached
    rw [o.world]
    refine .pure R ⟨rfl, (o.cache _ _ o.world).1, fun _ => ?_⟩
    unfold IsEndpoint
    rw [if_pos e]
  · next e =>
    refine (Does.heap R).bind fun _ h1 R1 q => ?_
    obtain ⟨rfl, rfl⟩ := q
    refine (Does.liftE R).bind fun l h1 R1 q => ?_
    obtain ⟨rfl, hl⟩ := q
    cases l with
    | nil => exact .raise R
    | cons t l =>
      unfold getElementByIdName at hl
      refine .pure R ⟨rfl, ?_, fun ht => ?_⟩
      · -- an element that is found exists
        exact lookup_lt inv _ _ _ hl t (by simp)
      · unfold IsEndpoint
        rw [if_neg e]
        split
        · next n hn =>
          rw [hn] at hl
          unfold lookupTokens at hl
          split at hl
          · have hl' := Except.ok.inj hl
            rw [index_sub inv] at hl'
            have f1 : (h.subelements c).find? (fun x => decide ((h.get x).idName = n)) = some t := by
              rw [← List.head?_filter, hl']; rfl
            have f2 : (h.parts c).find? (fun x => decide ((h.get x).idName = n)) = some t :=
              find?_filter_of f1 (by simp; intro e'; rw [e'] at ht; cases ht)
            rw [g.parts, List.find?_append] at f2
            have key : (h0.parts c).find? (fun x => decide ((h.get x).idName = n)) =
                (h0.parts c).find? (fun x => decide ((h0.get x).idName = n)) := by
              have : ∀ l : List Ref, (∀ x ∈ l, x < h0.size) → l.find? (fun x => decide ((h.get x).idName = n)) =
                  l.find? (fun x => decide ((h0.get x).idName = n)) := by
                intro l
                induction l with
                | nil => intro _; rfl
                | cons x l ih =>
                  intro hl
                  rw [List.find?_cons, List.find?_cons, g.on.idName x (hl x (by simp)), ih fun y hy => hl y (by simp [hy])]
              exact this _ fun x hx => I0.parts_lt hx
            rw [key] at f2
            cases h1 : (h0.parts c).find? (fun x => decide ((h0.get x).idName = n)) with
            | some t' => rw [h1] at f2; exact f2
            | none =>
              rw [h1] at f2
              have tm : t ∈ ss := List.mem_of_find?_eq_some f2
              have tl : t < h.size := inv.parts_lt (x := c) (by rw [g.parts]; simp [tm])
              obtain ⟨sk, hk⟩ := g.sems t (g.fresh t tm) tl
              rw [hk] at ht; cases ht
          · cases hl
        · exact lookup_leads I0 inv g ht _ c hc _ hl (by simp)

/-- A relation of a joint that is ready to be connected. -/
structure Ready (c : Ref) (w : Ref) (ps : Params) (name : Str) (h0 h : Heap) (j : JointRel) (l : Link) (s : Ref) :
    Prop where
  sem : l.sem = some s
  dir : j.dir = arrow l.dir
  fresh : h0.size ≤ s
  parent : (h.get s).parent = some c
  lt : l.node < h.size
  target : (h.get l.node).kind.isHElement = true → IsEndpoint h0 w c j.ref l.node
  attrs : ∃ ts a, l.weight = ts.head? ∧ AxisMeans ps j.axis a ∧ IsSem h s .kinJoint (name ++ '.' :: j.ref) (jointAttrs j.type a) ts ∧
    ShowsPose h ps (name ++ '.' :: j.ref) j.pose ts

/-- Writing the axis. -/
theorem axis_does {E : Env} {h : Heap} {I : FileIcon} {w : Ref} {ps : Params} {seen : List Str} (R : Reach E h)
    (o : IconOk h I w ps seen) {s : Ref} {nm ty : Str}
    (hs : IsSem h s .kinJoint nm [("joint_type".toList, .str ty)] []) (ax : Option (List FVal)) :
    Does E (I.setAxis s ax) h fun _ h' => IconOk h' I w ps seen ∧ (∀ N ≤ s, ∀ D, Onward N D h h') ∧ h'.size = h.size ∧
      (∀ x, h'.parts x = h.parts x) ∧ (∀ x, (h'.get x).kind = (h.get x).kind) ∧
      (∀ x, (h'.get x).idName = (h.get x).idName) ∧ (∀ x, (h'.get x).parent = (h.get x).parent) ∧
      ∃ a, AxisMeans ps ax a ∧ IsSem h' s .kinJoint nm (jointAttrs ty a) [] := by
  unfold FileIcon.setAxis
  cases ax with
  | none =>
    exact .pure R ⟨o, fun _ _ _ => .refl _ _ _, rfl, fun _ => rfl, fun _ => rfl, fun _ => rfl, fun _ => rfl, none, rfl, hs⟩
  | some v =>
    refine (Does.heap R).bind fun _ h1 R1 q => ?_
    obtain ⟨rfl, rfl⟩ := q
    refine (Does.liftE R).bind fun l h1 R1 q => ?_
    obtain ⟨rfl, hl⟩ := q
    obtain ⟨h', e, R', a1, a2, a3, a4, a5, a6, a7, a8, a9, -⟩ := attr_step R hs.kind "axis".toList (.nums l)
    refine ⟨by simp only [e]; exact R', fun _ h'' e' => ?_⟩
    simp only [e] at e'
    cases e'
    have hv : ∀ x, (h'.get x).vals = (h.get x).vals := by
      intro x
      unfold addNamedAttribute at e
      cases e
      rw [Heap.get_mod]
      split
      · next q => subst q; rfl
      · rfl
    have hn : h'.nlists = h.nlists := by unfold addNamedAttribute at e; cases e; rfl
    have hli : h'.lists = h.lists := by unfold addNamedAttribute at e; cases e; rfl
    refine ⟨⟨o.fac, o.cog, ?_, o.world, by rw [a2]; exact o.plt, by rw [a6, o.pkind], ?_, o.refs⟩, a1, a2, a3, a6, a7, a9,
      some l, ⟨l, rfl, floatVec_means o.params hl⟩, by rw [a6, hs.kind], by rw [a7, hs.name], fun key => ?_,
      by rw [a3, hs.parts]⟩
    · intro k x hx; rw [a2, a6, a8]; exact o.cache k x hx
    · rw [a3]
      refine o.params.imp fun v p hv' => ⟨by rw [a6, hv'.kind], by rw [a7, hv'.name], by rw [hn, hv]; exact hv'.ok, ?_⟩
      unfold Heap.valuesOf
      rw [hli, hv]; exact hv'.values
    · have ga := hs.attrs key
      unfold getAttribute at ga ⊢
      rw [a4, Dict.get?_set]
      unfold jointAttrs
      by_cases hk : "axis".toList = key
      · subst hk; rw [if_pos rfl]; rfl
      · rw [if_neg (by tauto), ga]
        simp only [List.lookup_cons, List.lookup_nil]
        have e2 : (key == "axis".toList) = false := by simpa using Ne.symm hk
        rw [e2]

theorem dirEnum_arrow {s : Str} {d : Dir} (h : dirEnum s = .ok d) : s = arrow d := by
  unfold dirEnum at h
  split at h
  · next e => cases h; exact e
  · split at h
    · next e => cases h; exact e
    · split at h
      · next e => cases h; exact e
      · cases h

theorem jointRel_does {E : Env} {h0 h : Heap} {I : FileIcon} {w : Ref} {ps : Params} {seen : List Str} (R0 : Reach E h0)
    (R : Reach E h) (o : IconOk h I w ps seen) {path : List Str} {c : Ref} (a : At h I path c) (hc : c < h0.size)
    {ss : List Ref} (g : Gathered c h0 h ss) (name : Str) (j : JointRel) :
    Does E (I.jointRel E c name j) h fun r h' => ∃ s, Gathered c h0 h' (ss ++ [s]) ∧ IconOk h' r.1 w ps seen ∧
      Kept path I r.1 ∧ Ready c w ps name h0 h' j r.2 s ∧ Onward h.size [c] h h' ∧ s = h.size := by
  have inv := R.good.inv
  have plt := o.plt
  have hcl := a.lt inv
  unfold FileIcon.jointRel
  refine (endpoint_does R0 R o hc g j.ref).bind fun t h1 R1 q => ?_
  obtain ⟨rfl, ht, he⟩ := q
  refine (Does.liftE R).bind fun d h1 R1 q => ?_
  obtain ⟨rfl, hd⟩ := q
  have hn : jointName name j.ref = name ++ '.' :: j.ref := by
    unfold jointName; rw [Str.join_cons_cons, Str.join_singleton]
  rw [hn]
  refine (sem_does R o.cog _ _ hcl (by rw [a.kind]; simp) _ _).bind fun s h1 R1 q => ?_
  obtain ⟨rfl, k, hk, M⟩ := q
  cases hk
  have s1 := M.size
  have inv1 := R1.good.inv
  have o1 := o.onward inv M.later (M.parts_ne plt a.params.symm)
  refine (axis_does R1 o1 (s := h.size) M.isSem j.axis).bind fun _ h2 R2 q => ?_
  obtain ⟨o2, b1, b2, b3, b4, b5, b6, ax, b7, b8⟩ := q
  have inv2 := R2.good.inv
  have p1 := M.path _ a.path
  have p2 : PathTo h2 h.size (path ++ (name ++ '.' :: j.ref) :: []) := p1.1.transfer b6 b5
  refine (pose_does R2 o2 a.ne p2 ⟨_, b8.kind⟩ j.pose).bind fun r h3 R3 q => ?_
  obtain ⟨ts, Q⟩ := q
  have s3 := Q.on.size
  have onA : Onward h.size [c] h h3 := (M.later.trans (b1 h.size (Nat.le_refl _) _)).trans
    (Q.on.weaken (by omega) (by intro z hz hl; simp at hz; omega))
  have s0 := g.on.size
  have nm2 : (h2.get h.size).idName = name ++ '.' :: j.ref := b8.name
  have pc : h3.parts c = h.parts c ++ [h.size] := by
    rw [Q.on.only c (by omega) (by simp; omega), b3, M.parts]
  refine .pure R3 ⟨h.size, ⟨g.on.trans (onA.weaken s0 (by simp +contextual)), by rw [pc, g.parts]; simp, ?_, ?_, ?_⟩, Q.ok,
    Q.kept, ⟨rfl, dirEnum_arrow hd, s0, ?_, by show t < _; omega, ?_, ts, ax, Q.res, b7, ?_, ?_⟩, onA, rfl⟩
  · intro x hx hl
    by_cases h1' : x < h.size
    · rw [onA.kind x h1']; exact g.sems x hx h1'
    · by_cases h2' : x < h2.size
      · have : x = h.size := by omega
        subst this
        exact ⟨_, by rw [Q.on.kind _ h2', b8.kind]⟩
      · exact Q.sems x (by omega) hl
  · intro s hs
    rcases List.mem_append.1 hs with hs | hs
    · exact g.fresh s hs
    · simp at hs; omega
  · rw [List.nodup_append]
    refine ⟨g.nodup, by simp, ?_⟩
    intro x hx y hy e
    simp at hy
    have : x < h.size := inv.parts_lt (x := c) (by rw [g.parts]; simp [hx])
    omega
  · rw [Q.on.parent _ (by omega), b6, M.parent]
  · show (h3.get t).kind.isHElement = true → _
    rw [onA.kind t ht]; exact he
  · refine ⟨by rw [Q.on.kind _ (by omega), b8.kind], by rw [Q.on.idName _ (by omega), b8.name], fun key => ?_, ?_⟩
    · rw [← b8.attrs key]; unfold getAttribute; rw [Q.on.attrs _ (by omega)]
    · rw [Q.parts, b8.parts]; rfl
  · rw [← nm2]; exact Q.shows_

/-- A ready relation stays ready while others are prepared. -/
theorem Ready.carry {c w : Ref} {ps : Params} {name : Str} {h0 h h' : Heap} {j : JointRel} {l : Link} {s : Ref}
    (r : Ready c w ps name h0 h j l s) (k : Carry h0.size h h') : Ready c w ps name h0 h' j l s := by
  obtain ⟨D, on, low⟩ := k.on
  obtain ⟨ts, a, b0, b1, b2, b3⟩ := r.attrs
  have sl : s < h.size := k.inv.lt_of_kind (by rw [b2.kind]; simp)
  refine ⟨r.sem, r.dir, r.fresh, by rw [on.parent s sl, r.parent], Nat.lt_of_lt_of_le r.lt on.size, ?_, ts, a,
    b0, b1, k.sem r.fresh b2, k.pose (fun t ht => k.child r.fresh (by rw [b2.parts]; exact ht)) b3⟩
  rw [on.kind _ r.lt]; exact r.target

/-- All relations of a joint, in order. -/
inductive AllReady (c w : Ref) (ps : Params) (name : Str) (h0 h : Heap) : List JointRel → List Link → List Ref → Prop
  | nil : AllReady c w ps name h0 h [] [] []
  | cons {j js l ls s ss} : Ready c w ps name h0 h j l s → AllReady c w ps name h0 h js ls ss →
      AllReady c w ps name h0 h (j :: js) (l :: ls) (s :: ss)

theorem jointRels_does {E : Env} {h0 : Heap} {w : Ref} {ps : Params} {seen : List Str} (R0 : Reach E h0)
    {path : List Str} {c : Ref} (hc : c < h0.size) (name : Str) (js : List JointRel) : ∀ {h : Heap} {I : FileIcon}
    (_ : Reach E h) (_ : IconOk h I w ps seen) (_ : At h I path c) {ss : List Ref} (_ : Gathered c h0 h ss),
    Does E (FileIcon.jointRels E c name I js) h fun r h' => ∃ ss', Gathered c h0 h' (ss ++ ss') ∧ IconOk h' r.1 w ps seen ∧
      Kept path I r.1 ∧ AllReady c w ps name h0 h' js r.2 ss' ∧ Onward h.size [c] h h' := by
  induction js with
  | nil =>
    intro h I R o a ss g
    exact .pure R ⟨[], by simpa using g, o, .refl _ _, .nil, .refl _ _ _⟩
  | cons j js ih =>
    intro h I R o a ss g
    have inv := R.good.inv
    unfold FileIcon.jointRels
    refine (jointRel_does R0 R o a hc g name j).bind fun r1 h1 R1 q => ?_
    obtain ⟨s, g1, o1, k1, rd, on1, hs⟩ := q
    refine (ih R1 o1 (a.onward inv on1 k1) g1).bind fun r2 h2 R2 q => ?_
    obtain ⟨ss', g2, o2, k2, rds, on2⟩ := q
    have ca : Carry h0.size h1 h2 := g1.on.carry R0.good.inv R1.good.inv on2 (by simpa using hc)
    have := on1.size
    exact .pure R2 ⟨s :: ss', by simpa using g2, o2, k1.trans k2, .cons (rd.carry ca) rds,
      on1.trans (on2.weaken (by omega) (by simp +contextual))⟩


/-- A relation of a joint that has been connected. -/
def Joined (c w : Ref) (ps : Params) (name : Str) (h0 h : Heap) (j : JointRel) (r : Ref) : Prop :=
  ∃ d t s ts a, j.dir = arrow d ∧ IsEndpoint h0 w c j.ref t ∧ IsRel h r d t [s] ts.head? ∧ AxisMeans ps j.axis a ∧
    IsSem h s .kinJoint (name ++ '.' :: j.ref) (jointAttrs j.type a) ts ∧
    ShowsPose h ps (name ++ '.' :: j.ref) j.pose ts

/-- The state between two connections of a joint whose edge is `e`; `h1` is the state before the edge was made. -/
structure Joining (c w : Ref) (ps : Params) (name : Str) (path : List Str) (e : Ref) (h0 h1 : Heap)
    (done : List JointRel) (rs : List Ref) (js : List JointRel) (ls : List Link) (ss : List Ref) (h : Heap) : Prop where
  on : Onward h0.size [c] h0 h
  partsC : h.parts c = h0.parts c ++ (ss ++ [e])
  edge : IsEdge h e name (path ++ [name]) rs
  efresh : h0.size ≤ e
  epar : (h.get e).parent = some c
  ready : AllReady c w ps name h0 h js ls ss
  nodup : ss.Nodup
  joined : List.Forall₂ (Joined c w ps name h0 h) done rs
  size : h1.size ≤ h.size
  kind : ∀ x < h1.size, (h.get x).kind = (h1.get x).kind

theorem AllReady.mem {c w : Ref} {ps : Params} {name : Str} {h0 h : Heap} {js : List JointRel} {ls : List Link}
    {ss : List Ref} (a : AllReady c w ps name h0 h js ls ss) : ∀ s ∈ ss, h0.size ≤ s := by
  induction a with
  | nil => simp
  | cons r _ ih =>
    intro s hs
    rcases List.mem_cons.1 hs with rfl | hs
    · exact r.fresh
    · exact ih s hs

theorem joined_step {E : Env} {c w : Ref} {ps : Params} {name : Str} {path : List Str} {e : Ref} {h0 h1 : Heap}
    {done : List JointRel} {rs : List Ref} {j : JointRel} {js : List JointRel} {l : Link} {ls : List Link} {s : Ref}
    {ss : List Ref} {h : Heap} (R0 : Reach E h0) (R : Reach E h) (hcl : c < h0.size) (hck : (h0.get c).kind = .node)
    (J : Joining c w ps name path e h0 h1 done rs (j :: js) (l :: ls) (s :: ss) h) :
    Does E (unaryConnect E e l.node l.weight l.dir l.sem).void h fun _ h' =>
      ∃ r, Joining c w ps name path e h0 h1 (done ++ [j]) (rs ++ [r]) js ls ss h' := by
  have I0 := R0.good.inv
  have inv := R.good.inv
  obtain ⟨on, pC, ed, ef, ep, rdy, nd, jd, sz, kd⟩ := J
  cases rdy with
  | cons r rdy =>
  obtain ⟨ts, a, b0, b1, b2, b3⟩ := r.attrs
  have el : e < h.size := inv.lt_of_kind (by rw [ed.kind]; simp)
  have sl : s < h.size := inv.lt_of_kind (by rw [b2.kind]; simp)
  have s0 := on.size
  have ck : (h.get c).kind = .node := by rw [on.kind c hcl, hck]
  -- nothing that existed at the start lies below the semantic element
  have below : ∀ a x, Anc h a x → x < h0.size → a < h0.size := by
    intro a x q
    induction q with
    | direct hp => intro hx; rw [on.parent _ hx] at hp; exact I0.parent_lt hp
    | up hp _ ih => intro hx; rw [on.parent _ hx] at hp; exact ih (I0.parent_lt hp)
  have nae : ¬ Anc h s e := by
    intro q
    cases q with
    | direct hp => rw [ep] at hp; cases hp; rw [b2.kind] at ck; cases ck
    | up hp q =>
      rw [ep] at hp; cases hp
      have := below _ _ q hcl
      have := r.fresh
      omega
  have mv : Movable h s := by
    intro p hp
    rw [r.parent] at hp; cases hp
    rw [ck]; simp
  have wlt : ∀ v, l.weight = some v → v < h.size := by
    intro v hv
    rw [b0] at hv
    exact inv.parts_lt (x := s) (by rw [b2.parts]; exact List.mem_of_mem_head? hv)
  rw [r.sem]
  refine (connect_does R l.dir el ed.kind r.lt (sv := some s) (by rintro _ ⟨⟩; exact ⟨sl, ⟨_, b2.kind⟩, nae, mv⟩) wlt).void.mono
    fun _ h' R' q => ?_
  obtain ⟨_, -, L⟩ := q
  have sz' := L.size
  have fr := r.fresh
  -- the parts of everything but the container and the edge
  have pt : ∀ x < h.size, x ≠ c → x ≠ e → h'.parts x = h.parts x := by
    intro x hx hxc hxe
    rw [L.parts x hx, if_neg hxe, List.append_nil]
    apply List.filter_eq_self.2
    intro y hy
    simp only [ne_eq, Option.some.injEq, decide_eq_true_eq]
    rintro rfl
    have := inv.parts_parent hy
    rw [r.parent] at this
    exact hxc (Option.some.inj this).symm
  have semK : ∀ {x k nm attrs l}, IsSem h x k nm attrs l → IsSem h' x k nm attrs l := by
    intro x k nm attrs l q
    have lt : x < h.size := inv.lt_of_kind (by rw [q.kind]; simp)
    refine ⟨by rw [L.kind x lt, q.kind], by rw [L.idName x lt, q.name], fun key => ?_, ?_⟩
    · rw [← q.attrs key]; unfold getAttribute; rw [L.attrs x lt]
    · rw [pt x lt (by rintro rfl; have := q.kind; rw [ck] at this; cases this) (by rintro rfl; have := ed.kind; rw [q.kind] at this; cases this),
        q.parts]
  have poseK : ∀ {nm p l}, ShowsPose h ps nm p l → ShowsPose h' ps nm p l := by
    intro nm p l q
    cases p with
    | none => exact q
    | some p =>
      obtain ⟨x, t, rr, ty, rfl, c1, c2⟩ := q
      exact ⟨x, t, rr, ty, rfl, c1, semK c2⟩
  have relK : ∀ {x d t l v}, IsRel h x d t l v → IsRel h' x d t l v := by
    intro x d t l v q
    have lt : x < h.size := inv.lt_of_kind (by rw [q.kind]; simp)
    exact ⟨by rw [L.kind x lt, q.kind], by rw [L.direction x lt, q.dir], by rw [L.endpoint x lt, q.endpoint],
      by rw [pt x lt (by rintro rfl; have := q.kind; rw [ck] at this; cases this) (by rintro rfl; have := ed.kind; rw [q.kind] at this; cases this),
        q.parts], by rw [L.weight x lt, q.weight]⟩
  have noold : ∀ l : List Ref, (∀ x ∈ l, x < h0.size) → l.filter (fun y => decide (some s ≠ some y)) = l := by
    intro l hl
    apply List.filter_eq_self.2
    intro y hy
    have := hl y hy
    simp only [ne_eq, Option.some.injEq, decide_eq_true_eq]
    omega
  have nds := List.nodup_cons.1 nd
  have pc' : h'.parts c = h0.parts c ++ (ss ++ [e]) := by
    have hce : c ≠ e := by omega
    rw [L.parts c (by omega), if_neg hce, List.append_nil, pC, List.filter_append, noold _ fun x hx => I0.parts_lt hx]
    congr 1
    rw [List.cons_append, List.filter_cons, if_neg (by simp)]
    apply List.filter_eq_self.2
    intro y hy
    simp only [ne_eq, Option.some.injEq, decide_eq_true_eq]
    rintro rfl
    rcases List.mem_append.1 hy with hy | hy
    · exact nds.1 hy
    · simp at hy
      subst hy
      have := ed.kind; rw [b2.kind] at this; cases this
  refine ⟨h.size, ⟨?_, pc', ?_, ef, ?_, ?_, nds.2, ?_, by omega, ?_⟩⟩
  · refine ⟨by omega, by rw [L.nlists]; exact on.nlists, fun i hi => by rw [L.lists]; exact on.lists i hi,
      fun x hx => (L.kind x (by omega)).trans (on.kind x hx), fun x hx => (L.idName x (by omega)).trans (on.idName x hx),
      fun x hx => (L.attrs x (by omega)).trans (on.attrs x hx), fun x hx => (L.endpoint x (by omega)).trans (on.endpoint x hx),
      fun x hx => (L.direction x (by omega)).trans (on.direction x hx),
      fun x hx => (L.weight x (by omega)).trans (on.weight x hx), fun x hx => (L.vals x (by omega)).trans (on.vals x hx),
      fun x hx => (L.qualName x (by omega) ?_).trans (on.qualName x hx),
      fun x hx => (L.parent x (by omega) (by simp; omega)).trans (on.parent x hx), ?_, ?_⟩
    · rintro _ ⟨⟩ (q | q)
      · omega
      · have := below _ _ q hx; omega
    · intro x hx
      by_cases hxc : x = c
      · subst hxc; rw [pc']; exact List.prefix_append _ _
      · rw [pt x (by omega) hxc (by omega)]; exact on.prefix_ x hx
    · intro x hx hd
      rw [pt x (by omega) (by simpa using hd) (by omega)]; exact on.only x hx hd
  · refine ⟨by rw [L.kind e el, ed.kind], by rw [L.idName e el, ed.name], ?_, ?_⟩
    · rw [L.qualName e el, ed.path]
      rintro _ ⟨⟩ (q | q)
      · subst q; have := ed.kind; rw [b2.kind] at this; cases this
      · exact nae q
    · rw [L.parts e el, if_pos rfl, ed.parts]
      congr 1
      apply List.filter_eq_self.2
      intro y hy
      simp only [ne_eq, Option.some.injEq, decide_eq_true_eq]
      rintro rfl
      have := inv.parts_parent (x := e) (by rw [ed.parts]; exact hy)
      rw [r.parent] at this
      have := Option.some.inj this
      omega
  · rw [L.parent e el (by
      intro q
      have q := Option.some.inj q
      subst q
      have := ed.kind; rw [b2.kind] at this; cases this), ep]
  · clear pC pc' nd jd
    have nd2 := nds.1
    clear nds
    induction rdy with
    | nil => exact .nil
    | @cons j' js' l' ls' s' ss' q _ ih =>
      refine .cons ⟨q.sem, q.dir, q.fresh, ?_, by have := q.lt; omega, ?_, ?_⟩ (ih fun hm => nd2 (by simp [hm]))
      · obtain ⟨ts', a', c0, c1, c2, c3⟩ := q.attrs
        rw [L.parent s' (inv.lt_of_kind (by rw [c2.kind]; simp)) (by
          intro hh; exact nd2 (by rw [Option.some.inj hh]; simp)), q.parent]
      · rw [L.kind _ q.lt]; exact q.target
      · obtain ⟨ts', a', c0, c1, c2, c3⟩ := q.attrs
        exact ⟨ts', a', c0, c1, semK c2, poseK c3⟩
  · have jd' : List.Forall₂ (Joined c w ps name h0 h') done rs := jd.imp fun j r q => by
      obtain ⟨d, t, s', ts', a', c1, c2, c3, c4, c5, c6⟩ := q
      exact ⟨d, t, s', ts', a', c1, c2, relK c3, c4, semK c5, poseK c6⟩
    refine List.rel_append jd' (.cons ?_ .nil)
    exact ⟨l.dir, l.node, s, ts, a, r.dir, r.target L.target, by rw [← b0]; exact L.isRel, b1, semK b2, poseK b3⟩
  · intro x hx
    rw [L.kind x (by omega), kd x hx]

theorem connectAll_does {E : Env} {c w : Ref} {ps : Params} {name : Str} {path : List Str} {e : Ref} {h0 h1 : Heap}
    (R0 : Reach E h0) (hcl : c < h0.size) (hck : (h0.get c).kind = .node) (ls : List Link) :
    ∀ {done : List JointRel} {rs : List Ref} {js : List JointRel} {ss : List Ref} {h : Heap} (_ : Reach E h)
    (_ : Joining c w ps name path e h0 h1 done rs js ls ss h),
    Does E (connectAll E e ls) h fun _ h' => ∃ rs', Joining c w ps name path e h0 h1 (done ++ js) rs' [] [] [] h' := by
  induction ls with
  | nil =>
    intro done rs js ss h R J
    have := J.ready
    cases this
    exact .pure R ⟨rs, by simpa using J⟩
  | cons l ls ih =>
    intro done rs js ss h R J
    unfold connectAll
    rw [forEach_cons]
    have := J.ready
    cases this with
    | cons r rd =>
    refine (joined_step R0 R hcl hck J).bind fun _ h2 R2 q => ?_
    obtain ⟨r', J2⟩ := q
    refine (ih R2 J2).mono fun _ h3 R3 q => ?_
    obtain ⟨rs', J3⟩ := q
    exact ⟨rs', by simpa using J3⟩

/-- What the reader made for a joint in `c`. -/
structure JointRead (I : FileIcon) (w : Ref) (ps : Params) (seen path : List Str) (c : Ref)
    (j : JointDecl) (h : Heap) (I' : FileIcon) (h' : Heap) (e : Ref) : Prop where
  on : Onward h.size [c] h h'
  ok : IconOk h' I' w ps seen
  kept : Kept path I I'
  partsC : h'.parts c = h.parts c ++ [e]
  shows_ : ShowsJoint h' w c ps path j e
  fresh : h.size ≤ e

theorem joint_does {E : Env} {h : Heap} {I : FileIcon} {w : Ref} {ps : Params} {seen : List Str} (R : Reach E h)
    (o : IconOk h I w ps seen) {path : List Str} {c : Ref} (a : At h I path c) (j : JointDecl) :
    Does E (I.visitJoint E path j) h fun I' h' => ∃ e, JointRead I w ps seen path c j h I' h' e := by
  have inv := R.good.inv
  have hcl := a.lt inv
  have plt := o.plt
  unfold FileIcon.visitJoint
  refine (a.does R).bind fun _ h1 R1 q => ?_
  obtain ⟨rfl, rfl⟩ := q
  refine (jointRels_does R hcl j.name j.rels R o a (.refl c h)).bind fun r h1 R1 q => ?_
  obtain ⟨ss, g, o1, k1, rdy, on1⟩ := q
  rw [List.nil_append] at g
  have inv1 := R1.good.inv
  have a1 := a.onward inv on1 k1
  have s1 := on1.size
  unfold Factory.connectTuples
  refine Does.bind (Q := fun _ h' => ∃ e rs, Joining c w ps j.name path e h h1 j.rels rs [] [] [] h') ?_ ?_
  · refine Does.mono (Does.void (Q := fun _ h' => ∃ e rs, Joining c w ps j.name path e h h1 j.rels rs [] [] [] h') ?_) (fun _ h' _ q => by obtain ⟨_, q⟩ := q; exact q)
    refine (edge_does R1 o1.fac j.name (by omega) a1.kind).bind fun e h2 R2 q => ?_
    obtain ⟨rfl, M⟩ := q
    have s2 := M.size
    have ca : Carry h.size h1 h2 := on1.carry inv inv1 M.later (by simpa using hcl)
    have J : Joining c w ps j.name path h1.size h h1 [] [] j.rels r.2 ss h2 := by
      refine ⟨on1.trans (M.later.weaken s1 (by simp +contextual)), ?_, M.isEdge a1.path, s1, M.parent, ?_, g.nodup, .nil,
        by omega, M.later.kind⟩
      · rw [M.parts, g.parts]; simp
      · clear g
        generalize j.rels = js at rdy ⊢
        generalize r.2 = ls at rdy ⊢
        induction rdy with
        | nil => exact .nil
        | cons q _ ih => exact .cons (q.carry ca) ih
    refine (connectAll_does R hcl a.kind r.2 R2 J).bind fun _ h3 R3 q => ?_
    obtain ⟨rs, J3⟩ := q
    exact .pure R3 ⟨_, rs, by simpa using J3⟩
  · rintro _ h2 R2 ⟨e, rs, J⟩
    have ca : Carry h.size h h2 := ⟨inv, ⟨_, J.on, by simpa using hcl⟩, fun x hx p hp => inv.parent_lt hp⟩
    refine .pure R2 ⟨e, ⟨J.on, ?_, k1, by rw [J.partsC]; simp, ⟨rs, J.edge, ?_⟩, J.efresh⟩⟩
    · have oo := o.onward inv J.on (J.on.only _ plt (by simpa using a.params.symm))
      have pp := oo.params
      refine ⟨o1.fac, o1.cog, ?_, o1.world, by have := J.size; have := o1.plt; omega, ?_, ?_, o1.refs⟩
      · intro k x hx
        obtain ⟨b1, b2⟩ := o1.cache k x hx
        refine ⟨by have := J.size; omega, ?_⟩
        rw [J.kind x b1]
        rcases b2 with ⟨b2, b3⟩ | b2
        · left
          have hx' : x < h.size := g.old b1 (by rw [b2]; simp)
          exact ⟨b2, by rw [J.on.qualName x hx', ← b3, on1.qualName x hx']⟩
        · exact .inr b2
      · rw [k1.params]; exact oo.pkind
      · rw [k1.params]; exact pp
    · refine J.joined.imp fun jr r q => ?_
      obtain ⟨d, t, s', ts', a', c1, c2, c3, c4, c5, c6⟩ := q
      exact ⟨d, t, s', ts', a', c1, ca.endpoint c2, c3, c4, c5, c6⟩

end Rei
