import Verif.Lemmas.Accept

/-!
# The reader accepts well-formed files: joints
-/
namespace Rei
open PyM

/-- The names of the parts of `c`, with `true` for nodes. -/
def Heap.tags (h : Heap) (c : Ref) : List (Str × Bool) :=
  (h.parts c).map fun x => ((h.get x).idName, decide ((h.get x).kind = .node))

theorem Does.and {E : Env} {α : Type} {m : PyM α} {h : Heap} {Q1 Q2 : α → Heap → Prop} (a : Does E m h Q1)
    (b : Does E m h Q2) : Does E m h fun x h' => Q1 x h' ∧ Q2 x h' := ⟨a.1, fun x h' e => ⟨a.2 x h' e, b.2 x h' e⟩⟩

theorem lookup_tags {h : Heap} {n : Str} : ∀ {l : List Ref},
    (l.map fun x => ((h.get x).idName, decide ((h.get x).kind = .node))).lookup n = some true →
    ∃ t, l.find? (fun x => decide ((h.get x).idName = n)) = some t ∧ (h.get t).kind = .node ∧ (h.get t).idName = n
  | [], e => by cases e
  | x :: l, e => by
    rw [List.map_cons, List.lookup_cons] at e
    by_cases hn : (h.get x).idName = n
    · rw [hn] at e
      simp at e
      exact ⟨x, by simp [hn], e, hn⟩
    · have : (n == (h.get x).idName) = false := by simpa using Ne.symm hn
      rw [this] at e
      obtain ⟨t, a, b⟩ := lookup_tags e
      exact ⟨t, by rw [List.find?_cons, decide_eq_false hn]; exact a, b⟩

theorem find?_of_filter {α : Type} {p q : α → Bool} {t : α} : ∀ {l : List α}, (∀ x ∈ l, q x = true → p x = true) →
    (l.filter p).find? q = some t → l.find? q = some t := by
  intro l
  induction l with
  | nil => intro _ h; exact h
  | cons a l ih =>
    intro hp h
    rw [List.find?_cons]
    cases hq : q a with
    | true =>
      have := hp a (by simp) hq
      rw [List.filter_cons, if_pos this, List.find?_cons, hq] at h
      exact h
    | false =>
      refine ih (fun x hx => hp x (by simp [hx])) ?_
      rw [List.filter_cons] at h
      split at h
      · rw [List.find?_cons, hq] at h; exact h
      · exact h

theorem find?_names {h0 h : Heap} {n : Str} : ∀ l : List Ref, (∀ x ∈ l, (h.get x).idName = (h0.get x).idName) →
    l.find? (fun x => decide ((h.get x).idName = n)) = l.find? (fun x => decide ((h0.get x).idName = n))
  | [], _ => rfl
  | x :: l, hl => by
    rw [List.find?_cons, List.find?_cons, hl x (by simp), find?_names l fun y hy => hl y (by simp [hy])]

section
variable {E : Env} {lo : Nat} {h h' : Heap} {I : FileIcon} {w : Ref} {ps : Params} {seen : List Str} {W : Known}

/-- The endpoint is a new node with the name of the reference. -/
structure Ends (lo : Nat) (h : Heap) (ref : Str) (t : Ref) : Prop where
  low : lo ≤ t
  kind : (h.get t).kind = .node
  name : (h.get t).idName = ref

theorem endpoint_goes {h0 : Heap} (R0 : Reach E h0) (R : Reach E h) (T : Timely E lo h) (o : IconOk h I w ps seen)
    (K : Knows h I w lo seen W) {c : Ref} (hlo : lo ≤ c) (hck : (h.get c).kind = .node)
    {ss : List Ref} (g : Gathered c h0 h ss) {ref : Str}
    (ok : ref = "world".toList ∨ ('/' ∉ ref ∧ '.' ∉ ref) ∧ (h0.tags c).lookup ref = some true) :
    Goes E lo (I.endpoint c ref) h fun t _ => Ends lo h ref t := by
  have inv := R.good.inv
  have I0 := R0.good.inv
  unfold FileIcon.endpoint
  by_cases e : ref = "world".toList
  · rw [if_pos e]
    refine ⟨w, h, by unfold FileIcon.cached; rw [o.world]; rfl, T, K.low _ _ o.world, K.wkind, by rw [K.wname, e]⟩
  · rw [if_neg e]
    rcases ok with ok | ⟨⟨sl, dt⟩, ok⟩
    · exact absurd ok e
    obtain ⟨t, f, hk, hn⟩ := lookup_tags ok
    have tm := List.mem_of_find?_eq_some f
    have tl := I0.parts_lt tm
    have f2 : (h.parts c).find? (fun x => decide ((h.get x).idName = ref)) = some t := by
      rw [g.parts, List.find?_append, find?_names _ fun x hx => g.on.idName x (I0.parts_lt hx), f]; rfl
    have f3 : (h.subelements c).find? (fun x => decide ((h.get x).idName = ref)) = some t := by
      refine find?_of_filter (p := fun y => decide ((h.get y).kind ≠ .port)) ?_ f2
      intro x hx hnx
      have par := (inv.mem_subelements c x).1 hx
      have xl := inv.lt_of_parent par
      have xlo := T.fresh x c xl par hlo
      rw [decide_eq_true_eq] at hnx ⊢
      intro hp
      have := T.port x xlo xl hp
      rw [hnx] at this
      exact dt this
    obtain ⟨rest, f4⟩ : ∃ rest, (h.subelements c).filter (fun x => decide ((h.get x).idName = ref)) = t :: rest := by
      rw [← List.head?_filter] at f3
      cases q : (h.subelements c).filter (fun x => decide ((h.get x).idName = ref)) with
      | nil => rw [q] at f3; cases f3
      | cons a l => rw [q] at f3; cases f3; exact ⟨l, rfl⟩
    have run : getElementByIdName h c ref = .ok (t :: rest) := by
      unfold getElementByIdName
      rw [Str.split_of_not_mem sl]
      unfold lookupTokens
      rw [if_pos (by rw [hck]; rfl), index_sub inv, f4]
    refine .heapB (.liftB run (.pure T ⟨?_, ?_, ?_⟩))
    · have par := inv.parts_parent (List.mem_of_find?_eq_some f2)
      exact T.fresh t c (inv.lt_of_parent par) par hlo
    · rw [g.on.kind t tl, hk]
    · rw [g.on.idName t tl, hn]

theorem axis_goes (T : Timely E lo h) (o : IconOk h I w ps seen) (s : Ref) (ax : Option (List FVal))
    (ok : ax.all (vecKnown ps) = true) : Goes E lo (I.setAxis s ax) h fun _ _ => True := by
  unfold FileIcon.setAxis
  cases ax with
  | none => exact .pure T trivial
  | some v =>
    obtain ⟨l, hl⟩ := floatVec_ok o.params (v := v) (by simpa using ok)
    exact .heapB (.liftB hl ⟨(), _, rfl, T.attr _ _ _, trivial⟩)

theorem arrow_ok {s : Str} (h : s = "<-".toList ∨ s = "->".toList ∨ s = "--".toList) : ∃ d, dirEnum s = .ok d := by
  rcases h with rfl | rfl | rfl
  · exact ⟨.inwards, by decide +kernel⟩
  · exact ⟨.outwards, by decide +kernel⟩
  · exact ⟨.bidirectional, by decide +kernel⟩

theorem jointRel_goes (X : Ideal E) {h0 : Heap} (R0 : Reach E h0) (R : Reach E h) (T : Timely E lo h)
    (o : IconOk h I w ps seen) (K : Knows h I w lo seen W) {path : List Str} {c : Ref} (a : At h I path c)
    (hc : c < h0.size) {ss : List Ref} (g : Gathered c h0 h ss) (name : Str) (j : JointRel)
    (ok : j.wellFormed ps (h0.tags c) = true) :
    Goes E lo (I.jointRel E c name j) h fun r h' =>
      Knows h' r.1 w lo seen (poseNames (path ++ [name ++ '.' :: j.ref]) (name ++ '.' :: j.ref) j.pose ++ W) ∧
      Ends lo h' j.ref r.2.node := by
  have inv := R.good.inv
  have plt := o.plt
  have hcl := a.lt inv
  have clo := K.low _ _ a.cached
  unfold JointRel.wellFormed at ok
  simp only [Bool.and_eq_true, decide_eq_true_eq, Bool.or_eq_true] at ok
  obtain ⟨⟨⟨ok1, ok2⟩, ok3⟩, ok4⟩ := ok
  unfold FileIcon.jointRel
  refine (endpoint_goes R0 R T o K clo a.kind g ok4).bind (endpoint_does R0 R o hc g j.ref) fun t h1 R1 T1 ends q => ?_
  obtain ⟨rfl, ht, -⟩ := q
  obtain ⟨d, hd⟩ := arrow_ok ok1
  refine .liftB hd ?_
  have hn : jointName name j.ref = name ++ '.' :: j.ref := by
    unfold jointName; rw [Str.join_cons_cons, Str.join_singleton]
  rw [hn]
  refine (Goes.of_fine (sem_fine X R T K.cog _ clo hcl (.inl a.kind) (by simp) _ (k := .kinJoint) (by decide +kernel))).bind
    (sem_does R o.cog _ _ hcl (by rw [a.kind]; simp) _ _) fun s h1 R1 T1 _ q => ?_
  obtain ⟨rfl, k, hk, M⟩ := q
  cases hk
  have s1 := M.size
  have inv1 := R1.good.inv
  have o1 := o.onward inv M.later (M.parts_ne plt a.params.symm)
  have K1 := K.onward o M.later
  refine (axis_goes T1 o1 h.size j.axis ok3).bind (axis_does R1 o1 (s := h.size) M.isSem j.axis) fun _ h2 R2 T2 _ q => ?_
  obtain ⟨o2, b1, b2, b3, b4, b5, b6, ax, b7, b8⟩ := q
  have inv2 := R2.good.inv
  have p1 := M.path _ a.path
  have p2 : PathTo h2 h.size (path ++ (name ++ '.' :: j.ref) :: []) := p1.1.transfer b6 b5
  have K2 := K1.steady o1 (h' := h2) (fun x _ => b4 x) (fun x _ _ => b5 x)
  have gp := pose_goes X R2 T2 o2 K2 p2 ⟨_, b8.kind⟩ T.le j.pose ok2
  have nm2 : (h2.get h.size).idName = name ++ '.' :: j.ref := b8.name
  rw [nm2] at gp
  refine gp.bind (pose_does R2 o2 a.ne p2 ⟨_, b8.kind⟩ j.pose) fun r h3 R3 T3 K3 q => ?_
  obtain ⟨ts, Q⟩ := q
  refine .pure T3 ⟨K3, ends.low, ?_, ?_⟩
  · show (h3.get t).kind = _
    rw [Q.on.kind t (by omega), b4, M.later.kind t ht, ends.kind]
  · show (h3.get t).idName = _
    rw [Q.on.idName t (by omega), b5, M.later.idName t ht, ends.name]

theorem jointRels_goes (X : Ideal E) {h0 : Heap} (R0 : Reach E h0) {path : List Str} {c : Ref} (hc : c < h0.size)
    (name : Str) (js : List JointRel) : ∀ {h : Heap} {I : FileIcon} {W : Known} (_ : Reach E h) (_ : Timely E lo h)
    (_ : IconOk h I w ps seen) (_ : Knows h I w lo seen W) (_ : At h I path c) {ss : List Ref} (_ : Gathered c h0 h ss)
    (_ : js.all (JointRel.wellFormed ps (h0.tags c)) = true),
    Goes E lo (FileIcon.jointRels E c name I js) h fun r h' => Knows h' r.1 w lo seen (jointNames path name js ++ W) ∧
      List.Forall₂ (fun j l => Ends lo h' j.ref l.node) js r.2 := by
  induction js with
  | nil =>
    intro h I W R T o K a ss g _
    exact .pure T ⟨K, .nil⟩
  | cons j js ih =>
    intro h I W R T o K a ss g ok
    have inv := R.good.inv
    rw [List.all_cons, Bool.and_eq_true] at ok
    unfold FileIcon.jointRels
    refine (jointRel_goes X R0 R T o K a hc g name j ok.1).bind (jointRel_does R0 R o a hc g name j)
      fun r1 h1 R1 T1 p q => ?_
    obtain ⟨K1, en⟩ := p
    obtain ⟨s, g1, o1, k1, rd, on1, hs⟩ := q
    refine (ih R1 T1 o1 K1 (a.onward inv on1 k1) g1 ok.2).bind (jointRels_does R0 hc name js R1 o1 (a.onward inv on1 k1) g1)
      fun r2 h2 R2 T2 p q => ?_
    obtain ⟨K2, ens⟩ := p
    obtain ⟨ss', g2, o2, k2, rds, on2⟩ := q
    refine .pure T2 ⟨?_, .cons ⟨en.low, ?_, ?_⟩ ens⟩
    · show Knows h2 r2.1 w lo seen _
      rw [jointNames, List.append_assoc]; exact K2
    · rw [on2.kind _ rd.lt]; exact en.kind
    · rw [on2.idName _ rd.lt]; exact en.name

/-- The state between two connections of a joint, as far as names matter. -/
structure Distinct (lo : Nat) (e : Ref) (js : List JointRel) (ls : List Link) (h : Heap) : Prop where
  ends : List.Forall₂ (fun j l => Ends lo h j.ref l.node) js ls
  nodup : (js.map JointRel.ref).Nodup
  used : ∀ v ∈ h.parts e, ∀ t, (h.get v).endpoint = some t → t < h.size ∧ (h.get t).idName ∉ js.map JointRel.ref

theorem connectAll_goes (X : Ideal E) {c : Ref} {name : Str} {path : List Str} {e : Ref} {h0 h1 : Heap}
    (R0 : Reach E h0) (hlo : lo ≤ h0.size) (hcl : c < h0.size) (hck : (h0.get c).kind = .node) (ls : List Link) :
    ∀ {done : List JointRel} {rs : List Ref} {js : List JointRel} {ss : List Ref} {h : Heap} (_ : Reach E h)
    (_ : Timely E lo h) (_ : Joining c w ps name path e h0 h1 done rs js ls ss h) (_ : Distinct lo e js ls h),
    Goes E lo (connectAll E e ls) h fun _ _ => True := by
  induction ls with
  | nil => intro done rs js ss h R T J D; exact .pure T trivial
  | cons l ls ih =>
    intro done rs js ss h R T J D
    unfold connectAll
    rw [forEach_cons]
    have I0 := R0.good.inv
    have inv := R.good.inv
    have rdy := J.ready
    have ends := D.ends
    cases rdy with
    | @cons j js _ _ s ss r rd =>
    cases ends with
    | cons en ens =>
    obtain ⟨ts, a, b0, b1, b2, b3⟩ := r.attrs
    have wlt : ∀ v, l.weight = some v → v < h.size := by
      intro v hv
      rw [b0] at hv
      exact inv.parts_lt (x := s) (by rw [b2.parts]; exact List.mem_of_mem_head? hv)
    have on := J.on
    have ed := J.edge
    have ep := J.epar
    have ef := J.efresh
    have el : e < h.size := inv.lt_of_kind (by rw [ed.kind]; simp)
    have sl : s < h.size := inv.lt_of_kind (by rw [b2.kind]; simp)
    have s0 := on.size
    have ck : (h.get c).kind = .node := by rw [on.kind c hcl, hck]
    have below : ∀ a x, Anc h a x → x < h0.size → a < h0.size := by
      intro a x q
      induction q with
      | direct hp => intro hx; rw [on.parent _ hx] at hp; exact I0.parent_lt hp
      | up hp _ ih => intro hx; rw [on.parent _ hx] at hp; exact ih (I0.parent_lt hp)
    have nae : ¬ Anc h s e := by
      intro q
      cases q with
      | direct hp => rw [ep] at hp; cases hp; rw [b2.kind] at ck; cases ck
      | up hp q =>
        rw [ep] at hp; cases hp
        have := below _ _ q hcl
        have := r.fresh
        omega
    have mv : Movable h s := by
      intro p hp
      rw [r.parent] at hp; cases hp
      rw [ck]; simp
    have nd := List.nodup_cons.1 D.nodup
    have fr := r.fresh
    have d1 : Does E (unaryConnect E e l.node l.weight l.dir l.sem).void h fun _ h' => 
        Linked e l.node l.dir (some s) h h' l.weight := by
      rw [r.sem]
      refine (connect_does R l.dir el ed.kind r.lt (sv := some s)
        (by rintro _ ⟨⟩; exact ⟨sl, ⟨_, b2.kind⟩, nae, mv⟩) wlt).void.mono fun _ h' R' q => ?_
      obtain ⟨_, -, L⟩ := q
      exact L
    have g1 : Goes E lo (unaryConnect E e l.node l.weight l.dir l.sem).void h fun _ _ => True := by
      rw [r.sem]
      refine (Goes.of_fine (connect_fine X R T l.dir (by omega) el ed.kind en.low r.lt en.kind (sv := some s)
        (by rintro _ ⟨⟩; exact ⟨by omega, sl, ⟨_, b2.kind⟩, nae, mv⟩) ?_ wlt)).void fun _ _ q => q
      intro v hv t ht
      have := (D.used v hv t ht).2
      rw [en.name]
      simp only [List.map_cons, List.mem_cons, not_or] at this
      exact this.1
    refine g1.bind (d1.and (joined_step R0 R hcl hck J)) fun _ h2 R2 T2 _ q => ?_
    obtain ⟨L, r', J2⟩ := q
    refine ih R2 T2 J2 ⟨?_, nd.2, ?_⟩
    · have lts : ∀ {js ls ss}, AllReady c w ps name h0 h js ls ss → List.Forall₂ (fun j l => Ends lo h j.ref l.node) js ls →
          List.Forall₂ (fun j l => Ends lo h2 j.ref l.node) js ls := by
        intro js ls ss a f
        induction a with
        | nil => cases f; exact .nil
        | cons q _ ih =>
          cases f with
          | cons x f => exact .cons ⟨x.low, by rw [L.kind _ q.lt]; exact x.kind, by rw [L.idName _ q.lt]; exact x.name⟩ (ih f)
      exact lts rd ens
    · intro v hv t ht
      have sz := L.size
      rw [L.parts e el, if_pos rfl] at hv
      rcases List.mem_append.1 hv with hv | hv
      · have hv := (List.mem_filter.1 hv).1
        have vl := inv.parts_lt hv
        rw [L.endpoint v vl] at ht
        obtain ⟨x1, x2⟩ := D.used v hv t ht
        refine ⟨by omega, ?_⟩
        rw [L.idName t x1]
        simp only [List.map_cons, List.mem_cons, not_or] at x2
        exact x2.2
      · simp at hv
        subst hv
        rw [L.relEnd] at ht
        cases ht
        have := r.lt
        refine ⟨by omega, ?_⟩
        rw [L.idName _ this, en.name]
        exact nd.1

theorem joint_goes (X : Ideal E) (R : Reach E h) (T : Timely E lo h) (o : IconOk h I w ps seen)
    (K : Knows h I w lo seen W) {path : List Str} {c : Ref} (a : At h I path c) (j : JointDecl)
    (ok : j.wellFormed ps (h.tags c) = true) :
    Goes E lo (I.visitJoint E path j) h fun I' h' => Knows h' I' w lo seen (jointNames path j.name j.rels ++ W) := by
  have inv := R.good.inv
  have hcl := a.lt inv
  have plt := o.plt
  have clo := K.low _ _ a.cached
  unfold JointDecl.wellFormed at ok
  rw [Bool.and_eq_true, decide_eq_true_eq] at ok
  unfold FileIcon.visitJoint
  refine .cachedB a.cached ?_
  refine (jointRels_goes X R hcl j.name j.rels R T o K a (.refl c h) ok.1).bind
    (jointRels_does R hcl j.name j.rels R o a (.refl c h)) fun r h1 R1 T1 p q => ?_
  obtain ⟨K1, ens⟩ := p
  obtain ⟨ss, g, o1, k1, rdy, on1⟩ := q
  rw [List.nil_append] at g
  have inv1 := R1.good.inv
  have a1 := a.onward inv on1 k1
  have s1 := on1.size
  unfold Factory.connectTuples
  have step : ∀ h2, MadeIn c .edge j.name [] h1 h2 → Joining c w ps j.name path h1.size h h1 [] [] j.rels r.2 ss h2 := by
    intro h2 M
    have s2 := M.size
    have ca : Carry h.size h1 h2 := on1.carry inv inv1 M.later (by simpa using hcl)
    refine ⟨on1.trans (M.later.weaken s1 (by simp +contextual)), ?_, M.isEdge a1.path, s1, M.parent, ?_, g.nodup, .nil,
      by omega, M.later.kind⟩
    · rw [M.parts, g.parts]; simp
    · clear g ens
      generalize j.rels = js at rdy ⊢
      generalize r.2 = ls at rdy ⊢
      induction rdy with
      | nil => exact .nil
      | cons q _ ih => exact .cons (q.carry ca) ih
  refine Goes.bind (Q1 := fun _ _ => True) (Q := fun _ h' => ∃ e rs, Joining c w ps j.name path e h h1 j.rels rs [] [] [] h') ?_ ?_ ?_
  · refine Goes.void (Q := fun _ _ => True) ?_ (fun _ _ q => q)
    refine (Goes.of_fine (edge_fine X R1 T1 K1.fac j.name clo (by omega) a1.kind)).bind
      (edge_does R1 o1.fac j.name (by omega) a1.kind) fun e h2 R2 T2 _ q => ?_
    obtain ⟨rfl, M⟩ := q
    have J := step h2 M
    refine (connectAll_goes X R T.le hcl a.kind r.2 R2 T2 J ⟨?_, ok.2, by rw [M.empty]; simp⟩).bind
      (connectAll_does R hcl a.kind r.2 R2 J) fun _ h3 R3 T3 _ _ => .pure T3 trivial
    clear step J g
    generalize j.rels = js at ens rdy
    generalize r.2 = ls at ens rdy
    induction rdy with
    | nil => exact .nil
    | cons q _ ih =>
      cases ens with
      | cons x f => exact .cons ⟨x.low, by rw [M.later.kind _ q.lt]; exact x.kind, by rw [M.later.idName _ q.lt]; exact x.name⟩ (ih f)
  · refine Does.mono (Does.void (Q := fun _ h' => ∃ e rs, Joining c w ps j.name path e h h1 j.rels rs [] [] [] h') ?_) (fun _ h' _ q => by obtain ⟨_, q⟩ := q; exact q)
    refine (edge_does R1 o1.fac j.name (by omega) a1.kind).bind fun e h2 R2 q => ?_
    obtain ⟨rfl, M⟩ := q
    refine (connectAll_does R hcl a.kind r.2 R2 (step h2 M)).bind fun _ h3 R3 q => ?_
    obtain ⟨rs, J3⟩ := q
    exact .pure R3 ⟨_, rs, by simpa using J3⟩
  · rintro _ h2 R2 T2 _ ⟨e, rs, J⟩
    refine .pure T2 (K1.steady o1 J.kind fun x hx hk => ?_)
    have hx' : x < h.size := g.old hx (by rw [hk]; simp)
    rw [J.on.idName x hx', on1.idName x hx']

end

end Rei
