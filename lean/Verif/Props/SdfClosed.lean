import Verif.Spec.SdfClosed
import Verif.Props.CogniNested

/-!
# C95: the names of an SDF model are in order
-/
namespace Rei

theorem append_dot_inj {c : Char} : ∀ {a a' b b' : Str}, c ∉ a → c ∉ a' → a ++ c :: b = a' ++ c :: b' → a = a' ∧ b = b'
  | [], [], _, _, _, _, e => by simpa using e
  | [], x :: a', b, b', _, h', e => by
    simp only [List.nil_append, List.cons_append, List.cons.injEq] at e
    exact absurd (by simp [e.1]) h'
  | x :: a, [], b, b', h, _, e => by
    simp only [List.nil_append, List.cons_append, List.cons.injEq] at e
    exact absurd (by simp [e.1]) h
  | x :: a, y :: a', b, b', h, h', e => by
    simp only [List.cons_append, List.cons.injEq] at e
    obtain ⟨rfl, e⟩ := e
    obtain ⟨rfl, rfl⟩ := append_dot_inj (a := a) (a' := a') (fun q => h (.tail _ q)) (fun q => h' (.tail _ q)) e
    exact ⟨rfl, rfl⟩

theorem nameIn_inj {pre a b : Str} (e : nameIn pre a = nameIn pre b) : a = b := by
  unfold nameIn at e
  split at e
  · exact e
  · simpa using e

theorem names_of {α : Type} {φ : α → Str} {l : List α} {ys : List Xml}
    (f : List.Forall₂ (fun a y => y.name? = some (φ a)) l ys) : ys.map Xml.name? = l.map fun a => some (φ a) := by
  induction f with
  | nil => rfl
  | cons a _ ih => rw [List.map_cons, List.map_cons, a, ih]

theorem JointDecl.Simple.pair {j : JointDecl} (S : j.Simple) : ∃ i o, i.dir = "<-".toList ∧ o.dir = "->".toList ∧ i.ref ≠ o.ref ∧
    i ∈ j.rels ∧ o ∈ j.rels ∧ (∀ r ∈ j.rels, r = i ∨ r = o) ∧ jointPairs [j] = [(j, i, o)] := by
  obtain ⟨i, o, e, hi, ho, ne⟩ := S
  have a : i.isIn = true := by unfold JointRel.isIn; rw [hi]; decide
  have b : o.isIn = false := by unfold JointRel.isIn; rw [ho]; decide
  have c : i.isOut = false := by unfold JointRel.isOut; rw [hi]; decide
  have d : o.isOut = true := by unfold JointRel.isOut; rw [ho]; decide
  refine ⟨i, o, hi, ho, ne, ?_⟩
  rcases e with e | e <;> simp [jointPairs, e, a, b, c, d, Ne.symm ne] <;> tauto

theorem jointPairs_cons (j : JointDecl) (js : List JointDecl) : jointPairs (j :: js) = jointPairs [j] ++ jointPairs js := by
  simp [jointPairs]

theorem pairs_fst : ∀ {js : List JointDecl}, (∀ j ∈ js, j.Simple) → (jointPairs js).map Prod.fst = js
  | [], _ => rfl
  | j :: js, h => by
    obtain ⟨i, o, -, -, -, -, -, -, e⟩ := JointDecl.Simple.pair (h j (by simp))
    rw [jointPairs_cons, e, List.map_append, pairs_fst fun j hj => h j (.tail _ hj)]
    rfl

theorem mem_jointPairs {js : List JointDecl} {q : JointDecl × JointRel × JointRel} :
    q ∈ jointPairs js ↔ q.1 ∈ js ∧ q.2.1 ∈ q.1.rels ∧ q.2.2 ∈ q.1.rels ∧ q.2.1.isIn = true ∧ q.2.2.isOut = true ∧
      q.2.2.ref ≠ q.2.1.ref := by
  obtain ⟨j, i, o⟩ := q
  simp only [jointPairs, List.mem_flatMap, List.mem_map, List.mem_filter, Bool.and_eq_true, decide_eq_true_eq, Prod.mk.injEq]
  constructor
  · rintro ⟨j, a, i, ⟨b, c⟩, o, ⟨d, e, f⟩, rfl, rfl, rfl⟩
    exact ⟨a, b, d, c, e, f⟩
  · rintro ⟨a, b, d, c, e, f⟩
    exact ⟨j, a, i, ⟨b, c⟩, o, ⟨d, e, f⟩, rfl, rfl, rfl⟩

theorem JointDecl.Simple.dirs {j : JointDecl} (S : j.Simple) {r : JointRel} (hr : r ∈ j.rels) :
    (r.isIn = true ↔ r.dir = "<-".toList) ∧ (r.isOut = true ↔ r.dir = "->".toList) ∧ r.dir ≠ "--".toList := by
  obtain ⟨i, o, hi, ho, -, -, -, all, -⟩ := JointDecl.Simple.pair S
  unfold JointRel.isIn JointRel.isOut
  rcases all r hr with rfl | rfl
  · rw [hi]; decide
  · rw [ho]; decide

/-- The frame of a link comes from a joint. -/
theorem frameIn_some {js : List JointDecl} (S : ∀ j ∈ js, j.Simple) {n fr : Str} (e : frameIn js n = some fr) :
    ∃ q ∈ jointPairs js, q.2.2.ref = n ∧ fr = q.1.name ++ '.' :: n := by
  unfold frameIn at e
  have := List.mem_of_head? e
  rw [List.mem_flatMap] at this
  obtain ⟨j, hj, hm⟩ := this
  split at hm
  · obtain ⟨r, hr, rfl⟩ := List.mem_map.1 hm
    obtain ⟨hr, c⟩ := List.mem_filter.1 hr
    rw [Bool.and_eq_true, decide_eq_true_eq] at c
    obtain ⟨i, o, hi, ho, ne, mi, mo, all, ej⟩ := JointDecl.Simple.pair (S j hj)
    have : r = o := by
      rcases all r hr with rfl | rfl
      · have := c.1
        unfold JointRel.isOut at this
        rw [hi] at this
        exact absurd this (by decide)
      · rfl
    subst this
    refine ⟨(j, i, r), ?_, c.2, by rw [c.2]⟩
    obtain ⟨A, C, rfl⟩ := List.append_of_mem hj
    have : jointPairs (A ++ j :: C) = jointPairs A ++ (jointPairs [j] ++ jointPairs C) := by simp [jointPairs]
    rw [this, ej]
    simp
  · cases hm

/-- A link without a frame of its own is a base link. -/
theorem base_of_frame {js : List JointDecl} (S : ∀ j ∈ js, j.Simple) (nw : ∀ j ∈ js, ∀ r ∈ j.rels, r.ref ≠ "world".toList)
    {l : LinkDecl} (e : frameIn js l.name = none) : IsBase js l := by
  intro j hj o ho dir eo
  have out : o.isOut = true := (JointDecl.Simple.dirs (S j hj) ho).2.1.2 (dir.resolve_right (JointDecl.Simple.dirs (S j hj) ho).2.2)
  unfold frameIn at e
  rw [List.head?_eq_none_iff, List.flatMap_eq_nil_iff] at e
  have := e j hj
  obtain ⟨i, -, hi, -, -, mi, -⟩ := JointDecl.Simple.pair (S j hj)
  rw [if_pos (List.any_eq_true.2 ⟨i, mi, by
    rw [(JointDecl.Simple.dirs (S j hj) mi).1.2 hi, Bool.true_and]; exact decide_eq_true (nw j hj i mi)⟩), List.map_eq_nil_iff,
    List.filter_eq_nil_iff] at this
  exact this o ho (by rw [out, Bool.true_and]; exact decide_eq_true eo)

theorem SaysLink.solidNames {pre : Str} {nest : Bool} {ps : Params} {G : GraphDecl} {l : LinkDecl} {y : Xml}
    (X : SaysLink pre nest ps G l y) (S : l.Sound G.body.links ps (G.path ++ [l.name])) :
    ((y.every "visual" ++ y.every "collision").map Xml.name?).Nodup := by
  have a := names_of (φ := fun s : SolidDecl => nameIn pre ("geom_".toList ++ s.nodeName (G.path ++ [l.name])))
    (X.visuals.imp fun s x X => X.name)
  have b := names_of (φ := fun s : SolidDecl => nameIn pre ("geom_".toList ++ s.nodeName (G.path ++ [l.name])))
    (X.collisions.imp fun s x X => X.name)
  rw [List.map_append, a, b, ← List.map_append]
  have p : (l.solids.filter (fun s => s.visual) ++ l.solids.filter fun s => !s.visual).Perm l.solids :=
    List.filter_append_perm _ _
  refine (p.map _).nodup_iff.2 ?_
  have nd := S.names
  unfold List.Nodup at nd ⊢
  rw [List.pairwise_map] at nd ⊢
  refine nd.imp fun ne e => ne ?_
  have := nameIn_inj (Option.some.inj e)
  exact List.append_cancel_left this

/-- A list of links and joints of one graph, in an instance, that is complete. -/
theorem inner_linked {pre : Str} {nest : Bool} {ps : Params} {G : GraphDecl} (T : G.body.Tidy) (N : G.body.Dotless) (S : G.Sound ps) {ys zs : List Xml}
    (f1 : List.Forall₂ (SaysLink pre nest ps G) G.body.links ys)
    (f2 : List.Forall₂ (fun p y => SaysJoint pre ps p.1 p.2.1 p.2.2 y) (jointPairs G.body.joints) zs) :
    ((ys ++ zs).map Xml.name?).Nodup := by
  have a := names_of (φ := fun l : LinkDecl => nameIn pre l.name) (f1.imp fun _ _ X => X.name)
  have b := names_of (φ := fun p : JointDecl × JointRel × JointRel => nameIn pre (p.1.name ++ '.' :: p.2.2.ref))
    (f2.imp fun _ _ X => SaysJointAs.name X)
  have dl := N.links
  have dj := fun j hj => (N.joints j hj).1
  rw [List.map_append, a, b]
  refine List.nodup_append.2 ⟨?_, ?_, ?_⟩
  · have nd := (List.nodup_append.1 S.distinct).1
    unfold List.Nodup at nd ⊢
    rw [List.pairwise_map] at nd ⊢
    exact nd.imp fun ne e => ne (nameIn_inj (Option.some.inj e))
  · have nd := T.distinct
    rw [← pairs_fst T.simple, List.map_map] at nd
    unfold List.Nodup at nd ⊢
    rw [List.pairwise_map] at nd ⊢
    refine (List.pairwise_iff_forall_sublist.2 ?_)
    intro p q s e
    have mp : p ∈ jointPairs G.body.joints := s.subset (by simp)
    have mq : q ∈ jointPairs G.body.joints := s.subset (by simp)
    exact List.pairwise_iff_forall_sublist.1 nd s
      (append_dot_inj (dj _ (mem_jointPairs.1 mp).1) (dj _ (mem_jointPairs.1 mq).1) (nameIn_inj (Option.some.inj e))).1
  · intro x hx y hy e
    obtain ⟨l, hl, rfl⟩ := List.mem_map.1 hx
    obtain ⟨p, hp, rfl⟩ := List.mem_map.1 hy
    have := nameIn_inj (Option.some.inj e)
    exact dl l hl (by rw [this]; simp)

theorem SaysJointAs.poses {pre name child : Str} {ps : Params} {i o : JointRel} {x : Xml} (X : SaysJointAs pre name child ps i o x) :
    ∀ q ∈ x.every "pose", q.attr? "relative_to".toList = some (nameIn pre i.ref) := by
  intro q hq
  have := X.pose
  split at this
  · rw [this] at hq; cases hq
  · obtain ⟨q', e, -, r⟩ := this
    rw [e, List.mem_singleton] at hq
    subst hq
    exact r

theorem nameIn_some {pre n : Str} (h : pre ≠ []) : nameIn pre n = pre ++ '.' :: n := by
  unfold nameIn
  rw [if_neg h]

section

variable {f : EntityDecl} {g : Str} {body : Items} {ps : Params} (B : IsAssembly f g body ps) (T : body.AllTidy) (N : body.AllDotless)
include B T N

/-- The names of what stands for a pair of relations start with the name of the joint. -/
theorem block_headed {j : JointDecl} {i o : JointRel} (hj : j ∈ body.joints) {b : List Xml}
    (X : SaysPair ps [f.name, g] body.graphs j i o b) : ∀ x ∈ b, ∃ r, x.name? = some (j.name ++ '.' :: r) := by
  have nj := (N.1.joints j hj).2
  intro x hx
  cases X with
  | joint _ X =>
    rw [List.mem_singleton] at hx
    subst hx
    exact ⟨_, SaysJointAs.name X⟩
  | graph _ _ _ X f1 f2 pm =>
    rcases List.mem_cons.1 hx with rfl | hx
    · exact ⟨"connect.".toList ++ _, by have := SaysJointAs.name X; simpa [nameIn, Xml.name?] using this⟩
    · rcases List.mem_append.1 (pm.mem_iff.1 hx) with hx | hx
      · obtain ⟨l, -, X⟩ := forall₂_right f1 x hx
        exact ⟨_, X.name.trans (by rw [nameIn_some nj])⟩
      · obtain ⟨q, -, X⟩ := forall₂_right f2 x hx
        exact ⟨_, (SaysJointAs.name X).trans (by rw [nameIn_some nj])⟩

theorem block_nodup {j : JointDecl} {i o : JointRel} (hj : j ∈ body.joints) {b : List Xml}
    (X : SaysPair ps [f.name, g] body.graphs j i o b) : (b.map Xml.name?).Nodup := by
  have nj := (N.1.joints j hj).2
  cases X with
  | joint _ X => simp
  | @graph b' l x ys zs ws hb hl base X f1 f2 pm =>
    have TT := T.nested _ hb
    have NN := N.2 _ hb
    rw [List.map_cons, List.nodup_cons, (pm.map _).nodup_iff]
    refine ⟨fun hx => ?_, inner_linked (G := ⟨[f.name, g, o.ref], b'⟩) TT NN (B.nested _ hb) f1 f2⟩
    rw [(pm.map _).mem_iff] at hx
    obtain ⟨y, hy, e⟩ := List.mem_map.1 hx
    have en : x.name? = some (nameIn j.name ("connect".toList ++ '.' :: l.name)) :=
      (SaysJointAs.name X).trans (by rw [nameIn_some nj]; simp [nameIn])
    rw [en] at e
    rcases List.mem_append.1 hy with hy | hy
    · obtain ⟨l', hl', Y⟩ := forall₂_right f1 y hy
      have := nameIn_inj (Option.some.inj (Y.name.symm.trans e))
      exact NN.links l' hl' (by rw [this]; simp)
    · obtain ⟨q, hq, Y⟩ := forall₂_right f2 y hy
      have := nameIn_inj (Option.some.inj ((SaysJointAs.name Y).symm.trans e))
      obtain ⟨q1, q2, q3, q4, q5, q6⟩ := mem_jointPairs.1 hq
      have := (append_dot_inj (NN.joints q.1 q1).1 (by decide) this).2
      exact base q.1 q1 q.2.2 q3 (.inl (((TT.simple _ q1).dirs q3).2.1.1 q5)) this

/-- What the model of a tidy file refers to. -/
theorem closed_of {ys xs : List Xml} {bs : List (List Xml)}
    (f1 : List.Forall₂ (SaysLink [] false ps ⟨[f.name, g], body⟩) body.links ys)
    (f2 : List.Forall₂ (fun p b => SaysPair ps [f.name, g] body.graphs p.1 p.2.1 p.2.2 b) (jointPairs body.joints) bs)
    (pm : xs.Perm (ys ++ bs.flatten)) : WellLinked xs := by
  have mem : ∀ {x}, x ∈ xs ↔ x ∈ ys ∨ ∃ b ∈ bs, x ∈ b := by
    intro x
    rw [pm.mem_iff, List.mem_append, List.mem_flatten]
  have dl := N.1.links
  have dj := fun j hj => (N.1.joints j hj).1
  have lj : ("link".toList : Str) ≠ "joint".toList := by decide
  -- the three sources of elements
  have link : ∀ l ∈ body.links, IsLinkName xs l.name := by
    intro l hl
    obtain ⟨y, hy, X⟩ := forall₂_left f1 l hl
    exact .inr ⟨y, mem.2 (.inl hy), X.tag, X.name⟩
  have source : ∀ j ∈ body.joints, ∀ i ∈ j.rels, i.isIn = true → IsLinkName xs i.ref ∧ '.' ∉ i.ref := by
    intro j hj i hi hin
    rcases (B.sound.joints j hj).refs i hi with e | ⟨l, hl, e⟩ | e
    · exact ⟨.inl e, by rw [e]; decide⟩
    · rw [← e]
      exact ⟨link l hl, dl l hl⟩
    · obtain ⟨p, hp, e⟩ := List.mem_map.1 e
      exact absurd e (T.parents j hj i hi (((T.outer.simple j hj).dirs hi).1.1 hin) p hp)
  refine ⟨?_, ?_, ?_, ?_, ?_, ?_⟩
  · intro x hx
    rcases mem.1 hx with hx | ⟨b, hb, hx⟩
    · obtain ⟨l, -, X⟩ := forall₂_right f1 x hx
      exact .inl X.tag
    · obtain ⟨q, -, X⟩ := forall₂_right f2 b hb
      cases X with
      | joint _ X =>
        rw [List.mem_singleton] at hx
        subst hx
        exact .inr (SaysJointAs.tag X)
      | graph _ _ _ X f1 f2 pm =>
        rcases List.mem_cons.1 hx with rfl | hx
        · exact .inr (SaysJointAs.tag X)
        · rcases List.mem_append.1 (pm.mem_iff.1 hx) with hx | hx
          · obtain ⟨l, -, X⟩ := forall₂_right f1 x hx
            exact .inl X.tag
          · obtain ⟨q, -, X⟩ := forall₂_right f2 x hx
            exact .inr (SaysJointAs.tag X)
  · intro x hx
    rcases mem.1 hx with hx | ⟨b, hb, hx⟩
    · obtain ⟨l, -, X⟩ := forall₂_right f1 x hx
      exact ⟨_, X.name⟩
    · obtain ⟨q, hq, X⟩ := forall₂_right f2 b hb
      obtain ⟨r, e⟩ := block_headed B T N (mem_jointPairs.1 hq).1 X x hx
      exact ⟨_, e⟩
  · rw [(pm.map _).nodup_iff, List.map_append]
    have a := names_of (φ := fun l : LinkDecl => nameIn [] l.name) (f1.imp fun _ _ X => X.name)
    refine List.nodup_append.2 ⟨?_, ?_, ?_⟩
    · rw [a]
      have nd := (List.nodup_append.1 B.sound.distinct).1
      unfold List.Nodup at nd ⊢
      rw [List.pairwise_map] at nd ⊢
      exact nd.imp fun ne e => ne (nameIn_inj (Option.some.inj e))
    · rw [List.map_flatten]
      refine List.nodup_flatten.2 ⟨?_, ?_⟩
      · intro n hn
        obtain ⟨b, hb, rfl⟩ := List.mem_map.1 hn
        obtain ⟨q, hq, X⟩ := forall₂_right f2 b hb
        exact block_nodup B T N (mem_jointPairs.1 hq).1 X
      · have nd := T.outer.distinct
        rw [← pairs_fst T.outer.simple, List.map_map] at nd
        have all : ∀ q ∈ jointPairs body.joints, q.1 ∈ body.joints := fun q hq => (mem_jointPairs.1 hq).1
        rw [List.pairwise_map]
        clear a pm mem link source
        generalize jointPairs body.joints = l at f2 nd all
        induction f2 with
        | nil => exact .nil
        | @cons q b l bs X f2 ih =>
          rw [List.map_cons, List.nodup_cons] at nd
          refine List.pairwise_cons.2 ⟨?_, ih nd.2 fun q hq => all q (.tail _ hq)⟩
          intro b' hb' n hn hn'
          obtain ⟨q', hq', X'⟩ := forall₂_right f2 b' hb'
          obtain ⟨x, hx, rfl⟩ := List.mem_map.1 hn
          obtain ⟨x', hx', e⟩ := List.mem_map.1 hn'
          obtain ⟨r, e1⟩ := block_headed B T N (all q (.head _)) X x hx
          obtain ⟨r', e2⟩ := block_headed B T N (all q' (.tail _ hq')) X' x' hx'
          rw [e1, e2] at e
          have := (append_dot_inj (dj _ (all q' (.tail _ hq'))) (dj _ (all q (.head _))) (Option.some.inj e)).1
          exact nd.1 (List.mem_map.2 ⟨q', hq', this⟩)
    · intro n hn n' hn' e
      rw [a] at hn
      obtain ⟨l, hl, rfl⟩ := List.mem_map.1 hn
      obtain ⟨x, hx, rfl⟩ := List.mem_map.1 hn'
      obtain ⟨b, hb, hx⟩ := List.mem_flatten.1 hx
      obtain ⟨q, hq, X⟩ := forall₂_right f2 b hb
      obtain ⟨r, e'⟩ := block_headed B T N (mem_jointPairs.1 hq).1 X x hx
      rw [e'] at e
      have := Option.some.inj e
      exact dl l hl (by rw [show l.name = nameIn [] l.name from rfl, this]; simp)
  · intro x hx ht
    rcases mem.1 hx with hx | ⟨b, hb, hx⟩
    · obtain ⟨l, hl, X⟩ := forall₂_right f1 x hx
      exact X.solidNames (B.sound.links l hl)
    · obtain ⟨q, hq, X⟩ := forall₂_right f2 b hb
      cases X with
      | joint _ X =>
        rw [List.mem_singleton] at hx
        subst hx
        exact absurd (ht.symm.trans (SaysJointAs.tag X)) lj
      | graph h1 _ _ X f1 f2 pm =>
        rcases List.mem_cons.1 hx with rfl | hx
        · exact absurd (ht.symm.trans (SaysJointAs.tag X)) lj
        · rcases List.mem_append.1 (pm.mem_iff.1 hx) with hx | hx
          · obtain ⟨l, hl, X⟩ := forall₂_right f1 x hx
            exact X.solidNames ((B.nested _ h1).links l hl)
          · obtain ⟨q, -, X⟩ := forall₂_right f2 x hx
            exact absurd (ht.symm.trans (SaysJointAs.tag X)) lj
  · intro x hx ht
    rcases mem.1 hx with hx | ⟨b, hb, hx⟩
    · obtain ⟨l, hl, X⟩ := forall₂_right f1 x hx
      exact absurd (X.tag.symm.trans ht) lj
    · obtain ⟨⟨j, i, o⟩, hq, X⟩ := forall₂_right f2 b hb
      obtain ⟨q1, q2, q3, q4, q5, q6⟩ := mem_jointPairs.1 hq
      have nj := (N.1.joints j q1).2
      obtain ⟨s1, s2⟩ := source j q1 i q2 q4
      cases X with
      | joint nog X =>
        rw [List.mem_singleton] at hx
        subst hx
        refine ⟨i.ref, o.ref, SaysJointAs.parent X, SaysJointAs.child X, s1, ?_, q6.symm, SaysJointAs.poses X⟩
        rcases (B.sound.joints j q1).refs o q3 with e | ⟨l, hl, e⟩ | e
        · exact .inl e
        · rw [← e]
          exact link l hl
        · obtain ⟨p, hp, e⟩ := List.mem_map.1 e
          exact absurd e (nog p hp)
      | @graph b' l x0 ys zs ws h1 hl base X f1 f2 pm =>
        have inner : ∀ l ∈ b'.links, IsLinkName xs (nameIn j.name l.name) := by
          intro l hl
          obtain ⟨y, hy, X⟩ := forall₂_left f1 l hl
          exact .inr ⟨y, mem.2 (.inr ⟨_, hb, .tail _ (pm.mem_iff.2 (List.mem_append_left _ hy))⟩), X.tag, X.name⟩
        rcases List.mem_cons.1 hx with rfl | hx
        · have := inner l hl
          rw [nameIn_some nj] at this
          refine ⟨i.ref, j.name ++ '.' :: l.name, SaysJointAs.parent X, SaysJointAs.child X, s1, this, ?_, SaysJointAs.poses X⟩
          intro e
          rw [e] at s2
          exact s2 (by simp)
        · rcases List.mem_append.1 (pm.mem_iff.1 hx) with hx | hx
          · obtain ⟨l, -, X⟩ := forall₂_right f1 x hx
            exact absurd (X.tag.symm.trans ht) lj
          · obtain ⟨⟨j', i', o'⟩, hq', X⟩ := forall₂_right f2 x hx
            obtain ⟨q1', q2', q3', q4', q5', q6'⟩ := mem_jointPairs.1 hq'
            have ref : ∀ r ∈ j'.rels, IsLinkName xs (nameIn j.name r.ref) := by
              intro r hr
              rcases ((B.nested _ h1).joints j' q1').refs r hr with e | ⟨l, hl, e⟩ | e
              · exact absurd e (T.worlds _ h1 j' q1' r hr)
              · rw [← e]
                exact inner l hl
              · rw [show b'.graphs = [] from (flat_assembled (assembled_flat B.assembled _ h1)).2] at e
                cases e
            exact ⟨_, _, SaysJointAs.parent X, SaysJointAs.child X, ref i' q2', ref o' q3', fun e => q6' (nameIn_inj e).symm,
              SaysJointAs.poses X⟩
  · intro x hx ht fr hf
    rcases mem.1 hx with hx | ⟨b, hb, hx⟩
    · obtain ⟨l, hl, X⟩ := forall₂_right f1 x hx
      have e := X.frame.symm.trans hf
      have e : frameIn body.joints l.name = some fr := by
        unfold frameOfLink at e
        revert e
        show Option.map (nameIn []) (match frameIn body.joints l.name with
          | some fr => some fr
          | none => _) = some fr → _
        cases frameIn body.joints l.name with
        | some c => simp [nameIn]
        | none => simp
      obtain ⟨q, hq, er, rfl⟩ := frameIn_some T.outer.simple e
      obtain ⟨b, hb, Y⟩ := forall₂_left f2 q hq
      cases Y with
      | joint _ Y =>
        refine ⟨_, mem.2 (.inr ⟨_, hb, .head _⟩), SaysJointAs.tag Y, ?_, l.name, X.name, ?_⟩
        · refine (SaysJointAs.name Y).trans ?_
          rw [er]
          rfl
        · refine (SaysJointAs.child Y).trans ?_
          rw [er]
          rfl
      | graph h1 =>
        rw [er] at h1
        exact absurd rfl ((List.nodup_append.1 B.sound.distinct).2.2 _ (List.mem_map_of_mem hl) _ (List.mem_map_of_mem (f := Prod.fst) h1))
    · obtain ⟨⟨j, i, o⟩, hq, X⟩ := forall₂_right f2 b hb
      obtain ⟨q1, -⟩ := mem_jointPairs.1 hq
      have nj := (N.1.joints j q1).2
      cases X with
      | joint _ X =>
        rw [List.mem_singleton] at hx
        subst hx
        exact absurd (ht.symm.trans (SaysJointAs.tag X)) lj
      | @graph b' l x0 ys zs ws h1 hl base X f1 f2 pm =>
        rcases List.mem_cons.1 hx with rfl | hx
        · exact absurd (ht.symm.trans (SaysJointAs.tag X)) lj
        · rcases List.mem_append.1 (pm.mem_iff.1 hx) with hx | hx
          · obtain ⟨l', hl', Y⟩ := forall₂_right f1 x hx
            have e := Y.frame.symm.trans hf
            unfold frameOfLink at e
            cases e' : frameIn b'.joints l'.name with
            | some c =>
              rw [show frameIn (GraphDecl.mk ([f.name, g] ++ [o.ref]) b').body.joints l'.name = some c from e'] at e
              obtain ⟨q, hq, er, rfl⟩ := frameIn_some (T.nested _ h1).simple e'
              obtain ⟨z, hz, Z⟩ := forall₂_left f2 q hq
              refine ⟨z, mem.2 (.inr ⟨_, hb, .tail _ (pm.mem_iff.2 (List.mem_append_right _ hz))⟩), SaysJointAs.tag Z, ?_, _, Y.name, ?_⟩
              · refine (SaysJointAs.name Z).trans ?_
                rw [er]
                exact e
              · refine (SaysJointAs.child Z).trans ?_
                rw [er]
            | none =>
              rw [show frameIn (GraphDecl.mk ([f.name, g] ++ [o.ref]) b').body.joints l'.name = none from e'] at e
              have := T.bases _ h1 l hl l' hl' base (base_of_frame (T.nested _ h1).simple (T.worlds _ h1) e')
              subst this
              refine ⟨x0, mem.2 (.inr ⟨_, hb, .head _⟩), SaysJointAs.tag X, ?_, _, Y.name, ?_⟩
              · refine (SaysJointAs.name X).trans ?_
                simp only [] at e
                split at e
                · rw [← e, Option.map_some, nameIn_some nj]
                  simp [nameIn]
                · cases e
              · refine (SaysJointAs.child X).trans ?_
                rw [nameIn_some nj]
                rfl
          · obtain ⟨q, -, X⟩ := forall₂_right f2 x hx
            exact absurd (ht.symm.trans (SaysJointAs.tag X)) lj

end

/-- **C95.** For a tidy file (`AllTidy`) under the conditions of C94, when a reader accepts it, the conversion succeeds with
one model, and the names in it are in order: they are different, and everything that is referred to exists. -/
theorem C95_references_resolve {E : Env} (inj : Function.Injective E.sha) {h h' : Heap} (R : Reach E h) {nm : Str} {ck : Clock}
    {f : EntityDecl} {I : FileIcon} (hr : readFile E nm ck f h = (.ok I, h')) {g : Str} {body : Items} {ps : Params}
    (B : IsAssembly f g body ps) (T : body.AllTidy) (N : body.AllDotless) :
    ∃ x, I.root = some x ∧ ∀ (W : World) (d : Nat), W.Fair E → W.h = h' → ∃ xs u, WellLinked xs ∧
      W.convert (d + 2) x {} = (.ok (), { sdf := { models := [(f.name, xs)], cache := [] }, uses := u, shared := [] }) := by
  obtain ⟨x, a, b⟩ := C94_assembly_to_sdf inj R hr B
  refine ⟨x, a, fun W d F e => ?_⟩
  obtain ⟨ys, bs, xs, u, f1, f2, p, r⟩ := b W d F e
  exact ⟨xs, u, closed_of B T N f1 f2 p, r⟩

end Rei
