import Verif.Props.SdfFlat

/-!
# C73: conversion of a whole file, for every schedule
-/
namespace Rei

variable {h : Heap}

instance : Inhabited Xml := ⟨.el [] [] [] []⟩

theorem forall₂_eq_map {α β : Type} [Inhabited β] {P : α → β → Prop} (fn : ∀ x y y', P x y → P x y' → y = y') :
    ∃ f : α → β, ∀ l ys, List.Forall₂ P l ys → ys = l.map f := by
  classical
  refine ⟨fun x => if q : ∃ y, P x y then q.choose else default, ?_⟩
  intro l ys q
  induction q with
  | nil => rfl
  | @cons x y l ys hxy _ ih =>
    have hex : ∃ y, P x y := ⟨y, hxy⟩
    rw [List.map_cons, dif_pos hex, ← ih]
    rw [fn x _ _ hex.choose_spec hxy]

theorem forall₂_perm {α β : Type} [Inhabited β] {P : α → β → Prop} (fn : ∀ x y y', P x y → P x y' → y = y')
    {l l' : List α} {ys ys' : List β} (a : List.Forall₂ P l ys) (b : List.Forall₂ P l' ys') (p : l.Perm l') :
    ys.Perm ys' := by
  obtain ⟨f, hf⟩ := forall₂_eq_map fn
  rw [hf _ _ a, hf _ _ b]
  exact p.map f

theorem holdsSelected_congr {els els' : List Ref} (q : ∀ x, x ∈ els ↔ x ∈ els') (r : Ref) :
    HoldsSelected h els r ↔ HoldsSelected h els' r := by
  unfold HoldsSelected
  simp only [q]

theorem jointPair_congr {els els' : List Ref} (q : ∀ x, x ∈ els ↔ x ∈ els') (i o : Ref) :
    JointPair h els i o ↔ JointPair h els' i o :=
  ⟨fun P => ⟨(holdsSelected_congr q i).1 P.selIn, (holdsSelected_congr q o).1 P.selOut, P.kindIn, P.kindOut, P.same,
      P.dirIn, P.dirOut, P.ends⟩,
    fun P => ⟨(holdsSelected_congr q i).2 P.selIn, (holdsSelected_congr q o).2 P.selOut, P.kindIn, P.kindOut, P.same,
      P.dirIn, P.dirOut, P.ends⟩⟩

theorem SoundSelection.congr {els els' : List Ref} (S : SoundSelection h els) (q : ∀ x, x ∈ els ↔ x ∈ els') :
    SoundSelection h els' where
  complete r hr := S.complete r ((holdsSelected_congr q r).2 hr)
  distinct r r' x y h1 h2 := S.distinct r r' x y ((holdsSelected_congr q r).2 h1) ((holdsSelected_congr q r').2 h2)
  answered i hi ki di := by
    obtain ⟨o, a, b⟩ := S.answered i ((holdsSelected_congr q i).2 hi) ki di
    exact ⟨o, (holdsSelected_congr q o).1 a, b⟩

theorem OneEach.congr {els els' : List Ref} (S : OneEach h els) (p : els.Perm els') : OneEach h els' := by
  refine ⟨p.nodup_iff.1 S.1, fun x hx y hy => S.2 x (p.mem_iff.2 hx) y (p.mem_iff.2 hy)⟩

theorem convert_visited_nodup {E : Env} (R : Reach E h) {g : Ref} (hg : g < h.size) (k : Nat) :
    (visitedBy h (convertQuery h g k)).Nodup := C28_exactly_once R hg false _

theorem convert_fits {E : Env} (R : Reach E h) {g : Ref} (hg : g < h.size) (k : Nat) :
    (visitedBy h (convertQuery h g k)).length ≤ h.size := by
  have := (convert_visited_nodup R hg k).subperm (l₂ := List.range h.size) (fun x hx => by
    rw [List.mem_range]
    unfold visitedBy at hx
    rcases (C28_complete R (show (convertQuery h g k).start < h.size from hg) false x).1 hx with ⟨rfl, _⟩ | ⟨n, hn, q⟩
    · exact hg
    · cases q with
      | start => exact hg
      | step _ hy _ => exact R.good.inv.lt_of_parent ((C01_containment_agrees R _).1 _ |>.1 hy))
  simpa using this.length_le

theorem convert_kind {g : Ref} {k : Nat} {x : Ref} (hx : x ∈ matchesOf h (convertQuery h g k)) :
    (h.get x).kind = .semantic (convertKind k) := by
  unfold matchesOf at hx
  have := (List.mem_filter.1 hx).2
  revert this
  show (match (.ok (decide ((h.get x).kind = .semantic (convertKind k))) : Except Err Bool) with
    | .ok true => true
    | _ => false) = true → _
  intro this
  by_contra hne
  simp [hne] at this

theorem ofKind_part {l : List Ref} {a k : SemKind} (q : ∀ x ∈ l, (h.get x).kind = .semantic a) :
    ofKind h k l = if a = k then l else [] := by
  unfold ofKind
  split
  · next e => subst e; exact List.filter_eq_self.2 fun x hx => decide_eq_true (q x hx)
  · next e =>
    refine List.filter_eq_nil_iff.2 fun x hx => ?_
    rw [q x hx, decide_eq_true_eq]
    intro he
    cases he
    exact e rfl

theorem ofKind_append (k : SemKind) (a b : List Ref) : ofKind h k (a ++ b) = ofKind h k a ++ ofKind h k b :=
  List.filter_append ..

/-- The queries of the converter: for every schedule, the selected elements in some order. -/
theorem convert_query {E : Env} {W : World} (F : W.Fair E) {root : Ref} (hr : root < W.h.size)
    (hk : (W.h.get root).kind = .node) :
    ∃ els Q', convertEngine.execute W.h W.budget (W.choice 0).order (convertQuery W.h root) [] = (.ok els, Q', []) ∧
      els.Perm (convertList W.h root) := by
  have he : Dict.values convertEngine = [0, 1, 2] := by decide
  obtain ⟨parts, Q', run, q, _, _⟩ := C52_every_schedule_partial F.reach (F.order 0) convertEngine
    (budget := W.budget) (convertQuery W.h root) (by rw [he]; decide)
    (by
      intro k _
      refine ⟨⟨rfl, fun c hc => by cases hc⟩, hr, ?_⟩
      exact lt_of_le_of_lt (convert_fits F.reach hr k) F.stack)
    ⟨2, by rw [he]; simp, List.ne_nil_of_mem (a := root) (by
      unfold visitedBy
      refine (C28_complete F.reach (show (convertQuery W.h root 2).start < W.h.size from hr) false root).2
        (.inl ⟨rfl, ?_, rfl⟩)
      show passes W.h (fun _ => true) root = true
      unfold passes
      rw [hk]
      rfl)⟩
  rw [he] at q
  refine ⟨parts.flatten, Q', run, ?_⟩
  cases q with
  | cons p1 q =>
    cases q with
    | cons p2 q =>
      cases q with
      | cons p3 q =>
        cases q
        simp only [List.flatten_cons, List.flatten_nil, List.append_nil]
        unfold convertList
        rw [List.append_assoc]
        exact p1.append (p2.append p3)

theorem events_single (n : Str) (xs : List Xml) :
    ({} : Sdf).runEvents (.model n :: xs.map .element) = { models := [(n, xs)], cache := [] } := by
  induction xs using List.reverseRecOn with
  | nil => rfl
  | append_singleton xs x ih =>
    rw [List.map_append, ← List.cons_append]
    show ({} : Sdf).runEvents (_ ++ [SdfEvent.element x]) = _
    rw [Sdf.runEvents_snoc, ih]
    rfl

/-- What `C73_convert` says, in terms of the export of single elements. -/
theorem convert_run {E : Env} (root c : Ref) (hr : root < h.size) (hk : (h.get root).kind = .node)
    (hc : ofKind h .cognitiveEntity (convertList h root) = [c])
    (hl : ∀ l ∈ convertList h root, (h.get l).kind = .semantic .kinLink → ∃ y, IsLinkExport h [] l y)
    (S : SoundSelection h (convertList h root)) (O : OneEach h (convertList h root))
    (hflat : ∀ i o v, JointPair h (convertList h root) i o → (h.get o).endpoint = some v → ¬ HasKinGraph h v)
    (hj : ∀ i o, JointPair h (convertList h root) i o → ∃ x, jointBase h i o [] = .ok x) :
    ∃ ys ps js, List.Forall₂ (IsLinkExport h []) (ofKind h .kinLink (convertList h root)) ys ∧
      List.Forall₂ (fun p x => jointBase h p.1 p.2 [] = .ok x) ps js ∧ ps.Nodup ∧
      (∀ i o, (i, o) ∈ ps ↔ JointPair h (convertList h root) i o) ∧
      ∀ (W : World) (d : Nat), W.Fair E → W.h = h → ∃ xs, xs.Perm (ys ++ js) ∧
        W.convert (d + 1) root {} = (.ok (),
          { sdf := { models := [((h.get c).idName, xs)], cache := [] }, uses := 1, shared := [] }) := by
  obtain ⟨ys, ps, js, _, a1, a2, a3, a4⟩ := flat_run ⟨h, 0, fun _ => ⟨id, fun _ => 0⟩⟩ 0 (convertList h root) []
    {} hl S hflat hj
  refine ⟨ys, ps, js, a1, a2, a4 O, a3, ?_⟩
  rintro W d F rfl
  obtain ⟨els, Q', run, perm⟩ := convert_query F hr hk
  have hm : ∀ x, x ∈ els ↔ x ∈ convertList W.h root := fun x => perm.mem_iff
  obtain ⟨ys', ps', js', e, b1, b2, b3, b4⟩ := flat_run W d els [] { ({} : Run) with uses := 1, shared := [] }
    (fun l hll hlk => hl l ((hm l).1 hll) hlk) (S.congr fun x => (hm x).symm)
    (fun i o v P => hflat i o v ((jointPair_congr hm i o).1 P))
    (fun i o P => hj i o ((jointPair_congr hm i o).1 P))
  refine ⟨ys' ++ js', ?_, ?_⟩
  · refine List.Perm.append ?_ ?_
    · exact forall₂_perm (fun l y y' => isLinkExport_fn l y y') b1 a1 (perm.filter _)
    · refine forall₂_perm (fun p x x' h1 h2 => by rw [h1] at h2; cases h2; rfl) b2 a2 ?_
      refine (List.perm_ext_iff_of_nodup (b4 (O.congr perm.symm)) (a4 O)).2 ?_
      rintro ⟨i, o⟩
      rw [b3, a3, jointPair_congr hm]
  · unfold World.convert
    simp only [run]
    refine e.trans ?_
    have hce : ofKind W.h .cognitiveEntity els = [c] := by
      have : (ofKind W.h .cognitiveEntity els).Perm [c] := hc ▸ perm.filter _
      exact List.perm_singleton.1 this
    rw [hce, List.map_singleton, List.append_assoc, ← List.map_append]
    exact congrArg (fun x => (Except.ok (), Run.mk x 1 [])) (events_single _ _)

theorem searched_iff (h : Heap) (bound : Option Nat) (y : Ref) :
    passes h (fun x => match bound with
      | some n => nodeDepthAtMost h n x
      | none => true) y = true ↔ SearchedIn h bound y := by
  unfold passes SearchedIn nodeDepthAtMost
  cases hk : (h.get y).kind <;> cases bound <;> simp [hk]

theorem found_iff {h : Heap} {bound : Option Nat} {root y : Ref} {f : Ref → Bool}
    (hf : ∀ y, f y = true ↔ SearchedIn h bound y) :
    (∃ n, 1 ≤ n ∧ DownTo h f root n y) ↔ FoundBelow h bound root y := by
  constructor
  · rintro ⟨n, hn, q⟩
    have key : ∀ n y, DownTo h f root n y → (n = 0 ∧ y = root) ∨ FoundBelow h bound root y := by
      intro n y q
      induction q with
      | start => exact .inl ⟨rfl, rfl⟩
      | step _ hy hfy ih =>
        rcases ih with ⟨_, rfl⟩ | ih
        · exact .inr (.first hy ((hf _).1 hfy))
        · exact .inr (.next ih hy ((hf _).1 hfy))
    rcases key n y q with ⟨rfl, _⟩ | r
    · omega
    · exact r
  · intro q
    induction q with
    | first hy hs => exact ⟨1, Nat.le_refl _, .step .start hy ((hf _).2 hs)⟩
    | next _ hy hs ih =>
      obtain ⟨n, _, q⟩ := ih
      exact ⟨n + 1, by omega, .step q hy ((hf _).2 hs)⟩

theorem mem_convert_matches {E : Env} {h : Heap} (R : Reach E h) {root : Ref} (hr : root < h.size) (hk : (h.get root).kind = .node)
    {k : Nat} {bound : Option Nat} (hb : ∀ y, passes h (convertStatement h k) y = true ↔ SearchedIn h bound y) {x : Ref} :
    x ∈ matchesOf h (convertQuery h root k) ↔
      (h.get x).kind = .semantic (convertKind k) ∧ FoundBelow h bound root x := by
  rw [← found_iff hb]
  constructor
  · intro hx
    have kx := convert_kind hx
    refine ⟨kx, ?_⟩
    have := (List.mem_filter.1 hx).1
    unfold visitedBy at this
    rcases (C28_complete R (show (convertQuery h root k).start < h.size from hr) false x).1 this with ⟨e, -⟩ | q
    · rw [show x = root from e, hk] at kx; cases kx
    · exact q
  · rintro ⟨kx, q⟩
    refine List.mem_filter.2 ⟨?_, ?_⟩
    · unfold visitedBy
      exact (C28_complete R (show (convertQuery h root k).start < h.size from hr) false x).2 (.inr q)
    · show (match (.ok (decide ((h.get x).kind = .semantic (convertKind k))) : Except Err Bool) with
        | .ok true => true
        | _ => false) = true
      rw [decide_eq_true kx]

/-- What the converter selects, once each: the links that a search finds below the root if it goes into nodes of depth at
most 2 only, the joints that it finds if it goes into nodes of depth at most 1 only, and all cognitive entities. -/
theorem C73_selected {E : Env} {h : Heap} (R : Reach E h) {root : Ref} (hr : root < h.size) (hk : (h.get root).kind = .node) :
    (convertList h root).Nodup ∧ ∀ x, x ∈ convertList h root ↔
      ((h.get x).kind = .semantic .kinLink ∧ FoundBelow h (some 2) root x) ∨
      ((h.get x).kind = .semantic .kinJoint ∧ FoundBelow h (some 1) root x) ∨
      ((h.get x).kind = .semantic .cognitiveEntity ∧ FoundBelow h none root x) := by
  have m0 := fun x => mem_convert_matches R hr hk (k := 0) (bound := some 2) (searched_iff h (some 2)) (x := x)
  have m1 := fun x => mem_convert_matches R hr hk (k := 1) (bound := some 1) (searched_iff h (some 1)) (x := x)
  have m2 := fun x => mem_convert_matches R hr hk (k := 2) (bound := none) (searched_iff h none) (x := x)
  have nd : ∀ k, (matchesOf h (convertQuery h root k)).Nodup := fun k => (convert_visited_nodup R hr k).filter _
  constructor
  · unfold convertList
    rw [List.nodup_append, List.nodup_append]
    refine ⟨⟨nd 0, nd 1, fun a ha b hb e => ?_⟩, nd 2, fun a ha b hb e => ?_⟩
    · subst e
      have := ((m0 a).1 ha).1.symm.trans ((m1 a).1 hb).1
      cases this
    · subst e
      rcases List.mem_append.1 ha with ha | ha
      · have := ((m0 a).1 ha).1.symm.trans ((m2 a).1 hb).1
        cases this
      · have := ((m1 a).1 ha).1.symm.trans ((m2 a).1 hb).1
        cases this
  · intro x
    unfold convertList
    rw [List.mem_append, List.mem_append, m0, m1, m2, or_assoc]
    rfl

/-- **C73.** Conversion of a file with one cognitive entity and no nested graphs: there is a fixed collection of
elements (one link element per selected link, one joint element per pair of an incoming and an outgoing relation)
such that for every schedule the document is one model, named after the entity, with exactly these elements in some
order. -/
theorem C73_convert {E : Env} (R : Reach E h) (root c : Ref) (hr : root < h.size) (hk : (h.get root).kind = .node)
    (hc : ofKind h .cognitiveEntity (convertList h root) = [c])
    (hl : ∀ l ∈ convertList h root, (h.get l).kind = .semantic .kinLink → ∃ n, ReadableLink h l n)
    (S : SoundSelection h (convertList h root)) (O : OneEach h (convertList h root))
    (hflat : ∀ i o v, JointPair h (convertList h root) i o → (h.get o).endpoint = some v → ¬ HasKinGraph h v)
    (hj : ∀ i o, JointPair h (convertList h root) i o → ReadableJoint h o) :
    ∃ ys ps js, List.Forall₂ (LinkShown h []) (ofKind h .kinLink (convertList h root)) ys ∧
      List.Forall₂ (fun p x => JointShown h [] p.1 p.2 x) ps js ∧ ps.Nodup ∧
      (∀ i o, (i, o) ∈ ps ↔ JointPair h (convertList h root) i o) ∧
      ∀ (W : World) (d : Nat), W.Fair E → W.h = h → ∃ xs, xs.Perm (ys ++ js) ∧
        W.convert (d + 1) root {} = (.ok (),
          { sdf := { models := [((h.get c).idName, xs)], cache := [] }, uses := 1, shared := [] }) := by
  obtain ⟨ys, ps, js, h2, h3, h4, h5, h6⟩ := convert_run (E := E) root c hr hk hc
    (fun l hm hk => by
      obtain ⟨n, L⟩ := hl l hm hk
      obtain ⟨y, q, _⟩ := C84_link R L []
      exact ⟨y, q⟩) S O hflat
    (fun i o P => by
      obtain ⟨x, q, _⟩ := (hj i o P).run P []
      exact ⟨x, q⟩)
  refine ⟨ys, ps, js, ?_, ?_, h4, h5, h6⟩
  · refine forall₂_imp_mem h2 fun l hm y q => ?_
    obtain ⟨a, b⟩ := List.mem_filter.1 hm
    obtain ⟨n, L⟩ := hl l a (of_decide_eq_true b)
    exact q.shown R L
  · refine forall₂_imp_mem h3 ?_
    rintro ⟨i, o⟩ hm x q
    obtain ⟨x', e, sh⟩ := (hj i o ((h5 i o).1 hm)).run ((h5 i o).1 hm) []
    rw [show jointBase h i o [] = .ok x from q] at e
    cases e
    exact sh

/-- **C73 with several entities.** Whatever entities are exported together, all links and joints end up in the model
of the last one; the models of the others are empty. -/
theorem C73_entities_refuted {E : Env} (W : World) (R : Reach E W.h) (d : Nat) (els : List Ref) (pre : Str) (s : Run) (hs : s.sdf = {})
    (h2 : ofKind W.h .cognitiveEntity els ≠ [])
    (hl : ∀ l ∈ els, (W.h.get l).kind = .semantic .kinLink → ∃ n, ReadableLink W.h l n)
    (S : SoundSelection W.h els)
    (hflat : ∀ i o v, JointPair W.h els i o → (W.h.get o).endpoint = some v → ¬ HasKinGraph W.h v)
    (hj : ∀ i o, JointPair W.h els i o → ReadableJoint W.h o) :
    ∃ xs, (W.encode (d + 1) els pre s).1 = .ok () ∧ (W.encode (d + 1) els pre s).2.sdf.models =
      (ofKind W.h .cognitiveEntity els).dropLast.map (fun c => ((W.h.get c).idName, [])) ++
      [((W.h.get ((ofKind W.h .cognitiveEntity els).getLast h2)).idName, xs)] := by
  obtain ⟨ys, ps, js, e, _, _, _, _⟩ := C72_flat W R d els pre s hl S hflat hj
  rw [e, hs]
  refine ⟨ys ++ js, rfl, ?_⟩
  generalize ofKind W.h .cognitiveEntity els = cs at h2
  show (({} : Sdf).runEvents _).models = _
  rw [List.append_assoc, ← List.map_append]
  generalize ys ++ js = xs
  induction xs using List.reverseRecOn with
  | nil =>
    rw [List.map_nil, List.append_nil]
    conv_lhs => rw [← List.dropLast_append_getLast h2]
    have : ∀ l : List Ref, (({} : Sdf).runEvents (l.map fun c => .model (W.h.get c).idName)) =
        { models := l.map fun c => ((W.h.get c).idName, []), cache := [] } := by
      intro l
      induction l using List.reverseRecOn with
      | nil => rfl
      | append_singleton l c ih =>
        rw [List.map_append, List.map_singleton, Sdf.runEvents_snoc, ih, List.map_append]
        rfl
    rw [this, List.map_append]
    rfl
  | append_singleton xs x ih =>
    rw [List.map_append, List.map_singleton, ← List.append_assoc, Sdf.runEvents_snoc]
    generalize ({} : Sdf).runEvents _ = t at ih ⊢
    simp only [Sdf.runEvent, Sdf.add]
    rw [ih, List.getLast?_append, List.getLast?_singleton]
    simp only [Option.some_or, List.dropLast_concat]

end Rei
