import Verif.Props.CogniAccept

/-!
# What a reader must refuse (C80)

Conditions that every accepted file meets, stated on the file alone.
-/
namespace Rei
open PyM

/-- The names of the parts that the items of a body stand for in its container, in order. -/
def Items.partNames (path : List Str) : List Str → Items → List Str
  | _, .nil => []
  | seen, .kinematic name body rest => name :: rest.partNames path (seen ++ body.targets (path ++ [name]))
  | seen, .ambient name body rest => name :: rest.partNames path (seen ++ body.targets (path ++ [name]))
  | seen, .device name rest => name :: rest.partNames path seen
  | seen, .link l rest =>
      l.name :: solidsEdges (path ++ [l.name]) seen l.solids ++ rest.partNames path (seen ++ l.targets path)
  | seen, .joint j rest => j.name :: rest.partNames path seen
  | seen, .params _ rest => rest.partNames path seen
  | seen, .skipped rest => rest.partNames path seen

/-- The class has a semantic element and the field is a vector. -/
def Geom.Drawable : Geom → Prop
  | .solid c f => c ≠ .mesh ∧ ∃ v, f = .vec v
  | .ref _ => True

/-- An arrow, and an endpoint that something in the container is called, if it is a plain name. -/
def JointRel.Readable (names : List Str) (r : JointRel) : Prop :=
  r.dir ∈ ["<-".toList, "->".toList, "--".toList] ∧ (r.ref = "world".toList ∨ '/' ∈ r.ref ∨ r.ref ∈ names)

/-- Every solid of the body is drawable, every joint readable; `names` are the names of the parts of the container. -/
def Items.Readable (names path : List Str) : List Str → Items → Prop
  | _, .nil => True
  | seen, .kinematic name body rest =>
      Items.Readable (name :: body.partNames (path ++ [name]) seen) (path ++ [name]) seen body ∧
      Items.Readable names path (seen ++ body.targets (path ++ [name])) rest
  | seen, .ambient name body rest =>
      Items.Readable (body.partNames (path ++ [name]) seen) (path ++ [name]) seen body ∧
      Items.Readable names path (seen ++ body.targets (path ++ [name])) rest
  | seen, .device _ rest => Items.Readable names path seen rest
  | seen, .link l rest => (∀ s ∈ l.solids, s.geom.Drawable) ∧ Items.Readable names path (seen ++ l.targets path) rest
  | seen, .joint j rest => (∀ r ∈ j.rels, r.Readable names) ∧ Items.Readable names path seen rest
  | seen, .params _ rest => Items.Readable names path seen rest
  | seen, .skipped rest => Items.Readable names path seen rest

theorem rel_of_mem {α β : Type} {P : α → β → Prop} {l : List α} {m : List β} (f : List.Forall₂ P l m) {a : α}
    (ha : a ∈ l) : ∃ b ∈ m, P a b := by
  induction f with
  | nil => cases ha
  | cons p f ih =>
    rcases List.mem_cons.1 ha with rfl | ha
    · exact ⟨_, List.mem_cons_self .., p⟩
    · obtain ⟨b, hb, q⟩ := ih ha
      exact ⟨b, List.mem_cons_of_mem _ hb, q⟩

section
variable {h : Heap} {w : Ref}

theorem shows_names {items : Items} : ∀ {c : Ref} {top : Bool} {ps : Params} {seen path : List Str} {l : List Ref},
    Shows h w c top ps seen path items l → l.map (fun x => (h.get x).idName) = items.partNames path seen := by
  induction items with
  | nil => intro c top ps seen path l s; cases s; rfl
  | kinematic name body rest _ ih =>
    intro c top ps seen path l s
    obtain ⟨x, s, ys, l', rfl, n, -, -, b⟩ := s
    rw [List.map_cons, ih b, n.name]; rfl
  | ambient name body rest _ ih =>
    intro c top ps seen path l s
    obtain ⟨x, ys, l', rfl, n, -, b⟩ := s
    rw [List.map_cons, ih b, n.name]; rfl
  | device name rest ih =>
    intro c top ps seen path l s
    obtain ⟨x, l', rfl, n, b⟩ := s
    rw [List.map_cons, ih b, n.name]; rfl
  | link d rest ih =>
    intro c top ps seen path l s
    obtain ⟨x, es, l', rfl, a, b⟩ := s
    have t := link_tags a
    rw [List.map_append, ih b]
    show _ ++ _ = _
    have q := congrArg (List.map Prod.fst) t
    rw [List.map_map] at q
    have q' : (x :: es).map (fun x => (h.get x).idName) = (d.adds seen path).map Prod.fst := q
    rw [q']
    simp only [LinkDecl.adds, List.map_cons, List.map_map, Items.partNames]
    simp [Function.comp_def]
  | joint j rest ih =>
    intro c top ps seen path l s
    obtain ⟨e, l', rfl, ⟨rs, n, -⟩, b⟩ := s
    rw [List.map_cons, ih b, n.name]; rfl
  | params qs rest ih => intro c top ps seen path l s; exact ih s
  | skipped rest ih => intro c top ps seen path l s; exact ih s

theorem solids_drawable {path : List Str} {ss : List SolidDecl} : ∀ {ps : Params} {seen : List Str} {ys es : List Ref},
    ShowsSolids h ps path seen ss ys es → ∀ s ∈ ss, s.geom.Drawable := by
  induction ss with
  | nil => intro _ _ _ _ _ s m; cases m
  | cons s ss ih =>
    intro ps seen ys es sh
    obtain ⟨y, ys', es1, es2, rfl, rfl, a, b⟩ := sh
    intro s' m
    rcases List.mem_cons.1 m with rfl | m
    · obtain ⟨g, ms, -, -, q, -⟩ := a
      cases hg : s'.geom with
      | solid c f =>
        rw [hg] at q
        obtain ⟨-, _, k, v, l, hk, hv, -⟩ := q
        exact ⟨fun e => by (subst e; cases hk), v, hv⟩
      | ref id => trivial
    · exact ih b s' m

theorem link_drawable {path : List Str} {l : LinkDecl} {ps : Params} {seen : List Str} {x : Ref} {es : List Ref}
    (s : ShowsLink h ps seen path l x es) : ∀ s ∈ l.solids, s.geom.Drawable := by
  obtain ⟨sv, ts, ys, -, -, -, d⟩ := s
  unfold LinkDecl.solids
  cases hb : l.body with
  | none => intro s m; cases m
  | some b =>
    rw [hb] at d
    obtain ⟨i, ys', -, -, d⟩ := d
    exact solids_drawable d

theorem joint_readable {path : List Str} {j : JointDecl} {ps : Params} {c e : Ref} {names : List Str}
    (hn : ∀ x ∈ h.parts c, (h.get x).idName ∈ names) (s : ShowsJoint h w c ps path j e) :
    ∀ r ∈ j.rels, r.Readable names := by
  obtain ⟨rs, -, f⟩ := s
  intro r m
  obtain ⟨x, -, d, t, sv, ts, a, hd, he, -⟩ := rel_of_mem f m
  refine ⟨by rw [hd]; cases d <;> simp [arrow], ?_⟩
  by_cases hw : r.ref = "world".toList
  · exact .inl hw
  by_cases hs : '/' ∈ r.ref
  · exact .inr (.inl hs)
  refine .inr (.inr ?_)
  unfold IsEndpoint at he
  rw [if_neg hw, Str.split_of_not_mem hs] at he
  have q := List.find?_some he
  rw [← of_decide_eq_true q]
  exact hn t (List.mem_of_find?_eq_some he)

theorem shows_readable {items : Items} : ∀ {c : Ref} {top : Bool} {ps : Params} {seen path : List Str} {l : List Ref}
    {names : List Str}, (∀ x ∈ h.parts c, (h.get x).idName ∈ names) →
    Shows h w c top ps seen path items l → items.Readable names path seen := by
  induction items with
  | nil => intros; trivial
  | kinematic name body rest ihb ih =>
    intro c top ps seen path l names hn s
    obtain ⟨x, s, ys, l', rfl, n, m, a, b⟩ := s
    refine ⟨ihb ?_ a, ih hn b⟩
    intro y hy
    rw [n.parts] at hy
    rcases List.mem_cons.1 hy with rfl | hy
    · rw [m.name]; simp
    · rw [← shows_names a]
      exact List.mem_cons_of_mem _ (List.mem_map.2 ⟨y, hy, rfl⟩)
  | ambient name body rest ihb ih =>
    intro c top ps seen path l names hn s
    obtain ⟨x, ys, l', rfl, n, a, b⟩ := s
    refine ⟨ihb ?_ a, ih hn b⟩
    intro y hy
    rw [n.parts] at hy
    rw [← shows_names a]
    exact List.mem_map.2 ⟨y, hy, rfl⟩
  | device name rest ih =>
    intro c top ps seen path l names hn s
    obtain ⟨x, l', rfl, n, b⟩ := s
    exact ih hn b
  | link d rest ih =>
    intro c top ps seen path l names hn s
    obtain ⟨x, es, l', rfl, a, b⟩ := s
    exact ⟨link_drawable a, ih hn b⟩
  | joint j rest ih =>
    intro c top ps seen path l names hn s
    obtain ⟨e, l', rfl, a, b⟩ := s
    exact ⟨joint_readable hn a, ih hn b⟩
  | params qs rest ih => intro c top ps seen path l names hn s; exact ih hn s
  | skipped rest ih => intro c top ps seen path l names hn s; exact ih hn s

end

/-- **C80.** A file with a mesh, with a solid whose values are a reference, with a joint whose arrow is unknown or that
refers to a plain name nothing in its container bears, is refused. -/
theorem C80_unreadable_refused {E : Env} {h : Heap} (R : Reach E h) (nm : Str) (ck : Clock) {f : EntityDecl}
    (hs : ¬ f.body.Readable (f.name :: f.body.partNames [f.name] []) [f.name] []) :
    ∃ er, (readFile E nm ck f h).1 = .error er := by
  cases q : readFile E nm ck f h with
  | mk r h' =>
    cases r with
    | error er => exact ⟨er, rfl⟩
    | ok I =>
      obtain ⟨x, w, -, -, -, -, -, -, s, ys, n, -, m, b⟩ := C76_file_shown R q
      refine absurd (shows_readable ?_ b) hs
      intro y hy
      rw [n.parts] at hy
      rcases List.mem_cons.1 hy with rfl | hy
      · rw [m.name]; simp
      · rw [← shows_names b]
        exact List.mem_cons_of_mem _ (List.mem_map.2 ⟨y, hy, rfl⟩)

/-- C80: a mesh; a joint to a link that is called differently. -/
example : ¬ (Items.link { name := ['l'], pose := none, body := some { mass := 1, solids := [
      { visual := true, id := none, geom := .solid .mesh (.vec []) }] } } .nil).Readable ["e".toList] ["e".toList] [] ∧
    ¬ (Items.link { name := ['l'], pose := none, body := none } (.joint { name := ['j'], rels := [
      { type := "fix".toList, dir := "<-".toList, ref := ['k'] }] } .nil)).Readable
        ["e".toList, ['l'], ['j']] ["e".toList] [] := by
  constructor
  · intro q
    exact (q.1 _ (List.mem_singleton.2 rfl)).1 rfl
  · intro q
    have := q.2.1 _ (List.mem_singleton.2 rfl)
    revert this
    unfold JointRel.Readable
    decide

/-- **C76, refuted for later references.** In the shipped `example_kinematic_loop.cogni` seven visual and collision nodes
refer to the first link, but every accepted reading has just one reference edge: the parts of the kinematic graph are, in
order, these. -/
theorem C76_later_references_refuted {E : Env} {h h' : Heap} (R : Reach E h) {nm : Str} {ck : Clock} {I : FileIcon}
    (hr : readFile E nm ck Cogni.kinematicLoop h = (.ok I, h')) :
    (Cogni.kinematicLoop.body.targets [Cogni.kinematicLoop.name]).length = 7 ∧
    ∃ x k, I.root = some x ∧ k ∈ h'.parts x ∧ (h'.parts k).map (fun y => String.ofList (h'.get y).idName) =
      ["basic_structure", "link_01", "ref_geom_kinematic_loop_entity/basic_structure/link_01/coll_link_01/viz_link01",
       "link_02", "link_03", "link_04", "connect_12", "connect_23", "connect_34", "connect_41"] := by
  refine ⟨by decide +kernel, ?_⟩
  obtain ⟨x, w, hx, -, -, -, -, -, s, ys, n, -, m, b⟩ := C76_file_shown R hr
  obtain ⟨k, s', zs, l', rfl, n', m', a, -⟩ := b
  refine ⟨x, k, hx, by rw [n.parts]; simp, ?_⟩
  rw [n'.parts, List.map_cons, m'.name]
  have e := congrArg (List.map String.ofList) (shows_names a)
  rw [List.map_map] at e
  show _ :: zs.map (String.ofList ∘ fun y => (h'.get y).idName) = _
  rw [e]
  decide +kernel

end Rei
