import Verif.Spec.CogniSdf
import Verif.Lemmas.Neat
import Verif.Props.CogniFile

/-!
# The parts of a file with one graph of links and joints
-/
namespace Rei

/-- A visual or collision node, with its geometry node, its material and its reference edge. -/
structure SolidRec where
  d : SolidDecl
  y : Ref
  g : Ref
  ms : List Ref
  es : List Ref

/-- What the record of a solid means. -/
structure SolidRec.Ok (h : Heap) (ps : Params) (path : List Str) (s : SolidRec) : Prop where
  node : IsNode h s.y (s.d.nodeName path) (path ++ [s.d.nodeName path]) (s.g :: s.ms)
  geom : IsNode h s.g ("geom_".toList ++ s.d.nodeName path)
    (path ++ [s.d.nodeName path, "geom_".toList ++ s.d.nodeName path]) (h.parts s.g)
  shape : ShowsGeom h ps [] path.dropLast (s.d.around path) ("geom_".toList ++ s.d.nodeName path) s.g s.d.geom s.es
  mat : if s.d.visual then ∃ m, s.ms = [m] ∧ IsSem h m .material ("material_".toList ++ s.d.nodeName path)
      [("name".toList, .str ("material_".toList ++ s.d.nodeName path)),
       ("material_name".toList, .str (s.d.material.getD "white".toList))] []
    else s.ms = []

/-- A link, with its semantic element, transformations, inertia and solids. -/
structure LinkRec where
  d : LinkDecl
  x : Ref
  sv : Ref
  ts : List Ref
  is : List Ref
  ss : List SolidRec

/-- Its reference edges. -/
def LinkRec.edges (l : LinkRec) : List Ref := l.ss.flatMap SolidRec.es

/-- What the record of a link in the container `path` means. -/
structure LinkRec.Ok (h : Heap) (ps : Params) (path : List Str) (l : LinkRec) : Prop where
  node : IsNode h l.x l.d.name (path ++ [l.d.name]) (l.sv :: (l.is ++ l.ss.map SolidRec.y))
  sem : IsSem h l.sv .kinLink l.d.name (linkAttrs l.d.name l.ts) l.ts
  pose : ShowsPose h ps l.d.name l.d.pose l.ts
  body : match l.d.body with
    | none => l.is = []
    | some b => ∃ i, l.is = [i] ∧
      IsSem h i .inertia ("inertia_".toList ++ Str.join '/' (path ++ [l.d.name])) [("mass".toList, .num b.mass)] []
  decls : l.ss.map SolidRec.d = l.d.solids
  solids : ∀ s ∈ l.ss, s.Ok h ps (path ++ [l.d.name])

/-- A joint, with its relations. -/
structure JointRec where
  d : JointDecl
  e : Ref
  rs : List (JointRel × Ref)

/-- What the record of a joint in the container `c` at `path` means. -/
structure JointRec.Ok (h : Heap) (w c : Ref) (ps : Params) (path : List Str) (j : JointRec) : Prop where
  edge : IsEdge h j.e j.d.name (path ++ [j.d.name]) (j.rs.map Prod.snd)
  decls : j.rs.map Prod.fst = j.d.rels
  rels : ∀ p ∈ j.rs, ShowsJointRel h w c ps j.d.name p.1 p.2

theorem solids_flat {h : Heap} {ps : Params} {path : List Str} : ∀ {ss : List SolidDecl} {seen : List Str}
    {ys es : List Ref}, ShowsSolids h ps path seen ss ys es →
    (seen ++ ss.flatMap fun s => s.geom.targets (s.around path)).Nodup →
    ∃ rs : List SolidRec, rs.map SolidRec.d = ss ∧ rs.map SolidRec.y = ys ∧ rs.flatMap SolidRec.es = es ∧
      ∀ s ∈ rs, s.Ok h ps path
  | [], _, _, _, ⟨rfl, rfl⟩, _ => ⟨[], rfl, rfl, rfl, by simp⟩
  | s :: ss, seen, _, _, ⟨y, ys, e1, e2, rfl, rfl, S, T⟩, nd => by
    rw [List.flatMap_cons, ← List.append_assoc] at nd
    obtain ⟨rs, rfl, rfl, rfl, ok⟩ := solids_flat T nd
    obtain ⟨g, ms, a, b, c, d⟩ := S
    refine ⟨⟨s, y, g, ms, e1⟩ :: rs, rfl, rfl, rfl, ?_⟩
    rintro r (_ | ⟨_, hr⟩)
    · refine ⟨a, b, ?_, d⟩
      revert c
      cases hg : s.geom with
      | solid c f => exact id
      | ref id =>
        rintro ⟨c1, c2⟩
        refine ⟨c1, ?_⟩
        have : targetName (s.around path) id ∉ seen := fun hm => by
          have h1 := (List.nodup_append.1 nd).1
          rw [hg] at h1
          exact (List.nodup_append.1 h1).2.2 _ hm _ (List.mem_singleton.2 rfl) rfl
        rw [if_neg this] at c2
        rw [if_neg (by simp)]
        exact c2
    · exact ok r hr

theorem link_flat {h : Heap} {ps : Params} {path seen : List Str} {l : LinkDecl} {x : Ref} {es : List Ref}
    (S : ShowsLink h ps seen path l x es) (nd : (seen ++ l.targets path).Nodup) :
    ∃ r : LinkRec, r.d = l ∧ r.x = x ∧ r.edges = es ∧ r.Ok h ps path := by
  obtain ⟨sv, ts, ys, a, b, c, d⟩ := S
  cases hb : l.body with
  | none =>
    rw [hb] at d
    obtain ⟨rfl, rfl⟩ := d
    refine ⟨⟨l, x, sv, ts, [], []⟩, rfl, rfl, rfl, a, b, c, ?_, ?_, by simp⟩
    · simp only [hb]
    · simp [LinkDecl.solids, hb]
  | some bd =>
    rw [hb] at d
    obtain ⟨i, ys, rfl, d1, d2⟩ := d
    unfold LinkDecl.targets at nd
    simp only [hb] at nd
    obtain ⟨rs, e1, rfl, rfl, ok⟩ := solids_flat d2 nd
    refine ⟨⟨l, x, sv, ts, [i], rs⟩, rfl, rfl, rfl, a, b, c, ?_, ?_, ok⟩
    · simp only [hb]
      exact ⟨i, rfl, d1⟩
    · simp [LinkDecl.solids, hb, e1]

theorem rels_flat {P : JointRel → Ref → Prop} {l : List JointRel} {rs : List Ref} (q : List.Forall₂ P l rs) :
    ∃ ps : List (JointRel × Ref), ps.map Prod.fst = l ∧ ps.map Prod.snd = rs ∧ ∀ p ∈ ps, P p.1 p.2 := by
  induction q with
  | nil => exact ⟨[], rfl, rfl, by simp⟩
  | cons a _ ih =>
    obtain ⟨ps, rfl, rfl, ok⟩ := ih
    refine ⟨(_, _) :: ps, rfl, rfl, ?_⟩
    rintro p (_ | ⟨_, hp⟩)
    · exact a
    · exact ok p hp

theorem items_flat {h : Heap} {w c : Ref} {ps : Params} {path : List Str} : ∀ {its : Items} {seen : List Str} {l : List Ref},
    Shows h w c false ps seen path its l → its.flat = true → (seen ++ its.targets path).Nodup →
    ∃ (ls : List LinkRec) (js : List JointRec), ls.map LinkRec.d = its.links ∧ js.map JointRec.d = its.joints ∧
      (∀ r ∈ ls, r.Ok h ps path) ∧ (∀ r ∈ js, r.Ok h w c ps path) ∧
      l.Perm (ls.map LinkRec.x ++ ls.flatMap LinkRec.edges ++ js.map JointRec.e) ∧ (js.map JointRec.e).Sublist l
  | .nil, _, _, q, _, _ => by
    unfold Shows at q
    subst q
    exact ⟨[], [], rfl, rfl, by simp, by simp, .refl _, .slnil⟩
  | .kinematic .., _, _, _, fl, _ | .ambient .., _, _, _, fl, _ | .device .., _, _, _, fl, _ => by cases fl
  | .params _ rest, seen, l, q, fl, nd => by
    unfold Shows at q
    exact items_flat (its := rest) q fl nd
  | .skipped rest, seen, l, q, fl, nd => by
    unfold Shows at q
    exact items_flat (its := rest) q fl nd
  | .link d rest, seen, l, q, fl, nd => by
    unfold Shows at q
    obtain ⟨x, es, l', rfl, S, T⟩ := q
    unfold Items.targets at nd
    rw [← List.append_assoc] at nd
    obtain ⟨r, rfl, rfl, rfl, ok⟩ := link_flat S (List.nodup_append.1 nd).1
    obtain ⟨ls, js, e1, e2, o1, o2, p, s⟩ := items_flat (its := rest) T fl nd
    refine ⟨r :: ls, js, ?_, e2, ?_, o2, ?_, ?_⟩
    · rw [List.map_cons, e1]; rfl
    · rintro t (_ | ⟨_, ht⟩)
      · exact ok
      · exact o1 t ht
    · rw [List.map_cons, List.flatMap_cons, List.cons_append, List.cons_append, List.cons_append]
      refine .cons _ ?_
      refine (p.append_left _).trans ?_
      simp only [List.append_assoc]
      rw [← List.append_assoc, ← List.append_assoc (ls.map _)]
      exact List.perm_append_comm.append_right _
    · exact s.trans (List.sublist_append_right _ _)
  | .joint d rest, seen, l, q, fl, nd => by
    unfold Shows at q
    obtain ⟨e, l', rfl, S, T⟩ := q
    unfold Items.targets at nd
    obtain ⟨rs, S1, S2⟩ := S
    obtain ⟨pr, e3, rfl, ok⟩ := rels_flat S2
    obtain ⟨ls, js, e1, e2, o1, o2, p, s⟩ := items_flat (its := rest) T fl nd
    refine ⟨ls, ⟨d, e, pr⟩ :: js, e1, ?_, o1, ?_, ?_, ?_⟩
    · rw [List.map_cons, e2]; rfl
    · rintro t (_ | ⟨_, ht⟩)
      · exact ⟨S1, e3, ok⟩
      · exact o2 t ht
    · rw [List.map_cons]
      exact (p.cons _).trans List.perm_middle.symm
    · exact s.cons₂ _

/-- A kinematic graph, with its semantic element, its other parts, its links, joints and nested graphs. -/
structure GraphRec where
  d : GraphDecl
  k : Ref
  s0 : Ref
  l : List Ref
  ls : List LinkRec
  js : List JointRec
  subs : List Ref

/-- What the record of a graph means. -/
structure GraphRec.Ok (h : Heap) (w : Ref) (ps : Params) (G : GraphRec) : Prop where
  node : IsNode h G.k G.d.name G.d.path (G.s0 :: G.l)
  sem : IsSem h G.s0 .kinGraph G.d.name [("name".toList, .str G.d.name)] []
  perm : G.l.Perm (G.ls.map LinkRec.x ++ G.ls.flatMap LinkRec.edges ++ G.js.map JointRec.e ++ G.subs)
  sub : (G.js.map JointRec.e).Sublist G.l
  links : G.ls.map LinkRec.d = G.d.body.links
  joints : G.js.map JointRec.d = G.d.body.joints
  linksOk : ∀ r ∈ G.ls, r.Ok h ps G.d.path
  jointsOk : ∀ r ∈ G.js, r.Ok h w G.k ps G.d.path

theorem GraphDecl.name_append (path : List Str) (n : Str) (b : Items) : GraphDecl.name ⟨path ++ [n], b⟩ = n := by
  simp [GraphDecl.name, List.getLastD_eq_getLast?]

theorem items_assembled {h : Heap} {w c : Ref} {ps : Params} {path : List Str} : ∀ {its : Items} {seen : List Str} {l : List Ref},
    Shows h w c false ps seen path its l → its.assembled = true → (seen ++ its.targets path).Nodup →
    ∃ (ls : List LinkRec) (js : List JointRec) (gs : List GraphRec), ls.map LinkRec.d = its.links ∧
      js.map JointRec.d = its.joints ∧ gs.map GraphRec.d = its.graphs.map (fun p => ⟨path ++ [p.1], p.2⟩) ∧
      (∀ r ∈ ls, r.Ok h ps path) ∧ (∀ r ∈ js, r.Ok h w c ps path) ∧ (∀ G ∈ gs, G.Ok h w ps ∧ G.subs = []) ∧
      l.Perm (ls.map LinkRec.x ++ ls.flatMap LinkRec.edges ++ js.map JointRec.e ++ gs.map GraphRec.k) ∧
      (js.map JointRec.e).Sublist l
  | .nil, _, _, q, _, _ => by
    unfold Shows at q
    subst q
    exact ⟨[], [], [], rfl, rfl, rfl, by simp, by simp, by simp, .refl _, .slnil⟩
  | .ambient .., _, _, _, fl, _ | .device .., _, _, _, fl, _ => by cases fl
  | .kinematic n b rest, seen, l, q, fl, nd => by
    unfold Shows at q
    obtain ⟨x, s, ys, l', rfl, S1, S2, S3, T⟩ := q
    unfold Items.targets at nd
    rw [← List.append_assoc] at nd
    unfold Items.assembled at fl
    rw [Bool.and_eq_true] at fl
    obtain ⟨ls0, js0, a1, a2, a3, a4, a5, a6⟩ := items_flat S3 fl.1 (List.nodup_append.1 nd).1
    obtain ⟨ls, js, gs, e1, e2, e3, o1, o2, o3, p, t⟩ := items_assembled (its := rest) T fl.2 nd
    refine ⟨ls, js, ⟨⟨path ++ [n], b⟩, x, s, ys, ls0, js0, []⟩ :: gs, e1, e2, ?_, o1, o2, ?_, ?_, ?_⟩
    · rw [List.map_cons, e3]; rfl
    · rintro G (_ | ⟨_, hG⟩)
      · refine ⟨⟨?_, ?_, ?_, a6, a1, a2, a3, a4⟩, rfl⟩
        · rw [GraphDecl.name_append]; exact S1
        · rw [GraphDecl.name_append]; exact S2
        · rw [List.append_nil]; exact a5
      · exact o3 G hG
    · rw [List.map_cons]
      exact (p.cons _).trans List.perm_middle.symm
    · exact t.cons _
  | .params _ rest, seen, l, q, fl, nd => by
    unfold Shows at q
    exact items_assembled (its := rest) q fl nd
  | .skipped rest, seen, l, q, fl, nd => by
    unfold Shows at q
    exact items_assembled (its := rest) q fl nd
  | .link d rest, seen, l, q, fl, nd => by
    unfold Shows at q
    obtain ⟨x, es, l', rfl, S, T⟩ := q
    unfold Items.targets at nd
    rw [← List.append_assoc] at nd
    obtain ⟨r, rfl, rfl, rfl, ok⟩ := link_flat S (List.nodup_append.1 nd).1
    obtain ⟨ls, js, gs, e1, e2, e3, o1, o2, o3, p, s⟩ := items_assembled (its := rest) T fl nd
    refine ⟨r :: ls, js, gs, ?_, e2, e3, ?_, o2, o3, ?_, ?_⟩
    · rw [List.map_cons, e1]; rfl
    · rintro t (_ | ⟨_, ht⟩)
      · exact ok
      · exact o1 t ht
    · rw [List.map_cons, List.flatMap_cons, List.cons_append, List.cons_append, List.cons_append, List.cons_append]
      refine .cons _ ?_
      refine (p.append_left _).trans ?_
      simp only [List.append_assoc]
      rw [← List.append_assoc, ← List.append_assoc (ls.map _)]
      exact List.perm_append_comm.append_right _
    · exact s.trans (List.sublist_append_right _ _)
  | .joint d rest, seen, l, q, fl, nd => by
    unfold Shows at q
    obtain ⟨e, l', rfl, S, T⟩ := q
    unfold Items.targets at nd
    obtain ⟨rs, S1, S2⟩ := S
    obtain ⟨pr, e3, rfl, ok⟩ := rels_flat S2
    obtain ⟨ls, js, gs, e1, e2, e4, o1, o2, o3, p, s⟩ := items_assembled (its := rest) T fl nd
    refine ⟨ls, ⟨d, e, pr⟩ :: js, gs, e1, ?_, e4, o1, ?_, o3, ?_, ?_⟩
    · rw [List.map_cons, e2]; rfl
    · rintro t (_ | ⟨_, ht⟩)
      · exact ⟨S1, e3, ok⟩
      · exact o2 t ht
    · rw [List.map_cons, List.append_assoc, List.cons_append]
      exact (p.cons _).trans (by rw [List.append_assoc _ _ (gs.map _)]; exact List.perm_middle.symm)
    · exact s.cons₂ _

theorem flat_assembled : ∀ {its : Items}, its.flat = true → its.assembled = true ∧ its.graphs = []
  | .nil, _ => ⟨rfl, rfl⟩
  | .kinematic .., fl | .ambient .., fl | .device .., fl => by cases fl
  | .link _ rest, fl | .joint _ rest, fl | .params _ rest, fl | .skipped rest, fl => flat_assembled (its := rest) fl

theorem assembled_flat : ∀ {its : Items}, its.assembled = true → ∀ p ∈ its.graphs, p.2.flat = true
  | .nil, _ => by simp [Items.graphs]
  | .ambient .., fl | .device .., fl => by cases fl
  | .link _ rest, fl | .joint _ rest, fl | .params _ rest, fl | .skipped rest, fl => assembled_flat (its := rest) fl
  | .kinematic n b rest, fl => by
    unfold Items.assembled at fl
    rw [Bool.and_eq_true] at fl
    rintro p (_ | ⟨_, hp⟩)
    · exact fl.1
    · exact assembled_flat (its := rest) fl.2 p hp

/-- A file with one graph of links and joints is a special case. -/
theorem IsRobot.assembly {f : EntityDecl} {g : Str} {body : Items} {ps : Params} (B : IsRobot f g body ps) :
    IsAssembly f g body ps where
  graph := B.graph
  assembled := (flat_assembled B.flat).1
  world := B.world
  slash := B.slash
  once := B.once
  sound := B.sound
  nested p hp := by rw [(flat_assembled B.flat).2] at hp; cases hp
  bases p hp := by rw [(flat_assembled B.flat).2] at hp; cases hp

theorem plain_nothing {h : Heap} {w c : Ref} {top : Bool} {path seen : List Str} : ∀ {its : Items} {ps : Params}
    {l : List Ref}, Shows h w c top ps seen path its l → its.plain = true → l = []
  | .nil, _, _, q, _ => by unfold Shows at q; exact q
  | .kinematic .., _, _, _, fl | .ambient .., _, _, _, fl | .device .., _, _, _, fl | .link .., _, _, _, fl
  | .joint .., _, _, _, fl => by cases fl
  | .params _ rest, _, _, q, fl => by unfold Shows at q; exact plain_nothing (its := rest) q fl
  | .skipped rest, _, _, q, fl => by unfold Shows at q; exact plain_nothing (its := rest) q fl

theorem oneGraph_shown {h : Heap} {w c : Ref} {g : Str} {body : Items} {ps ps' : Params} {its : Items}
    (O : OneGraph g body ps ps' its) : ∀ {l : List Ref} {path : List Str}, Shows h w c true ps' [] path its l →
    ∃ k s ys, l = [k] ∧ IsNode h k g (path ++ [g]) (s :: ys) ∧ IsSem h s .kinGraph g [("name".toList, .str g)] [] ∧
      Shows h w k false ps [] (path ++ [g]) body ys := by
  induction O with
  | here pl =>
    intro l path q
    unfold Shows at q
    obtain ⟨x, s, ys, l', rfl, a, b, c, d⟩ := q
    rw [plain_nothing d pl]
    exact ⟨x, s, ys, rfl, a, b, c⟩
  | params _ ih =>
    intro l path q
    unfold Shows at q
    exact ih q
  | skipped _ ih =>
    intro l path q
    unfold Shows at q
    exact ih q

end Rei
