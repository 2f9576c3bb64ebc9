import Verif.Lemmas.Scene
import Mathlib.Data.List.Nodup

/-!
# What the relations of a file with one graph lead to
-/
namespace Rei

theorem Str.split_append (c : Char) (a b : Str) : Str.split c (a ++ c :: b) = Str.split c a ++ Str.split c b := by
  induction a with
  | nil => simp [Str.split]
  | cons x a ih =>
    rw [List.cons_append, show Str.split c (x :: (a ++ c :: b)) = if x = c then [] :: Str.split c (a ++ c :: b) else
      match Str.split c (a ++ c :: b) with | [] => [[x]] | p :: ps => (x :: p) :: ps from rfl,
      show Str.split c (x :: a) = if x = c then [] :: Str.split c a else
      match Str.split c a with | [] => [[x]] | p :: ps => (x :: p) :: ps from rfl, ih]
    by_cases hx : x = c
    · simp [hx]
    · simp only [hx, if_false]
      cases hs : Str.split c a with
      | nil => exact absurd hs (Str.split_ne_nil c a)
      | cons p ps => rfl

theorem Str.split_join_all {c : Char} : ∀ {P : List Str}, P ≠ [] → Str.split c (Str.join c P) = P.flatMap (Str.split c)
  | [], h => absurd rfl h
  | [a], _ => by simp [Str.join, Str.joinS]
  | a :: b :: P, _ => by
    rw [Str.join_cons_cons, Str.split_append, Str.split_join_all (by simp), ← List.flatMap_cons]

theorem Str.split_all {c : Char} : ∀ {P : List Str}, (∀ n ∈ P, c ∉ n) → P.flatMap (Str.split c) = P
  | [], _ => rfl
  | a :: P, h => by
    rw [List.flatMap_cons, Str.split_of_not_mem (h a (by simp)), Str.split_all fun n hn => h n (.tail _ hn)]
    rfl

/-- The meant name of a reference `link/name` in a visual or collision of a link of the graph. -/
theorem targetName_ref {path : List Str} {l n l' n' : Str} (hl : '/' ∉ l') (hn : '/' ∉ n') :
    targetName (path ++ [l] ++ [n]) (l' ++ '/' :: n') = Str.join '/' (path ++ [l', n']) := by
  unfold targetName
  rw [Str.split_append_sep hl, Str.split_of_not_mem hn]
  simp

namespace Scene

variable {E : Env} {h : Heap} {nm : Str} {f : EntityDecl} {g : Str} {body : Items} {ps : Params} {w cs : Ref}
  {T : GraphRec} {gs : List GraphRec} (S : Scene E h nm f g body ps w cs T gs)
include S

theorem top_path : T.d.path = [f.name, g] := by rw [S.top]
theorem top_body : T.d.body = body := by rw [S.top]
theorem nested_of {G : GraphRec} (hG : G ∈ gs) : ∃ p ∈ body.graphs, G.d = ⟨[f.name, g, p.1], p.2⟩ := by
  have := List.mem_map_of_mem (f := GraphRec.d) hG
  rw [S.nested, List.mem_map] at this
  obtain ⟨p, a, b⟩ := this
  exact ⟨p, a, b.symm⟩
theorem of_nested {p : Str × Items} (hp : p ∈ body.graphs) : ∃ G ∈ gs, G.d = ⟨[f.name, g, p.1], p.2⟩ := by
  have := List.mem_map_of_mem (f := fun p : Str × Items => (⟨[f.name, g, p.1], p.2⟩ : GraphDecl)) hp
  rw [← S.nested, List.mem_map] at this
  exact this
theorem nested_name {G : GraphRec} (hG : G ∈ gs) : G.d.name ∈ body.graphs.map Prod.fst ∧ G.d.path = [f.name, g, G.d.name] := by
  obtain ⟨p, hp, e⟩ := S.nested_of hG
  rw [e]
  exact ⟨List.mem_map_of_mem hp, rfl⟩

theorem link_mem {G : GraphRec} (hG : G ∈ T :: gs) {r : LinkRec} (hr : r ∈ G.ls) : r.d ∈ G.d.body.links :=
  (S.ok G hG).links ▸ List.mem_map_of_mem hr
theorem link_of {G : GraphRec} (hG : G ∈ T :: gs) {d : LinkDecl} (hd : d ∈ G.d.body.links) : ∃ r ∈ G.ls, r.d = d := by
  rw [← (S.ok G hG).links] at hd; simpa using hd
theorem joint_mem {G : GraphRec} (hG : G ∈ T :: gs) {r : JointRec} (hr : r ∈ G.js) : r.d ∈ G.d.body.joints :=
  (S.ok G hG).joints ▸ List.mem_map_of_mem hr
theorem solid_mem {G : GraphRec} (hG : G ∈ T :: gs) {r : LinkRec} (hr : r ∈ G.ls) {s : SolidRec} (hs : s ∈ r.ss) :
    s.d ∈ r.d.solids := ((S.ok G hG).linksOk r hr).decls ▸ List.mem_map_of_mem hs
theorem solid_of {G : GraphRec} (hG : G ∈ T :: gs) {r : LinkRec} (hr : r ∈ G.ls) {d : SolidDecl} (hd : d ∈ r.d.solids) :
    ∃ s ∈ r.ss, s.d = d := by
  rw [← ((S.ok G hG).linksOk r hr).decls] at hd; simpa using hd
theorem jrel_mem {G : GraphRec} (hG : G ∈ T :: gs) {r : JointRec} (hr : r ∈ G.js) {p : JointRel × Ref} (hp : p ∈ r.rs) :
    p.1 ∈ r.d.rels := ((S.ok G hG).jointsOk r hr).decls ▸ List.mem_map_of_mem hp

theorem link_name {G : GraphRec} (hG : G ∈ T :: gs) {r : LinkRec} (hr : r ∈ G.ls) :
    r.d.name ∈ G.d.body.links.map LinkDecl.name ++ G.d.body.graphs.map Prod.fst :=
  List.mem_append_left _ (List.mem_map_of_mem (S.link_mem hG hr))

variable (B : IsAssembly f g body ps)
include B

/-- The graphs are sound. -/
theorem sound {G : GraphRec} (hG : G ∈ T :: gs) : G.d.Sound ps := by
  rcases List.mem_cons.1 hG with rfl | hG
  · rw [S.top]; exact B.sound
  · obtain ⟨p, hp, e⟩ := S.nested_of hG
    rw [e]; exact B.nested p hp

theorem link_slash {G : GraphRec} (hG : G ∈ T :: gs) {r : LinkRec} (hr : r ∈ G.ls) : '/' ∉ r.d.name :=
  ((S.sound B hG).names _ (S.link_name hG hr)).2.1

theorem graph_slash {G : GraphRec} (hG : G ∈ gs) : '/' ∉ G.d.name :=
  (B.sound.names _ (List.mem_append_right _ (S.nested_name hG).1)).2.1

theorem path_slash {G : GraphRec} (hG : G ∈ T :: gs) : ∀ n ∈ G.d.path, '/' ∉ n := by
  rcases List.mem_cons.1 hG with rfl | hG
  · rw [S.top_path]; simp [B.slash]
  · rw [(S.nested_name hG).2]; simp [B.slash, S.graph_slash B hG]

theorem graph_inj {G G' : GraphRec} (hG : G ∈ gs) (hG' : G' ∈ gs) (e : G.d.name = G'.d.name) : G = G' := by
  have nd : (body.graphs.map Prod.fst).Nodup := (List.nodup_append.1 B.sound.distinct).2.1
  have : (gs.map fun G => G.d.name).Nodup := by
    rw [show (gs.map fun G : GraphRec => G.d.name) = (gs.map GraphRec.d).map GraphDecl.name by rw [List.map_map]; rfl, S.nested,
      List.map_map]
    exact nd
  exact List.inj_on_of_nodup_map this hG hG' e

theorem link_inj {G : GraphRec} (hG : G ∈ T :: gs) {r r' : LinkRec} (hr : r ∈ G.ls) (hr' : r' ∈ G.ls)
    (e : r.d.name = r'.d.name) : r = r' := by
  have nd := (List.nodup_append.1 (S.sound B hG).distinct).1
  rw [← (S.ok G hG).links, List.map_map] at nd
  exact List.inj_on_of_nodup_map nd hr hr' e

theorem solid_inj {G : GraphRec} (hG : G ∈ T :: gs) {r : LinkRec} (hr : r ∈ G.ls) {s s' : SolidRec} (hs : s ∈ r.ss)
    (hs' : s' ∈ r.ss) (e : s.d.nodeName (G.d.path ++ [r.d.name]) = s'.d.nodeName (G.d.path ++ [r.d.name])) : s = s' := by
  have nd := ((S.sound B hG).links r.d (S.link_mem hG hr)).names
  rw [← ((S.ok G hG).linksOk r hr).decls, List.map_map] at nd
  exact List.inj_on_of_nodup_map nd hs hs' e

/-- A link of the outer graph and a nested graph have different names. -/
theorem link_ne_graph {r : LinkRec} (hr : r ∈ T.ls) {G : GraphRec} (hG : G ∈ gs) : r.d.name ≠ G.d.name := fun e => by
  have d := S.link_mem (.head _) hr
  rw [S.top_body] at d
  exact (List.nodup_append.1 B.sound.distinct).2.2 _ (List.mem_map_of_mem d) _ (S.nested_name hG).1 e

/-- Where a path through a link leads. -/
theorem place {G G' : GraphRec} (hG : G ∈ T :: gs) (hG' : G' ∈ T :: gs) {r r' : LinkRec} (hr : r ∈ G.ls) (hr' : r' ∈ G'.ls)
    {a b : List Str} (e : G.d.path ++ r.d.name :: a = G'.d.path ++ r'.d.name :: b) : G = G' ∧ r = r' ∧ a = b := by
  rcases List.mem_cons.1 hG with rfl | h1 <;> rcases List.mem_cons.1 hG' with rfl | h2
  · have := List.append_cancel_left e
    rw [List.cons.injEq] at this
    exact ⟨rfl, S.link_inj B hG hr hr' this.1, this.2⟩
  · rw [S.top_path, (S.nested_name h2).2] at e
    simp only [List.cons_append, List.nil_append, List.cons.injEq, true_and] at e
    exact absurd e.1 (S.link_ne_graph B hr h2)
  · rw [S.top_path, (S.nested_name h1).2] at e
    simp only [List.cons_append, List.nil_append, List.cons.injEq, true_and] at e
    exact absurd e.1.symm (S.link_ne_graph B hr' h1)
  · rw [(S.nested_name h1).2, (S.nested_name h2).2] at e
    simp only [List.cons_append, List.nil_append, List.cons.injEq, true_and] at e
    cases S.graph_inj B h1 h2 e.1
    exact ⟨rfl, S.link_inj B hG hr hr' e.2.1, e.2.2⟩

/-- A path of a graph leads to no link. -/
theorem place_graph {G G' : GraphRec} (hG : G ∈ T :: gs) (hG' : G' ∈ T :: gs) {r : LinkRec} (hr : r ∈ G.ls) {a : List Str} :
    G'.d.path ≠ G.d.path ++ r.d.name :: a := fun e => by
  rcases List.mem_cons.1 hG with rfl | h1 <;> rcases List.mem_cons.1 hG' with rfl | h2
  · simp at e
  · rw [S.top_path, (S.nested_name h2).2] at e
    simp only [List.cons_append, List.nil_append, List.cons.injEq, true_and] at e
    exact absurd e.1.symm (S.link_ne_graph B hr h2)
  · rw [S.top_path, (S.nested_name h1).2] at e
    simp at e
  · rw [(S.nested_name h1).2, (S.nested_name h2).2] at e
    simp at e

/-- The parts of the qualified names of the file. -/
theorem graph_segs {G : GraphRec} (hG : G ∈ T :: gs) : Str.split '/' (h.get G.k).qualName = G.d.path := by
  rw [(S.ok G hG).node.path, Str.split_join_all, Str.split_all (S.path_slash B hG)]
  rcases List.mem_cons.1 hG with rfl | h1
  · rw [S.top_path]; simp
  · rw [(S.nested_name h1).2]; simp

omit B in
theorem segs_under {G : GraphRec} (hG : G ∈ T :: gs) (B : IsAssembly f g body ps) {r : LinkRec} (hr : r ∈ G.ls) (P : List Str) :
    Str.split '/' (Str.join '/' (G.d.path ++ r.d.name :: P)) = G.d.path ++ r.d.name :: P.flatMap (Str.split '/') := by
  rw [Str.split_join_all (by simp), List.flatMap_append, List.flatMap_cons, Str.split_all (S.path_slash B hG),
    Str.split_of_not_mem (S.link_slash B hG hr)]
  rfl

theorem link_segs {G : GraphRec} (hG : G ∈ T :: gs) {r : LinkRec} (hr : r ∈ G.ls) :
    Str.split '/' (h.get r.x).qualName = G.d.path ++ [r.d.name] := by
  rw [((S.ok G hG).linksOk r hr).node.path]
  exact S.segs_under hG B hr []

theorem y_segs {G : GraphRec} (hG : G ∈ T :: gs) {r : LinkRec} (hr : r ∈ G.ls) {s : SolidRec} (hs : s ∈ r.ss) :
    Str.split '/' (h.get s.y).qualName = G.d.path ++ r.d.name :: Str.split '/' (s.d.nodeName (G.d.path ++ [r.d.name])) := by
  rw [(((S.ok G hG).linksOk r hr).solids s hs).node.path, List.append_assoc]
  refine (S.segs_under hG B hr _).trans ?_
  simp

theorem g_segs {G : GraphRec} (hG : G ∈ T :: gs) {r : LinkRec} (hr : r ∈ G.ls) {s : SolidRec} (hs : s ∈ r.ss) :
    Str.split '/' (h.get s.g).qualName = G.d.path ++ r.d.name :: (Str.split '/' (s.d.nodeName (G.d.path ++ [r.d.name])) ++
      Str.split '/' ("geom_".toList ++ s.d.nodeName (G.d.path ++ [r.d.name]))) := by
  rw [(((S.ok G hG).linksOk r hr).solids s hs).geom.path, List.append_assoc]
  refine (S.segs_under hG B hr _).trans ?_
  simp

theorem k_inj {G G' : GraphRec} (hG : G ∈ T :: gs) (hG' : G' ∈ T :: gs) (e : G.k = G'.k) : G = G' := by
  have a := S.graph_segs B hG
  rw [e, S.graph_segs B hG'] at a
  rcases List.mem_cons.1 hG with rfl | h1 <;> rcases List.mem_cons.1 hG' with rfl | h2
  · rfl
  · rw [S.top_path, (S.nested_name h2).2] at a; simp at a
  · rw [S.top_path, (S.nested_name h1).2] at a; simp at a
  · rw [(S.nested_name h1).2, (S.nested_name h2).2] at a
    exact S.graph_inj B h1 h2 (by simpa using a.symm)

/-- The part of a graph with the name of a link is the link. -/
theorem find_link {G : GraphRec} (hG : G ∈ T :: gs) {r : LinkRec} (hr : r ∈ G.ls) {t : Ref} (ht : t ∈ h.parts G.k)
    (hn : (h.get t).idName = r.d.name) : t = r.x := by
  have own := (S.sound B hG).names _ (S.link_name hG hr)
  rw [(S.ok G hG).node.parts] at ht
  rcases List.mem_cons.1 ht with rfl | ht
  · rw [(S.ok G hG).sem.name] at hn; exact absurd hn.symm own.2.2.1
  · rcases (S.mem_l hG).1 ht with ⟨r', a, rfl⟩ | ⟨r', a, s, b, c⟩ | ⟨j, a, rfl⟩ | a
    · rw [((S.ok G hG).linksOk _ a).node.name] at hn
      rw [S.link_inj B hG a hr hn]
    · obtain ⟨id, r1, r2, t, e1, -, -, e, q1, q2, -⟩ := (((S.ok G hG).linksOk _ a).solids _ b).ref_mem c
      rw [e.name] at hn
      exact absurd hn (own.2.2.2.2 r'.d (S.link_mem hG a) s.d (S.solid_mem hG a b) id e1)
    · rw [((S.ok G hG).jointsOk _ a).edge.name] at hn
      exact absurd hn (own.2.2.2.1 _ (S.joint_mem hG a))
    · obtain ⟨rfl, G', b, rfl⟩ := S.mem_subs hG a
      rw [(S.ok G' (.tail _ b)).node.name] at hn
      exact absurd hn.symm (S.link_ne_graph B hr b)

/-- The part of the outer graph with the name of a nested graph is the nested graph. -/
theorem find_graph {G : GraphRec} (hG : G ∈ gs) {t : Ref} (ht : t ∈ h.parts T.k) (hn : (h.get t).idName = G.d.name) :
    t = G.k := by
  have hT : T ∈ T :: gs := .head _
  have own := (S.sound B hT).names G.d.name (by rw [S.top_body]; exact List.mem_append_right _ (S.nested_name hG).1)
  rw [(S.ok T hT).node.parts] at ht
  rcases List.mem_cons.1 ht with rfl | ht
  · rw [(S.ok T hT).sem.name] at hn; exact absurd hn.symm own.2.2.1
  · rcases (S.mem_l hT).1 ht with ⟨r', a, rfl⟩ | ⟨r', a, s, b, c⟩ | ⟨j, a, rfl⟩ | a
    · rw [((S.ok T hT).linksOk _ a).node.name] at hn
      exact absurd hn (S.link_ne_graph B a hG)
    · obtain ⟨id, r1, r2, t, e1, -, -, e, q1, q2, -⟩ := (((S.ok T hT).linksOk _ a).solids _ b).ref_mem c
      rw [e.name] at hn
      exact absurd hn (own.2.2.2.2 r'.d (S.link_mem hT a) s.d (S.solid_mem hT a b) id e1)
    · rw [((S.ok T hT).jointsOk _ a).edge.name] at hn
      exact absurd hn (own.2.2.2.1 _ (S.joint_mem hT a))
    · obtain ⟨-, G', b, rfl⟩ := S.mem_subs hT a
      rw [(S.ok G' (.tail _ b)).node.name] at hn
      rw [S.graph_inj B b hG hn]

/-- What a joint relation leads to. -/
theorem rel_end {G : GraphRec} (hG : G ∈ T :: gs) {j : JointRec} (hj : j ∈ G.js) {p : JointRel × Ref} (hp : p ∈ j.rs) :
    ∃ t, (h.get p.2).endpoint = some t ∧ (h.get t).idName = p.1.ref ∧ (h.get t).kind = .node ∧
      ((p.1.ref = "world".toList ∧ t = w) ∨
       (p.1.ref ≠ "world".toList ∧ ∃ r ∈ G.ls, r.d.name = p.1.ref ∧ t = r.x) ∨
       (p.1.ref ≠ "world".toList ∧ G = T ∧ ∃ G' ∈ gs, G'.d.name = p.1.ref ∧ t = G'.k)) := by
  obtain ⟨dr, t, s, ts, ax, -, en, rl, -, sm, po⟩ := ((S.ok G hG).jointsOk _ hj).rels _ hp
  refine ⟨t, rl.endpoint, ?_⟩
  by_cases hw : p.1.ref = "world".toList
  · unfold IsEndpoint at en
    rw [if_pos hw] at en
    subst en
    exact ⟨by rw [hw]; exact S.world.name, S.world.kind, .inl ⟨hw, rfl⟩⟩
  · rcases (((S.sound B hG).joints j.d (S.joint_mem hG hj)).refs p.1 (S.jrel_mem hG hj hp)).resolve_left hw with ⟨d, hd, e⟩ | hm
    · obtain ⟨r, hr, rfl⟩ := S.link_of hG hd
      have hs := S.link_slash B hG hr
      unfold IsEndpoint at en
      rw [if_neg hw, ← e, Str.split_of_not_mem hs] at en
      have h1 := List.mem_of_find?_eq_some en
      have h2 := List.find?_some en
      have := S.find_link B hG hr h1 (by simpa using h2)
      subst this
      exact ⟨by rw [← e]; exact ((S.ok G hG).linksOk r hr).node.name, ((S.ok G hG).linksOk r hr).node.kind,
        .inr (.inl ⟨hw, r, hr, e, rfl⟩)⟩
    · have gt : G = T := by
        rcases List.mem_cons.1 hG with rfl | h1
        · rfl
        · obtain ⟨q, hq, e⟩ := S.nested_of h1
          rw [e, (flat_assembled (assembled_flat B.assembled q hq)).2] at hm
          cases hm
      subst gt
      rw [S.top_body, List.mem_map] at hm
      obtain ⟨q, hq, e⟩ := hm
      obtain ⟨G', h1, e'⟩ := S.of_nested hq
      have en' : G'.d.name = p.1.ref := by rw [e', ← e]; rfl
      have hs := S.graph_slash B h1
      unfold IsEndpoint at en
      rw [if_neg hw, ← en', Str.split_of_not_mem hs] at en
      have h2 := List.mem_of_find?_eq_some en
      have h3 := List.find?_some en
      have := S.find_graph B h1 h2 (by simpa using h3)
      subst this
      exact ⟨by rw [← en']; exact (S.ok G' (.tail _ h1)).node.name, (S.ok G' (.tail _ h1)).node.kind,
        .inr (.inr ⟨hw, rfl, G', h1, en', rfl⟩)⟩

/-- What a reference leads to. -/
theorem ref_end {G : GraphRec} (hG : G ∈ T :: gs) {r : LinkRec} (hr : r ∈ G.ls) {s : SolidRec} (hs : s ∈ r.ss) {id : Str}
    (hg : s.d.geom = .ref id) :
    ∃ e r1 r2 r' s' sh, s.es = [e] ∧ h.parts e = [r1, r2] ∧ IsRel h r1 .outwards s'.y [] ∧ IsRel h r2 .inwards s.g [] ∧
      (h.get e).kind = .edge ∧
      r' ∈ G.ls ∧ s' ∈ r'.ss ∧ GivesShape ps s'.d.geom sh ∧ MeansShape G.d.body.links ps s.d.geom sh ∧ h.parts s.g = [] := by
  have he : ∃ e, e ∈ s.es := by
    have := (((S.ok G hG).linksOk r hr).solids s hs).shape
    rw [hg] at this
    obtain ⟨-, e2⟩ := this
    rw [if_neg (by simp)] at e2
    obtain ⟨e, _, _, _, e3, _⟩ := e2
    exact ⟨e, by simp [e3]⟩
  obtain ⟨e, he⟩ := he
  obtain ⟨id', r1, r2, t, e1, e2, e3, ed, q1, q2, tk, tq⟩ := (((S.ok G hG).linksOk r hr).solids s hs).ref_mem he
  cases e1.symm.trans hg
  obtain ⟨sh, M⟩ := ((S.sound B hG).links r.d (S.link_mem hG hr)).shapes s.d (S.solid_mem hG hr hs)
  have M' := M
  rw [hg] at M
  cases M with
  | own q => cases q
  | @ref l' d n _ hl' hd' hid gsh =>
    have sn := ((S.sound B hG).links _ hl').slash d hd' n hid
    obtain ⟨r', hr', rfl⟩ := S.link_of hG hl'
    have sl' := S.link_slash B hG hr'
    obtain ⟨s', hs', rfl⟩ := S.solid_of hG hr' hd'
    rw [SolidDecl.around, targetName_ref sl' sn] at tq
    have tq' : Str.split '/' (h.get t).qualName = G.d.path ++ [r'.d.name, n] := by
      rw [tq]
      refine (S.segs_under hG B hr' [n]).trans ?_
      simp [Str.split_of_not_mem sn]
    suffices ht : t = s'.y by
      subst ht
      exact ⟨e, r1, r2, r', s', sh, e2, ed.parts, q1, q2, ed.kind, hr', hs', gsh, M', e3⟩
    have r1m : r1 ∈ h.parts e := by rw [ed.parts]; simp
    have r1n : w + 3 ≤ r1 := S.below (by have := S.ref_new hG hr hs he; omega) (S.part_parent r1m)
    obtain ⟨e', t', -, -, -, -, ep, -, pp, -⟩ := S.neat.rel r1 r1n q1.kind
    have : t' = t := by rw [q1.endpoint] at ep; cases ep; rfl
    subst this
    have two : 2 ≤ (Str.split '/' (h.get t').qualName).length := by rw [tq']; simp
    have tn : w + 3 ≤ t' := by
      by_contra hlt
      by_cases h0 : t' < w
      · have := S.old t' _ h0 pp; omega
      · have : t' = w ∨ t' = w + 1 ∨ t' = w + 2 := by omega
        rcases this with rfl | rfl | rfl
        · rw [S.world.path] at two; revert two; decide
        · rw [S.paramsPath] at two; revert two; decide
        · rw [S.root.path, Str.split_join_all (by simp), Str.split_all (by simpa using B.slash.1)] at two
          simp at two
    obtain ⟨G0, hG0, rfl | ⟨r0, h0, rfl⟩ | ⟨r0, h0, s0, h1, rfl | rfl⟩⟩ := S.node_cases tn tk
    · rw [S.graph_segs B hG0] at tq'
      exact absurd tq' (S.place_graph B hG hG0 hr')
    · rw [S.link_segs B hG0 h0] at tq'
      cases (S.place B hG0 hG h0 hr' tq').2.2
    · rw [S.y_segs B hG0 h0 h1] at tq'
      obtain ⟨rfl, rfl, b⟩ := S.place B hG0 hG h0 hr' tq'
      have nn := congrArg (Str.join '/') b
      rw [Str.join_split] at nn
      have := S.solid_inj B hG h0 h1 hs' (by
        refine nn.trans ?_
        unfold SolidDecl.nodeName
        rw [hid]
        rfl)
      rw [this]
    · rw [S.g_segs B hG0 h0 h1] at tq'
      obtain ⟨rfl, rfl, b⟩ := S.place B hG0 hG h0 hr' tq'
      have b := congrArg List.length b
      rw [List.length_append] at b
      have h1 := List.length_pos_iff.2 (Str.split_ne_nil '/' (s0.d.nodeName (G0.d.path ++ [r0.d.name])))
      have h2 := List.length_pos_iff.2 (Str.split_ne_nil '/' ("geom_".toList ++ s0.d.nodeName (G0.d.path ++ [r0.d.name])))
      simp only [List.length_singleton] at b
      omega

end Scene
end Rei
