import Verif.Spec.CogniTensor
import Verif.Props.Tensor
import Verif.Props.CogniAccept
import Verif.Lemmas.SceneSolid

/-!
# C106: converting kinematic graphs read from files
-/
namespace Rei
open PyM Sample

/-! ## The nodes of declared graphs -/

theorem shows_graph {h : Heap} (I : Inv h) {w : Ref} {q : List Str} {g : Str} {b : Items} :
    ∀ {its : Items} {c : Ref} {top : Bool} {ps : Params} {seen path : List Str} {l : List Ref},
    Shows h w c top ps seen path its l → (∀ y ∈ l, (h.get y).parent = some c) → Items.Has q g b path its →
    ∃ x s ys ps' seen', Anc h c x ∧ IsNode h x g (q ++ [g]) (s :: ys) ∧
      IsSem h s .kinGraph g [("name".toList, .str g)] [] ∧ Shows h w x false ps' seen' (q ++ [g]) b ys
  | .nil, _, _, _, _, _, _, _, _, H => by cases H
  | .kinematic n body rest, c, top, ps, seen, path, l, S, P, H => by
    unfold Shows at S
    obtain ⟨x, s, ys, l', rfl, S1, S2, S3, T⟩ := S
    have px := P x (by simp)
    unfold Items.Has at H
    rcases H with ⟨rfl, rfl, rfl⟩ | H | H
    · exact ⟨x, s, ys, ps, seen, .direct px, S1, S2, S3⟩
    · obtain ⟨x', s', ys', ps', seen', a, rest⟩ := shows_graph I S3
        (fun y hy => I.parts_parent (x := x) (by rw [S1.parts]; simp [hy])) H
      exact ⟨x', s', ys', ps', seen', (Anc.direct px).trans a, rest⟩
    · exact shows_graph (its := rest) I T (fun y hy => P y (by simp [hy])) H
  | .ambient n body rest, c, top, ps, seen, path, l, S, P, H => by
    unfold Shows at S
    obtain ⟨x, ys, l', rfl, S1, S3, T⟩ := S
    have px := P x (by simp)
    unfold Items.Has at H
    rcases H with H | H
    · obtain ⟨x', s', ys', ps', seen', a, rest⟩ := shows_graph I S3
        (fun y hy => I.parts_parent (x := x) (by rw [S1.parts]; exact hy)) H
      exact ⟨x', s', ys', ps', seen', (Anc.direct px).trans a, rest⟩
    · exact shows_graph (its := rest) I T (fun y hy => P y (by simp [hy])) H
  | .device n rest, c, top, ps, seen, path, l, S, P, H => by
    unfold Shows at S
    obtain ⟨x, l', rfl, S1, T⟩ := S
    unfold Items.Has at H
    exact shows_graph (its := rest) I T (fun y hy => P y (by simp [hy])) H
  | .link d rest, c, top, ps, seen, path, l, S, P, H => by
    unfold Shows at S
    obtain ⟨x, es, l', rfl, S1, T⟩ := S
    unfold Items.Has at H
    exact shows_graph (its := rest) I T (fun y hy => P y (by simp [hy])) H
  | .joint d rest, c, top, ps, seen, path, l, S, P, H => by
    unfold Shows at S
    obtain ⟨e, l', rfl, S1, T⟩ := S
    unfold Items.Has at H
    exact shows_graph (its := rest) I T (fun y hy => P y (by simp [hy])) H
  | .params qs rest, c, top, ps, seen, path, l, S, P, H => by
    unfold Shows at S
    unfold Items.Has at H
    exact shows_graph (its := rest) I S P H
  | .skipped rest, c, top, ps, seen, path, l, S, P, H => by
    unfold Shows at S
    unfold Items.Has at H
    exact shows_graph (its := rest) I S P H

/-- The node of a declared graph, in the heap after reading. -/
structure GraphNode (h : Heap) (w root : Ref) (q : List Str) (g : Str) (b : Items) (x : Ref) : Prop where
  below : Anc h root x
  shown : ∃ s ys ps seen, IsNode h x g (q ++ [g]) (s :: ys) ∧ IsSem h s .kinGraph g [("name".toList, .str g)] [] ∧
    Shows h w x false ps seen (q ++ [g]) b ys

theorem file_graph {E : Env} {h h' : Heap} (R : Reach E h) {nm : Str} {ck : Clock} {f : EntityDecl} {I : FileIcon}
    (hr : readFile E nm ck f h = (.ok I, h')) {q : List Str} {g : Str} {b : Items} (H : Items.Has q g b [f.name] f.body) :
    Reach E h' ∧ ∃ root w x, I.root = some root ∧ (h'.get w).parent = none ∧ GraphNode h' w root q g b x := by
  have R' : Reach E h' := by have := (C77_reading_is_safe R nm ck f).1; rwa [hr] at this
  have inv := R'.good.inv
  obtain ⟨root, w, a1, -, -, -, -, wp, s, ys, S1, rp, S2, S3⟩ := C76_file_shown R hr
  obtain ⟨x, s', ys', ps', seen', a, rest⟩ := shows_graph inv S3
    (fun y hy => inv.parts_parent (x := root) (by rw [S1.parts]; simp [hy])) H
  refine ⟨R', root, _, x, a1, ?_, a, s', ys', ps', seen', rest⟩
  split
  · exact rp
  · exact wp

/-! ## The parts of a graph -/

theorem solids_no_edges {h : Heap} {ps : Params} {path : List Str} : ∀ {ss : List SolidDecl} {seen : List Str} {ys es : List Ref},
    ShowsSolids h ps path seen ss ys es → (∀ s ∈ ss, ∀ id, s.geom ≠ .ref id) → es = []
  | [], _, _, _, S, _ => S.2
  | s :: ss, seen, ys, es, S, N => by
    obtain ⟨y, ys', e1, e2, rfl, rfl, S1, S2⟩ := S
    rw [solids_no_edges S2 fun s hs => N s (by simp [hs]), List.append_nil]
    obtain ⟨g, ms, -, -, G, -⟩ := S1
    cases hg : s.geom with
    | solid c f => rw [hg] at G; exact G.1
    | ref id => exact absurd hg (N s (by simp) id)

theorem link_no_edges {h : Heap} {ps : Params} {seen path : List Str} {l : LinkDecl} {x : Ref} {es : List Ref}
    (S : ShowsLink h ps seen path l x es) (N : ∀ s ∈ l.solids, ∀ id, s.geom ≠ .ref id) : es = [] := by
  obtain ⟨sv, ts, ys, -, -, -, B⟩ := S
  cases hb : l.body with
  | none => rw [hb] at B; exact B.2
  | some b =>
    rw [hb] at B
    obtain ⟨i, ys', -, -, B⟩ := B
    exact solids_no_edges B (by simpa [LinkDecl.solids, hb] using N)

/-- Every joint of a body has an edge among the parts. -/
theorem shows_joint {h : Heap} {w c : Ref} {path : List Str} {j : JointDecl} :
    ∀ {its : Items} {top : Bool} {ps : Params} {seen : List Str} {l : List Ref}, Shows h w c top ps seen path its l →
    j ∈ its.joints → ∃ e ∈ l, ∃ ps', ShowsJoint h w c ps' path j e
  | .nil, _, _, _, _, _, H => by cases H
  | .kinematic n body rest, top, ps, seen, l, S, H => by
    unfold Shows at S
    obtain ⟨x, s, ys, l', rfl, S1, S2, S3, T⟩ := S
    obtain ⟨e, he, r⟩ := shows_joint (its := rest) T H
    exact ⟨e, by simp [he], r⟩
  | .ambient n body rest, top, ps, seen, l, S, H => by
    unfold Shows at S
    obtain ⟨x, ys, l', rfl, S1, S3, T⟩ := S
    obtain ⟨e, he, r⟩ := shows_joint (its := rest) T H
    exact ⟨e, by simp [he], r⟩
  | .device n rest, top, ps, seen, l, S, H => by
    unfold Shows at S
    obtain ⟨x, l', rfl, S1, T⟩ := S
    obtain ⟨e, he, r⟩ := shows_joint (its := rest) T H
    exact ⟨e, by simp [he], r⟩
  | .link d rest, top, ps, seen, l, S, H => by
    unfold Shows at S
    obtain ⟨x, es, l', rfl, S1, T⟩ := S
    obtain ⟨e, he, r⟩ := shows_joint (its := rest) T H
    exact ⟨e, by simp [he], r⟩
  | .joint d rest, top, ps, seen, l, S, H => by
    unfold Shows at S
    obtain ⟨e, l', rfl, S1, T⟩ := S
    unfold Items.joints at H
    rcases List.mem_cons.1 H with rfl | H
    · exact ⟨e, by simp, ps, S1⟩
    · obtain ⟨e, he, r⟩ := shows_joint (its := rest) T H
      exact ⟨e, by simp [he], r⟩
  | .params qs rest, top, ps, seen, l, S, H => by
    unfold Shows at S
    exact shows_joint (its := rest) S H
  | .skipped rest, top, ps, seen, l, S, H => by
    unfold Shows at S
    exact shows_joint (its := rest) S H

/-- The nodes and edges of a body without references, in order. -/
theorem shows_parts {h : Heap} {w c : Ref} {path : List Str} :
    ∀ {its : Items} {top : Bool} {ps : Params} {seen : List Str} {l : List Ref}, Shows h w c top ps seen path its l →
    (∀ d ∈ its.links, ∀ s ∈ d.solids, ∀ id, s.geom ≠ .ref id) →
    List.Forall₂ (fun n y => (h.get y).idName = n) its.nodeNames (l.filter fun y => decide ((h.get y).kind = .node)) ∧
    List.Forall₂ (fun j e => ∃ ps', ShowsJoint h w c ps' path j e) its.joints
      (l.filter fun y => decide ((h.get y).kind = .edge)) ∧
    ∀ y ∈ l, (h.get y).kind = .node ∨ (h.get y).kind = .edge
  | .nil, _, _, _, _, S, _ => by
    unfold Shows at S; subst S
    exact ⟨.nil, .nil, by simp⟩
  | .kinematic n body rest, top, ps, seen, l, S, N => by
    unfold Shows at S
    obtain ⟨x, s, ys, l', rfl, S1, S2, S3, T⟩ := S
    obtain ⟨a, b, c⟩ := shows_parts (its := rest) T N
    rw [List.filter_cons_of_pos (by simp [S1.kind]), List.filter_cons_of_neg (by simp [S1.kind])]
    refine ⟨.cons S1.name a, b, ?_⟩
    rintro y (_ | ⟨_, hy⟩)
    · exact .inl S1.kind
    · exact c y hy
  | .ambient n body rest, top, ps, seen, l, S, N => by
    unfold Shows at S
    obtain ⟨x, ys, l', rfl, S1, S3, T⟩ := S
    obtain ⟨a, b, c⟩ := shows_parts (its := rest) T N
    rw [List.filter_cons_of_pos (by simp [S1.kind]), List.filter_cons_of_neg (by simp [S1.kind])]
    refine ⟨.cons S1.name a, b, ?_⟩
    rintro y (_ | ⟨_, hy⟩)
    · exact .inl S1.kind
    · exact c y hy
  | .device n rest, top, ps, seen, l, S, N => by
    unfold Shows at S
    obtain ⟨x, l', rfl, S1, T⟩ := S
    obtain ⟨a, b, c⟩ := shows_parts (its := rest) T N
    rw [List.filter_cons_of_pos (by simp [S1.kind]), List.filter_cons_of_neg (by simp [S1.kind])]
    refine ⟨.cons S1.name a, b, ?_⟩
    rintro y (_ | ⟨_, hy⟩)
    · exact .inl S1.kind
    · exact c y hy
  | .link d rest, top, ps, seen, l, S, N => by
    unfold Shows at S
    obtain ⟨x, es, l', rfl, S0, T⟩ := S
    cases link_no_edges S0 (N d (by simp [Items.links]))
    obtain ⟨sv, ts, ys, S1, -⟩ := S0
    obtain ⟨a, b, c⟩ := shows_parts (its := rest) T fun d hd => N d (by simp [Items.links, hd])
    rw [List.singleton_append]
    rw [List.filter_cons_of_pos (by simp [S1.kind]), List.filter_cons_of_neg (by simp [S1.kind])]
    refine ⟨.cons S1.name a, b, ?_⟩
    rintro y (_ | ⟨_, hy⟩)
    · exact .inl S1.kind
    · exact c y hy
  | .joint d rest, top, ps, seen, l, S, N => by
    unfold Shows at S
    obtain ⟨e, l', rfl, S0, T⟩ := S
    have S1 := S0.choose_spec.1
    obtain ⟨a, b, c⟩ := shows_parts (its := rest) T N
    rw [List.filter_cons_of_neg (by simp [S1.kind]), List.filter_cons_of_pos (by simp [S1.kind])]
    refine ⟨a, .cons ⟨ps, S0⟩ b, ?_⟩
    rintro y (_ | ⟨_, hy⟩)
    · exact .inr S1.kind
    · exact c y hy
  | .params qs rest, top, ps, seen, l, S, N => by
    unfold Shows at S
    exact shows_parts (its := rest) S N
  | .skipped rest, top, ps, seen, l, S, N => by
    unfold Shows at S
    exact shows_parts (its := rest) S N

/-! ## Conversion of a self-contained graph -/

theorem arrow_isIn {s : Str} {d : Dir} (e : s = arrow d) : d.isIn ↔ s = "<-".toList ∨ s = "--".toList := by
  subst e; cases d <;> simp [arrow, Dir.isIn]

theorem arrow_isOut {s : Str} {d : Dir} (e : s = arrow d) : d.isOut ↔ s = "->".toList ∨ s = "--".toList := by
  subst e; cases d <;> simp [arrow, Dir.isOut]

theorem forall₂_mem_left {α β : Type} {P : α → β → Prop} {l : List α} {m : List β} (f : List.Forall₂ P l m) {a : α}
    (ha : a ∈ l) : ∃ b ∈ m, P a b := by
  induction f with
  | nil => cases ha
  | cons p _ ih =>
    rcases List.mem_cons.1 ha with rfl | ha
    · exact ⟨_, by simp, p⟩
    · obtain ⟨b, hb, q⟩ := ih ha
      exact ⟨b, by simp [hb], q⟩

theorem forall₂_mem_right {α β : Type} {P : α → β → Prop} {l : List α} {m : List β} (f : List.Forall₂ P l m) {b : β}
    (hb : b ∈ m) : ∃ a ∈ l, P a b := by
  induction f with
  | nil => cases hb
  | cons p _ ih =>
    rcases List.mem_cons.1 hb with rfl | hb
    · exact ⟨_, by simp, p⟩
    · obtain ⟨a, ha, q⟩ := ih hb
      exact ⟨a, by simp [ha], q⟩

theorem forall₂_getElem? {α β : Type} {P : α → β → Prop} {l : List α} {m : List β} (f : List.Forall₂ P l m) {i : Nat} {a : α}
    (ha : l[i]? = some a) : ∃ b, m[i]? = some b ∧ P a b := by
  induction f generalizing i with
  | nil => cases ha
  | cons p _ ih =>
    cases i with
    | zero => cases ha; exact ⟨_, rfl, p⟩
    | succ i => exact ih ha

theorem forall₂_mono_mem {α β : Type} {P Q : α → β → Prop} {l : List α} {m : List β} (f : List.Forall₂ P l m)
    (H : ∀ a ∈ l, ∀ b ∈ m, P a b → Q a b) : List.Forall₂ Q l m := by
  induction f with
  | nil => exact .nil
  | cons p _ ih =>
    exact .cons (H _ (by simp) _ (by simp) p) (ih fun a ha b hb => H a (by simp [ha]) b (by simp [hb]))

/-- What the relations of a joint of a self-contained graph are. -/
structure SelfRels (h : Heap) (x : Ref) (j : JointDecl) (e : Ref) : Prop where
  rels : List.Forall₂ (fun r y => ∃ t, (h.get y).endpoint = some t ∧ t ∈ h.subNodes x ∧ (h.get t).idName = r.ref ∧
    r.dir = arrow (h.get y).direction ∧ (h.get y).weight = none) j.rels (h.subRelations e)

/-- The nodes, edges and relations of a self-contained graph. -/
structure SelfGraph (h : Heap) (x : Ref) (b : Items) : Prop where
  node : (h.get x).kind = .node
  nodes : List.Forall₂ (fun n y => (h.get y).idName = n) b.nodeNames (h.subNodes x)
  edges : List.Forall₂ (fun j e => SelfRels h x j e) b.joints (h.subEdges x)
  values : h.subValues x = []

theorem subEdges_parts (h : Heap) (x : Ref) : h.subEdges x = (h.parts x).filter fun y => decide ((h.get y).kind = .edge) :=
  sub_parts (q := fun k => decide (k = .edge)) rfl x
theorem subValues_parts (h : Heap) (x : Ref) : h.subValues x = (h.parts x).filter fun y => decide ((h.get y).kind = .value) :=
  sub_parts (q := fun k => decide (k = .value)) rfl x

theorem GraphNode.self {h : Heap} {w root : Ref} {q : List Str} {g : Str} {b : Items} {x : Ref}
    (G : GraphNode h w root q g b x) (C : b.SelfContained g) : SelfGraph h x b := by
  obtain ⟨s, ys, ps, seen, N, S, sh⟩ := G.shown
  obtain ⟨a, e, k⟩ := shows_parts sh C.solids
  have sn : h.subNodes x = ys.filter fun y => decide ((h.get y).kind = .node) := by
    rw [subNodes_parts, N.parts, List.filter_cons_of_neg (by simp [S.kind])]
  have se : h.subEdges x = ys.filter fun y => decide ((h.get y).kind = .edge) := by
    rw [subEdges_parts, N.parts, List.filter_cons_of_neg (by simp [S.kind])]
  refine ⟨N.kind, by rw [sn]; exact a, ?_, ?_⟩
  · rw [se]
    refine forall₂_mono_mem e ?_
    rintro j hj y hy ⟨ps', rs, ed, rl⟩
    have sr : h.subRelations y = rs := by
      rw [subRelations_parts, ed.parts]
      apply List.filter_eq_self.2
      intro r hr
      obtain ⟨d, -, _, _, _, _, _, -, -, ir, -⟩ := forall₂_mem_right rl hr
      simp [ir.kind]
    refine ⟨?_⟩
    rw [sr]
    refine forall₂_mono_mem rl ?_
    rintro d hd r hr ⟨dir, t, s', ts, ax, ed', en, ir, -, -, po⟩
    obtain ⟨m, hw, hsl⟩ := C.refs j hj d hd
    unfold IsEndpoint at en
    rw [if_neg hw, Str.split_of_not_mem hsl] at en
    simp only at en
    have tm := List.mem_of_find?_eq_some en
    have tn := List.find?_some en
    simp only [decide_eq_true_eq] at tn
    rw [C.poses j hj d hd] at po
    replace po : ts = [] := po
    subst po
    refine ⟨t, ir.endpoint, ?_, tn, by rw [ir.dir]; exact ed', ir.weight⟩
    rw [subNodes_parts]
    refine List.mem_filter.2 ⟨tm, ?_⟩
    rw [N.parts] at tm
    rcases List.mem_cons.1 tm with rfl | tm
    · rw [S.name] at tn; rw [← tn] at m; exact absurd m C.graph
    · rcases k t tm with k | k
      · simp [k]
      · obtain ⟨j', hj', ps'', rs', ed'', -⟩ := forall₂_mem_right e (List.mem_filter.2 ⟨tm, by simp [k]⟩)
        have := ed''.name
        rw [tn] at this
        rw [this] at m
        exact absurd m (C.joints j' hj')
  · rw [subValues_parts, N.parts]
    apply List.filter_eq_nil_iff.2
    rintro y (_ | ⟨_, hy⟩)
    · simp [S.kind]
    · rcases k y hy with k | k <;> simp [k]

namespace SelfGraph
variable {h : Heap} {x : Ref} {b : Items}

theorem length_nodes (G : SelfGraph h x b) : (h.subNodes x).length = b.nodeNames.length := G.nodes.length_eq.symm
theorem length_edges (G : SelfGraph h x b) : (h.subEdges x).length = b.joints.length := G.edges.length_eq.symm

theorem length_rels (G : SelfGraph h x b) :
    ((h.subEdges x).flatMap h.subRelations).length = (b.joints.flatMap JointDecl.rels).length := by
  have := G.edges
  generalize b.joints = js at this
  generalize h.subEdges x = es at this
  induction this with
  | nil => rfl
  | cons p _ ih => rw [List.flatMap_cons, List.flatMap_cons, List.length_append, List.length_append, ih, p.rels.length_eq]

theorem context (G : SelfGraph h x b) : Context h x ∧ Unweighted h x := by
  have key : ∀ r, RelationIn h x r → (∃ v ∈ h.subNodes x, (h.get r).endpoint = some v) ∧ (h.get r).weight = none := by
    rintro r ⟨e, he, hr⟩
    obtain ⟨j, hj, J⟩ := forall₂_mem_right G.edges he
    obtain ⟨d, hd, t, a1, a2, a3, a4, a5⟩ := forall₂_mem_right J.rels hr
    exact ⟨⟨t, a2, a1⟩, a5⟩
  have U : Unweighted h x := fun r hr => (key r hr).2
  exact ⟨⟨G.node, fun r hr => (key r hr).1, U.valueWeights⟩, U⟩

/-- Nodes of the graph are told apart by their names. -/
theorem name_inj (G : SelfGraph h x b) (nd : b.nodeNames.Nodup) {v u : Ref} (hv : v ∈ h.subNodes x) (hu : u ∈ h.subNodes x)
    (e : (h.get v).idName = (h.get u).idName) : v = u := by
  have m : (h.subNodes x).map (fun y => (h.get y).idName) = b.nodeNames := by
    have := G.nodes
    generalize b.nodeNames = ns at this
    generalize h.subNodes x = vs at this
    induction this with
    | nil => rfl
    | cons p _ ih => rw [List.map_cons, ih, p]
  rw [← m] at nd
  exact List.inj_on_of_nodup_map nd hv hu e

variable {j : JointDecl} {e v : Ref}

theorem endpoint_iff (G : SelfGraph h x b) (nd : b.nodeNames.Nodup) (J : SelfRels h x j e)
    (hv : v ∈ h.subNodes x) (P : Dir → Prop) (Q : Str → Prop) (PQ : ∀ s d, s = arrow d → (P d ↔ Q s)) :
    (∃ r ∈ h.subRelations e, (h.get r).endpoint = some v ∧ P (h.get r).direction) ↔
      ∃ r ∈ j.rels, r.ref = (h.get v).idName ∧ Q r.dir := by
  constructor
  · rintro ⟨r, hr, ep, p⟩
    obtain ⟨d, hd, t, a1, a2, a3, a4, -⟩ := forall₂_mem_right J.rels hr
    rw [ep] at a1; cases a1
    exact ⟨d, hd, a3.symm, (PQ _ _ a4).1 p⟩
  · rintro ⟨d, hd, e, p⟩
    obtain ⟨r, hr, t, a1, a2, a3, a4, -⟩ := forall₂_mem_left J.rels hd
    cases G.name_inj nd a2 hv (a3.trans e)
    exact ⟨r, hr, a1, (PQ _ _ a4).2 p⟩

end SelfGraph

/-- **C106**, what holds: after any accepted file, every self-contained kinematic graph of it, at any depth, has a node
whose conversion (on idle queues, with enough stack) returns a tensor with one slice per joint and one row and column per
node of the graph, in the order of the file; an entry is 1 if the joint leads from the one node to the other, else 0. -/
theorem C106_convertible_partial {E : Env} {h h' : Heap} (R : Reach E h) {nm : Str} {ck : Clock} {f : EntityDecl}
    {I : FileIcon} (hr : readFile E nm ck f h = (.ok I, h')) {q : List Str} {g : Str} {b : Items}
    (H : Items.Has q g b [f.name] f.body) (C : b.SelfContained g) :
    ∃ root x, I.root = some root ∧ Anc h' root x ∧ (h'.get x).kind = .node ∧
      (h'.get x).qualName = Str.join '/' (q ++ [g]) ∧
      ∀ budget, b.nodeNames.length + b.joints.length + (b.joints.flatMap JointDecl.rels).length + 1 < budget →
        ∃ T, tensorExecute h' (some 1) budget x [] [] = (.ok T, [], []) ∧ T.ne = b.joints.length ∧
          T.nn = b.nodeNames.length ∧ ∀ (e i j : Nat) J m n, b.joints[e]? = some J → b.nodeNames[i]? = some m →
            b.nodeNames[j]? = some n → T.W e i j = if J.Leads m n then 1 else 0 := by
  obtain ⟨R', root, w, x, a1, -, G⟩ := file_graph R hr H
  have S := G.self C
  obtain ⟨K, U⟩ := S.context
  obtain ⟨s, ys, ps, seen, N, -⟩ := G.shown
  refine ⟨root, x, a1, G.below, N.kind, N.path, fun budget hb => ?_⟩
  have st : StackFor h' x budget := by
    refine ⟨by rw [S.length_nodes]; omega, by rw [S.values]; simp only [List.length_nil]; omega, ?_⟩
    rw [S.length_edges, S.length_rels]; omega
  obtain ⟨T, run, ne, nn, -⟩ := C56_weights R' K.node K.closed K.weights st
  refine ⟨T, run, by rw [ne, S.length_edges], by rw [nn, S.length_nodes], ?_⟩
  intro e i j J m n he hi hj
  obtain ⟨y, hy, sr⟩ := forall₂_getElem? S.edges he
  obtain ⟨v, hv, rfl⟩ := forall₂_getElem? S.nodes hi
  obtain ⟨u, hu, rfl⟩ := forall₂_getElem? S.nodes hj
  have vm := List.mem_of_getElem? hv
  have um := List.mem_of_getElem? hu
  obtain ⟨w1, w0⟩ := C35_exact_partial R' K U ⟨budget, st, run⟩ hy hv hu
  have ends : ∀ {v : Ref}, v ∈ h'.subNodes x → (Endpoint h' y v ↔ ∃ r ∈ J.rels, r.ref = (h'.get v).idName) := by
    intro v hv
    have := S.endpoint_iff C.distinct sr hv (fun _ => True) (fun _ => True) (fun _ _ _ => Iff.rfl)
    simpa [Endpoint] using this
  have key : (v ≠ u ∧ Endpoint h' y v ∧ Endpoint h' y u ∧ (InEndpoint h' y v ∨ OutEndpoint h' y u)) ↔
      J.Leads (h'.get v).idName (h'.get u).idName := by
    unfold JointDecl.Leads
    rw [ends vm, ends um]
    have i1 : InEndpoint h' y v ↔ _ := S.endpoint_iff C.distinct sr vm Dir.isIn _ fun _ _ => arrow_isIn
    have i2 : OutEndpoint h' y u ↔ _ := S.endpoint_iff C.distinct sr um Dir.isOut _ fun _ _ => arrow_isOut
    rw [i1, i2]
    have : v ≠ u ↔ (h'.get v).idName ≠ (h'.get u).idName :=
      ⟨fun a b => a (S.name_inj C.distinct vm um b), fun a b => a (by rw [b])⟩
    rw [this]
  rw [key] at w1 w0
  split
  · next l => exact w1.2 l
  · next l => exact w0.2 l

/-! ## Graphs whose conversion fails -/

theorem nodes_index_err {m : IndexMap} {u : Bytes} {e : Err} (h : m.index u = .error e) : e = .keyError := by
  unfold IndexMap.index at h
  split at h
  · cases h; rfl
  · cases h

theorem mapM_except_err {α β : Type} {f : α → Except Err β} {P : Err → Prop} : ∀ {l : List α} {e : Err},
    l.mapM f = .error e → (∀ a e, f a = .error e → P e) → P e
  | [], e, h, _ => by simp [pure, Except.pure] at h
  | a :: l, e, h, H => by
    rw [List.mapM_cons] at h
    cases ha : f a with
    | error e' => rw [ha] at h; cases h; exact H a _ ha
    | ok b =>
      rw [ha] at h
      cases hl : l.mapM f with
      | error e' =>
        rw [hl] at h
        cases h
        exact mapM_except_err hl H
      | ok bs => rw [hl] at h; cases h

theorem nodeIds_err {h : Heap} {m : IndexHom} {x : Ref} {e : Err} (he : nodeIds h m x = .error e) :
    e = .attributeError ∨ e = .keyError := by
  unfold nodeIds at he
  split at he
  · refine mapM_except_err (P := fun e => e = .attributeError ∨ e = .keyError) he ?_
    rintro (_ | v) e q
    · cases q; exact .inl rfl
    · exact .inr (nodes_index_err q)
  · cases he; exact .inl rfl

theorem fillRelations_err {h : Heap} {m : IndexHom} {w : Rat × Rat} {v i : Nat} {x : Ref} {e : Err}
    (he : fillRelations h m w v i x = .error e) : e = .attributeError ∨ e = .keyError := by
  cases hn : nodeIds h m x with
  | error e' =>
    unfold fillRelations at he
    rw [hn] at he
    by_cases a : w.1 = 0 <;> by_cases b : w.2 = 0 <;> simp [a, b, bind, Except.bind] at he <;> subst he <;> exact nodeIds_err hn
  | ok ids =>
    unfold fillRelations at he
    rw [hn] at he
    by_cases a : w.1 = 0 <;> by_cases b : w.2 = 0 <;> simp [a, b, bind, Except.bind] at he

theorem relationBatches_err {h : Heap} {m : IndexHom} {r : Ref} {e : Err} (he : relationBatches h m r = .error e) :
    e = .attributeError ∨ e = .keyError := by
  unfold relationBatches at he
  split at he
  · cases he; exact .inl rfl
  · next p _ =>
    cases h1 : m.edges.index (h.get p).uuid with
    | error e' => rw [h1] at he; cases he; exact .inr (nodes_index_err h1)
    | ok k =>
    rw [h1] at he
    cases h2 : relationWeight h r with
    | error e' =>
      rw [h2] at he; cases he
      unfold relationWeight at h2
      simp only at h2
      split at h2
      · split at h2
        · cases h2
        · cases h2; exact .inl rfl
      · cases h2
    | ok w =>
    rw [h2] at he
    cases h3 : (h.get r).endpoint with
    | none => rw [h3] at he; cases he; exact .inl rfl
    | some v =>
    rw [h3] at he
    change (m.nodes.index (h.get v).uuid >>= fun i => fillRelations h m w i k p) = _ at he
    cases h4 : m.nodes.index (h.get v).uuid with
    | error e' => rw [h4] at he; cases he; exact .inr (nodes_index_err h4)
    | ok i => rw [h4] at he; exact fillRelations_err he

/-- A traversal that meets a relation it cannot evaluate raises. -/
theorem hyperTraverse_fails {h : Heap} {m : IndexHom} {max : Option Nat} {d : Nat} : ∀ (rs : List Ref) (budget : Nat)
    (q : Fringe) (s : List (List Entry)), (∀ r ∈ rs, (h.get r).kind = .relation) →
    (∃ r ∈ rs, ∃ e, relationBatches h m r = .error e) →
    ∃ e s' q', hyperTraverse h m max budget (rs.map (fun v => (v, d)) ++ q) s = (.error e, s', q') ∧
      (rs.length ≤ budget → e = .attributeError ∨ e = .keyError)
  | [], _, _, _, _, H => by obtain ⟨r, hr, -⟩ := H; cases hr
  | r :: rs, 0, q, s, _, _ => by
    refine ⟨.recursionError, s, _, rfl, fun h => by simp at h⟩
  | r :: rs, budget + 1, q, s, K, H => by
    rw [List.map_cons, List.cons_append, hyperTraverse, K r (by simp)]
    simp only
    cases hb : relationBatches h m r with
    | error e => exact ⟨e, s, _, rfl, fun _ => relationBatches_err hb⟩
    | ok bs =>
      simp only
      rw [List.append_assoc]
      obtain ⟨e, s', q', a, b⟩ := hyperTraverse_fails rs budget (q ++ _) (s ++ bs) (fun r hr => K r (by simp [hr])) (by
        obtain ⟨r', hr', e, he⟩ := H
        rcases List.mem_cons.1 hr' with rfl | hr'
        · rw [hb] at he; cases he
        · exact ⟨r', hr', e, he⟩)
      exact ⟨e, s', q', a, fun hl => b (by simp at hl; omega)⟩

theorem hyperTraverse_out {h : Heap} {m : IndexHom} {max : Option Nat} {d : Nat} : ∀ (es : List Ref) (budget : Nat) (q : Fringe)
    (s : List (List Entry)), (∀ x ∈ es, (h.get x).kind = .edge) → budget ≤ es.length → ∃ q',
      hyperTraverse h m max budget (es.map (fun v => (v, d)) ++ q) s = (.error .recursionError, s, q')
  | es, 0, q, s, _, _ => ⟨_, rfl⟩
  | [], b + 1, _, _, _, h => by simp at h
  | x :: es, b + 1, q, s, K, hl => by
    rw [List.map_cons, List.cons_append, hyperTraverse, K x (by simp)]
    simp only
    rw [List.append_assoc]
    exact hyperTraverse_out es b (q ++ _) s (fun r hr => K r (by simp [hr])) (by simpa using hl)

theorem short_run {σ : Type} {vis : Visitor σ} (hv : NeverRaises vis) (h : Heap) (f : Ref → Bool) (c : Ref) (budget : Nat) (s : σ)
    (ok : (Strategy.execute ⟨false, some 1, true⟩ h f vis budget c [] s).1 = .ok ()) :
    (breadthFirst h f true c 1).length < budget ∧ (Strategy.execute ⟨false, some 1, true⟩ h f vis budget c [] s).2.2 = [] := by
  by_cases hb : (breadthFirst h f true c 1).length < budget
  · refine ⟨hb, ?_⟩
    obtain ⟨a, b, e⟩ := C30_limited_bfs h f c 1 true vis s hb
    exact e (a ▸ ok)
  · have e : (List.range 1).flatMap (fun n => level h f c (n + 1)) = breadthFirst h f true c 1 := by
      unfold breadthFirst rootVisit
      simp
    rw [C54_recursion_limit_refuted hv h f c 1 true budget s (by rw [e]; omega)] at ok
    cases ok

/-- An index homomorphism that was computed had enough stack. -/
theorem homBudget_of_ok {h : Heap} {c : Ref} {budget : Nat} {m : IndexHom} {q : Fringe}
    (e : ({} : IndexHom).execute h 1 true budget c [] = (.ok (), m, q)) : HomBudget h 1 true budget c := by
  unfold IndexHom.execute IndexHom.executeMax at e
  simp only at e
  split at e
  · cases e
  · next h1 =>
    obtain ⟨a1, a2⟩ := short_run (fun _ _ => rfl) _ _ _ _ _ h1
    rw [a2] at e
    split at e
    · cases e
    · next h2 =>
      obtain ⟨b1, b2⟩ := short_run (fun _ _ => rfl) _ _ _ _ _ h2
      rw [b2] at e
      exact ⟨a1, b1, (short_run (fun _ _ => rfl) _ _ _ _ _ (by rw [e])).1⟩

/-- The relation cannot be evaluated in the context `c`: its weight is no value node. -/
def OddWeight (h : Heap) (c r : Ref) : Prop :=
  RelationIn h c r ∧ ∃ v, (h.get r).weight = some v ∧ (h.get v).kind ≠ .value

/-- The relation leads to a node with another uuid than the nodes of the context. -/
def LeadsOut (h : Heap) (c r : Ref) : Prop :=
  RelationIn h c r ∧ ∃ v, (h.get r).endpoint = some v ∧ ∀ u ∈ h.subNodes c, (h.get u).uuid ≠ (h.get v).uuid

/-- A context with such a relation cannot be converted. -/
theorem C106_fails {E : Env} {h : Heap} (R : Reach E h) {c r : Ref} (hk : (h.get c).kind = .node)
    (bad : OddWeight h c r ∨ LeadsOut h c r) (depth : Option Nat) (budget : Nat) :
    ∃ e sh sx, tensorExecute h depth budget c [] [] = (.error e, sh, sx) ∧
      (StackFor h c budget → e = .attributeError ∨ e = .keyError) := by
  unfold tensorExecute
  rcases he : ({} : IndexHom).execute h 1 true budget c [] with ⟨res, m, sh⟩
  have idle : StackFor h c budget → res = .ok () := by
    intro hb
    have hhb : HomBudget h 1 true budget c := by
      unfold HomBudget
      simp only [breadthFirst_one]
      refine ⟨hb.1, ?_, hb.2.1⟩
      have : ((h.subelements c).filter (isEdge h)).length = (h.subEdges c).length := rfl
      have := hb.2.2; omega
    obtain ⟨m', em, -⟩ := C33_insertion_order R {} c hhb
    rw [em] at he; cases he; rfl
  cases res with
  | error e => exact ⟨e, sh, [], rfl, fun hb => by cases idle hb⟩
  | ok _ =>
  have ix : ∀ v, (∀ u ∈ h.subNodes c, (h.get u).uuid ≠ (h.get v).uuid) → m.nodes.index (h.get v).uuid = .error .keyError := by
    intro v hv
    obtain ⟨m', em, Nn, -⟩ := C33_insertion_order R {} c (homBudget_of_ok he)
    rw [em] at he; cases he
    cases hi : m.nodes.index (h.get v).uuid with
    | error e => rw [nodes_index_err hi]
    | ok i =>
      rw [(C32_bijection Nn (sub_uuid_nodup R c _)).1, Nn.uuid, List.getElem?_map] at hi
      cases hg : (h.subNodes c)[i]? with
      | none => rw [hg] at hi; cases hi
      | some u =>
        rw [hg] at hi
        exact absurd (by simpa using hi) (hv u (List.mem_of_getElem? hg))
  have fails : ∃ r ∈ (h.subEdges c).flatMap h.subRelations, ∃ e, relationBatches h m r = .error e := by
    have hC := C01_containment_agrees R
    have mem : ∀ r, RelationIn h c r → r ∈ (h.subEdges c).flatMap h.subRelations := fun r ⟨x, hx, hr⟩ =>
      List.mem_flatMap.2 ⟨x, hx, hr⟩
    rcases bad with ⟨hr, v, hv, hkv⟩ | ⟨hr, v, hv, hu⟩
    · refine ⟨r, mem r hr, ?_⟩
      unfold relationBatches
      split
      · exact ⟨_, rfl⟩
      · next p _ =>
        cases m.edges.index (h.get p).uuid with
        | error e => exact ⟨e, rfl⟩
        | ok k =>
          have : relationWeight h r = .error .attributeError := by
            unfold relationWeight; simp only [hv]; rw [if_neg hkv]
          rw [this]; exact ⟨_, rfl⟩
    · refine ⟨r, mem r hr, ?_⟩
      unfold relationBatches
      split
      · exact ⟨_, rfl⟩
      · next p _ =>
        cases m.edges.index (h.get p).uuid with
        | error e => exact ⟨e, rfl⟩
        | ok k =>
          cases relationWeight h r with
          | error e => exact ⟨e, rfl⟩
          | ok w => rw [hv]; change ∃ e, (m.nodes.index (h.get v).uuid >>= fun i => fillRelations h m w i k p) = _; rw [ix v hu]; exact ⟨_, rfl⟩
  have hke : ∀ x ∈ h.subEdges c, (h.get x).kind = .edge := fun x hx =>
    of_decide_eq_true (List.mem_filter.1 hx).2
  have hkr : ∀ r ∈ (h.subEdges c).flatMap h.subRelations, (h.get r).kind = .relation := fun r hr => by
    obtain ⟨x, -, hr⟩ := List.mem_flatMap.1 hr
    exact of_decide_eq_true (List.mem_filter.1 hr).2
  have run : ∃ e s sx, hyperExecute h m depth budget c [] = (.error e, s, sx) ∧
      (StackFor h c budget → e = .attributeError ∨ e = .keyError) := by
    unfold hyperExecute
    rw [List.nil_append]
    cases budget with
    | zero => exact ⟨.recursionError, [], _, rfl, fun hb => by have := hb.1; omega⟩
    | succ b =>
    rw [hyperTraverse, hk]
    simp only
    rw [List.nil_append]
    by_cases hb : b ≤ (h.subEdges c).length
    · obtain ⟨q', a⟩ := hyperTraverse_out (m := m) (max := depth) (d := 0) (h.subEdges c) b [] [] hke hb
      rw [List.append_nil] at a
      refine ⟨_, _, _, a, fun st => ?_⟩
      have := st.2.2
      have : ((h.subEdges c).flatMap h.subRelations) ≠ [] := by
        obtain ⟨r, hr, -⟩ := fails
        exact List.ne_nil_of_mem hr
      have := List.length_pos_iff.2 this
      omega
    · obtain ⟨b', rfl⟩ : ∃ b', b = (h.subEdges c).length + b' := ⟨b - (h.subEdges c).length, by omega⟩
      have e1 := hyperTraverse_edges h m depth (h.subEdges c) hke 0 b' [] []
      rw [List.append_nil] at e1
      rw [e1, List.nil_append]
      obtain ⟨e, s', q', a, z⟩ := hyperTraverse_fails (h := h) (m := m) (max := depth) (d := 0) _ b' [] [] hkr fails
      rw [List.append_nil] at a
      exact ⟨e, s', q', a, fun st => z (by have := st.2.2; omega)⟩
  obtain ⟨e, s, sx, a, b⟩ := run
  simp only [a]
  exact ⟨e, sh, sx, rfl, b⟩

/-- **C106 refuted.** After any accepted file, every kinematic graph of it that has a joint relation with a pose cannot be
converted, at any depth and with any stack; with enough stack the exception is an `AttributeError` or `KeyError`. -/
theorem C106_pose_refuted {E : Env} {h h' : Heap} (R : Reach E h) {nm : Str} {ck : Clock} {f : EntityDecl}
    {I : FileIcon} (hr : readFile E nm ck f h = (.ok I, h')) {q : List Str} {g : Str} {b : Items}
    (H : Items.Has q g b [f.name] f.body) (posed : ∃ j ∈ b.joints, ∃ r ∈ j.rels, r.pose ≠ none) :
    ∃ root x, I.root = some root ∧ Anc h' root x ∧ (h'.get x).kind = .node ∧
      (h'.get x).qualName = Str.join '/' (q ++ [g]) ∧
      ∀ depth budget, ∃ e sh sx, tensorExecute h' depth budget x [] [] = (.error e, sh, sx) ∧
        (StackFor h' x budget → e = .attributeError ∨ e = .keyError) := by
  obtain ⟨R', root, w, x, a1, -, G⟩ := file_graph R hr H
  obtain ⟨s, ys, ps, seen, N, S, sh⟩ := G.shown
  obtain ⟨j, hj, r, hrj, hp⟩ := posed
  refine ⟨root, x, a1, G.below, N.kind, N.path, fun depth budget => ?_⟩
  obtain ⟨e, he, ps', rs, ed, rl⟩ := shows_joint sh hj
  obtain ⟨y, hy, d, t, s', ts, ax, -, -, ir, -, -, po⟩ := forall₂_mem_left rl hrj
  obtain ⟨p, ep⟩ := Option.ne_none_iff_exists'.1 hp
  rw [ep] at po
  obtain ⟨z, _, _, _, rfl, -, sz⟩ := po
  refine C106_fails R' N.kind (r := y) (.inl ⟨⟨e, ?_, ?_⟩, z, ir.weight, by rw [sz.kind]; simp⟩) depth budget
  · rw [subEdges_parts, N.parts]
    exact List.mem_filter.2 ⟨by simp [he], by simp [ed.kind]⟩
  · rw [subRelations_parts, ed.parts]
    exact List.mem_filter.2 ⟨hy, by simp [ir.kind]⟩

/-- **C106 refuted.** The same holds for a graph with a joint relation to the world, unless a node of the graph happens to
have the uuid of the element that the world stands for. -/
theorem C106_world_refuted {E : Env} {h h' : Heap} (R : Reach E h) {nm : Str} {ck : Clock} {f : EntityDecl}
    {I : FileIcon} (hr : readFile E nm ck f h = (.ok I, h')) {q : List Str} {g : Str} {b : Items}
    (H : Items.Has q g b [f.name] f.body) (world : ∃ j ∈ b.joints, ∃ r ∈ j.rels, r.ref = "world".toList) :
    ∃ root w x, I.root = some root ∧ Anc h' root x ∧ (h'.get x).kind = .node ∧
      (h'.get x).qualName = Str.join '/' (q ++ [g]) ∧ (h'.get w).parent = none ∧
      ((∀ v ∈ h'.subNodes x, (h'.get v).uuid ≠ (h'.get w).uuid) →
        ∀ depth budget, ∃ e sh sx, tensorExecute h' depth budget x [] [] = (.error e, sh, sx) ∧
          (StackFor h' x budget → e = .attributeError ∨ e = .keyError)) := by
  obtain ⟨R', root, w, x, a1, wp, G⟩ := file_graph R hr H
  obtain ⟨s, ys, ps, seen, N, S, sh⟩ := G.shown
  obtain ⟨j, hj, r, hrj, hp⟩ := world
  refine ⟨root, w, x, a1, G.below, N.kind, N.path, wp, fun hu depth budget => ?_⟩
  obtain ⟨e, he, ps', rs, ed, rl⟩ := shows_joint sh hj
  obtain ⟨y, hy, d, t, s', ts, ax, -, en, ir, -⟩ := forall₂_mem_left rl hrj
  unfold IsEndpoint at en
  rw [if_pos hp] at en
  subst en
  refine C106_fails R' N.kind (r := y) (.inr ⟨⟨e, ?_, ?_⟩, t, ir.endpoint, hu⟩) depth budget
  · rw [subEdges_parts, N.parts]
    exact List.mem_filter.2 ⟨by simp [he], by simp [ed.kind]⟩
  · rw [subRelations_parts, ed.parts]
    exact List.mem_filter.2 ⟨hy, by simp [ir.kind]⟩

/-! ## Cases -/

namespace Cogni

/-- A link without anything in it. -/
def bareLink (name : String) : LinkDecl := { name := name.toList, pose := none, body := none }

/-- A joint relation without pose and axis. -/
def bareRel (dir type ref : String) : JointRel :=
  { dir := dir.toList, type := type.toList, ref := ref.toList }

/-- The body of a graph of three links and two joints without poses; one of the links is a nested graph. -/
def chainBody : Items :=
  .link (bareLink "a") (.kinematic "b".toList (.link (bareLink "inner") .nil) (.link (bareLink "c")
    (.joint { name := "ab".toList, rels := [bareRel "<-" "rev" "a", bareRel "->" "rev" "b"] }
    (.joint { name := "abc".toList, rels := [bareRel "--" "fix" "c", bareRel "--" "fix" "a", bareRel "->" "fix" "b"] } .nil))))

/-- A file with that graph. -/
def chain : EntityDecl := { name := "chain".toList, body := .kinematic "g".toList chainBody .nil }

theorem chain_self : chainBody.SelfContained "g".toList := by
  refine ⟨?_, ?_, ?_, ?_, ?_, ?_⟩
  · decide +kernel
  · decide +kernel
  · decide +kernel
  · intro l hl s hs
    have : ∀ l ∈ chainBody.links, l.solids = [] := by decide +kernel
    rw [this l hl] at hs; cases hs
  · decide +kernel
  · decide +kernel

end Cogni

/-- C106, at a file: in every state the reader accepts it, and its graph can be converted; the joint `ab` leads from `a` to
`b` only, the joint `abc` from `c` to `a` and back. -/
theorem C106_case {h : Heap} (R : Reach E1 h) (nm : Str) : ∃ I h' x T, readFile E1 nm .local Cogni.chain h = (.ok I, h') ∧
    (h'.get x).qualName = "chain/g".toList ∧ tensorExecute h' (some 1) 12 x [] [] = (.ok T, [], []) ∧ T.ne = 2 ∧ T.nn = 3 ∧
    T.W 0 0 1 = 1 ∧ T.W 0 1 0 = 0 ∧ T.W 0 0 2 = 0 ∧ T.W 1 0 2 = 1 ∧ T.W 1 2 0 = 1 ∧ T.W 1 2 1 = 1 ∧ T.W 1 1 2 = 1 := by
  obtain ⟨I, h', _, _, e, -⟩ := C81_wellformed_accepted (E := E1) wideSha_injective (fun i j (e : 5 * i = 5 * j) => by omega) R
    nm (f := Cogni.chain) (by decide +kernel)
  obtain ⟨root, x, -, -, -, qn, run⟩ := C106_convertible_partial R e (.inl ⟨rfl, rfl, rfl⟩) Cogni.chain_self
  obtain ⟨T, run, ne, nn, W⟩ := run 12 (by decide +kernel)
  have hj0 : Cogni.chainBody.joints[0]? = some _ := rfl
  have hj1 : Cogni.chainBody.joints[1]? = some _ := rfl
  have n0 : Cogni.chainBody.nodeNames[0]? = some _ := rfl
  have n1 : Cogni.chainBody.nodeNames[1]? = some _ := rfl
  have n2 : Cogni.chainBody.nodeNames[2]? = some _ := rfl
  refine ⟨I, h', x, T, e, qn.trans (by decide +kernel), run, ne, nn, ?_, ?_, ?_, ?_, ?_, ?_, ?_⟩
  · rw [W 0 0 1 _ _ _ hj0 n0 n1]; decide +kernel
  · rw [W 0 1 0 _ _ _ hj0 n1 n0]; decide +kernel
  · rw [W 0 0 2 _ _ _ hj0 n0 n2]; decide +kernel
  · rw [W 1 0 2 _ _ _ hj1 n0 n2]; decide +kernel
  · rw [W 1 2 0 _ _ _ hj1 n2 n0]; decide +kernel
  · rw [W 1 2 1 _ _ _ hj1 n2 n1]; decide +kernel
  · rw [W 1 1 2 _ _ _ hj1 n1 n2]; decide +kernel

/-- The body of the graph `basic_structure` of a file of the repository. -/
def Items.firstGraph : Items → Option (Str × Items)
  | .kinematic g b _ => some (g, b)
  | .params _ rest | .skipped rest => rest.firstGraph
  | _ => none

theorem Items.firstGraph_has {path : List Str} {g : Str} {b : Items} : ∀ {its : Items}, its.firstGraph = some (g, b) →
    Items.Has path g b path its
  | .kinematic .., e => by cases e; exact .inl ⟨rfl, rfl, rfl⟩
  | .params _ rest, e => firstGraph_has (its := rest) e
  | .skipped rest, e => firstGraph_has (its := rest) e
  | .nil, e | .ambient .., e | .device .., e | .link .., e | .joint .., e => by cases e

/-- **C106 refuted**, at the files of the repository: the graph `basic_structure` of each of the six files cannot be
converted, at any depth and with any stack, in whatever state the file was read. -/
theorem C106_examples_refuted {E : Env} {h h' : Heap} (R : Reach E h) {nm : Str} {ck : Clock} {f : EntityDecl}
    {I : FileIcon} (hf : f ∈ [Cogni.pendulum, Cogni.twoLinkPendulum, Cogni.kinematicLoop, Cogni.car, Cogni.parameterizedCar,
      Cogni.ambientCar]) (hr : readFile E nm ck f h = (.ok I, h')) :
    ∃ root x, I.root = some root ∧ Anc h' root x ∧
      (h'.get x).qualName = Str.join '/' [f.name, "basic_structure".toList] ∧
      ∀ depth budget, ∃ e sh sx, tensorExecute h' depth budget x [] [] = (.error e, sh, sx) := by
  obtain ⟨b, hb, hp⟩ : ∃ b, f.body.firstGraph = some ("basic_structure".toList, b) ∧
      ∃ j ∈ b.joints, ∃ r ∈ j.rels, r.pose ≠ none := by
    simp only [List.mem_cons, List.not_mem_nil, or_false] at hf
    rcases hf with rfl | rfl | rfl | rfl | rfl | rfl <;> refine ⟨_, rfl, ?_⟩ <;> decide +kernel
  obtain ⟨root, x, a, b, -, c, d⟩ := C106_pose_refuted R hr (Items.firstGraph_has (path := [f.name]) hb) hp
  refine ⟨root, x, a, b, c, fun depth budget => ?_⟩
  obtain ⟨e, sh, sx, run, -⟩ := d depth budget
  exact ⟨e, sh, sx, run⟩

end Rei
