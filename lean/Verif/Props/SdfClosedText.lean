import Verif.Props.SdfClosed
import Verif.Props.CogniNestedSample
import Verif.Props.GrammarLayout

/-!
# C95 for texts, and what happens to files that are not tidy
-/
namespace Rei

theorem Items.Form.links : ∀ {its : Items} {p : Place}, its.Form p → ∀ l ∈ its.links, l.Form
  | .nil, _, _, _, hl => by cases hl
  | .kinematic .., _, F, l, hl => Items.Form.links F.2.2 l hl
  | .ambient .., _, F, l, hl => Items.Form.links F.2.2.2 l hl
  | .device .., _, F, l, hl => Items.Form.links F.2.2 l hl
  | .link .., _, F, l, hl => by
    rcases List.mem_cons.1 hl with rfl | hl
    · exact F.2.1
    · exact Items.Form.links F.2.2 l hl
  | .joint .., _, F, l, hl => Items.Form.links F.2.2 l hl
  | .params .., _, F, l, hl => Items.Form.links F.2.2 l hl
  | .skipped rest, p, F, l, hl => Items.Form.links (its := rest) (p := p) F l hl

theorem Items.Form.joints : ∀ {its : Items} {p : Place}, its.Form p → ∀ l ∈ its.joints, l.Form
  | .nil, _, _, _, hl => by cases hl
  | .kinematic .., _, F, l, hl => Items.Form.joints F.2.2 l hl
  | .ambient .., _, F, l, hl => Items.Form.joints F.2.2.2 l hl
  | .device .., _, F, l, hl => Items.Form.joints F.2.2 l hl
  | .joint .., _, F, l, hl => by
    rcases List.mem_cons.1 hl with rfl | hl
    · exact F.2.1
    · exact Items.Form.joints F.2.2 l hl
  | .link .., _, F, l, hl => Items.Form.joints F.2.2 l hl
  | .params .., _, F, l, hl => Items.Form.joints F.2.2 l hl
  | .skipped rest, p, F, l, hl => Items.Form.joints (its := rest) (p := p) F l hl

theorem Items.Form.graphs : ∀ {its : Items} {p : Place}, its.Form p → ∀ q ∈ its.graphs, IsName q.1 ∧ q.2.Form .kinematic
  | .nil, _, _, _, hl => by cases hl
  | .kinematic .., _, F, l, hl => by
    rcases List.mem_cons.1 hl with rfl | hl
    · exact ⟨F.1, F.2.1⟩
    · exact Items.Form.graphs F.2.2 l hl
  | .ambient .., _, F, l, hl => Items.Form.graphs F.2.2.2 l hl
  | .device .., _, F, l, hl => Items.Form.graphs F.2.2 l hl
  | .joint .., _, F, l, hl => Items.Form.graphs F.2.2 l hl
  | .link .., _, F, l, hl => Items.Form.graphs F.2.2 l hl
  | .params .., _, F, l, hl => Items.Form.graphs F.2.2 l hl
  | .skipped rest, p, F, l, hl => Items.Form.graphs (its := rest) (p := p) F l hl

theorem OneGraph.form {g : Str} {body : Items} {ps qs : Params} {its : Items} (o : OneGraph g body ps qs its) {p : Place}
    (F : its.Form p) : body.Form .kinematic := by
  induction o with
  | here _ => exact F.2.1
  | params _ ih => exact ih F.2.2
  | skipped _ ih => exact ih F

theorem IsName.dotless {n : Str} (q : IsName n) : '.' ∉ n ∧ n ≠ [] := by
  obtain ⟨⟨a, b⟩, -⟩ := q
  refine ⟨fun m => ?_, ?_⟩
  · have := b _ m
    revert this
    decide
  · exact a

theorem Items.Form.dotless {its : Items} {p : Place} (F : its.Form p) : its.Dotless where
  links l hl := (F.links l hl).1.dotless.1
  joints j hj := (F.joints j hj).1.dotless

/-- **C95, for texts.** A text that describes a well-formed, tidy file is read, from any reachable state, and converted, and
the names in the model are in order. -/
theorem C95_text {E : Env} (hsha : ∀ a b, E.sha a = E.sha b → a = b) (htime : ∀ i j, E.time i = E.time j → i = j)
    {h : Heap} (R : Reach E h) (nm : Str) {s : Str} {f : EntityDecl} (rd : ReadsAs s (some f)) (ok : f.wellFormed = true)
    {g : Str} {body : Items} {ps : Params} (B : IsAssembly f g body ps) (T : body.AllTidy) :
    ∃ I h' x, readFile E nm .local f h = (.ok I, h') ∧ I.root = some x ∧
      ∀ (W : World) (d : Nat), W.Fair E → W.h = h' → ∃ xs u, WellLinked xs ∧
        W.convert (d + 2) x {} = (.ok (), { sdf := { models := [(f.name, xs)], cache := [] }, uses := u, shared := [] }) := by
  have F := B.graph.form (C92_form rd).2
  obtain ⟨I, h', _, _, e, _⟩ := C81_wellformed_accepted hsha htime R nm ok
  obtain ⟨x, a, b⟩ := C95_references_resolve (fun _ _ => hsha _ _) R e B T ⟨F.dotless, fun p hp => (F.graphs p hp).2.dotless⟩
  exact ⟨I, h', x, e, a, b⟩

namespace Cogni

/-- A joint with one relation into it, then one out of it. -/
theorem pendulumJoint_simple {name a ty b : String} {pose : Option Pose} {axis : Option (List Rat)} (ne : a.toList ≠ b.toList) :
    (pendulumJoint name a ty b pose axis).Simple := ⟨_, _, .inl rfl, rfl, rfl, ne⟩

set_option maxRecDepth 100000

theorem car_tidy (tire : List FVal) : (carBody tire).AllTidy where
  outer := by
    refine ⟨?_, ?_⟩
    · show ∀ j ∈ [wheelJoint .., wheelJoint .., wheelJoint .., wheelJoint ..], j.Simple
      intro j hj
      simp only [List.mem_cons, List.not_mem_nil, or_false] at hj
      rcases hj with rfl | rfl | rfl | rfl <;> exact pendulumJoint_simple (by decide)
    · show ((carBody []).joints.map JointDecl.name).Nodup
      decide +kernel
  nested := by
    rw [car_graphs]
    intro p hp
    rw [List.mem_singleton] at hp
    subst hp
    refine ⟨?_, ?_⟩
    · show ∀ j ∈ [pendulumJoint .., ], j.Simple
      intro j hj
      rw [List.mem_singleton] at hj
      subst hj
      exact pendulumJoint_simple (by decide)
    · show ((wheelBody []).joints.map JointDecl.name).Nodup
      decide +kernel
  parents := by
    rw [car_graphs]
    intro j hj i hi d p hp
    rw [List.mem_singleton] at hp
    subst hp
    revert d i j
    show ∀ j ∈ (carBody []).joints, ∀ i ∈ j.rels, i.dir = "<-".toList → "wheel".toList ≠ i.ref
    decide +kernel
  worlds := by
    rw [car_graphs]
    intro p hp
    rw [List.mem_singleton] at hp
    subst hp
    show ∀ j ∈ (wheelBody []).joints, ∀ r ∈ j.rels, r.ref ≠ "world".toList
    decide +kernel
  bases := by
    rw [car_graphs]
    intro p hp
    rw [List.mem_singleton] at hp
    subst hp
    intro l hl l' hl' b b'
    have key : ¬ IsBase (wheelBody []).joints (wTire []) := by
      unfold IsBase
      decide +kernel
    replace hl : l ∈ [wBase, wTire tire] := hl
    replace hl' : l' ∈ [wBase, wTire tire] := hl'
    rw [List.mem_cons, List.mem_singleton] at hl hl'
    rcases hl with rfl | rfl
    · rcases hl' with rfl | rfl
      · rfl
      · exact absurd b' key
    · exact absurd b key

/-- C95 at the text of `examples/example_robotcar.cogni`. -/
example : ∃ I h' x, readFile E1 "cogni_lang_file".toList .local Cogni.car Heap.empty = (.ok I, h') ∧ I.root = some x ∧
    ∀ (W : World) (d : Nat), W.Fair E1 → W.h = h' → ∃ xs u, WellLinked xs ∧
      W.convert (d + 2) x {} = (.ok (),
        { sdf := { models := [("simplebot".toList, xs)], cache := [] }, uses := u, shared := [] }) :=
  C95_text (E := E1) wideSha_injective (fun i j (e : 5 * i = 5 * j) => by omega) .init "cogni_lang_file".toList car_reads
    examples_wellFormed.2.2.2.1 car_assembly (car_tidy _)

/-- The same for the file with parameters. -/
example : ∃ I h' x, readFile E1 "cogni_lang_file".toList .local Cogni.parameterizedCar Heap.empty = (.ok I, h') ∧ I.root = some x ∧
    ∀ (W : World) (d : Nat), W.Fair E1 → W.h = h' → ∃ xs u, WellLinked xs ∧
      W.convert (d + 2) x {} = (.ok (),
        { sdf := { models := [("simplebot_parameterized".toList, xs)], cache := [] }, uses := u, shared := [] }) :=
  C95_text (E := E1) wideSha_injective (fun i j (e : 5 * i = 5 * j) => by omega) .init "cogni_lang_file".toList parameterizedCar_reads
    examples_wellFormed.2.2.2.2.1 parameterizedCar_assembly (car_tidy _)

/-- A joint with two parents. -/
def twoParents : EntityDecl :=
  { name := "bot".toList
    body := .kinematic "k".toList
      (.link ⟨"a".toList, none, none⟩ (.link ⟨"b".toList, none, none⟩ (.link ⟨"c".toList, none, none⟩
      (.joint { name := "j".toList, rels := [{ type := "fix".toList, dir := "<-".toList, ref := "a".toList },
        { type := "fix".toList, dir := "<-".toList, ref := "b".toList },
        { type := "rev".toList, dir := "->".toList, ref := "c".toList }] } .nil)))) .nil }

/-- A joint from a nested graph to a link. -/
def fromGraph : EntityDecl :=
  { name := "bot".toList
    body := .kinematic "k".toList (.kinematic "w".toList (.link ⟨"a".toList, none, none⟩ .nil)
      (.link ⟨"b".toList, none, none⟩ (.joint (pendulumJoint "j" "w" "rev" "b" none none) .nil))) .nil }

theorem bare_sound {links : List LinkDecl} {ps : Params} {path : List Str} {n : Str} :
    LinkDecl.Sound links ps path ⟨n, none, none⟩ where
  names := by simp [LinkDecl.solids]
  slash := by simp [LinkDecl.solids]
  visual := by simp [LinkDecl.solids]
  shapes := by simp [LinkDecl.solids]
  pose := by simp
  solid := by simp

theorem twoParents_assembly : IsAssembly twoParents "k".toList (firstBody twoParents.body) [] where
  graph := .here rfl
  assembled := by decide +kernel
  world := by decide +kernel
  slash := by decide +kernel
  once := by decide +kernel
  sound := {
   distinct := by decide +kernel
   names := names_of_check (by decide +kernel)
   links := by
    intro l hl
    replace hl : l ∈ [⟨"a".toList, none, none⟩, ⟨"b".toList, none, none⟩, ⟨"c".toList, none, none⟩] := hl
    simp only [List.mem_cons, List.not_mem_nil, or_false] at hl
    rcases hl with rfl | rfl | rfl <;> exact bare_sound
   joints := joints_of_check (by decide +kernel) }
  nested := by intro p hp; cases hp
  bases := by intro p hp; cases hp

theorem fromGraph_assembly : IsAssembly fromGraph "k".toList (firstBody fromGraph.body) [] where
  graph := .here rfl
  assembled := by decide +kernel
  world := by decide +kernel
  slash := by decide +kernel
  once := by decide +kernel
  sound := {
   distinct := by decide +kernel
   names := names_of_check (by decide +kernel)
   links := by
    intro l hl
    replace hl : l ∈ [⟨"b".toList, none, none⟩] := hl
    rw [List.mem_singleton] at hl
    subst hl
    exact bare_sound
   joints := joints_of_check (by decide +kernel) }
  nested := by
    intro p hp
    replace hp : p ∈ [("w".toList, .link ⟨"a".toList, none, none⟩ .nil)] := hp
    rw [List.mem_singleton] at hp
    subst hp
    exact {
      distinct := by decide +kernel
      names := names_of_check (by decide +kernel)
      links := by
        intro l hl
        replace hl : l ∈ [⟨"a".toList, none, none⟩] := hl
        rw [List.mem_singleton] at hl
        subst hl
        exact bare_sound
      joints := joints_of_check (by decide +kernel) }
  bases := by
    intro p hp q
    replace hp : p ∈ [("w".toList, .link ⟨"a".toList, none, none⟩ .nil)] := hp
    rw [List.mem_singleton] at hp
    subst hp
    exact ⟨_, .head _, fun j hj => by cases hj⟩

end Cogni

/-- C95 without the conditions, refuted: two relations lead into one joint, and two joints of the model have the same name. -/
theorem C95_two_parents_refuted {E : Env} (hsha : ∀ a b, E.sha a = E.sha b → a = b) (htime : ∀ i j, E.time i = E.time j → i = j)
    {h : Heap} (R : Reach E h) (nm : Str) :
    ∃ I h' x, readFile E nm .local Cogni.twoParents h = (.ok I, h') ∧ I.root = some x ∧
      ∀ (W : World) (d : Nat), W.Fair E → W.h = h' → ∃ xs u, ¬ (xs.map Xml.name?).Nodup ∧
        W.convert (d + 2) x {} = (.ok (), { sdf := { models := [("bot".toList, xs)], cache := [] }, uses := u, shared := [] }) := by
  obtain ⟨I, h', x, a, b, c⟩ := C94_wellformed hsha htime R nm (by decide +kernel) Cogni.twoParents_assembly
  refine ⟨I, h', x, a, b, fun W d F e => ?_⟩
  obtain ⟨ys, bs, xs, u, f1, f2, p, r⟩ := c W d F e
  refine ⟨xs, u, ?_, r⟩
  rw [(p.map _).nodup_iff, List.map_append]
  intro nd
  have nd := (List.nodup_append.1 nd).2.1
  obtain ⟨j, i, i', o, ej, eo⟩ : ∃ j i i' o, jointPairs (Cogni.firstBody Cogni.twoParents.body).joints = [(j, i, o), (j, i', o)] ∧
      o.ref = "c".toList := ⟨_, _, _, _, rfl, rfl⟩
  rw [ej] at f2
  cases f2 with
  | cons X f2 =>
    cases f2 with
    | cons Y f2 =>
      cases f2
      cases X with
      | graph h1 => cases h1
      | joint _ X =>
        cases Y with
        | graph h1 => cases h1
        | joint _ Y =>
          simp only [List.flatten_cons, List.flatten_nil, List.cons_append, List.nil_append, List.map_cons, List.map_nil,
            List.nodup_cons, List.mem_singleton] at nd
          exact nd.1 ((SaysJointAs.name X).trans (SaysJointAs.name Y).symm)

/-- C95 without the conditions, refuted: a joint leads from a nested graph, and the parent of a joint of the model does not
exist. -/
theorem C95_from_graph_refuted {E : Env} (hsha : ∀ a b, E.sha a = E.sha b → a = b) (htime : ∀ i j, E.time i = E.time j → i = j)
    {h : Heap} (R : Reach E h) (nm : Str) :
    ∃ I h' x, readFile E nm .local Cogni.fromGraph h = (.ok I, h') ∧ I.root = some x ∧
      ∀ (W : World) (d : Nat), W.Fair E → W.h = h' → ∃ xs u, (∃ y ∈ xs, ∃ p, y.tag = "joint".toList ∧
          y.childText "parent" = some [.str p] ∧ ¬ IsLinkName xs p) ∧
        W.convert (d + 2) x {} = (.ok (), { sdf := { models := [("bot".toList, xs)], cache := [] }, uses := u, shared := [] }) := by
  obtain ⟨I, h', x, a, b, c⟩ := C94_wellformed hsha htime R nm (by decide +kernel) Cogni.fromGraph_assembly
  refine ⟨I, h', x, a, b, fun W d F e => ?_⟩
  obtain ⟨ys, bs, xs, u, f1, f2, p, r⟩ := c W d F e
  refine ⟨xs, u, ?_, r⟩
  obtain ⟨j, i, o, ej, ei, eo⟩ : ∃ j i o, jointPairs (Cogni.firstBody Cogni.fromGraph.body).joints = [(j, i, o)] ∧
      i.ref = "w".toList ∧ o.ref = "b".toList := ⟨_, _, _, rfl, rfl, rfl⟩
  rw [ej] at f2
  have el : (Cogni.firstBody Cogni.fromGraph.body).links = [⟨"b".toList, none, none⟩] := rfl
  rw [el] at f1
  cases f1 with
  | @cons _ y _ _ L f1 =>
    cases f1
    cases f2 with
    | cons X f2 =>
      cases f2
      cases X with
      | graph h1 =>
        replace h1 := List.mem_singleton.1 h1
        rw [eo] at h1
        exact absurd (Prod.mk.inj h1).1 (by decide)
      | @joint z _ X =>
        refine ⟨z, p.mem_iff.2 (by simp), i.ref, SaysJointAs.tag X, SaysJointAs.parent X, ?_⟩
        rw [ei]
        rintro (q | ⟨v, hv, t, n⟩)
        · exact absurd q (by decide)
        · rcases List.mem_cons.1 (p.mem_iff.1 hv) with rfl | hv
          · have := L.name.symm.trans n
            exact absurd (Option.some.inj this) (by decide)
          · have hv : v = z := by simpa using hv
            subst hv
            exact absurd (t.symm.trans (SaysJointAs.tag X)) (by decide)

end Rei
