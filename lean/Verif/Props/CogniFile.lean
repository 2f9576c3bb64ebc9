import Verif.Lemmas.ReadFile
import Verif.Props.Sample

/-!
# C76 to C80: reading a CogniLang file
-/
namespace Rei
open PyM

theorem readFile_does {E : Env} {h : Heap} (R : Reach E h) (nm : Str) (ck : Clock) (f : EntityDecl) :
    Does E (readFile E nm ck f) h fun I' h' => ∃ I h1, IconNewborn h1 I h.size ∧ Onward h.size [] h h1 ∧
      h1.size = h.size + 2 ∧ I.params < h1.size ∧ h.size ≤ I.params ∧ FileRead I h.size f h1 I' h' := by
  unfold readFile
  refine (newFileIcon_does R nm ck).bind fun I h1 R1 q => ?_
  refine (visit_does R1 q.1 f).mono fun I' h' R' z => ⟨I, h1, q.1, q.2.1, q.2.2.1, q.1.ok.plt, by rw [q.2.2.2]; omega, z⟩

/-- **C76.** When a reader accepts a file, its root entity shows the file: the root node with its semantic element, and
in it, in the order of the file and with nothing else between them, the nodes, semantic elements, edges and relations
that the declarations of the file stand for. -/
theorem C76_file_shown {E : Env} {h h' : Heap} (R : Reach E h) {nm : Str} {ck : Clock} {f : EntityDecl} {I : FileIcon}
    (hr : readFile E nm ck f h = (.ok I, h')) :
    ∃ x w, I.root = some x ∧ h.size ≤ x ∧ h.size ≤ w ∧ x ≠ w ∧
      IsNode h' w "world".toList ["world".toList] [] ∧ (h'.get w).parent = none ∧
      ShowsFile h' (if f.name = "world".toList then x else w) x f := by
  obtain ⟨I0, h1, b, on, sz, pl, -, q⟩ := (readFile_does R nm ck f).2 I h' hr
  have wl : h.size < h1.size := by omega
  refine ⟨h1.size, h.size, q.root, by omega, Nat.le_refl _, by omega, ⟨?_, ?_, ?_, ?_⟩, ?_, q.shows_⟩
  · rw [q.on.kind _ wl, b.world.kind]
  · rw [q.on.idName _ wl, b.world.name]
  · rw [q.on.qualName _ wl, b.world.path]
  · rw [q.on.only _ wl (by simpa using b.ne), b.world.parts]
  · rw [q.on.parent _ wl, b.worldRoot]

/-- **C77.** Reading a file, whether it is accepted or refused, leaves everything that existed before unchanged, and
leaves a hypergraph with all the guarantees of C01 to C10. -/
theorem C77_reading_is_safe {E : Env} {h : Heap} (R : Reach E h) (nm : Str) (ck : Clock) (f : EntityDecl) :
    Reach E (readFile E nm ck f h).2 ∧ KeepsOld h (readFile E nm ck f h).2 := by
  refine ⟨(readFile_does R nm ck f).1, ?_⟩
  have := ((stays_newFileIcon (b := h) E nm ck).bind fun I N => stays_visit E N f) h (.start R.good.inv)
  exact this.1.keepsOld

/-- **C78.** After an accepted file the parameter node holds exactly the parameters that the body of the entity
declares, in order, each a value node with the declared number. -/
theorem C78_parameters {E : Env} {h h' : Heap} (R : Reach E h) {nm : Str} {ck : Clock} {f : EntityDecl} {I : FileIcon}
    (hr : readFile E nm ck f h = (.ok I, h')) :
    ∃ vs, IsNode h' I.params "parameters".toList ["parameters".toList] vs ∧ h.size ≤ I.params ∧
      List.Forall₂ (fun v p => (h'.get v).kind = .value ∧ (h'.get v).idName = p.1 ∧ h'.valuesOf v = [p.2])
        vs f.body.declared := by
  obtain ⟨I0, h1, b, on, sz, pl, pg, q⟩ := (readFile_does R nm ck f).2 I h' hr
  refine ⟨_, ⟨?_, ?_, ?_, rfl⟩, by rw [q.params]; exact pg, q.ok.params.imp fun v p z => ⟨z.kind, z.name, z.values⟩⟩
  · rw [q.params, q.on.kind _ pl, b.params.kind]
  · rw [q.params, q.on.idName _ pl, b.params.name]
  · rw [q.params, q.on.qualName _ pl, b.params.path]

/-! ## C79: names of parameters that are not declared before are refused -/

/-- All parameters used are among `ps`. -/
def FVal.Scoped (ps : Params) : FVal → Prop
  | .num _ => True
  | .param n => n ∈ ps.map Prod.fst

/-- The vectors of a pose. -/
def Pose.vectors (p : Pose) : List (List FVal) := p.trans :: (p.rot.map Prod.snd).toList

/-- The vectors of a field. -/
def FField.vectors : FField → List (List FVal)
  | .vec v => [v]
  | .ref _ => []

/-- The vectors of the geometry of a solid. -/
def SolidDecl.vectors (s : SolidDecl) : List (List FVal) :=
  match s.geom with
  | .solid _ f => f.vectors
  | .ref _ => []

/-- The vectors of a link that are evaluated; the vector of its inertia is not. -/
def LinkDecl.vectors (l : LinkDecl) : List (List FVal) :=
  (l.pose.toList.flatMap Pose.vectors) ++ (l.body.toList.flatMap fun b => b.solids.flatMap SolidDecl.vectors)

/-- The vectors of a joint. -/
def JointDecl.vectors (j : JointDecl) : List (List FVal) :=
  j.rels.flatMap fun r => r.axis.toList ++ r.pose.toList.flatMap Pose.vectors

/-- In a body with `ps` declared before it, every parameter is used after its declaration; only the body of the entity
(`top`) declares. -/
def Items.Scoped : (top : Bool) → Params → Items → Prop
  | _, _, .nil => True
  | top, ps, .kinematic _ body rest => Items.Scoped false ps body ∧ Items.Scoped top ps rest
  | top, ps, .ambient _ body rest => Items.Scoped false ps body ∧ Items.Scoped top ps rest
  | top, ps, .device _ rest => Items.Scoped top ps rest
  | top, ps, .link l rest => (∀ v ∈ l.vectors, ∀ a ∈ v, a.Scoped ps) ∧ Items.Scoped top ps rest
  | top, ps, .joint j rest => (∀ v ∈ j.vectors, ∀ a ∈ v, a.Scoped ps) ∧ Items.Scoped top ps rest
  | top, ps, .params qs rest => Items.Scoped top (if top then ps ++ qs else ps) rest
  | top, ps, .skipped rest => Items.Scoped top ps rest

theorem Means.scoped {ps : Params} {a : FVal} {q : Rat} (m : Means ps a q) : a.Scoped ps := by
  cases m with
  | num => trivial
  | param n q e =>
    show n ∈ ps.map Prod.fst
    induction ps with
    | nil => cases e
    | cons p ps ih =>
      rw [List.lookup_cons] at e
      split at e
      · next c => simp only [beq_iff_eq] at c; simp [c]
      · exact List.mem_cons_of_mem _ (ih e)

theorem VecMeans.scoped {ps : Params} {v : List FVal} {l : List Rat} (m : VecMeans ps v l) : ∀ a ∈ v, a.Scoped ps := by
  unfold VecMeans at m
  induction m with
  | nil => simp
  | cons a _ ih =>
    intro x hx
    rcases List.mem_cons.1 hx with rfl | hx
    · exact a.scoped
    · exact ih x hx

theorem PoseMeans.scoped {ps : Params} {p : Pose} {t r : List Rat} {ty : Str} (m : PoseMeans ps p t r ty) :
    ∀ v ∈ p.vectors, ∀ a ∈ v, a.Scoped ps := by
  intro v hv
  cases m with
  | plain a =>
    simp [Pose.vectors] at hv
    subst hv; exact a.scoped
  | unmarked a b | degrees a b | radians a b =>
    simp [Pose.vectors] at hv
    rcases hv with rfl | rfl
    · exact a.scoped
    · exact b.scoped

theorem ShowsPose.scoped {h : Heap} {ps : Params} {nm : Str} {p : Option Pose} {l : List Ref}
    (s : ShowsPose h ps nm p l) : ∀ v ∈ p.toList.flatMap Pose.vectors, ∀ a ∈ v, a.Scoped ps := by
  cases p with
  | none => simp
  | some p =>
    obtain ⟨x, t, r, ty, -, m, -⟩ := s
    simpa using m.scoped

theorem ShowsSolids.scoped {h : Heap} {ps : Params} {path : List Str} {ss : List SolidDecl} :
    ∀ {seen : List Str} {ys es : List Ref}, ShowsSolids h ps path seen ss ys es →
    ∀ v ∈ ss.flatMap SolidDecl.vectors, ∀ a ∈ v, a.Scoped ps := by
  induction ss with
  | nil => intro _ _ _ _; simp
  | cons s ss ih =>
    intro seen ys es sh v hv
    obtain ⟨y, ys', es1, es2, -, -, ⟨g, ms, -, -, G, -⟩, q⟩ := sh
    rw [List.flatMap_cons, List.mem_append] at hv
    rcases hv with hv | hv
    · unfold SolidDecl.vectors at hv
      cases hg : s.geom with
      | ref id => rw [hg] at hv; simp at hv
      | solid c f =>
        rw [hg] at hv G
        obtain ⟨-, _, _, v', _, -, rfl, m, -⟩ := G
        simp [FField.vectors] at hv
        subst hv; exact m.scoped
    · exact ih q v hv

theorem ShowsLink.scoped {h : Heap} {ps : Params} {seen path : List Str} {l : LinkDecl} {x : Ref} {es : List Ref}
    (s : ShowsLink h ps seen path l x es) : ∀ v ∈ l.vectors, ∀ a ∈ v, a.Scoped ps := by
  obtain ⟨sv, ts, ys, -, -, p, b⟩ := s
  intro v hv
  unfold LinkDecl.vectors at hv
  rw [List.mem_append] at hv
  rcases hv with hv | hv
  · exact p.scoped v hv
  · cases hb : l.body with
    | none => rw [hb] at hv; simp at hv
    | some lb =>
      rw [hb] at hv b
      obtain ⟨i, ys', -, -, b⟩ := b
      refine b.scoped v ?_
      simpa using hv

theorem ShowsJoint.scoped {h : Heap} {w c : Ref} {ps : Params} {path : List Str} {j : JointDecl} {e : Ref}
    (s : ShowsJoint h w c ps path j e) : ∀ v ∈ j.vectors, ∀ a ∈ v, a.Scoped ps := by
  obtain ⟨rs, -, f⟩ := s
  unfold JointDecl.vectors
  generalize j.rels = js at f
  induction f with
  | nil => simp
  | @cons r _ js _ q _ ih =>
    intro v hv
    rw [List.flatMap_cons, List.mem_append] at hv
    rcases hv with hv | hv
    · obtain ⟨d, t, s, ts, a, -, -, -, ax, -, p⟩ := q
      rcases List.mem_append.1 hv with hv | hv
      · cases hx : r.axis with
        | none => rw [hx] at hv; simp at hv
        | some vv =>
          rw [hx] at hv ax
          obtain ⟨l, -, m⟩ := ax
          simp at hv
          subst hv; exact m.scoped
      · exact p.scoped v hv
    · exact ih v hv

theorem Shows.scoped {h : Heap} {w : Ref} {items : Items} : ∀ {c : Ref} {top : Bool} {ps : Params}
    {seen path : List Str} {l : List Ref}, Shows h w c top ps seen path items l → items.Scoped top ps := by
  induction items with
  | nil => intros; trivial
  | kinematic name body rest ihb ihr =>
    intro c top ps seen path l sh
    obtain ⟨x, s, ys, l', -, -, -, a, b⟩ := sh
    exact ⟨ihb a, ihr b⟩
  | ambient name body rest ihb ihr =>
    intro c top ps seen path l sh
    obtain ⟨x, ys, l', -, -, a, b⟩ := sh
    exact ⟨ihb a, ihr b⟩
  | device name rest ihr =>
    intro c top ps seen path l sh
    obtain ⟨x, l', -, -, b⟩ := sh
    exact ihr (c := c) b
  | link d rest ihr =>
    intro c top ps seen path l sh
    obtain ⟨x, es, l', -, a, b⟩ := sh
    exact ⟨a.scoped, ihr b⟩
  | joint j rest ihr =>
    intro c top ps seen path l sh
    obtain ⟨e, l', -, a, b⟩ := sh
    exact ⟨a.scoped, ihr b⟩
  | params qs rest ihr =>
    intro c top ps seen path l sh
    exact ihr (c := c) (top := top) sh
  | skipped rest ihr =>
    intro c top ps seen path l sh
    exact ihr (c := c) (top := top) sh

/-- **C79.** A file that uses a parameter in a pose, an axis or a solid without declaring it before, in the body of the
entity, is refused. -/
theorem C79_undeclared_refused {E : Env} {h : Heap} (R : Reach E h) (nm : Str) (ck : Clock) {f : EntityDecl}
    (hs : ¬ f.body.Scoped true []) : ∃ er, (readFile E nm ck f h).1 = .error er := by
  cases e : readFile E nm ck f h with
  | mk r h' =>
    cases r with
    | error er => exact ⟨er, rfl⟩
    | ok I =>
      obtain ⟨x, w, -, -, -, -, -, -, s, ys, -, -, -, sh⟩ := C76_file_shown R e
      exact absurd sh.scoped hs

end Rei
