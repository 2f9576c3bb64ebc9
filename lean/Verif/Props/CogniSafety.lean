import Verif.Lemmas.Region
import Verif.Model.CogniLang

/-!
# C77: reading a file touches only what the reader created (framing part)
-/
namespace Rei
open PyM

/-- Everything the visitor remembers was created since `b`. -/
structure IconNew (b : Heap) (I : FileIcon) : Prop where
  cache : ∀ p ∈ I.cache, b.size ≤ p.2
  params : b.size ≤ I.params

section
variable {b : Heap}

theorem stays_liftE {α : Type} (r : Except Err α) : Stays b (liftE r) fun a => r = .ok a := by
  intro h hr
  exact ⟨hr, by rintro a e; exact e⟩

theorem stays_cached {I : FileIcon} (N : IconNew b I) (k : Str) : Stays b (I.cached k) (b.size ≤ ·) := by
  unfold FileIcon.cached
  split
  · exact .raise _
  · next x hx => exact .pure (N.cache _ (Dict.mem_of_get? hx))

theorem stays_remember {I : FileIcon} (N : IconNew b I) {x : Ref} (hx : b.size ≤ x) :
    Stays b (I.remember x) (IconNew b) := by
  unfold FileIcon.remember
  refine (Stays.obj' x).bind fun o _ => .pure ⟨?_, N.params⟩
  intro p hp
  rcases mem_set hp with rfl | hp
  · exact hx
  · exact N.cache p hp

theorem stays_poseElement (E : Env) {I : FileIcon} (N : IconNew b I) (p : Option Pose) {el : Ref} (hel : b.size ≤ el) :
    Stays b (I.poseElement E p el) fun a => IconNew b a.1 ∧ ∀ t, a.2 = some t → b.size ≤ t := by
  unfold FileIcon.poseElement
  split
  · exact .pure ⟨N, by rintro t ⟨⟩⟩
  · refine stays_heap.bind fun h _ => (stays_liftE _).bind fun v _ => (Stays.obj' el).bind fun o _ => ?_
    refine (stays_generateSemantic E _ _ _ hel _ _).bind fun t ht => (stays_remember N ht).bind fun I' N' => .pure ⟨N', ?_⟩
    rintro t' ⟨⟩; exact ht

theorem stays_addReference (E : Env) {I : FileIcon} (N : IconNew b I) (names : List Str) {g : Ref} (hg : b.size ≤ g)
    (id : Str) : Stays b (I.addReference E names g id) (IconNew b) := by
  unfold FileIcon.addReference
  refine (stays_cached N _).bind fun c hc => ?_
  split
  · exact .raise _
  · next t ht =>
    refine .ite (fun _ => .pure N) fun _ => ?_
    refine (Stays.obj' g).bind fun o _ => (stays_createHyperedge E _ hc _).bind fun e he => ?_
    refine (stays_unaryConnect E _ _ he (N.cache _ (Dict.mem_of_get? ht)) (by rintro s ⟨⟩)).void.bind fun _ _ => ?_
    exact (stays_unaryConnect E _ _ he hg (by rintro s ⟨⟩)).void.bind fun _ _ => .pure ⟨N.cache, N.params⟩

theorem stays_geomBody (E : Env) {I : FileIcon} (N : IconNew b I) (names : List Str) {g : Ref} (hg : b.size ≤ g)
    (nm : Str) (G : Geom) : Stays b (I.geomBody E names g nm G) (IconNew b) := by
  unfold FileIcon.geomBody
  split
  · exact stays_addReference E N names hg _
  · exact stays_heap.bind fun h _ => (stays_liftE _).bind fun v _ => (stays_generateSemantic E _ _ _ hg _ _).bind
      fun s hs => stays_remember N hs

theorem stays_geometry (E : Env) {I : FileIcon} (N : IconNew b I) (names : List Str) {x : Ref} (hx : b.size ≤ x)
    (G : Geom) : Stays b (I.geometry E names x G) (IconNew b) := by
  unfold FileIcon.geometry
  refine (Stays.obj' x).bind fun o _ => (stays_generateNode E _ _ (by rintro c ⟨⟩; exact hx)).bind fun n hn => ?_
  exact (stays_geomBody E N names hn _ G).bind fun I1 N1 => stays_remember N1 hn

theorem stays_material (E : Env) {I : FileIcon} (N : IconNew b I) {x : Ref} (hx : b.size ≤ x) (m : Option Str) :
    Stays b (I.material E x m) (IconNew b) := by
  unfold FileIcon.material
  exact (Stays.obj' x).bind fun o _ => (stays_generateSemantic E _ _ _ hx _ _).bind fun s hs => stays_remember N hs

theorem stays_visitSolid (E : Env) {I : FileIcon} (N : IconNew b I) (path : List Str) (s : SolidDecl) :
    Stays b (I.visitSolid E path s) (IconNew b) := by
  unfold FileIcon.visitSolid
  refine (stays_cached N _).bind fun c hc => (stays_generateNode E _ _ (by rintro c ⟨⟩; exact hc)).bind fun x hx => ?_
  refine (stays_remember N hx).bind fun I1 N1 => (stays_geometry E N1 _ hx _).bind fun I2 N2 => ?_
  exact .ite (fun _ => stays_material E N2 hx _) fun _ => .pure N2

theorem stays_visitSolids (E : Env) (path : List Str) : ∀ (ss : List SolidDecl) {I : FileIcon}, IconNew b I →
    Stays b (FileIcon.visitSolids E path I ss) (IconNew b)
  | [], _, N => .pure N
  | s :: ss, _, N => (stays_visitSolid E N path s).bind fun _ N' => stays_visitSolids E path ss N'

theorem stays_visitLinkBody (E : Env) {I : FileIcon} (N : IconNew b I) (path : List Str) (l : Option LinkBody) :
    Stays b (I.visitLinkBody E path l) (IconNew b) := by
  unfold FileIcon.visitLinkBody
  split
  · exact .pure N
  · refine Stays.bind (Q := fun _ => True) ?_ fun _ _ => stays_visitSolids E path _ N
    unfold FileIcon.visitInertia
    exact (stays_cached N _).bind fun c hc => (stays_generateSemantic E _ _ _ hc _ _).void

theorem stays_visitLink (E : Env) {I : FileIcon} (N : IconNew b I) (path : List Str) (l : LinkDecl) :
    Stays b (I.visitLink E path l) (IconNew b) := by
  unfold FileIcon.visitLink
  refine (stays_cached N _).bind fun c hc => (stays_generateNode E _ _ (by rintro c ⟨⟩; exact hc)).bind fun x hx => ?_
  refine (stays_generateSemantic E _ _ _ hx _ _).bind fun sv hsv => (stays_poseElement E N _ hsv).bind fun r hr => ?_
  refine Stays.bind (Q := fun _ => True) ?_ fun _ _ => (stays_remember hr.1 hx).bind fun I2 N2 => stays_visitLinkBody E N2 _ _
  unfold setPoseAttr
  split
  · exact .pure trivial
  · exact stays_addNamedAttribute hsv _ _

theorem stays_endpoint {I : FileIcon} (N : IconNew b I) {c : Ref} (hc : b.size ≤ c) (ref : Str) :
    Stays b (I.endpoint c ref) (b.size ≤ ·) := by
  unfold FileIcon.endpoint
  refine .ite (fun _ => stays_cached N _) fun _ => stays_heap'.bind fun h r => (stays_liftE _).bind fun l hl => ?_
  split
  · exact .raise _
  · exact .pure (lookupTokens_new r _ c hc _ hl _ (by simp))

theorem stays_jointRel (E : Env) {I : FileIcon} (N : IconNew b I) {c : Ref} (hc : b.size ≤ c) (nm : Str) (r : JointRel) :
    Stays b (I.jointRel E c nm r) fun a => IconNew b a.1 ∧ b.size ≤ a.2.node ∧ ∀ s, a.2.sem = some s → b.size ≤ s := by
  unfold FileIcon.jointRel
  refine (stays_endpoint N hc _).bind fun t ht => (stays_liftE _).bind fun d _ => ?_
  refine (stays_generateSemantic E _ _ _ hc _ _).bind fun sv hsv => ?_
  refine Stays.bind (Q := fun _ => True) ?_ fun _ _ => (stays_poseElement E N _ hsv).bind fun p hp => .pure ⟨hp.1, ht, ?_⟩
  · unfold FileIcon.setAxis
    split
    · exact .pure trivial
    · exact stays_heap.bind fun h _ => (stays_liftE _).bind fun v _ => stays_addNamedAttribute hsv _ _
  · rintro s ⟨⟩; exact hsv

theorem stays_jointRels (E : Env) {c : Ref} (hc : b.size ≤ c) (nm : Str) : ∀ (rs : List JointRel) {I : FileIcon},
    IconNew b I → Stays b (FileIcon.jointRels E c nm I rs) fun a => IconNew b a.1 ∧
      ∀ l ∈ a.2, b.size ≤ l.node ∧ ∀ s, l.sem = some s → b.size ≤ s
  | [], _, N => .pure ⟨N, by simp⟩
  | r :: rs, _, N => (stays_jointRel E N hc nm r).bind fun a ha => (stays_jointRels E hc nm rs ha.1).bind fun d hd =>
      .pure ⟨hd.1, by
        intro l hl
        rcases List.mem_cons.1 hl with rfl | hl
        · exact ha.2
        · exact hd.2 l hl⟩

theorem stays_visitJoint (E : Env) {I : FileIcon} (N : IconNew b I) (path : List Str) (j : JointDecl) :
    Stays b (I.visitJoint E path j) (IconNew b) := by
  unfold FileIcon.visitJoint
  refine (stays_cached N _).bind fun c hc => (stays_jointRels E hc _ _ N).bind fun a ha => ?_
  refine Stays.bind (Q := fun _ => True) (Stays.void (Q := fun _ => True) ?_) fun _ _ => .pure ha.1
  unfold Factory.connectTuples
  refine (stays_createHyperedge E _ hc _).bind fun e he => ?_
  refine Stays.bind (Q := fun _ => True) ?_ fun _ _ => .pure trivial
  exact .forEach fun l hl => (stays_unaryConnect E _ _ he (ha.2 l hl).1 (ha.2 l hl).2).void

theorem stays_visitNode (E : Env) {I : FileIcon} (N : IconNew b I) (path : List Str) (nm : Str) :
    Stays b (I.visitNode E path nm) (IconNew b) :=
  (stays_cached N _).bind fun c hc => (stays_generateNode E _ _ (by rintro c ⟨⟩; exact hc)).bind fun x hx =>
    stays_remember N hx

theorem stays_visitKinematic (E : Env) {I : FileIcon} (N : IconNew b I) (path : List Str) (nm : Str) :
    Stays b (I.visitKinematic E path nm) (IconNew b) :=
  (stays_cached N _).bind fun c hc => (stays_generateNode E _ _ (by rintro c ⟨⟩; exact hc)).bind fun x hx =>
    (stays_generateSemantic E _ _ _ hx _ _).void.bind fun _ _ => stays_remember N hx

theorem stays_visitItems (E : Env) (its : Items) : ∀ (path : List Str) {I : FileIcon}, IconNew b I →
    Stays b (FileIcon.visitItems E path I its) (IconNew b) := by
  induction its with
  | nil => intro path I N; exact .pure N
  | kinematic nm body rest ih1 ih2 =>
    intro path I N
    exact (stays_visitKinematic E N path nm).bind fun I1 N1 => (ih1 _ N1).bind fun I2 N2 => ih2 _ N2
  | ambient nm body rest ih1 ih2 =>
    intro path I N
    exact (stays_visitNode E N path nm).bind fun I1 N1 => (ih1 _ N1).bind fun I2 N2 => ih2 _ N2
  | device nm rest ih => intro path I N; exact (stays_visitNode E N path nm).bind fun I1 N1 => ih _ N1
  | link l rest ih => intro path I N; exact (stays_visitLink E N path l).bind fun I1 N1 => ih _ N1
  | joint j rest ih => intro path I N; exact (stays_visitJoint E N path j).bind fun I1 N1 => ih _ N1
  | params ps rest ih =>
    intro path I N
    refine Stays.bind (Q := fun _ => True) (.forEach fun p _ => ?_) fun _ _ => ih _ N
    unfold FileIcon.visitParam
    exact (stays_cached N _).bind fun c hc => .ite
      (fun _ => (stays_createValue E _ (by rintro c ⟨⟩; exact N.params) _ _).void) (fun _ => .pure trivial)
  | skipped rest ih => intro path I N; exact ih _ N

theorem stays_visit (E : Env) {I : FileIcon} (N : IconNew b I) (f : EntityDecl) :
    Stays b (I.visit E f) (IconNew b) := by
  unfold FileIcon.visit
  refine (stays_generateNode E _ _ (by rintro c ⟨⟩)).bind fun x hx => ?_
  refine (stays_generateSemantic E _ _ _ hx _ _).void.bind fun _ _ => ?_
  have N1 : IconNew b { I with root := some x } := ⟨N.cache, N.params⟩
  exact (stays_remember N1 hx).bind fun I2 N2 => stays_visitItems E _ _ N2

theorem stays_newFileIcon (E : Env) (nm : Str) (ck : Clock) : Stays b (newFileIcon E nm ck) (IconNew b) := by
  unfold newFileIcon
  refine (stays_generateNode E _ _ (by rintro c ⟨⟩)).bind fun w hw => ?_
  refine (stays_generateNode E _ _ (by rintro c ⟨⟩)).bind fun p hp => .pure ⟨?_, hp⟩
  intro q hq
  rw [List.mem_singleton] at hq
  subst hq
  exact hw

end
end Rei
