import Verif.Spec.GrammarForm
import Verif.Lemmas.LexSkip

/-!
# What derivations mean
-/
namespace Rei

/-- The identifiers among the tokens are names. -/
def NamedTokens (ts : List Token) : Prop := ∀ t ∈ ts, t.cls = .id → IsName t.text

theorem longest_split {s : Str} : ∀ {rules : List (Option Cls × (Str → Option Nat))} {k n}, longest s rules = some (k, n) →
    ∃ pre m post, rules = pre ++ (k, m) :: post ∧ m s = some n ∧ ∀ r ∈ pre, ∀ j, r.2 s = some j → j < n := by
  intro rules
  induction rules with
  | nil => intro k n e; cases e
  | cons r rules ih =>
    intro k n e
    obtain ⟨k1, m1⟩ := r
    unfold longest at e
    cases hx : m1 s with
    | none =>
      rw [hx] at e
      obtain ⟨pre, m, post, rfl, h1, h2⟩ := ih e
      refine ⟨(k1, m1) :: pre, m, post, rfl, h1, fun r hr j q => ?_⟩
      rcases List.mem_cons.1 hr with rfl | hr
      · exact absurd (hx.symm.trans q) (by simp)
      · exact h2 r hr j q
    | some j =>
      rw [hx] at e
      cases hy : longest s rules with
      | none => rw [hy] at e; cases e; exact ⟨[], m1, rules, rfl, hx, by simp⟩
      | some y =>
        obtain ⟨k2, n2⟩ := y
        rw [hy] at e
        simp only at e
        split at e
        · next hlt =>
          cases e
          obtain ⟨pre, m, post, rfl, h1, h2⟩ := ih hy
          refine ⟨(k1, m1) :: pre, m, post, rfl, h1, fun r hr j' q => ?_⟩
          rcases List.mem_cons.1 hr with rfl | hr
          · cases hx.symm.trans q; exact hlt
          · exact h2 r hr j' q
        · cases e; exact ⟨[], m1, rules, rfl, hx, by simp⟩

theorem takeWhile_take (p : Char → Bool) (s : Str) : s.take (spanLen p s) = s.takeWhile p := by
  induction s with
  | nil => rfl
  | cons c s ih =>
    unfold spanLen at *
    cases h : p c with
    | true => simpa [h] using ih
    | false => simp [h]

theorem takeWhile_imp {p : Char → Bool} {s : Str} {c : Char} (h : c ∈ s.takeWhile p) : p c = true := by
  induction s with
  | nil => cases h
  | cons d s ih =>
    rw [List.takeWhile_cons] at h
    split at h
    · rcases List.mem_cons.1 h with rfl | h
      · assumption
      · exact ih h
    · cases h

theorem name_of_longest {s : Str} {n : Nat} (h : longest s lexRules = some (some .id, n)) : IsName (s.take n) := by
  obtain ⟨pre, m, post, e, hm, hp⟩ := longest_split h
  rw [lexRules_eq] at e
  -- the words and signs all come first
  have first : ∀ l ∈ literals, (some (Cls.word l), matchLiteral l) ∈ pre := by
    intro l hl
    rcases List.append_eq_append_iff.1 e with ⟨as, e1, e2⟩ | ⟨as, e1, e2⟩
    · rw [e1]
      exact List.mem_append_left _ (List.mem_map_of_mem (f := fun l => (some (Cls.word l), matchLiteral l)) hl)
    · cases as with
      | nil =>
        rw [List.append_nil] at e1
        rw [← e1]
        exact List.mem_map_of_mem (f := fun l => (some (Cls.word l), matchLiteral l)) hl
      | cons a as =>
        exfalso
        rw [List.cons_append] at e2
        injection e2 with e2 _
        have : a ∈ literals.map fun l => (some (Cls.word l), matchLiteral l) := by rw [e1]; simp
        obtain ⟨l', -, e3⟩ := List.mem_map.1 this
        rw [← e2] at e3
        cases e3
  have hmem : (some Cls.id, m) ∈ literals.map (fun l => (some (Cls.word l), matchLiteral l)) ++ laterRules := by rw [e]; simp
  have hm' : matchId s = some n := by
    rcases List.mem_append.1 hmem with q | q
    · obtain ⟨l', -, e3⟩ := List.mem_map.1 q
      cases e3
    · simp only [laterRules, List.mem_cons, Prod.mk.injEq, Option.some.injEq, reduceCtorEq, false_and, true_and,
        List.not_mem_nil, or_false, false_or] at q
      rw [q] at hm
      exact hm
  cases s with
  | nil => cases hm'
  | cons c s =>
    simp only [matchId] at hm'
    split at hm'
    · next hc =>
      cases hm'
      have et : (c :: s).take (1 + spanLen (fun c => isWordChar c || isDigit c) s) =
          c :: s.takeWhile (fun c => isWordChar c || isDigit c) := by
        rw [Nat.add_comm, List.take_succ_cons, takeWhile_take]
      rw [et]
      refine ⟨⟨by simp, fun d hd => ?_⟩, fun d w e => ?_, fun hl => ?_⟩
      · rcases List.mem_cons.1 hd with rfl | hd
        · simp [hc]
        · exact takeWhile_imp hd
      · cases e; exact hc
      · have := hp _ (first _ hl) (c :: s.takeWhile (fun c => isWordChar c || isDigit c)).length (by
          refine if_pos ?_
          rw [List.isPrefixOf_iff_prefix, ← et]
          exact List.take_prefix ..)
        rw [List.length_cons] at this
        unfold spanLen at this
        omega
    · cases hm'

theorem lexFrom_named : ∀ (f : Nat) (s : Str), NamedTokens (lexFrom f s) := by
  intro f
  induction f with
  | zero => intro s t ht; cases ht
  | succ f ih =>
    intro s t ht hc
    unfold lexFrom at ht
    cases hx : longest s lexRules with
    | none => rw [hx] at ht; cases ht
    | some x =>
      obtain ⟨k, n⟩ := x
      rw [hx] at ht
      cases k with
      | none => exact ih _ t ht hc
      | some k =>
        rcases List.mem_cons.1 ht with rfl | ht
        · change k = .id at hc
          subst hc
          exact name_of_longest hx
        · exact ih _ t ht hc

theorem lex_named (s : Str) : NamedTokens (lex s) := lexFrom_named _ _

/-! ## Meanings of rules -/

section
variable {J : ∀ n : Body, Lang n.Meaning}

/-- Whatever the rule derives from named tokens has the property. -/
def Signifies (J : ∀ n : Body, Lang n.Meaning) {α : Type} (r : CRule α) (P : α → Prop) : Prop :=
  ∀ a ts, r.lang J a ts → NamedTokens ts → P a

variable {α β : Type} {r : CRule α} {q : CRule β} {P : α → Prop} {Q : β → Prop}

theorem Signifies.id : Signifies J (.token .id) IsName := by
  rintro a ts rfl h
  exact h _ (List.mem_singleton.2 rfl) rfl

theorem Signifies.any : Signifies J r fun _ => True := fun _ _ _ _ => trivial

theorem Signifies.mono {P' : α → Prop} (h : Signifies J r P) (i : ∀ a, P a → P' a) : Signifies J r P' := fun a ts d n => i a (h a ts d n)

theorem Signifies.map {f : α → β} (h : Signifies J r P) (i : ∀ a, P a → Q (f a)) : Signifies J (.map f r) Q := by
  rintro b ts ⟨a, d, rfl⟩ n
  exact i a (h a ts d n)

theorem Signifies.seq (h : Signifies J r P) (h' : Signifies J q Q) : Signifies J (.seq r q) fun p => P p.1 ∧ Q p.2 := by
  rintro p ts ⟨u, v, rfl, d, d'⟩ n
  exact ⟨h _ _ d fun t ht => n t (List.mem_append_left _ ht), h' _ _ d' fun t ht => n t (List.mem_append_right _ ht)⟩

theorem Signifies.after (h' : Signifies J q Q) : Signifies J (Rule.after r q) Q :=
  (Signifies.seq (P := fun _ => True) Signifies.any h').map fun _ p => p.2

theorem Signifies.before (h : Signifies J r P) : Signifies J (Rule.before r q) P :=
  (Signifies.seq (Q := fun _ => True) h Signifies.any).map fun _ p => p.1

theorem Signifies.alt {q : CRule α} (h : Signifies J r P) (h' : Signifies J q P) : Signifies J (.alt r q) P := by
  rintro a ts (d | d) n
  · exact h a ts d n
  · exact h' a ts d n

theorem Signifies.opt (h : Signifies J r P) : Signifies J (.opt r) fun o => ∀ a, o = some a → P a := by
  rintro o ts (⟨rfl, -⟩ | ⟨a, rfl, d⟩) n a' e
  · cases e
  · cases e; exact h _ _ d n

theorem Signifies.star (h : Signifies J r P) : Signifies J (.star r) fun l => ∀ a ∈ l, P a := by
  rintro l ts ⟨ps, rfl, rfl, d⟩ n a ha
  obtain ⟨p, hp, rfl⟩ := List.mem_map.1 ha
  exact h _ _ (d p hp) fun t ht => n t (List.mem_flatten.2 ⟨p.2, List.mem_map_of_mem hp, ht⟩)

theorem Signifies.kw (s : String) : Signifies J (kw s) fun w => w = s.toList :=
  (Signifies.any (r := .token (.word s.toList))).map fun _ _ => rfl

theorem numberValue_decimal (s : Str) : IsDecimal (numberValue s) := by
  unfold numberValue
  simp only
  refine ⟨(if signLen s = 1 then -1 else 1) *
    (digitsValue ((s.drop (signLen s)).take (spanLen isDigit (s.drop (signLen s))) ++
      (s.drop (signLen s)).drop (spanLen isDigit (s.drop (signLen s)) + 1)) : Int),
    ((s.drop (signLen s)).drop (spanLen isDigit (s.drop (signLen s)) + 1)).length, ?_⟩
  split <;> push_cast <;> rfl

theorem means_ref : Signifies J gRef IsName := .after (.before .id)

theorem means_value : Signifies J gValue (FVal.Form) :=
  .alt (means_ref.map fun _ h => h) (Signifies.any.map fun s _ => numberValue_decimal s)

theorem means_vector : Signifies J gVector (VecForm) :=
  .after (.before ((means_value.seq (Signifies.star (.after means_value))).map fun p h =>
    ⟨by simp, by simpa using h⟩))

theorem means_field : Signifies J gField (FField.Form) :=
  .alt (means_vector.map fun _ h => h) (means_ref.map fun _ h => h)

theorem means_edgeName : Signifies J gEdgeName IsName := .before .id

theorem means_rotation : Signifies J gRotation fun p => VecForm p.2 :=
  (Signifies.any.seq means_vector).mono fun _ h => h.2

theorem means_pose : Signifies J gPose (Pose.Form) :=
  .after (.before ((means_vector.seq (.after (.opt means_rotation))).map fun p h =>
    ⟨h.1, fun m v e => h.2 (m, v) e⟩))

theorem means_geometry : Signifies J gGeometry (Geom.Form) :=
  have h : ∀ c s, Signifies J (.map (Geom.solid c) (kw s *>. .opt (.token .id) *>. gField)) (Geom.Form) :=
    fun c s => (Signifies.after (.after means_field)).map fun _ h => h
  .alt (h _ _) (.alt (h _ _) (.alt (h _ _) (.alt (h _ _) (means_ref.map fun _ h => h))))

theorem means_geometryBody : Signifies J gGeometryBody (Geom.Form) := .after (.before means_geometry)

theorem means_solid : Signifies J gSolid (SolidDecl.Form) :=
  .alt ((Signifies.after (.seq (.opt .id) (.seq (.opt (.after (.after (.before .id)))) means_geometryBody))).map
      fun p h => ⟨h.1, ⟨(fun n e => ⟨h.2.1 n e, rfl⟩), h.2.2⟩⟩)
    ((Signifies.after (.seq (.opt .id) means_geometryBody)).map fun p h => ⟨h.1, ⟨(fun n e => by cases e), h.2⟩⟩)

theorem means_linkBody : Signifies J gLinkBody (LinkBody.Form) :=
  (Signifies.after (.after (.after (.after (.seq (P := fun _ => True) .any
    (.seq (.before (.opt (.after means_field))) (.before (.star means_solid)))))))).map fun p h =>
      ⟨numberValue_decimal _, h.2.1, h.2.2⟩

theorem means_link : Signifies J gLink (LinkDecl.Form) :=
  (Signifies.after (.after (.seq .id (.seq (.opt (.after means_pose)) (.opt means_linkBody))))).map fun p h => h

theorem means_arrow : Signifies J gArrow fun s => s ∈ ["->".toList, "<-".toList, "--".toList] :=
  .alt ((Signifies.kw _).mono fun _ h => by simp [h]) (.alt ((Signifies.kw _).mono fun _ h => by simp [h])
    ((Signifies.kw _).mono fun _ h => by simp [h]))

theorem means_jointRel : Signifies J gJointRel (JointRel.Form) :=
  (Signifies.seq (P := fun s => s ∈ ["fix".toList, "rev".toList, "tr".toList])
    (.alt ((Signifies.kw _).mono fun _ h => by simp [h]) (.alt ((Signifies.kw _).mono fun _ h => by simp [h])
      ((Signifies.kw _).mono fun _ h => by simp [h])))
    (means_arrow.seq (means_ref.seq ((Signifies.opt means_pose).seq (Signifies.opt (.after means_vector)))))).map fun p h => h

theorem means_joint : Signifies J gJoint (JointDecl.Form) :=
  (Signifies.after (means_edgeName.seq (means_jointRel.seq means_jointRel.star))).map fun p h =>
    ⟨h.1, by simp, by simpa using h.2⟩

/-- An element of a body in its place. -/
def BodyItem.Form (p : Place) : BodyItem → Prop
  | .kinematic n b => IsName n ∧ b.Form .kinematic
  | .ambient n b => p ≠ .kinematic ∧ IsName n ∧ b.Form .ambient
  | .device n => p = .ambient ∧ IsName n
  | .link l => p = .kinematic ∧ l.Form
  | .joint j => p ≠ .ambient ∧ j.Form
  | .params ps => p = .entity ∧ ∀ q ∈ ps, IsName q.1 ∧ ∀ x, q.2 = some x → IsDecimal x
  | .skipped => True

theorem bodyOf_form {p : Place} (hp : p ≠ .entity) : ∀ {l : List BodyItem}, (∀ i ∈ l, i.Form p) →
    (bodyOf l).Form p := by
  intro l
  induction l with
  | nil => exact fun _ => trivial
  | cons i l ih =>
    intro h
    have h1 := h i (by simp)
    have h2 := ih fun i hi => h i (by simp [hi])
    cases i <;> first | exact h2 | exact ⟨h1.1, h1.2, h2⟩ | exact ⟨h1.1, h1.2.1, h1.2.2, h2⟩ | exact absurd h1.1 hp

theorem numbersOf_form : ∀ {ps : List (Str × Option Rat)} {qs}, numbersOf ps = some qs →
    (∀ q ∈ ps, IsName q.1 ∧ ∀ x, q.2 = some x → IsDecimal x) → ∀ q ∈ qs, IsName q.1 ∧ IsDecimal q.2 := by
  intro ps
  induction ps with
  | nil => intro qs e _ q hq; cases e; cases hq
  | cons p ps ih =>
    intro qs e h q hq
    obtain ⟨n, o⟩ := p
    cases o with
    | none => cases e
    | some x =>
      obtain ⟨l, hl, rfl⟩ := Option.map_eq_some_iff.1 e
      have h1 := h (n, some x) (by simp)
      rcases List.mem_cons.1 hq with rfl | hq
      · exact ⟨h1.1, h1.2 x rfl⟩
      · exact ih hl (fun q hq => h q (by simp [hq])) q hq

theorem entityOf_form : ∀ {l : List BodyItem} {b}, entityOf l = some b → (∀ i ∈ l, i.Form .entity) →
    b.Form .entity := by
  intro l
  induction l with
  | nil => intro b e _; cases e; trivial
  | cons i l ih =>
    intro b e h
    have h1 := h i (by simp)
    have h2 : ∀ i ∈ l, i.Form .entity := fun i hi => h i (by simp [hi])
    cases i with
    | params ps =>
      unfold entityOf at e
      split at e
      · cases e
      · next qs hq =>
        obtain ⟨b', hb, rfl⟩ := Option.map_eq_some_iff.1 e
        exact ⟨rfl, numbersOf_form hq h1.2, ih hb h2⟩
    | _ =>
      obtain ⟨b', hb, rfl⟩ := Option.map_eq_some_iff.1 e
      have h3 := ih hb h2
      first | exact h3 | exact ⟨h1.1, h1.2, h3⟩ | exact ⟨h1.1, h1.2.1, h1.2.2, h3⟩

/-- What the bodies of the grammar mean. -/
structure BodiesMean (J : ∀ n : Body, Lang n.Meaning) : Prop where
  kinematic : ∀ a ts, J .kinematic a ts → NamedTokens ts → Items.Form .kinematic a
  ambient : ∀ a ts, J .ambient a ts → NamedTokens ts → Items.Form .ambient a

theorem means_skipped {p : Place} {r : CRule Unit} :
    Signifies J (.map (fun _ => BodyItem.skipped) r) (BodyItem.Form p) :=
  (Signifies.any (r := r)).map fun _ _ => trivial

theorem means_jointItem {p : Place} (hp : p ≠ .ambient) : Signifies J (.map BodyItem.joint gJoint) (BodyItem.Form p) :=
  means_joint.map fun _ h => ⟨hp, h⟩

theorem means_word : Signifies J (.map (fun _ => (none : Option Rat)) (.token .id)) fun o => ∀ x, o = some x → IsDecimal x :=
  (Signifies.any (r := .token .id)).map fun _ _ _ e => by cases e

theorem means_number (c : Cls) :
    Signifies J (.map (fun s => some (numberValue s)) (.token c)) fun o => ∀ x, o = some x → IsDecimal x :=
  (Signifies.any (r := .token c)).map fun s _ x e => by cases e; exact numberValue_decimal s

theorem means_kinematic (h : BodiesMean J) (p : Place) : Signifies J gKinematic (BodyItem.Form p) :=
  (Signifies.after (.seq .id (.after (.before (r := inKinematic) h.kinematic)))).map fun _ h => h

theorem means_kinematicBody (h : BodiesMean J) : Signifies J gKinematicBody (Items.Form .kinematic) :=
  (Signifies.star (.alt (means_link.map fun _ h => ⟨rfl, h⟩) (.alt (means_jointItem (by simp))
    (.alt (means_kinematic h _) (.alt means_skipped means_skipped))))).map
      fun _ h => bodyOf_form (by simp) h

theorem means_ambient (h : BodiesMean J) {p : Place} (hp : p ≠ .kinematic) : Signifies J gAmbient (BodyItem.Form p) :=
  (Signifies.after (.seq .id (.after (.before (r := inAmbient) h.ambient)))).map fun _ h => ⟨hp, h⟩

theorem means_ambientBody (h : BodiesMean J) : Signifies J gAmbientBody (Items.Form .ambient) :=
  (Signifies.star (.alt ((Signifies.after (.before (.before (.before .id)))).map fun _ h => ⟨rfl, h⟩)
    (.alt ((Signifies.after (.before (.before (.before (.before .id))))).map fun _ h => ⟨rfl, h⟩)
    (.alt (means_ambient h (by simp)) (.alt means_skipped (.alt (means_kinematic h _)
      means_skipped)))))).map fun _ h => bodyOf_form (by simp) h

theorem means_parametric : Signifies J gParametric (BodyItem.Form .entity) :=
  (Signifies.after (.after (.before (.star (.seq .id (.after (Q := fun o => ∀ x, o = some x → IsDecimal x)
    (.alt means_word (.alt (means_number _)
      (means_number _))))))))).map fun _ h => ⟨rfl, h⟩

theorem means_entity (h : BodiesMean J) : Signifies J gEntity fun o => ∀ f, o = some f → f.Form :=
  (Signifies.after (.seq .id (.after (.before (.star (P := BodyItem.Form .entity)
    (.alt (means_jointItem (by simp))
    (.alt (means_ambient h (by simp)) (.alt (means_kinematic h _) (.alt means_parametric
    (.alt means_skipped (.alt means_skipped (.alt means_skipped
    (.alt means_skipped means_skipped))))))))))))).map fun p h f e => by
      obtain ⟨b, hb, rfl⟩ := Option.map_eq_some_iff.1 e
      exact ⟨h.1, entityOf_form hb h.2⟩

end

theorem bodies_mean : ∀ k, BodiesMean (derives cogniLang k)
  | 0 => { kinematic := fun _ _ q => q.elim, ambient := fun _ _ q => q.elim }
  | k + 1 => ⟨means_kinematicBody (bodies_mean k), means_ambientBody (bodies_mean k)⟩

end Rei
