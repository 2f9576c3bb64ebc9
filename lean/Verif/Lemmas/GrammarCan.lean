import Mathlib.Tactic.FieldSimp
import Mathlib.Tactic.Ring
import Mathlib.Algebra.Order.Ring.Rat
import Verif.Lemmas.GrammarMeans

/-!
# What can be written
-/
namespace Rei

/-! ## Numbers -/

/-- A digit. -/
def digitChar (n : Nat) : Char := Char.ofNat ('0'.toNat + n % 10)

theorem digitChar_spec (n : Nat) : isDigit (digitChar n) = true ∧ (digitChar n).toNat - '0'.toNat = n % 10 := by
  have h : n % 10 < 10 := Nat.mod_lt _ (by decide)
  unfold digitChar
  generalize n % 10 = m at h
  have : m = 0 ∨ m = 1 ∨ m = 2 ∨ m = 3 ∨ m = 4 ∨ m = 5 ∨ m = 6 ∨ m = 7 ∨ m = 8 ∨ m = 9 := by omega
  rcases this with rfl | rfl | rfl | rfl | rfl | rfl | rfl | rfl | rfl | rfl <;> exact ⟨by decide, by decide⟩

/-- The last `k` digits of a number. -/
def lastDigits : Nat → Nat → Str
  | 0, _ => []
  | k + 1, n => lastDigits k (n / 10) ++ [digitChar n]

theorem lastDigits_length : ∀ k n, (lastDigits k n).length = k
  | 0, _ => rfl
  | k + 1, n => by simp [lastDigits, lastDigits_length k]

theorem lastDigits_digits : ∀ k n, ∀ c ∈ lastDigits k n, isDigit c = true
  | 0, _ => by simp [lastDigits]
  | k + 1, n => by
    intro c hc
    rcases List.mem_append.1 hc with hc | hc
    · exact lastDigits_digits k _ c hc
    · rw [List.mem_singleton] at hc; subst hc; exact (digitChar_spec n).1

theorem digitsValue_snoc (s : Str) (c : Char) : digitsValue (s ++ [c]) = 10 * digitsValue s + (c.toNat - '0'.toNat) := by
  simp [digitsValue]

theorem lastDigits_value : ∀ k n, n < 10 ^ k → digitsValue (lastDigits k n) = n
  | 0, n, h => by
    have : n = 0 := by simpa using h
    subst this; rfl
  | k + 1, n, h => by
    rw [lastDigits, digitsValue_snoc, lastDigits_value k (n / 10) (by rw [Nat.pow_succ] at h; omega), (digitChar_spec n).2]
    omega

theorem number_written {q : Rat} (h : IsDecimal q) : ∃ s, (⟨.float, s⟩ : Token).Written ∧ numberValue s = q := by
  obtain ⟨z, k, rfl⟩ := h
  -- one more decimal, so that there is one
  obtain ⟨y, j, hy⟩ : ∃ (y : Int) (j : Nat), (z : Rat) / (10 ^ k : Nat) = (y : Rat) / (10 ^ (j + 1) : Nat) :=
    ⟨10 * z, k, by push_cast; field_simp; ring⟩
  rw [hy]
  clear hy
  let n := y.natAbs
  let ds := lastDigits (n + 1 + (j + 1)) n
  have hlen : ds.length = n + 1 + (j + 1) := lastDigits_length ..
  let a := ds.take (n + 1)
  let b := ds.drop (n + 1)
  have ha : a.length = n + 1 := by simp [a, hlen]
  have hb : b.length = j + 1 := by simp [b, hlen]
  have hab : a ++ b = ds := List.take_append_drop ..
  have dg : ∀ c ∈ ds, isDigit c = true := lastDigits_digits _ _
  have oa : Only isDigit a := ⟨by intro e; rw [e] at ha; simp at ha, fun c hc => dg c (by rw [← hab]; simp [hc])⟩
  have ob : Only isDigit b := ⟨by intro e; rw [e] at hb; simp at hb, fun c hc => dg c (by rw [← hab]; simp [hc])⟩
  have val : digitsValue (a ++ b) = n := by
    rw [hab]
    refine lastDigits_value _ _ ?_
    calc n < 10 ^ n := Nat.lt_pow_self (by decide)
      _ ≤ 10 ^ (n + 1 + (j + 1)) := Nat.pow_le_pow_right (by decide) (by omega)
  have body : ∀ s : Str, signLen s ≤ 1 → s.drop (signLen s) = a ++ '.' :: b →
      numberValue s = (if signLen s = 1 then -1 else 1) * (n : Rat) / (10 ^ (j + 1) : Nat) := by
    intro s _ e
    unfold numberValue
    simp only [e]
    rw [spanLen_append oa.2 (by intro c t e; cases e; decide), List.take_left]
    have : (a ++ '.' :: b).drop (a.length + 1) = b := by
      have : a ++ '.' :: b = (a ++ ['.']) ++ b := by simp
      rw [this]
      have : a.length + 1 = (a ++ ['.']).length := by simp
      rw [this, List.drop_left]
    rw [this, val, hb]
  obtain ⟨x, a', ea⟩ : ∃ x a', a = x :: a' := by
    cases h : a with
    | nil => rw [h] at ha; simp at ha
    | cons x a' => exact ⟨x, a', rfl⟩
  have hx : x ≠ '-' := by
    rintro rfl
    have := oa.2 '-' (by rw [ea]; simp)
    revert this; decide
  rcases Int.natAbs_eq y with e | e
  · refine ⟨a ++ '.' :: b, ⟨[], a, b, rfl, .inl rfl, oa, ob⟩, ?_⟩
    have sl : signLen (a ++ '.' :: b) = 0 := by rw [ea]; exact signLen_head hx
    rw [body _ (by omega) (by rw [sl]; rfl), sl]
    have : (y : Rat) = (n : Rat) := by rw [e]; rfl
    rw [this]
    simp
  · refine ⟨'-' :: (a ++ '.' :: b), ⟨['-'], a, b, rfl, .inr rfl, oa, ob⟩, ?_⟩
    have sl : signLen ('-' :: (a ++ '.' :: b)) = 1 := rfl
    rw [body _ (by omega) (by rw [sl]; rfl), sl]
    have : (y : Rat) = -(n : Rat) := by
      have e : y = -(n : Int) := e
      rw [e, Int.cast_neg]; rfl
    rw [this]
    simp

/-! ## Rules -/

/-- The rule derives tokens that can be written, with that meaning. -/
def Can {α : Type} (r : CRule α) (a : α) : Prop :=
  ∃ k ts, r.lang (derives cogniLang k) a ts ∧ ∀ t ∈ ts, t.Written

variable {α β : Type} {r : CRule α} {q : CRule β}

theorem Can.token {c : Cls} {s : Str} (h : (⟨c, s⟩ : Token).Written) : Can (.token c) s :=
  ⟨0, [⟨c, s⟩], rfl, fun t ht => by rw [List.mem_singleton] at ht; subst ht; exact h⟩

theorem Can.id {s : Str} (h : IsName s) : Can (.token .id) s := .token h

theorem Can.map (f : α → β) {a : α} (h : Can r a) : Can (.map f r) (f a) := by
  obtain ⟨k, ts, d, w⟩ := h
  exact ⟨k, ts, ⟨a, d, rfl⟩, w⟩

theorem Can.map' {f : α → β} {a : α} {b : β} (h : Can r a) (e : f a = b) : Can (.map f r) b := e ▸ h.map f

theorem Can.seq {a : α} {b : β} (h : Can r a) (h' : Can q b) : Can (.seq r q) (a, b) := by
  obtain ⟨k, ts, d, w⟩ := h
  obtain ⟨l, us, d', w'⟩ := h'
  refine ⟨max k l, ts ++ us, ⟨ts, us, rfl, lang_mono (derives_mono _ (Nat.le_max_left ..)) _ d,
    lang_mono (derives_mono _ (Nat.le_max_right ..)) _ d'⟩, fun t ht => ?_⟩
  rcases List.mem_append.1 ht with ht | ht
  · exact w t ht
  · exact w' t ht

theorem Can.after {a : α} {b : β} (h : Can r a) (h' : Can q b) : Can (Rule.after r q) b := (h.seq h').map Prod.snd

theorem Can.before {a : α} {b : β} (h : Can r a) (h' : Can q b) : Can (Rule.before r q) a := (h.seq h').map Prod.fst

theorem Can.inl {q : CRule α} {a : α} (h : Can r a) : Can (.alt r q) a := by
  obtain ⟨k, ts, d, w⟩ := h
  exact ⟨k, ts, .inl d, w⟩

theorem Can.inr {q : CRule α} {a : α} (h : Can q a) : Can (.alt r q) a := by
  obtain ⟨k, ts, d, w⟩ := h
  exact ⟨k, ts, .inr d, w⟩

theorem Can.none : Can (.opt r) .none := ⟨0, [], .inl ⟨rfl, rfl⟩, by simp⟩

theorem Can.some {a : α} (h : Can r a) : Can (.opt r) (.some a) := by
  obtain ⟨k, ts, d, w⟩ := h
  exact ⟨k, ts, .inr ⟨a, rfl, d⟩, w⟩

theorem Can.opt {o : Option α} (h : ∀ a, o = .some a → Can r a) : Can (.opt r) o := by
  cases o with
  | none => exact .none
  | some a => exact .some (h a rfl)

theorem Can.star : ∀ {l : List α}, (∀ a ∈ l, Can r a) → Can (.star r) l
  | [], _ => ⟨0, [], ⟨[], rfl, rfl, by simp⟩, by simp⟩
  | a :: l, h => by
    obtain ⟨k, ts, d, w⟩ := h a (by simp)
    obtain ⟨j, us, ⟨ps, e1, e2, d'⟩, w'⟩   := Can.star (l := l) fun a ha => h a (by simp [ha])
    refine ⟨max k j, ts ++ us, ⟨(a, ts) :: ps, by rw [List.map_cons, e1], by rw [List.map_cons, List.flatten_cons, e2],
      fun p hp => ?_⟩, fun t ht => ?_⟩
    · rcases List.mem_cons.1 hp with rfl | hp
      · exact lang_mono (derives_mono _ (Nat.le_max_left ..)) _ d
      · exact lang_mono (derives_mono _ (Nat.le_max_right ..)) _ (d' p hp)
    · rcases List.mem_append.1 ht with ht | ht
      · exact w t ht
      · exact w' t ht

theorem Can.kw {s : String} (h : literals.contains s.toList = true) : Can (kw s) s.toList :=
  .map' (.token (s := s.toList) ⟨rfl, by simpa using h⟩) rfl

theorem Can.inKinematic {b : Items} (h : Can gKinematicBody b) : Can inKinematic b := by
  obtain ⟨k, ts, d, w⟩ := h
  exact ⟨k + 1, ts, d, w⟩

theorem Can.inAmbient {b : Items} (h : Can gAmbientBody b) : Can inAmbient b := by
  obtain ⟨k, ts, d, w⟩ := h
  exact ⟨k + 1, ts, d, w⟩

/-- A quoted word or sign can be written. -/
local macro "a_word" : term => `(Can.kw (by decide +kernel))

theorem can_ref {s : Str} (h : IsName s) : Can gRef s := .after a_word (.before (.id h) a_word)

theorem can_value {v : FVal} (h : v.Form) : Can gValue v := by
  cases v with
  | num q =>
    obtain ⟨s, w, rfl⟩ := number_written h
    exact .inr (.map _ (.token w))
  | param n => exact .inl (.map _ (can_ref h))

theorem can_vector {v : List FVal} (h : VecForm v) : Can gVector v := by
  obtain ⟨hn, h⟩ := h
  cases v with
  | nil => exact absurd rfl hn
  | cons x v =>
    exact .after a_word (.before (.map' (.seq (can_value (h x (by simp)))
      (.star fun y hy => .after .none (can_value (h y (by simp [hy]))))) rfl) a_word)

theorem can_field {f : FField} (h : f.Form) : Can gField f := by
  cases f with
  | vec v => exact .inl (.map _ (can_vector h))
  | ref n => exact .inr (.map _ (can_ref h))

theorem can_pose {p : Pose} (h : p.Form) : Can gPose p := by
  obtain ⟨t, rot⟩ := p
  refine .after a_word (.before (.map' (.seq (can_vector h.1) (.after .none (.opt (o := rot) fun a e => ?_))) rfl) a_word)
  obtain ⟨m, v⟩ := a
  refine .seq (.opt fun m' e' => ?_) (can_vector (h.2 m v e))
  cases m' with
  | d => exact .inl (.map' (Can.kw (by decide +kernel)) rfl)
  | r => exact .inr (.map' (Can.kw (by decide +kernel)) rfl)

theorem can_geometryBody {g : Geom} (h : g.Form) : Can gGeometryBody g := by
  refine .after a_word (.before ?_ a_word)
  cases g with
  | ref n => exact .inr (.inr (.inr (.inr (.map _ (can_ref h)))))
  | solid c f =>
    cases c with
    | cylinder => exact .inl (.map _ (.after a_word (.after .none (can_field h))))
    | polyhedron => exact .inr (.inl (.map _ (.after a_word (.after .none (can_field h)))))
    | mesh => exact .inr (.inr (.inl (.map _ (.after a_word (.after .none (can_field h))))))
    | ellipsoid => exact .inr (.inr (.inr (.inl (.map _ (.after a_word (.after .none (can_field h)))))))

theorem can_solid {s : SolidDecl} (h : s.Form) : Can gSolid s := by
  obtain ⟨vis, id, mat, g⟩ := s
  obtain ⟨h1, h2, h3⟩ := h
  cases vis with
  | true =>
    exact .inl (.map' (.after a_word (.seq (.opt (o := id) fun n e => .id (h1 n e)) (.seq (.opt (o := mat) fun n e =>
      .after a_word (.after a_word (.before (.id (h2 n e).1) a_word))) (can_geometryBody h3)))) rfl)
  | false =>
    have : mat = none := by
      cases mat with
      | none => rfl
      | some n => exact absurd (h2 n rfl).2 (by simp)
    subst this
    exact .inr (.map' (.after a_word (.seq (.opt (o := id) fun n e => .id (h1 n e)) (can_geometryBody h3))) rfl)

theorem can_linkBody {b : LinkBody} (h : b.Form) : Can gLinkBody b := by
  obtain ⟨m, i, ss⟩ := b
  obtain ⟨h1, h2, h3⟩ := h
  obtain ⟨s, w, rfl⟩ := number_written h1
  exact .map' (.after a_word (.after a_word (.after a_word (.after a_word (.seq (.token w)
    (.seq (.before (.opt (o := i) fun f e => .after a_word (can_field (h2 f e))) a_word)
      (.before (.star (l := ss) fun x hx => can_solid (h3 x hx)) a_word))))))) rfl

theorem can_link {l : LinkDecl} (h : l.Form) : Can gLink l := by
  obtain ⟨n, p, b⟩ := l
  obtain ⟨h1, h2, h3⟩ := h
  exact .map' (.after .none (.after a_word (.seq (.id h1) (.seq (.opt (o := p) fun x e => .after a_word (can_pose (h2 x e)))
    (.opt (o := b) fun x e => can_linkBody (h3 x e)))))) rfl

theorem can_arrow {s : Str} (h : s ∈ ["->".toList, "<-".toList, "--".toList]) : Can gArrow s := by
  simp only [List.mem_cons, List.not_mem_nil, or_false] at h
  rcases h with rfl | rfl | rfl
  · exact .inl a_word
  · exact .inr (.inl a_word)
  · exact .inr (.inr a_word)

theorem can_jointRel {r : JointRel} (h : r.Form) : Can gJointRel r := by
  obtain ⟨t, d, n, p, a⟩ := r
  obtain ⟨h1, h2, h3, h4, h5⟩ := h
  have : Can (kw "fix" ⊹ kw "rev" ⊹ kw "tr") t := by
    simp only [List.mem_cons, List.not_mem_nil, or_false] at h1
    rcases h1 with rfl | rfl | rfl
    · exact .inl a_word
    · exact .inr (.inl a_word)
    · exact .inr (.inr a_word)
  exact .map' (.seq this (.seq (can_arrow h2) (.seq (can_ref h3) (.seq (.opt (o := p) fun x e => can_pose (h4 x e))
    (.opt (o := a) fun x e => .after a_word (can_vector (h5 x e))))))) rfl

theorem can_joint {j : JointDecl} (h : j.Form) : Can gJoint j := by
  obtain ⟨n, rs⟩ := j
  obtain ⟨h1, h2, h3⟩ := h
  cases rs with
  | nil => exact absurd rfl h2
  | cons x rs =>
    exact .map' (.after a_word (.seq (.before (.id h1) a_word) (.seq (can_jointRel (h3 x (by simp)))
      (.star fun y hy => can_jointRel (h3 y (by simp [hy])))))) rfl

/-- A name for what is not looked at. -/
theorem plain_a : IsName ['a'] := by
  refine ⟨⟨by simp, fun c hc => ?_⟩, fun c w e => ?_, by decide +kernel⟩
  · rw [List.mem_singleton] at hc; subst hc; decide
  · cases e; decide

theorem can_mirror : Can gMirror () :=
  .map' (.after a_word (.after (.before (.id plain_a) a_word) (.after (can_ref plain_a) (.after a_word (can_ref plain_a))))) rfl

theorem can_port : Can gPort () :=
  have str : (⟨.string, ['"', '"']⟩ : Token).Written := ⟨[], rfl, by simp⟩
  .map' (.after a_word (.after (.id plain_a) (.after a_word (.after (.token str) (.after a_word (.after (.token str) (.after a_word
    (.after a_word (.after (.star (l := []) (by simp)) a_word))))))))) rfl

theorem can_node : Can gNode () := .map' (.after a_word (.after (.id plain_a) .none)) rfl

theorem can_items : ∀ its : Items,
    (its.Form .kinematic → ∃ l, bodyOf l = its ∧ ∀ i ∈ l, Can gKinematicElem i) ∧
    (its.Form .ambient → ∃ l, bodyOf l = its ∧ ∀ i ∈ l, Can gAmbientElem i) ∧
    (its.Form .entity → ∃ l, entityOf l = some its ∧ ∀ i ∈ l, Can gEntityElem i) := by
  have kin : ∀ {n b}, IsName n → (∃ l, bodyOf l = b ∧ ∀ i ∈ l, Can gKinematicElem i) → Can gKinematic (.kinematic n b) := by
    rintro n _ hn ⟨l, rfl, h⟩
    exact .map' (.after a_word (.seq (.id hn) (.after a_word (.before (.inKinematic (.map _ (.star h))) a_word)))) rfl
  have amb : ∀ {n b}, IsName n → (∃ l, bodyOf l = b ∧ ∀ i ∈ l, Can gAmbientElem i) → Can gAmbient (.ambient n b) := by
    rintro n _ hn ⟨l, rfl, h⟩
    exact .map' (.after a_word (.seq (.id hn) (.after a_word (.before (.inAmbient (.map _ (.star h))) a_word)))) rfl
  have body : ∀ {r : CRule BodyItem} {i : BodyItem} {its its' : Items}, Can r i → (∃ l, bodyOf l = its ∧ ∀ i ∈ l, Can r i) →
      (∀ l, bodyOf l = its → bodyOf (i :: l) = its') → ∃ l, bodyOf l = its' ∧ ∀ i ∈ l, Can r i := by
    rintro r i its its' hi ⟨l, e, h⟩ he
    exact ⟨i :: l, he l e, by simpa using ⟨hi, h⟩⟩
  have ent : ∀ {r : CRule BodyItem} {i : BodyItem} {its its' : Items}, Can r i → (∃ l, entityOf l = some its ∧ ∀ i ∈ l, Can r i) →
      (∀ l, entityOf l = some its → entityOf (i :: l) = some its') → ∃ l, entityOf l = some its' ∧ ∀ i ∈ l, Can r i := by
    rintro r i its its' hi ⟨l, e, h⟩ he
    exact ⟨i :: l, he l e, by simpa using ⟨hi, h⟩⟩
  intro its
  induction its with
  | nil => exact ⟨fun _ => ⟨[], rfl, by simp⟩, fun _ => ⟨[], rfl, by simp⟩, fun _ => ⟨[], rfl, by simp⟩⟩
  | kinematic n b rest ihb ih =>
    refine ⟨fun h => ?_, fun h => ?_, fun h => ?_⟩
    · exact body (.inr (.inr (.inl (kin h.1 (ihb.1 h.2.1))))) (ih.1 h.2.2) fun l e => by rw [← e]; rfl
    · exact body (.inr (.inr (.inr (.inr (.inl (kin h.1 (ihb.1 h.2.1))))))) (ih.2.1 h.2.2) fun l e => by rw [← e]; rfl
    · exact ent (.inr (.inr (.inl (kin h.1 (ihb.1 h.2.1))))) (ih.2.2 h.2.2) fun l e => by simp [entityOf, e]
  | ambient n b rest ihb ih =>
    refine ⟨fun h => absurd rfl h.1, fun h => ?_, fun h => ?_⟩
    · exact body (.inr (.inr (.inl (amb h.2.1 (ihb.2.1 h.2.2.1))))) (ih.2.1 h.2.2.2) fun l e => by rw [← e]; rfl
    · exact ent (.inr (.inl (amb h.2.1 (ihb.2.1 h.2.2.1)))) (ih.2.2 h.2.2.2) fun l e => by simp [entityOf, e]
  | device n rest ih =>
    refine ⟨fun h => absurd h.1 (by decide), fun h => ?_, fun h => absurd h.1 (by decide)⟩
    exact body (.inl (.map _ (.after a_word (.before (.before (.before (.id h.2.1) a_word) (.star (l := []) (by simp))) a_word))))
      (ih.2.1 h.2.2) fun l e => by rw [← e]; rfl
  | link x rest ih =>
    refine ⟨fun h => ?_, fun h => absurd h.1 (by decide), fun h => absurd h.1 (by decide)⟩
    exact body (.inl (.map _ (can_link h.2.1))) (ih.1 h.2.2) fun l e => by rw [← e]; rfl
  | joint j rest ih =>
    refine ⟨fun h => ?_, fun h => absurd rfl h.1, fun h => ?_⟩
    · exact body (.inr (.inl (.map _ (can_joint h.2.1)))) (ih.1 h.2.2) fun l e => by rw [← e]; rfl
    · exact ent (.inl (.map _ (can_joint h.2.1))) (ih.2.2 h.2.2) fun l e => by simp [entityOf, e]
  | params qs rest ih =>
    refine ⟨fun h => absurd h.1 (by decide), fun h => absurd h.1 (by decide), fun h => ?_⟩
    have num : ∀ qs : List (Str × Rat), numbersOf (qs.map fun q => (q.1, some q.2)) = some qs := by
      intro qs
      induction qs with
      | nil => rfl
      | cons q qs ih => simp [numbersOf, ih]
    refine ent (i := .params (qs.map fun q => (q.1, some q.2))) (.inr (.inr (.inr (.inl ?_)))) (ih.2.2 h.2.2)
      fun l e => by simp [entityOf, num, e]
    refine .map _ (.after a_word (.after a_word (.before (.star fun p hp => ?_) a_word)))
    obtain ⟨q, hq, rfl⟩ := List.mem_map.1 hp
    obtain ⟨hn, hd⟩ := h.2.1 q hq
    obtain ⟨s, w, e⟩ := number_written hd
    exact .seq (.id hn) (.after a_word (.inr (.inl (.map' (.token w) (by rw [e])))))
  | skipped rest ih =>
    refine ⟨fun h => ?_, fun h => ?_, fun h => ?_⟩
    · exact body (i := .skipped) (.inr (.inr (.inr (.inr (.map' can_mirror rfl))))) (ih.1 h) fun l e => by rw [← e]; rfl
    · exact body (i := .skipped) (.inr (.inr (.inr (.inr (.inr (.map' can_port rfl)))))) (ih.2.1 h)
        fun l e => by rw [← e]; rfl
    · exact ent (i := .skipped) (.inr (.inr (.inr (.inr (.inr (.inr (.inr (.inl (.map' can_node rfl)))))))))
        (ih.2.2 h) fun l e => by simp [entityOf, e]

theorem can_entity {f : EntityDecl} (h : f.Form) : Can gEntity (some f) := by
  obtain ⟨n, b⟩ := f
  obtain ⟨l, e, hl⟩ := (can_items b).2.2 h.2
  exact .map' (.after a_word (.seq (.id h.1) (.after a_word (.before (.star hl) a_word)))) (by simp [e])

theorem Only.no_newline {p : Char → Bool} (hp : p '\n' = false) {s : Str} (h : ∀ c ∈ s, p c = true) : '\n' ∉ s := by
  intro q
  have := h _ q
  rw [hp] at this
  cases this

theorem written_no_newline {t : Token} (h : t.Written) : '\n' ∉ t.text := by
  obtain ⟨c, s⟩ := t
  cases c with
  | word l =>
    obtain ⟨rfl, hl⟩ : s = l ∧ l ∈ literals := h
    have : ∀ l ∈ literals, '\n' ∉ l := by decide +kernel
    exact this s hl
  | decimals => exact Only.no_newline (by decide) (show Only isDigit s from h).2
  | id =>
    have h : IsName s := h
    exact Only.no_newline (p := fun c => isWordChar c || isDigit c) (by decide) h.1.2
  | int =>
    obtain ⟨w, rfl, hw⟩ : ∃ w : Str, s = '-' :: w ∧ Only isDigit w := h
    have := Only.no_newline (by decide) hw.2
    simpa using this
  | float =>
    obtain ⟨sign, a, b, rfl, hs, ha, hb⟩ : ∃ sign a b : Str, s = sign ++ a ++ '.' :: b ∧ (sign = [] ∨ sign = ['-']) ∧
      Only isDigit a ∧ Only isDigit b := h
    have h1 := Only.no_newline (by decide) ha.2
    have h2 := Only.no_newline (by decide) hb.2
    rcases hs with rfl | rfl <;> simp [h1, h2]
  | string =>
    obtain ⟨w, rfl, hw⟩ : ∃ w : Str, s = '"' :: w ++ ['"'] ∧ ∀ c ∈ w, isStringChar c = true := h
    have := Only.no_newline (by decide) hw
    simp [this]

/-- Tokens that can be written can be laid out, on one line. -/
theorem laidOut_exists : ∀ {ts : List Token}, (∀ t ∈ ts, t.Written) → ∃ s, LaidOut ts (' ' :: s) ∧ '\n' ∉ ' ' :: s
  | [], _ => ⟨[], .skip (g := [' ']) (.blank ' ' (by simp)) .done, by simp⟩
  | t :: ts, h => by
    obtain ⟨s, hs, hn⟩ := laidOut_exists (ts := ts) fun t ht => h t (by simp [ht])
    have ht := h t (by simp)
    refine ⟨t.text ++ ' ' :: s, .skip (g := [' ']) (.blank ' ' (by simp)) (.token ht (.inr ⟨?_, fun _ => hn⟩) hs), ?_⟩
    · intro c r e
      cases e
      decide
    · have := written_no_newline ht
      simp only [List.mem_cons, List.mem_append, not_or] at hn ⊢
      exact ⟨by decide, this, hn⟩

end Rei
