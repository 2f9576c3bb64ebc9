import Verif.Spec.Grammar

/-!
# Lexing: the longest match
-/
namespace Rei

theorem longest_eq {s : Str} {k : Option Cls} {m : Str → Option Nat} {n : Nat} (hm : m s = some n) :
    ∀ (pre : List (Option Cls × (Str → Option Nat))) {post}, (∀ r ∈ pre, ∀ j, r.2 s = some j → j < n) →
      (∀ r ∈ post, ∀ j, r.2 s = some j → j ≤ n) → longest s (pre ++ (k, m) :: post) = some (k, n) := by
  have aux : ∀ (post : List (Option Cls × (Str → Option Nat))), (∀ r ∈ post, ∀ j, r.2 s = some j → j ≤ n) →
      ∀ k' n', longest s post = some (k', n') → n' ≤ n := by
    intro post
    induction post with
    | nil => intro _ _ _ e; cases e
    | cons r post ih =>
      intro h k' n' e
      obtain ⟨k1, m1⟩ := r
      have h1 := h _ (List.mem_cons_self ..)
      have h2 := ih fun r hr => h r (List.mem_cons_of_mem _ hr)
      unfold longest at e
      cases hx : m1 s with
      | none => rw [hx] at e; exact h2 _ _ e
      | some j =>
        rw [hx] at e
        have hj := h1 _ hx
        cases hy : longest s post with
        | none => rw [hy] at e; cases e; exact hj
        | some y =>
          obtain ⟨k2, n2⟩ := y
          rw [hy] at e
          simp only at e
          split at e
          · cases e; exact h2 _ _ hy
          · cases e; exact hj
  intro pre
  induction pre with
  | nil =>
    intro post _ h
    rw [List.nil_append]
    unfold longest
    rw [hm]
    cases hy : longest s post with
    | none => rfl
    | some y =>
      obtain ⟨k2, n2⟩ := y
      have := aux post h _ _ hy
      simp only
      rw [if_neg (by omega)]
  | cons r pre ih =>
    intro post hp h
    obtain ⟨k1, m1⟩ := r
    have h1 := hp _ (List.mem_cons_self ..)
    have h2 := ih (fun r hr => hp r (List.mem_cons_of_mem _ hr)) h
    rw [List.cons_append]
    unfold longest
    rw [h2]
    cases hx : m1 s with
    | none => rfl
    | some j =>
      have := h1 _ hx
      simp only
      rw [if_pos this]

/-- The rules after the quoted words and signs. -/
def laterRules : List (Option Cls × (Str → Option Nat)) :=
  [(some .decimals, matchDecimals), (some .id, matchId), (some .int, matchInt), (some .float, matchFloat),
    (some .string, matchString), (none, matchComment), (none, matchLongComment), (none, matchBlank)]

theorem lexRules_eq : lexRules = literals.map (fun l => (some (.word l), matchLiteral l)) ++ laterRules := rfl

/-! ## Characters -/

theorem digit_not_word {c : Char} (h : isDigit c = true) : isWordChar c = false := by
  unfold isDigit at h
  unfold isWordChar
  simp only [Bool.and_eq_true, decide_eq_true_eq, UInt32.le_iff_toNat_le] at h
  have e1 : c ≠ '_' := by rintro rfl; revert h; decide
  have e2 : c ≠ '/' := by rintro rfl; revert h; decide
  simp only [Bool.or_eq_false_iff, Bool.and_eq_false_iff, decide_eq_false_iff_not, UInt32.le_iff_toNat_le, beq_eq_false_iff_ne]
  have : ('0' : Char).val.toNat = 48 := rfl
  have : ('9' : Char).val.toNat = 57 := rfl
  have : ('a' : Char).val.toNat = 97 := rfl
  have : ('A' : Char).val.toNat = 65 := rfl
  exact ⟨⟨⟨.inl (by omega), .inl (by omega)⟩, e1⟩, e2⟩

theorem word_not_digit {c : Char} (h : isWordChar c = true) : isDigit c = false := by
  cases q : isDigit c with
  | false => rfl
  | true => rw [digit_not_word q] at h; cases h

/-! ## Lengths -/

theorem spanLen_append {p : Char → Bool} {w r : Str} (h : ∀ c ∈ w, p c = true) (hr : ∀ c t, r = c :: t → p c = false) :
    spanLen p (w ++ r) = w.length := by
  unfold spanLen
  induction w with
  | nil =>
    cases r with
    | nil => rfl
    | cons c t => simp [hr c t rfl]
  | cons c w ih =>
    rw [List.cons_append, List.takeWhile_cons, if_pos (h c (List.mem_cons_self ..)), List.length_cons,
      ih fun c hc => h c (List.mem_cons_of_mem _ hc), List.length_cons]

theorem spanLen_head {p : Char → Bool} {c : Char} {s : Str} (h : p c = false) : spanLen p (c :: s) = 0 := by
  simp [spanLen, h]

theorem positive_pos {n j : Nat} (h : positive n = some j) : 1 ≤ j ∧ j = n := by
  unfold positive at h
  split at h
  · cases h
  · cases h; omega

theorem matchDecimals_head {c : Char} {s : Str} (h : isDigit c = false) : matchDecimals (c :: s) = none := by
  simp [matchDecimals, spanLen_head h, positive]

theorem matchBlank_head {c : Char} {s : Str} (h : isSpaceChar c = false) : matchBlank (c :: s) = none := by
  simp [matchBlank, spanLen_head h, positive]

theorem matchId_head {c : Char} {s : Str} (h : isWordChar c = false) : matchId (c :: s) = none := by
  simp [matchId, h]

theorem signLen_head {c : Char} {s : Str} (h : c ≠ '-') : signLen (c :: s) = 0 := by
  unfold signLen
  split
  · next e => cases e; exact absurd rfl h
  · rfl

theorem matchInt_head {c : Char} {s : Str} (h : c ≠ '-') (hd : isDigit c = false) : matchInt (c :: s) = none := by
  simp [matchInt, signLen_head h, matchDecimals_head hd]

theorem matchFloat_none {s : Str} (h : matchInt s = none) : matchFloat s = none := by
  simp [matchFloat, h]

theorem matchString_head {c : Char} {s : Str} (h : c ≠ '"') : matchString (c :: s) = none := by
  unfold matchString
  split
  · next e => cases e; exact absurd rfl h
  · rfl

theorem matchComment_head {c : Char} {s : Str} (h : c ≠ '/') : matchComment (c :: s) = none := by
  unfold matchComment
  split
  · next e => cases e; exact absurd rfl h
  · rfl

theorem matchLongComment_head {c : Char} {s : Str} (h : c ≠ '/') : matchLongComment (c :: s) = none := by
  unfold matchLongComment
  split
  · next e => cases e; exact absurd rfl h
  · rfl

theorem matchDecimals_append {w r : Str} (h : Only isDigit w) (hr : ∀ c t, r = c :: t → isDigit c = false) :
    matchDecimals (w ++ r) = some w.length := by
  unfold matchDecimals
  rw [spanLen_append h.2 hr]
  unfold positive
  rw [if_neg]
  exact fun e => h.1 (List.length_eq_zero_iff.1 e)

theorem matchLiteral_some {l s : Str} {j : Nat} (h : matchLiteral l s = some j) : l <+: s ∧ j = l.length := by
  unfold matchLiteral at h
  split at h
  · next q => cases h; exact ⟨List.isPrefixOf_iff_prefix.1 q, rfl⟩
  · cases h

/-! ## The literals -/

/-- The signs among the literals. -/
def signs : List Str := ["{", "}", ",", "->", "<-", "--", ":", "(", ")", "=", "[", "]", "@", "|"].map String.toList

theorem literals_nodup : literals.Nodup := by decide +kernel

theorem literals_kinds : ∀ l ∈ literals, (l ≠ [] ∧ l.all (fun c => isWordChar c && c != '/') = true) ∨ l ∈ signs := by
  decide +kernel

theorem signs_literals : ∀ l ∈ signs, l ∈ literals := by decide +kernel

theorem signs_longest : ∀ l ∈ signs, ∀ l' ∈ literals, l <+: l' → l' = l := by decide +kernel

/-- The first characters of a literal. -/
def headOk : Str → Bool
  | [] => false
  | c :: w => c != '/' && !isDigit c && c != '"' && !isSpaceChar c && (isWordChar c || signs.contains (c :: w)) &&
    (c != '-' || match w with
      | [] => false
      | d :: _ => !isDigit d)

theorem literals_headOk : ∀ l ∈ literals, headOk l = true := by decide +kernel

/-- The first character of a literal. -/
theorem literals_head : ∀ l ∈ literals, ∃ c w, l = c :: w ∧ (c ≠ '/') ∧ isDigit c = false ∧ c ≠ '"' ∧ isSpaceChar c = false ∧
    (isWordChar c = false → l ∈ signs) ∧ (c = '-' → ∃ d u, w = d :: u ∧ isDigit d = false) := by
  intro l hl
  have := literals_headOk l hl
  cases l with
  | nil => cases this
  | cons c w =>
    simp only [headOk, Bool.and_eq_true, bne_iff_ne, Bool.not_eq_true', Bool.or_eq_true, List.contains_eq_mem,
      decide_eq_true_eq] at this
    obtain ⟨⟨⟨⟨⟨h1, h2⟩, h3⟩, h4⟩, h5⟩, h6⟩ := this
    refine ⟨c, w, rfl, h1, h2, h3, h4, fun e => ?_, fun e => ?_⟩
    · rcases h5 with h5 | h5
      · rw [e] at h5; cases h5
      · exact h5
    · rcases h6 with h6 | h6
      · exact absurd e h6
      · cases w with
        | nil => cases h6
        | cons d u => exact ⟨d, u, rfl, by simpa using h6⟩

/-- A literal that does not begin like the text does not match. -/
theorem no_literal {c : Char} {s : Str} (h : c = '/' ∨ isDigit c = true ∨ c = '"' ∨ isSpaceChar c = true ∨
    (c = '-' ∧ ∃ d u, s = d :: u ∧ isDigit d = true)) :
    ∀ l ∈ literals, ∀ j, matchLiteral l (c :: s) ≠ some j := by
  intro l hl j e
  obtain ⟨p, -⟩ := matchLiteral_some e
  obtain ⟨d, w, rfl, h1, h2, h3, h4, -, h6⟩ := literals_head l hl
  obtain ⟨r, p⟩ := p
  cases p
  rcases h with h | h | h | h | ⟨h, d, u, e1, e2⟩
  · exact h1 h
  · rw [h] at h2; cases h2
  · exact h3 h
  · rw [h] at h4; cases h4
  · obtain ⟨d', u', rfl, hd⟩ := h6 h
    cases e1
    rw [e2] at hd; cases hd

theorem pos_of_literal {l s : Str} {j : Nat} (hl : l ∈ literals) (h : matchLiteral l s = some j) : 1 ≤ j := by
  obtain ⟨-, rfl⟩ := matchLiteral_some h
  obtain ⟨c, w, rfl, -⟩ := literals_head l hl
  simp

/-- Every match is at least one character long. -/
theorem rule_pos {s : Str} : ∀ r ∈ lexRules, ∀ j, r.2 s = some j → 1 ≤ j := by
  intro r hr j e
  rw [lexRules_eq, List.mem_append] at hr
  rcases hr with hr | hr
  · obtain ⟨l, hl, rfl⟩ := List.mem_map.1 hr
    exact pos_of_literal hl e
  · simp only [laterRules, List.mem_cons, List.not_mem_nil, or_false] at hr
    rcases hr with rfl | rfl | rfl | rfl | rfl | rfl | rfl | rfl
    · exact (positive_pos e).1
    · cases s with
      | nil => cases e
      | cons c s =>
        simp only [matchId] at e
        split at e
        · cases e; omega
        · cases e
    · obtain ⟨n, hn, rfl⟩ := Option.map_eq_some_iff.1 e
      have := (positive_pos hn).1
      omega
    · change matchFloat s = some j at e
      unfold matchFloat at e
      cases hx : matchInt s with
      | none => rw [hx] at e; cases e
      | some n =>
        rw [hx] at e
        simp only at e
        split at e
        · obtain ⟨n', hn, rfl⟩ := Option.map_eq_some_iff.1 e
          omega
        · cases e
    · change matchString s = some j at e
      unfold matchString at e
      split at e
      · split at e
        · cases e; omega
        · cases e
      · cases e
    · change matchComment s = some j at e
      unfold matchComment at e
      split at e
      · obtain ⟨n', hn, rfl⟩ := Option.map_eq_some_iff.1 e
        omega
      · cases e
    · change matchLongComment s = some j at e
      unfold matchLongComment at e
      split at e
      · obtain ⟨n', hn, rfl⟩ := Option.map_eq_some_iff.1 e
        omega
      · cases e
    · exact (positive_pos e).1

theorem longest_mem {s : Str} : ∀ {rules : List (Option Cls × (Str → Option Nat))} {k n}, longest s rules = some (k, n) →
    ∃ r ∈ rules, r.2 s = some n := by
  intro rules
  induction rules with
  | nil => intro k n e; cases e
  | cons r rules ih =>
    intro k n e
    obtain ⟨k1, m1⟩ := r
    unfold longest at e
    cases hx : m1 s with
    | none =>
      rw [hx] at e
      obtain ⟨r, hr, h⟩ := ih e
      exact ⟨r, List.mem_cons_of_mem _ hr, h⟩
    | some j =>
      rw [hx] at e
      cases hy : longest s rules with
      | none => rw [hy] at e; cases e; exact ⟨_, List.mem_cons_self .., hx⟩
      | some y =>
        obtain ⟨k2, n2⟩ := y
        rw [hy] at e
        simp only at e
        split at e
        · cases e
          obtain ⟨r, hr, h⟩ := ih hy
          exact ⟨r, List.mem_cons_of_mem _ hr, h⟩
        · cases e; exact ⟨_, List.mem_cons_self .., hx⟩

theorem longest_pos {s : Str} {k n} (h : longest s lexRules = some (k, n)) : 1 ≤ n := by
  obtain ⟨r, hr, e⟩ := longest_mem h
  exact rule_pos r hr _ e

theorem longest_nil : longest [] lexRules = none := by decide +kernel

theorem lexFrom_fuel : ∀ (f g : Nat) (s : Str), s.length ≤ f → s.length ≤ g → lexFrom f s = lexFrom g s := by
  intro f
  induction f with
  | zero =>
    intro g s h _
    have : s = [] := List.length_eq_zero_iff.1 (by omega)
    subst this
    cases g with
    | zero => rfl
    | succ g => unfold lexFrom; rw [longest_nil]
  | succ f ih =>
    intro g s h h'
    cases g with
    | zero =>
      have : s = [] := List.length_eq_zero_iff.1 (by omega)
      subst this
      unfold lexFrom; rw [longest_nil]
    | succ g =>
      unfold lexFrom
      cases hx : longest s lexRules with
      | none => rfl
      | some x =>
        obtain ⟨k, n⟩ := x
        have hn := longest_pos hx
        cases s with
        | nil => rw [longest_nil] at hx; cases hx
        | cons c s =>
          have e := ih g ((c :: s).drop n) (by simp only [List.length_drop, List.length_cons] at *; omega)
            (by simp only [List.length_drop, List.length_cons] at *; omega)
          cases k <;> simp only [e]

theorem lex_token {s : Str} {k : Cls} {n : Nat} (h : longest s lexRules = some (some k, n)) :
    lex s = ⟨k, s.take n⟩ :: lex (s.drop n) := by
  have hn := longest_pos h
  cases s with
  | nil => rw [longest_nil] at h; cases h
  | cons c s =>
    conv => lhs; unfold lex
    rw [List.length_cons]
    unfold lexFrom
    rw [h]
    simp only
    rw [lexFrom_fuel s.length _ _ (by simp only [List.length_drop, List.length_cons]; omega) (Nat.le_refl _)]
    rfl

theorem lex_skip {s : Str} {n : Nat} (h : longest s lexRules = some (none, n)) : lex s = lex (s.drop n) := by
  have hn := longest_pos h
  cases s with
  | nil => rw [longest_nil] at h; cases h
  | cons c s =>
    conv => lhs; unfold lex
    rw [List.length_cons]
    unfold lexFrom
    rw [h]
    simp only
    rw [lexFrom_fuel s.length _ _ (by simp only [List.length_drop, List.length_cons]; omega) (Nat.le_refl _)]
    rfl

end Rei
