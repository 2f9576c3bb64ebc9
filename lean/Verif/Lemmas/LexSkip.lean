import Verif.Lemmas.LexToken

/-!
# Lexing: blanks and comments
-/
namespace Rei

theorem space_facts {c : Char} (h : isSpaceChar c = true) : isDigit c = false ∧ isWordChar c = false ∧ c ≠ '-' ∧ c ≠ '"' ∧ c ≠ '/' := by
  simp only [isSpaceChar, Bool.or_eq_true, beq_iff_eq] at h
  rcases h with ((rfl | rfl) | rfl) | rfl <;> decide

theorem longest_blank {c : Char} {s : Str} (h : isSpaceChar c = true) :
    longest (c :: s) lexRules = some (none, spanLen isSpaceChar (c :: s)) := by
  obtain ⟨h1, h2, h3, h4, h5⟩ := space_facts h
  have hm : matchBlank (c :: s) = some (spanLen isSpaceChar (c :: s)) := by
    unfold matchBlank positive
    rw [if_neg]
    simp [spanLen, h]
  have i0 : matchInt (c :: s) = none := matchInt_head h3 h1
  refine longest_later [(some .decimals, matchDecimals), (some .id, matchId), (some .int, matchInt), (some .float, matchFloat),
    (some .string, matchString), (none, matchComment), (none, matchLongComment)] [] rfl hm
    (fun l hl j e => absurd e (no_literal (.inr (.inr (.inr (.inl h)))) l hl j)) (fun r hr j e => ?_) (by simp)
  simp only [List.mem_cons, List.not_mem_nil, or_false] at hr
  rcases hr with rfl | rfl | rfl | rfl | rfl | rfl | rfl
  · exact absurd e (by simp only [matchDecimals_head h1]; simp)
  · exact absurd e (by simp only [matchId_head h2]; simp)
  · exact absurd e (by simp only [i0]; simp)
  · exact absurd e (by simp only [matchFloat_none i0]; simp)
  · exact absurd e (by simp only [matchString_head h4]; simp)
  · exact absurd e (by simp only [matchComment_head h5]; simp)
  · exact absurd e (by simp only [matchLongComment_head h5]; simp)

theorem drop_spanLen (p : Char → Bool) (s : Str) : s.drop (spanLen p s) = s.dropWhile p := by
  induction s with
  | nil => rfl
  | cons c s ih =>
    unfold spanLen at *
    cases h : p c with
    | true => simpa [h] using ih
    | false => simp [h]

theorem lex_dropWhile (s : Str) : lex s = lex (s.dropWhile isSpaceChar) := by
  cases s with
  | nil => rfl
  | cons c s =>
    cases h : isSpaceChar c with
    | true => rw [lex_skip (longest_blank h), drop_spanLen]
    | false => simp [h]

theorem lex_blank {c : Char} {s : Str} (h : isSpaceChar c = true) : lex (c :: s) = lex s := by
  rw [lex_dropWhile (c :: s), lex_dropWhile s, List.dropWhile_cons, if_pos h]

theorem lineLen_append {w r : Str} (h : '\n' ∉ w) : lineLen (w ++ '\n' :: r) = some (w.length + 1) := by
  induction w with
  | nil => rfl
  | cons c w ih =>
    simp only [List.mem_cons, not_or] at h
    rw [List.cons_append]
    unfold lineLen
    rw [if_neg (Ne.symm h.1), ih h.2]
    simp [Nat.add_comm]

theorem closeLen_append {w r : Str} (h : ¬ ['*', '/'] <:+: w ++ ['*']) :
    closeLen (w ++ '*' :: '/' :: r) = some (w.length + 2) := by
  induction w with
  | nil => rfl
  | cons c w ih =>
    have h' : ¬ ['*', '/'] <:+: w ++ ['*'] := fun q => h (q.trans ⟨[c], [], by simp⟩)
    rw [List.cons_append]
    unfold closeLen
    split
    · next e => cases e
    · next e =>
      exfalso
      injection e with e1 e2
      subst e1
      cases w with
      | nil => cases e2
      | cons d w =>
        rw [List.cons_append] at e2
        injection e2 with e2 e3
        subst e2
        exact h ⟨[], w ++ ['*'], rfl⟩
    · next e =>
      injection e with e1 e2
      subst e2
      rw [ih h']
      simp only [Option.map_some, List.length_cons, Option.some.injEq]
      omega

theorem slash_later {s : Str} : matchDecimals ('/' :: s) = none ∧ matchInt ('/' :: s) = none ∧ matchFloat ('/' :: s) = none ∧
    matchString ('/' :: s) = none ∧ matchBlank ('/' :: s) = none := ⟨rfl, rfl, rfl, rfl, rfl⟩

theorem spanLen_le {p : Char → Bool} {w r : Str} (hr : ∀ c t, r = c :: t → p c = false) : spanLen p (w ++ r) ≤ w.length := by
  induction w with
  | nil =>
    cases r with
    | nil => exact Nat.le_refl _
    | cons c t => rw [List.nil_append, spanLen_head (hr c t rfl)]; exact Nat.le_refl _
  | cons c w ih =>
    unfold spanLen at *
    rw [List.cons_append, List.takeWhile_cons]
    split
    · simpa using ih
    · simp

theorem longest_line {w r : Str} (h : '\n' ∉ w) :
    longest ('/' :: '/' :: (w ++ '\n' :: r)) lexRules = some (none, w.length + 3) := by
  have hm : matchComment ('/' :: '/' :: (w ++ '\n' :: r)) = some (w.length + 3) := by
    change Option.map (2 + ·) (lineLen (w ++ '\n' :: r)) = _
    rw [lineLen_append h]
    simp only [Option.map_some, Option.some.injEq]
    omega
  obtain ⟨s1, s2, s3, s4, s5⟩ := slash_later (s := '/' :: (w ++ '\n' :: r))
  refine longest_later [(some .decimals, matchDecimals), (some .id, matchId), (some .int, matchInt), (some .float, matchFloat),
    (some .string, matchString)] _ rfl hm (fun l hl j e => absurd e (no_literal (.inl rfl) l hl j)) (fun r' hr j e => ?_)
    (fun r' hr j e => ?_)
  · simp only [List.mem_cons, List.not_mem_nil, or_false] at hr
    rcases hr with rfl | rfl | rfl | rfl | rfl
    · exact absurd e (by simp only [s1]; simp)
    · have e : some (1 + spanLen (fun c => isWordChar c || isDigit c) ('/' :: w ++ '\n' :: r)) = some j := e
      cases e
      have := spanLen_le (p := fun c => isWordChar c || isDigit c) (w := '/' :: w) (r := '\n' :: r)
        (by intro c t e; cases e; decide)
      rw [List.length_cons] at this
      omega
    · exact absurd e (by simp only [s2]; simp)
    · exact absurd e (by simp only [s3]; simp)
    · exact absurd e (by simp only [s4]; simp)
  · simp only [List.mem_cons, List.not_mem_nil, or_false] at hr
    rcases hr with rfl | rfl
    · exact absurd e (by simp [matchLongComment])
    · exact absurd e (by simp only [s5]; simp)

theorem longest_long {w r : Str} (h : ¬ ['*', '/'] <:+: w ++ ['*']) :
    longest ('/' :: '*' :: (w ++ '*' :: '/' :: r)) lexRules = some (none, w.length + 4) := by
  have hm : matchLongComment ('/' :: '*' :: (w ++ '*' :: '/' :: r)) = some (w.length + 4) := by
    change Option.map (2 + ·) (closeLen (w ++ '*' :: '/' :: r)) = _
    rw [closeLen_append h]
    simp only [Option.map_some, Option.some.injEq]
    omega
  obtain ⟨s1, s2, s3, s4, s5⟩ := slash_later (s := '*' :: (w ++ '*' :: '/' :: r))
  refine longest_later [(some .decimals, matchDecimals), (some .id, matchId), (some .int, matchInt), (some .float, matchFloat),
    (some .string, matchString), (none, matchComment)] _ rfl hm (fun l hl j e => absurd e (no_literal (.inl rfl) l hl j))
    (fun r' hr j e => ?_) (fun r' hr j e => ?_)
  · simp only [List.mem_cons, List.not_mem_nil, or_false] at hr
    rcases hr with rfl | rfl | rfl | rfl | rfl | rfl
    · exact absurd e (by simp only [s1]; simp)
    · have e : some (1 + spanLen (fun c => isWordChar c || isDigit c) ('*' :: (w ++ '*' :: '/' :: r))) = some j := e
      rw [spanLen_head (by decide)] at e
      cases e
      omega
    · exact absurd e (by simp only [s2]; simp)
    · exact absurd e (by simp only [s3]; simp)
    · exact absurd e (by simp only [s4]; simp)
    · exact absurd e (by simp [matchComment])
  · simp only [List.mem_cons, List.not_mem_nil, or_false] at hr
    rcases hr with rfl
    exact absurd e (by simp only [s5]; simp)

theorem lex_skipped {g s : Str} (h : Skipped g) : lex (g ++ s) = lex s := by
  cases h with
  | blank c hc =>
    refine lex_blank ?_
    simp only [List.mem_cons, List.not_mem_nil, or_false] at hc
    rcases hc with rfl | rfl | rfl | rfl <;> decide
  | line w hw =>
    have e : "//".toList ++ w ++ ['\n'] ++ s = '/' :: '/' :: (w ++ '\n' :: s) := by simp
    rw [e, lex_skip (longest_line hw)]
    congr 1
    have : w.length + 3 = (w ++ ['\n']).length + 1 + 1 := by simp
    rw [this, List.drop_succ_cons, List.drop_succ_cons]
    have : w ++ '\n' :: s = (w ++ ['\n']) ++ s := by simp
    rw [this, List.drop_left]
  | long w hw =>
    have e : "/*".toList ++ w ++ "*/".toList ++ s = '/' :: '*' :: (w ++ '*' :: '/' :: s) := by simp
    rw [e, lex_skip (longest_long hw)]
    congr 1
    have : w.length + 4 = (w ++ ['*', '/']).length + 1 + 1 := by simp
    rw [this, List.drop_succ_cons, List.drop_succ_cons]
    have : w ++ '*' :: '/' :: s = (w ++ ['*', '/']) ++ s := by simp
    rw [this, List.drop_left]

theorem lex_written {t : Token} {s : Str} (hw : t.Written) (hs : t.Stops s) : lex (t.text ++ s) = t :: lex s := by
  rw [lex_token (longest_token hw hs), List.take_left, List.drop_left]

theorem lex_laidOut {ts : List Token} {s : Str} (h : LaidOut ts s) : lex s = ts := by
  induction h with
  | done => rfl
  | skip g _ ih => rw [lex_skipped g, ih]
  | token hw hs _ ih => rw [lex_written hw hs, ih]

end Rei
