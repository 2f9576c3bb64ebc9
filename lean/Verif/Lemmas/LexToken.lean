import Verif.Lemmas.Lex

/-!
# Lexing: one token
-/
namespace Rei

theorem longest_later {s : Str} {k : Option Cls} {m : Str → Option Nat} {n : Nat} (pre post : List (Option Cls × (Str → Option Nat)))
    (e : laterRules = pre ++ (k, m) :: post) (hm : m s = some n)
    (hl : ∀ l ∈ literals, ∀ j, matchLiteral l s = some j → j < n) (h1 : ∀ r ∈ pre, ∀ j, r.2 s = some j → j < n)
    (h2 : ∀ r ∈ post, ∀ j, r.2 s = some j → j ≤ n) : longest s lexRules = some (k, n) := by
  rw [lexRules_eq, e, ← List.append_assoc]
  refine longest_eq hm _ (fun r hr j q => ?_) h2
  rcases List.mem_append.1 hr with hr | hr
  · obtain ⟨l, hl', rfl⟩ := List.mem_map.1 hr
    exact hl l hl' j q
  · exact h1 r hr j q

theorem longest_literal {l s : Str} (hl : l ∈ literals) (hp : l <+: s)
    (h1 : ∀ l' ∈ literals, l' <+: s → l'.length < l.length ∨ l' = l)
    (h2 : ∀ r ∈ laterRules, ∀ j, r.2 s = some j → j ≤ l.length) :
    longest s lexRules = some (some (.word l), l.length) := by
  obtain ⟨as, bs, e, ha⟩ := List.append_of_mem hl |>.elim fun as h => h.elim fun bs e =>
    (⟨as, bs, e, by
      have := literals_nodup
      rw [e, List.nodup_append] at this
      intro q
      exact this.2.2 _ q _ (List.mem_cons_self ..) rfl⟩ : ∃ as bs, literals = as ++ l :: bs ∧ l ∉ as)
  have hm : matchLiteral l s = some l.length := by
    unfold matchLiteral
    rw [if_pos (List.isPrefixOf_iff_prefix.2 hp)]
  have key : longest s ((as.map fun l => (some (Cls.word l), matchLiteral l)) ++ (some (Cls.word l), matchLiteral l) ::
      ((bs.map fun l => (some (Cls.word l), matchLiteral l)) ++ laterRules)) = some (some (.word l), l.length) := by
    refine longest_eq hm _ (fun r hr j q => ?_) (fun r hr j q => ?_)
    · obtain ⟨l', hl', rfl⟩ := List.mem_map.1 hr
      obtain ⟨p, rfl⟩ := matchLiteral_some q
      rcases h1 l' (by rw [e]; simp [hl']) p with h | h
      · exact h
      · exact absurd (h ▸ hl') ha
    · rcases List.mem_append.1 hr with hr | hr
      · obtain ⟨l', hl', rfl⟩ := List.mem_map.1 hr
        obtain ⟨p, rfl⟩ := matchLiteral_some q
        rcases h1 l' (by rw [e]; simp [hl']) p with h | h
        · omega
        · subst h; exact Nat.le_refl _
      · exact h2 r hr j q
  rw [lexRules_eq, e, List.map_append, List.map_cons, List.append_assoc]
  exact key

theorem lineLen_none : ∀ {s : Str}, '\n' ∉ s → lineLen s = none
  | [], _ => rfl
  | c :: s, h => by
    simp only [List.mem_cons, not_or] at h
    unfold lineLen
    rw [if_neg (Ne.symm h.1), lineLen_none h.2]
    rfl

/-- What a text that begins with a word character, and no comment, matches. -/
theorem word_rules {c : Char} {w rest : Str} (hc : isWordChar c = true)
    (hw : ∀ d ∈ w, (isWordChar d || isDigit d) = true) (hr : ∀ d r, rest = d :: r → isWordChar d = false ∧ isDigit d = false)
    (n1 : matchComment (c :: w ++ rest) = none) (n2 : matchLongComment (c :: w ++ rest) = none) :
    matchId (c :: w ++ rest) = some (c :: w).length ∧
    ∀ r ∈ laterRules, ∀ j, r.2 (c :: w ++ rest) = some j → j ≤ (c :: w).length ∧ r.1 = some .id := by
  have hd := word_not_digit hc
  have c1 : c ≠ '-' := by rintro rfl; revert hc; decide
  have c2 : c ≠ '"' := by rintro rfl; revert hc; decide
  have c3 : isSpaceChar c = false := by
    cases q : isSpaceChar c with
    | false => rfl
    | true =>
      exfalso
      simp only [isSpaceChar, Bool.or_eq_true, beq_iff_eq] at q
      rcases q with ((rfl | rfl) | rfl) | rfl <;> revert hc <;> decide
  have hid : matchId (c :: w ++ rest) = some (c :: w).length := by
    rw [List.cons_append]
    simp only [matchId, hc, if_true]
    rw [spanLen_append hw fun d r e => by rw [(hr d r e).1, (hr d r e).2]; rfl, List.length_cons, Nat.add_comm]
  refine ⟨hid, fun r hr j e => ?_⟩
  simp only [laterRules, List.mem_cons, List.not_mem_nil, or_false] at hr
  rcases hr with rfl | rfl | rfl | rfl | rfl | rfl | rfl | rfl
  · exact absurd e (by rw [List.cons_append]; simp only [matchDecimals_head hd]; simp)
  · change matchId (c :: w ++ rest) = some j at e
    rw [hid] at e
    cases e
    exact ⟨Nat.le_refl _, rfl⟩
  · exact absurd e (by rw [List.cons_append]; simp only [matchInt_head c1 hd]; simp)
  · exact absurd e (by rw [List.cons_append]; simp only [matchFloat_none (matchInt_head c1 hd)]; simp)
  · exact absurd e (by rw [List.cons_append]; simp only [matchString_head c2]; simp)
  · change matchComment _ = _ at e
    rw [n1] at e; cases e
  · change matchLongComment _ = _ at e
    rw [n2] at e; cases e
  · exact absurd e (by rw [List.cons_append]; simp only [matchBlank_head c3]; simp)

theorem prefix_of_le {l l' s : Str} (h : l <+: s) (h' : l' <+: s) (hle : l.length ≤ l'.length) : l <+: l' :=
  List.prefix_of_prefix_length_le h h' hle

/-- A literal at the beginning of a word is at the beginning of the word alone. -/
theorem literal_word {c : Char} {w rest l : Str} (hc : isWordChar c = true)
    (hr : ∀ d r, rest = d :: r → isWordChar d = false ∧ isDigit d = false) (hl : l ∈ literals) (hp : l <+: c :: w ++ rest) :
    l <+: c :: w := by
  rcases literals_kinds l hl with ⟨-, h⟩ | h
  · rcases Nat.le_total l.length (c :: w).length with q | q
    · exact prefix_of_le hp (List.prefix_append ..) q
    · obtain ⟨t, rfl⟩ := prefix_of_le (List.prefix_append ..) hp q
      have q : t <+: rest := (List.prefix_append_right_inj _).1 hp
      cases t with
      | nil => simp
      | cons d t =>
        exfalso
        obtain ⟨u, e⟩ := q
        rw [List.cons_append] at e
        have := (hr d _ e.symm).1
        rw [List.all_eq_true] at h
        have := h d (by simp)
        simp_all
  · exfalso
    obtain ⟨r, e⟩ := hp
    have : ∀ l ∈ signs, ∀ c w, l = c :: w → isWordChar c = false := by
      have : ∀ l ∈ signs, (l.head?.map isWordChar) = some false := by decide +kernel
      intro l hl c w e
      have := this l hl
      subst e
      simpa using this
    obtain ⟨d, w', rfl, -⟩ := literals_head l hl
    rw [List.cons_append, List.cons_append] at e
    injection e with e1 e2
    subst e1
    rw [this _ h _ _ rfl] at hc
    cases hc

theorem signs_later : ∀ l ∈ signs, ∀ rest, ∀ r ∈ laterRules, r.2 (l ++ rest) = none := by
  intro l hl rest r hr
  simp only [laterRules, List.mem_cons, List.not_mem_nil, or_false] at hr
  simp only [signs, List.map_cons, List.map_nil, List.mem_cons, List.not_mem_nil, or_false] at hl
  rcases hl with rfl | rfl | rfl | rfl | rfl | rfl | rfl | rfl | rfl | rfl | rfl | rfl | rfl | rfl <;>
    rcases hr with rfl | rfl | rfl | rfl | rfl | rfl | rfl | rfl <;> rfl

theorem longest_token {t : Token} {rest : Str} (hw : t.Written) (hs : t.Stops rest) :
    longest (t.text ++ rest) lexRules = some (some t.cls, t.text.length) := by
  obtain ⟨cls, text⟩ := t
  cases cls with
  | word l =>
    obtain ⟨rfl, hl⟩ : text = l ∧ l ∈ literals := hw
    refine longest_literal hl (List.prefix_append ..) (fun l' hl' hp => ?_) (fun r hr j e => ?_)
    · rcases literals_kinds text hl with ⟨hn, h⟩ | h
      · cases text with
        | nil => exact absurd rfl hn
        | cons c w =>
          have hc : isWordChar c = true := by
            simp only [List.all_cons, Bool.and_eq_true] at h
            exact h.1.1
          have hr : ∀ d r, rest = d :: r → isWordChar d = false ∧ isDigit d = false := by
            rcases hs with hs | hs
            · exact absurd (hs c (by simp)) (by simp [hc])
            · exact fun d r e => ⟨(hs.1 d r e).1, (hs.1 d r e).2.1⟩
          have := literal_word hc hr hl' hp
          have hle := this.length_le
          rcases Nat.lt_or_ge l'.length (c :: w).length with q | q
          · exact .inl q
          · exact .inr (this.eq_of_length (by omega))
      · rcases Nat.lt_or_ge l'.length text.length with q | q
        · exact .inl q
        · exact .inr (signs_longest text h l' hl' (prefix_of_le (List.prefix_append ..) hp q))
    · rcases literals_kinds text hl with ⟨hn, h⟩ | h
      · cases text with
        | nil => exact absurd rfl hn
        | cons c w =>
          simp only [List.all_cons, Bool.and_eq_true, bne_iff_ne, List.all_eq_true] at h
          have hr' : ∀ d r, rest = d :: r → isWordChar d = false ∧ isDigit d = false := by
            rcases hs with hs | hs
            · exact absurd (hs c (by simp)) (by simp [h.1.1])
            · exact fun d r e => ⟨(hs.1 d r e).1, (hs.1 d r e).2.1⟩
          exact ((word_rules h.1.1 (fun d hd => by rw [(h.2 d hd).1]; rfl) hr' (matchComment_head h.1.2)
            (matchLongComment_head h.1.2)).2 r hr j e).1
      · rw [signs_later text h rest r hr] at e
        cases e
  | decimals =>
    have hw : Only isDigit text := hw
    have st : ∀ c r, rest = c :: r → isWordChar c = false ∧ isDigit c = false ∧ c ≠ '.' ∧ c ≠ '*' :=
      (hs.resolve_left id).1
    cases text with
    | nil => exact absurd rfl hw.1
    | cons c w =>
      have hc := hw.2 c (by simp)
      have c1 : c ≠ '-' := by rintro rfl; revert hc; decide
      have c2 : c ≠ '"' := by rintro rfl; revert hc; decide
      have c4 : c ≠ '/' := by rintro rfl; revert hc; decide
      have c3 : isSpaceChar c = false := by
        cases q : isSpaceChar c with
        | false => rfl
        | true =>
          exfalso
          simp only [isSpaceChar, Bool.or_eq_true, beq_iff_eq] at q
          rcases q with ((rfl | rfl) | rfl) | rfl <;> revert hc <;> decide
      have hd := matchDecimals_append hw fun c t e => (st c t e).2.1
      have hi : matchInt (c :: w ++ rest) = some (c :: w).length := by
        unfold matchInt
        rw [List.cons_append, signLen_head c1, List.drop_zero, ← List.cons_append, hd]
        simp
      refine longest_later [] _ rfl hd (fun l hl j e => absurd e (no_literal (.inr (.inl hc)) l hl j)) (by simp)
        (fun r hr j e => ?_)
      simp only [List.mem_cons, List.not_mem_nil, or_false] at hr
      rcases hr with rfl | rfl | rfl | rfl | rfl | rfl | rfl
      · exact absurd e (by rw [List.cons_append]; simp only [matchId_head (digit_not_word hc)]; simp)
      · change matchInt _ = _ at e
        rw [hi] at e; cases e; exact Nat.le_refl _
      · change matchFloat _ = _ at e
        unfold matchFloat at e
        rw [hi] at e
        simp only [List.drop_left] at e
        split at e
        · exact absurd rfl (st _ _ rfl).2.2.1
        · cases e
      · exact absurd e (by rw [List.cons_append]; simp only [matchString_head c2]; simp)
      · exact absurd e (by rw [List.cons_append]; simp only [matchComment_head c4]; simp)
      · exact absurd e (by rw [List.cons_append]; simp only [matchLongComment_head c4]; simp)
      · exact absurd e (by rw [List.cons_append]; simp only [matchBlank_head c3]; simp)
  | id =>
    obtain ⟨h1, h2, h3⟩ : Only (fun c => isWordChar c || isDigit c) text ∧ (∀ c w, text = c :: w → isWordChar c = true) ∧
      text ∉ literals := hw
    have h4 : "//".toList <+: text → '\n' ∉ rest := (hs.resolve_left id).2
    have st : ∀ c r, rest = c :: r → isWordChar c = false ∧ isDigit c = false ∧ c ≠ '.' ∧ c ≠ '*' :=
      (hs.resolve_left id).1
    cases text with
    | nil => exact absurd rfl h1.1
    | cons c w =>
      have hc := h2 c w rfl
      have hr' : ∀ d r, rest = d :: r → isWordChar d = false ∧ isDigit d = false := fun d r e => ⟨(st d r e).1, (st d r e).2.1⟩
      have n1 : matchComment (c :: w ++ rest) = none := by
        unfold matchComment
        split
        · next u e =>
          rw [List.cons_append] at e
          injection e with e1 e2
          subst e1
          cases w with
          | nil =>
            exact absurd (st '/' u e2).1 (by decide)
          | cons d w =>
            rw [List.cons_append] at e2
            injection e2 with e2 e3
            subst e2
            have nr := h4 ⟨w, rfl⟩
            rw [lineLen_none]
            · rfl
            · intro q
              rw [← e3, List.mem_append] at q
              rcases q with q | q
              · have := h1.2 '\n' (by simp [q])
                revert this; decide
              · exact nr q
        · rfl
      have n2 : matchLongComment (c :: w ++ rest) = none := by
        unfold matchLongComment
        split
        · next u e =>
          exfalso
          rw [List.cons_append] at e
          injection e with e1 e2
          subst e1
          cases w with
          | nil => exact (st '*' u e2).2.2.2 rfl
          | cons d w =>
            rw [List.cons_append] at e2
            injection e2 with e2 e3
            subst e2
            have := h1.2 '*' (by simp)
            revert this; decide
        · rfl
      have W := word_rules hc (fun d hd => h1.2 d (List.mem_cons_of_mem _ hd)) hr' n1 n2
      refine longest_later [(some .decimals, matchDecimals)] _ rfl W.1 (fun l hl j e => ?_) (fun r hr j e => ?_)
        (fun r hr j e => (W.2 r (by
          simp only [List.mem_cons, List.not_mem_nil, or_false, laterRules] at hr ⊢
          exact .inr (.inr hr)) j e).1)
      · obtain ⟨p, rfl⟩ := matchLiteral_some e
        have := literal_word hc hr' hl p
        rcases Nat.lt_or_ge l.length (c :: w).length with q | q
        · exact q
        · exact absurd ((this.eq_of_length (Nat.le_antisymm this.length_le q)) ▸ hl) h3
      · rw [List.mem_singleton] at hr
        subst hr
        exact absurd e (by rw [List.cons_append]; simp only [matchDecimals_head (word_not_digit hc)]; simp)
  | int =>
    obtain ⟨w, rfl, hd⟩ : ∃ w : Str, text = '-' :: w ∧ Only isDigit w := hw
    have st : ∀ c r, rest = c :: r → isWordChar c = false ∧ isDigit c = false ∧ c ≠ '.' ∧ c ≠ '*' :=
      (hs.resolve_left id).1
    have hi : matchInt ('-' :: w ++ rest) = some ('-' :: w).length := by
      unfold matchInt
      have : signLen ('-' :: w ++ rest) = 1 := rfl
      rw [this, List.cons_append, List.drop_succ_cons, List.drop_zero, matchDecimals_append hd fun c t e => (st c t e).2.1]
      simp [Nat.add_comm]
    refine longest_later [(some .decimals, matchDecimals), (some .id, matchId)] _ rfl hi (fun l hl j e => ?_)
      (fun r hr j e => ?_) (fun r hr j e => ?_)
    · refine absurd e (no_literal (.inr (.inr (.inr (.inr ⟨rfl, ?_⟩)))) l hl j)
      cases w with
      | nil => exact absurd rfl hd.1
      | cons d u => exact ⟨d, u ++ rest, rfl, hd.2 d (by simp)⟩
    · simp only [List.mem_cons, List.not_mem_nil, or_false] at hr
      rcases hr with rfl | rfl
      · exact absurd e (by rw [List.cons_append]; simp only [matchDecimals_head (show isDigit '-' = false by decide)]; simp)
      · exact absurd e (by rw [List.cons_append]; simp only [matchId_head (show isWordChar '-' = false by decide)]; simp)
    · simp only [List.mem_cons, List.not_mem_nil, or_false] at hr
      rcases hr with rfl | rfl | rfl | rfl | rfl
      · change matchFloat _ = _ at e
        unfold matchFloat at e
        rw [hi] at e
        simp only [List.drop_left] at e
        split at e
        · exact absurd rfl (st _ _ rfl).2.2.1
        · cases e
      · exact absurd e (by rw [List.cons_append]; simp only [matchString_head (show '-' ≠ '"' by decide)]; simp)
      · exact absurd e (by rw [List.cons_append]; simp only [matchComment_head (show '-' ≠ '/' by decide)]; simp)
      · exact absurd e (by rw [List.cons_append]; simp only [matchLongComment_head (show '-' ≠ '/' by decide)]; simp)
      · exact absurd e (by rw [List.cons_append]; simp only [matchBlank_head (show isSpaceChar '-' = false by decide)]; simp)
  | float =>
    obtain ⟨sign, a, b, rfl, hsg, ha, hb⟩ : ∃ sign a b : Str, text = sign ++ a ++ '.' :: b ∧ (sign = [] ∨ sign = ['-']) ∧
      Only isDigit a ∧ Only isDigit b := hw
    have st : ∀ c r, rest = c :: r → isWordChar c = false ∧ isDigit c = false ∧ c ≠ '.' ∧ c ≠ '*' :=
      (hs.resolve_left id).1
    have dot : ∀ c t, '.' :: b ++ rest = c :: t → isDigit c = false := by
      intro c t e
      cases e; decide
    have hda := matchDecimals_append ha dot
    obtain ⟨x, a', rfl⟩ : ∃ x a', a = x :: a' := by
      cases a with
      | nil => exact absurd rfl ha.1
      | cons x a' => exact ⟨x, a', rfl⟩
    have hx := ha.2 x (by simp)
    have x1 : x ≠ '-' := by rintro rfl; revert hx; decide
    have hi : matchInt (sign ++ x :: a' ++ '.' :: b ++ rest) = some (sign.length + (x :: a').length) := by
      unfold matchInt
      have e1 : signLen (sign ++ x :: a' ++ '.' :: b ++ rest) = sign.length := by
        rcases hsg with rfl | rfl
        · exact signLen_head x1
        · rfl
      rw [e1]
      have e2 : (sign ++ x :: a' ++ '.' :: b ++ rest).drop sign.length = x :: a' ++ ('.' :: b ++ rest) := by
        simp only [List.append_assoc, List.drop_left]
      rw [e2, hda]
      rfl
    have hf : matchFloat (sign ++ x :: a' ++ '.' :: b ++ rest) = some (sign ++ x :: a' ++ '.' :: b).length := by
      unfold matchFloat
      rw [hi]
      have e2 : (sign ++ x :: a' ++ '.' :: b ++ rest).drop (sign.length + (x :: a').length) = '.' :: (b ++ rest) := by
        rw [← List.length_append, List.append_assoc (sign ++ x :: a'), List.drop_left]
        rfl
      simp only [e2]
      rw [matchDecimals_append hb fun c t e => (st c t e).2.1]
      simp [Nat.add_comm, Nat.add_left_comm]
    have len : sign.length + (x :: a').length < (sign ++ x :: a' ++ '.' :: b).length := by
      simp
    obtain ⟨y, z, hy, hyy⟩ : ∃ y z, sign ++ x :: a' ++ '.' :: b ++ rest = y :: z ∧ ((isDigit y = true ∧ sign = []) ∨
        (y = '-' ∧ ∃ d u, z = d :: u ∧ isDigit d = true)) := by
      rcases hsg with rfl | rfl
      · exact ⟨x, _, rfl, .inl ⟨hx, rfl⟩⟩
      · exact ⟨'-', _, rfl, .inr ⟨rfl, x, _, rfl, hx⟩⟩
    have y2 : y ≠ '"' ∧ y ≠ '/' ∧ isWordChar y = false ∧ isSpaceChar y = false := by
      rcases hyy with ⟨h, -⟩ | ⟨rfl, -⟩
      · refine ⟨?_, ?_, digit_not_word h, ?_⟩
        · rintro rfl; revert h; decide
        · rintro rfl; revert h; decide
        · cases q : isSpaceChar y with
          | false => rfl
          | true =>
            exfalso
            simp only [isSpaceChar, Bool.or_eq_true, beq_iff_eq] at q
            rcases q with ((rfl | rfl) | rfl) | rfl <;> revert h <;> decide
      · decide
    refine longest_later [(some .decimals, matchDecimals), (some .id, matchId), (some .int, matchInt)] _ rfl hf
      (fun l hl j e => ?_) (fun r hr j e => ?_) (fun r hr j e => ?_)
    · refine absurd e ?_
      rw [hy]
      refine no_literal ?_ l hl j
      rcases hyy with ⟨h, -⟩ | h
      · exact .inr (.inl h)
      · exact .inr (.inr (.inr (.inr h)))
    · simp only [List.mem_cons, List.not_mem_nil, or_false] at hr
      rcases hr with rfl | rfl | rfl
      · change matchDecimals _ = _ at e
        rcases hyy with ⟨-, rfl⟩ | ⟨rfl, -⟩
        · rw [List.nil_append, List.append_assoc, hda] at e
          cases e
          simp
        · rw [hy, matchDecimals_head (by decide)] at e
          cases e
      · change matchId _ = _ at e
        rw [hy, matchId_head y2.2.2.1] at e
        cases e
      · change matchInt _ = _ at e
        rw [hi] at e
        cases e
        exact len
    · simp only [List.mem_cons, List.not_mem_nil, or_false] at hr
      rw [hy] at e
      rcases hr with rfl | rfl | rfl | rfl
      · exact absurd e (by simp only [matchString_head y2.1]; simp)
      · exact absurd e (by simp only [matchComment_head y2.2.1]; simp)
      · exact absurd e (by simp only [matchLongComment_head y2.2.1]; simp)
      · exact absurd e (by simp only [matchBlank_head y2.2.2.2]; simp)
  | string =>
    obtain ⟨w, rfl, hw⟩ : ∃ w : Str, text = '"' :: w ++ ['"'] ∧ ∀ c ∈ w, isStringChar c = true := hw
    have e0 : '"' :: w ++ ['"'] ++ rest = '"' :: (w ++ '"' :: rest) := by simp
    have hm : matchString ('"' :: w ++ ['"'] ++ rest) = some ('"' :: w ++ ['"']).length := by
      rw [e0]
      unfold matchString
      have : spanLen isStringChar (w ++ '"' :: rest) = w.length :=
        spanLen_append hw (by intro c t e; cases e; decide)
      simp only [this, List.drop_left]
      simp
    refine longest_later [(some .decimals, matchDecimals), (some .id, matchId), (some .int, matchInt), (some .float, matchFloat)]
      _ rfl hm (fun l hl j e => ?_) (fun r hr j e => ?_) (fun r hr j e => ?_)
    · rw [e0] at e
      exact absurd e (no_literal (.inr (.inr (.inl rfl))) l hl j)
    · rw [e0] at e
      simp only [List.mem_cons, List.not_mem_nil, or_false] at hr
      have i0 : matchInt ('"' :: (w ++ '"' :: rest)) = none := matchInt_head (by decide) (by decide)
      rcases hr with rfl | rfl | rfl | rfl
      · exact absurd e (by simp only [matchDecimals_head (show isDigit '"' = false by decide)]; simp)
      · exact absurd e (by simp only [matchId_head (show isWordChar '"' = false by decide)]; simp)
      · exact absurd e (by simp only [i0]; simp)
      · exact absurd e (by simp only [matchFloat_none i0]; simp)
    · rw [e0] at e
      simp only [List.mem_cons, List.not_mem_nil, or_false] at hr
      rcases hr with rfl | rfl | rfl
      · exact absurd e (by simp only [matchComment_head (show '"' ≠ '/' by decide)]; simp)
      · exact absurd e (by simp only [matchLongComment_head (show '"' ≠ '/' by decide)]; simp)
      · exact absurd e (by simp only [matchBlank_head (show isSpaceChar '"' = false by decide)]; simp)

end Rei
