import Verif.Spec.Alphabet
import Verif.Model.Grammar
import Verif.Model.Semantics

/-!
# C63, C92: the classes of characters
-/
namespace Rei

/-- A class of ASCII characters is known by its members. -/
private theorem class_iff {p : Char → Bool} {l : Str} (small : ∀ c, p c = true → c.toNat < 128)
    (sub : ∀ n < 128, p (Char.ofNat n) = true → Char.ofNat n ∈ l) (sup : ∀ c ∈ l, p c = true) (c : Char) :
    p c = true ↔ c ∈ l := by
  constructor
  · intro h
    have := sub c.toNat (small c h) (by rw [Char.ofNat_toNat]; exact h)
    rwa [Char.ofNat_toNat] at this
  · exact sup c

private theorem ascii_of_eq {c d : Char} (h : (c == d) = true) (hd : d.toNat < 128) : c.toNat < 128 := by
  rw [beq_iff_eq.1 h]; exact hd

private theorem digit_small {c : Char} (h : isDigit c = true) : c.toNat < 128 := by
  unfold isDigit at h
  simp only [Bool.and_eq_true, decide_eq_true_eq, UInt32.le_iff_toNat_le] at h
  have := h.2
  show c.val.toNat < 128
  exact Nat.lt_of_le_of_lt this (by decide)

private theorem word_small {c : Char} (h : isWordChar c = true) : c.toNat < 128 := by
  unfold isWordChar at h
  simp only [Bool.or_eq_true, Bool.and_eq_true, decide_eq_true_eq, UInt32.le_iff_toNat_le, beq_iff_eq] at h
  rcases h with ((h | h) | h) | h
  · exact Nat.lt_of_le_of_lt h.2 (by decide)
  · exact Nat.lt_of_le_of_lt h.2 (by decide)
  · rw [h]; decide
  · rw [h]; decide

/-- **C92, letters.** -/
theorem C92_letters (c : Char) : isWordChar c = true ↔ c ∈ nameLetters :=
  class_iff (fun _ => word_small) (by decide +kernel) (by decide +kernel) c

/-- **C92, digits.** -/
theorem C92_digits (c : Char) : isDigit c = true ↔ c ∈ digitChars :=
  class_iff (fun _ => digit_small) (by decide +kernel) (by decide +kernel) c

/-- **C92, strings.** -/
theorem C92_strings (c : Char) : isStringChar c = true ↔ c ∈ stringChars := by
  refine class_iff (fun c h => ?_) (by decide +kernel) (by decide +kernel) c
  unfold isStringChar at h
  simp only [Bool.or_eq_true, beq_iff_eq] at h
  rcases h with (h | h) | h
  · exact word_small h
  · exact digit_small h
  · rw [h]; decide

/-- **C92, spaces.** -/
theorem C92_spaces (c : Char) : isSpaceChar c = true ↔ c ∈ spaceChars := by
  refine class_iff (fun c h => ?_) (by decide +kernel) (by decide +kernel) c
  unfold isSpaceChar at h
  simp only [Bool.or_eq_true, beq_iff_eq] at h
  rcases h with ((h | h) | h) | h <;> rw [h] <;> decide

/-- **C63, blanks.** -/
theorem C63_blanks (c : Char) : isBlank c = true ↔ c ∈ stripChars := by
  refine class_iff (fun c h => ?_) (by decide +kernel) (by decide +kernel) c
  unfold isBlank at h
  simp only [Bool.or_eq_true, Bool.and_eq_true, decide_eq_true_eq, beq_iff_eq] at h
  omega

/-- The keywords and signs of CogniLang. -/
theorem C92_reserved (s : String) : s.toList ∈ literals ↔ s ∈ reservedWords := by
  have a : ∀ l ∈ literals, ∃ w ∈ reservedWords, w.toList = l := by decide +kernel
  have b : ∀ w ∈ reservedWords, w.toList ∈ literals := by decide +kernel
  constructor
  · intro h
    obtain ⟨w, hw, e⟩ := a _ h
    rwa [← String.toList_injective e]
  · exact b s

end Rei
