/-!
# Python `str`

Strings are lists of code points.  `join` models `sep.join(parts)` and `split` models
`s.split(sep)` for a one-character separator, the only forms used by the repository
(`'/'.join`, `'.'.join`, `'_'.join`, `split('/')`, `split('_')`).
-/
namespace Rei

abbrev Str := List Char
abbrev Bytes := List UInt8

namespace Str

/-- `sep.join(parts)` for a separator string. -/
def joinS (sep : Str) : List Str → Str
  | [] => []
  | [s] => s
  | s :: t :: rest => s ++ sep ++ joinS sep (t :: rest)

/-- `c.join(parts)` for a one-character separator. -/
def join (c : Char) (parts : List Str) : Str := joinS [c] parts

/-- `s.split(c)` for a one-character separator: always at least one part. -/
def split (c : Char) : Str → List Str
  | [] => [[]]
  | x :: xs =>
    if x = c then [] :: split c xs
    else match split c xs with
      | [] => [[x]]
      | p :: ps => (x :: p) :: ps

@[simp] theorem join_nil (c : Char) : join c [] = [] := rfl
@[simp] theorem join_singleton (c : Char) (s : Str) : join c [s] = s := rfl
theorem join_cons_cons (c : Char) (s t : Str) (r : List Str) :
    join c (s :: t :: r) = s ++ c :: join c (t :: r) := by
  simp [join, joinS]

theorem split_ne_nil (c : Char) (s : Str) : split c s ≠ [] := by
  cases s with
  | nil => simp [split]
  | cons x xs =>
    simp only [split]
    split
    · simp
    · split <;> simp

theorem split_of_not_mem {c : Char} {s : Str} (h : c ∉ s) : split c s = [s] := by
  induction s with
  | nil => rfl
  | cons x xs ih =>
    simp only [List.mem_cons, not_or] at h
    simp [split, Ne.symm h.1, ih h.2]

theorem split_append_sep {c : Char} {s : Str} (h : c ∉ s) (t : Str) :
    split c (s ++ c :: t) = s :: split c t := by
  induction s with
  | nil => simp [split]
  | cons x xs ih =>
    simp only [List.mem_cons, not_or] at h
    simp [split, Ne.symm h.1, ih h.2]

/-- `c.join(parts).split(c) == parts` for separator-free parts (at least one). -/
theorem split_join {c : Char} {parts : List Str} (hne : parts ≠ [])
    (h : ∀ p ∈ parts, c ∉ p) : split c (join c parts) = parts := by
  induction parts with
  | nil => exact absurd rfl hne
  | cons p ps ih =>
    cases ps with
    | nil => simp only [join_singleton]; exact split_of_not_mem (h p (by simp))
    | cons q qs =>
      rw [join_cons_cons, split_append_sep (h p (by simp)), ih (by simp)]
      intro r hr; exact h r (List.mem_cons_of_mem _ hr)

/-- `c.join(s.split(c)) == s`. -/
theorem join_split (c : Char) (s : Str) : join c (split c s) = s := by
  induction s with
  | nil => rfl
  | cons x xs ih =>
    simp only [split]
    split
    · next h =>
      subst h
      cases hs : split x xs with
      | nil => exact absurd hs (split_ne_nil _ _)
      | cons p ps => rw [join_cons_cons, ← hs, ih]; rfl
    · next h =>
      cases hs : split c xs with
      | nil => exact absurd hs (split_ne_nil _ _)
      | cons p ps =>
        rw [hs] at ih
        cases ps with
        | nil => simp only [join_singleton] at *; rw [ih]
        | cons q qs =>
          simp only [join_cons_cons] at *
          rw [← ih]; rfl

theorem not_mem_of_mem_split {c : Char} {s p : Str} (h : p ∈ split c s) : c ∉ p := by
  induction s generalizing p with
  | nil => simp [split] at h; simp [h]
  | cons x xs ih =>
    simp only [split] at h
    split at h
    · rcases List.mem_cons.1 h with h | h
      · simp [h]
      · exact ih h
    · next hx =>
      split at h
      · next hs => exact absurd hs (split_ne_nil _ _)
      · next q qs hs =>
        rcases List.mem_cons.1 h with h | h
        · subst h
          have := ih (p := q) (by rw [hs]; simp)
          simp only [List.mem_cons, not_or]
          exact ⟨Ne.symm hx, this⟩
        · exact ih (by rw [hs]; exact List.mem_cons_of_mem _ h)

theorem join_append_singleton {c : Char} {ps : List Str} (h : ps ≠ []) (s : Str) :
    join c (ps ++ [s]) = join c ps ++ c :: s := by
  induction ps with
  | nil => exact absurd rfl h
  | cons p ps ih =>
    cases ps with
    | nil => simp [join_cons_cons]
    | cons q qs =>
      have := ih (by simp)
      simp only [List.cons_append] at *
      rw [join_cons_cons, this, join_cons_cons]
      simp

/-- Joining is injective on separator-free part lists. -/
theorem join_injective {c : Char} {ps qs : List Str} (hp : ps ≠ []) (hq : qs ≠ [])
    (h1 : ∀ p ∈ ps, c ∉ p) (h2 : ∀ p ∈ qs, c ∉ p) (h : join c ps = join c qs) : ps = qs := by
  rw [← split_join hp h1, ← split_join hq h2, h]

end Str
end Rei
