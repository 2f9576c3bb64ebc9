import Verif.Model.Grammar

/-!
# How a text is laid out

Written without the lexer: which texts a token can have, what may be skipped, and what has to come between two tokens.
-/
namespace Rei

/-- Only characters of that class, and at least one. -/
def Only (p : Char → Bool) (s : Str) : Prop := s ≠ [] ∧ ∀ c ∈ s, p c = true

/-- The texts of the tokens of every kind. -/
def Token.Written (t : Token) : Prop :=
  match t.cls with
  | .word l => t.text = l ∧ l ∈ literals
  | .decimals => Only isDigit t.text
  | .id => Only (fun c => isWordChar c || isDigit c) t.text ∧ (∀ c w, t.text = c :: w → isWordChar c = true) ∧
      t.text ∉ literals
  | .int => ∃ w : Str, t.text = '-' :: w ∧ Only isDigit w
  | .float => ∃ sign a b : Str, t.text = sign ++ a ++ '.' :: b ∧ (sign = [] ∨ sign = ['-']) ∧ Only isDigit a ∧ Only isDigit b
  | .string => ∃ w : Str, t.text = '"' :: w ++ ['"'] ∧ ∀ c ∈ w, isStringChar c = true

/-- Tokens that end where they end, whatever comes next: strings in quotes, and the signs. -/
def Token.Closed (t : Token) : Prop :=
  match t.cls with
  | .string => True
  | .word l => ∀ c ∈ l, isWordChar c = false
  | _ => False

/-- The token is not continued by the text after it, and does not begin a comment that ends there. -/
def Token.Stops (t : Token) (rest : Str) : Prop :=
  t.Closed ∨ ((∀ c r, rest = c :: r → isWordChar c = false ∧ isDigit c = false ∧ c ≠ '.' ∧ c ≠ '*') ∧
    ("//".toList <+: t.text → '\n' ∉ rest))

/-- What is skipped: a blank, the rest of a line after `//`, and what is between `/*` and the next `*/`. -/
inductive Skipped : Str → Prop
  | blank (c : Char) : c ∈ [' ', '\t', '\n', '\r'] → Skipped [c]
  | line (w : Str) : '\n' ∉ w → Skipped ("//".toList ++ w ++ ['\n'])
  | long (w : Str) : ¬ "*/".toList <:+: w ++ ['*'] → Skipped ("/*".toList ++ w ++ "*/".toList)

/-- The tokens, written down in this order, with blanks and comments at will. -/
inductive LaidOut : List Token → Str → Prop
  | done : LaidOut [] []
  | skip {ts : List Token} {g s : Str} : Skipped g → LaidOut ts s → LaidOut ts (g ++ s)
  | token {ts : List Token} {t : Token} {s : Str} : t.Written → t.Stops s → LaidOut ts s → LaidOut (t :: ts) (t.text ++ s)

/-- The braces are open after every three or more of the tokens. -/
def StillOpen (ts : List Token) : Prop :=
  ∀ q, q <+: ts → 3 ≤ q.length →
    q.countP (fun t => t.cls = .word "}".toList) < q.countP (fun t => t.cls = .word "{".toList)

end Rei
