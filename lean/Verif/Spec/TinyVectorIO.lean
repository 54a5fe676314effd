import Verif.Model.TinyVectorIO

/-! # What texts of short vectors look like -/

namespace CppQED.TinyIO

/-- Only white space. -/
def Blanks (b : Str) : Prop := ∀ c ∈ b, c ∈ [' ', '\t', '\n', '\x0b', '\x0c', '\r']

/-- A number is not continued by this text. -/
def EndsNumber (r : Str) : Prop := ∀ c, r.head? = some c → c ∈ [',', ']', ')', ' ', '\t', '\n', '\x0b', '\x0c', '\r']

/-- The input of numbers understands the texts `T x t` (`t` is a text of the number `x`), after any white space, and leaves what follows them. -/
structure Understands {α : Type} (S : ScalarIO α) (T : α → Str → Prop) : Prop where
  reads : ∀ x t b r, T x t → Blanks b → EndsNumber r → S.read (b ++ (t ++ r)) = some (x, r)

/-- The texts of numbers begin neither with white space nor with a parenthesis. -/
def NumberTexts (T : ℝ → Str → Prop) : Prop := ∀ x t, T x t → ∃ c r, t = c :: r ∧ c ∉ ['(', ' ', '\t', '\n', '\x0b', '\x0c', '\r']

/-- The texts of a complex number: a real number, a real number in parentheses, or the two parts in parentheses. -/
inductive ComplexText (T : ℝ → Str → Prop) : ℝ × ℝ → Str → Prop
  | plain (x : ℝ) (t : Str) : T x t → ComplexText T (x, 0) t
  | single (x : ℝ) (t b b' : Str) : T x t → Blanks b → Blanks b' → ComplexText T (x, 0) ('(' :: (b ++ (t ++ (b' ++ [')']))))
  | both (x y : ℝ) (t t' b1 b2 b3 b4 : Str) : T x t → T y t' → Blanks b1 → Blanks b2 → Blanks b3 → Blanks b4 →
    ComplexText T (x, y) ('(' :: (b1 ++ (t ++ (b2 ++ ',' :: (b3 ++ (t' ++ (b4 ++ [')'])))))))

/-- What follows the first component: commas and further components, and the closing bracket. White space is allowed between all of them. -/
inductive RestText {α : Type} (T : α → Str → Prop) : List α → Str → Prop
  | close (b : Str) : Blanks b → RestText T [] (b ++ [']'])
  | next (x : α) (l : List α) (t b b' s : Str) : T x t → Blanks b → Blanks b' → RestText T l s → RestText T (x :: l) (b ++ ',' :: (b' ++ (t ++ s)))

/-- The texts of a vector, `[x0,x1,...]`. -/
inductive VectorText {α : Type} (T : α → Str → Prop) : List α → Str → Prop
  | mk (x : α) (l : List α) (t b b' s : Str) : T x t → Blanks b → Blanks b' → RestText T l s → VectorText T (x :: l) (b ++ '[' :: (b' ++ (t ++ s)))

/-- The first character of `s` which is not white space is `c`, and `r` follows it. -/
def Next (s : Str) (c : Char) (r : Str) : Prop := ∃ b, Blanks b ∧ ¬ Blanks [c] ∧ s = b ++ c :: r

/-- Further components in `s`, each after a character which is acceptable where a comma is expected; `r` is left. -/
inductive Parts {α : Type} (S : ScalarIO α) (accept : Char → Char → Prop) : List α → Str → Str → Prop
  | nil (s : Str) : Parts S accept [] s s
  | cons (x : α) (l : List α) (c : Char) (s s1 s2 r : Str) : Next s c s1 → accept ',' c → S.read s1 = some (x, s2) → Parts S accept l s2 r → Parts S accept (x :: l) s r

/-- Components in `s` after a character which is acceptable where a bracket is expected, followed by another such one; `r` is left. -/
inductive Bracketed {α : Type} (S : ScalarIO α) (accept : Char → Char → Prop) : List α → Str → Str → Prop
  | mk (x : α) (l : List α) (c c' : Char) (s s1 s2 s3 r : Str) : Next s c s1 → accept '[' c → S.read s1 = some (x, s2) → Parts S accept l s2 s3 → Next s3 c' r → accept ']' c' →
    Bracketed S accept (x :: l) s r

end CppQED.TinyIO
