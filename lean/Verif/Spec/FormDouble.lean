import Verif.Model.FormDouble

/-!
# What it means to read the output: columns of text, and decimal numbers
-/

namespace CppQED.FormDouble

/-- White space separating columns. -/
def isSpace (c : Char) : Bool := c == ' ' || c == '\t'

/-- The columns of a line: the maximal parts without white space. -/
def columns (s : List Char) : List (List Char) := (s.splitOnP isSpace).filter (· ≠ [])

/-- The lines of a text. -/
def lines (s : List Char) : List (List Char) := (s.splitOnP (· == '\n')).dropLast

/-- The natural number written by decimal digits. -/
def natOf (l : List Char) : ℕ := l.foldl (fun a c => 10 * a + (c.toNat - '0'.toNat)) 0

/-- The number after the letter `e`. -/
def expOf : List Char → ℤ
  | [] => 0
  | '-' :: d => -(natOf d)
  | '+' :: d => natOf d
  | d => natOf d

/-- The value of an unsigned decimal number, such as `12`, `1.25`, `3.2e-05`. -/
noncomputable def readUnsigned (s : List Char) : ℝ :=
  let mantissa := s.takeWhile (· ≠ 'e')
  let exponent := (s.dropWhile (· ≠ 'e')).drop 1
  let whole := mantissa.takeWhile (· ≠ '.')
  let fraction := (mantissa.dropWhile (· ≠ '.')).drop 1
  (natOf (whole ++ fraction) : ℝ) * (10 : ℝ) ^ (expOf exponent - fraction.length)

/-- The value of a decimal number. -/
noncomputable def readNumber : List Char → ℝ
  | '-' :: r => -readUnsigned r
  | r => readUnsigned r

/-- The number a finite `double` stands for. -/
noncomputable def Double.value : Double → ℝ
  | .fin s x => if s then -x else x
  | _ => 0

/-- Finite. -/
def Double.Finite : Double → Prop
  | .fin _ _ => True
  | _ => False

/-- The sign bit. -/
def Double.Negative : Double → Bool
  | .nan s => s
  | .inf s => s
  | .fin s _ => s

end CppQED.FormDouble
