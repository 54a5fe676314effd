import Mathlib.Data.String.Basic

/-!
# The generator of the explicitly specialised `apply` (CPPQEDcore/quantumoperator/applyImpl/generate.py)

The script prints a C++ source for the rank given in the command line. The model is the printed text. The argument is a decimal numeral (`int(argv[1])` accepts spaces and signs, too).
-/

namespace CppQED.ApplyGen

/-- The Python statement `print s`. -/
def line (s : String) : String := s ++ "\n"

/-- The branch of `recurse` for `i>=rank` (generate.py:17-19): what is printed. -/
def statement (j : ℕ) (s0 s1 s2 : String) : String :=
  line ("  if (a(" ++ toString j ++ ").size()) dpsidt(" ++ s0 ++ ")+=a(" ++ toString j ++ ")(" ++ s1 ++ ")*psi(" ++ s2 ++ ");")

/-- `recurse(j, i, s0, s1, s2)` (generate.py:13-19) with `n=rank-i`: what is printed, and what is returned. The arguments of a call are evaluated first, hence the innermost call prints first. -/
def recurse : (n i j : ℕ) → (s0 s1 s2 : String) → String × ℕ
  | 0, _, j, s0, s1, s2 => (statement j s0 s1 s2, j + 1)
  | n + 1, i, j, s0, s1, s2 =>
    let s := ",I" ++ toString i
    let a := recurse n (i + 1) j (s0 ++ s ++ " ") (s1 ++ s ++ " ") (s2 ++ s ++ " ")
    let b := recurse n (i + 1) a.2 (s0 ++ s ++ "h") (s1 ++ s ++ "l") (s2 ++ s ++ "l")
    let c := recurse n (i + 1) b.2 (s0 ++ s ++ "l") (s1 ++ s ++ "l") (s2 ++ s ++ "h")
    (a.1 ++ b.1 ++ c.1, c.2)

/-- The body of the loop over the axes (generate.py:38-41). -/
def ranges1 (rank i : ℕ) : String :=
  let s := toString i
  line ("    I" ++ s ++ " (0,psi.ubound(" ++ s ++ ")),\n    I" ++ s ++ "l(0,psi.ubound(" ++ s ++ ")-int(K(" ++ s ++ "))),\n    I" ++ s ++ "h(I" ++ s ++ "l+int(K(" ++ s ++ ")))" ++
    if i + 1 < rank then "," else ";\n")

/-- The loop over the axes (generate.py:37-41), `n` rounds before its end. -/
def rangesLoop (rank : ℕ) : ℕ → String
  | 0 => ""
  | n + 1 => ranges1 rank (rank - (n + 1)) ++ rangesLoop rank n

/-- The text before the declarations (generate.py:21-35). -/
def header (rank : ℕ) : String :=
  line ("#include \"Tridiagonal.h\"\n\n\nnamespace quantumoperator {\n\n\ntemplate<>\nvoid Tridiagonal<" ++ toString rank ++
    ">::apply(const StateVectorLow& psi, StateVectorLow& dpsidt) const\n{\n  using blitz::Range;\n  \n  const Diagonals & a=diagonals_  ;\n  const Dimensions& K=differences_;\n\n  Range")

/-- The text after the statements (generate.py:45-50). -/
def footer : String := line "\n}\n\n\n} // quantumoperator\n"

/-- The outermost calls of `recurse` (generate.py:43). -/
def body (rank : ℕ) : String :=
  let a := recurse (rank - 1) 1 0 "I0 " "I0 " "I0 "
  let b := recurse (rank - 1) 1 a.2 "I0h" "I0l" "I0l"
  let c := recurse (rank - 1) 1 b.2 "I0l" "I0l" "I0h"
  a.1 ++ b.1 ++ c.1

/-- The whole script: the text printed. -/
def generate (rank : ℕ) : String := header rank ++ rangesLoop rank rank ++ body rank ++ footer

end CppQED.ApplyGen
