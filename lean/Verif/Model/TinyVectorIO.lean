import Verif.Model.Tridiagonal

/-!
# Text of short vectors

`IO_Manipulator` of CPPQEDutils/IO_Manip.h, with which the parameters given for each level (ParsMultiLevel.h) are written and read.
-/

namespace CppQED.TinyIO
open CppQED.Tridiag

/-- Text in a stream. -/
abbrev Str := List Char

/-- What `std::isspace` takes for white space in the default locale. -/
def isBlank (c : Char) : Bool := c == ' ' || c == '\t' || c == '\n' || c == '\x0b' || c == '\x0c' || c == '\r'

/-- The white space skipped before each formatted input (`std::skipws`). -/
def skip (s : Str) : Str := s.dropWhile isBlank

/-- `is >> sep` for a `char` (IO_Manip.h:41, 47, 53). -/
def getChar (s : Str) : Option (Char × Str) :=
  match skip s with
  | [] => none
  | c :: r => some (c, r)

/-- `operator<<` and `operator>>` of the components. The second gives the value and the text which is left, or `none` if the stream fails. Those of `double` belong to the standard library and are a parameter of the model. -/
structure ScalarIO (α : Type) where
  write : α → Str
  read : Str → Option (α × Str)

/-- `operator<<` of `std::complex<double>`. -/
def complexWrite (S : ScalarIO ℝ) (z : ℝ × ℝ) : Str := '(' :: (S.write z.1 ++ ',' :: (S.write z.2 ++ [')']))

/-- What follows the real part in `operator>>` of `std::complex<double>`: `)`, or `,`, the imaginary part and `)`. -/
def complexTail (S : ScalarIO ℝ) (re : ℝ) (s : Str) : Option ((ℝ × ℝ) × Str) :=
  match getChar s with
  | none => none
  | some (c, s) =>
    if c = ')' then some ((re, 0), s)
    else if c = ',' then
      match S.read s with
      | none => none
      | some (im, s) =>
        match getChar s with
        | none => none
        | some (c, s) => if c = ')' then some ((re, im), s) else none
    else none

/-- `operator>>` of `std::complex<double>` (that of libstdc++): `re`, `(re)` or `(re,im)`. The pair stands for the complex number. -/
def complexRead (S : ScalarIO ℝ) (s : Str) : Option ((ℝ × ℝ) × Str) :=
  match getChar s with
  | none => none
  | some (c, s') =>
    if c = '(' then
      match S.read s' with
      | none => none
      | some (re, r) => complexTail S re r
    else
      match S.read s with
      | none => none
      | some (re, r) => some ((re, 0), r)

/-- The components of `TinyVector<dcomp,NL>` (IO_Manip.h:69-70). -/
def complexIO (S : ScalarIO ℝ) : ScalarIO (ℝ × ℝ) := ⟨complexWrite S, complexRead S⟩

/-- The loop of `outputTinyVector` (IO_Manip.h:30). -/
def outputRest {α : Type} (S : ScalarIO α) : List α → Str
  | [] => []
  | x :: l => ',' :: (S.write x ++ outputRest S l)

/-- `IO_Manipulator::outputTinyVector` (IO_Manip.h:26-32). A vector has at least one component, since `x[0]` is accessed. -/
def output {α : Type} (S : ScalarIO α) : List α → Outcome Str
  | [] => .undef
  | x :: l => .ok ('[' :: (S.write x ++ (outputRest S l ++ [']'])))

/-- `is >> sep` and the check after it (IO_Manip.h:41-42, 47-48, 53-54). `checks` says if `BZPRECHECK` is in effect, which is so only if `BZ_DEBUG` is defined, which nothing in the framework does. Simplified: a failed stream and a failed check
(which stops the program) are the same outcome. -/
def separator (checks : Bool) (expected : Char) (s : Str) : Outcome Str :=
  match getChar s with
  | none => .throw
  | some (c, s) => if checks && c != expected then .throw else .ok s

/-- `is >> x(i)` (IO_Manip.h:44, 51). Simplified: what the component is when the stream fails is not modelled. -/
def component {α : Type} (S : ScalarIO α) (s : Str) : Outcome (α × Str) :=
  match S.read s with
  | none => .throw
  | some r => .ok r

/-- The loop of `inputTinyVector` (IO_Manip.h:45-52): the delimiter is no white space, so it is always read. -/
def inputRest {α : Type} (S : ScalarIO α) (checks : Bool) : ℕ → Str → Outcome (List α × Str)
  | 0, s => .ok ([], s)
  | n + 1, s => (separator checks ',' s).bind fun s => (component S s).bind fun (x, s) => (inputRest S checks n s).bind fun (l, s) => .ok (x :: l, s)

/-- `IO_Manipulator::inputTinyVector` (IO_Manip.h:34-57) for vectors of `n + 1` components. -/
def input {α : Type} (S : ScalarIO α) (checks : Bool) (n : ℕ) (s : Str) : Outcome (List α × Str) :=
  (separator checks '[' s).bind fun s => (component S s).bind fun (x, s) => (inputRest S checks n s).bind fun (l, s) => (separator checks ']' s).bind fun s => .ok (x :: l, s)

/-- The extraction of a vector as a parameter (`Typed<T>::read_v`, Pars.h:92), in the form it has in `Model/Pars`: the value and the number of the characters consumed. `inj` makes of the vector a value of the table.
Simplified: a failed check, which stops the program on the spot, is a failed extraction, which makes the table stop it (Pars.cc:154). -/
def vectorParam {α V : Type} (S : ScalarIO α) (checks : Bool) (n : ℕ) (inj : List α → V) (s : Str) : Option (V × ℕ) :=
  match input S checks n s with
  | .ok (l, r) => some (inj l, s.length - r.length)
  | _ => none

end CppQED.TinyIO
