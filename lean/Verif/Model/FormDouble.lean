import Mathlib.Analysis.SpecialFunctions.Log.Base
import Mathlib.Data.List.DropRight

/-!
# Model of the formatting of numbers and of the rows of the output (FormDouble.h, FormDouble.cc, ElementAveraged.cc, Trajectory.h, Simulated_.h)

Text is `List Char`.
-/

namespace CppQED.FormDouble

/-- The values of the type `double`: the sign bit, and the modulus of finite numbers. (Which real numbers are moduli does not matter beyond the limits in `Valid`.) -/
inductive Double where
  | nan (neg : Bool)
  | inf (neg : Bool)
  | fin (neg : Bool) (x : ℝ)

/-- The range of the moduli of IEEE doubles, denormalised ones included. -/
def Double.Valid : Double → Prop
  | .fin _ x => x = 0 ∨ ((2 : ℝ) ^ (-1074 : ℤ) ≤ x ∧ x < 2 ^ (1024 : ℤ))
  | _ => True

/-! ## Conversion of floating point numbers by the C++ library: the conversion specifier `%g` -/

open Classical in
/-- Rounding to nearest, ties to even. -/
noncomputable def roundEven (y : ℝ) : ℕ :=
  if y - ⌊y⌋₊ < 1 / 2 then ⌊y⌋₊ else if 1 / 2 < y - ⌊y⌋₊ then ⌊y⌋₊ + 1 else if Even ⌊y⌋₊ then ⌊y⌋₊ else ⌊y⌋₊ + 1

open Classical in
/-- The conversion of style `e`: decimal exponent and the `P` significant digits as one number. -/
noncomputable def sci (P : ℕ) (x : ℝ) : ℤ × ℕ :=
  if x = 0 then (0, 0)
  else
    let X := ⌊Real.logb 10 x⌋
    let n := roundEven (x * (10 : ℝ) ^ ((P : ℤ) - 1 - X))
    if n = 10 ^ P then (X + 1, 10 ^ (P - 1)) else (X, n)

/-- `k` decimal digits. -/
def digs : ℕ → ℕ → List Char
  | 0, _ => []
  | k + 1, n => digs k (n / 10) ++ [Nat.digitChar (n % 10)]

/-- Integer and fractional part; trailing zeros of the latter are removed, and so is the point if nothing remains. -/
def withPoint (i f : List Char) : List Char :=
  i ++ if f.rdropWhile (· == '0') = [] then [] else '.' :: f.rdropWhile (· == '0')

/-- The exponent: sign and at least two digits. -/
def expo (X : ℤ) : List Char := (if X < 0 then '-' else '+') :: digs (max 2 (Nat.log 10 X.natAbs + 1)) X.natAbs

/-- `%.{P}g` of a non-negative number, from the conversion of style `e` (C standard, 7.21.6.1). -/
def general (P : ℕ) (X : ℤ) (n : ℕ) : List Char :=
  let ds := digs P n
  if -4 ≤ X ∧ X < P then
    if 0 ≤ X then withPoint (ds.take (X.toNat + 1)) (ds.drop (X.toNat + 1))
    else withPoint ['0'] (List.replicate (-X - 1).toNat '0' ++ ds)
  else withPoint (ds.take 1) (ds.drop 1) ++ 'e' :: expo X

/-- The precision as `%g` understands it: a negative one is as if it were omitted, zero is taken to be 1. -/
def effective (p : ℤ) : ℕ := if p < 0 then 6 else if p = 0 then 1 else p.toNat

/-- The sign. -/
def sgn (neg : Bool) : List Char := if neg then ['-'] else []

/-- `os << v` for a stream of precision `p` with default format and no width. -/
noncomputable def plain (p : ℤ) : Double → List Char
  | .nan s => sgn s ++ ['n', 'a', 'n']
  | .inf s => sgn s ++ ['i', 'n', 'f']
  | .fin s x => sgn s ++ general (effective p) (sci (effective p) x).1 (sci (effective p) x).2

/-- `os << z` for `std::complex<double>`: the standard prescribes an auxiliary stream with the same precision. -/
noncomputable def plainComplex (p : ℤ) (z : Double × Double) : List Char := '(' :: plain p z.1 ++ ',' :: plain p z.2 ++ [')']

/-! ## FormDouble -/

/-- `FormDouble` (FormDouble.h:26-61). -/
structure Form where
  precision : ℤ
  width : ℤ

/-- `formdouble::widthPositive` (FormDouble.cc:26-29); `numeric_limits<double>::min()` is 2^-1022. -/
noncomputable def widthPositive (precision : ℤ) : ℤ := (⌊Real.logb 10 (-Real.logb 10 ((2 : ℝ) ^ (-1022 : ℤ)))⌋ + 1) + precision + 4

/-- `formdouble::widthAny` (FormDouble.cc:32-35). -/
noncomputable def widthAny (precision : ℤ) : ℤ := widthPositive precision + 1

/-- `FormDouble::FormDouble(int)` (FormDouble.cc:40-43). -/
noncomputable def form (precision : ℤ) : Form := ⟨precision, widthAny precision⟩

/-- `formdouble::actualPrecision` (FormDouble.h:78). -/
def actualPrecision (precision : ℤ) : ℤ := max 6 precision

/-- `formdouble::positive` (FormDouble.h:116-117). -/
noncomputable def positive (precision : ℤ) : Form := ⟨actualPrecision precision, widthPositive (actualPrecision precision)⟩

/-- `operator<<(ostream&, const Bound<T>&)` (FormDouble.h:94-105), for a value whose text is `s`: left adjusted and filled up with blanks to the width. -/
def adjusted (f : Form) (s : List Char) : List Char := s ++ List.replicate (f.width.toNat - s.length) ' '

/-- The same for a `double`. -/
noncomputable def bound (f : Form) (v : Double) : List Char := adjusted f (plain f.precision v)

/-! ## Rows of the output -/

/-- `structure::details::streamCommon` (ElementAveraged.cc:13-23): the averages of one element. -/
noncomputable def streamCommon (precision : ℤ) (averages : List Double) : List Char := '\t' :: averages.flatMap (bound (form precision))

/-- The entanglement measures in `DensityOperatorStreamer::operator()` (DensityOperatorStreamer.h:38-58). -/
noncomputable def streamMeasures (precision : ℤ) (ms : List Double) : List Char := ms.flatMap fun m => '\t' :: bound (form precision) m

/-- `trajectory::stream` (Trajectory.h:427-437) for quantum trajectories: time, last step, the averages of the elements in turn (Composite.tcc:365-382, BinarySystem.cc:89-105; `Structure.h:46-61`), the entanglement
measures. -/
noncomputable def streamRow (precision : ℤ) (t dt : Double) (elements : List (List Double)) (measures : List Double) : List Char :=
  bound (positive precision) t ++ bound (positive precision) dt ++ elements.flatMap (streamCommon precision) ++ streamMeasures precision measures ++ ['\n']

/-- The same for `Simulated` with a real state (Simulated_.h:50-55). -/
noncomputable def streamSimulated (precision : ℤ) (t dt : Double) (state : List Double) : List Char :=
  bound (positive precision) t ++ bound (positive precision) dt ++ (state.flatMap fun v => bound (form precision) v ++ [' ']) ++ ['\n']

/-- The same with a complex state: the width applies to the whole number. -/
noncomputable def streamSimulatedComplex (precision : ℤ) (t dt : Double) (state : List (Double × Double)) : List Char :=
  bound (positive precision) t ++ bound (positive precision) dt ++ (state.flatMap fun z => adjusted (form precision) (plainComplex precision z) ++ [' ']) ++ ['\n']

end CppQED.FormDouble
