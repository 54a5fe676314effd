import Mathlib.Data.Int.Log
import Mathlib.Data.Real.Basic
import Mathlib.Algebra.Order.Archimedean.Real.Basic

/-! # Comparison of numbers up to rounding: `cppqedutils::FuzzyDouble` (CPPQEDutils/FuzzyDouble.h, FuzzyDouble.cc)

Simplified: the numbers are real; there is no rounding, no overflow and no NaN. `gsl_fcmp` is a function of the GSL, modelled after its documentation and source (sys/fcmp.c). -/

namespace CppQED.Fuzzy

/-- `FuzzyDouble::eps` (FuzzyDouble.cc:12): the machine epsilon is `2⁻⁵²`. -/
noncomputable def eps : ℝ := 10 * (1 / 2 ^ 52)

/-- The exponent that `frexp` gives: `x` is this power of two times a number whose absolute value is in `[1/2, 1)`; it is 0 for 0. -/
noncomputable def exponent (x : ℝ) : ℤ := if x = 0 then 0 else Int.log 2 |x| + 1

/-- `gsl_fcmp(x1,x2,epsilon)`, called at FuzzyDouble.cc:17, 23, 29, 35, 41. -/
noncomputable def fcmp (x1 x2 epsilon : ℝ) : ℤ :=
  let max := if |x1| > |x2| then x1 else x2
  let delta := epsilon * 2 ^ exponent max
  let difference := x1 - x2
  if difference > delta then 1 else if difference < -delta then -1 else 0

/-- `operator==` (FuzzyDouble.cc:15-18, 27-30). -/
noncomputable def eq (a b : ℝ) : Bool := fcmp a b eps == 0

/-- `operator<` (FuzzyDouble.cc:21-24, 33-36). -/
noncomputable def lt (a b : ℝ) : Bool := decide (fcmp a b eps < 0)

/-- `operator>` between a `FuzzyDouble` and a `double` (FuzzyDouble.cc:39-42). -/
noncomputable def gt (a b : ℝ) : Bool := decide (fcmp a b eps > 0)

/-- `operator>` between two `FuzzyDouble`s, from `boost::totally_ordered<FuzzyDouble>` (FuzzyDouble.h:11): `y < x`. -/
noncomputable def gt' (a b : ℝ) : Bool := lt b a

/-- `operator!=`, from `boost::totally_ordered` (FuzzyDouble.h:11): `!(x == y)`. -/
noncomputable def ne (a b : ℝ) : Bool := !eq a b

/-- `operator<=` between two `FuzzyDouble`s, from `boost::totally_ordered<FuzzyDouble>` (FuzzyDouble.h:11): `!(y < x)`. -/
noncomputable def le (a b : ℝ) : Bool := !lt b a

/-- `operator<=` between a `FuzzyDouble` and a `double`, from `boost::totally_ordered<FuzzyDouble,double>` (FuzzyDouble.h:11): `!(x > y)`. -/
noncomputable def le' (a b : ℝ) : Bool := !gt a b

/-- `operator>=`, from `boost::totally_ordered` (FuzzyDouble.h:11): `!(x < y)`. -/
noncomputable def ge (a b : ℝ) : Bool := !lt a b

end CppQED.Fuzzy
