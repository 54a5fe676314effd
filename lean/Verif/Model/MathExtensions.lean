import Mathlib.Analysis.SpecialFunctions.Pow.Real
import Mathlib.Analysis.SpecialFunctions.Trigonometric.Basic
import Mathlib.Analysis.Complex.Exponential
import Mathlib.Data.Nat.Choose.Basic
import Mathlib.Data.Nat.Factorial.Basic

/-!
# Model of the mathematical helper functions and of the basic states of a mode

Sources: `/repo/CPPQEDutils/MathExtensions.cc`, `/repo/CPPQEDutils/MathExtensions.h`, `/repo/CPPQEDelements/frees/Mode.cc:321-339`.
Numbers are exact. The functions of GSL and Boost.Math are their documented mathematical functions.
-/

namespace CppQED.MathExt

/-- The results of a computation with error branches. -/
inductive Res (α : Type) where
  | ok (a : α)
  /-- A C++ exception. -/
  | throws
  /-- The error handler of GSL, which by default aborts the program. -/
  | gslError

/-- `fact` (MathExtensions.cc:24-28), `GSL_SF_FACT_NMAX` is 170. -/
def fact (n : ℕ) : Res ℕ := if n > 170 then .throws else .ok n.factorial

/-- `choose` (MathExtensions.cc:30-33): `gsl_sf_choose` is a domain error for `m>n`. -/
def choose (n m : ℕ) : Res ℕ := if m > n then .gslError else .ok (n.choose m)

/-- `multiChoose` (MathExtensions.h:32-33) for arguments where `n+k-1` does not wrap around. -/
def multiChoose (n k : ℕ) : ℕ := (n + k - 1).choose k

/-- `coherentElement` (MathExtensions.cc:35-41), `max_factorial<double>::value` is 170. -/
noncomputable def coherentElement (n : ℕ) (α : ℂ) : ℂ :=
  if n ≠ 0 then
    if n < 170 then α ^ n / (Real.sqrt n.factorial : ℂ)
    else ((2 * n * Real.pi) ^ (-(1 / 4) : ℝ) : ℝ) * (α / (Real.sqrt (n / Real.exp 1) : ℂ)) ^ n
  else 1

/-- `sqrAbs` (MathExtensions.cc:22). -/
noncomputable def sqrAbs (x : ℂ) : ℝ := x.re ^ 2 + x.im ^ 2

/-- `mode::coherent` (Mode.cc:321-324). -/
noncomputable def coherent (α : ℂ) (dim : ℕ) : Fin dim → ℂ := fun n => Real.exp (-sqrAbs α / 2) * coherentElement n α

/-- `mode::fock` (Mode.cc:327-333). -/
noncomputable def fock (n dim : ℕ) (phase : ℝ) : Res (Fin dim → ℂ) :=
  if n ≥ dim then .throws else .ok fun i => if i.1 = n then Complex.exp (Complex.I * phase) else 0

/-- `mode::init` (Mode.cc:336-339). -/
noncomputable def init (minitFock : ℕ) (minit : ℂ) (cutoff : ℕ) : Res (Fin cutoff → ℂ) :=
  if minitFock ≠ 0 then fock minitFock cutoff 0 else .ok (coherent minit cutoff)

end CppQED.MathExt
