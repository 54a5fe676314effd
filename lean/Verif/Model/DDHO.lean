import Mathlib.Analysis.SpecialFunctions.Pow.Complex
import Mathlib.LinearAlgebra.Matrix.NonsingularInverse
import Mathlib.LinearAlgebra.Matrix.Notation

/-!
# Model of the reference solution of the driven damped harmonic oscillator

Source: `/repo/CPPQEDutils/DrivenDampedHarmonicOscillator.cc`, `/repo/CPPQEDutils/DrivenDampedHarmonicOscillator.h`.
Numbers are exact; Eigen's `fullPivLu().solve` is the multiplication with the inverse of the matrix (its result for singular matrices is not modelled).
-/

namespace CppQED.DDHO
open Complex

/-- `ddho::_::c` (DrivenDampedHarmonicOscillator.cc:10-13). -/
noncomputable def c (γ ω t : ℝ) : ℂ := exp (I * ω * t) / (1 + 2 * I * γ * ω - ω ^ 2)

/-- The initialiser of `a_` (DrivenDampedHarmonicOscillator.cc:16-18). -/
noncomputable def coeffs (γ ω : ℝ) (m : Matrix (Fin 2) (Fin 2) ℂ) (ampTI ampDerivTI : ℂ) (tInit : ℝ) : Fin 2 → ℂ :=
  m⁻¹.mulVec ![ampTI - c γ ω tInit, ampDerivTI - I * ω * c γ ω tInit]

/-- The object: `amp` and `ampDeriv` (DrivenDampedHarmonicOscillator.h:28-45). -/
structure Osc where
  amp : ℝ → ℂ
  ampDeriv : ℝ → ℂ

/-- `DDHO` (DrivenDampedHarmonicOscillator.cc:27-43). -/
noncomputable def ddho (γ ω : ℝ) (ampTI ampDerivTI : ℂ) (tInit : ℝ) : Osc :=
  let s : ℂ := ((γ ^ 2 - 1 : ℝ) : ℂ) ^ ((1 / 2 : ℂ))
  let first : ℂ := -γ + s
  let second : ℂ := -γ - s
  let a := coeffs γ ω !![exp (first * tInit), exp (second * tInit); first * exp (first * tInit), second * exp (second * tInit)] ampTI ampDerivTI tInit
  { amp := fun t => exp (first * t) * a 0 + exp (second * t) * a 1 + c γ ω t
    ampDeriv := fun t => first * exp (first * t) * a 0 + second * exp (second * t) * a 1 + I * ω * c γ ω t }

/-- `DDHO_Critical` (DrivenDampedHarmonicOscillator.cc:46-58). -/
noncomputable def ddhoCritical (ω : ℝ) (ampTI ampDerivTI : ℂ) (tInit : ℝ) : Osc :=
  let a := coeffs 1 ω !![exp (-tInit), tInit * exp (-tInit); -exp (-tInit), -(tInit - 1) * exp (-tInit)] ampTI ampDerivTI tInit
  { amp := fun t => exp (-t) * a 0 + t * exp (-t) * a 1 + c 1 ω t
    ampDeriv := fun t => -exp (-t) * a 0 - (t - 1) * exp (-t) * a 1 + I * ω * c 1 ω t }

open Classical in
/-- `ddho::make` (DrivenDampedHarmonicOscillator.cc:64-70). -/
noncomputable def make (γ ω : ℝ) (ampTI ampDerivTI : ℂ) (tInit : ℝ) : Osc :=
  if γ = 1 then ddhoCritical ω ampTI ampDerivTI tInit else ddho γ ω ampTI ampDerivTI tInit

end CppQED.DDHO
