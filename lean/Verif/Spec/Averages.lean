import Verif.Spec.Mode
import Mathlib.LinearAlgebra.Matrix.PosDef

/-!
# Averages

Expectation values, variances and covariances of Hermitian operators.
-/

namespace CppQED.Spec
open CppQED.Elem Matrix

variable {ι : Type*} [Fintype ι]

/-- The expectation value of the Hermitian operator `A`, `Tr(Aρ)`. -/
noncomputable def mean (A ρ : Matrix ι ι ℂ) : ℝ := (A * ρ).trace.re

/-- The variance of the Hermitian operator `A`. -/
noncomputable def variance (A ρ : Matrix ι ι ℂ) : ℝ := mean (A * A) ρ - mean A ρ ^ 2

/-- The (symmetrically ordered) covariance of two Hermitian operators. -/
noncomputable def covariance (A B ρ : Matrix ι ι ℂ) : ℝ := mean (A * B + B * A) ρ / 2 - mean A ρ * mean B ρ

/-- The quadrature `X=(a+a†)/√2`. -/
noncomputable def xOp : Dens := fun i j => (aOp i j + adOp i j) / Real.sqrt 2

/-- The quadrature `Y=(a-a†)/(i√2)`. -/
noncomputable def yOp : Dens := fun i j => (aOp i j - adOp i j) / (Complex.I * Real.sqrt 2)

end CppQED.Spec
