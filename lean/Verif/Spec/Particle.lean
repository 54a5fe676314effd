import Verif.Model.Particle
import Verif.Spec.Averages
import Mathlib.MeasureTheory.Integral.IntervalIntegral.Basic

/-!
# The quantum mechanics of a particle in a box with periodic boundary conditions

The particle lives in `[-π,π]`, in the basis of normalised plane waves with the wave numbers `k_j = j - N/2`, `N=2^fin`.
-/

namespace CppQED.Spec
open CppQED.Elem CppQED.ParticleEl
open ComplexConjugate

/-- The wave numbers of the basis. -/
noncomputable def waveNumber (fin j : ℕ) : ℝ := j - 2 ^ fin / 2

/-- The normalised plane waves on `[-π,π]`. -/
noncomputable def planeWave (fin j : ℕ) (x : ℝ) : ℂ := 1 / (Real.sqrt (2 * Real.pi) : ℂ) * Complex.exp (Complex.I * waveNumber fin j * x)

/-- The matrix of the multiplication operator with the function `f`: `⟨k_i|f|k_j⟩`. -/
noncomputable def multiplication (fin : ℕ) (f : ℝ → ℂ) : Dens := fun i j => ∫ x in (-Real.pi)..Real.pi, conj (planeWave fin i x) * f x * planeWave fin j x

/-- The function meant by a mode function. -/
noncomputable def waveFunction (mf : ModeFunction) (x : ℝ) : ℂ :=
  match mf.type with
  | .sin => (Real.sin (mf.nK * x) : ℂ)
  | .cos => (Real.cos (mf.nK * x) : ℂ)
  | .plus => Complex.exp (Complex.I * (mf.nK * x))
  | .minus => Complex.exp (-(Complex.I * (mf.nK * x)))

/-- The momentum operator. -/
noncomputable def momentumOp (fin : ℕ) : Dens := fun i j => if i = j then (waveNumber fin i : ℂ) else 0

/-- The points of the position grid. -/
noncomputable def position (fin n : ℕ) : ℝ := 2 * Real.pi * n / 2 ^ fin - Real.pi

/-- The position operator of the grid: `Σ_n x_n |x_n⟩⟨x_n|` with `⟨x_n|k_j⟩=exp(i k_j x_n)/√N`. -/
noncomputable def positionOp (fin : ℕ) : Dens := fun i j =>
  ∑ n ∈ Finset.range (2 ^ fin), (position fin n : ℂ) * (conj (Complex.exp (Complex.I * waveNumber fin i * position fin n)) * Complex.exp (Complex.I * waveNumber fin j * position fin n)) / (2 ^ fin : ℕ)

/-- The Hamiltonian divided by `i` of a particle with kinetic energy `ω k²` in the potential `V`. -/
noncomputable def particleH (fin : ℕ) (omrec : ℝ) (V : ℝ → ℂ) : Dens := fun i j =>
  (omrec * (if i = j then (waveNumber fin i : ℂ) ^ 2 else 0) + multiplication fin V i j) / Complex.I

end CppQED.Spec
