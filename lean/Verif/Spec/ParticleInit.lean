import Verif.Spec.Particle
import Mathlib.Analysis.Calculus.Deriv.Basic
import Mathlib.Analysis.Calculus.ContDiff.Defs
import Mathlib.Analysis.SpecialFunctions.Sqrt

/-!
# Wave functions of a particle: the two representations on the grid, and the harmonic oscillator
-/

namespace CppQED.Spec
open Filter Topology CppQED.ParticleEl

/-- The amplitudes in the points of the position grid of a state given either by its momentum amplitudes (`inK`), `⟨x_n|ψ⟩=Σ_j exp(i k_j x_n) ψ_j/√N`, or by the position amplitudes themselves. -/
noncomputable def positionAmplitude (fin : ℕ) (inK : Bool) (psi : ℕ → ℂ) (n : ℕ) : ℂ :=
  if inK then ∑ j ∈ Finset.range (2 ^ fin), Complex.exp (Complex.I * waveNumber fin j * position fin n) / (Real.sqrt (2 ^ fin) : ℂ) * psi j else psi n

/-- The momentum amplitudes `⟨k_j|ψ⟩=Σ_n exp(-i k_j x_n) ψ_n/√N`, similarly. -/
noncomputable def momentumAmplitude (fin : ℕ) (inK : Bool) (psi : ℕ → ℂ) (j : ℕ) : ℂ :=
  if inK then psi j else ∑ n ∈ Finset.range (2 ^ fin), Complex.exp (-(Complex.I * waveNumber fin j * position fin n)) / (Real.sqrt (2 ^ fin) : ℂ) * psi n

/-- Unit norm. -/
def Normalised (fin : ℕ) (psi : ℕ → ℂ) : Prop := ∑ n ∈ Finset.range (2 ^ fin), Complex.normSq (psi n) = 1

/-- The amplitudes `a` are those of the wave function `f` taken in the points `p`, up to normalisation and phase. -/
def Samples (fin : ℕ) (a : ℕ → ℂ) (p : ℕ → ℝ) (f : ℝ → ℂ) : Prop := ∃ c : ℂ, c ≠ 0 ∧ ∀ n < 2 ^ fin, a n = c * f (p n)

/-- `g` is a bound state of the harmonic oscillator `-ω d²/dx² + κ (x-x₀)²`, with the energy of the `n`th level. -/
structure HarmonicState (ω κ x₀ : ℝ) (n : ℕ) (g : ℝ → ℝ) : Prop where
  smooth : ContDiff ℝ 2 g
  nonzero : g ≠ 0
  bound : Tendsto g (cocompact ℝ) (𝓝 0)
  eigen : ∀ x, -ω * deriv (deriv g) x + κ * (x - x₀) ^ 2 * g x = (2 * n + 1) * Real.sqrt (ω * κ) * g x

/-- The ground state of the harmonic oscillator `-ω d²/dx² + κ (x-x₀)²`, without normalisation. -/
noncomputable def groundState (ω κ x₀ x : ℝ) : ℝ := Real.exp (-(Real.sqrt (κ / ω) * (x - x₀) ^ 2) / 2)

/-- The optical potential of strength `v` in the given mode. -/
noncomputable def opticalPotential (v : ℝ) (mf : ModeFunction) (x : ℝ) : ℝ := v * Complex.normSq (waveFunction mf x)

/-- `κ (x-x₀)²` is the harmonic approximation of the potential `V` around its minimum `x₀`. -/
structure HarmonicApproximation (V : ℝ → ℝ) (x₀ κ : ℝ) : Prop where
  stationary : deriv V x₀ = 0
  curvature : deriv (deriv V) x₀ / 2 = κ
  minimum : 0 < κ

end CppQED.Spec
