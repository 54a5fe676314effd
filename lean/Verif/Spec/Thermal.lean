import Verif.Spec.Relaxation

/-! # The thermal state of a mode with a finite number of levels -/

namespace CppQED.Relax
open Matrix

/-- The probability of `k` photons in the mode of `d` levels in equilibrium with a reservoir of `n` thermal photons: proportional to `(n/(n+1))^k`. -/
noncomputable def planck (d : ℕ) (n : ℝ) (k : ℕ) : ℝ := (n / (n + 1)) ^ k / ∑ i ∈ Finset.range d, (n / (n + 1)) ^ i

/-- The thermal state. -/
noncomputable def thermal (d : ℕ) (n : ℝ) : Matrix (Fin d) (Fin d) ℂ := diagonal fun k => (planck d n k : ℂ)

end CppQED.Relax
