import Verif.Spec.Particle

/-! # The density matrix of a particle in the basis of its plane waves and of its grid points -/

namespace CppQED.Revival
open CppQED.Spec
open scoped ComplexConjugate

/-- The phase the plane wave of index `i` collects in the time `T`: `exp(-i ω k_i² T)`. -/
noncomputable def phase (fin : ℕ) (ω T : ℝ) (i : ℕ) : ℂ := Complex.exp (-(Complex.I * ω * (waveNumber fin i : ℂ) ^ 2 * T))

/-- The amplitude of the plane wave of index `i` in the grid point `m`: `⟨x_m|k_i⟩`. -/
noncomputable def wave (fin m i : ℕ) : ℂ := Complex.exp (Complex.I * waveNumber fin i * position fin m) / (Real.sqrt (2 ^ fin) : ℂ)

/-- The matrix element `⟨x_m|ρ|x_n⟩` of a density operator given in the basis of the plane waves. -/
noncomputable def inPosition (fin : ℕ) {d : ℕ} (rho : Matrix (Fin d) (Fin d) ℂ) (m n : ℕ) : ℂ := ∑ i : Fin d, ∑ j : Fin d, wave fin m i * rho i j * conj (wave fin n j)

/-- The density operator of a Master-equation trajectory as the averages of the particle are given it. -/
noncomputable def entries {d : ℕ} (rho : Matrix (Fin d) (Fin d) ℂ) : Elem.Dens := fun i j => if h : i < d ∧ j < d then rho ⟨i, h.1⟩ ⟨j, h.2⟩ else 0

/-- The grid point opposite to the point `m`: half of the grid away. -/
def opposite (fin m : ℕ) : ℕ := (m + 2 ^ fin / 2) % 2 ^ fin

end CppQED.Revival
