import Verif.Spec.Element

/-! # Multilevel systems -/

namespace CppQED.Spec
open CppQED.Elem

/-- `|l><m|`. -/
def transition (l m : ℕ) : Dens := fun i j => if i = l ∧ j = m then 1 else 0

/-- The Hamiltonian divided by `i`: detunings; decays out of levels, a list of (from, rate); drives, a list of (l, m, η): `η* |l><m| - η |m><l|`. -/
noncomputable def multiH (δ : ℕ → ℝ) (γ : List (ℕ × ℝ)) (η : List (ℕ × ℕ × ℂ)) : Dens := fun i j =>
  (if i = j then Complex.I * δ i - (γ.map fun g => if g.1 = i then (g.2 : ℂ) else 0).sum else 0) +
    (η.map fun e => (starRingEnd ℂ) e.2.2 * transition e.1 e.2.1 i j - e.2.2 * transition e.2.1 e.1 i j).sum

end CppQED.Spec
