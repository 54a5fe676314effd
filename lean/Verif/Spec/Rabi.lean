import Verif.Spec.Interactions

/-! # Rabi oscillations in the Jaynes-Cummings system without losses -/

namespace CppQED.Spec
open scoped ComplexConjugate

/-- The generalised Rabi frequency (half of the frequency of the populations) of an atom and `n+1` excitations altogether, `δq` and `δm` being the detunings of the atom and the mode. -/
noncomputable def rabiFrequency (g : ℂ) (δq δm : ℝ) (n : ℕ) : ℝ := Real.sqrt (((δq - δm) / 2) ^ 2 + Complex.normSq g * (n + 1))

/-- The state at the time `t`, apart from its global phase, if at `t=0` the atom was excited and there were `n` photons in the mode: the component with excited atom and `n` photons; the one with the atom in the ground state and
`n+1` photons; there is nothing else. -/
noncomputable def rabiKet (g : ℂ) (δq δm : ℝ) (n : ℕ) (t : ℝ) (i : List ℤ) : ℂ :=
  if q i 0 = 1 ∧ q i 1 = n then (Real.cos (rabiFrequency g δq δm n * t) : ℂ) + Complex.I * ((δq - δm) / 2 / rabiFrequency g δq δm n * Real.sin (rabiFrequency g δq δm n * t))
  else if q i 0 = 0 ∧ q i 1 = n + 1 then conj g * Real.sqrt (n + 1) / rabiFrequency g δq δm n * Real.sin (rabiFrequency g δq δm n * t)
  else 0

/-- The frequency of the global phase. -/
noncomputable def rabiPhase (δq δm : ℝ) (n : ℕ) : ℝ := (δq + (2 * n + 1) * δm) / 2

end CppQED.Spec
