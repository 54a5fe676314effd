import Verif.Spec.Element

/-!
# The qbit

Level 0 is the ground state, level 1 is the excited state.
-/

namespace CppQED.Spec
open CppQED.Elem
open ComplexConjugate

/-- The lowering operator `σ=|0><1|`. -/
def sigma : Dens := fun i j => if i = 0 ∧ j = 1 then 1 else 0

/-- The raising operator `σ†=|1><0|`. -/
def sigmaDag : Dens := fun i j => if i = 1 ∧ j = 0 then 1 else 0

/-- The projector on the excited state `σ†σ`. -/
def excited : Dens := fun i j => if i = 1 ∧ j = 1 then 1 else 0

/-- `|0><0|-|1><1|`. -/
def sigmaZ : Dens := fun i j => if i = j then (if i = 0 then 1 else -1) else 0

/-- The Hamiltonian divided by `i` with the detuning `δ`, the decay `γ` and the pump `η`: `-(γ-iδ)σ†σ - ησ† + η*σ`. -/
noncomputable def qbitH (γ δ : ℝ) (η : ℂ) : Dens := fun i j => -((γ : ℂ) - Complex.I * δ) * excited i j - η * sigmaDag i j + conj η * sigma i j

/-- The jumps of a lossy qbit with phase noise. -/
noncomputable def qbitJ (γ γp : ℝ) : List Dens :=
  if γp ≠ 0 then [fun i j => (Real.sqrt (2 * γ) : ℂ) * sigma i j, fun i j => (Real.sqrt (2 * γp) : ℂ) * sigmaZ i j]
  else if γ = 0 then [] else [fun i j => (Real.sqrt (2 * γ) : ℂ) * sigma i j]

end CppQED.Spec
