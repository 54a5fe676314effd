import Verif.Spec.Element

/-!
# The harmonic-oscillator mode

Operators are given by their matrix elements between number states; the matrices of a mode with cutoff `d` are their upper left `d × d` blocks, `mat d`.
-/

namespace CppQED.Spec
open CppQED.Elem
open ComplexConjugate

/-- The annihilation operator. -/
noncomputable def aOp : Dens := fun i j => if j = i + 1 then (Real.sqrt j : ℂ) else 0

/-- The creation operator. -/
noncomputable def adOp : Dens := fun i j => if i = j + 1 then (Real.sqrt i : ℂ) else 0

/-- The number operator. -/
def nOp : Dens := fun i j => if i = j then (i : ℂ) else 0

/-- The Hamiltonian divided by `i` of a mode with the frequency `-δ` (in a rotating frame), pumping `η` and the decay `κ` of the amplitude: `-(κ-iδ)n + ηa† - η*a`. -/
noncomputable def modeH (κ δ : ℝ) (η : ℂ) : Dens := fun i j => -((κ : ℂ) - Complex.I * δ) * nOp i j + η * adOp i j - conj η * aOp i j

/-- A multiple of an operator. -/
def sc (c : ℂ) (A : Dens) : Dens := fun i j => c * A i j

/-- The jumps of a mode coupled to a reservoir of temperature corresponding to `n` thermal photons: loss, and absorption if `n≠0`. -/
noncomputable def modeJ (κ n : ℝ) : List Dens :=
  if κ = 0 then [] else if n = 0 then [sc (Real.sqrt (2 * κ)) aOp] else [sc (Real.sqrt (2 * (κ * (n + 1)))) aOp, sc (Real.sqrt (2 * (κ * n))) adOp]

/-- The state as a density operator of infinite dimension, all the elements beyond the cutoff being zero. -/
def pad (d : ℕ) (ρ : Dens) : Dens := fun i j => if i < d ∧ j < d then ρ i j else 0

end CppQED.Spec
