import Mathlib.LinearAlgebra.Matrix.ConjTranspose
import Mathlib.LinearAlgebra.Matrix.Trace
import Mathlib.Data.Complex.Basic
import Mathlib.Analysis.Complex.Basic

/-! # The Master equation -/

namespace CppQED.Spec
open Matrix

variable {ι : Type*} [Fintype ι]

/-- The right-hand side of the quantum Master equation with the (non-Hermitian) Hamiltonian divided by `i`, `G`, and the jump operators `J`:
`Gρ + ρG† + Σ JρJ†`. -/
noncomputable def lindblad (G : Matrix ι ι ℂ) (J : List (Matrix ι ι ℂ)) (ρ : Matrix ι ι ℂ) : Matrix ι ι ℂ := G * ρ + ρ * Gᴴ + (J.map fun j => j * ρ * jᴴ).sum

/-- The probability-conservation condition: `G + G† = -Σ J†J`. -/
def Conserving (G : Matrix ι ι ℂ) (J : List (Matrix ι ι ℂ)) : Prop := G + Gᴴ = -(J.map fun j => jᴴ * j).sum

end CppQED.Spec
