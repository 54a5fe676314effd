import Verif.Spec.Composite
import Verif.Spec.PartialTrace
import Verif.Spec.Slice
import Mathlib.Analysis.SpecialFunctions.Exp
import Mathlib.Analysis.Complex.Exponential

/-!
# Specification vocabulary: composite systems in interaction picture
-/

namespace CppQED.Spec

/-- The sum of the frequencies `w a n` (axis `a`, quantum number `n`) of the quantum numbers `s` on the axes `V`. -/
noncomputable def phaseOf (w : ℕ → ℤ → ℂ) (V : List ℕ) (s : List ℤ) : ℂ := (List.zipWith w V s).sum

/-- The operator `V` on the axes `axes` in the interaction picture defined by the frequencies, at the time `τ` after the pictures coincided. -/
noncomputable def inPicture (w : ℕ → ℤ → ℂ) (axes : List ℕ) (V : List ℤ → List ℤ → ℂ) (τ : ℝ) (i j : List ℤ) : ℂ :=
  Complex.exp (phaseOf w axes i * τ) * V i j * Complex.exp (-(phaseOf w axes j * τ))

end CppQED.Spec
