import Verif.Spec.Element
import Mathlib.Analysis.SpecialFunctions.Trigonometric.Basic

/-!
# The spin

The basis state `n` is that of magnetic quantum number `n-S`.
-/

namespace CppQED.Spec
open CppQED.Elem

/-- The raising operator of the spin `S`: `S₊|n> = √((2S-n)(n+1)) |n+1>`. -/
noncomputable def sPlus (twoS : ℕ) : Dens := fun i j => if i = j + 1 then (Real.sqrt (((twoS : ℝ) - j) * (j + 1)) : ℂ) else 0

/-- The lowering operator. -/
noncomputable def sMinus (twoS : ℕ) : Dens := fun i j => sPlus twoS j i

/-- `S_z`. -/
noncomputable def sZ (twoS : ℕ) : Dens := fun i j => if i = j then (i : ℂ) - twoS / 2 else 0

/-- `S_x`. -/
noncomputable def sX (twoS : ℕ) : Dens := fun i j => (sPlus twoS i j + sMinus twoS i j) / 2

/-- `S_y`. -/
noncomputable def sY (twoS : ℕ) : Dens := fun i j => (sPlus twoS i j - sMinus twoS i j) / (2 * Complex.I)

/-- The component of the spin in the direction of the given polar angles. -/
noncomputable def sN (twoS : ℕ) (θ φ : ℝ) : Dens := fun i j => Real.sin θ * (Real.cos φ * sX twoS i j + Real.sin φ * sY twoS i j) + Real.cos θ * sZ twoS i j

end CppQED.Spec
