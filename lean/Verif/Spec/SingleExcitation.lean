import Verif.Spec.Rabi
import Mathlib.Analysis.Calculus.Deriv.Basic

/-! # A single excitation shared by a lossy atom and a lossy mode -/

namespace CppQED.Spec
open scoped ComplexConjugate

/-- The amplitudes `a` of the excited atom and `b` of the photon: two damped classical oscillators (decay rates `γ` and `κ`, detunings `δq` and `δm`) which are coupled. -/
def Amplitudes (γ δq κ δm : ℝ) (g : ℂ) (T : ℝ) (a b : ℝ → ℂ) : Prop :=
  ∀ t, 0 ≤ t → t ≤ T → HasDerivAt a ((-γ + Complex.I * δq) * a t - g * b t) t ∧ HasDerivAt b ((-κ + Complex.I * δm) * b t + conj g * a t) t

/-- The superposition of the excited atom without photons and of the atom in the ground state with one photon. -/
noncomputable def singleKet (a b : ℂ) (i : List ℤ) : ℂ := if q i 0 = 1 ∧ q i 1 = 0 then a else if q i 0 = 0 ∧ q i 1 = 1 then b else 0

/-- The state without excitation. -/
noncomputable def groundKet (i : List ℤ) : ℂ := if q i 0 = 0 ∧ q i 1 = 0 then 1 else 0

/-- The excitation is there with the amplitudes `a` and `b`, otherwise it is lost, and the system is in the state without excitation. -/
noncomputable def singleState (a b : ℂ) (i j : List ℤ) : ℂ :=
  singleKet a b i * conj (singleKet a b j) + (1 - Complex.normSq a - Complex.normSq b) * (groundKet i * conj (groundKet j))

end CppQED.Spec
