import Verif.Spec.Interactions
import Mathlib.Analysis.Calculus.Deriv.Basic

/-! # A single photon in a network of lossy modes -/

namespace CppQED.Spec
open scoped ComplexConjugate

/-- The basis state of `N` modes with one photon, in mode `k`. -/
def photonAt (N k : ℕ) : List ℤ := (List.range N).map fun m => if m = k then 1 else 0

/-- The basis state of `N` modes without photons. -/
def vacuum (N : ℕ) : List ℤ := List.replicate N 0

/-- The superposition of the states with the photon in the modes, with the amplitudes `a`. -/
noncomputable def photonKet (N : ℕ) (a : ℕ → ℂ) (i : List ℤ) : ℂ := ∑ k ∈ Finset.range N, if i = photonAt N k then a k else 0

/-- The state vector of the vacuum. -/
noncomputable def vacuumKet (N : ℕ) (i : List ℤ) : ℂ := if i = vacuum N then 1 else 0

/-- The photon is there with the amplitudes `a`, otherwise it is lost. -/
noncomputable def photonState (N : ℕ) (a : ℕ → ℂ) (i j : List ℤ) : ℂ :=
  photonKet N a i * conj (photonKet N a j) + (1 - ∑ k ∈ Finset.range N, (Complex.normSq (a k) : ℂ)) * (vacuumKet N i * conj (vacuumKet N j))

/-- The equations of coupled damped classical oscillators: `κ` and `δ` are the decay rates and the detunings, a link `(b, c, u)` transfers amplitude between the modes `b` and `c`. -/
def Hops (N : ℕ) (κ δ : ℕ → ℝ) (links : List (ℕ × ℕ × ℂ)) (T : ℝ) (a : ℝ → ℕ → ℂ) : Prop :=
  ∀ t, 0 ≤ t → t ≤ T → ∀ k < N, HasDerivAt (fun s => a s k)
    ((-κ k + Complex.I * δ k) * a t k + (links.map fun l => (if l.2.1 = k then conj l.2.2 * a t l.1 else 0) - if l.1 = k then l.2.2 * a t l.2.1 else 0).sum) t

end CppQED.Spec
