import Verif.Spec.MultiLevel
import Mathlib.Analysis.Calculus.Deriv.Basic

/-! # Rate equations -/

namespace CppQED.Spec

/-- The classical rate equations of levels with decays, a list of (to, from, rate of the amplitude): `dqᵢ/dt = Σ 2γ q(from) - Σ 2γ qᵢ`, the first sum over the decays to the level `i`, the second over those from it. -/
def Rates (d : ℕ) (decays : List (ℕ × ℕ × ℝ)) (T : ℝ) (q : ℝ → ℕ → ℝ) : Prop :=
  ∀ t, 0 ≤ t → t ≤ T → ∀ i < d, HasDerivAt (fun s => q s i) (decays.map fun g => (if g.1 = i then 2 * g.2.2 * q t g.2.1 else 0) - (if g.2.1 = i then 2 * g.2.2 * q t i else 0)).sum t

end CppQED.Spec
