import Verif.Model.Ensemble
import Verif.Spec.Unravelling

/-! # The density operator of an ensemble of Monte Carlo trajectories as a matrix -/

namespace CppQED.Unravel

variable {κ : Type*}

/-- The matrix of the density operator calculated by an ensemble of `members` trajectories, the `k`th of which has arrived in the state `final k`. The density operator has the given `shape`; `rho` is what was in its
place before. -/
noncomputable def ensembleMatrix (shape : List ℕ) (rho : CMat.Array) {n : ℕ} (final : ℕ → Option (MCWF.St (Fin n) κ)) (members : ℕ) : Matrix (Fin n) (Fin n) ℂ := fun i j =>
  QD.matrixView (Ensemble.averageDensity rho (finalArray shape (final 0)) ((List.range (members - 1)).map fun k => finalArray shape (final (k + 1)))) n i j

end CppQED.Unravel
