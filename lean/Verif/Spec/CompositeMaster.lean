import Verif.Model.Master
import Verif.Spec.Master
import Verif.Spec.Slice
import Mathlib.LinearAlgebra.Matrix.Hermitian
import Mathlib.Analysis.Calculus.Deriv.Basic

/-! # Specification vocabulary: composite systems in the Master equation -/

namespace CppQED.Spec
open Matrix

/-- If the integrated density operator follows the right-hand side of the Master-equation trajectory, then the physical density operator (obtained with the exact part) follows the Master equation of
the Hamiltonian divided by `i`, `H`, and the jump operators `J`. -/
def FollowsMaster {n : ℕ} (S : Master.Sys n) (H : Matrix (Fin n) (Fin n) ℂ) (J : List (Matrix (Fin n) (Fin n) ℂ)) : Prop :=
  ∀ (t0 t : ℝ) (rho : ℝ → Matrix (Fin n) (Fin n) ℂ), (rho t).IsHermitian → (∀ i j, HasDerivAt (fun s => rho s i j) (Master.derivative S t t0 (rho t) i j) t) →
    ∀ i j, HasDerivAt (fun s => Master.exactPart S s t0 (rho s) i j) (lindblad H J (Master.exactPart S t t0 (rho t)) i j) t

/-- The physical density operator has a constant trace while the integrated one follows the right-hand side of the Master-equation trajectory. -/
def ConservesTrace {n : ℕ} (S : Master.Sys n) : Prop :=
  ∀ (t0 t : ℝ) (rho : ℝ → Matrix (Fin n) (Fin n) ℂ), (rho t).IsHermitian → (∀ i j, HasDerivAt (fun s => rho s i j) (Master.derivative S t t0 (rho t) i j) t) →
    HasDerivAt (fun s => (Master.exactPart S s t0 (rho s)).trace) 0 t

/-- The matrix, in the given enumeration of the multi-indices, of an operator given by its matrix elements between multi-indices. -/
def boxMat {lb ub : List ℤ} {n : ℕ} (e : Fin n ≃ {i // i ∈ boxFinset lb ub}) (A : List ℤ → List ℤ → ℂ) : Matrix (Fin n) (Fin n) ℂ := Matrix.of fun i j => A (e i) (e j)

end CppQED.Spec
