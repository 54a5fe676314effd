import Verif.Model.MCWFSystem
import Verif.Model.MultiLevel
import Verif.Model.Sigma

/-!
# A system replaced with the matrix of its Hamiltonian

Sources: `/repo/CPPQEDscripts/QbitMode_Matrix.cc`, `/repo/CPPQEDcore/structure/MatrixOfHamiltonian.h`, `/repo/CPPQEDelements/frees/TimeIndependentMatrixHamiltonian.{h,cc}`.
-/

namespace CppQED
open Tridiag

/-- `TimeIndependentMatrixHamiltonian(calculateMatrix(system)/1i)` (QbitMode_Matrix.cc:49-52); `calculateMatrix` is called with `t=t0=0` (MatrixOfHamiltonian.h:11), `res0` is the uninitialised result. The averages borrowed from the
system are in `Storage.transferring`. -/
noncomputable def Master.Sys.matrixSystem {n : ℕ} (S : Master.Sys n) (res0 : Fin n → Fin n → ℂ) : Outcome Elem.Element :=
  MultiEl.matrixHamiltonian n n fun i j =>
    if h : i < n ∧ j < n then Sigma.calculateMatrix (S.ha.map fun addContribution psi dpsidt => addContribution 0 psi dpsidt 0) res0 ⟨i, h.1⟩ ⟨j, h.2⟩ / Complex.I else 0

end CppQED
