import Verif.Model.Element
import Verif.Model.MCWF

/-!
# Quantum systems as seen by the Monte Carlo wave-function trajectory

Sources: `/repo/CPPQEDcore/quantumtrajectory/MCWF_Trajectory.h`, `/repo/CPPQEDcore/structure/Structure.h`, `/repo/CPPQEDcore/structure/Liouvillean.h`.
-/

namespace CppQED

/-- The derivative of the state vector: `dpsidt=0; getHa()->addContribution(t,psi,dpsidt,t0_)` (MCWF_Trajectory.h:254-257). -/
noncomputable def Master.Sys.rhs {n : ℕ} (S : Master.Sys n) (t0 t : ℝ) (psi : Fin n → ℂ) : Fin n → ℂ :=
  match S.ha with
  | some addContribution => addContribution t psi 0 t0
  | none => 0

/-- The system of `Master.Sys` as that of `MCWF.Sys`: `make` makes a controlled stepper for the given derivative, `rates` are those of the Liouvillean part. -/
noncomputable def Master.Sys.toMCWF {n : ℕ} {κ : Type*} (S : Master.Sys n) (make : (ℝ → (Fin n → ℂ) → Fin n → ℂ) → ODE.Stepper (Fin n → ℂ) κ) (rates : ℝ → (Fin n → ℂ) → List ℝ) :
    MCWF.Sys (Fin n) κ where
  ha := S.ha.map fun _ t0 => make (S.rhs t0)
  ex := S.ex
  li := S.li.map fun l => ⟨rates, l.actWithJ⟩

/-- The rates of an element: `rates(t,psi)` (Liouvillean.h:54, ElementLiouvillean.h), with the state vector as a lazy density operator. -/
noncomputable def Elem.Element.mcwfRates (e : Elem.Element) (_t : ℝ) (psi : Fin e.dim → ℂ) : List ℝ :=
  match e.li with
  | some L => L.rates (Elem.LDO.ofSV e.dim (Elem.arr psi))
  | none => []

/-- An element as the system of a Monte Carlo trajectory. -/
noncomputable def Elem.Element.toMCWF {κ : Type*} (e : Elem.Element) (make : (ℝ → (Fin e.dim → ℂ) → Fin e.dim → ℂ) → ODE.Stepper (Fin e.dim → ℂ) κ) : MCWF.Sys (Fin e.dim) κ :=
  e.toSys.toMCWF make e.mcwfRates

end CppQED
