import Verif.Spec.Simulated
import Verif.Spec.MasterRun

/-! # Where trajectories arrive -/

namespace CppQED

/-- `x` is a state in which a trajectory integrating `dy/dt=f(t,y)` from `y0` arrives, when run to the time `T` by a stepper of error `ε`, with some parameters of the driver. -/
def Simulated.Arrives {n : ℕ} {E : Type} [NormedAddCommGroup E] [NormedSpace ℝ E] {κ : Type*} (f : ℝ → (Fin n → E) → Fin n → E) (ε T : ℝ) (y0 : Fin n → E) (x : St n E κ) : Prop :=
  ∃ (solver : (ℝ → (Fin n → E) → Fin n → E) → ODE.Stepper (Fin n → E) κ) (Dt : ℝ) (labels : List String) (ces : κ) (dtInit : ℝ) (fuel N m : ℕ),
    GoodSolver (solver f) f ε ∧ 0 < Dt ∧ 0 < dtInit ∧ simulate solver f labels ces dtInit fuel N m T Dt y0 = some x

/-- `x` is a state in which a Master-equation trajectory of the system `S` started from `rho` arrives, when run to the time `T` by a stepper of error `ε`, with some parameters of the driver. -/
def Master.Arrives {n : ℕ} {κ : Type*} (S : Sys n) (ε T : ℝ) (rho : Rho n) (x : St n κ) : Prop :=
  ∃ (solver : (ℝ → Rho n → Rho n) → ODE.Stepper (Rho n) κ) (Dt : ℝ) (ces : κ) (dtInit : ℝ) (fuel N m : ℕ),
    (∀ t0, GoodSolver (solver fun t rho => derivative S t t0 rho) (fun t rho => derivative S t t0 rho) ε) ∧ 0 < Dt ∧ Dt ≤ 1 ∧ 0 < dtInit ∧ simulate solver S ces dtInit fuel N m T Dt rho = some x

end CppQED
