import Verif.Spec.MasterRun
import Mathlib.LinearAlgebra.Matrix.PosDef

/-! # What it means that Master-equation trajectories follow a Master equation which does not conserve the trace -/

namespace CppQED.Master
open Matrix
open scoped ComplexOrder

variable {n : ℕ}

/-- The Master-equation trajectories of the system `S` follow the normalised solutions of the Master equation of `A` and `J`, which need not conserve the trace: run to any time `T` by an accurate stepper from any density
operator, they arrive exactly at `T`, in a Hermitian matrix of trace one, which is the solution of the Master equation divided by its trace (which is positive), up to an error proportional to the error `ε` of the stepper. The
constant `C` depends on the system and `T` only. The second clause shows that there are such trajectories: there is a stepper without error with which the trajectories arrive in as many intervals as needed. -/
structure TracksNormalised.{v} (S : Sys n) (A : Rho n) (J : List (Rho n)) : Prop where
  error :
    ∀ T : ℝ, 0 ≤ T → ∃ C, 0 ≤ C ∧
      ∀ {κ : Type v} (solver : (ℝ → Rho n → Rho n) → ODE.Stepper (Rho n) κ) (ε Dt : ℝ), (∀ t0, GoodSolver (solver fun t rho => derivative S t t0 rho) (fun t rho => derivative S t t0 rho) ε) →
        0 ≤ ε → C * ε ≤ 1 → 0 < Dt → Dt ≤ 1 →
        ∀ (rho : Rho n), rho.PosSemidef → rho.trace = 1 → ∀ (ces : κ) (dtInit : ℝ), 0 < dtInit → ∀ (fuel N m : ℕ) (x : St n κ), simulate solver S ces dtInit fuel N m T Dt rho = some x →
        x.t = T ∧ x.rho.IsHermitian ∧ x.rho.trace = 1 ∧ ∀ ρ : ℝ → Rho n, Unravel.Solves A J T ρ → ρ 0 = rho →
          0 < (ρ T).trace ∧ ∀ i j, ‖x.rho i j - ρ T i j / (ρ T).trace‖ ≤ C * ε
  attained :
    ∃ (κ : Type v) (solver : (ℝ → Rho n → Rho n) → ODE.Stepper (Rho n) κ), Nonempty κ ∧ (∀ t0, GoodSolver (solver fun t rho => derivative S t t0 rho) (fun t rho => derivative S t t0 rho) 0) ∧
      ∀ (Dt T : ℝ), 0 < Dt → Dt ≤ 1 → ∀ (rho : Rho n) (ces : κ) (dtInit : ℝ), Dt ≤ dtInit → ∀ fuel m : ℕ, 0 < fuel → T ≤ m * Dt → (simulate solver S ces dtInit fuel 1 m T Dt rho).isSome

end CppQED.Master
