import Verif.Model.MasterRun
import Verif.Spec.Unravelling
import Mathlib.LinearAlgebra.Matrix.Hermitian

/-! # What it means that Master-equation trajectories solve a Master equation -/

namespace CppQED.Master
open Matrix

variable {n : ℕ} {κ : Type*}

/-- The controlled stepper solves `dρ/dt=f(t,ρ)` from Hermitian matrices with an error of at most `ε` times the length of the step times `b`, where `b≥1` is a bound on the elements of the initial matrix: this accounts for
both absolute and relative tolerances. -/
def Accurate (stepper : ODE.Stepper (Rho n) κ) (f : ℝ → Rho n → Rho n) (ε : ℝ) : Prop :=
  ∀ (k : κ) (s : Rho n) (t d b : ℝ), 0 < d → s.IsHermitian → 1 ≤ b → (∀ i j, ‖s i j‖ ≤ b) → (stepper k s t d).1.success = true →
    ∀ φ : ℝ → Rho n, φ t = s → (∀ r, t ≤ r → r ≤ t + d → (φ r).IsHermitian ∧ ∀ i j, HasDerivAt (fun r => φ r i j) (f r (φ r) i j) r) →
    ∀ i j, ‖(stepper k s t d).1.state i j - φ (t + d) i j‖ ≤ ε * d * b

/-- What is supposed of the stepper made for the derivative `f`: it is a controlled stepper, and it is accurate. -/
structure GoodSolver (stepper : ODE.Stepper (Rho n) κ) (f : ℝ → Rho n → Rho n) (ε : ℝ) : Prop where
  controlled : ODE.Controlled stepper
  accurate : Accurate stepper f ε

/-- The matrix may be a density operator: it is Hermitian, of trace one, and its elements are not larger than one. -/
structure Density (rho : Rho n) : Prop where
  hermitian : rho.IsHermitian
  trace : rho.trace = 1
  bounded : ∀ i j, ‖rho i j‖ ≤ 1

/-- The Master-equation trajectories of the system `S` solve the Master equation of the (non-Hermitian) Hamiltonian divided by `i`, `A`, and the jump operators `J`: run to any time `T` by an accurate stepper, they arrive exactly
at `T`, in a Hermitian matrix of trace one, which is the solution of the Master equation up to an error proportional to the error `ε` of the stepper. The constant `C` depends on the system and `T` only: not on the initial
condition, the stepper, and the intervals of the driver. The second clause shows that there are such trajectories: there is a stepper without error with which the trajectories arrive in as many intervals as
needed. -/
structure TracksMaster.{v} (S : Sys n) (A : Rho n) (J : List (Rho n)) : Prop where
  error :
    ∀ T : ℝ, 0 ≤ T → ∃ C, 0 ≤ C ∧
      ∀ {κ : Type v} (solver : (ℝ → Rho n → Rho n) → ODE.Stepper (Rho n) κ) (ε Dt : ℝ), (∀ t0, GoodSolver (solver fun t rho => derivative S t t0 rho) (fun t rho => derivative S t t0 rho) ε) →
        0 ≤ ε → C * ε ≤ 1 → 0 < Dt → Dt ≤ 1 →
        ∀ (rho : Rho n), Density rho → ∀ (ces : κ) (dtInit : ℝ), 0 < dtInit → ∀ (fuel N m : ℕ) (x : St n κ), simulate solver S ces dtInit fuel N m T Dt rho = some x →
        x.t = T ∧ x.rho.IsHermitian ∧ x.rho.trace = 1 ∧ ∀ ρ : ℝ → Rho n, Unravel.Solves A J T ρ → ρ 0 = rho → ∀ i j, ‖x.rho i j - ρ T i j‖ ≤ C * ε
  attained :
    ∃ (κ : Type v) (solver : (ℝ → Rho n → Rho n) → ODE.Stepper (Rho n) κ), Nonempty κ ∧ (∀ t0, GoodSolver (solver fun t rho => derivative S t t0 rho) (fun t rho => derivative S t t0 rho) 0) ∧
      ∀ (Dt T : ℝ), 0 < Dt → Dt ≤ 1 → ∀ (rho : Rho n) (ces : κ) (dtInit : ℝ), Dt ≤ dtInit → ∀ fuel m : ℕ, 0 < fuel → T ≤ m * Dt → (simulate solver S ces dtInit fuel 1 m T Dt rho).isSome

end CppQED.Master
