import Verif.Model.Simulated
import Verif.Props.ODE
import Mathlib.Analysis.Calculus.Deriv.Pi

/-! # What it means that a trajectory integrates an ordinary differential equation -/

namespace CppQED.Simulated

variable {n : ℕ} {E : Type} [NormedAddCommGroup E] [NormedSpace ℝ E]

/-- `y` is a solution of `dy/dt=f(t,y)` for `0≤t≤T`. -/
def Solves (f : ℝ → (Fin n → E) → Fin n → E) (T : ℝ) (y : ℝ → Fin n → E) : Prop := ∀ t, 0 ≤ t → t ≤ T → HasDerivAt y (f t (y t)) t

/-- The controlled stepper solves `dy/dt=f(t,y)` with an error of at most `ε` times the length of the step, in an absolute and relative sense. -/
def Accurate {κ : Type*} (stepper : ODE.Stepper (Fin n → E) κ) (f : ℝ → (Fin n → E) → Fin n → E) (ε : ℝ) : Prop :=
  ∀ (k : κ) (s : Fin n → E) (t d : ℝ), 0 < d → (stepper k s t d).1.success = true →
    ∀ φ : ℝ → Fin n → E, φ t = s → (∀ r, t ≤ r → r ≤ t + d → HasDerivAt φ (f r (φ r)) r) → ‖(stepper k s t d).1.state - φ (t + d)‖ ≤ ε * d * (1 + ‖s‖)

/-- What is supposed of the stepper made for the derivative `f`: it is a controlled stepper, and it is accurate. -/
structure GoodSolver {κ : Type*} (stepper : ODE.Stepper (Fin n → E) κ) (f : ℝ → (Fin n → E) → Fin n → E) (ε : ℝ) : Prop where
  controlled : ODE.Controlled stepper
  accurate : Accurate stepper f ε

/-- Trajectories made for the derivative `f` integrate the equation `dy/dt=f(t,y)`: run to any time `T` by an accurate stepper, they arrive exactly at `T`, and in the solution up to an error proportional to the error `ε` of the
stepper. The constant `C` does not depend on the stepper, and the intervals of the driver. The second clause shows that there are such trajectories: there is a stepper without error with which the trajectories arrive in as many
intervals as needed. -/
structure Integrates.{v} (f : ℝ → (Fin n → E) → Fin n → E) : Prop where
  error :
    ∀ T : ℝ, 0 ≤ T → ∀ y, Solves f T y → ∃ C, 0 ≤ C ∧
      ∀ {κ : Type v} (solver : (ℝ → (Fin n → E) → Fin n → E) → ODE.Stepper (Fin n → E) κ) (ε Dt : ℝ), GoodSolver (solver f) f ε → 0 ≤ ε → ε ≤ 1 → 0 < Dt →
        ∀ (labels : List String) (ces : κ) (dtInit : ℝ), 0 < dtInit → ∀ (fuel N m : ℕ) (x : St n E κ), simulate solver f labels ces dtInit fuel N m T Dt (y 0) = some x → x.t = T ∧ ‖x.state - y T‖ ≤ C * ε
  attained :
    ∃ (κ : Type v) (solver : (ℝ → (Fin n → E) → Fin n → E) → ODE.Stepper (Fin n → E) κ), Nonempty κ ∧ GoodSolver (solver f) f 0 ∧
      ∀ (Dt T : ℝ), 0 < Dt → Dt ≤ 1 → ∀ (s : Fin n → E) (labels : List String), labels.length ≤ n → ∀ (ces : κ) (dtInit : ℝ), Dt ≤ dtInit → ∀ fuel m : ℕ, 0 < fuel → T ≤ m * Dt →
        (simulate solver f labels ces dtInit fuel 1 m T Dt s).isSome

end CppQED.Simulated
