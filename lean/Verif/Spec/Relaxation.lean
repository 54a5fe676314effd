import Verif.Model.Mode
import Verif.Spec.MasterNormalised

/-! # What Master-equation trajectories stream of a mode and a qbit -/

namespace CppQED.Relax
open CppQED.Elem CppQED.Master Matrix
open scoped ComplexOrder

/-- The density operator of a Master-equation trajectory as the averages of the element are given it. -/
noncomputable def shown {n : ℕ} (rho : Matrix (Fin n) (Fin n) ℂ) : LDO := LDO.ofDM n fun i j => if h : i < n ∧ j < n then rho ⟨i, h.1⟩ ⟨j, h.2⟩ else 0

/-- The number of photons: `Σ n ρ(n,n)`. -/
noncomputable def photons {n : ℕ} (rho : Matrix (Fin n) (Fin n) ℂ) : ℝ := ∑ i : Fin n, (i : ℝ) * (rho i i).re

/-- The amplitude of the field: `Σ √(n+1) ρ(n+1,n)`. -/
noncomputable def field {n : ℕ} (rho : Matrix (Fin n) (Fin n) ℂ) : ℂ := ∑ i : Fin n, ∑ j : Fin n, if (j : ℕ) = i + 1 then (Real.sqrt j : ℂ) * rho j i else 0

/-- The population of the highest level kept. -/
noncomputable def highest {n : ℕ} (rho : Matrix (Fin n) (Fin n) ℂ) : ℝ := ∑ i : Fin n, if (i : ℕ) + 1 = n then (rho i i).re else 0

/-- A Master-equation trajectory of the system `S` started from the density operator `rho` and run to the time `T` by a stepper of the error `ε` is at the end in `x`; `ε` does not exceed `1/C`. -/
def Reached.{v} {n : ℕ} (S : Sys n) (C T ε : ℝ) (rho x : Rho n) : Prop :=
  ∃ (κ : Type v) (solver : (ℝ → Rho n → Rho n) → ODE.Stepper (Rho n) κ) (Dt : ℝ) (ces : κ) (dtInit : ℝ) (fuel N m : ℕ) (y : St n κ),
    (∀ t0, GoodSolver (solver fun t rho => derivative S t t0 rho) (fun t rho => derivative S t t0 rho) ε) ∧ 0 ≤ ε ∧ C * ε ≤ 1 ∧ 0 < Dt ∧ Dt ≤ 1 ∧ 0 < dtInit ∧ rho.PosSemidef ∧ rho.trace = 1 ∧
    simulate solver S ces dtInit fuel N m T Dt rho = some y ∧ y.rho = x

end CppQED.Relax
