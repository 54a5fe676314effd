import Verif.Model.MCWFLog
import Verif.Model.MCWFSystem
import Verif.Props.ODE

/-!
# Counting jumps

Vocabulary for C165.
-/

namespace CppQED.Spec

/-- The array is zero outside of `B`. -/
def SupportedOn {ι : Type*} (B : Set ι) (psi : ι → ℂ) : Prop := ∀ i, i ∉ B → psi i = 0

/-- What is assumed of the stepper: if the derivative of states supported on `B` is supported on `B`, then the stepper does not leave `B` (the result of a trial step of every Runge-Kutta method is a combination of the state and
of derivatives). -/
def KeepsSupport {ι κ : Type*} (rhs : ℝ → (ι → ℂ) → ι → ℂ) (stepper : ODE.Stepper (ι → ℂ) κ) : Prop :=
  ∀ B : Set ι, (∀ t psi, SupportedOn B psi → SupportedOn B (rhs t psi)) → ∀ k s t d, SupportedOn B s → SupportedOn B (stepper k s t d).1.state

/-- The sum of the changes `δ` of the jumps in a record (of instants and numbers of jumps). -/
def balance (δ : List ℤ) (traj : List (ℝ × ℕ)) : ℤ := (traj.map fun e => δ.getD e.2 0).sum

/-- In every Monte Carlo trajectory of the system, with whatever random numbers, time steps, and parameters of the step size: the quantum number `Q` of the basis states is accounted for by the record of jumps, the change of `Q` in the
jump `m` being `δ[m]`. Every basis state present in the state at the end has the quantum number of a basis state present in the beginning, plus the sum of the changes in the recorded jumps. (The state at the end is normalised, so
there is such a basis state.) The stepper is one which does not annihilate states and keeps the support. -/
def Counts.{v} {n : ℕ} (S : Master.Sys n) (rates : ℝ → (Fin n → ℂ) → List ℝ) (Q : Fin n → ℤ) (δ : List ℤ) : Prop :=
  ∀ (κ : Type v) (make : (ℝ → (Fin n → ℂ) → Fin n → ℂ) → ODE.Stepper (Fin n → ℂ) κ),
    (∀ t0, ODE.Controlled (make (S.rhs t0)) ∧ (∀ k s t d, s ≠ 0 → (make (S.rhs t0) k s t d).1.success = true → (make (S.rhs t0) k s t d).1.state ≠ 0) ∧ KeepsSupport (S.rhs t0) (make (S.rhs t0))) →
    ∀ (L : MCWF.Lim), 0 < L.dpLimit → 1 ≤ L.overshootTolerance → ∀ (sample : ℕ → ℝ), (∀ k, 0 ≤ sample k) → ∀ (fuel N : ℕ) (Dts : List ℝ), (∀ Dt ∈ Dts, 0 < Dt) →
    ∀ (psi : Fin n → ℂ), MCWF.norm psi = 1 → ∀ (ces : κ) (dtInit : ℝ), 0 < dtInit → ∀ (level : ℤ) (nL : ℕ) (z : MCWF.St (Fin n) κ) (g : MCWFLog.Logged),
      MCWFLog.steps (S.toMCWF make rates) L sample fuel N Dts (MCWFLog.construct (S.toMCWF make rates) L psi ces dtInit level nL).1
        (MCWFLog.construct (S.toMCWF make rates) L psi ces dtInit level nL).2 = some (z, g) →
      MCWF.norm z.psi = 1 ∧ (∀ e ∈ g.log.traj, e.2 < δ.length) ∧ ∀ i, z.psi i ≠ 0 → ∃ j, psi j ≠ 0 ∧ Q i = Q j + balance δ g.log.traj

end CppQED.Spec
