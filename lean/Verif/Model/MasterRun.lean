import Verif.Model.Master

/-!
# Model of a Master-equation trajectory run by the driver

Sources: `/repo/CPPQEDutils/Trajectory.h` (`advance`, the main loop of `run`) applied on `/repo/CPPQEDcore/quantumtrajectory/Master.h`. As in `Verif/Model/MCWFRun.lean`, only the motion of the trajectory is retained:
streaming, state files, and autostopping are left out.
-/

namespace CppQED.Master

variable {n : ℕ} {κ : Type*}

open Classical in
/-- The loop of `advance` (Trajectory.h:47-48): `while (dt=endTime-getTime()) step(dt)`. `none`: the loop has not finished in `N` iterations, or a step has not finished. -/
noncomputable def advanceLoop (solver : (ℝ → Rho n → Rho n) → ODE.Stepper (Rho n) κ) (S : Sys n) (fuel : ℕ) (endTime : ℝ) : ℕ → St n κ → Option (St n κ)
  | 0, x => if endTime - x.t = 0 then some x else none
  | N + 1, x => if endTime - x.t = 0 then some x else (step solver S fuel (endTime - x.t) x).bind (advanceLoop solver S fuel endTime N)

open Classical in
/-- The main loop of `run` with `timestep` intervals `Dt` up to time `T` (Trajectory.h:560-568): `while (getTime()<T) advance(min(Dt,T-getTime()))`, see `MCWF.runTo`. `none`: not finished in `m` iterations, or one of the
advancements has not finished. -/
noncomputable def runTo (solver : (ℝ → Rho n → Rho n) → ODE.Stepper (Rho n) κ) (S : Sys n) (fuel N : ℕ) (T Dt : ℝ) : ℕ → St n κ → Option (St n κ)
  | 0, x => if x.t < T then none else some x
  | m + 1, x => if x.t < T then (advanceLoop solver S fuel (x.t + min Dt (T - x.t)) N x).bind (runTo solver S fuel N T Dt m) else some x

/-- A Master-equation trajectory from the initial density operator `rho` at time zero to time `T`: the constructor (with the initial stepsize `dtInit`, Master.h:58-75), then `run`. `none`: the constructor has thrown, or the
trajectory has not arrived. -/
noncomputable def simulate (solver : (ℝ → Rho n → Rho n) → ODE.Stepper (Rho n) κ) (S : Sys n) (ces : κ) (dtInit : ℝ) (fuel N m : ℕ) (T Dt : ℝ) (rho : Rho n) : Option (St n κ) :=
  (construct S true rho ⟨ces, 0, dtInit, 0, 0⟩).bind (runTo solver S fuel N T Dt m)

end CppQED.Master
