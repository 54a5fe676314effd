import Verif.Model.MCWF

/-!
# Model of a Monte Carlo trajectory run by the driver

Sources: `/repo/CPPQEDutils/Trajectory.h` (`advance`, the main loop of `run`) applied on `/repo/CPPQEDcore/quantumtrajectory/MCWF_Trajectory.h`. The driver is modelled in full
generality, for deterministic trajectories whose `step` cannot fail, in `Verif/Model/Trajectory.lean`; here, only the motion of the trajectory is retained: streaming, state files, and
autostopping are left out. All the functions are those of the random numbers `sample`.
-/

namespace CppQED.MCWF

variable {ι κ : Type*} [Fintype ι]

open Classical in
/-- The loop of `advance` (Trajectory.h:47-48): `while (dt=endTime-getTime()) step(dt)`. `none`: the loop has not finished in `N` iterations, or a step has not finished. -/
noncomputable def advanceLoop (S : Sys ι κ) (L : Lim) (sample : ℕ → ℝ) (fuel n : ℕ) (endTime : ℝ) : ℕ → St ι κ → Option (St ι κ)
  | 0, x => if endTime - x.t = 0 then some x else none
  | N + 1, x => if endTime - x.t = 0 then some x else (step S L sample fuel n (endTime - x.t) x).bind (advanceLoop S L sample fuel n endTime N)

open Classical in
/-- The main loop of `run` with `timestep` intervals `Dt` up to time `T` (Trajectory.h:560-568): `while (getTime()<T) advance(min(Dt,T-getTime()))`. The intervals of the first iteration, `count=0`,
in which no advancement takes place, are not counted. `none`: not finished in `m` iterations, or one of the advancements has not finished. -/
noncomputable def runTo (S : Sys ι κ) (L : Lim) (sample : ℕ → ℝ) (fuel n N : ℕ) (T Dt : ℝ) : ℕ → St ι κ → Option (St ι κ)
  | 0, x => if x.t < T then none else some x
  | m + 1, x => if x.t < T then (advanceLoop S L sample fuel n (x.t + min Dt (T - x.t)) N x).bind (runTo S L sample fuel n N T Dt m) else some x

end CppQED.MCWF
