import Verif.Model.ODE
import Verif.Model.Tridiagonal

/-!
# Model of the trajectories of ordinary differential equations

Source: `/repo/CPPQEDutils/Simulated_.h` with the driver `/repo/CPPQEDutils/Trajectory.h`. The array is a function of the subscript, of which `n` is the `SubscriptLimit`; its elements are real or complex numbers. As in
`Verif/Model/MCWFRun.lean`, only the motion of the trajectory is retained of the driver.
-/

namespace CppQED.Simulated
open CppQED.Tridiag

variable {n : ℕ} {E κ : Type*}

/-- The data members (Simulated_.h:70-78). The derivative and the maker of the controlled stepper are arguments of the functions below. -/
structure St (n : ℕ) (E κ : Type*) where
  t : ℝ
  state : Fin n → E
  labels : List String
  ode : ODE.Engine κ

/-- The constructor (Simulated_.h:31-40). -/
def make (stateInit : Fin n → E) (keyLabels : List String) (ode : ODE.Engine κ) : Outcome (St n E κ) :=
  if keyLabels.length < n then .ok ⟨0, stateInit, keyLabels ++ List.replicate (n - keyLabels.length) "N/A", ode⟩
  else if keyLabels.length > n then .throw
  else .ok ⟨0, stateInit, keyLabels, ode⟩

/-- `step` (Simulated_.h:44). -/
noncomputable def step (solver : (ℝ → (Fin n → E) → Fin n → E) → ODE.Stepper (Fin n → E) κ) (derivs : ℝ → (Fin n → E) → Fin n → E) (fuel : ℕ) (deltaT : ℝ) (x : St n E κ) : Option (St n E κ) :=
  (ODE.step (solver derivs) fuel deltaT x.ode x.state x.t).map fun r => { x with state := r.1, t := r.2.1, ode := r.2.2 }

/-- The contents of the columns of a row: the time and the last timestep (Trajectory.h:434), and the values (`stream`, Simulated_.h:53). A value is one column, even if it is complex. -/
inductive Column (E : Type*)
  | time (t : ℝ)
  | dtDid (dt : ℝ)
  | value (e : E)

/-- A row (Trajectory.h:429-437, Simulated_.h:50-55). -/
def row (x : St n E κ) : List (Column E) := [.time x.t, .dtDid x.ode.dtDid] ++ (List.range n).filterMap fun i => if h : i < n then some (.value (x.state ⟨i, h⟩)) else none

/-- The numbered lines of the key: those of the driver (Trajectory.h:444) and those of the `KeyPrinter` starting with `i=3` (Simulated_.h:65, KeyPrinter.cc:14-21). -/
def key (x : St n E κ) : List (ℕ × String) := [(1, "time"), (2, "dtDid")] ++ x.labels.mapIdx fun i l => (3 + i, l)

/-- What `stateIO` writes (Simulated_.h:63): the array, the time, and the stepper. -/
def save (x : St n E κ) : (Fin n → E) × ℝ × ODE.Engine κ := (x.state, x.t, x.ode)

/-- `stateIO` reading (Simulated_.h:63) into the object `y`. -/
def load (r : (Fin n → E) × ℝ × ODE.Engine κ) (y : St n E κ) : St n E κ := { y with state := r.1, t := r.2.1, ode := r.2.2 }

open Classical in
/-- The loop of `advance` (Trajectory.h:47-48): `while (dt=endTime-getTime()) step(dt)`. `none`: the loop has not finished in `N` iterations, or a step has not finished. -/
noncomputable def advanceLoop (solver : (ℝ → (Fin n → E) → Fin n → E) → ODE.Stepper (Fin n → E) κ) (derivs : ℝ → (Fin n → E) → Fin n → E) (fuel : ℕ) (endTime : ℝ) : ℕ → St n E κ → Option (St n E κ)
  | 0, x => if endTime - x.t = 0 then some x else none
  | N + 1, x => if endTime - x.t = 0 then some x else (step solver derivs fuel (endTime - x.t) x).bind (advanceLoop solver derivs fuel endTime N)

open Classical in
/-- The main loop of `run` with `timestep` intervals `Dt` up to time `T` (Trajectory.h:560-568), see `MCWF.runTo`. -/
noncomputable def runTo (solver : (ℝ → (Fin n → E) → Fin n → E) → ODE.Stepper (Fin n → E) κ) (derivs : ℝ → (Fin n → E) → Fin n → E) (fuel N : ℕ) (T Dt : ℝ) : ℕ → St n E κ → Option (St n E κ)
  | 0, x => if x.t < T then none else some x
  | m + 1, x => if x.t < T then (advanceLoop solver derivs fuel (x.t + min Dt (T - x.t)) N x).bind (runTo solver derivs fuel N T Dt m) else some x

/-- A script integrating an ordinary differential equation (for example PTLA_Evolved.cc:43-57): the trajectory is made from the initial values with the initial stepsize `dtInit`, and run up to time `T`. `none`: the constructor
has thrown, or the trajectory has not arrived. -/
noncomputable def simulate (solver : (ℝ → (Fin n → E) → Fin n → E) → ODE.Stepper (Fin n → E) κ) (derivs : ℝ → (Fin n → E) → Fin n → E) (keyLabels : List String) (ces : κ) (dtInit : ℝ) (fuel N m : ℕ) (T Dt : ℝ)
    (stateInit : Fin n → E) : Option (St n E κ) :=
  match make stateInit keyLabels ⟨ces, 0, dtInit, 0, 0⟩ with
  | .ok x => runTo solver derivs fuel N T Dt m x
  | _ => none

end CppQED.Simulated
