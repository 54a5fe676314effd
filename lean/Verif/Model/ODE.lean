import Mathlib.Data.Real.Basic
import Mathlib.Data.Sign.Defs

/-!
# Model of the adaptive ODE engine

Source: `/repo/CPPQEDutils/ODE.h`, `/repo/CPPQEDutils/ODE_GSL.h`. The time is a real number. The controlled stepper of the external library is abstract: a
function performing one trial step.
-/

namespace CppQED.ODE

/-- Outcome of `try_step(sys,state,time,dtTry)` of a controlled stepper: whether successful, the state, the time and the new `dtTry`. -/
structure Trial (σ : Type*) where
  success : Bool
  state : σ
  time : ℝ
  dtTry : ℝ

/-- A controlled stepper: the trial step at given state, time and `dtTry`. `κ` is the internal state of the stepper, which can be updated by the trial. -/
abbrev Stepper (σ κ : Type*) := κ → σ → ℝ → ℝ → Trial σ × κ

/-- The data members of the engine (ODE.h:178-184) with the counts of the logger (ODE.h:120; the calls of the derivative are not counted). -/
structure Engine (κ : Type*) where
  ces : κ
  dtDid : ℝ
  dtTry : ℝ
  nSteps : ℕ
  nFailedSteps : ℕ

/-- The loop of trial steps (ODE.h:247-253); `none`: not successful in `fuel` trials. The last component is the number of failures. -/
noncomputable def tryLoop {σ κ : Type*} (stepper : Stepper σ κ) : ℕ → κ → σ → ℝ → ℝ → ℕ → Option (σ × ℝ × ℝ × κ × ℕ)
  | 0, _, _, _, _, _ => none
  | fuel + 1, k, s, t, dtTry, nFailed =>
    let r := stepper k s t dtTry
    if r.1.success then some (r.1.state, r.1.time, r.1.dtTry, r.2, nFailed)
    else tryLoop stepper fuel r.2 r.1.state r.1.time r.1.dtTry (nFailed + 1)

open Classical in
/-- `nextDtTry` (ODE.h:239). -/
noncomputable def nextDtTry (deltaT dtTry : ℝ) : ℝ := if |deltaT| < |dtTry / 10| then dtTry else 0

open Classical in
/-- The value of `dtTry` used in the first trial (ODE.h:241-243). -/
noncomputable def firstTry (deltaT dtTry dtDid : ℝ) : ℝ :=
  let dtTry := if SignType.sign deltaT ≠ SignType.sign dtTry then -dtDid else dtTry
  if |dtTry| > |deltaT| then deltaT else dtTry

open Classical in
/-- `Base::step` (ODE.h:234-262): new state, time, and engine. -/
noncomputable def step {σ κ : Type*} (stepper : Stepper σ κ) (fuel : ℕ) (deltaT : ℝ) (e : Engine κ) (s : σ) (t : ℝ) : Option (σ × ℝ × Engine κ) :=
  (tryLoop stepper fuel e.ces s t (firstTry deltaT e.dtTry e.dtDid) 0).map fun r =>
    let n := nextDtTry deltaT e.dtTry
    (r.1, r.2.1, { ces := r.2.2.2.1, dtDid := r.2.1 - t, dtTry := if n ≠ 0 then n else r.2.2.1, nSteps := e.nSteps + 1,
                   nFailedSteps := e.nFailedSteps + r.2.2.2.2 })

/-- The tolerances a stepper uses. -/
structure Tolerances where
  absolute : ℝ
  relative : ℝ

/-- The constructor `ControlledErrorStepperGSL(double epsAbs, double epsRel)` (ODE_GSL.h:30-31); the parameters of Boost's `make_controlled` are in
the same order. -/
def stepperCtor (epsAbs epsRel : ℝ) : Tolerances := ⟨epsAbs, epsRel⟩

/-- `MakeControlledErrorStepper::_(double epsRel, double epsAbs)` (ODE.h:202-206, ODE_GSL.h:113-117): the arguments are passed on in this order. -/
def makeStepper (epsRel epsAbs : ℝ) : Tolerances := stepperCtor epsRel epsAbs

/-- `ControlledErrorStepperGSL::try_step` (ODE_GSL.h:44-84) with abstract `gsl_odeiv2_step_apply` (`none`: not successful) and
`gsl_odeiv2_control_hadjust`. The exceptions are not modelled. -/
noncomputable def gslTryStep {σ : Type*} (apply : σ → ℝ → ℝ → Option σ) (hadjust : σ → ℝ → ℝ) : Stepper σ Unit := fun _ s t dtTry =>
  match apply s t dtTry with
  | none => (⟨false, s, t, dtTry * (1 / 2)⟩, ())
  | some s' => (⟨true, s', t + dtTry, hadjust s' dtTry⟩, ())

end CppQED.ODE
