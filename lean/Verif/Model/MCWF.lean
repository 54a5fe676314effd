import Verif.Model.ODE
import Mathlib.Algebra.BigOperators.Group.Finset.Basic
import Mathlib.Analysis.Complex.Basic
import Mathlib.Analysis.SpecialFunctions.Sqrt

/-!
# Model of the Monte Carlo wave-function trajectory

Source: `/repo/CPPQEDcore/quantumtrajectory/MCWF_Trajectory.h`. A state vector is a function on a finite set of (multi-)indices. The system is abstract: the three
optional parts (Hamiltonian, Exact, Liouvillean) are arbitrary functions. The derivative of the Hamiltonian part enters through the controlled stepper made with it.
Logging is modelled in `Verif/Model/MCWFLog.lean`.
-/

namespace CppQED.MCWF

variable {ι κ : Type*} [Fintype ι]

/-- `StateVector::norm` (StateVector.h:146, ArrayBase.h:84-90). -/
noncomputable def norm (psi : ι → ℂ) : ℝ := Real.sqrt (∑ i, Complex.normSq (psi i))

/-- `operator/=` with a `double` (ArrayBase.h:69-70). -/
noncomputable def divBy (psi : ι → ℂ) (c : ℝ) : ι → ℂ := fun i => psi i / (c : ℂ)

/-- The state vector after `StateVector::renorm` (StateVector.h:148-153). -/
noncomputable def renorm (psi : ι → ℂ) : ι → ℂ := divBy psi (norm psi)

/-- The Liouvillean part as the trajectory sees it (`structure::Liouvillean`): `rates(t,psi)` and `actWithJ(t,psi,no)`. -/
structure Li (ι : Type*) where
  rates : ℝ → (ι → ℂ) → List ℝ
  actWithJ : ℝ → (ι → ℂ) → ℕ → ι → ℂ

/-- The quantum system: `getHa`, `getEx`, `getLi` of the wrapper (Structure.h:81-188). `ha t0` is the controlled stepper for the derivative
`addContribution(t,psi,dpsidt,t0)`; `ex` is `actWithU(t,psi,t0)`. -/
structure Sys (ι κ : Type*) where
  ha : Option (ℝ → ODE.Stepper (ι → ℂ) κ)
  ex : Option (ℝ → (ι → ℂ) → ℝ → ι → ℂ)
  li : Option (Li ι)

/-- The parameters `dpLimit_`, `overshootTolerance_`. -/
structure Lim where
  dpLimit : ℝ
  overshootTolerance : ℝ

/-- The data members of the trajectory (MCWF_Trajectory.h:168-190): `t_`, `t0_`, `psi_`, those of the ODE engine, and the number of random numbers drawn
so far. `dtTry` can be infinite (division by a zero total rate). -/
structure St (ι κ : Type*) where
  t : ℝ
  t0 : ℝ
  psi : ι → ℂ
  ces : κ
  dtDid : ℝ
  dtTry : WithTop ℝ
  nSteps : ℕ
  nFailedSteps : ℕ
  nRandom : ℕ

/-- The time evolution without the exact part (MCWF_Trajectory.h:252-261). `none`: the stepper does not succeed in `fuel` trials; a Hamiltonian system with
infinite `dtTry` does not occur (`MCWF.Inv.try_fin`, `MCWF.step_inv`) and is not modelled. -/
noncomputable def evolve (S : Sys ι κ) (fuel : ℕ) (Dt : ℝ) (x : St ι κ) : Option (St ι κ) :=
  match S.ha with
  | some ha =>
    match x.dtTry with
    | ⊤ => none
    | (d : ℝ) =>
      (ODE.step (ha x.t0) fuel Dt ⟨x.ces, x.dtDid, d, x.nSteps, x.nFailedSteps⟩ x.psi x.t).map fun r =>
        { x with psi := r.1, t := r.2.1, ces := r.2.2.ces, dtDid := r.2.2.dtDid, dtTry := (r.2.2.dtTry : ℝ), nSteps := r.2.2.nSteps,
                 nFailedSteps := r.2.2.nFailedSteps }
  | none =>
    let stepToDo := match S.li with
      | some _ => (min x.dtTry (Dt : WithTop ℝ)).untopD 0
      | none => Dt
    some { x with t := x.t + stepToDo, dtDid := stepToDo }

/-- The exact part (MCWF_Trajectory.h:268-271). -/
def exact (S : Sys ι κ) (x : St ι κ) : St ι κ :=
  match S.ex with
  | some actWithU => { x with psi := actWithU x.t x.psi x.t0, t0 := x.t }
  | none => x

/-- `coherentTimeDevelopment` (MCWF_Trajectory.h:249-275). -/
noncomputable def coherent (S : Sys ι κ) (fuel : ℕ) (Dt : ℝ) (x : St ι κ) : Option (St ι κ) :=
  (evolve S fuel Dt x).map fun y => let z := exact S y; { z with psi := renorm z.psi }

open Classical in
/-- The rates after `calculateSpecialRates` (MCWF_Trajectory.h:278-290): a negative one is replaced by the square of the norm of the jumped state. -/
noncomputable def effectiveRates (l : Li ι) (t : ℝ) (psi : ι → ℂ) : List ℝ :=
  (l.rates t psi).mapIdx fun i r => if r < 0 then norm (l.actWithJ t psi i) ^ 2 else r

open Classical in
/-- The list returned by `calculateSpecialRates` (MCWF_Trajectory.h:278-290): the indices of the negative rates with the jumped and normalised state. -/
noncomputable def specialJumps (l : Li ι) (t : ℝ) (psi : ι → ℂ) : List (ℕ × (ι → ℂ)) :=
  ((l.rates t psi).mapIdx fun i r => if r < 0 then [(i, renorm (l.actWithJ t psi i))] else []).flatten

/-- `totalRate` (MCWF_Trajectory.h:296). -/
noncomputable def total (rates : List ℝ) : ℝ := rates.foldl (· + ·) 0

open Classical in
/-- `liouvilleanSuggestedDtTry` (MCWF_Trajectory.h:299), with the IEEE value of a division by zero. -/
noncomputable def suggested (L : Lim) (rates : List ℝ) : WithTop ℝ := if total rates = 0 then ⊤ else ((L.dpLimit / total rates : ℝ) : WithTop ℝ)

/-- The condition of the step-back (MCWF_Trajectory.h:302). -/
def overshot (L : Lim) (rates : List ℝ) (dtDid : ℝ) : Prop := total rates * dtDid > L.overshootTolerance * L.dpLimit

/-- `manageTimeStep` if the step-back is required (MCWF_Trajectory.h:303). -/
noncomputable def setBack (L : Lim) (rates : List ℝ) (tCache dtDidCache : ℝ) (x : St ι κ) : St ι κ :=
  { x with t := tCache, dtDid := dtDidCache, dtTry := suggested L rates }

/-- `manageTimeStep` if the step-back is not required (MCWF_Trajectory.h:312). -/
noncomputable def adjustTry (S : Sys ι κ) (L : Lim) (rates : List ℝ) (x : St ι κ) : St ι κ :=
  { x with dtTry := match S.ha with
    | some _ => min x.dtTry (suggested L rates)
    | none => suggested L rates }

/-- The loop of `performJump` selecting the jump (MCWF_Trajectory.h:324-326): the final values of `random` and `lindbladNo`. -/
noncomputable def selectLoop : List ℝ → ℝ → ℕ → ℝ × ℕ
  | [], random, no => (random, no)
  | r :: rs, random, no => open Classical in if 0 < random then selectLoop rs (random - r) (no + 1) else (random, no)

/-- The jump selected in `performJump` (MCWF_Trajectory.h:322-329), if any. -/
noncomputable def selectJump (rates : List ℝ) (sample dtDid : ℝ) : Option ℕ :=
  let r := selectLoop rates (sample / dtDid) 0
  open Classical in if r.1 < 0 then some (r.2 - 1) else none

/-- The state after the jump `no` (MCWF_Trajectory.h:329-340). -/
noncomputable def jumped (l : Li ι) (t : ℝ) (psi : ι → ℂ) (rates : List ℝ) (special : List (ℕ × (ι → ℂ))) (no : ℕ) : ι → ℂ :=
  match special.find? (fun j => j.1 == no) with
  | some j => j.2
  | none => divBy (l.actWithJ t psi no) (Real.sqrt (rates.getD no 0))

/-- `performJump` (MCWF_Trajectory.h:320-344). -/
noncomputable def performJump (l : Li ι) (sample : ℕ → ℝ) (x : St ι κ) : St ι κ :=
  let rates := effectiveRates l x.t x.psi
  match selectJump rates (sample x.nRandom) x.dtDid with
  | some no => { x with psi := jumped l x.t x.psi rates (specialJumps l x.t x.psi) no, nRandom := x.nRandom + 1 }
  | none => { x with nRandom := x.nRandom + 1 }

open Classical in
/-- The `while` loop of `step` (MCWF_Trajectory.h:357-365): `none` if more than `n` step-backs. -/
noncomputable def retryLoop (S : Sys ι κ) (l : Li ι) (L : Lim) (fuel : ℕ) (Dt : ℝ) (cache : St ι κ) : ℕ → St ι κ → Option (St ι κ)
  | n, x =>
    let rates := effectiveRates l x.t x.psi
    if overshot L rates x.dtDid then
      match n with
      | 0 => none
      | n + 1 => (coherent S fuel Dt { setBack L rates cache.t cache.dtDid x with psi := cache.psi }).bind (retryLoop S l L fuel Dt cache n)
    else some (adjustTry S L rates x)

/-- `MCWF_Trajectory::step` (MCWF_Trajectory.h:347-374). -/
noncomputable def step (S : Sys ι κ) (L : Lim) (sample : ℕ → ℝ) (fuel n : ℕ) (Dt : ℝ) (x : St ι κ) : Option (St ι κ) :=
  (coherent S fuel Dt x).bind fun y =>
    match S.li with
    | some l => (retryLoop S l L fuel Dt x n y).map (performJump l sample)
    | none => some y

open Classical in
/-- The constructor (MCWF_Trajectory.h:103-118): on startup, `manageTimeStep(rates,0,0)` is called once. -/
noncomputable def construct (S : Sys ι κ) (L : Lim) (psi : ι → ℂ) (ces : κ) (dtInit : ℝ) : St ι κ :=
  let x : St ι κ := ⟨0, 0, psi, ces, 0, dtInit, 0, 0, 0⟩
  match S.li with
  | some l =>
    let rates := effectiveRates l 0 psi
    if overshot L rates x.dtDid then setBack L rates 0 0 x else adjustTry S L rates x
  | none => x

/-- What `stateIO` writes (MCWF_Trajectory.h:147): the array, the time, the stepper with its logger and time steps, and the random engine; the logger of the trajectory is modelled in `Verif/Model/MCWFLog.lean`. -/
structure Record (ι κ : Type*) where
  psi : ι → ℂ
  t : ℝ
  ces : κ
  nSteps : ℕ
  nFailedSteps : ℕ
  dtDid : ℝ
  dtTry : WithTop ℝ
  nRandom : ℕ

def save (x : St ι κ) : Record ι κ := ⟨x.psi, x.t, x.ces, x.nSteps, x.nFailedSteps, x.dtDid, x.dtTry, x.nRandom⟩

/-- `stateIO` reading (MCWF_Trajectory.h:138-145) into the object `y`. -/
def load (r : Record ι κ) (y : St ι κ) : St ι κ :=
  let y := { y with t := r.t, ces := r.ces, nSteps := r.nSteps, nFailedSteps := r.nFailedSteps, dtDid := r.dtDid, dtTry := r.dtTry, nRandom := r.nRandom }
  let y := { y with psi := r.psi }
  { y with t0 := y.t }

end CppQED.MCWF
