import Verif.Model.MCWF
import Verif.Model.Tridiagonal

/-!
# Model of the logger of the Monte Carlo wave-function trajectory

Source: `/repo/CPPQEDcore/quantumtrajectory/MCWF_TrajectoryLogger.{h,cc}` and its calls in `MCWF_Trajectory.h`. The functions of `Verif/Model/MCWF.lean` are repeated here with the
calls of the logger. The log lines are modelled by their content. The lines of the logger of the ODE engine are not modelled.
-/

namespace CppQED.MCWFLog

open CppQED.MCWF CppQED.Tridiag

variable {ι κ : Type*} [Fintype ι]

/-- The data members of `mcwf::Logger` (MCWF_TrajectoryLogger.h:92-98). The probability of a trial step which is infinite is infinite. -/
structure Log where
  logLevel : ℤ
  nLindblads : ℕ
  nSteps : ℕ
  nOvershot : ℕ
  nToleranceOvershot : ℕ
  dpMaxOvershoot : WithTop ℝ
  dpToleranceMaxOvershoot : ℝ
  normMaxDeviation : ℝ
  traj : List (ℝ × ℕ)

/-- The lines written on the log stream during the trajectory (MCWF_TrajectoryLogger.cc:50,59,75). -/
inductive Line where
  | stepBack (dp dtDid : ℝ) (newDtTry : WithTop ℝ) (t : ℝ)
  | overshot (dp oldDtTry newDtTry : WithTop ℝ)
  | jump (no : ℕ) (t : ℝ)

/-- The logger and the stream it writes on. -/
structure Logged where
  log : Log
  out : List Line

/-- `Logger::Logger` (MCWF_TrajectoryLogger.cc:18-23). -/
def mkLog (logLevel : ℤ) (nLindblads : ℕ) : Log := ⟨logLevel, nLindblads, 0, 0, 0, 0, 0, 0, []⟩

/-- `Logger::step` (MCWF_TrajectoryLogger.cc:42). -/
def logStep (g : Logged) : Logged := { g with log := { g.log with nSteps := g.log.nSteps + 1 } }

/-- `Logger::stepBack` (MCWF_TrajectoryLogger.cc:45-51). -/
noncomputable def logStepBack (dp dtDid : ℝ) (newDtTry : WithTop ℝ) (t : ℝ) (logControl : Bool) (g : Logged) : Logged :=
  { log := { g.log with
      nToleranceOvershot := g.log.nToleranceOvershot + 1
      dpToleranceMaxOvershoot := if logControl then max g.log.dpToleranceMaxOvershoot dp else g.log.dpToleranceMaxOvershoot }
    out := if g.log.logLevel > 2 then g.out ++ [.stepBack dp dtDid newDtTry t] else g.out }

/-- `Logger::overshot` (MCWF_TrajectoryLogger.cc:54-60). -/
noncomputable def logOvershot (dp oldDtTry newDtTry : WithTop ℝ) (logControl : Bool) (g : Logged) : Logged :=
  { log := { g.log with
      nOvershot := g.log.nOvershot + 1
      dpMaxOvershoot := if logControl then max g.log.dpMaxOvershoot dp else g.log.dpMaxOvershoot }
    out := if g.log.logLevel > 2 then g.out ++ [.overshot dp oldDtTry newDtTry] else g.out }

/-- `Logger::processNorm` (MCWF_TrajectoryLogger.cc:63-67). -/
noncomputable def logNorm (nrm : ℝ) (g : Logged) : Logged :=
  { g with log := { g.log with normMaxDeviation := max g.log.normMaxDeviation |1 - nrm| } }

/-- `Logger::jumpOccured` (MCWF_TrajectoryLogger.cc:70-75). -/
def logJump (t : ℝ) (no : ℕ) (g : Logged) : Logged :=
  { log := { g.log with traj := g.log.traj ++ [(t, no)] }
    out := if g.log.logLevel > 1 then g.out ++ [.jump no t] else g.out }

/-- `coherentTimeDevelopment` with its last line (MCWF_Trajectory.h:249-275). -/
noncomputable def coherent (S : Sys ι κ) (fuel : ℕ) (Dt : ℝ) (x : St ι κ) (g : Logged) : Option (St ι κ × Logged) :=
  (evolve S fuel Dt x).map fun y =>
    let z := exact S y
    ({ z with psi := renorm z.psi }, logNorm (MCWF.norm z.psi) g)

/-- `totalRate*dtTry` (MCWF_Trajectory.h:307-308). If `dtTry` is infinite, then it is infinite, or not a number if the total rate is zero, but in that case it is not used. -/
noncomputable def dpTry (rates : List ℝ) (dtTry : WithTop ℝ) : WithTop ℝ :=
  match dtTry with
  | ⊤ => ⊤
  | (d : ℝ) => ((total rates * d : ℝ) : WithTop ℝ)

/-- The condition `totalRate*dtTry>dpLimit_` (MCWF_Trajectory.h:307), false if the product is not a number. -/
def tryOvershot (L : Lim) (rates : List ℝ) (dtTry : WithTop ℝ) : Prop :=
  match dtTry with
  | ⊤ => 0 < total rates
  | (d : ℝ) => total rates * d > L.dpLimit

open Classical in
/-- `manageTimeStep` (MCWF_Trajectory.h:293-315): whether a step-back is required, the trajectory, the logger. -/
noncomputable def manageTimeStep (S : Sys ι κ) (L : Lim) (rates : List ℝ) (tCache dtDidCache : ℝ) (logControl : Bool) (x : St ι κ) (g : Logged) :
    Bool × St ι κ × Logged :=
  if MCWF.overshot L rates x.dtDid then
    let y := setBack L rates tCache dtDidCache x
    (true, y, logStepBack (total rates * x.dtDid) x.dtDid y.dtTry y.t logControl g)
  else
    (false, adjustTry S L rates x, if tryOvershot L rates x.dtTry then logOvershot (dpTry rates x.dtTry) x.dtTry (suggested L rates) logControl g else g)

/-- `performJump` (MCWF_Trajectory.h:320-344). -/
noncomputable def performJump (l : Li ι) (sample : ℕ → ℝ) (x : St ι κ) (g : Logged) : St ι κ × Logged :=
  let rates := effectiveRates l x.t x.psi
  match selectJump rates (sample x.nRandom) x.dtDid with
  | some no => ({ x with psi := jumped l x.t x.psi rates (specialJumps l x.t x.psi) no, nRandom := x.nRandom + 1 }, logJump x.t no g)
  | none => ({ x with nRandom := x.nRandom + 1 }, g)

/-- The `while` loop of `step` (MCWF_Trajectory.h:357-365): `none` if more than `n` step-backs. -/
noncomputable def retryLoop (S : Sys ι κ) (l : Li ι) (L : Lim) (fuel : ℕ) (Dt : ℝ) (cache : St ι κ) : ℕ → St ι κ → Logged → Option (St ι κ × Logged)
  | n, x, g =>
    let r := manageTimeStep S L (effectiveRates l x.t x.psi) cache.t cache.dtDid true x g
    if r.1 then
      match n with
      | 0 => none
      | n + 1 => (coherent S fuel Dt { r.2.1 with psi := cache.psi } r.2.2).bind fun y => retryLoop S l L fuel Dt cache n y.1 y.2
    else some r.2

/-- `MCWF_Trajectory::step` (MCWF_Trajectory.h:347-374). -/
noncomputable def step (S : Sys ι κ) (L : Lim) (sample : ℕ → ℝ) (fuel n : ℕ) (Dt : ℝ) (x : St ι κ) (g : Logged) : Option (St ι κ × Logged) :=
  (coherent S fuel Dt x g).bind fun y =>
    match S.li with
    | some l => (retryLoop S l L fuel Dt x n y.1 y.2).map fun z => let w := performJump l sample z.1 z.2; (w.1, logStep w.2)
    | none => some (y.1, logStep y.2)

/-- The constructor (MCWF_Trajectory.h:103-118). The stream is `std::clog`, with which the log stream is identified here. -/
noncomputable def construct (S : Sys ι κ) (L : Lim) (psi : ι → ℂ) (ces : κ) (dtInit : ℝ) (logLevel : ℤ) (nLindblads : ℕ) : St ι κ × Logged :=
  let x : St ι κ := ⟨0, 0, psi, ces, 0, dtInit, 0, 0, 0⟩
  let g : Logged := ⟨mkLog logLevel nLindblads, []⟩
  match S.li with
  | some l => (manageTimeStep S L (effectiveRates l 0 psi) 0 0 false x g).2
  | none => (x, g)

/-- A sequence of calls of `step`. -/
noncomputable def steps (S : Sys ι κ) (L : Lim) (sample : ℕ → ℝ) (fuel n : ℕ) : List ℝ → St ι κ → Logged → Option (St ι κ × Logged)
  | [], x, g => some (x, g)
  | Dt :: Dts, x, g => (step S L sample fuel n Dt x g).bind fun y => steps S L sample fuel n Dts y.1 y.2

/-- What `serialize` of the logger writes (MCWF_TrajectoryLogger.h:83-86). -/
structure LogRecord where
  nSteps : ℕ
  nOvershot : ℕ
  nToleranceOvershot : ℕ
  dpMaxOvershoot : WithTop ℝ
  dpToleranceMaxOvershoot : ℝ
  normMaxDeviation : ℝ
  traj : List (ℝ × ℕ)

/-- `serialize` with an output archive. -/
def saveLog (g : Log) : LogRecord := ⟨g.nSteps, g.nOvershot, g.nToleranceOvershot, g.dpMaxOvershoot, g.dpToleranceMaxOvershoot, g.normMaxDeviation, g.traj⟩

/-- `serialize` with an input archive, into the logger `g`. -/
def loadLog (r : LogRecord) (g : Log) : Log :=
  { g with nSteps := r.nSteps, nOvershot := r.nOvershot, nToleranceOvershot := r.nToleranceOvershot, dpMaxOvershoot := r.dpMaxOvershoot,
           dpToleranceMaxOvershoot := r.dpToleranceMaxOvershoot, normMaxDeviation := r.normMaxDeviation, traj := r.traj }

/-- `Logger::onEnd` (MCWF_TrajectoryLogger.cc:26-39): what is streamed as summary, if it is. -/
def onEnd (g : Log) : Option LogRecord := if g.logLevel ≠ 0 then some (saveLog g) else none

/-- The log level of the trajectories of an ensemble (MCWF_Trajectory.h:221). -/
def ensembleLevel (logLevel : ℤ) : ℤ := if logLevel > 0 then 1 else logLevel

/-! ## The logger of the ensemble -/

/-- `boost::max_element` with `a.f<b.f` (MCWF_TrajectoryLogger.cc:84): the first largest one. With an empty list, the end iterator is dereferenced. -/
noncomputable def maxOf {β : Type*} [LinearOrder β] : List β → Outcome β
  | [] => .undef
  | x :: xs => .ok (xs.foldl (fun m y => if m < y then y else m) x)

/-- `AVERAGE_function` (MCWF_TrajectoryLogger.cc:83): with an empty list, zero is divided by zero. -/
noncomputable def averageOf (xs : List ℕ) : Outcome ℝ :=
  if xs.length = 0 then .undef else .ok (xs.foldl (fun (s : ℝ) (n : ℕ) => s + (n : ℝ)) 0 / xs.length)

/-- What the ensemble logger decides about the histogram. -/
inductive Histogram where
  | tooFew
  | bins (n : ℕ)
deriving DecidableEq

/-- The number of bins (MCWF_TrajectoryLogger.cc:100-104). The division by zero is undefined. -/
def histogram (nTotalJumps nBins nJumpsPerBin : ℕ) : Outcome Histogram :=
  if nBins = 0 ∧ nTotalJumps < 2 * nJumpsPerBin then .ok .tooFew
  else if nBins ≠ 0 then .ok (.bins nBins)
  else if nJumpsPerBin = 0 then .undef
  else .ok (.bins (nTotalJumps / nJumpsPerBin))

/-- `nTotalJumps` (MCWF_TrajectoryLogger.cc:97). -/
def totalJumps (gs : List Log) : ℕ := gs.foldl (fun s g => s + g.traj.length) 0

/-- The samples of the histogram (MCWF_TrajectoryLogger.cc:108). -/
def jumpTimes (gs : List Log) : List ℝ := gs.flatMap fun g => g.traj.map (·.1)

end CppQED.MCWFLog
