import Verif.Model.Pars

/-!
# Model of the groups of parameters

Each class `Pars…` of the framework registers a fixed sequence of titles, parameters and switches on a table, with a suffix (the argument `mod`). The types and the defaults of the parameters are a function `ty` of the
name given in the code: they have no influence on which registrations fail. `none`: an `AttemptedRecreationOfParameterException` leaves the constructor.
-/

namespace CppQED.Pars

/-- One registration: `addTitle(s,mod)`, `add(s,mod,d,v)` (Pars.h:181-184), `add(s,d,v)` of a constructor having a `mod` it doesn't pass on, and `add(s,mod,d,v)` with a boolean. -/
inductive Item where
  | title (s : String)
  | param (s : String)
  | plain (s : String)
  | switch (s : String) (v : Bool)
deriving DecidableEq, Repr

variable {V : Type}

/-- The effect of a registration on the table. -/
def Item.register (ty : String → (Str → Option (V × ℕ)) × V) (mod : Str) (t : Table V) : Item → Option (Table V)
  | .title s => addTitle t s.toList mod
  | .param s => add t (s.toList ++ mod) (ty s).1 (ty s).2
  | .plain s => add t s.toList (ty s).1 (ty s).2
  | .switch s v => let r := addBool t (s.toList ++ mod) v; if r.2 then none else some r.1

/-- A constructor: the registrations in their order. -/
def register (ty : String → (Str → Option (V × ℕ)) × V) (mod : Str) (g : List Item) (t : Table V) : Option (Table V) := g.foldlM (fun t i => i.register ty mod t) t

/-- A sequence of constructors with their suffixes, as at the beginning of the scripts. -/
def registerAll (ty : String → (Str → Option (V × ℕ)) × V) (jobs : List (List Item × Str)) (t : Table V) : Option (Table V) := jobs.foldlM (fun t j => register ty j.2 j.1 t) t

/-! ## The constructors -/

/-- `mode::Pars` (ParsMode.cc:10-18). -/
def modePars : List Item := [.title "Mode", .param "cutoff", .param "minitFock", .param "minit", .param "modeStreamLevel", .param "deltaC", .title "Kerr nonlinearity", .param "omegaKerr", .param "omegaKerrAlter"]
/-- The part of `mode::ParsPumped` after the virtual base (ParsMode.cc:21-24). -/
def modePumpedOwn : List Item := [.title "PumpedMode", .param "eta"]
/-- The part of `mode::ParsLossy` after the virtual base (ParsMode.cc:27-31). -/
def modeLossyOwn : List Item := [.title "LossyMode", .param "kappa", .param "nTh"]
/-- `mode::ParsPumped`. -/
def modePumped : List Item := modePars ++ modePumpedOwn
/-- `mode::ParsLossy`. -/
def modeLossy : List Item := modePars ++ modeLossyOwn
/-- `mode::ParsPumpedLossy` (ParsMode.cc:34-36, ParsMode.h:42): the virtual base is made once. -/
def modePumpedLossy : List Item := modePars ++ modePumpedOwn ++ modeLossyOwn
/-- `mode::ParsBichromatic` (BichromaticMode.cc:6-10). -/
def modeBichromatic : List Item := modePumpedLossy ++ [.title "BichromaticMode", .param "deltaC_Other", .param "etaOther"]
/-- `mode::ParsHomodyned<ParsPumpedLossy>` (HomodynedMode.h:15-25). -/
def modeHomodyned : List Item := modePumpedLossy ++ [.param "homodyneAmplitude"]
/-- `qbit::Pars`, `ParsPumped`, `ParsPumpedLossy`, `ParsPumpedLossyPhaseNoise` (ParsQbit.h:12-59). -/
def qbitPars : List Item := [.title "Qbit", .param "qbitInit", .param "deltaA"]
def qbitPumped : List Item := qbitPars ++ [.title "PumpedQbit", .param "etat"]
def qbitPumpedLossy : List Item := qbitPumped ++ [.title "LossyQbit", .param "gamma"]
def qbitPumpedLossyPhaseNoise : List Item := qbitPumpedLossy ++ [.param "gamma_parallel"]
/-- `multilevel::ParsPumpedLossy` (ParsMultiLevel.h:29-37). -/
def multiLevelPars : List Item := [.title "PumpedLossyMultiLevel", .param "deltas", .param "etas", .param "gammas", .param "gamma_parallel", .param "gamma_parallel_vector"]
/-- `spin::Pars` (Spin.cc:74-81). -/
def spinPars : List Item := [.title "Spin", .param "twoS", .param "spinDim", .param "theta", .param "phi", .param "omega", .param "gamma"]
/-- `particle::Pars` (ParsParticle.cc:11-17). -/
def particlePars : List Item := [.title "Particle", .param "omrec", .param "fin", .param "pinit", .param "HOinitn"]
/-- `particle::ParsPumped` (ParsParticle.cc:20-26). -/
def particlePumped : List Item := particlePars ++ [.title "PumpedParticle", .param "vClass", .param "kPart", .param "modePart"]
/-- `jaynescummings::Pars` (JaynesCummings.cc:10-12). -/
def jaynesCummingsPars : List Item := [.param "g"]
/-- `mljc::Pars` (ParsMLJC.h:18). -/
def mljcPars : List Item := [.title "MultiLevelJaynesCummings", .param "gs"]
/-- `particlecavity::ParsOrthogonal`, `ParsAlong`, `ParsOrthogonalGenericPump`, `ParsAlongGenericPump` (ParsParticleCavity.cc:7-19, ParsParticleCavity.h:37-46). -/
def orthogonalPars : List Item := [.title "ParticleCavityOrthogonal", .param "Unot"]
def alongPars : List Item := orthogonalPars ++ [.title "ParticleCavityAlong", .param "kCav", .param "modeCav"]
def orthogonalGenericPump : List Item := orthogonalPars ++ [.param "etaeff"]
def alongGenericPump : List Item := alongPars ++ [.param "etaeff"]
/-- `ode_engine::Pars` (ODE.h:55-61). -/
def odePars : List Item := [.title "ODE_Engine generic parameters", .param "eps", .param "epsAbs", .param "logLevel"]
/-- `randomutils::Pars` (Random.h:142-146) and `ParsStochastic` (StochasticTrajectory.h:33-37). -/
def stochasticPars : List Item := odePars ++ [.title "StochasticTrajectory", .param "seed", .param "prngStream", .switch "noise" true, .param "nTraj"]
/-- `mcwf::Pars` (MCWF_Trajectory.h:39-45). -/
def mcwfPars : List Item := stochasticPars ++ [.title "MCWF_Trajectory", .param "dpLimit", .param "overshootTolerance", .param "nBins", .param "nJumpsPerBin"]
/-- `trajectory::Pars` (Trajectory.h:98-113). -/
def trajectoryOwn : List Item := [.title "Trajectory", .param "T", .param "dc", .param "Dt", .param "NDt", .param "o", .param "initialFileName", .param "precision", .switch "streamInfo" true, .switch "firstStateStream" true,
  .param "sdf", .param "autoStopEpsilon", .param "autoStopEpsilonAbs", .param "autoStopRepetition"]
/-- `evolution::Pars<>` (Evolution_.h:35-45). -/
def evolutionPars : List Item := mcwfPars ++ trajectoryOwn ++ [.title "Evolution", .param "evol", .param "ems"]
/-- `ParsFunctionScan` (DistributionFunctions.cc:19-28): `mod` is passed only to `addTitle`. -/
def functionScanPars : List Item := [.title "Distribution function scan", .plain "fLimitXUL", .plain "fLimitYUL", .plain "fLimitXL", .plain "fLimitXU", .plain "fLimitYL", .plain "fLimitYU", .plain "fStep", .plain "fCutoff"]

/-- The groups of the framework, without `ParsFunctionScan`. -/
def catalogue : List (List Item) := [modePars, modePumped, modeLossy, modePumpedLossy, modeBichromatic, modeHomodyned, qbitPars, qbitPumped, qbitPumpedLossy, qbitPumpedLossyPhaseNoise, multiLevelPars, spinPars, particlePars,
  particlePumped, jaynesCummingsPars, mljcPars, orthogonalPars, alongPars, orthogonalGenericPump, alongGenericPump, odePars, stochasticPars, mcwfPars, evolutionPars]

end CppQED.Pars
