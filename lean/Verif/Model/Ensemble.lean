import Verif.Model.QuantumData
import Verif.Model.Trajectory

/-!
# Model of ensembles of trajectories, of the random streams of their members, and of the cache of `FreeExact`

Sources: `/repo/CPPQEDutils/StochasticTrajectory.h`, `/repo/CPPQEDutils/Random.h`, `/repo/CPPQEDcore/quantumtrajectory/MCWF_Trajectory.h`,
`/repo/CPPQEDcore/structure/FreeExact.h`, `/repo/CPPQEDcore/structure/TimeDependence.h`.
-/

namespace CppQED.Ensemble
open CppQED.CMat CppQED.QD

/-- `AverageTrajectories<MCWF_Trajectory>` (MCWF_Trajectory.h:406-420). `rho` is the content of `ensembleAverageResult_` before the call; the ensemble is
`psi :: psis` (an empty one is undefined behaviour in the code). -/
noncomputable def averageDensity (rho psi : Array) (psis : List Array) : Array :=
  let rho := assignDyad rho psi
  let rho := psis.foldl (fun rho psi => addTo psi rho 1) rho
  divBy rho ((psis.length + 1 : ℕ) : ℝ)

/-- The naive `AverageTrajectories` (StochasticTrajectory.h:155-163) for real quantities. -/
noncomputable def averageNaive (a : ℝ) (as : List ℝ) : ℝ := as.foldl (fun init s => init + s) a / ((as.length + 1 : ℕ) : ℝ)

/-- `Ensemble::getDtDid` (StochasticTrajectory.h:215-219). -/
noncomputable def dtDid (dts : List ℝ) : ℝ := dts.foldl (fun init t => init + t) 0 / (dts.length : ℝ)

/-- `Ensemble` (StochasticTrajectory.h:187-256) of trajectories with the interface `I`, as a trajectory: `getTime` (211), `advance` (213), `stateIO` (231). The members are
`trajs_.front()` and the rest. There is no `step`; the one given here is a placeholder which `trajectory::run` does not use with an ensemble. -/
def ensemble {σ ρ : Type*} (I : Traj.Iface σ ρ) : Traj.Iface (σ × List σ) (ρ × List ρ) where
  time s := I.time s.1
  step d s := (I.advance d s.1, s.2.map (I.advance d))
  advance d s := (I.advance d s.1, s.2.map (I.advance d))
  save s := (I.save s.1, s.2.map I.save)
  load r s := (I.load r.1 s.1, List.zipWith I.load r.2 s.2)

/-! ## Random streams -/

/-- `randomutils::Pars`: `seed`, `prngStream`, of type `unsigned long`. -/
structure RandomPars where
  seed : ℕ
  prngStream : ℕ

/-- The range of `unsigned long`. -/
def ulong : ℕ := 2 ^ 64

/-- The seed and the stream number of the random engine of a trajectory made with the given parameters: `EngineWithParameters{p.seed,p.prngStream}`
(MCWF_Trajectory.h:207-208, Random.h:117-126). -/
def make (p : RandomPars) : ℕ × ℕ := (p.seed, p.prngStream)

/-- `incrementForNextStream` (Random.h:160-161). -/
def incrementForNextStream (p : RandomPars) : RandomPars := { p with prngStream := (p.prngStream + 1) % ulong }

/-- The loop of `makeEnsemble` (MCWF_Trajectory.h:224-227): the engines of the members and the parameters afterwards. -/
def makeEnsemble : ℕ → RandomPars → List (ℕ × ℕ) × RandomPars
  | 0, p => ([], p)
  | n + 1, p =>
    let r := makeEnsemble n (incrementForNextStream p)
    (make p :: r.1, r.2)

/-! ## `FreeExact` -/

/-- The data members of `FreeExact` (FreeExact.h:36-37): the diagonal and the time it corresponds to. -/
structure Cache (τ ι : Type*) where
  diagonal : ι → ℂ
  t : τ

/-- `FreeExact::actWithU_v` (FreeExact.h:31): the resulting state vector and the new content of the cache. `updateU` gives the diagonal at the given time. -/
def actWithU {τ ι : Type*} [DecidableEq τ] (updateU : τ → ι → ℂ) (c : Cache τ ι) (t : τ) (psi : ι → ℂ) : (ι → ℂ) × Cache τ ι :=
  let c := if t ≠ c.t then ⟨updateU t, t⟩ else c
  (fun i => psi i * c.diagonal i, c)

/-- The constructor (FreeExact.h:26): `garbage` is the uninitialised content of the diagonal, `zero` is `Time(0,0)`. -/
def freeExact {τ ι : Type*} (garbage : ι → ℂ) (zero : τ) : Cache τ ι := ⟨garbage, zero⟩

/-- The cache after a history of calls. -/
def history {τ ι : Type*} [DecidableEq τ] (updateU : τ → ι → ℂ) (c : Cache τ ι) (calls : List (τ × (ι → ℂ))) : Cache τ ι :=
  calls.foldl (fun c x => (actWithU updateU c x.1 x.2).2) c

/-- `TwoTime` (TimeDependence.h:24-38), compared by both members. -/
def twoTime (t t0 : ℝ) : ℝ × ℝ := (t, t0)

/-- `OneTime` (TimeDependence.h:41-54): compared by the difference. -/
def oneTime (t t0 : ℝ) : ℝ := t - t0

end CppQED.Ensemble
