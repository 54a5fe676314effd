import Mathlib.Data.Real.Basic
import Mathlib.Algebra.Order.Floor.Defs

/-!
# Model of the trajectory driver

Source: `/repo/CPPQEDutils/Trajectory.h`. Times are idealised as real numbers. A trajectory is an abstract state with the member functions the
driver calls; the random engine, the stepper etc. belong to the state, so that `step` is a function. The driver's output is modelled as the
sequence of its visible effects (`Ev`), in order: rows and comments appended to the trajectory file, records appended to the state file.
A crash is then the truncation of this sequence.
-/

namespace CppQED.Traj

/-! ## `advance` -/

/-- The interface of a trajectory used by the driver: `getTime`, `step(dt)`, `advance(dt)`, and the serialisation of its state into records `ρ`
(`stateIO`). For trajectories with a `step`, `advance` is given by `advanceLoop` below. -/
structure Iface (σ ρ : Type*) where
  time : σ → ℝ
  step : ℝ → σ → σ
  advance : ℝ → σ → σ
  save : σ → ρ
  load : ρ → σ → σ

open Classical in
/-- The loop of `advance` (Trajectory.h:47-48): `while (dt=endTime-getTime()) step(dt)`. `none`: the loop has not finished in the given number of
iterations. -/
noncomputable def advanceLoop {σ : Type*} (time : σ → ℝ) (step : ℝ → σ → σ) (endTime : ℝ) : ℕ → σ → Option σ
  | 0, s => if endTime - time s = 0 then some s else none
  | n + 1, s => if endTime - time s = 0 then some s else advanceLoop time step endTime n (step (endTime - time s) s)

/-- `advance(traj,deltaT)` (Trajectory.h:43-50). -/
noncomputable def advance {σ : Type*} (time : σ → ℝ) (step : ℝ → σ → σ) (deltaT : ℝ) (fuel : ℕ) (s : σ) : Option σ :=
  advanceLoop time step (time s + deltaT) fuel s

/-- `advanceTo(traj,t)` (Trajectory.h:65-69). -/
noncomputable def advanceTo {σ : Type*} (time : σ → ℝ) (step : ℝ → σ → σ) (t : ℝ) (fuel : ℕ) (s : σ) : Option σ :=
  advance time step (t - time s) fuel s

/-! ## `trajectory::run` -/

/-- The three instantiations of `trajectory::run`: `LENGTH` and `DELTA` floating point or not (Trajectory.h:474-476). -/
inductive Mode
  /-- run up to time `T`, streaming in every `Dt` -/
  | timeDt (T Dt : ℝ)
  /-- run over `n` intervals of `Dt` -/
  | nDt (n : ℕ) (Dt : ℝ)
  /-- run up to time `T`, streaming after every `dc` steps -/
  | timeDc (T : ℝ) (dc : ℕ)

/-- The parameters of `run` other than the mode. `streamToFile` is `trajectoryFileName!=""`. -/
structure Cfg where
  mode : Mode
  stateStreamFreq : ℕ
  firstStateStream : Bool
  streamInfo : Bool
  streamToFile : Bool

/-- Visible effects: the header or the "Continuing" line, a row streamed for a state (with a flag whether it has been put in the returned list),
a record written in the state file, the comment on autostopping, and the final log. -/
inductive Ev (σ : Type*)
  | header
  | contHeader
  | row (s : σ) (stored : Bool)
  | save (s : σ)
  | stopComment
  | logOnEnd

/-- The variables of the main loop (Trajectory.h:554-560) and the effects so far; `auto` is the state of the autostop handler. -/
structure LoopState (σ α : Type*) where
  traj : σ
  count : ℕ
  stateCount : ℕ
  stateSaved : Bool
  arrayStreamed : Bool
  auto : α
  evs : List (Ev σ)

variable {σ ρ α : Type*}

open Classical in
/-- The condition of the main loop (Trajectory.h:560). -/
noncomputable def loopCond (I : Iface σ ρ) : Mode → LoopState σ α → Bool
  | .timeDt T _, st => decide (I.time st.traj < T)
  | .nDt n _, st => decide (st.count ≤ n)
  | .timeDc T _, st => decide (I.time st.traj < T)

/-- The advancement in the main loop (Trajectory.h:564-568). -/
noncomputable def move (I : Iface σ ρ) : Mode → σ → σ
  | .timeDt T Dt, s => I.advance (min Dt (T - I.time s)) s
  | .nDt _ Dt, s => I.advance Dt s
  | .timeDc T _, s => I.step (T - I.time s) s

/-- The condition of streaming (Trajectory.h:572-575). -/
def streamCond : Mode → ℕ → Bool
  | .timeDc _ dc, count => count == 0 || count % dc == 0
  | _, _ => true

/-- The body of the main loop (Trajectory.h:562-594) without the final `++count`. `auto` is the autostop handler; if it throws (`none`), the
`Bool` is true and the loop is left. -/
noncomputable def body (I : Iface σ ρ) (auto : α → σ → Option α) (c : Cfg) (continuing : Bool) (st : LoopState σ α) : LoopState σ α × Bool :=
  let st := if st.count ≠ 0 then { st with traj := move I c.mode st.traj, stateSaved := false, arrayStreamed := false } else st
  if st.count = 0 ∨ streamCond c.mode st.count = true then
    let st :=
      if c.stateStreamFreq ≠ 0 ∧ st.stateCount % c.stateStreamFreq = 0 ∧ (st.stateCount ≠ 0 ∨ (c.firstStateStream = true ∧ continuing = false)) then
        { st with evs := st.evs ++ [.save st.traj], stateSaved := true }
      else st
    let st := { st with stateCount := st.stateCount + 1 }
    if st.count ≠ 0 ∨ continuing = false then
      let st := { st with arrayStreamed := true, evs := st.evs ++ [.row st.traj true] }
      match auto st.auto st.traj with
      | some a => ({ st with auto := a }, false)
      | none => (st, true)
    else (st, false)
  else (st, false)

/-- The main loop (Trajectory.h:558-597); `none`: not finished in `fuel` iterations. An autostop leaves the comment. -/
noncomputable def mainLoop (I : Iface σ ρ) (auto : α → σ → Option α) (c : Cfg) (continuing : Bool) : ℕ → LoopState σ α → Option (LoopState σ α)
  | 0, st => if loopCond I c.mode st then none else some st
  | n + 1, st =>
    if loopCond I c.mode st then
      match body I auto c continuing st with
      | (st', true) => some { st' with evs := st'.evs ++ [.stopComment] }
      | (st', false) => mainLoop I auto c continuing n { st' with count := st'.count + 1 }
    else some st

/-- What follows the main loop (Trajectory.h:599-606). -/
def finish (st : LoopState σ α) : List (Ev σ) :=
  st.evs ++ (if st.arrayStreamed then [] else [.row st.traj false]) ++ [.logOnEnd] ++ (if st.stateSaved then [] else [.save st.traj])

/-- `timeToReach` (Trajectory.h:510). -/
noncomputable def timeToReach (I : Iface σ ρ) : Mode → σ → ℝ
  | .timeDt T _, _ => T
  | .nDt n Dt, s => I.time s + n * Dt
  | .timeDc T _, _ => T

/-- The result of a run: the sequence of effects and the final state of the trajectory. -/
structure Res (σ : Type*) where
  evs : List (Ev σ)
  final : σ

open Classical in
/-- `trajectory::run` from the determination of `timeToReach` on (Trajectory.h:510-608). -/
noncomputable def runFrom (I : Iface σ ρ) (auto : α → σ → Option α) (a₀ : α) (c : Cfg) (continuing : Bool) (fuel : ℕ) (s : σ) : Option (Res σ) :=
  let tt := timeToReach I c.mode s
  if tt ≠ 0 ∧ tt ≤ I.time s then some ⟨[], s⟩
  else
    let intro : List (Ev σ) := if c.streamInfo then (if continuing then [.contHeader] else [.header]) else []
    if tt = 0 then some ⟨intro ++ [.row s false], s⟩
    else
      (mainLoop I auto c continuing fuel ⟨s, 0, 0, false, false, a₀, intro⟩).map fun st => ⟨finish st, st.traj⟩

/-- The files found at startup: whether the trajectory file exists with nonzero length, the records in the state file (`none`: cannot be opened)
and those in the file of initial conditions (`none`: no such file name given). -/
structure Files (ρ : Type*) where
  trajectoryNonempty : Bool
  states : Option (List ρ)
  initial : Option (List ρ)

/-- Reading all the records of a file, one after the other, into the trajectory (Trajectory.h:495, 503). -/
def loadAll (I : Iface σ ρ) (rs : List ρ) (s : σ) : σ := rs.foldl (fun s r => I.load r s) s

/-- Determination of `continuing` with the eventual state input (Trajectory.h:488-507); `none`: exception on opening the state file. -/
def startup (I : Iface σ ρ) (c : Cfg) (f : Files ρ) (s : σ) : Option (Bool × σ) :=
  if c.streamToFile = true ∧ f.trajectoryNonempty = true then f.states.map fun rs => (true, loadAll I rs s)
  else some (false, match f.initial with | some rs => loadAll I rs s | none => s)

/-- `trajectory::run`: outer `none` is an exception, inner `none` is nontermination within the fuel. (If `streamToFile` is
false, then the `save` events go into an unopened stream, that is, nowhere: Trajectory.h:552. The exceptions on opening files for writing are not
modelled.) -/
noncomputable def run (I : Iface σ ρ) (auto : α → σ → Option α) (a₀ : α) (c : Cfg) (f : Files ρ) (fuel : ℕ) (s : σ) : Option (Option (Res σ)) :=
  (startup I c f s).map fun p => runFrom I auto a₀ c p.1 fuel p.2

/-- Rows of the trajectory file. -/
def rows : List (Ev σ) → List σ := List.filterMap fun | .row s _ => some s | _ => none
/-- The returned list (for `returnStreamedArray`). -/
def returned : List (Ev σ) → List σ := List.filterMap fun | .row s true => some s | _ => none
/-- Records of the state file. -/
def saves : List (Ev σ) → List σ := List.filterMap fun | .save s => some s | _ => none

/-- Anything written in the trajectory file? -/
def wroteTrajectory (l : List (Ev σ)) : Bool := l.any fun | .save _ => false | _ => true

/-! ## The dispatcher -/

/-- The parameters of `cppqedutils::run` relevant to the choice of mode. -/
structure Pars where
  T : ℝ
  dc : ℕ
  Dt : ℝ
  NDt : ℕ

open Classical in
/-- The dispatch (Trajectory.h:317-329); `none`: exception. Negative `dc` and `NDt` are not modelled. -/
noncomputable def dispatch (hasStep : Bool) (p : Pars) : Option Mode :=
  if hasStep = true ∧ p.dc ≠ 0 then some (.timeDc p.T p.dc)
  else if p.Dt = 0 then none
  else if p.NDt ≠ 0 then some (.nDt p.NDt p.Dt)
  else some (.timeDt p.T p.Dt)

end CppQED.Traj
