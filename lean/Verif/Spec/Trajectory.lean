import Verif.Model.Trajectory
import Mathlib.Logic.Function.Iterate

/-!
# Specification vocabulary for the trajectory driver
-/

namespace CppQED.Spec

open CppQED.Traj

variable {σ ρ α : Type*}

/-- What the driver relies on: `advance` moves the time by exactly the requested positive amount (this is `C34` for trajectories with `step`), a
step of positive allowance moves forward, and does not overshoot. -/
structure Progress (I : Iface σ ρ) : Prop where
  advance_time : ∀ d s, 0 < d → I.time (I.advance d s) = I.time s + d
  step_forward : ∀ d s, 0 < d → I.time s < I.time (I.step d s)
  step_allowed : ∀ d s, 0 < d → I.time (I.step d s) ≤ I.time s + d

/-- The full state is serialised: loading a saved record restores the saved state, whatever the state of the trajectory it is loaded in. -/
def FullySerialised (I : Iface σ ρ) : Prop := ∀ s s', I.load (I.save s) s' = s

/-- No autostop. -/
def neverStop : Unit → σ → Option Unit := fun _ _ => some ()

/-- The state after `k` moves of the given mode. -/
noncomputable def stateAt (I : Iface σ ρ) (m : Mode) (s : σ) (k : ℕ) : σ := (move I m)^[k] s

/-- Is there a streaming in the iteration number `k` (after `k` moves)? With `dc`, only in every `dc`-th one. -/
def streamedAt : Mode → ℕ → Bool
  | .timeDc _ dc, k => k == 0 || k % dc == 0
  | _, _ => true

/-- The number of streamings before iteration `k`. -/
def streamings (m : Mode) (k : ℕ) : ℕ := ((List.range k).filter (streamedAt m)).length

/-- Is a state record written regularly in iteration `k`: every `sdf`-th streaming, the first one only if so requested and the run is fresh. -/
def savedAt (c : Cfg) (continuing : Bool) (k : ℕ) : Bool :=
  streamedAt c.mode k && (c.stateStreamFreq != 0 && (streamings c.mode k % c.stateStreamFreq == 0 &&
    (streamings c.mode k != 0 || (c.firstStateStream && !continuing))))

/-- Is a row written regularly in iteration `k`: not in the initial iteration of a continuing run (the previous run has written it). -/
def rowAt (c : Cfg) (continuing : Bool) (k : ℕ) : Bool := streamedAt c.mode k && (k != 0 || !continuing)

/-- The effects of iteration `k`. -/
noncomputable def evAt (I : Iface σ ρ) (c : Cfg) (continuing : Bool) (s : σ) (k : ℕ) : List (Ev σ) :=
  (if savedAt c continuing k then [.save (stateAt I c.mode s k)] else []) ++
  (if rowAt c continuing k then [.row (stateAt I c.mode s k) true] else [])

/-- The state of the autostop handler before iteration `k`; `none` after it has thrown. -/
noncomputable def autoAt (I : Iface σ ρ) (auto : α → σ → Option α) (a₀ : α) (c : Cfg) (continuing : Bool) (s : σ) : ℕ → Option α
  | 0 => some a₀
  | k + 1 =>
    if rowAt c continuing k then (autoAt I auto a₀ c continuing s k).bind fun a => auto a (stateAt I c.mode s k)
    else autoAt I auto a₀ c continuing s k

/-- The files found by a process started after the given effects, with no file of initial conditions: the trajectory file is nonempty if anything has
been written in it, the state file consists of the saved records. (Simplification: the state file is supposed to exist.) -/
def filesAfter (I : Iface σ ρ) (evs : List (Ev σ)) : Files ρ := ⟨wroteTrajectory evs, some ((saves evs).map I.save), none⟩

/-- A sequence of processes, all with the same initial condition `s₀` and with the same trajectory file name, run one after the other, each over the
given number of intervals `Dt`. The result is all the effects on the files. -/
noncomputable def sessions (I : Iface σ ρ) (c : Cfg) (Dt : ℝ) (fuel : ℕ) (s₀ : σ) : List ℕ → List (Ev σ) → Option (List (Ev σ))
  | [], evs => some evs
  | n :: ns, evs =>
    match run I neverStop () { c with mode := .nDt n Dt } (filesAfter I evs) fuel s₀ with
    | some (some r) => sessions I c Dt fuel s₀ ns (evs ++ r.evs)
    | _ => none

end CppQED.Spec
