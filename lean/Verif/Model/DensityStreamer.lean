import Mathlib.Data.Real.Basic
import Verif.Model.Composite

/-!
# Model of `DensityOperatorStreamer` and of the time averaging in `TimeAveragingMCWF_Trajectory`

Sources: `/repo/CPPQEDcore/quantumtrajectory/DensityOperatorStreamer.h`, `/repo/CPPQEDcore/quantumtrajectory/TimeAveragingMCWF_Trajectory.h`.
-/

namespace CppQED.DStream
open CppQED.Composite (KeyItem Av)

/-- The entanglement measures of a density operator (EntanglementMeasures.h): `negPT`, `mutualInformation`, `purityOfPartialTrace`, taken as given here. -/
structure Measures where
  negativity : ℝ
  mutualInformation : ℝ
  purity : ℝ

/-- `EntanglementMeasuresSwitch` (QuantumTrajectory.h:16): `ems[0]`, `ems[1]`, `ems[2]`. -/
structure Switch where
  e0 : Bool
  e1 : Bool
  e2 : Bool

/-- `os<<'\t'<<FormDouble(precision)(x)`, and `averages.resizeAndPreserve(averages.size()+1); averages(averages.ubound(0))=x` (DensityOperatorStreamer.h:45-46). The state: the numbers written on the stream, and the averages. -/
def appendTo (x : ℝ) (st : List ℝ × List ℝ) : List ℝ × List ℝ := (st.1 ++ [x], st.2 ++ [x])

/-- `DensityOperatorStreamer::operator()` (38-61), `structure::stream` (Structure.h:45-60) being given by the processed averages of `av`. The text of a number is idealised to the number; the text written by `av` is taken to be
that of its averages (`streamCommon`). The result: the numbers written, and the array returned. -/
def stream (emptyV : Bool) (ems : Switch) (processed : Option (List ℝ)) (ρ : Measures) : List ℝ × List ℝ :=
  let averages := processed.getD []
  let st := (averages, averages)
  if emptyV then st
  else
    let st := if ems.e0 then appendTo ρ.negativity st else st
    let st := if ems.e1 then appendTo ρ.mutualInformation st else st
    if ems.e2 then appendTo ρ.purity st else st

/-- `os<<i++<<". "<<label` (68-70). -/
def keyEntry (label : String) (st : List KeyItem × ℕ) : List KeyItem × ℕ := (st.1 ++ [.entry st.2 label], st.2 + 1)

/-- `if (av_) av_->streamKey(os,i)` (65). -/
def systemKey (av : Option Av) (i : ℕ) : List KeyItem × ℕ := match av with | none => ([], i) | some av => av.streamKey i

/-- `DensityOperatorStreamer::streamKey` (63-73). -/
def streamKey (emptyV : Bool) (ems : Switch) (av : Option Av) (i : ℕ) : List KeyItem × ℕ :=
  let st := systemKey av i
  if emptyV then st
  else
    let st := if ems.e0 || ems.e1 || ems.e2 then (st.1 ++ [.title "Trajectory"], st.2) else st
    let st := if ems.e0 then keyEntry "negativity" st else st
    let st := if ems.e1 then keyEntry "mutual information" st else st
    if ems.e2 then keyEntry "purity of partial trace" st else st

/-! ## Time averaging

The class overrides virtual functions which `MCWF_Trajectory` no longer has, and no file includes it; it is modelled as written. -/

/-- The part of the state specific to the class (TimeAveragingMCWF_Trajectory.h:100-101). -/
structure TimeAv where
  averages : List ℝ
  sum : ℕ

/-- The constructor (52-62), for a system with `n` averages. -/
def TimeAv.init (n : ℕ) : TimeAv := ⟨List.replicate n 0, 0⟩

/-- `stream_v` (67-80) at the time `t`, with the averages `now` (not processed). -/
noncomputable def TimeAv.stream (relaxationTime t : ℝ) (now : List ℝ) (s : TimeAv) : TimeAv :=
  if t > relaxationTime then ⟨List.zipWith (fun a b => (a * (s.sum : ℝ) + b) / ((s.sum : ℝ) + 1)) s.averages now, s.sum + 1⟩ else s

/-- `writeStateMore_v` (94). -/
def TimeAv.write (s : TimeAv) : List ℝ × ℕ := (s.averages, s.sum)

/-- `readStateMore_v` (93), into an arbitrary object. -/
def TimeAv.read (_ : TimeAv) (x : List ℝ × ℕ) : TimeAv := ⟨x.1, x.2⟩

/-- What is streamed at the end (82-91): a copy is processed, so that the state remains as it is. -/
def TimeAv.logOnEnd (process : List ℝ → List ℝ) (s : TimeAv) : List ℝ × TimeAv := (process s.averages, s)

/-- What may happen to a trajectory as to its time averages. -/
inductive Event where
  /-- a stream at the time `t`, with these averages -/
  | stream (t : ℝ) (now : List ℝ)
  /-- the state is written, and read into an object `other` with which the run is continued -/
  | reload (other : TimeAv)
  /-- the log at the end of a run, which may be continued afterwards -/
  | logOnEnd

/-- The effect of an event. -/
noncomputable def TimeAv.step (relaxationTime : ℝ) (process : List ℝ → List ℝ) (s : TimeAv) : Event → TimeAv
  | .stream t now => s.stream relaxationTime t now
  | .reload other => other.read s.write
  | .logOnEnd => (s.logOnEnd process).2

end CppQED.DStream
