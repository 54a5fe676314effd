import Verif.Model.StateFile
import Verif.Model.Tridiagonal

/-!
# Model of the reading and writing of state files from Python

Sources: `/repo/cpypyqed/io.cc`, `/repo/cpypyqed/blitz2numpy.h`, and what the trajectories put into the archives: `/repo/CPPQEDcore/quantumtrajectory/Master.h`, `/repo/CPPQEDcore/quantumtrajectory/MCWF_Trajectory.h`,
`/repo/CPPQEDutils/Simulated.h`, `/repo/CPPQEDutils/Simulated_.h`, `/repo/CPPQEDutils/StochasticTrajectory.h`.

The contents of an archive are a list of values. A binary archive does not record the types of these, so that the loading of a value as something else than what was saved has no definite outcome (`undef`). The division of the file into archives is in `Verif.Model.StateFile`.
The numbers are of an arbitrary type `α` (the bit patterns of the machine). An element of an array is a pair of numbers, of which only the first counts if the array is a real one.
-/

namespace CppQED.PyIO
open CppQED.Tridiag CppQED.StateFile

/-- A value in an archive. An array is its shape and its elements in row-major order, complex or real. The internal state of the stepper, loggers, random engine is opaque. -/
inductive Token (α : Type)
  | metadata (m : Metadata)
  | array (cplx : Bool) (shape : List ℕ) (data : List (α × α))
  | real (t : α)
  | other (n : ℕ)

/-- The kinds of trajectories, with the number of subsystems, or the rank of the array. `simulatedOther` is `Simulated` with a state that is not a Blitz++ array: the type is identified by an implementation-defined name. -/
inductive Kind
  | mcwf (rank : ℕ)
  | master (rank : ℕ)
  | simulatedC (rank : ℕ)
  | simulatedD (rank : ℕ)
  | simulatedOther (name : String) (rank : ℕ)
  | ensemble (single : Kind)

/-- `MakeSerializationMetadata` (MCWF_Trajectory.h:243-246, Master.h:145-148, Simulated.h:20-30, Simulated_.h:90-94, StochasticTrajectory.h:269-276). -/
def Kind.metadata : Kind → Metadata
  | .mcwf rank => ⟨rank, "CArray", "MCWF_Trajectory", 0⟩
  | .master rank => ⟨2 * rank, "CArray", "Master", 0⟩
  | .simulatedC rank => ⟨rank, "CArray", "Simulated", 0⟩
  | .simulatedD rank => ⟨rank, "DArray", "Simulated", 0⟩
  | .simulatedOther name rank => ⟨rank, name, "Simulated", 0⟩
  | .ensemble single => ⟨single.metadata.rank, single.metadata.typeID, "Ensemble of " ++ single.metadata.trajectoryID, 0⟩

/-- Whether the array is complex. -/
def Kind.cplx : Kind → Bool
  | .mcwf _ => true
  | .master _ => true
  | .simulatedC _ => true
  | .simulatedD _ => false
  | .simulatedOther _ _ => false
  | .ensemble single => single.cplx

/-- What a trajectory consists of for the archive: the array, the time, and the rest. -/
structure Snapshot (α : Type) where
  shape : List ℕ
  data : List (α × α)
  time : α
  rest : List ℕ

/-- `stateIO` (MCWF_Trajectory.h:147, Master.h:102, Simulated_.h:63): array – time – rest. -/
def Snapshot.stateIO {α : Type} (cplx : Bool) (s : Snapshot α) : List (Token α) := .array cplx s.shape s.data :: .real s.time :: s.rest.map .other

/-- `WriteState` (Trajectory.h:384-391): the metadata, then `stateIO`, which for an ensemble is that of all the members (StochasticTrajectory.h:238). Other trajectories have one member. -/
def archive {α : Type} (k : Kind) (members : List (Snapshot α)) : List (Token α) := .metadata k.metadata :: members.flatMap (Snapshot.stateIO k.cplx)

/-- `ReadState<AdaptiveIO<T,RANK>>::_` (io.cc:49-60): the metadata are not examined, the rest of the archive is ignored. -/
def readRecord {α : Type} (cplx : Bool) (rank : ℕ) : List (Token α) → Outcome ((List ℕ × List (α × α)) × α)
  | .metadata _ :: .array c shape data :: .real t :: _ => if c = cplx ∧ shape.length = rank then .ok ((shape, data), t) else .undef
  | _ => .undef

/-- The loop over the archives. -/
def collect {α β : Type*} (f : α → Outcome β) : List α → Outcome (List β)
  | [] => .ok []
  | a :: as => (f a).bind fun b => (collect f as).bind fun bs => .ok (b :: bs)

/-- What `read` returns: the metadata, and – unless the rank is not positive – the lists of the arrays and times. -/
structure PyRead (α : Type) where
  metadata : Metadata
  lists : Option (List (List ℕ × List (α × α)) × List α)

/-- `read` and `doRead` (io.cc:78-94 and 120-146), `throw_rank` (103-109), `throw_type` (112-118). The `arrayToNumpy` (blitz2numpy.h:13-25) copies the elements of an array that has just been created by the loading, in row-major order. -/
def pyRead {α : Type} (maxRank : ℕ) (decode : List ℕ → Option (List (Token α))) (bs : List ℕ) : Outcome (PyRead α) :=
  match readBuffer bs with
  | none => .throw
  | some (buffer, _) =>
    match decode buffer with
    | none => .throw
    | some (.metadata m :: _) =>
      if m.rank > maxRank then .throw
      else if m.typeID ≠ "CArray" ∧ m.typeID ≠ "DArray" then .throw
      else if m.rank ≤ 0 then .ok ⟨m, none⟩
      else match readFile decode bs with
        | none => .throw
        | some rs => (collect (readRecord (m.typeID == "CArray") m.rank.toNat) rs).bind fun l => .ok ⟨m, some (l.map Prod.fst, l.map Prod.snd)⟩
    | some _ => .undef

/-- The types of the elements of a NumPy array that `write` distinguishes. -/
inductive DType
  | double
  | cdouble
  | other
  deriving DecidableEq

/-- A NumPy array: its elements are found in the memory by the strides (here in units of elements); `none` is memory not belonging to the array. -/
structure NpArray (α : Type) where
  dtype : DType
  shape : List ℕ
  strides : List ℤ
  memory : ℤ → Option (α × α)

/-- The offset of an element. -/
def offset : List ℤ → List ℕ → ℤ
  | s :: ss, i :: is => s * i + offset ss is
  | _, _ => 0

/-- The element `a[i]`. -/
def NpArray.elem {α : Type} (a : NpArray α) (i : List ℕ) : Option (α × α) := a.memory (offset a.strides i)

/-- `numpyToArray` (blitz2numpy.h:28-45): as many elements as there are, from the beginning of the memory, whatever the strides. -/
def numpyToArray {α : Type} (a : NpArray α) : Outcome (List ℕ × List (α × α)) :=
  (collect (fun k : ℕ => match a.memory k with | some x => Outcome.ok x | none => Outcome.undef) (List.range a.shape.prod)).bind fun data => .ok (a.shape, data)

/-- `write` and `doWrite` (io.cc:96-101 and 148-164) with the `WriteState` (63-72): the contents of the file, which is truncated. The metadata have `"CArray"` in both cases. -/
def pyWrite {α : Type} (maxRank : ℕ) (encode : List (Token α) → List ℕ) (a : NpArray α) (t : α) : Outcome (List ℕ) :=
  let r := a.shape.length
  if r > maxRank then .throw
  else if r = 0 then .ok []
  else match a.dtype with
    | .double => (numpyToArray a).bind fun x => .ok (frame (encode [.metadata ⟨r, "CArray", "ArrayOnly", 0⟩, .array false x.1 x.2, .real t]))
    | .cdouble => (numpyToArray a).bind fun x => .ok (frame (encode [.metadata ⟨r, "CArray", "ArrayOnly", 0⟩, .array true x.1 x.2, .real t]))
    | .other => .ok []

/-- The array and the time of a trajectory after `ReadState` (Trajectory.h:367-380) of an archive: with `readFromArrayOnlyArchive` (MCWF_Trajectory.h:132, Master.h:87, Simulated_.h:57), the time is not loaded. -/
def loadInto {α : Type} (k : Kind) (rank : ℕ) (s : Snapshot α) : List (Token α) → Outcome (Snapshot α)
  | .metadata m :: rest =>
    match readState k.metadata m, rest with
    | .throw, _ => .throw
    | .arrayOnly, .array c shape data :: _ => if c = k.cplx ∧ shape.length = rank then .ok { s with shape := shape, data := data } else .undef
    | .stateIO, .array c shape data :: .real t :: others => if c = k.cplx ∧ shape.length = rank then .ok ⟨shape, data, t, others.filterMap fun x => match x with | .other n => some n | _ => none⟩ else .undef
    | _, _ => .undef
  | _ => .undef

end CppQED.PyIO
