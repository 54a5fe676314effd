import Mathlib.Data.Complex.Basic
import Mathlib.Data.List.Basic
import Mathlib.Logic.Function.Basic
import Verif.Model.Tridiagonal

/-!
# Model of the storage of `StateVector` and `DensityOperator`

Sources: `/repo/CPPQEDcore/quantumdata/ArrayBase.h`, `StateVector.h`, `DensityOperator.h`, `/repo/CPPQEDcore/quantumtrajectory/Evolution_.h`. The objects are handles of reference-counted memory blocks (this is what
`blitz::Array` is); the model has a heap of blocks, which never frees (a block is freed when no handle of it is left, which cannot be observed), and variables which hold handles. What a program does with the
objects is a list of statements. Undefined behaviour (and what does not compile) is `none`. The class of the object (`StateVector` or `DensityOperator`) is not kept, as the two treat their storage in the same way. Contrary to `Model/Aliasing.lean`, the objects have dimensions (so that assignments can be undefined), there are
views with other dimensions, and products; on the other hand, what a trajectory does in a step is an arbitrary in-place change here.
-/

namespace CppQED.Storage
open scoped ComplexConjugate

/-- The elements of an array in the order of storage. -/
abbrev Data := List ℂ

/-- An object: its dimensions, and the memory block holding its data (`arrayLow_`, ArrayBase.h:93). -/
structure Handle where
  dims : List ℕ
  loc : ℕ
  deriving DecidableEq

/-- The memory blocks, the next free one, and the variables. -/
structure State where
  cell : ℕ → Data
  next : ℕ
  var : ℕ → Option Handle

/-- Nothing allocated yet. -/
def State.empty : State := ⟨fun _ => [], 0, fun _ => none⟩

/-- What programs do with the objects. The variables are numbers. -/
inductive Stmt where
  /-- `StateVector x(dimensions);` (StateVector.h:72-75; DensityOperator.h:61-63): newly allocated zeros. -/
  | declare (x : ℕ) (dims : List ℕ)
  /-- `StateVector x(y);` (StateVector.h:77-78; DensityOperator.h:68-69): deep copy. -/
  | copyInit (x y : ℕ)
  /-- `StateVector x(std::move(y));` (StateVector.h:80-84; DensityOperator.h:72-73), as well as `StateVector x(y.getArray(),byReference);` (StateVector.h:70; DensityOperator.h:58-59): the block is shared, `y` is not touched. -/
  | moveInit (x y : ℕ)
  /-- `StateVector<1> x(y.vectorView(),byReference);` (StateVector.h:70; ArrayBase.h:82; QbitMode_Matrix.cc:47): the block is shared, but there is a single index. -/
  | view (x y : ℕ)
  /-- `x.reference(y);` (StateVector.h:182; DensityOperator.h:182): `x` gives up its block. -/
  | reference (x y : ℕ)
  /-- `x=y;` (StateVector.h:100; DensityOperator.h:77; ArrayBase.h:26) and `x=std::move(y);` (StateVector.h:102-107; DensityOperator.h:79-84): both copy the elements, as `arrayLow_=other` does. Arrays of different shapes: undefined. -/
  | assign (x y : ℕ)
  /-- `x+=y;` (ArrayBase.h:57). -/
  | plus (x y : ℕ)
  /-- `x-=y;` (ArrayBase.h:58). -/
  | minus (x y : ℕ)
  /-- Whatever changes the elements of `x` in place with the elements of `x`: `x=0`, `x*=c`, `x/=c` (ArrayBase.h:47, 67, 70), `x(i)=c`, `x.renorm()`, a step of the ODE stepper, etc. -/
  | update (x : ℕ) (f : Data → Data)
  /-- `StateVector x(y*z);` (StateVector.h:86-94, 199-204). -/
  | product (x y z : ℕ)
  /-- `DensityOperator x(y);` from the `StateVector` `y` (DensityOperator.h:65-66; StateVector.h:165). -/
  | dyad (x y : ℕ)
  /-- `CArray temp; iar & temp; x.getArray().reference(temp);` (MCWF_Trajectory.h:132, 138-145; Master.h:87, 93-100): what a trajectory does when its state is read from an archive. Only arrays of the same dimensions are modelled. -/
  | load (x : ℕ) (d : Data)

/-- A new block, given to the variable `x`. -/
def alloc (s : State) (x : ℕ) (dims : List ℕ) (d : Data) : State :=
  ⟨Function.update s.cell s.next d, s.next + 1, Function.update s.var x (some ⟨dims, s.next⟩)⟩

/-- Changing the contents of a block. -/
def write (s : State) (loc : ℕ) (d : Data) : State := { s with cell := Function.update s.cell loc d }

/-- Giving a handle to a variable. -/
def bindVar (s : State) (x : ℕ) (h : Handle) : State := { s with var := Function.update s.var x (some h) }

/-- `doDirect<multiplication>` for arrays in the order of storage (BlitzArrayExtensions.h), cf. the model of the direct product. -/
noncomputable def direct (a b : Data) : Data := a.flatMap fun u => b.map fun v => u * v

/-- The effect of a statement. -/
noncomputable def exec (s : State) : Stmt → Option State
  | .declare x dims => some (alloc s x dims (List.replicate dims.prod 0))
  | .copyInit x y => (s.var y).map fun h => alloc s x h.dims (s.cell h.loc)
  | .moveInit x y => (s.var y).map fun h => bindVar s x h
  | .view x y => (s.var y).map fun h => bindVar s x ⟨[h.dims.prod], h.loc⟩
  | .reference x y => (s.var x).bind fun _ => (s.var y).map fun h => bindVar s x h
  | .assign x y => (s.var x).bind fun h => (s.var y).bind fun h' => if h.dims = h'.dims then some (write s h.loc (s.cell h'.loc)) else none
  | .plus x y => (s.var x).bind fun h => (s.var y).bind fun h' => if h.dims = h'.dims then some (write s h.loc (List.zipWith (· + ·) (s.cell h.loc) (s.cell h'.loc))) else none
  | .minus x y => (s.var x).bind fun h => (s.var y).bind fun h' => if h.dims = h'.dims then some (write s h.loc (List.zipWith (· - ·) (s.cell h.loc) (s.cell h'.loc))) else none
  | .update x f => (s.var x).bind fun h => if (f (s.cell h.loc)).length = (s.cell h.loc).length then some (write s h.loc (f (s.cell h.loc))) else none
  | .product x y z => (s.var y).bind fun h => (s.var z).map fun h' => alloc s x (h.dims ++ h'.dims) (direct (s.cell h.loc) (s.cell h'.loc))
  | .dyad x y => (s.var y).map fun h => alloc s x (h.dims ++ h.dims) (direct (s.cell h.loc) ((s.cell h.loc).map conj))
  | .load x d => (s.var x).bind fun h => if d.length = h.dims.prod then some (alloc s x h.dims d) else none

/-- A program. -/
noncomputable def run : List Stmt → State → Option State
  | [], s => some s
  | c :: p, s => (exec s c).bind (run p)

/-- What a variable contains. -/
def State.value (s : State) (x : ℕ) : Option (List ℕ × Data) := (s.var x).map fun h => (h.dims, s.cell h.loc)

/-- `std::swap(x,y)` with the temporary `t`: a construction and two assignments by moving. -/
def swap (t x y : ℕ) : List Stmt := [.moveInit t x, .assign x y, .assign y t]

/-! ## The highest level drivers -/

/-- What the initial condition given to `evolve` is. -/
inductive Initial where
  | stateVector | densityOperator

/-- `evolution::Method` (EvolutionMethod.h:12-16). -/
inductive Method where
  | single | ensemble | master
  deriving DecidableEq

open Tridiag in
/-- How `evolve` hands the initial condition `x` over to the trajectory, the state of which is `m`, or to the trajectories of an ensemble, the states of which are `ms` (Evolution_.h:54-69, 92-130; MCWF_Trajectory.h:108, 203-233;
Master.h:62-69, 130-136). An ensemble from a density operator does not compile. -/
def handOver (i : Initial) (e : Method) (x m : ℕ) (ms : List ℕ) : Outcome (List Stmt) :=
  match i, e with
  | .stateVector, .single => .ok [.moveInit m x]
  | .stateVector, .ensemble => .ok (ms.map fun m => .copyInit m x)
  | .stateVector, .master => .ok [.dyad m x]
  | .densityOperator, .single => .throw
  | .densityOperator, .ensemble => .undef
  | .densityOperator, .master => .ok [.moveInit m x]

/-! ## Averages calculated by another system -/

/-- `averagingUtils::Transferring` (AveragingUtils.h:199-235): the averages are those of the other system's `average`, in the variable `ldo`, whatever is in the variable `_arg` the trajectory calls it with. -/
def transferring {α : Type*} (average : List ℕ × Data → α) (ldo : ℕ) (s : State) (_arg : ℕ) : Option α := (s.value ldo).map average

end CppQED.Storage
