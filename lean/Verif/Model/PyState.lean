import Mathlib.Data.Complex.BigOperators
import Mathlib.Analysis.SpecialFunctions.Pow.Real
import Mathlib.Data.List.Sort
import Verif.Model.Tridiagonal
import Verif.Model.FFT

/-!
# Model of the quantum states of the Python package

Sources: `/repo/cpypyqed/tools/quantumstate.py`, `/repo/cpypyqed/tools/initialconditions.py`, `/repo/cpypyqed/tools/operators.py`.

The language is Python 2 (`print` statements, `range` a list, `/` on integers the integer division). NumPy is an external library: the routines used are
represented by the contracts of their documentation, in the definitions of the first section. Complex numbers are exact. A Python exception is the outcome `throw`, and a
result with a not-a-number the outcome `undef`. The attribute `time` is not modelled.
-/

namespace CppQED.PyTools
open CppQED.Tridiag ComplexConjugate

/-! ## The routines of NumPy -/

/-- `numpy.ndarray` of complex numbers: the value is meaningful for the multi-indices within the shape. -/
structure NDArray where
  shape : List ℕ
  val : List ℕ → ℂ

/-- The number of axes, `array.ndim`. -/
def NDArray.ndim (a : NDArray) : ℕ := a.shape.length

/-- `array.sum()`: the sum over all the multi-indices within the shape, axis by axis. -/
noncomputable def sumBox : List ℕ → (List ℕ → ℂ) → ℂ
  | [], f => f []
  | n :: s, f => ∑ k ∈ Finset.range n, sumBox s fun i => f (k :: i)

/-- `array.sum(axis=i)` for `i ≥ 0`. An axis that does not exist is an exception. -/
noncomputable def sumAxis (a : NDArray) (i : ℕ) : Outcome NDArray :=
  if i < a.ndim then .ok ⟨a.shape.eraseIdx i, fun idx => ∑ k ∈ Finset.range (a.shape.getD i 0), a.val (idx.insertIdx i k)⟩
  else .throw

/-- `numpy.multiply.outer(a,b)`. -/
def outerArr (a b : NDArray) : NDArray := ⟨a.shape ++ b.shape, fun idx => a.val (idx.take a.ndim) * b.val (idx.drop a.ndim)⟩

/-- `array.conjugate()`. -/
noncomputable def conjArr (a : NDArray) : NDArray := ⟨a.shape, fun idx => conj (a.val idx)⟩

/-- `a*b`, element by element. Simplification: arrays of different shapes are an exception (NumPy first tries to broadcast). -/
noncomputable def mulArr (a b : NDArray) : Outcome NDArray :=
  if a.shape = b.shape then .ok ⟨a.shape, fun idx => a.val idx * b.val idx⟩ else .throw

/-- The multi-index with the components `m` in the positions `axes`, and the components `i` in the positions `keep`. -/
def assemble (n : ℕ) (axes m keep i : List ℕ) : List ℕ :=
  (List.range n).map fun p => if p ∈ axes then m.getD (axes.idxOf p) 0 else i.getD (keep.idxOf p) 0

/-- `numpy.tensordot(a,b,(axes,axes))`: the sum over the given axes, the axes of the result being the rest of the axes of `a`, followed by the rest of the axes of `b`.
Axes that do not exist or are given twice, and different shapes are exceptions. -/
noncomputable def tensordot (a b : NDArray) (axes : List ℕ) : Outcome NDArray :=
  let keep := (List.range a.ndim).filter fun p => p ∉ axes
  if (∀ p ∈ axes, p < a.ndim) ∧ axes.Nodup ∧ a.shape = b.shape then
    .ok ⟨keep.map (a.shape.getD · 0) ++ keep.map (b.shape.getD · 0), fun idx =>
      sumBox (axes.map (a.shape.getD · 0)) fun m =>
        a.val (assemble a.ndim axes m keep (idx.take keep.length)) * b.val (assemble b.ndim axes m keep (idx.drop keep.length))⟩
  else .throw

/-- `array.transpose(perm)`: the axis `p` of the result is the axis `perm[p]` of the array. It is an exception if `perm` is not a permutation of the axes. -/
def transpose (a : NDArray) (perm : List ℕ) : Outcome NDArray :=
  if perm.length = a.ndim ∧ (∀ q < a.ndim, q ∈ perm) then
    .ok ⟨perm.map (a.shape.getD · 0), fun idx => a.val ((List.range a.ndim).map fun q => idx.getD (perm.idxOf q) 0)⟩
  else .throw

/-- The extent of a label in `numpy.einsum`: that of the first axis that carries it. -/
def extent (ops : List (NDArray × List ℕ)) (l : ℕ) : ℕ :=
  match ops with
  | [] => 0
  | (a, ls) :: ops => if l ∈ ls then a.shape.getD (ls.idxOf l) 0 else extent ops l

/-- `numpy.einsum(a,labels,b,labels,...)` without output labels: the labels which occur once are the axes of the result, in increasing order, the others are summed over. It is an exception if an
operand has not as many axes as labels, or if a label is given to axes of different extents. (Simplification: NumPy allows also the extent 1 in the latter case; and allows no more than 52 labels.) -/
noncomputable def einsum (ops : List (NDArray × List ℕ)) : Outcome NDArray :=
  let labels := ops.flatMap Prod.snd
  let all := List.range (labels.foldr max 0 + 1)
  let out := all.filter fun l => labels.count l = 1
  let summed := all.filter fun l => 1 < labels.count l
  if ∀ o ∈ ops, o.2.length = o.1.ndim ∧ ∀ p < o.1.ndim, o.1.shape.getD p 0 = extent ops (o.2.getD p 0) then
    .ok ⟨out.map (extent ops), fun idx => sumBox (summed.map (extent ops)) fun m =>
      (ops.map fun o => o.1.val (o.2.map fun l => if l ∈ out then idx.getD (out.idxOf l) 0 else m.getD (summed.idxOf l) 0)).prod⟩
  else .throw

/-- `numpy.roll` to the right by `s`, on one axis of extent `n`. -/
def roll (n s : ℕ) (x : ℕ → ℂ) : ℕ → ℂ := fun j => x ((j + (n - s % n)) % n)

/-- `numpy.fft.fftshift`: roll by `n//2`. -/
def fftshift (n : ℕ) (x : ℕ → ℂ) : ℕ → ℂ := roll n (n / 2) x

/-- `numpy.fft.ifftshift`: roll by `-(n//2)`, that is by `n-n//2`. -/
def ifftshift (n : ℕ) (x : ℕ → ℂ) : ℕ → ℂ := roll n (n - n / 2) x

/-- `numpy.fft.fftn` on one axis. -/
noncomputable def npFft (n : ℕ) (x : ℕ → ℂ) : ℕ → ℂ := fun k => ∑ l ∈ Finset.range n, x l * Complex.exp (-(2 * Real.pi * Complex.I * k * l / n))

/-- `numpy.fft.ifftn` on one axis. -/
noncomputable def npIfft (n : ℕ) (x : ℕ → ℂ) : ℕ → ℂ := fun k => 1 / n * ∑ l ∈ Finset.range n, x l * Complex.exp (2 * Real.pi * Complex.I * k * l / n)

/-! ## Helper functions -/

/-- `_sorted_list(iterable, True)` (quantumstate.py:520-528): in decreasing order. -/
def sortedReverse (l : List ℕ) : List ℕ := (l.mergeSort).reverse

/-- `_conjugate_indices(indices, ndim)` (510-518): the axes not among the given ones. The result is a `set`, in unspecified order: it is always sorted by the callers; here, increasing. -/
def conjugateIndices (indices : List ℕ) (ndim : ℕ) : Outcome (List ℕ) :=
  if ∃ i ∈ indices, ndim ≤ i then .throw else .ok ((List.range ndim).filter fun p => p ∉ indices)

/-- The argument `indices` as it is passed by the user. -/
inductive Indices
  | none
  | int (i : ℕ)
  | seq (l : List ℕ)

/-- `norm` (479-483). The sum is a nonnegative number, and so is its square root. -/
noncomputable def norm (a : NDArray) : ℝ := Real.sqrt (sumBox a.shape fun i => a.val i * conj (a.val i)).re

open Classical in
/-- `normalize` (485-489). -/
noncomputable def normalize (a : NDArray) : Outcome NDArray := if norm a = 0 then .undef else .ok ⟨a.shape, fun i => a.val i / norm a⟩

/-! ## `StateVector` -/

/-- The loop of `StateVector.reduce` (255-259). After the summation over the last axis, the result is a number, which has no method `normalize`. -/
noncomputable def reduceLoop (norm : Bool) : List ℕ → NDArray → Outcome NDArray
  | [], a => .ok a
  | i :: is, a => (sumAxis a i).bind fun b =>
    (if norm then (if b.shape = [] then .throw else normalize b) else .ok b).bind (reduceLoop norm is)

/-- `StateVector.reduce` (209-260). A single integer is the same as the sequence with this single element (249-250). -/
noncomputable def reduce (a : NDArray) (indices : List ℕ) (norm : Bool) : Outcome NDArray := reduceLoop norm (sortedReverse indices) a

/-- `StateVector.reducesquare` (262-293). -/
noncomputable def reducesquare (a : NDArray) (indices : List ℕ) : Outcome NDArray := tensordot a (conjArr a) (sortedReverse indices)

/-- `range(0, length, 2) + range(1, length, 2)` (364). -/
def evensOdds (length : ℕ) : List ℕ := ((List.range length).filter (· % 2 = 0)) ++ ((List.range length).filter (· % 2 = 1))

/-- `StateVector.expvalue` (319-369), with `multi=False`. If `indices` is an integer, then `set(indices,)` in `_conjugate_indices` (514) is an exception, as an integer is not iterable. -/
noncomputable def expvalue (a operator : NDArray) (indices : Indices) : Outcome ℂ :=
  (match indices with
    | .none => Outcome.ok (outerArr a (conjArr a))
    | .int _ => .throw
    | .seq l => (conjugateIndices l a.ndim).bind (reducesquare a)).bind fun A =>
  (transpose operator (evensOdds A.ndim)).bind fun opT =>
  (mulArr A opT).bind fun p => .ok (sumBox p.shape p.val)

/-- The loop of `diagexpvalue` (414-415). -/
noncomputable def sumAxes : List ℕ → NDArray → Outcome NDArray
  | [], a => .ok a
  | i :: is, a => (sumAxis a i).bind (sumAxes is)

/-- `StateVector.diagexpvalue` (371-420), with `multi=False`. -/
noncomputable def diagexpvalue (a operator : NDArray) (indices : Indices) : Outcome ℂ :=
  (mulArr a (conjArr a)).bind fun A =>
  (match indices with
    | .none => Outcome.ok A
    | .int i => (conjugateIndices [i] a.ndim).bind fun l => sumAxes (sortedReverse l) A
    | .seq l => (conjugateIndices l a.ndim).bind fun l => sumAxes (sortedReverse l) A).bind fun A =>
  (mulArr A operator).bind fun p => .ok (sumBox p.shape p.val)

/-- `StateVector.outer` and `**` (431-452, 473-477). -/
def outer (a b : NDArray) : NDArray := outerArr a b

/-- `StateVector.dyad` (422-428). -/
noncomputable def dyad (a : NDArray) : NDArray := outer a (conjArr a)

/-- `for d in dims: out_dims[d]+=1` (469) on the list `range(0,ndim*2,2)` (468). An index out of the range is an exception. -/
def outDims (ndim : ℕ) (dims : List ℕ) : Outcome (List ℕ) :=
  if ∀ d ∈ dims, d < ndim then .ok (dims.foldl (fun l d => l.set d (l.getD d 0 + 1)) ((List.range ndim).map (2 * ·))) else .throw

/-- `StateVector.actwith` (454-471). -/
noncomputable def actwith (a : NDArray) (operatorlist : List NDArray) (dims : List ℕ) : Outcome NDArray :=
  if operatorlist.length = dims.length then
    (outDims a.ndim dims).bind fun out => einsum ((List.zipWith (fun o d => (o, [2 * d, 2 * d + 1])) operatorlist dims) ++ [(a, out)])
  else .throw

/-! ## Fourier transformation -/

/-- `QuantumState._fft_helper` (50-62) on one axis of extent `n`. Simplification: one axis; the transformation of more axes is done axis by axis by NumPy. -/
noncomputable def fftHelper (n : ℕ) (inverse : Bool) (x : ℕ → ℂ) : ℕ → ℂ :=
  let norm : ℝ := Real.sqrt n
  if inverse then fun j => fftshift n (npIfft n (ifftshift n x)) j * norm
  else fun j => fftshift n (npFft n (ifftshift n x)) j * (1 / norm : ℝ)

/-- `StateVector.fft`, `ifft` (295-317) of a state vector with one axis. -/
noncomputable def fft (n : ℕ) (x : ℕ → ℂ) : ℕ → ℂ := fftHelper n false x

@[inherit_doc fft]
noncomputable def ifft (n : ℕ) (x : ℕ → ℂ) : ℕ → ℂ := fftHelper n true x

/-- `DensityOperator.fft` (101-112) of a density operator with two axes. -/
noncomputable def dofft (n : ℕ) (rho : ℕ → ℕ → ℂ) : ℕ → ℕ → ℂ :=
  let left : ℕ → ℕ → ℂ := fun i j => fftHelper n false (fun i => rho i j) i
  fun i j => fftHelper n true (left i) j

/-- `DensityOperator.ifft` (114-125). -/
noncomputable def doifft (n : ℕ) (rho : ℕ → ℕ → ℂ) : ℕ → ℕ → ℂ :=
  let left : ℕ → ℕ → ℂ := fun i j => fftHelper n true (fun i => rho i j) i
  fun i j => fftHelper n false (left i) j

end CppQED.PyTools
