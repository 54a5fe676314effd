import Verif.Model.Slice
import Verif.Model.CMatrix
import Verif.Model.Deflate

/-!
# Model of `partialTrace`, `reduce`, `densityOperatorize`

Sources: `/repo/CPPQEDcore/quantumdata/LazyDensityOperator.h:124-158`, `/repo/CPPQEDcore/quantumdata/DensityOperator.h:140-157, 237-285`,
`/repo/CPPQEDcore/quantumdata/StateVector.h:120-141`. A density operator of arity `r` is the content of a rank-`2r` array.
-/

namespace CppQED.PTrace
open CppQED.MII (Idx)
open CppQED.Slice
open ComplexConjugate

/-- Address, in the rank-`2r` array, of the element `(s;s')` of the slice `d` of a density operator:
`DensityOperator::transposeSelf` (DensityOperator.h:151-157: the axes `p...,(p+RANK)...`) followed by
`DensityOperator::diagonalSliceIndex` (141-148: the subscripts repeated for both halves). -/
def diagSliceAddr (r : ℕ) (V : List ℕ) (d s s' : Idx) : Idx :=
  untranspose (2 * r) (transposerMeta r V ++ (transposerMeta r V).map (· + r))
    (subarrayAddr (fillIdxValues r V d ++ fillIdxValues r V d) (s ++ s'))

/-- The slice `d` of a density operator, as a density operator of arity `|V|`. -/
def doSlice (r : ℕ) (V : List ℕ) (rho : Arr ℂ) (d : Idx) : Idx → Idx → ℂ := fun s s' => rho (diagSliceAddr r V d s s')

/-- The slice `d` of a state vector, seen as a lazy density operator (StateVector.h:120-141, 192). -/
noncomputable def svSlice (r : ℕ) (V : List ℕ) (psi : Arr ℂ) (d : Idx) : Idx → Idx → ℂ :=
  fun s s' => readSlice r V d psi s * conj (readSlice r V d psi s')

/-- `partialTrace(matrix,function)` (LazyDensityOperator.h:124-136): `init=function(*begin)`, then `std::accumulate` from `++begin`.
`slices` is the sequence of slices visited; the empty sequence would be the dereferencing of the end iterator. -/
def partialTrace {σ β : Type*} [Add β] (slices : List σ) (f : σ → β) : Option β :=
  match slices with
  | [] => none
  | d :: ds => some (ds.foldl (fun res s => res + f s) (f d))

/-- `reduce<V>(const DensityOperator&)` (DensityOperator.h:273-277): `partialTrace` with the identity, over the full range of slices.
`fuel` bounds the number of steps of the slice iteration; `none`: not terminated. -/
def reduceDO (r : ℕ) (V : List ℕ) (lb ub : Idx) (fuel : ℕ) (rho : Arr ℂ) : Option (Idx → Idx → ℂ) :=
  (fullRange r V lb ub fuel).bind fun ds => partialTrace ds (fun d => doSlice r V rho d)

/-- Loop nest of `densityOperatorize` (DensityOperator.h:246-252): the diagonal through the conversion to `double`, the upper
triangle copied, the lower one conjugated. -/
noncomputable def densityOperatorizeLoop (lb ub : Idx) (f : Idx → Idx → ℂ) (jfuel : ℕ) : ℕ → Idx → (Idx → Idx → ℂ) → Option (Idx → Idx → ℂ)
  | 0, _, _ => none
  | fuel + 1, i, res =>
    if i = MII.end lb ub then some res
    else
      match MII.loop lb ub jfuel (MII.inc lb ub i) with
      | none => none
      | some js => densityOperatorizeLoop lb ub f jfuel fuel (MII.inc lb ub i)
          (js.foldl (fun res j => Deflate.set (Deflate.set res i j (f i j)) j i (conj (f i j))) (Deflate.set res i i ((f i i).re : ℂ)))

/-- `densityOperatorize` (DensityOperator.h:238-257); the result is zero-initialised by its constructor (60-62). (The code calls
`matrix.getDimension()`, so it compiles for arity 1 only; the model is for any arity.) -/
noncomputable def densityOperatorize (lb ub : Idx) (fuel : ℕ) (f : Idx → Idx → ℂ) : Option (Idx → Idx → ℂ) :=
  densityOperatorizeLoop lb ub f fuel fuel lb (fun _ _ => 0)

/-- `reduce<V>(const LazyDensityOperator&)` for a state vector (DensityOperator.h:260-264 with LazyDensityOperator.h:148-158). -/
noncomputable def reduceSV (r : ℕ) (V : List ℕ) (lb ub : Idx) (fuel : ℕ) (psi : Arr ℂ) : Option (Idx → Idx → ℂ) :=
  (fullRange r V lb ub fuel).bind fun ds =>
    partialTrace ds (fun d => (densityOperatorize (sliceBound V lb) (sliceBound V ub) fuel (svSlice r V psi d)).getD (fun _ _ => 0))

end CppQED.PTrace
