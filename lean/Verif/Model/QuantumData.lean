import Verif.Model.CMatrix
import Mathlib.Analysis.SpecialFunctions.Sqrt

/-!
# Model of `quantumdata::StateVector`, `quantumdata::DensityOperator`, `DimensionsBookkeeper`

Sources: `/repo/CPPQEDcore/quantumdata/StateVector.h`, `DensityOperator.h`, `ArrayBase.h`, `LazyDensityOperator.h`,
`DimensionsBookkeeper.h`. Contiguous row-major storage (`CMat.Array`), as the constructors of these classes allocate it. A density
operator over dimensions `dims` is an array of shape `dims ++ dims` (DensityOperator.h:60-62).
-/

namespace CppQED.QD
open CppQED.CMat
open ComplexConjugate

/-- `ArrayBase::frobeniusNorm` (ArrayBase.h:84-90): `sqrt(sum(sqrAbs(arrayLow_)))`. -/
noncomputable def frobeniusNorm (a : Array) : ℝ := Real.sqrt (∑ k ∈ Finset.range a.shape.prod, Complex.normSq (a.data k))

/-- `ArrayBase::operator/=` with a `double` (ArrayBase.h:69-70). -/
noncomputable def divBy (a : Array) (c : ℝ) : Array := { a with data := fun k => a.data k / (c : ℂ) }

/-- `StateVector::norm` (StateVector.h:146). -/
noncomputable def svNorm (psi : Array) : ℝ := frobeniusNorm psi

/-- `StateVector::renorm` (StateVector.h:148-153): the returned number and the new state vector. -/
noncomputable def svRenorm (psi : Array) : ℝ × Array :=
  let res := svNorm psi
  (res, divBy psi res)

/-- `StateVector::index` (StateVector.h:192). -/
noncomputable def svIndex (psi : Array) (i j : List ℕ) : ℂ := psi.get i * conj (psi.get j)

/-- `StateVector::trace_v` (StateVector.h:194). -/
noncomputable def svTrace (psi : Array) : ℝ := svNorm psi

/-- The array `conj(sv.getArray())` (StateVector.h:160-163). -/
noncomputable def conjArray (a : Array) : Array := { a with data := fun k => conj (a.data k) }

/-- `StateVector::dyad` (StateVector.h:160-165). -/
noncomputable def dyad (psi1 psi2 : Array) : Array := doDirect true psi1 (conjArray psi2)

/-- `braket` (StateVector.h:208-215). -/
noncomputable def braket (psi1 psi2 : Array) : ℂ := ∑ k ∈ Finset.range psi1.shape.prod, conj (psi1.data k) * psi2.data k

/-- `DensityOperator::matrixView` = `binaryArray` (DensityOperator.h:178, BlitzArrayExtensions.h:82-106): the `D × D` row-major matrix over
the memory of the density operator, `D` being the total dimension. -/
def matrixView (rho : Array) (D : ℕ) : Mat := fun i j => rho.data (i * D + j)

/-- Element assignment through the matrix view, for all `i`, `j` (the double loops of StateVector.h:179 and DensityOperator.h:92). -/
def ofMatrixView (rho : Array) (D : ℕ) (m : Mat) : Array := { rho with data := fun o => m (o / D) (o % D) }

/-- `StateVector::addTo` (StateVector.h:173-180). -/
noncomputable def addTo (psi rho : Array) (weight : ℝ) : Array :=
  let D := psi.shape.prod
  ofMatrixView rho D (fun i j => matrixView rho D i j + (weight : ℂ) * psi.data i * conj (psi.data j))

/-- `DensityOperator::operator=(const StateVector&)` (DensityOperator.h:86-94). -/
noncomputable def assignDyad (rho psi : Array) : Array :=
  ofMatrixView rho psi.shape.prod (fun i j => psi.data i * conj (psi.data j))

/-- `DensityOperator::index`, `indexWithTiny` (DensityOperator.h:186-192). -/
def doIndex (rho : Array) (i j : List ℕ) : ℂ := rho.get (i ++ j)

/-- `DensityOperator::norm` (DensityOperator.h:162-167), `D` being the total dimension. -/
noncomputable def doNorm (rho : Array) (D : ℕ) : ℝ := (∑ k ∈ Finset.range D, matrixView rho D k k).re

/-- `DensityOperator::trace_v` (DensityOperator.h:194). -/
noncomputable def doTrace (rho : Array) (D : ℕ) : ℝ := doNorm rho D

/-- `DensityOperator::renorm` (DensityOperator.h:169-174). -/
noncomputable def doRenorm (rho : Array) (D : ℕ) : ℝ × Array :=
  let trace := doNorm rho D
  (trace, divBy rho trace)

/-- `purity` (DensityOperator.h:308-312): sum of the absolute squares of all the elements. -/
noncomputable def purity (rho : Array) : ℝ := (List.range rho.shape.prod).foldl (fun init k => init + Complex.normSq (rho.data k)) 0

/-- `StateVector::StateVector(psi1,psi2)` and `operator*` (StateVector.h:91-94, 199-203). -/
def svProduct (psi1 psi2 : Array) : Array := doDirect true psi1 psi2

/-- `IndexerProxy::operator double` (LazyDensityOperator.h:78). -/
noncomputable def diagonal (index : List ℕ → List ℕ → ℂ) (i : List ℕ) : ℝ := (index i i).re

/-- State of `DimensionsBookkeeper` (DimensionsBookkeeper.h:45-46). -/
structure Bookkeeper where
  dimensions : List ℕ
  totalDimension : ℕ

/-- Constructor (DimensionsBookkeeper.h:31). -/
def Bookkeeper.mk' (dims : List ℕ) : Bookkeeper := ⟨dims, dims.foldl (· * ·) 1⟩

/-- `setDimensions` (DimensionsBookkeeper.h:41). -/
def Bookkeeper.setDimensions (_b : Bookkeeper) (dims : List ℕ) : Bookkeeper := ⟨dims, dims.foldl (· * ·) 1⟩

/-- `getDimension(i)` (DimensionsBookkeeper.h:39). -/
def Bookkeeper.getDimension (b : Bookkeeper) (i : ℕ) : Option ℕ := b.dimensions[i]?

/-- `operator==` (DimensionsBookkeeper.h:53-58). -/
def Bookkeeper.eqv (b c : Bookkeeper) : Bool := b.dimensions == c.dimensions

end CppQED.QD
