import Verif.Model.Slice
import Mathlib.Data.Complex.Basic
import Mathlib.Data.Complex.BigOperators

/-!
# Model of `linalg` matrix helpers and `blitzplusplus` array extensions

Sources: `/repo/CPPQEDutils/CMatrix.cc`, `/repo/CPPQEDutils/ComplexArrayExtensions.h`, `/repo/CPPQEDutils/ComplexArrayExtensions.cc`,
`/repo/CPPQEDutils/BlitzArrayExtensions.h`, `/repo/CPPQEDutils/BlitzTinyExtensions.h`. `dcomp` is ℂ.
-/

namespace CppQED.CMat
open CppQED.MII (Idx)
open ComplexConjugate

/-- A `CMatrix`, mutable: `matrix(i,j)`. -/
abbrev Mat := ℕ → ℕ → ℂ

/-- Assignment to one matrix element. -/
def set (m : Mat) (a b : ℕ) (z : ℂ) : Mat := fun i j => if i = a ∧ j = b then z else m i j

/-- `linalg::apply` (CMatrix.cc:7-11): `b+=sum(m(i,j)*a(j),j)`. -/
noncomputable def apply (dim : ℕ) (a b : ℕ → ℂ) (m : Mat) : ℕ → ℂ := fun i => b i + ∑ j ∈ Finset.range dim, m i j * a j

/-- Body of the inner loop: `matrix(j,i)=conj(matrix(i,j)=matrix(i,j)+conj(matrix(j,i)))` (CMatrix.cc:24). -/
noncomputable def offDiagStep (i : ℕ) (m : Mat) (j : ℕ) : Mat :=
  let z := m i j + conj (m j i)
  set (set m i j z) j i (conj z)

/-- Body of the outer loop (CMatrix.cc:19-26): the diagonal, then `for (int j=i+1; j<dim; j++)`. -/
noncomputable def rowStep (dim : ℕ) (m : Mat) (i : ℕ) : Mat :=
  (List.range' (i + 1) (dim - (i + 1))).foldl (offDiagStep i) (set m i i (2 * ((m i i).re : ℂ)))

/-- `linalg::calculateTwoTimesRealPartOfSelf` (CMatrix.cc:14-30). -/
noncomputable def twoTimesRealPartOfSelf (dim : ℕ) (m : Mat) : Mat :=
  (List.range dim).foldl (rowStep dim) m

/-- `details::helpHermitianConjugate` (ComplexArrayExtensions.h:109-113): the axes `N,…,2N-1,0,…,N-1` of `transposeSelf`. -/
def hermitianAxes (N : ℕ) : List ℕ := List.range' N N ++ List.range N

/-- `blitzplusplus::hermitianConjugateSelf`, `hermitianConjugate` (ComplexArrayExtensions.h:38-55): conjugate all the elements, then
transpose the view. `array` is the content of a rank-`2N` array. -/
noncomputable def hermitianConjugate (N : ℕ) (array : Slice.Arr ℂ) : Slice.Arr ℂ :=
  let c : Slice.Arr ℂ := fun i => conj (array i)
  fun i => c (Slice.untranspose (2 * N) (hermitianAxes N) i)

/-- Offset of the element `idx` of a contiguous row-major (C-ordered) blitz array of the given shape. -/
def flat : List ℕ → List ℕ → ℕ
  | _ :: shape, i :: idx => i * shape.prod + flat shape idx
  | _, _ => 0

/-- A contiguous row-major array: shape and memory. -/
structure Array where
  shape : List ℕ
  data : ℕ → ℂ

/-- `array(idx)`. -/
def Array.get (a : Array) (idx : List ℕ) : ℂ := a.data (flat a.shape idx)

/-- `dodirect::_<IS_MULTIPLICATION>` (ComplexArrayExtensions.cc:7-8): the matrix over the memory of the result: `m=v1(i)*v2(j)`, respectively
`m=v1(i)+v2(j)`. The matrix element `(i,j)` of an `n1 x n2` row-major matrix view is at offset `i*n2+j`. -/
def direct (mult : Bool) (v1 v2 : ℕ → ℂ) (n2 : ℕ) : ℕ → ℂ := fun o =>
  if mult then v1 (o / n2) * v2 (o % n2) else v1 (o / n2) + v2 (o % n2)

/-- `blitzplusplus::doDirect` (ComplexArrayExtensions.h:80-95) with `concatenateTinies` (BlitzTinyExtensions.h:27-42) and
`unaryArray` (BlitzArrayExtensions.h:44-53). -/
def doDirect (mult : Bool) (a1 a2 : Array) : Array :=
  { shape := a1.shape ++ a2.shape, data := direct mult a1.data a2.data a2.shape.prod }

end CppQED.CMat
