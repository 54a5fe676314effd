import Verif.Model.Slice

/-!
# Rows and columns of multi-matrices

`blitzplusplus::vfmsi` of CPPQEDutils/VectorFromMatrixSliceIterator.h, the iteration with which operators are applied to density operators.
-/

namespace CppQED.Slice
open CppQED.MII (Idx)

/-- `Left` and `Right` (VectorFromMatrixSliceIterator.h:30-31). -/
inductive Side where
  | left
  | right

/-- `LeftRight<RANK,S>` (VectorFromMatrixSliceIterator.h:44-47): the range of `k` axes beginning with 0 or with `k`. -/
def leftRight (k : ℕ) : Side → List ℕ
  | .left => List.range' 0 k
  | .right => List.range' k k

/-- `fullRange<S>(array)` (VectorFromMatrixSliceIterator.h:56-71) for an array of rank `r`: `Iterator` retains `LeftRight<RANK/2,S>`. -/
def vectors (r : ℕ) (S : Side) (lb ub : Idx) (fuel : ℕ) : Option (List Idx) := fullRange r (leftRight (r / 2) S) lb ub fuel

/-- `for (auto& psi : fullRange<S>(rho)) f(psi);` for an `f` that acts in place (Master.h:178, 189, 191, LazyDensityOperatorFFT.cc:57-58). `ds` is the sequence of slices. -/
noncomputable def forEachVector {α : Type*} (r : ℕ) (S : Side) (lb ub : Idx) (ds : List Idx) (f : Arr α → Arr α) (rho : Arr α) : Arr α := forEachSlice r (leftRight (r / 2) S) lb ub ds f rho

/-- `for (auto&& [rhoS,drhodtS] : boost::combine(fullRange<S>(rho),fullRange<S>(drhodt))) f(rhoS,drhodtS);` for an `f` that changes the second argument in place (Master.h:163-164). -/
noncomputable def forEachVector₂ {α β : Type*} (r : ℕ) (S : Side) (lb ub : Idx) (ds : List Idx) (f : Arr α → Arr β → Arr β) (rho : Arr α) (drhodt : Arr β) : Arr β :=
  forEachSlice₂ r (leftRight (r / 2) S) lb ub ds f rho drhodt

end CppQED.Slice
