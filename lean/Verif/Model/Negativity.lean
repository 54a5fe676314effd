import Verif.Model.PartialTrace
import Verif.Spec.PartialTrace
import Mathlib.Analysis.Matrix.Spectrum
import Mathlib.Analysis.SpecialFunctions.Log.Basic

/-!
# Model of `negPT`, `entropy`, `mutualInformation` and `purityOfPartialTrace`

Source: `/repo/CPPQEDcore/quantumdata/EntanglementMeasures.h:38-109`. The eigenvalues delivered by Eigen are idealised as the roots of the
characteristic polynomial with multiplicity; the matrix given to Eigen is the rank-`2r` array as a matrix indexed by pairs of multi-indices
(the row-major flattening of both halves is a relabelling of rows and columns, and the column-major reading by `Eigen::Map` a transposition:
neither changes the characteristic polynomial).
-/

namespace CppQED.PTrace
open CppQED.MII (Idx)
open CppQED.Slice CppQED.Spec

/-- `ExtendV` (EntanglementMeasures.h:45-62): the inner fold over `0..RANK-1`, the outer one over `RANK..2*RANK-1`. -/
def extendV (r : ℕ) (V : List ℕ) : List ℕ :=
  (List.range' r r).foldl (fun acc j => acc ++ [if V.contains (j - r) then j - r else j])
    ((List.range r).foldl (fun acc j => acc ++ [if V.contains j then j + r else j]) [])

/-- The partially transposed array (64-68): `Transposer<CArray,2*RANK,ExtendV>` and the deep copy. -/
def partialTranspose (r : ℕ) (V : List ℕ) (rho : Arr ℂ) : Arr ℂ := fun x => rho (untranspose (2 * r) (transposerMeta (2 * r) (extendV r V)) x)

/-- The array of a density operator as a matrix over the indices of the box. -/
def boxMatrix (lb ub : Idx) (ρ : Idx → Idx → ℂ) : Matrix (boxFinset lb ub) (boxFinset lb ub) ℂ := fun i j => ρ i.1 j.1

/-- The eigenvalues of a density operator array (70-72), with multiplicity. -/
noncomputable def eigenvalues (lb ub : Idx) (rho : Arr ℂ) : Multiset ℂ := (boxMatrix lb ub (fun i j => rho (i ++ j))).charpoly.roots

/-- `negPT` (38-76); for `V_Empty` the overload in 78-83 returns 0. -/
noncomputable def negPT (r : ℕ) (V : List ℕ) (lb ub : Idx) (rho : Arr ℂ) : ℝ :=
  if V = [] then 0
  else (((eigenvalues lb ub (partialTranspose r V rho)).map (fun e => ‖e‖)).sum - 1) / 2

/-- The summation in `entropy` (86-93): `Eigen::SelfAdjointEigenSolver` yields real numbers (the real parts of the roots), and
`v - e*(e>0. ? log(e) : 0.)`. -/
noncomputable def entropy (lb ub : Idx) (rho : Arr ℂ) : ℝ :=
  ((eigenvalues lb ub rho).map (fun e => - (e.re * (if 0 < e.re then Real.log e.re else 0)))).sum

/-- The rank-`2n` array of a reduced density operator of arity `n`. -/
def arrOf (n : ℕ) (σ : Idx → Idx → ℂ) : Arr ℂ := fun x => σ (x.take n) (x.drop n)

/-- `mutualInformation` (EntanglementMeasures.h:96-102): the entropies of the two parts (`tmptools::NegatedVector`, TMP_Tools.h:227, for the
second one) minus that of the whole. `none`: a slice iteration not terminated within `fuel`. -/
noncomputable def mutualInformation (r : ℕ) (V : List ℕ) (lb ub : Idx) (fuel : ℕ) (rho : Arr ℂ) : Option ℝ :=
  (reduceDO r V lb ub fuel rho).bind fun σ => (reduceDO r (negated r V) lb ub fuel rho).map fun τ =>
    entropy (sliceBound V lb) (sliceBound V ub) (arrOf V.length σ) +
    entropy (sliceBound (negated r V) lb) (sliceBound (negated r V) ub) (arrOf (negated r V).length τ) -
    entropy lb ub rho

/-- `purityOfPartialTrace` (EntanglementMeasures.h:105-109) with `purity` (DensityOperator.h:308-312): the absolute squares of all the elements of
the reduced density operator are summed; the order of the summation is not modelled. -/
noncomputable def purityOfPartialTrace (r : ℕ) (V : List ℕ) (lb ub : Idx) (fuel : ℕ) (rho : Arr ℂ) : Option ℝ :=
  (reduceDO r V lb ub fuel rho).map fun σ =>
    ∑ i ∈ boxFinset (sliceBound V lb) (sliceBound V ub), ∑ j ∈ boxFinset (sliceBound V lb) (sliceBound V ub), Complex.normSq (σ i j)

end CppQED.PTrace
