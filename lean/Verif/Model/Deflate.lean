import Verif.Model.MultiIndex
import Mathlib.Data.Complex.Basic

/-!
# Model of `quantumdata::deflate` and `quantumdata::inflate`

Sources: `/repo/CPPQEDcore/quantumdata/LazyDensityOperator.h:160-195`, `/repo/CPPQEDcore/quantumdata/DensityOperator.h:212-234`.
A (lazy) density operator is the function `ρ i j` of its multi-index pairs, with bounds `0 .. dimensions-1` given as `lb`, `ub`
(the code passes `getDimensions()-1` as the upper bound and zero as the lower). `dim` is `getTotalDimension()`.
-/

namespace CppQED.Deflate
open CppQED.MII (Idx)
open ComplexConjugate

/-- `for (Iterator i(etalon); idx<dim; ++i) res(idx++)=matrix(*i);` (LazyDensityOperator.h:181-182): the diagonal elements converted to
`double` by `IndexerProxy::operator double` (78), i.e. their real part. The list is the sequence `res(0), res(1), …`. -/
def diagLoop (lb ub : Idx) (ρ : Idx → Idx → ℂ) (dim : ℕ) : List ℝ :=
  (List.range dim).map (fun k => let i := (MII.inc lb ub)^[k] lb; (ρ i i).re)

/-- The off-diagonal double loop (LazyDensityOperator.h:184-190). `res` is the sequence written so far, so `idx = res.length`.
`fuel` bounds the number of tests of the outer loop condition, `jfuel` that of the inner one; `none`: not terminated. -/
def offLoop (lb ub : Idx) (ρ : Idx → Idx → ℂ) (dim jfuel : ℕ) : ℕ → Idx → List ℝ → Option (List ℝ)
  | 0, _, _ => none
  | fuel + 1, i, res =>
    if res.length < dim * dim then
      match MII.loop lb ub jfuel (MII.inc lb ub i) with
      | none => none
      | some js => offLoop lb ub ρ dim jfuel fuel (MII.inc lb ub i) (res ++ js.flatMap (fun j => [(ρ i j).re, (ρ i j).im]))
    else some res

/-- `quantumdata::deflate` (LazyDensityOperator.h:168-195). -/
def deflate (lb ub : Idx) (dim fuel : ℕ) (ρ : Idx → Idx → ℂ) (offDiagonals : Bool) : Option (List ℝ) :=
  let res := diagLoop lb ub ρ dim
  if offDiagonals then offLoop lb ub ρ dim fuel fuel lb res else some res

/-- `rho(i)(j)=z`. -/
def set (ρ : Idx → Idx → ℂ) (i j : Idx) (z : ℂ) : Idx → Idx → ℂ := fun a b => if a = i ∧ b = j then z else ρ a b

/-- Diagonal loop of `inflate` (DensityOperator.h:222-223). -/
noncomputable def inflateDiag (lb ub : Idx) (flattened : List ℝ) (dim : ℕ) (ρ : Idx → Idx → ℂ) : Idx → Idx → ℂ :=
  (List.range dim).foldl (fun ρ k => let i := (MII.inc lb ub)^[k] lb; set ρ i i (flattened.getD k 0 : ℂ)) ρ

/-- Body of the inner off-diagonal loop of `inflate` (DensityOperator.h:228-231), with `idx+=2`. -/
noncomputable def inflateStep (flattened : List ℝ) (i : Idx) (st : (Idx → Idx → ℂ) × ℕ) (j : Idx) : (Idx → Idx → ℂ) × ℕ :=
  let z : ℂ := ⟨flattened.getD st.2 0, flattened.getD (st.2 + 1) 0⟩
  (set (set st.1 i j z) j i (conj z), st.2 + 2)

/-- Off-diagonal double loop of `inflate` (DensityOperator.h:226-231). -/
noncomputable def inflateOff (lb ub : Idx) (flattened : List ℝ) (dim jfuel : ℕ) :
    ℕ → Idx → (Idx → Idx → ℂ) × ℕ → Option (Idx → Idx → ℂ)
  | 0, _, _ => none
  | fuel + 1, i, st =>
    if st.2 < dim * dim then
      match MII.loop lb ub jfuel (MII.inc lb ub i) with
      | none => none
      | some js => inflateOff lb ub flattened dim jfuel fuel (MII.inc lb ub i) (js.foldl (inflateStep flattened i) st)
    else some st.1

/-- `quantumdata::inflate` (DensityOperator.h:212-234). -/
noncomputable def inflate (lb ub : Idx) (dim fuel : ℕ) (flattened : List ℝ) (ρ : Idx → Idx → ℂ) (offDiagonals : Bool) :
    Option (Idx → Idx → ℂ) :=
  let ρ := inflateDiag lb ub flattened dim ρ
  if offDiagonals then inflateOff lb ub flattened dim fuel fuel lb (ρ, dim) else some ρ

end CppQED.Deflate
