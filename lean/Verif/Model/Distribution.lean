import Verif.Model.MathExtensions
import Mathlib.LinearAlgebra.Matrix.Notation
import Mathlib.Analysis.SpecialFunctions.Complex.Arg

/-!
# Model of the quasi-probability distributions

Sources: `/repo/CPPQEDcore/quantumdata/DistributionFunctions.h`, `/repo/CPPQEDcore/quantumdata/DistributionFunctions.cc`.
Numbers are exact; the Laguerre polynomial is that of Boost.Math: its documented mathematical function.
`wignerFunctionOld` is not modelled.
-/

namespace CppQED.Distribution
open CppQED.MathExt

variable {d : ℕ}

/-- `qFunction` (DistributionFunctions.h:82-95); `rho(m)(n)` is the matrix element. The unused cutoff argument is left out. -/
noncomputable def qFunction (ρ : Matrix (Fin d) (Fin d) ℂ) (x y : ℝ) : ℝ :=
  let α : ℂ := ⟨x, y⟩
  let qComplex : ℂ := ∑ m : Fin d, ∑ n : Fin d, coherentElement n α * coherentElement m (starRingEnd ℂ α) * ρ m n
  Real.exp (-sqrAbs α) * qComplex.re

/-- The associated Laguerre polynomial `laguerre(n,k,x)` of Boost.Math. -/
noncomputable def laguerre (n k : ℕ) (x : ℝ) : ℝ := ∑ i ∈ Finset.range (n + 1), (-1) ^ i * ((n + k).choose (n - i) : ℝ) * x ^ i / (i.factorial : ℝ)

/-- `details::w` (DistributionFunctions.cc:47-51), for `n+k` not more than 170, above which `factorial` throws. -/
noncomputable def w (n : ℕ) (r : ℝ) (k : ℕ) : ℝ :=
  (-1) ^ n / Real.pi * Real.sqrt (n.factorial / (n + k).factorial) * Real.exp (-2 * r ^ 2) * (2 * r) ^ k * laguerre n k (4 * r ^ 2)

/-- The helper of `wignerFunction` (DistributionFunctions.h:61-69). The matrix elements are a function of two numbers, as the loop runs up to a truncated dimension. -/
noncomputable def wHelper (ρ : ℕ → ℕ → ℂ) (dim : ℕ) (r : ℝ) (k : ℕ) : ℂ := ∑ n ∈ Finset.range (dim - k), w n r k * ρ (n + k) n

/-- The dimension used (DistributionFunctions.h:73). -/
def wignerDim (truncated dim : ℕ) : ℕ := if truncated ≠ 0 ∧ truncated < dim then truncated else dim

/-- `wignerFunction` (DistributionFunctions.h:57-80): `k` goes from 1. -/
noncomputable def wignerFunction (ρ : ℕ → ℕ → ℂ) (dim : ℕ) (x y : ℝ) (truncated : ℕ) : ℝ :=
  let r := Real.sqrt (x ^ 2 + y ^ 2)
  let φ := if x ≠ 0 ∨ y ≠ 0 then Complex.arg ⟨x, y⟩ else 0
  let dim := wignerDim truncated dim
  (wHelper ρ dim r 0).re + ∑ k ∈ Finset.range (dim - 1), 2 * (wHelper ρ dim r (k + 1) * Complex.exp (-Complex.I * ((k + 1 : ℕ) * φ))).re

/-- `ParsFunctionScan` (DistributionFunctions.h:18-27). -/
structure Scan where
  fLimitXUL : ℝ
  fLimitYUL : ℝ
  fLimitXL : ℝ
  fLimitXU : ℝ
  fLimitYL : ℝ
  fLimitYU : ℝ
  fStep : ℝ

/-- The defaults (DistributionFunctions.cc:19-28). -/
noncomputable def defaultScan : Scan := ⟨2, 2, -2, 2, -2, 2, 1 / 10⟩

open Classical in
/-- A loop `for (double x=l; x<u; x+=step)`, the values of `x`; `none`: it has not terminated with the given fuel. -/
noncomputable def loop (u step : ℝ) : ℕ → ℝ → Option (List ℝ)
  | 0, _ => none
  | fuel + 1, x => if x < u then (loop u step fuel (x + step)).map (x :: ·) else some []

open Classical in
/-- The limits as set in the beginning of `scanFunction` (DistributionFunctions.h:143-144). -/
noncomputable def Scan.limits (p : Scan) : Scan :=
  let p := if p.fLimitXUL ≠ 0 then { p with fLimitXL := -p.fLimitXUL, fLimitXU := p.fLimitXUL } else p
  if p.fLimitYUL ≠ 0 then { p with fLimitYL := -p.fLimitYUL, fLimitYU := p.fLimitYUL } else p

/-- `scanFunction` (DistributionFunctions.h:140-150): the blocks streamed, one for each `x`, with the rows in it. -/
noncomputable def scanFunction (f : ℝ → ℝ → ℝ) (p : Scan) (fuel : ℕ) : Option (List (List (ℝ × ℝ × ℝ))) := do
  let p := p.limits
  let xs ← loop p.fLimitXU p.fStep fuel p.fLimitXL
  xs.mapM fun x => do
    let ys ← loop p.fLimitYU p.fStep fuel p.fLimitYL
    return ys.map fun y => (x, y, f x y)

end CppQED.Distribution
