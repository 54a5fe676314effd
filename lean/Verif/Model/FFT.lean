import Mathlib.Analysis.SpecialFunctions.Pow.Real
import Mathlib.Analysis.SpecialFunctions.Complex.Circle
import Mathlib.Algebra.BigOperators.Intervals

/-!
# Model of the Fourier transformation of state vectors and density operators

Sources: `/repo/CPPQEDcore/quantumdata/LazyDensityOperatorFFT.cc:13-62`, `/repo/CPPQEDutils/FFT.cc:14-18`, `/repo/CPPQEDutils/FFT.h:10-45`.
`gsl_fft_complex_radix2_transform` is an external routine: it is represented by its documented contract (unnormalised discrete Fourier
transform, exponent `-2πi` forward and `+2πi` backward; an error if the size is not a power of two). A vector is a function `ℕ → ℂ` together
with its size.
-/

namespace CppQED.FFT

/-- `fft::Direction` (FFT.h:10-13). -/
inductive Direction | xk | kx
  deriving DecidableEq

/-- `fft::reverse` (FFT.h:43). -/
def reverse (dir : Direction) : Direction := if dir = .kx then .xk else .kx

/-- The sign of the exponent: `sign==DIR_XK ? gsl_fft_forward : gsl_fft_backward` (FFT.cc:16), with `gsl_fft_forward = -1`. -/
def gslSign (dir : Direction) : ℂ := if dir = .xk then -1 else 1

open Classical in
/-- `fft::details::transform` (FFT.cc:14-18); `none` stands for the exception. -/
noncomputable def transform (n : ℕ) (dir : Direction) (psi : ℕ → ℂ) : Option (ℕ → ℂ) :=
  if ∃ m, n = 2 ^ m then
    some (fun k => ∑ l ∈ Finset.range n, Complex.exp (gslSign dir * (2 * Real.pi * Complex.I * k * l / n)) * psi l)
  else none

/-- `Helper::_` (LazyDensityOperatorFFT.cc:20-25). -/
noncomputable def helper (psi : ℕ → ℂ) (i1 i2 : ℕ) (norm : ℝ) : ℕ → ℂ :=
  let temp := psi i1
  Function.update (Function.update psi i1 (norm * psi i2)) i2 (norm * temp)

/-- `for (int j=0; j<halfnumber; j++ ) Helper::_(psi,j,j+halfnumber,pow(size,-.5));` (37). -/
noncomputable def swapLoop (size half : ℕ) (psi : ℕ → ℂ) : ℕ → ℂ :=
  (List.range half).foldl (fun psi j => helper psi j (j + half) ((size : ℝ) ^ (-(1/2) : ℝ))) psi

/-- `for (int j=1; j<size; j+=2) psi(j)*=-1;` (38). -/
def signLoop (size : ℕ) (psi : ℕ → ℂ) : ℕ → ℂ :=
  ((List.range (size / 2)).map (fun m => 2 * m + 1)).foldl (fun psi j => Function.update psi j (psi j * (-1))) psi

/-- `ffTransformCV` (LazyDensityOperatorFFT.cc:16-40). -/
noncomputable def ffTransformCV (size : ℕ) (dir : Direction) (psi : ℕ → ℂ) : Option (ℕ → ℂ) :=
  if size < 2 then some psi
  else (transform size dir psi).map (fun psi => signLoop size (swapLoop size (size >>> 1) psi))

/-- `quantumdata::ffTransform(CMatrix&,Direction)` (53-60): `fullRange<Left>` yields the columns (axis 0 retained), each transformed with `dir`;
`fullRange<Right>` the rows, each transformed with `reverse(dir)`. (Slices are disjoint, so the order is immaterial; cf. C02.) -/
noncomputable def ffTransformCM (size : ℕ) (dir : Direction) (rho : ℕ → ℕ → ℂ) : Option (ℕ → ℕ → ℂ) :=
  if ∀ c < size, (ffTransformCV size dir (fun i => rho i c)).isSome then
    let rho₁ : ℕ → ℕ → ℂ := fun i c => (ffTransformCV size dir (fun i => rho i c)).getD (fun _ => 0) i
    if ∀ i < size, (ffTransformCV size (reverse dir) (rho₁ i)).isSome then
      some (fun i j => (ffTransformCV size (reverse dir) (rho₁ i)).getD (fun _ => 0) j)
    else none
  else none

end CppQED.FFT
