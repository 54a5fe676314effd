import Verif.Spec.Interactions
import Mathlib.LinearAlgebra.Matrix.Kronecker

/-!
# The elements of the guide to implementing new elements

The formulas of `/repo/CPPQEDcore/doc/structureGuide.markdown`.
-/

namespace CppQED.Spec
open CppQED.Elem Matrix
open ComplexConjugate

/-- The non-Hermitian Hamiltonian (structureGuide.markdown:27) divided by `i`: `[(-δ-iκ(2n+1)) a†a + η a† + η* a]/i`. -/
noncomputable def guideH (δ κ n : ℝ) (η : ℂ) : Dens := fun i j =>
  ((-(δ : ℂ) - Complex.I * (κ * (2 * n + 1))) * nOp i j + (η * adOp i j + conj η * aOp i j)) / Complex.I

/-- The jump operators (structureGuide.markdown:25): `√(2κ(n+1)) a`, `√(2κn) a†`. -/
noncomputable def guideJ (κ n : ℝ) : List Dens := [sc (Real.sqrt (2 * (κ * (n + 1)))) aOp, sc (Real.sqrt (2 * (κ * n))) adOp]

/-- The X-X interaction (structureGuide.markdown:119), not divided by `i`: `g(a+a†)(b+b†)`. -/
noncomputable def guideXX (g : ℝ) (i j : List ℤ) : ℂ := g * tensor (fun i j => aOp i j + adOp i j) (fun i j => aOp i j + adOp i j) i j

/-- Between the jumps of a Monte Carlo trajectory, and at the jumps, the element simulates the dynamics of the (non-Hermitian) Hamiltonian divided by `i`, `H`, and the jump operators `J`: the first three
clauses of `Generates`. -/
structure SimulatesMCWF (e : Element) (H : Dens) (J : List Dens) : Prop where
  /-- In the beginning of the step, the pictures coincide. -/
  initial : ∀ t0 psi, toSchroedinger e t0 t0 psi = psi
  /-- If the integrated state vector follows the element's right-hand side, then the physical state vector follows `dψ/dt=Hψ`. -/
  schroedinger : ∀ (t0 t : ℝ) (psi : ℝ → Fin e.dim → ℂ), (∀ i, HasDerivAt (fun s => psi s i) (rhs e t t0 (psi t) i) t) →
    ∀ i, HasDerivAt (fun s => toSchroedinger e s t0 (psi s) i) ((mat e.dim H *ᵥ toSchroedinger e t t0 (psi t)) i) t
  /-- The jumps are those given. -/
  jumps : match e.toSys.li with
    | some l => l.nAvr = J.length ∧ ∀ i < J.length, ∀ t psi, l.actWithJ t psi i = mat e.dim (J.getD i 0) *ᵥ psi
    | none => J = []

/-- The physical density operator follows the Master equation of `H` and the jumps `J τ`, `τ` after the beginning of the step, if the integrated one follows the right-hand side of the Master-equation
trajectory. -/
def FollowsScaled (e : Element) (H : Dens) (J : ℝ → List Dens) : Prop := ∀ (t0 t : ℝ) (rho : ℝ → Matrix (Fin e.dim) (Fin e.dim) ℂ), (rho t).IsHermitian →
  (∀ i j, HasDerivAt (fun s => rho s i j) (Master.derivative e.toSys t t0 (rho t) i j) t) →
  ∀ i j, HasDerivAt (fun s => Master.exactPart e.toSys s t0 (rho s) i j) (lindblad (mat e.dim H) ((J (t - t0)).map (mat e.dim)) (Master.exactPart e.toSys t t0 (rho t)) i j) t

/-- The quadratures `(a+a†)/√2`, `(a-a†)/(i√2)` of a mode of dimension `d`. -/
noncomputable def quadX (d : ℕ) : Matrix (Fin d) (Fin d) ℂ := mat d fun i j => (aOp i j + adOp i j) / (Real.sqrt 2 : ℂ)
@[inherit_doc quadX] noncomputable def quadY (d : ℕ) : Matrix (Fin d) (Fin d) ℂ := mat d fun i j => (aOp i j - adOp i j) / (Complex.I * (Real.sqrt 2 : ℂ))

end CppQED.Spec
