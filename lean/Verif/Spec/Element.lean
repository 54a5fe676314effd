import Verif.Model.Element
import Verif.Spec.Master
import Mathlib.LinearAlgebra.Matrix.Hermitian
import Mathlib.Analysis.Calculus.Deriv.Mul
import Mathlib.Analysis.SpecialFunctions.ExpDeriv

/-!
# Elements: the linear algebra meant by the arrays

The content of the arrays as vectors and matrices of Mathlib.
-/

namespace CppQED.Spec
open CppQED.Elem Matrix

/-- The state vector of dimension `d` held in the array. -/
def ket (d : ℕ) (psi : Vec) : Fin d → ℂ := fun i => psi i

/-- The density matrix of dimension `d` held in the array. -/
def mat (d : ℕ) (rho : Dens) : Matrix (Fin d) (Fin d) ℂ := Matrix.of fun i j => rho i j

/-- The state described by a lazy density operator. -/
def state (m : LDO) : Matrix (Fin m.dim) (Fin m.dim) ℂ := mat m.dim m.index

/-- The expectation value of `A` in the (not necessarily normalised) state. -/
noncomputable def expectation {d : ℕ} (A ρ : Matrix (Fin d) (Fin d) ℂ) : ℂ := (A * ρ).trace

/-- The array operation `f` is the multiplication with the matrix `J`. -/
def IsJump (d : ℕ) (f : Vec → Vec) (J : Matrix (Fin d) (Fin d) ℂ) : Prop := ∀ psi, ket d (f psi) = J *ᵥ ket d psi

/-- The array operation `f` adds `JρJ†`. -/
def IsSuper (d : ℕ) (f : Dens → Dens → Dens) (J : Matrix (Fin d) (Fin d) ℂ) : Prop := ∀ rho drhodt, mat d (f rho drhodt) = mat d drhodt + J * mat d rho * Jᴴ

/-- The rate is the trace of `JρJ†` for all density operators; in particular `‖Jψ‖²` for state vectors. -/
def IsRate (d : ℕ) (r : LDO → ℝ) (J : Matrix (Fin d) (Fin d) ℂ) : Prop :=
  (∀ rho, r (LDO.ofDM d rho) = (J * mat d rho * Jᴴ).trace.re) ∧ ∀ psi, r (LDO.ofSV d psi) = ∑ i, Complex.normSq ((J *ᵥ ket d psi) i)

/-! ## The dynamics simulated by an element -/

/-- The right-hand side integrated by the Monte Carlo method between the jumps. -/
noncomputable def rhs (e : Element) (t t0 : ℝ) (psi : Fin e.dim → ℂ) : Fin e.dim → ℂ :=
  match e.toSys.ha with
  | some addContribution => addContribution t psi 0 t0
  | none => 0

/-- The transformation to the Schrödinger picture performed after the integration. -/
noncomputable def toSchroedinger (e : Element) (t t0 : ℝ) (psi : Fin e.dim → ℂ) : Fin e.dim → ℂ :=
  match e.toSys.ex with
  | some actWithU => actWithU t psi t0
  | none => psi

/-- The element simulates, in whatever picture, the dynamics with the (non-Hermitian) Hamiltonian divided by `i`, `H`, and the jump operators `J`. -/
structure Generates (e : Element) (H : Dens) (J : List Dens) : Prop where
  /-- In the beginning of the step, the pictures coincide. -/
  initial : ∀ t0 psi, toSchroedinger e t0 t0 psi = psi
  /-- If the integrated state vector follows the element's right-hand side, then the physical state vector, obtained with the element's exact part, follows `dψ/dt=Hψ`. -/
  schroedinger : ∀ (t0 t : ℝ) (psi : ℝ → Fin e.dim → ℂ), (∀ i, HasDerivAt (fun s => psi s i) (rhs e t t0 (psi t) i) t) →
    ∀ i, HasDerivAt (fun s => toSchroedinger e s t0 (psi s) i) ((mat e.dim H *ᵥ toSchroedinger e t t0 (psi t)) i) t
  /-- The jumps are those given. -/
  jumps : match e.toSys.li with
    | some l => l.nAvr = J.length ∧ ∀ i < J.length, ∀ t psi, l.actWithJ t psi i = mat e.dim (J.getD i 0) *ᵥ psi
    | none => J = []
  /-- If the element can be used in the Master equation, and the integrated density operator follows the right-hand side of the Master-equation trajectory, then the physical density operator
  follows the Master equation of `H` and `J`. -/
  master : e.toSys.exApplicable = true → ∀ (t0 t : ℝ) (rho : ℝ → Matrix (Fin e.dim) (Fin e.dim) ℂ), (rho t).IsHermitian →
    (∀ i j, HasDerivAt (fun s => rho s i j) (Master.derivative e.toSys t t0 (rho t) i j) t) →
    ∀ i j, HasDerivAt (fun s => Master.exactPart e.toSys s t0 (rho s) i j) (lindblad (mat e.dim H) (J.map (mat e.dim)) (Master.exactPart e.toSys t t0 (rho t)) i j) t

end CppQED.Spec
