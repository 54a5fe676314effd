import Verif.Model.CMatrix
import Verif.Model.ODE
import Mathlib.LinearAlgebra.Matrix.Defs
import Mathlib.LinearAlgebra.Matrix.Trace
import Mathlib.LinearAlgebra.Complex.Module

/-!
# Model of the Master-equation trajectory

Source: `/repo/CPPQEDcore/quantumtrajectory/Master.h`. A density operator is an `n × n` matrix (the matrix view of the multi-array, `n` is the total dimension). A
slice of `fullRange<Left>` (the left, i.e. row, indices are retained) is a column of it. The system is abstract.
-/

namespace CppQED.Master
open ComplexConjugate

variable {n : ℕ} {κ : Type*}

/-- The matrix of a density operator. -/
abbrev Rho (n : ℕ) := Matrix (Fin n) (Fin n) ℂ

/-- The Liouvillean part as the trajectory sees it: `nAvr<LA_Li>()`, `actWithSuperoperator(t,rho,drhodt,i)` (the new `drhodt`; `none`:
`SuperoperatorNotImplementedException`), `actWithJ(t,psi,i)`. -/
structure Li (n : ℕ) where
  nAvr : ℕ
  actWithSuperoperator : ℝ → Rho n → Rho n → ℕ → Option (Rho n)
  actWithJ : ℝ → (Fin n → ℂ) → ℕ → Fin n → ℂ

/-- The quantum system: `addContribution(t,psi,dpsidt,t0)` (the new `dpsidt`), `actWithU(t,psi,t0)`, `applicableInMaster` of the exact part, Liouvillean part; cf. the
forwarding of Structure.h:131-148. -/
structure Sys (n : ℕ) where
  ha : Option (ℝ → (Fin n → ℂ) → (Fin n → ℂ) → ℝ → Fin n → ℂ)
  ex : Option (ℝ → (Fin n → ℂ) → ℝ → Fin n → ℂ)
  exApplicable : Bool
  li : Option (Li n)

/-- `for (auto& rhoS : fullRange<Left>(rho)) f(rhoS)` for an array with the given elements. -/
def overColumns (f : (Fin n → ℂ) → Fin n → ℂ) (rho : Rho n) : Rho n := Matrix.of fun i j => f (fun k => rho k j) i

/-- `linalg::calculateTwoTimesRealPartOfSelf` on the matrix view (CMatrix.cc:14-30, `CMat.twoTimesRealPartOfSelf`). -/
noncomputable def twoTimesRealPart (m : Rho n) : Rho n :=
  Matrix.of fun i j => CMat.twoTimesRealPartOfSelf n (fun a b => if h : a < n ∧ b < n then m ⟨a, h.1⟩ ⟨b, h.2⟩ else 0) i j

/-- `blitzplusplus::hermitianConjugateSelf` (ComplexArrayExtensions.h:38-55) on a rank-2 array: the memory gets conjugated, and the axes of the given array
(but not of others referencing the same memory) get exchanged. The pair: memory, and the elements as seen through the array. -/
def hermitianConjugateSelf (rho : Rho n) : Rho n × Rho n :=
  let mem : Rho n := Matrix.of fun i j => conj (rho i j)
  (mem, Matrix.of fun i j => mem j i)

/-- The jump part with the individual jumps (Master.h:175-181). -/
def jumpTerm (l : Li n) (t : ℝ) (rho : Rho n) (i : ℕ) : Rho n :=
  let rhotemp := overColumns (fun psi => l.actWithJ t psi i) rho
  let rhotemp := (hermitianConjugateSelf rhotemp).2
  overColumns (fun psi => l.actWithJ t psi i) rhotemp

/-- The loop over the jumps (Master.h:171-183). -/
def addJumps (l : Li n) (t : ℝ) (rho drhodt : Rho n) : Rho n :=
  (List.range l.nAvr).foldl (fun d i => (l.actWithSuperoperator t rho d i).getD (d + jumpTerm l t rho i)) drhodt

/-- `drhodt=0`, then the Hamiltonian contribution for each column (Master.h:159-163). -/
def hamiltonianPart (S : Sys n) (t t0 : ℝ) (rho : Rho n) : Rho n :=
  match S.ha with
  | some addContribution => Matrix.of fun i j => addContribution t (fun k => rho k j) 0 t0 i
  | none => 0

/-- The derivative (Master.h:157-183). -/
noncomputable def derivative (S : Sys n) (t t0 : ℝ) (rho : Rho n) : Rho n :=
  let drhodt := twoTimesRealPart (hamiltonianPart S t t0 rho)
  match S.li with
  | some l => addJumps l t rho drhodt
  | none => drhodt

/-- The exact part (Master.h:186-192): the second action is on the columns of the transposed view, so that the memory is the transpose of the result; the memory finally gets
conjugated. -/
def exactPart (S : Sys n) (t t0 : ℝ) (rho : Rho n) : Rho n :=
  match S.ex with
  | some actWithU =>
    let rho := overColumns (fun psi => actWithU t psi t0) rho
    let view := (hermitianConjugateSelf rho).2
    let view := overColumns (fun psi => actWithU t psi t0) view
    let mem : Rho n := Matrix.of fun i j => view j i
    Matrix.of fun i j => conj (mem i j)
  | none => rho

/-- `DensityOperator::renorm` (DensityOperator.h:162-174). -/
noncomputable def renorm (rho : Rho n) : Rho n := Matrix.of fun i j => rho i j / ((∑ k, rho k k).re : ℂ)

/-- The data members (Master.h:109-117). -/
structure St (n : ℕ) (κ : Type*) where
  t : ℝ
  t0 : ℝ
  rho : Rho n
  ode : ODE.Engine κ

/-- The constructor (Master.h:58-75): `none` on exceptions; `dimsAgree` is `rho_==*sys`. -/
def construct (S : Sys n) (dimsAgree : Bool) (rho : Rho n) (ode : ODE.Engine κ) : Option (St n κ) :=
  if S.ex.isSome ∧ S.exApplicable = false then none
  else if dimsAgree = false then none
  else some ⟨0, 0, rho, ode⟩

/-- `Master::step` (Master.h:152-208). `solver` makes the controlled stepper from the derivative, a function of the time and the density operator. -/
noncomputable def step (solver : (ℝ → Rho n → Rho n) → ODE.Stepper (Rho n) κ) (S : Sys n) (fuel : ℕ) (deltaT : ℝ) (x : St n κ) : Option (St n κ) :=
  (ODE.step (solver fun t rho => derivative S t x.t0 rho) fuel deltaT x.ode x.rho x.t).map fun r =>
    let rho := exactPart S r.2.1 x.t0 r.1
    let rho := twoTimesRealPart rho
    ⟨r.2.1, r.2.1, renorm rho, r.2.2⟩

/-- What `stateIO` writes (Master.h:102): the array, the time, and the stepper. -/
def save (x : St n κ) : Rho n × ℝ × ODE.Engine κ := (x.rho, x.t, x.ode)

/-- `stateIO` reading (Master.h:93-100) into the object `y`. -/
def load (r : Rho n × ℝ × ODE.Engine κ) (y : St n κ) : St n κ :=
  let y := { y with t := r.2.1, ode := r.2.2 }
  let y := { y with rho := r.1 }
  { y with t0 := y.t }

/-- `readFromArrayOnlyArchive` (Master.h:87). -/
def loadArray (rho : Rho n) (y : St n κ) : St n κ := { y with rho := rho }

/-! ## Explicit Runge–Kutta steps -/

/-- A row of a Butcher tableau: the node `c` and the coefficients `a`. -/
structure Row where
  c : ℝ
  a : List ℝ

/-- `y + h Σ a_i k_i`. -/
def combine (h : ℝ) (y : Rho n) : List ℝ → List (Rho n) → Rho n
  | a :: as, k :: ks => combine h y as ks + (h * a) • k
  | _, _ => y

/-- The stages `k_i` of an explicit Runge–Kutta method (Boost.Odeint's `runge_kutta_cash_karp54`, GSL's `rkf45`, `rkck`, ... are of this type). -/
def stages (f : ℝ → Rho n → Rho n) (t h : ℝ) (y : Rho n) (rows : List Row) : List (Rho n) :=
  rows.foldl (fun ks r => ks ++ [f (t + r.c * h) (combine h y r.a ks)]) []

/-- The new state of an explicit Runge–Kutta step with weights `b`. -/
def rungeKutta (f : ℝ → Rho n → Rho n) (rows : List Row) (b : List ℝ) (t h : ℝ) (y : Rho n) : Rho n := combine h y b (stages f t h y rows)

end CppQED.Master
