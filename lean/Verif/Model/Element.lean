import Mathlib.Analysis.Complex.Basic
import Mathlib.Data.Complex.BigOperators
import Mathlib.Analysis.SpecialFunctions.Sqrt
import Verif.Model.Master
import Verif.Model.Tridiagonal

/-!
# Model of the base classes of elements

Sources: `/repo/CPPQEDcore/structure/ElementLiouvillean.h`, `/repo/CPPQEDcore/quantumdata/LazyDensityOperator.h`.

A state vector of rank 1 is a function of the index; only the indices below the dimension matter. `double` is `ℝ`, `dcomp` is `ℂ`.
-/

namespace CppQED.Elem
open ComplexConjugate

/-- `StateVectorLow<1>`. -/
abbrev Vec := ℕ → ℂ

/-- `DensityOperatorLow<1>`. -/
abbrev Dens := ℕ → ℕ → ℂ

/-- `psi(n)=x`. -/
def Vec.set (psi : Vec) (n : ℕ) (x : ℂ) : Vec := Function.update psi n x

/-- `drhodt(m,n)+=x`. -/
def Dens.add (drhodt : Dens) (m n : ℕ) (x : ℂ) : Dens := Function.update drhodt m (Function.update (drhodt m) n (drhodt m n + x))

/-- `LazyDensityOperator<1>`: `getDimension()`, `operator()(i)(j)`, `trace()` (LazyDensityOperator.h:60-140). -/
structure LDO where
  dim : ℕ
  index : ℕ → ℕ → ℂ
  trace : ℝ

/-- `matrix(n)` converted to `double` (LazyDensityOperator.h:78). -/
def LDO.diag (m : LDO) (n : ℕ) : ℝ := (m.index n n).re

/-- A state vector as `LazyDensityOperator` (StateVector.h:192-194); its `trace()` is the norm, cf. C65. -/
noncomputable def LDO.ofSV (d : ℕ) (psi : Vec) : LDO := ⟨d, fun i j => psi i * conj (psi j), Real.sqrt (∑ n ∈ Finset.range d, Complex.normSq (psi n))⟩

/-- A density operator as `LazyDensityOperator` (DensityOperator.h:186-194). -/
noncomputable def LDO.ofDM (d : ℕ) (rho : Dens) : LDO := ⟨d, rho, (∑ n ∈ Finset.range d, rho n n).re⟩

/-! ## `ElementLiouvillean` -/

/-- What goes wrong: `ElementLiouvilleanException`, `SuperoperatorNotImplementedException`, `ElementLiouvilleanDiffusiveDimensionalityMismatchException`. -/
inductive Err where
  | noSuchLindblad
  | superoperatorNotImplemented
  | dimensionalityMismatch
  /-- undefined behaviour: indexing a `TinyVector` out of its bounds -/
  | undefined
deriving DecidableEq

/-- The virtuals of one Lindblad: `doActWithJ`, `rate`, `doActWithSuperoperator` (`none`: not overridden) (ElementLiouvillean.h:57-83). -/
structure Lindblad where
  jump : Vec → Vec
  rate : LDO → ℝ
  super : Option (Dens → Dens → Dens)

/-- `doActWithSuperoperator` with its default implementation (ElementLiouvillean.h:63-66, 198-201). -/
def Lindblad.doActWithSuperoperator (L : Lindblad) (rho drhodt : Dens) : Except Err Dens :=
  match L.super with
  | none => .error .superoperatorNotImplemented
  | some s => .ok (s rho drhodt)

/-- The interface of a Liouvillean element. -/
structure Liouvillean where
  labels : List String
  rates : LDO → List ℝ
  actWithJ : ℕ → Vec → Except Err Vec
  actWithSuperoperator : ℕ → Dens → Dens → Except Err Dens

/-- `ElementLiouvillean<1,N>` (ElementLiouvillean.h:123-158); for `N=1` the specialisation 186-201 does the same. The loop over the ordinals is run as in the code. -/
def elementLiouvillean (labels : List String) (Ls : List Lindblad) : Liouvillean where
  labels := labels
  rates := fun m => Ls.map fun L => L.rate m
  actWithJ := fun lindbladNo psi =>
    if Ls.length ≤ lindbladNo then .error .noSuchLindblad
    else .ok ((Ls.zipIdx).foldl (fun psi L => if L.2 = lindbladNo then L.1.jump psi else psi) psi)
  actWithSuperoperator := fun lindbladNo rho drhodt =>
    if Ls.length ≤ lindbladNo then .error .noSuchLindblad
    else (Ls.zipIdx).foldl (fun r L => if L.2 = lindbladNo then r.bind fun drhodt => L.1.doActWithSuperoperator rho drhodt else r) (.ok drhodt)

/-- `ElementLiouvilleanStrategies<1,N>` (ElementLiouvillean.h:246-306): indexing without check of the range. The `super` fields which are `none` are the null strategies. -/
def elementLiouvilleanStrategies (labels : List String) (Ls : List Lindblad) : Liouvillean where
  labels := labels
  rates := fun m => Ls.map fun L => L.rate m
  actWithJ := fun lindbladNo psi => match Ls[lindbladNo]? with
    | some L => .ok (L.jump psi)
    | none => .error .undefined
  actWithSuperoperator := fun lindbladNo rho drhodt => match Ls[lindbladNo]? with
    | some L => L.doActWithSuperoperator rho drhodt
    | none => .error .undefined

/-! ## `ElementLiouvilleanDiffusive` -/

/-- The superoperator of all the phase flips (ElementLiouvillean.h:366-374). -/
def diffusiveSuperoperator (dim : ℕ) (D : ℝ) (rho drhodt : Dens) : Dens :=
  (List.range dim).foldl (fun drhodt m =>
    (List.range' (m + 1) (dim - (m + 1))).foldl (fun drhodt n => (drhodt.add m n (-(6 * D * rho m n))).add n m (-(6 * D * rho n m)))
      (drhodt.add m m (2 * D * rho m m))) drhodt

/-- `ElementLiouvilleanDiffusive` (ElementLiouvillean.h:330-377): `ext` is the dimension of the state (the extent of the arrays). -/
noncomputable def diffusive (dim ext : ℕ) (coeffs : List ℝ) (base : Liouvillean) : Liouvillean where
  labels := base.labels ++ (List.range dim).map fun i => "Phase flip for level " ++ toString i
  rates := fun m => base.rates m ++ List.replicate dim (-1)
  actWithJ := fun lindbladNo psi =>
    if ext ≠ dim then .error .dimensionalityMismatch
    else if lindbladNo < base.labels.length then base.actWithJ lindbladNo psi
    else
      let l := lindbladNo - base.labels.length
      let psi : Vec := fun n => psi n * (Real.sqrt (2 * coeffs.getD l 0) : ℂ)
      .ok (psi.set l (psi l * (-1)))
  actWithSuperoperator := fun lindbladNo rho drhodt =>
    if ext ≠ dim then .error .dimensionalityMismatch
    else if lindbladNo < base.labels.length then base.actWithSuperoperator lindbladNo rho drhodt
    else if lindbladNo = base.labels.length then .ok (diffusiveSuperoperator dim (coeffs.getD 0 0) rho drhodt)
    else .ok drhodt

/-! ## `TridiagonalHamiltonian` -/

/-- `quantumoperator::TridiagonalHamiltonian<1,IS_TIME_DEPENDENT>`: the list `hOverIs_`. -/
structure TriHam where
  isTimeDependent : Bool
  hOverIs : List Tridiag.Tri

/-- A rank-1 array as an array with multi-indices. -/
def arr1 (psi : Vec) : Tridiag.NIdx → ℂ := fun i => psi (i.getD 0 0)

/-- `addContribution_v` (TridiagonalHamiltonian.h:42-47). That `propagate` mutates the stored operators is of no consequence, cf. `Tridiag.propagate_history` (C18). -/
noncomputable def TriHam.addContribution (H : TriHam) (t : ℝ) (psi dpsidt : Vec) (t0 : ℝ) : Vec := fun n =>
  (H.hOverIs.foldl (fun d h => Tridiag.apply (if H.isTimeDependent then Tridiag.propagate h (t - t0) else h) (arr1 psi) d) (arr1 dpsidt)) [n]

/-! ## The element as seen by the evolution -/

/-- A free element: its dimension, Hamiltonian part (`addContribution(t,psi,dpsidt,t0)`), the diagonal of the exact part as a function of `t-t0` (`FreeExact::updateU`, cf. C45), whether that is
applicable in the Master equation, and Liouvillean part. -/
structure Element where
  dim : ℕ
  ha : Option (ℝ → Vec → Vec → ℝ → Vec)
  ex : Option (ℝ → ℕ → ℂ)
  exApplicable : Bool
  li : Option Liouvillean

/-- The array with the given content. -/
def arr {d : ℕ} (v : Fin d → ℂ) : Vec := fun n => if h : n < d then v ⟨n, h⟩ else 0

/-- The two-dimensional array with the given content. -/
def arr2 {d : ℕ} (v : Matrix (Fin d) (Fin d) ℂ) : Dens := fun m n => if h : m < d ∧ n < d then v ⟨m, h.1⟩ ⟨n, h.2⟩ else 0

/-- `FreeExact::actWithU_v` (FreeExact.h:31) with an up-to-date cache: `psi*=diagonal_`. -/
def actWithU (U : ℝ → ℕ → ℂ) (t : ℝ) (psi : Vec) (t0 : ℝ) : Vec := fun n => psi n * U (t - t0) n

/-- The element as a quantum system for the trajectories. Exceptions other than that of the missing superoperator (which do not occur for jump numbers in range) are not passed on. -/
noncomputable def Element.toSys (e : Element) : Master.Sys e.dim where
  ha := e.ha.map fun f => fun t psi dpsidt t0 => fun i => f t (arr psi) (arr dpsidt) t0 i
  ex := e.ex.map fun U => fun t psi t0 => fun i => actWithU U t (arr psi) t0 i
  exApplicable := e.exApplicable
  li := e.li.map fun L =>
    { nAvr := L.labels.length
      actWithSuperoperator := fun _ rho drhodt i => match L.actWithSuperoperator i (arr2 rho) (arr2 drhodt) with
        | .ok d => some (Matrix.of fun m n => d m n)
        | .error _ => none
      actWithJ := fun _ psi i => match L.actWithJ i (arr psi) with
        | .ok psi => fun n => psi n
        | .error _ => psi }

end CppQED.Elem
