import Verif.Model.Tridiagonal

/-!
# Model of `quantumoperator::Sigma`, `DirectProduct` and of `calculateMatrix`

Sources: `/repo/CPPQEDcore/quantumoperator/Sigma.h`, `Sigma.cc`, `/repo/CPPQEDcore/structure/MatrixOfHamiltonian.h`.
-/

namespace CppQED.Sigma
open CppQED.Tridiag (NIdx)

/-- What `DirectProduct` requires of its `OTHER` parameter: `apply(psi,dpsidt)`, here returning the new content of `dpsidt`. -/
abbrev Action := (psi dpsidt : NIdx → ℂ) → (NIdx → ℂ)

/-- `Sigma<L,R>::apply` (Sigma.h:29-33). -/
def sigmaApply (L R : ℕ) : Action := fun psi dpsidt => Function.update dpsidt [L] (dpsidt [L] + psi [R])

/-- `partialProject<RANK,IS_HEAD>(psi,n)` (Sigma.cc:31-44): a view of `psi` with the first (last) index fixed. -/
def partialProject (isHead : Bool) (psi : NIdx → ℂ) (n : ℕ) : NIdx → ℂ :=
  fun idx => if isHead then psi (n :: idx) else psi (idx ++ [n])

/-- Writing through such a view. -/
def writeProject (isHead : Bool) (dpsidt : NIdx → ℂ) (n : ℕ) (new : NIdx → ℂ) : NIdx → ℂ := fun idx =>
  if isHead then (match idx with | [] => dpsidt [] | m :: rest => if m = n then new rest else dpsidt idx)
  else if idx.getLast? = some n then new idx.dropLast else dpsidt idx

/-- `DirectProduct<L,R,OTHER,IS_HEAD>::apply` (Sigma.h:81-87). -/
def directApply (L R : ℕ) (other : Action) (isHead : Bool) : Action := fun psi dpsidt =>
  writeProject isHead dpsidt L (other (partialProject isHead psi R) (partialProject isHead dpsidt L))

/-- Template parameters of the object that `operator*(Sigma<L1,R1>,Sigma<L2,R2>)` returns (Sigma.h:130-135): the declared return type is
`DirectProduct<L1,R1,Sigma<L2,R2>,true>`, the constructed object is `DirectProduct<L1,R2,Sigma<L2,R2>,true>`. These are unrelated class types
unless `R1=R2`, hence instantiation is ill-formed (`none`) for `R1≠R2`. -/
def homogeneousProduct (L₁ R₁ L₂ R₂ : ℕ) : Option Action :=
  if R₁ = R₂ then some (directApply L₁ R₂ (sigmaApply L₂ R₂) true) else none

/-- One iteration of the loop over `col` in `calculateMatrix` (MatrixOfHamiltonian.h:32-38). The state is (psi, dpsidt, res); `add` is
`addContribution` at the given `t`, `t0`, on the one-dimensional views. A missing Hamiltonian part (failing `dynamic_cast`) is `none`. -/
noncomputable def colStep {n : ℕ} (add : Option ((Fin n → ℂ) → (Fin n → ℂ) → (Fin n → ℂ))) (row : Fin n)
    (s : (Fin n → ℂ) × (Fin n → ℂ) × (Fin n → Fin n → ℂ)) (col : Fin n) : (Fin n → ℂ) × (Fin n → ℂ) × (Fin n → Fin n → ℂ) :=
  let dpsidt := match add with | some f => f s.1 s.2.1 | none => s.2.1
  (s.1, fun _ => 0, Function.update s.2.2 col (Function.update (s.2.2 col) row (Complex.I * dpsidt col)))

/-- One iteration of the loop over `row` (MatrixOfHamiltonian.h:30-40). -/
noncomputable def rowStep {n : ℕ} (add : Option ((Fin n → ℂ) → (Fin n → ℂ) → (Fin n → ℂ)))
    (s : (Fin n → ℂ) × (Fin n → ℂ) × (Fin n → Fin n → ℂ)) (row : Fin n) : (Fin n → ℂ) × (Fin n → ℂ) × (Fin n → Fin n → ℂ) :=
  let s₁ := (List.finRange n).foldl (colStep add row) (Function.update s.1 row 1, s.2.1, s.2.2)
  (Function.update s₁.1 row 0, s₁.2.1, s₁.2.2)

/-- `calculateMatrix` (MatrixOfHamiltonian.h:9-46), `res0` being the uninitialised result array. -/
noncomputable def calculateMatrix {n : ℕ} (add : Option ((Fin n → ℂ) → (Fin n → ℂ) → (Fin n → ℂ))) (res0 : Fin n → Fin n → ℂ) :
    Fin n → Fin n → ℂ :=
  ((List.finRange n).foldl (rowStep add) (fun _ => 0, fun _ => 0, res0)).2.2

end CppQED.Sigma
