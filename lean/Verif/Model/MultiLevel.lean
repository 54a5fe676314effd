import Verif.Model.Mode
import Verif.Model.CMatrix

/-!
# Model of the multilevel element and of the elements with matrix Hamiltonian

Sources: `/repo/CPPQEDelements/frees/MultiLevel.h`, `PumpedTwoLevelAtom.{h,cc}`, `TimeIndependentMatrixHamiltonian.{h,cc}`. The compile-time pairs of levels are run-time data here, the compile-time
check of their range (`SanityCheck`, TMP_Tools.h:141-145) appears as hypothesis in the theorems. `HamiltonianIP::addContribution_v` (MultiLevel.h:134) is declared but nowhere defined.
-/

namespace CppQED.MultiEl
open CppQED.Elem CppQED.Tridiag

/-- `Pump<I,J>` (MultiLevel.h:120). -/
structure Pump where
  first : ℕ
  second : ℕ
  eta : ℂ

/-- `Decay<I,J>` (MultiLevel.h:189). -/
structure Decay where
  first : ℕ
  second : ℕ
  gamma : ℝ

/-- The arguments of `PumpedLossyMultiLevelSch` (MultiLevel.h:355). -/
structure Pars where
  nl : ℕ
  deltas : ℕ → ℝ
  etas : List Pump
  gammas : List Decay

/-- The complex frequencies calculated in the constructor (MultiLevel.h:356-360). -/
noncomputable def zSchs (p : Pars) : ℕ → ℂ :=
  p.gammas.foldl (fun res g => Function.update res g.second (res g.second + g.gamma)) fun i => p.deltas i * -Complex.I

/-- `HamiltonianSch::addContribution_v` (MultiLevel.h:163-171). -/
noncomputable def addContribution (p : Pars) (psi dpsidt : Vec) : Vec :=
  let dpsidt := (List.range p.nl).foldl (fun d ind => d.set ind (d ind + -(zSchs p ind) * psi ind)) dpsidt
  p.etas.foldl (fun d P =>
    let d := d.set P.first (d P.first + (starRingEnd ℂ) P.eta * psi P.second)
    d.set P.second (d P.second - P.eta * psi P.first)) dpsidt

/-- The virtuals of one decay (MultiLevel.h:233-252). -/
noncomputable def decay (g : Decay) : Lindblad where
  jump := fun psi =>
    let temp := Real.sqrt (2 * g.gamma) * psi g.second
    Vec.set (fun _ => 0) g.first temp
  rate := fun m => 2 * g.gamma * m.diag g.second
  super := some fun rho drhodt => drhodt.add g.first g.first (2 * g.gamma * rho g.second g.second)

/-- `LiouvilleanRadiative` (MultiLevel.h:197-254). -/
noncomputable def radiative (gs : List Decay) : Liouvillean :=
  elementLiouvillean (gs.map fun g => "Jump " ++ toString g.second ++ " -> " ++ toString g.first) (gs.map decay)

/-- `PumpedLossyMultiLevelSch<...,false>` (MultiLevel.h:333-384). -/
noncomputable def pumpedLossySch (p : Pars) : Element := ⟨p.nl, some fun _ psi dpsidt _ => addContribution p psi dpsidt, none, true, some (radiative p.gammas)⟩

/-- `PumpedLossyMultiLevelSch<...,true>` with `LiouvilleanDiffusive` (MultiLevel.h:258-271). -/
noncomputable def pumpedLossyDiffusiveSch (p : Pars) (gammasParallel : List ℝ) : Element :=
  ⟨p.nl, some fun _ psi dpsidt _ => addContribution p psi dpsidt, none, true, some (diffusive p.nl p.nl gammasParallel (radiative p.gammas))⟩

open Classical in
/-- `makePumpedLossySch` with scalar `gamma_parallel` (MultiLevel.h:392-412); the scalar constructor of the diffusive Liouvillean fills the list (ElementLiouvillean.h:340). -/
noncomputable def make (p : Pars) (gammaParallel : ℝ) : Element :=
  if gammaParallel ≠ 0 then pumpedLossyDiffusiveSch p (List.replicate p.nl gammaParallel) else pumpedLossySch p

open Classical in
/-- `makePumpedLossySch` with a vector of `gamma_parallel` (MultiLevel.h:398-404); its size is always that of the levels (`RealPerLevel`), so that the exception for the wrong size (366-368) cannot be thrown here. -/
noncomputable def makeVector (p : Pars) (gammasParallel : List ℝ) : Element :=
  if gammasParallel.any (fun g => decide (g ≠ 0)) then pumpedLossyDiffusiveSch p gammasParallel else pumpedLossySch p

open Classical in
/-- The overload with `ParsPumpedLossy` (MultiLevel.h:415-421): the vector has precedence over the scalar. -/
noncomputable def makePars (p : Pars) (gammaParallel : ℝ) (gammasParallel : List ℝ) : Element :=
  if gammasParallel.any (fun g => decide (g ≠ 0)) then makeVector p gammasParallel else make p gammaParallel

/-- `Exact<NL>` (MultiLevel.h:76-97): the diagonal. -/
noncomputable def exactDiagonal (zIs : ℕ → ℂ) (dtdid : ℝ) : ℕ → ℂ := fun i => Complex.exp (-zIs i * dtdid)

open Classical in
/-- `Exact<NL>::applicableInMaster_v` (MultiLevel.h:91-93). -/
noncomputable def exactApplicable (nl : ℕ) (zIs : ℕ → ℂ) : Bool := !((List.range nl).foldl (fun init i => init || decide ((zIs i).re ≠ 0)) false)

/-! ## Elements with matrix Hamiltonian -/

/-- `TimeIndependentMatrixHamiltonian` (TimeIndependentMatrixHamiltonian.cc:5-17); a non-square matrix throws. -/
noncomputable def matrixHamiltonian (rows cols : ℕ) (m : CMat.Mat) : Outcome Element :=
  if rows ≠ cols then .throw else .ok ⟨rows, some fun _ psi dpsidt _ => CMat.apply rows psi dpsidt m, none, true, none⟩

/-- `PumpedTwoLevelAtomSch::hamiltonianOverI` (PumpedTwoLevelAtom.cc:43-50). -/
noncomputable def ptlaHamiltonianOverI (za eta : ℂ) : CMat.Mat := fun i j =>
  if i = 0 then (if j = 0 then 0 else (starRingEnd ℂ) eta) else (if j = 0 then -eta else za)

/-- `PumpedTwoLevelAtom` (PumpedTwoLevelAtom.cc:12-33): the Liouvillean. -/
noncomputable def ptlaLiouvillean (za : ℂ) : Liouvillean :=
  elementLiouvillean ["atomic decay"] [{
    jump := fun psi =>
      let psi := psi.set 0 (Real.sqrt (-2 * za.re) * psi 1)
      psi.set 1 0
    rate := fun m => -2 * za.re * m.diag 1
    super := none }]

/-- `PumpedTwoLevelAtomSch` (PumpedTwoLevelAtom.cc:36-40, PumpedTwoLevelAtom.h:48-61). -/
noncomputable def ptla (gamma delta : ℝ) (eta : ℂ) : Element :=
  let za : ℂ := ⟨-gamma, delta⟩
  ⟨2, some fun _ psi dpsidt _ => CMat.apply 2 psi dpsidt (ptlaHamiltonianOverI za eta), none, true, some (ptlaLiouvillean za)⟩

end CppQED.MultiEl
