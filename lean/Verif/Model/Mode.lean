import Verif.Model.Element

/-!
# Model of the mode element

Sources: `/repo/CPPQEDelements/frees/Mode.cc`, `Mode_.h`, `Mode.tcc`.
-/

namespace CppQED.ModeEl
open CppQED.Elem CppQED.Tridiag
open ComplexConjugate

/-! ## Operators -/

/-- A one-dimensional array of size `n`. -/
def diag1 (n : ℕ) (f : ℕ → ℂ) : Diag := ⟨[n], fun i => f (i.getD 0 0)⟩

/-- `KERRDIAGONAL(d,o)` (Mode.cc:54). -/
noncomputable def kerrDiagonal (o : ℝ) : ℕ → ℂ := fun i => ((i : ℂ) - 1) * i * (o / Complex.I)

/-- `mainDiagonal` (Mode.cc:56-63), content of the array of size `dim`. -/
noncomputable def mainDiagonal (z : ℂ) (omegaKerr : ℝ) : ℕ → ℂ := fun i => i * z + kerrDiagonal omegaKerr i

/-- `Tridiagonal(Diagonal)`: only main diagonal (Tridiagonal.h:122-127 with default arguments). -/
def diagonalOperator (dim : ℕ) (f : ℕ → ℂ) : Outcome Tri := unary (diag1 dim f) 0 (Diag.empty 1) (Diag.empty 1) false

/-- `Tridiagonal()`: the constructor with default arguments only (Tridiagonal.h:122-127), no diagonals at all. -/
def emptyTri : Tri := ⟨1, [0], [0], 0, fun _ => Diag.empty 1, fun _ => Diag.empty 1⟩

/-- `aop(size_t)` (Mode.cc:277-282). -/
noncomputable def aop (dim : ℕ) : Outcome Tri := unary (Diag.empty 1) 1 (Diag.empty 1) (diag1 (dim - 1) fun i => (Real.sqrt (i + 1) : ℂ)) false

/-- `aop(Ptr)` (Mode.cc:288-294): `exact` is `(zI,omegaKerr)` for a mode derived from `mode::Exact`. -/
noncomputable def aopOf (dim : ℕ) (exact : Option (ℂ × ℝ)) : Outcome Tri :=
  (aop dim).bind fun a => .ok (match exact with | some (zI, omegaKerr) => furnishWithFreqs a (mainDiagonal zI omegaKerr) | none => a)

/-- `nop` (Mode.cc:298-301). -/
noncomputable def nop (dim : ℕ) : Outcome Tri := diagonalOperator dim (mainDiagonal 1 0)

/-- `pumping` (Mode.cc:66-69). -/
noncomputable def pumping (eta : ℂ) (dim : ℕ) : Outcome Tri := (aop dim).bind fun a => minusHC (scale eta (hermitianConjugate a))

open Classical in
/-- `hOverI` (Mode.cc:75-86). -/
noncomputable def hOverI (z eta : ℂ) (omegaKerr : ℝ) (dim : ℕ) : Outcome Tri :=
  if z ≠ 0 then
    (diagonalOperator dim (mainDiagonal (-z) omegaKerr)).bind fun res =>
      if eta ≠ 0 then (pumping eta dim).bind fun p => add res p else .ok res
  else if eta ≠ 0 then pumping eta dim
  else .ok emptyTri

/-- `Hamiltonian<true>::Hamiltonian` (Mode.cc:95-100) with `FILLKERR` (92). -/
noncomputable def hamiltonianIP (zSch zI eta : ℂ) (omegaKerr omegaKerrAlter : ℝ) (dim : ℕ) : Outcome TriHam :=
  (hOverI zSch eta omegaKerr dim).bind fun h => (diagonalOperator dim (kerrDiagonal omegaKerrAlter)).bind fun k =>
    .ok ⟨true, [furnishWithFreqs h (mainDiagonal zI omegaKerr), k]⟩

/-- `Hamiltonian<false>::Hamiltonian` (Mode.cc:102-107). -/
noncomputable def hamiltonianSch (zSch eta : ℂ) (omegaKerr omegaKerrAlter : ℝ) (dim : ℕ) : Outcome TriHam :=
  (hOverI zSch eta omegaKerr dim).bind fun h => (diagonalOperator dim (kerrDiagonal omegaKerrAlter)).bind fun k => .ok ⟨false, [h, k]⟩

/-- `Exact::updateU` (Mode.cc:42-45); `omegaKerr_` plays no role. -/
noncomputable def exactDiagonal (zI : ℂ) (t : ℝ) (n : ℕ) : ℂ := Complex.exp (-zI * (t * n))

/-! ## Jumps -/

/-- `aJump` (Mode.cc:118-125) on an array of size `d ≥ 1`. -/
noncomputable def aJump (kappa : ℝ) (d : ℕ) (psi : Vec) : Vec :=
  let fact := Real.sqrt (2 * kappa)
  ((List.range (d - 1)).foldl (fun psi n => psi.set n (fact * Real.sqrt (n + 1) * psi (n + 1))) psi).set (d - 1) 0

/-- `aDagJump` (Mode.cc:127-133): the loop runs downwards from `ubound` to 1. -/
noncomputable def aDagJump (kappa : ℝ) (d : ℕ) (psi : Vec) : Vec :=
  let fact := Real.sqrt (2 * kappa)
  ((List.range' 1 (d - 1)).reverse.foldl (fun psi n => psi.set n (fact * Real.sqrt n * psi (n - 1))) psi).set 0 0

/-- `aSuperoperator` (Mode.cc:135-140). -/
noncomputable def aSuperoperator (kappa : ℝ) (d : ℕ) (rho drhodt : Dens) : Dens :=
  (List.range (d - 1)).foldl (fun drhodt m => (List.range (d - 1)).foldl (fun drhodt n =>
    drhodt.add m n (2 * kappa * Real.sqrt ((m + 1) * (n + 1)) * rho (m + 1) (n + 1))) drhodt) drhodt

/-- `aDagSuperoperator` (Mode.cc:142-147). -/
noncomputable def aDagSuperoperator (kappa : ℝ) (d : ℕ) (rho drhodt : Dens) : Dens :=
  (List.range' 1 (d - 1)).foldl (fun drhodt m => (List.range' 1 (d - 1)).foldl (fun drhodt n =>
    drhodt.add m n (2 * kappa * Real.sqrt (m * n) * rho (m - 1) (n - 1))) drhodt) drhodt

/-- `photonNumber(const LazyDensityOperator&)` (Mode.cc:312-318). -/
def photonNumber (m : LDO) : ℝ := (List.range' 1 (m.dim - 1)).foldl (fun res n => res + n * m.diag n) 0

/-- `photonNumber(const StateVectorLow&)` (Mode.cc:305-309) for an array of size `d`. -/
def photonNumberSV (d : ℕ) (psi : Vec) : ℝ := ((List.range d).map fun (i : ℕ) => (i : ℝ) * Complex.normSq (psi i)).sum

/-- `Liouvillean<false,IS_ALTERNATIVE>` (Mode_.h:169-190). -/
noncomputable def liouvilleanZeroT (alternative : Bool) (kappa : ℝ) (d : ℕ) : Liouvillean :=
  elementLiouvillean ["excitation loss"]
    [⟨aJump kappa d, fun m => if alternative then -1 else 2 * kappa * photonNumber m, some (aSuperoperator kappa d)⟩]

/-- `Liouvillean<true,IS_ALTERNATIVE>` (Mode_.h:193-241). -/
noncomputable def liouvilleanFiniteT (alternative : Bool) (kappa nTh : ℝ) (d : ℕ) : Liouvillean :=
  elementLiouvillean ["excitation loss", "excitation absorption"]
    [⟨aJump (kappa * (nTh + 1)) d, fun m => if alternative then -1 else 2 * kappa * (nTh + 1) * photonNumber m, some (aSuperoperator (kappa * (nTh + 1)) d)⟩,
     ⟨aDagJump (kappa * nTh) d, fun m => if alternative then -1 else 2 * kappa * nTh * (photonNumber m + m.trace), some (aDagSuperoperator (kappa * nTh) d)⟩]

/-! ## The classes and the maker functions -/

/-- `mode::Pars`, `ParsLossy`, `ParsPumped`, `ParsPumpedLossy` (ParsMode.h:12-45), the fields relevant here. -/
structure Pars where
  cutoff : ℕ
  delta : ℝ
  omegaKerr : ℝ
  omegaKerrAlter : ℝ
  kappa : ℝ
  nTh : ℝ
  eta : ℂ

/-- `QM_Picture` (QM_Picture.h:11-15). -/
inductive Picture where
  | ip
  | uip
  | sch
deriving DecidableEq

/-- `finiteTemperatureHamiltonianDecay` (Mode_.h:88-93). -/
def finiteTemperatureHamiltonianDecay (temperature : Bool) (p : Pars) : ℝ := if temperature then p.kappa * (2 * p.nTh + 1) else p.kappa

/-- `mode::Liouvillean<TEMPERATURE>(p.kappa,p.nTh)`. -/
noncomputable def liouvillean (temperature : Bool) (p : Pars) : Liouvillean :=
  if temperature then liouvilleanFiniteT false p.kappa p.nTh p.cutoff else liouvilleanZeroT false p.kappa p.cutoff

open Classical in
/-- A class derived from `mode::Exact(zI,...)`, not from `Hamiltonian`. -/
noncomputable def elementExact (p : Pars) (zI : ℂ) (li : Option Liouvillean) : Outcome Element :=
  .ok ⟨p.cutoff, none, some (exactDiagonal zI), decide (zI.re = 0), li⟩

open Classical in
/-- A class derived from `mode::Hamiltonian<true>(zSch,zI,eta,...)`. -/
noncomputable def elementIP (p : Pars) (zSch zI eta : ℂ) (li : Option Liouvillean) : Outcome Element :=
  (hamiltonianIP zSch zI eta p.omegaKerr p.omegaKerrAlter p.cutoff).bind fun H => .ok ⟨p.cutoff, some H.addContribution, some (exactDiagonal zI), decide (zI.re = 0), li⟩

/-- A class derived from `mode::Hamiltonian<false>(zSch,eta,...)`. -/
noncomputable def elementSch (p : Pars) (zSch eta : ℂ) (li : Option Liouvillean) : Outcome Element :=
  (hamiltonianSch zSch eta p.omegaKerr p.omegaKerrAlter p.cutoff).bind fun H => .ok ⟨p.cutoff, some H.addContribution, none, true, li⟩

/-- `make(const Pars&,QM_Picture)` (Mode.tcc:22-26): `Mode` (96-101), `ModeUIP` is the same (Mode_.h:351-356), `ModeSch` (104-111). -/
noncomputable def makeFree (p : Pars) : Picture → Outcome Element
  | .ip | .uip => elementExact p ⟨0, -p.delta⟩ none
  | .sch => elementSch p ⟨0, -p.delta⟩ 0 none

/-- `LossyMode<TEMPERATURE>` (Mode.tcc:134-142), `LossyModeUIP` (145-153), `LossyModeSch` (156-164). -/
noncomputable def lossyMode (temperature : Bool) (p : Pars) : Picture → Outcome Element
  | .ip => elementExact p ⟨finiteTemperatureHamiltonianDecay temperature p, -p.delta⟩ (some (liouvillean temperature p))
  | .uip => elementIP p ⟨finiteTemperatureHamiltonianDecay temperature p, 0⟩ ⟨0, -p.delta⟩ 0 (some (liouvillean temperature p))
  | .sch => elementSch p ⟨finiteTemperatureHamiltonianDecay temperature p, -p.delta⟩ 0 (some (liouvillean temperature p))

open Classical in
/-- `make(const ParsLossy&,QM_Picture)` (Mode.tcc:29-37). -/
noncomputable def makeLossy (p : Pars) (qmp : Picture) : Outcome Element :=
  if p.kappa = 0 then makeFree p qmp else lossyMode (decide (p.nTh ≠ 0)) p qmp

/-- `PumpedMode` (Mode.tcc:114-121), `PumpedModeUIP` is the same (Mode_.h:392-397), `PumpedModeSch` (124-131). -/
noncomputable def pumpedMode (p : Pars) : Picture → Outcome Element
  | .ip | .uip => elementIP p 0 ⟨0, -p.delta⟩ p.eta none
  | .sch => elementSch p ⟨0, -p.delta⟩ p.eta none

open Classical in
/-- `make(const ParsPumped&,QM_Picture)` (Mode.tcc:40-45). -/
noncomputable def makePumped (p : Pars) (qmp : Picture) : Outcome Element :=
  if p.eta = 0 then makeFree p qmp else pumpedMode p qmp

/-- `PumpedLossyMode<TEMPERATURE>` (Mode.tcc:167-175), `PumpedLossyModeUIP` (178-186), `PumpedLossyModeSch` (189-197). -/
noncomputable def pumpedLossyMode (temperature : Bool) (p : Pars) : Picture → Outcome Element
  | .ip => elementIP p 0 ⟨finiteTemperatureHamiltonianDecay temperature p, -p.delta⟩ p.eta (some (liouvillean temperature p))
  | .uip => elementIP p ⟨finiteTemperatureHamiltonianDecay temperature p, 0⟩ ⟨0, -p.delta⟩ p.eta (some (liouvillean temperature p))
  | .sch => elementSch p ⟨finiteTemperatureHamiltonianDecay temperature p, -p.delta⟩ p.eta (some (liouvillean temperature p))

open Classical in
/-- `make(const ParsPumpedLossy&,QM_Picture)` (Mode.tcc:48-57). -/
noncomputable def makePumpedLossy (p : Pars) (qmp : Picture) : Outcome Element :=
  if p.kappa = 0 then makePumped p qmp
  else if p.eta = 0 then makeLossy p qmp
  else pumpedLossyMode (decide (p.nTh ≠ 0)) p qmp

/-! ## Averages -/

/-- `Averages`: an array of doubles. -/
abbrev Averages := ℕ → ℝ

/-- `averages(k)+=x`. -/
def Averages.add (a : Averages) (k : ℕ) (x : ℝ) : Averages := Function.update a k (a k + x)

/-- `averages(k)=x`. -/
def Averages.set (a : Averages) (k : ℕ) (x : ℝ) : Averages := Function.update a k x

/-- `Averaged::average_v` (Mode.cc:177-195). -/
noncomputable def average (m : LDO) : Averages :=
  (List.range' 1 (m.dim - 1)).foldl (fun a n =>
    let diag := m.diag n
    let a := a.add 0 (n * diag)
    let a := a.add 1 (n * n * diag)
    let offdiag := Real.sqrt n * m.index n (n - 1)
    let a := a.add 2 offdiag.re
    a.add 3 offdiag.im) fun _ => 0

/-- `Averaged::process_v` (Mode.cc:198-201). -/
def process (a : Averages) : Averages := a.set 1 (a 1 - a 0 ^ 2)

/-- `AveragedQuadratures::average_v` (Mode.cc:211-227). -/
noncomputable def averageQ (m : LDO) : Averages :=
  let base := average m
  let a : Averages := fun k => if k < 4 then base k else 0
  (List.range' 2 (m.dim - 2)).foldl (fun a (n : ℕ) =>
    let offdiag := Real.sqrt ((n : ℝ) * (n - 1)) * m.index n (n - 2)
    let a := a.add 4 offdiag.re
    a.add 5 offdiag.im) a

/-- `AveragedQuadratures::process_v` (Mode.cc:230-249). -/
noncomputable def processQ (a : Averages) : Averages :=
  let averages := process a
  let Re_aSqrExpVal := averages 4
  let Re_aExpVal := averages 2
  let Im_aExpVal := averages 3
  let a := averages 0 + 1 / 2 + Re_aSqrExpVal - 2 * Re_aExpVal ^ 2
  let b := averages 0 + 1 / 2 - Re_aSqrExpVal - 2 * Im_aExpVal ^ 2
  let c := averages 5 - 2 * Re_aExpVal * Im_aExpVal
  ((averages.set 4 a).set 5 b).set 6 c

/-- `AveragedMonitorCutoff<Base>::average_v` (Mode_.h:286-291): `size` is the number of averages, including the last one. -/
def averageMonitorCutoff (base : LDO → Averages) (size : ℕ) (m : LDO) : Averages := (base m).set (size - 1) (m.diag (m.dim - 1))

end CppQED.ModeEl
