import Verif.Model.Mode

/-!
# Model of the further mode elements: homodyned, bichromatically pumped, with alternative jumping, and in interaction picture without exact part

Sources: `/repo/CPPQEDelements/frees/HomodynedMode.{h,cc}`, `BichromaticMode.h`, `Mode.tcc`, `Mode.cc`, `Mode_.h`.
-/

namespace CppQED.ModeEl
open CppQED.Elem CppQED.Tridiag
open ComplexConjugate

/-! ## Homodyned mode -/

/-- `HomodynedBase::doActWithJ(...,LindbladNo<0>)` (HomodynedMode.cc:14-21) on an array of size `d ≥ 1`. -/
noncomputable def homodynedLoss (alpha : ℂ) (kappa nTh : ℝ) (d : ℕ) (psi : Vec) : Vec :=
  let fact := Real.sqrt (2 * kappa * (nTh + 1))
  let psi := (List.range (d - 1)).foldl (fun psi n => psi.set n (alpha * psi n + fact * Real.sqrt (n + 1) * psi (n + 1))) psi
  psi.set (d - 1) (psi (d - 1) * alpha)

/-- `HomodynedBase::doActWithJ(...,LindbladNo<1>)` (HomodynedMode.cc:23-29): the loop runs downwards from `ubound` to 1. -/
noncomputable def homodynedAbsorption (alpha : ℂ) (kappa nTh : ℝ) (d : ℕ) (psi : Vec) : Vec :=
  let fact := Real.sqrt (2 * kappa * nTh)
  let psi := (List.range' 1 (d - 1)).reverse.foldl (fun psi n => psi.set n (conj alpha * psi n + fact * Real.sqrt n * psi (n - 1))) psi
  psi.set 0 (psi 0 * conj alpha)

/-- The Liouvillean of `HomodynedBase` (HomodynedMode.cc:8, HomodynedMode.h:38-42): no superoperators. -/
noncomputable def homodynedLiouvillean (alpha : ℂ) (kappa nTh : ℝ) (d : ℕ) : Liouvillean :=
  elementLiouvillean ["homodyned loss", "homodyned absorption"]
    [⟨homodynedLoss alpha kappa nTh d, fun _ => -1, none⟩, ⟨homodynedAbsorption alpha kappa nTh d, fun _ => -1, none⟩]

/-- The operator subtracted in the constructor of `HomodynedBase` (HomodynedMode.cc:11). -/
noncomputable def homodyneTerm (alpha : ℂ) (kappa nTh : ℝ) (d : ℕ) : Outcome Tri :=
  (aop d).bind fun a => (plusHC (scale (conj alpha) a)).bind fun X => .ok (scale (Real.sqrt (kappa / 2) * (Real.sqrt nTh + Real.sqrt (nTh + 1)) : ℝ) X)

/-- `HomodynedMode(const ParsHomodyned<ParsPumpedLossy>&)` (HomodynedMode.h:57-63, HomodynedMode.cc:4-12). With `ParsLossy`, `eta` is zero. -/
noncomputable def homodynedMode (p : Pars) (alpha : ℂ) : Outcome Element :=
  (hamiltonianSch ⟨finiteTemperatureHamiltonianDecay true p, -p.delta⟩ p.eta p.omegaKerr p.omegaKerrAlter p.cutoff).bind fun H =>
    match H.hOverIs with
    | front :: rest => (homodyneTerm alpha p.kappa p.nTh p.cutoff).bind fun X => (sub front X).bind fun front =>
        .ok ⟨p.cutoff, some (TriHam.mk H.isTimeDependent (front :: rest)).addContribution, none, true, some (homodynedLiouvillean alpha p.kappa p.nTh p.cutoff)⟩
    | [] => .undef

open Classical in
/-- `make(const ParsHomodyned<ParsPumpedLossy>&)` (HomodynedMode.h:72-77). -/
noncomputable def makeHomodyned (p : Pars) (alpha : ℂ) : Outcome Element :=
  if alpha = 0 then makePumpedLossy p .sch else homodynedMode p alpha

/-! ## Bichromatic pumping -/

/-- `mode::ParsBichromatic` (BichromaticMode.h:11-17). -/
structure ParsBichromatic extends Pars where
  deltaOther : ℝ
  etaOther : ℂ

open Classical in
/-- `BichromaticMode<TEMPERATURE>` (BichromaticMode.h:28-42). -/
noncomputable def bichromaticMode (temperature : Bool) (p : ParsBichromatic) : Outcome Element :=
  let zI : ℂ := ⟨finiteTemperatureHamiltonianDecay temperature p.toPars, -p.delta⟩
  let zI_Other : ℂ := ⟨finiteTemperatureHamiltonianDecay temperature p.toPars, -p.deltaOther⟩
  (hamiltonianIP 0 zI p.eta p.omegaKerr p.omegaKerrAlter p.cutoff).bind fun H => (pumping p.etaOther p.cutoff).bind fun other =>
    .ok ⟨p.cutoff, some (TriHam.mk H.isTimeDependent (H.hOverIs ++ [furnishWithFreqs other (mainDiagonal zI_Other 0)])).addContribution, some (exactDiagonal zI), decide (zI.re = 0),
      some (liouvillean temperature p.toPars)⟩

open Classical in
/-- `make(const ParsBichromatic&,QM_Picture)` (BichromaticMode.h:53-61). -/
noncomputable def makeBichromatic (p : ParsBichromatic) (qmp : Picture) : Outcome Element :=
  if p.etaOther = 0 then makePumpedLossy p.toPars qmp else bichromaticMode (decide (p.nTh ≠ 0)) p

/-! ## Alternative jumping -/

/-- `PumpedLossyModeAlternative<TEMPERATURE>` (Mode.tcc:203-211). -/
noncomputable def pumpedLossyModeAlternative (temperature : Bool) (p : Pars) : Outcome Element :=
  elementIP p 0 ⟨p.kappa, -p.delta⟩ p.eta
    (some (if temperature then liouvilleanFiniteT true p.kappa p.nTh p.cutoff else liouvilleanZeroT true p.kappa p.cutoff))

/-! ## Interaction picture without exact part -/

/-- `PumpedLossyModeIP_NoExact` (Mode.cc:355-401): Hamiltonian part, jump, rate and averages; the latter three receive the time. -/
structure NoExact where
  addContribution : ℝ → Vec → Vec → ℝ → Vec
  doActWithJ : ℝ → Vec → Vec
  rate : ℝ → LDO → ℝ
  average : ℝ → LDO → Averages

/-- `doActWithJ(OneTime,...)` (Mode.cc:374-381). -/
noncomputable def noExactJump (z : ℂ) (d : ℕ) (t : ℝ) (psi : Vec) : Vec :=
  let fact := Real.sqrt (2 * z.re) * Complex.exp (-z * t)
  ((List.range (d - 1)).foldl (fun psi n => psi.set n (fact * Real.sqrt (n + 1) * psi (n + 1))) psi).set (d - 1) 0

/-- `average_v(OneTime,...)` (Mode.cc:385-401). -/
noncomputable def noExactAverage (z : ℂ) (t : ℝ) (m : LDO) : Averages :=
  (List.range' 1 (m.dim - 1)).foldl (fun a (n : ℕ) =>
    let a := a.add 0 (n * Real.exp (-2 * z.re * n * t) * m.diag n)
    let offdiag := Real.sqrt n * m.index n (n - 1) * Complex.exp (-(z + 2 * ((n : ℂ) - 1) * z.re) * t)
    let a := a.add 1 offdiag.re
    a.add 2 offdiag.im) fun _ => 0

/-- The constructor (Mode.cc:355-363). -/
noncomputable def noExact (p : Pars) : Outcome NoExact :=
  (pumping p.eta p.cutoff).bind fun P => .ok
    { addContribution := (TriHam.mk true [furnishWithFreqs P (mainDiagonal ⟨p.kappa, -p.delta⟩ p.omegaKerr)]).addContribution
      doActWithJ := noExactJump ⟨p.kappa, -p.delta⟩ p.cutoff
      rate := fun _ m => photonNumber m
      average := noExactAverage ⟨p.kappa, -p.delta⟩ }

end CppQED.ModeEl
