import Verif.Model.Mode

/-!
# Model of the qbit element

Sources: `/repo/CPPQEDelements/frees/Qbit.cc`, `Qbit_.h`, `ParsQbit.h`. The qbit is a mode with dimension 2 and the opposite sign of the pump.
-/

namespace CppQED.QbitEl
open CppQED.Elem CppQED.Tridiag CppQED.ModeEl

/-- `qbit::Pars...` (ParsQbit.h:12-58), the fields relevant here. -/
structure Pars where
  delta : ℝ
  gamma : ℝ
  gammaParallel : ℝ
  eta : ℂ

/-- The parameters of the underlying mode: `mode::Exact(zI,0.,2)`, `mode::Hamiltonian(...,0,0,2)` (Qbit_.h:87-107). -/
def Pars.mode (p : Pars) : ModeEl.Pars := ⟨2, p.delta, 0, 0, p.gamma, 0, p.eta⟩

/-- `Averaged::average_v` (Qbit.cc:27-32). -/
def average (m : LDO) : Averages := fun k => match k with
  | 0 => m.diag 0
  | 1 => m.diag 1
  | 2 => (m.index 1 0).re
  | 3 => (m.index 1 0).im
  | _ => 0

/-- `sigmaJump` (Qbit.cc:38-42). -/
noncomputable def sigmaJump (gammaPerpendicular : ℝ) (psi : Vec) : Vec :=
  (psi.set 0 (Real.sqrt (2 * gammaPerpendicular) * psi 1)).set 1 0

/-- `sigma_zJump` (Qbit.cc:45-49). -/
noncomputable def sigmaZJump (gammaParallel : ℝ) (psi : Vec) : Vec :=
  let fact : ℂ := Real.sqrt (2 * gammaParallel)
  let psi := psi.set 0 (psi 0 * fact)
  psi.set 1 (psi 1 * -fact)

/-- `qbit::Liouvillean(gamma)` (Qbit_.h:111-116). -/
noncomputable def liouvillean (gamma : ℝ) : Liouvillean := liouvilleanZeroT false gamma 2

/-- `LiouvilleanPhaseNoise` (Qbit.cc:61-67), `dummyProba` is -1 (52-55). -/
noncomputable def liouvilleanPhaseNoise (gammaPerpendicular gammaParallel : ℝ) : Liouvillean :=
  elementLiouvilleanStrategies ["excitation loss", "phase noise"]
    [⟨sigmaJump gammaPerpendicular, fun _ => -1, none⟩, ⟨sigmaZJump gammaParallel, fun _ => -1, none⟩]

/-- `qbit::Exact` (Qbit_.h:87-92). -/
noncomputable def elementExact (p : Pars) (zI : ℂ) (li : Option Liouvillean) : Outcome Element := ModeEl.elementExact p.mode zI li

/-- `qbit::Hamiltonian<true>` (Qbit_.h:100-101). -/
noncomputable def elementIP (p : Pars) (zSch zI eta : ℂ) (li : Option Liouvillean) : Outcome Element := ModeEl.elementIP p.mode zSch zI (-eta) li

/-- `qbit::Hamiltonian<false>` (Qbit_.h:103-104). -/
noncomputable def elementSch (p : Pars) (zSch eta : ℂ) (li : Option Liouvillean) : Outcome Element := ModeEl.elementSch p.mode zSch (-eta) li

/-- `Qbit` (Qbit.cc:83-86), `QbitSch` (89-94). -/
noncomputable def qbit (p : Pars) : Outcome Element := elementExact p ⟨0, -p.delta⟩ none
@[inherit_doc qbit] noncomputable def qbitSch (p : Pars) : Outcome Element := elementSch p ⟨0, -p.delta⟩ 0 none

/-- `PumpedQbit` (Qbit.cc:97-102), `PumpedQbitSch` (105-110). -/
noncomputable def pumpedQbit (p : Pars) : Outcome Element := elementIP p 0 ⟨0, -p.delta⟩ p.eta none
@[inherit_doc pumpedQbit] noncomputable def pumpedQbitSch (p : Pars) : Outcome Element := elementSch p ⟨0, -p.delta⟩ p.eta none

/-- `LossyQbit` (Qbit.cc:113-119), `LossyQbitSch` (122-128), `LossyQbitUIP` (131-137). -/
noncomputable def lossyQbit (p : Pars) : Outcome Element := elementExact p ⟨p.gamma, -p.delta⟩ (some (liouvillean p.gamma))
@[inherit_doc lossyQbit] noncomputable def lossyQbitSch (p : Pars) : Outcome Element := elementSch p ⟨p.gamma, -p.delta⟩ 0 (some (liouvillean p.gamma))
@[inherit_doc lossyQbit] noncomputable def lossyQbitUIP (p : Pars) : Outcome Element := elementIP p ⟨p.gamma, 0⟩ ⟨0, -p.delta⟩ 0 (some (liouvillean p.gamma))

/-- `PumpedLossyQbit` (Qbit.cc:140-146), `PumpedLossyQbitUIP` (149-155), `PumpedLossyQbitSch` (158-164). -/
noncomputable def pumpedLossyQbit (p : Pars) : Outcome Element := elementIP p 0 ⟨p.gamma, -p.delta⟩ p.eta (some (liouvillean p.gamma))
@[inherit_doc pumpedLossyQbit] noncomputable def pumpedLossyQbitUIP (p : Pars) : Outcome Element := elementIP p ⟨p.gamma, 0⟩ ⟨0, -p.delta⟩ p.eta (some (liouvillean p.gamma))
@[inherit_doc pumpedLossyQbit] noncomputable def pumpedLossyQbitSch (p : Pars) : Outcome Element := elementSch p ⟨p.gamma, -p.delta⟩ p.eta (some (liouvillean p.gamma))

/-- `LossyQbitWithPhaseNoise` (Qbit.cc:167-173), `LossyQbitWithPhaseNoiseUIP` (176-182). -/
noncomputable def lossyQbitWithPhaseNoise (p : Pars) : Outcome Element := elementExact p ⟨p.gamma, -p.delta⟩ (some (liouvilleanPhaseNoise p.gamma p.gammaParallel))
@[inherit_doc lossyQbitWithPhaseNoise] noncomputable def lossyQbitWithPhaseNoiseUIP (p : Pars) : Outcome Element :=
  elementIP p ⟨p.gamma, 0⟩ ⟨0, -p.delta⟩ 0 (some (liouvilleanPhaseNoise p.gamma p.gammaParallel))

/-- `PumpedLossyQbitWithPhaseNoise` (Qbit.cc:184-190), `PumpedLossyQbitWithPhaseNoiseUIP` (192-198). -/
noncomputable def pumpedLossyQbitWithPhaseNoise (p : Pars) : Outcome Element := elementIP p 0 ⟨p.gamma, -p.delta⟩ p.eta (some (liouvilleanPhaseNoise p.gamma p.gammaParallel))
@[inherit_doc pumpedLossyQbitWithPhaseNoise] noncomputable def pumpedLossyQbitWithPhaseNoiseUIP (p : Pars) : Outcome Element :=
  elementIP p ⟨p.gamma, 0⟩ ⟨0, -p.delta⟩ p.eta (some (liouvilleanPhaseNoise p.gamma p.gammaParallel))

open Classical in
/-- `make(const ParsPumpedLossy&,QM_Picture)` (Qbit.cc:217-244). -/
noncomputable def make (p : Pars) : Picture → Outcome Element
  | .ip =>
    if p.gamma = 0 ∧ p.eta = 0 then qbit p
    else if p.gamma = 0 then pumpedQbit p
    else if p.eta = 0 then lossyQbit p
    else pumpedLossyQbit p
  | .uip =>
    if p.gamma = 0 ∧ p.eta = 0 then qbit p
    else if p.gamma = 0 then pumpedQbit p
    else if p.eta = 0 then lossyQbitUIP p
    else pumpedLossyQbitUIP p
  | .sch =>
    if p.gamma = 0 ∧ p.eta = 0 then qbitSch p
    else if p.gamma = 0 then pumpedQbitSch p
    else if p.eta = 0 then lossyQbitSch p
    else pumpedLossyQbitSch p

open Classical in
/-- `make(const ParsPumpedLossyPhaseNoise&,QM_Picture)` (Qbit.cc:247-264). -/
noncomputable def makePhaseNoise (p : Pars) (qmp : Picture) : Outcome Element :=
  if p.gammaParallel ≠ 0 then
    if qmp = .uip then (if p.eta ≠ 0 then pumpedLossyQbitWithPhaseNoiseUIP p else lossyQbitWithPhaseNoiseUIP p)
    else (if p.eta ≠ 0 then pumpedLossyQbitWithPhaseNoise p else lossyQbitWithPhaseNoise p)
  else make p qmp

/-- `init(dcomp)` (Qbit.cc:273-278). `std::sqrt` of a negative number is NaN, modelled here as zero. -/
noncomputable def init (psi1 : ℂ) : Vec := fun n => match n with
  | 0 => Real.sqrt (1 - Complex.normSq psi1)
  | 1 => psi1
  | _ => 0

end CppQED.QbitEl
