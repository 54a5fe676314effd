import Verif.Model.Interactions
import Verif.Model.MultiLevel

/-!
# Model of the systems put together by the scripts of particles in cavities

Sources: `/repo/CPPQEDscripts/1particle1mode.cc`, `Ring.cc`, `Ring_Evolved.cc`, `2particles1mode.cc`, `SingleParticle.cc`, `PTLA_C++QED.cc`, `/repo/CPPQEDelements/interactions/ParticleCavity_.h`, `ParticleTwoModes_.h`, `IdenticalParticles.h`.
The parsing of the command line is that of `Verif.Model.Pars`, here the values of the parameters are the arguments.
-/

namespace CppQED.ScriptSys
open CppQED.Tridiag CppQED.Interactions CppQED.ModeEl
open CppQED.Elem (Element)
open ComplexConjugate

/-- `particlecavity::ParsAlong` (ParsParticleCavity.h): `Unot`, `kCav`, `modeCav`. -/
structure ParsAlong where
  uNot : ℝ
  kCav : ℕ
  modeCav : ParticleEl.MFT

/-- `ModeFunction(p.modeCav,p.kCav)` (ParticleCavity.cc:94, ParticleTwoModes_.h:20). -/
def ParsAlong.mf (p : ParsAlong) : ParticleEl.ModeFunction := ⟨p.modeCav, p.kCav⟩

/-- The shift of the detuning in the scripts (1particle1mode.cc:35, Ring.cc:22-23): `delta-=uNot/(isComplex(modeCav) ? 1. : 2.)`. -/
noncomputable def shifted (pm : ModeEl.Pars) (pc : ParsAlong) : ModeEl.Pars := { pm with delta := pm.delta - pc.uNot / (if ParticleEl.isComplex pc.modeCav then 1 else 2) }

/-- What the operators of the particle need to know of the particle made in the given picture. -/
def part (pp : ParticleEl.Pars) (qmp : Picture) : ParticleEl.Part := ⟨pp.fin, pp.omrec, decide (qmp ≠ .sch)⟩

/-- The public constructor of `ParticleAlongCavity` from `ParsAlong` and `vClass` (ParticleCavity_.h:62-64, ParticleCavity.cc:87-88). With a `PtrPumped`, too, it is this one which is called if there is a fourth
argument; the pumped particle is converted to `particle::Ptr`. -/
noncomputable def along (axes : List ℕ) (mode : ModePtr) (p : ParticleEl.Part) (pc : ParsAlong) (vClass : ℝ) : Outcome Composite.Part :=
  withEta (etaEff pc.uNot vClass) fun etaeff => particleAlongCavity axes mode p pc.uNot pc.mf etaeff

/-- The public constructor from `PtrPumped` and `ParsAlong` (ParticleCavity_.h:73-74, ParticleCavity.cc:90-91). -/
noncomputable def alongPumped (axes : List ℕ) (mode : ModePtr) (p : ParticleEl.Part) (mfPart : ParticleEl.ModeFunction) (vClass : ℝ) (pc : ParsAlong) : Outcome Composite.Part :=
  withEta (etaEff pc.uNot vClass) fun etaeff => particleAlongCavityPumped axes mode p pc.uNot pc.mf mfPart etaeff

/-- What `main` does: return 1 with a message, or have a system evolved. -/
inductive Main (α : Type) where
  | exit1
  | evolve (system : α)

open Classical in
/-- `1particle1mode.cc:35-73, 89`: the system which is evolved. `conf` is the configuration code, `sig` the width of the initial wave packet; the mode, the particle and the pumped particle are made in all the configurations. -/
noncomputable def oneParticleOneMode (conf : ℤ) (pm : ModeEl.Pars) (pp : ParticleEl.Pars) (pc : ParsAlong) (sig : ℝ) (qmp : Picture) : Outcome (Main Composite.Bin) :=
  let pm := if conf ≠ 1 then shifted pm pc else pm
  (makePumpedLossy pm qmp).bind fun mode => (ParticleEl.make pp qmp).bind fun particle => (ParticleEl.makePumped pp qmp).bind fun pumpedparticle =>
    let mfPart : ParticleEl.ModeFunction := ⟨pp.modePart, pp.kPart⟩
    if conf = 1 then
      (particleOrthogonalToCavity [0, 1] (modePtr pm qmp) (part pp qmp) mfPart pp.vClass pc.uNot).bind fun ia => .ok (.evolve (binary mode pumpedparticle ia))
    else if conf = 2 then
      if pm.eta = 0 ∧ pp.vClass = 0 then .ok .exit1
      else if sig = 0 then .ok .exit1
      else (along [0, 1] (modePtr pm qmp) (part pp qmp) pc pp.vClass).bind fun ia => .ok (.evolve (binary mode particle ia))
    else if conf = 3 then
      (alongPumped [0, 1] (modePtr pm qmp) (part pp qmp) mfPart pp.vClass pc).bind fun ia => .ok (.evolve (binary mode pumpedparticle ia))
    else if conf = 4 then
      (along [0, 1] (modePtr pm qmp) (part pp qmp) pc 0).bind fun ia => .ok (.evolve (binary mode pumpedparticle ia))
    else .ok .exit1

/-- `Ring.cc:22-35`: the system which is evolved, the particle being the first, the two modes the second and third of its constituents. -/
noncomputable def ring (pp : ParticleEl.Pars) (pmP pmM : ModeEl.Pars) (pcP pcM : ParsAlong) (qmp : Picture) : Outcome Composite.Comp :=
  let pmP := shifted pmP pcP
  let pmM := shifted pmM pcM
  (ParticleEl.make pp qmp).bind fun particle => (makePumpedLossy pmP qmp).bind fun plus => (makePumpedLossy pmM qmp).bind fun minus =>
    (along [1, 0] (modePtr pmP qmp) (part pp qmp) pcP 0).bind fun iaP => (along [2, 0] (modePtr pmM qmp) (part pp qmp) pcM 0).bind fun iaM =>
      (particleTwoModes [1, 2, 0] (modePtr pmP qmp) (modePtr pmM qmp) (part pp qmp) pcP.uNot pcM.uNot pcP.mf pcM.mf 0).bind fun ia =>
        .ok (composite [particle, plus, minus] [iaP, iaM, ia])

/-- The right-hand side integrated by `Ring_Evolved.cc:34-45`; `b` is the array `{alphaP,alphaM}`, `x0` the position of the particle in units of `π`. `none`: the square root of a negative number, the
right-hand side is not a number. -/
noncomputable def ringEvolved (pmP pmM : ModeEl.Pars) (pcP pcM : ParsAlong) (x0 : ℝ) : Option ((Fin 2 → ℂ) → Fin 2 → ℂ) := open Classical in
  if pcP.uNot * pcM.uNot < 0 then none
  else some fun b =>
    let x := Real.pi * x0
    let z1 : ℂ := Complex.I * (pmP.delta - pcP.uNot * Complex.normSq (ParticleEl.modeFunction pcP.modeCav x) : ℝ) - pmP.kappa
    let z2 : ℂ := Complex.I * (pmM.delta - pcM.uNot * Complex.normSq (ParticleEl.modeFunction pcM.modeCav x) : ℝ) - pmM.kappa
    let g : ℂ := sign pcP.uNot * Real.sqrt (pcP.uNot * pcM.uNot) * conj (ParticleEl.modeFunction pcP.modeCav x) * ParticleEl.modeFunction pcM.modeCav x
    ![z1 * b 0 + pmP.eta - Complex.I * g * b 1, z2 * b 1 + pmM.eta - Complex.I * conj g * b 0]

/-- `IdenticalParticles<2>` (IdenticalParticles.h:12-24): an interaction which does nothing. -/
def identicalParticles (axes : List ℕ) : Composite.Part := interaction axes none

/-- `2particles1mode.cc:19-28`, `tutorialCompositeMultiparticle.cc:19-30`: a mode and two particles, which are one instance, and so is their interaction with the mode. `PumpedLossyMode<>` and `LossyMode<>`,
`PumpedParticle` are what is made in the interaction picture, so that this is the first script if the mode is pumped and the second one if it is not, in both cases for a lossy mode at zero temperature
(`κ≠0`, `nTh=0`; the classes are without temperature). -/
noncomputable def twoParticlesOneMode (pm : ModeEl.Pars) (pp : ParticleEl.Pars) (uNot : ℝ) : Outcome Composite.Comp :=
  (makePumpedLossy pm .ip).bind fun mode => (ParticleEl.makePumped pp .ip).bind fun part =>
    (particleOrthogonalToCavity [0, 1] (modePtr pm .ip) (ScriptSys.part pp .ip) ⟨pp.modePart, pp.kPart⟩ pp.vClass uNot).bind fun act =>
      .ok (composite [mode, part, part] [{ act with axes := [0, 1] }, { act with axes := [0, 2] }, identicalParticles [1, 2]])

open Classical in
/-- `SingleParticle.cc:24-28`: the particle is made by `make` (Particle.cc:454-457), which takes `const Pars&`; there is no overload for `ParsPumped`. `none`: `abort()`. -/
noncomputable def singleParticle (pp : ParticleEl.Pars) (sig : ℝ) (qmp : Picture) : Outcome (Option Element) :=
  (ParticleEl.make pp qmp).bind fun part => if sig = 0 ∧ pp.vClass = 0 then .ok none else .ok (some part)

/-- `PTLA_C++QED.cc:27-30`: the overload of `make` for `ParsPumpedLossyPhaseNoise`, or `PumpedTwoLevelAtomSch`, which takes `const ParsPumpedLossy&`. -/
noncomputable def ptlaScript (fullImpl : Bool) (p : QbitEl.Pars) (qmp : Picture) : Outcome Element :=
  if fullImpl then QbitEl.makePhaseNoise p qmp else .ok (MultiEl.ptla p.gamma p.delta p.eta)

end CppQED.ScriptSys
