import Verif.Model.ScriptSystems
import Verif.Model.Correlations

/-!
# Model of further scripts of particles in cavities

Sources: `/repo/CustomScriptsExample/2ParticlesRingCavitySine.cc`, `/repo/CustomElementsExample/interactions/MomentumCorrelation.cc`, `/repo/CPPQEDscripts/tutorialCompositeRing.cc`. As in `Verif.Model.ScriptSystems`, the values of
the parameters after the parsing of the command line are the arguments.
-/

namespace CppQED.ScriptSys
open CppQED.Tridiag CppQED.Interactions CppQED.ModeEl

/-- `MomentumCorrelation` as part of a composite (MomentumCorrelation.cc:7-10): an interaction without Hamiltonian, it only has averages (`momentumCorrelation`). -/
def momentumCorrelationPart (axes : List ℕ) : Composite.Part := interaction axes none

/-- `MomentumCorrelation::average_v` (MomentumCorrelation.cc:12-24), the only average; `matrix(n,m)` is the diagonal element, a real number (LazyDensityOperator.h). `process_v` does nothing
(MomentumCorrelation.h:20). -/
noncomputable def momentumCorrelation (m : Corr.LDO2) : ℝ :=
  (List.range m.dim0).foldl (fun (average : ℝ) (n : ℕ) => (List.range m.dim1).foldl (fun (average : ℝ) (k : ℕ) =>
    average + (-((m.dim0 : ℝ) / 2) + n) * (-((m.dim1 : ℝ) / 2) + k) * (m.index n k n k).re) average) 0

/-- The parameters as `2ParticlesRingCavitySine.cc:37-39` leave them: of the mode, … -/
noncomputable def sineMode (plm : ModeEl.Pars) (uNot : ℝ) : ModeEl.Pars := { plm with delta := plm.delta - uNot }

/-- … and of the particle: the depth of the potential follows from that of the light shift. -/
noncomputable def sinePart (ppp1 : ParticleEl.Pars) (uNot alphasquare : ℝ) : ParticleEl.Pars := { ppp1 with vClass := uNot * alphasquare }

/-- `2ParticlesRingCavitySine.cc:37-45, 61-62`: a lossy mode and two particles, which are one instance, as is their interaction with the mode. The mode function of the cavity is the cosine whatever the command line says
(37). The overload of the constructor of `ParticleAlongCavity` is that for pumped particles (ParticleCavity_.h:74). -/
noncomputable def sineSystem (plm : ModeEl.Pars) (ppp1 : ParticleEl.Pars) (uNot : ℝ) (kCav : ℕ) (alphasquare : ℝ) (qmp : Picture) : Outcome Composite.Comp :=
  let plm := sineMode plm uNot
  let ppp1 := sinePart ppp1 uNot alphasquare
  (ParticleEl.makePumped ppp1 qmp).bind fun myParticle => (makeLossy plm qmp).bind fun myMode =>
    (alongPumped [0, 1] (modePtr plm qmp) (part ppp1 qmp) ⟨ppp1.modePart, ppp1.kPart⟩ ppp1.vClass ⟨uNot, kCav, .cos⟩).bind fun particlecavity =>
      .ok (composite [myMode, myParticle, myParticle] [{ particlecavity with axes := [0, 1] }, { particlecavity with axes := [0, 2] }, momentumCorrelationPart [1, 2]])

/-- `stateParticles` before its normalisation (2ParticlesRingCavitySine.cc:48-57); `s1`, `s2`: the states of the two particles, of dimensions `d1`, `d2`. `undef`: the sum or difference of arrays of different shape. -/
def sineProducts (bosons fermions : Bool) (d1 d2 : ℕ) (s1 s2 : ℕ → ℂ) : Outcome (ℕ → ℕ → ℂ) :=
  if bosons then if d1 = d2 then .ok fun n m => s1 n * s2 m + s2 n * s1 m else .undef
  else if fermions then if d1 = d2 then .ok fun n m => s1 n * s2 m - s2 n * s1 m else .undef
  else .ok fun n m => s1 n * s2 m

open Classical in
/-- `2ParticlesRingCavitySine.cc:48-58`: with the normalisation (`renorm`, StateVector.h:148-153). `undef`: the division by the norm zero, the elements are not numbers. -/
noncomputable def sineState (bosons fermions : Bool) (d1 d2 : ℕ) (s1 s2 : ℕ → ℂ) : Outcome (ℕ → ℕ → ℂ) :=
  (sineProducts bosons fermions d1 d2 s1 s2).bind fun s =>
    let norm := Real.sqrt (∑ n ∈ Finset.range d1, ∑ m ∈ Finset.range d2, Complex.normSq (s n m))
    if norm = 0 then .undef else .ok fun n m => s n m / norm

/-- `tutorialCompositeRing.cc:22-33`: a particle, a lossy mode and a pumped lossy mode. Unlike in `Ring.cc`, the detunings of the modes are not shifted. -/
noncomputable def tutorialRing (pp : ParticleEl.Pars) (pmP pmM : ModeEl.Pars) (pcP pcM : ParsAlong) (qmp : Picture) : Outcome Composite.Comp :=
  (ParticleEl.make pp qmp).bind fun particle => (makeLossy pmP qmp).bind fun plus => (makePumpedLossy pmM qmp).bind fun minus =>
    (along [1, 0] (modePtr pmP qmp) (part pp qmp) pcP 0).bind fun iaP => (along [2, 0] (modePtr pmM qmp) (part pp qmp) pcM 0).bind fun iaM =>
      (particleTwoModes [1, 2, 0] (modePtr pmP qmp) (modePtr pmM qmp) (part pp qmp) pcP.uNot pcM.uNot pcP.mf pcM.mf 0).bind fun ia =>
        .ok (composite [particle, plus, minus] [iaP, iaM, ia])

end CppQED.ScriptSys
