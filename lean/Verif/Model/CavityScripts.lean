import Verif.Model.Interactions
import Verif.Model.MultiLevel
import Verif.Model.ModeVariants

/-!
# Model of the systems put together by the scripts of atoms and cavities

Sources: `/repo/CPPQEDscripts/QbitMode_C++QED.cc`, `tutorialBinary.cc`, `Optomechanics.cc`, `Raman.cc`, `CavityRaman.cc`, `FourModes.cc`, `PumpedLossyQbit.cc`,
`/repo/CustomScriptsExample/6qbits.cc`. The parsing of the command line is that of `Verif.Model.Pars`, here the values of the parameters are the arguments; the averages are not part of these systems (`ModeCorrelations` is modelled in
`Verif.Model.Interactions`, `ReducedDensityOperator` in `Verif.Model.AveragingUtils`).
-/

namespace CppQED.CavScr
open CppQED.Tridiag CppQED.Interactions CppQED.ModeEl
open CppQED.Elem (Element)

/-- `QbitMode_C++QED.cc:36-39`: both elements are asked for in the picture `qmp` of the command line. -/
noncomputable def qbitMode (pq : QbitEl.Pars) (pm : ModeEl.Pars) (g : ℂ) (qmp : Picture) : Outcome Composite.Bin :=
  (QbitEl.makePhaseNoise pq qmp).bind fun qbit => (makePumpedLossy pm qmp).bind fun mode =>
    (jaynesCummings [0, 1] (aop (qbitPtrPhaseNoise pq qmp)) (modePtr pm qmp) g).bind fun ia => .ok (binary qbit mode ia)

/-- `tutorialBinary.cc:18-21`. -/
noncomputable def tutorialBinary (pq : QbitEl.Pars) (pm : ModeEl.Pars) (g : ℂ) (qmp : Picture) : Outcome Composite.Bin :=
  (QbitEl.make pq qmp).bind fun qbit => (makePumpedLossy pm qmp).bind fun mode =>
    (jaynesCummings [0, 1] (aop (qbitPtr pq qmp)) (modePtr pm qmp) g).bind fun ia => .ok (binary qbit mode ia)

/-- `Optomechanics.cc:34-38`: the optical mode `Opt` is pumped and lossy, the mechanical mode `Mech` is lossy; both in the picture `qmp` of the command line. -/
noncomputable def optomechanics (pA pB : ModeEl.Pars) (u : ℝ) (qmp : Picture) : Outcome Composite.Bin :=
  (makePumpedLossy pA qmp).bind fun a => (makeLossy pB qmp).bind fun b =>
    (coupledModes [0, 1] .nx (modePtr pA qmp) (modePtr pB qmp) (-Real.sqrt 2 * u : ℝ)).bind fun ia => .ok (binary a b ia)

/-- The parameters of the atom in `Raman.cc:11-22`: `Pump<0,2>`, `Pump<1,2>`, `Decay<0,2>`, `Decay<1,2>`. -/
def ramanAtom (deltas : ℕ → ℝ) (eta0 eta1 : ℂ) (gamma0 gamma1 : ℝ) : MultiEl.Pars := ⟨3, deltas, [⟨0, 2, eta0⟩, ⟨1, 2, eta1⟩], [⟨0, 2, gamma0⟩, ⟨1, 2, gamma1⟩]⟩

/-- `Raman.cc:38-39`. -/
noncomputable def raman (deltas : ℕ → ℝ) (eta0 eta1 : ℂ) (gamma0 gamma1 gammaParallel : ℝ) (gammasParallel : List ℝ) : Element :=
  MultiEl.makePars (ramanAtom deltas eta0 eta1 gamma0 gamma1) gammaParallel gammasParallel

/-- The parameters of the atom in `CavityRaman.cc:15-16, 30`: `Pump<0,2>`, `Decay<0,2>`, `Decay<1,2>`. -/
def cavityRamanAtom (deltas : ℕ → ℝ) (eta : ℂ) (gamma0 gamma1 : ℝ) : MultiEl.Pars := ⟨3, deltas, [⟨0, 2, eta⟩], [⟨0, 2, gamma0⟩, ⟨1, 2, gamma1⟩]⟩

/-- `CavityRaman.cc:46`: the coupling is `Coupling<1,2>` (18), the mode is in interaction picture, the atom in Schrödinger picture. -/
noncomputable def cavityRaman (deltas : ℕ → ℝ) (eta : ℂ) (gamma0 gamma1 gammaParallel : ℝ) (gammasParallel : List ℝ) (pm : ModeEl.Pars) (g : ℂ) : Outcome Composite.Bin :=
  (makePumpedLossy pm .ip).bind fun mode => (mljc [0, 1] false (modePtr pm .ip) [(1, 2, g)]).bind fun ia =>
    .ok (binary (MultiEl.makePars (cavityRamanAtom deltas eta gamma0 gamma1) gammaParallel gammasParallel) mode ia)

/-- `FourModes.cc:22-28`: `PumpedLossyMode<>` is that of zero temperature (Mode_.h:468); the interaction is the bare `structure::Interaction<4>`, which has neither Hamiltonian nor anything else. -/
noncomputable def fourModes (p0 p1 p2 p3 : ModeEl.Pars) : Outcome Composite.Comp :=
  (pumpedLossyMode false p0 .ip).bind fun e0 => (pumpedLossyModeAlternative false p1).bind fun e1 => (pumpedLossyMode false p2 .ip).bind fun e2 =>
    (pumpedLossyModeAlternative false p3).bind fun e3 => .ok (composite [e0, e1, e2, e3] [interaction [0, 1, 2, 3] none])

/-- `6qbits.cc:34-49` for any number `n` of qbits (the script: 6): the same qbit and interaction objects are used for all of them, the mode is the last subsystem; `_<k,6>(jc)` assigns the axes. The three
interactions of the script differ only in what they average. -/
noncomputable def nQbits (n : ℕ) (pq : QbitEl.Pars) (pm : ModeEl.Pars) (g : ℂ) (qmp : Picture) : Outcome Composite.Comp :=
  (QbitEl.make pq qmp).bind fun qbit => (makePumpedLossy pm qmp).bind fun mode =>
    (jaynesCummings [0, 1] (aop (qbitPtr pq qmp)) (modePtr pm qmp) g).bind fun jc =>
      .ok (composite (List.replicate n qbit ++ [mode]) ((List.range n).map fun k => { jc with axes := [k, n] }))

end CppQED.CavScr
