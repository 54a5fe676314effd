import Verif.Model.ModeVariants
import Verif.Model.Qbit

/-!
# The scripts integrating the equations of motion of amplitudes

The scripts named `…_Evolved` integrate ordinary differential equations for a few amplitudes. In the test suite they serve as the reference the simulations of the quantum systems are compared to
(CPPQEDscripts/CMakeLists.txt and Testing). Modelled are the right-hand sides and the initial values; the integration is that of `trajectory::Simulated`.
-/

namespace CppQED.Evolved
open ComplexConjugate

/-- The derivative of the Bloch vector (PTLA_Evolved.cc:44-56); `b` is `zxy`. -/
noncomputable def blochDerivs (gamma delta : ℝ) (eta : ℂ) (b : Fin 3 → ℝ) : Fin 3 → ℝ :=
  let z := b 0
  let Omega : ℂ := ⟨-gamma, delta⟩
  let s : ℂ := ⟨b 1, -b 2⟩
  let temp : ℂ := -2 * conj eta * z + conj Omega * s
  ![2 * (eta * s).re + 2 * gamma * (1 - z), temp.re, -temp.im]

/-- The initial Bloch vector (PTLA_Evolved.cc:33-40): the density operator of the state vector `qbit::init(qbitInit)`, of which the element `(i,j)` is `ψ(i)ψ(j)*`. -/
noncomputable def blochInit (qbitInit : ℂ) : Fin 3 → ℝ :=
  let psi := QbitEl.init qbitInit
  let rho (i j : ℕ) : ℂ := psi i * conj (psi j)
  ![2 * (rho 0 0).re - 1, 2 * (rho 0 1).re, -2 * (rho 0 1).im]

/-- The derivative of the dipole moment in the script of low saturation (PTLA_EvolvedHL.cc:41-51); the real and imaginary part are the two elements of the array. -/
noncomputable def lowSaturationDerivs (gamma delta : ℝ) (eta : ℂ) (sigma : ℂ) : ℂ := ⟨-gamma, delta⟩ * sigma - eta

/-- The same on the array of the real and imaginary part the script integrates (PTLA_EvolvedHL.cc:41-51). -/
noncomputable def lowSaturationScript (gamma delta : ℝ) (eta : ℂ) (b : Fin 2 → ℝ) : Fin 2 → ℝ :=
  let temp := lowSaturationDerivs gamma delta eta ⟨b 0, b 1⟩
  ![temp.re, temp.im]

/-- The initial dipole moment (PTLA_EvolvedHL.cc:34-39): the element `(1,0)` of the density operator of the state vector `qbit::init(qbitInit)`. -/
noncomputable def lowSaturationInit (qbitInit : ℂ) : Fin 2 → ℝ :=
  let psi := QbitEl.init qbitInit
  let rho (i j : ℕ) : ℂ := psi i * conj (psi j)
  ![(rho 1 0).re, (rho 1 0).im]

/-- The derivative of the amplitude of the (bichromatically) pumped mode (PumpedLossyMode_Evolved.cc:32-34). -/
noncomputable def modeDerivs (p : ModeEl.ParsBichromatic) (t : ℝ) (b : ℂ) : ℂ :=
  ⟨-p.kappa, p.delta⟩ * b + p.eta + p.etaOther * Complex.exp (Complex.I * t * (p.deltaOther + p.delta))

/-- The same on the array of one element the script integrates (PumpedLossyMode_Evolved.cc:32-34). -/
noncomputable def modeScript (p : ModeEl.ParsBichromatic) (t : ℝ) (b : Fin 1 → ℂ) : Fin 1 → ℂ := ![modeDerivs p t (b 0)]

/-- The derivative of the amplitudes of a mode (element 0) and a qbit (element 1) (QbitMode_Evolved.cc:46-50). -/
noncomputable def qbitModeDerivs (kappa deltaM : ℝ) (etaM : ℂ) (gamma deltaQ : ℝ) (etaQ g : ℂ) (b : Fin 2 → ℂ) : Fin 2 → ℂ :=
  ![⟨-kappa, deltaM⟩ * b 0 + g * b 1 + etaM, ⟨-gamma, deltaQ⟩ * b 1 - g * b 0 - etaQ]

/-- The derivative of the coordinate and the velocity of the driven damped oscillator (CPPQEDutils/examples/HarmonicOscillatorComplexBlitz.cc:36-40). -/
noncomputable def oscillatorDerivs (omega gamma tau : ℝ) (y : Fin 2 → ℂ) : Fin 2 → ℂ :=
  ![y 1, Complex.exp (Complex.I * omega * tau) - 2 * gamma * y 1 - y 0]

end CppQED.Evolved
