import Verif.Spec.Interactions
import Verif.Spec.Master
import Mathlib.LinearAlgebra.Matrix.Kronecker

/-!
# The systems of the scripts of particles in cavities

All the Hamiltonians are divided by `i`. `f` is the mode function of the cavity, `f_p` that of the pump. Nothing is subtracted from the light shift of the cavity: it is `U |f(x)|²` per photon.
-/

namespace CppQED.Spec
open CppQED.Elem CppQED.ParticleEl
open ComplexConjugate

/-- The light shift of the cavity: `U n⊗|f|²`. -/
noncomputable def fullShiftH (fin : ℕ) (U : ℝ) (mf : ModeFunction) (i j : List ℤ) : ℂ :=
  U * tensor nOp (multiplication fin fun x => Complex.normSq (waveFunction mf x)) i j / Complex.I

/-- The amplitude of the scattering between the pump of depth `V` and the cavity: `sign(U)√(UV)`. -/
noncomputable def scatteringAmplitude (U V : ℝ) : ℝ := (if U < 0 then -1 else 1) * Real.sqrt (U * V)

/-- A driven lossy mode with temperature. -/
noncomputable def modeOf (pm : ModeEl.Pars) : Dens := modeH (pm.kappa * (2 * pm.nTh + 1)) pm.delta pm.eta

/-- The particle in the potential of the pump, whose average is left out. -/
noncomputable def pumpedOf (pp : ParticleEl.Pars) : Dens := particleH pp.fin pp.omrec fun x => pp.vClass * (Complex.normSq (waveFunction ⟨pp.modePart, pp.kPart⟩ x) - averageIntensity ⟨pp.modePart, pp.kPart⟩)

/-- The free particle. -/
noncomputable def particleOf (pp : ParticleEl.Pars) : Dens := particleH pp.fin pp.omrec fun _ => 0

/-- Configuration 1: the pumped particle moves orthogonally to the cavity, and scatters from the pump into the cavity. -/
noncomputable def conf1H (pm : ModeEl.Pars) (pp : ParticleEl.Pars) (U : ℝ) (i j : List ℤ) : ℂ :=
  tensor (modeOf pm) one i j + tensor one (pumpedOf pp) i j + interferenceH pp.fin (scatteringAmplitude U pp.vClass) (waveFunction ⟨pp.modePart, pp.kPart⟩) i j

/-- Configuration 2: the particle moves along the cavity; the pump is orthogonal to it, and does not affect the motion directly. -/
noncomputable def conf2H (pm : ModeEl.Pars) (pp : ParticleEl.Pars) (U : ℝ) (mf : ModeFunction) (i j : List ℤ) : ℂ :=
  tensor (modeOf pm) one i j + tensor one (particleOf pp) i j + fullShiftH pp.fin U mf i j + interferenceH pp.fin (scatteringAmplitude U pp.vClass) (waveFunction mf) i j

/-- Configuration 3: the particle and the pump are along the cavity: the pump is a potential, and the particle scatters from it into the cavity: `η(a⊗f f_p*+h.c.)`. -/
noncomputable def conf3H (pm : ModeEl.Pars) (pp : ParticleEl.Pars) (U : ℝ) (mf : ModeFunction) (i j : List ℤ) : ℂ :=
  tensor (modeOf pm) one i j + tensor one (pumpedOf pp) i j + fullShiftH pp.fin U mf i j +
    interferenceH pp.fin (scatteringAmplitude U pp.vClass) (fun x => waveFunction mf x * conj (waveFunction ⟨pp.modePart, pp.kPart⟩ x)) i j

/-- The same with the product of the two operators of the particle in place of the operator of the product of the two functions (they differ at the edge of the momentum space). -/
noncomputable def conf3MulH (pm : ModeEl.Pars) (pp : ParticleEl.Pars) (U : ℝ) (mf : ModeFunction) (i j : List ℤ) : ℂ :=
  tensor (modeOf pm) one i j + tensor one (pumpedOf pp) i j + fullShiftH pp.fin U mf i j +
    interferenceMulH pp.fin (scatteringAmplitude U pp.vClass) (waveFunction mf) (waveFunction ⟨pp.modePart, pp.kPart⟩) i j

/-- Configuration 4: as configuration 3, but there is no scattering, the pump is merely a potential. -/
noncomputable def conf4H (pm : ModeEl.Pars) (pp : ParticleEl.Pars) (U : ℝ) (mf : ModeFunction) (i j : List ℤ) : ℂ :=
  tensor (modeOf pm) one i j + tensor one (pumpedOf pp) i j + fullShiftH pp.fin U mf i j

/-! ## The ring cavity: the particle is the first, the two modes the second and third constituents -/

/-- `Σ_± [modes] + particle + Σ_± U_± n_±⊗|f_±|² + sign(U₊)√(U₊U₋) (a₊⊗a₋†⊗f₊f₋* + h.c.)`. -/
noncomputable def ringH (pp : ParticleEl.Pars) (pmP pmM : ModeEl.Pars) (uP uM : ℝ) (mfP mfM : ModeFunction) (i j : List ℤ) : ℂ :=
  tensor3 (particleOf pp) one one i j + tensor3 one (modeOf pmP) one i j + tensor3 one one (modeOf pmM) i j +
    uP * tensor3 (multiplication pp.fin fun x => Complex.normSq (waveFunction mfP x)) nOp one i j / Complex.I +
    uM * tensor3 (multiplication pp.fin fun x => Complex.normSq (waveFunction mfM x)) one nOp i j / Complex.I +
    scatteringAmplitude uP uM * (tensor3 (multiplication pp.fin fun x => waveFunction mfP x * conj (waveFunction mfM x)) aOp adOp i j +
      tensor3 (multiplication pp.fin fun x => conj (waveFunction mfP x) * waveFunction mfM x) adOp aOp i j) / Complex.I

/-- The same with the product of the two operators of the particle in place of the operator of the product of the two functions (they differ at the edge of the momentum space). -/
noncomputable def ringMulH (pp : ParticleEl.Pars) (pmP pmM : ModeEl.Pars) (uP uM : ℝ) (mfP mfM : ModeFunction) (i j : List ℤ) : ℂ :=
  tensor3 (particleOf pp) one one i j + tensor3 one (modeOf pmP) one i j + tensor3 one one (modeOf pmM) i j +
    uP * tensor3 (multiplication pp.fin fun x => Complex.normSq (waveFunction mfP x)) nOp one i j / Complex.I +
    uM * tensor3 (multiplication pp.fin fun x => Complex.normSq (waveFunction mfM x)) one nOp i j / Complex.I +
    scatteringAmplitude uP uM * (tensor3 (mul (2 ^ pp.fin) (multiplication pp.fin fun x => conj (waveFunction mfM x)) (multiplication pp.fin (waveFunction mfP))) aOp adOp i j +
      tensor3 (mul (2 ^ pp.fin) (multiplication pp.fin (waveFunction mfM)) (multiplication pp.fin fun x => conj (waveFunction mfP x))) adOp aOp i j) / Complex.I

/-! ## Two particles and a mode: the mode is the first, the particles the second and third constituents -/

/-- `mode + Σ_k [particle k + sign(U)√(UV) (a f(x_k) + h.c.)]`. -/
noncomputable def twoParticlesH (pm : ModeEl.Pars) (pp : ParticleEl.Pars) (U : ℝ) (i j : List ℤ) : ℂ :=
  let f := waveFunction ⟨pp.modePart, pp.kPart⟩
  let F := multiplication pp.fin f
  let F' := multiplication pp.fin fun x => conj (f x)
  tensor3 (modeOf pm) one one i j + tensor3 one (pumpedOf pp) one i j + tensor3 one one (pumpedOf pp) i j +
    scatteringAmplitude U pp.vClass * (tensor3 aOp F one i j + tensor3 adOp F' one i j) / Complex.I +
    scatteringAmplitude U pp.vClass * (tensor3 aOp one F i j + tensor3 adOp one F' i j) / Complex.I

/-- The quantum numbers after the exchange of the two particles. -/
def exchange (i : List ℤ) : List ℤ := [i.getD 0 0, i.getD 2 0, i.getD 1 0]

/-- The state vector takes the factor `σ` when the particles are exchanged: `σ=1` for bosons, `-1` for fermions. -/
def HasSymmetry (lb ub : List ℤ) (σ : ℂ) (psi : List ℤ → ℂ) : Prop := ∀ i, InBox lb ub i → psi (exchange i) = σ * psi i

/-- What may happen to the physical state of a system in the course of a quantum trajectory: it is evolved by the right-hand side and the exact part, it jumps, it is multiplied with a number. -/
inductive Happens (c : Composite.Comp) : (List ℤ → ℂ) → (List ℤ → ℂ) → Prop
  | evolves (t0 t : ℝ) (psi : ℝ → List ℤ → ℂ) : (∀ t, ∀ i, InBox c.lb c.ub i → HasDerivAt (fun s => psi s i) (c.addContribution t t0 (psi t) (fun _ => 0) i) t) → Happens c (psi t0) (c.actWithU t t0 (psi t))
  | jumps (t : ℝ) (m : ℕ) (psi : List ℤ → ℂ) : m < c.nAvrLA .li → Happens c psi (c.actWithJ t psi m)
  | scales (z : ℂ) (psi : List ℤ → ℂ) : Happens c psi (fun i => z * psi i)

/-! ## The two modes of a ring cavity with a scatterer at a fixed position

The matrices are on the space of the two modes. `fP`, `fM` are the values of the mode functions at the position of the scatterer. -/

open Matrix in
/-- The Hamiltonian over `i`: that of `ringH` without the particle, with the values of the mode functions in place of the multiplications. -/
noncomputable def fixedRingG (pmP pmM : ModeEl.Pars) (uP uM : ℝ) (fP fM : ℂ) : Matrix (Fin pmP.cutoff × Fin pmM.cutoff) (Fin pmP.cutoff × Fin pmM.cutoff) ℂ :=
  kroneckerMap (· * ·) (mat _ (modeOf pmP)) 1 + kroneckerMap (· * ·) 1 (mat _ (modeOf pmM)) +
    (uP * Complex.normSq fP / Complex.I) • kroneckerMap (· * ·) (mat _ nOp) 1 + (uM * Complex.normSq fM / Complex.I) • kroneckerMap (· * ·) 1 (mat _ nOp) +
    (scatteringAmplitude uP uM / Complex.I) • ((fP * conj fM) • kroneckerMap (· * ·) (mat _ aOp) (mat _ adOp) + (conj fP * fM) • kroneckerMap (· * ·) (mat _ adOp) (mat _ aOp))

open Matrix in
/-- The losses of the two modes. -/
noncomputable def fixedRingJ (pmP pmM : ModeEl.Pars) : List (Matrix (Fin pmP.cutoff × Fin pmM.cutoff) (Fin pmP.cutoff × Fin pmM.cutoff) ℂ) :=
  [(Real.sqrt (2 * pmP.kappa) : ℂ) • kroneckerMap (· * ·) (mat _ aOp) 1, (Real.sqrt (2 * pmM.kappa) : ℂ) • kroneckerMap (· * ·) 1 (mat _ aOp)]

open Matrix in
/-- The mean amplitudes of the two modes. -/
noncomputable def ringAmplitudes {d0 d1 : ℕ} (ρ : Matrix (Fin d0 × Fin d1) (Fin d0 × Fin d1) ℂ) : Fin 2 → ℂ :=
  ![(kroneckerMap (· * ·) (mat d0 aOp) 1 * ρ).trace, (kroneckerMap (· * ·) 1 (mat d1 aOp) * ρ).trace]

open Matrix in
/-- What the cutoffs take away from the derivatives of the mean amplitudes, `g` being the amplitude of the scattering from the second to the first mode: these are elements of the density operator
belonging to the highest levels kept. -/
noncomputable def ringCutoff (pmP pmM : ModeEl.Pars) (g : ℂ) (ρ : Matrix (Fin pmP.cutoff × Fin pmM.cutoff) (Fin pmP.cutoff × Fin pmM.cutoff) ℂ) : Fin 2 → ℂ :=
  let topP := kroneckerMap (· * ·) (diagonal fun i : Fin pmP.cutoff => if (i : ℕ) + 1 = pmP.cutoff then (1 : ℂ) else 0) (1 : Matrix (Fin pmM.cutoff) (Fin pmM.cutoff) ℂ)
  let topM := kroneckerMap (· * ·) (1 : Matrix (Fin pmP.cutoff) (Fin pmP.cutoff) ℂ) (diagonal fun i : Fin pmM.cutoff => if (i : ℕ) + 1 = pmM.cutoff then (1 : ℂ) else 0)
  ![pmP.cutoff * (pmP.eta * (topP * ρ).trace - Complex.I * g * (topP * kroneckerMap (· * ·) 1 (mat _ aOp) * ρ).trace),
    pmM.cutoff * (pmM.eta * (topM * ρ).trace - Complex.I * conj g * (topM * kroneckerMap (· * ·) (mat _ aOp) 1 * ρ).trace)]

/-- The equations of motion of the amplitudes of the two modes. -/
noncomputable def ringRhs (pmP pmM : ModeEl.Pars) (uP uM : ℝ) (fP fM : ℂ) (b : Fin 2 → ℂ) : Fin 2 → ℂ :=
  ![(Complex.I * (pmP.delta - uP * Complex.normSq fP) - pmP.kappa) * b 0 + pmP.eta - Complex.I * (scatteringAmplitude uP uM * conj fP * fM) * b 1,
    (Complex.I * (pmM.delta - uM * Complex.normSq fM) - pmM.kappa) * b 1 + pmM.eta - Complex.I * conj (scatteringAmplitude uP uM * conj fP * fM) * b 0]

end CppQED.Spec
