import Verif.Spec.ScriptSystems

/-!
# Specification of further systems of particles in cavities

The Hamiltonians are over `i`, the non-Hermitian parts included, as in `Verif.Spec.ScriptSystems`.
-/

namespace CppQED.Spec
open CppQED.Elem CppQED.ModeEl CppQED.Interactions CppQED.PTrace
open CppQED.ParticleEl (ModeFunction)
open ComplexConjugate

/-- A lossy mode (the first constituent) of mode function `f=cos(kx)` and two particles in a potential of depth `U α²` which belongs to another mode, in a coherent state of amplitude `α`, of mode function `f_p`:
`mode + Σ_k [particle k + U f(x_k)² a†a + U α (a f(x_k) f_p*(x_k) + h.c.)]`, `α²` being `alphasquare`. -/
noncomputable def sineH (pm : ModeEl.Pars) (pp : ParticleEl.Pars) (U : ℝ) (kCav : ℕ) (alphasquare : ℝ) (i j : List ℤ) : ℂ :=
  let f := waveFunction ⟨.cos, kCav⟩
  let fp := waveFunction ⟨pp.modePart, pp.kPart⟩
  let P := pumpedOf { pp with vClass := U * alphasquare }
  let N := multiplication pp.fin fun x => Complex.normSq (f x)
  let F := multiplication pp.fin fun x => f x * conj (fp x)
  let F' := multiplication pp.fin fun x => conj (f x * conj (fp x))
  tensor3 (modeOf { pm with eta := 0 }) one one i j + tensor3 one P one i j + tensor3 one one P i j + U * (tensor3 nOp N one i j + tensor3 nOp one N i j) / Complex.I +
    (U * Real.sqrt alphasquare : ℝ) * (tensor3 aOp F one i j + tensor3 adOp F' one i j + tensor3 aOp one F i j + tensor3 adOp one F' i j) / Complex.I

/-- The same with the product of the two operators of the particle in place of the operator of the product of the two functions (they differ at the edge of the momentum space). -/
noncomputable def sineMulH (pm : ModeEl.Pars) (pp : ParticleEl.Pars) (U : ℝ) (kCav : ℕ) (alphasquare : ℝ) (i j : List ℤ) : ℂ :=
  let f := waveFunction ⟨.cos, kCav⟩
  let fp := waveFunction ⟨pp.modePart, pp.kPart⟩
  let P := pumpedOf { pp with vClass := U * alphasquare }
  let N := multiplication pp.fin fun x => Complex.normSq (f x)
  let F := mul (2 ^ pp.fin) (multiplication pp.fin fun x => conj (fp x)) (multiplication pp.fin f)
  let F' := mul (2 ^ pp.fin) (multiplication pp.fin fp) (multiplication pp.fin fun x => conj (f x))
  tensor3 (modeOf { pm with eta := 0 }) one one i j + tensor3 one P one i j + tensor3 one one P i j + U * (tensor3 nOp N one i j + tensor3 nOp one N i j) / Complex.I +
    (U * Real.sqrt alphasquare : ℝ) * (tensor3 aOp F one i j + tensor3 adOp F' one i j + tensor3 aOp one F i j + tensor3 adOp one F' i j) / Complex.I

/-- Normalised state of two particles. -/
def Normalised2 (d1 d2 : ℕ) (psi : ℕ → ℕ → ℂ) : Prop := ∑ n ∈ Finset.range d1, ∑ m ∈ Finset.range d2, Complex.normSq (psi n m) = 1

/-- A mode which is detuned by `x` more. -/
noncomputable def detunedBy (pm : ModeEl.Pars) (x : ℝ) : ModeEl.Pars := { pm with delta := pm.delta + x }

end CppQED.Spec
