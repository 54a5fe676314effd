import Verif.Spec.Interactions

/-! # Subsystems that do not interact -/

namespace CppQED.Spec
open CppQED.Elem

/-- The product of the states of `n` subsystems. -/
noncomputable def productOf {n : ℕ} (φ : Fin n → Vec) (i : List ℤ) : ℂ := ∏ k, φ k (q i k)

/-- `χ` solves the Schrödinger equation with the Hamiltonian `H` (divided by `i`) in `d` dimensions. -/
def SolvesSchroedinger (d : ℕ) (H : Dens) (χ : ℝ → Vec) : Prop := ∀ (t : ℝ), ∀ n < d, HasDerivAt (fun s => χ s n) (∑ m ∈ Finset.range d, H n m * χ t m) t

/-- `φ` is the array integrated when the element is simulated alone, in a step which begins at `t0`. -/
def Alone (e : Element) (t0 : ℝ) (φ : ℝ → Vec) : Prop := ∀ (t : ℝ) (i : Fin e.dim), HasDerivAt (fun s => φ s i) (rhs e t t0 (ket e.dim (φ t)) i) t

/-- The physical state of the element simulated alone: the array after the exact part. -/
noncomputable def physical (e : Element) (t t0 : ℝ) (φ : Vec) : Vec := fun n => if h : n < e.dim then toSchroedinger e t t0 (ket e.dim φ) ⟨n, h⟩ else 0

/-- The number of jumps of an element. -/
def jumpCount (e : Element) : ℕ := match e.li with
  | some l => l.labels.length
  | none => 0

end CppQED.Spec
