import Verif.Spec.Interactions

/-!
# Matrix elements, and steps without jumps

Vocabulary for C163.
-/

namespace CppQED.Spec
open ComplexConjugate

/-- `⟨φ|A|ψ⟩` on the indices `B`. -/
noncomputable def element (B : Finset (List ℤ)) (A : List ℤ → List ℤ → ℂ) (φ ψ : List ℤ → ℂ) : ℂ := ∑ i ∈ B, ∑ j ∈ B, conj (φ i) * A i j * ψ j

/-- `⟨φ|ψ⟩` on the indices `B`. -/
noncomputable def overlap (B : Finset (List ℤ)) (φ ψ : List ℤ → ℂ) : ℂ := ∑ i ∈ B, conj (φ i) * ψ i

/-- The rate of change of the observable `A` according to Heisenberg, if the Hamiltonian divided by `i` is `H`: `H†A+AH`, which is `i[h,A]` for `H=h/i` with Hermitian `h`. -/
noncomputable def heisenberg (B : Finset (List ℤ)) (H A : List ℤ → List ℤ → ℂ) (i j : List ℤ) : ℂ := ∑ k ∈ B, (conj (H k i) * A k j + A i k * H k j)

/-- The integrated array follows the right-hand side of the binary system in the step from `t0`. -/
def BinFollows (b : Composite.Bin) (t0 : ℝ) (psi : ℝ → List ℤ → ℂ) : Prop :=
  ∀ t i, InBox b.lb b.ub i → HasDerivAt (fun s => psi s i) (b.addContribution t t0 (psi t) (fun _ => 0) i) t

/-- The same for composites. -/
def CompFollows (c : Composite.Comp) (t0 : ℝ) (psi : ℝ → List ℤ → ℂ) : Prop :=
  ∀ t i, InBox c.lb c.ub i → HasDerivAt (fun s => psi s i) (c.addContribution t t0 (psi t) (fun _ => 0) i) t

/-- The physical states that a binary system reaches in any number of steps, of any lengths, from the state `φ` at the time `t`. In the beginning of each step the integrated array is the physical state. -/
inductive BinSteps (b : Composite.Bin) (t : ℝ) (φ : List ℤ → ℂ) : ℝ → (List ℤ → ℂ) → Prop
  | start : BinSteps b t φ t φ
  | step {t0 : ℝ} {χ : List ℤ → ℂ} (h : BinSteps b t φ t0 χ) (psi : ℝ → List ℤ → ℂ) (hpsi : BinFollows b t0 psi) (h0 : ∀ i, InBox b.lb b.ub i → psi t0 i = χ i) (t1 : ℝ) :
      BinSteps b t φ t1 (b.actWithU t1 t0 (psi t1))

/-- The same for composites. -/
inductive CompSteps (c : Composite.Comp) (t : ℝ) (φ : List ℤ → ℂ) : ℝ → (List ℤ → ℂ) → Prop
  | start : CompSteps c t φ t φ
  | step {t0 : ℝ} {χ : List ℤ → ℂ} (h : CompSteps c t φ t0 χ) (psi : ℝ → List ℤ → ℂ) (hpsi : CompFollows c t0 psi) (h0 : ∀ i, InBox c.lb c.ub i → psi t0 i = χ i) (t1 : ℝ) :
      CompSteps c t φ t1 (c.actWithU t1 t0 (psi t1))

end CppQED.Spec
