import Verif.Spec.Slice
import Mathlib.Data.Complex.BigOperators

/-! Specification of the partial trace: sum over all full indices with prescribed coordinates on the retained axes. -/

namespace CppQED.Spec
open ComplexConjugate

/-- Partial trace of `ρ` over all the axes outside `V`: `(Tr ρ)_{s,s'} = Σ_{i : i_V = s} ρ_{i, i with i_V replaced by s'}`. -/
noncomputable def ptrace (V : List ℕ) (lb ub : List Int) (ρ : List Int → List Int → ℂ) (s s' : List Int) : ℂ :=
  ∑ i ∈ (boxFinset lb ub).filter (fun i => coords V i = s), ρ i (replace V s' i)

/-- Trace over a box. -/
noncomputable def trace (lb ub : List Int) (ρ : List Int → List Int → ℂ) : ℂ := ∑ i ∈ boxFinset lb ub, ρ i i

/-- `ρ` is Hermitian on the box. -/
def Hermitian (lb ub : List Int) (ρ : List Int → List Int → ℂ) : Prop :=
  ∀ i ∈ boxFinset lb ub, ∀ j ∈ boxFinset lb ub, ρ j i = conj (ρ i j)

/-- The quadratic form of `ρ` on the box is non-negative. -/
def Positive (lb ub : List Int) (ρ : List Int → List Int → ℂ) : Prop :=
  ∀ x : List Int → ℂ, 0 ≤ (∑ i ∈ boxFinset lb ub, ∑ j ∈ boxFinset lb ub, conj (x i) * ρ i j * x j).re

/-- `Tr(A ρ)` over a box. -/
noncomputable def expect (lb ub : List Int) (A ρ : List Int → List Int → ℂ) : ℂ :=
  ∑ i ∈ boxFinset lb ub, ∑ j ∈ boxFinset lb ub, A j i * ρ i j

open Classical in
/-- The operator `A ⊗ 1`, acting as `A` on the axes `V` of a rank-`r` system. -/
noncomputable def extend (r : ℕ) (V : List ℕ) (A : List Int → List Int → ℂ) (i j : List Int) : ℂ :=
  if AgreeOff r V i j then A (coords V i) (coords V j) else 0

end CppQED.Spec
