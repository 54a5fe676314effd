import Mathlib.Data.Complex.BigOperators
import Mathlib.Data.Finset.Lattice.Basic
import Mathlib.Data.Finset.Union
import Mathlib.Analysis.SpecialFunctions.Pow.Real

/-!
# Specification of the operations on quantum states of several subsystems

A state of a system with subsystems of dimensions `dims` is a function of multi-indices. Nothing here refers to the model.
-/

namespace CppQED.PySpec
open ComplexConjugate

/-- The multi-indices of a system with the given dimensions. -/
def box : List ℕ → Finset (List ℕ)
  | [] => {[]}
  | n :: s => (Finset.range n).biUnion fun k => (box s).image (k :: ·)

/-- The part of a multi-index belonging to the given subsystems. -/
def restrict (sub : List ℕ) (x : List ℕ) : List ℕ := sub.map (x.getD · 0)

/-- The subsystems of a system with `n` subsystems which are, or are not, among the given ones, in their natural order. -/
def among (n : ℕ) (l : List ℕ) : List ℕ := (List.range n).filter (· ∈ l)

@[inherit_doc among]
def others (n : ℕ) (l : List ℕ) : List ℕ := (List.range n).filter (· ∉ l)

/-- Two multi-indices of `n` components are equal in the components other than the given ones. -/
def AgreeOff (n : ℕ) (sub : List ℕ) (x y : List ℕ) : Prop := ∀ p < n, p ∉ sub → x.getD p 0 = y.getD p 0

instance (n : ℕ) (sub x y : List ℕ) : Decidable (AgreeOff n sub x y) := by unfold AgreeOff; infer_instance

/-- The matrix of an operator acting on the given subsystems, extended with the identity to the other subsystems: `⟨x|A⊗1|y⟩`. -/
def extended (n : ℕ) (sub : List ℕ) (A : List ℕ → List ℕ → ℂ) (x y : List ℕ) : ℂ :=
  if AgreeOff n sub x y then A (restrict sub x) (restrict sub y) else 0

/-- `⟨Ψ|M|Ψ⟩`. -/
noncomputable def expectation (dims : List ℕ) (psi : List ℕ → ℂ) (M : List ℕ → List ℕ → ℂ) : ℂ :=
  ∑ x ∈ box dims, ∑ y ∈ box dims, conj (psi x) * M x y * psi y

/-- `M|Ψ⟩`. -/
noncomputable def apply (dims : List ℕ) (M : List ℕ → List ℕ → ℂ) (psi : List ℕ → ℂ) (x : List ℕ) : ℂ := ∑ y ∈ box dims, M x y * psi y

/-- `‖Ψ‖²`. -/
noncomputable def normSquare (dims : List ℕ) (psi : List ℕ → ℂ) : ℝ := ∑ x ∈ box dims, Complex.normSq (psi x)

/-- The sum of the amplitudes of all the basis vectors with the given part `i` in the subsystems `keep`. -/
noncomputable def summed (dims : List ℕ) (keep : List ℕ) (psi : List ℕ → ℂ) (i : List ℕ) : ℂ := ∑ x ∈ box dims with restrict keep x = i, psi x

/-- The array of an operator on several subsystems: the axes are alternately the row and the column index of the subsystems. -/
def interleave : List ℕ → List ℕ → List ℕ
  | i :: is, j :: js => i :: j :: interleave is js
  | _, _ => []

end CppQED.PySpec
