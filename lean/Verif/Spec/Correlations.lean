import Verif.Model.Correlations
import Verif.Spec.Averages
import Verif.Spec.Qbit
import Mathlib.LinearAlgebra.Matrix.Kronecker

/-! # Two subsystems -/

namespace CppQED.Spec
open CppQED.Elem CppQED.Corr Matrix

/-- The state of two subsystems. -/
def state2 (m : LDO2) : Matrix (Fin m.dim0 × Fin m.dim1) (Fin m.dim0 × Fin m.dim1) ℂ := Matrix.of fun x y => m.index x.1 x.2 y.1 y.2

/-- The reduced state of the first subsystem. -/
noncomputable def reduced0 (m : LDO2) : LDO := ⟨m.dim0, fun i j => ∑ k ∈ Finset.range m.dim1, m.index i k j k, 0⟩

/-- The reduced state of the second subsystem. -/
noncomputable def reduced1 (m : LDO2) : LDO := ⟨m.dim1, fun i j => ∑ k ∈ Finset.range m.dim0, m.index k i k j, 0⟩

/-- The expectation value of `A⊗B`. -/
noncomputable def expectation2 (m : LDO2) (A B : Dens) : ℂ := (Matrix.kroneckerMap (fun x y => x * y) (mat m.dim0 A) (mat m.dim1 B) * state2 m).trace

/-- The correlation `<A⊗B>-<A⊗1><1⊗B>` of Hermitian operators. -/
noncomputable def correlation (m : LDO2) (A B : Dens) : ℝ :=
  (expectation2 m A B).re - (expectation2 m A fun i j => if i = j then 1 else 0).re * (expectation2 m (fun i j => if i = j then 1 else 0) B).re

end CppQED.Spec
