import Verif.Spec.Interactions
import Verif.Spec.ScriptSystems

/-! # The systems the scripts of atoms and cavities are about -/

namespace CppQED.Spec
open CppQED.Elem

/-- The radiation pressure `-u n (b+b†)`, divided by `i`. -/
noncomputable def radiationPressure (u : ℝ) (i j : List ℤ) : ℂ := -u * tensor nOp (fun k l => aOp k l + adOp k l) i j / Complex.I

/-- `n` atoms with the Hamiltonian `Hq` in a mode with the Hamiltonian `Hm`, which is the subsystem number `n`: the Tavis-Cummings model. -/
noncomputable def tavisCummings (n : ℕ) (Hq Hm : Dens) (g : ℂ) (i j : List ℤ) : ℂ :=
  ∑ k ∈ Finset.range n, extend (n + 1) [k] (single Hq) i j + extend (n + 1) [n] (single Hm) i j + ∑ k ∈ Finset.range n, extend (n + 1) [k, n] (jcH g sigma sigmaDag) i j

end CppQED.Spec
