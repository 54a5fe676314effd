import Verif.Model.CompositeMaster
import Verif.Model.MCWFSystem

/-!
# Composite systems as seen by the Monte Carlo wave-function trajectory

Sources: `/repo/CPPQEDcore/composites/Composite.tcc`, `/repo/CPPQEDcore/composites/BinarySystem.cc`, `/repo/CPPQEDcore/structure/Liouvillean.h`.
-/

namespace CppQED.Composite

/-- The rates of a composite: `rates(t,psi)` (Liouvillean.h:54), that is `composite::Liouvillean::average_v` (Composite.h:220, `Comp.averageLA`) with the state vector as a lazy density operator. -/
noncomputable def Comp.mcwfRates (c : Comp) {n : ℕ} (e : Enum c.lb c.ub n) (t : ℝ) (psi : Fin n → ℂ) : List ℝ := c.averageLA .li t (.sv (unflatten e psi))

/-- The rates of a binary system (`binary::Liouvillean::average_v`, BinarySystem.h:155, `Bin.average`) likewise. -/
noncomputable def Bin.mcwfRates (b : Bin) {n : ℕ} (e : Enum b.lb b.ub n) (t : ℝ) (psi : Fin n → ℂ) : List ℝ := b.average .li t (.sv (unflatten e psi))

end CppQED.Composite
