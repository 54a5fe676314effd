import Verif.Model.Composite
import Verif.Model.Master
import Verif.Spec.Slice

/-!
# Composite systems as seen by the trajectories

Sources: `/repo/CPPQEDcore/composites/Composite.tcc`, `/repo/CPPQEDcore/composites/BinarySystem.cc`, `/repo/CPPQEDcore/quantumtrajectory/Master.h`.

The trajectories store state vectors and density operators in multi-arrays; `Master::step` accesses the latter as matrices (`rho.matrixView()`). The order in which the elements are stored is a parameter.
-/

namespace CppQED.Composite
open CppQED.MII (Idx)
open CppQED.Slice (Arr)

/-- The order of storage of an array with the given bounds and number of elements. -/
abbrev Enum (lb ub : Idx) (n : ℕ) := Fin n ≃ {i // i ∈ Spec.boxFinset lb ub}

/-- The array with the given content (there is nothing outside of the bounds). -/
noncomputable def unflatten {lb ub : Idx} {n : ℕ} (e : Enum lb ub n) (v : Fin n → ℂ) : Arr ℂ := fun i =>
  if h : i ∈ Spec.boxFinset lb ub then v (e.symm ⟨i, h⟩) else 0

/-- The array of a density operator: twice as many axes. -/
noncomputable def unflatten2 {lb ub : Idx} {n : ℕ} (e : Enum lb ub n) (m : Matrix (Fin n) (Fin n) ℂ) : Arr ℂ := fun i =>
  if h : i.take lb.length ∈ Spec.boxFinset lb ub ∧ i.drop lb.length ∈ Spec.boxFinset lb ub then m (e.symm ⟨_, h.1⟩) (e.symm ⟨_, h.2⟩) else 0

/-- The `Composite<VA,EX,HA,LI>` chosen by `composite::doMake` (Composite.tcc:398-423, cf. `characteristics`) as a system for the trajectories. The superoperator of the composite is implemented for the jump
numbers where that of the component is (its `SuperoperatorNotImplementedException` comes from the first slice, before anything has been changed); this is given by `implemented`. -/
noncomputable def Comp.toSys (c : Comp) (implemented : ℕ → Bool) {n : ℕ} (e : Enum c.lb c.ub n) : Master.Sys n where
  ha := if c.parts.any (·.ha.isSome) then some fun t psi dpsidt t0 k => c.addContribution t t0 (unflatten e psi) (unflatten e dpsidt) (e k) else none
  ex := if c.parts.any (·.ex.isSome) then some fun t psi t0 k => c.actWithU t t0 (unflatten e psi) (e k) else none
  exApplicable := c.applicableInMaster
  li := if c.parts.any (·.li.isSome) then some
      { nAvr := c.nAvrLA .li
        actWithJ := fun t psi i k => c.actWithJ t (unflatten e psi) i (e k)
        actWithSuperoperator := fun t rho drhodt i =>
          if implemented i then some (Matrix.of fun k l => c.actWithSuperoperator t (unflatten2 e rho) (unflatten2 e drhodt) i ((e k : Idx) ++ (e l : Idx))) else none }
    else none

/-- The `BinarySystem<EX,HA,LI>` chosen by `binary::make` (BinarySystem.cc:318-333) likewise. -/
noncomputable def Bin.toSys (b : Bin) (implemented : ℕ → Bool) {n : ℕ} (e : Enum b.lb b.ub n) : Master.Sys n where
  ha := if b.free0.ha.isSome || b.free1.ha.isSome || b.ia.ha.isSome then some fun t psi dpsidt t0 k => b.addContribution t t0 (unflatten e psi) (unflatten e dpsidt) (e k) else none
  ex := if b.free0.ex.isSome || b.free1.ex.isSome || b.ia.ex.isSome then some fun t psi t0 k => b.actWithU t t0 (unflatten e psi) (e k) else none
  exApplicable := b.applicableInMaster
  li := if b.free0.li.isSome || b.free1.li.isSome || b.ia.li.isSome then some
      { nAvr := b.nAvr .li
        actWithJ := fun t psi i k => b.actWithJ t (unflatten e psi) i (e k)
        actWithSuperoperator := fun t rho drhodt i =>
          if implemented i then some (Matrix.of fun k l => b.actWithSuperoperator t (unflatten2 e rho) (unflatten2 e drhodt) i ((e k : Idx) ++ (e l : Idx))) else none }
    else none

/-- The composite with the same components as a binary system. -/
def Bin.toComp (b : Bin) : Comp := ⟨2, b.lb, b.ub, [b.free0, b.free1], [{ b.ia with axes := [0, 1] }]⟩

end CppQED.Composite
