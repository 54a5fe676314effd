import Verif.Props.CompositeDynamics
import Verif.Props.CompositeMake
import Mathlib.Tactic.IntervalCases
import Mathlib.Analysis.Complex.Exponential

/-!
# A concrete composite system satisfying the hypotheses of the theorems about composites

Two lossy subsystems with 2 and 3 levels: one jump (lowering), one average (the occupation of the upper levels), a diagonal propagator each; and an interaction between them with a
Hamiltonian, an average, but no jump.
-/

namespace CppQED.Composite
open CppQED.MII (Idx)
open CppQED.Slice CppQED.Spec CppQED.PTrace
open ComplexConjugate

/-- The lowering operator. -/
noncomputable def lower (i j : Idx) : ℂ := if j.getD 0 0 = i.getD 0 0 + 1 then 1 else 0

/-- The lossy subsystem. -/
noncomputable def exFree (d : ℤ) : Part where
  axes := []
  ex := some fun t t0 psi s => psi s * Complex.exp (-(Complex.I * (t - t0) * s.getD 0 0))
  applicable := true
  ha := some fun _ _ psi dpsidt s => dpsidt s + matAction [0] [d] lower psi s
  li := some
    { nAvr := 1, streamKey := keyPrinter "Lossy" ["excitation loss"], average := fun _ m => [2 * (m [1] [1]).re],
      actWithJ := fun _ _ psi s => matAction [0] [d] lower psi s,
      actWithSuperoperator := fun _ _ rho drhodt s => drhodt s + ∑ u ∈ boxFinset [0] [d], ∑ u' ∈ boxFinset [0] [d], lower (s.take 1) u * rho (u ++ u') * conj (lower (s.drop 1) u') }
  av := some { nAvr := 1, streamKey := keyPrinter "Lossy" ["occupation"], average := fun _ m => [(m [1] [1]).re], process := id, stream := fun l => l.map fun _ => "x" }

/-- The interaction. -/
noncomputable def exAct : Part where
  axes := [0, 1]
  ex := none
  applicable := true
  ha := some fun _ _ psi dpsidt s => dpsidt s + matAction [0, 0] [1, 2] (fun i j => if i = j.reverse then 1 else 0) psi s
  li := none
  av := some { nAvr := 1, streamKey := keyPrinter "Interaction" ["correlation"], average := fun _ m => [(m [1, 0] [0, 1]).re], process := id, stream := fun l => l.map fun _ => "x" }

/-- The composite. -/
noncomputable def exComp : Comp := { r := 2, lb := [0, 0], ub := [1, 2], frees := [exFree 1, exFree 2], acts := [exAct] }

theorem exComp_parts : exComp.parts = [{ exFree 1 with axes := [0] }, { exFree 2 with axes := [1] }, exAct] := rfl

theorem exComp_ok : exComp.Ok := by
  refine ⟨⟨by simp [exComp], by simp [exComp], ?_⟩, rfl, ?_⟩
  · intro j hj
    have hj : j < 2 := hj
    interval_cases j <;> simp [exComp]
  · rw [exComp_parts]
    intro p hp
    simp only [List.mem_cons, List.not_mem_nil, or_false] at hp
    rcases hp with rfl | rfl | rfl
    · exact valid0
    · exact valid1
    · exact ⟨by simp [exAct], by simp [exAct], by simp [exAct, exComp]⟩

/-- The Hamiltonian matrices of the components. -/
noncomputable def exH (p : Part) : Idx → Idx → ℂ := if p.axes.length = 2 then (fun i j => if i = j.reverse then 1 else 0) else lower

theorem exComp_ha (t t0 : ℝ) : ∀ p ∈ exComp.parts, HaOK exComp.lb exComp.ub t t0 p (exH p) := by
  rw [exComp_parts]
  intro p hp
  simp only [List.mem_cons, List.not_mem_nil, or_false] at hp
  rcases hp with rfl | rfl | rfl
  all_goals (unfold HaOK; intro psi dpsidt s _; rfl)

/-- C31 for the example. -/
example (t t0 : ℝ) (psi dpsidt : Arr ℂ) :
    exComp.addContribution t t0 psi dpsidt [1, 2] =
      dpsidt [1, 2] + matAction [0, 0] [1, 2] (fun i j => (exComp.parts.map fun p => extend 2 p.axes (exH p) i j).sum) psi [1, 2] :=
  comp_addContribution exComp exComp_ok t t0 exH (exComp_ha t t0) psi dpsidt [1, 2] (by
    refine ⟨rfl, fun j hj => ?_⟩
    have hj : j < 2 := hj
    interval_cases j <;> simp [exComp])

/-- The diagonal propagators. -/
noncomputable def exD (t t0 : ℝ) (p : Part) (s : Idx) : ℂ := if p.axes.length = 2 then 1 else Complex.exp (-(Complex.I * (t - t0) * s.getD 0 0))

theorem exComp_ex (t t0 : ℝ) : ∀ p ∈ exComp.parts, ExOK exComp.lb exComp.ub t t0 p (exD t t0 p) := by
  rw [exComp_parts]
  intro p hp
  simp only [List.mem_cons, List.not_mem_nil, or_false] at hp
  rcases hp with rfl | rfl | rfl
  · unfold ExOK; intro psi s _; rfl
  · unfold ExOK; intro psi s _; rfl
  · unfold ExOK; intro s _; rfl

/-- C68 for the example: the amplitude `(1, 2)` turns with the sum of the frequencies. -/
example (t t0 : ℝ) (psi : Arr ℂ) :
    exComp.actWithU t t0 psi [1, 2] = psi [1, 2] * (Complex.exp (-(Complex.I * (t - t0) * 1)) * (Complex.exp (-(Complex.I * (t - t0) * 2)) * 1)) := by
  rw [comp_actWithU exComp exComp_ok t t0 (exD t t0) (exComp_ex t t0) psi [1, 2] (by
    refine ⟨rfl, fun j hj => ?_⟩
    have hj : j < 2 := hj
    interval_cases j <;> simp [exComp]), exComp_parts]
  simp [exD, exAct, coords]

/-- The jumps of the example are local and are matrix actions. -/
theorem exComp_jump (t : ℝ) (d : ℤ) : ∃ li, (exFree d).li = some li ∧ li.nAvr = 1 ∧ (∀ psi s, li.actWithJ t 0 psi s = matAction [0] [d] lower psi s) ∧
    ∀ rho drhodt s s', s.length = 1 → li.actWithSuperoperator t 0 rho drhodt (s ++ s') = drhodt (s ++ s') +
      ∑ u ∈ boxFinset [0] [d], ∑ u' ∈ boxFinset [0] [d], lower s u * rho (u ++ u') * conj (lower s' u') := by
  refine ⟨_, rfl, rfl, fun _ _ => rfl, fun rho drhodt s s' hs => ?_⟩
  show drhodt (s ++ s') + _ = _
  simp only [← hs, List.take_left, List.drop_left]

/-- C28 for the example: the jump number 1 of the composite is the lowering of the second subsystem. -/
example (t : ℝ) (psi : Arr ℂ) : exComp.actWithJ t psi 1 [1, 0] = matAction [0, 0] [1, 2] (extend 2 [1] lower) psi [1, 0] := by
  obtain ⟨li, h1, h2, h3, -⟩ := exComp_jump t 2
  exact comp_jump_operator exComp exComp_ok t psi 1 0 _ li rfl h1 (by omega) (by simp [exComp_parts, nAvr, getLA, exFree, exAct]) lower h3 [1, 0] (by
    refine ⟨rfl, fun j hj => ?_⟩
    have hj : j < 2 := hj
    interval_cases j <;> simp [exComp])

/-- C28 for the superoperators of the example. -/
example (t : ℝ) (rho drhodt : Arr ℂ) :
    exComp.actWithSuperoperator t rho drhodt 1 ([1, 0] ++ [0, 1]) = drhodt ([1, 0] ++ [0, 1]) +
      ∑ u ∈ boxFinset [0, 0] [1, 2], ∑ u' ∈ boxFinset [0, 0] [1, 2], extend 2 [1] lower [1, 0] u * rho (u ++ u') * conj (extend 2 [1] lower [0, 1] u') := by
  obtain ⟨li, h1, h2, -, h4⟩ := exComp_jump t 2
  have g : Geo 2 [1] [0, 0] [1, 2] := ⟨valid1, exComp_ok.bounds, rfl⟩
  exact comp_superoperator_operator exComp exComp_ok t rho drhodt 1 0 _ li rfl h1 (by omega) (by simp [exComp_parts, nAvr, getLA, exFree, exAct]) lower
    (fun rho drhodt s s' hs hs' => h4 rho drhodt s s' (g.mem_slice.1 hs).1) [1, 0] [0, 1] (by
    refine ⟨rfl, fun j hj => ?_⟩
    have hj : j < 2 := hj
    interval_cases j <;> simp [exComp]) (by
    refine ⟨rfl, fun j hj => ?_⟩
    have hj : j < 2 := hj
    interval_cases j <;> simp [exComp])

theorem exComp_length (tag : Tag) : ∀ p ∈ exComp.parts, LengthOK tag p := by
  rw [exComp_parts]
  intro p hp
  simp only [List.mem_cons, List.not_mem_nil, or_false] at hp
  rcases hp with rfl | rfl | rfl <;> cases tag <;> intro t m <;> rfl

/-- C29 for the example: three columns. -/
example (t : ℝ) (ldo : Ldo) : (exComp.averageLA .av t ldo).length = 3 :=
  (comp_average exComp exComp_ok .av t ldo (exComp_length .av)).2.2

/-- C30 for the example: the labels of the frees. -/
example : PartKeyOK .av { exFree 1 with axes := [0] } ["occupation"] ∧ PartKeyOK .li exAct [] :=
  ⟨keyPrinter_ok "Lossy" ["occupation"], rfl⟩

/-- The binary system of the same subsystems. -/
noncomputable def exBin : Bin := { lb := [0, 0], ub := [1, 2], free0 := exFree 1, free1 := exFree 2, ia := exAct }

example : ValidBounds exBin.lb exBin.ub ∧ exBin.lb.length = 2 ∧ exBin.nAvr .li < 2 ^ 64 ∧ exBin.free1.li.isSome :=
  ⟨exComp_ok.bounds, rfl, by simp [Bin.nAvr, nAvr, getLA, exFree, exAct, exBin], rfl⟩

end CppQED.Composite
