import Verif.Model.Distribution
import Verif.Props.MathExtensions
import Mathlib.Analysis.Matrix.PosDef
import Mathlib.Tactic

/-!
# Quasi-probability distributions: C49
-/

namespace CppQED.Spec

/-- The expectation value `<α|ρ|α>` in the Fock space of a given dimension. -/
noncomputable def husimi {d : ℕ} (ρ : Matrix (Fin d) (Fin d) ℂ) (α : ℂ) : ℂ :=
  ∑ m : Fin d, ∑ n : Fin d, star (coherentComponent α m) * ρ m n * coherentComponent α n

/-- The points of a regular grid from `l`, as long as they are below `u`. -/
noncomputable def grid (l u step : ℝ) : List ℝ := (List.range ⌈(u - l) / step⌉₊).map fun i : ℕ => l + i * step

end CppQED.Spec

open scoped ComplexOrder

namespace CppQED.Distribution
open CppQED.MathExt CppQED.Spec

variable {d : ℕ}

theorem coherentElement_conj (n : ℕ) (α : ℂ) : coherentElement n (starRingEnd ℂ α) = starRingEnd ℂ (coherentElement n α) := by
  obtain ⟨κ, h, -⟩ := coherentElement_spec n α
  unfold coherentElement
  split_ifs <;> simp

theorem q_sum (ρ : Matrix (Fin d) (Fin d) ℂ) (α : ℂ) :
    ∑ m : Fin d, ∑ n : Fin d, coherentElement n α * coherentElement m (starRingEnd ℂ α) * ρ m n = star (fun n : Fin d => coherentElement n α) ⬝ᵥ ρ.mulVec fun n : Fin d => coherentElement n α := by
  unfold dotProduct Matrix.mulVec dotProduct
  refine Finset.sum_congr rfl fun m _ => ?_
  rw [Finset.mul_sum]
  refine Finset.sum_congr rfl fun n _ => ?_
  rw [coherentElement_conj, Pi.star_apply]
  rw [show starRingEnd ℂ (coherentElement m α) = star (coherentElement m α) from rfl]
  ring

/-- **C49.** The Husimi function of a density operator is nowhere negative, for all cutoffs. -/
theorem qFunction_nonneg {ρ : Matrix (Fin d) (Fin d) ℂ} (h : ρ.PosSemidef) (x y : ℝ) : 0 ≤ qFunction ρ x y := by
  unfold qFunction
  refine mul_nonneg (Real.exp_pos _).le ?_
  rw [q_sum]
  have := h.dotProduct_mulVec_nonneg (fun n : Fin d => coherentElement n ⟨x, y⟩)
  exact (Complex.le_def.1 this).1

/-- **C49.** Nothing is lost with the real part: the sum is real for Hermitian matrices. -/
theorem qFunction_real {ρ : Matrix (Fin d) (Fin d) ℂ} (h : ρ.IsHermitian) (α : ℂ) :
    (∑ m : Fin d, ∑ n : Fin d, coherentElement n α * coherentElement m (starRingEnd ℂ α) * ρ m n).im = 0 := by
  rw [q_sum]
  exact h.im_star_dotProduct_mulVec_self _

/-- **C49.** The value is the expectation value of the density operator in the coherent state. -/
theorem qFunction_eq (ρ : Matrix (Fin d) (Fin d) ℂ) (hd : d ≤ 170) (x y : ℝ) : qFunction ρ x y = (husimi ρ ⟨x, y⟩).re := by
  unfold qFunction husimi
  dsimp only
  rw [← Complex.re_ofReal_mul, Finset.mul_sum]
  congr 1
  refine Finset.sum_congr rfl fun m _ => ?_
  rw [Finset.mul_sum]
  refine Finset.sum_congr rfl fun n _ => ?_
  rw [← coherent_components _ d m (by omega), ← coherent_components _ d n (by omega), coherentElement_conj]
  unfold coherent
  rw [star_mul']
  have e : star ((Real.exp (-sqrAbs ⟨x, y⟩ / 2) : ℝ) : ℂ) = (Real.exp (-sqrAbs ⟨x, y⟩ / 2) : ℝ) := Complex.conj_ofReal _
  have e2 : ((Real.exp (-sqrAbs ⟨x, y⟩) : ℝ) : ℂ) = (Real.exp (-sqrAbs ⟨x, y⟩ / 2) : ℝ) * (Real.exp (-sqrAbs ⟨x, y⟩ / 2) : ℝ) := by
    rw [← Complex.ofReal_mul, ← Real.exp_add]
    congr 2
    ring
  rw [e, e2, show starRingEnd ℂ (coherentElement m ⟨x, y⟩) = star (coherentElement m ⟨x, y⟩) from rfl]
  ring

theorem loop_grid {u step : ℝ} (hs : 0 < step) : ∀ (fuel : ℕ) (l : ℝ), ⌈(u - l) / step⌉₊ < fuel → loop u step fuel l = some (grid l u step) := by
  intro fuel
  induction fuel with
  | zero => intro l h; omega
  | succ fuel ih =>
    intro l h
    unfold loop
    by_cases hl : l < u
    · rw [if_pos hl]
      have hp : 0 < (u - l) / step := div_pos (by linarith) hs
      have e : ⌈(u - l) / step⌉₊ = ⌈(u - (l + step)) / step⌉₊ + 1 := by
        have : (u - (l + step)) / step = (u - l) / step - 1 := by field_simp; ring
        rw [this]
        rcases le_or_gt 1 ((u - l) / step) with h1 | h1
        · rw [Nat.ceil_sub_one]
          have := Nat.ceil_pos.2 hp
          omega
        · have z : ⌈(u - l) / step - 1⌉₊ = 0 := Nat.ceil_eq_zero.2 (by linarith)
          have o : ⌈(u - l) / step⌉₊ = 1 := (Nat.ceil_eq_iff one_ne_zero).2 ⟨by simpa using hp, by simpa using h1.le⟩
          rw [z, o]
      rw [ih (l + step) (by omega)]
      simp only [Option.map_some, grid, Option.some.injEq]
      rw [e, List.range_succ_eq_map, List.map_cons, List.map_map]
      simp only [List.cons.injEq]
      refine ⟨by simp, ?_⟩
      refine List.map_congr_left fun i _ => ?_
      simp only [Function.comp_apply]
      push_cast
      ring
    · rw [if_neg hl]
      have : ⌈(u - l) / step⌉₊ = 0 := Nat.ceil_eq_zero.2 (div_nonpos_of_nonpos_of_nonneg (by linarith) hs.le)
      simp [grid, this]

/-- **C49.** The scan over a grid with positive step terminates, with exactly the points of the regular grid, each once, with the value of the function in it. -/
theorem scanFunction_grid (f : ℝ → ℝ → ℝ) (p : Scan) (hs : 0 < p.fStep) : ∃ N, ∀ fuel ≥ N, scanFunction f p fuel =
    some ((grid p.limits.fLimitXL p.limits.fLimitXU p.fStep).map fun x => (grid p.limits.fLimitYL p.limits.fLimitYU p.fStep).map fun y => (x, y, f x y)) := by
  have hstep : p.limits.fStep = p.fStep := by unfold Scan.limits; dsimp only; split_ifs <;> rfl
  refine ⟨⌈(p.limits.fLimitXU - p.limits.fLimitXL) / p.fStep⌉₊ + ⌈(p.limits.fLimitYU - p.limits.fLimitYL) / p.fStep⌉₊ + 1, fun fuel hf => ?_⟩
  unfold scanFunction
  dsimp only
  rw [hstep, loop_grid hs fuel _ (by omega), loop_grid hs fuel _ (by omega)]
  simp only [Option.bind_eq_bind, Option.bind_some, Option.pure_def]
  generalize grid p.limits.fLimitXL p.limits.fLimitXU p.fStep = xs
  induction xs with
  | nil => rfl
  | cons x xs ih => rw [List.mapM_cons, ih]; rfl

/-- **C49.** The grid consists of all the points `l+i·step` of the half-open interval. -/
theorem mem_grid {l u step : ℝ} (hs : 0 < step) (x : ℝ) : x ∈ grid l u step ↔ ∃ i : ℕ, x = l + i * step ∧ x < u := by
  unfold grid
  simp only [List.mem_map, List.mem_range, Nat.lt_ceil]
  constructor
  · rintro ⟨i, hi, rfl⟩
    refine ⟨i, rfl, ?_⟩
    rw [lt_div_iff₀ hs] at hi
    linarith
  · rintro ⟨i, rfl, hx⟩
    refine ⟨i, ?_, rfl⟩
    rw [lt_div_iff₀ hs]
    linarith

theorem grid_nodup {l u step : ℝ} (hs : 0 < step) : (grid l u step).Nodup := by
  refine List.Nodup.map ?_ List.nodup_range
  intro i j hij
  simp only [add_right_inj] at hij
  have := mul_right_cancel₀ hs.ne' hij
  exact_mod_cast this

/-- **C49.** With a step that is not positive the scan does not end, unless the window is empty. -/
theorem scanFunction_diverges (f : ℝ → ℝ → ℝ) (p : Scan) (hs : p.fStep ≤ 0) (hx : p.limits.fLimitXL < p.limits.fLimitXU) (fuel : ℕ) : scanFunction f p fuel = none := by
  have hstep : p.limits.fStep = p.fStep := by unfold Scan.limits; dsimp only; split_ifs <;> rfl
  have key : ∀ (fuel : ℕ) (l : ℝ), l < p.limits.fLimitXU → loop p.limits.fLimitXU p.fStep fuel l = none := by
    intro fuel
    induction fuel with
    | zero => intros; rfl
    | succ fuel ih =>
      intro l hl
      unfold loop
      rw [if_pos hl, ih _ (by linarith)]
      rfl
  unfold scanFunction
  dsimp only
  rw [hstep, key _ _ hx]
  rfl

/-- **C49.** With the defaults, the scan is over the 40×40 points of the square `[-2,2)×[-2,2)` with distance 0.1. -/
theorem scanFunction_default (f : ℝ → ℝ → ℝ) : ∃ N, ∀ fuel ≥ N, scanFunction f defaultScan fuel =
    some ((List.range 40).map fun (i : ℕ) => (List.range 40).map fun (j : ℕ) => (-2 + (i : ℝ) / 10, -2 + (j : ℝ) / 10, f (-2 + (i : ℝ) / 10) (-2 + (j : ℝ) / 10))) := by
  obtain ⟨N, h⟩ := scanFunction_grid f defaultScan (by norm_num [defaultScan])
  refine ⟨N, fun fuel hf => ?_⟩
  rw [h fuel hf]
  simp only [Scan.limits, defaultScan, grid]
  norm_num
  simp only [Function.comp_def, mul_one_div]
  exact fun _ _ _ _ => ⟨trivial, trivial, trivial⟩

/-- **C49.** The window: symmetric with the half-width `fLimitXUL` if this is not zero, irrespective of the given limits; similarly in the other direction. -/
theorem limits_spec (p : Scan) :
    (p.fLimitXUL ≠ 0 → p.limits.fLimitXL = -p.fLimitXUL ∧ p.limits.fLimitXU = p.fLimitXUL) ∧ (p.fLimitXUL = 0 → p.limits.fLimitXL = p.fLimitXL ∧ p.limits.fLimitXU = p.fLimitXU) ∧
    (p.fLimitYUL ≠ 0 → p.limits.fLimitYL = -p.fLimitYUL ∧ p.limits.fLimitYU = p.fLimitYUL) ∧ (p.fLimitYUL = 0 → p.limits.fLimitYL = p.fLimitYL ∧ p.limits.fLimitYU = p.fLimitYU) := by
  unfold Scan.limits
  by_cases h1 : p.fLimitXUL = 0 <;> by_cases h2 : p.fLimitYUL = 0 <;> simp [h1, h2]

/-- **C49.** So with the defaults, the limits given by the user on the command line are overwritten, unless `fLimitXUL` is also set to zero. -/
theorem limits_ignored (a b : ℝ) : ({ defaultScan with fLimitXL := a, fLimitXU := b } : Scan).limits.fLimitXL = -2 := by
  have := (limits_spec { defaultScan with fLimitXL := a, fLimitXU := b }).1 (by simp [defaultScan])
  rw [this.1]
  simp [defaultScan]

example : 0 ≤ qFunction (!![1 / 2, 0; 0, 1 / 2] : Matrix (Fin 2) (Fin 2) ℂ) 1 2 := by
  refine qFunction_nonneg ?_ 1 2
  have : (!![1 / 2, 0; 0, 1 / 2] : Matrix (Fin 2) (Fin 2) ℂ) = (1 / 2 : ℝ) • (1 : Matrix (Fin 2) (Fin 2) ℂ) := by
    ext i j; fin_cases i <;> fin_cases j <;> simp
  rw [this]
  exact Matrix.PosSemidef.one.smul (by norm_num)

end CppQED.Distribution
