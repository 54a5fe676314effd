import Mathlib.Analysis.SpecialFunctions.Exponential
import Mathlib.Analysis.Calculus.MeanValue
import Mathlib.Analysis.Normed.Module.FiniteDimension
import Mathlib.Tactic.Module
import Mathlib.Tactic.Positivity

/-! # Estimates for the unravelling of a Master equation: the local error of a step, and the semigroup -/

namespace CppQED.Unravel
open NormedSpace

variable {V : Type*} [NormedAddCommGroup V] [NormedSpace ℝ V] [NormedSpace ℂ V]

/-- The average over the outcomes of a step: `p = x - τ g(x) x + τ 𝒥 x`, with the normalised state `x` after the coherent evolution. -/
theorem local_algebra (G Jm : V →L[ℝ] V) (g tr : V →L[ℝ] ℂ) (hg : ∀ v, tr (G v) = -g v) (ρ x R : V) (τ : ℝ) (h1 : tr ρ = 1) (hsc : ∀ (a : ℝ) (v : V), (a : ℂ) • v = a • v)
    (hx : tr (ρ + τ • G ρ + R) • x = ρ + τ • G ρ + R) :
    x - (τ : ℂ) • g x • x + τ • Jm x - (ρ + τ • (G ρ + Jm ρ)) = R - tr R • x - (τ : ℂ) • g (x - ρ) • x + τ • Jm (x - ρ) ∧
    x - ρ = τ • G ρ + R + ((τ : ℂ) * g ρ - tr R) • x := by
  have hN : tr (ρ + τ • G ρ + R) = 1 - (τ : ℂ) * g ρ + tr R := by
    rw [map_add, map_add, map_smul, hg, h1, Complex.real_smul]; ring
  rw [hN] at hx
  have h2 : x - ρ = τ • G ρ + R + ((τ : ℂ) * g ρ - tr R) • x := by
    have : x = (1 - (τ : ℂ) * g ρ + tr R) • x + ((τ : ℂ) * g ρ - tr R) • x := by module
    rw [hx] at this
    nth_rewrite 1 [this]
    abel
  refine ⟨?_, h2⟩
  have h3 : x - (τ : ℂ) • g x • x + τ • Jm x - (ρ + τ • (G ρ + Jm ρ)) = (x - ρ) - τ • G ρ - (τ : ℂ) • g x • x + τ • (Jm x - Jm ρ) := by module
  have h4 : τ • G ρ = (x - ρ) - R - ((τ : ℂ) * g ρ - tr R) • x := by rw [h2]; abel
  rw [h3, h4, map_sub, map_sub]
  module

/-- The local error of a step is of second order (up to the error of the solver), uniformly in the state. -/
theorem local_estimate (G Jm : V →L[ℝ] V) (g tr : V →L[ℝ] ℂ) (hg : ∀ v, tr (G v) = -g v) (hsc : ∀ (a : ℝ) (v : V), (a : ℂ) • v = a • v) (c1 T : ℝ) (hc : 0 ≤ c1) :
    ∃ K, 0 ≤ K ∧ ∀ (ε τ : ℝ) (ρ x R : V), 0 ≤ ε → ε ≤ 1 → 0 ≤ τ → τ ≤ T → ‖ρ‖ ≤ 1 → ‖x‖ ≤ 1 → tr ρ = 1 → ‖R‖ ≤ c1 * (τ ^ 2 + ε * τ) →
      tr (ρ + τ • G ρ + R) • x = ρ + τ • G ρ + R →
      ‖x - (τ : ℂ) • g x • x + τ • Jm x - (ρ + τ • (G ρ + Jm ρ))‖ ≤ K * (τ ^ 2 + ε * τ) := by
  by_cases hT : T < 0
  · exact ⟨0, le_rfl, fun ε τ ρ x R _ _ h1 h2 => absurd (h1.trans h2) (not_le.2 hT)⟩
  have hT : 0 ≤ T := not_lt.1 hT
  let K1 := ‖G‖ + ‖g‖ + c1 * (T + 1) * (1 + ‖tr‖)
  refine ⟨c1 * (1 + ‖tr‖) + (‖g‖ + ‖Jm‖) * K1, by positivity, ?_⟩
  intro ε τ ρ x R hε hε1 hτ hτT hρ hx htr hR hN
  obtain ⟨e1, e2⟩ := local_algebra G Jm g tr hg ρ x R τ htr hsc hN
  have hτ' : ‖(τ : ℂ)‖ = τ := by rw [Complex.norm_real, Real.norm_of_nonneg hτ]
  have b1 : ‖tr R‖ ≤ ‖tr‖ * (c1 * (τ ^ 2 + ε * τ)) := (tr.le_opNorm R).trans (mul_le_mul_of_nonneg_left hR (norm_nonneg _))
  have b2 : ‖g ρ‖ ≤ ‖g‖ := (g.le_opNorm ρ).trans (mul_le_of_le_one_right (norm_nonneg _) hρ)
  have b3 : ‖G ρ‖ ≤ ‖G‖ := (G.le_opNorm ρ).trans (mul_le_of_le_one_right (norm_nonneg _) hρ)
  have b0 : τ ^ 2 + ε * τ ≤ (T + 1) * τ := by nlinarith
  have hD : ‖x - ρ‖ ≤ K1 * τ := by
    rw [e2]
    have s1 : ‖τ • G ρ‖ ≤ τ * ‖G‖ := by rw [norm_smul, Real.norm_of_nonneg hτ]; gcongr
    have s2 : ‖((τ : ℂ) * g ρ - tr R) • x‖ ≤ τ * ‖g‖ + ‖tr‖ * (c1 * (τ ^ 2 + ε * τ)) := by
      rw [norm_smul]
      refine (mul_le_of_le_one_right (norm_nonneg _) hx).trans ((norm_sub_le _ _).trans ?_)
      rw [norm_mul, hτ']
      gcongr
    calc ‖τ • G ρ + R + ((τ : ℂ) * g ρ - tr R) • x‖ ≤ ‖τ • G ρ‖ + ‖R‖ + ‖((τ : ℂ) * g ρ - tr R) • x‖ := norm_add₃_le
      _ ≤ τ * ‖G‖ + c1 * (τ ^ 2 + ε * τ) + (τ * ‖g‖ + ‖tr‖ * (c1 * (τ ^ 2 + ε * τ))) := by gcongr
      _ = τ * ‖G‖ + τ * ‖g‖ + c1 * (1 + ‖tr‖) * (τ ^ 2 + ε * τ) := by ring
      _ ≤ τ * ‖G‖ + τ * ‖g‖ + c1 * (1 + ‖tr‖) * ((T + 1) * τ) := by gcongr
      _ = K1 * τ := by simp only [K1]; ring
  rw [e1]
  have t1 : ‖tr R • x‖ ≤ ‖tr‖ * (c1 * (τ ^ 2 + ε * τ)) := by
    rw [norm_smul]; exact (mul_le_of_le_one_right (norm_nonneg _) hx).trans b1
  have t2 : ‖(τ : ℂ) • g (x - ρ) • x‖ ≤ τ * (‖g‖ * (K1 * τ)) := by
    rw [norm_smul, norm_smul, hτ']
    refine mul_le_mul_of_nonneg_left ?_ hτ
    refine (mul_le_of_le_one_right (norm_nonneg _) hx).trans ((g.le_opNorm _).trans ?_)
    gcongr
  have t3 : ‖τ • Jm (x - ρ)‖ ≤ τ * (‖Jm‖ * (K1 * τ)) := by
    rw [norm_smul, Real.norm_of_nonneg hτ]
    refine mul_le_mul_of_nonneg_left ((Jm.le_opNorm _).trans ?_) hτ
    gcongr
  have hK1 : 0 ≤ K1 := by positivity
  calc ‖R - tr R • x - (τ : ℂ) • g (x - ρ) • x + τ • Jm (x - ρ)‖
      ≤ ‖R‖ + ‖tr R • x‖ + ‖(τ : ℂ) • g (x - ρ) • x‖ + ‖τ • Jm (x - ρ)‖ := by
        refine (norm_add_le _ _).trans ?_
        gcongr
        refine (norm_sub_le _ _).trans ?_
        gcongr
        exact norm_sub_le _ _
    _ ≤ c1 * (τ ^ 2 + ε * τ) + ‖tr‖ * (c1 * (τ ^ 2 + ε * τ)) + τ * (‖g‖ * (K1 * τ)) + τ * (‖Jm‖ * (K1 * τ)) := by gcongr
    _ = c1 * (1 + ‖tr‖) * (τ ^ 2 + ε * τ) + (‖g‖ + ‖Jm‖) * K1 * τ ^ 2 := by ring
    _ ≤ c1 * (1 + ‖tr‖) * (τ ^ 2 + ε * τ) + (‖g‖ + ‖Jm‖) * K1 * (τ ^ 2 + ε * τ) := by
        gcongr
        nlinarith [mul_nonneg hε hτ]
    _ = _ := by ring

/-! ## The semigroup -/

section semigroup
variable {W : Type*} [NormedAddCommGroup W] [NormedSpace ℝ W] [FiniteDimensional ℝ W]

/-- The semigroup of the generator `A`. -/
noncomputable def semi (A : W →L[ℝ] W) (t : ℝ) : W →L[ℝ] W := exp (t • A)

local instance : CompleteSpace W := FiniteDimensional.complete ℝ W

theorem semi_zero (A : W →L[ℝ] W) : semi A 0 = 1 := by simp [semi]

theorem semi_add (A : W →L[ℝ] W) (s t : ℝ) : semi A (s + t) = semi A s * semi A t := by
  letI : NormedAlgebra ℚ (W →L[ℝ] W) := NormedAlgebra.restrictScalars ℚ ℝ _
  unfold semi
  rw [add_smul]
  exact exp_add_of_commute ((Commute.refl A).smul_left s |>.smul_right t)

theorem hasDerivAt_semi (A : W →L[ℝ] W) (t : ℝ) : HasDerivAt (semi A) (A * semi A t) t := hasDerivAt_exp_smul_const' A t

theorem semi_bound (A : W →L[ℝ] W) (T : ℝ) : ∃ M, 0 < M ∧ ∀ s, 0 ≤ s → s ≤ T → ‖semi A s‖ ≤ M := by
  have hc : ContinuousOn (semi A) (Set.Icc 0 T) := fun s _ => (hasDerivAt_semi A s).continuousAt.continuousWithinAt
  obtain ⟨C, hC⟩ := isCompact_Icc.exists_bound_of_continuousOn hc
  exact ⟨max C 1, by positivity, fun s h1 h2 => (hC s ⟨h1, h2⟩).trans (le_max_left _ _)⟩

/-- `exp(τA) = 1 + τA + O(τ²)`. -/
theorem semi_second (A : W →L[ℝ] W) (T : ℝ) : ∃ K, 0 ≤ K ∧ ∀ τ, 0 ≤ τ → τ ≤ T → ‖semi A τ - 1 - τ • A‖ ≤ K * τ ^ 2 := by
  obtain ⟨M, hM, hb⟩ := semi_bound A T
  have h1 : ∀ τ, 0 ≤ τ → τ ≤ T → ‖semi A τ - 1‖ ≤ ‖A‖ * M * τ := by
    intro τ h0 hT
    have := Convex.norm_image_sub_le_of_norm_hasDerivWithin_le (f := semi A) (f' := fun s => A * semi A s) (s := Set.Icc 0 τ) (x := 0) (y := τ) (C := ‖A‖ * M)
      (fun s _ => (hasDerivAt_semi A s).hasDerivWithinAt)
      (fun s hs => (norm_mul_le _ _).trans (mul_le_mul_of_nonneg_left (hb s hs.1 (hs.2.trans hT)) (norm_nonneg _))) (convex_Icc _ _) ⟨le_rfl, h0⟩ ⟨h0, le_rfl⟩
    rwa [semi_zero, sub_zero, Real.norm_of_nonneg h0] at this
  refine ⟨‖A‖ * (‖A‖ * M), by positivity, fun τ h0 hT => ?_⟩
  have hd : ∀ s, HasDerivAt (fun s => semi A s - 1 - s • A) (A * (semi A s - 1)) s := by
    intro s
    have := ((hasDerivAt_semi A s).sub_const 1).sub ((hasDerivAt_id s).smul_const A)
    refine this.congr_deriv ?_
    rw [mul_sub, mul_one, one_smul]
  have := Convex.norm_image_sub_le_of_norm_hasDerivWithin_le (f := fun s => semi A s - 1 - s • A) (f' := fun s => A * (semi A s - 1)) (s := Set.Icc 0 τ) (x := 0) (y := τ)
    (C := ‖A‖ * (‖A‖ * M * τ)) (fun s _ => (hd s).hasDerivWithinAt)
    (fun s hs => (norm_mul_le _ _).trans (mul_le_mul_of_nonneg_left ((h1 s hs.1 (hs.2.trans hT)).trans (mul_le_mul_of_nonneg_left hs.2 (by positivity))) (norm_nonneg _)))
    (convex_Icc _ _) ⟨le_rfl, h0⟩ ⟨h0, le_rfl⟩
  simp only [semi_zero, zero_smul, sub_zero, sub_self, Real.norm_of_nonneg h0] at this
  refine this.trans (le_of_eq ?_)
  ring

/-- A solution of the equation `dρ/dt = Aρ` is given by the semigroup. -/
theorem semi_unique (A : W →L[ℝ] W) (T : ℝ) (hT : 0 ≤ T) (ρ : ℝ → W) (hρ : ∀ t, 0 ≤ t → t ≤ T → HasDerivAt ρ (A (ρ t)) t) : ρ T = semi A T (ρ 0) := by
  have hd : ∀ t, 0 ≤ t → t ≤ T → HasDerivAt (fun s => semi A (T - s) (ρ s)) 0 t := by
    intro t h0 h1
    have hs : HasDerivAt (fun s => semi A (T - s)) (-(A * semi A (T - t))) t := by
      have := (hasDerivAt_semi A (T - t)).scomp t ((hasDerivAt_id t).const_sub T)
      exact this.congr_deriv (by rw [neg_one_smul])
    have := hs.clm_apply (hρ t h0 h1)
    refine this.congr_deriv ?_
    have hc : A * semi A (T - t) = semi A (T - t) * A := ((Commute.refl A).smul_right (T - t)).exp_right.eq
    rw [hc]
    simp
  have hcont : ContinuousOn (fun s => semi A (T - s) (ρ s)) (Set.Icc 0 T) := fun t ht => (hd t ht.1 ht.2).continuousAt.continuousWithinAt
  have := constant_of_has_deriv_right_zero hcont (fun t ht => (hd t ht.1 ht.2.le).hasDerivWithinAt) T ⟨hT, le_rfl⟩
  simpa [semi_zero] using this

end semigroup

end CppQED.Unravel
