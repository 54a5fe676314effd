import Verif.Model.Distribution
import Mathlib.Analysis.SpecialFunctions.PolarCoord
import Mathlib.MeasureTheory.Integral.Gamma
import Mathlib.Analysis.SpecialFunctions.Gaussian.GaussianIntegral
import Mathlib.MeasureTheory.Integral.Prod
import Mathlib.Analysis.SpecialFunctions.Integrals.Basic
import Mathlib.Tactic

/-!
# The Wigner function: C81, C82
-/

open MeasureTheory

namespace CppQED.Distribution

theorem radial_integral (i : ℕ) : ∫ r in Set.Ioi (0 : ℝ), r ^ (2 * i + 1) * Real.exp (-2 * r ^ 2) = (i.factorial : ℝ) / (4 * 2 ^ i) := by
  have h := integral_rpow_mul_exp_neg_mul_rpow (p := 2) (q := (2 * i + 1 : ℕ)) (b := 2) (by norm_num) (by push_cast; linarith [(Nat.cast_nonneg i : (0 : ℝ) ≤ i)]) (by norm_num)
  have e : ∀ r : ℝ, r ^ (((2 * i + 1 : ℕ) : ℝ)) * Real.exp (-2 * r ^ (2 : ℝ)) = r ^ (2 * i + 1) * Real.exp (-2 * r ^ 2) := fun r => by
    rw [Real.rpow_natCast, Real.rpow_two]
  simp only [e] at h
  rw [h]
  have e2 : (((2 * i + 1 : ℕ) : ℝ) + 1) / 2 = i + 1 := by push_cast; ring
  rw [neg_div, e2, Real.Gamma_nat_eq_factorial, Real.rpow_neg (by norm_num), show ((i : ℝ) + 1) = ((i + 1 : ℕ) : ℝ) by push_cast; ring, Real.rpow_natCast, pow_succ]
  field_simp
  norm_num

theorem radial_integrable (m : ℕ) : IntegrableOn (fun r : ℝ => r ^ m * Real.exp (-2 * r ^ 2)) (Set.Ioi 0) := by
  have := integrableOn_rpow_mul_exp_neg_mul_sq (b := 2) (by norm_num) (s := m) (by linarith [(Nat.cast_nonneg m : (0 : ℝ) ≤ m)])
  simpa only [Real.rpow_natCast] using this

/-- `w` as a sum of monomials times a Gaussian. -/
theorem w_eq (n k : ℕ) (r : ℝ) : r * w n r k = ∑ i ∈ Finset.range (n + 1), ((-1) ^ n / Real.pi * Real.sqrt (n.factorial / (n + k).factorial) * 2 ^ k * ((-1) ^ i * ((n + k).choose (n - i) : ℝ) * 4 ^ i / (i.factorial : ℝ))) * (r ^ (2 * i + 1 + k) * Real.exp (-2 * r ^ 2)) := by
  unfold w laguerre
  rw [Finset.mul_sum, Finset.mul_sum]
  refine Finset.sum_congr rfl fun i _ => ?_
  rw [mul_pow, mul_pow, ← pow_mul, pow_add, pow_succ r (2 * i)]
  ring

theorem w_integrable (n k : ℕ) : IntegrableOn (fun r : ℝ => r * w n r k) (Set.Ioi 0) := by
  simp only [w_eq]
  exact integrable_finset_sum _ fun i _ => (radial_integrable _).const_mul _

theorem w_integral (n : ℕ) : ∫ r in Set.Ioi (0 : ℝ), r * w n r 0 = 1 / (4 * Real.pi) := by
  simp only [w_eq, add_zero]
  rw [integral_finset_sum _ fun i _ => (radial_integrable _).const_mul _]
  have hf : ((n.factorial : ℝ) / (n.factorial : ℝ)) = 1 := div_self (by exact_mod_cast n.factorial_ne_zero)
  have hb : ∑ i ∈ Finset.range (n + 1), ((-1 : ℝ)) ^ i * (n.choose (n - i) : ℝ) * 2 ^ i = (-1) ^ n := by
    have := add_pow (-2 : ℝ) 1 n
    rw [show (-2 : ℝ) + 1 = -1 by norm_num] at this
    rw [this]
    refine Finset.sum_congr rfl fun i hi => ?_
    rw [Nat.choose_symm (by simpa [Nat.lt_succ_iff] using hi), one_pow, show (-2 : ℝ) = -1 * 2 by norm_num, mul_pow]
    ring
  have : ∀ i ∈ Finset.range (n + 1), ∫ r in Set.Ioi (0 : ℝ), ((-1) ^ n / Real.pi * Real.sqrt (n.factorial / n.factorial) * 2 ^ 0 * ((-1) ^ i * (n.choose (n - i) : ℝ) * 4 ^ i / (i.factorial : ℝ))) * (r ^ (2 * i + 1) * Real.exp (-2 * r ^ 2)) = (-1) ^ n / (4 * Real.pi) * ((-1 : ℝ) ^ i * (n.choose (n - i) : ℝ) * 2 ^ i) := by
    intro i _
    rw [integral_const_mul, radial_integral, hf, Real.sqrt_one, show (4 : ℝ) = 2 * 2 by norm_num, mul_pow]
    have h1 : (i.factorial : ℝ) ≠ 0 := by exact_mod_cast i.factorial_ne_zero
    have h2 := Real.pi_pos.ne'
    field_simp
  rw [Finset.sum_congr rfl this, ← Finset.mul_sum, hb]
  have : (-1 : ℝ) ^ n * (-1) ^ n = 1 := by rw [← mul_pow]; norm_num
  rw [div_mul_eq_mul_div, this]

theorem angular_integral (z : ℂ) (k : ℕ) : ∫ φ in Set.Ioo (-Real.pi) Real.pi, (z * Complex.exp (-Complex.I * (k * φ))).re = if k = 0 then 2 * Real.pi * z.re else 0 := by
  have h : ∀ φ : ℝ, (z * Complex.exp (-Complex.I * (k * φ))).re = z.re * Real.cos (k * φ) + z.im * Real.sin (k * φ) := by
    intro φ
    rw [show -Complex.I * (k * φ) = ((-(k * φ) : ℝ) : ℂ) * Complex.I by push_cast; ring, Complex.mul_re, Complex.exp_ofReal_mul_I_re, Complex.exp_ofReal_mul_I_im, Real.cos_neg, Real.sin_neg]
    ring
  simp only [h]
  rw [← integral_Ioc_eq_integral_Ioo, ← intervalIntegral.integral_of_le (by linarith [Real.pi_pos])]
  rw [intervalIntegral.integral_add ((by fun_prop : Continuous fun φ : ℝ => z.re * Real.cos (k * φ)).intervalIntegrable _ _) ((by fun_prop : Continuous fun φ : ℝ => z.im * Real.sin (k * φ)).intervalIntegrable _ _)]
  split_ifs with hk
  · subst hk
    simp only [Nat.cast_zero, zero_mul, Real.cos_zero, Real.sin_zero, mul_one, mul_zero, intervalIntegral.integral_const, smul_eq_mul, add_zero]
    ring
  · have hk' : (k : ℝ) ≠ 0 := by exact_mod_cast hk
    rw [intervalIntegral.integral_const_mul, intervalIntegral.integral_const_mul, intervalIntegral.integral_comp_mul_left (fun x => Real.cos x) hk', intervalIntegral.integral_comp_mul_left (fun x => Real.sin x) hk', integral_cos, integral_sin]
    simp [Real.sin_nat_mul_pi, mul_neg, Real.cos_neg]

theorem angular_integrable (z : ℂ) (k : ℕ) : IntegrableOn (fun φ : ℝ => (z * Complex.exp (-Complex.I * (k * φ))).re) (Set.Ioo (-Real.pi) Real.pi) := by
  have : Continuous fun φ : ℝ => (z * Complex.exp (-Complex.I * (k * φ))).re := by fun_prop
  exact (this.integrableOn_Icc (a := -Real.pi) (b := Real.pi)).mono_set Set.Ioo_subset_Icc_self

/-- One term of the sum, in polar coordinates. -/
noncomputable def term (ρ : ℕ → ℕ → ℂ) (n k : ℕ) (p : ℝ × ℝ) : ℝ := (p.1 * w n p.1 k) * (ρ (n + k) n * Complex.exp (-Complex.I * (k * p.2))).re

theorem term_integrable (ρ : ℕ → ℕ → ℂ) (n k : ℕ) : IntegrableOn (term ρ n k) (Set.Ioi 0 ×ˢ Set.Ioo (-Real.pi) Real.pi) := by
  have := (w_integrable n k).mul_prod (angular_integrable (ρ (n + k) n) k)
  unfold IntegrableOn
  rwa [Measure.volume_eq_prod, ← Measure.prod_restrict]

theorem term_integral (ρ : ℕ → ℕ → ℂ) (n k : ℕ) : ∫ p in Set.Ioi 0 ×ˢ Set.Ioo (-Real.pi) Real.pi, term ρ n k p = if k = 0 then (ρ n n).re / 2 else 0 := by
  have := setIntegral_prod_mul (μ := volume) (ν := volume) (fun r : ℝ => r * w n r k) (fun φ : ℝ => (ρ (n + k) n * Complex.exp (-Complex.I * (k * φ))).re) (Set.Ioi 0) (Set.Ioo (-Real.pi) Real.pi)
  rw [Measure.volume_eq_prod]
  unfold term
  rw [this, angular_integral]
  split_ifs with hk
  · subst hk
    rw [w_integral]
    have := Real.pi_pos.ne'
    simp only [add_zero]
    field_simp
    ring
  · simp

/-- The Wigner function at a point given with polar coordinates. -/
theorem wigner_polar (ρ : ℕ → ℕ → ℂ) (dim : ℕ) (tr : ℕ) {p : ℝ × ℝ} (hp : p ∈ Set.Ioi (0 : ℝ) ×ˢ Set.Ioo (-Real.pi) Real.pi) :
    p.1 * wignerFunction ρ dim (p.1 * Real.cos p.2) (p.1 * Real.sin p.2) tr = (∑ n ∈ Finset.range (wignerDim tr dim), term ρ n 0 p) + ∑ k ∈ Finset.range (wignerDim tr dim - 1), ∑ n ∈ Finset.range (wignerDim tr dim - (k + 1)), 2 * term ρ n (k + 1) p := by
  obtain ⟨r, φ⟩ := p
  obtain ⟨hr, hφ⟩ := hp
  simp only [Set.mem_Ioi, Set.mem_Ioo] at hr hφ
  have e1 : Real.sqrt ((r * Real.cos φ) ^ 2 + (r * Real.sin φ) ^ 2) = r := by
    rw [show (r * Real.cos φ) ^ 2 + (r * Real.sin φ) ^ 2 = r ^ 2 * (Real.sin φ ^ 2 + Real.cos φ ^ 2) by ring, Real.sin_sq_add_cos_sq, mul_one, Real.sqrt_sq hr.le]
  have e2 : (if r * Real.cos φ ≠ 0 ∨ r * Real.sin φ ≠ 0 then Complex.arg ⟨r * Real.cos φ, r * Real.sin φ⟩ else 0) = φ := by
    have h0 : r * Real.cos φ ≠ 0 ∨ r * Real.sin φ ≠ 0 := by
      by_contra h
      push Not at h
      have := Real.sin_sq_add_cos_sq φ
      rcases h with ⟨h1, h2⟩
      have h1 := (mul_eq_zero.1 h1).resolve_left hr.ne'
      have h2 := (mul_eq_zero.1 h2).resolve_left hr.ne'
      rw [h1, h2] at this
      norm_num at this
    rw [if_pos h0]
    have : (⟨r * Real.cos φ, r * Real.sin φ⟩ : ℂ) = r * (Complex.cos φ + Complex.sin φ * Complex.I) := by
      apply Complex.ext
      · simp [← Complex.ofReal_cos, ← Complex.ofReal_sin]
      · simp [← Complex.ofReal_cos, ← Complex.ofReal_sin]
    rw [this, Complex.arg_mul_cos_add_sin_mul_I hr ⟨hφ.1, hφ.2.le⟩]
  unfold wignerFunction
  dsimp only
  rw [e1, e2, mul_add, Finset.mul_sum]
  congr 1
  · unfold wHelper
    rw [Complex.re_sum, Finset.mul_sum, Nat.sub_zero]
    refine Finset.sum_congr rfl fun n _ => ?_
    simp [term]
    ring
  · refine Finset.sum_congr rfl fun k _ => ?_
    unfold wHelper
    rw [Finset.sum_mul, Complex.re_sum, Finset.mul_sum, Finset.mul_sum]
    refine Finset.sum_congr rfl fun n _ => ?_
    unfold term
    dsimp only
    rw [mul_assoc (w n r (k + 1) : ℂ), Complex.re_ofReal_mul]
    ring

/-- **C82.** The integral of the Wigner function over the plane is half of the trace: not 1, as it would have to be for a normalised quasi-probability distribution. -/
theorem wigner_normalization_partial (ρ : ℕ → ℕ → ℂ) (dim tr : ℕ) : ∫ p : ℝ × ℝ, wignerFunction ρ dim p.1 p.2 tr = (∑ n ∈ Finset.range (wignerDim tr dim), (ρ n n).re) / 2 := by
  have h := integral_comp_polarCoord_symm (E := ℝ) fun p => wignerFunction ρ dim p.1 p.2 tr
  rw [← h]
  have ht : polarCoord.target = Set.Ioi (0 : ℝ) ×ˢ Set.Ioo (-Real.pi) Real.pi := rfl
  have e : ∫ p in polarCoord.target, p.1 • wignerFunction ρ dim (polarCoord.symm p).1 (polarCoord.symm p).2 tr = ∫ p in Set.Ioi (0 : ℝ) ×ˢ Set.Ioo (-Real.pi) Real.pi, ((∑ n ∈ Finset.range (wignerDim tr dim), term ρ n 0 p) + ∑ k ∈ Finset.range (wignerDim tr dim - 1), ∑ n ∈ Finset.range (wignerDim tr dim - (k + 1)), 2 * term ρ n (k + 1) p) := by
    rw [ht]
    refine setIntegral_congr_fun (measurableSet_Ioi.prod measurableSet_Ioo) fun p hp => ?_
    exact wigner_polar ρ dim tr hp
  rw [e, integral_add (integrable_finset_sum _ fun n _ => term_integrable ρ n 0) (integrable_finset_sum _ fun k _ => integrable_finset_sum _ fun n _ => (term_integrable ρ n (k + 1)).const_mul 2)]
  rw [integral_finset_sum _ fun n _ => term_integrable ρ n 0, integral_finset_sum _ fun k _ => integrable_finset_sum _ fun n _ => (term_integrable ρ n (k + 1)).const_mul 2]
  have z : ∀ k ∈ Finset.range (wignerDim tr dim - 1), ∫ p in Set.Ioi (0 : ℝ) ×ˢ Set.Ioo (-Real.pi) Real.pi, ∑ n ∈ Finset.range (wignerDim tr dim - (k + 1)), 2 * term ρ n (k + 1) p = 0 := by
    intro k _
    rw [integral_finset_sum _ fun n _ => (term_integrable ρ n (k + 1)).const_mul 2]
    refine Finset.sum_eq_zero fun n _ => ?_
    rw [integral_const_mul, term_integral, if_neg (by omega), mul_zero]
  rw [Finset.sum_eq_zero z, add_zero, Finset.sum_div]
  refine Finset.sum_congr rfl fun n _ => ?_
  rw [term_integral, if_pos rfl]

/-- **C82.** A concrete case: the vacuum has `1/2` instead of 1. -/
theorem wigner_vacuum_not_normalized : ∫ p : ℝ × ℝ, wignerFunction (fun m n => if m = 0 ∧ n = 0 then 1 else 0) 5 p.1 p.2 0 ≠ 1 := by
  rw [wigner_normalization_partial]
  norm_num [wignerDim, Finset.sum_range_succ]

/-- **C81.** Rotating the state rotates the Wigner function: the density operator evolved freely for the phase `θ`. -/
theorem wigner_rotation (ρ : ℕ → ℕ → ℂ) (dim tr : ℕ) {r φ θ : ℝ} (hr : 0 < r) (h1 : φ ∈ Set.Ioo (-Real.pi) Real.pi) (h2 : φ + θ ∈ Set.Ioo (-Real.pi) Real.pi) :
    wignerFunction (fun m n => Complex.exp (Complex.I * (m - n : ℂ) * θ) * ρ m n) dim (r * Real.cos (φ + θ)) (r * Real.sin (φ + θ)) tr = wignerFunction ρ dim (r * Real.cos φ) (r * Real.sin φ) tr := by
  have a := wigner_polar (fun m n => Complex.exp (Complex.I * (m - n : ℂ) * θ) * ρ m n) dim tr (p := (r, φ + θ)) ⟨hr, h2⟩
  have b := wigner_polar ρ dim tr (p := (r, φ)) ⟨hr, h1⟩
  have key : ∀ n k, term (fun m n => Complex.exp (Complex.I * (m - n : ℂ) * θ) * ρ m n) n k (r, φ + θ) = term ρ n k (r, φ) := by
    intro n k
    unfold term
    dsimp only
    congr 2
    rw [mul_right_comm, ← Complex.exp_add, mul_comm]
    congr 2
    push_cast
    ring
  simp only [key] at a
  rw [← b] at a
  exact mul_left_cancel₀ hr.ne' a

/-- **C81.** The Wigner function is linear in the density operator. -/
theorem wigner_linear (ρ σ : ℕ → ℕ → ℂ) (a b : ℝ) (dim tr : ℕ) (x y : ℝ) :
    wignerFunction (fun m n => a * ρ m n + b * σ m n) dim x y tr = a * wignerFunction ρ dim x y tr + b * wignerFunction σ dim x y tr := by
  have hh : ∀ d r k, wHelper (fun m n => a * ρ m n + b * σ m n) d r k = a * wHelper ρ d r k + b * wHelper σ d r k := by
    intro d r k
    unfold wHelper
    rw [Finset.mul_sum, Finset.mul_sum, ← Finset.sum_add_distrib]
    exact Finset.sum_congr rfl fun n _ => by ring
  unfold wignerFunction
  dsimp only
  simp only [hh, add_mul, Complex.add_re, mul_assoc (a : ℂ), mul_assoc (b : ℂ), Complex.re_ofReal_mul]
  rw [mul_add, mul_add, Finset.mul_sum, Finset.mul_sum]
  have : ∀ (f g : ℕ → ℝ) (s : Finset ℕ), ∑ k ∈ s, 2 * (a * f k + b * g k) = ∑ k ∈ s, a * (2 * f k) + ∑ k ∈ s, b * (2 * g k) := by
    intro f g s
    rw [← Finset.sum_add_distrib]
    exact Finset.sum_congr rfl fun _ _ => by ring
  rw [this]
  ring

/-- **C81.** In the origin it is the parity of the photon number over `π`. -/
theorem wigner_origin (ρ : ℕ → ℕ → ℂ) (dim tr : ℕ) : wignerFunction ρ dim 0 0 tr = (∑ n ∈ Finset.range (wignerDim tr dim), (-1) ^ n * (ρ n n).re) / Real.pi := by
  have h0 : ∀ n, w n 0 0 = (-1) ^ n / Real.pi := by
    intro n
    have : (n.factorial : ℝ) / n.factorial = 1 := div_self (by exact_mod_cast n.factorial_ne_zero)
    unfold w laguerre
    rw [Finset.sum_eq_single 0]
    · simp [this]
    · intro i _ hi
      simp [hi]
    · simp
  have hk : ∀ n k, w n 0 (k + 1) = 0 := fun n k => by simp [w]
  unfold wignerFunction
  simp only [ne_eq, not_true_eq_false, or_self, if_false]
  rw [show Real.sqrt ((0 : ℝ) ^ 2 + 0 ^ 2) = 0 by simp]
  rw [Finset.sum_eq_zero (s := Finset.range (wignerDim tr dim - 1)), add_zero]
  · unfold wHelper
    rw [Complex.re_sum, Nat.sub_zero, Finset.sum_div]
    refine Finset.sum_congr rfl fun n _ => ?_
    rw [h0, Complex.re_ofReal_mul, add_zero]
    ring
  · intro k _
    simp [wHelper, hk]

/-- **C81.** The truncated dimension: the state with the higher components left out, never beyond the actual dimension. -/
theorem wigner_truncated (ρ : ℕ → ℕ → ℂ) (dim tr : ℕ) (x y : ℝ) : wignerFunction ρ dim x y tr = wignerFunction ρ (if tr = 0 then dim else min tr dim) x y 0 := by
  have : wignerDim tr dim = wignerDim 0 (if tr = 0 then dim else min tr dim) := by
    unfold wignerDim
    by_cases h : tr = 0
    · simp [h]
    · by_cases h' : tr < dim
      · simp [h, h', min_eq_left h'.le]
      · simp [h, h', min_eq_right (not_lt.1 h')]
  unfold wignerFunction
  rw [this]

example : wignerFunction (fun m n => if m = 1 ∧ n = 1 then 1 else 0) 3 0 0 0 = -1 / Real.pi := by
  rw [wigner_origin]
  norm_num [wignerDim, Finset.sum_range_succ]

end CppQED.Distribution
