import Verif.Lemmas.MasterGlobal
import Mathlib.LinearAlgebra.Matrix.PosDef
import Mathlib.Analysis.Matrix.Order

/-! # Helper lemmas: the solutions of Master equations remain positive -/

namespace CppQED.Master
open Matrix Unravel Spec Filter
open scoped ComplexConjugate ComplexOrder

variable {n : ℕ}

section product
variable {E : Type*} [NormedAddCommGroup E] [NormedSpace ℝ E] [FiniteDimensional ℝ E]

/-- Powers of a map consistent with the semigroup approximate it. -/
theorem power_error (A Q : E →L[ℝ] E) : ∃ K Γ, 0 ≤ K ∧ 0 ≤ Γ ∧ ∀ h, 0 ≤ h → h ≤ 1 → ∀ k : ℕ, ‖(1 + h • A + h ^ 2 • Q) ^ k - semi A (k * h)‖ ≤ k * (K * h ^ 2) * Real.exp (Γ * (k * h)) := by
  obtain ⟨K, hK, hKb⟩ := semi_second A 1
  obtain ⟨Λ, hΛ, hgrow⟩ := semi_growth A
  set c := ‖A‖ + ‖Q‖ with hc
  have hc0 : 0 ≤ c := by positivity
  refine ⟨K + ‖Q‖, Λ + c, by positivity, by positivity, fun h h0 h1 k => ?_⟩
  set Φ := 1 + h • A + h ^ 2 • Q with hΦ
  have hloc : ‖Φ - semi A h‖ ≤ (K + ‖Q‖) * h ^ 2 := by
    have e : Φ - semi A h = h ^ 2 • Q - (semi A h - 1 - h • A) := by rw [hΦ]; abel
    rw [e]
    refine (norm_sub_le _ _).trans ?_
    rw [norm_smul, Real.norm_of_nonneg (by positivity)]
    have := hKb h h0 h1
    linarith
  have hΦn : ‖Φ‖ ≤ Real.exp (c * h) := by
    have e1 : ‖Φ‖ ≤ ‖(1 : E →L[ℝ] E)‖ + ‖h • A‖ + ‖h ^ 2 • Q‖ := (norm_add_le _ _).trans (add_le_add (norm_add_le _ _) le_rfl)
    rw [norm_smul, norm_smul, Real.norm_of_nonneg h0, Real.norm_of_nonneg (by positivity)] at e1
    have e2 : ‖(1 : E →L[ℝ] E)‖ ≤ 1 := ContinuousLinearMap.norm_id_le
    have e3 : h ^ 2 * ‖Q‖ ≤ h * ‖Q‖ := mul_le_mul_of_nonneg_right (by nlinarith) (norm_nonneg _)
    have e4 := Real.add_one_le_exp (c * h)
    rw [hc] at e4 ⊢
    nlinarith
  have hΦk : ∀ k : ℕ, ‖Φ ^ k‖ ≤ Real.exp (c * (k * h)) := by
    intro k
    induction k with
    | zero => simp only [pow_zero, Nat.cast_zero, zero_mul, mul_zero, Real.exp_zero]; exact ContinuousLinearMap.norm_id_le
    | succ k ih =>
      rw [pow_succ]
      refine (norm_mul_le _ _).trans ((mul_le_mul ih hΦn (norm_nonneg _) (Real.exp_nonneg _)).trans_eq ?_)
      rw [← Real.exp_add]; congr 1; push_cast; ring
  induction k with
  | zero => simp [semi_zero]
  | succ k ih =>
    have e : Φ ^ (k + 1) - semi A ((k + 1 : ℕ) * h) = (Φ - semi A h) * Φ ^ k + semi A h * (Φ ^ k - semi A (k * h)) := by
      rw [show ((k + 1 : ℕ) : ℝ) * h = h + k * h by push_cast; ring, semi_add, pow_succ']
      noncomm_ring
    rw [e]
    refine (norm_add_le _ _).trans ((add_le_add (norm_mul_le _ _) (norm_mul_le _ _)).trans ?_)
    have a1 : ‖Φ - semi A h‖ * ‖Φ ^ k‖ ≤ (K + ‖Q‖) * h ^ 2 * Real.exp (c * (k * h)) := mul_le_mul hloc (hΦk k) (norm_nonneg _) (by positivity)
    have a2 : ‖semi A h‖ * ‖Φ ^ k - semi A (k * h)‖ ≤ Real.exp (Λ * h) * (k * ((K + ‖Q‖) * h ^ 2) * Real.exp ((Λ + c) * (k * h))) := mul_le_mul (hgrow h h0 h1) ih (norm_nonneg _) (Real.exp_nonneg _)
    have a3 : Real.exp (c * (k * h)) ≤ Real.exp ((Λ + c) * ((k + 1 : ℕ) * h)) := by
      refine Real.exp_le_exp.2 ?_
      push_cast
      have : 0 ≤ (k : ℝ) * h := by positivity
      nlinarith [mul_nonneg hΛ this, mul_nonneg hΛ h0, mul_nonneg hc0 h0]
    have a4 : Real.exp (Λ * h) * Real.exp ((Λ + c) * (k * h)) ≤ Real.exp ((Λ + c) * ((k + 1 : ℕ) * h)) := by
      rw [← Real.exp_add]
      refine Real.exp_le_exp.2 ?_
      push_cast
      nlinarith [mul_nonneg hc0 h0]
    have b : 0 ≤ (K + ‖Q‖) * h ^ 2 := by positivity
    calc _ ≤ (K + ‖Q‖) * h ^ 2 * Real.exp (c * (k * h)) + k * ((K + ‖Q‖) * h ^ 2) * (Real.exp (Λ * h) * Real.exp ((Λ + c) * (k * h))) := by
          refine (add_le_add a1 a2).trans_eq ?_; ring
      _ ≤ (K + ‖Q‖) * h ^ 2 * Real.exp ((Λ + c) * ((k + 1 : ℕ) * h)) + k * ((K + ‖Q‖) * h ^ 2) * Real.exp ((Λ + c) * ((k + 1 : ℕ) * h)) :=
          add_le_add (mul_le_mul_of_nonneg_left a3 b) (mul_le_mul_of_nonneg_left a4 (by positivity))
      _ = _ := by push_cast; ring

theorem power_tendsto (A Q : E →L[ℝ] E) (T : ℝ) (hT : 0 ≤ T) : Tendsto (fun k : ℕ => (1 + (T / (k + 1)) • A + (T / (k + 1)) ^ 2 • Q) ^ (k + 1)) atTop (nhds (semi A T)) := by
  obtain ⟨K, Γ, hK, hΓ, h⟩ := power_error A Q
  rw [tendsto_iff_norm_sub_tendsto_zero]
  have hlim : Tendsto (fun k : ℕ => K * T ^ 2 * Real.exp (Γ * T) * (1 / ((k : ℝ) + 1))) atTop (nhds 0) := by
    have := (tendsto_one_div_add_atTop_nhds_zero_nat (𝕜 := ℝ)).const_mul (K * T ^ 2 * Real.exp (Γ * T))
    simpa using this
  refine squeeze_zero' (Eventually.of_forall fun k => norm_nonneg _) ?_ hlim
  obtain ⟨k0, hk0⟩ := exists_nat_gt T
  filter_upwards [eventually_ge_atTop k0] with k hk
  have hk1 : (0 : ℝ) < k + 1 := by positivity
  have hle : T / (k + 1) ≤ 1 := by
    rw [div_le_one hk1]
    have : (k0 : ℝ) ≤ k := by exact_mod_cast hk
    linarith
  have := h (T / (k + 1)) (by positivity) hle (k + 1)
  have e : ((k + 1 : ℕ) : ℝ) * (T / (k + 1)) = T := by push_cast; field_simp
  rw [e] at this
  refine this.trans_eq ?_
  push_cast
  field_simp

end product

/-- One step of the scheme preserving positivity. -/
theorem scheme_apply (A : Rho n) (J : List (Rho n)) (h : ℝ) (X : Rho n) :
    Matrix.of ((1 + h • gen A J + h ^ 2 • jumpsMap [A]) fun i j => X i j) = (1 + (h : ℂ) • A) * X * (1 + (h : ℂ) • A)ᴴ + (h : ℂ) • (J.map fun j => j * X * jᴴ).sum := by
  have e1 : Matrix.of ((1 + h • gen A J + h ^ 2 • jumpsMap [A]) fun i j => X i j) = X + (h : ℂ) • lindblad A J X + ((h : ℂ) ^ 2) • (A * X * Aᴴ) := by
    have h1 : gen A J (fun i j => X i j) = lindblad A J X := (lindblad_eq A J X).symm
    have h2 : jumpsMap [A] (fun i j => X i j) = A * X * Aᴴ := by
      rw [jumpsMap_apply, List.map_singleton, List.sum_singleton, jumpMap_apply]; rfl
    ext i j
    rw [Matrix.of_apply, ContinuousLinearMap.add_apply, ContinuousLinearMap.add_apply, ContinuousLinearMap.smul_apply, ContinuousLinearMap.smul_apply, h1, h2]
    change X i j + h • lindblad A J X i j + (h ^ 2) • (A * X * Aᴴ) i j = X i j + (h : ℂ) * lindblad A J X i j + (h : ℂ) ^ 2 * (A * X * Aᴴ) i j
    rw [Complex.real_smul, Complex.real_smul, Complex.ofReal_pow]
  rw [e1]
  unfold lindblad
  rw [Matrix.conjTranspose_add, Matrix.conjTranspose_one, Matrix.conjTranspose_smul, Complex.star_def, Complex.conj_ofReal]
  simp only [Matrix.add_mul, Matrix.mul_add, Matrix.one_mul, Matrix.mul_one, smul_add, Matrix.smul_mul, Matrix.mul_smul, smul_smul, pow_two]
  abel

theorem scheme_pos (A : Rho n) (J : List (Rho n)) (h : ℝ) (h0 : 0 ≤ h) (X : Rho n) (hX : X.PosSemidef) : (Matrix.of ((1 + h • gen A J + h ^ 2 • jumpsMap [A]) fun i j => X i j)).PosSemidef := by
  rw [scheme_apply]
  refine (hX.mul_mul_conjTranspose_same _).add ?_
  refine Matrix.PosSemidef.smul ?_ (by exact_mod_cast h0)
  induction J with
  | nil => simpa using Matrix.PosSemidef.zero
  | cons j J ih =>
    rw [List.map_cons, List.sum_cons]
    exact (hX.mul_mul_conjTranspose_same j).add ih

theorem posSemidef_limit {F : ℕ → Rho n} {X : Rho n} (h : ∀ k, (F k).PosSemidef) (hF : ∀ i j, Tendsto (fun k => F k i j) atTop (nhds (X i j))) : X.PosSemidef := by
  refine Matrix.PosSemidef.of_dotProduct_mulVec_nonneg ?_ fun x => ?_
  · ext i j
    rw [Matrix.conjTranspose_apply]
    have h1 : Tendsto (fun k => star (F k j i)) atTop (nhds (star (X j i))) := (continuous_star.tendsto _).comp (hF j i)
    have h2 : (fun k => star (F k j i)) = fun k => F k i j := funext fun k => (h k).1.apply i j
    rw [h2] at h1
    exact tendsto_nhds_unique h1 (hF i j)
  · have h1 : Tendsto (fun k => star x ⬝ᵥ F k *ᵥ x) atTop (nhds (star x ⬝ᵥ X *ᵥ x)) := by
      simp only [dotProduct, mulVec]
      exact tendsto_finsetSum _ fun i _ => (tendsto_finsetSum _ fun j _ => (hF i j).mul_const _).const_mul _
    exact ge_of_tendsto' h1 fun k => (h k).dotProduct_mulVec_nonneg x

/-- Positive semidefinite initial conditions remain so. -/
theorem sol_posSemidef (A : Rho n) (J : List (Rho n)) (rho : Rho n) (h : rho.PosSemidef) (T : ℝ) (hT : 0 ≤ T) : (sol A J T rho).PosSemidef := by
  have hpow : ∀ (s : ℝ), 0 ≤ s → ∀ k : ℕ, (Matrix.of (((1 + s • gen A J + s ^ 2 • jumpsMap [A]) ^ k) fun i j => rho i j)).PosSemidef := by
    intro s hs k
    induction k with
    | zero => exact h
    | succ k ih =>
      rw [pow_succ']
      exact scheme_pos A J s hs _ ih
  refine posSemidef_limit (fun k => hpow (T / (k + 1)) (by positivity) (k + 1)) fun i j => ?_
  have h1 := power_tendsto (gen A J) (jumpsMap [A]) T hT
  have h2 : Tendsto (fun k : ℕ => ((1 + (T / (k + 1)) • gen A J + (T / (k + 1)) ^ 2 • jumpsMap [A]) ^ (k + 1) : (Fin n → Fin n → ℂ) →L[ℝ] Fin n → Fin n → ℂ) fun i j => rho i j) atTop (nhds (semi (gen A J) T fun i j => rho i j)) :=
    ((ContinuousLinearMap.apply ℝ (Fin n → Fin n → ℂ) (fun i j => rho i j)).continuous.tendsto _).comp h1
  exact (tendsto_pi_nhds.1 (tendsto_pi_nhds.1 h2 i)) j

end CppQED.Master
