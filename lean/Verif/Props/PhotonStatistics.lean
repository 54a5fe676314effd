import Verif.Props.Relaxation
import Mathlib.Algebra.Polynomial.Roots

/-! # Property C169: the statistics of photons in the decay of a mode -/

namespace CppQED.Relax
open CppQED.Elem CppQED.Spec CppQED.ModeEl CppQED.Evolved Matrix CppQED.Master
open scoped ComplexConjugate ComplexOrder

/-! ## Observables diagonal in the photon number -/

theorem expectation_diagonal {d : ℕ} (f : ℕ → ℂ) (ρ : Matrix (Fin d) (Fin d) ℂ) : expectation (Matrix.diagonal fun i : Fin d => f i) ρ = ∑ i : Fin d, f i * ρ i i := by
  unfold expectation
  rw [Matrix.trace]
  simp only [Matrix.diag_apply, Matrix.diagonal_mul]

/-- A function of the number of photons in the Heisenberg picture, the mode decaying at zero temperature. -/
theorem diagonal_generator (d : ℕ) (κ : ℝ) (hκ : 0 ≤ κ) (δ : ℝ) (f : ℕ → ℂ) (ρ : Matrix (Fin d) (Fin d) ℂ) :
    expectation (Matrix.diagonal fun i : Fin d => f i) (lindblad (mat d (modeH κ δ 0)) ((modeJ κ 0).map (mat d)) ρ) = ∑ i : Fin d, 2 * κ * i * (f (i - 1) - f i) * ρ i i := by
  set A := mat d aOp with hA
  set F := Matrix.diagonal fun i : Fin d => f i with hF
  set F' := Matrix.diagonal fun i : Fin d => f (i - 1) with hF'
  have hN : mat d nOp = Matrix.diagonal fun i : Fin d => ((i : ℕ) : ℂ) := by
    ext i j
    rw [mat_apply, nOp, Matrix.diagonal_apply]
    simp only [Fin.ext_iff]
  have hFA : F * A = A * F' := by
    ext i j
    rw [hF, hF', Matrix.diagonal_mul, Matrix.mul_diagonal, hA, mat_apply, aOp]
    split_ifs with h
    · rw [h, Nat.add_sub_cancel]; ring
    · simp
  have hj : Aᴴ * F * A = Matrix.diagonal fun i : Fin d => ((i : ℕ) : ℂ) * f (i - 1) := by
    rw [Matrix.mul_assoc, hFA, ← Matrix.mul_assoc, ← mat_nOp, hN, hF', Matrix.diagonal_mul_diagonal]
  have hG : F * mat d (modeH κ δ 0) + (mat d (modeH κ δ 0))ᴴ * F = Matrix.diagonal fun i : Fin d => -(2 * κ * i * f i : ℂ) := by
    rw [mat_modeH, hN]
    simp only [zero_smul, map_zero, add_zero, sub_zero]
    rw [Matrix.conjTranspose_smul, Matrix.diagonal_conjTranspose, Matrix.mul_smul, Matrix.smul_mul, hF, Matrix.diagonal_mul_diagonal, Matrix.diagonal_mul_diagonal]
    ext i j
    simp only [Matrix.add_apply, Matrix.smul_apply, Matrix.diagonal_apply, smul_eq_mul, Pi.star_apply]
    split_ifs
    · simp
      ring
    · simp
  rw [heisenberg, hG]
  have hJ : (((modeJ κ 0).map (mat d)).map fun j => jᴴ * F * j).sum = Matrix.diagonal fun i : Fin d => (2 * κ * i * f (i - 1) : ℂ) := by
    unfold modeJ
    by_cases h : κ = 0
    · rw [if_pos h, h]
      simp
    · rw [if_neg h, if_pos rfl]
      simp only [List.map_cons, List.map_nil, List.sum_cons, List.sum_nil, add_zero]
      rw [mat_sc, Matrix.conjTranspose_smul, Matrix.mul_smul, Matrix.smul_mul, Matrix.smul_mul, smul_smul, Complex.star_def, Complex.conj_ofReal, ← Complex.ofReal_mul, Real.mul_self_sqrt (by linarith), ← hA, hj]
      ext i j
      simp only [Matrix.smul_apply, Matrix.diagonal_apply, smul_eq_mul]
      split_ifs
      · push_cast; ring
      · simp
  rw [hJ, Matrix.diagonal_add, expectation_diagonal (fun i => -(2 * κ * i * f i) + 2 * κ * i * f (i - 1))]
  exact Finset.sum_congr rfl fun i _ => by ring

/-! ## The generating function -/

/-- The generating function of the distribution of photons: the losses act as a beam splitter of transmittivity `exp(-2κT)`. -/
theorem generating (d : ℕ) (κ : ℝ) (hκ : 0 ≤ κ) (δ : ℝ) (T : ℝ) (hT : 0 ≤ T) (ρ : ℝ → Rho d) (h : Unravel.Solves (mat d (modeH κ δ 0)) ((modeJ κ 0).map (mat d)) T ρ) (z : ℂ) :
    ∑ i : Fin d, z ^ (i : ℕ) * ρ T i i = ∑ i : Fin d, (1 - Real.exp (-2 * κ * T) + Real.exp (-2 * κ * T) * z) ^ (i : ℕ) * ρ 0 i i := by
  set w : ℝ → ℂ := fun s => 1 - Complex.exp (-2 * κ * T + 2 * κ * s) * (1 - z) with hw
  have hw' : ∀ t, HasDerivAt w (-(2 * κ * (1 - w t))) t := by
    intro t
    have h1 : HasDerivAt (fun s : ℝ => (-2 * κ * T + 2 * κ * s : ℂ)) (2 * κ) t := by
      simpa using (((hasDerivAt_id t).ofReal_comp).const_mul (2 * κ : ℂ)).const_add (-2 * κ * T : ℂ)
    exact (((h1.cexp).mul_const (1 - z)).const_sub 1).congr_deriv (by rw [hw]; ring)
  have hu : ∀ t, 0 ≤ t → t ≤ T → HasDerivAt (fun s => ∑ i : Fin d, w s ^ (i : ℕ) * ρ s i i) 0 t := by
    intro t a b
    have e := diagonal_generator d κ hκ δ (fun n => w t ^ n) (ρ t)
    have h1 := HasDerivAt.fun_sum (u := Finset.univ) fun (i : Fin d) (_ : i ∈ Finset.univ) => ((hw' t).pow (i : ℕ)).mul (h t a b i i)
    refine h1.congr_deriv ?_
    rw [Finset.sum_add_distrib]
    rw [expectation_diagonal (fun n => w t ^ n)] at e
    simp only [Pi.pow_apply]
    rw [e, ← Finset.sum_add_distrib]
    refine Finset.sum_eq_zero fun i _ => ?_
    rcases Nat.eq_zero_or_pos (i : ℕ) with h0 | h0
    · simp [h0]
    · obtain ⟨k, hk⟩ := Nat.exists_eq_succ_of_ne_zero h0.ne'
      rw [hk, Nat.succ_eq_add_one, Nat.add_sub_cancel]
      ring
  have hc := constant_of_has_deriv_right_zero (a := 0) (b := T) (fun t ht => (hu t ht.1 ht.2).continuousAt.continuousWithinAt) (fun t ht => (hu t ht.1 ht.2.le).hasDerivWithinAt) T ⟨hT, le_rfl⟩
  have e1 : w T = z := by
    rw [hw]
    simp
  have e0 : w 0 = 1 - Real.exp (-2 * κ * T) + Real.exp (-2 * κ * T) * z := by
    rw [hw]
    push_cast
    simp only [mul_zero, add_zero]
    ring
  simp only [e1, e0] at hc
  exact hc

theorem coeff_thinned (η : ℂ) (n m : ℕ) : ((Polynomial.C (1 - η) + Polynomial.C η * Polynomial.X) ^ n).coeff m = n.choose m * η ^ m * (1 - η) ^ (n - m) := by
  rw [add_comm, add_pow, Polynomial.finsetSum_coeff]
  have e : ∀ k ∈ Finset.range (n + 1), ((Polynomial.C η * Polynomial.X) ^ k * Polynomial.C (1 - η) ^ (n - k) * (n.choose k : Polynomial ℂ)).coeff m = if m = k then n.choose m * η ^ m * (1 - η) ^ (n - m) else 0 := by
    intro k _
    have : (Polynomial.C η * Polynomial.X) ^ k * Polynomial.C (1 - η) ^ (n - k) * (n.choose k : Polynomial ℂ) = Polynomial.C (n.choose k * η ^ k * (1 - η) ^ (n - k)) * Polynomial.X ^ k := by
      rw [mul_pow]
      simp only [map_mul, map_pow, map_natCast]
      ring
    rw [this, Polynomial.coeff_C_mul_X_pow]
    split_ifs with h
    · rw [h]
    · rfl
  rw [Finset.sum_congr rfl e, Finset.sum_ite_eq]
  split_ifs with h
  · rfl
  · have : n < m := by simpa using h
    rw [Nat.choose_eq_zero_of_lt this]; simp

/-- The distribution of photons: every photon has survived with probability `exp(-2κT)`, independently. -/
theorem populations_decay (d : ℕ) (κ : ℝ) (hκ : 0 ≤ κ) (δ : ℝ) (T : ℝ) (hT : 0 ≤ T) (ρ : ℝ → Rho d) (h : Unravel.Solves (mat d (modeH κ δ 0)) ((modeJ κ 0).map (mat d)) T ρ) (m : Fin d) :
    ρ T m m = ∑ n : Fin d, ((n : ℕ).choose m * Real.exp (-2 * κ * T) ^ (m : ℕ) * (1 - Real.exp (-2 * κ * T)) ^ ((n : ℕ) - m) : ℝ) * ρ 0 n n := by
  set η : ℂ := ((Real.exp (-2 * κ * T) : ℝ) : ℂ) with hη
  have hP : (∑ i : Fin d, Polynomial.C (ρ T i i) * Polynomial.X ^ (i : ℕ) : Polynomial ℂ) = ∑ i : Fin d, Polynomial.C (ρ 0 i i) * (Polynomial.C (1 - η) + Polynomial.C η * Polynomial.X) ^ (i : ℕ) := by
    refine Polynomial.funext fun z => ?_
    have := generating d κ hκ δ T hT ρ h z
    simp only [Polynomial.eval_finsetSum, Polynomial.eval_mul, Polynomial.eval_C, Polynomial.eval_pow, Polynomial.eval_X, Polynomial.eval_add]
    rw [Finset.sum_congr rfl fun i _ => mul_comm _ _, this]
    exact Finset.sum_congr rfl fun i _ => mul_comm _ _
  have hc := congrArg (fun P => P.coeff (m : ℕ)) hP
  simp only [Polynomial.finsetSum_coeff, Polynomial.coeff_X_pow, Polynomial.coeff_C_mul, coeff_thinned] at hc
  rw [Finset.sum_eq_single m (fun j _ hj => by rw [if_neg fun e => hj (Fin.ext e.symm), mul_zero]) (by simp), if_pos rfl, mul_one] at hc
  rw [hc]
  refine Finset.sum_congr rfl fun n _ => ?_
  rw [hη]
  push_cast
  ring

/-! ## The variance -/

/-- The average square of the number of photons. -/
noncomputable def photonsSqr {n : ℕ} (rho : Matrix (Fin n) (Fin n) ℂ) : ℝ := ∑ i : Fin n, (i : ℝ) * (i : ℝ) * (rho i i).re

theorem average_photonsSqr {n : ℕ} (rho : Rho n) : ModeEl.average (shown rho) 1 = photonsSqr rho := by
  rw [(average_apply _).2.1]
  unfold photonsSqr
  rw [Finset.sum_fin_eq_sum_range]
  have hd : (shown rho).dim = n := rfl
  rw [hd]
  rcases n with - | n
  · simp
  · rw [Finset.sum_range_succ', Nat.add_sub_cancel]
    simp only [Nat.cast_zero, zero_mul, dite_eq_ite, ite_self, add_zero]
    refine Finset.sum_congr rfl fun k hk => ?_
    have hk := Finset.mem_range.1 hk
    rw [dif_pos (by omega), add_comm 1 k]
    unfold LDO.diag shown LDO.ofDM
    simp only
    rw [dif_pos ⟨by omega, by omega⟩]

theorem photonsSqr_decay (d : ℕ) (κ : ℝ) (hκ : 0 ≤ κ) (δ : ℝ) (T : ℝ) (hT : 0 ≤ T) (ρ : ℝ → Rho d) (h : Unravel.Solves (mat d (modeH κ δ 0)) ((modeJ κ 0).map (mat d)) T ρ) :
    photonsSqr (ρ T) - photons (ρ T) = Real.exp (-2 * κ * T) ^ 2 * (photonsSqr (ρ 0) - photons (ρ 0)) := by
  have hre : ∀ r : Rho d, photonsSqr r - photons r = (∑ i : Fin d, ((i : ℕ) : ℂ) * ((i : ℕ) - 1) * r i i).re := by
    intro r
    unfold photonsSqr photons
    rw [← Finset.sum_sub_distrib, Complex.re_sum]
    refine Finset.sum_congr rfl fun i _ => ?_
    have : ((i : ℕ) : ℂ) * ((i : ℕ) - 1) = (((i : ℕ) * ((i : ℕ) - 1) : ℝ) : ℂ) := by push_cast; ring
    rw [this, Complex.re_ofReal_mul]
    ring
  have key := decays (-4 * κ) T hT (fun s => ∑ i : Fin d, ((i : ℕ) : ℂ) * ((i : ℕ) - 1) * ρ s i i) fun t a b => by
    have h1 := expectation_hasDerivAt (Matrix.diagonal fun i : Fin d => ((i : ℕ) : ℂ) * ((i : ℕ) - 1)) ρ _ t (h t a b)
    rw [diagonal_generator d κ hκ δ (fun n => (n : ℂ) * (n - 1))] at h1
    simp only [expectation_diagonal (fun n => (n : ℂ) * (n - 1))] at h1
    refine h1.congr_deriv ?_
    rw [Finset.mul_sum]
    refine Finset.sum_congr rfl fun i _ => ?_
    rcases Nat.eq_zero_or_pos (i : ℕ) with h0 | h0
    · simp [h0]
    · obtain ⟨k, hk⟩ := Nat.exists_eq_succ_of_ne_zero h0.ne'
      rw [hk, Nat.succ_eq_add_one, Nat.add_sub_cancel]
      push_cast
      ring
  rw [hre, hre, key]
  have e : Complex.exp (-4 * κ * T) = ((Real.exp (-2 * κ * T) ^ 2 : ℝ) : ℂ) := by
    rw [← Real.exp_nat_mul]
    push_cast
    congr 1
    ring
  rw [e, Complex.re_ofReal_mul]

theorem photonsSqr_close {n : ℕ} (x y : Rho n) (b : ℝ) (h : ∀ i j, ‖x i j - y i j‖ ≤ b) : |photonsSqr x - photonsSqr y| ≤ n ^ 3 * b := by
  unfold photonsSqr
  rw [← Finset.sum_sub_distrib]
  refine (Finset.abs_sum_le_sum_abs _ _).trans ?_
  have : ∀ i : Fin n, |(i : ℝ) * i * (x i i).re - i * i * (y i i).re| ≤ n * n * b := by
    intro i
    have hi : ((i : ℕ) : ℝ) ≤ n := by exact_mod_cast i.2.le
    rw [← mul_sub, abs_mul, abs_of_nonneg (by positivity), ← Complex.sub_re]
    exact mul_le_mul (mul_le_mul hi hi (Nat.cast_nonneg _) (Nat.cast_nonneg _)) ((Complex.abs_re_le_norm _).trans (h i i)) (abs_nonneg _) (by positivity)
  refine (Finset.sum_le_sum fun i _ => this i).trans ?_
  rw [Finset.sum_const, Finset.card_univ, Fintype.card_fin, nsmul_eq_mul]
  exact le_of_eq (by ring)

/-! ## The trajectories -/

/-- **C169.** The lossy mode not pumped in Master-equation trajectories at zero temperature: the distribution of photons at the time `T` is, apart from the error of the stepper, the initial one with every photon lost
independently with the probability `1-exp(-2κT)`, with whatever number of levels kept; and accordingly the variance of the number of photons, as streamed. -/
theorem photon_statistics.{v} (p : ModeEl.Pars) (hd : p.cutoff < 2 ^ 63) (h0 : 0 < p.cutoff) (hκ : 0 ≤ p.kappa) (hn : p.nTh = 0) (hη : p.eta = 0) (hK : p.omegaKerr = 0) (hA : p.omegaKerrAlter = 0) (qmp : Picture)
    (hp : qmp ≠ .ip ∨ p.kappa = 0) : ∃ e, makePumpedLossy p qmp = .ok e ∧ e.dim = p.cutoff ∧ ∀ T, 0 ≤ T → ∃ C, 0 ≤ C ∧
      (∀ rho : Rho e.dim, rho.PosSemidef → rho.trace = 1 → ∃ x, Reached.{v} e.toSys C T 0 rho x) ∧
      ∀ ε rho x, Reached.{v} e.toSys C T ε rho x →
        (∀ m : Fin e.dim, ‖x m m - ∑ n : Fin e.dim, ((n : ℕ).choose m * Real.exp (-2 * p.kappa * T) ^ (m : ℕ) * (1 - Real.exp (-2 * p.kappa * T)) ^ ((n : ℕ) - m) : ℝ) * rho n n‖ ≤ C * ε) ∧
        |process (average (shown x)) 1 - (Real.exp (-2 * p.kappa * T) ^ 2 * process (average (shown rho)) 1 +
          Real.exp (-2 * p.kappa * T) * (1 - Real.exp (-2 * p.kappa * T)) * average (shown rho) 0)| ≤ C * ε := by
  obtain ⟨e, h1, h2, h3⟩ := mode_normalised.{v} p hd h0 hκ hn.ge hK hA qmp hp
  rw [hη, hn, mul_zero, zero_add, mul_one] at h3
  refine ⟨e, h1, h2, fun T hT => ?_⟩
  obtain ⟨C, hC, H⟩ := reached_close h3 T hT
  have hD : (0 : ℝ) ≤ e.dim := Nat.cast_nonneg _
  set D : ℝ := ((e.dim : ℕ) : ℝ) with hDdef
  refine ⟨C + D ^ 3 * C + D ^ 2 * C * (2 * D + D ^ 2), by positivity, fun rho a b => reached_exists h3 _ T hT rho a b, fun ε rho x hx => ?_⟩
  have hC1 : C ≤ C + D ^ 3 * C + D ^ 2 * C * (2 * D + D ^ 2) := by
    have := mul_nonneg (pow_nonneg hD 3) hC
    have : 0 ≤ D ^ 2 * C * (2 * D + D ^ 2) := by positivity
    linarith
  have hCε1 : C * ε ≤ 1 := by
    obtain ⟨-, -, -, -, -, -, -, -, -, -, hε, h, -⟩ := hx
    exact (mul_le_mul_of_nonneg_right hC1 hε).trans h
  obtain ⟨a, b, hε, ρ, hs, hz, hc⟩ := H _ ε rho x hC1 hx
  have hCε := mul_nonneg hC hε
  subst hz
  obtain ⟨ht, hN, -⟩ := photons_decay e.dim (by omega) p.kappa hκ p.delta T hT ρ hs
  have hS := photonsSqr_decay e.dim p.kappa hκ p.delta T hT ρ hs
  have hnorm : normalised ρ T = ρ T := by
    ext i j
    simp [normalised, ht, b]
  have hpos : (ρ T).PosSemidef := by
    have hk : p.kappa = p.kappa * (2 * 0 + 1) := by ring
    have := (normalised_equation hs a b T hT le_rfl).1
    rwa [hnorm] at this
  have hb := density_bounds (ρ T) hpos (by rw [ht, b])
  rw [hnorm] at hc
  have hcl := photons_close _ _ _ hc
  have hcs := photonsSqr_close _ _ _ hc
  have q1 : 0 ≤ D ^ 3 * (C * ε) := by positivity
  have q2 : 0 ≤ D ^ 2 * (C * ε) * (2 * D + D ^ 2) := by positivity
  constructor
  · intro m
    rw [← populations_decay e.dim p.kappa hκ p.delta T hT ρ hs m]
    refine (hc m m).trans ?_
    linarith
  · have hpr : ∀ r : Rho e.dim, process (average (shown r)) 1 = photonsSqr r - photons r ^ 2 := by
      intro r
      rw [← average_photons, ← average_photonsSqr]
      simp [process, Averages.set]
    rw [hpr, hpr, average_photons]
    have hv : Real.exp (-2 * p.kappa * T) ^ 2 * (photonsSqr (ρ 0) - photons (ρ 0) ^ 2) + Real.exp (-2 * p.kappa * T) * (1 - Real.exp (-2 * p.kappa * T)) * photons (ρ 0) = photonsSqr (ρ T) - photons (ρ T) ^ 2 := by
      have : photonsSqr (ρ T) = photons (ρ T) + Real.exp (-2 * p.kappa * T) ^ 2 * (photonsSqr (ρ 0) - photons (ρ 0)) := by linarith
      rw [this, hN]; ring
    rw [hv]
    have hsq : |photons x ^ 2 - photons (ρ T) ^ 2| ≤ D ^ 2 * (C * ε) * (2 * D + D ^ 2) := by
      have : photons x ^ 2 - photons (ρ T) ^ 2 = (photons x - photons (ρ T)) * (photons x + photons (ρ T)) := by ring
      rw [this, abs_mul]
      refine mul_le_mul hcl ?_ (abs_nonneg _) (by positivity)
      have h5 : D ^ 2 * (C * ε) ≤ D ^ 2 := by nlinarith [pow_nonneg hD 2]
      have h6 := abs_le.1 hcl
      obtain ⟨-, b2, b3⟩ := hb
      rw [abs_le]
      constructor <;> nlinarith
    calc |photonsSqr x - photons x ^ 2 - (photonsSqr (ρ T) - photons (ρ T) ^ 2)| = |(photonsSqr x - photonsSqr (ρ T)) - (photons x ^ 2 - photons (ρ T) ^ 2)| := by congr 1; ring
      _ ≤ |photonsSqr x - photonsSqr (ρ T)| + |photons x ^ 2 - photons (ρ T) ^ 2| := abs_sub _ _
      _ ≤ D ^ 3 * (C * ε) + D ^ 2 * (C * ε) * (2 * D + D ^ 2) := add_le_add hcs hsq
      _ ≤ _ := by linarith

/-- A mode, and a density operator of some photons, meeting the requirements: from the Fock state of two photons, the probabilities are `(1-η)²`, `2η(1-η)` and `η²`, `η` being `exp(-2κT)`. -/
example : ∃ e, makePumpedLossy ⟨5, 0.3, 0, 0, 1, 0, 0⟩ .uip = .ok e ∧ ∀ rho : Rho e.dim, (∀ n, rho n n = if (n : ℕ) = 2 then 1 else 0) → rho.PosSemidef → rho.trace = 1 → ∀ T, 0 ≤ T → ∃ C x, Reached.{0} e.toSys C T 0 rho x ∧
    ∀ m : Fin e.dim, ((m : ℕ) = 0 → x m m = (1 - Real.exp (-2 * 1 * T)) ^ 2) ∧ ((m : ℕ) = 1 → x m m = 2 * Real.exp (-2 * 1 * T) * (1 - Real.exp (-2 * 1 * T))) ∧ ((m : ℕ) = 3 → x m m = 0) := by
  obtain ⟨e, h1, h2, h3⟩ := photon_statistics.{0} ⟨5, 0.3, 0, 0, 1, 0, 0⟩ (by norm_num) (by norm_num) (by norm_num) rfl rfl rfl rfl .uip (Or.inl (by decide))
  refine ⟨e, h1, fun rho hr a b T hT => ?_⟩
  obtain ⟨C, hC, hx, H⟩ := h3 T hT
  obtain ⟨x, hx⟩ := hx rho a b
  refine ⟨C, x, hx, fun m => ?_⟩
  have h := (H 0 rho x hx).1 m
  have h2' : e.dim = 5 := h2
  rw [mul_zero, norm_le_zero_iff, sub_eq_zero, Finset.sum_eq_single (⟨2, by omega⟩ : Fin e.dim)] at h
  · rw [h, hr]
    refine ⟨fun hm => ?_, fun hm => ?_, fun hm => ?_⟩ <;> simp [hm]
  · intro n _ hn
    rw [hr, if_neg fun e => hn (Fin.ext e), mul_zero]
  · simp

end CppQED.Relax
