import Verif.Lemmas.Averages

/-!
# The averages of the mode: C24

`m : LDO` is the lazy density operator the averages are calculated from, `state m` is its matrix.
-/

namespace CppQED.ModeEl
open CppQED.Elem CppQED.Spec Matrix
open ComplexConjugate ComplexOrder

theorem Averages.add_apply (a : Averages) (k : ℕ) (x : ℝ) (i : ℕ) : a.add k x i = a i + if i = k then x else 0 := by
  unfold Averages.add
  by_cases h : i = k
  · subst h; simp
  · rw [Function.update_of_ne h, if_neg h, add_zero]

theorem Averages.set_apply (a : Averages) (k : ℕ) (x : ℝ) (i : ℕ) : a.set k x i = if i = k then x else a i := by
  unfold Averages.set
  by_cases h : i = k
  · subst h; simp
  · rw [Function.update_of_ne h, if_neg h]

theorem foldl_averages {α : Type*} (L : List α) (step : Averages → α → Averages) (c : α → ℕ → ℝ) (h : ∀ a x i, step a x i = a i + c x i) (a : Averages) (i : ℕ) :
    L.foldl step a i = a i + (L.map fun x => c x i).sum := by
  induction L generalizing a with
  | nil => simp
  | cons x L ih => rw [List.foldl_cons, ih, h, List.map_cons, List.sum_cons]; ring

theorem average_apply (m : LDO) : average m 0 = ∑ k ∈ Finset.range (m.dim - 1), ((1 + k : ℕ) : ℝ) * m.diag (1 + k) ∧
    average m 1 = ∑ k ∈ Finset.range (m.dim - 1), ((1 + k : ℕ) : ℝ) * ((1 + k : ℕ) : ℝ) * m.diag (1 + k) ∧
    average m 2 = (∑ k ∈ Finset.range (m.dim - 1), (Real.sqrt ((1 + k : ℕ) : ℝ) : ℂ) * m.index (1 + k) k).re ∧
    average m 3 = (∑ k ∈ Finset.range (m.dim - 1), (Real.sqrt ((1 + k : ℕ) : ℝ) : ℂ) * m.index (1 + k) k).im ∧ ∀ i ≥ 4, average m i = 0 := by
  have key : ∀ i, average m i = 0 + ((List.range' 1 (m.dim - 1)).map fun (n : ℕ) => (if i = 0 then (n : ℝ) * m.diag n else 0) + (if i = 1 then (n : ℝ) * n * m.diag n else 0) +
      (if i = 2 then ((Real.sqrt n : ℂ) * m.index n (n - 1)).re else 0) + (if i = 3 then ((Real.sqrt n : ℂ) * m.index n (n - 1)).im else 0)).sum := by
    intro i
    unfold average
    rw [foldl_averages _ _ fun (n : ℕ) i => (if i = 0 then (n : ℝ) * m.diag n else 0) + (if i = 1 then (n : ℝ) * n * m.diag n else 0) +
      (if i = 2 then ((Real.sqrt n : ℂ) * m.index n (n - 1)).re else 0) + (if i = 3 then ((Real.sqrt n : ℂ) * m.index n (n - 1)).im else 0)]
    intro a n i
    simp only [Averages.add_apply]
    ring
  refine ⟨?_, ?_, ?_, ?_, ?_⟩
  · rw [key, sum_map_range']; simp
  · rw [key, sum_map_range']; simp
  · rw [key, sum_map_range', Complex.re_sum]; simp
  · rw [key, sum_map_range', Complex.im_sum]; simp
  · intro i hi
    rw [key, sum_map_range']
    simp [show i ≠ 0 by omega, show i ≠ 1 by omega, show i ≠ 2 by omega, show i ≠ 3 by omega]

theorem averageQ_apply (m : LDO) : (∀ i < 4, averageQ m i = average m i) ∧
    averageQ m 4 = (∑ k ∈ Finset.range (m.dim - 2), (Real.sqrt (((2 + k : ℕ) : ℝ) * ((2 + k : ℕ) - 1)) : ℂ) * m.index (2 + k) k).re ∧
    averageQ m 5 = (∑ k ∈ Finset.range (m.dim - 2), (Real.sqrt (((2 + k : ℕ) : ℝ) * ((2 + k : ℕ) - 1)) : ℂ) * m.index (2 + k) k).im ∧ averageQ m 6 = 0 := by
  have key : ∀ i, averageQ m i = (if i < 4 then average m i else 0) + ((List.range' 2 (m.dim - 2)).map fun (n : ℕ) =>
      (if i = 4 then ((Real.sqrt ((n : ℝ) * (n - 1)) : ℂ) * m.index n (n - 2)).re else 0) + (if i = 5 then ((Real.sqrt ((n : ℝ) * (n - 1)) : ℂ) * m.index n (n - 2)).im else 0)).sum := by
    intro i
    unfold averageQ
    simp only
    rw [foldl_averages _ _ fun (n : ℕ) i => (if i = 4 then ((Real.sqrt ((n : ℝ) * (n - 1)) : ℂ) * m.index n (n - 2)).re else 0) +
      (if i = 5 then ((Real.sqrt ((n : ℝ) * (n - 1)) : ℂ) * m.index n (n - 2)).im else 0)]
    intro a n i
    simp only [Averages.add_apply]
    ring
  refine ⟨?_, ?_, ?_, ?_⟩
  · intro i hi
    rw [key, if_pos hi]
    simp [show i ≠ 4 by omega, show i ≠ 5 by omega]
  · rw [key, sum_map_range', Complex.re_sum]; simp
  · rw [key, sum_map_range', Complex.im_sum]; simp
  · rw [key]; simp

section
variable (m : LDO) (D : ℕ) (hD : m.dim < D)
include hD

/-- The state in the larger space. -/
local notation "ϱ" => mat D (pad m.dim m.index)

theorem mean_n : mean (mat D nOp) ϱ = average m 0 := by
  rw [(average_apply m).1]
  unfold mean
  rw [trace_pad _ _ hD.le, sum_diag _ nOp _ (fun i => (i : ℂ)) (fun i _ j => rfl)]
  rcases h : m.dim with - | d
  · simp
  · rw [Finset.sum_range_succ', Nat.add_sub_cancel]
    simp only [Nat.cast_zero, zero_mul, add_zero, Complex.re_sum]
    refine Finset.sum_congr rfl fun k _ => ?_
    rw [← Complex.ofReal_natCast, Complex.re_ofReal_mul, add_comm k 1]; rfl

omit hD in
theorem nOp_sq : mat D nOp * mat D nOp = mat D fun i j => if i = j then (i : ℂ) * i else 0 := by
  have : mat D nOp = Matrix.diagonal fun i : Fin D => ((i : ℕ) : ℂ) := by
    ext i j; simp [mat_apply, nOp, Matrix.diagonal_apply, Fin.ext_iff]
  rw [this, Matrix.diagonal_mul_diagonal]
  ext i j; simp [mat_apply, Matrix.diagonal_apply, Fin.ext_iff]

theorem mean_nSqr : mean (mat D nOp * mat D nOp) ϱ = average m 1 := by
  rw [(average_apply m).2.1]
  unfold mean
  rw [nOp_sq, trace_pad _ _ hD.le, sum_diag _ _ _ (fun i => (i : ℂ) * i) (fun i _ j => rfl)]
  rcases h : m.dim with - | d
  · simp
  · rw [Finset.sum_range_succ', Nat.add_sub_cancel]
    simp only [Nat.cast_zero, zero_mul, add_zero, Complex.re_sum]
    refine Finset.sum_congr rfl fun k _ => ?_
    rw [← Complex.ofReal_natCast, ← Complex.ofReal_mul, Complex.re_ofReal_mul, add_comm k 1]; rfl

theorem mean_a : (mat D aOp * ϱ).trace = ⟨average m 2, average m 3⟩ := by
  rw [(average_apply m).2.2.1, (average_apply m).2.2.2.1, trace_pad _ _ hD.le, sum_upper _ 1 aOp _ (fun j => (Real.sqrt j : ℂ)) (fun i j => rfl)]

theorem mean_aSqr : (mat D aOp * mat D aOp * ϱ).trace = ⟨averageQ m 4, averageQ m 5⟩ := by
  rw [aOp_sq, (averageQ_apply m).2.1, (averageQ_apply m).2.2.1, trace_pad _ _ hD.le, sum_upper _ 2 a2Op _ (fun j => (Real.sqrt ((j : ℝ) * (j - 1)) : ℂ)) (fun i j => rfl)]

theorem mean_aad (h1 : (state m).trace = 1) : (mat D aOp * (mat D aOp)ᴴ * ϱ).trace = (mat D nOp * ϱ).trace + 1 := by
  rw [aOp_adOp, trace_pad _ _ hD.le, trace_pad _ _ hD.le, sum_diag _ nOp _ (fun i => (i : ℂ)) (fun i _ j => rfl),
    sum_diag _ _ _ (fun i => (i : ℂ) + 1) (fun i hi j => by rw [if_pos (show i + 1 < D by omega)])]
  have : (state m).trace = ∑ i ∈ Finset.range m.dim, m.index i i := by rw [Finset.sum_range]; rfl
  rw [this] at h1
  have e : ∑ i ∈ Finset.range m.dim, ((i : ℂ) + 1) * m.index i i = ∑ i ∈ Finset.range m.dim, (i : ℂ) * m.index i i + ∑ i ∈ Finset.range m.dim, m.index i i := by
    rw [← Finset.sum_add_distrib]; exact Finset.sum_congr rfl fun i _ => by ring
  rw [e, h1]

theorem mean_dagger (A : Matrix (Fin D) (Fin D) ℂ) (hρ : (state m).IsHermitian) : (Aᴴ * ϱ).trace = conj (A * ϱ).trace := by
  rw [← Complex.star_def, ← Matrix.trace_conjTranspose, Matrix.conjTranspose_mul, (pad_hermitian _ D _ hρ).eq, Matrix.trace_mul_comm]

end

theorem mat_xOp (D : ℕ) : mat D xOp = ((Real.sqrt 2 : ℂ)⁻¹) • (mat D aOp + (mat D aOp)ᴴ) := by
  rw [← mat_adOp]
  ext i j
  simp only [mat_apply, xOp, Matrix.smul_apply, Matrix.add_apply, smul_eq_mul]
  ring

theorem mat_yOp (D : ℕ) : mat D yOp = (-Complex.I * (Real.sqrt 2 : ℂ)⁻¹) • (mat D aOp - (mat D aOp)ᴴ) := by
  rw [← mat_adOp]
  ext i j
  simp only [mat_apply, yOp, Matrix.smul_apply, Matrix.sub_apply, smul_eq_mul]
  rw [div_eq_mul_inv, mul_inv, Complex.inv_I]
  ring

theorem inv_sqrt_two : ((Real.sqrt 2 : ℂ)⁻¹) * ((Real.sqrt 2 : ℂ)⁻¹) = 1 / 2 := by
  rw [← mul_inv, ← Complex.ofReal_mul, Real.mul_self_sqrt (by norm_num)]; norm_num

theorem xOp_hermitian (D : ℕ) : (mat D xOp).IsHermitian := by
  unfold Matrix.IsHermitian
  rw [mat_xOp, Matrix.conjTranspose_smul, Matrix.conjTranspose_add, Matrix.conjTranspose_conjTranspose, add_comm, Complex.star_def, map_inv₀, Complex.conj_ofReal]

theorem yOp_hermitian (D : ℕ) : (mat D yOp).IsHermitian := by
  unfold Matrix.IsHermitian
  rw [mat_yOp, Matrix.conjTranspose_smul, Matrix.conjTranspose_sub, Matrix.conjTranspose_conjTranspose, Complex.star_def, map_mul, map_neg, map_inv₀, Complex.conj_ofReal, Complex.conj_I, neg_neg,
    ← neg_sub (mat D aOp), smul_neg, neg_mul, neg_smul]

/-- **C24.** What is displayed for a mode, for every physical state: the expectation value and the variance of the number operator, the real and imaginary part of the expectation value of the ladder
operator. The operators are those without cutoff: of any dimension `D` larger than the cutoff, the further states not being populated. -/
theorem averaged_spec (m : LDO) (D : ℕ) (hD : m.dim < D) :
    let shown := process (average m)
    let ρ := mat D (pad m.dim m.index)
    shown 0 = mean (mat D nOp) ρ ∧ shown 1 = variance (mat D nOp) ρ ∧ shown 2 = (expectation (mat D aOp) ρ).re ∧ shown 3 = (expectation (mat D aOp) ρ).im := by
  intro shown ρ
  have h0 : shown 0 = average m 0 := by simp [shown, process, Averages.set_apply]
  have h1 : shown 1 = average m 1 - average m 0 ^ 2 := by simp [shown, process, Averages.set_apply]
  have h2 : shown 2 = average m 2 := by simp [shown, process, Averages.set_apply]
  have h3 : shown 3 = average m 3 := by simp [shown, process, Averages.set_apply]
  refine ⟨by rw [h0, mean_n m D hD], by rw [h1]; unfold variance; rw [mean_nSqr m D hD, mean_n m D hD], ?_, ?_⟩
  · rw [h2]; unfold expectation; rw [mean_a m D hD]
  · rw [h3]; unfold expectation; rw [mean_a m D hD]

/-- **C24.** With the quadratures: in addition, the variances and the covariance of the quadratures. -/
theorem averagedQuadratures_spec (m : LDO) (hρ : (state m).IsHermitian) (h1 : (state m).trace = 1) (D : ℕ) (hD : m.dim < D) :
    let shown := processQ (averageQ m)
    let ρ := mat D (pad m.dim m.index)
    shown 0 = mean (mat D nOp) ρ ∧ shown 1 = variance (mat D nOp) ρ ∧ shown 2 = (expectation (mat D aOp) ρ).re ∧ shown 3 = (expectation (mat D aOp) ρ).im ∧
    shown 4 = variance (mat D xOp) ρ ∧ shown 5 = variance (mat D yOp) ρ ∧ shown 6 = covariance (mat D xOp) (mat D yOp) ρ := by
  intro shown ρ
  obtain ⟨k0, k1, k2, k3⟩ := averaged_spec m D hD
  have low : ∀ i < 4, averageQ m i = average m i := (averageQ_apply m).1
  have e0 : shown 0 = process (average m) 0 := by simp [shown, processQ, process, Averages.set_apply, low]
  have e1 : shown 1 = process (average m) 1 := by simp [shown, processQ, process, Averages.set_apply, low]
  have e2 : shown 2 = process (average m) 2 := by simp [shown, processQ, process, Averages.set_apply, low]
  have e3 : shown 3 = process (average m) 3 := by simp [shown, processQ, process, Averages.set_apply, low]
  have e4 : shown 4 = average m 0 + 1 / 2 + averageQ m 4 - 2 * average m 2 ^ 2 := by simp [shown, processQ, process, Averages.set_apply, low]
  have e5 : shown 5 = average m 0 + 1 / 2 - averageQ m 4 - 2 * average m 3 ^ 2 := by simp [shown, processQ, process, Averages.set_apply, low]
  have e6 : shown 6 = averageQ m 5 - 2 * average m 2 * average m 3 := by simp [shown, processQ, process, Averages.set_apply, low]
  refine ⟨e0.trans k0, e1.trans k1, e2.trans k2, e3.trans k3, ?_⟩
  have ta : (mat D aOp * ρ).trace = ⟨average m 2, average m 3⟩ := mean_a m D hD
  have tad : ((mat D aOp)ᴴ * ρ).trace = ⟨average m 2, -average m 3⟩ := by
    rw [mean_dagger m D hD _ hρ, mean_a m D hD]; rfl
  have taa : (mat D aOp * mat D aOp * ρ).trace = ⟨averageQ m 4, averageQ m 5⟩ := mean_aSqr m D hD
  have tdd : ((mat D aOp)ᴴ * (mat D aOp)ᴴ * ρ).trace = ⟨averageQ m 4, -averageQ m 5⟩ := by
    rw [← Matrix.conjTranspose_mul, mean_dagger m D hD _ hρ, mean_aSqr m D hD]; rfl
  have tn : (mat D nOp * ρ).trace.re = average m 0 := mean_n m D hD
  have tda : ((mat D aOp)ᴴ * mat D aOp * ρ).trace = (mat D nOp * ρ).trace := by rw [mat_nOp]
  have tad' : (mat D aOp * (mat D aOp)ᴴ * ρ).trace = (mat D nOp * ρ).trace + 1 := mean_aad m D hD h1
  have mx : mean (mat D xOp) ρ = (Real.sqrt 2)⁻¹ * (2 * average m 2) := by
    unfold mean
    rw [mat_xOp, Matrix.smul_mul, Matrix.trace_smul, Matrix.add_mul, Matrix.trace_add, ta, tad, smul_eq_mul, ← Complex.ofReal_inv, Complex.re_ofReal_mul, Complex.add_re]
    simp only; ring
  have my : mean (mat D yOp) ρ = (Real.sqrt 2)⁻¹ * (2 * average m 3) := by
    unfold mean
    rw [mat_yOp, Matrix.smul_mul, Matrix.trace_smul, Matrix.sub_mul, Matrix.trace_sub, ta, tad, smul_eq_mul, ← Complex.ofReal_inv,
      show -Complex.I * (((Real.sqrt 2)⁻¹ : ℝ) : ℂ) * ((⟨average m 2, average m 3⟩ : ℂ) - ⟨average m 2, -average m 3⟩) =
        (((Real.sqrt 2)⁻¹ : ℝ) : ℂ) * (-Complex.I * ((⟨average m 2, average m 3⟩ : ℂ) - ⟨average m 2, -average m 3⟩)) by ring, Complex.re_ofReal_mul]
    congr 1
    simp only [Complex.mul_re, Complex.neg_re, Complex.neg_im, Complex.I_re, Complex.I_im, Complex.sub_re, Complex.sub_im]; ring
  have hs : (Real.sqrt 2)⁻¹ * (Real.sqrt 2)⁻¹ = 1 / 2 := by
    rw [← mul_inv, Real.mul_self_sqrt (by norm_num)]; norm_num
  have hI : (-Complex.I * (Real.sqrt 2 : ℂ)⁻¹) * (-Complex.I * (Real.sqrt 2 : ℂ)⁻¹) = -(1 / 2) := by
    rw [mul_mul_mul_comm, inv_sqrt_two]; simp
  have hJ : ((Real.sqrt 2 : ℂ)⁻¹) * (-Complex.I * (Real.sqrt 2 : ℂ)⁻¹) = -(Complex.I * (1 / 2)) := by
    rw [mul_left_comm, inv_sqrt_two]; ring
  refine ⟨?_, ?_, ?_⟩
  · rw [e4]
    unfold variance
    rw [mx]
    unfold mean
    rw [mat_xOp, Matrix.smul_mul, Matrix.mul_smul, smul_smul, inv_sqrt_two, Matrix.smul_mul, Matrix.trace_smul]
    simp only [Matrix.add_mul, Matrix.mul_add, Matrix.trace_add]
    rw [taa, tdd, tda, tad', mul_pow, pow_two (Real.sqrt 2)⁻¹, hs]
    rw [smul_eq_mul, show (1 / 2 : ℂ) = ((1 / 2 : ℝ) : ℂ) by push_cast; rfl, Complex.re_ofReal_mul]
    simp only [Complex.add_re, tn, Complex.one_re]
    ring
  · rw [e5]
    unfold variance
    rw [my]
    unfold mean
    rw [mat_yOp, Matrix.smul_mul, Matrix.mul_smul, smul_smul, hI, Matrix.smul_mul, Matrix.trace_smul]
    simp only [Matrix.sub_mul, Matrix.mul_sub, Matrix.trace_sub]
    rw [taa, tdd, tda, tad', mul_pow, pow_two (Real.sqrt 2)⁻¹, hs]
    rw [smul_eq_mul, show (-(1 / 2) : ℂ) = ((-(1 / 2) : ℝ) : ℂ) by push_cast; rfl, Complex.re_ofReal_mul]
    simp only [Complex.add_re, Complex.sub_re, tn, Complex.one_re]
    ring
  · rw [e6]
    unfold covariance
    rw [mx, my]
    have hc : (Real.sqrt 2)⁻¹ * (2 * average m 2) * ((Real.sqrt 2)⁻¹ * (2 * average m 3)) = 2 * average m 2 * average m 3 := by
      rw [mul_mul_mul_comm, hs]; ring
    rw [hc]
    unfold mean
    rw [mat_xOp, mat_yOp, Matrix.smul_mul, Matrix.mul_smul, smul_smul, Matrix.smul_mul, Matrix.mul_smul, smul_smul, mul_comm (-Complex.I * _), hJ, ← smul_add, Matrix.smul_mul, Matrix.trace_smul]
    simp only [Matrix.sub_mul, Matrix.mul_sub, Matrix.add_mul, Matrix.mul_add, Matrix.trace_sub, Matrix.trace_add]
    rw [taa, tdd, tda, tad']
    simp
    ring

/-- **C24.** The displayed variances are not negative, for any state. -/
theorem variances_nonneg (m : LDO) (hρ : (state m).PosSemidef) (h1 : (state m).trace = 1) :
    0 ≤ processQ (averageQ m) 1 ∧ 0 ≤ processQ (averageQ m) 4 ∧ 0 ≤ processQ (averageQ m) 5 := by
  obtain ⟨-, k1, -, -, k4, k5, -⟩ := averagedQuadratures_spec m hρ.1 h1 (m.dim + 1) (Nat.lt_succ_self _)
  have hp := pad_psd m.dim (m.dim + 1) m.index hρ
  have ht : (mat (m.dim + 1) (pad m.dim m.index)).trace = 1 := by rw [trace_pad_one _ _ (Nat.le_succ _)]; exact h1
  rw [k1, k4, k5]
  exact ⟨variance_nonneg (nOp_hermitian _) hp ht, variance_nonneg (xOp_hermitian _) hp ht, variance_nonneg (yOp_hermitian _) hp ht⟩

/-- A state: the dyad of any normalised state vector. -/
theorem dyad_state (d : ℕ) (psi : Vec) (h : ∑ i ∈ Finset.range d, Complex.normSq (psi i) = 1) : (state (LDO.ofSV d psi)).PosSemidef ∧ (state (LDO.ofSV d psi)).trace = 1 := by
  have e : state (LDO.ofSV d psi) = Matrix.vecMulVec (ket d psi) (star (ket d psi)) := by
    ext i j; rfl
  refine ⟨by rw [e]; exact Matrix.posSemidef_vecMulVec_self_star _, ?_⟩
  have : (state (LDO.ofSV d psi)).trace = ∑ i ∈ Finset.range d, psi i * conj (psi i) := by rw [Finset.sum_range]; rfl
  rw [this]
  simp only [Complex.mul_conj]
  rw [← Complex.ofReal_sum, h, Complex.ofReal_one]

example : ∃ m : LDO, m.dim = 3 ∧ (state m).PosSemidef ∧ (state m).trace = 1 ∧ m.index 2 1 ≠ 0 := by
  refine ⟨LDO.ofSV 3 fun i => if i = 1 ∨ i = 2 then (Real.sqrt (1 / 2) : ℂ) else 0, rfl, (dyad_state _ _ ?_).1, (dyad_state _ _ ?_).2, ?_⟩
  · simp [Finset.sum_range_succ, ← Real.sqrt_inv]; norm_num
  · simp [Finset.sum_range_succ, ← Real.sqrt_inv]; norm_num
  · simp [LDO.ofSV]

end CppQED.ModeEl
