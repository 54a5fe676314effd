import Verif.Spec.Relaxation
import Verif.Props.MasterNormalised
import Verif.Props.ModeAverages

/-! # Property C154: the relaxation of a mode and of a qbit -/

namespace CppQED.Relax
open CppQED.Elem CppQED.Spec CppQED.ModeEl CppQED.Evolved Matrix CppQED.Master
open scoped ComplexConjugate ComplexOrder

/-! ## The equation of motion of the number of photons -/

theorem expectation_n {d : ℕ} (ρ : Matrix (Fin d) (Fin d) ℂ) : expectation (mat d nOp) ρ = ∑ i : Fin d, (i : ℂ) * ρ i i := by
  have e : mat d nOp = Matrix.diagonal fun i : Fin d => ((i : ℕ) : ℂ) := by
    ext i j
    rw [mat_apply, nOp, Matrix.diagonal_apply]
    simp only [Fin.ext_iff]
  unfold expectation
  rw [e, Matrix.trace]
  simp only [Matrix.diag_apply, Matrix.diagonal_mul]

theorem photons_eq {d : ℕ} (ρ : Matrix (Fin d) (Fin d) ℂ) : photons ρ = (expectation (mat d nOp) ρ).re := by
  rw [expectation_n, Complex.re_sum]
  refine Finset.sum_congr rfl fun i _ => ?_
  rw [← Complex.ofReal_natCast, Complex.re_ofReal_mul]

theorem expectation_top {d : ℕ} (ρ : Matrix (Fin d) (Fin d) ℂ) : expectation (top d) ρ = ∑ i : Fin d, if (i : ℕ) + 1 = d then ρ i i else 0 := by
  unfold expectation top
  rw [Matrix.trace]
  simp only [Matrix.diag_apply, Matrix.diagonal_mul, ite_mul, one_mul, zero_mul]

theorem highest_eq {d : ℕ} (ρ : Matrix (Fin d) (Fin d) ℂ) : highest ρ = (expectation (top d) ρ).re := by
  rw [expectation_top, Complex.re_sum]
  refine Finset.sum_congr rfl fun i _ => ?_
  split_ifs <;> simp

theorem field_eq {d : ℕ} (ρ : Matrix (Fin d) (Fin d) ℂ) : field ρ = expectation (mat d aOp) ρ := by
  unfold field expectation
  rw [Matrix.trace]
  refine Finset.sum_congr rfl fun i _ => ?_
  rw [Matrix.diag_apply, Matrix.mul_apply]
  refine Finset.sum_congr rfl fun j _ => ?_
  rw [mat_apply, aOp]
  split_ifs <;> simp

theorem n_top (d : ℕ) : mat d nOp * top d = ((d : ℂ) - 1) • top d := by
  have e : mat d nOp = Matrix.diagonal fun i : Fin d => ((i : ℕ) : ℂ) := by
    ext i j
    rw [mat_apply, nOp, Matrix.diagonal_apply]
    simp only [Fin.ext_iff]
  unfold top
  rw [e, Matrix.diagonal_mul_diagonal]
  ext i j
  rw [Matrix.smul_apply, Matrix.diagonal_apply, Matrix.diagonal_apply]
  split_ifs with h h1
  · have : ((i : ℕ) : ℂ) = (d : ℂ) - 1 := eq_sub_of_add_eq (by exact_mod_cast h1)
    simp [this]
  · simp
  · simp

theorem top_n (d : ℕ) : top d * mat d nOp = ((d : ℂ) - 1) • top d := by
  have h := congrArg Matrix.conjTranspose (n_top d)
  have ht : (top d)ᴴ = top d := by
    unfold top
    rw [Matrix.diagonal_conjTranspose]
    congr 1
    funext i
    simp only [Pi.star_apply]
    split_ifs <;> simp
  rw [Matrix.conjTranspose_mul, Matrix.conjTranspose_smul, nOp_hermitian, ht] at h
  rw [h]
  simp

/-- The derivative of the number of photons, including the terms stemming from the cutoff. -/
theorem photon_generator (d : ℕ) (κ n : ℝ) (hκ : 0 ≤ κ) (hn : 0 ≤ n) (δ : ℝ) (η : ℂ) (ρ : Matrix (Fin d) (Fin d) ℂ) :
    expectation (mat d nOp) (lindblad (mat d (modeH (κ * (2 * n + 1)) δ η)) ((modeJ κ n).map (mat d)) ρ) =
      2 * κ * (n - 1) * expectation (mat d nOp) ρ + 2 * κ * n * ρ.trace - 2 * κ * n * d ^ 2 * expectation (top d) ρ
        + η * expectation (mat d aOp)ᴴ ρ + conj η * expectation (mat d aOp) ρ := by
  set A := mat d aOp with hA
  set N := mat d nOp with hN
  have hNA : N = Aᴴ * A := mat_nOp d
  have c1 : A * N = N * A + A := a_n d
  have c2 : A * Aᴴ = N + 1 - (d : ℂ) • top d := a_adag d
  have hNh : Nᴴ = N := nOp_hermitian d
  have c3 : N * Aᴴ = Aᴴ * N + Aᴴ := by
    have := congrArg Matrix.conjTranspose c1
    rwa [Matrix.conjTranspose_mul, Matrix.conjTranspose_add, Matrix.conjTranspose_mul, hNh] at this
  rw [heisenberg]
  have key : N * mat d (modeH (κ * (2 * n + 1)) δ η) + (mat d (modeH (κ * (2 * n + 1)) δ η))ᴴ * N + (((modeJ κ n).map (mat d)).map fun j => jᴴ * N * j).sum =
      (2 * κ * (n - 1) : ℂ) • N + (2 * κ * n : ℂ) • 1 - (2 * κ * n * d ^ 2 : ℂ) • top d + η • Aᴴ + conj η • A := by
    have hG : N * mat d (modeH (κ * (2 * n + 1)) δ η) + (mat d (modeH (κ * (2 * n + 1)) δ η))ᴴ * N =
        (-(2 * κ * (2 * n + 1)) : ℂ) • (N * N) + η • Aᴴ + conj η • A := by
      rw [mat_modeH, ← hA, ← hN]
      simp only [Matrix.conjTranspose_add, Matrix.conjTranspose_sub, Matrix.conjTranspose_smul, hNh, Matrix.conjTranspose_conjTranspose, Matrix.mul_add, Matrix.mul_sub, Matrix.add_mul, Matrix.sub_mul,
        Matrix.mul_smul, Matrix.smul_mul, c1, c3, Complex.star_def, Complex.conj_conj, map_neg, map_sub, map_mul, Complex.conj_I, Complex.conj_ofReal]
      push_cast
      module
    have hs : ∀ (c : ℝ) (B : Matrix (Fin d) (Fin d) ℂ), 0 ≤ c → ((Real.sqrt c : ℂ) • B)ᴴ * N * ((Real.sqrt c : ℂ) • B) = (c : ℂ) • (Bᴴ * N * B) := by
      intro c B hc
      rw [Matrix.conjTranspose_smul, Matrix.mul_smul, Matrix.smul_mul, Matrix.smul_mul, smul_smul, Complex.star_def, Complex.conj_ofReal, ← Complex.ofReal_mul, Real.mul_self_sqrt hc]
    have j1 : Aᴴ * N * A = N * N - N := by
      have : Aᴴ * N = N * Aᴴ - Aᴴ := by rw [c3]; abel
      rw [this, Matrix.sub_mul, Matrix.mul_assoc, ← hNA]
    have j2 : (Aᴴ)ᴴ * N * Aᴴ = N * N + (2 : ℂ) • N + 1 - (d ^ 2 : ℂ) • top d := by
      rw [Matrix.conjTranspose_conjTranspose, c1, Matrix.add_mul, Matrix.mul_assoc, c2]
      simp only [Matrix.mul_add, Matrix.mul_sub, Matrix.mul_smul, Matrix.mul_one]
      rw [hN, n_top d]
      module
    rw [hG]
    unfold modeJ
    by_cases h : κ = 0
    · rw [if_pos h, h]
      simp only [List.map_nil, List.sum_nil]
      push_cast
      module
    by_cases h1 : n = 0
    · rw [if_neg h, if_pos h1]
      simp only [List.map_cons, List.map_nil, List.sum_cons, List.sum_nil, add_zero]
      rw [mat_sc, hs _ _ (by linarith), ← hA, j1, h1]
      push_cast
      module
    · rw [if_neg h, if_neg h1]
      simp only [List.map_cons, List.map_nil, List.sum_cons, List.sum_nil, add_zero]
      rw [mat_sc, hs _ _ (by nlinarith), mat_sc, hs _ _ (by nlinarith [mul_nonneg hκ hn]), mat_adOp, ← hA, j1, j2]
      push_cast
      module
  rw [key]
  unfold expectation
  simp only [Matrix.sub_mul, Matrix.add_mul, Matrix.smul_mul, Matrix.one_mul, Matrix.trace_sub, Matrix.trace_add, Matrix.trace_smul, smul_eq_mul]

/-! ## The averages streamed -/

theorem average_photons {n : ℕ} (rho : Rho n) : ModeEl.average (shown rho) 0 = photons rho := by
  rw [(average_apply _).1]
  unfold photons
  rw [Finset.sum_fin_eq_sum_range]
  have hd : (shown rho).dim = n := rfl
  rw [hd]
  rcases n with - | n
  · simp
  · rw [Finset.sum_range_succ', Nat.add_sub_cancel]
    simp only [Nat.cast_zero, zero_mul, dite_eq_ite, ite_self, add_zero]
    refine Finset.sum_congr rfl fun k hk => ?_
    have hk := Finset.mem_range.1 hk
    rw [dif_pos (by omega), add_comm 1 k]
    unfold LDO.diag shown LDO.ofDM
    simp only
    rw [dif_pos ⟨by omega, by omega⟩]

theorem average_field {n : ℕ} (rho : Rho n) : (⟨ModeEl.average (shown rho) 2, ModeEl.average (shown rho) 3⟩ : ℂ) = field rho := by
  rw [(average_apply _).2.2.1, (average_apply _).2.2.2.1, Complex.eta]
  unfold field
  have hd : (shown rho).dim = n := rfl
  rw [hd, Finset.sum_fin_eq_sum_range]
  rcases n with - | n
  · simp
  · rw [Finset.sum_range_succ, Nat.add_sub_cancel]
    have hz : (if h : n < n + 1 then ∑ j : Fin (n + 1), (if (j : ℕ) = ((⟨n, h⟩ : Fin (n + 1)) : ℕ) + 1 then (Real.sqrt j : ℂ) * rho j ⟨n, h⟩ else 0) else 0) = 0 := by
      rw [dif_pos (by omega)]
      exact Finset.sum_eq_zero fun j _ => if_neg (by have := j.2; simp only; omega)
    rw [hz, add_zero]
    refine Finset.sum_congr rfl fun k hk => ?_
    have hk := Finset.mem_range.1 hk
    rw [dif_pos (by omega), Finset.sum_eq_single (⟨k + 1, by omega⟩ : Fin (n + 1)), if_pos rfl, add_comm 1 k]
    · unfold shown LDO.ofDM
      simp only
      rw [dif_pos ⟨by omega, by omega⟩]
    · intro j _ hj
      exact if_neg fun h => hj (Fin.ext h)
    · simp

/-! ## The solutions of the Master equation -/

theorem decays (z : ℂ) (T : ℝ) (hT : 0 ≤ T) (f : ℝ → ℂ) (h : ∀ t, 0 ≤ t → t ≤ T → HasDerivAt f (z * f t) t) : f T = Complex.exp (z * T) * f 0 := by
  have hexp : ∀ t : ℝ, HasDerivAt (fun s : ℝ => Complex.exp (-z * (s : ℂ))) (-z * Complex.exp (-z * (t : ℂ))) t := by
    intro t
    have h1 : HasDerivAt (fun s : ℝ => -z * (s : ℂ)) (-z) t := by
      simpa using ((hasDerivAt_id t).ofReal_comp).const_mul (-z)
    exact (h1.cexp).congr_deriv (by ring)
  have hu : ∀ t, 0 ≤ t → t ≤ T → HasDerivAt (fun s : ℝ => Complex.exp (-z * (s : ℂ)) * f s) 0 t := fun t h0 h1 => ((hexp t).mul (h t h0 h1)).congr_deriv (by ring)
  have hc := constant_of_has_deriv_right_zero (f := fun s : ℝ => Complex.exp (-z * (s : ℂ)) * f s) (a := 0) (b := T) (fun t ht => (hu t ht.1 ht.2).continuousAt.continuousWithinAt)
    (fun t ht => (hu t ht.1 ht.2.le).hasDerivWithinAt) T ⟨hT, le_rfl⟩
  simp only [Complex.ofReal_zero, mul_zero, Complex.exp_zero, one_mul] at hc
  rw [← hc, ← mul_assoc, ← Complex.exp_add]
  simp

theorem hermitian_diag {n : ℕ} {ρ : Rho n} (h : ρ.IsHermitian) (i : Fin n) : (ρ i i).im = 0 := by
  have := congrArg Complex.im (h.apply i i)
  simp at this
  linarith

/-- The bounds on the number of photons and the population of the highest level in density operators. -/
theorem density_bounds {n : ℕ} (ρ : Rho n) (h : ρ.PosSemidef) (h1 : ρ.trace = 1) : 0 ≤ highest ρ ∧ 0 ≤ photons ρ ∧ photons ρ ≤ n := by
  have hd : ∀ i, 0 ≤ (ρ i i).re := fun i => (Complex.nonneg_iff.1 (h.diag_nonneg (i := i))).1
  refine ⟨Finset.sum_nonneg fun i _ => ?_, Finset.sum_nonneg fun i _ => mul_nonneg (Nat.cast_nonneg _) (hd i), ?_⟩
  · split_ifs
    · exact hd i
    · exact le_rfl
  · have : ∑ i, (ρ i i).re = 1 := by
      have := congrArg Complex.re h1
      rw [Matrix.trace, Complex.re_sum] at this
      simpa using this
    calc photons ρ ≤ ∑ i, (n : ℝ) * (ρ i i).re := Finset.sum_le_sum fun i _ => mul_le_mul_of_nonneg_right (by exact_mod_cast i.2.le) (hd i)
      _ = n := by rw [← Finset.mul_sum, this, mul_one]

/-- **C154.** The number of photons in the normalised solution of the Master equation of a lossy mode pumped or not, at whatever temperature. -/
theorem photons_derivative (d : ℕ) (h0 : 0 < d) (κ n : ℝ) (hκ : 0 ≤ κ) (hn : 0 ≤ n) (δ : ℝ) (η : ℂ) (T : ℝ) (ρ : ℝ → Rho d)
    (h : Unravel.Solves (mat d (modeH (κ * (2 * n + 1)) δ η)) ((modeJ κ n).map (mat d)) T ρ) (hp : (ρ 0).PosSemidef) (h1 : (ρ 0).trace = 1) (t : ℝ) (ht : 0 ≤ t) (htT : t ≤ T) :
    HasDerivAt (fun s => photons (normalised ρ s))
      (-2 * κ * (photons (normalised ρ t) - n) + 2 * (conj η * field (normalised ρ t)).re - 2 * κ * n * d * highest (normalised ρ t) * (d - photons (normalised ρ t))) t := by
  obtain ⟨hP, hT, hD⟩ := normalised_equation h hp h1 t ht htT
  set ν := normalised ρ t with hν
  have hE := expectation_hasDerivAt (mat d nOp) (normalised ρ)
    (lindblad (mat d (modeH (κ * (2 * n + 1)) δ η)) ((modeJ κ n).map (mat d)) ν - (lindblad (mat d (modeH (κ * (2 * n + 1)) δ η)) ((modeJ κ n).map (mat d)) ν).trace • ν) t
    (fun i j => by simpa [Matrix.sub_apply] using hD i j)
  have hlin : ∀ (c : ℂ) (X Y : Rho d), expectation (mat d nOp) (X - c • Y) = expectation (mat d nOp) X - c * expectation (mat d nOp) Y := by
    intro c X Y
    unfold expectation
    rw [Matrix.mul_sub, Matrix.mul_smul, Matrix.trace_sub, Matrix.trace_smul, smul_eq_mul]
  rw [hlin, photon_generator d κ n hκ hn, trace_generator d h0 κ n hκ hn, hT] at hE
  have hre := (Complex.reCLM.hasFDerivAt).comp_hasDerivAt t hE
  have hfun : (fun s => photons (normalised ρ s)) = Complex.reCLM ∘ fun s => expectation (mat d nOp) (normalised ρ s) := by
    funext s
    rw [photons_eq]; rfl
  rw [hfun]
  refine hre.congr_deriv ?_
  have hN : expectation (mat d nOp) ν = (photons ν : ℂ) := by
    apply Complex.ext
    · rw [photons_eq]; simp
    · rw [expectation_n, Complex.im_sum]
      simp only [Complex.ofReal_im]
      refine Finset.sum_eq_zero fun i _ => ?_
      rw [← Complex.ofReal_natCast, Complex.im_ofReal_mul, hermitian_diag hP.1, mul_zero]
  have hH : expectation (top d) ν = (highest ν : ℂ) := by
    apply Complex.ext
    · rw [highest_eq]; simp
    · rw [expectation_top, Complex.im_sum]
      simp only [Complex.ofReal_im]
      refine Finset.sum_eq_zero fun i _ => ?_
      split_ifs
      · exact hermitian_diag hP.1 i
      · rfl
  have hA : expectation (mat d aOp)ᴴ ν = conj (expectation (mat d aOp) ν) := by
    unfold expectation
    rw [← Complex.star_def, ← Matrix.trace_conjTranspose, Matrix.conjTranspose_mul, hP.1.eq, Matrix.trace_mul_comm]
  rw [hN, hH, hA, field_eq]
  generalize expectation (mat d aOp) ν = z
  generalize photons ν = x
  generalize highest ν = y
  have e : (2 * κ * (n - 1) * x + 2 * κ * n * 1 - 2 * κ * n * d ^ 2 * y + η * conj z + conj η * z - 2 * κ * n * (1 - d * y) * x : ℂ) =
      ((2 * κ * (n - 1) * x + 2 * κ * n * 1 - 2 * κ * n * d ^ 2 * y - 2 * κ * n * (1 - d * y) * x : ℝ) : ℂ) + ((conj η * z) + conj (conj η * z)) := by
    push_cast
    rw [map_mul, Complex.conj_conj]
    ring
  have e' : Complex.reCLM (2 * κ * (n - 1) * x + 2 * κ * n * 1 - 2 * κ * n * d ^ 2 * y + η * conj z + conj η * z - 2 * κ * n * (1 - d * y) * x : ℂ) =
      (2 * κ * (n - 1) * x + 2 * κ * n * 1 - 2 * κ * n * d ^ 2 * y - 2 * κ * n * (1 - d * y) * x) + 2 * (conj η * z).re := by
    rw [e, Complex.add_conj, map_add]
    simp only [Complex.reCLM_apply, Complex.ofReal_re]
  rw [e']
  ring

/-- **C154.** The relaxation of the number of photons of the mode not pumped, at whatever temperature: it does not exceed the value in the Planck formula of an infinite number of levels, and it is less by not more than
what the population of the highest level allows. -/
theorem photons_relax (d : ℕ) (h0 : 0 < d) (κ n : ℝ) (hκ : 0 ≤ κ) (hn : 0 ≤ n) (δ : ℝ) (T : ℝ) (hT : 0 ≤ T) (ρ : ℝ → Rho d)
    (h : Unravel.Solves (mat d (modeH (κ * (2 * n + 1)) δ 0)) ((modeJ κ n).map (mat d)) T ρ) (hp : (ρ 0).PosSemidef) (h1 : (ρ 0).trace = 1) :
    photons (normalised ρ T) ≤ n + Real.exp (-2 * κ * T) * (photons (ρ 0) - n) ∧
    ∀ w, (∀ t, 0 ≤ t → t ≤ T → highest (normalised ρ t) ≤ w) → n + Real.exp (-2 * κ * T) * (photons (ρ 0) - n) - n * d ^ 2 * w ≤ photons (normalised ρ T) := by
  set f : ℝ → ℝ := fun s => photons (normalised ρ s) with hf
  set e : ℝ → ℝ := fun t => 2 * κ * n * d * highest (normalised ρ t) * (d - f t) with he
  have hf' : ∀ t, 0 ≤ t → t ≤ T → HasDerivAt f (-2 * κ * (f t - n) - e t) t := by
    intro t a b
    refine (photons_derivative d h0 κ n hκ hn δ 0 T ρ h hp h1 t a b).congr_deriv ?_
    simp [hf, he]
  have hb : ∀ t, 0 ≤ t → t ≤ T → 0 ≤ highest (normalised ρ t) ∧ 0 ≤ f t ∧ f t ≤ d := by
    intro t a b
    obtain ⟨hP, hT, -⟩ := normalised_equation h hp h1 t a b
    exact density_bounds _ hP hT
  have hz : f 0 = photons (ρ 0) := by
    rw [hf]
    simp only [normalised, h1, div_one]
    rfl
  have hexp : ∀ t : ℝ, HasDerivAt (fun s : ℝ => Real.exp (2 * κ * s)) (2 * κ * Real.exp (2 * κ * t)) t := by
    intro t
    have h1 : HasDerivAt (fun s : ℝ => 2 * κ * s) (2 * κ) t := by simpa using (hasDerivAt_id t).const_mul (2 * κ)
    exact (h1.exp).congr_deriv (by ring)
  have hinv : Real.exp (-2 * κ * T) * Real.exp (2 * κ * T) = 1 := by rw [← Real.exp_add]; simp
  have hpos := Real.exp_pos (-2 * κ * T)
  have hg : ∀ t, 0 ≤ t → t ≤ T → HasDerivAt (fun s => Real.exp (2 * κ * s) * (f s - n)) (-(Real.exp (2 * κ * t) * e t)) t := by
    intro t a b
    exact ((hexp t).mul ((hf' t a b).sub_const n)).congr_deriv (by ring)
  constructor
  · have hanti : AntitoneOn (fun s => Real.exp (2 * κ * s) * (f s - n)) (Set.Icc 0 T) := by
      refine antitoneOn_of_deriv_nonpos (convex_Icc 0 T) (fun t ht => (hg t ht.1 ht.2).continuousAt.continuousWithinAt) (fun t ht => ?_) (fun t ht => ?_)
      · rw [interior_Icc] at ht
        exact (hg t ht.1.le ht.2.le).differentiableAt.differentiableWithinAt
      · rw [interior_Icc] at ht
        obtain ⟨b1, b2, b3⟩ := hb t ht.1.le ht.2.le
        rw [(hg t ht.1.le ht.2.le).deriv, neg_nonpos]
        have : 0 ≤ d - f t := by linarith
        exact mul_nonneg (Real.exp_pos _).le (by rw [he]; positivity)
    have := hanti ⟨le_rfl, hT⟩ ⟨hT, le_rfl⟩ hT
    simp only [mul_zero, Real.exp_zero, one_mul, hz] at this
    have := mul_le_mul_of_nonneg_left this hpos.le
    rw [← mul_assoc, hinv, one_mul] at this
    simp only [hf] at this ⊢
    linarith
  · intro w hw
    have hmono : MonotoneOn (fun s => Real.exp (2 * κ * s) * (f s - n) + n * d ^ 2 * w * Real.exp (2 * κ * s)) (Set.Icc 0 T) := by
      have hg' : ∀ t, 0 ≤ t → t ≤ T → HasDerivAt (fun s => Real.exp (2 * κ * s) * (f s - n) + n * d ^ 2 * w * Real.exp (2 * κ * s)) (-(Real.exp (2 * κ * t) * e t) + n * d ^ 2 * w * (2 * κ * Real.exp (2 * κ * t))) t :=
        fun t a b => (hg t a b).add ((hexp t).const_mul _)
      refine monotoneOn_of_deriv_nonneg (convex_Icc 0 T) (fun t ht => (hg' t ht.1 ht.2).continuousAt.continuousWithinAt) (fun t ht => ?_) (fun t ht => ?_)
      · rw [interior_Icc] at ht
        exact (hg' t ht.1.le ht.2.le).differentiableAt.differentiableWithinAt
      · rw [interior_Icc] at ht
        obtain ⟨b1, b2, b3⟩ := hb t ht.1.le ht.2.le
        have hw' := hw t ht.1.le ht.2.le
        rw [(hg' t ht.1.le ht.2.le).deriv]
        have hle : e t ≤ 2 * κ * n * d * w * d := by
          rw [he]
          refine mul_le_mul (mul_le_mul_of_nonneg_left hw' (by positivity)) (by linarith) (by linarith) ?_
          have : 0 ≤ w := b1.trans hw'
          positivity
        have := mul_le_mul_of_nonneg_left hle (Real.exp_pos (2 * κ * t)).le
        nlinarith
    have := hmono ⟨le_rfl, hT⟩ ⟨hT, le_rfl⟩ hT
    simp only [mul_zero, Real.exp_zero, one_mul, mul_one, hz] at this
    have := mul_le_mul_of_nonneg_left this hpos.le
    have e1 : Real.exp (-2 * κ * T) * (Real.exp (2 * κ * T) * (f T - n) + n * d ^ 2 * w * Real.exp (2 * κ * T)) = f T - n + n * d ^ 2 * w := by
      calc _ = (Real.exp (-2 * κ * T) * Real.exp (2 * κ * T)) * (f T - n + n * d ^ 2 * w) := by ring
        _ = _ := by rw [hinv, one_mul]
    rw [e1] at this
    have hw0 : 0 ≤ w := (hb 0 le_rfl hT).1.trans (hw 0 le_rfl hT)
    have : 0 ≤ Real.exp (-2 * κ * T) * (n * d ^ 2 * w) := by positivity
    simp only [hf] at *
    nlinarith

/-- **C154.** At zero temperature, the number of photons and the amplitude of the mode not pumped decay exponentially, exactly, with whatever number of levels kept, and the trace is conserved. -/
theorem photons_decay (d : ℕ) (h0 : 0 < d) (κ : ℝ) (hκ : 0 ≤ κ) (δ : ℝ) (T : ℝ) (hT : 0 ≤ T) (ρ : ℝ → Rho d)
    (h : Unravel.Solves (mat d (modeH κ δ 0)) ((modeJ κ 0).map (mat d)) T ρ) :
    (ρ T).trace = (ρ 0).trace ∧ photons (ρ T) = Real.exp (-2 * κ * T) * photons (ρ 0) ∧ field (ρ T) = Complex.exp ((-κ + Complex.I * δ) * T) * field (ρ 0) := by
  have hk : κ = κ * (2 * 0 + 1) := by ring
  refine ⟨?_, ?_, ?_⟩
  · have := decays 0 T hT (fun s => (ρ s).trace) fun t a b => by
      refine (trace_hasDerivAt _ _ t (h t a b)).congr_deriv ?_
      have := trace_generator d h0 κ 0 hκ le_rfl δ 0 (ρ t)
      rw [← hk] at this
      rw [this]
      simp
    simpa using this
  · have := decays (-2 * κ) T hT (fun s => expectation (mat d nOp) (ρ s)) fun t a b => by
      refine (expectation_hasDerivAt _ _ _ t (h t a b)).congr_deriv ?_
      have := photon_generator d κ 0 hκ le_rfl δ 0 (ρ t)
      rw [← hk] at this
      rw [this]
      simp
    have := congrArg Complex.re this
    simp only [← photons_eq] at this
    rw [this, photons_eq]
    have e : Complex.exp (-2 * κ * T) = ((Real.exp (-2 * κ * T) : ℝ) : ℂ) := by push_cast; rfl
    rw [e, Complex.re_ofReal_mul]
  · rw [field_eq, field_eq]
    refine decays (-κ + Complex.I * δ) T hT (fun s => expectation (mat d aOp) (ρ s)) fun t a b => ?_
    refine (expectation_hasDerivAt _ _ _ t (h t a b)).congr_deriv ?_
    have := amplitude_generator d κ 0 hκ le_rfl δ 0 (ρ t)
    rw [← hk] at this
    rw [this]
    simp

/-! ## The trajectories -/

/-- There are trajectories as required. -/
theorem reached_exists.{v} {n : ℕ} {S : Sys n} {A : Rho n} {J : List (Rho n)} (h : TracksNormalised.{v} S A J) (C T : ℝ) (hT : 0 ≤ T) (rho : Rho n) (hp : rho.PosSemidef) (h1 : rho.trace = 1) :
    ∃ x, Reached.{v} S C T 0 rho x := by
  obtain ⟨κ, solver, ⟨ces⟩, hg, ha⟩ := h.attained
  obtain ⟨m, hm⟩ := exists_nat_ge T
  have := ha 1 T one_pos le_rfl rho ces 1 le_rfl 1 m one_pos (by simpa using hm)
  obtain ⟨y, hy⟩ := Option.isSome_iff_exists.1 this
  exact ⟨y.rho, κ, solver, 1, ces, 1, 1, 1, m, y, hg, le_rfl, by simp, one_pos, le_rfl, one_pos, hp, h1, hy, rfl⟩

/-- The trajectories end near the normalised solution. -/
theorem reached_close.{v} {n : ℕ} {S : Sys n} {A : Rho n} {J : List (Rho n)} (h : TracksNormalised.{v} S A J) (T : ℝ) (hT : 0 ≤ T) :
    ∃ C, 0 ≤ C ∧ ∀ C' ε rho x, C ≤ C' → Reached.{v} S C' T ε rho x → rho.PosSemidef ∧ rho.trace = 1 ∧ 0 ≤ ε ∧ ∃ ρ : ℝ → Rho n, Unravel.Solves A J T ρ ∧ ρ 0 = rho ∧ ∀ i j, ‖x i j - normalised ρ T i j‖ ≤ C * ε := by
  obtain ⟨C, hC, H⟩ := h.error T hT
  refine ⟨C, hC, fun C' ε rho x hCC hx => ?_⟩
  obtain ⟨κ, solver, Dt, ces, dtInit, fuel, N, m, y, hg, hε, hCε, hD, hD1, hdt, hp, h1, hy, rfl⟩ := hx
  obtain ⟨-, -, -, hρ⟩ := H solver ε Dt hg hε ((mul_le_mul_of_nonneg_right hCC hε).trans hCε) hD hD1 rho hp h1 ces dtInit hdt fuel N m y hy
  have hs : Unravel.Solves A J T fun s => sol A J (s - 0) rho := fun t _ _ i j => hasDerivAt_sol A J rho 0 t i j
  have h0 : sol A J (0 - 0) rho = rho := by rw [sub_zero, sol_zero]
  exact ⟨hp, h1, hε, _, hs, h0, (hρ _ hs h0).2⟩

theorem photons_close {n : ℕ} (x y : Rho n) (b : ℝ) (h : ∀ i j, ‖x i j - y i j‖ ≤ b) : |photons x - photons y| ≤ n ^ 2 * b := by
  unfold photons
  rw [← Finset.sum_sub_distrib]
  refine (Finset.abs_sum_le_sum_abs _ _).trans ?_
  have : ∀ i : Fin n, |(i : ℝ) * (x i i).re - i * (y i i).re| ≤ n * b := by
    intro i
    rw [← mul_sub, abs_mul, abs_of_nonneg (Nat.cast_nonneg _), ← Complex.sub_re]
    exact mul_le_mul (by exact_mod_cast i.2.le) ((Complex.abs_re_le_norm _).trans (h i i)) (abs_nonneg _) (Nat.cast_nonneg _)
  refine (Finset.sum_le_sum fun i _ => this i).trans ?_
  rw [Finset.sum_const, Finset.card_univ, Fintype.card_fin, nsmul_eq_mul, sq, mul_assoc]

theorem field_close {n : ℕ} (x y : Rho n) (b : ℝ) (hb : 0 ≤ b) (h : ∀ i j, ‖x i j - y i j‖ ≤ b) : ‖field x - field y‖ ≤ n ^ 3 * b := by
  unfold field
  rw [← Finset.sum_sub_distrib]
  simp only [← Finset.sum_sub_distrib]
  have : ∀ i j : Fin n, ‖(if (j : ℕ) = i + 1 then (Real.sqrt j : ℂ) * x j i else 0) - (if (j : ℕ) = i + 1 then (Real.sqrt j : ℂ) * y j i else 0)‖ ≤ n * b := by
    intro i j
    split_ifs with hj
    · rw [← mul_sub, norm_mul, Complex.norm_real, Real.norm_eq_abs, abs_of_nonneg (Real.sqrt_nonneg _)]
      refine mul_le_mul ?_ (h j i) (norm_nonneg _) (Nat.cast_nonneg _)
      have h1 : (1 : ℝ) ≤ j := by rw [hj]; push_cast; linarith [Nat.cast_nonneg (α := ℝ) (i : ℕ)]
      have h2 : Real.sqrt (j : ℝ) ≤ j := by
        rw [Real.sqrt_le_left (by linarith)]
        nlinarith
      exact h2.trans (by exact_mod_cast j.2.le)
    · simpa using mul_nonneg (Nat.cast_nonneg _) hb
  refine (norm_sum_le _ _).trans ((Finset.sum_le_sum fun i _ => (norm_sum_le _ _).trans (Finset.sum_le_sum fun j _ => this i j)).trans ?_)
  rw [Finset.sum_const, Finset.sum_const, Finset.card_univ, Fintype.card_fin, nsmul_eq_mul, nsmul_eq_mul]
  exact le_of_eq (by ring)

/-- **C154.** The lossy mode not pumped in Master-equation trajectories, at whatever temperature: the number of photons streamed at the time `T` as compared to `nTh+exp(-2κT)(n-nTh)`, `n` being the number of photons initially. It
is not more, and less by not more than `nTh·cutoff²` times the highest population `w` the highest level has had in the meantime. -/
theorem mode_relaxation.{v} (p : ModeEl.Pars) (hd : p.cutoff < 2 ^ 63) (h0 : 0 < p.cutoff) (hκ : 0 ≤ p.kappa) (hn : 0 ≤ p.nTh) (hη : p.eta = 0) (hK : p.omegaKerr = 0) (hA : p.omegaKerrAlter = 0) (qmp : Picture)
    (hp : qmp ≠ .ip ∨ p.kappa = 0) : ∃ e, makePumpedLossy p qmp = .ok e ∧ e.dim = p.cutoff ∧ ∀ T, 0 ≤ T → ∃ C, 0 ≤ C ∧
      (∀ rho : Rho e.dim, rho.PosSemidef → rho.trace = 1 → ∃ x, Reached.{v} e.toSys C T 0 rho x) ∧
      ∀ ε rho x, Reached.{v} e.toSys C T ε rho x →
        average (shown x) 0 ≤ p.nTh + Real.exp (-2 * p.kappa * T) * (average (shown rho) 0 - p.nTh) + C * ε ∧
        ∀ w, (∀ ρ, Unravel.Solves (mat e.dim (modeH (p.kappa * (2 * p.nTh + 1)) p.delta 0)) ((modeJ p.kappa p.nTh).map (mat e.dim)) T ρ → ρ 0 = rho → ∀ t, 0 ≤ t → t ≤ T → highest (normalised ρ t) ≤ w) →
          p.nTh + Real.exp (-2 * p.kappa * T) * (average (shown rho) 0 - p.nTh) - p.nTh * p.cutoff ^ 2 * w - C * ε ≤ average (shown x) 0 := by
  obtain ⟨e, h1, h2, h3⟩ := mode_normalised.{v} p hd h0 hκ hn hK hA qmp hp
  rw [hη] at h3
  refine ⟨e, h1, h2, fun T hT => ?_⟩
  obtain ⟨C, hC, H⟩ := reached_close h3 T hT
  refine ⟨C + e.dim ^ 2 * C, by positivity, fun rho a b => reached_exists h3 _ T hT rho a b, fun ε rho x hx => ?_⟩
  obtain ⟨a, b, hε, ρ, hs, hz, hc⟩ := H _ ε rho x (by nlinarith [mul_nonneg (sq_nonneg (e.dim : ℝ)) hC]) hx
  have hcl := photons_close _ _ _ hc
  subst hz
  obtain ⟨u, l⟩ := photons_relax e.dim (by omega) p.kappa p.nTh hκ hn p.delta T hT ρ hs a b
  rw [average_photons, average_photons]
  have hab := abs_le.1 hcl
  have hCε := mul_nonneg hC hε
  refine ⟨by nlinarith, fun w hw => ?_⟩
  have := l w (hw ρ hs rfl)
  have hcut : (p.cutoff : ℝ) = e.dim := by rw [h2]
  rw [hcut]
  nlinarith

/-- **C154.** The lossy mode not pumped in Master-equation trajectories at zero temperature: the number of photons and the amplitude streamed at the time `T` are, apart from the error of the stepper, the initial ones decaying
exponentially, with whatever number of levels kept. -/
theorem mode_decay.{v} (p : ModeEl.Pars) (hd : p.cutoff < 2 ^ 63) (h0 : 0 < p.cutoff) (hκ : 0 ≤ p.kappa) (hn : p.nTh = 0) (hη : p.eta = 0) (hK : p.omegaKerr = 0) (hA : p.omegaKerrAlter = 0) (qmp : Picture)
    (hp : qmp ≠ .ip ∨ p.kappa = 0) : ∃ e, makePumpedLossy p qmp = .ok e ∧ e.dim = p.cutoff ∧ ∀ T, 0 ≤ T → ∃ C, 0 ≤ C ∧
      (∀ rho : Rho e.dim, rho.PosSemidef → rho.trace = 1 → ∃ x, Reached.{v} e.toSys C T 0 rho x) ∧
      ∀ ε rho x, Reached.{v} e.toSys C T ε rho x →
        |average (shown x) 0 - Real.exp (-2 * p.kappa * T) * average (shown rho) 0| ≤ C * ε ∧
        ‖(⟨average (shown x) 2, average (shown x) 3⟩ : ℂ) - Complex.exp ((-p.kappa + Complex.I * p.delta) * T) * ⟨average (shown rho) 2, average (shown rho) 3⟩‖ ≤ C * ε := by
  obtain ⟨e, h1, h2, h3⟩ := mode_normalised.{v} p hd h0 hκ hn.ge hK hA qmp hp
  rw [hη, hn, mul_zero, zero_add, mul_one] at h3
  refine ⟨e, h1, h2, fun T hT => ?_⟩
  obtain ⟨C, hC, H⟩ := reached_close h3 T hT
  refine ⟨C + e.dim ^ 2 * C + e.dim ^ 3 * C, by positivity, fun rho a b => reached_exists h3 _ T hT rho a b, fun ε rho x hx => ?_⟩
  obtain ⟨a, b, hε, ρ, hs, hz, hc⟩ := H _ ε rho x (by nlinarith [mul_nonneg (sq_nonneg (e.dim : ℝ)) hC, mul_nonneg (pow_nonneg (Nat.cast_nonneg (α := ℝ) e.dim) 3) hC]) hx
  have hCε := mul_nonneg hC hε
  have hcl := photons_close _ _ _ hc
  have hcf := field_close _ _ _ hCε hc
  subst hz
  obtain ⟨ht, hN, hF⟩ := photons_decay e.dim (by omega) p.kappa hκ p.delta T hT ρ hs
  have hnorm : normalised ρ T = ρ T := by
    ext i j
    simp [normalised, ht, b]
  rw [hnorm] at hcl hcf
  rw [average_photons, average_photons, average_field, average_field, ← hN, ← hF]
  have e2 : 0 ≤ (e.dim : ℝ) ^ 2 * (C * ε) := by positivity
  have e3 : 0 ≤ (e.dim : ℝ) ^ 3 * (C * ε) := by positivity
  constructor <;> nlinarith

/-- **C154.** The qbit not pumped in Master-equation trajectories: the population of its excited state and its dipole moment decay exponentially. -/
theorem qbit_decay.{v} (p : QbitEl.Pars) (hγ : 0 ≤ p.gamma) (hη : p.eta = 0) (qmp : Picture) (hp : qmp ≠ .ip ∨ p.gamma = 0) : ∃ e, QbitEl.make p qmp = .ok e ∧ e.dim = 2 ∧ ∀ T, 0 ≤ T → ∃ C, 0 ≤ C ∧
      (∀ rho : Rho e.dim, rho.PosSemidef → rho.trace = 1 → ∃ x, Reached.{v} e.toSys C T 0 rho x) ∧
      ∀ ε rho x, Reached.{v} e.toSys C T ε rho x →
        |QbitEl.average (shown x) 1 - Real.exp (-2 * p.gamma * T) * QbitEl.average (shown rho) 1| ≤ C * ε ∧
        |QbitEl.average (shown x) 0 - (1 - Real.exp (-2 * p.gamma * T) * QbitEl.average (shown rho) 1)| ≤ C * ε ∧
        ‖(⟨QbitEl.average (shown x) 2, QbitEl.average (shown x) 3⟩ : ℂ) - Complex.exp ((-p.gamma + Complex.I * p.delta) * T) * ⟨QbitEl.average (shown rho) 2, QbitEl.average (shown rho) 3⟩‖ ≤ C * ε := by
  obtain ⟨e, h1, h2, h3, -, h4, h5, -⟩ := Interactions.qbit_masterFree p hγ qmp hp
  have h3 := element_normalised.{v} h4 h5 h3
  rw [hη] at h3
  refine ⟨e, h1, h2, fun T hT => ?_⟩
  obtain ⟨d, hd⟩ : ∃ d, d = e.dim := ⟨_, rfl⟩
  generalize hS : e.toSys = S at h3 ⊢
  clear hS h4 h5
  revert S
  rw [h2]
  intro S h3
  obtain ⟨C, hC, H⟩ := reached_close h3 T hT
  refine ⟨2 * C, by positivity, fun rho a b => reached_exists h3 _ T hT rho a b, fun ε rho x hx => ?_⟩
  obtain ⟨a, b, hε, ρ, hs, hz, hc⟩ := H _ ε rho x (by linarith) hx
  have hCε := mul_nonneg hC hε
  subst hz
  rw [← QbitEl.qbitH_eq, neg_zero] at hs
  obtain ⟨ht, hN, hF⟩ := photons_decay 2 (by norm_num) p.gamma hγ p.delta T hT ρ hs
  have hnorm : normalised ρ T = ρ T := by
    ext i j
    simp [normalised, ht, b]
  rw [hnorm] at hc
  have hph : ∀ r : Rho 2, photons r = (r 1 1).re := fun r => by simp [photons, Fin.sum_univ_two]
  have hfi : ∀ r : Rho 2, field r = r 1 0 := fun r => by simp [field, Fin.sum_univ_two]
  have h1s : ∀ r : Rho 2, QbitEl.average (shown r) 1 = (r 1 1).re := fun r => rfl
  have h0s : ∀ r : Rho 2, QbitEl.average (shown r) 0 = (r 0 0).re := fun r => rfl
  have h2s : ∀ r : Rho 2, (⟨QbitEl.average (shown r) 2, QbitEl.average (shown r) 3⟩ : ℂ) = r 1 0 := fun r => rfl
  rw [hph, hph] at hN
  rw [hfi, hfi] at hF
  rw [h2s, h2s, h1s, h1s, h0s, ← hN, ← hF]
  have htr : (ρ T 0 0).re = 1 - (ρ T 1 1).re := by
    rw [b] at ht
    have := congrArg Complex.re ht
    rw [Matrix.trace, Fin.sum_univ_two] at this
    simp at this
    linarith
  refine ⟨?_, ?_, ?_⟩
  · rw [← Complex.sub_re]
    exact (Complex.abs_re_le_norm _).trans ((hc 1 1).trans (by linarith))
  · rw [← htr, ← Complex.sub_re]
    exact (Complex.abs_re_le_norm _).trans ((hc 0 0).trans (by linarith))
  · exact (hc 1 0).trans (by linarith)

/-- A mode with thermal photons, and initial density operators, meeting the requirements: the Fock state of two photons. -/
example : ∃ e, makePumpedLossy ⟨5, 0.3, 0, 0, 1, 0.5, 0⟩ .uip = .ok e ∧ e.dim = 5 ∧ ∀ T, 0 ≤ T → ∃ C, 0 ≤ C ∧
    ∀ rho : Rho e.dim, rho.PosSemidef → rho.trace = 1 → ∃ x, Reached.{0} e.toSys C T 0 rho x ∧ average (shown x) 0 ≤ 0.5 + Real.exp (-2 * 1 * T) * (average (shown rho) 0 - 0.5) := by
  obtain ⟨e, h1, h2, h3⟩ := mode_relaxation.{0} ⟨5, 0.3, 0, 0, 1, 0.5, 0⟩ (by norm_num) (by norm_num) (by norm_num) (by norm_num) rfl rfl rfl .uip (Or.inl (by decide))
  refine ⟨e, h1, h2, fun T hT => ?_⟩
  obtain ⟨C, hC, hx, H⟩ := h3 T hT
  refine ⟨C, hC, fun rho a b => ?_⟩
  obtain ⟨x, hx⟩ := hx rho a b
  refine ⟨x, hx, ?_⟩
  have := (H 0 rho x hx).1
  simpa using this

example : (Matrix.diagonal fun i : Fin 5 => if i = 2 then (1 : ℂ) else 0).PosSemidef ∧ (Matrix.diagonal fun i : Fin 5 => if i = 2 then (1 : ℂ) else 0).trace = 1 ∧
    photons (Matrix.diagonal fun i : Fin 5 => if i = 2 then (1 : ℂ) else 0) = 2 := by
  refine ⟨Matrix.PosSemidef.diagonal fun i => ?_, ?_, ?_⟩
  · dsimp only
    split_ifs <;> simp
  · rw [Matrix.trace_diagonal]; simp
  · unfold photons
    rw [Finset.sum_eq_single 2] <;> simp +contextual

end CppQED.Relax
