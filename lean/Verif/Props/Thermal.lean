import Verif.Spec.Thermal
import Verif.Lemmas.Contraction
import Verif.Props.Relaxation

/-! # Property C156: the lossy mode relaxes to the thermal state -/

namespace CppQED.Relax
open CppQED.Elem CppQED.Spec CppQED.ModeEl CppQED.Evolved Matrix CppQED.Master CppQED.Contraction
open scoped ComplexConjugate ComplexOrder

/-! ## The elements of the generator -/

/-- The elements of a matrix, zero beyond the cutoff. -/
noncomputable def el {d : ℕ} (X : Rho d) (i j : ℕ) : ℂ := if h : i < d ∧ j < d then X ⟨i, h.1⟩ ⟨j, h.2⟩ else 0

theorem el_fin {d : ℕ} (X : Rho d) (i j : Fin d) : el X i j = X i j := by
  rw [el, dif_pos ⟨i.2, j.2⟩]

theorem a_mul {d : ℕ} (X : Rho d) (i j : ℕ) (hi : i < d) : el (mat d aOp * X) i j = (Real.sqrt (i + 1) : ℂ) * el X (i + 1) j := by
  unfold el
  by_cases hj : j < d
  · rw [dif_pos ⟨hi, hj⟩, Matrix.mul_apply]
    simp only [mat, Matrix.of_apply, aOp, ite_mul, zero_mul]
    by_cases h : i + 1 < d
    · rw [dif_pos ⟨h, hj⟩, Finset.sum_eq_single (⟨i + 1, h⟩ : Fin d)]
      · simp
      · intro k _ hk
        rw [if_neg fun e => hk (Fin.ext e)]
      · simp
    · rw [dif_neg (by omega), mul_zero]
      refine Finset.sum_eq_zero fun k _ => ?_
      rw [if_neg (by have := k.2; omega)]
  · rw [dif_neg (by omega), dif_neg (by omega), mul_zero]

theorem ad_mul {d : ℕ} (X : Rho d) (i j : ℕ) (hi : i < d) : el ((mat d aOp)ᴴ * X) i j = (Real.sqrt i : ℂ) * el X (i - 1) j := by
  unfold el
  by_cases hj : j < d
  · rw [dif_pos ⟨hi, hj⟩, dif_pos ⟨by omega, hj⟩, Matrix.mul_apply]
    simp only [Matrix.conjTranspose_apply, mat, Matrix.of_apply, aOp]
    rcases Nat.eq_zero_or_pos i with h | h
    · subst h
      simp
    · rw [Finset.sum_eq_single (⟨i - 1, by omega⟩ : Fin d)]
      · rw [if_pos (by simp; omega)]
        simp
      · intro k _ hk
        rw [if_neg, star_zero, zero_mul]
        intro e
        exact hk (Fin.ext (by simp at e ⊢; omega))
      · simp
  · rw [dif_neg (by omega), dif_neg (by omega), mul_zero]

theorem el_conjTranspose {d : ℕ} (X : Rho d) (i j : ℕ) : el Xᴴ i j = conj (el X j i) := by
  unfold el
  by_cases h : i < d ∧ j < d
  · rw [dif_pos h, dif_pos h.symm]; rfl
  · rw [dif_neg h, dif_neg (by tauto), map_zero]

theorem mul_ad {d : ℕ} (X : Rho d) (i j : ℕ) (hj : j < d) : el (X * (mat d aOp)ᴴ) i j = (Real.sqrt (j + 1) : ℂ) * el X i (j + 1) := by
  have h := a_mul Xᴴ j i hj
  have e : mat d aOp * Xᴴ = (X * (mat d aOp)ᴴ)ᴴ := by rw [Matrix.conjTranspose_mul, Matrix.conjTranspose_conjTranspose]
  rw [e, el_conjTranspose, el_conjTranspose] at h
  have := congrArg conj h
  simpa using this

theorem mul_a {d : ℕ} (X : Rho d) (i j : ℕ) (hj : j < d) : el (X * mat d aOp) i j = (Real.sqrt j : ℂ) * el X i (j - 1) := by
  have h := ad_mul Xᴴ j i hj
  have e : (mat d aOp)ᴴ * Xᴴ = (X * mat d aOp)ᴴ := by rw [Matrix.conjTranspose_mul]
  rw [e, el_conjTranspose, el_conjTranspose] at h
  have := congrArg conj h
  simpa using this

theorem n_mul {d : ℕ} (X : Rho d) (i j : Fin d) : (mat d nOp * X) i j = i * X i j := by
  rw [Matrix.mul_apply, Finset.sum_eq_single i]
  · simp [mat, nOp]
  · intro k _ hk
    simp only [mat, Matrix.of_apply, nOp]
    rw [if_neg fun e => hk (Fin.ext e.symm), zero_mul]
  · simp

theorem mul_n {d : ℕ} (X : Rho d) (i j : Fin d) : (X * mat d nOp) i j = j * X i j := by
  rw [Matrix.mul_apply, Finset.sum_eq_single j]
  · simp [mat, nOp, mul_comm]
  · intro k _ hk
    simp only [mat, Matrix.of_apply, nOp]
    rw [if_neg fun e => hk (Fin.ext e), mul_zero]
  · simp

/-- The Master equation of the lossy mode not pumped, by elements. -/
theorem generator_el (d : ℕ) (κ n : ℝ) (hκ : 0 ≤ κ) (hn : 0 ≤ n) (δ : ℝ) (X : Rho d) (i j : Fin d) :
    lindblad (mat d (modeH (κ * (2 * n + 1)) δ 0)) ((modeJ κ n).map (mat d)) X i j =
      (-(κ * (2 * n + 1) * (i + j) : ℝ) + Complex.I * δ * ((i : ℂ) - j)) * X i j + (2 * κ * (n + 1) * (Real.sqrt (i + 1) * Real.sqrt (j + 1)) : ℝ) * el X (i + 1) (j + 1)
        + (2 * κ * n * (Real.sqrt i * Real.sqrt j) : ℝ) * el X (i - 1) (j - 1) := by
  set A := mat d aOp with hA
  set N := mat d nOp with hN
  have hNh : Nᴴ = N := nOp_hermitian d
  have hs : ∀ (c : ℝ) (B : Matrix (Fin d) (Fin d) ℂ), 0 ≤ c → ((Real.sqrt c : ℂ) • B) * X * ((Real.sqrt c : ℂ) • B)ᴴ = (c : ℂ) • (B * X * Bᴴ) := by
    intro c B hc
    rw [Matrix.conjTranspose_smul, Matrix.mul_smul, Matrix.smul_mul, Matrix.smul_mul, smul_smul, Complex.star_def, Complex.conj_ofReal, ← Complex.ofReal_mul, Real.mul_self_sqrt hc]
  have key : lindblad (mat d (modeH (κ * (2 * n + 1)) δ 0)) ((modeJ κ n).map (mat d)) X =
      (-(κ * (2 * n + 1)) + Complex.I * δ : ℂ) • (N * X) + (-(κ * (2 * n + 1)) - Complex.I * δ : ℂ) • (X * N) + (2 * κ * (n + 1) : ℂ) • (A * X * Aᴴ) + (2 * κ * n : ℂ) • (Aᴴ * X * A) := by
    unfold lindblad
    have hG : mat d (modeH (κ * (2 * n + 1)) δ 0) * X + X * (mat d (modeH (κ * (2 * n + 1)) δ 0))ᴴ =
        (-(κ * (2 * n + 1)) + Complex.I * δ : ℂ) • (N * X) + (-(κ * (2 * n + 1)) - Complex.I * δ : ℂ) • (X * N) := by
      rw [mat_modeH, ← hA, ← hN]
      simp only [zero_smul, map_zero, add_zero, sub_zero, Matrix.conjTranspose_smul, hNh, Matrix.mul_smul, Matrix.smul_mul, Complex.star_def, map_neg, map_sub, map_mul, Complex.conj_I, Complex.conj_ofReal]
      push_cast
      module
    rw [hG]
    unfold modeJ
    by_cases h : κ = 0
    · rw [if_pos h, h]
      simp only [List.map_nil, List.sum_nil]
      push_cast
      module
    by_cases h1 : n = 0
    · rw [if_neg h, if_pos h1]
      simp only [List.map_cons, List.map_nil, List.sum_cons, List.sum_nil, add_zero]
      rw [mat_sc, hs _ _ (by linarith), ← hA, h1]
      push_cast
      module
    · rw [if_neg h, if_neg h1]
      simp only [List.map_cons, List.map_nil, List.sum_cons, List.sum_nil, add_zero]
      rw [mat_sc, hs _ _ (by nlinarith), mat_sc, hs _ _ (by nlinarith [mul_nonneg hκ hn]), mat_adOp, ← hA, Matrix.conjTranspose_conjTranspose]
      push_cast
      module
  rw [key]
  simp only [Matrix.add_apply, Matrix.smul_apply, smul_eq_mul]
  have e1 : (A * X * Aᴴ) i j = (Real.sqrt (j + 1) : ℂ) * ((Real.sqrt (i + 1) : ℂ) * el X (i + 1) (j + 1)) := by
    rw [← el_fin (A * X * Aᴴ), mul_ad _ _ _ j.2, a_mul _ _ _ i.2]
  have e2 : (Aᴴ * X * A) i j = (Real.sqrt j : ℂ) * ((Real.sqrt i : ℂ) * el X (i - 1) (j - 1)) := by
    rw [← el_fin (Aᴴ * X * A), mul_a _ _ _ j.2, ad_mul _ _ _ i.2]
  rw [e1, e2, n_mul, mul_n]
  push_cast
  ring

/-! ## The coherences -/

theorem sum_succ {R : Type*} [AddCommMonoid R] {d : ℕ} (F : Fin d × Fin d → R) (i j : ℕ) :
    (∑ p : Fin d × Fin d, if (p.1 : ℕ) = i + 1 ∧ (p.2 : ℕ) = j + 1 then F p else 0) = if h : i + 1 < d ∧ j + 1 < d then F (⟨i + 1, h.1⟩, ⟨j + 1, h.2⟩) else 0 := by
  by_cases h : i + 1 < d ∧ j + 1 < d
  · rw [dif_pos h, Finset.sum_eq_single ((⟨i + 1, h.1⟩, ⟨j + 1, h.2⟩) : Fin d × Fin d)]
    · simp
    · intro p _ hp
      rw [if_neg]
      rintro ⟨a, b⟩
      exact hp (Prod.ext (Fin.ext a) (Fin.ext b))
    · simp
  · rw [dif_neg h]
    refine Finset.sum_eq_zero fun p _ => if_neg ?_
    rintro ⟨a, b⟩
    have := p.1.2
    have := p.2.2
    omega

theorem sum_pred {R : Type*} [AddCommMonoid R] {d : ℕ} (F : Fin d × Fin d → R) (i j : Fin d) :
    (∑ p : Fin d × Fin d, if (i : ℕ) = p.1 + 1 ∧ (j : ℕ) = p.2 + 1 then F p else 0) = if 0 < (i : ℕ) ∧ 0 < (j : ℕ) then F (⟨i - 1, by omega⟩, ⟨j - 1, by omega⟩) else 0 := by
  by_cases h : 0 < (i : ℕ) ∧ 0 < (j : ℕ)
  · rw [if_pos h, Finset.sum_eq_single ((⟨i - 1, by omega⟩, ⟨j - 1, by omega⟩) : Fin d × Fin d)]
    · rw [if_pos (by simp; omega)]
    · intro p _ hp
      rw [if_neg]
      rintro ⟨a, b⟩
      exact hp (Prod.ext (Fin.ext (by simp; omega)) (Fin.ext (by simp; omega)))
    · simp
  · rw [if_neg h]
    exact Finset.sum_eq_zero fun p _ => if_neg (by omega)

/-- The weights of the coherences `m` levels apart. -/
noncomputable def weight {d : ℕ} (m : ℕ) (p : Fin d × Fin d) : ℝ := if (p.1 : ℕ) = p.2 + m then Real.sqrt (Nat.choose p.1 p.2) else 0

theorem weight_nonneg {d : ℕ} (m : ℕ) (p : Fin d × Fin d) : 0 ≤ weight m p := by
  unfold weight
  split_ifs
  · exact Real.sqrt_nonneg _
  · exact le_rfl

theorem sqrt_down (k l : ℕ) : Real.sqrt (k + 1) * Real.sqrt (l + 1) * Real.sqrt (Nat.choose k l) = (l + 1) * Real.sqrt (Nat.choose (k + 1) (l + 1)) := by
  have h : ((k + 1 : ℕ) : ℝ) * Nat.choose k l = Nat.choose (k + 1) (l + 1) * (l + 1 : ℕ) := by exact_mod_cast Nat.add_one_mul_choose_eq k l
  push_cast at h
  rw [← Real.sqrt_mul (by positivity), ← Real.sqrt_mul (by positivity)]
  have e : ((k : ℝ) + 1) * (l + 1) * Nat.choose k l = (l + 1) ^ 2 * Nat.choose (k + 1) (l + 1) := by
    calc _ = (l + 1) * (((k : ℝ) + 1) * Nat.choose k l) := by ring
      _ = _ := by rw [h]; ring
  rw [e, Real.sqrt_mul (by positivity), Real.sqrt_sq (by positivity)]

theorem sqrt_up (k l : ℕ) : Real.sqrt (k + 1) * Real.sqrt (l + 1) * Real.sqrt (Nat.choose (k + 1) (l + 1)) = (k + 1) * Real.sqrt (Nat.choose k l) := by
  have h : ((k + 1 : ℕ) : ℝ) * Nat.choose k l = Nat.choose (k + 1) (l + 1) * (l + 1 : ℕ) := by exact_mod_cast Nat.add_one_mul_choose_eq k l
  push_cast at h
  rw [← Real.sqrt_mul (by positivity), ← Real.sqrt_mul (by positivity)]
  have e : ((k : ℝ) + 1) * (l + 1) * Nat.choose (k + 1) (l + 1) = (k + 1) ^ 2 * Nat.choose k l := by
    calc _ = ((k : ℝ) + 1) * (Nat.choose (k + 1) (l + 1) * (l + 1)) := by ring
      _ = _ := by rw [← h]; ring
  rw [e, Real.sqrt_mul (by positivity), Real.sqrt_sq (by positivity)]

theorem highest_top {d : ℕ} (h0 : 0 < d) (X : Rho d) : highest X = (X ⟨d - 1, by omega⟩ ⟨d - 1, by omega⟩).re := by
  unfold highest
  rw [Finset.sum_eq_single (⟨d - 1, by omega⟩ : Fin d), if_pos (by simp; omega)]
  · intro i _ hi
    rw [if_neg]
    intro h
    exact hi (Fin.ext (by simp; omega))
  · simp

theorem normalised_zero {d : ℕ} (ρ : ℝ → Rho d) (h1 : (ρ 0).trace = 1) : normalised ρ 0 = ρ 0 := by
  ext i j
  simp [normalised, h1]

/-- **C156.** The coherences between the levels `m` apart of the mode not pumped decay with the rate `κm`, at whatever temperature and with whatever number of levels kept, apart from the effect of the cutoff. -/
theorem coherences_decay (d : ℕ) (h0 : 0 < d) (κ n : ℝ) (hκ : 0 ≤ κ) (hn : 0 ≤ n) (δ : ℝ) (T : ℝ) (hT : 0 ≤ T) (ρ : ℝ → Rho d)
    (h : Unravel.Solves (mat d (modeH (κ * (2 * n + 1)) δ 0)) ((modeJ κ n).map (mat d)) T ρ) (hp : (ρ 0).PosSemidef) (h1 : (ρ 0).trace = 1)
    (w : ℝ) (hw : ∀ t, 0 ≤ t → t ≤ T → highest (normalised ρ t) ≤ w) (m : ℕ) :
    ∑ p : Fin d × Fin d, weight m p * ‖normalised ρ T p.1 p.2‖ ≤ Real.exp (-(κ * (m - 2 * n * d * w)) * T) * ∑ p : Fin d × Fin d, weight m p * ‖ρ 0 p.1 p.2‖ := by
  set c : ℝ → Fin d × Fin d → ℂ := fun t p => -(κ * (2 * n + 1) * (p.1 + p.2) : ℝ) + Complex.I * δ * ((p.1 : ℂ) - p.2) -
    2 * κ * n * (1 - d * normalised ρ t ⟨d - 1, by omega⟩ ⟨d - 1, by omega⟩) with hc
  set M : ℝ → Fin d × Fin d → Fin d × Fin d → ℂ := fun t p q => (if q = p then c t p else 0) +
    (if (q.1 : ℕ) = p.1 + 1 ∧ (q.2 : ℕ) = p.2 + 1 then ((2 * κ * (n + 1) * (Real.sqrt (p.1 + 1) * Real.sqrt (p.2 + 1)) : ℝ) : ℂ) else 0) +
    (if (p.1 : ℕ) = q.1 + 1 ∧ (p.2 : ℕ) = q.2 + 1 then ((2 * κ * n * (Real.sqrt p.1 * Real.sqrt p.2) : ℝ) : ℂ) else 0) with hM
  have hder : ∀ t, 0 ≤ t → t ≤ T → ∀ p : Fin d × Fin d, HasDerivAt (fun s => normalised ρ s p.1 p.2) (∑ q, M t p q * normalised ρ t q.1 q.2 + 0) t := by
    intro t a b p
    refine (mode_normalised_equation d h0 κ n hκ hn δ 0 h hp h1 t a b p.1 p.2).congr_deriv ?_
    rw [generator_el d κ n hκ hn δ]
    simp only [hM, add_mul, Finset.sum_add_distrib, ite_mul, zero_mul]
    rw [sum_succ (fun q => ((2 * κ * (n + 1) * (Real.sqrt (p.1 + 1) * Real.sqrt (p.2 + 1)) : ℝ) : ℂ) * normalised ρ t q.1 q.2),
      sum_pred (fun q => ((2 * κ * n * (Real.sqrt p.1 * Real.sqrt p.2) : ℝ) : ℂ) * normalised ρ t q.1 q.2), Finset.sum_ite_eq' Finset.univ p, if_pos (Finset.mem_univ _)]
    have e1 : (if h : (p.1 : ℕ) + 1 < d ∧ (p.2 : ℕ) + 1 < d then ((2 * κ * (n + 1) * (Real.sqrt (p.1 + 1) * Real.sqrt (p.2 + 1)) : ℝ) : ℂ) * normalised ρ t ⟨p.1 + 1, h.1⟩ ⟨p.2 + 1, h.2⟩ else 0) =
        ((2 * κ * (n + 1) * (Real.sqrt (p.1 + 1) * Real.sqrt (p.2 + 1)) : ℝ) : ℂ) * el (normalised ρ t) (p.1 + 1) (p.2 + 1) := by
      unfold el
      split_ifs
      · rfl
      · rw [mul_zero]
    have e2 : (if 0 < (p.1 : ℕ) ∧ 0 < (p.2 : ℕ) then ((2 * κ * n * (Real.sqrt p.1 * Real.sqrt p.2) : ℝ) : ℂ) * normalised ρ t ⟨p.1 - 1, by omega⟩ ⟨p.2 - 1, by omega⟩ else 0) =
        ((2 * κ * n * (Real.sqrt p.1 * Real.sqrt p.2) : ℝ) : ℂ) * el (normalised ρ t) (p.1 - 1) (p.2 - 1) := by
      unfold el
      rw [dif_pos ⟨by omega, by omega⟩]
      split_ifs with hpos
      · rfl
      · have : Real.sqrt (p.1 : ℕ) * Real.sqrt (p.2 : ℕ) = 0 := by
          rcases Nat.eq_zero_or_pos (p.1 : ℕ) with e | e
          · rw [e]; simp
          · rw [show (p.2 : ℕ) = 0 by omega]; simp
        rw [this]
        simp
    rw [e1, e2]
    simp only [hc]
    ring
  have hcol : ∀ t, 0 ≤ t → t ≤ T → ∀ q : Fin d × Fin d, weight m q * (M t q q).re + ∑ p ∈ Finset.univ.erase q, weight m p * ‖M t p q‖ ≤ -(κ * (m - 2 * n * d * w)) * weight m q := by
    intro t a b q
    have hdiag : (M t q q).re = -(κ * (2 * n + 1) * (q.1 + q.2)) - 2 * κ * n * (1 - d * highest (normalised ρ t)) := by
      simp only [hM, hc]
      rw [if_pos trivial, if_neg (by omega), if_neg (by omega), highest_top h0]
      simp
    have hoff : ∑ p ∈ Finset.univ.erase q, weight m p * ‖M t p q‖ ≤
        (∑ p : Fin d × Fin d, if (q.1 : ℕ) = p.1 + 1 ∧ (q.2 : ℕ) = p.2 + 1 then weight m p * (2 * κ * (n + 1) * (Real.sqrt (p.1 + 1) * Real.sqrt (p.2 + 1))) else 0) +
        ∑ p : Fin d × Fin d, if (p.1 : ℕ) = q.1 + 1 ∧ (p.2 : ℕ) = q.2 + 1 then weight m p * (2 * κ * n * (Real.sqrt p.1 * Real.sqrt p.2)) else 0 := by
      rw [← Finset.sum_add_distrib]
      refine (Finset.sum_le_sum fun p hpq => ?_).trans (Finset.sum_le_sum_of_subset_of_nonneg (Finset.erase_subset _ _) fun p _ _ => ?_)
      · have hne : ¬q = p := fun e => (Finset.mem_erase.1 hpq).1 e.symm
        simp only [hM]
        rw [if_neg hne, zero_add]
        have n1 : 0 ≤ 2 * κ * (n + 1) * (Real.sqrt (p.1 + 1) * Real.sqrt (p.2 + 1)) := by positivity
        have n2 : 0 ≤ 2 * κ * n * (Real.sqrt p.1 * Real.sqrt p.2) := by positivity
        have wn := weight_nonneg m p
        split_ifs with s1 s2 s2
        · omega
        · rw [add_zero, add_zero, Complex.norm_real, Real.norm_eq_abs, abs_of_nonneg n1]
        · rw [zero_add, zero_add, Complex.norm_real, Real.norm_eq_abs, abs_of_nonneg n2]
        · simp
      · have wn := weight_nonneg m p
        split_ifs <;> positivity
    rw [hdiag]
    refine (add_le_add le_rfl hoff).trans ?_
    rw [sum_pred (fun p => weight m p * (2 * κ * (n + 1) * (Real.sqrt (p.1 + 1) * Real.sqrt (p.2 + 1)))), sum_succ (fun p => weight m p * (2 * κ * n * (Real.sqrt p.1 * Real.sqrt p.2)))]
    have hwt := hw t a b
    obtain ⟨⟨k, hk⟩, ⟨l, hl⟩⟩ := q
    by_cases hm : k = l + m
    · have b1 : (if 0 < k ∧ 0 < l then weight m ((⟨k - 1, by omega⟩, ⟨l - 1, by omega⟩) : Fin d × Fin d) * (2 * κ * (n + 1) * (Real.sqrt ((k - 1 : ℕ) + 1) * Real.sqrt ((l - 1 : ℕ) + 1))) else 0) =
          2 * κ * (n + 1) * l * Real.sqrt (Nat.choose k l) := by
        rcases Nat.eq_zero_or_pos l with e | e
        · rw [if_neg (by omega), e]
          simp
        · obtain ⟨l', rfl⟩ : ∃ l', l = l' + 1 := ⟨l - 1, by omega⟩
          obtain ⟨k', rfl⟩ : ∃ k', k = k' + 1 := ⟨k - 1, by omega⟩
          rw [if_pos (by omega)]
          unfold weight
          simp only [Nat.add_sub_cancel]
          rw [if_pos (by omega)]
          have := sqrt_down k' l'
          push_cast
          calc _ = 2 * κ * (n + 1) * (Real.sqrt (k' + 1) * Real.sqrt (l' + 1) * Real.sqrt (Nat.choose k' l')) := by ring
            _ = _ := by rw [this]; ring
      have b2 : (if h : k + 1 < d ∧ l + 1 < d then weight m ((⟨k + 1, h.1⟩, ⟨l + 1, h.2⟩) : Fin d × Fin d) * (2 * κ * n * (Real.sqrt ((k + 1 : ℕ)) * Real.sqrt ((l + 1 : ℕ)))) else 0) ≤
          2 * κ * n * (k + 1) * Real.sqrt (Nat.choose k l) := by
        split_ifs with hh
        · unfold weight
          simp only
          rw [if_pos (by omega)]
          have := sqrt_up k l
          push_cast
          refine le_of_eq ?_
          calc _ = 2 * κ * n * (Real.sqrt (k + 1) * Real.sqrt (l + 1) * Real.sqrt (Nat.choose (k + 1) (l + 1))) := by ring
            _ = _ := by rw [this]; ring
        · positivity
      refine (add_le_add le_rfl (add_le_add b1.le b2)).trans ?_
      have hq : weight m ((⟨k, hk⟩, ⟨l, hl⟩) : Fin d × Fin d) = Real.sqrt (Nat.choose k l) := by
        unfold weight
        rw [if_pos hm]
      rw [hq]
      have hr := Real.sqrt_nonneg (Nat.choose k l : ℝ)
      have hkm : (k : ℝ) = l + m := by exact_mod_cast hm
      have hlow : 0 ≤ 2 * κ * n * d * (w - highest (normalised ρ t)) := by
        have : 0 ≤ w - highest (normalised ρ t) := by linarith
        positivity
      have hmul := mul_nonneg hlow hr
      simp only
      rw [hkm]
      nlinarith
    · have hq : weight m ((⟨k, hk⟩, ⟨l, hl⟩) : Fin d × Fin d) = 0 := by
        unfold weight
        rw [if_neg hm]
      have b1 : (if 0 < k ∧ 0 < l then weight m ((⟨k - 1, by omega⟩, ⟨l - 1, by omega⟩) : Fin d × Fin d) * (2 * κ * (n + 1) * (Real.sqrt ((k - 1 : ℕ) + 1) * Real.sqrt ((l - 1 : ℕ) + 1))) else 0) = 0 := by
        split_ifs with hh
        · unfold weight
          simp only
          rw [if_neg (by omega), zero_mul]
        · rfl
      have b2 : (if h : k + 1 < d ∧ l + 1 < d then weight m ((⟨k + 1, h.1⟩, ⟨l + 1, h.2⟩) : Fin d × Fin d) * (2 * κ * n * (Real.sqrt ((k + 1 : ℕ)) * Real.sqrt ((l + 1 : ℕ)))) else 0) = 0 := by
        split_ifs with hh
        · unfold weight
          simp only
          rw [if_neg (by omega), zero_mul]
        · rfl
      refine (add_le_add le_rfl (add_le_add b1.le b2.le)).trans ?_
      rw [hq]
      simp
  have := weighted_decay (weight m) (weight_nonneg m) M (fun _ _ => 0) (κ * (m - 2 * n * d * w)) 0 T hT hcol (by simp) (fun t p => normalised ρ t p.1 p.2) hder
  rw [normalised_zero ρ h1, gronwallBound_ε0, mul_comm] at this
  exact this

/-! ## The populations -/

theorem planck_sum (d : ℕ) (h0 : 0 < d) (n : ℝ) (hn : 0 ≤ n) : ∑ i ∈ Finset.range d, planck d n i = 1 := by
  unfold planck
  rw [← Finset.sum_div, div_self]
  have hq : 0 ≤ n / (n + 1) := by positivity
  have : (1 : ℝ) ≤ ∑ i ∈ Finset.range d, (n / (n + 1)) ^ i := by
    have := Finset.single_le_sum (f := fun i => (n / (n + 1)) ^ i) (fun i _ => pow_nonneg hq i) (Finset.mem_range.2 h0)
    simpa using this
  linarith

theorem planck_nonneg (d : ℕ) (n : ℝ) (hn : 0 ≤ n) (k : ℕ) : 0 ≤ planck d n k := by
  unfold planck
  have hq : 0 ≤ n / (n + 1) := by positivity
  exact div_nonneg (pow_nonneg hq k) (Finset.sum_nonneg fun i _ => pow_nonneg hq i)

/-- Detailed balance. -/
theorem planck_balance (d : ℕ) (n : ℝ) (hn : 0 ≤ n) (k : ℕ) : (n + 1) * planck d n (k + 1) = n * planck d n k := by
  unfold planck
  have : n + 1 ≠ 0 := by positivity
  rw [pow_succ]
  field_simp

/-- What is missing from the level `k` and above as compared to the thermal state. -/
noncomputable def excess {d : ℕ} (n : ℝ) (X : Rho d) (k : ℕ) : ℂ := ∑ i ∈ Finset.Ico k d, (el X i i - planck d n i)

theorem excess_succ {d : ℕ} (n : ℝ) (X : Rho d) (k : ℕ) (hk : k < d) : excess n X k = (el X k k - planck d n k) + excess n X (k + 1) := by
  unfold excess
  rw [Finset.sum_eq_sum_Ico_succ_bot hk]

theorem excess_top {d : ℕ} (n : ℝ) (X : Rho d) : excess n X d = 0 := by
  unfold excess
  simp

theorem el_trace {d : ℕ} (X : Rho d) : ∑ i ∈ Finset.range d, el X i i = X.trace := by
  rw [Finset.sum_range]
  exact Finset.sum_congr rfl fun i _ => el_fin X i i

theorem excess_zero {d : ℕ} (h0 : 0 < d) (n : ℝ) (hn : 0 ≤ n) (X : Rho d) (h : X.trace = 1) : excess n X 0 = 0 := by
  unfold excess
  rw [← Finset.range_eq_Ico, Finset.sum_sub_distrib, el_trace, h, ← Complex.ofReal_sum, planck_sum d h0 n hn]
  simp

theorem el_pos {d : ℕ} {X : Rho d} (hX : X.PosSemidef) (i : ℕ) : el X i i = ((el X i i).re : ℂ) ∧ 0 ≤ (el X i i).re := by
  unfold el
  split_ifs with h
  · constructor
    · apply Complex.ext
      · simp
      · simp [hermitian_diag hX.1]
    · exact (Complex.le_def.1 (hX.diag_nonneg (i := ⟨i, h.1⟩))).1
  · simp

theorem tail_bounds {d : ℕ} {X : Rho d} (hX : X.PosSemidef) (h1 : X.trace = 1) (k : ℕ) :
    (∑ i ∈ Finset.Ico k d, el X i i) = ((∑ i ∈ Finset.Ico k d, (el X i i).re : ℝ) : ℂ) ∧ 0 ≤ ∑ i ∈ Finset.Ico k d, (el X i i).re ∧ ∑ i ∈ Finset.Ico k d, (el X i i).re ≤ 1 := by
  refine ⟨?_, Finset.sum_nonneg fun i _ => (el_pos hX i).2, ?_⟩
  · rw [Complex.ofReal_sum]
    exact Finset.sum_congr rfl fun i _ => (el_pos hX i).1
  · have h2 : ∑ i ∈ Finset.range d, (el X i i).re = 1 := by
      rw [← Complex.re_sum, el_trace, h1, Complex.one_re]
    rw [← h2]
    refine Finset.sum_le_sum_of_subset_of_nonneg (fun i hi => ?_) fun i _ _ => (el_pos hX i).2
    exact Finset.mem_range.2 (Finset.mem_Ico.1 hi).2

theorem excess_bound {d : ℕ} (h0 : 0 < d) (n : ℝ) (hn : 0 ≤ n) {X : Rho d} (hX : X.PosSemidef) (h1 : X.trace = 1) (k : ℕ) : ‖excess n X k‖ ≤ 1 := by
  obtain ⟨a, b, c⟩ := tail_bounds hX h1 k
  unfold excess
  rw [Finset.sum_sub_distrib, a, ← Complex.ofReal_sum, ← Complex.ofReal_sub, Complex.norm_real, Real.norm_eq_abs, abs_le]
  have p1 : 0 ≤ ∑ i ∈ Finset.Ico k d, planck d n i := Finset.sum_nonneg fun i _ => planck_nonneg d n hn i
  have p2 : ∑ i ∈ Finset.Ico k d, planck d n i ≤ 1 := by
    rw [← planck_sum d h0 n hn]
    refine Finset.sum_le_sum_of_subset_of_nonneg (fun i hi => ?_) fun i _ _ => planck_nonneg d n hn i
    exact Finset.mem_range.2 (Finset.mem_Ico.1 hi).2
  constructor <;> linarith

/-- The derivative of the population of a level. -/
theorem population_derivative (d : ℕ) (h0 : 0 < d) (κ n : ℝ) (hκ : 0 ≤ κ) (hn : 0 ≤ n) (δ : ℝ) (T : ℝ) (ρ : ℝ → Rho d)
    (h : Unravel.Solves (mat d (modeH (κ * (2 * n + 1)) δ 0)) ((modeJ κ n).map (mat d)) T ρ) (hp : (ρ 0).PosSemidef) (h1 : (ρ 0).trace = 1) (t : ℝ) (ht : 0 ≤ t) (htT : t ≤ T) (i : ℕ) (hi : i < d) :
    HasDerivAt (fun s => el (normalised ρ s) i i)
      (-(2 * κ * (2 * n + 1) * i) * el (normalised ρ t) i i + 2 * κ * (n + 1) * (i + 1) * el (normalised ρ t) (i + 1) (i + 1) + 2 * κ * n * i * el (normalised ρ t) (i - 1) (i - 1)
        - 2 * κ * n * (1 - d * el (normalised ρ t) (d - 1) (d - 1)) * el (normalised ρ t) i i) t := by
  have := mode_normalised_equation d h0 κ n hκ hn δ 0 h hp h1 t ht htT ⟨i, hi⟩ ⟨i, hi⟩
  have e : (fun s => normalised ρ s ⟨i, hi⟩ ⟨i, hi⟩) = fun s => el (normalised ρ s) i i := by
    funext s
    exact (el_fin (normalised ρ s) ⟨i, hi⟩ ⟨i, hi⟩).symm
  rw [e] at this
  refine this.congr_deriv ?_
  rw [generator_el d κ n hκ hn δ, ← el_fin (normalised ρ t) ⟨i, hi⟩ ⟨i, hi⟩, ← el_fin (normalised ρ t) ⟨d - 1, by omega⟩ ⟨d - 1, by omega⟩]
  simp only
  rw [Real.mul_self_sqrt (by positivity), Real.mul_self_sqrt (by positivity)]
  push_cast
  ring

/-- The derivative of the excess: the flow through the boundary below the level `k`, and the effect of the cutoff. -/
theorem excess_derivative (d : ℕ) (h0 : 0 < d) (κ n : ℝ) (hκ : 0 ≤ κ) (hn : 0 ≤ n) (δ : ℝ) (T : ℝ) (ρ : ℝ → Rho d)
    (h : Unravel.Solves (mat d (modeH (κ * (2 * n + 1)) δ 0)) ((modeJ κ n).map (mat d)) T ρ) (hp : (ρ 0).PosSemidef) (h1 : (ρ 0).trace = 1) (t : ℝ) (ht : 0 ≤ t) (htT : t ≤ T) (k : ℕ) (hk : k < d) :
    HasDerivAt (fun s => excess n (normalised ρ s) k)
      (2 * κ * k * (n * (excess n (normalised ρ t) (k - 1) - excess n (normalised ρ t) k) - (n + 1) * (excess n (normalised ρ t) k - excess n (normalised ρ t) (k + 1)))
        + 2 * κ * n * d * el (normalised ρ t) (d - 1) (d - 1) * (∑ i ∈ Finset.Ico k d, el (normalised ρ t) i i - 1)) t := by
  set P : ℕ → ℂ := fun i => el (normalised ρ t) i i with hP
  have hd : P d = 0 := by simp [hP, el]
  have hsum := HasDerivAt.fun_sum (u := Finset.Ico k d) (A := fun i s => el (normalised ρ s) i i - planck d n i)
    (A' := fun i => -(2 * κ * (2 * n + 1) * i) * P i + 2 * κ * (n + 1) * (i + 1) * P (i + 1) + 2 * κ * n * i * P (i - 1) - 2 * κ * n * (1 - d * P (d - 1)) * P i) (x := t)
    fun i hi => (population_derivative d h0 κ n hκ hn δ T ρ h hp h1 t ht htT i (Finset.mem_Ico.1 hi).2).sub_const _
  refine hsum.congr_deriv ?_
  set F : ℕ → ℂ := fun i => 2 * κ * (n + 1) * i * P i - 2 * κ * n * i * P (i - 1) with hF
  have e1 : ∀ i ∈ Finset.Ico k d, (-(2 * κ * (2 * n + 1) * i) * P i + 2 * κ * (n + 1) * (i + 1) * P (i + 1) + 2 * κ * n * i * P (i - 1) - 2 * κ * n * (1 - d * P (d - 1)) * P i : ℂ) =
      (F (i + 1) - F i) + 2 * κ * n * d * P (d - 1) * P i := by
    intro i _
    simp only [hF, Nat.add_sub_cancel]
    push_cast
    ring
  rw [Finset.sum_congr rfl e1, Finset.sum_add_distrib, Finset.sum_Ico_sub F hk.le, ← Finset.mul_sum]
  have e2 : excess n (normalised ρ t) k - excess n (normalised ρ t) (k + 1) = P k - planck d n k := by
    rw [excess_succ n _ k hk]
    ring
  rw [e2]
  have hFd : F d = -(2 * κ * n * d * P (d - 1)) := by
    simp only [hF, hd]
    ring
  rw [hFd]
  rcases Nat.eq_zero_or_pos k with rfl | hpos
  · simp only [hF]
    push_cast
    ring
  · obtain ⟨k', rfl⟩ : ∃ k', k = k' + 1 := ⟨k - 1, by omega⟩
    have e3 : excess n (normalised ρ t) (k' + 1 - 1) - excess n (normalised ρ t) (k' + 1) = P k' - planck d n k' := by
      rw [Nat.add_sub_cancel, excess_succ n _ k' (by omega)]
      ring
    rw [e3]
    have e4 : ((n : ℂ) + 1) * planck d n (k' + 1) = n * planck d n k' := by exact_mod_cast planck_balance d n hn k'
    simp only [hF, Nat.add_sub_cancel]
    push_cast
    linear_combination (-(2 * κ * ((k' : ℂ) + 1))) * e4

theorem sum_next {R : Type*} [AddCommMonoid R] {d : ℕ} (F : Fin d → R) (i : ℕ) : (∑ j : Fin d, if (j : ℕ) = i + 1 then F j else 0) = if h : i + 1 < d then F ⟨i + 1, h⟩ else 0 := by
  by_cases h : i + 1 < d
  · rw [dif_pos h, Finset.sum_eq_single (⟨i + 1, h⟩ : Fin d)]
    · simp
    · intro j _ hj
      exact if_neg fun e => hj (Fin.ext e)
    · simp
  · rw [dif_neg h]
    exact Finset.sum_eq_zero fun j _ => if_neg (by have := j.2; omega)

theorem sum_previous {R : Type*} [AddCommMonoid R] {d : ℕ} (F : Fin d → R) (i : Fin d) : (∑ j : Fin d, if (i : ℕ) = j + 1 then F j else 0) = if 0 < (i : ℕ) then F ⟨i - 1, by omega⟩ else 0 := by
  by_cases h : 0 < (i : ℕ)
  · rw [if_pos h, Finset.sum_eq_single (⟨i - 1, by omega⟩ : Fin d)]
    · rw [if_pos (by simp; omega)]
    · intro j _ hj
      exact if_neg fun e => hj (Fin.ext (by simp; omega))
    · simp
  · rw [if_neg h]
    exact Finset.sum_eq_zero fun j _ => if_neg (by omega)

/-- **C156.** The distribution of the number of photons of the mode not pumped approaches the thermal one with the rate `2κ`, at whatever temperature and with whatever number of levels kept, apart from the effect of the
cutoff. -/
theorem populations_relax (d : ℕ) (h0 : 0 < d) (κ n : ℝ) (hκ : 0 ≤ κ) (hn : 0 ≤ n) (δ : ℝ) (T : ℝ) (hT : 0 ≤ T) (ρ : ℝ → Rho d)
    (h : Unravel.Solves (mat d (modeH (κ * (2 * n + 1)) δ 0)) ((modeJ κ n).map (mat d)) T ρ) (hp : (ρ 0).PosSemidef) (h1 : (ρ 0).trace = 1)
    (w : ℝ) (hw : ∀ t, 0 ≤ t → t ≤ T → highest (normalised ρ t) ≤ w) :
    ∑ k : Fin d, ‖excess n (normalised ρ T) k‖ ≤ Real.exp (-2 * κ * T) * ∑ k : Fin d, ‖excess n (ρ 0) k‖ + n * d ^ 2 * w := by
  have hdens : ∀ t, 0 ≤ t → t ≤ T → (normalised ρ t).PosSemidef ∧ (normalised ρ t).trace = 1 := fun t a b => ⟨(normalised_equation h hp h1 t a b).1, (normalised_equation h hp h1 t a b).2.1⟩
  have hw0 : 0 ≤ w := (density_bounds _ (hdens 0 le_rfl hT).1 (hdens 0 le_rfl hT).2).1.trans (hw 0 le_rfl hT)
  set M : ℝ → Fin d → Fin d → ℂ := fun _ k j => if (j : ℕ) = 0 then 0 else
    (if j = k then ((-(2 * κ * (2 * n + 1) * k) : ℝ) : ℂ) else 0) + (if (k : ℕ) = j + 1 then ((2 * κ * n * k : ℝ) : ℂ) else 0) + (if (j : ℕ) = k + 1 then ((2 * κ * (n + 1) * k : ℝ) : ℂ) else 0) with hM
  set g : ℝ → Fin d → ℂ := fun t k => 2 * κ * n * d * el (normalised ρ t) (d - 1) (d - 1) * (∑ i ∈ Finset.Ico (k : ℕ) d, el (normalised ρ t) i i - 1) with hg
  have hder : ∀ t, 0 ≤ t → t ≤ T → ∀ k : Fin d, HasDerivAt (fun s => excess n (normalised ρ s) k) (∑ j : Fin d, M t k j * excess n (normalised ρ t) j + g t k) t := by
    intro t a b k
    refine (excess_derivative d h0 κ n hκ hn δ T ρ h hp h1 t a b k k.2).congr_deriv ?_
    simp only [hg]
    congr 1
    have hz := excess_zero h0 n hn _ (hdens t a b).2
    have e : ∀ j : Fin d, M t k j * excess n (normalised ρ t) j = ((if j = k then ((-(2 * κ * (2 * n + 1) * k) : ℝ) : ℂ) * excess n (normalised ρ t) j else 0) +
        (if (k : ℕ) = j + 1 then ((2 * κ * n * k : ℝ) : ℂ) * excess n (normalised ρ t) j else 0) + (if (j : ℕ) = k + 1 then ((2 * κ * (n + 1) * k : ℝ) : ℂ) * excess n (normalised ρ t) j else 0)) := by
      intro j
      simp only [hM]
      by_cases hj : (j : ℕ) = 0
      · rw [if_pos hj, hj, hz]
        simp
      · rw [if_neg hj]
        simp only [add_mul, ite_mul, zero_mul]
    rw [Finset.sum_congr rfl fun j _ => e j, Finset.sum_add_distrib, Finset.sum_add_distrib, Finset.sum_ite_eq' Finset.univ k, if_pos (Finset.mem_univ _),
      sum_next (fun j => ((2 * κ * (n + 1) * k : ℝ) : ℂ) * excess n (normalised ρ t) j), sum_previous (fun j => ((2 * κ * n * k : ℝ) : ℂ) * excess n (normalised ρ t) j)]
    have e1 : (if h : (k : ℕ) + 1 < d then ((2 * κ * (n + 1) * k : ℝ) : ℂ) * excess n (normalised ρ t) ((⟨k + 1, h⟩ : Fin d) : ℕ) else 0) =
        ((2 * κ * (n + 1) * k : ℝ) : ℂ) * excess n (normalised ρ t) (k + 1) := by
      split_ifs with hh
      · rfl
      · rw [show (k : ℕ) + 1 = d by omega, excess_top, mul_zero]
    have e2 : (if 0 < (k : ℕ) then ((2 * κ * n * k : ℝ) : ℂ) * excess n (normalised ρ t) ((⟨k - 1, by omega⟩ : Fin d) : ℕ) else 0) = ((2 * κ * n * k : ℝ) : ℂ) * excess n (normalised ρ t) (k - 1) := by
      split_ifs with hh
      · rfl
      · rw [show (k : ℕ) = 0 by omega]
        simp
    rw [e1, e2]
    push_cast
    ring
  set wt : Fin d → ℝ := fun k => if (k : ℕ) = 0 then 0 else 1 with hwt
  have hwt0 : ∀ k, 0 ≤ wt k := by
    intro k
    simp only [hwt]
    split_ifs <;> norm_num
  have hcol : ∀ t, 0 ≤ t → t ≤ T → ∀ j : Fin d, wt j * (M t j j).re + ∑ k ∈ Finset.univ.erase j, wt k * ‖M t k j‖ ≤ -(2 * κ) * wt j := by
    intro t _ _ j
    by_cases hj : (j : ℕ) = 0
    · have e0 : ∀ k, M t k j = 0 := fun k => if_pos hj
      have e1 : wt j = 0 := if_pos hj
      simp [e0, e1]
    have hdiag : (M t j j).re = -(2 * κ * (2 * n + 1) * j) := by
      simp only [hM]
      rw [if_neg hj, if_pos trivial, if_neg (by omega), if_neg (by omega), add_zero, add_zero, Complex.ofReal_re]
    have hoff : ∑ k ∈ Finset.univ.erase j, wt k * ‖M t k j‖ ≤ (∑ k : Fin d, if (k : ℕ) = j + 1 then 2 * κ * n * k else 0) + ∑ k : Fin d, if (j : ℕ) = k + 1 then 2 * κ * (n + 1) * k else 0 := by
      rw [← Finset.sum_add_distrib]
      refine (Finset.sum_le_sum fun k hk => ?_).trans (Finset.sum_le_sum_of_subset_of_nonneg (Finset.erase_subset _ _) fun k _ _ => ?_)
      · have hne : ¬j = k := fun e => (Finset.mem_erase.1 hk).1 e.symm
        have hw1 : wt k ≤ 1 := by
          simp only [hwt]
          split_ifs <;> norm_num
        refine (mul_le_mul_of_nonneg_right hw1 (norm_nonneg _)).trans ?_
        rw [one_mul]
        simp only [hM]
        rw [if_neg hj, if_neg hne, zero_add]
        have n1 : 0 ≤ 2 * κ * n * (k : ℝ) := by positivity
        have n2 : 0 ≤ 2 * κ * (n + 1) * (k : ℝ) := by positivity
        split_ifs with s1 s2 s2
        · omega
        · rw [add_zero, add_zero, Complex.norm_real, Real.norm_eq_abs, abs_of_nonneg n1]
        · rw [zero_add, zero_add, Complex.norm_real, Real.norm_eq_abs, abs_of_nonneg n2]
        · simp
      · split_ifs <;> positivity
    rw [hdiag]
    refine (add_le_add le_rfl hoff).trans ?_
    rw [sum_next (fun k => 2 * κ * n * (k : ℝ)), sum_previous (fun k => 2 * κ * (n + 1) * (k : ℝ)), if_pos (by omega)]
    have e1 : wt j = 1 := if_neg hj
    rw [e1]
    have e2 : (if h : (j : ℕ) + 1 < d then 2 * κ * n * (((⟨j + 1, h⟩ : Fin d) : ℕ) : ℝ) else 0) ≤ 2 * κ * n * (j + 1) := by
      split_ifs
      · push_cast
        exact le_rfl
      · positivity
    refine (add_le_add le_rfl (add_le_add e2 le_rfl)).trans (le_of_eq ?_)
    have e3 : (((j : ℕ) - 1 : ℕ) : ℝ) = j - 1 := by
      rw [Nat.cast_sub (by omega), Nat.cast_one]
    simp only
    rw [e3]
    ring
  have hgb : ∀ t, 0 ≤ t → t ≤ T → ∑ k, wt k * ‖g t k‖ ≤ 2 * κ * n * d ^ 2 * w := by
    intro t a b
    obtain ⟨hP, hTr⟩ := hdens t a b
    have hk : ∀ k : Fin d, wt k * ‖g t k‖ ≤ 2 * κ * n * d * w := by
      intro k
      have hw1 : wt k ≤ 1 := by
        simp only [hwt]
        split_ifs <;> norm_num
      refine (mul_le_mul_of_nonneg_right hw1 (norm_nonneg _)).trans ?_
      obtain ⟨b1, b2, b3⟩ := tail_bounds hP hTr k
      obtain ⟨c1, c2⟩ := el_pos hP (d - 1)
      have hh : (el (normalised ρ t) (d - 1) (d - 1)).re = highest (normalised ρ t) := by
        rw [highest_top h0, ← el_fin (normalised ρ t) ⟨d - 1, by omega⟩ ⟨d - 1, by omega⟩]
      simp only [hg]
      rw [one_mul, b1, c1, hh]
      have e : (2 * κ * n * d * (highest (normalised ρ t) : ℂ) * (((∑ i ∈ Finset.Ico (k : ℕ) d, (el (normalised ρ t) i i).re : ℝ) : ℂ) - 1)) =
          ((2 * κ * n * d * highest (normalised ρ t) * (∑ i ∈ Finset.Ico (k : ℕ) d, (el (normalised ρ t) i i).re - 1) : ℝ) : ℂ) := by push_cast; ring
      rw [e, Complex.norm_real, Real.norm_eq_abs, abs_mul]
      rw [hh] at c2
      rw [abs_of_nonneg (by positivity)]
      have hx : |∑ i ∈ Finset.Ico (k : ℕ) d, (el (normalised ρ t) i i).re - 1| ≤ 1 := by rw [abs_le]; constructor <;> linarith
      calc _ ≤ 2 * κ * n * d * highest (normalised ρ t) * 1 := mul_le_mul_of_nonneg_left hx (by positivity)
        _ ≤ 2 * κ * n * d * w := by
          rw [mul_one]
          exact mul_le_mul_of_nonneg_left (hw t a b) (by positivity)
    refine (Finset.sum_le_sum fun k _ => hk k).trans (le_of_eq ?_)
    rw [Finset.sum_const, Finset.card_univ, Fintype.card_fin, nsmul_eq_mul]
    ring
  have hfin := weighted_decay wt hwt0 M g (2 * κ) (2 * κ * n * d ^ 2 * w) T hT hcol hgb (fun t (k : Fin d) => excess n (normalised ρ t) k) hder
  have hsum : ∀ t, 0 ≤ t → t ≤ T → ∑ k, wt k * ‖excess n (normalised ρ t) (k : Fin d)‖ = ∑ k : Fin d, ‖excess n (normalised ρ t) k‖ := by
    intro t a b
    refine Finset.sum_congr rfl fun k _ => ?_
    simp only [hwt]
    split_ifs with hk
    · rw [hk, excess_zero h0 n hn _ (hdens t a b).2]
      simp
    · rw [one_mul]
  rw [hsum T hT le_rfl, hsum 0 le_rfl hT, normalised_zero ρ h1] at hfin
  refine hfin.trans ?_
  rcases eq_or_lt_of_le hκ with hk0 | hkpos
  · rw [← hk0]
    simp only [mul_zero, zero_mul, neg_zero, gronwallBound_K0, add_zero, Real.exp_zero, one_mul]
    have : 0 ≤ n * d ^ 2 * w := by positivity
    linarith
  · rw [gronwallBound_of_K_ne_0 (by linarith)]
    have e1 : 2 * κ * n * d ^ 2 * w / -(2 * κ) * (Real.exp (-(2 * κ) * T) - 1) = n * d ^ 2 * w * (1 - Real.exp (-(2 * κ) * T)) := by
      field_simp
      ring
    simp only
    rw [e1, show -(2 * κ) * T = -2 * κ * T by ring, mul_comm (∑ k : Fin d, ‖excess n (ρ 0) k‖)]
    have hpos := Real.exp_pos (-2 * κ * T)
    have : 0 ≤ n * d ^ 2 * w := by positivity
    nlinarith

/-- The population of a level differs from the thermal one by not more than the distance of the distributions, -/
theorem population_close {d : ℕ} (n : ℝ) (X : Rho d) (k : Fin d) : ‖X k k - thermal d n k k‖ ≤ ∑ j : Fin d, ‖excess n X j‖ := by
  have e : X k k - thermal d n k k = excess n X k - excess n X (k + 1) := by
    rw [excess_succ n X k k.2, ← el_fin X k k]
    simp [thermal]
  rw [e]
  by_cases h : (k : ℕ) + 1 < d
  · have hne : k ≠ (⟨k + 1, h⟩ : Fin d) := fun e => by simpa using congrArg Fin.val e
    have h2 := Finset.sum_le_sum_of_subset_of_nonneg (f := fun j : Fin d => ‖excess n X j‖) (Finset.subset_univ {k, (⟨k + 1, h⟩ : Fin d)}) fun i _ _ => norm_nonneg _
    rw [Finset.sum_pair hne] at h2
    exact (norm_sub_le _ _).trans h2
  · rw [show (k : ℕ) + 1 = d by omega, excess_top, sub_zero]
    exact Finset.single_le_sum (f := fun j : Fin d => ‖excess n X j‖) (fun i _ => norm_nonneg _) (Finset.mem_univ k)

/-- … and so does the number of photons. -/
theorem photons_thermal {d : ℕ} (h0 : 0 < d) (n : ℝ) (hn : 0 ≤ n) (X : Rho d) (h1 : X.trace = 1) : |photons X - photons (thermal d n)| ≤ ∑ j : Fin d, ‖excess n X j‖ := by
  have e1 : ∑ j : Fin d, excess n X j = ∑ i ∈ Finset.range d, ((i : ℂ) + 1) * (el X i i - planck d n i) := by
    rw [← Finset.sum_range (fun j => excess n X j)]
    unfold excess
    rw [Finset.sum_comm' (t' := Finset.range d) (s' := fun i => Finset.range (i + 1)) fun k i => by simp only [Finset.mem_range, Finset.mem_Ico]; omega]
    refine Finset.sum_congr rfl fun i _ => ?_
    rw [Finset.sum_const, Finset.card_range, nsmul_eq_mul]
    push_cast
    rfl
  have e2 : ∑ i ∈ Finset.range d, (el X i i - planck d n i) = 0 := by
    have := excess_zero h0 n hn X h1
    unfold excess at this
    rwa [← Finset.range_eq_Ico] at this
  have e3 : photons X - photons (thermal d n) = (∑ j : Fin d, excess n X j).re := by
    have e4 : ∀ i ∈ Finset.range d, ((i : ℂ) + 1) * (el X i i - planck d n i) = i * (el X i i - planck d n i) + (el X i i - planck d n i) := fun i _ => by ring
    rw [e1, Finset.sum_congr rfl e4, Finset.sum_add_distrib, e2, add_zero, Finset.sum_range, Complex.re_sum]
    unfold photons
    rw [← Finset.sum_sub_distrib]
    refine Finset.sum_congr rfl fun i _ => ?_
    rw [el_fin, ← Complex.ofReal_natCast, Complex.re_ofReal_mul, Complex.sub_re, Complex.ofReal_re]
    simp only [thermal, Matrix.diagonal_apply_eq, Complex.ofReal_re]
    ring
  rw [e3]
  exact (Complex.abs_re_le_norm _).trans (norm_sum_le _ _)

/-- The solution is not negative, and its trace is positive. -/
theorem solution_pos {d : ℕ} {A : Rho d} {J : List (Rho d)} {T : ℝ} {ρ : ℝ → Rho d} (h : Unravel.Solves A J T ρ) (hp : (ρ 0).PosSemidef) (h1 : (ρ 0).trace = 1) (t : ℝ) (ht : 0 ≤ t) (htT : t ≤ T) :
    (ρ t).PosSemidef ∧ 0 < (ρ t).trace.re ∧ (ρ t).trace = ((ρ t).trace.re : ℂ) := by
  have hsol := sol_unique A J 0 t ht ρ fun r a b => h r a (by linarith)
  rw [zero_add] at hsol
  obtain ⟨c, -, hc⟩ := sol_trace_lower A J
  have hlow := hc (ρ 0) hp h1 t ht
  rw [← hsol] at hlow
  have hpt : (ρ t).PosSemidef := by rw [hsol]; exact sol_posSemidef A J _ hp t ht
  exact ⟨hpt, lt_of_lt_of_le (Real.exp_pos _) hlow, (posSemidef_trace _ hpt).2⟩

/-- **C156.** If initially the populations are below a multiple of the Boltzmann factors, then they remain so, so that the population of the highest level is bounded for a time exponentially long in the number of levels. -/
theorem highest_bound (d : ℕ) (h0 : 0 < d) (κ n : ℝ) (hκ : 0 ≤ κ) (hn : 0 < n) (δ : ℝ) (T : ℝ) (hT : 0 ≤ T) (ρ : ℝ → Rho d)
    (h : Unravel.Solves (mat d (modeH (κ * (2 * n + 1)) δ 0)) ((modeJ κ n).map (mat d)) T ρ) (hp : (ρ 0).PosSemidef) (h1 : (ρ 0).trace = 1)
    (c : ℝ) (hc : ∀ k, (ρ 0 k k).re ≤ c * (n / (n + 1)) ^ (k : ℕ)) (hs : 4 * κ * n * d * (c * (n / (n + 1)) ^ (d - 1)) * T ≤ 1) (t : ℝ) (ht : 0 ≤ t) (htT : t ≤ T) :
    highest (normalised ρ t) ≤ 2 * c * (n / (n + 1)) ^ (d - 1) := by
  set q := n / (n + 1) with hq
  have hq0 : 0 < q := by positivity
  have hqn : (n + 1) * q = n := by rw [hq]; field_simp
  have hc0 : 0 ≤ c := by
    have := hc ⟨0, h0⟩
    have h2 := (Complex.le_def.1 (hp.diag_nonneg (i := ⟨0, h0⟩))).1
    simp only [pow_zero, mul_one] at this
    exact le_trans (by simpa using h2) this
  have : Nonempty (Fin d) := ⟨⟨0, h0⟩⟩
  set P : ℝ → ℕ → ℝ := fun s k => (el (ρ s) k k).re with hP
  have hPd : ∀ s, 0 ≤ s → s ≤ T → ∀ k, k < d → HasDerivAt (fun r => P r k) (-(2 * κ * (2 * n + 1) * k) * P s k + 2 * κ * (n + 1) * (k + 1) * P s (k + 1) + 2 * κ * n * k * P s (k - 1)) s := by
    intro s a b k hk
    have hd := h s a b ⟨k, hk⟩ ⟨k, hk⟩
    rw [generator_el d κ n hκ hn.le δ] at hd
    have e : (fun r => ρ r ⟨k, hk⟩ ⟨k, hk⟩) = fun r => el (ρ r) k k := by
      funext r
      exact (el_fin (ρ r) ⟨k, hk⟩ ⟨k, hk⟩).symm
    rw [e, ← el_fin (ρ s) ⟨k, hk⟩ ⟨k, hk⟩] at hd
    have hr := (Complex.reCLM.hasFDerivAt).comp_hasDerivAt s hd
    refine (show HasDerivAt (fun r => P r k) _ s from hr).congr_deriv ?_
    simp only [Complex.reCLM_apply, Complex.add_re, Complex.re_ofReal_mul]
    rw [Real.mul_self_sqrt (by positivity), Real.mul_self_sqrt (by positivity), sub_self, mul_zero, add_zero, ← Complex.ofReal_neg, Complex.re_ofReal_mul]
    simp only [hP]
    ring
  set E : ℝ → ℝ := fun s => Real.exp (-(2 * κ * n) * s) with hE
  have hEd : ∀ s, HasDerivAt E (-(2 * κ * n) * E s) s := by
    intro s
    have h1 : HasDerivAt (fun r : ℝ => -(2 * κ * n) * r) (-(2 * κ * n)) s := by simpa using (hasDerivAt_id s).const_mul (-(2 * κ * n))
    exact (h1.exp).congr_deriv (by simp only [hE]; ring)
  have hEpos : ∀ s, 0 < E s := fun s => Real.exp_pos _
  have hE0 : E 0 = 1 := by simp [hE]
  set y : ℝ → Fin d → ℝ := fun s k => E s * P s k / q ^ (k : ℕ) with hy
  set M : Fin d → Fin d → ℝ := fun k j => (if j = k then -(2 * κ * n * (k + 1) + 2 * κ * (n + 1) * k) else 0) + (if (j : ℕ) = k + 1 then 2 * κ * n * (k + 1) else 0) +
    (if (k : ℕ) = j + 1 then 2 * κ * (n + 1) * k else 0) with hM
  have hder : ∀ s, 0 ≤ s → s ≤ T → ∀ k, HasDerivAt (fun r => y r k) (∑ j, M k j * y s j) s := by
    intro s a b k
    have hd := (((hEd s).mul (hPd s a b k k.2)).div_const (q ^ (k : ℕ)))
    refine (show HasDerivAt (fun r => y r k) _ s from hd).congr_deriv ?_
    simp only [hM, add_mul, Finset.sum_add_distrib, ite_mul, zero_mul]
    rw [Finset.sum_ite_eq' Finset.univ k, if_pos (Finset.mem_univ _), sum_next (fun j => 2 * κ * n * ((k : ℕ) + 1) * y s j), sum_previous (fun j => 2 * κ * (n + 1) * (k : ℕ) * y s j)]
    have e1 : (if h : (k : ℕ) + 1 < d then 2 * κ * n * ((k : ℕ) + 1) * y s ⟨k + 1, h⟩ else 0) = 2 * κ * (n + 1) * (k + 1) * (E s * P s (k + 1)) / q ^ (k : ℕ) := by
      split_ifs with hh
      · simp only [hy]
        rw [pow_succ]
        have : 2 * κ * n * ((k : ℕ) + 1 : ℝ) = 2 * κ * (n + 1) * (k + 1) * q := by rw [← hqn]; rw [hqn]; linear_combination (-(2 * κ * ((k : ℕ) + 1 : ℝ))) * hqn
        rw [this]
        field_simp
      · have : P s (k + 1) = 0 := by simp [hP, el, hh]
        rw [this]
        simp
    have e2 : (if 0 < (k : ℕ) then 2 * κ * (n + 1) * (k : ℕ) * y s ⟨k - 1, by omega⟩ else 0) = 2 * κ * n * k * (E s * P s (k - 1)) / q ^ (k : ℕ) := by
      split_ifs with hh
      · simp only [hy]
        obtain ⟨k', hk'⟩ : ∃ k', (k : ℕ) = k' + 1 := ⟨k - 1, by omega⟩
        rw [hk', Nat.add_sub_cancel, pow_succ]
        have : 2 * κ * n * ((k' + 1 : ℕ) : ℝ) = 2 * κ * (n + 1) * ((k' + 1 : ℕ) : ℝ) * q := by linear_combination (-(2 * κ * ((k' + 1 : ℕ) : ℝ))) * hqn
        rw [this]
        field_simp
      · rw [show (k : ℕ) = 0 by omega]
        simp
    rw [e1, e2]
    simp only [hy]
    field_simp
    ring
  have hbound : ∀ s, 0 ≤ s → s ≤ T → ∀ k, y s k ≤ c := by
    intro s a b k
    refine max_principle M (fun k j hjk => ?_) (fun k => ?_) c s hc0 a y (fun r a' b' => hder r a' (b'.trans b)) (fun k => ?_) k
    · simp only [hM]
      rw [if_neg hjk, zero_add]
      have n1 : 0 ≤ 2 * κ * n * ((k : ℕ) + 1 : ℝ) := by positivity
      have n2 : 0 ≤ 2 * κ * (n + 1) * (k : ℕ) := by positivity
      split_ifs <;> linarith
    · simp only [hM, Finset.sum_add_distrib]
      rw [Finset.sum_ite_eq' Finset.univ k, if_pos (Finset.mem_univ _), sum_next (fun _ => 2 * κ * n * ((k : ℕ) + 1 : ℝ)), sum_previous (fun _ => 2 * κ * (n + 1) * ((k : ℕ) : ℝ))]
      have n1 : 0 ≤ 2 * κ * n * ((k : ℕ) + 1 : ℝ) := by positivity
      have n2 : 0 ≤ 2 * κ * (n + 1) * ((k : ℕ) : ℝ) := by positivity
      split_ifs <;> linarith
    · simp only [hy, hE0, one_mul]
      rw [div_le_iff₀ (by positivity)]
      have := hc k
      rwa [← el_fin (ρ 0) k k] at this
  have hPtop : ∀ s, 0 ≤ s → s ≤ T → E s * P s (d - 1) ≤ c * q ^ (d - 1) := by
    intro s a b
    have := hbound s a b ⟨d - 1, by omega⟩
    simp only [hy] at this
    rwa [div_le_iff₀ (by positivity)] at this
  have hPt0 : ∀ s, 0 ≤ s → s ≤ T → 0 ≤ P s (d - 1) := fun s a b => (el_pos (solution_pos h hp h1 s a b).1 (d - 1)).2
  -- the trace
  have hτ : ∀ s, 0 ≤ s → s ≤ T → HasDerivAt (fun r => E r * (ρ r).trace.re + 2 * κ * n * d * (c * q ^ (d - 1)) * r) (-(2 * κ * n * d) * (E s * P s (d - 1)) + 2 * κ * n * d * (c * q ^ (d - 1))) s := by
    intro s a b
    have htr := Evolved.trace_hasDerivAt ρ _ s (h s a b)
    rw [trace_generator d h0 κ n hκ hn.le] at htr
    have htop : (expectation (top d) (ρ s)).re = P s (d - 1) := by
      rw [← highest_eq, highest_top h0, ← el_fin (ρ s) ⟨d - 1, by omega⟩ ⟨d - 1, by omega⟩]
    have hr := (Complex.reCLM.hasFDerivAt).comp_hasDerivAt s htr
    have hlin : HasDerivAt (fun r : ℝ => 2 * κ * n * d * (c * q ^ (d - 1)) * r) (2 * κ * n * d * (c * q ^ (d - 1))) s := by simpa using (hasDerivAt_id s).const_mul (2 * κ * n * d * (c * q ^ (d - 1)))
    refine (((hEd s).mul (show HasDerivAt (fun r => (ρ r).trace.re) _ s from hr)).add hlin).congr_deriv ?_
    have e : (2 * κ * n * ((ρ s).trace - d * expectation (top d) (ρ s)) : ℂ) = ((2 * κ * n : ℝ) : ℂ) * ((ρ s).trace - ((d : ℝ) : ℂ) * expectation (top d) (ρ s)) := by push_cast; ring
    rw [e, Complex.reCLM_apply, Complex.re_ofReal_mul, Complex.sub_re, Complex.re_ofReal_mul, htop]
    ring
  have hmono : MonotoneOn (fun r => E r * (ρ r).trace.re + 2 * κ * n * d * (c * q ^ (d - 1)) * r) (Set.Icc 0 T) := by
    refine monotoneOn_of_deriv_nonneg (convex_Icc 0 T) (fun s hs => (hτ s hs.1 hs.2).continuousAt.continuousWithinAt) (fun s hs => ?_) (fun s hs => ?_)
    · rw [interior_Icc] at hs
      exact (hτ s hs.1.le hs.2.le).differentiableAt.differentiableWithinAt
    · rw [interior_Icc] at hs
      rw [(hτ s hs.1.le hs.2.le).deriv]
      have := mul_le_mul_of_nonneg_left (hPtop s hs.1.le hs.2.le) (by positivity : 0 ≤ 2 * κ * n * d)
      linarith
  have hm := hmono ⟨le_rfl, hT⟩ ⟨ht, htT⟩ ht
  simp only [hE0, h1, Complex.one_re, mul_zero, add_zero, mul_one] at hm
  have hbig : 2 * κ * n * d * (c * q ^ (d - 1)) * t ≤ 1 / 2 := by
    have : 2 * κ * n * d * (c * q ^ (d - 1)) * t ≤ 2 * κ * n * d * (c * q ^ (d - 1)) * T := mul_le_mul_of_nonneg_left htT (by positivity)
    linarith
  obtain ⟨-, htr0, htr⟩ := solution_pos h hp h1 t ht htT
  have hfin : highest (normalised ρ t) = P t (d - 1) / (ρ t).trace.re := by
    rw [highest_top h0]
    simp only [normalised, Matrix.of_apply]
    rw [htr, Complex.div_ofReal_re, Complex.ofReal_re, ← el_fin (ρ t) ⟨d - 1, by omega⟩ ⟨d - 1, by omega⟩]
  rw [hfin, div_le_iff₀ htr0]
  have hPt := hPtop t ht htT
  have hEt := hEpos t
  have hcq : 0 ≤ c * q ^ (d - 1) := by positivity
  have : E t * P t (d - 1) ≤ E t * (2 * c * q ^ (d - 1) * (ρ t).trace.re) := by
    have h2 : 1 / 2 ≤ E t * (ρ t).trace.re := by linarith
    have h3 := mul_le_mul_of_nonneg_left h2 hcq
    calc E t * P t (d - 1) ≤ c * q ^ (d - 1) := hPt
      _ ≤ 2 * (c * q ^ (d - 1) * (E t * (ρ t).trace.re)) := by linarith
      _ = _ := by ring
  exact le_of_mul_le_mul_left this hEt

theorem weight_sum (d m : ℕ) : ∑ p : Fin d × Fin d, weight m p ≤ d * 2 ^ d := by
  rw [Fintype.sum_prod_type_right]
  have : ∀ j : Fin d, ∑ i : Fin d, weight m (i, j) ≤ 2 ^ d := by
    intro j
    by_cases h : (j : ℕ) + m < d
    · rw [Finset.sum_eq_single (⟨j + m, h⟩ : Fin d)]
      · unfold weight
        rw [if_pos rfl]
        simp only
        have h1 : (Nat.choose (j + m) j : ℝ) ≤ 2 ^ d := by
          have h2 : Nat.choose (j + m) j ≤ 2 ^ d := (Nat.choose_le_two_pow _ _).trans (Nat.pow_le_pow_right (by norm_num) h.le)
          exact_mod_cast h2
        have h3 : (1 : ℝ) ≤ 2 ^ d := one_le_pow₀ (by norm_num)
        rw [Real.sqrt_le_left (by positivity)]
        nlinarith
      · intro i _ hi
        unfold weight
        exact if_neg fun e => hi (Fin.ext e)
      · simp
    · rw [Finset.sum_eq_zero]
      · positivity
      · intro i _
        unfold weight
        exact if_neg (by simp only; have := i.2; omega)
  refine (Finset.sum_le_sum fun j _ => this j).trans (le_of_eq ?_)
  rw [Finset.sum_const, Finset.card_univ, Fintype.card_fin, nsmul_eq_mul]

/-- **C156.** The elements outside the diagonal decay. -/
theorem coherence_close (d : ℕ) (h0 : 0 < d) (κ n : ℝ) (hκ : 0 ≤ κ) (hn : 0 ≤ n) (δ : ℝ) (T : ℝ) (hT : 0 ≤ T) (ρ : ℝ → Rho d)
    (h : Unravel.Solves (mat d (modeH (κ * (2 * n + 1)) δ 0)) ((modeJ κ n).map (mat d)) T ρ) (hp : (ρ 0).PosSemidef) (h1 : (ρ 0).trace = 1)
    (w : ℝ) (hw : ∀ t, 0 ≤ t → t ≤ T → highest (normalised ρ t) ≤ w) (i j : Fin d) :
    ‖normalised ρ T i j‖ ≤ d * 2 ^ d * Real.exp (-(κ * (|(i : ℝ) - j| - 2 * n * d * w)) * T) := by
  have key : ∀ i j : Fin d, (j : ℕ) ≤ i → ‖normalised ρ T i j‖ ≤ d * 2 ^ d * Real.exp (-(κ * (|(i : ℝ) - j| - 2 * n * d * w)) * T) := by
    intro i j hij
    obtain ⟨m, hm⟩ := Nat.exists_eq_add_of_le hij
    have hd := coherences_decay d h0 κ n hκ hn δ T hT ρ h hp h1 w hw m
    have hab : |(i : ℝ) - j| = m := by
      rw [hm]
      push_cast
      rw [add_sub_cancel_left, abs_of_nonneg (Nat.cast_nonneg _)]
    rw [hab]
    have hw1 : 1 ≤ weight m (i, j) := by
      unfold weight
      rw [if_pos hm, Real.one_le_sqrt]
      exact_mod_cast Nat.choose_pos hij
    have hl : ‖normalised ρ T i j‖ ≤ ∑ p : Fin d × Fin d, weight m p * ‖normalised ρ T p.1 p.2‖ := by
      have := Finset.single_le_sum (f := fun p : Fin d × Fin d => weight m p * ‖normalised ρ T p.1 p.2‖) (fun p _ => mul_nonneg (weight_nonneg m p) (norm_nonneg _)) (Finset.mem_univ (i, j))
      refine le_trans ?_ this
      simp only
      nlinarith [norm_nonneg (normalised ρ T i j)]
    have hr : ∑ p : Fin d × Fin d, weight m p * ‖ρ 0 p.1 p.2‖ ≤ d * 2 ^ d := by
      refine (Finset.sum_le_sum fun p _ => ?_).trans (weight_sum d m)
      have := posSemidef_le_trace (ρ 0) hp p.1 p.2
      rw [h1, Complex.one_re] at this
      exact mul_le_of_le_one_right (weight_nonneg m p) this
    refine hl.trans (hd.trans ?_)
    rw [mul_comm]
    exact mul_le_mul_of_nonneg_right hr (Real.exp_pos _).le
  rcases le_total (j : ℕ) i with hij | hij
  · exact key i j hij
  · have hh : normalised ρ T i j = conj (normalised ρ T j i) := by
      have := (normalised_equation h hp h1 T hT le_rfl).1.1
      have := congrFun (congrFun this i) j
      rw [Matrix.conjTranspose_apply] at this
      exact this.symm
    rw [hh, Complex.norm_conj, abs_sub_comm]
    exact key j i hij

/-! ## The trajectories -/

/-- **C156.** The lossy mode not pumped in Master-equation trajectories, at whatever temperature: at the time `T`, the populations and the number of photons streamed are those of the thermal state up to `exp(-2κT)`, and the
coherences between the levels `i` and `j` are zero up to `exp(-κ|i-j|T)`, apart from the error of the stepper and the effect of the cutoff, which is proportional to the highest population `w` the highest level has had in the
meantime. -/
theorem mode_thermalises.{v} (p : ModeEl.Pars) (hd : p.cutoff < 2 ^ 63) (h0 : 0 < p.cutoff) (hκ : 0 ≤ p.kappa) (hn : 0 ≤ p.nTh) (hη : p.eta = 0) (hK : p.omegaKerr = 0) (hA : p.omegaKerrAlter = 0) (qmp : Picture)
    (hp : qmp ≠ .ip ∨ p.kappa = 0) : ∃ e, makePumpedLossy p qmp = .ok e ∧ e.dim = p.cutoff ∧ ∀ T, 0 ≤ T → ∃ C, 0 ≤ C ∧
      (∀ rho : Rho e.dim, rho.PosSemidef → rho.trace = 1 → ∃ x, Reached.{v} e.toSys C T 0 rho x) ∧
      ∀ ε rho x, Reached.{v} e.toSys C T ε rho x → ∀ w,
        (∀ ρ, Unravel.Solves (mat e.dim (modeH (p.kappa * (2 * p.nTh + 1)) p.delta 0)) ((modeJ p.kappa p.nTh).map (mat e.dim)) T ρ → ρ 0 = rho → ∀ t, 0 ≤ t → t ≤ T → highest (normalised ρ t) ≤ w) →
          (∀ k, ‖x k k - thermal e.dim p.nTh k k‖ ≤ p.cutoff * Real.exp (-2 * p.kappa * T) + p.nTh * p.cutoff ^ 2 * w + C * ε) ∧
          |average (shown x) 0 - photons (thermal e.dim p.nTh)| ≤ p.cutoff * Real.exp (-2 * p.kappa * T) + p.nTh * p.cutoff ^ 2 * w + C * ε ∧
          ∀ i j, i ≠ j → ‖x i j‖ ≤ p.cutoff * 2 ^ p.cutoff * Real.exp (-(p.kappa * (|(i : ℝ) - j| - 2 * p.nTh * p.cutoff * w)) * T) + C * ε := by
  obtain ⟨e, h1, h2, h3⟩ := mode_normalised.{v} p hd h0 hκ hn hK hA qmp hp
  rw [hη] at h3
  refine ⟨e, h1, h2, fun T hT => ?_⟩
  obtain ⟨C, hC, H⟩ := reached_close h3 T hT
  refine ⟨C + e.dim ^ 2 * C, by positivity, fun rho a b => reached_exists h3 _ T hT rho a b, fun ε rho x hx w hw => ?_⟩
  obtain ⟨a, b, hε, ρ, hs, hz, hc⟩ := H _ ε rho x (by nlinarith [mul_nonneg (sq_nonneg (e.dim : ℝ)) hC]) hx
  have hcl := photons_close _ _ _ hc
  subst hz
  have hw' := hw ρ hs rfl
  have hpos : 0 < e.dim := by omega
  have hrel := populations_relax e.dim hpos p.kappa p.nTh hκ hn p.delta T hT ρ hs a b w hw'
  have hinit : ∑ k : Fin e.dim, ‖excess p.nTh (ρ 0) k‖ ≤ e.dim := by
    refine (Finset.sum_le_sum (g := fun _ => (1 : ℝ)) fun (k : Fin e.dim) _ => excess_bound hpos p.nTh hn a b k).trans (le_of_eq ?_)
    rw [Finset.sum_const, Finset.card_univ, Fintype.card_fin, nsmul_eq_mul, mul_one]
  have hdist : ∑ k : Fin e.dim, ‖excess p.nTh (normalised ρ T) k‖ ≤ e.dim * Real.exp (-2 * p.kappa * T) + p.nTh * e.dim ^ 2 * w := by
    refine hrel.trans (add_le_add ?_ le_rfl)
    rw [mul_comm]
    exact mul_le_mul_of_nonneg_right hinit (Real.exp_pos _).le
  have hcut : (p.cutoff : ℝ) = e.dim := by rw [h2]
  have hCε := mul_nonneg hC hε
  have hdε : 0 ≤ (e.dim : ℝ) ^ 2 * (C * ε) := by positivity
  rw [hcut, ← h2]
  refine ⟨fun k => ?_, ?_, fun i j _ => ?_⟩
  · have h4 := population_close p.nTh (normalised ρ T) k
    have h5 := norm_sub_le_norm_sub_add_norm_sub (x k k) (normalised ρ T k k) (thermal e.dim p.nTh k k)
    have h6 := hc k k
    linarith
  · have h4 := photons_thermal hpos p.nTh hn (normalised ρ T) (normalised_equation hs a b T hT le_rfl).2.1
    rw [average_photons]
    have h5 := abs_sub_le (photons x) (photons (normalised ρ T)) (photons (thermal e.dim p.nTh))
    linarith
  · have h4 := coherence_close e.dim hpos p.kappa p.nTh hκ hn p.delta T hT ρ hs a b w hw' i j
    have h5 := norm_le_norm_add_norm_sub' (x i j) (normalised ρ T i j)
    have h6 := hc i j
    linarith

/-- **C156.** The same with the effect of the cutoff estimated in advance: if initially the populations are below `c` times the Boltzmann factors `(nTh/(nTh+1))^k` (as in the vacuum, with `c=1`), then the effect of the
cutoff is exponentially small in the number of levels. -/
theorem mode_thermalises_from.{v} (p : ModeEl.Pars) (hd : p.cutoff < 2 ^ 63) (h0 : 0 < p.cutoff) (hκ : 0 ≤ p.kappa) (hn : 0 < p.nTh) (hη : p.eta = 0) (hK : p.omegaKerr = 0) (hA : p.omegaKerrAlter = 0) (qmp : Picture)
    (hp : qmp ≠ .ip ∨ p.kappa = 0) : ∃ e, makePumpedLossy p qmp = .ok e ∧ e.dim = p.cutoff ∧ ∀ T, 0 ≤ T → ∃ C, 0 ≤ C ∧
      (∀ rho : Rho e.dim, rho.PosSemidef → rho.trace = 1 → ∃ x, Reached.{v} e.toSys C T 0 rho x) ∧
      ∀ ε rho x, Reached.{v} e.toSys C T ε rho x → ∀ c : ℝ, (∀ k, (rho k k).re ≤ c * (p.nTh / (p.nTh + 1)) ^ (k : ℕ)) →
        4 * p.kappa * p.nTh * p.cutoff * (c * (p.nTh / (p.nTh + 1)) ^ (p.cutoff - 1)) * T ≤ 1 →
          (∀ k, ‖x k k - thermal e.dim p.nTh k k‖ ≤ p.cutoff * Real.exp (-2 * p.kappa * T) + p.nTh * p.cutoff ^ 2 * (2 * c * (p.nTh / (p.nTh + 1)) ^ (p.cutoff - 1)) + C * ε) ∧
          |average (shown x) 0 - photons (thermal e.dim p.nTh)| ≤ p.cutoff * Real.exp (-2 * p.kappa * T) + p.nTh * p.cutoff ^ 2 * (2 * c * (p.nTh / (p.nTh + 1)) ^ (p.cutoff - 1)) + C * ε ∧
          ∀ i j, i ≠ j →
            ‖x i j‖ ≤ p.cutoff * 2 ^ p.cutoff * Real.exp (-(p.kappa * (|(i : ℝ) - j| - 2 * p.nTh * p.cutoff * (2 * c * (p.nTh / (p.nTh + 1)) ^ (p.cutoff - 1)))) * T) + C * ε := by
  obtain ⟨e, h1, h2, h3⟩ := mode_thermalises.{v} p hd h0 hκ hn.le hη hK hA qmp hp
  refine ⟨e, h1, h2, fun T hT => ?_⟩
  obtain ⟨C, hC, hex, H⟩ := h3 T hT
  refine ⟨C, hC, hex, fun ε rho x hx c hc hs => H ε rho x hx _ fun ρ hρ hz t ht htT => ?_⟩
  have hx' := hx
  obtain ⟨κ, solver, Dt, ces, dtInit, fuel, N, m, y, -, -, -, -, -, -, ha, hb, -, -⟩ := hx'
  subst hz
  have := highest_bound e.dim (by omega) p.kappa p.nTh hκ hn p.delta T hT ρ hρ ha hb c hc (by rw [h2]; exact hs) t ht htT
  have hcut : e.dim - 1 = p.cutoff - 1 := by rw [h2]
  rwa [hcut] at this

/-- **C156.** At zero temperature the mode not pumped decays into the vacuum: without any restriction on the initial state, and with no effect of the cutoff. -/
theorem mode_to_vacuum.{v} (p : ModeEl.Pars) (hd : p.cutoff < 2 ^ 63) (h0 : 0 < p.cutoff) (hκ : 0 ≤ p.kappa) (hn : p.nTh = 0) (hη : p.eta = 0) (hK : p.omegaKerr = 0) (hA : p.omegaKerrAlter = 0) (qmp : Picture)
    (hp : qmp ≠ .ip ∨ p.kappa = 0) : ∃ e, makePumpedLossy p qmp = .ok e ∧ e.dim = p.cutoff ∧ ∀ T, 0 ≤ T → ∃ C, 0 ≤ C ∧
      (∀ rho : Rho e.dim, rho.PosSemidef → rho.trace = 1 → ∃ x, Reached.{v} e.toSys C T 0 rho x) ∧
      ∀ ε rho x, Reached.{v} e.toSys C T ε rho x →
        (∀ k : Fin e.dim, ‖x k k - (if (k : ℕ) = 0 then 1 else 0)‖ ≤ p.cutoff * Real.exp (-2 * p.kappa * T) + C * ε) ∧
        ∀ i j, i ≠ j → ‖x i j‖ ≤ p.cutoff * 2 ^ p.cutoff * Real.exp (-(p.kappa * |(i : ℝ) - j|) * T) + C * ε := by
  obtain ⟨e, h1, h2, h3⟩ := mode_thermalises.{v} p hd h0 hκ hn.ge hη hK hA qmp hp
  refine ⟨e, h1, h2, fun T hT => ?_⟩
  obtain ⟨C, hC, hex, H⟩ := h3 T hT
  refine ⟨C, hC, hex, fun ε rho x hx => ?_⟩
  have hx' := hx
  obtain ⟨κ, solver, Dt, ces, dtInit, fuel, N, m, y, -, -, -, -, -, -, ha, hb, -, -⟩ := hx'
  obtain ⟨a1, -, a3⟩ := H ε rho x hx 1 fun ρ hρ hz t ht htT => by
    subst hz
    obtain ⟨hP, hT, -⟩ := normalised_equation hρ ha hb t ht htT
    rw [highest_top (by omega)]
    have := posSemidef_le_trace _ hP ⟨e.dim - 1, by omega⟩ ⟨e.dim - 1, by omega⟩
    rw [hT, Complex.one_re] at this
    exact (Complex.re_le_norm _).trans this
  refine ⟨fun k => ?_, fun i j hij => ?_⟩
  · have h4 := a1 k
    have h5 : thermal e.dim p.nTh k k = if (k : ℕ) = 0 then 1 else 0 := by
      simp only [thermal, Matrix.diagonal_apply_eq, planck, hn, zero_div]
      have : ∑ i ∈ Finset.range e.dim, (0 : ℝ) ^ i = 1 := by
        rw [Finset.sum_eq_single 0]
        · simp
        · intro i _ hi
          rw [zero_pow hi]
        · intro hh
          exact absurd (Finset.mem_range.2 (by omega)) hh
      rw [this]
      split_ifs with hk
      · simp [hk]
      · simp [hk]
    rw [h5, hn] at h4
    simpa using h4
  · have := a3 i j hij
    rw [hn] at this
    simpa using this

/-! ## Concrete cases -/

/-- Instance: the mode of the test script of the framework (`final_temperature`), with 4 thermal photons and, say, 200 levels, started from the vacuum: the assumptions are met until `10^14/κ`. -/
example : ∃ e : Element, makePumpedLossy ⟨200, 1, 0, 0, 1, 4, 0⟩ .uip = .ok e ∧ e.dim = 200 ∧ ∃ C, 0 ≤ C ∧
    (∀ rho : Rho e.dim, rho.PosSemidef → rho.trace = 1 → ∃ x, Reached.{0} e.toSys C 20 0 rho x) ∧
    ∀ ε rho x, Reached.{0} e.toSys C 20 ε rho x → (∀ k : Fin e.dim, (rho k k).re ≤ 1 * (4 / (4 + 1)) ^ (k : ℕ)) →
      |average (shown x) 0 - photons (thermal e.dim 4)| ≤ 200 * Real.exp (-2 * 1 * 20) + 4 * 200 ^ 2 * (2 * 1 * (4 / (4 + 1)) ^ 199) + C * ε := by
  obtain ⟨e, h1, h2, h3⟩ := mode_thermalises_from.{0} ⟨200, 1, 0, 0, 1, 4, 0⟩ (by norm_num) (by norm_num) (by norm_num) (by norm_num) rfl rfl rfl .uip (Or.inl (by simp))
  obtain ⟨C, hC, hex, H⟩ := h3 20 (by norm_num)
  refine ⟨e, h1, h2, C, hC, hex, fun ε rho x hx hr => ?_⟩
  have := (H ε rho x hx 1 hr (by norm_num)).2.1
  simpa using this

/-- Instance: the vacuum is such an initial state. -/
example (d : ℕ) (h0 : 0 < d) (k : Fin d) : ((Matrix.diagonal fun i : Fin d => if i = ⟨0, h0⟩ then (1 : ℂ) else 0) k k).re ≤ 1 * ((4 : ℝ) / (4 + 1)) ^ (k : ℕ) := by
  rw [Matrix.diagonal_apply_eq]
  split_ifs with h
  · simp [h]
  · simp only [Complex.zero_re]
    positivity

end CppQED.Relax
