import Verif.Lemmas.Positivity
import Verif.Spec.Scripts
import Verif.Props.MasterGlobal
import Verif.Props.Scripts
import Verif.Props.EnsembleRate

/-!
# Density operators remain density operators: C122
-/

namespace CppQED.Master
open Matrix Unravel Spec
open scoped ComplexConjugate ComplexOrder

variable {n : ℕ}

/-- The probability of finding the system in the (pure) state `φ`. -/
noncomputable def probability (φ : Fin n → ℂ) (rho : Rho n) : ℝ := (star φ ⬝ᵥ rho *ᵥ φ).re

theorem probability_bounds (φ : Fin n → ℂ) (hφ : ∑ i, Complex.normSq (φ i) = 1) (σ : Rho n) (hσ : σ.PosSemidef) (h1 : σ.trace = 1) : 0 ≤ probability φ σ ∧ probability φ σ ≤ 1 := by
  refine ⟨(Complex.le_def.1 (hσ.dotProduct_mulVec_nonneg φ)).1, ?_⟩
  set P : Rho n := 1 - vecMulVec φ (star φ) with hP
  have hnorm : star φ ⬝ᵥ φ = 1 := by
    rw [← Complex.ofReal_one, ← hφ, Complex.ofReal_sum]
    refine Finset.sum_congr rfl fun i _ => ?_
    rw [Complex.normSq_eq_conj_mul_self]; rfl
  have hH : Pᴴ = P := by
    rw [hP, Matrix.conjTranspose_sub, Matrix.conjTranspose_one, Matrix.conjTranspose_vecMulVec, star_star]
  have hPP : P * Pᴴ = P := by
    rw [hH, hP, Matrix.sub_mul, Matrix.mul_sub, Matrix.mul_sub, Matrix.one_mul, Matrix.mul_one, Matrix.one_mul, Matrix.vecMulVec_mul_vecMulVec, hnorm]
    simp
  have h := (hσ.conjTranspose_mul_mul_same P).trace_nonneg
  have e : (Pᴴ * σ * P).trace = 1 - star φ ⬝ᵥ σ *ᵥ φ := by
    rw [Matrix.mul_assoc, Matrix.trace_mul_comm, Matrix.mul_assoc, hPP, hP, Matrix.mul_sub, Matrix.mul_one, Matrix.trace_sub, h1, Matrix.mul_vecMulVec, Matrix.trace_vecMulVec, dotProduct_comm]
  rw [e] at h
  have := (Complex.le_def.1 h).1
  simp only [Complex.zero_re, Complex.sub_re, Complex.one_re] at this
  unfold probability
  linarith

theorem probability_dist (φ : Fin n → ℂ) (hφ : ∑ i, Complex.normSq (φ i) = 1) (ρ σ : Rho n) (c : ℝ) (hc : 0 ≤ c) (h : ∀ i j, ‖ρ i j - σ i j‖ ≤ c) : |probability φ ρ - probability φ σ| ≤ n * c := by
  have e : probability φ ρ - probability φ σ = (∑ i, ∑ j, star (φ i) * ((ρ i j - σ i j) * φ j)).re := by
    unfold probability
    rw [← Complex.sub_re]
    congr 1
    simp [dotProduct, mulVec, Finset.mul_sum, sub_mul, mul_sub, Finset.sum_sub_distrib]
  rw [e]
  refine (Complex.abs_re_le_norm _).trans ((norm_sum_le _ _).trans ?_)
  have h1 : ∀ i, ‖∑ j, star (φ i) * ((ρ i j - σ i j) * φ j)‖ ≤ ∑ j, ‖φ i‖ * (c * ‖φ j‖) := by
    intro i
    refine (norm_sum_le _ _).trans (Finset.sum_le_sum fun j _ => ?_)
    rw [norm_mul, norm_mul, norm_star]
    exact mul_le_mul_of_nonneg_left (mul_le_mul_of_nonneg_right (h i j) (_root_.norm_nonneg _)) (_root_.norm_nonneg _)
  refine (Finset.sum_le_sum fun i _ => h1 i).trans ?_
  have h2 : ∑ i, ∑ j, ‖φ i‖ * (c * ‖φ j‖) = c * (∑ i, ‖φ i‖) ^ 2 := by
    rw [pow_two, Finset.sum_mul_sum, Finset.mul_sum]
    refine Finset.sum_congr rfl fun i _ => ?_
    rw [Finset.mul_sum]
    exact Finset.sum_congr rfl fun j _ => by ring
  rw [h2]
  have h3 : (∑ i, ‖φ i‖) ^ 2 ≤ n * ∑ i, ‖φ i‖ ^ 2 := by
    have := sq_sum_le_card_mul_sum_sq (s := Finset.univ) (f := fun i => ‖φ i‖)
    simpa using this
  have h4 : ∑ i, ‖φ i‖ ^ 2 = 1 := by rw [← hφ]; exact Finset.sum_congr rfl fun i _ => (Complex.normSq_eq_norm_sq _).symm
  rw [h4, mul_one] at h3
  calc c * (∑ i, ‖φ i‖) ^ 2 ≤ c * n := mul_le_mul_of_nonneg_left h3 hc
    _ = _ := mul_comm _ _

/-- **C122.** The solution of a Master equation started from a positive semidefinite matrix of trace one remains such, if the Master equation conserves the trace; it remains positive semidefinite in any case. -/
theorem solution_density {A : Rho n} {J : List (Rho n)} {T : ℝ} {ρ : ℝ → Rho n} (h : Unravel.Solves A J T ρ) (hp : (ρ 0).PosSemidef) (t : ℝ) (ht : 0 ≤ t) (htT : t ≤ T) :
    (ρ t).PosSemidef ∧ (Conserving A J → (ρ 0).trace = 1 → (ρ t).trace = 1) := by
  have := sol_unique A J 0 t ht ρ fun r a b => h r a (by linarith)
  rw [zero_add] at this
  rw [this]
  exact ⟨sol_posSemidef A J _ hp t ht, fun hC h1 => (sol_trace A J hC _ t).trans h1⟩

/-- **C122.** Master-equation trajectories started from a density operator arrive in a Hermitian matrix of trace one which is positive up to the error of the stepper: it is within this error of a density operator, and the
probability of finding the system in any state is between zero and one within this error. -/
theorem TracksMaster.positive.{v} {S : Sys n} {A : Rho n} {J : List (Rho n)} (h : TracksMaster.{v} S A J) (T : ℝ) (hT : 0 ≤ T) : ∃ C, 0 ≤ C ∧
    ∀ {κ : Type v} (ε : ℝ), 0 ≤ ε → C * ε ≤ 1 → ∀ (rho : Rho n) (x : St n κ), rho.PosSemidef → rho.trace = 1 → Arrives S ε T rho x →
      x.t = T ∧ x.rho.IsHermitian ∧ x.rho.trace = 1 ∧ (∃ σ : Rho n, σ.PosSemidef ∧ σ.trace = 1 ∧ ∀ i j, ‖x.rho i j - σ i j‖ ≤ C * ε) ∧
      ∀ φ : Fin n → ℂ, ∑ i, Complex.normSq (φ i) = 1 → -(n * (C * ε)) ≤ probability φ x.rho ∧ probability φ x.rho ≤ 1 + n * (C * ε) := by
  obtain ⟨C, hC, hrun⟩ := h.error T hT
  refine ⟨C, hC, ?_⟩
  rintro κ ε h0 h1 rho x hp ht ⟨solver, Dt, ces, dtInit, fuel, N, m, hs, hDt, hDt1, hdt, hx⟩
  have hden := density_of_posSemidef rho hp ht
  have hsol : Unravel.Solves A J T fun t => sol A J t rho := fun t _ _ i j => by simpa only [sub_zero] using hasDerivAt_sol A J rho 0 t i j
  obtain ⟨q1, q2, q3, q4⟩ := hrun solver ε Dt hs h0 h1 hDt hDt1 rho hden ces dtInit hdt fuel N m x hx
  have hσ := sol_posSemidef A J rho hp T hT
  have htr : (sol A J T rho).trace = 1 := by
    obtain ⟨κ', y, solver', Dt', ces', dtInit', fuel', N', m', hs', hDt', hDt1', hdt', hy⟩ := h.arrives T rho
    obtain ⟨-, -, r3, r4⟩ := hrun solver' 0 Dt' hs' le_rfl (by rw [mul_zero]; exact zero_le_one) hDt' hDt1' rho hden ces' dtInit' hdt' fuel' N' m' y hy
    have : y.rho = sol A J T rho := by
      ext i j
      have := r4 _ hsol (sol_zero _ _ _) i j
      rw [mul_zero] at this
      exact sub_eq_zero.1 (norm_le_zero_iff.1 this)
    rw [← this, r3]
  have hdist := q4 _ hsol (sol_zero _ _ _)
  refine ⟨q1, q2, q3, ⟨_, hσ, htr, hdist⟩, fun φ hφ => ?_⟩
  have b := probability_bounds φ hφ _ hσ htr
  have d := abs_le.1 (probability_dist φ hφ x.rho (sol A J T rho) (C * ε) (by positivity) hdist)
  exact ⟨by linarith [d.1, b.1], by linarith [d.2, b.2]⟩

/-- **C122.** The density operator calculated by an ensemble of Monte Carlo trajectories with normalised state vectors is a density operator exactly. -/
theorem ensemble_density {κ : Type*} (shape : List ℕ) (hn : shape.prod = n) (rho : CMat.Array) (final : ℕ → Option (MCWF.St (Fin n) κ)) (members : ℕ) (hm : 0 < members)
    (h : ∀ k < members, ∃ x, final k = some x ∧ MCWF.norm x.psi = 1) : (ensembleMatrix shape rho final members).PosSemidef ∧ (ensembleMatrix shape rho final members).trace = 1 := by
  have hd : ∀ k < members, (Matrix.of (dyad (final k)) : Rho n).PosSemidef ∧ (Matrix.of (dyad (final k)) : Rho n).trace = 1 := by
    intro k hk
    obtain ⟨x, hx, h1⟩ := h k hk
    rw [hx]
    have e : (Matrix.of (dyad (some x)) : Rho n) = vecMulVec x.psi (star x.psi) := by
      ext i j; rfl
    rw [e]
    exact ⟨Matrix.posSemidef_vecMulVec_self_star _, (density_pure x.psi h1).trace⟩
  have e : ensembleMatrix shape rho final members = ((1 / members : ℝ) : ℂ) • ∑ k ∈ Finset.range members, (Matrix.of (dyad (final k)) : Rho n) := by
    ext i j
    rw [ensembleMatrix_eq shape hn rho final members hm, Matrix.smul_apply, Matrix.sum_apply]
    simp [div_eq_inv_mul]
  rw [e]
  constructor
  · refine Matrix.PosSemidef.smul ?_ (by rw [Complex.zero_le_real]; positivity)
    exact Matrix.posSemidef_sum _ fun k hk => (hd k (Finset.mem_range.1 hk)).1
  · rw [Matrix.trace_smul, Matrix.trace_sum, Finset.sum_congr rfl fun k hk => (hd k (Finset.mem_range.1 hk)).2]
    have : (members : ℂ) ≠ 0 := by exact_mod_cast hm.ne'
    simp [this]

/-! ## Concrete cases -/

/-- The decaying pumped atom started from a mixed state: the trajectory without error remains positive. -/
example : ∃ (κ : Type) (x : St 2 κ), Arrives (n := 2) (MultiEl.ptla 1 2 ⟨3, 1⟩).toSys 0 5 (Matrix.diagonal ![1 / 3, 2 / 3]) x ∧ x.rho.trace = 1 ∧
    ∀ φ : Fin 2 → ℂ, ∑ i, Complex.normSq (φ i) = 1 → 0 ≤ probability φ x.rho ∧ probability φ x.rho ≤ 1 := by
  have ht := Evolved.ptla_tracks.{0} 1 2 zero_le_one ⟨3, 1⟩
  obtain ⟨κ, x, hx⟩ := ht.arrives 5 (Matrix.diagonal ![1 / 3, 2 / 3])
  obtain ⟨C, -, h⟩ := ht.positive 5 (by norm_num)
  have hp : (Matrix.diagonal ![(1 / 3 : ℂ), 2 / 3]).PosSemidef := by
    refine Matrix.PosSemidef.diagonal fun i => ?_
    fin_cases i
    · show (0 : ℂ) ≤ 1 / 3
      rw [show (1 / 3 : ℂ) = ((1 / 3 : ℝ) : ℂ) by push_cast; rfl, Complex.zero_le_real]; norm_num
    · show (0 : ℂ) ≤ 2 / 3
      rw [show (2 / 3 : ℂ) = ((2 / 3 : ℝ) : ℂ) by push_cast; rfl, Complex.zero_le_real]; norm_num
  obtain ⟨-, -, h3, -, h5⟩ := h 0 le_rfl (by rw [mul_zero]; exact zero_le_one) _ x hp (by simp [Matrix.trace, Fin.sum_univ_two]; norm_num) hx
  refine ⟨κ, x, hx, h3, fun φ hφ => ?_⟩
  have := h5 φ hφ
  simpa using this

/-- An ensemble of two trajectories of an atom, one of which ended in the ground, the other in the excited state. -/
example : (ensembleMatrix (κ := Unit) (n := 2) [2] ⟨[2, 2], fun _ => 7⟩ (fun k => some ⟨5, 0, if k = 0 then ![1, 0] else ![0, 1], (), 1, 1, 3, 0, 2⟩) 2).PosSemidef ∧
    (ensembleMatrix (κ := Unit) (n := 2) [2] ⟨[2, 2], fun _ => 7⟩ (fun k => some ⟨5, 0, if k = 0 then ![1, 0] else ![0, 1], (), 1, 1, 3, 0, 2⟩) 2).trace = 1 := by
  refine ensemble_density [2] rfl _ _ 2 (by norm_num) fun k _ => ⟨_, rfl, ?_⟩
  by_cases hk : k = 0 <;> simp only [hk, MCWF.norm, if_true, if_false]
  · exact (congrArg Real.sqrt (Fin.sum_univ_two (fun i : Fin 2 => Complex.normSq (![1, 0] i)))).trans (by simp)
  · exact (congrArg Real.sqrt (Fin.sum_univ_two (fun i : Fin 2 => Complex.normSq (![0, 1] i)))).trans (by simp)

end CppQED.Master
