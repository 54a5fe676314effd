import Verif.Props.UnravelConcrete
import Verif.Lemmas.UnravelFinish

/-! # Property C116: Monte Carlo trajectories of a decaying qbit -/

namespace CppQED.Unravel
open MeasureTheory Matrix Elem Spec Interactions MCWF
open scoped ComplexConjugate

/-- The density operator of a decaying qbit with initial excited-state amplitude `ψ₁` at time `t`. -/
noncomputable def decayed (γ δ : ℝ) (psi1 : ℂ) (t : ℝ) : Dens := fun i j =>
  if i = 0 then
    (if j = 0 then 1 - Complex.normSq psi1 * Complex.exp (-(2 * γ) * t) else Real.sqrt (1 - Complex.normSq psi1) * conj psi1 * Complex.exp (-(γ + Complex.I * δ) * t))
  else
    (if j = 0 then psi1 * Real.sqrt (1 - Complex.normSq psi1) * Complex.exp (-(γ - Complex.I * δ) * t) else Complex.normSq psi1 * Complex.exp (-(2 * γ) * t))

theorem hasDerivAt_exp_mul (a : ℂ) (t : ℝ) : HasDerivAt (fun s : ℝ => Complex.exp (a * s)) (a * Complex.exp (a * t)) t := by
  have h1 : HasDerivAt (fun s : ℝ => a * (s : ℂ)) a t := by
    simpa using (Complex.ofRealCLM.hasDerivAt (x := t)).const_mul a
  have h2 := (Complex.hasDerivAt_exp (a * t)).comp t h1
  refine h2.congr_deriv ?_
  ring

theorem decayed_solves (γ δ : ℝ) (hγ : 0 < γ) (psi1 : ℂ) (T : ℝ) : Solves (mat 2 (qbitH γ δ 0)) [mat 2 (sc (Real.sqrt (2 * γ)) sigma)] T fun t => mat 2 (decayed γ δ psi1 t) := by
  intro t _ _ i j
  have hs : (Real.sqrt (2 * γ) : ℂ) * (Real.sqrt (2 * γ) : ℂ) = 2 * γ := by
    rw [← Complex.ofReal_mul, Real.mul_self_sqrt (by linarith)]; push_cast; ring
  generalize (Real.sqrt (2 * γ)) = r at hs
  have e1 := hasDerivAt_exp_mul (-(2 * γ)) t
  have e2 := hasDerivAt_exp_mul (-(γ + Complex.I * δ)) t
  have e3 := hasDerivAt_exp_mul (-(γ - Complex.I * δ)) t
  fin_cases i <;> fin_cases j
  · refine ((e1.const_mul (Complex.normSq psi1 : ℂ)).const_sub 1).congr_deriv ?_
    simp [lindblad, Matrix.mul_apply, Fin.sum_univ_two, mat_apply, qbitH, excited, sigma, sigmaDag, sc, Matrix.conjTranspose_apply, decayed]
    linear_combination (-(Complex.normSq psi1 : ℂ) * Complex.exp (-(2 * γ * t))) * hs
  · refine (e2.const_mul (Real.sqrt (1 - Complex.normSq psi1) * conj psi1 : ℂ)).congr_deriv ?_
    simp [lindblad, Matrix.mul_apply, Fin.sum_univ_two, mat_apply, qbitH, excited, sigma, sigmaDag, sc, Matrix.conjTranspose_apply, decayed]
    ring
  · refine (e3.const_mul (psi1 * Real.sqrt (1 - Complex.normSq psi1) : ℂ)).congr_deriv ?_
    simp [lindblad, Matrix.mul_apply, Fin.sum_univ_two, mat_apply, qbitH, excited, sigma, sigmaDag, sc, Matrix.conjTranspose_apply, decayed]
    ring
  · refine (e1.const_mul (Complex.normSq psi1 : ℂ)).congr_deriv ?_
    simp [lindblad, Matrix.mul_apply, Fin.sum_univ_two, mat_apply, qbitH, excited, sigma, sigmaDag, sc, Matrix.conjTranspose_apply, decayed]
    ring

/-- **C116.** The decaying qbit without any condition on the solver (there is none), in the interaction picture: trajectories started from the initial condition `qbit::init(psi1)` arrive at any `T` with whatever random numbers
if the intervals `Dt` of the driver are short enough, and the mean over the random numbers of `|ψ⟩⟨ψ|` is the exponential decay, up to an error proportional to `Dt`. -/
theorem decay_unravels.{v, w} (p : QbitEl.Pars) (hγ : 0 < p.gamma) (hη : p.eta = 0) (T : ℝ) (hT : 0 ≤ T) : ∃ e, QbitEl.make p .ip = .ok e ∧ e.dim = 2 ∧
    ∃ C Γ, 0 ≤ C ∧ 0 ≤ Γ ∧ ∀ {κ : Type v} {Ω : Type w} [MeasurableSpace Ω] (μ : Measure Ω) [IsProbabilityMeasure μ] (sample : ℕ → Ω → ℝ), UniformNumbers μ sample →
      ∀ (make : (ℝ → (Fin e.dim → ℂ) → Fin e.dim → ℂ) → ODE.Stepper (Fin e.dim → ℂ) κ) (L : Lim) (Dt : ℝ), 0 < Dt → Dt ≤ 1 → 0 < L.dpLimit → 1 ≤ L.overshootTolerance →
      L.overshootTolerance * L.dpLimit ≤ 1 → Γ * Dt ≤ L.dpLimit →
      ∀ (psi1 : ℂ) (ces : κ) (dtInit : ℝ), Complex.normSq psi1 ≤ 1 → 0 < dtInit → ∀ fuel n m : ℕ, T ≤ m * Dt →
      let x := construct (e.toMCWF make) L (ket e.dim (QbitEl.init psi1)) ces dtInit
      (∀ s, (∀ k, 0 ≤ s k ∧ s k < 1) → (runTo (e.toMCWF make) L s fuel n 1 T Dt m x).isSome) ∧
      ∀ i j, ‖(∫ ω, dyad (runTo (e.toMCWF make) L (fun k => sample k ω) fuel n 1 T Dt m x) i j ∂μ) - decayed p.gamma p.delta psi1 T i j‖ ≤ C * Dt := by
  have hmake : QbitEl.make p .ip = QbitEl.lossyQbit p := by
    unfold QbitEl.make
    simp [hγ.ne', hη]
  obtain ⟨e, h1, h2, h3⟩ := qbit_unravels.{v, w} p hγ .ip
  obtain ⟨e', g1, -, g3, f2, -, hr⟩ := qbit_ready p hγ .ip
  rw [h1] at g1
  injection g1 with g1
  subst g1
  have hha : e.ha = none := by
    rw [hmake] at h1
    unfold QbitEl.lossyQbit QbitEl.elementExact ModeEl.elementExact at h1
    injection h1 with h1
    rw [← h1]
  obtain ⟨Γ', hΓ', hfin⟩ := element_finishes.{v} g3 hha (by rw [f2]; rfl) hr
  refine ⟨e, h1, h2, ?_⟩
  obtain ⟨C, Γ, hC, hΓ, h4⟩ := h3.mean T hT
  refine ⟨C, Γ + Γ', hC, by linarith, ?_⟩
  intro κ Ω _ μ _ sample hU make L Dt hDt hDt1 hdp htol hprob hΓD psi1 ces dtInit hpsi hdt fuel n m hm x
  have hΓD1 : Γ * Dt ≤ L.overshootTolerance * L.dpLimit := by nlinarith [mul_nonneg hΓ' hDt.le]
  have hΓD2 : Γ' * Dt ≤ L.dpLimit := by nlinarith [mul_nonneg hΓ hDt.le]
  have hpsi' : MCWF.norm (ket e.dim (QbitEl.init psi1)) = 1 := by
    rw [h2]
    unfold MCWF.norm
    rw [Real.sqrt_eq_one]
    have := (QbitEl.init_norm psi1 hpsi).1
    rw [Finset.sum_range] at this
    exact this
  have hf := hfin make L Dt T hDt hdp htol hΓD2 _ ces dtInit hpsi' hdt fuel n m hm
  refine ⟨hf, fun i j => ?_⟩
  have hsol : Solves (mat e.dim (qbitH p.gamma p.delta p.eta)) [mat e.dim (sc (Real.sqrt (2 * p.gamma)) sigma)] T fun t => mat e.dim (decayed p.gamma p.delta psi1 t) := by
    rw [hη, h2]
    exact decayed_solves p.gamma p.delta hγ psi1 T
  have h0 : mat e.dim (decayed p.gamma p.delta psi1 0) = vecMulVec (ket e.dim (QbitEl.init psi1)) (star (ket e.dim (QbitEl.init psi1))) := by
    have hs : (Real.sqrt (1 - Complex.normSq psi1) : ℂ) * Real.sqrt (1 - Complex.normSq psi1) = 1 - Complex.normSq psi1 := by
      rw [← Complex.ofReal_mul, Real.mul_self_sqrt (by linarith)]; push_cast; ring
    rw [h2]
    ext i j
    fin_cases i <;> fin_cases j <;> simp [mat_apply, decayed, vecMulVec_apply, ket, QbitEl.init, hs, Complex.mul_conj]
  have := h4 μ sample hU make L 0 Dt (by simp [Element.toSys, hha]) le_rfl zero_le_one hDt hDt1 hdp htol hprob (fun _ => hΓD1) _ ces dtInit hpsi' hdt fuel n 1 m hf _ hsol h0 i j
  rw [add_zero] at this
  exact this

/-- Parameters of a decaying qbit. -/
noncomputable def exampleDecay : QbitEl.Pars := ⟨2, 1, 0, 0⟩

/-- There are random numbers as supposed, and short enough steps: the decay from the excited state (`psi1=1`) up to `T=1`, with arbitrarily small error. -/
example (δ : ℝ) (hδ : 0 < δ) : ∃ e, QbitEl.make exampleDecay .ip = .ok e ∧ ∃ (μ : Measure (ℕ → ℕ → ℝ)) (sample : ℕ → (ℕ → ℕ → ℝ) → ℝ) (L : Lim) (Dt : ℝ) (m : ℕ), UniformNumbers μ sample ∧
    ∀ i j, ‖(∫ ω, dyad (runTo (e.toMCWF fun _ _ s t d => (⟨true, s, t + d, d⟩, ())) L (fun k => sample k ω) 0 0 1 1 Dt m
      (construct (e.toMCWF fun _ _ s t d => (⟨true, s, t + d, d⟩, ())) L (ket e.dim (QbitEl.init 1)) () 1)) i j ∂μ) - decayed 1 2 1 1 i j‖ ≤ δ := by
  obtain ⟨e, h1, -, C, Γ, hC, hΓ, h⟩ := decay_unravels exampleDecay (by norm_num [exampleDecay]) rfl 1 zero_le_one
  obtain ⟨sample, hs, -⟩ := uniform_streams
  have hpos : 0 < 1 + C / δ + 2 * Γ := by positivity
  obtain ⟨m, hm⟩ := exists_nat_ge (1 + C / δ + 2 * Γ)
  refine ⟨e, h1, _, sample 0, ⟨1 / 2, 2⟩, 1 / (1 + C / δ + 2 * Γ), m, hs 0, fun i j => ?_⟩
  have h2 := (h _ (sample 0) (hs 0) (fun _ _ s t d => (⟨true, s, t + d, d⟩, ())) ⟨1 / 2, 2⟩ (1 / (1 + C / δ + 2 * Γ)) (by positivity)
    (by rw [div_le_one hpos]; have : 0 ≤ C / δ := by positivity
        linarith) (by norm_num) (by norm_num) (by norm_num)
    (by rw [mul_one_div, div_le_iff₀ hpos]; have : 0 ≤ C / δ := by positivity
        linarith) 1 () 1 (by simp) one_pos 0 0 m (by rw [mul_one_div, le_div_iff₀ hpos]; linarith)).2 i j
  refine h2.trans ?_
  rw [mul_one_div, div_le_iff₀ hpos]
  have : δ * (C / δ) = C := by field_simp
  nlinarith [mul_nonneg hδ.le hΓ]

end CppQED.Unravel
