import Verif.Lemmas.Unravelling
import Mathlib.Probability.Moments.Variance
import Mathlib.Probability.StrongLaw
import Mathlib.Probability.Independence.InfinitePi

/-! # Helper lemmas about the statistical error of ensembles: measurability and arrival of runs, variance of averages -/

namespace CppQED.Unravel
open MeasureTheory ProbabilityTheory Matrix MCWF
open scoped ComplexConjugate

variable {ι κ Ω : Type*} [Fintype ι] [MeasurableSpace Ω]

theorem stepThen_measurable (S : Sys ι κ) (L : Lim) (fuel n : ℕ) (Dt : ℝ) (K : (ℕ → ℝ) → St ι κ → Option (St ι κ)) (hK : ∀ x i j, Measurable fun s => dyad (K s x) i j) (x : St ι κ) (i j : ι) :
    Measurable fun s => dyad ((step S L s fuel n Dt x).bind (K s)) i j := by
  cases hl : S.li with
  | none =>
    have h : ∀ s s', step S L s fuel n Dt x = step S L s' fuel n Dt x := by
      intro s s'
      unfold step
      rw [hl]
    cases hy : step S L (fun _ => 0) fuel n Dt x with
    | none =>
      simp only [h _ (fun _ => 0), hy, Option.bind_none, dyad]
      exact measurable_const
    | some y =>
      simp only [h _ (fun _ => 0), hy, Option.bind_some]
      exact hK y i j
  | some l =>
    have h := fun s => stepThen_eq (S := S) (L := L) hl fuel n Dt K s x
    unfold stepThen at h
    simp only [h]
    cases hy : pre S l L fuel n Dt x with
    | none =>
      simp only [Option.bind_none, dyad]
      exact measurable_const
    | some y =>
      simp only [Option.bind_some]
      have h1 : Measurable fun p : Option ℕ × (ℕ → ℝ) => dyad (K p.2 (afterJump l y p.1)) i j :=
        measurable_from_prod_countable_right fun o => hK (afterJump l y o) i j
      exact h1.comp (((measurable_selectJump _ _).comp (measurable_pi_apply y.nRandom)).prodMk measurable_id)

theorem advance_measurable (S : Sys ι κ) (L : Lim) (fuel n : ℕ) (e : ℝ) (K : (ℕ → ℝ) → St ι κ → Option (St ι κ)) (hK : ∀ x i j, Measurable fun s => dyad (K s x) i j) (N : ℕ) :
    ∀ (x : St ι κ) (i j : ι), Measurable fun s => dyad ((advanceLoop S L s fuel n e N x).bind (K s)) i j := by
  induction N with
  | zero =>
    intro x i j
    by_cases h : e - x.t = 0
    · simp only [advanceLoop, eq_true h, if_true, Option.bind_some]; exact hK x i j
    · simp only [advanceLoop, eq_false h, if_false, Option.bind_none, dyad]; exact measurable_const
  | succ N ih =>
    intro x i j
    by_cases h : e - x.t = 0
    · simp only [advanceLoop, eq_true h, if_true, Option.bind_some]; exact hK x i j
    · simp only [advanceLoop, eq_false h, if_false, Option.bind_assoc]
      exact stepThen_measurable S L fuel n (e - x.t) (fun s y => (advanceLoop S L s fuel n e N y).bind (K s)) ih x i j

/-- The final dyad of a run is a measurable function of the random numbers. -/
theorem runTo_measurable (S : Sys ι κ) (L : Lim) (fuel n N : ℕ) (T Dt : ℝ) (m : ℕ) : ∀ (x : St ι κ) (i j : ι), Measurable fun s => dyad (runTo S L s fuel n N T Dt m x) i j := by
  induction m with
  | zero =>
    intro x i j
    by_cases h : x.t < T
    · simp only [runTo, eq_true h, if_true, dyad]; exact measurable_const
    · simp only [runTo, eq_false h, if_false]; exact measurable_const
  | succ m ih =>
    intro x i j
    by_cases h : x.t < T
    · simp only [runTo, eq_true h, if_true]
      exact advance_measurable S L fuel n _ (fun s => runTo S L s fuel n N T Dt m) ih N x i j
    · simp only [runTo, eq_false h, if_false]; exact measurable_const

theorem advance_arrives (S : Sys ι κ) (hS : WellBehaved S) (L : Lim) (hL : 0 < L.dpLimit) (hT : 1 ≤ L.overshootTolerance) (s : ℕ → ℝ) (hs : ∀ k, 0 ≤ s k) (fuel n : ℕ) (e : ℝ) (N : ℕ) :
    ∀ x z : St ι κ, Inv S x → x.t ≤ e → advanceLoop S L s fuel n e N x = some z → Inv S z ∧ z.t = e := by
  induction N with
  | zero =>
    intro x z hx hxe h
    by_cases h0 : e - x.t = 0
    · simp only [advanceLoop, eq_true h0, if_true, Option.some.injEq] at h
      subst h
      exact ⟨hx, by linarith⟩
    · simp [advanceLoop, h0] at h
  | succ N ih =>
    intro x z hx hxe h
    by_cases h0 : e - x.t = 0
    · simp only [advanceLoop, eq_true h0, if_true, Option.some.injEq] at h
      subst h
      exact ⟨hx, by linarith⟩
    · simp only [advanceLoop, eq_false h0, if_false] at h
      obtain ⟨y, hy, hz⟩ := Option.bind_eq_some_iff.1 h
      have hpos : 0 < e - x.t := lt_of_le_of_ne (by linarith) (Ne.symm h0)
      obtain ⟨q1, q2, q3, -⟩ := step_time S hS L hL hT s hs fuel n _ hpos x y hx hy
      exact ih y z (step_inv S hS L hL hT s hs fuel n _ hpos x y hx hy) (by linarith) hz

/-- A run ends exactly at `T`, with the invariants of the trajectory. -/
theorem runTo_arrives (S : Sys ι κ) (hS : WellBehaved S) (L : Lim) (hL : 0 < L.dpLimit) (hT : 1 ≤ L.overshootTolerance) (s : ℕ → ℝ) (hs : ∀ k, 0 ≤ s k) (fuel n N : ℕ) (T Dt : ℝ) (hDt : 0 < Dt) (m : ℕ) :
    ∀ x z : St ι κ, Inv S x → x.t ≤ T → runTo S L s fuel n N T Dt m x = some z → Inv S z ∧ z.t = T := by
  induction m with
  | zero =>
    intro x z hx hxT h
    by_cases h0 : x.t < T
    · simp [runTo, h0] at h
    · simp only [runTo, eq_false h0, if_false, Option.some.injEq] at h
      subst h
      exact ⟨hx, le_antisymm hxT (not_lt.1 h0)⟩
  | succ m ih =>
    intro x z hx hxT h
    by_cases h0 : x.t < T
    · simp only [runTo, eq_true h0, if_true] at h
      obtain ⟨y, hy, hz⟩ := Option.bind_eq_some_iff.1 h
      have hpos : 0 < min Dt (T - x.t) := lt_min hDt (sub_pos.2 h0)
      obtain ⟨q1, q2⟩ := advance_arrives S hS L hL hT s hs fuel n _ N x y hx (by linarith) hy
      exact ih y z q1 (by rw [q2]; linarith [min_le_right Dt (T - x.t)]) hz
    · simp only [runTo, eq_false h0, if_false, Option.some.injEq] at h
      subst h
      exact ⟨hx, le_antisymm hxT (not_lt.1 h0)⟩

/-! ## The variance of averages -/

variable {μ : Measure Ω} [IsProbabilityMeasure μ]

/-- The streams have the same distribution. -/
theorem streams_identDistrib (sample : ℕ → ℕ → Ω → ℝ) (hU : ∀ n, UniformNumbers μ (sample n)) (n m : ℕ) : IdentDistrib (fun ω k => sample n k ω) (fun ω k => sample m k ω) μ μ := by
  have hm : ∀ n, Measurable fun ω k => sample n k ω := fun n => measurable_pi_lambda _ (hU n).measurable
  have hlaw : ∀ n, μ.map (fun ω k => sample n k ω) = Measure.infinitePi fun _ : ℕ => volume.restrict (Set.Ico (0 : ℝ) 1) := by
    intro n
    rw [(hU n).independent.map_fun_eq_infinitePi_map (hU n).measurable]
    congr 1
    funext k
    exact (hU n).uniform k
  exact ⟨(hm n).aemeasurable, (hm m).aemeasurable, by rw [hlaw, hlaw]⟩

/-- The mean square deviation of an average of real functions of independent streams. -/
theorem streams_variance_real (sample : ℕ → ℕ → Ω → ℝ) (hU : ∀ n, UniformNumbers μ (sample n)) (hI : iIndepFun (fun n ω k => sample n k ω) μ) (g : (ℕ → ℝ) → ℝ) (hg : Measurable g) (B : ℝ)
    (hb : ∀ s, Unit01 s → |g s| ≤ B) (c : ℝ) (N : ℕ) (hN : 0 < N) :
    ∫ ω, ((∑ k ∈ Finset.range N, g (fun i => sample k i ω)) / N - c) ^ 2 ∂μ =
      ((∫ ω, g (fun i => sample 0 i ω) ^ 2 ∂μ) - (∫ ω, g (fun i => sample 0 i ω) ∂μ) ^ 2) / N + ((∫ ω, g (fun i => sample 0 i ω) ∂μ) - c) ^ 2 := by
  have hN' : (N : ℝ) ≠ 0 := by positivity
  have hm : ∀ k, Measurable fun ω => g (fun i => sample k i ω) := fun k => hg.comp (measurable_pi_lambda _ (hU k).measurable)
  have hbd : ∀ k ω, ‖g (fun i => sample k i ω)‖ ≤ B := fun k ω => hb _ fun j => (hU k).range j ω
  have hL : ∀ k, MemLp (fun ω => g (fun i => sample k i ω)) 2 μ := fun k => MemLp.of_bound (hm k).aestronglyMeasurable B (Filter.Eventually.of_forall (hbd k))
  have hid : ∀ k, IdentDistrib (fun ω => g (fun i => sample k i ω)) (fun ω => g (fun i => sample 0 i ω)) μ μ := fun k => (streams_identDistrib sample hU k 0).comp hg
  have hsum : Var[∑ k ∈ Finset.range N, fun ω => g (fun i => sample k i ω); μ] = N * Var[fun ω => g (fun i => sample 0 i ω); μ] := by
    rw [IndepFun.variance_sum (fun k _ => hL k) fun a _ b _ hab => (hI.indepFun hab).comp hg hg, Finset.sum_congr rfl fun k _ => (hid k).variance_eq]
    simp
  have hmean : ∫ ω, (∑ k ∈ Finset.range N, g (fun i => sample k i ω)) / N ∂μ = ∫ ω, g (fun i => sample 0 i ω) ∂μ := by
    rw [integral_div, integral_finset_sum _ fun k _ => (hL k).integrable one_le_two, Finset.sum_congr rfl fun k _ => (hid k).integral_eq]
    simp [hN']
  have hA : MemLp (fun ω => (∑ k ∈ Finset.range N, g (fun i => sample k i ω)) / N) 2 μ := by
    have := (memLp_finset_sum (Finset.range N) fun k _ => hL k).mul_const ((N : ℝ)⁻¹)
    simpa [div_eq_mul_inv] using this
  have hvar : Var[fun ω => (∑ k ∈ Finset.range N, g (fun i => sample k i ω)) / N; μ] = Var[fun ω => g (fun i => sample 0 i ω); μ] / N := by
    have h1 : (fun ω => (∑ k ∈ Finset.range N, g (fun i => sample k i ω)) / N) = fun ω => (N : ℝ)⁻¹ * (∑ k ∈ Finset.range N, fun ω => g (fun i => sample k i ω)) ω := by
      funext ω
      simp [div_eq_inv_mul]
    rw [h1, variance_const_mul, hsum]
    field_simp
  have h2 := variance_sub_const (μ := μ) hA.aestronglyMeasurable c
  have hAc : MemLp (fun ω => (∑ k ∈ Finset.range N, g (fun i => sample k i ω)) / N - c) 2 μ := hA.sub (memLp_const c)
  rw [variance_eq_sub hAc, hvar, variance_eq_sub (hL 0)] at h2
  have h3 : ∫ ω, ((∑ k ∈ Finset.range N, g (fun i => sample k i ω)) / N - c) ∂μ = (∫ ω, g (fun i => sample 0 i ω) ∂μ) - c := by
    rw [integral_sub (hA.integrable one_le_two) (integrable_const c), hmean]
    simp
  have h4 : (∫ ω, ((∑ k ∈ Finset.range N, g (fun i => sample k i ω)) / N - c) ^ 2 ∂μ) - (∫ ω, ((∑ k ∈ Finset.range N, g (fun i => sample k i ω)) / N - c) ∂μ) ^ 2 =
      ((∫ ω, g (fun i => sample 0 i ω) ^ 2 ∂μ) - (∫ ω, g (fun i => sample 0 i ω) ∂μ) ^ 2) / N := h2
  rw [h3] at h4
  linarith

/-- The mean square deviation of an average of complex functions of independent streams. -/
theorem streams_variance (sample : ℕ → ℕ → Ω → ℝ) (hU : ∀ n, UniformNumbers μ (sample n)) (hI : iIndepFun (fun n ω k => sample n k ω) μ) (g : (ℕ → ℝ) → ℂ) (hg : Measurable g) (B : ℝ)
    (hb : ∀ s, Unit01 s → ‖g s‖ ≤ B) (c : ℂ) (N : ℕ) (hN : 0 < N) :
    ∫ ω, ‖(∑ k ∈ Finset.range N, g (fun i => sample k i ω)) / N - c‖ ^ 2 ∂μ ≤ B ^ 2 / N + ‖(∫ ω, g (fun i => sample 0 i ω) ∂μ) - c‖ ^ 2 := by
  have hre := streams_variance_real sample hU hI (fun s => (g s).re) (Complex.measurable_re.comp hg) B (fun s hs => (Complex.abs_re_le_norm _).trans (hb s hs)) c.re N hN
  have him := streams_variance_real sample hU hI (fun s => (g s).im) (Complex.measurable_im.comp hg) B (fun s hs => (Complex.abs_im_le_norm _).trans (hb s hs)) c.im N hN
  have hm : ∀ k, Measurable fun ω => g (fun i => sample k i ω) := fun k => hg.comp (measurable_pi_lambda _ (hU k).measurable)
  have hbd : ∀ k ω, ‖g (fun i => sample k i ω)‖ ≤ B := fun k ω => hb _ fun j => (hU k).range j ω
  have hint : Integrable (fun ω => g (fun i => sample 0 i ω)) μ := Integrable.of_bound (hm 0).aestronglyMeasurable B (Filter.Eventually.of_forall (hbd 0))
  have hB : 0 ≤ B := (_root_.norm_nonneg _).trans (hb (fun _ => 0) fun _ => ⟨le_rfl, one_pos⟩)
  have hmeas : ∀ f : Ω → ℝ, Measurable f → ∀ b, (∀ ω, |f ω| ≤ b) → Integrable (fun ω => f ω ^ 2) μ := by
    intro f hf b hfb
    refine Integrable.of_bound (hf.pow_const 2).aestronglyMeasurable (b ^ 2) (Filter.Eventually.of_forall fun ω => ?_)
    rw [Real.norm_eq_abs, abs_pow]
    exact pow_le_pow_left₀ (abs_nonneg _) (hfb ω) 2
  have hsm : Measurable fun ω => (∑ k ∈ Finset.range N, g (fun i => sample k i ω)) / N - c := ((Finset.measurable_fun_sum _ fun k _ => hm k).div_const _).sub_const _
  have hsb : ∀ ω, ‖(∑ k ∈ Finset.range N, g (fun i => sample k i ω)) / N - c‖ ≤ B + ‖c‖ := by
    intro ω
    refine (norm_sub_le _ _).trans (add_le_add ?_ le_rfl)
    rw [norm_div, Complex.norm_natCast, div_le_iff₀ (by positivity)]
    refine (norm_sum_le _ _).trans ((Finset.sum_le_sum fun k _ => hbd k ω).trans ?_)
    simp [mul_comm]
  have hsplit : ∀ z : ℂ, ‖z‖ ^ 2 = z.re ^ 2 + z.im ^ 2 := by
    intro z
    rw [← Complex.normSq_eq_norm_sq, Complex.normSq_apply]
    ring
  have hcast : ∀ z : ℂ, (z / (N : ℂ)).re = z.re / N ∧ (z / (N : ℂ)).im = z.im / N := by
    intro z
    have : (z / (N : ℂ)) = z / ((N : ℝ) : ℂ) := by simp
    rw [this, Complex.div_ofReal_re, Complex.div_ofReal_im]
    exact ⟨rfl, rfl⟩
  have h1 : ∫ ω, ‖(∑ k ∈ Finset.range N, g (fun i => sample k i ω)) / N - c‖ ^ 2 ∂μ =
      (∫ ω, ((∑ k ∈ Finset.range N, (g (fun i => sample k i ω)).re) / N - c.re) ^ 2 ∂μ) + ∫ ω, ((∑ k ∈ Finset.range N, (g (fun i => sample k i ω)).im) / N - c.im) ^ 2 ∂μ := by
    rw [← integral_add]
    · refine integral_congr_ae (Filter.Eventually.of_forall fun ω => ?_)
      beta_reduce
      rw [hsplit, Complex.sub_re, Complex.sub_im, (hcast _).1, (hcast _).2, Complex.re_sum, Complex.im_sum]
    · refine hmeas _ ((((Finset.measurable_fun_sum _ fun k _ => Complex.measurable_re.comp (hm k))).div_const _).sub_const _) (B + ‖c‖) fun ω => ?_
      have := (Complex.abs_re_le_norm _).trans (hsb ω)
      rwa [Complex.sub_re, (hcast _).1, Complex.re_sum] at this
    · refine hmeas _ ((((Finset.measurable_fun_sum _ fun k _ => Complex.measurable_im.comp (hm k))).div_const _).sub_const _) (B + ‖c‖) fun ω => ?_
      have := (Complex.abs_im_le_norm _).trans (hsb ω)
      rwa [Complex.sub_im, (hcast _).2, Complex.im_sum] at this
  have hI1 : (∫ ω, (g (fun i => sample 0 i ω)).re ∂μ) = (∫ ω, g (fun i => sample 0 i ω) ∂μ).re := integral_re hint
  have hI2 : (∫ ω, (g (fun i => sample 0 i ω)).im ∂μ) = (∫ ω, g (fun i => sample 0 i ω) ∂μ).im := integral_im hint
  have hsq : (∫ ω, (g (fun i => sample 0 i ω)).re ^ 2 ∂μ) + (∫ ω, (g (fun i => sample 0 i ω)).im ^ 2 ∂μ) ≤ B ^ 2 := by
    rw [← integral_add]
    · have h : ∀ ω, (g (fun i => sample 0 i ω)).re ^ 2 + (g (fun i => sample 0 i ω)).im ^ 2 ≤ B ^ 2 := fun ω => by
        rw [← hsplit]
        exact pow_le_pow_left₀ (_root_.norm_nonneg _) (hbd 0 ω) 2
      refine (integral_mono_of_nonneg (Filter.Eventually.of_forall fun ω => by positivity) (integrable_const (B ^ 2)) (Filter.Eventually.of_forall h)).trans ?_
      simp
    · exact hmeas _ (Complex.measurable_re.comp (hm 0)) B fun ω => (Complex.abs_re_le_norm _).trans (hbd 0 ω)
    · exact hmeas _ (Complex.measurable_im.comp (hm 0)) B fun ω => (Complex.abs_im_le_norm _).trans (hbd 0 ω)
  rw [h1, hre, him, hsplit, Complex.sub_re, Complex.sub_im, hI1, hI2]
  have h5 : ((∫ ω, (g (fun i => sample 0 i ω)).re ^ 2 ∂μ) - (∫ ω, g (fun i => sample 0 i ω) ∂μ).re ^ 2) / N + ((∫ ω, (g (fun i => sample 0 i ω)).im ^ 2 ∂μ) - (∫ ω, g (fun i => sample 0 i ω) ∂μ).im ^ 2) / N ≤ B ^ 2 / N := by
    rw [← add_div]
    refine div_le_div_of_nonneg_right ?_ (by positivity)
    nlinarith [sq_nonneg (∫ ω, g (fun i => sample 0 i ω) ∂μ).re, sq_nonneg (∫ ω, g (fun i => sample 0 i ω) ∂μ).im]
  linarith

/-- The probability of large deviations of an average of complex functions of independent streams. -/
theorem streams_probability (sample : ℕ → ℕ → Ω → ℝ) (hU : ∀ n, UniformNumbers μ (sample n)) (hI : iIndepFun (fun n ω k => sample n k ω) μ) (g : (ℕ → ℝ) → ℂ) (hg : Measurable g) (B : ℝ)
    (hb : ∀ s, Unit01 s → ‖g s‖ ≤ B) (c : ℂ) (N : ℕ) (hN : 0 < N) (a : ℝ) (ha : 0 < a) :
    μ.real {ω | a ≤ ‖(∑ k ∈ Finset.range N, g (fun i => sample k i ω)) / N - c‖} ≤ (B ^ 2 / N + ‖(∫ ω, g (fun i => sample 0 i ω) ∂μ) - c‖ ^ 2) / a ^ 2 := by
  have hm : ∀ k, Measurable fun ω => g (fun i => sample k i ω) := fun k => hg.comp (measurable_pi_lambda _ (hU k).measurable)
  have hbd : ∀ k ω, ‖g (fun i => sample k i ω)‖ ≤ B := fun k ω => hb _ fun j => (hU k).range j ω
  have hsm : Measurable fun ω => (∑ k ∈ Finset.range N, g (fun i => sample k i ω)) / N - c := ((Finset.measurable_fun_sum _ fun k _ => hm k).div_const _).sub_const _
  have hsb : ∀ ω, ‖(∑ k ∈ Finset.range N, g (fun i => sample k i ω)) / N - c‖ ≤ B + ‖c‖ := by
    intro ω
    refine (norm_sub_le _ _).trans (add_le_add ?_ le_rfl)
    rw [norm_div, Complex.norm_natCast, div_le_iff₀ (by positivity)]
    refine (norm_sum_le _ _).trans ((Finset.sum_le_sum fun k _ => hbd k ω).trans ?_)
    simp [mul_comm]
  have hint : Integrable (fun ω => ‖(∑ k ∈ Finset.range N, g (fun i => sample k i ω)) / N - c‖ ^ 2) μ := by
    refine Integrable.of_bound (hsm.norm.pow_const 2).aestronglyMeasurable ((B + ‖c‖) ^ 2) (Filter.Eventually.of_forall fun ω => ?_)
    rw [Real.norm_eq_abs, abs_pow, abs_norm]
    exact pow_le_pow_left₀ (_root_.norm_nonneg _) (hsb ω) 2
  have h1 := mul_meas_ge_le_integral_of_nonneg (μ := μ) (Filter.Eventually.of_forall fun ω => sq_nonneg _) hint (a ^ 2)
  have h2 : {ω | a ^ 2 ≤ ‖(∑ k ∈ Finset.range N, g (fun i => sample k i ω)) / N - c‖ ^ 2} = {ω | a ≤ ‖(∑ k ∈ Finset.range N, g (fun i => sample k i ω)) / N - c‖} := by
    ext ω
    exact pow_le_pow_iff_left₀ ha.le (_root_.norm_nonneg _) two_ne_zero
  rw [h2] at h1
  rw [le_div_iff₀ (by positivity), mul_comm]
  exact h1.trans (streams_variance sample hU hI g hg B hb c N hN)

end CppQED.Unravel
