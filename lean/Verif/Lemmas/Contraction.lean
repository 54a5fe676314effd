import Mathlib.Analysis.ODE.Gronwall
import Mathlib.Analysis.InnerProductSpace.Calculus
import Mathlib.Analysis.Complex.Basic
import Mathlib.Analysis.SpecialFunctions.Sqrt

/-! # Linear systems of differential equations dominated by their diagonals -/

namespace CppQED.Contraction
open Set Filter Topology

/-- The derivative from the right of the absolute value. -/
noncomputable def normDeriv (y v : ℂ) : ℝ := if y = 0 then ‖v‖ else (y.re * v.re + y.im * v.im) / ‖y‖

theorem hasDerivWithinAt_norm {y : ℝ → ℂ} {v : ℂ} {x : ℝ} (h : HasDerivAt y v x) : HasDerivWithinAt (fun s => ‖y s‖) (normDeriv (y x) v) (Ici x) x := by
  unfold normDeriv
  split_ifs with h0
  · rw [hasDerivWithinAt_iff_tendsto_slope]
    have h1 := (hasDerivWithinAt_iff_tendsto_slope.1 h.hasDerivWithinAt : Tendsto (slope y x) (𝓝[Ici x \ {x}] x) (𝓝 v)).norm
    refine h1.congr' ?_
    filter_upwards [self_mem_nhdsWithin] with z hz
    have hz' : x < z := lt_of_le_of_ne hz.1 (Ne.symm hz.2)
    rw [slope_def_module, slope_def_module, h0, norm_zero, sub_zero, sub_zero, norm_smul, smul_eq_mul, norm_inv, Real.norm_eq_abs, abs_of_pos (sub_pos.2 hz')]
  · have h1 : HasDerivAt (fun s => ‖y s‖ ^ 2) (2 * (y x).re * v.re + 2 * (y x).im * v.im) x := by
      have hr : HasDerivAt (fun s => (y s).re) v.re x := (Complex.reCLM.hasFDerivAt).comp_hasDerivAt x h
      have hi : HasDerivAt (fun s => (y s).im) v.im x := (Complex.imCLM.hasFDerivAt).comp_hasDerivAt x h
      have : (fun s => ‖y s‖ ^ 2) = fun s => (y s).re * (y s).re + (y s).im * (y s).im := by
        funext s
        rw [Complex.sq_norm, Complex.normSq_apply]
      rw [this]
      exact ((hr.mul hr).add (hi.mul hi)).congr_deriv (by ring)
    have hne : ‖y x‖ ^ 2 ≠ 0 := by positivity
    have h2 := h1.sqrt hne
    have e : (fun s => Real.sqrt (‖y s‖ ^ 2)) = fun s => ‖y s‖ := by
      funext s
      rw [Real.sqrt_sq (norm_nonneg _)]
    rw [e, Real.sqrt_sq (norm_nonneg _)] at h2
    refine (h2.congr_deriv ?_).hasDerivWithinAt
    have : ‖y x‖ ≠ 0 := by positivity
    field_simp

theorem normDeriv_le (y a b : ℂ) : normDeriv y (a * y + b) ≤ a.re * ‖y‖ + ‖b‖ := by
  unfold normDeriv
  split_ifs with h0
  · simp [h0]
  · have hp : 0 < ‖y‖ := norm_pos_iff.2 h0
    have hn : ‖y‖ ^ 2 = y.re * y.re + y.im * y.im := by rw [Complex.sq_norm, Complex.normSq_apply]
    have hb : y.re * b.re + y.im * b.im ≤ ‖y‖ * ‖b‖ := by
      have h1 := Complex.re_le_norm ((starRingEnd ℂ) y * b)
      rw [norm_mul, Complex.norm_conj] at h1
      simp only [Complex.mul_re, Complex.conj_re, Complex.conj_im] at h1
      linarith
    rw [div_le_iff₀ hp]
    simp only [Complex.add_re, Complex.mul_re, Complex.add_im, Complex.mul_im]
    have e : a.re * ‖y‖ * ‖y‖ = a.re * (y.re * y.re + y.im * y.im) := by rw [← hn]; ring
    rw [add_mul, e]
    linarith

/-- If the diagonal elements of the matrix of a linear system of differential equations dominate the columns, with the weights `w` and by `r`, then the weighted sum of the absolute values of the components of any solution
decays with the rate `r`, up to the contribution of the inhomogeneity. -/
theorem weighted_decay {ι : Type*} [Fintype ι] [DecidableEq ι] (w : ι → ℝ) (hw : ∀ k, 0 ≤ w k) (M : ℝ → ι → ι → ℂ) (g : ℝ → ι → ℂ) (r E T : ℝ) (hT : 0 ≤ T)
    (hM : ∀ t, 0 ≤ t → t ≤ T → ∀ j, w j * (M t j j).re + ∑ k ∈ Finset.univ.erase j, w k * ‖M t k j‖ ≤ -r * w j)
    (hg : ∀ t, 0 ≤ t → t ≤ T → ∑ k, w k * ‖g t k‖ ≤ E)
    (y : ℝ → ι → ℂ) (hy : ∀ t, 0 ≤ t → t ≤ T → ∀ k, HasDerivAt (fun s => y s k) (∑ j, M t k j * y t j + g t k) t) :
    ∑ k, w k * ‖y T k‖ ≤ gronwallBound (∑ k, w k * ‖y 0 k‖) (-r) E T := by
  set v : ℝ → ι → ℂ := fun t k => ∑ j, M t k j * y t j + g t k with hv
  have hf : ∀ t, 0 ≤ t → t ≤ T → HasDerivWithinAt (fun s => ∑ k, w k * ‖y s k‖) (∑ k, w k * normDeriv (y t k) (v t k)) (Ici t) t := by
    intro t a b
    have := HasDerivWithinAt.fun_sum (u := Finset.univ) (A := fun k s => w k * ‖y s k‖) (A' := fun k => w k * normDeriv (y t k) (v t k)) (s := Ici t) (x := t)
      fun k _ => (hasDerivWithinAt_norm (hy t a b k)).const_mul (w k)
    exact this
  have hc : ContinuousOn (fun s => ∑ k, w k * ‖y s k‖) (Icc 0 T) := by
    intro t ht
    refine ContinuousAt.continuousWithinAt ?_
    exact tendsto_finsetSum _ fun k _ => ((hy t ht.1 ht.2 k).continuousAt.norm).const_mul (w k)
  have hb : ∀ t, 0 ≤ t → t ≤ T → ∑ k, w k * normDeriv (y t k) (v t k) ≤ -r * ∑ k, w k * ‖y t k‖ + E := by
    intro t a b
    have h1 : ∀ k, w k * normDeriv (y t k) (v t k) ≤ w k * ((M t k k).re * ‖y t k‖) + ∑ j ∈ Finset.univ.erase k, w k * (‖M t k j‖ * ‖y t j‖) + w k * ‖g t k‖ := by
      intro k
      have e : v t k = M t k k * y t k + (∑ j ∈ Finset.univ.erase k, M t k j * y t j + g t k) := by
        simp only [hv]
        rw [← Finset.add_sum_erase _ _ (Finset.mem_univ k), add_assoc]
      rw [e, ← Finset.mul_sum, ← mul_add, ← mul_add]
      refine mul_le_mul_of_nonneg_left ((normDeriv_le _ _ _).trans ?_) (hw k)
      rw [add_assoc]
      refine add_le_add le_rfl ((norm_add_le _ _).trans (add_le_add ((norm_sum_le _ _).trans (le_of_eq ?_)) le_rfl))
      exact Finset.sum_congr rfl fun j _ => norm_mul _ _
    refine (Finset.sum_le_sum fun k _ => h1 k).trans ?_
    rw [Finset.sum_add_distrib, Finset.sum_add_distrib]
    refine add_le_add ?_ (hg t a b)
    have h2 : ∑ k, ∑ j ∈ Finset.univ.erase k, w k * (‖M t k j‖ * ‖y t j‖) = ∑ j, ∑ k ∈ Finset.univ.erase j, w k * (‖M t k j‖ * ‖y t j‖) := by
      refine Finset.sum_comm' fun i j => ?_
      simp [eq_comm]
    rw [h2, ← Finset.sum_add_distrib, Finset.mul_sum]
    refine Finset.sum_le_sum fun j _ => ?_
    have h3 := mul_le_mul_of_nonneg_right (hM t a b j) (norm_nonneg (y t j))
    have h4 : (w j * (M t j j).re + ∑ k ∈ Finset.univ.erase j, w k * ‖M t k j‖) * ‖y t j‖ = w j * ((M t j j).re * ‖y t j‖) + ∑ k ∈ Finset.univ.erase j, w k * (‖M t k j‖ * ‖y t j‖) := by
      rw [add_mul, Finset.sum_mul]
      refine congrArg₂ _ (by ring) (Finset.sum_congr rfl fun k _ => by ring)
    rw [h4] at h3
    linarith
  have := le_gronwallBound_of_liminf_deriv_right_le (f := fun s => ∑ k, w k * ‖y s k‖) (f' := fun t => ∑ k, w k * normDeriv (y t k) (v t k)) (δ := ∑ k, w k * ‖y 0 k‖) (K := -r) (ε := E) (a := 0) (b := T) hc
    (fun t ht r hr => (hf t ht.1 ht.2.le).liminf_right_slope_le hr) le_rfl (fun t ht => hb t ht.1 ht.2.le) T ⟨hT, le_rfl⟩
  rwa [sub_zero] at this

/-- The maximum principle: in a linear system of differential equations whose matrix has no negative elements outside the diagonal and no positive sums of rows, a bound which holds initially holds for ever. -/
theorem max_principle {ι : Type*} [Fintype ι] [DecidableEq ι] [Nonempty ι] (M : ι → ι → ℝ) (hM : ∀ k j, j ≠ k → 0 ≤ M k j) (hr : ∀ k, ∑ j, M k j ≤ 0) (R T : ℝ) (hR : 0 ≤ R) (hT : 0 ≤ T)
    (y : ℝ → ι → ℝ) (hy : ∀ t, 0 ≤ t → t ≤ T → ∀ k, HasDerivAt (fun s => y s k) (∑ j, M k j * y t j) t) (h0 : ∀ k, y 0 k ≤ R) (k : ι) : y T k ≤ R := by
  set f : ℝ → ℝ := fun t => max R (Finset.univ.sup' Finset.univ_nonempty (y t)) with hf
  have hle : ∀ t k, y t k ≤ f t := fun t k => (Finset.le_sup' (y t) (Finset.mem_univ k)).trans (le_max_right _ _)
  have hc : ContinuousOn f (Icc 0 T) := by
    intro t ht
    refine ContinuousAt.continuousWithinAt ?_
    refine continuousAt_const.max ?_
    have : ∀ k, ContinuousAt (fun s => y s k) t := fun k => (hy t ht.1 ht.2 k).continuousAt
    exact ContinuousAt.finset_sup'_apply Finset.univ_nonempty fun k _ => this k
  have hb := le_gronwallBound_of_liminf_deriv_right_le (f := f) (f' := fun _ => 0) (δ := R) (K := 0) (ε := 0) (a := 0) (b := T) hc ?_ ?_ (by simp) T ⟨hT, le_rfl⟩
  · rw [gronwallBound_K0] at hb
    have := hle T k
    linarith
  · intro x hx r hr0
    refine Filter.Eventually.frequently ?_
    have hk : ∀ k, ∀ᶠ z in 𝓝[>] x, y z k < f x + r / 2 * (z - x) := by
      intro k
      have hd := hy x hx.1 hx.2.le k
      rcases lt_or_eq_of_le (hle x k) with hlt | heq
      · have h1 : ∀ᶠ z in 𝓝[>] x, y z k < f x := (hd.continuousAt.eventually_lt continuousAt_const hlt).filter_mono nhdsWithin_le_nhds
        filter_upwards [h1, self_mem_nhdsWithin] with z hz hxz
        have : 0 < r / 2 * (z - x) := mul_pos (by linarith) (sub_pos.2 hxz)
        linarith
      · have hneg : ∑ j, M k j * y x j ≤ 0 := by
          have hk0 : 0 ≤ y x k := by rw [heq]; exact hR.trans (le_max_left _ _)
          calc ∑ j, M k j * y x j ≤ ∑ j, M k j * y x k := by
                refine Finset.sum_le_sum fun j _ => ?_
                by_cases hj : j = k
                · rw [hj]
                · exact mul_le_mul_of_nonneg_left (by rw [heq]; exact hle x j) (hM k j hj)
            _ = (∑ j, M k j) * y x k := by rw [Finset.sum_mul]
            _ ≤ 0 := mul_nonpos_of_nonpos_of_nonneg (hr k) hk0
        have hs := (hasDerivWithinAt_iff_tendsto_slope.1 (hd.hasDerivWithinAt (s := Ici x)))
        have : ∀ᶠ z in 𝓝[Ici x \ {x}] x, slope (fun s => y s k) x z < r / 2 := hs.eventually_lt_const (by linarith)
        rw [show Ici x \ {x} = Ioi x from by ext z; simp [lt_iff_le_and_ne]] at this
        filter_upwards [this, self_mem_nhdsWithin] with z hz hxz
        have hxz' : 0 < z - x := sub_pos.2 hxz
        rw [slope_def_field, div_lt_iff₀ hxz'] at hz
        linarith
    have hall : ∀ᶠ z in 𝓝[>] x, ∀ k, y z k < f x + r / 2 * (z - x) := Filter.eventually_all.2 hk
    filter_upwards [hall, self_mem_nhdsWithin] with z hz hxz
    have hxz' : 0 < z - x := sub_pos.2 hxz
    have hfz : f z ≤ f x + r / 2 * (z - x) := by
      refine max_le ?_ (Finset.sup'_le _ _ fun k _ => (hz k).le)
      have : R ≤ f x := le_max_left _ _
      have : 0 < r / 2 * (z - x) := mul_pos (by linarith) hxz'
      linarith
    rw [inv_mul_lt_iff₀ hxz']
    have : 0 < r * (z - x) := mul_pos hr0 hxz'
    linarith
  · exact max_le le_rfl (Finset.sup'_le _ _ fun k _ => h0 k)

end CppQED.Contraction
