import Verif.Spec.Unravelling
import Verif.Props.MCWF
import Mathlib.Probability.Independence.Integration

/-! # The average over the outcomes of a Monte Carlo step -/

namespace CppQED.Unravel
open MeasureTheory ProbabilityTheory

variable {ι κ Ω : Type*} [Fintype ι] [MeasurableSpace Ω] {μ : Measure Ω} [IsProbabilityMeasure μ] {sample : ℕ → Ω → ℝ}

theorem measurable_selectLoop (rs : List ℝ) : ∀ (no : ℕ), Measurable fun u : ℝ => MCWF.selectLoop rs u no := by
  induction rs with
  | nil => intro no; simp only [MCWF.selectLoop]; exact measurable_id.prodMk measurable_const
  | cons r rs ih =>
    intro no
    simp only [MCWF.selectLoop]
    classical
    exact Measurable.ite (measurableSet_lt measurable_const measurable_id) ((ih (no + 1)).comp (measurable_id.sub_const r)) (measurable_id.prodMk measurable_const)

scoped instance : MeasurableSpace (Option ℕ) := ⊤
scoped instance : MeasurableSingletonClass (Option ℕ) := ⟨fun _ => MeasurableSpace.measurableSet_top⟩

theorem measurable_selectJump (rates : List ℝ) (dt : ℝ) : Measurable fun u : ℝ => MCWF.selectJump rates u dt := by
  classical
  have h := (measurable_selectLoop rates 0).comp (measurable_id.div_const dt)
  have h1 : MeasurableSet {u : ℝ | (MCWF.selectLoop rates (u / dt) 0).1 < 0} := measurableSet_lt h.fst measurable_const
  have h2 : Measurable fun u : ℝ => (some ((MCWF.selectLoop rates (u / dt) 0).2 - 1) : Option ℕ) := (measurable_of_countable (fun m : ℕ => (some (m - 1) : Option ℕ))).comp h.snd
  simp only [MCWF.selectJump]
  exact Measurable.ite h1 h2 measurable_const

/-- A quantity determined by the numbers following the `k`th is independent of the latter. -/
theorem integral_indep (hU : UniformNumbers μ sample) (k b : ℕ) (φ : ℝ → ℂ) (hφ : Measurable φ) (g : (ℕ → ℝ) → ℂ) (hg : Measurable g)
    (hdep : ∀ s s' : ℕ → ℝ, (∀ j, k + 1 ≤ j → j < k + 1 + b → s j = s' j) → g s = g s') :
    ∫ ω, φ (sample k ω) * g (fun j => sample j ω) ∂μ = (∫ ω, φ (sample k ω) ∂μ) * ∫ ω, g (fun j => sample j ω) ∂μ := by
  classical
  let T := Finset.Ico (k + 1) (k + 1 + b)
  let ext : (T → ℝ) → ℕ → ℝ := fun v j => if h : j ∈ T then v ⟨j, h⟩ else 0
  have hext : Measurable ext := by
    refine measurable_pi_lambda _ fun j => ?_
    by_cases h : j ∈ T
    · simp only [ext, h, dite_true]; exact measurable_pi_apply _
    · simp only [ext, h, dite_false]; exact measurable_const
  have hge : ∀ ω, g (fun j => sample j ω) = (g ∘ ext) (fun j : T => sample j ω) := by
    intro ω
    refine hdep _ _ fun j h1 h2 => ?_
    have : j ∈ T := Finset.mem_Ico.2 ⟨h1, h2⟩
    simp [ext, this]
  have hind := hU.independent.indepFun_finset {k} T (by simp [T]) hU.measurable
  have hi : IndepFun (fun ω => φ (sample k ω)) (fun ω => g (fun j => sample j ω)) μ := by
    have := hind.comp (φ := fun v : ({k} : Finset ℕ) → ℝ => φ (v ⟨k, by simp⟩)) (ψ := g ∘ ext) (hφ.comp (measurable_pi_apply _)) (hg.comp hext)
    have e : (fun ω => g (fun j => sample j ω)) = (g ∘ ext) ∘ fun ω (j : T) => sample j ω := funext hge
    rw [e]
    exact this
  have hs : Measurable fun ω => (fun j => sample j ω) := measurable_pi_lambda _ hU.measurable
  exact hi.integral_fun_mul_eq_mul_integral (hφ.comp (hU.measurable k)).aestronglyMeasurable (hg.comp hs).aestronglyMeasurable

open Classical in
theorem integral_outcome (hU : UniformNumbers μ sample) (rates : List ℝ) (dt : ℝ) (k : ℕ) (o : Option ℕ) (p : ℝ) (hp : 0 ≤ p)
    (h : volume {u : ℝ | u ∈ Set.Ico 0 1 ∧ MCWF.selectJump rates u dt = o} = ENNReal.ofReal p) :
    ∫ ω, (if MCWF.selectJump rates (sample k ω) dt = o then (1 : ℂ) else 0) ∂μ = p := by
  have hm : MeasurableSet {u : ℝ | MCWF.selectJump rates u dt = o} := measurable_selectJump rates dt (MeasurableSpace.measurableSet_top (s := {o}))
  have hm' : MeasurableSet {ω | MCWF.selectJump rates (sample k ω) dt = o} := hU.measurable k hm
  have hv : μ {ω | MCWF.selectJump rates (sample k ω) dt = o} = ENNReal.ofReal p := by
    rw [← h, show {u : ℝ | u ∈ Set.Ico 0 1 ∧ MCWF.selectJump rates u dt = o} = {u : ℝ | MCWF.selectJump rates u dt = o} ∩ Set.Ico 0 1 by ext; simp [and_comm],
      ← Measure.restrict_apply hm, ← hU.uniform k, Measure.map_apply (hU.measurable k) hm]
    rfl
  have : (fun ω => if MCWF.selectJump rates (sample k ω) dt = o then (1 : ℂ) else 0) = Set.indicator {ω | MCWF.selectJump rates (sample k ω) dt = o} fun _ => (1 : ℂ) := by
    funext ω; simp [Set.indicator]
  rw [this, integral_indicator hm', setIntegral_const, Measure.real, hv, ENNReal.toReal_ofReal hp]
  simp

theorem integrable_of_bound (hU : UniformNumbers μ sample) (g : (ℕ → ℝ) → ℂ) (hg : Measurable g) (B : ℝ) (hb : ∀ s : ℕ → ℝ, (∀ j, s j ∈ Set.Ico (0 : ℝ) 1) → ‖g s‖ ≤ B) :
    Integrable (fun ω => g (fun j => sample j ω)) μ :=
  Integrable.of_bound (hg.comp (measurable_pi_lambda _ hU.measurable)).aestronglyMeasurable B (Filter.Eventually.of_forall fun ω => hb _ fun j => hU.range j ω)

open Classical in
/-- The average over the outcomes of a step: no jump, or one of the jumps. -/
theorem integral_step (hU : UniformNumbers μ sample) (rates : List ℝ) (hr : ∀ r ∈ rates, 0 ≤ r) (dt : ℝ) (hdt : 0 < dt) (hp : rates.sum * dt ≤ 1) (k b : ℕ)
    (g : Option ℕ → (ℕ → ℝ) → ℂ) (hg : ∀ o, Measurable (g o)) (hdep : ∀ o (s s' : ℕ → ℝ), (∀ j, k + 1 ≤ j → j < k + 1 + b → s j = s' j) → g o s = g o s') (B : ℝ)
    (hb0 : ∀ s : ℕ → ℝ, (∀ j, s j ∈ Set.Ico (0 : ℝ) 1) → ‖g none s‖ ≤ B)
    (hb1 : ∀ i (h : i < rates.length), 0 < rates[i] → ∀ s : ℕ → ℝ, (∀ j, s j ∈ Set.Ico (0 : ℝ) 1) → ‖g (some i) s‖ ≤ B) :
    ∫ ω, g (MCWF.selectJump rates (sample k ω) dt) (fun j => sample j ω) ∂μ =
      (1 - rates.sum * dt : ℝ) * ∫ ω, g none (fun j => sample j ω) ∂μ + ∑ i : Fin rates.length, ((rates[i] * dt : ℝ) : ℂ) * ∫ ω, g (some i) (fun j => sample j ω) ∂μ := by
  let χ : Option ℕ → ℝ → ℂ := fun o u => if MCWF.selectJump rates u dt = o then (1 : ℂ) else 0
  have hχ : ∀ o, Measurable (χ o) := fun o => Measurable.ite (measurable_selectJump rates dt (MeasurableSpace.measurableSet_top (s := {o}))) measurable_const measurable_const
  have hχn : ∀ o u, ‖χ o u‖ ≤ 1 := by intro o u; simp only [χ]; split <;> simp
  have hdec : ∀ ω, g (MCWF.selectJump rates (sample k ω) dt) (fun j => sample j ω) =
      χ none (sample k ω) * g none (fun j => sample j ω) + ∑ i : Fin rates.length, χ (some i) (sample k ω) * g (some i) (fun j => sample j ω) := by
    intro ω
    cases hs : MCWF.selectJump rates (sample k ω) dt with
    | none => simp [χ, hs]
    | some i =>
      have hi := ((MCWF.jump_iff rates hr _ dt (hU.range k ω).1 hdt i).1 hs).1
      rw [Finset.sum_eq_single (⟨i, hi⟩ : Fin rates.length)]
      · simp [χ, hs]
      · intro j _ hj
        have : ¬ i = (j : ℕ) := fun h => hj (Fin.ext h.symm)
        simp [χ, hs, this]
      · simp
  have hI0 : Integrable (fun ω => χ none (sample k ω) * g none (fun j => sample j ω)) μ := by
    refine (integrable_of_bound hU (g none) (hg none) B hb0).bdd_mul (c := 1) ((hχ none).comp (hU.measurable k)).aestronglyMeasurable (Filter.Eventually.of_forall fun ω => hχn _ _)
  have hzero : ∀ i : Fin rates.length, ¬ 0 < rates[i] → ∀ ω, χ (some i) (sample k ω) = 0 := by
    intro i hi ω
    have h0 : rates[i] = 0 := le_antisymm (not_lt.1 hi) (hr _ (List.getElem_mem _))
    simp only [χ]
    rw [if_neg]
    intro hs
    obtain ⟨h1, h2, h3⟩ := (MCWF.jump_iff rates hr _ dt (hU.range k ω).1 hdt i).1 hs
    rw [MCWF.take_succ_sum rates i h1] at h3
    have : rates[(i : ℕ)] = 0 := h0
    rw [this, add_zero] at h3
    exact lt_asymm h2 h3
  have hI1 : ∀ i : Fin rates.length, Integrable (fun ω => χ (some i) (sample k ω) * g (some i) (fun j => sample j ω)) μ := by
    intro i
    by_cases hi : 0 < rates[i]
    · exact (integrable_of_bound hU (g (some i)) (hg _) B (hb1 i i.2 hi)).bdd_mul (c := 1) ((hχ _).comp (hU.measurable k)).aestronglyMeasurable (Filter.Eventually.of_forall fun ω => hχn _ _)
    · simp only [hzero i hi, zero_mul]; exact integrable_zero _ _ _
  simp only [hdec]
  rw [integral_add hI0 (integrable_finsetSum _ fun i _ => hI1 i), integral_finsetSum _ fun i _ => hI1 i]
  congr 1
  · rw [integral_indep hU k b (χ none) (hχ none) (g none) (hg none) (hdep none)]
    simp only [χ]
    rw [integral_outcome hU rates dt k none (1 - rates.sum * dt) (by linarith) (MCWF.no_jump_probability rates hr dt hdt hp)]
  · refine Finset.sum_congr rfl fun i _ => ?_
    rw [integral_indep hU k b (χ (some i)) (hχ _) (g (some i)) (hg _) (hdep _)]
    simp only [χ]
    rw [integral_outcome hU rates dt k (some i) (rates[i] * dt) (mul_nonneg (hr _ (List.getElem_mem _)) hdt.le) (MCWF.jump_probability rates hr dt hdt hp i i.2)]

end CppQED.Unravel
