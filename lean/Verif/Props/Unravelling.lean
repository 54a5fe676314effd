import Verif.Lemmas.Unravelling
import Verif.Props.Ensemble
import Mathlib.Analysis.Calculus.Deriv.Prod
import Mathlib.Probability.StrongLaw
import Mathlib.Probability.Independence.InfinitePi

/-! # Property C115: the ensemble average of Monte Carlo trajectories solves the Master equation -/

namespace CppQED.Unravel
open MeasureTheory ProbabilityTheory Matrix MCWF Filter
open scoped ComplexConjugate Topology

/-- **C115.** The expectation of `|ψ⟩⟨ψ|` at the end of a run up to time `T`, over the random numbers, differs from the solution of the Master equation started from the same state by at most
`C(Dt+ε)`, where `Dt` is the interval between advancements, which limits the steps, and `ε` the relative error of the solver; `C` depends only on the physics and on `T`, not on the method of solution,
the trial steps, `dpLimit`, the initial state, or the number of steps. -/
theorem unravelling.{u, v, w} {ι : Type u} [Fintype ι] (A : Matrix ι ι ℂ) (J : List (Matrix ι ι ℂ)) (hC : Spec.Conserving A J) (c T : ℝ) (hc : 0 ≤ c) (hT : 0 ≤ T) :
    ∃ C, 0 ≤ C ∧ ∀ {κ : Type v} {Ω : Type w} [MeasurableSpace Ω] (μ : Measure Ω) [IsProbabilityMeasure μ] (sample : ℕ → Ω → ℝ), UniformNumbers μ sample →
      ∀ (S : Sys ι κ) (l : Li ι) (L : Lim) (ε Dt : ℝ), WellBehaved S → S.li = some l → Follows S A J c ε Dt → 0 ≤ ε → ε ≤ 1 → 0 < Dt →
      0 < L.dpLimit → 1 ≤ L.overshootTolerance → L.overshootTolerance * L.dpLimit ≤ 1 →
      (S.ex.isSome → ∀ t psi, MCWF.norm psi = 1 → total (effectiveRates l t psi) * Dt ≤ L.overshootTolerance * L.dpLimit) →
      ∀ (psi : ι → ℂ) (ces : κ) (dtInit : ℝ), MCWF.norm psi = 1 → 0 < dtInit →
      ∀ (fuel n N m : ℕ), (∀ s, Unit01 s → (runTo S L s fuel n N T Dt m (construct S L psi ces dtInit)).isSome) →
      ∀ (ρ : ℝ → Matrix ι ι ℂ), Solves A J T ρ → ρ 0 = vecMulVec psi (star psi) →
      ∀ i j, ‖(∫ ω, dyad (runTo S L (fun k => sample k ω) fuel n N T Dt m (construct S L psi ces dtInit)) i j ∂μ) - ρ T i j‖ ≤ C * (Dt + ε) := by
  obtain ⟨K0, hK0, hloc⟩ := step_error A J hC c T hc hT
  obtain ⟨M, hM, hsemi⟩ := semi_bound (gen A J) T
  refine ⟨M * K0 * T, by positivity, ?_⟩
  intro κ Ω _ μ _ sample hU S l L ε Dt hS hl hF hε hε1 hDt hdp htol hprob hno psi ces dtInit hpsi hdt fuel n N m hfin ρ hρ hρ0 i j
  obtain ⟨hinv, hp, ht, -⟩ := construct_inv S L hdp htol psi hpsi ces dtInit hdt
  have hest := runTo_est hU (⟨hS, hl, hdp, htol, hprob, hF, hno⟩ : Setting S l L A J c ε Dt) (⟨hε, hε1, hK0, hM, hsemi, fun τ ψ φ h1 h2 h3 h4 h5 => hloc ε τ ψ φ hε hε1 h1 h2 h3 h4 h5⟩ : Local A J c ε T K0 M)
    fuel n N Dt hDt le_rfl m (construct S L psi ces dtInit) hinv ht.ge (by rw [ht]; exact hT) hfin
  rw [ht, hp, sub_zero] at hest
  have huniq : (ρ T : ι → ι → ℂ) = semi (gen A J) T (outer psi) := by
    have h0 : (ρ 0 : ι → ι → ℂ) = outer psi := by
      rw [hρ0]
      rfl
    rw [← h0]
    refine semi_unique (gen A J) T hT (fun t => (ρ t : ι → ι → ℂ)) fun t h1 h2 => ?_
    refine hasDerivAt_pi.2 fun i => hasDerivAt_pi.2 fun j => ?_
    have := hρ t h1 h2 i j
    rw [lindblad_eq] at this
    exact this
  rw [← huniq] at hest
  have h2 := (norm_le_pi_norm _ j).trans ((norm_le_pi_norm _ i).trans hest)
  refine h2.trans (le_of_eq ?_)
  ring

/-- The law of large numbers for a bounded function of independent streams of independent uniform numbers. -/
theorem streams_mean {Ω : Type*} [MeasurableSpace Ω] {μ : Measure Ω} [IsProbabilityMeasure μ] (sample : ℕ → ℕ → Ω → ℝ) (hU : ∀ n, UniformNumbers μ (sample n))
    (hI : iIndepFun (fun n ω k => sample n k ω) μ) (g : (ℕ → ℝ) → ℂ) (hg : Measurable g) (B : ℝ) (hb : ∀ s, Unit01 s → ‖g s‖ ≤ B) :
    ∀ᵐ ω ∂μ, Tendsto (fun n : ℕ => (n : ℝ)⁻¹ • ∑ k ∈ Finset.range n, g (fun i => sample k i ω)) atTop (𝓝 (∫ ω, g (fun i => sample 0 i ω) ∂μ)) := by
  refine strong_law_ae (fun n ω => g (fun i => sample n i ω)) (integrable_of_bound (hU 0) g hg B hb) ?_ ?_
  · intro a b hab
    exact (hI.indepFun hab).comp hg hg
  · intro n
    have hm : ∀ n, Measurable fun ω k => sample n k ω := fun n => measurable_pi_lambda _ (hU n).measurable
    have hlaw : ∀ n, μ.map (fun ω k => sample n k ω) = Measure.infinitePi fun _ : ℕ => volume.restrict (Set.Ico (0 : ℝ) 1) := by
      intro n
      rw [(hU n).independent.map_fun_eq_infinitePi_map (hU n).measurable]
      congr 1
      funext k
      exact (hU n).uniform k
    have hid : IdentDistrib (fun ω k => sample n k ω) (fun ω k => sample 0 k ω) μ μ := ⟨(hm n).aemeasurable, (hm 0).aemeasurable, by rw [hlaw, hlaw]⟩
    exact hid.comp hg

/-- **C115.** An ensemble: with more and more members, each with its own stream of random numbers, the density operator averaged over the ensemble converges almost surely to a matrix which differs from the solution of the
Master equation by at most `C(Dt+ε)`. -/
theorem ensemble_unravels.{v, w} (shape : List ℕ) (A : Matrix (Fin shape.prod) (Fin shape.prod) ℂ) (J : List (Matrix (Fin shape.prod) (Fin shape.prod) ℂ)) (hC : Spec.Conserving A J) (c T : ℝ)
    (hc : 0 ≤ c) (hT : 0 ≤ T) :
    ∃ C, 0 ≤ C ∧ ∀ {κ : Type v} {Ω : Type w} [MeasurableSpace Ω] (μ : Measure Ω) [IsProbabilityMeasure μ] (sample : ℕ → ℕ → Ω → ℝ), (∀ k, UniformNumbers μ (sample k)) →
      iIndepFun (fun k ω i => sample k i ω) μ →
      ∀ (S : Sys (Fin shape.prod) κ) (l : Li (Fin shape.prod)) (L : Lim) (ε Dt : ℝ), WellBehaved S → S.li = some l → Follows S A J c ε Dt → 0 ≤ ε → ε ≤ 1 → 0 < Dt →
      0 < L.dpLimit → 1 ≤ L.overshootTolerance → L.overshootTolerance * L.dpLimit ≤ 1 →
      (S.ex.isSome → ∀ t psi, MCWF.norm psi = 1 → total (effectiveRates l t psi) * Dt ≤ L.overshootTolerance * L.dpLimit) →
      ∀ (psi : Fin shape.prod → ℂ) (ces : κ) (dtInit : ℝ), MCWF.norm psi = 1 → 0 < dtInit →
      ∀ (fuel n N m : ℕ), (∀ s, Unit01 s → (runTo S L s fuel n N T Dt m (construct S L psi ces dtInit)).isSome) →
      ∀ (ρ : ℝ → Matrix (Fin shape.prod) (Fin shape.prod) ℂ), Solves A J T ρ → ρ 0 = vecMulVec psi (star psi) →
      ∃ R : Matrix (Fin shape.prod) (Fin shape.prod) ℂ, (∀ i j, ‖R i j - ρ T i j‖ ≤ C * (Dt + ε)) ∧
        ∀ rho : CMat.Array, ∀ᵐ ω ∂μ, ∀ i j : Fin shape.prod, Tendsto (fun members : ℕ =>
          QD.matrixView (Ensemble.averageDensity rho (finalArray shape (runTo S L (fun i => sample 0 i ω) fuel n N T Dt m (construct S L psi ces dtInit)))
            ((List.range members).map fun k => finalArray shape (runTo S L (fun i => sample (k + 1) i ω) fuel n N T Dt m (construct S L psi ces dtInit)))) shape.prod i j) atTop (𝓝 (R i j)) := by
  obtain ⟨C, hC0, hmain⟩ := unravelling A J hC c T hc hT
  refine ⟨C, hC0, ?_⟩
  intro κ Ω _ μ _ sample hU hI S l L ε Dt hS hl hF hε hε1 hDt hdp htol hprob hno psi ces dtInit hpsi hdt fuel n N m hfin ρ hρ hρ0
  set run : (ℕ → ℝ) → Option (St (Fin shape.prod) κ) := fun s => runTo S L s fuel n N T Dt m (construct S L psi ces dtInit) with hrun
  refine ⟨fun i j => ∫ ω, dyad (run fun k => sample 0 k ω) i j ∂μ, ?_, ?_⟩
  · exact hmain μ (sample 0) (hU 0) S l L ε Dt hS hl hF hε hε1 hDt hdp htol hprob hno psi ces dtInit hpsi hdt fuel n N m hfin ρ hρ hρ0
  · intro rho
    obtain ⟨hinv, hp, ht, -⟩ := construct_inv S L hdp htol psi hpsi ces dtInit hdt
    have hgood := runTo_good (⟨hS, hl, hdp, htol, hprob, hF, hno⟩ : Setting S l L A J c ε Dt) fuel n N T Dt hDt le_rfl m
    have hall : ∀ᵐ ω ∂μ, ∀ i j : Fin shape.prod, Tendsto (fun n : ℕ => (n : ℝ)⁻¹ • ∑ k ∈ Finset.range n, dyad (run fun i => sample k i ω) i j) atTop (𝓝 (∫ ω, dyad (run fun k => sample 0 k ω) i j ∂μ)) := by
      rw [ae_all_iff]
      intro i
      rw [ae_all_iff]
      intro j
      exact streams_mean sample hU hI (fun s => dyad (run s) i j) (hgood.meas _ i j) 1 fun s hs => hgood.bound _ hinv ht.ge (by rw [ht]; exact hT) s hs i j
    filter_upwards [hall] with ω hω i j
    have h1 := (hω i j).comp (tendsto_add_atTop_nat 1)
    refine h1.congr fun members => ?_
    have harr : ∀ (x : Option (St (Fin shape.prod) κ)), (finalArray shape x).data i * conj ((finalArray shape x).data j) = dyad x i j := by
      intro x
      cases x <;> simp [finalArray, dyad]
    have h2 := Ensemble.averageDensity_eq rho (finalArray shape (run fun i => sample 0 i ω)) ((List.range members).map fun k => finalArray shape (run fun i => sample (k + 1) i ω))
      (by intro phi hphi; obtain ⟨k, _, rfl⟩ := List.mem_map.1 hphi; rfl) i j j.2
    refine Eq.trans ?_ h2.symm
    rw [List.map_cons, List.map_map, List.sum_cons, List.length_cons, List.length_map, List.length_range, harr]
    have h3 : ((List.range members).map ((fun phi : CMat.Array => phi.data i * conj (phi.data j)) ∘ fun k => finalArray shape (run fun i => sample (k + 1) i ω))).sum =
        ∑ k ∈ Finset.range members, dyad (run fun i => sample (k + 1) i ω) i j := by
      simp only [Function.comp_def, harr]
      generalize members = q
      induction q with
      | zero => simp
      | succ q ih => rw [List.range_succ, List.map_append, List.sum_append, ih, Finset.sum_range_succ]; simp
    rw [h3]
    simp only [Function.comp_apply, Finset.sum_range_succ', Complex.real_smul]
    push_cast
    ring

/-! ## Independent uniform numbers exist -/

open Classical in
/-- A number of `[0,1)`. -/
noncomputable def clip (x : ℝ) : ℝ := if x ∈ Set.Ico (0 : ℝ) 1 then x else 0

theorem clip_mem (x : ℝ) : clip x ∈ Set.Ico (0 : ℝ) 1 := by
  unfold clip
  split_ifs with h
  · exact h
  · exact ⟨le_rfl, one_pos⟩

theorem measurable_clip : Measurable clip := by
  classical
  unfold clip
  exact Measurable.ite measurableSet_Ico measurable_id measurable_const

/-- The uniform distribution on `[0,1)`. -/
noncomputable abbrev unif : Measure ℝ := volume.restrict (Set.Ico (0 : ℝ) 1)

instance : IsProbabilityMeasure unif := ⟨by simp [unif]⟩

theorem map_clip : unif.map clip = unif := by
  have : clip =ᵐ[unif] id := by
    refine (ae_restrict_iff' measurableSet_Ico).2 (Eventually.of_forall fun x hx => ?_)
    simp only [clip, id]
    rw [if_pos hx]
  rw [Measure.map_congr this, Measure.map_id]

/-- Independent streams of independent uniform numbers. -/
theorem uniform_streams : ∃ (sample : ℕ → ℕ → (ℕ → ℕ → ℝ) → ℝ) , (∀ k, UniformNumbers (Measure.infinitePi fun _ : ℕ => Measure.infinitePi fun _ : ℕ => unif) (sample k)) ∧
    iIndepFun (fun k ω i => sample k i ω) (Measure.infinitePi fun _ : ℕ => Measure.infinitePi fun _ : ℕ => unif) := by
  refine ⟨fun k i ω => clip (ω k i), fun k => ⟨fun i => ?_, fun i ω => clip_mem _, fun i => ?_, ?_⟩, ?_⟩
  · exact measurable_clip.comp ((measurable_pi_apply i).comp (measurable_pi_apply k))
  · have h1 : (Measure.infinitePi fun _ : ℕ => Measure.infinitePi fun _ : ℕ => unif).map (fun ω => ω k) = Measure.infinitePi fun _ : ℕ => unif := Measure.infinitePi_map_eval _ k
    have h2 : (Measure.infinitePi fun _ : ℕ => unif).map (fun ω => ω i) = unif := Measure.infinitePi_map_eval _ i
    have h3 : (fun ω : ℕ → ℕ → ℝ => clip (ω k i)) = clip ∘ (fun ω : ℕ → ℝ => ω i) ∘ fun ω => ω k := rfl
    change Measure.map (fun ω : ℕ → ℕ → ℝ => clip (ω k i)) _ = unif
    rw [h3, ← Measure.map_map measurable_clip ((measurable_pi_apply i).comp (measurable_pi_apply k)), ← Measure.map_map (measurable_pi_apply i) (measurable_pi_apply k), h1, h2, map_clip]
  · have := iIndepFun_uncurry_infinitePi (X := fun (_ : ℕ) (_ : ℕ) => clip) (fun _ _ => unif) (fun _ _ => measurable_clip)
    exact this.precomp (g := fun i => ⟨k, i⟩) (fun a b h => by simpa using h)
  · exact iIndepFun_infinitePi (X := fun (_ : ℕ) (f : ℕ → ℝ) i => clip (f i)) (fun _ => measurable_pi_lambda _ fun i => measurable_clip.comp (measurable_pi_apply i))

end CppQED.Unravel
