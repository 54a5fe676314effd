import Verif.Lemmas.EnsembleRate
import Verif.Props.Ensemble
import Verif.Props.UnravelCavity
import Verif.Spec.EnsembleRate

/-! # Property C118: the statistical error of ensembles of Monte Carlo trajectories -/

namespace CppQED.Unravel
open MeasureTheory ProbabilityTheory Matrix MCWF
open scoped ComplexConjugate

/-- The density operator of the ensemble is the average of the dyads of its members. -/
theorem ensembleMatrix_eq {κ : Type*} {n : ℕ} (shape : List ℕ) (hn : shape.prod = n) (rho : CMat.Array) (final : ℕ → Option (St (Fin n) κ)) (members : ℕ) (hm : 0 < members) (i j : Fin n) :
    ensembleMatrix shape rho final members i j = (∑ k ∈ Finset.range members, dyad (final k) i j) / members := by
  subst hn
  obtain ⟨q, rfl⟩ : ∃ q, members = q + 1 := ⟨members - 1, by omega⟩
  unfold ensembleMatrix
  rw [Nat.add_sub_cancel]
  have harr : ∀ (x : Option (St (Fin shape.prod) κ)), (finalArray shape x).data i * conj ((finalArray shape x).data j) = dyad x i j := by
    intro x
    cases x <;> simp [finalArray, dyad]
  have h2 := Ensemble.averageDensity_eq rho (finalArray shape (final 0)) ((List.range q).map fun k => finalArray shape (final (k + 1)))
    (by intro phi hphi; obtain ⟨k, _, rfl⟩ := List.mem_map.1 hphi; rfl) i j j.2
  refine h2.trans ?_
  rw [List.map_cons, List.map_map, List.sum_cons, List.length_cons, List.length_map, List.length_range, harr, Finset.sum_range_succ', add_comm]
  congr 2
  simp only [Function.comp_def, harr]
  generalize q = r
  induction r with
  | zero => simp
  | succ r ih => rw [List.range_succ, List.map_append, List.sum_append, ih, Finset.sum_range_succ]; simp

variable {n : ℕ} {S : Master.Sys n} {rates : ℝ → (Fin n → ℂ) → List ℝ} {A : Matrix (Fin n) (Fin n) ℂ} {J : List (Matrix (Fin n) (Fin n) ℂ)}

/-- **C118.** The mean square error of the expectation value of any operator `O` in the density operator of an ensemble: a statistical part, which is at most `B²` divided by the number of members, `B` being a bound
on the expectation values of `O` in states of norm one; and a systematic part, proportional to the square of the longest allowed step and the error of the stepper, which is independent of the number of members. Hence a bound on the probability that
the error is larger than a given one. -/
theorem Unravels.ensemble_error.{v, w} (h : Unravels.{v, w} S rates A J) (T : ℝ) (hT : 0 ≤ T) :
    ∃ C Γ, 0 ≤ C ∧ 0 ≤ Γ ∧ ∀ {κ : Type v} {Ω : Type w} [MeasurableSpace Ω] (μ : Measure Ω) [IsProbabilityMeasure μ] (sample : ℕ → ℕ → Ω → ℝ), (∀ k, UniformNumbers μ (sample k)) →
      iIndepFun (fun k ω i => sample k i ω) μ →
      ∀ (make : (ℝ → (Fin n → ℂ) → Fin n → ℂ) → ODE.Stepper (Fin n → ℂ) κ) (L : Lim) (ε Dt : ℝ),
      (S.ha.isSome → ∀ t0, GoodStepper (make (S.rhs t0)) (S.rhs t0) ε) → 0 ≤ ε → ε ≤ 1 → 0 < Dt → Dt ≤ 1 →
      0 < L.dpLimit → 1 ≤ L.overshootTolerance → L.overshootTolerance * L.dpLimit ≤ 1 → (S.ex.isSome → Γ * Dt ≤ L.overshootTolerance * L.dpLimit) →
      ∀ (psi : Fin n → ℂ) (ces : κ) (dtInit : ℝ), MCWF.norm psi = 1 → 0 < dtInit →
      ∀ (fuel m N k : ℕ), (∀ s : ℕ → ℝ, (∀ k, 0 ≤ s k ∧ s k < 1) → (runTo (S.toMCWF make rates) L s fuel m N T Dt k (construct (S.toMCWF make rates) L psi ces dtInit)).isSome) →
      ∀ (ρ : ℝ → Matrix (Fin n) (Fin n) ℂ), Solves A J T ρ → ρ 0 = vecMulVec psi (star psi) →
      ∀ (shape : List ℕ), shape.prod = n → ∀ (rho : CMat.Array) (members : ℕ), 0 < members →
      ∀ (O : Matrix (Fin n) (Fin n) ℂ) (B : ℝ), (∀ φ : Fin n → ℂ, MCWF.norm φ = 1 → ‖star φ ⬝ᵥ (O *ᵥ φ)‖ ≤ B) →
        let R := fun ω => ensembleMatrix shape rho (fun q => runTo (S.toMCWF make rates) L (fun i => sample q i ω) fuel m N T Dt k (construct (S.toMCWF make rates) L psi ces dtInit)) members
        ∫ ω, ‖(O * R ω).trace - (O * ρ T).trace‖ ^ 2 ∂μ ≤ B ^ 2 / members + ((∑ i, ∑ j, ‖O i j‖) * (C * (Dt + ε))) ^ 2 ∧
        ∀ a : ℝ, 0 < a → μ.real {ω | a ≤ ‖(O * R ω).trace - (O * ρ T).trace‖} ≤ (B ^ 2 / members + ((∑ i, ∑ j, ‖O i j‖) * (C * (Dt + ε))) ^ 2) / a ^ 2 := by
  obtain ⟨C, Γ, hC, hΓ, hmean⟩ := h.mean T hT
  refine ⟨C, Γ, hC, hΓ, ?_⟩
  intro κ Ω _ μ _ sample hU hI make L ε Dt hst hε hε1 hDt hDt1 hdp htol hprob hno psi ces dtInit hpsi hdt fuel m N k hfin ρ hρ hρ0 shape hshape rho members hmem O B hB R
  set run : (ℕ → ℝ) → Option (St (Fin n) κ) := fun s => runTo (S.toMCWF make rates) L s fuel m N T Dt k (construct (S.toMCWF make rates) L psi ces dtInit) with hrun
  have hm := hmean μ (sample 0) (hU 0) make L ε Dt hst hε hε1 hDt hDt1 hdp htol hprob hno psi ces dtInit hpsi hdt fuel m N k hfin ρ hρ hρ0
  have hmeas : ∀ i j, Measurable fun s => dyad (run s) i j := fun i j => runTo_measurable _ L fuel m N T Dt k _ i j
  have hnorm : ∀ s, Unit01 s → ∃ x, run s = some x ∧ MCWF.norm x.psi = 1 := by
    intro s hs
    obtain ⟨x, hx⟩ := Option.isSome_iff_exists.1 (hfin s hs)
    exact ⟨x, hx, (h.normalised make L ε Dt T hst hDt hdp htol hT psi ces dtInit hpsi hdt fuel m N k s hs x hx).2⟩
  set g : (ℕ → ℝ) → ℂ := fun s => ∑ i, ∑ j, O i j * dyad (run s) j i with hg
  have hgm : Measurable g := Finset.measurable_fun_sum _ fun i _ => Finset.measurable_fun_sum _ fun j _ => (hmeas j i).const_mul _
  have hgb : ∀ s, Unit01 s → ‖g s‖ ≤ B := by
    intro s hs
    obtain ⟨x, hx, hx1⟩ := hnorm s hs
    have : g s = star x.psi ⬝ᵥ (O *ᵥ x.psi) := by
      simp only [hg, hx, dyad, dotProduct, Matrix.mulVec, Pi.star_apply, Finset.mul_sum, starRingEnd_apply]
      refine Finset.sum_congr rfl fun i _ => Finset.sum_congr rfl fun j _ => by ring
    rw [this]
    exact hB _ hx1
  have hv := streams_variance sample hU hI g hgm B hgb ((O * ρ T).trace) members hmem
  have hdy : ∀ i j, Integrable (fun ω => dyad (run fun q => sample 0 q ω) i j) μ := by
    intro i j
    refine integrable_of_bound (hU 0) (fun s => dyad (run s) i j) (hmeas i j) 1 fun s hs => ?_
    obtain ⟨x, hx, hx1⟩ := hnorm s hs
    rw [hx]
    exact dyad_bound x hx1 i j
  have hbias : ‖(∫ ω, g (fun q => sample 0 q ω) ∂μ) - (O * ρ T).trace‖ ≤ (∑ i, ∑ j, ‖O i j‖) * (C * (Dt + ε)) := by
    have h1 : (∫ ω, g (fun q => sample 0 q ω) ∂μ) = ∑ i, ∑ j, O i j * ∫ ω, dyad (run fun q => sample 0 q ω) j i ∂μ := by
      simp only [hg]
      have hint : ∀ i j, Integrable (fun ω => O i j * dyad (run fun q => sample 0 q ω) j i) μ := fun i j => (hdy j i).const_mul _
      rw [integral_finset_sum _ fun i _ => integrable_finset_sum _ fun j _ => hint i j]
      refine Finset.sum_congr rfl fun i _ => ?_
      rw [integral_finset_sum _ fun j _ => hint i j]
      exact Finset.sum_congr rfl fun j _ => integral_const_mul _ _
    have h2 : (O * ρ T).trace = ∑ i, ∑ j, O i j * ρ T j i := by simp [Matrix.trace, Matrix.mul_apply]
    rw [h1, h2, ← Finset.sum_sub_distrib, Finset.sum_mul]
    refine (norm_sum_le _ _).trans (Finset.sum_le_sum fun i _ => ?_)
    rw [← Finset.sum_sub_distrib, Finset.sum_mul]
    refine (norm_sum_le _ _).trans (Finset.sum_le_sum fun j _ => ?_)
    rw [← mul_sub, norm_mul]
    exact mul_le_mul_of_nonneg_left (hm j i) (_root_.norm_nonneg _)
  have hsum : ∀ ω, (O * ensembleMatrix shape rho (fun q => run fun i => sample q i ω) members).trace = (∑ q ∈ Finset.range members, g fun i => sample q i ω) / members := by
    intro ω
    simp only [Matrix.trace, Matrix.diag_apply, Matrix.mul_apply, hg]
    simp only [ensembleMatrix_eq shape hshape rho _ members hmem]
    have hc : ∀ f : ℕ → Fin n → Fin n → ℂ, ∑ q ∈ Finset.range members, ∑ i, ∑ j, f q i j = ∑ i, ∑ j, ∑ q ∈ Finset.range members, f q i j := fun f => by
      rw [Finset.sum_comm]
      exact Finset.sum_congr rfl fun i _ => Finset.sum_comm
    rw [hc, Finset.sum_div]
    refine Finset.sum_congr rfl fun i _ => ?_
    rw [Finset.sum_div]
    refine Finset.sum_congr rfl fun j _ => ?_
    rw [← Finset.mul_sum, mul_div_assoc]
  have hR : ∀ ω, R ω = ensembleMatrix shape rho (fun q => run fun i => sample q i ω) members := fun ω => rfl
  have hbias2 := pow_le_pow_left₀ (_root_.norm_nonneg _) hbias 2
  simp only [hR, hsum]
  refine ⟨hv.trans (by linarith), fun a ha => (streams_probability sample hU hI g hgm B hgb ((O * ρ T).trace) members hmem a ha).trans ?_⟩
  gcongr

/-- **C118.** The elements of the density operator. -/
theorem Unravels.ensemble_elements.{v, w} (h : Unravels.{v, w} S rates A J) (T : ℝ) (hT : 0 ≤ T) :
    ∃ C Γ, 0 ≤ C ∧ 0 ≤ Γ ∧ ∀ {κ : Type v} {Ω : Type w} [MeasurableSpace Ω] (μ : Measure Ω) [IsProbabilityMeasure μ] (sample : ℕ → ℕ → Ω → ℝ), (∀ k, UniformNumbers μ (sample k)) →
      iIndepFun (fun k ω i => sample k i ω) μ →
      ∀ (make : (ℝ → (Fin n → ℂ) → Fin n → ℂ) → ODE.Stepper (Fin n → ℂ) κ) (L : Lim) (ε Dt : ℝ),
      (S.ha.isSome → ∀ t0, GoodStepper (make (S.rhs t0)) (S.rhs t0) ε) → 0 ≤ ε → ε ≤ 1 → 0 < Dt → Dt ≤ 1 →
      0 < L.dpLimit → 1 ≤ L.overshootTolerance → L.overshootTolerance * L.dpLimit ≤ 1 → (S.ex.isSome → Γ * Dt ≤ L.overshootTolerance * L.dpLimit) →
      ∀ (psi : Fin n → ℂ) (ces : κ) (dtInit : ℝ), MCWF.norm psi = 1 → 0 < dtInit →
      ∀ (fuel m N k : ℕ), (∀ s : ℕ → ℝ, (∀ k, 0 ≤ s k ∧ s k < 1) → (runTo (S.toMCWF make rates) L s fuel m N T Dt k (construct (S.toMCWF make rates) L psi ces dtInit)).isSome) →
      ∀ (ρ : ℝ → Matrix (Fin n) (Fin n) ℂ), Solves A J T ρ → ρ 0 = vecMulVec psi (star psi) →
      ∀ (shape : List ℕ), shape.prod = n → ∀ (rho : CMat.Array) (members : ℕ), 0 < members → ∀ i j,
        let R := fun ω => ensembleMatrix shape rho (fun q => runTo (S.toMCWF make rates) L (fun i => sample q i ω) fuel m N T Dt k (construct (S.toMCWF make rates) L psi ces dtInit)) members
        ∫ ω, ‖R ω i j - ρ T i j‖ ^ 2 ∂μ ≤ 1 / members + (C * (Dt + ε)) ^ 2 ∧
        ∀ a : ℝ, 0 < a → μ.real {ω | a ≤ ‖R ω i j - ρ T i j‖} ≤ (1 / members + (C * (Dt + ε)) ^ 2) / a ^ 2 := by
  obtain ⟨C, Γ, hC, hΓ, hmain⟩ := h.ensemble_error T hT
  refine ⟨C, Γ, hC, hΓ, ?_⟩
  intro κ Ω _ μ _ sample hU hI make L ε Dt hst hε hε1 hDt hDt1 hdp htol hprob hno psi ces dtInit hpsi hdt fuel m N k hfin ρ hρ hρ0 shape hshape rho members hmem i j R
  have h1 := hmain μ sample hU hI make L ε Dt hst hε hε1 hDt hDt1 hdp htol hprob hno psi ces dtInit hpsi hdt fuel m N k hfin ρ hρ hρ0 shape hshape rho members hmem (Matrix.single j i 1) 1 ?_
  · have ht : ∀ X : Matrix (Fin n) (Fin n) ℂ, (Matrix.single j i 1 * X).trace = X i j := by
      intro X
      rw [Matrix.trace_single_mul]
      simp
    have hs : ∑ a, ∑ b, ‖Matrix.single j i (1 : ℂ) a b‖ = 1 := by
      rw [Finset.sum_eq_single j, Finset.sum_eq_single i]
      · simp
      · intro b _ hb
        simp [Matrix.single, hb.symm]
      · simp
      · intro a _ ha
        refine Finset.sum_eq_zero fun b _ => ?_
        simp [Matrix.single, ha.symm]
      · simp
    simp only [ht, hs, one_mul, one_pow] at h1
    exact h1
  · intro φ hφ
    have : star φ ⬝ᵥ (Matrix.single j i 1 *ᵥ φ) = star (φ j) * φ i := by
      simp only [dotProduct, Matrix.mulVec, Matrix.single, Matrix.of_apply, Pi.star_apply]
      rw [Finset.sum_eq_single j, Finset.sum_eq_single i]
      · simp
      · intro b _ hb
        simp [hb.symm]
      · simp
      · intro a _ ha
        rw [Finset.sum_eq_zero fun b _ => by simp [ha.symm], mul_zero]
      · simp
    rw [this, norm_mul, norm_star]
    have h1 := norm_apply_le φ hφ i
    have h2 := norm_apply_le φ hφ j
    nlinarith [_root_.norm_nonneg (φ i), _root_.norm_nonneg (φ j)]

/-- **C118.** There are random numbers, steppers, time steps and ensemble sizes as supposed above, such that each element of the density operator of the ensemble is as near to the solution of the Master equation as one likes, with a
probability as near to one as one likes. -/
theorem Unravels.ensemble_near (h : Unravels.{0, 0} S rates A J) (T : ℝ) (hT : 0 ≤ T) (psi : Fin n → ℂ) (hpsi : MCWF.norm psi = 1) (shape : List ℕ) (hshape : shape.prod = n) (rho : CMat.Array)
    (δ η : ℝ) (hδ : 0 < δ) (hη : 0 < η) :
    ∃ (κ : Type) (make : (ℝ → (Fin n → ℂ) → Fin n → ℂ) → ODE.Stepper (Fin n → ℂ) κ) (ces : κ) (μ : Measure (ℕ → ℕ → ℝ)) (sample : ℕ → ℕ → (ℕ → ℕ → ℝ) → ℝ) (L : Lim) (Dt : ℝ) (k members : ℕ)
      (ρ : ℝ → Matrix (Fin n) (Fin n) ℂ), (∀ q, UniformNumbers μ (sample q)) ∧ iIndepFun (fun q ω i => sample q i ω) μ ∧ Solves A J T ρ ∧ ρ 0 = vecMulVec psi (star psi) ∧
      ∀ i j, μ.real {ω | δ ≤ ‖ensembleMatrix shape rho (fun q => runTo (S.toMCWF make rates) L (fun i => sample q i ω) 1 0 1 T Dt k (construct (S.toMCWF make rates) L psi ces 1)) members i j - ρ T i j‖} ≤ η := by
  obtain ⟨C, Γ, hC, hΓ, hmain⟩ := h.ensemble_elements T hT
  obtain ⟨Γ', κ, make, hΓ', ⟨ces⟩, hgood, harr⟩ := h.attained
  obtain ⟨sample, hs, hI⟩ := uniform_streams
  obtain ⟨ρ, hρ, hρ0⟩ := solution_exists A J T (vecMulVec psi (star psi))
  have hlim : Filter.Tendsto (fun q : ℕ => (1 / ((q : ℝ) + 1) + (C * (1 / ((q : ℝ) + 1) + 0)) ^ 2) / δ ^ 2) Filter.atTop (nhds ((0 + (C * (0 + 0)) ^ 2) / δ ^ 2)) := by
    have h0 := tendsto_one_div_add_atTop_nhds_zero_nat (𝕜 := ℝ)
    exact (h0.add (((h0.add_const 0).const_mul C).pow 2)).div_const _
  have hev := hlim.eventually (gt_mem_nhds (show (0 + (C * (0 + 0)) ^ 2) / δ ^ 2 < η by simpa using hη))
  obtain ⟨q, hq1, hq2⟩ := (hev.and (Filter.eventually_ge_atTop ⌈2 * (Γ + Γ')⌉₊)).exists
  have hqpos : (0 : ℝ) < (q : ℝ) + 1 := by positivity
  have hΓq : 2 * (Γ + Γ') ≤ (q : ℝ) + 1 := by
    have := Nat.le_ceil (2 * (Γ + Γ'))
    have h2 : ((⌈2 * (Γ + Γ')⌉₊ : ℕ) : ℝ) ≤ q := by exact_mod_cast hq2
    linarith
  obtain ⟨k, hk⟩ := exists_nat_ge (T * ((q : ℝ) + 1))
  have hD1 : 1 / ((q : ℝ) + 1) ≤ 1 := by rw [div_le_one hqpos]; linarith [Nat.cast_nonneg (α := ℝ) q]
  refine ⟨κ, make, ces, _, sample, ⟨1 / 2, 2⟩, 1 / ((q : ℝ) + 1), k, q + 1, ρ, hs, hI, hρ, hρ0, fun i j => ?_⟩
  have hf := harr ⟨1 / 2, 2⟩ (1 / ((q : ℝ) + 1)) T (by positivity) hD1 (by norm_num) (by norm_num) (by rw [mul_one_div, div_le_iff₀ hqpos]; norm_num; linarith) psi ces 1 hpsi hD1 1 0 k one_pos
    (by rw [mul_one_div, le_div_iff₀ hqpos]; exact hk)
  have h1 := (hmain _ sample hs hI make ⟨1 / 2, 2⟩ 0 (1 / ((q : ℝ) + 1)) hgood le_rfl zero_le_one (by positivity) hD1 (by norm_num) (by norm_num) (by norm_num)
    (fun _ => by rw [mul_one_div, div_le_iff₀ hqpos]; norm_num; linarith) psi ces 1 hpsi one_pos 1 0 1 k hf ρ hρ hρ0 shape hshape rho (q + 1) (Nat.succ_pos q) i j).2 δ hδ
  refine h1.trans ?_
  push_cast
  exact hq1.le

open CppQED.Composite CppQED.Spec CppQED.PTrace CppQED.Slice CppQED.Interactions CppQED.Elem in
/-- An ensemble of trajectories of a pumped lossy qbit in a pumped lossy cavity, in interaction picture. -/
example (T δ η : ℝ) (hT : 0 ≤ T) (hδ : 0 < δ) (hη : 0 < η) : ∃ (e0 e1 : Element) (ia : Part) (n : ℕ) (en : Enum (binary e0 e1 ia).lb (binary e0 e1 ia).ub n), QbitEl.make ⟨-10, 2, 0, Complex.I⟩ .ip = .ok e0 ∧
    ModeEl.makePumpedLossy ⟨10, 1, 0, 0, 2, 0, 3⟩ .ip = .ok e1 ∧ ∀ psi : Fin n → ℂ, MCWF.norm psi = 1 → ∃ (κ : Type) (make : (ℝ → (Fin n → ℂ) → Fin n → ℂ) → ODE.Stepper (Fin n → ℂ) κ) (ces : κ)
      (μ : Measure (ℕ → ℕ → ℝ)) (sample : ℕ → ℕ → (ℕ → ℕ → ℝ) → ℝ) (L : Lim) (Dt : ℝ) (k members : ℕ) (ρ : ℝ → Matrix (Fin n) (Fin n) ℂ), (∀ q, UniformNumbers μ (sample q)) ∧
        iIndepFun (fun q ω i => sample q i ω) μ ∧
        Solves (boxMat en fun i j => tensor (qbitH 2 (-10) Complex.I) Spec.one i j + tensor Spec.one (modeH 2 1 3) i j + jcH (1 + Complex.I) sigma sigmaDag i j)
          ((modeJ 2 0).map (fun j => boxMat en (tensor j Spec.one)) ++ (modeJ 2 0).map (fun j => boxMat en (tensor Spec.one j))) T ρ ∧ ρ 0 = vecMulVec psi (star psi) ∧
        ∀ i j, μ.real {ω | δ ≤ ‖ensembleMatrix [n] ⟨[n, n], fun _ => 0⟩ (fun q => runTo (((binary e0 e1 ia).toSys (fun _ => true) en).toMCWF make ((binary e0 e1 ia).mcwfRates en)) L (fun i => sample q i ω) 1 0 1 T Dt k
          (construct (((binary e0 e1 ia).toSys (fun _ => true) en).toMCWF make ((binary e0 e1 ia).mcwfRates en)) L psi ces 1)) members i j - ρ T i j‖} ≤ η := by
  obtain ⟨e0, e1, ia, h1, h2, -, h4⟩ := jaynesCummings_unravels.{0, 0} ⟨-10, 2, 0, Complex.I⟩ ⟨10, 1, 0, 0, 2, 0, 3⟩ (1 + Complex.I) .ip .ip (by simp) (by norm_num) (by norm_num) (by norm_num)
    (by norm_num) rfl rfl rfl (Or.inl (by norm_num))
  let en : Enum (binary e0 e1 ia).lb (binary e0 e1 ia).ub _ := (Spec.boxFinset (binary e0 e1 ia).lb (binary e0 e1 ia).ub).equivFin.symm
  exact ⟨e0, e1, ia, _, en, h1, h2, fun psi hpsi => (h4 _ _ en).ensemble_near T hT psi hpsi [_] (by simp) _ δ η hδ hη⟩

end CppQED.Unravel
