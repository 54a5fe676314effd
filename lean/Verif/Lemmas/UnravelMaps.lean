import Verif.Spec.Unravelling
import Verif.Lemmas.UnravelEstimate
import Verif.Lemmas.MCWF
import Mathlib.Analysis.Complex.Basic
import Mathlib.Analysis.RCLike.Basic
import Mathlib.Topology.Algebra.Module.FiniteDimension

/-! # The Master equation as a linear map, and the average of the dyads after a Monte Carlo step -/

namespace CppQED.Unravel
open Matrix
open scoped ComplexConjugate

variable {ι κ : Type*} [Fintype ι]

/-- `|ψ⟩⟨ψ|`. -/
def outer (ψ : ι → ℂ) : ι → ι → ℂ := fun i j => ψ i * conj (ψ j)

/-- The coherent part of the Master equation. -/
noncomputable def cohMap (A : Matrix ι ι ℂ) : (ι → ι → ℂ) →L[ℝ] (ι → ι → ℂ) := LinearMap.toContinuousLinearMap
  { toFun := fun X => A * Matrix.of X + Matrix.of X * Aᴴ
    map_add' := by intro X Y; change A * (Matrix.of X + Matrix.of Y) + (Matrix.of X + Matrix.of Y) * Aᴴ = _; rw [mul_add, add_mul]; change _ = (A * Matrix.of X + Matrix.of X * Aᴴ) + (A * Matrix.of Y + Matrix.of Y * Aᴴ); abel
    map_smul' := by
      intro a X
      change A * (a • Matrix.of X) + (a • Matrix.of X) * Aᴴ = a • (A * Matrix.of X + Matrix.of X * Aᴴ)
      rw [mul_smul_comm, smul_mul_assoc, smul_add] }

/-- The jump part of the Master equation for one jump. -/
noncomputable def jumpMap (j : Matrix ι ι ℂ) : (ι → ι → ℂ) →L[ℝ] (ι → ι → ℂ) := LinearMap.toContinuousLinearMap
  { toFun := fun X => j * Matrix.of X * jᴴ
    map_add' := by intro X Y; change j * (Matrix.of X + Matrix.of Y) * jᴴ = _; rw [mul_add, add_mul]; rfl
    map_smul' := by
      intro a X
      change j * (a • Matrix.of X) * jᴴ = a • (j * Matrix.of X * jᴴ)
      rw [mul_smul_comm, smul_mul_assoc] }

/-- The jump part of the Master equation. -/
noncomputable def jumpsMap (J : List (Matrix ι ι ℂ)) : (ι → ι → ℂ) →L[ℝ] (ι → ι → ℂ) := (J.map jumpMap).sum

noncomputable def trMap : (ι → ι → ℂ) →L[ℝ] ℂ := LinearMap.toContinuousLinearMap
  { toFun := fun X => ∑ i, X i i
    map_add' := by intro X Y; simp [Finset.sum_add_distrib]
    map_smul' := by intro a X; simp [Finset.mul_sum] }

theorem cohMap_apply (A : Matrix ι ι ℂ) (X : ι → ι → ℂ) : cohMap A X = A * Matrix.of X + Matrix.of X * Aᴴ := rfl
theorem jumpMap_apply (j : Matrix ι ι ℂ) (X : ι → ι → ℂ) : jumpMap j X = j * Matrix.of X * jᴴ := rfl
theorem trMap_apply (X : ι → ι → ℂ) : trMap X = ∑ i, X i i := rfl

theorem jumpsMap_apply (J : List (Matrix ι ι ℂ)) (X : ι → ι → ℂ) : jumpsMap J X = (J.map fun j => jumpMap j X).sum := by
  unfold jumpsMap
  induction J with
  | nil => simp
  | cons j J ih => simp only [List.map_cons, List.sum_cons, ContinuousLinearMap.add_apply, ih]

theorem lindblad_eq (A : Matrix ι ι ℂ) (J : List (Matrix ι ι ℂ)) (X : Matrix ι ι ℂ) : Spec.lindblad A J X = (cohMap A + jumpsMap J) X := by
  have h : (J.map fun j => j * X * jᴴ).sum = jumpsMap J X := (jumpsMap_apply J X).symm
  unfold Spec.lindblad
  rw [h]
  rfl

/-- Conservation of probability. -/
theorem tr_coh (A : Matrix ι ι ℂ) (J : List (Matrix ι ι ℂ)) (hC : Spec.Conserving A J) (X : ι → ι → ℂ) : trMap (cohMap A X) = -(trMap.comp (jumpsMap J)) X := by
  have h1 : trMap (cohMap A X) = ((A + Aᴴ) * Matrix.of X).trace := by
    rw [cohMap_apply]
    change (A * Matrix.of X + Matrix.of X * Aᴴ).trace = _
    rw [Matrix.trace_add, Matrix.trace_mul_comm (Matrix.of X), ← Matrix.trace_add, add_mul]
  have h2 : (trMap.comp (jumpsMap J)) X = ((J.map fun j => jᴴ * j).sum * Matrix.of X).trace := by
    rw [ContinuousLinearMap.comp_apply, jumpsMap_apply]
    clear hC
    induction J with
    | nil => simp
    | cons j J ih =>
      simp only [List.map_cons, List.sum_cons, map_add, ih, add_mul, Matrix.trace_add]
      congr 1
      rw [jumpMap_apply]
      change (j * Matrix.of X * jᴴ).trace = _
      rw [Matrix.trace_mul_comm, ← mul_assoc]
  rw [h1, h2, hC, neg_mul, Matrix.trace_neg]

theorem outer_mulVec (j : Matrix ι ι ℂ) (ψ : ι → ℂ) : outer (j *ᵥ ψ) = jumpMap j (outer ψ) := by
  rw [jumpMap_apply]
  funext a b
  have h1 : j * Matrix.of (outer ψ) = Matrix.vecMulVec (j *ᵥ ψ) (star ψ) := by
    rw [← Matrix.mul_vecMulVec]; rfl
  have h2 : (j * Matrix.of (outer ψ)) * jᴴ = Matrix.vecMulVec (j *ᵥ ψ) (star (j *ᵥ ψ)) := by
    rw [h1, Matrix.vecMulVec_mul, Matrix.star_mulVec]
  rw [h2]
  rfl

theorem cohMap_outer (A : Matrix ι ι ℂ) (ψ : ι → ℂ) : cohMap A (outer ψ) = fun i j => (A *ᵥ ψ) i * conj (ψ j) + ψ i * conj ((A *ᵥ ψ) j) := by
  rw [cohMap_apply]
  have h1 : A * Matrix.of (outer ψ) = Matrix.vecMulVec (A *ᵥ ψ) (star ψ) := by rw [← Matrix.mul_vecMulVec]; rfl
  have h2 : Matrix.of (outer ψ) * Aᴴ = Matrix.vecMulVec ψ (star (A *ᵥ ψ)) := by
    rw [show Matrix.of (outer ψ) = Matrix.vecMulVec ψ (star ψ) from rfl, Matrix.vecMulVec_mul, Matrix.star_mulVec]
  rw [h1, h2]
  rfl

theorem tr_outer (ψ : ι → ℂ) : trMap (outer ψ) = ((MCWF.norm ψ ^ 2 : ℝ) : ℂ) := by
  rw [trMap_apply, MCWF.norm_sq, Complex.ofReal_sum]
  exact Finset.sum_congr rfl fun i _ => Complex.mul_conj _

theorem norm_apply_le (ψ : ι → ℂ) (h : MCWF.norm ψ = 1) (i : ι) : ‖ψ i‖ ≤ 1 := by
  have h1 := MCWF.norm_sq ψ
  rw [h] at h1
  have h2 : Complex.normSq (ψ i) ≤ ∑ i, Complex.normSq (ψ i) := Finset.single_le_sum (f := fun i => Complex.normSq (ψ i)) (fun j _ => Complex.normSq_nonneg _) (Finset.mem_univ i)
  rw [← h1, Complex.normSq_eq_norm_sq] at h2
  nlinarith [norm_nonneg (ψ i)]

theorem norm_outer_le (ψ : ι → ℂ) (h : MCWF.norm ψ = 1) : ‖outer ψ‖ ≤ 1 := by
  refine (pi_norm_le_iff_of_nonneg zero_le_one).2 fun i => (pi_norm_le_iff_of_nonneg zero_le_one).2 fun j => ?_
  rw [outer, norm_mul, RCLike.norm_conj]
  exact mul_le_one₀ (norm_apply_le ψ h i) (norm_nonneg _) (norm_apply_le ψ h j)

theorem outer_renorm (φ : ι → ℂ) : trMap (outer φ) • outer (MCWF.renorm φ) = outer φ := by
  by_cases h : φ = 0
  · subst h; funext i j; simp [outer, MCWF.renorm, MCWF.divBy]
  have hn := (MCWF.norm_pos_iff φ).2 h
  have hc : ((MCWF.norm φ : ℝ) : ℂ) ≠ 0 := Complex.ofReal_ne_zero.2 hn.ne'
  rw [tr_outer]
  funext i j
  simp only [Pi.smul_apply, smul_eq_mul, outer, MCWF.renorm, MCWF.divBy, map_div₀, Complex.conj_ofReal]
  push_cast
  field_simp

/-- The error of the dyad after the coherent part of a step. -/
theorem outer_error (A : Matrix ι ι ℂ) (c T : ℝ) (hc : 0 ≤ c) (hT : 0 ≤ T) : ∃ c1, 0 ≤ c1 ∧ ∀ (ε τ : ℝ) (ψ φ : ι → ℂ), 0 ≤ ε → ε ≤ 1 → 0 ≤ τ → τ ≤ T → MCWF.norm ψ = 1 →
    (∀ i, ‖φ i - (ψ i + τ * (A *ᵥ ψ) i)‖ ≤ c * τ ^ 2 + ε * τ) →
    ‖outer φ - (outer ψ + τ • cohMap A (outer ψ))‖ ≤ c1 * (τ ^ 2 + ε * τ) := by
  let a : ℝ := ∑ i, ∑ j, ‖A i j‖
  have ha : 0 ≤ a := Finset.sum_nonneg fun i _ => Finset.sum_nonneg fun j _ => norm_nonneg _
  let B := 1 + T * a + (c + 1) * (T ^ 2 + T)
  have hB : 0 ≤ B := by positivity
  refine ⟨a ^ 2 + (c + 1) * B + B * (c + 1), by positivity, ?_⟩
  intro ε τ ψ φ hε hε1 hτ hτT hψ hφ
  have hA : ∀ i, ‖(A *ᵥ ψ) i‖ ≤ a := by
    intro i
    calc ‖(A *ᵥ ψ) i‖ = ‖∑ j, A i j * ψ j‖ := rfl
      _ ≤ ∑ j, ‖A i j * ψ j‖ := norm_sum_le _ _
      _ ≤ ∑ j, ‖A i j‖ := Finset.sum_le_sum fun j _ => by
          rw [norm_mul]; exact mul_le_of_le_one_right (norm_nonneg _) (norm_apply_le ψ hψ j)
      _ ≤ a := Finset.single_le_sum (f := fun i => ∑ j, ‖A i j‖) (fun i _ => Finset.sum_nonneg fun j _ => norm_nonneg _) (Finset.mem_univ i)
  let η : ι → ℂ := fun i => ψ i + τ * (A *ᵥ ψ) i
  let e : ι → ℂ := fun i => φ i - η i
  have hq : 0 ≤ τ ^ 2 + ε * τ := by positivity
  have he : ∀ i, ‖e i‖ ≤ (c + 1) * (τ ^ 2 + ε * τ) := fun i => (hφ i).trans (by nlinarith [mul_nonneg hc (mul_nonneg hε hτ), sq_nonneg τ])
  have hτn : ‖(τ : ℂ)‖ = τ := by rw [Complex.norm_real, Real.norm_of_nonneg hτ]
  have hη : ∀ i, ‖η i‖ ≤ 1 + T * a := by
    intro i
    refine (norm_add_le _ _).trans (add_le_add (norm_apply_le ψ hψ i) ?_)
    rw [norm_mul, hτn]
    exact mul_le_mul hτT (hA i) (norm_nonneg _) hT
  have hηB : ∀ i, ‖η i‖ ≤ B := fun i => (hη i).trans (by simp only [B]; nlinarith [mul_nonneg (by positivity : 0 ≤ c + 1) (by positivity : 0 ≤ T ^ 2 + T)])
  have hφB : ∀ i, ‖φ i‖ ≤ B := by
    intro i
    have : φ i = η i + e i := by simp [e]
    rw [this]
    refine (norm_add_le _ _).trans (add_le_add (hη i) ((he i).trans ?_))
    refine mul_le_mul_of_nonneg_left ?_ (by positivity)
    nlinarith [mul_le_mul hε1 hτT hτ zero_le_one]
  refine (pi_norm_le_iff_of_nonneg (by positivity)).2 fun i => (pi_norm_le_iff_of_nonneg (by positivity)).2 fun j => ?_
  have hid : (outer φ - (outer ψ + τ • cohMap A (outer ψ))) i j = (τ : ℂ) ^ 2 * ((A *ᵥ ψ) i * conj ((A *ᵥ ψ) j)) + e i * conj (φ j) + η i * conj (e j) := by
    rw [cohMap_outer]
    simp only [Pi.sub_apply, Pi.add_apply, Pi.smul_apply, outer, e, η, Complex.real_smul, map_sub, map_add, map_mul, Complex.conj_ofReal]
    ring
  rw [hid]
  have n1 : ‖(τ : ℂ) ^ 2 * ((A *ᵥ ψ) i * conj ((A *ᵥ ψ) j))‖ ≤ a ^ 2 * (τ ^ 2 + ε * τ) := by
    rw [norm_mul, norm_mul, norm_pow, hτn, RCLike.norm_conj]
    calc τ ^ 2 * (‖(A *ᵥ ψ) i‖ * ‖(A *ᵥ ψ) j‖) ≤ τ ^ 2 * (a * a) := by gcongr <;> exact hA _
      _ = a ^ 2 * τ ^ 2 := by ring
      _ ≤ a ^ 2 * (τ ^ 2 + ε * τ) := by gcongr; nlinarith [mul_nonneg hε hτ]
  have n2 : ‖e i * conj (φ j)‖ ≤ (c + 1) * (τ ^ 2 + ε * τ) * B := by
    rw [norm_mul, RCLike.norm_conj]; exact mul_le_mul (he i) (hφB j) (norm_nonneg _) (by positivity)
  have n3 : ‖η i * conj (e j)‖ ≤ B * ((c + 1) * (τ ^ 2 + ε * τ)) := by
    rw [norm_mul, RCLike.norm_conj]; exact mul_le_mul (hηB i) (he j) (norm_nonneg _) hB
  refine (norm_add₃_le).trans ((add_le_add (add_le_add n1 n2) n3).trans (le_of_eq ?_))
  ring

/-- The generator of the Master equation. -/
noncomputable def gen (A : Matrix ι ι ℂ) (J : List (Matrix ι ι ℂ)) : (ι → ι → ℂ) →L[ℝ] (ι → ι → ℂ) := cohMap A + jumpsMap J

/-- The local error: the average of the dyads after a step differs from the solution of the Master equation in second order. -/
theorem step_error (A : Matrix ι ι ℂ) (J : List (Matrix ι ι ℂ)) (hC : Spec.Conserving A J) (c T : ℝ) (hc : 0 ≤ c) (hT : 0 ≤ T) :
    ∃ K, 0 ≤ K ∧ ∀ (ε τ : ℝ) (ψ φ : ι → ℂ), 0 ≤ ε → ε ≤ 1 → 0 ≤ τ → τ ≤ T → MCWF.norm ψ = 1 → MCWF.norm (MCWF.renorm φ) = 1 →
      (∀ i, ‖φ i - (ψ i + τ * (A *ᵥ ψ) i)‖ ≤ c * τ ^ 2 + ε * τ) →
      ‖outer (MCWF.renorm φ) - (τ : ℂ) • trMap (jumpsMap J (outer (MCWF.renorm φ))) • outer (MCWF.renorm φ) + τ • jumpsMap J (outer (MCWF.renorm φ)) - semi (gen A J) τ (outer ψ)‖ ≤
        K * (τ ^ 2 + ε * τ) := by
  obtain ⟨c1, hc1, h1⟩ := outer_error A c T hc hT
  obtain ⟨K1, hK1, h2⟩ := local_estimate (cohMap A) (jumpsMap J) (trMap.comp (jumpsMap J)) trMap (tr_coh A J hC) (fun a v => by funext i j; simp) c1 T hc1
  obtain ⟨K2, hK2, h3⟩ := semi_second (gen A J) T
  refine ⟨K1 + K2, by positivity, ?_⟩
  intro ε τ ψ φ hε hε1 hτ hτT hψ hφ hcoh
  have htr : trMap (outer ψ) = 1 := by rw [tr_outer, hψ]; norm_num
  have e1 := h1 ε τ ψ φ hε hε1 hτ hτT hψ hcoh
  have hsum : outer ψ + τ • cohMap A (outer ψ) + (outer φ - (outer ψ + τ • cohMap A (outer ψ))) = outer φ := by abel
  have e2 := h2 ε τ (outer ψ) (outer (MCWF.renorm φ)) _ hε hε1 hτ hτT (norm_outer_le ψ hψ) (norm_outer_le _ hφ) htr e1 (by rw [hsum]; exact outer_renorm φ)
  have e3 : ‖semi (gen A J) τ (outer ψ) - (outer ψ + τ • (cohMap A (outer ψ) + jumpsMap J (outer ψ)))‖ ≤ K2 * (τ ^ 2 + ε * τ) := by
    have : semi (gen A J) τ (outer ψ) - (outer ψ + τ • (cohMap A (outer ψ) + jumpsMap J (outer ψ))) = (semi (gen A J) τ - 1 - τ • gen A J) (outer ψ) := by
      simp only [ContinuousLinearMap.sub_apply, ContinuousLinearMap.one_apply, ContinuousLinearMap.smul_apply, gen, ContinuousLinearMap.add_apply]
      abel
    rw [this]
    refine ((ContinuousLinearMap.le_opNorm _ _).trans (mul_le_of_le_one_right (norm_nonneg _) (norm_outer_le ψ hψ))).trans ((h3 τ hτ hτT).trans ?_)
    gcongr
    nlinarith [mul_nonneg hε hτ]
  set X := outer (MCWF.renorm φ)
  have : X - (τ : ℂ) • trMap (jumpsMap J X) • X + τ • jumpsMap J X - semi (gen A J) τ (outer ψ) =
      (X - (τ : ℂ) • (trMap.comp (jumpsMap J)) X • X + τ • jumpsMap J X - (outer ψ + τ • (cohMap A (outer ψ) + jumpsMap J (outer ψ)))) -
      (semi (gen A J) τ (outer ψ) - (outer ψ + τ • (cohMap A (outer ψ) + jumpsMap J (outer ψ)))) := by
    rw [ContinuousLinearMap.comp_apply]; abel
  rw [this]
  refine (norm_sub_le _ _).trans ((add_le_add e2 e3).trans (le_of_eq ?_))
  ring

end CppQED.Unravel
