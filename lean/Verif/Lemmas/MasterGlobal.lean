import Verif.Spec.MasterRun
import Verif.Lemmas.UnravelPicture

/-! # Helper lemmas about the global error of Master-equation trajectories -/

namespace CppQED.Master
open Matrix Unravel Spec
open scoped ComplexConjugate

variable {n : ℕ} {κ : Type*}

/-- The exact part of the system is given by the frequencies `W`. -/
def ExactIs (S : Sys n) (W : Fin n → ℂ) : Prop :=
  ∀ t t0 rho i j, exactPart S t t0 rho i j = Complex.exp (-(W i * (t - t0 : ℝ))) * rho i j * conj (Complex.exp (-(W j * (t - t0 : ℝ))))

theorem Pictured.exactIs {S : Sys n} {W : Fin n → ℂ} {V : Rho n} {nJ : ℕ} {J : ℕ → Rho n} (h : Unravel.Pictured S W V nJ J) : ExactIs S W := by
  obtain ⟨G, U, lin, hU, -⟩ := h
  intro t t0 rho i j
  have hex : exactPart S t t0 rho = U t t0 * rho * (U t t0)ᴴ := by
    cases hx : S.ex with
    | none =>
      rw [lin.ex_none hx t t0]
      simp [exactPart, hx]
    | some f => exact exactPart_eq S f hx t t0 _ (fun psi => lin.ex f hx t psi t0) rho
  rw [hex, hU, Matrix.diagonal_conjTranspose, Matrix.mul_diagonal, Matrix.diagonal_mul]; rfl

/-! ## The solution of the Master equation -/

theorem lindblad_conjTranspose (G : Rho n) (J : List (Rho n)) (rho : Rho n) : (lindblad G J rho)ᴴ = lindblad G J rhoᴴ := by
  unfold lindblad
  have : ((J.map fun j => j * rho * jᴴ).sum)ᴴ = (J.map fun j => j * rhoᴴ * jᴴ).sum := by
    induction J with
    | nil => simp
    | cons j J ih =>
      rw [List.map_cons, List.sum_cons, Matrix.conjTranspose_add, ih, List.map_cons, List.sum_cons, Matrix.conjTranspose_mul, Matrix.conjTranspose_mul, Matrix.conjTranspose_conjTranspose, Matrix.mul_assoc]
  rw [Matrix.conjTranspose_add, Matrix.conjTranspose_add, this, Matrix.conjTranspose_mul, Matrix.conjTranspose_mul, Matrix.conjTranspose_conjTranspose]
  congr 1
  rw [add_comm]

/-- The solution of the Master equation after time `τ`. -/
noncomputable def sol (A : Rho n) (J : List (Rho n)) (τ : ℝ) (rho : Rho n) : Rho n := Matrix.of (semi (gen A J) τ (fun i j => rho i j))

theorem sol_zero (A : Rho n) (J : List (Rho n)) (rho : Rho n) : sol A J 0 rho = rho := by
  unfold sol; rw [semi_zero]; rfl

theorem sol_add (A : Rho n) (J : List (Rho n)) (s t : ℝ) (rho : Rho n) : sol A J (s + t) rho = sol A J s (sol A J t rho) := by
  unfold sol; rw [semi_add]; rfl

theorem hasDerivAt_sol (A : Rho n) (J : List (Rho n)) (rho : Rho n) (t s : ℝ) (i j : Fin n) : HasDerivAt (fun r => sol A J (r - t) rho i j) (lindblad A J (sol A J (s - t) rho) i j) s := by
  have h1 : HasDerivAt (fun r => semi (gen A J) (r - t)) (gen A J * semi (gen A J) (s - t)) s := by
    have := (hasDerivAt_semi (gen A J) (s - t)).scomp s ((hasDerivAt_id s).sub_const t)
    exact this.congr_deriv (by rw [one_smul])
  have h2 := h1.clm_apply (hasDerivAt_const s (fun i j => rho i j))
  have h3 := hasDerivAt_pi.1 (hasDerivAt_pi.1 h2 i) j
  refine h3.congr_deriv ?_
  rw [lindblad_eq, map_zero, add_zero]
  rfl

theorem sol_unique (A : Rho n) (J : List (Rho n)) (t d : ℝ) (hd : 0 ≤ d) (φ : ℝ → Rho n) (h : ∀ r, t ≤ r → r ≤ t + d → ∀ i j, HasDerivAt (fun r => φ r i j) (lindblad A J (φ r) i j) r) :
    φ (t + d) = sol A J d (φ t) := by
  let r : ℝ → Fin n → Fin n → ℂ := fun s => φ (t + s)
  have := semi_unique (gen A J) d hd r (fun s h0 h1 => by
    refine hasDerivAt_pi.2 fun i => hasDerivAt_pi.2 fun j => ?_
    have h2 := h (t + s) (by linarith) (by linarith) i j
    have h3 := h2.comp_const_add t s
    refine h3.congr_deriv ?_
    rw [lindblad_eq]
    rfl)
  have e : r 0 = fun i j => φ t i j := by simp only [r, add_zero]; rfl
  rw [e] at this
  exact this

theorem sol_hermitian (A : Rho n) (J : List (Rho n)) (rho : Rho n) (h : rho.IsHermitian) (τ : ℝ) (hτ : 0 ≤ τ) : (sol A J τ rho).IsHermitian := by
  have := sol_unique A J 0 τ hτ (fun r => (sol A J r rho)ᴴ) (fun r _ _ i j => by
    have := (hasDerivAt_sol A J rho 0 r j i).star
    simp only [sub_zero] at this
    refine this.congr_deriv ?_
    rw [← lindblad_conjTranspose]
    rfl)
  simp only [zero_add, sol_zero] at this
  rw [h.eq] at this
  exact this

theorem sol_trace (A : Rho n) (J : List (Rho n)) (hC : Conserving A J) (rho : Rho n) (τ : ℝ) : (sol A J τ rho).trace = rho.trace := by
  have hd : ∀ s, HasDerivAt (fun r => (sol A J r rho).trace) 0 s := by
    intro s
    have := HasDerivAt.sum (u := Finset.univ) (A := fun (i : Fin n) r => sol A J r rho i i) (A' := fun i => lindblad A J (sol A J s rho) i i) (x := s) (fun i _ => by
      have := hasDerivAt_sol A J rho 0 s i i
      simpa only [sub_zero] using this)
    have h2 : ∑ i, lindblad A J (sol A J s rho) i i = 0 := (lindblad_traceless_iff A J).2 hC (sol A J s rho)
    rw [h2] at this
    refine this.congr_of_eventuallyEq (Filter.Eventually.of_forall fun r => ?_)
    simp [Matrix.trace]
  have := is_const_of_deriv_eq_zero (f := fun r => (sol A J r rho).trace) (fun s => (hd s).differentiableAt) (fun s => (hd s).deriv) τ 0
  simpa only [sol_zero] using this

theorem sol_sub (A : Rho n) (J : List (Rho n)) (τ : ℝ) (X Y : Rho n) : sol A J τ (X - Y) = sol A J τ X - sol A J τ Y := by
  unfold sol
  have := (semi (gen A J) τ).map_sub (fun i j => X i j) (fun i j => Y i j)
  ext i j
  exact congrFun (congrFun this i) j

/-- A bound on the elements. -/
theorem sol_bound (A : Rho n) (J : List (Rho n)) {c : ℝ} {τ : ℝ} (h : ‖semi (gen A J) τ‖ ≤ c) {X : Rho n} {b : ℝ} (hb0 : 0 ≤ b) (hb : ∀ i j, ‖X i j‖ ≤ b) (i j : Fin n) : ‖sol A J τ X i j‖ ≤ c * b := by
  let x : Fin n → Fin n → ℂ := fun i j => X i j
  have hx : ‖x‖ ≤ b := (pi_norm_le_iff_of_nonneg hb0).2 fun i => (pi_norm_le_iff_of_nonneg hb0).2 fun j => hb i j
  have h1 : ‖semi (gen A J) τ x‖ ≤ c * b := ((semi (gen A J) τ).le_opNorm x).trans (mul_le_mul h hx (_root_.norm_nonneg _) ((_root_.norm_nonneg _).trans h))
  exact ((norm_le_pi_norm _ j).trans (norm_le_pi_norm _ i)).trans h1

theorem semi_growth {E : Type*} [NormedAddCommGroup E] [NormedSpace ℝ E] [FiniteDimensional ℝ E] (A : E →L[ℝ] E) : ∃ Λ, 0 ≤ Λ ∧ ∀ τ, 0 ≤ τ → τ ≤ 1 → ‖semi A τ‖ ≤ Real.exp (Λ * τ) := by
  obtain ⟨K, hK, h⟩ := semi_second A 1
  refine ⟨‖A‖ + K, by positivity, fun τ h0 h1 => ?_⟩
  have e : semi A τ = (semi A τ - 1 - τ • A) + 1 + τ • A := by abel
  have n1 : ‖(1 : E →L[ℝ] E)‖ ≤ 1 := ContinuousLinearMap.norm_id_le
  have n2 : ‖τ • A‖ = τ * ‖A‖ := by rw [norm_smul, Real.norm_of_nonneg h0]
  calc ‖semi A τ‖ ≤ K * τ ^ 2 + 1 + τ * ‖A‖ := by
        rw [e]
        refine (norm_add_le _ _).trans (add_le_add ((norm_add_le _ _).trans (add_le_add (h τ h0 h1) n1)) n2.le)
    _ ≤ (‖A‖ + K) * τ + 1 := by have := mul_le_mul_of_nonneg_left (show τ ^ 2 ≤ τ by nlinarith) hK; linarith
    _ ≤ _ := Real.add_one_le_exp _

/-! ## The solution in interaction picture -/

/-- The solution which begins in `rho` at `t`, in the interaction picture of reference time `t0`. -/
noncomputable def ipFlow (W : Fin n → ℂ) (A : Rho n) (J : List (Rho n)) (E : Rho n) (t0 t r : ℝ) : Rho n :=
  Matrix.of fun i j => Complex.exp (W i * (r - t0 : ℝ)) * sol A J (r - t) E i j * conj (Complex.exp (W j * (r - t0 : ℝ)))

theorem exp_cancel (z : ℂ) (a : ℝ) : Complex.exp (-(z * a)) * Complex.exp (z * a) = 1 := by
  rw [← Complex.exp_add, neg_add_cancel, Complex.exp_zero]

theorem exact_ipFlow {S : Sys n} {W : Fin n → ℂ} (hE : ExactIs S W) (A : Rho n) (J : List (Rho n)) (E : Rho n) (t0 t r : ℝ) : exactPart S r t0 (ipFlow W A J E t0 t r) = sol A J (r - t) E := by
  ext i j
  rw [hE]
  simp only [ipFlow, Matrix.of_apply]
  have h1 := exp_cancel (W i) (r - t0)
  have h2 : conj (Complex.exp (-(W j * (r - t0 : ℝ)))) * conj (Complex.exp (W j * (r - t0 : ℝ))) = 1 := by rw [← map_mul, exp_cancel, map_one]
  calc _ = (Complex.exp (-(W i * (r - t0 : ℝ))) * Complex.exp (W i * (r - t0 : ℝ))) * sol A J (r - t) E i j * (conj (Complex.exp (-(W j * (r - t0 : ℝ)))) * conj (Complex.exp (W j * (r - t0 : ℝ)))) := by ring
    _ = _ := by rw [h1, h2, one_mul, mul_one]

theorem ipFlow_hermitian (W : Fin n → ℂ) (A : Rho n) (J : List (Rho n)) (E : Rho n) (hE : E.IsHermitian) (t0 t r : ℝ) (hr : t ≤ r) : (ipFlow W A J E t0 t r).IsHermitian := by
  have h := sol_hermitian A J E hE (r - t) (by linarith)
  ext i j
  simp only [ipFlow, Matrix.conjTranspose_apply, Matrix.of_apply, star_mul', Complex.star_def, Complex.conj_conj]
  have h2 : conj (sol A J (r - t) E j i) = sol A J (r - t) E i j := congrFun (congrFun h i) j
  rw [h2]
  ring

/-- What the derivative of the trajectory is, if the physical density operator follows the Master equation. -/
theorem derivative_of_follows {S : Sys n} {W : Fin n → ℂ} {A : Rho n} {J : List (Rho n)} (hF : FollowsMaster S A J) (hE : ExactIs S W) (t t0 : ℝ) (X : Rho n) (hX : X.IsHermitian) (i j : Fin n) :
    Complex.exp (-(W i * (t - t0 : ℝ))) * derivative S t t0 X i j * conj (Complex.exp (-(W j * (t - t0 : ℝ)))) =
      lindblad A J (exactPart S t t0 X) i j + (W i + conj (W j)) * exactPart S t t0 X i j := by
  have hlin : ∀ i j, HasDerivAt (fun s : ℝ => (X + ((s - t : ℝ) : ℂ) • derivative S t t0 X : Rho n) i j) (derivative S t t0 X i j) t := by
    intro i j
    have h1 : HasDerivAt (fun s : ℝ => ((s - t : ℝ) : ℂ)) 1 t := by simpa using ((hasDerivAt_id t).sub_const t).ofReal_comp
    have h2 := (h1.mul_const (derivative S t t0 X i j)).const_add (X i j)
    rw [one_mul] at h2
    exact h2
  have hat : (X + ((t - t : ℝ) : ℂ) • derivative S t t0 X : Rho n) = X := by simp
  have h := hF t0 t (fun s => X + ((s - t : ℝ) : ℂ) • derivative S t t0 X) (by rw [hat]; exact hX) (by rw [hat]; exact hlin) i j
  simp only [hat] at h
  simp only [hE _ _ (X + _)] at h
  have hc : HasDerivAt (fun s : ℝ => conj (Complex.exp (-(W j * (s - t0 : ℝ))))) (conj (-(W j) * Complex.exp (-(W j * (t - t0 : ℝ))))) t := (phaseFactor_hasDerivAt (W j) t0 t).star
  have h2 := ((phaseFactor_hasDerivAt (W i) t0 t).mul (hlin i j)).mul hc
  have := h.unique h2
  rw [this, hE]
  simp only [Pi.mul_apply, hat, map_mul, map_neg]
  ring

theorem ipFlow_hasDerivAt {S : Sys n} {W : Fin n → ℂ} {A : Rho n} {J : List (Rho n)} (hF : FollowsMaster S A J) (hE : ExactIs S W) (E : Rho n) (hH : E.IsHermitian) (t0 t r : ℝ) (hr : t ≤ r) (i j : Fin n) :
    HasDerivAt (fun s => ipFlow W A J E t0 t s i j) (derivative S r t0 (ipFlow W A J E t0 t r) i j) r := by
  have hc : HasDerivAt (fun s : ℝ => conj (Complex.exp (W j * (s - t0 : ℝ)))) (conj (W j * Complex.exp (W j * (r - t0 : ℝ)))) r := (hasDerivAt_exp_phase (W j) t0 r).star
  have h := ((hasDerivAt_exp_phase (W i) t0 r).mul (hasDerivAt_sol A J E t r i j)).mul hc
  refine h.congr_deriv ?_
  have hd := derivative_of_follows hF hE r t0 _ (ipFlow_hermitian W A J E hH t0 t r hr) i j
  rw [exact_ipFlow hE] at hd
  have h1 := exp_cancel (W i) (r - t0)
  have h2 : conj (Complex.exp (-(W j * (r - t0 : ℝ)))) * conj (Complex.exp (W j * (r - t0 : ℝ))) = 1 := by rw [← map_mul, exp_cancel, map_one]
  set D := derivative S r t0 (ipFlow W A J E t0 t r) i j with hD
  have : D = Complex.exp (W i * (r - t0 : ℝ)) * (lindblad A J (sol A J (r - t) E) i j + (W i + conj (W j)) * sol A J (r - t) E i j) * conj (Complex.exp (W j * (r - t0 : ℝ))) := by
    rw [← hd]
    calc D = (Complex.exp (-(W i * (r - t0 : ℝ))) * Complex.exp (W i * (r - t0 : ℝ))) * D * (conj (Complex.exp (-(W j * (r - t0 : ℝ)))) * conj (Complex.exp (W j * (r - t0 : ℝ)))) := by
          rw [h1, h2, one_mul, mul_one]
      _ = _ := by ring
  rw [this]
  simp only [Pi.mul_apply, map_mul]
  ring

/-- A solution in interaction picture gives the solution of the Master equation. -/
theorem physical_unique {S : Sys n} {A : Rho n} {J : List (Rho n)} (hF : FollowsMaster S A J) (t0 t d : ℝ) (hd : 0 ≤ d) (φ : ℝ → Rho n)
    (hφ : ∀ r, t ≤ r → r ≤ t + d → (φ r).IsHermitian ∧ ∀ i j, HasDerivAt (fun r => φ r i j) (derivative S r t0 (φ r) i j) r) :
    exactPart S (t + d) t0 (φ (t + d)) = sol A J d (exactPart S t t0 (φ t)) :=
  sol_unique A J t d hd (fun r => exactPart S r t0 (φ r)) fun r h1 h2 i j => hF t0 r φ (hφ r h1 h2).1 (hφ r h1 h2).2 i j

/-! ## The step -/

theorem exp_bound (W : Fin n → ℂ) (τ : ℝ) (h0 : 0 ≤ τ) (h1 : τ ≤ 1) (i : Fin n) : ‖Complex.exp (-(W i * (τ : ℝ)))‖ ≤ Real.exp (∑ k, ‖W k‖) := by
  rw [Complex.norm_exp]
  refine Real.exp_le_exp.2 ((Complex.re_le_norm _).trans ?_)
  rw [norm_neg, norm_mul, Complex.norm_real, Real.norm_of_nonneg h0]
  exact (mul_le_of_le_one_right (_root_.norm_nonneg _) h1).trans (Finset.single_le_sum (f := fun k => ‖W k‖) (fun k _ => _root_.norm_nonneg _) (Finset.mem_univ i))

theorem exact_bound {S : Sys n} {W : Fin n → ℂ} (hE : ExactIs S W) (t τ : ℝ) (h0 : 0 ≤ τ) (h1 : τ ≤ 1) (X Y : Rho n) {b : ℝ} (hb : ∀ i j, ‖X i j - Y i j‖ ≤ b) (i j : Fin n) :
    ‖exactPart S (t + τ) t X i j - exactPart S (t + τ) t Y i j‖ ≤ Real.exp (∑ k, ‖W k‖) ^ 2 * b := by
  rw [hE, hE, add_sub_cancel_left]
  have e : Complex.exp (-(W i * (τ : ℝ))) * X i j * conj (Complex.exp (-(W j * (τ : ℝ)))) - Complex.exp (-(W i * (τ : ℝ))) * Y i j * conj (Complex.exp (-(W j * (τ : ℝ)))) =
      Complex.exp (-(W i * (τ : ℝ))) * conj (Complex.exp (-(W j * (τ : ℝ)))) * (X i j - Y i j) := by ring
  rw [e, norm_mul, norm_mul, Complex.norm_conj, pow_two]
  have hb0 : 0 ≤ b := (_root_.norm_nonneg _).trans (hb i j)
  exact mul_le_mul (mul_le_mul (exp_bound W τ h0 h1 i) (exp_bound W τ h0 h1 j) (_root_.norm_nonneg _) (Real.exp_pos _).le) (hb i j) (_root_.norm_nonneg _) (by positivity)

/-- Hermitisation and renormalisation of a matrix near to a density operator. -/
theorem renorm_error (X σ : Rho n) (hσ : σ.IsHermitian) (hσ1 : σ.trace = 1) (δ B : ℝ) (hX : ∀ i j, ‖X i j - σ i j‖ ≤ δ) (hB : ∀ i j, ‖σ i j‖ ≤ B) (hδ : 2 * n * δ ≤ 1) (i j : Fin n) :
    ‖renorm (twoTimesRealPart X) i j - σ i j‖ ≤ 2 * (1 + n * B) * δ ∧ (X.trace).re ≠ 0 := by
  have htr : |(X.trace).re - 1| ≤ n * δ := by
    have h1 : X.trace - σ.trace = ∑ k, (X k k - σ k k) := by simp [Matrix.trace, Finset.sum_sub_distrib]
    have h2 : ‖X.trace - 1‖ ≤ n * δ := by
      rw [← hσ1, h1]
      refine (norm_sum_le _ _).trans ((Finset.sum_le_sum fun k _ => hX k k).trans ?_)
      simp
    calc |(X.trace).re - 1| = |(X.trace - 1).re| := by simp
      _ ≤ _ := (Complex.abs_re_le_norm _).trans h2
  have htr' := abs_le.1 htr
  have hpos : 1 / 2 ≤ (X.trace).re := by linarith
  refine ⟨?_, by linarith⟩
  have hsum : (∑ k, (X + Xᴴ) k k).re = 2 * (X.trace).re := by
    simp only [Matrix.add_apply, Matrix.conjTranspose_apply, Finset.sum_add_distrib, Complex.add_re, Matrix.trace, Matrix.diag_apply, Complex.re_sum]
    simp
    ring
  rw [twoTimesRealPart_eq]
  simp only [renorm, Matrix.of_apply]
  rw [hsum]
  set a : ℝ := 2 * (X.trace).re with ha
  have ha1 : 1 ≤ a := by linarith
  have ha0 : (a : ℂ) ≠ 0 := by rw [Complex.ofReal_ne_zero]; linarith
  have hh : conj (σ j i) = σ i j := congrFun (congrFun hσ i) j
  have e : (X + Xᴴ) i j / (a : ℂ) - σ i j = ((X i j - σ i j) + conj (X j i - σ j i) + ((2 - a : ℝ) : ℂ) * σ i j) / (a : ℂ) := by
    rw [eq_div_iff ha0, sub_mul, div_mul_cancel₀ _ ha0, map_sub, hh]
    simp only [Matrix.add_apply, Matrix.conjTranspose_apply, Complex.star_def]
    push_cast
    ring
  rw [e, norm_div, Complex.norm_real, Real.norm_of_nonneg (by linarith)]
  have h2a : |2 - a| ≤ 2 * (n * δ) := by rw [abs_le]; constructor <;> linarith
  have hn : ‖(X i j - σ i j) + conj (X j i - σ j i) + ((2 - a : ℝ) : ℂ) * σ i j‖ ≤ δ + δ + 2 * (n * δ) * B := by
    refine (norm_add_le _ _).trans (add_le_add ((norm_add_le _ _).trans (add_le_add (hX i j) ?_)) ?_)
    · rw [Complex.norm_conj]; exact hX j i
    · rw [norm_mul, Complex.norm_real, Real.norm_eq_abs]
      exact mul_le_mul h2a (hB i j) (_root_.norm_nonneg _) ((_root_.abs_nonneg _).trans h2a)
  have hfin : δ + δ + 2 * (n * δ) * B = 2 * (1 + n * B) * δ := by ring
  rw [hfin] at hn
  refine div_le_of_le_mul₀ (by linarith) ((_root_.norm_nonneg _).trans hn) ?_
  exact hn.trans (le_mul_of_one_le_right ((_root_.norm_nonneg _).trans hn) ha1)

theorem lindblad_decay (A : Rho n) (J : List (Rho n)) (g : ℝ) (X : Rho n) : lindblad A J X = lindblad (A - (g : ℂ) • 1) J X + ((2 * g : ℝ) : ℂ) • X := by
  unfold lindblad
  rw [Matrix.conjTranspose_sub, Matrix.conjTranspose_smul, Matrix.conjTranspose_one, Complex.star_def, Complex.conj_ofReal, Matrix.sub_mul, Matrix.mul_sub, Matrix.smul_mul, Matrix.mul_smul, Matrix.one_mul,
    Matrix.mul_one]
  push_cast
  rw [mul_smul, two_smul]
  abel

/-- A uniform decay, which is missing from `A`. -/
theorem sol_decay (A : Rho n) (J : List (Rho n)) (g : ℝ) (X : Rho n) (τ : ℝ) (hτ : 0 ≤ τ) : sol A J τ X = ((Real.exp (2 * g * τ) : ℝ) : ℂ) • sol (A - (g : ℂ) • 1) J τ X := by
  have h := sol_unique A J 0 τ hτ (fun r => ((Real.exp (2 * g * r) : ℝ) : ℂ) • sol (A - (g : ℂ) • 1) J r X) (fun r _ _ i j => by
    have h1 : HasDerivAt (fun r : ℝ => ((Real.exp (2 * g * r) : ℝ) : ℂ)) ((Real.exp (2 * g * r) * (2 * g) : ℝ) : ℂ) r := by
      have := (((hasDerivAt_id r).const_mul (2 * g)).exp).ofReal_comp
      simpa using this
    have h2 := hasDerivAt_sol (A - (g : ℂ) • 1) J X 0 r i j
    simp only [sub_zero] at h2
    refine (h1.mul h2).congr_deriv ?_
    rw [lindblad_decay A J g]
    have hl : ∀ (c : ℂ) (Y : Rho n), lindblad (A - (g : ℂ) • 1) J (c • Y) = c • lindblad (A - (g : ℂ) • 1) J Y := by
      intro c Y
      unfold lindblad
      rw [Matrix.mul_smul, Matrix.smul_mul, smul_add, smul_add]
      congr 1
      have : ∀ L : List (Rho n), (L.map fun j => j * c • Y * jᴴ).sum = c • (L.map fun j => j * Y * jᴴ).sum := by
        intro L
        induction L with
        | nil => simp
        | cons a L ih => rw [List.map_cons, List.sum_cons, ih, List.map_cons, List.sum_cons, smul_add, Matrix.mul_smul, Matrix.smul_mul]
      exact this J
    rw [hl]
    simp only [Matrix.add_apply, Matrix.smul_apply, smul_eq_mul]
    push_cast
    ring)
  simp only [zero_add, sol_zero, mul_zero, Real.exp_zero, Complex.ofReal_one, one_smul] at h
  exact h.symm

/-- Renormalisation undoes the multiplication by a positive number. -/
theorem renorm_smul (X : Rho n) (c : ℝ) (hc : c ≠ 0) : renorm (twoTimesRealPart ((c : ℂ) • X)) = renorm (twoTimesRealPart X) := by
  have hc' : (c : ℂ) ≠ 0 := by rwa [Complex.ofReal_ne_zero]
  have h1 : (c : ℂ) • X + ((c : ℂ) • X)ᴴ = (c : ℂ) • (X + Xᴴ) := by rw [Matrix.conjTranspose_smul, smul_add, Complex.star_def, Complex.conj_ofReal]
  rw [twoTimesRealPart_eq, twoTimesRealPart_eq, h1]
  ext i j
  simp only [renorm, Matrix.of_apply, Matrix.smul_apply, smul_eq_mul]
  rw [← Finset.mul_sum, Complex.re_ofReal_mul, Complex.ofReal_mul, mul_div_mul_left _ _ hc']

/-- The error of a step. -/
theorem step_error {S : Sys n} {W : Fin n → ℂ} {A : Rho n} {J : List (Rho n)} (hF : FollowsMaster S A J) (hE : ExactIs S W) (g : ℝ) (hg : 0 ≤ g) (hC : Conserving (A - (g : ℂ) • 1) J)
    (solver : (ℝ → Rho n → Rho n) → ODE.Stepper (Rho n) κ) (ε : ℝ) (hs : ∀ t0, GoodSolver (solver fun t rho => derivative S t t0 rho) (fun t rho => derivative S t t0 rho) ε)
    (M B : ℝ) (hM : ∀ τ, 0 ≤ τ → τ ≤ 1 → ‖semi (gen (A - (g : ℂ) • 1) J) τ‖ ≤ M) (hB : 1 ≤ B) (hsmall : 2 * n * (Real.exp (∑ k, ‖W k‖) ^ 2 * (ε * B)) ≤ 1) (hε : 0 ≤ ε)
    (fuel : ℕ) (deltaT : ℝ) (h0 : 0 < deltaT) (h1 : deltaT ≤ 1) (x y : St n κ) (ht0 : x.t0 = x.t) (htry : 0 < x.ode.dtTry) (hH : x.rho.IsHermitian) (h1x : x.rho.trace = 1)
    (hb : ∀ i j, ‖x.rho i j‖ ≤ B) (h : step solver S fuel deltaT x = some y) :
    x.t < y.t ∧ y.t ≤ x.t + deltaT ∧ y.t0 = y.t ∧ 0 < y.ode.dtTry ∧ y.rho.IsHermitian ∧ y.rho.trace = 1 ∧
      ∀ i j, ‖y.rho i j - sol (A - (g : ℂ) • 1) J (y.t - x.t) x.rho i j‖ ≤ 2 * (1 + n * (M * B)) * (Real.exp (∑ k, ‖W k‖) ^ 2 * B) * (ε * (y.t - x.t)) := by
  obtain ⟨g1, g2, rho, t', e, g3, g4, g5⟩ := step_hermitian solver S fuel deltaT x y h
  obtain ⟨a1, a2, a3, -, a5, -, ⟨k', a7, a8, -⟩, -⟩ := ODE.step_forward _ (hs x.t0).controlled fuel deltaT h0 x.ode htry x.rho x.t rho t' e g3
  have hy : y.ode = e ∧ y.rho = renorm (twoTimesRealPart (exactPart S t' x.t0 rho)) := by
    unfold step at h
    rw [g3] at h
    simp only [Option.map_some, Option.some.injEq] at h
    subst h
    exact ⟨rfl, rfl⟩
  set τ := e.dtDid with hτ
  have hyt : y.t = x.t + τ := by rw [g4, a1]
  have hτ1 : τ ≤ 1 := a3.trans h1
  -- the solution in interaction picture
  let φ : ℝ → Rho n := ipFlow W A J x.rho x.t x.t
  have hex0 : exactPart S x.t x.t x.rho = x.rho := by ext i j; rw [hE]; simp
  have hφ0 : φ x.t = x.rho := by
    ext i j
    simp [φ, ipFlow, sol_zero]
  have hacc := (hs x.t0).accurate k' x.rho x.t τ B a2 hH hB hb a7 φ hφ0 (fun r hr _ => ⟨ipFlow_hermitian W A J x.rho hH x.t x.t r hr, fun i j => by
    rw [ht0]; exact ipFlow_hasDerivAt hF hE x.rho hH x.t x.t r hr i j⟩)
  rw [← a8] at hacc
  have hexφ : exactPart S (x.t + τ) x.t (φ (x.t + τ)) = sol A J τ x.rho := by
    rw [exact_ipFlow hE, add_sub_cancel_left]
  have hdiff := exact_bound hE x.t τ a2.le hτ1 rho (φ (x.t + τ)) hacc
  rw [hexφ, sol_decay A J g _ τ a2.le] at hdiff
  set c := Real.exp (2 * g * τ) with hc
  have hc0 : c ≠ 0 := (Real.exp_pos _).ne'
  have hc1 : 1 ≤ c := Real.one_le_exp (by positivity)
  set X : Rho n := ((c⁻¹ : ℝ) : ℂ) • exactPart S (x.t + τ) x.t rho with hX
  have hdiff' : ∀ i j, ‖X i j - sol (A - (g : ℂ) • 1) J τ x.rho i j‖ ≤ Real.exp (∑ k, ‖W k‖) ^ 2 * (ε * τ * B) := by
    intro i j
    have h1 := hdiff i j
    have h2 : X i j - sol (A - (g : ℂ) • 1) J τ x.rho i j = ((c⁻¹ : ℝ) : ℂ) * (exactPart S (x.t + τ) x.t rho i j - ((c : ℂ) • sol (A - (g : ℂ) • 1) J τ x.rho) i j) := by
      rw [hX, Matrix.smul_apply, Matrix.smul_apply, smul_eq_mul, smul_eq_mul, mul_sub, ← mul_assoc, ← Complex.ofReal_mul, inv_mul_cancel₀ hc0, Complex.ofReal_one, one_mul]
    rw [h2, norm_mul, Complex.norm_real, Real.norm_of_nonneg (by positivity)]
    exact (mul_le_of_le_one_left (_root_.norm_nonneg _) (inv_le_one_of_one_le₀ hc1)).trans h1
  have hrho : y.rho = renorm (twoTimesRealPart X) := by rw [hy.2, a1, ht0, hX, renorm_smul _ _ (inv_ne_zero hc0)]
  have hn0 : (0 : ℝ) ≤ n := Nat.cast_nonneg _
  have hsm : 2 * n * (Real.exp (∑ k, ‖W k‖) ^ 2 * (ε * τ * B)) ≤ 1 := by
    refine le_trans ?_ hsmall
    have : ε * τ * B ≤ ε * B := by
      have := mul_le_of_le_one_right (mul_nonneg hε (by linarith : 0 ≤ B)) hτ1
      linarith
    exact mul_le_mul_of_nonneg_left (mul_le_mul_of_nonneg_left this (by positivity)) (by positivity)
  have hren := renorm_error X (sol (A - (g : ℂ) • 1) J τ x.rho) (sol_hermitian _ J _ hH τ a2.le) (by rw [sol_trace _ J hC, h1x]) _ (M * B) hdiff'
    (sol_bound _ J (hM τ a2.le hτ1) (by linarith) hb) hsm
  have hne : n ≠ 0 := by
    rintro rfl
    simp [Matrix.trace] at h1x
  have hne' : ((exactPart S t' x.t0 rho).trace).re ≠ 0 := by
    rw [a1, ht0]
    have := (hren ⟨0, Nat.pos_of_ne_zero hne⟩ ⟨0, Nat.pos_of_ne_zero hne⟩).2
    rw [hX, Matrix.trace_smul, smul_eq_mul, Complex.re_ofReal_mul] at this
    exact right_ne_zero_of_mul this
  refine ⟨by linarith, by linarith, g2, by rw [hy.1]; exact a5, g1, g5 hne', fun i j => ?_⟩
  have := (hren i j).1
  rw [← hrho] at this
  rw [hyt, add_sub_cancel_left]
  refine this.trans (le_of_eq ?_)
  ring

/-! ## The trajectory -/

/-- What is known about the trajectory in the course of the run: `K` is the constant of the error of a step, `Λ` the growth of the solutions. -/
structure Near (A : Rho n) (J : List (Rho n)) (rho0 : Rho n) (K Λ ε : ℝ) (x : St n κ) : Prop where
  time : 0 ≤ x.t
  reference : x.t0 = x.t
  positive : 0 < x.ode.dtTry
  hermitian : x.rho.IsHermitian
  trace : x.rho.trace = 1
  error : ∀ i j, ‖x.rho i j - sol A J x.t rho0 i j‖ ≤ K * ε * (x.t * Real.exp (Λ * x.t))

theorem near_step {S : Sys n} {W : Fin n → ℂ} {A : Rho n} {J : List (Rho n)} (hF : FollowsMaster S A J) (hE : ExactIs S W) (g : ℝ) (hg : 0 ≤ g) (hC : Conserving (A - (g : ℂ) • 1) J)
    (solver : (ℝ → Rho n → Rho n) → ODE.Stepper (Rho n) κ) (ε : ℝ) (hs : ∀ t0, GoodSolver (solver fun t rho => derivative S t t0 rho) (fun t rho => derivative S t t0 rho) ε) (hε : 0 ≤ ε)
    (M B Λ T K : ℝ) (hM : ∀ τ, 0 ≤ τ → τ ≤ 1 → ‖semi (gen (A - (g : ℂ) • 1) J) τ‖ ≤ M) (hM0 : 0 ≤ M) (hB : 1 ≤ B) (hΛ : 0 ≤ Λ) (hgrow : ∀ τ, 0 ≤ τ → τ ≤ 1 → ‖semi (gen (A - (g : ℂ) • 1) J) τ‖ ≤ Real.exp (Λ * τ))
    (hsmall : 2 * n * (Real.exp (∑ k, ‖W k‖) ^ 2 * (ε * B)) ≤ 1) (hK : K = 2 * (1 + n * (M * B)) * (Real.exp (∑ k, ‖W k‖) ^ 2 * B)) (rho0 : Rho n)
    (hsol : ∀ t, 0 ≤ t → t ≤ T → ∀ i j, ‖sol (A - (g : ℂ) • 1) J t rho0 i j‖ ≤ B - 1) (hsm : K * ε * (T * Real.exp (Λ * T)) ≤ 1)
    (fuel : ℕ) (deltaT : ℝ) (h0 : 0 < deltaT) (h1 : deltaT ≤ 1) (x y : St n κ) (hx : Near (A - (g : ℂ) • 1) J rho0 K Λ ε x) (hT : x.t ≤ T) (h : step solver S fuel deltaT x = some y) :
    Near (A - (g : ℂ) • 1) J rho0 K Λ ε y ∧ x.t < y.t ∧ y.t ≤ x.t + deltaT := by
  have hK0 : 0 ≤ K := by rw [hK]; positivity
  have hb : ∀ i j, ‖x.rho i j‖ ≤ B := by
    intro i j
    have e1 : x.rho i j = (x.rho i j - sol (A - (g : ℂ) • 1) J x.t rho0 i j) + sol (A - (g : ℂ) • 1) J x.t rho0 i j := by ring
    have h2 : K * ε * (x.t * Real.exp (Λ * x.t)) ≤ 1 := by
      refine le_trans (mul_le_mul_of_nonneg_left (mul_le_mul hT ?_ (Real.exp_pos _).le (hx.time.trans hT)) (mul_nonneg hK0 hε)) hsm
      exact Real.exp_le_exp.2 (mul_le_mul_of_nonneg_left hT hΛ)
    rw [e1]
    refine (norm_add_le _ _).trans ?_
    have h3 := hx.error i j
    have h4 := hsol x.t hx.time hT i j
    linarith
  obtain ⟨a1, a2, a3, a4, a5, a6, a7⟩ := step_error hF hE g hg hC solver ε hs M B hM hB hsmall hε fuel deltaT h0 h1 x y hx.reference hx.positive hx.hermitian hx.trace hb h
  refine ⟨⟨by linarith [hx.time], a3, a4, a5, a6, fun i j => ?_⟩, a1, a2⟩
  set τ := y.t - x.t with hτ
  have hτ0 : 0 ≤ τ := by linarith
  have hτ1 : τ ≤ 1 := by linarith
  have hy : y.t = τ + x.t := by rw [hτ]; ring
  have e1 : y.rho i j - sol (A - (g : ℂ) • 1) J y.t rho0 i j = (y.rho i j - sol (A - (g : ℂ) • 1) J τ x.rho i j) + sol (A - (g : ℂ) • 1) J τ (x.rho - sol (A - (g : ℂ) • 1) J x.t rho0) i j := by
    rw [sol_sub, Matrix.sub_apply, ← sol_add, ← hy]
    ring
  have hK' : 0 ≤ K * ε := mul_nonneg hK0 hε
  have h2 := sol_bound _ J (hgrow τ hτ0 hτ1) (X := x.rho - sol (A - (g : ℂ) • 1) J x.t rho0) (b := K * ε * (x.t * Real.exp (Λ * x.t))) (by have := hx.time; positivity) (fun i j => by rw [Matrix.sub_apply]; exact hx.error i j) i j
  have h3 := a7 i j
  rw [← hK] at h3
  rw [e1]
  refine (norm_add_le _ _).trans ((add_le_add h3 h2).trans ?_)
  have e3 : Real.exp (Λ * τ) * (K * ε * (x.t * Real.exp (Λ * x.t))) = K * ε * (x.t * Real.exp (Λ * y.t)) := by
    rw [hy, mul_add, Real.exp_add]; ring
  rw [e3]
  have h4 : (1 : ℝ) ≤ Real.exp (Λ * y.t) := Real.one_le_exp (mul_nonneg hΛ (by linarith [hx.time]))
  have h5 : K * ε * τ ≤ K * ε * (τ * Real.exp (Λ * y.t)) := mul_le_mul_of_nonneg_left (le_mul_of_one_le_right hτ0 h4) hK'
  calc _ ≤ K * ε * (τ * Real.exp (Λ * y.t)) + K * ε * (x.t * Real.exp (Λ * y.t)) := add_le_add (by linarith) le_rfl
    _ = _ := by rw [hy]; ring

/-- An invariant of the steps is an invariant of `advance`, which arrives exactly. -/
theorem advance_invariant (solver : (ℝ → Rho n → Rho n) → ODE.Stepper (Rho n) κ) (S : Sys n) (fuel : ℕ) (endTime : ℝ) (P : St n κ → Prop)
    (hP : ∀ (x y : St n κ), P x → x.t < endTime → step solver S fuel (endTime - x.t) x = some y → P y ∧ y.t ≤ endTime) (N : ℕ) (x y : St n κ) (hx : P x) (ht : x.t ≤ endTime)
    (h : advanceLoop solver S fuel endTime N x = some y) : P y ∧ y.t = endTime := by
  induction N generalizing x with
  | zero =>
    unfold advanceLoop at h
    split_ifs at h with h1
    injection h with h; subst h
    exact ⟨hx, by linarith⟩
  | succ N ih =>
    unfold advanceLoop at h
    split_ifs at h with h1
    · injection h with h; subst h
      exact ⟨hx, by linarith⟩
    · obtain ⟨z, hz, hzy⟩ := Option.bind_eq_some_iff.1 h
      have hlt : x.t < endTime := lt_of_le_of_ne ht fun h => h1 (by rw [h]; ring)
      obtain ⟨p1, p2⟩ := hP x z hx hlt hz
      exact ih z p1 p2 hzy

theorem run_invariant (solver : (ℝ → Rho n → Rho n) → ODE.Stepper (Rho n) κ) (S : Sys n) (fuel N : ℕ) (T Dt : ℝ) (hDt : 0 < Dt) (P : St n κ → Prop)
    (hP : ∀ (x y : St n κ) (d : ℝ), P x → x.t ≤ T → 0 < d → d ≤ Dt → step solver S fuel d x = some y → P y ∧ x.t < y.t ∧ y.t ≤ x.t + d) (m : ℕ) (x y : St n κ) (hx : P x) (ht : x.t ≤ T)
    (h : runTo solver S fuel N T Dt m x = some y) : P y ∧ y.t = T := by
  induction m generalizing x with
  | zero =>
    unfold runTo at h
    split_ifs at h with h1
    injection h with h; subst h
    exact ⟨hx, le_antisymm ht (not_lt.1 h1)⟩
  | succ m ih =>
    unfold runTo at h
    split_ifs at h with h1
    · obtain ⟨z, hz, hzy⟩ := Option.bind_eq_some_iff.1 h
      have hmin : x.t + min Dt (T - x.t) ≤ T := by have := min_le_right Dt (T - x.t); linarith
      have hpos : 0 < min Dt (T - x.t) := lt_min hDt (by linarith)
      -- within the loop the time only grows
      obtain ⟨⟨p1, -⟩, p2⟩ := advance_invariant solver S fuel (x.t + min Dt (T - x.t)) (fun z => P z ∧ x.t ≤ z.t) (fun a b ha hlt hab => by
        have hd : x.t + min Dt (T - x.t) - a.t ≤ Dt := by have := min_le_left Dt (T - x.t); linarith [ha.2]
        obtain ⟨q1, q2, q3⟩ := hP a b _ ha.1 (by linarith) (by linarith) hd hab
        exact ⟨⟨q1, by linarith [ha.2]⟩, by linarith⟩) N x z ⟨hx, le_rfl⟩ (by linarith) hz
      exact ih z p1 (by rw [p2]; exact hmin) hzy
    · injection h with h; subst h
      exact ⟨hx, le_antisymm ht (not_lt.1 h1)⟩

/-! ## An exact stepper -/

open Classical in
/-- The exact stepper for the reference time `t0`: it never fails, and suggests unit steps. -/
noncomputable def exactStepper.{v} (S : Sys n) (W : Fin n → ℂ) (A : Rho n) (J : List (Rho n)) (t0 : ℝ) : ODE.Stepper (Rho n) PUnit.{v + 1} :=
  fun k s t d => (⟨true, ipFlow W A J (exactPart S t t0 s) t0 t (t + d), t + d, if 0 < d then 1 else -1⟩, k)

theorem exactStepper_good.{v} {S : Sys n} {W : Fin n → ℂ} {A : Rho n} {J : List (Rho n)} (hF : FollowsMaster S A J) (hE : ExactIs S W) (t0 : ℝ) :
    GoodSolver (exactStepper.{v} S W A J t0) (fun t rho => derivative S t t0 rho) 0 where
  controlled := by
    constructor <;> intro k s t d <;> simp only [exactStepper] <;> intros <;> simp_all
    rename_i h
    rw [if_neg (not_lt.2 h.le)]
    norm_num
  accurate k s t d b hd _ _ _ _ φ h0 hφ i j := by
    have h1 := physical_unique hF t0 t d hd.le φ hφ
    simp only [exactStepper]
    rw [zero_mul, zero_mul, norm_le_zero_iff, sub_eq_zero, h0] at *
    have h2 := congrFun (congrFun h1 i) j
    rw [hE] at h2
    simp only [ipFlow, Matrix.of_apply, add_sub_cancel_left]
    rw [← h2]
    have c1 := exp_cancel (W i) (t + d - t0)
    have c2 : conj (Complex.exp (-(W j * (t + d - t0 : ℝ)))) * conj (Complex.exp (W j * (t + d - t0 : ℝ))) = 1 := by rw [← map_mul, exp_cancel, map_one]
    calc _ = (Complex.exp (-(W i * (t + d - t0 : ℝ))) * Complex.exp (W i * (t + d - t0 : ℝ))) * φ (t + d) i j *
          (conj (Complex.exp (-(W j * (t + d - t0 : ℝ)))) * conj (Complex.exp (W j * (t + d - t0 : ℝ)))) := by ring
      _ = _ := by rw [c1, c2, one_mul, mul_one]

open Classical in
/-- The exact stepper of a system. -/
noncomputable def makeExact.{v} (S : Sys n) (W : Fin n → ℂ) (A : Rho n) (J : List (Rho n)) (f : ℝ → Rho n → Rho n) : ODE.Stepper (Rho n) PUnit.{v + 1} :=
  exactStepper S W A J (if h : ∃ t0, (fun t rho => derivative S t t0 rho) = f then h.choose else 0)

theorem makeExact_good.{v} {S : Sys n} {W : Fin n → ℂ} {A : Rho n} {J : List (Rho n)} (hF : FollowsMaster S A J) (hE : ExactIs S W) (t0 : ℝ) :
    GoodSolver (makeExact.{v} S W A J fun t rho => derivative S t t0 rho) (fun t rho => derivative S t t0 rho) 0 := by
  have h : ∃ t0', (fun t rho => derivative S t t0' rho) = (fun t rho => derivative S t t0 rho) := ⟨t0, rfl⟩
  unfold makeExact
  rw [dif_pos h]
  have := exactStepper_good.{v} hF hE h.choose
  rwa [h.choose_spec] at this

/-- With the exact stepper a step of a trajectory makes the full interval. -/
theorem makeExact_step.{v} (S : Sys n) (W : Fin n → ℂ) (A : Rho n) (J : List (Rho n)) (fuel : ℕ) (hf : 0 < fuel) (d : ℝ) (hd : 0 < d) (hd1 : d ≤ 1) (x : St n PUnit.{v + 1}) (hx : d ≤ x.ode.dtTry) :
    ∃ y, step (makeExact.{v} S W A J) S fuel d x = some y ∧ y.t = x.t + d ∧ min 1 x.ode.dtTry ≤ y.ode.dtTry := by
  have hft : ODE.firstTry d x.ode.dtTry x.ode.dtDid = d := by
    unfold ODE.firstTry
    have htry : 0 < x.ode.dtTry := lt_of_lt_of_le hd hx
    rw [sign_pos hd, sign_pos htry]
    simp only [ne_eq, not_true_eq_false, if_false, abs_of_pos hd, abs_of_pos htry]
    by_cases h : x.ode.dtTry > d
    · rw [if_pos h]
    · rw [if_neg h]; linarith
  obtain ⟨fuel, rfl⟩ := Nat.exists_eq_succ_of_ne_zero hf.ne'
  have hstep : ∃ s e, ODE.step (makeExact.{v} S W A J fun t rho => derivative S t x.t0 rho) (fuel + 1) d x.ode x.rho x.t = some (s, x.t + d, e) ∧ min 1 x.ode.dtTry ≤ e.dtTry := by
    unfold ODE.step
    rw [hft]
    simp only [ODE.tryLoop, makeExact, exactStepper, if_true, Option.map_some]
    refine ⟨_, _, rfl, ?_⟩
    simp only
    by_cases hn : ODE.nextDtTry d x.ode.dtTry ≠ 0
    · rw [if_pos hn]
      unfold ODE.nextDtTry at hn ⊢
      split_ifs at hn ⊢ with h
      · exact min_le_right _ _
      · exact absurd rfl hn
    · rw [if_neg hn, if_pos hd]
      exact min_le_left _ _
  obtain ⟨s, e, h1, h2⟩ := hstep
  unfold step
  rw [h1]
  exact ⟨_, rfl, rfl, h2⟩

theorem makeExact_run.{v} (S : Sys n) (W : Fin n → ℂ) (A : Rho n) (J : List (Rho n)) (fuel : ℕ) (hf : 0 < fuel) (T Dt : ℝ) (hD : 0 < Dt) (hD1 : Dt ≤ 1) (m : ℕ) (x : St n PUnit.{v + 1}) (hx : Dt ≤ x.ode.dtTry)
    (hm : T ≤ x.t + m * Dt) : (runTo (makeExact.{v} S W A J) S fuel 1 T Dt m x).isSome := by
  induction m generalizing x with
  | zero =>
    unfold runTo
    rw [if_neg (by push_cast at hm; linarith)]
    rfl
  | succ m ih =>
    unfold runTo
    split_ifs with h1
    · have hpos : 0 < min Dt (T - x.t) := lt_min hD (by linarith)
      have hle := min_le_left Dt (T - x.t)
      obtain ⟨y, hy, hyt, hyd⟩ := makeExact_step S W A J fuel hf (min Dt (T - x.t)) hpos (hle.trans hD1) x (hle.trans hx)
      have hadv : advanceLoop (makeExact.{v} S W A J) S fuel (x.t + min Dt (T - x.t)) 1 x = some y := by
        unfold advanceLoop
        rw [if_neg (by linarith), add_sub_cancel_left, hy]
        simp only [Option.bind_some]
        unfold advanceLoop
        rw [if_pos (by rw [hyt]; ring)]
      rw [hadv, Option.bind_some]
      rcases le_total Dt (T - x.t) with h | h
      · refine ih y ((le_min hD1 hx).trans hyd) ?_
        rw [hyt, min_eq_left h]
        push_cast at hm
        linarith
      · have : ¬ y.t < T := by rw [hyt, min_eq_right h]; linarith
        cases m with
        | zero => unfold runTo; rw [if_neg this]; rfl
        | succ m => unfold runTo; rw [if_neg this]; rfl
    · rfl

end CppQED.Master
