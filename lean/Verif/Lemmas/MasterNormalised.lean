import Verif.Lemmas.Positivity
import Verif.Props.MasterGlobal
import Verif.Spec.MasterNormalised
import Mathlib.Analysis.Calculus.Deriv.MeanValue

/-! # Helper lemmas about Master-equation trajectories of systems which do not conserve the trace -/

namespace CppQED.Master
open Matrix Unravel Spec
open scoped ComplexConjugate ComplexOrder

variable {n : ℕ} {κ : Type*}

/-! ## The trace of the solution -/

theorem posSemidef_trace (X : Rho n) (hX : X.PosSemidef) : 0 ≤ X.trace.re ∧ X.trace = (X.trace.re : ℂ) := by
  have := Complex.nonneg_iff.1 hX.trace_nonneg
  exact ⟨this.1, Complex.ext rfl (by simp [← this.2])⟩

/-- The elements of a positive semidefinite matrix are not larger than its trace. -/
theorem posSemidef_le_trace (X : Rho n) (hX : X.PosSemidef) (i j : Fin n) : ‖X i j‖ ≤ X.trace.re := by
  obtain ⟨h0, h1⟩ := posSemidef_trace X hX
  rcases h0.eq_or_lt with h | h
  · have : X = 0 := by
      refine hX.trace_eq_zero_iff.1 ?_
      rw [h1, ← h]; rfl
    rw [this]; simp
  · have hd := density_of_posSemidef (((X.trace.re)⁻¹ : ℝ) • X) (by
      refine hX.smul (a := (X.trace.re)⁻¹) (inv_nonneg.2 h.le)) (by
      rw [Matrix.trace_smul, h1]
      simp [h.ne'])
    have := hd.bounded i j
    rw [Matrix.smul_apply, norm_smul, Real.norm_of_nonneg (inv_nonneg.2 h.le), inv_mul_le_iff₀ h, mul_one] at this
    exact this

theorem trace_lindblad (A : Rho n) (J : List (Rho n)) (X : Rho n) : (lindblad A J X).trace = ((A + Aᴴ + (J.map fun j => jᴴ * j).sum) * X).trace := by
  unfold lindblad
  have h : ((J.map fun j => j * X * jᴴ).sum).trace = ((J.map fun j => jᴴ * j).sum * X).trace := by
    induction J with
    | nil => simp
    | cons j J ih => rw [List.map_cons, List.sum_cons, Matrix.trace_add, ih, List.map_cons, List.sum_cons, Matrix.add_mul, Matrix.trace_add, Matrix.mul_assoc, Matrix.trace_mul_cycle', ← Matrix.mul_assoc]
  rw [Matrix.trace_add, h, Matrix.trace_add, Matrix.add_mul, Matrix.trace_add, Matrix.add_mul, Matrix.trace_add, Matrix.trace_mul_comm X]

theorem trace_mul_bound (M X : Rho n) (hX : X.PosSemidef) : |((M * X).trace).re| ≤ (∑ i, ∑ j, ‖M i j‖) * X.trace.re := by
  refine (Complex.abs_re_le_norm _).trans ?_
  rw [Matrix.trace]
  refine (norm_sum_le _ _).trans ?_
  rw [Finset.sum_mul]
  refine Finset.sum_le_sum fun i _ => ?_
  rw [Matrix.diag_apply, Matrix.mul_apply, Finset.sum_mul]
  refine (norm_sum_le _ _).trans (Finset.sum_le_sum fun j _ => ?_)
  rw [norm_mul]
  exact mul_le_mul_of_nonneg_left (posSemidef_le_trace X hX j i) (_root_.norm_nonneg _)

/-- The trace of the solution does not decrease faster than exponentially. -/
theorem sol_trace_lower (A : Rho n) (J : List (Rho n)) : ∃ c, 0 ≤ c ∧ ∀ rho : Rho n, rho.PosSemidef → rho.trace = 1 → ∀ t, 0 ≤ t → Real.exp (-(c * t)) ≤ (sol A J t rho).trace.re := by
  set c := ∑ i, ∑ j, ‖(A + Aᴴ + (J.map fun j => jᴴ * j).sum) i j‖ with hc
  refine ⟨c, Finset.sum_nonneg fun i _ => Finset.sum_nonneg fun j _ => _root_.norm_nonneg _, fun rho hp h1 t ht => ?_⟩
  have hd : ∀ s, HasDerivAt (fun r => (sol A J r rho).trace.re) ((lindblad A J (sol A J s rho)).trace.re) s := by
    intro s
    have := HasDerivAt.fun_sum (u := Finset.univ) (A := fun (i : Fin n) r => sol A J r rho i i) (A' := fun i => lindblad A J (sol A J s rho) i i) (x := s) (fun i _ => by
      have := hasDerivAt_sol A J rho 0 s i i
      simpa only [sub_zero] using this)
    have h2 := (Complex.reCLM.hasFDerivAt (x := ∑ i, sol A J s rho i i)).comp_hasDerivAt s this
    exact h2
  have hg : ∀ s, HasDerivAt (fun r => Real.exp (c * r) * (sol A J r rho).trace.re) (Real.exp (c * s) * c * (sol A J s rho).trace.re + Real.exp (c * s) * (lindblad A J (sol A J s rho)).trace.re) s := by
    intro s
    have h1 : HasDerivAt (fun r : ℝ => Real.exp (c * r)) (Real.exp (c * s) * c) s := by
      have := ((hasDerivAt_id s).const_mul c).exp
      simpa using this
    exact h1.mul (hd s)
  have hmono : MonotoneOn (fun r => Real.exp (c * r) * (sol A J r rho).trace.re) (Set.Ici 0) := by
    refine monotoneOn_of_deriv_nonneg (convex_Ici 0) (fun s _ => (hg s).continuousAt.continuousWithinAt) (fun s _ => (hg s).differentiableAt.differentiableWithinAt) fun s hs => ?_
    rw [interior_Ici] at hs
    rw [(hg s).deriv, trace_lindblad, mul_assoc, ← mul_add]
    refine mul_nonneg (Real.exp_pos _).le ?_
    have := trace_mul_bound (A + Aᴴ + (J.map fun j => jᴴ * j).sum) _ (sol_posSemidef A J rho hp s (le_of_lt hs))
    rw [← hc] at this
    have := (abs_le.1 this).1
    linarith
  have := hmono (Set.mem_Ici.2 le_rfl) (Set.mem_Ici.2 ht) ht
  simp only [mul_zero, Real.exp_zero, one_mul, sol_zero, h1, Complex.one_re] at this
  rw [Real.exp_neg, inv_le_iff_one_le_mul₀ (Real.exp_pos _), mul_comm]
  exact this

/-! ## The step -/

/-- A step without supposing anything of the trace. -/
theorem step_scaled {S : Sys n} {W : Fin n → ℂ} {A : Rho n} {J : List (Rho n)} (hF : FollowsMaster S A J) (hE : ExactIs S W)
    (solver : (ℝ → Rho n → Rho n) → ODE.Stepper (Rho n) κ) (ε : ℝ) (hs : ∀ t0, GoodSolver (solver fun t rho => derivative S t t0 rho) (fun t rho => derivative S t t0 rho) ε)
    (B : ℝ) (hB : 1 ≤ B) (fuel : ℕ) (deltaT : ℝ) (h0 : 0 < deltaT) (h1 : deltaT ≤ 1) (x y : St n κ) (ht0 : x.t0 = x.t) (htry : 0 < x.ode.dtTry) (hH : x.rho.IsHermitian)
    (hb : ∀ i j, ‖x.rho i j‖ ≤ B) (h : step solver S fuel deltaT x = some y) :
    x.t < y.t ∧ y.t ≤ x.t + deltaT ∧ y.t0 = y.t ∧ 0 < y.ode.dtTry ∧ y.rho.IsHermitian ∧
      ∃ X : Rho n, y.rho = renorm (twoTimesRealPart X) ∧ (X.trace.re ≠ 0 → y.rho.trace = 1) ∧
        ∀ i j, ‖X i j - sol A J (y.t - x.t) x.rho i j‖ ≤ Real.exp (∑ k, ‖W k‖) ^ 2 * (ε * (y.t - x.t) * B) := by
  obtain ⟨g1, g2, rho, t', e, g3, g4, g5⟩ := step_hermitian solver S fuel deltaT x y h
  obtain ⟨a1, a2, a3, -, a5, -, ⟨k', a7, a8, -⟩, -⟩ := ODE.step_forward _ (hs x.t0).controlled fuel deltaT h0 x.ode htry x.rho x.t rho t' e g3
  have hy : y.ode = e ∧ y.rho = renorm (twoTimesRealPart (exactPart S t' x.t0 rho)) := by
    unfold step at h
    rw [g3] at h
    simp only [Option.map_some, Option.some.injEq] at h
    subst h
    exact ⟨rfl, rfl⟩
  set τ := e.dtDid with hτ
  have hyt : y.t = x.t + τ := by rw [g4, a1]
  have hτ1 : τ ≤ 1 := a3.trans h1
  let φ : ℝ → Rho n := ipFlow W A J x.rho x.t x.t
  have hφ0 : φ x.t = x.rho := by
    ext i j
    simp [φ, ipFlow, sol_zero]
  have hacc := (hs x.t0).accurate k' x.rho x.t τ B a2 hH hB hb a7 φ hφ0 (fun r hr _ => ⟨ipFlow_hermitian W A J x.rho hH x.t x.t r hr, fun i j => by
    rw [ht0]; exact ipFlow_hasDerivAt hF hE x.rho hH x.t x.t r hr i j⟩)
  rw [← a8] at hacc
  have hexφ : exactPart S (x.t + τ) x.t (φ (x.t + τ)) = sol A J τ x.rho := by
    rw [exact_ipFlow hE, add_sub_cancel_left]
  have hdiff := exact_bound hE x.t τ a2.le hτ1 rho (φ (x.t + τ)) hacc
  rw [hexφ] at hdiff
  refine ⟨by linarith, by linarith, g2, by rw [hy.1]; exact a5, g1, exactPart S t' x.t0 rho, hy.2, g5, fun i j => ?_⟩
  rw [hyt, add_sub_cancel_left, a1, ht0]
  exact hdiff i j

/-- Multiplying back by the trace undoes the renormalisation. -/
theorem renorm_back (X : Rho n) (h : X.trace.re ≠ 0) (i j : Fin n) : (X.trace.re : ℂ) * renorm (twoTimesRealPart X) i j = (X i j + conj (X j i)) / 2 := by
  have hsum : (∑ k, (X + Xᴴ) k k).re = 2 * (X.trace).re := by
    simp only [Matrix.add_apply, Matrix.conjTranspose_apply, Finset.sum_add_distrib, Complex.add_re, Matrix.trace, Matrix.diag_apply, Complex.re_sum]
    simp
    ring
  rw [twoTimesRealPart_eq]
  simp only [renorm, Matrix.of_apply]
  rw [hsum]
  have : (X.trace.re : ℂ) ≠ 0 := by exact_mod_cast h
  simp only [Matrix.add_apply, Matrix.conjTranspose_apply, Complex.star_def]
  push_cast
  field_simp

theorem hermitised_error (X σ : Rho n) (hσ : σ.IsHermitian) {δ : ℝ} (hX : ∀ i j, ‖X i j - σ i j‖ ≤ δ) (i j : Fin n) : ‖(X i j + conj (X j i)) / 2 - σ i j‖ ≤ δ := by
  have hh : conj (σ j i) = σ i j := congrFun (congrFun hσ i) j
  have e : (X i j + conj (X j i)) / 2 - σ i j = ((X i j - σ i j) + conj (X j i - σ j i)) / 2 := by rw [map_sub, hh]; ring
  rw [e, norm_div, Complex.norm_ofNat]
  have := (norm_add_le (X i j - σ i j) (conj (X j i - σ j i))).trans (add_le_add (hX i j) (le_of_eq (Complex.norm_conj _)))
  linarith [hX j i]

theorem trace_dist (X Y : Rho n) {δ : ℝ} (h : ∀ i j, ‖X i j - Y i j‖ ≤ δ) : ‖X.trace - Y.trace‖ ≤ n * δ := by
  have h1 : X.trace - Y.trace = ∑ k, (X k k - Y k k) := by simp [Matrix.trace, Finset.sum_sub_distrib]
  rw [h1]
  refine (norm_sum_le _ _).trans ((Finset.sum_le_sum fun k _ => h k k).trans ?_)
  simp

theorem sol_smul (A : Rho n) (J : List (Rho n)) (τ : ℝ) (p : ℝ) (X : Rho n) : sol A J τ ((p : ℂ) • X) = (p : ℂ) • sol A J τ X := by
  unfold sol
  have := (semi (gen A J) τ).map_smul p (fun i j => X i j)
  ext i j
  have h2 := congrFun (congrFun this i) j
  simp only [Pi.smul_apply, Complex.real_smul] at h2
  rw [Matrix.smul_apply, smul_eq_mul, Matrix.of_apply, Matrix.of_apply, ← h2]
  rfl

/-! ## The trajectory -/

/-- What is known about the trajectory in the course of the run: up to a positive factor `p` it is the solution. -/
structure NearRay (A : Rho n) (J : List (Rho n)) (rho0 : Rho n) (K Λ ε : ℝ) (x : St n κ) : Prop where
  time : 0 ≤ x.t
  reference : x.t0 = x.t
  positive : 0 < x.ode.dtTry
  hermitian : x.rho.IsHermitian
  trace : x.rho.trace = 1
  error : ∃ p : ℝ, ∀ i j, ‖(p : ℂ) * x.rho i j - sol A J x.t rho0 i j‖ ≤ K * ε * (x.t * Real.exp (Λ * x.t))

/-- The constants of the bound: `M` bounds the elements of the solution until `T`, `q` its trace from below, and `η` is the error. -/
theorem ray_bounds {rho σ : Rho n} {p M q η : ℝ} (h1 : rho.trace = 1) (hM : ∀ i j, ‖σ i j‖ ≤ M) (hq : 0 < q) (hσ : q ≤ σ.trace.re) (hη : ∀ i j, ‖(p : ℂ) * rho i j - σ i j‖ ≤ η)
    (hs : n * η ≤ q / 2) (hη1 : η ≤ 1) (hσr : σ.trace = (σ.trace.re : ℂ)) : q / 2 ≤ p ∧ p ≤ n * M + 1 + q ∧ (∀ i j, ‖rho i j‖ ≤ 1 + 2 * (M + 1) / q) ∧ |σ.trace.re - p| ≤ n * η := by
  have ht : ‖((p : ℂ) • rho).trace - σ.trace‖ ≤ n * η := trace_dist _ _ fun i j => by rw [Matrix.smul_apply, smul_eq_mul]; exact hη i j
  rw [Matrix.trace_smul, h1, smul_eq_mul, mul_one, hσr, ← Complex.ofReal_sub, Complex.norm_real, Real.norm_eq_abs] at ht
  have hab := abs_le.1 ht
  have hp : q / 2 ≤ p := by linarith [hab.1]
  have hMt : σ.trace.re ≤ n * M := by
    refine (Complex.re_le_norm _).trans ?_
    rw [Matrix.trace]
    refine (norm_sum_le _ _).trans ((Finset.sum_le_sum fun k _ => hM k k).trans ?_)
    simp
  refine ⟨hp, by linarith [hab.2], fun i j => ?_, by rw [abs_sub_comm]; exact ht⟩
  have hp0 : 0 < p := by linarith
  have h2 : ‖(p : ℂ) * rho i j‖ ≤ η + M := by
    have : (p : ℂ) * rho i j = ((p : ℂ) * rho i j - σ i j) + σ i j := by ring
    rw [this]
    exact (norm_add_le _ _).trans (add_le_add (hη i j) (hM i j))
  rw [norm_mul, Complex.norm_real, Real.norm_of_nonneg hp0.le] at h2
  have h3 : ‖rho i j‖ ≤ (η + M) / p := by rw [le_div_iff₀ hp0]; linarith
  have hM0 : 0 ≤ M + 1 := by have := (_root_.norm_nonneg _).trans (hM i j); linarith
  have h4 : (η + M) / p ≤ 2 * (M + 1) / q := by
    rw [div_le_div_iff₀ hp0 hq]
    nlinarith
  linarith

theorem nearRay_step {S : Sys n} {W : Fin n → ℂ} {A : Rho n} {J : List (Rho n)} (hF : FollowsMaster S A J) (hE : ExactIs S W)
    (solver : (ℝ → Rho n → Rho n) → ODE.Stepper (Rho n) κ) (ε : ℝ) (hs : ∀ t0, GoodSolver (solver fun t rho => derivative S t t0 rho) (fun t rho => derivative S t t0 rho) ε) (hε : 0 ≤ ε)
    (M q Λ T K : ℝ) (hM0 : 0 ≤ M) (hq : 0 < q) (hΛ : 0 ≤ Λ) (hgrow : ∀ τ, 0 ≤ τ → τ ≤ 1 → ‖semi (gen A J) τ‖ ≤ Real.exp (Λ * τ))
    (hK : K = (n * M + 1 + q) * (Real.exp (∑ k, ‖W k‖) ^ 2 * (1 + 2 * (M + 1) / q))) (rho0 : Rho n) (hp0 : rho0.PosSemidef)
    (hsol : ∀ t, 0 ≤ t → t ≤ T + 1 → (∀ i j, ‖sol A J t rho0 i j‖ ≤ M) ∧ q ≤ (sol A J t rho0).trace.re) (hsm : K * ε * ((T + 1) * Real.exp (Λ * (T + 1))) ≤ 1)
    (hsn : n * (K * ε * ((T + 1) * Real.exp (Λ * (T + 1)))) ≤ q / 2)
    (fuel : ℕ) (deltaT : ℝ) (h0 : 0 < deltaT) (h1 : deltaT ≤ 1) (x y : St n κ) (hx : NearRay A J rho0 K Λ ε x) (hT : x.t ≤ T) (h : step solver S fuel deltaT x = some y) :
    NearRay A J rho0 K Λ ε y ∧ x.t < y.t ∧ y.t ≤ x.t + deltaT := by
  have hK0 : 0 ≤ K := by rw [hK]; positivity
  have hKε : 0 ≤ K * ε := mul_nonneg hK0 hε
  have hmono : ∀ t, 0 ≤ t → t ≤ T + 1 → K * ε * (t * Real.exp (Λ * t)) ≤ K * ε * ((T + 1) * Real.exp (Λ * (T + 1))) := fun t a b =>
    mul_le_mul_of_nonneg_left (mul_le_mul b (Real.exp_le_exp.2 (mul_le_mul_of_nonneg_left b hΛ)) (Real.exp_pos _).le (a.trans b)) hKε
  have hreal : ∀ t, 0 ≤ t → (sol A J t rho0).trace = ((sol A J t rho0).trace.re : ℂ) := fun t a => (posSemidef_trace _ (sol_posSemidef A J rho0 hp0 t a)).2
  have hn0 : (0 : ℝ) ≤ n := Nat.cast_nonneg _
  have hxT : x.t ≤ T + 1 := by linarith
  obtain ⟨p, hp⟩ := hx.error
  obtain ⟨b1, b2, b3, -⟩ := ray_bounds hx.trace (hsol x.t hx.time hxT).1 hq (hsol x.t hx.time hxT).2 hp ((mul_le_mul_of_nonneg_left (hmono x.t hx.time hxT) hn0).trans hsn)
    ((hmono x.t hx.time hxT).trans hsm) (hreal x.t hx.time)
  have hB : (1 : ℝ) ≤ 1 + 2 * (M + 1) / q := by have : 0 ≤ 2 * (M + 1) / q := by positivity
                                                linarith
  obtain ⟨a1, a2, a3, a4, a5, X, a6, a7, a8⟩ := step_scaled hF hE solver ε hs _ hB fuel deltaT h0 h1 x y hx.reference hx.positive hx.hermitian b3 h
  set τ := y.t - x.t with hτ
  have hτ0 : 0 ≤ τ := by linarith
  have hτ1 : τ ≤ 1 := by linarith
  have hy : y.t = τ + x.t := by rw [hτ]; ring
  have hy0 : 0 ≤ y.t := by linarith [hx.time]
  have hyT : y.t ≤ T + 1 := by linarith
  have hpp : 0 ≤ p := by linarith
  -- the hermitised matrix before the renormalisation
  have hherm := hermitised_error X _ (sol_hermitian A J x.rho hx.hermitian τ hτ0) a8
  have herr : ∀ i j, ‖(p : ℂ) * ((X i j + conj (X j i)) / 2) - sol A J y.t rho0 i j‖ ≤ K * ε * (y.t * Real.exp (Λ * y.t)) := by
    intro i j
    have e1 : (p : ℂ) * ((X i j + conj (X j i)) / 2) - sol A J y.t rho0 i j =
        (p : ℂ) * ((X i j + conj (X j i)) / 2 - sol A J τ x.rho i j) + sol A J τ ((p : ℂ) • x.rho - sol A J x.t rho0) i j := by
      rw [sol_sub, Matrix.sub_apply, ← sol_add, ← hy, sol_smul, Matrix.smul_apply, smul_eq_mul]
      ring
    have h2 := sol_bound _ J (hgrow τ hτ0 hτ1) (X := (p : ℂ) • x.rho - sol A J x.t rho0) (b := K * ε * (x.t * Real.exp (Λ * x.t))) (by have := hx.time; positivity)
      (fun i j => by rw [Matrix.sub_apply, Matrix.smul_apply, smul_eq_mul]; exact hp i j) i j
    have h3 : ‖(p : ℂ) * ((X i j + conj (X j i)) / 2 - sol A J τ x.rho i j)‖ ≤ K * ε * τ := by
      rw [norm_mul, Complex.norm_real, Real.norm_of_nonneg hpp]
      refine (mul_le_mul b2 (hherm i j) (_root_.norm_nonneg _) (by positivity)).trans (le_of_eq ?_)
      rw [hK]; ring
    rw [e1]
    refine (norm_add_le _ _).trans ((add_le_add h3 h2).trans ?_)
    have e3 : Real.exp (Λ * τ) * (K * ε * (x.t * Real.exp (Λ * x.t))) = K * ε * (x.t * Real.exp (Λ * y.t)) := by
      rw [hy, mul_add, Real.exp_add]; ring
    rw [e3]
    have h4 : (1 : ℝ) ≤ Real.exp (Λ * y.t) := Real.one_le_exp (mul_nonneg hΛ hy0)
    have h5 : K * ε * τ ≤ K * ε * (τ * Real.exp (Λ * y.t)) := mul_le_mul_of_nonneg_left (le_mul_of_one_le_right hτ0 h4) hKε
    calc _ ≤ K * ε * (τ * Real.exp (Λ * y.t)) + K * ε * (x.t * Real.exp (Λ * y.t)) := add_le_add h5 le_rfl
      _ = _ := by rw [hy]; ring
  -- its trace
  have htr : X.trace.re ≠ 0 := by
    let Y : Rho n := Matrix.of fun i j => (p : ℂ) * ((X i j + conj (X j i)) / 2)
    have hYt : Y.trace = ((p * X.trace.re : ℝ) : ℂ) := by
      simp only [Y, Matrix.trace, Matrix.diag_apply, Matrix.of_apply, ← Finset.mul_sum, ← Finset.sum_div, Complex.add_conj, Complex.re_sum]
      push_cast
      rw [← Finset.mul_sum]
      ring
    have h2 := trace_dist Y (sol A J y.t rho0) herr
    rw [hYt, hreal y.t hy0, ← Complex.ofReal_sub, Complex.norm_real, Real.norm_eq_abs] at h2
    have h3 := (abs_le.1 (h2.trans ((mul_le_mul_of_nonneg_left (hmono y.t hy0 hyT) hn0).trans hsn))).1
    have h4 := (hsol y.t hy0 hyT).2
    intro h5
    rw [h5, mul_zero] at h3
    linarith
  refine ⟨⟨hy0, a3, a4, a5, a7 htr, p * X.trace.re, fun i j => ?_⟩, a1, a2⟩
  have := renorm_back X htr i j
  rw [a6, Complex.ofReal_mul, mul_assoc, this]
  exact herr i j

theorem ray_final {rho σ : Rho n} {p M q η s : ℝ} (hM0 : 0 ≤ M) (hM : ∀ i j, ‖σ i j‖ ≤ M) (hq : 0 < q) (hσ : q ≤ s) (hη : ∀ i j, ‖(p : ℂ) * rho i j - σ i j‖ ≤ η) (hp : q / 2 ≤ p) (hd : |s - p| ≤ n * η)
    (i j : Fin n) : ‖rho i j - σ i j / (s : ℂ)‖ ≤ η * (2 / q) + M * (n * η) * (2 / q * (1 / q)) := by
  have hs0 : 0 < s := lt_of_lt_of_le hq hσ
  have hpp : 0 < p := by linarith
  have hη0 : 0 ≤ η := (_root_.norm_nonneg _).trans (hη i j)
  have hpc : (p : ℂ) ≠ 0 := by exact_mod_cast hpp.ne'
  have hsc : (s : ℂ) ≠ 0 := by exact_mod_cast hs0.ne'
  have e2 : rho i j - σ i j / (s : ℂ) = ((p : ℂ) * rho i j - σ i j) * ((1 / p : ℝ) : ℂ) + σ i j * ((s - p : ℝ) : ℂ) * ((1 / p * (1 / s) : ℝ) : ℂ) := by
    push_cast
    field_simp
    ring
  have hp2 : 1 / p ≤ 2 / q := by rw [div_le_div_iff₀ hpp hq]; linarith
  have hs3 : 1 / s ≤ 1 / q := one_div_le_one_div_of_le hq hσ
  rw [e2]
  refine (norm_add_le _ _).trans ?_
  rw [norm_mul, norm_mul, norm_mul, Complex.norm_real, Complex.norm_real, Complex.norm_real, Real.norm_of_nonneg (by positivity : 0 ≤ 1 / p), Real.norm_of_nonneg (by positivity : 0 ≤ 1 / p * (1 / s)), Real.norm_eq_abs]
  exact add_le_add (mul_le_mul (hη i j) hp2 (by positivity) hη0)
    (mul_le_mul (mul_le_mul (hM i j) hd (_root_.abs_nonneg _) hM0) (mul_le_mul hp2 hs3 (by positivity) (by positivity)) (by positivity) (by positivity))

end CppQED.Master
