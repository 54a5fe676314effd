import Verif.Model.ParticleInit
import Verif.Spec.ParticleInit
import Verif.Props.FFT
import Verif.Props.Particle
import Mathlib.Analysis.SpecialFunctions.Gaussian.PoissonSummation
import Mathlib.Analysis.Calculus.ContDiff.Operations
import Mathlib.Algebra.Polynomial.Roots
import Mathlib.Topology.Algebra.GroupWithZero
import Mathlib.Analysis.SpecialFunctions.ExpDeriv

/-! # Lemmas on the initial conditions of the particle -/

namespace CppQED.ParticleEl
open CppQED.Elem CppQED.Tridiag CppQED.Spec CppQED.FFT
open ComplexConjugate Filter Topology

/-! ## The two representations -/

/-- The phase between the kernel of the transformation and the plane waves. -/
noncomputable def gridPhase (fin : ℕ) : ℂ := Complex.exp (Complex.I * (Real.pi * 2 ^ fin / 2 : ℝ))

theorem gridPhase_ne (fin : ℕ) : gridPhase fin ≠ 0 := Complex.exp_ne_zero _

theorem neg_one_exp (j : ℕ) : ((-1 : ℂ)) ^ j = Complex.exp (-(Complex.I * Real.pi * j)) := by
  have : Complex.exp (-(Complex.I * Real.pi)) = -1 := by
    rw [Complex.exp_neg, mul_comm, Complex.exp_pi_mul_I]; norm_num
  rw [← this, ← Complex.exp_nat_mul]
  congr 1
  ring

theorem neg_one_exp' (j : ℕ) : ((-1 : ℂ)) ^ j = Complex.exp (Complex.I * Real.pi * j) := by
  have : Complex.exp (Complex.I * Real.pi) = -1 := by
    rw [mul_comm, Complex.exp_pi_mul_I]
  rw [← this, ← Complex.exp_nat_mul]
  congr 1
  ring

theorem kernel_kx (fin n j : ℕ) :
    Complex.exp (Complex.I * waveNumber fin j * position fin n) / (Real.sqrt (2 ^ fin) : ℂ) = gridPhase fin * kernel (2 ^ fin) .kx n j := by
  have hN : ((2 : ℂ) ^ fin) ≠ 0 := pow_ne_zero _ two_ne_zero
  have hs : (Real.sqrt (2 ^ fin) : ℂ) = (Real.sqrt ((2 ^ fin : ℕ) : ℝ) : ℂ) := by push_cast; rfl
  unfold gridPhase kernel
  rw [hs, neg_one_exp]
  rw [div_mul_eq_mul_div, mul_div_assoc', ← Complex.exp_add, ← Complex.exp_add]
  congr 2
  unfold waveNumber position
  push_cast
  field_simp
  ring

theorem kernel_xk (fin n j : ℕ) :
    Complex.exp (-(Complex.I * waveNumber fin j * position fin n)) / (Real.sqrt (2 ^ fin) : ℂ) = (gridPhase fin)⁻¹ * kernel (2 ^ fin) .xk j n := by
  have hN : ((2 : ℂ) ^ fin) ≠ 0 := pow_ne_zero _ two_ne_zero
  have hs : (Real.sqrt (2 ^ fin) : ℂ) = (Real.sqrt ((2 ^ fin : ℕ) : ℝ) : ℂ) := by push_cast; rfl
  unfold gridPhase kernel
  rw [hs, neg_one_exp', ← Complex.exp_neg]
  rw [div_mul_eq_mul_div, mul_div_assoc', ← Complex.exp_add, ← Complex.exp_add]
  congr 2
  unfold waveNumber position
  push_cast
  field_simp
  ring

theorem renormVec_ok {size : ℕ} {psi : ℕ → ℂ} (h : ∃ n < size, psi n ≠ 0) : ∃ r : ℝ, 0 < r ∧ renormVec size psi = .ok (fun n => psi n / (r : ℂ)) ∧
    ∑ n ∈ Finset.range size, Complex.normSq (psi n / (r : ℂ)) = 1 := by
  obtain ⟨m, hm, hne⟩ := h
  have hS : 0 < ∑ n ∈ Finset.range size, Complex.normSq (psi n) :=
    Finset.sum_pos' (fun n _ => Complex.normSq_nonneg _) ⟨m, Finset.mem_range.2 hm, Complex.normSq_pos.2 hne⟩
  have hr := Real.sqrt_pos.2 hS
  refine ⟨_, hr, ?_, ?_⟩
  · unfold renormVec
    simp only [hr.ne', if_false]
  · simp only [Complex.normSq_div, Complex.normSq_ofReal, Real.mul_self_sqrt hS.le]
    rw [← Finset.sum_div, div_self hS.ne']

theorem renormVec_undef {size : ℕ} {psi : ℕ → ℂ} (h : ∀ n < size, psi n = 0) : renormVec size psi = .undef := by
  unfold renormVec
  have : ∑ n ∈ Finset.range size, Complex.normSq (psi n) = 0 := Finset.sum_eq_zero fun n hn => by simp [h n (Finset.mem_range.1 hn)]
  simp [this]

/-- A transformed vector is not null. -/
theorem transform_ne {m : ℕ} {dir : Direction} {psi phi : ℕ → ℂ} (h : ffTransformCV (2 ^ m) dir psi = some phi) (hne : ∃ n < 2 ^ m, psi n ≠ 0) : ∃ n < 2 ^ m, phi n ≠ 0 := by
  by_contra hc
  push Not at hc
  obtain ⟨n, hn, hp⟩ := hne
  obtain ⟨chi, hchi, hk⟩ := ffTransformCV_eq_kernel m (reverse dir) phi
  have := ffTransform_roundtrip m dir psi phi chi h hchi n hn
  rw [hk n hn, Finset.sum_eq_zero fun i hi => by rw [hc i (Finset.mem_range.1 hi), mul_zero]] at this
  exact hp this.symm

/-- Position amplitudes given, wanted in either representation. -/
theorem inX_ok (fin : ℕ) (kFlag : Bool) (low : ℕ → ℂ) (hne : ∃ n < 2 ^ fin, low n ≠ 0) :
    ∃ psi, (ofOption (if kFlag then ffTransformCV (2 ^ fin) .xk low else some low)).bind (renormVec (2 ^ fin)) = .ok psi ∧ Normalised fin psi ∧
      ∃ c : ℂ, c ≠ 0 ∧ ∀ n < 2 ^ fin, positionAmplitude fin kFlag psi n = c * low n := by
  cases kFlag
  · obtain ⟨r, hr, h1, h2⟩ := renormVec_ok hne
    refine ⟨_, by simpa [ofOption, Outcome.bind] using h1, h2, (r : ℂ)⁻¹, by simp [hr.ne'], fun n _ => ?_⟩
    simp [positionAmplitude, div_eq_inv_mul]
  · obtain ⟨phi, hphi, hk⟩ := ffTransformCV_eq_kernel fin .xk low
    obtain ⟨r, hr, h1, h2⟩ := renormVec_ok (transform_ne hphi hne)
    have hr' : (r : ℂ) ≠ 0 := by simp [hr.ne']
    refine ⟨_, by simpa [ofOption, Outcome.bind, hphi] using h1, h2, gridPhase fin / r, div_ne_zero (gridPhase_ne fin) hr', fun n hn => ?_⟩
    obtain ⟨chi, hchi, hk'⟩ := ffTransformCV_eq_kernel fin .kx phi
    have hback := ffTransform_roundtrip fin .xk low phi chi hphi hchi n hn
    rw [← hback, hk' n hn, Finset.mul_sum]
    simp only [positionAmplitude, if_true, kernel_kx]
    refine Finset.sum_congr rfl fun j _ => ?_
    field_simp

/-- Momentum amplitudes given, wanted in either representation. -/
theorem inK_ok (fin : ℕ) (kFlag : Bool) (low : ℕ → ℂ) (hne : ∃ n < 2 ^ fin, low n ≠ 0) :
    ∃ psi, (ofOption (if !kFlag then ffTransformCV (2 ^ fin) .kx low else some low)).bind (renormVec (2 ^ fin)) = .ok psi ∧ Normalised fin psi ∧
      ∃ c : ℂ, c ≠ 0 ∧ ∀ n < 2 ^ fin, momentumAmplitude fin kFlag psi n = c * low n := by
  cases kFlag
  · obtain ⟨phi, hphi, hk⟩ := ffTransformCV_eq_kernel fin .kx low
    obtain ⟨r, hr, h1, h2⟩ := renormVec_ok (transform_ne hphi hne)
    have hr' : (r : ℂ) ≠ 0 := by simp [hr.ne']
    refine ⟨_, by simpa [ofOption, Outcome.bind, hphi] using h1, h2, (gridPhase fin)⁻¹ / r, div_ne_zero (inv_ne_zero (gridPhase_ne fin)) hr', fun n hn => ?_⟩
    obtain ⟨chi, hchi, hk'⟩ := ffTransformCV_eq_kernel fin .xk phi
    have hback := ffTransform_roundtrip fin .kx low phi chi hphi hchi n hn
    rw [← hback, hk' n hn, Finset.mul_sum]
    simp only [momentumAmplitude, Bool.false_eq_true, if_false, kernel_xk]
    refine Finset.sum_congr rfl fun j _ => ?_
    field_simp
  · obtain ⟨r, hr, h1, h2⟩ := renormVec_ok hne
    refine ⟨_, by simpa [ofOption, Outcome.bind] using h1, h2, (r : ℂ)⁻¹, by simp [hr.ne'], fun n _ => ?_⟩
    simp [momentumAmplitude, div_eq_inv_mul]

theorem gridPhase_norm (fin : ℕ) : ‖gridPhase fin‖ = 1 := by
  unfold gridPhase
  rw [mul_comm]
  exact Complex.norm_exp_ofReal_mul_I _

theorem positionAmplitude_kernel (fin : ℕ) {psi phi : ℕ → ℂ} (h : ffTransformCV (2 ^ fin) .kx psi = some phi) : ∀ n < 2 ^ fin, positionAmplitude fin true psi n = gridPhase fin * phi n := by
  intro n hn
  obtain ⟨phi', h', hk⟩ := ffTransformCV_eq_kernel fin .kx psi
  rw [h] at h'; obtain rfl := Option.some.inj h'
  rw [hk n hn, Finset.mul_sum]
  simp only [positionAmplitude, if_true, kernel_kx]
  exact Finset.sum_congr rfl fun j _ => by ring

theorem momentumAmplitude_kernel (fin : ℕ) {psi phi : ℕ → ℂ} (h : ffTransformCV (2 ^ fin) .xk psi = some phi) : ∀ n < 2 ^ fin, momentumAmplitude fin false psi n = (gridPhase fin)⁻¹ * phi n := by
  intro n hn
  obtain ⟨phi', h', hk⟩ := ffTransformCV_eq_kernel fin .xk psi
  rw [h] at h'; obtain rfl := Option.some.inj h'
  rw [hk n hn, Finset.mul_sum]
  simp only [momentumAmplitude, Bool.false_eq_true, if_false, kernel_xk]
  exact Finset.sum_congr rfl fun j _ => by ring

theorem positionAmplitude_norm (fin : ℕ) (psi : ℕ → ℂ) : ∑ n ∈ Finset.range (2 ^ fin), Complex.normSq (positionAmplitude fin true psi n) = ∑ n ∈ Finset.range (2 ^ fin), Complex.normSq (psi n) := by
  obtain ⟨phi, h, _⟩ := ffTransformCV_eq_kernel fin .kx psi
  have hi := ffTransform_inner fin .kx psi psi phi phi h h
  have hr : ∑ n ∈ Finset.range (2 ^ fin), Complex.normSq (phi n) = ∑ n ∈ Finset.range (2 ^ fin), Complex.normSq (psi n) := by
    have : ∀ z : ℂ, conj z * z = (Complex.normSq z : ℂ) := fun z => by rw [mul_comm, Complex.mul_conj]
    simp only [this] at hi
    exact_mod_cast hi
  rw [← hr]
  refine Finset.sum_congr rfl fun n hn => ?_
  rw [positionAmplitude_kernel fin h n (Finset.mem_range.1 hn), Complex.normSq_mul, Complex.normSq_eq_norm_sq (gridPhase fin), gridPhase_norm]
  ring

/-- The two transformations are each other's inverses. -/
theorem positionAmplitude_momentumAmplitude (fin : ℕ) (psi phi : ℕ → ℂ) (hphi : ∀ j < 2 ^ fin, phi j = momentumAmplitude fin false psi j) : ∀ n < 2 ^ fin, positionAmplitude fin true phi n = psi n := by
  intro n hn
  obtain ⟨a, ha, _⟩ := ffTransformCV_eq_kernel fin .xk psi
  obtain ⟨b, hb, hk⟩ := ffTransformCV_eq_kernel fin .kx a
  have hback := ffTransform_roundtrip fin .xk psi a b ha hb n hn
  rw [← hback, hk n hn]
  simp only [positionAmplitude, if_true, kernel_kx]
  refine Finset.sum_congr rfl fun j hj => ?_
  rw [hphi j (Finset.mem_range.1 hj), momentumAmplitude_kernel fin ha j (Finset.mem_range.1 hj)]
  have := gridPhase_ne fin
  field_simp

/-! ## Hermite functions -/

theorem hermite_deriv (n : ℕ) (x : ℝ) : HasDerivAt (hermite n) (2 * x * hermite n x - hermite (n + 1) x) x ∧
    HasDerivAt (hermite (n + 1)) (2 * x * hermite (n + 1) x - hermite (n + 2) x) x := by
  induction n with
  | zero =>
    constructor
    · have : hermite 0 = fun _ => (1 : ℝ) := by funext y; simp [hermite]
      rw [this]
      simpa [hermite] using hasDerivAt_const x (1 : ℝ)
    · have : hermite 1 = fun y => 2 * y := by funext y; simp [hermite]
      rw [show hermite (0 + 1) = hermite 1 from rfl, this]
      have h := (hasDerivAt_id x).const_mul (2 : ℝ)
      have e : 2 * x * (2 * x) - hermite (0 + 2) x = 2 * 1 := by simp [hermite]
      rw [e]
      exact h
  | succ n ih =>
    refine ⟨ih.2, ?_⟩
    have e : hermite (n + 1 + 1) = fun y => 2 * y * hermite (n + 1) y - 2 * (n + 1) * hermite n y := by funext y; rw [hermite]
    rw [show hermite (n + 1 + 2) x = 2 * x * hermite (n + 2) x - 2 * ((n + 1 : ℕ) + 1) * hermite (n + 1) x from by rw [hermite]]
    have h := ((((hasDerivAt_id x).const_mul (2 : ℝ)).mul ih.2)).sub (ih.1.const_mul (2 * ((n : ℝ) + 1)))
    have e2 : hermite (n + 2) x = 2 * x * hermite (n + 1) x - 2 * (n + 1) * hermite n x := by rw [hermite]
    rw [e]
    refine HasDerivAt.congr_deriv h ?_
    simp only [id, e2]
    push_cast
    ring

/-- The Hermite functions without normalisation. -/
noncomputable def hermiteFun (n : ℕ) (u : ℝ) : ℝ := Real.exp (-u ^ 2 / 2) * hermite n u

theorem hermiteFun_succ (n : ℕ) (u : ℝ) : hermiteFun (n + 2) u = 2 * u * hermiteFun (n + 1) u - 2 * (n + 1) * hermiteFun n u := by
  unfold hermiteFun
  rw [hermite]
  ring

theorem hermiteFun_deriv (n : ℕ) (u : ℝ) : HasDerivAt (hermiteFun n) (u * hermiteFun n u - hermiteFun (n + 1) u) u := by
  have h1 : HasDerivAt (fun u : ℝ => -u ^ 2 / 2) (-u) u := by
    have := ((hasDerivAt_pow 2 u).neg).div_const 2
    refine HasDerivAt.congr_deriv this ?_
    norm_num
    ring
  have h := h1.exp.mul (hermite_deriv n u).1
  refine HasDerivAt.congr_deriv (f := hermiteFun n) h ?_
  unfold hermiteFun
  ring

theorem hermiteFun_deriv2 (n : ℕ) (u : ℝ) : HasDerivAt (fun u => u * hermiteFun n u - hermiteFun (n + 1) u) ((u ^ 2 - (2 * n + 1)) * hermiteFun n u) u := by
  have h := ((hasDerivAt_id u).mul (hermiteFun_deriv n u)).sub (hermiteFun_deriv (n + 1) u)
  refine HasDerivAt.congr_deriv h ?_
  rw [show n + 1 + 1 = n + 2 from rfl, hermiteFun_succ]
  simp only [id]
  ring

theorem hermite_contDiff (n : ℕ) : ContDiff ℝ 2 (hermite n) ∧ ContDiff ℝ 2 (hermite (n + 1)) := by
  induction n with
  | zero =>
    constructor
    · rw [show hermite 0 = fun _ => (1 : ℝ) from by funext y; simp [hermite]]; fun_prop
    · rw [show hermite (0 + 1) = fun y => 2 * y from by funext y; simp [hermite]]; fun_prop
  | succ n ih =>
    refine ⟨ih.2, ?_⟩
    rw [show hermite (n + 1 + 1) = fun y => 2 * y * hermite (n + 1) y - 2 * (n + 1) * hermite n y from by funext y; rw [hermite]]
    have := ih.1; have := ih.2
    fun_prop

theorem hermiteFun_contDiff (n : ℕ) : ContDiff ℝ 2 (hermiteFun n) := by
  unfold hermiteFun
  have := (hermite_contDiff n).1
  fun_prop

theorem hermiteFun_tendsto (n : ℕ) : (∀ k : ℕ, Tendsto (fun u : ℝ => u ^ k * hermiteFun n u) (cocompact ℝ) (𝓝 0)) ∧
    ∀ k : ℕ, Tendsto (fun u : ℝ => u ^ k * hermiteFun (n + 1) u) (cocompact ℝ) (𝓝 0) := by
  have base : ∀ k : ℕ, Tendsto (fun u : ℝ => u ^ k * hermiteFun 0 u) (cocompact ℝ) (𝓝 0) := by
    intro k
    have h := tendsto_rpow_abs_mul_exp_neg_mul_sq_cocompact (a := 1 / 2) (by norm_num) k
    refine squeeze_zero_norm (fun u => ?_) h
    rw [norm_mul, norm_pow, Real.norm_eq_abs, Real.rpow_natCast]
    unfold hermiteFun
    rw [hermite, mul_one, Real.norm_of_nonneg (Real.exp_pos _).le]
    apply le_of_eq
    congr 2
    ring
  induction n with
  | zero =>
    refine ⟨base, fun k => ?_⟩
    have h := (base (k + 1)).const_mul 2
    rw [mul_zero] at h
    refine h.congr fun u => ?_
    unfold hermiteFun
    simp only [zero_add, hermite]
    ring
  | succ n ih =>
    refine ⟨ih.2, fun k => ?_⟩
    have h := ((ih.2 (k + 1)).const_mul 2).sub ((ih.1 k).const_mul (2 * ((n : ℝ) + 1)))
    rw [mul_zero, mul_zero, sub_zero] at h
    refine h.congr fun u => ?_
    rw [show n + 1 + 1 = n + 2 from rfl, hermiteFun_succ]
    ring

theorem hermite_poly (n : ℕ) : (∃ P : Polynomial ℝ, P.natDegree ≤ n ∧ P.coeff n = 2 ^ n ∧ ∀ x, P.eval x = hermite n x) ∧
    ∃ P : Polynomial ℝ, P.natDegree ≤ n + 1 ∧ P.coeff (n + 1) = 2 ^ (n + 1) ∧ ∀ x, P.eval x = hermite (n + 1) x := by
  induction n with
  | zero =>
    refine ⟨⟨1, by simp, by simp, fun x => by simp [hermite]⟩, ⟨Polynomial.C 2 * Polynomial.X, ?_, ?_, fun x => by simp [hermite]⟩⟩
    · exact (Polynomial.natDegree_C_mul_le _ _).trans Polynomial.natDegree_X_le
    · simp
  | succ n ih =>
    refine ⟨ih.2, ?_⟩
    obtain ⟨⟨P, p1, p2, p3⟩, ⟨Q, q1, q2, q3⟩⟩ := ih
    refine ⟨Polynomial.C 2 * (Polynomial.X * Q) - Polynomial.C (2 * ((n : ℝ) + 1)) * P, ?_, ?_, fun x => ?_⟩
    · refine (Polynomial.natDegree_sub_le _ _).trans (max_le ?_ ?_)
      · refine (Polynomial.natDegree_C_mul_le _ _).trans ?_
        refine Polynomial.natDegree_mul_le.trans ?_
        rw [Polynomial.natDegree_X]; omega
      · exact (Polynomial.natDegree_C_mul_le _ _).trans (by omega)
    · rw [Polynomial.coeff_sub, Polynomial.coeff_C_mul, Polynomial.coeff_C_mul, Polynomial.coeff_X_mul, q2, Polynomial.coeff_eq_zero_of_natDegree_lt (by omega)]
      ring
    · simp only [Polynomial.eval_sub, Polynomial.eval_mul, Polynomial.eval_C, Polynomial.eval_X, p3, q3]
      rw [show hermite (n + 1 + 1) x = 2 * x * hermite (n + 1) x - 2 * (n + 1) * hermite n x from by rw [hermite]]
      ring

/-- A Hermite polynomial does not vanish in more points than its degree. -/
theorem hermite_ne (n N : ℕ) (h : n < N) (p : ℕ → ℝ) (hp : Function.Injective p) : ∃ i < N, hermite n (p i) ≠ 0 := by
  obtain ⟨⟨P, p1, p2, p3⟩, _⟩ := hermite_poly n
  by_contra hc
  push Not at hc
  have hP : P ≠ 0 := by
    rintro rfl
    simp only [Polynomial.coeff_zero] at p2
    exact absurd p2.symm (by positivity)
  have hsub : ((Finset.range N).image p) ⊆ P.roots.toFinset := by
    intro y hy
    obtain ⟨i, hi, rfl⟩ := Finset.mem_image.1 hy
    rw [Multiset.mem_toFinset, Polynomial.mem_roots hP, Polynomial.IsRoot.def, p3]
    exact hc i (Finset.mem_range.1 hi)
  have h1 := Finset.card_le_card hsub
  rw [Finset.card_image_of_injective _ hp, Finset.card_range] at h1
  have h2 := (Multiset.toFinset_card_le P.roots).trans (Polynomial.card_roots' P)
  omega

theorem affine_tendsto {s : ℝ} (hs : s ≠ 0) (x₀ : ℝ) : Tendsto (fun x : ℝ => (x - x₀) / s) (cocompact ℝ) (cocompact ℝ) := by
  have h := ((Homeomorph.subRight x₀).trans (Homeomorph.mulRight₀ s⁻¹ (inv_ne_zero hs))).isClosedEmbedding.tendsto_cocompact
  refine h.congr fun x => ?_
  simp [div_eq_mul_inv]

/-- The rescaled Hermite functions are the states of the harmonic oscillator with characteristic length `|s|`, `s⁴=ω/κ`. -/
theorem hermiteFun_harmonic {ω κ x₀ s : ℝ} (hω : 0 < ω) (hs : s ≠ 0) (h : κ * s ^ 4 = ω) (n : ℕ) : HarmonicState ω κ x₀ n fun x => hermiteFun n ((x - x₀) / s) := by
  have haff : ∀ x, HasDerivAt (fun x : ℝ => (x - x₀) / s) (1 / s) x := fun x => ((hasDerivAt_id x).sub_const x₀).div_const s
  have d1 : ∀ x, HasDerivAt (fun x => hermiteFun n ((x - x₀) / s)) (((x - x₀) / s * hermiteFun n ((x - x₀) / s) - hermiteFun (n + 1) ((x - x₀) / s)) * (1 / s)) x :=
    fun x => by
      have h := (hermiteFun_deriv n ((x - x₀) / s)).comp x (haff x)
      exact h
  have d2 : ∀ x, HasDerivAt (fun x => ((x - x₀) / s * hermiteFun n ((x - x₀) / s) - hermiteFun (n + 1) ((x - x₀) / s)) * (1 / s))
      ((((x - x₀) / s) ^ 2 - (2 * n + 1)) * hermiteFun n ((x - x₀) / s) * (1 / s) * (1 / s)) x :=
    fun x => by
      have h := ((hermiteFun_deriv2 n ((x - x₀) / s)).comp x (haff x)).mul_const (1 / s)
      exact h
  refine ⟨?_, ?_, ?_, fun x => ?_⟩
  · exact (hermiteFun_contDiff n).comp (by fun_prop)
  · obtain ⟨i, _, hi⟩ := hermite_ne n (n + 1) (by omega) (fun i : ℕ => (i : ℝ)) Nat.cast_injective
    intro hc
    have := congrFun hc ((i : ℝ) * s + x₀)
    simp only [add_sub_cancel_right, mul_div_cancel_right₀ _ hs, Pi.zero_apply, hermiteFun] at this
    rcases mul_eq_zero.1 this with h1 | h1
    · exact (Real.exp_pos _).ne' h1
    · exact hi h1
  · have := ((hermiteFun_tendsto n).1 0).comp (affine_tendsto hs x₀)
    simpa [Function.comp_def] using this
  · have e1 : deriv (fun x => hermiteFun n ((x - x₀) / s)) = fun x => ((x - x₀) / s * hermiteFun n ((x - x₀) / s) - hermiteFun (n + 1) ((x - x₀) / s)) * (1 / s) := funext fun x => (d1 x).deriv
    rw [e1, (d2 x).deriv]
    have hs2 : 0 < s ^ 2 := by positivity
    have e2 : Real.sqrt (ω * κ) = ω / s ^ 2 := by
      have hκ : κ = ω / s ^ 4 := by field_simp; exact h
      rw [hκ, show ω * (ω / s ^ 4) = (ω / s ^ 2) ^ 2 by field_simp, Real.sqrt_sq (by positivity)]
    rw [e2, ← h]
    generalize hermiteFun n ((x - x₀) / s) = g
    field_simp
    ring

end CppQED.ParticleEl
