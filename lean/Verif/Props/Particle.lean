import Verif.Lemmas.Particle
import Verif.Props.Qbit
import Mathlib.Analysis.SpecialFunctions.Integrals.Basic
import Mathlib.MeasureTheory.Integral.IntervalIntegral.FundThmCalculus

/-!
# The particle: C26, C75
-/

namespace CppQED.ParticleEl
open CppQED.Elem CppQED.Tridiag CppQED.ModeEl CppQED.Spec
open ComplexConjugate

/-! ## Matrix elements of trigonometric polynomials -/

theorem integral_exp_int (m : ℤ) : ∫ x in (-Real.pi)..Real.pi, Complex.exp (Complex.I * m * x) = if m = 0 then 2 * (Real.pi : ℂ) else 0 := by
  by_cases h : m = 0
  · subst h
    simp
    ring
  · rw [if_neg h]
    have hc : Complex.I * (m : ℂ) ≠ 0 := mul_ne_zero Complex.I_ne_zero (by exact_mod_cast h)
    rw [integral_exp_mul_complex hc]
    have : Complex.exp (Complex.I * m * (Real.pi : ℂ)) = Complex.exp (Complex.I * m * ((-Real.pi : ℝ) : ℂ)) := by
      rw [Complex.exp_eq_exp_iff_exists_int]
      exact ⟨m, by push_cast; ring⟩
    rw [this, sub_self, zero_div]

theorem planeWave_product (fin i j : ℕ) (n : ℤ) (x : ℝ) :
    conj (planeWave fin i x) * Complex.exp (Complex.I * (n * x)) * planeWave fin j x = 1 / (2 * (Real.pi : ℂ)) * Complex.exp (Complex.I * ((j + n - i : ℤ) : ℂ) * x) := by
  unfold planeWave
  have hs : (Real.sqrt (2 * Real.pi) : ℂ) * Real.sqrt (2 * Real.pi) = 2 * Real.pi := by
    rw [← Complex.ofReal_mul, Real.mul_self_sqrt (by positivity)]; push_cast; ring
  have h0 : (Real.sqrt (2 * Real.pi) : ℂ) ≠ 0 := by
    intro h; rw [h, zero_mul] at hs
    have := Real.pi_pos.ne'
    exact this (by exact_mod_cast (mul_eq_zero.1 hs.symm).resolve_left (by norm_num))
  rw [map_mul, ← Complex.exp_conj, map_div₀, map_one, Complex.conj_ofReal]
  have e : Complex.exp (Complex.I * ((j + n - i : ℤ) : ℂ) * x) =
      Complex.exp (conj (Complex.I * (waveNumber fin i : ℂ) * x)) * Complex.exp (Complex.I * (n * x)) * Complex.exp (Complex.I * (waveNumber fin j : ℂ) * x) := by
    rw [← Complex.exp_add, ← Complex.exp_add]
    congr 1
    simp only [map_mul, Complex.conj_I, Complex.conj_ofReal, waveNumber]
    push_cast
    ring
  rw [e, ← hs]
  field_simp

/-- The exponential shifts the momentum. -/
theorem multiplication_exp (fin : ℕ) (n : ℤ) (i j : ℕ) : multiplication fin (fun x => Complex.exp (Complex.I * (n * x))) i j = expE n i j := by
  unfold multiplication
  simp only [planeWave_product]
  rw [intervalIntegral.integral_const_mul, integral_exp_int]
  unfold expE
  have hpi : (Real.pi : ℂ) ≠ 0 := by exact_mod_cast Real.pi_ne_zero
  by_cases h : (j + n - i : ℤ) = 0
  · rw [if_pos h, if_pos (by omega)]; field_simp
  · rw [if_neg h, if_neg (by omega), mul_zero]

theorem planeWave_continuous (fin j : ℕ) : Continuous (planeWave fin j) := by unfold planeWave; fun_prop

theorem multiplication_add (fin : ℕ) {f g : ℝ → ℂ} (hf : Continuous f) (hg : Continuous g) (i j : ℕ) :
    multiplication fin (fun x => f x + g x) i j = multiplication fin f i j + multiplication fin g i j := by
  unfold multiplication
  have hi := planeWave_continuous fin i
  have hj := planeWave_continuous fin j
  rw [← intervalIntegral.integral_add]
  · congr 1; funext x; ring
  · exact (((Complex.continuous_conj.comp hi).mul hf).mul hj).intervalIntegrable _ _
  · exact (((Complex.continuous_conj.comp hi).mul hg).mul hj).intervalIntegrable _ _

theorem multiplication_smul (fin : ℕ) (c : ℂ) (f : ℝ → ℂ) (i j : ℕ) : multiplication fin (fun x => c * f x) i j = c * multiplication fin f i j := by
  unfold multiplication
  rw [← intervalIntegral.integral_const_mul]
  congr 1; funext x; ring

theorem multiplication_trig (fin : ℕ) (n : ℤ) (c0 cp cm : ℂ) (i j : ℕ) :
    multiplication fin (fun x => c0 + cp * Complex.exp (Complex.I * ((n : ℤ) * x)) + cm * Complex.exp (Complex.I * ((-n : ℤ) * x))) i j =
      c0 * (if i = j then 1 else 0) + cp * expE n i j + cm * expE (-n) i j := by
  rw [multiplication_add fin (by fun_prop) (by fun_prop), multiplication_add fin (by fun_prop) (by fun_prop), multiplication_smul, multiplication_smul, multiplication_exp, multiplication_exp]
  have h1 : multiplication fin (fun _ => c0) i j = c0 * (if i = j then 1 else 0) := by
    have := multiplication_smul fin c0 (fun x => Complex.exp (Complex.I * ((0 : ℤ) * x))) i j
    rw [multiplication_exp] at this
    simp only [expE, add_zero, Nat.cast_inj] at this
    rw [← this]
    congr 1; funext x; simp
  rw [h1]

/-! ## Mode functions -/

/-- The mode functions in terms of exponentials. -/
theorem waveFunction_exp (n : ℤ) (x : ℝ) : ∃ e : ℂ, e ≠ 0 ∧ conj e = e⁻¹ ∧ Complex.exp (Complex.I * ((2 * n : ℤ) * x)) = e * e ∧ Complex.exp (Complex.I * ((-(2 * n) : ℤ) * x)) = e⁻¹ * e⁻¹ ∧
    waveFunction ⟨.sin, n⟩ x = (e⁻¹ - e) * Complex.I / 2 ∧ waveFunction ⟨.cos, n⟩ x = (e + e⁻¹) / 2 ∧ waveFunction ⟨.plus, n⟩ x = e ∧ waveFunction ⟨.minus, n⟩ x = e⁻¹ := by
  have e1 : ((n : ℂ) * x) * Complex.I = Complex.I * (n * x) := by ring
  have e2 : -((n : ℂ) * x) * Complex.I = -(Complex.I * (n * x)) := by ring
  refine ⟨Complex.exp (Complex.I * (n * x)), Complex.exp_ne_zero _, ?_, ?_, ?_, ?_, ?_, rfl, ?_⟩
  · rw [← Complex.exp_conj, ← Complex.exp_neg]; simp
  · rw [← Complex.exp_add]; push_cast; ring_nf
  · rw [← Complex.exp_neg, ← Complex.exp_add]; push_cast; ring_nf
  · simp only [waveFunction]
    rw [Complex.ofReal_sin, Complex.sin, ← Complex.exp_neg]; push_cast; rw [e1, e2]
  · simp only [waveFunction]
    rw [Complex.ofReal_cos, Complex.cos, ← Complex.exp_neg]; push_cast; rw [e1, e2]
  · simp only [waveFunction]; rw [Complex.exp_neg]

/-- The coefficients of the composition of two mode functions with the same, nonnegative wave number. -/
noncomputable def coef : MFT → MFT → ℂ × ℂ × ℂ
  | .sin, .sin => (1 / 2, -(1 / 4), -(1 / 4))
  | .cos, .cos => (1 / 2, 1 / 4, 1 / 4)
  | .sin, .cos | .cos, .sin => (0, -Complex.I / 4, Complex.I / 4)
  | .plus, .plus | .minus, .minus => (1, 0, 0)
  | .plus, .minus => (0, 0, 1)
  | .minus, .plus => (0, 1, 0)
  | .plus, .sin | .sin, .minus => (-Complex.I / 2, 0, Complex.I / 2)
  | .plus, .cos | .cos, .minus => (1 / 2, 0, 1 / 2)
  | .minus, .cos | .cos, .plus => (1 / 2, 1 / 2, 0)
  | .minus, .sin | .sin, .plus => (Complex.I / 2, -Complex.I / 2, 0)

theorem composition_coef (t1 t2 : MFT) (n : ℤ) (x : ℝ) : conj (waveFunction ⟨t1, n⟩ x) * waveFunction ⟨t2, n⟩ x =
    (coef t1 t2).1 + (coef t1 t2).2.1 * Complex.exp (Complex.I * ((2 * n : ℤ) * x)) + (coef t1 t2).2.2 * Complex.exp (Complex.I * ((-(2 * n) : ℤ) * x)) := by
  obtain ⟨e, h0, h1, h2, h3, h4, h5, h6, h7⟩ := waveFunction_exp n x
  have hI : Complex.I * Complex.I = -1 := Complex.I_mul_I
  rw [h2, h3]
  have i0 : e * e⁻¹ = 1 := mul_inv_cancel₀ h0
  generalize e⁻¹ = f at *
  have h1' : conj f = e := by rw [← h1]; simp
  cases t1 <;> cases t2 <;> simp only [h4, h5, h6, h7, map_mul, map_div₀, map_sub, map_add, h1, h1', Complex.conj_I, map_ofNat, coef]
  · linear_combination (-(e - f) * (f - e) / 4) * hI + (1 / 2) * i0
  · linear_combination (0 : ℂ) * i0
  · linear_combination (-Complex.I / 2 + Complex.I) * i0
  · linear_combination (-Complex.I / 2) * i0
  · linear_combination (0 : ℂ) * i0
  · linear_combination (1 / 2) * i0
  · linear_combination (1 / 2) * i0
  · linear_combination (1 / 2) * i0
  · linear_combination (-Complex.I / 2) * i0
  · linear_combination (1 / 2) * i0
  · linear_combination i0
  · linear_combination (0 : ℂ) * i0
  · linear_combination (Complex.I / 2) * i0
  · linear_combination (1 / 2) * i0
  · linear_combination (0 : ℂ) * i0
  · linear_combination i0

/-- The normalisation does not change the function up to the sign. -/
theorem normalize_waveFunction (t : MFT) (n : ℤ) (x : ℝ) :
    waveFunction ⟨t, n⟩ x = ((if t = .sin ∧ n < 0 then -1 else 1 : ℤ) : ℂ) * waveFunction ⟨(normalizeMF t n).1, |n|⟩ x ∧ ((normalizeMF t n).1 = .sin ↔ t = .sin) := by
  by_cases h : n < 0
  · have ha : |n| = -n := abs_of_neg h
    rw [ha]
    have h' : ¬ 0 < n := by omega
    cases t <;> simp [normalizeMF, h, h', waveFunction]
  · have ha : |n| = n := abs_of_nonneg (by omega)
    rw [ha]
    cases t <;> simp [normalizeMF, h, waveFunction]

variable {p : Part}

theorem composition_normalized (hp : p.fin < 63) (sign n : ℤ) (h0 : 0 ≤ n) (hn : 2 * n.natAbs ≤ 2 ^ p.fin) (t1 t2 : MFT) (hs : t1 ≠ .sin → t2 ≠ .sin → sign = 1) :
    ∃ T k, mfCompositionNormalized p sign n t1 t2 = .ok T ∧
      POp (2 ^ p.fin) p.m k T (fun i j => (sign : ℂ) * ((coef t1 t2).1 * (if i = j then 1 else 0) + (coef t1 t2).2.1 * expE (2 * n) i j + (coef t1 t2).2.2 * expE (-(2 * n)) i j)) := by
  obtain ⟨id, i1, i2⟩ := identity_dop (2 ^ p.fin) (Nat.pow_lt_pow_right (by norm_num) hp) (by positivity)
  obtain ⟨c, c1, c2⟩ := cosOf_ok hp (2 * n) (by omega)
  obtain ⟨s, s1, s2⟩ := sinOf_ok hp (2 * n) (by omega)
  obtain ⟨e, e1, e2⟩ := expOf_ok hp (2 * n) (by omega)
  obtain ⟨f, f1, f2⟩ := expOf_ok hp (-2 * n) (by omega)
  have hneg : -2 * n = -(2 * n) := by ring
  unfold mfCompositionNormalized
  rw [i1]
  simp only [Outcome.bind]
  have I2 : 1 / (2 * Complex.I) = -Complex.I / 2 := by rw [one_div, mul_inv, Complex.inv_I]; ring
  have fin : ∀ {k : ℕ} {T : Tri} {E F : Dens}, POp (2 ^ p.fin) p.m k T E → (∀ i j, E i j = F i j) → ∃ T' k', Outcome.ok T = .ok T' ∧ POp (2 ^ p.fin) p.m k' T' F :=
    fun h he => ⟨_, _, rfl, h.congr fun i _ j _ => he i j⟩
  cases t1 <;> cases t2 <;> simp only [reduceCtorEq, and_self, and_false, false_and, or_false, false_or, or_self, if_true, if_false, not_true_eq_false, and_true, c1, s1, e1, f1, coef]
  · obtain ⟨r, r1, r2⟩ := i2.sub c2
    rw [r1]
    exact fin ((r2.scale _).scale _) fun i j => by ring
  · exact fin ((s2.scale _).scale _) fun i j => by rw [I2]; ring
  · obtain ⟨r, r1, r2⟩ := e2.subD i2
    rw [r1]
    exact fin (((r2.scale _).scale _).scale _) fun i j => by push_cast; ring
  · obtain ⟨r, r1, r2⟩ := f2.subD i2
    rw [r1]
    exact fin (((r2.scale _).scale _).scale _) fun i j => by rw [hneg]; ring
  · exact fin ((s2.scale _).scale _) fun i j => by rw [I2]; ring
  · rw [hs (by simp) (by simp)]
    obtain ⟨r, r1, r2⟩ := i2.add c2
    rw [r1]
    exact fin (r2.scale _) fun i j => by push_cast; ring
  · rw [hs (by simp) (by simp)]
    obtain ⟨r, r1, r2⟩ := i2.add e2
    rw [r1]
    exact fin (r2.scale _) fun i j => by push_cast; ring
  · rw [hs (by simp) (by simp)]
    obtain ⟨r, r1, r2⟩ := i2.add f2
    rw [r1]
    exact fin (r2.scale _) fun i j => by rw [hneg]; push_cast; ring
  · obtain ⟨r, r1, r2⟩ := f2.subD i2
    rw [r1]
    exact fin (((r2.scale _).scale _).scale _) fun i j => by rw [hneg]; ring
  · rw [hs (by simp) (by simp)]
    obtain ⟨r, r1, r2⟩ := i2.add f2
    rw [r1]
    exact fin (r2.scale _) fun i j => by rw [hneg]; push_cast; ring
  · rw [hs (by simp) (by simp)]
    exact fin (i2.pop p.m) fun i j => by push_cast; ring
  · rw [hs (by simp) (by simp)]
    exact fin f2 fun i j => by rw [hneg]; push_cast; ring
  · obtain ⟨r, r1, r2⟩ := e2.subD i2
    rw [r1]
    exact fin (((r2.scale _).scale _).scale _) fun i j => by push_cast; ring
  · rw [hs (by simp) (by simp)]
    obtain ⟨r, r1, r2⟩ := i2.add e2
    rw [r1]
    exact fin (r2.scale _) fun i j => by push_cast; ring
  · rw [hs (by simp) (by simp)]
    exact fin e2 fun i j => by push_cast; ring
  · rw [hs (by simp) (by simp)]
    exact fin (i2.pop p.m) fun i j => by push_cast; ring

theorem mfComposition_pop (hp : p.fin < 63) (f g : ModeFunction) (h : |f.nK| = |g.nK|) (hn : 2 * f.nK.natAbs ≤ 2 ^ p.fin) :
    ∃ T k, mfComposition p f g = .ok T ∧ POp (2 ^ p.fin) p.m k T (multiplication p.fin fun x => conj (waveFunction f x) * waveFunction g x) := by
  obtain ⟨t1, n1⟩ := f
  obtain ⟨t2, n2⟩ := g
  simp only at h hn
  unfold mfComposition
  simp only [ne_eq, h, not_true_eq_false, if_false]
  rw [← h]
  obtain ⟨T, k, h1, h2⟩ := composition_normalized hp ((if t1 = .sin ∧ n1 < 0 then -1 else 1) * (if t2 = .sin ∧ n2 < 0 then -1 else 1)) |n1| (abs_nonneg _) (by
      rw [Int.natAbs_abs]; exact hn) (normalizeMF t1 n1).1 (normalizeMF t2 n2).1 (by
      intro a b
      rw [Ne, (normalize_waveFunction t1 n1 0).2] at a
      rw [Ne, (normalize_waveFunction t2 n2 0).2] at b
      simp [a, b])
  refine ⟨T, k, h1, h2.congr fun i _ j _ => ?_⟩
  rw [← multiplication_trig, ← multiplication_smul]
  congr 1
  funext x
  rw [← composition_coef, (normalize_waveFunction t1 n1 x).1, (normalize_waveFunction t2 n2 x).1, ← h, map_mul, Int.cast_mul]
  have : ∀ z : ℤ, conj (z : ℂ) = z := fun z => by simp
  rw [this]
  ring

theorem gridK_eq (fin i : ℕ) : gridK fin i = waveNumber fin i := by
  unfold gridK kMax deltaX xMax waveNumber
  have := Real.pi_ne_zero
  field_simp

theorem gridX_eq (fin i : ℕ) : gridX fin i = position fin i := by
  unfold gridX deltaX xMax position
  ring

/-- The picture of the particle. -/
noncomputable def picture (p : Part) (E : Dens) (t : ℝ) : Dens := fun i j =>
  if p.exact then Complex.exp (Complex.I * p.omrec * waveNumber p.fin i ^ 2 * t) * E i j * Complex.exp (-Complex.I * p.omrec * waveNumber p.fin j ^ 2 * t) else E i j

theorem picture_eq (p : Part) (E : Dens) (t : ℝ) (i j : ℕ) : interactionPicture p.m E t i j = picture p E t i j := by
  unfold interactionPicture picture Part.m
  by_cases h : p.exact = true
  · simp only [h, if_true, mainDiagonal, gridK_eq]
    rw [← Complex.exp_neg]
    congr 2
    · congr 1; ring
    · ring
  · simp [h]

/-- **C26.** The composition of two mode functions is the operator of the function `conj(f) g`, in the picture of the particle at all times, for all types and signs of wave numbers. The wave
number of the composition must fit in the space of the particle. -/
theorem mfComposition_eq (hp : p.fin < 63) (f g : ModeFunction) (h : |f.nK| = |g.nK|) (hn : 2 * f.nK.natAbs ≤ 2 ^ p.fin) :
    ∃ T, mfComposition p f g = .ok T ∧ T.rank = 1 ∧ T.dims = [2 ^ p.fin] ∧
      (∀ i < 2 ^ p.fin, ∀ j < 2 ^ p.fin, Spec.entry T [i] [j] = multiplication p.fin (fun x => conj (waveFunction f x) * waveFunction g x) i j) ∧
      ∀ t : ℝ, ∀ i < 2 ^ p.fin, ∀ j < 2 ^ p.fin, Spec.entry (propagate T t) [i] [j] = picture p (multiplication p.fin fun x => conj (waveFunction f x) * waveFunction g x) t i j := by
  obtain ⟨T, k, h1, h2⟩ := mfComposition_pop hp f g h hn
  exact ⟨T, h1, h2.ok.rank, h2.ok.dims, h2.ok.entry, fun t i hi j hj => by rw [h2.propagate t i j hi hj, picture_eq]⟩

/-- **C26.** It throws if the wave numbers are different. -/
theorem mfComposition_throws (p : Part) (f g : ModeFunction) (h : |f.nK| ≠ |g.nK|) : mfComposition p f g = .throw := by
  unfold mfComposition
  simp only [ne_eq, h, not_false_eq_true, if_true]

theorem mfNKX_pop (hp : p.fin < 63) (f : ModeFunction) (hn : f.nK.natAbs ≤ 2 ^ p.fin) :
    ∃ T, mfNKX p f = .ok T ∧ POp (2 ^ p.fin) p.m f.nK.natAbs T (multiplication p.fin (waveFunction f)) := by
  obtain ⟨t, n⟩ := f
  simp only at hn ⊢
  have key : ∀ (c0 cp cm : ℂ) (F : ℝ → ℂ), (∀ x, F x = c0 + cp * Complex.exp (Complex.I * ((n : ℤ) * x)) + cm * Complex.exp (Complex.I * ((-n : ℤ) * x))) → ∀ i j,
      multiplication p.fin F i j = c0 * (if i = j then 1 else 0) + cp * expE n i j + cm * expE (-n) i j := by
    intro c0 cp cm F hF i j
    rw [← multiplication_trig]
    congr 1; funext x; exact hF x
  have I2 : 1 / (2 * Complex.I) = -Complex.I / 2 := by rw [one_div, mul_inv, Complex.inv_I]; ring
  have neg : ∀ x : ℝ, Complex.exp (Complex.I * ((-n : ℤ) * x)) = Complex.exp (-(Complex.I * (n * x))) := by intro x; congr 1; push_cast; ring
  have r1 : ∀ x : ℝ, (n : ℂ) * x * Complex.I = Complex.I * (n * x) := fun x => by ring
  have r2 : ∀ x : ℝ, -((n : ℂ) * x) * Complex.I = -(Complex.I * (n * x)) := fun x => by ring
  cases t
  · obtain ⟨T, h1, h2⟩ := sinOf_ok hp n hn
    refine ⟨T, h1, h2.congr fun i _ j _ => ?_⟩
    rw [key 0 (-Complex.I / 2) (Complex.I / 2) _ (fun x => ?_), I2]
    · ring
    · simp only [waveFunction, neg]
      rw [Complex.ofReal_sin, Complex.sin]; push_cast; rw [r1, r2]; ring
  · obtain ⟨T, h1, h2⟩ := cosOf_ok hp n hn
    refine ⟨T, h1, h2.congr fun i _ j _ => ?_⟩
    rw [key 0 (1 / 2) (1 / 2) _ (fun x => ?_)]
    · ring
    · simp only [waveFunction, neg]
      rw [Complex.ofReal_cos, Complex.cos]; push_cast; rw [r1, r2]; ring
  · obtain ⟨T, h1, h2⟩ := expOf_ok hp n hn
    refine ⟨T, h1, h2.congr fun i _ j _ => ?_⟩
    exact (multiplication_exp p.fin n i j).symm
  · obtain ⟨T, h1, h2⟩ := expOf_ok hp (-n) (by omega)
    rw [Int.natAbs_neg] at h2
    refine ⟨T, h1, h2.congr fun i _ j _ => ?_⟩
    rw [← multiplication_exp]
    congr 1; funext x
    rw [neg]; rfl

/-- **C26.** The operator of a mode function is that of the function, in the picture of the particle. -/
theorem mfNKX_eq (hp : p.fin < 63) (f : ModeFunction) (hn : f.nK.natAbs ≤ 2 ^ p.fin) :
    ∃ T, mfNKX p f = .ok T ∧ T.rank = 1 ∧ T.dims = [2 ^ p.fin] ∧
      (∀ i < 2 ^ p.fin, ∀ j < 2 ^ p.fin, Spec.entry T [i] [j] = multiplication p.fin (waveFunction f) i j) ∧
      ∀ t : ℝ, ∀ i < 2 ^ p.fin, ∀ j < 2 ^ p.fin, Spec.entry (propagate T t) [i] [j] = picture p (multiplication p.fin (waveFunction f)) t i j := by
  obtain ⟨T, h1, h2⟩ := mfNKX_pop hp f hn
  exact ⟨T, h1, h2.ok.rank, h2.ok.dims, h2.ok.entry, fun t i hi j hj => by rw [h2.propagate t i j hi hj, picture_eq]⟩

/-- `modeFunction` at the product of the wave number and the position. -/
theorem modeFunction_eq (f : ModeFunction) (x : ℝ) : modeFunction f.type (f.nK * x) = waveFunction f x := by
  unfold modeFunction waveFunction
  cases f.type <;> simp [neg_mul]

example : ∃ T, mfComposition ⟨3, 1, true⟩ ⟨.sin, 2⟩ ⟨.minus, -2⟩ = .ok T :=
  let ⟨T, h, _⟩ := mfComposition_eq (p := ⟨3, 1, true⟩) (by norm_num) ⟨.sin, 2⟩ ⟨.minus, -2⟩ (by norm_num) (by norm_num)
  ⟨T, h⟩

end CppQED.ParticleEl
