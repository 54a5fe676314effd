import Verif.Spec.Revival
import Verif.Props.Relaxation
import Verif.Props.CompositeTrace
import Verif.Props.ParticleDynamics

/-! # Property C175: the motion and the revivals of a free particle -/

namespace CppQED.Revival
open CppQED.Elem CppQED.Spec CppQED.ModeEl CppQED.Evolved Matrix CppQED.Master CppQED.Relax CppQED.Interactions
open scoped ComplexConjugate ComplexOrder

theorem particleH_diag (fin : ℕ) (ω : ℝ) : mat (2 ^ fin) (particleH fin ω fun _ => 0) = Matrix.diagonal fun i : Fin (2 ^ fin) => -(Complex.I * ω * (waveNumber fin i : ℂ) ^ 2) := by
  ext i j
  rw [mat_apply, particleH, Matrix.diagonal_apply]
  have hz : multiplication fin (fun _ => 0) i j = 0 := by simp [multiplication]
  rw [hz, add_zero, Complex.div_I]
  by_cases h : i = j
  · rw [if_pos h, if_pos (by rw [h])]; ring
  · rw [if_neg h, if_neg (fun h' => h (Fin.ext h'))]; simp

/-- The elements of the density matrix collect the phases of their plane waves. -/
theorem solution (fin : ℕ) (ω T : ℝ) (hT : 0 ≤ T) (ρ : ℝ → Rho (2 ^ fin)) (h : Unravel.Solves (mat (2 ^ fin) (particleH fin ω fun _ => 0)) [] T ρ) (i j : Fin (2 ^ fin)) :
    ρ T i j = phase fin ω T i * conj (phase fin ω T j) * ρ 0 i j := by
  have := decays (-(Complex.I * ω * (waveNumber fin i : ℂ) ^ 2) + conj (-(Complex.I * ω * (waveNumber fin j : ℂ) ^ 2))) T hT (fun s => ρ s i j) fun t a b => by
    have := h t a b i j
    rw [particleH_diag] at this
    convert this using 1
    simp only [Spec.lindblad, List.map_nil, List.sum_nil, Matrix.zero_apply, add_zero, Matrix.add_apply, Matrix.diagonal_mul, Matrix.diagonal_conjTranspose, Matrix.mul_diagonal, Pi.star_apply, Complex.star_def]
    ring
  rw [this, phase, phase, ← Complex.exp_conj, ← Complex.exp_add]
  congr 2
  simp only [map_neg, map_mul, map_pow, Complex.conj_I, Complex.conj_ofReal]
  ring

theorem phase_norm (fin : ℕ) (ω T : ℝ) (i : ℕ) : ‖phase fin ω T i‖ = 1 := by
  unfold phase
  rw [show -(Complex.I * ω * (waveNumber fin i : ℂ) ^ 2 * T) = ((-(ω * waveNumber fin i ^ 2 * T) : ℝ) : ℂ) * Complex.I by push_cast; ring]
  exact Complex.norm_exp_ofReal_mul_I _

theorem phase_unit (fin : ℕ) (ω T : ℝ) (i : ℕ) : phase fin ω T i * conj (phase fin ω T i) = 1 := by
  rw [Complex.mul_conj, Complex.normSq_eq_norm_sq, phase_norm]; simp

/-- **C175.** A free particle in Master-equation trajectories, in each picture: the element of the density matrix between two plane waves collects the difference of their phases `ω k² T`. -/
theorem free_motion.{v} (pp : ParticleEl.Pars) (hp : pp.fin < 63) (qmp : Picture) : ∃ e, ParticleEl.make pp qmp = .ok e ∧ e.dim = 2 ^ pp.fin ∧ ∀ T, 0 ≤ T → ∃ C, 0 ≤ C ∧
      (∀ rho : Rho e.dim, rho.PosSemidef → rho.trace = 1 → ∃ x, Reached.{v} e.toSys C T 0 rho x) ∧
      ∀ ε rho x, Reached.{v} e.toSys C T ε rho x → ∀ i j, ‖x i j - phase pp.fin pp.omrec T i * conj (phase pp.fin pp.omrec T j) * rho i j‖ ≤ C * ε := by
  obtain ⟨e, h1, h2, h4⟩ := particle_free pp hp qmp
  have h3 : e.exApplicable = true := by
    unfold ParticleEl.make at h1
    split_ifs at h1
    · unfold ParticleEl.particleSch at h1
      obtain ⟨_, -, h⟩ := bind_ok h1
      injection h with h; subst h; rfl
    · unfold ParticleEl.particle at h1
      injection h1 with h; subst h; rfl
  have h3 := element_normalised.{v} h4 (by intro j hj; simp at hj) h3
  refine ⟨e, h1, h2, fun T hT => ?_⟩
  generalize hS : e.toSys = S at h3 ⊢
  clear hS h4
  revert S
  rw [h2]
  intro S h3
  obtain ⟨C, hC, H⟩ := reached_close h3 T hT
  refine ⟨C, hC, fun rho a b => reached_exists h3 _ T hT rho a b, fun ε rho x hx i j => ?_⟩
  obtain ⟨a, b, hε, ρ, hs, hz, hc⟩ := H _ ε rho x le_rfl hx
  subst hz
  rw [List.map_nil] at hs
  have hsol := solution pp.fin pp.omrec T hT ρ hs
  have ht : (ρ T).trace = 1 := by
    rw [← b, Matrix.trace, Matrix.trace]
    refine Finset.sum_congr rfl fun k _ => ?_
    rw [Matrix.diag_apply, Matrix.diag_apply, hsol, phase_unit, one_mul]
  have hnorm : normalised ρ T = ρ T := by
    ext i j
    simp [normalised, ht]
  rw [← hsol, ← hnorm]
  exact hc i j

/-! ## The wave numbers are integers -/

theorem waveNumber_int {fin : ℕ} (hf : 0 < fin) (i : ℕ) : waveNumber fin i = (((i : ℤ) - 2 ^ (fin - 1) : ℤ) : ℝ) := by
  obtain ⟨f, rfl⟩ : ∃ f, fin = f + 1 := ⟨fin - 1, by omega⟩
  unfold waveNumber
  rw [Nat.add_sub_cancel, pow_succ]
  push_cast
  ring

theorem exp_int (n : ℤ) : Complex.exp (Complex.I * Real.pi * n) = (-1) ^ n := by
  rw [show Complex.I * Real.pi * (n : ℂ) = n * (Real.pi * Complex.I) by ring, Complex.exp_int_mul, Complex.exp_pi_mul_I]

theorem phase_int {fin : ℕ} (hf : 0 < fin) {ω T : ℝ} {M : ℤ} (h : ω * T = M * Real.pi) (i : ℕ) : phase fin ω T i = (-1) ^ (-(M * ((i : ℤ) - 2 ^ (fin - 1)) ^ 2)) := by
  rw [phase, waveNumber_int hf, ← exp_int]
  congr 1
  have : (ω : ℂ) * T = M * Real.pi := by exact_mod_cast congrArg (fun r : ℝ => (r : ℂ)) h
  push_cast
  linear_combination (-Complex.I * ((i : ℂ) - 2 ^ (fin - 1)) ^ 2) * this

theorem phase_even {fin : ℕ} (hf : 0 < fin) {ω T : ℝ} {M : ℤ} (h : ω * T = M * Real.pi) (hM : Even M) (i : ℕ) : phase fin ω T i = 1 := by
  rw [phase_int hf h]
  exact Even.neg_one_zpow ((hM.mul_right _).neg)

theorem phase_odd {fin : ℕ} (hf : 0 < fin) {ω T : ℝ} {M : ℤ} (h : ω * T = M * Real.pi) (hM : Odd M) (i : ℕ) : phase fin ω T i = (-1) ^ ((i : ℤ) - 2 ^ (fin - 1)) := by
  rw [phase_int hf h]
  rcases Int.even_or_odd ((i : ℤ) - 2 ^ (fin - 1)) with hk | hk
  · rw [Even.neg_one_zpow hk, Even.neg_one_zpow]
    exact ((hk.pow_of_ne_zero (by norm_num)).mul_left _).neg
  · rw [Odd.neg_one_zpow hk, Odd.neg_one_zpow]
    exact (hM.mul hk.pow).neg

/-- A free flight of half of the period moves each plane wave to the opposite point. -/
theorem wave_opposite {fin : ℕ} (hf : 0 < fin) {m : ℕ} (hm : m < 2 ^ fin) (i : ℕ) : (-1) ^ ((i : ℤ) - 2 ^ (fin - 1)) * wave fin m i = wave fin (opposite fin m) i := by
  have hN : 2 ^ fin / 2 = 2 ^ (fin - 1) := by
    obtain ⟨f, rfl⟩ : ∃ f, fin = f + 1 := ⟨fin - 1, by omega⟩
    rw [Nat.add_sub_cancel, pow_succ]; omega
  have h2 : (2 : ℕ) ^ fin = 2 * 2 ^ (fin - 1) := by rw [← pow_succ']; congr 1; omega
  have h2' : (2 : ℝ) ^ fin = 2 * 2 ^ (fin - 1) := by exact_mod_cast h2
  have h0 : (2 : ℝ) ^ (fin - 1) ≠ 0 := by positivity
  unfold wave
  rw [← mul_div_assoc]
  congr 1
  have key : ∀ s : ℤ, (s = 1 ∨ s = -1) → position fin (opposite fin m) = position fin m + s * Real.pi →
      (-1) ^ ((i : ℤ) - 2 ^ (fin - 1)) * Complex.exp (Complex.I * waveNumber fin i * position fin m) = Complex.exp (Complex.I * waveNumber fin i * position fin (opposite fin m)) := by
    intro s hs h
    rw [h, Complex.ofReal_add, mul_add, Complex.exp_add, mul_comm]
    congr 1
    rw [waveNumber_int hf]
    rcases hs with rfl | rfl
    · rw [← exp_int]; congr 1; push_cast; ring
    · rw [show (-1 : ℂ) ^ ((i : ℤ) - 2 ^ (fin - 1)) = (-1) ^ (-((i : ℤ) - 2 ^ (fin - 1))) by
        rw [_root_.zpow_neg, ← _root_.inv_zpow]; norm_num, ← exp_int]
      congr 1; push_cast; ring
  by_cases hlt : m + 2 ^ (fin - 1) < 2 ^ fin
  · refine key 1 (Or.inl rfl) ?_
    unfold opposite position
    rw [hN, Nat.mod_eq_of_lt hlt]
    push_cast
    rw [h2']
    field_simp
    ring
  · refine key (-1) (Or.inr rfl) ?_
    have : (m + 2 ^ (fin - 1)) % 2 ^ fin = m - 2 ^ (fin - 1) := by
      rw [Nat.mod_eq_sub_mod (by omega), Nat.mod_eq_of_lt (by omega)]; omega
    unfold opposite position
    rw [hN, this, Nat.cast_sub (by omega)]
    push_cast
    rw [h2']
    field_simp
    ring

theorem wave_norm (fin m i : ℕ) : ‖wave fin m i‖ ^ 2 = 1 / 2 ^ fin := by
  unfold wave
  rw [norm_div, show Complex.I * (waveNumber fin i : ℂ) * (position fin m : ℂ) = ((waveNumber fin i * position fin m : ℝ) : ℂ) * Complex.I by push_cast; ring, Complex.norm_exp_ofReal_mul_I,
    Complex.norm_real, div_pow, one_pow, Real.norm_eq_abs, sq_abs, Real.sq_sqrt (by positivity)]

theorem wave_norm_le (fin m i : ℕ) : ‖wave fin m i‖ ≤ 1 := by
  have h := wave_norm fin m i
  have h1 : (1 : ℝ) / 2 ^ fin ≤ 1 := by rw [div_le_one (by positivity)]; exact one_le_pow₀ (by norm_num)
  have h2 := norm_nonneg (wave fin m i)
  nlinarith

theorem inPosition_close {fin : ℕ} (x y : Matrix (Fin (2 ^ fin)) (Fin (2 ^ fin)) ℂ) {δ : ℝ} (h : ∀ i j, ‖x i j - y i j‖ ≤ δ) (m n : ℕ) : ‖inPosition fin x m n - inPosition fin y m n‖ ≤ (2 ^ fin) ^ 2 * δ := by
  unfold inPosition
  simp only [← Finset.sum_sub_distrib]
  refine (norm_sum_le _ _).trans ?_
  have h1 : ∀ i : Fin (2 ^ fin), ‖∑ j : Fin (2 ^ fin), (wave fin m i * x i j * conj (wave fin n j) - wave fin m i * y i j * conj (wave fin n j))‖ ≤ 2 ^ fin * δ := by
    intro i
    refine (norm_sum_le _ _).trans ?_
    have h2 : ∀ j : Fin (2 ^ fin), ‖wave fin m i * x i j * conj (wave fin n j) - wave fin m i * y i j * conj (wave fin n j)‖ ≤ δ := by
      intro j
      rw [show wave fin m i * x i j * conj (wave fin n j) - wave fin m i * y i j * conj (wave fin n j) = wave fin m i * (x i j - y i j) * conj (wave fin n j) by ring, norm_mul, norm_mul, Complex.norm_conj]
      have a := wave_norm_le fin m i
      have b := wave_norm_le fin n j
      have c := norm_nonneg (wave fin m i)
      have d := norm_nonneg (wave fin n j)
      have e := norm_nonneg (x i j - y i j)
      have f := h i j
      calc ‖wave fin m i‖ * ‖x i j - y i j‖ * ‖wave fin n j‖ ≤ 1 * ‖x i j - y i j‖ * 1 := by gcongr
        _ ≤ δ := by linarith
    exact (Finset.sum_le_sum fun j _ => h2 j).trans (by simp)
  exact (Finset.sum_le_sum fun i _ => h1 i).trans (by simp [pow_two, mul_assoc])

theorem reached_mono.{v} {n : ℕ} {S : Sys n} {C C' T ε : ℝ} {rho x : Rho n} (h : Reached.{v} S C' T ε rho x) (hC : C ≤ C') : Reached.{v} S C T ε rho x := by
  obtain ⟨κ, solver, Dt, ces, dtInit, fuel, N, m, y, hg, hε, hCε, r⟩ := h
  exact ⟨κ, solver, Dt, ces, dtInit, fuel, N, m, y, hg, hε, (mul_le_mul_of_nonneg_right hC hε).trans hCε, r⟩

theorem reached_zero.{v} {n : ℕ} {S : Sys n} {C C' T : ℝ} {rho x : Rho n} (h : Reached.{v} S C' T 0 rho x) : Reached.{v} S C T 0 rho x := by
  obtain ⟨κ, solver, Dt, ces, dtInit, fuel, N, m, y, hg, hε, hCε, r⟩ := h
  exact ⟨κ, solver, Dt, ces, dtInit, fuel, N, m, y, hg, hε, by simp, r⟩

theorem probX_eq {fin : ℕ} (x : Matrix (Fin (2 ^ fin)) (Fin (2 ^ fin)) ℂ) (n : ℕ) : ParticleEl.probX fin (entries x) n = inPosition fin x n n := by
  unfold ParticleEl.probX inPosition
  rw [Finset.sum_range]
  refine Finset.sum_congr rfl fun i _ => ?_
  rw [Finset.sum_range]
  refine Finset.sum_congr rfl fun j _ => ?_
  have h1 := ParticleEl.amp_product fin n j i
  have h2 : (Real.sqrt (2 ^ fin) : ℂ) * (Real.sqrt (2 ^ fin) : ℂ) = ((2 ^ fin : ℕ) : ℂ) := by
    rw [← Complex.ofReal_mul, Real.mul_self_sqrt (by positivity)]; push_cast; rfl
  have h3 : (Real.sqrt (2 ^ fin) : ℂ) ≠ 0 := by
    rw [Complex.ofReal_ne_zero]; positivity
  rw [entries, dif_pos ⟨i.2, j.2⟩]
  rw [show ParticleEl.amp fin n i * x ⟨i, i.2⟩ ⟨j, j.2⟩ * conj (ParticleEl.amp fin n j) = (conj (ParticleEl.amp fin n j) * ParticleEl.amp fin n i) * x i j by ring, h1, wave, wave, map_div₀, Complex.conj_ofReal, ← h2]
  field_simp

theorem sum_close {N : ℕ} (w a b : ℕ → ℝ) {δ : ℝ} (h : ∀ n < N, |a n - b n| ≤ δ) : |∑ n ∈ Finset.range N, w n * a n - ∑ n ∈ Finset.range N, w n * b n| ≤ (∑ n ∈ Finset.range N, |w n|) * δ := by
  rw [← Finset.sum_sub_distrib, Finset.sum_mul]
  refine (Finset.abs_sum_le_sum_abs _ _).trans (Finset.sum_le_sum fun n hn => ?_)
  rw [← mul_sub, abs_mul]
  exact mul_le_mul_of_nonneg_left (h n (Finset.mem_range.1 hn)) (abs_nonneg _)

/-- Displayed values of close density operators are close. -/
theorem average_close (fin : ℕ) : ∃ B : ℝ, 0 ≤ B ∧ ∀ (x y : Matrix (Fin (2 ^ fin)) (Fin (2 ^ fin)) ℂ) (δ : ℝ), 0 ≤ δ → (∀ i j, ‖x i j - y i j‖ ≤ δ) → ∃ a b, ParticleEl.average fin (.inr (entries x)) = some a ∧
    ParticleEl.average fin (.inr (entries y)) = some b ∧ ∀ k < 4, |a k - b k| ≤ B * δ := by
  let B0 := ∑ n ∈ Finset.range (2 ^ fin), |waveNumber fin n|
  let B1 := ∑ n ∈ Finset.range (2 ^ fin), |waveNumber fin n ^ 2|
  let B2 := ∑ n ∈ Finset.range (2 ^ fin), |position fin n|
  let B3 := ∑ n ∈ Finset.range (2 ^ fin), |position fin n ^ 2|
  have p0 : 0 ≤ B0 := Finset.sum_nonneg fun _ _ => abs_nonneg _
  have p1 : 0 ≤ B1 := Finset.sum_nonneg fun _ _ => abs_nonneg _
  have p2 : 0 ≤ B2 := Finset.sum_nonneg fun _ _ => abs_nonneg _
  have p3 : 0 ≤ B3 := Finset.sum_nonneg fun _ _ => abs_nonneg _
  refine ⟨B0 + B1 + (B2 + B3) * (2 ^ fin) ^ 2, by positivity, fun x y δ hδ h => ?_⟩
  obtain ⟨a, ha, a0, a1, a2, a3⟩ := ParticleEl.average_apply fin (.inr (entries x))
  obtain ⟨b, hb, b0, b1, b2, b3⟩ := ParticleEl.average_apply fin (.inr (entries y))
  refine ⟨a, b, ha, hb, fun k hk => ?_⟩
  have hd : ∀ n < 2 ^ fin, |(ParticleEl.densOf (.inr (entries x)) n n).re - (ParticleEl.densOf (.inr (entries y)) n n).re| ≤ δ := by
    intro n hn
    simp only [ParticleEl.densOf, entries, dif_pos (And.intro hn hn)]
    rw [← Complex.sub_re]
    exact (Complex.abs_re_le_norm _).trans (h _ _)
  have hx : ∀ n < 2 ^ fin, |(ParticleEl.probX fin (ParticleEl.densOf (.inr (entries x))) n).re - (ParticleEl.probX fin (ParticleEl.densOf (.inr (entries y))) n).re| ≤ (2 ^ fin) ^ 2 * δ := by
    intro n hn
    simp only [ParticleEl.densOf]
    rw [probX_eq, probX_eq, ← Complex.sub_re]
    exact (Complex.abs_re_le_norm _).trans (inPosition_close x y h n n)
  have e : (B0 + B1 + (B2 + B3) * (2 ^ fin) ^ 2) * δ = B0 * δ + B1 * δ + B2 * ((2 ^ fin) ^ 2 * δ) + B3 * ((2 ^ fin) ^ 2 * δ) := by ring
  have q0 : 0 ≤ B0 * δ := by positivity
  have q1 : 0 ≤ B1 * δ := by positivity
  have q2 : 0 ≤ B2 * ((2 ^ fin) ^ 2 * δ) := by positivity
  have q3 : 0 ≤ B3 * ((2 ^ fin) ^ 2 * δ) := by positivity
  have c0 := sum_close (waveNumber fin) _ _ hd
  have c1 := sum_close (fun n => waveNumber fin n ^ 2) _ _ hd
  have c2 := sum_close (position fin) _ _ hx
  have c3 := sum_close (fun n => position fin n ^ 2) _ _ hx
  rw [e]
  rcases (by omega : k = 0 ∨ k = 1 ∨ k = 2 ∨ k = 3) with rfl | rfl | rfl | rfl
  · rw [a0, b0]; linarith
  · rw [a1, b1]; linarith
  · rw [a2, b2]; linarith
  · rw [a3, b3]; linarith

/-! ## The revivals -/

/-- **C175.** After each multiple of `2π/|ω|` the density operator of the free particle, and all what is displayed of it, is the initial one, whatever it was. -/
theorem revival.{v} (pp : ParticleEl.Pars) (hf : 0 < pp.fin) (hp : pp.fin < 63) (hω : pp.omrec ≠ 0) (qmp : Picture) : ∃ e, ParticleEl.make pp qmp = .ok e ∧ e.dim = 2 ^ pp.fin ∧
      ∀ n : ℕ, ∃ C, 0 ≤ C ∧ (∀ rho : Rho e.dim, rho.PosSemidef → rho.trace = 1 → ∃ x, Reached.{v} e.toSys C (n * (2 * Real.pi / |pp.omrec|)) 0 rho x) ∧
      ∀ ε rho x, Reached.{v} e.toSys C (n * (2 * Real.pi / |pp.omrec|)) ε rho x → (∀ i j, ‖x i j - rho i j‖ ≤ C * ε) ∧
        ∃ a b, ParticleEl.average pp.fin (.inr (entries x)) = some a ∧ ParticleEl.average pp.fin (.inr (entries rho)) = some b ∧ ∀ k < 4, |a k - b k| ≤ C * ε := by
  obtain ⟨e, h1, h2, H⟩ := free_motion.{v} pp hp qmp
  refine ⟨e, h1, h2, fun n => ?_⟩
  obtain ⟨M, hM, hT⟩ : ∃ M : ℤ, Even M ∧ pp.omrec * (n * (2 * Real.pi / |pp.omrec|)) = M * Real.pi := by
    have h0 : |pp.omrec| ≠ 0 := abs_ne_zero.2 hω
    rcases lt_or_gt_of_ne hω with h | h
    · refine ⟨-(2 * n), by simp, ?_⟩
      rw [abs_of_neg h]; push_cast; field_simp
    · refine ⟨2 * n, by simp, ?_⟩
      rw [abs_of_pos h]; push_cast; field_simp
  obtain ⟨C, hC, H1, H2⟩ := H _ (by positivity : 0 ≤ n * (2 * Real.pi / |pp.omrec|))
  obtain ⟨B, hB, hav⟩ := average_close pp.fin
  refine ⟨(1 + B) * C, by positivity, fun rho a b => ?_, fun ε rho x hx => ?_⟩
  · obtain ⟨x, hx⟩ := H1 rho a b
    exact ⟨x, reached_zero hx⟩
  · have hε : 0 ≤ ε := by obtain ⟨_, _, _, _, _, _, _, _, _, _, hε, _⟩ := hx; exact hε
    have hx' := reached_mono hx (by nlinarith : C ≤ (1 + B) * C)
    have hij : ∀ i j, ‖x i j - rho i j‖ ≤ C * ε := by
      intro i j
      have := H2 ε rho x hx' i j
      rwa [phase_even hf hT hM, phase_even hf hT hM, map_one, one_mul, one_mul] at this
    have hCε : 0 ≤ C * ε := by positivity
    have hBε : 0 ≤ B * (C * ε) := by positivity
    refine ⟨fun i j => (hij i j).trans (by nlinarith), ?_⟩
    clear H H1 H2 hx hx' h1
    revert rho x
    rw [h2]
    intro rho x hij
    obtain ⟨a, b, ha, hb, hab⟩ := hav x rho (C * ε) hCε hij
    exact ⟨a, b, ha, hb, fun k hk => (hab k hk).trans (by nlinarith)⟩

/-- **C175.** After each odd multiple of half of this time the state is the initial one displaced by half of the box: the density matrix between two points of the grid is the initial one between the opposite points. -/
theorem half_revival.{v} (pp : ParticleEl.Pars) (hf : 0 < pp.fin) (hp : pp.fin < 63) (hω : pp.omrec ≠ 0) (qmp : Picture) : ∃ e, ParticleEl.make pp qmp = .ok e ∧ e.dim = 2 ^ pp.fin ∧
      ∀ n : ℕ, ∃ C, 0 ≤ C ∧ (∀ rho : Rho e.dim, rho.PosSemidef → rho.trace = 1 → ∃ x, Reached.{v} e.toSys C ((2 * n + 1) * (Real.pi / |pp.omrec|)) 0 rho x) ∧
      ∀ ε rho x, Reached.{v} e.toSys C ((2 * n + 1) * (Real.pi / |pp.omrec|)) ε rho x →
        ∀ k < 2 ^ pp.fin, ∀ l < 2 ^ pp.fin, ‖inPosition pp.fin x k l - inPosition pp.fin rho (opposite pp.fin k) (opposite pp.fin l)‖ ≤ C * ε := by
  obtain ⟨e, h1, h2, H⟩ := free_motion.{v} pp hp qmp
  refine ⟨e, h1, h2, fun n => ?_⟩
  obtain ⟨M, hM, hT⟩ : ∃ M : ℤ, Odd M ∧ pp.omrec * ((2 * n + 1) * (Real.pi / |pp.omrec|)) = M * Real.pi := by
    have h0 : |pp.omrec| ≠ 0 := abs_ne_zero.2 hω
    rcases lt_or_gt_of_ne hω with h | h
    · refine ⟨-(2 * n + 1), Odd.neg ⟨(n : ℤ), rfl⟩, ?_⟩
      rw [abs_of_neg h]; push_cast; field_simp
    · refine ⟨2 * n + 1, ⟨n, rfl⟩, ?_⟩
      rw [abs_of_pos h]; push_cast; field_simp
  obtain ⟨C, hC, H1, H2⟩ := H _ (by positivity : 0 ≤ (2 * n + 1) * (Real.pi / |pp.omrec|))
  have h1N : (1 : ℝ) ≤ (2 ^ pp.fin) ^ 2 := one_le_pow₀ (one_le_pow₀ (by norm_num))
  refine ⟨(2 ^ pp.fin) ^ 2 * C, by positivity, fun rho a b => ?_, fun ε rho x hx => ?_⟩
  · obtain ⟨x, hx⟩ := H1 rho a b
    exact ⟨x, reached_zero hx⟩
  · have hij := H2 ε rho x (reached_mono hx (by nlinarith : C ≤ (2 ^ pp.fin) ^ 2 * C))
    clear H H1 H2 hx h1
    revert rho x
    rw [h2]
    intro rho x hij k hk l hl
    have hc := inPosition_close x (fun i j => phase pp.fin pp.omrec ((2 * n + 1) * (Real.pi / |pp.omrec|)) i * conj (phase pp.fin pp.omrec ((2 * n + 1) * (Real.pi / |pp.omrec|)) j) * rho i j) hij k l
    have he : inPosition pp.fin (fun i j : Fin (2 ^ pp.fin) => phase pp.fin pp.omrec ((2 * n + 1) * (Real.pi / |pp.omrec|)) i * conj (phase pp.fin pp.omrec ((2 * n + 1) * (Real.pi / |pp.omrec|)) j) * rho i j) k l =
        inPosition pp.fin rho (opposite pp.fin k) (opposite pp.fin l) := by
      unfold inPosition
      refine Finset.sum_congr rfl fun i _ => Finset.sum_congr rfl fun j _ => ?_
      show wave pp.fin k i * (phase pp.fin pp.omrec ((2 * n + 1) * (Real.pi / |pp.omrec|)) i * conj (phase pp.fin pp.omrec ((2 * n + 1) * (Real.pi / |pp.omrec|)) j) * rho i j) * conj (wave pp.fin l j) = _
      rw [phase_odd hf hT hM, phase_odd hf hT hM, ← wave_opposite hf hk, ← wave_opposite hf hl, map_mul]
      ring
    rw [he] at hc
    linarith

/-- A particle on 64 points which meets the requirements, in both pictures. -/
example := free_motion.{0} ⟨6, 1, 0, 0, .cos⟩ (by norm_num) .uip

example := revival.{0} ⟨6, 1, 0, 0, .cos⟩ (by norm_num) (by norm_num) (by norm_num) .sch

example := half_revival.{0} ⟨6, -2, 0, 0, .cos⟩ (by norm_num) (by norm_num) (by norm_num) .ip

/-- Opposite points of a grid of eight. -/
example : (List.range 8).map (opposite 3) = [4, 5, 6, 7, 0, 1, 2, 3] := by decide

/-- Without the requirement of an even number of points there is no revival at these times: on the grid of one point the wave number is `-1/2`. -/
example : waveNumber 0 0 = -(1 / 2) := by norm_num [waveNumber]

end CppQED.Revival
