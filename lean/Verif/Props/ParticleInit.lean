import Verif.Lemmas.ParticleInit

/-!
# C101, C102: the initial conditions of the particle
-/

namespace CppQED.ParticleEl
open CppQED.Elem CppQED.Tridiag CppQED.Spec CppQED.FFT
open ComplexConjugate Filter Topology

/-- **C101.** The wave packet with nonzero width is normalised; it is available in both representations; and in that one in which it is specified, its amplitudes are those of the Gaussian centred at the given position (in units of `π`)
and momentum, with the given standard deviation of the probability distribution. -/
theorem wavePacket_spec (i : InitialCondition) (hs : i.sig ≠ 0) (fin : ℕ) (kFlag : Bool) : ∃ psi, wavePacket i fin kFlag = .ok psi ∧ Normalised fin psi ∧
    (i.isInK = false → Samples fin (positionAmplitude fin kFlag psi) (position fin)
      fun x => Real.exp (-(x - Real.pi * i.x0) ^ 2 / (4 * i.sig ^ 2)) * Complex.exp (Complex.I * i.k0 * x)) ∧
    (i.isInK = true → Samples fin (momentumAmplitude fin kFlag psi) (waveNumber fin)
      fun k => Real.exp (-(k - i.k0) ^ 2 / (4 * i.sig ^ 2)) * Complex.exp (-(Complex.I * (Real.pi * i.x0 : ℝ) * k))) := by
  obtain ⟨x0, k0, sig, isInK⟩ := i
  dsimp only at hs
  cases isInK
  · obtain ⟨psi, h1, h2, c, hc, h3⟩ := inX_ok fin kFlag
      (fun i => Complex.exp (-(gridX fin i - Real.pi * x0 : ℝ) ^ 2 / (4 * sig ^ 2 : ℝ) + Complex.I * gridX fin i * k0)) ⟨0, by positivity, Complex.exp_ne_zero _⟩
    refine ⟨psi, ?_, h2, fun _ => ⟨c, hc, fun n hn => ?_⟩, fun h => absurd h (by simp)⟩
    · rw [← h1]
      unfold wavePacket
      simp only [Bool.false_eq_true, if_false, hs, Bool.not_false, Bool.and_true, Bool.and_false]
    · rw [h3 n hn, gridX_eq, Complex.exp_add]
      push_cast
      congr 3
      ring
  · obtain ⟨psi, h1, h2, c, hc, h3⟩ := inK_ok fin kFlag
      (fun i => Complex.exp (-(gridK fin i - k0 : ℝ) ^ 2 / (4 * sig ^ 2 : ℝ) + Complex.I * gridK fin i * (-(Real.pi * x0) : ℝ))) ⟨0, by positivity, Complex.exp_ne_zero _⟩
    refine ⟨psi, ?_, h2, fun h => absurd h (by simp), fun _ => ⟨c, hc, fun n hn => ?_⟩⟩
    · rw [← h1]
      unfold wavePacket
      simp only [if_true, hs, if_false, Bool.not_true, Bool.and_false, Bool.false_eq_true, Bool.and_true]
    · rw [h3 n hn, gridK_eq, Complex.exp_add]
      push_cast
      congr 3
      ring

/-- **C101.** The packets obtained with the two values of the flag are the momentum and the position representation of the same state. -/
theorem wavePacket_representations (i : InitialCondition) (hs : i.sig ≠ 0) (fin : ℕ) : ∃ psiX psiK, wavePacket i fin false = .ok psiX ∧ wavePacket i fin true = .ok psiK ∧
    ∃ c : ℂ, ‖c‖ = 1 ∧ ∀ n < 2 ^ fin, positionAmplitude fin true psiK n = c * psiX n := by
  obtain ⟨psiX, a1, a2, a3, a4⟩ := wavePacket_spec i hs fin false
  obtain ⟨psiK, b1, b2, b3, b4⟩ := wavePacket_spec i hs fin true
  have key : ∃ c : ℂ, ∀ n < 2 ^ fin, positionAmplitude fin true psiK n = c * psiX n := by
    cases h : i.isInK
    · obtain ⟨c1, h1, a⟩ := a3 h
      obtain ⟨c2, h2, b⟩ := b3 h
      refine ⟨c2 / c1, fun n hn => ?_⟩
      have := a n hn
      simp only [positionAmplitude, Bool.false_eq_true, if_false] at this
      rw [b n hn, this]
      field_simp
    · obtain ⟨c1, h1, a⟩ := a4 h
      obtain ⟨c2, h2, b⟩ := b4 h
      refine ⟨c2 / c1, fun n hn => ?_⟩
      have := positionAmplitude_momentumAmplitude fin (fun n => c2 / c1 * psiX n) psiK (fun j hj => ?_) n hn
      · exact this
      · have h3 := b j hj
        rw [show momentumAmplitude fin true psiK j = psiK j from rfl] at h3
        have h4 : momentumAmplitude fin false (fun n => c2 / c1 * psiX n) j = c2 / c1 * momentumAmplitude fin false psiX j := by
          simp only [momentumAmplitude, Bool.false_eq_true, if_false, Finset.mul_sum]
          exact Finset.sum_congr rfl fun k _ => by ring
        rw [h3, h4, a j hj]
        field_simp
  obtain ⟨c, hc⟩ := key
  refine ⟨psiX, psiK, a1, b1, c, ?_, hc⟩
  have hn := positionAmplitude_norm fin psiK
  rw [b2, Finset.sum_congr rfl fun n hn => by rw [hc n (Finset.mem_range.1 hn), Complex.normSq_mul], ← Finset.mul_sum, a2, mul_one, Complex.normSq_eq_norm_sq] at hn
  nlinarith [norm_nonneg c]

theorem hoState_explicit (n : ℤ) (i : InitialCondition) (hs : i.sig ≠ 0) (fin : ℕ) (hn : n.toNat < 2 ^ fin) (kFlag : Bool) : ∃ psi, hoState n i fin kFlag = .ok psi ∧ Normalised fin psi ∧
    Samples fin (positionAmplitude fin kFlag psi) (position fin) fun x => (hermiteFun n.toNat ((x - Real.pi * i.x0) / i.sig) : ℂ) := by
  have hinj : Function.Injective fun j : ℕ => (gridX fin j - Real.pi * i.x0) / i.sig := by
    intro a b hab
    have h0 : gridX fin a - Real.pi * i.x0 = gridX fin b - Real.pi * i.x0 := by
      have := congrArg (· * i.sig) hab
      simpa only [div_mul_cancel₀ _ hs] using this
    simp only [gridX_eq, position, sub_left_inj] at h0
    have hpi := Real.pi_ne_zero
    have h2 : (2 : ℝ) ^ fin ≠ 0 := by positivity
    field_simp at h0
    exact_mod_cast h0
  obtain ⟨m, hm, hne⟩ := hermite_ne n.toNat _ hn _ hinj
  obtain ⟨psi, h1, h2, c, hc, h3⟩ := inX_ok fin kFlag
    (fun j => ((Real.exp (-((gridX fin j - Real.pi * i.x0) / i.sig) ^ 2 / 2) * hermite n.toNat ((gridX fin j - Real.pi * i.x0) / i.sig) : ℝ) : ℂ))
    ⟨m, hm, by rw [Complex.ofReal_ne_zero]; exact mul_ne_zero (Real.exp_pos _).ne' hne⟩
  have hto : (if n < 0 then 0 else n).toNat = n.toNat := by split_ifs <;> omega
  refine ⟨psi, ?_, h2, c, hc, fun j hj => ?_⟩
  · rw [← h1]
    unfold hoState
    simp only [hs, if_false, hto]
  · rw [h3 j hj, gridX_eq]
    rfl

/-- **C101.** Negative indices mean the ground state; for the `n`th state on a grid with more than `n` points, the result is normalised, and its position amplitudes are those of the `n`th state of the harmonic oscillator around the
given position, with the given characteristic length, at rest. -/
theorem hoState_spec (n : ℤ) (i : InitialCondition) (hs : i.sig ≠ 0) (fin : ℕ) (hn : n.toNat < 2 ^ fin) (kFlag : Bool) : ∃ psi, hoState n i fin kFlag = .ok psi ∧ Normalised fin psi ∧
    ∃ g : ℝ → ℝ, HarmonicState 1 (1 / i.sig ^ 4) (Real.pi * i.x0) n.toNat g ∧ Samples fin (positionAmplitude fin kFlag psi) (position fin) fun x => (g x : ℂ) :=
  let ⟨psi, h1, h2, h3⟩ := hoState_explicit n i hs fin hn kFlag
  ⟨psi, h1, h2, _, hermiteFun_harmonic one_pos hs (by field_simp) _, h3⟩

/-- **C101.** With too few points, it can happen that the state vector is null before the normalisation, and hence not a number after: the first excited state in a single point. -/
theorem hoState_null : hoState 1 ⟨-1, 0, 1, false⟩ 0 false = .undef := by
  unfold hoState
  simp only [ofOption, Outcome.bind]
  norm_num
  refine renormVec_undef fun n hn => ?_
  obtain rfl : n = 0 := by simpa using hn
  simp [gridX_eq, position, hermite]

/-- **C101.** Zero width is only meaningful for the pumped particle (cf. C102). -/
theorem zero_width (i : InitialCondition) (hs : i.sig = 0) (n : ℤ) (fin : ℕ) (kFlag : Bool) : wavePacket i fin kFlag = .undef ∧ hoState n i fin kFlag = .undef := by
  unfold wavePacket hoState
  simp [hs]

/-- **C101.** Dispatch: with negative `HOinitn`, the initial state is the wave packet, otherwise the state of the oscillator, in the momentum representation, which is that of the dynamics. If the width is nonzero, the parameters of
the pump do not count. -/
theorem initState_spec (p : InitPars) (h : p.vClass = none ∨ p.init.sig ≠ 0) :
    (p.hoInitn < 0 → initState p = wavePacket p.init p.fin true) ∧ (0 ≤ p.hoInitn → initState p = hoState p.hoInitn p.init p.fin true) := by
  have h1 : wavePacketPars p true = wavePacket p.init p.fin true := by
    unfold wavePacketPars
    rcases h with h | h
    · rw [h]
    · cases p.vClass <;> simp [h]
  have h2 : hoStatePars p true = hoState p.hoInitn p.init p.fin true := by
    unfold hoStatePars
    rcases h with h | h
    · rw [h]
    · cases p.vClass <;> simp [h]
  unfold initState
  exact ⟨fun hn => by rw [if_pos hn, h1], fun hn => by rw [if_neg (by omega), h2]⟩

/-! ## The zero width -/

theorem groundState_harmonic {ω κ : ℝ} (hω : 0 < ω) (hκ : 0 < κ) (x₀ : ℝ) : HarmonicState ω κ x₀ 0 (groundState ω κ x₀) := by
  have hs : 0 < (ω / κ) ^ (1 / 4 : ℝ) := by positivity
  have h4 : κ * ((ω / κ) ^ (1 / 4 : ℝ)) ^ 4 = ω := by
    rw [← Real.rpow_natCast, ← Real.rpow_mul (by positivity)]
    norm_num
    field_simp
  have h := hermiteFun_harmonic (x₀ := x₀) hω hs.ne' h4 0
  have h2 : ((ω / κ) ^ (1 / 4 : ℝ)) ^ 2 = Real.sqrt (ω / κ) := by
    rw [← Real.rpow_natCast, ← Real.rpow_mul (by positivity), Real.sqrt_eq_rpow]
    norm_num
  have e : (fun x => hermiteFun 0 ((x - x₀) / (ω / κ) ^ (1 / 4 : ℝ))) = groundState ω κ x₀ := by
    funext x
    unfold hermiteFun groundState
    rw [hermite, mul_one, div_pow, h2]
    congr 1
    rw [Real.sqrt_div hω.le, Real.sqrt_div hκ.le]
    have := Real.sqrt_pos.2 hω
    have := Real.sqrt_pos.2 hκ
    field_simp
  rw [← e]
  exact h

theorem coherent_sig {ω v : ℝ} (hω : 0 < ω) (hv : v ≠ 0) (i : InitialCondition) : (coherent ω i v).sig ≠ 0 ∧ (coherent ω i v).sig ^ 2 = Real.sqrt (ω / |v|) / 2 := by
  have hv' := abs_pos.2 hv
  have hs : 0 < (ω / |v|) ^ (1 / 4 : ℝ) := by positivity
  constructor
  · unfold coherent
    have := Real.sqrt_pos.2 (show (0 : ℝ) < 2 by norm_num)
    positivity
  · unfold coherent
    rw [div_pow, Real.sq_sqrt (by norm_num), ← Real.rpow_natCast, ← Real.rpow_mul (by positivity), Real.sqrt_eq_rpow]
    norm_num

/-- The harmonic approximation of a standing-wave potential. -/
theorem opticalPotential_approximation (v : ℝ) (mf : ModeFunction) (hm : isComplex mf.type = false) (x₀ κ : ℝ) (h : HarmonicApproximation (opticalPotential v mf) x₀ κ) : κ = |v| * (mf.nK : ℝ) ^ 2 := by
  obtain ⟨t, K⟩ := mf
  -- the potential is `v(1+sgn cos 2Kx)/2`
  have key : ∃ sgn : ℝ, (sgn = 1 ∨ sgn = -1) ∧ opticalPotential v ⟨t, K⟩ = fun x => v / 2 * (1 + sgn * Real.cos (2 * K * x)) := by
    cases t
    · refine ⟨-1, Or.inr rfl, funext fun x => ?_⟩
      simp only [opticalPotential, waveFunction, Complex.normSq_ofReal]
      have := Real.cos_two_mul (K * x)
      rw [mul_assoc, this, ← sq, Real.sin_sq]
      ring
    · refine ⟨1, Or.inl rfl, funext fun x => ?_⟩
      simp only [opticalPotential, waveFunction, Complex.normSq_ofReal]
      have := Real.cos_two_mul (K * x)
      rw [mul_assoc, this]
      ring
    · simp [isComplex] at hm
    · simp [isComplex] at hm
  obtain ⟨sgn, hsgn, hV⟩ := key
  have hlin : ∀ x : ℝ, HasDerivAt (fun x : ℝ => 2 * K * x) (2 * K) x := fun x => by simpa using (hasDerivAt_id x).const_mul (2 * (K : ℝ))
  have d1 : deriv (opticalPotential v ⟨t, K⟩) = fun x => -(v * sgn * K) * Real.sin (2 * K * x) := by
    funext x
    rw [hV]
    have := ((((hlin x).cos).const_mul sgn).const_add 1).const_mul (v / 2)
    rw [this.deriv]
    ring
  have d2 : deriv (deriv (opticalPotential v ⟨t, K⟩)) x₀ = -(2 * v * sgn * K ^ 2) * Real.cos (2 * K * x₀) := by
    rw [d1]
    have := ((hlin x₀).sin).const_mul (-(v * sgn * K))
    rw [this.deriv]
    ring
  have h1 := h.stationary
  have h2 := h.curvature
  have h3 := h.minimum
  rw [d1] at h1
  rw [d2] at h2
  have hs : sgn ^ 2 = 1 := by rcases hsgn with rfl | rfl <;> norm_num
  have hsin : Real.sin (2 * K * x₀) = 0 := by
    rcases mul_eq_zero.1 h1 with h | h
    · exfalso
      have h0 : v * sgn * K = 0 := by linarith
      have : κ = -((v * sgn * K) * K * Real.cos (2 * K * x₀)) := by rw [← h2]; ring
      rw [h0] at this
      simp at this
      linarith
    · exact h
  have hcos : Real.cos (2 * K * x₀) ^ 2 = 1 := by
    have := Real.sin_sq_add_cos_sq (2 * K * x₀)
    rw [hsin] at this
    linarith
  have hsq : κ ^ 2 = (|v| * (K : ℝ) ^ 2) ^ 2 := by
    rw [← h2, mul_pow, sq_abs]
    have : (-(2 * v * sgn * (K : ℝ) ^ 2) * Real.cos (2 * K * x₀) / 2) ^ 2 = v ^ 2 * sgn ^ 2 * (K : ℝ) ^ 4 * Real.cos (2 * K * x₀) ^ 2 := by ring
    rw [this, hs, hcos]
    ring
  exact (pow_left_inj₀ h3.le (by positivity) two_ne_zero).1 hsq

/-- The initial state has the ground state of the oscillator with strength `κ` as its wave function, boosted to the momentum `k₀`. -/
def StartsInGround (p : InitPars) (κ : ℝ) : Prop := ∃ psi, initState p = .ok psi ∧ Normalised p.fin psi ∧
  Samples p.fin (positionAmplitude p.fin true psi) (position p.fin) fun x => (groundState p.omrec κ (Real.pi * p.init.x0) x : ℂ) * Complex.exp (Complex.I * p.init.k0 * x)

theorem samples_unique {fin : ℕ} (hf : 2 ≤ fin) {a : ℕ → ℂ} {ω κ κ' x₀ k₀ : ℝ} (hω : 0 < ω) (hκ : 0 ≤ κ) (hκ' : 0 ≤ κ')
    (h : Samples fin a (position fin) fun x => (groundState ω κ x₀ x : ℂ) * Complex.exp (Complex.I * k₀ * x))
    (h' : Samples fin a (position fin) fun x => (groundState ω κ' x₀ x : ℂ) * Complex.exp (Complex.I * k₀ * x)) : κ = κ' := by
  obtain ⟨c, hc, h⟩ := h
  obtain ⟨c', hc', h'⟩ := h'
  have h4 : 4 ≤ 2 ^ fin := by
    calc 4 = 2 ^ 2 := rfl
      _ ≤ 2 ^ fin := Nat.pow_le_pow_right (by norm_num) hf
  set q := Real.sqrt (κ / ω) with hq
  set q' := Real.sqrt (κ' / ω) with hq'
  -- the ratio of the two Gaussians is the same in all the points
  have ratio : ∀ n < 2 ^ fin, ((Real.exp (-(q * (position fin n - x₀) ^ 2) / 2 - -(q' * (position fin n - x₀) ^ 2) / 2) : ℝ) : ℂ) = c' / c := by
    intro n hn
    have e := (h n hn).symm.trans (h' n hn)
    simp only [← mul_assoc] at e
    have e := mul_right_cancel₀ (Complex.exp_ne_zero _) e
    simp only [groundState] at e
    rw [Real.exp_sub]
    push_cast at e ⊢
    rw [div_eq_div_iff (Complex.exp_ne_zero _) hc, mul_comm, e]
  have expo : ∀ n < 2 ^ fin, (q' - q) * (position fin n - x₀) ^ 2 = (q' - q) * (position fin 0 - x₀) ^ 2 := by
    intro n hn
    have e := (ratio n hn).trans (ratio 0 (by positivity)).symm
    have e := Real.exp_injective (Complex.ofReal_injective e)
    linarith
  have hqq : q' = q := by
    by_contra hne
    have hd : q' - q ≠ 0 := sub_ne_zero.2 hne
    have e1 := mul_left_cancel₀ hd (expo 1 (by omega))
    have e2 := mul_left_cancel₀ hd (expo 2 (by omega))
    have hD : (0 : ℝ) < 2 * Real.pi / 2 ^ fin := by have := Real.pi_pos; positivity
    have p0 : position fin 0 = -Real.pi := by simp [position]
    have p1 : position fin 1 = 2 * Real.pi / 2 ^ fin - Real.pi := by simp [position]
    have p2 : position fin 2 = 2 * (2 * Real.pi / 2 ^ fin) - Real.pi := by simp [position]; ring
    rw [p0, p1] at e1
    rw [p0, p2] at e2
    generalize 2 * Real.pi / 2 ^ fin = D at *
    nlinarith
  have := congrArg (· ^ 2) hqq
  simp only [hq, hq'] at this
  rw [Real.sq_sqrt (by positivity), Real.sq_sqrt (by positivity)] at this
  field_simp at this
  exact this.symm

theorem init_pumped (p : InitPars) (hs : p.init.sig = 0) (hn : p.hoInitn < 0) (v : ℝ) (hv : p.vClass = some v) (hv0 : v ≠ 0) (hω : 0 < p.omrec) : StartsInGround p |v| := by
  obtain ⟨h0, hsq⟩ := coherent_sig hω hv0 p.init
  obtain ⟨psi, h1, h2, h3, _⟩ := wavePacket_spec (coherent p.omrec p.init v) h0 p.fin true
  refine ⟨psi, ?_, h2, ?_⟩
  · unfold initState wavePacketPars
    simpa only [hn, if_true, hv, hs, ne_eq, not_true_eq_false, if_false] using h1
  · obtain ⟨c, hc, h⟩ := h3 rfl
    refine ⟨c, hc, fun n hn => ?_⟩
    rw [h n hn, hsq]
    have hv' := abs_pos.2 hv0
    have e : -(position p.fin n - Real.pi * (coherent p.omrec p.init v).x0) ^ 2 / (4 * (Real.sqrt (p.omrec / |v|) / 2)) =
        -(Real.sqrt (|v| / p.omrec) * (position p.fin n - Real.pi * p.init.x0) ^ 2) / 2 := by
      rw [Real.sqrt_div hω.le, Real.sqrt_div hv'.le]
      have := Real.sqrt_pos.2 hω
      have := Real.sqrt_pos.2 hv'
      simp only [coherent]
      field_simp
      ring
    dsimp only
    rw [e]
    rfl

theorem init_oscillator (p : InitPars) (hs : p.init.sig = 0) (hn : p.hoInitn = 0) (hk : p.init.k0 = 0) (v : ℝ) (hv : p.vClass = some v) (hv0 : v ≠ 0) (hω : 0 < p.omrec) : StartsInGround p (4 * |v|) := by
  obtain ⟨h0, hsq⟩ := coherent_sig hω hv0 p.init
  obtain ⟨psi, h1, h2, c, hc, h⟩ := hoState_explicit 0 (coherent p.omrec p.init v) h0 p.fin (by simp) true
  refine ⟨psi, ?_, h2, c, hc, fun n hn => ?_⟩
  · unfold initState hoStatePars
    simpa only [hn, lt_self_iff_false, if_false, hv, hs, ne_eq, not_true_eq_false] using h1
  · rw [h n hn, hk]
    have hv' := abs_pos.2 hv0
    have e : -((position p.fin n - Real.pi * (coherent p.omrec p.init v).x0) / (coherent p.omrec p.init v).sig) ^ 2 / 2 =
        -(Real.sqrt (4 * |v| / p.omrec) * (position p.fin n - Real.pi * p.init.x0) ^ 2) / 2 := by
      rw [div_pow, hsq, Real.sqrt_div hω.le, Real.sqrt_div (by positivity), Real.sqrt_mul (by norm_num), show Real.sqrt 4 = 2 by rw [show (4 : ℝ) = 2 ^ 2 by norm_num, Real.sqrt_sq (by norm_num)]]
      have := Real.sqrt_pos.2 hω
      have := Real.sqrt_pos.2 hv'
      simp only [coherent]
      field_simp
    simp only [Int.toNat_zero, hermiteFun, hermite, mul_one, e]
    simp [groundState]

theorem StartsInGround.unique {p : InitPars} (hf : 2 ≤ p.fin) (hω : 0 < p.omrec) {κ κ' : ℝ} (hκ : 0 ≤ κ) (hκ' : 0 ≤ κ') (h : StartsInGround p κ) (h' : StartsInGround p κ') : κ = κ' := by
  obtain ⟨psi, a, _, b⟩ := h
  obtain ⟨psi', a', _, b'⟩ := h'
  rw [a] at a'
  obtain rfl : psi = psi' := by injection a'
  exact samples_unique hf hω hκ hκ' b b'

/-- **C102.** (In part.) A pumped particle with zero width specified, and no oscillator state asked for, starts in the ground state of the harmonic approximation of the optical potential around the given position, with the given momentum,
provided that the wave number of the pump is unity. -/
theorem init_ground_partial (p : InitPars) (hs : p.init.sig = 0) (hn : p.hoInitn < 0) (v : ℝ) (hv : p.vClass = some v) (hv0 : v ≠ 0) (hω : 0 < p.omrec)
    (mf : ModeFunction) (hm : isComplex mf.type = false) (hK : mf.nK = 1) (κ : ℝ) (hκ : HarmonicApproximation (opticalPotential v mf) (Real.pi * p.init.x0) κ) :
    StartsInGround p κ := by
  have := opticalPotential_approximation v mf hm _ κ hκ
  rw [hK] at this
  rw [show κ = |v| by rw [this]; simp]
  exact init_pumped p hs hn v hv hv0 hω

/-- **C102.** For other wave numbers, the width is wrong: it is calculated without regard to the wave number. -/
theorem init_ground_iff (p : InitPars) (hf : 2 ≤ p.fin) (hs : p.init.sig = 0) (hn : p.hoInitn < 0) (v : ℝ) (hv : p.vClass = some v) (hv0 : v ≠ 0) (hω : 0 < p.omrec)
    (mf : ModeFunction) (hm : isComplex mf.type = false) (κ : ℝ) (hκ : HarmonicApproximation (opticalPotential v mf) (Real.pi * p.init.x0) κ) :
    StartsInGround p κ ↔ |mf.nK| = 1 := by
  have h0 := init_pumped p hs hn v hv hv0 hω
  have hv' := abs_pos.2 hv0
  have e := opticalPotential_approximation v mf hm _ κ hκ
  have hK : κ = |v| ↔ |mf.nK| = 1 := by
    rw [e, ← sq_eq_sq₀ (abs_nonneg mf.nK) zero_le_one, sq_abs, one_pow]
    constructor
    · intro h
      have h1 : (mf.nK : ℝ) ^ 2 = 1 := mul_left_cancel₀ hv'.ne' (by rw [h, mul_one])
      exact_mod_cast h1
    · intro h
      have h1 : (mf.nK : ℝ) ^ 2 = 1 := by exact_mod_cast h
      rw [h1, mul_one]
  rw [← hK]
  exact ⟨fun h => h.unique hf hω hκ.minimum.le hv'.le h0, fun h => h ▸ h0⟩

/-- **C102.** With the ground state of the oscillator asked for explicitly, the state obtained is always narrower, by a factor of `√2`, than what is right with unit wave number. -/
theorem init_oscillator_wrong (p : InitPars) (hf : 2 ≤ p.fin) (hs : p.init.sig = 0) (hn : p.hoInitn = 0) (hk : p.init.k0 = 0) (v : ℝ) (hv : p.vClass = some v) (hv0 : v ≠ 0) (hω : 0 < p.omrec)
    (mf : ModeFunction) (hm : isComplex mf.type = false) (κ : ℝ) (hκ : HarmonicApproximation (opticalPotential v mf) (Real.pi * p.init.x0) κ) :
    StartsInGround p (4 * |v|) ∧ (StartsInGround p κ ↔ |mf.nK| = 2) := by
  have h0 := init_oscillator p hs hn hk v hv hv0 hω
  refine ⟨h0, ?_⟩
  have hv' := abs_pos.2 hv0
  have e := opticalPotential_approximation v mf hm _ κ hκ
  have hK : κ = 4 * |v| ↔ |mf.nK| = 2 := by
    rw [e, ← sq_eq_sq₀ (abs_nonneg mf.nK) zero_le_two, sq_abs]
    constructor
    · intro h
      have h1 : (mf.nK : ℝ) ^ 2 = 4 := mul_left_cancel₀ hv'.ne' (by rw [h, mul_comm])
      exact_mod_cast h1.trans (by norm_num : (4 : ℝ) = 2 ^ 2)
    · intro h
      have h1 : (mf.nK : ℝ) ^ 2 = 2 ^ 2 := by exact_mod_cast h
      rw [h1]
      ring
  rw [← hK]
  exact ⟨fun h => h.unique hf hω hκ.minimum.le (by positivity) h0, fun h => h ▸ h0⟩

/-- The hypotheses are met by the default pump, with the position in the minimum of the potential `-10 sin²x`. -/
example : HarmonicApproximation (opticalPotential (-10) ⟨.sin, 1⟩) (Real.pi * (-1 / 2)) 10 := by
  have hV : opticalPotential (-10) ⟨.sin, 1⟩ = fun x => -10 * (Real.sin x * Real.sin x) := by
    funext x
    simp [opticalPotential, waveFunction]
    rw [← Complex.ofReal_sin, Complex.normSq_ofReal]
  have d1 : deriv (opticalPotential (-10) ⟨.sin, 1⟩) = fun x => -10 * (Real.cos x * Real.sin x + Real.sin x * Real.cos x) := by
    funext x
    rw [hV]
    exact (((Real.hasDerivAt_sin x).mul (Real.hasDerivAt_sin x)).const_mul (-10)).deriv
  have e : Real.pi * (-1 / 2) = -(Real.pi / 2) := by ring
  refine ⟨?_, ?_, by norm_num⟩
  · rw [d1, e]; simp
  · rw [d1, e]
    have h := (((Real.hasDerivAt_cos (-(Real.pi / 2))).mul (Real.hasDerivAt_sin (-(Real.pi / 2)))).add ((Real.hasDerivAt_sin (-(Real.pi / 2))).mul (Real.hasDerivAt_cos (-(Real.pi / 2))))).const_mul (-10)
    have h2 := h.deriv
    simp only [Real.cos_neg, Real.sin_neg, Real.cos_pi_div_two, Real.sin_pi_div_two] at h2
    refine (congrArg (· / 2) h2).trans ?_
    norm_num

example := wavePacket_representations ⟨-1 / 2, 3, 1 / 10, true⟩ (by norm_num) 6
example := hoState_spec 5 ⟨-1 / 2, 0, 1 / 10, false⟩ (by norm_num) 6 (by norm_num) true

end CppQED.ParticleEl
