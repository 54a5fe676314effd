import Verif.Props.Ring
import Verif.Props.Scripts

/-!
# The amplitudes of the modes of a ring cavity: C130
-/

namespace CppQED.ScriptSys
open CppQED.Elem CppQED.Tridiag CppQED.ModeEl CppQED.Spec CppQED.Interactions
open CppQED.ParticleEl (ModeFunction isComplex)
open ComplexConjugate Matrix Kronecker

section abstract
variable {ι : Type*} [Fintype ι] [DecidableEq ι]

/-- The Heisenberg equation of a matrix in the Master equation. -/
theorem heisenbergJ (A G : Matrix ι ι ℂ) (J : List (Matrix ι ι ℂ)) (ρ : Matrix ι ι ℂ) :
    (A * lindblad G J ρ).trace = ((A * G + Gᴴ * A + (J.map fun j => jᴴ * A * j).sum) * ρ).trace := by
  unfold lindblad
  have hJ : (A * (J.map fun j => j * ρ * jᴴ).sum).trace = ((J.map fun j => jᴴ * A * j).sum * ρ).trace := by
    induction J with
    | nil => simp
    | cons j J ih =>
      simp only [List.map_cons, List.sum_cons, Matrix.mul_add, Matrix.add_mul, Matrix.trace_add, ih]
      congr 1
      rw [Matrix.trace_mul_comm, Matrix.mul_assoc, Matrix.mul_assoc, Matrix.trace_mul_comm, Matrix.mul_assoc, Matrix.trace_mul_comm]
  rw [Matrix.mul_add, Matrix.mul_add, Matrix.trace_add, Matrix.trace_add, hJ, Matrix.add_mul, Matrix.add_mul, Matrix.trace_add, Matrix.trace_add]
  congr 2
  · rw [Matrix.mul_assoc]
  · rw [← Matrix.mul_assoc, Matrix.trace_mul_comm, Matrix.mul_assoc]

/-- Two modes, the commutator of the first of them being `1-T`. -/
theorem two_modes (A B T : Matrix ι ι ℂ) (c1 : A * B = B * A) (c2 : A * Bᴴ = Bᴴ * A) (c3 : A * Aᴴ = Aᴴ * A + 1 - T) (hT : T * A = 0) (za zb ua ub w : ℂ) (ka kb : ℝ) (ηa ηb : ℂ) (G : Matrix ι ι ℂ)
    (hza : za + conj za = -2 * ka) (hzb : zb + conj zb = -2 * kb) (hua : ua + conj ua = 0) (hub : ub + conj ub = 0)
    (hG : G = za • (Aᴴ * A) + ηa • Aᴴ - conj ηa • A + (zb • (Bᴴ * B) + ηb • Bᴴ - conj ηb • B) + ua • (Aᴴ * A) + ub • (Bᴴ * B) + (-conj w) • (A * Bᴴ) + w • (Aᴴ * B)) :
    A * G + Gᴴ * A + ((2 * ka : ℂ) • (Aᴴ * A * A) + (2 * kb : ℂ) • (Bᴴ * A * B)) = (za + ua) • A + ηa • (1 - T) + w • (B - T * B) := by
  have c4 : B * Aᴴ = Aᴴ * B := by
    have := congrArg Matrix.conjTranspose c2
    simpa using this
  have e1 : A * (Aᴴ * A) = Aᴴ * A * A + A := by
    rw [← Matrix.mul_assoc, c3, Matrix.sub_mul, Matrix.add_mul, Matrix.one_mul, hT, sub_zero]
  have e2 : A * (Bᴴ * B) = Bᴴ * B * A := by rw [← Matrix.mul_assoc, c2, Matrix.mul_assoc, c1, ← Matrix.mul_assoc]
  have e3 : Bᴴ * A * B = Bᴴ * B * A := by rw [Matrix.mul_assoc, c1, ← Matrix.mul_assoc]
  have e4 : A * (A * Bᴴ) = Bᴴ * A * A := by rw [c2, ← Matrix.mul_assoc, c2]
  have e5 : A * (Aᴴ * B) = Aᴴ * A * B + B - T * B := by rw [← Matrix.mul_assoc, c3, Matrix.sub_mul, Matrix.add_mul, Matrix.one_mul]
  have e6 : B * Aᴴ * A = Aᴴ * A * B := by rw [c4, Matrix.mul_assoc, ← c1, ← Matrix.mul_assoc]
  have h1 : conj za = -2 * ka - za := by linear_combination hza
  have h2 : conj zb = -2 * kb - zb := by linear_combination hzb
  have h3 : conj ua = -ua := by linear_combination hua
  have h4 : conj ub = -ub := by linear_combination hub
  rw [hG]
  simp only [Matrix.conjTranspose_add, Matrix.conjTranspose_sub, Matrix.conjTranspose_smul, Matrix.conjTranspose_mul, Matrix.conjTranspose_conjTranspose, Matrix.mul_add, Matrix.mul_sub, Matrix.add_mul, Matrix.sub_mul,
    Matrix.mul_smul, Matrix.smul_mul, Complex.star_def, map_neg, Complex.conj_conj, h1, h2, h3, h4, e1, e2, e3, e4, e5, e6, c3]
  rw [c1, c2]
  module

end abstract

section kron
variable {d0 d1 : ℕ}

theorem top_a (d : ℕ) : Evolved.top d * mat d aOp = 0 := by
  ext i j
  unfold Evolved.top
  rw [Matrix.diagonal_mul, mat_apply, aOp]
  have := j.2
  by_cases h : (i : ℕ) + 1 = d
  · rw [if_pos h, if_neg (by omega), mul_zero, Matrix.zero_apply]
  · rw [if_neg h, zero_mul, Matrix.zero_apply]

theorem kron_mul (A B : Matrix (Fin d0) (Fin d0) ℂ) (C D : Matrix (Fin d1) (Fin d1) ℂ) : (A ⊗ₖ C) * (B ⊗ₖ D) = (A * B) ⊗ₖ (C * D) := (Matrix.mul_kronecker_mul A B C D).symm

theorem kron_conj (A : Matrix (Fin d0) (Fin d0) ℂ) (C : Matrix (Fin d1) (Fin d1) ℂ) : (A ⊗ₖ C)ᴴ = Aᴴ ⊗ₖ Cᴴ := Matrix.conjTranspose_kronecker A C

/-- The two modes on their common space. -/
noncomputable def modeP (d0 d1 : ℕ) : Matrix (Fin d0 × Fin d1) (Fin d0 × Fin d1) ℂ := mat d0 aOp ⊗ₖ 1
noncomputable def modeM (d0 d1 : ℕ) : Matrix (Fin d0 × Fin d1) (Fin d0 × Fin d1) ℂ := 1 ⊗ₖ mat d1 aOp

theorem modes_commute : modeP d0 d1 * modeM d0 d1 = modeM d0 d1 * modeP d0 d1 ∧ modeP d0 d1 * (modeM d0 d1)ᴴ = (modeM d0 d1)ᴴ * modeP d0 d1 ∧ modeM d0 d1 * (modeP d0 d1)ᴴ = (modeP d0 d1)ᴴ * modeM d0 d1 := by
  simp [modeP, modeM, kron_mul, kron_conj]

theorem modeP_commutator : modeP d0 d1 * (modeP d0 d1)ᴴ = (modeP d0 d1)ᴴ * modeP d0 d1 + 1 - (d0 : ℂ) • (Evolved.top d0 ⊗ₖ 1) := by
  have h := Evolved.a_adag d0
  rw [mat_nOp] at h
  unfold modeP
  rw [kron_conj, kron_mul, kron_mul, h, Matrix.conjTranspose_one, Matrix.one_mul, ← Matrix.one_kronecker_one (m := Fin d0) (n := Fin d1)]
  ext x y
  simp only [Evolved.top, Matrix.kroneckerMap_apply, Matrix.sub_apply, Matrix.add_apply, Matrix.smul_apply, smul_eq_mul, Matrix.mul_one]
  ring

theorem modeM_commutator : modeM d0 d1 * (modeM d0 d1)ᴴ = (modeM d0 d1)ᴴ * modeM d0 d1 + 1 - (d1 : ℂ) • (1 ⊗ₖ Evolved.top d1) := by
  have h := Evolved.a_adag d1
  rw [mat_nOp] at h
  unfold modeM
  rw [kron_conj, kron_mul, kron_mul, h, Matrix.conjTranspose_one, Matrix.one_mul, ← Matrix.one_kronecker_one (m := Fin d0) (n := Fin d1)]
  ext x y
  simp only [Evolved.top, Matrix.kroneckerMap_apply, Matrix.sub_apply, Matrix.add_apply, Matrix.smul_apply, smul_eq_mul, Matrix.mul_one]
  ring

end kron

/-- The generator in terms of the two modes. -/
theorem fixedRingG_eq (pmP pmM : ModeEl.Pars) (hP : pmP.nTh = 0) (hM : pmM.nTh = 0) (uP uM : ℝ) (fP fM : ℂ) : fixedRingG pmP pmM uP uM fP fM =
    (-((pmP.kappa : ℂ) - Complex.I * pmP.delta)) • ((modeP pmP.cutoff pmM.cutoff)ᴴ * modeP _ _) + pmP.eta • (modeP _ _)ᴴ - conj pmP.eta • modeP _ _ +
    ((-((pmM.kappa : ℂ) - Complex.I * pmM.delta)) • ((modeM pmP.cutoff pmM.cutoff)ᴴ * modeM _ _) + pmM.eta • (modeM _ _)ᴴ - conj pmM.eta • modeM _ _) +
    (uP * Complex.normSq fP / Complex.I) • ((modeP _ _)ᴴ * modeP _ _) + (uM * Complex.normSq fM / Complex.I) • ((modeM _ _)ᴴ * modeM _ _) +
    (scatteringAmplitude uP uM / Complex.I * (fP * conj fM)) • (modeP _ _ * (modeM _ _)ᴴ) + (scatteringAmplitude uP uM / Complex.I * (conj fP * fM)) • ((modeP _ _)ᴴ * modeM _ _) := by
  unfold fixedRingG modeOf modeP modeM
  rw [hP, hM, ModeEl.mat_modeH, ModeEl.mat_modeH, mat_adOp, mat_adOp, mat_nOp, mat_nOp]
  simp only [kron_conj, kron_mul, Matrix.conjTranspose_one, Matrix.one_mul, Matrix.mul_one]
  ext ⟨a, b⟩ ⟨a', b'⟩
  simp [Matrix.kroneckerMap_apply]
  ring

theorem sqrt_jump {ι : Type*} [Fintype ι] (k : ℝ) (hk : 0 ≤ k) (A B : Matrix ι ι ℂ) : ((Real.sqrt (2 * k) : ℂ) • B)ᴴ * A * ((Real.sqrt (2 * k) : ℂ) • B) = (2 * k : ℂ) • (Bᴴ * A * B) := by
  rw [Matrix.conjTranspose_smul, Matrix.mul_smul, Matrix.smul_mul, Matrix.smul_mul, smul_smul, Complex.star_def, Complex.conj_ofReal, ← Complex.ofReal_mul, Real.mul_self_sqrt (by linarith)]
  push_cast; rfl

/-- The derivatives of the mean amplitudes, with the terms stemming from the cutoffs. -/
theorem ring_generator (pmP pmM : ModeEl.Pars) (hP : pmP.nTh = 0) (hM : pmM.nTh = 0) (hkP : 0 ≤ pmP.kappa) (hkM : 0 ≤ pmM.kappa) (uP uM : ℝ) (fP fM : ℂ)
    (ρ : Matrix (Fin pmP.cutoff × Fin pmM.cutoff) (Fin pmP.cutoff × Fin pmM.cutoff) ℂ) :
    (modeP _ _ * lindblad (fixedRingG pmP pmM uP uM fP fM) (fixedRingJ pmP pmM) ρ).trace =
      (Complex.I * (pmP.delta - uP * Complex.normSq fP) - pmP.kappa) * (modeP _ _ * ρ).trace + pmP.eta * (ρ.trace - pmP.cutoff * ((Evolved.top _ ⊗ₖ 1) * ρ).trace) -
        Complex.I * (scatteringAmplitude uP uM * conj fP * fM) * ((modeM _ _ * ρ).trace - pmP.cutoff * ((Evolved.top _ ⊗ₖ 1) * modeM _ _ * ρ).trace) ∧
    (modeM _ _ * lindblad (fixedRingG pmP pmM uP uM fP fM) (fixedRingJ pmP pmM) ρ).trace =
      (Complex.I * (pmM.delta - uM * Complex.normSq fM) - pmM.kappa) * (modeM _ _ * ρ).trace + pmM.eta * (ρ.trace - pmM.cutoff * ((1 ⊗ₖ Evolved.top _) * ρ).trace) -
        Complex.I * conj (scatteringAmplitude uP uM * conj fP * fM) * ((modeP _ _ * ρ).trace - pmM.cutoff * ((1 ⊗ₖ Evolved.top _) * modeP _ _ * ρ).trace) := by
  obtain ⟨c1, c2, c3⟩ := modes_commute (d0 := pmP.cutoff) (d1 := pmM.cutoff)
  have hJ : fixedRingJ pmP pmM = [(Real.sqrt (2 * pmP.kappa) : ℂ) • modeP _ _, (Real.sqrt (2 * pmM.kappa) : ℂ) • modeM _ _] := rfl
  have tP : ((pmP.cutoff : ℂ) • (Evolved.top pmP.cutoff ⊗ₖ (1 : Matrix (Fin pmM.cutoff) (Fin pmM.cutoff) ℂ))) * modeP _ _ = 0 := by
    unfold modeP; rw [Matrix.smul_mul, kron_mul, top_a]; simp
  have tM : ((pmM.cutoff : ℂ) • ((1 : Matrix (Fin pmP.cutoff) (Fin pmP.cutoff) ℂ) ⊗ₖ Evolved.top pmM.cutoff)) * modeM _ _ = 0 := by
    unfold modeM; rw [Matrix.smul_mul, kron_mul, top_a]; simp
  have cz : ∀ k δ : ℝ, -((k : ℂ) - Complex.I * δ) + conj (-((k : ℂ) - Complex.I * δ)) = -2 * k := by
    intro k δ
    simp only [map_neg, map_sub, map_mul, Complex.conj_I, Complex.conj_ofReal]
    ring
  have cu : ∀ (u : ℝ) (f : ℂ), (u * Complex.normSq f / Complex.I : ℂ) + conj (u * Complex.normSq f / Complex.I : ℂ) = 0 := by
    intro u f
    simp only [map_div₀, map_neg, map_mul, Complex.conj_I, Complex.conj_ofReal, Complex.div_I, div_neg]
    ring
  rw [heisenbergJ, heisenbergJ, hJ]
  simp only [List.map_cons, List.map_nil, List.sum_cons, List.sum_nil, add_zero, sqrt_jump _ hkP, sqrt_jump _ hkM]
  constructor
  · rw [two_modes (modeP _ _) (modeM _ _) _ c1 c2 modeP_commutator tP _ _ _ _ (scatteringAmplitude uP uM / Complex.I * (conj fP * fM)) pmP.kappa pmM.kappa pmP.eta pmM.eta _ (cz _ _) (cz _ _) (cu uP fP) (cu uM fM)
      (by rw [fixedRingG_eq pmP pmM hP hM]
          congr 3
          simp only [map_div₀, map_neg, map_mul, Complex.conj_I, Complex.conj_ofReal, Complex.conj_conj, Complex.div_I, div_neg]
          ring)]
    simp only [Matrix.add_mul, Matrix.sub_mul, Matrix.smul_mul, Matrix.one_mul, Matrix.trace_add, Matrix.trace_sub, Matrix.trace_smul, smul_eq_mul, Complex.div_I]
    ring
  · rw [add_comm ((2 * pmP.kappa : ℂ) • _)]
    rw [two_modes (modeM _ _) (modeP _ _) _ c1.symm c3 modeM_commutator tM _ _ _ _ (scatteringAmplitude uP uM / Complex.I * (fP * conj fM)) pmM.kappa pmP.kappa pmM.eta pmP.eta _ (cz _ _) (cz _ _) (cu uM fM) (cu uP fP)
      (by rw [fixedRingG_eq pmP pmM hP hM, c3, ← c2]
          have : -conj (scatteringAmplitude uP uM / Complex.I * (fP * conj fM)) = scatteringAmplitude uP uM / Complex.I * (conj fP * fM) := by
            simp only [map_div₀, map_neg, map_mul, Complex.conj_I, Complex.conj_ofReal, Complex.conj_conj, Complex.div_I, div_neg]
            ring
          rw [this]
          abel)]
    simp only [Matrix.add_mul, Matrix.sub_mul, Matrix.smul_mul, Matrix.one_mul, Matrix.trace_add, Matrix.trace_sub, Matrix.trace_smul, smul_eq_mul, Complex.div_I, map_mul, Complex.conj_ofReal, Complex.conj_conj]
    ring

/-- The mode function of unit wave number is what the script takes. -/
theorem modeFunction_wave (mf : ParticleEl.MFT) (x : ℝ) : ParticleEl.modeFunction mf x = waveFunction ⟨mf, 1⟩ x := by
  cases mf <;> simp [ParticleEl.modeFunction, waveFunction]

theorem sign_amplitude (U V : ℝ) : sign U * Real.sqrt (U * V) = scatteringAmplitude U V := by
  unfold sign scatteringAmplitude
  by_cases h : U < 0
  · rw [if_pos h, if_neg (by simpa using h)]
  · rw [if_neg h, if_pos (by simpa using h)]

theorem ringEvolved_eq (pmP pmM : ModeEl.Pars) (pcP pcM : ParsAlong) (x0 : ℝ) (hU : 0 ≤ pcP.uNot * pcM.uNot) :
    ringEvolved pmP pmM pcP pcM x0 = some (ringRhs pmP pmM pcP.uNot pcM.uNot (waveFunction ⟨pcP.modeCav, 1⟩ (Real.pi * x0)) (waveFunction ⟨pcM.modeCav, 1⟩ (Real.pi * x0))) := by
  unfold ringEvolved ringRhs
  rw [if_neg (by simpa using hU)]
  simp only [modeFunction_wave, ← sign_amplitude]
  push_cast
  rfl

/-- The derivatives of the mean amplitudes in the Master equation of the two modes with a scatterer fixed: those integrated by the script, up to the effect of the cutoffs. -/
theorem ring_amplitudes_follow (pmP pmM : ModeEl.Pars) (hP : pmP.nTh = 0) (hM : pmM.nTh = 0) (hkP : 0 ≤ pmP.kappa) (hkM : 0 ≤ pmM.kappa) (uP uM : ℝ) (fP fM : ℂ)
    (ρ : ℝ → Matrix (Fin pmP.cutoff × Fin pmM.cutoff) (Fin pmP.cutoff × Fin pmM.cutoff) ℂ) (t : ℝ) (ht : (ρ t).trace = 1)
    (hρ : ∀ i j, HasDerivAt (fun s => ρ s i j) (lindblad (fixedRingG pmP pmM uP uM fP fM) (fixedRingJ pmP pmM) (ρ t) i j) t) :
    HasDerivAt (fun s => ringAmplitudes (ρ s)) (ringRhs pmP pmM uP uM fP fM (ringAmplitudes (ρ t)) - ringCutoff pmP pmM (scatteringAmplitude uP uM * conj fP * fM) (ρ t)) t := by
  have hd : ∀ A : Matrix (Fin pmP.cutoff × Fin pmM.cutoff) (Fin pmP.cutoff × Fin pmM.cutoff) ℂ,
      HasDerivAt (fun s => (A * ρ s).trace) (A * lindblad (fixedRingG pmP pmM uP uM fP fM) (fixedRingJ pmP pmM) (ρ t)).trace t := fun A =>
    HasDerivAt.fun_sum fun i _ => HasDerivAt.fun_sum fun j _ => (hρ j i).const_mul _
  obtain ⟨g1, g2⟩ := ring_generator pmP pmM hP hM hkP hkM uP uM fP fM (ρ t)
  rw [hasDerivAt_pi]
  intro k
  fin_cases k
  · refine (hd (modeP _ _)).congr_deriv ?_
    rw [g1, ht]
    simp only [ringRhs, ringCutoff, ringAmplitudes, modeP, modeM, Evolved.top, Pi.sub_apply]
    simp only [Fin.zero_eta, Matrix.cons_val_zero, Matrix.cons_val_one]
    ring
  · refine (hd (modeM _ _)).congr_deriv ?_
    rw [g2, ht]
    simp only [ringRhs, ringCutoff, ringAmplitudes, modeP, modeM, Evolved.top, Pi.sub_apply]
    simp only [Fin.mk_one, Matrix.cons_val_zero, Matrix.cons_val_one]
    ring

/-- The linear part. -/
noncomputable def ringLinear (pmP pmM : ModeEl.Pars) (uP uM : ℝ) (fP fM : ℂ) : (Fin 2 → ℂ) →ₗ[ℝ] (Fin 2 → ℂ) where
  toFun b := ![(Complex.I * (pmP.delta - uP * Complex.normSq fP) - pmP.kappa) * b 0 - Complex.I * (scatteringAmplitude uP uM * conj fP * fM) * b 1,
    (Complex.I * (pmM.delta - uM * Complex.normSq fM) - pmM.kappa) * b 1 - Complex.I * conj (scatteringAmplitude uP uM * conj fP * fM) * b 0]
  map_add' a b := by funext i; fin_cases i <;> simp <;> ring
  map_smul' c b := by funext i; fin_cases i <;> simp <;> ring

theorem ringRhs_affine (pmP pmM : ModeEl.Pars) (uP uM : ℝ) (fP fM : ℂ) (b : Fin 2 → ℂ) :
    ringRhs pmP pmM uP uM fP fM b = (ringLinear pmP pmM uP uM fP fM).toContinuousLinearMap b + ![pmP.eta, pmM.eta] := by
  funext i
  fin_cases i <;> simp [ringRhs, ringLinear] <;> ring

/-- The trajectories of the script integrate the equations of the amplitudes with the scatterer at `π x0`. -/
theorem ringRhs_integrates.{v} (pmP pmM : ModeEl.Pars) (uP uM : ℝ) (fP fM : ℂ) : Simulated.Integrates.{v} fun _ => ringRhs pmP pmM uP uM fP fM :=
  Simulated.affine_integrates (ringLinear pmP pmM uP uM fP fM).toContinuousLinearMap (fun _ => ![pmP.eta, pmM.eta]) continuous_const _ fun _ y => ringRhs_affine pmP pmM uP uM fP fM y

/-- The amplitudes and the solution of the equation stay close, as far as the cutoffs allow. -/
theorem ring_amplitudes_close (pmP pmM : ModeEl.Pars) (hP : pmP.nTh = 0) (hM : pmM.nTh = 0) (hkP : 0 ≤ pmP.kappa) (hkM : 0 ≤ pmM.kappa) (uP uM : ℝ) (fP fM : ℂ) :
    ∃ K : ℝ, 0 ≤ K ∧ ∀ (ρ : ℝ → Matrix (Fin pmP.cutoff × Fin pmM.cutoff) (Fin pmP.cutoff × Fin pmM.cutoff) ℂ) (b : ℝ → Fin 2 → ℂ) (T ε : ℝ), 0 ≤ T → (∀ t, (ρ t).trace = 1) →
      (∀ t i j, HasDerivAt (fun s => ρ s i j) (lindblad (fixedRingG pmP pmM uP uM fP fM) (fixedRingJ pmP pmM) (ρ t) i j) t) →
      (∀ t, HasDerivAt b (ringRhs pmP pmM uP uM fP fM (b t)) t) →
      (∀ t ∈ Set.Ico 0 T, ‖ringCutoff pmP pmM (scatteringAmplitude uP uM * conj fP * fM) (ρ t)‖ ≤ ε) →
      ‖b T - ringAmplitudes (ρ T)‖ ≤ gronwallBound ‖b 0 - ringAmplitudes (ρ 0)‖ K ε T := by
  refine ⟨‖(ringLinear pmP pmM uP uM fP fM).toContinuousLinearMap‖₊, NNReal.coe_nonneg _, fun ρ b T ε hT ht hρ hb hε => ?_⟩
  have hf := fun t => ring_amplitudes_follow pmP pmM hP hM hkP hkM uP uM fP fM ρ t (ht t) (hρ t)
  have key := dist_le_of_approx_trajectories_ODE (v := fun _ => ringRhs pmP pmM uP uM fP fM) (K := ‖(ringLinear pmP pmM uP uM fP fM).toContinuousLinearMap‖₊) (a := 0) (b := T) (εf := 0) (εg := ε)
    (fun _ => by
      intro x y
      have := (ringLinear pmP pmM uP uM fP fM).toContinuousLinearMap.lipschitz x y
      simpa only [ringRhs_affine, edist_add_right] using this)
    (fun t _ => (hb t).continuousAt.continuousWithinAt) (fun t _ => (hb t).hasDerivWithinAt) (fun t _ => by simp)
    (fun t _ => (hf t).continuousAt.continuousWithinAt) (fun t _ => (hf t).hasDerivWithinAt) (fun t h => by rw [dist_eq_norm, sub_sub_cancel_left, norm_neg]; exact hε t h) le_rfl T ⟨hT, le_rfl⟩
  simpa [dist_eq_norm] using key

/-- **C130.** The wave numbers being 1, the trajectories of the script integrate the equations of motion of the amplitudes of the two modes, with the particle fixed at `π x0`; and the solution stays close to the
mean amplitudes in the Master equation of the two modes with the particle fixed, as far as the cutoffs allow. -/
theorem ringEvolved_integrates.{v} (pmP pmM : ModeEl.Pars) (hP : pmP.nTh = 0) (hM : pmM.nTh = 0) (hkP : 0 ≤ pmP.kappa) (hkM : 0 ≤ pmM.kappa) (pcP pcM : ParsAlong) (h1 : pcP.kCav = 1) (h2 : pcM.kCav = 1)
    (hU : 0 ≤ pcP.uNot * pcM.uNot) (x0 : ℝ) :
    ∃ f, ringEvolved pmP pmM pcP pcM x0 = some f ∧ Simulated.Integrates.{v} (fun _ => f) ∧ ∃ K : ℝ, 0 ≤ K ∧
      ∀ (ρ : ℝ → Matrix (Fin pmP.cutoff × Fin pmM.cutoff) (Fin pmP.cutoff × Fin pmM.cutoff) ℂ) (b : ℝ → Fin 2 → ℂ) (T ε : ℝ), 0 ≤ T → (∀ t, (ρ t).trace = 1) →
      (∀ t i j, HasDerivAt (fun s => ρ s i j)
        (lindblad (fixedRingG pmP pmM pcP.uNot pcM.uNot (waveFunction pcP.mf (Real.pi * x0)) (waveFunction pcM.mf (Real.pi * x0))) (fixedRingJ pmP pmM) (ρ t) i j) t) →
      (∀ t, HasDerivAt b (f (b t)) t) →
      (∀ t ∈ Set.Ico 0 T, ‖ringCutoff pmP pmM (scatteringAmplitude pcP.uNot pcM.uNot * conj (waveFunction pcP.mf (Real.pi * x0)) * waveFunction pcM.mf (Real.pi * x0)) (ρ t)‖ ≤ ε) →
      ‖b T - ringAmplitudes (ρ T)‖ ≤ gronwallBound ‖b 0 - ringAmplitudes (ρ 0)‖ K ε T := by
  have e1 : pcP.mf = ⟨pcP.modeCav, 1⟩ := by simp [ParsAlong.mf, h1]
  have e2 : pcM.mf = ⟨pcM.modeCav, 1⟩ := by simp [ParsAlong.mf, h2]
  rw [e1, e2]
  exact ⟨_, ringEvolved_eq pmP pmM pcP pcM x0 hU, ringRhs_integrates _ _ _ _ _ _, ring_amplitudes_close pmP pmM hP hM hkP hkM _ _ _ _⟩

/-- **C130.** Light shifts of opposite sign: the right-hand side is not a number. -/
theorem ringEvolved_nan (pmP pmM : ModeEl.Pars) (pcP pcM : ParsAlong) (x0 : ℝ) : ringEvolved pmP pmM pcP pcM x0 = none ↔ pcP.uNot * pcM.uNot < 0 := by
  unfold ringEvolved
  split_ifs with h <;> simp [h]

/-- **C131, violated.** Whatever wave number is given, the script takes the mode functions with wave number 1. For opposite travelling waves of the same wave number (the default mode functions), its equations are those of the
two modes for each position of the particle exactly if the wave number is 1. -/
theorem ringEvolved_wave_number_partial (pmP pmM : ModeEl.Pars) (pcP pcM : ParsAlong) (hp : pcP.modeCav = .plus) (hm : pcM.modeCav = .minus) (hk : pcP.kCav = pcM.kCav) (hU : 0 < pcP.uNot * pcM.uNot) :
    (∀ x0, ringEvolved pmP pmM pcP pcM x0 = some (ringRhs pmP pmM pcP.uNot pcM.uNot (waveFunction pcP.mf (Real.pi * x0)) (waveFunction pcM.mf (Real.pi * x0)))) ↔ pcP.kCav = 1 := by
  constructor
  · intro h
    have hs : (scatteringAmplitude pcP.uNot pcM.uNot : ℂ) ≠ 0 := by
      unfold scatteringAmplitude
      have := Real.sqrt_ne_zero'.2 hU
      split_ifs <;> simpa using this
    have h' : ∀ x0 : ℝ, Complex.exp (-(2 * Complex.I * (Real.pi * x0))) = Complex.exp (-(2 * Complex.I * (pcP.kCav * (Real.pi * x0)))) := by
      intro x0
      have e := h x0
      rw [ringEvolved_eq _ _ _ _ _ hU.le, Option.some_inj] at e
      have e0 := congrFun (congrFun e ![0, 1]) 0
      simp only [ringRhs, Matrix.cons_val_zero, Matrix.cons_val_one, mul_zero, zero_add, mul_one, sub_right_inj, mul_assoc] at e0
      have e1 := mul_left_cancel₀ hs (mul_left_cancel₀ Complex.I_ne_zero e0)
      simp only [waveFunction, ParsAlong.mf, hp, hm, ← hk, ← Complex.exp_conj, ← Complex.exp_add, map_mul, Complex.conj_I, Complex.conj_ofReal, map_intCast] at e1
      convert e1 using 2 <;> push_cast <;> ring
    have d : ∀ c : ℂ, HasDerivAt (fun x : ℝ => Complex.exp (-(2 * Complex.I * (c * (Real.pi * x))))) (-(2 * Complex.I * (c * Real.pi))) 0 := by
      intro c
      have := (((Complex.ofRealCLM.hasDerivAt (x := (0 : ℝ))).const_mul (-(2 * Complex.I * (c * Real.pi)))).cexp)
      simp only [Complex.ofRealCLM_apply, Complex.ofReal_zero, mul_zero, Complex.exp_zero, one_mul, Complex.ofReal_one, mul_one] at this
      refine this.congr_of_eventuallyEq (Filter.Eventually.of_forall fun x => ?_)
      simp only
      congr 1
      ring
    have d1 := d 1
    simp only [one_mul] at d1
    rw [show (fun x : ℝ => Complex.exp (-(2 * Complex.I * (Real.pi * x)))) = fun x : ℝ => Complex.exp (-(2 * Complex.I * (pcP.kCav * (Real.pi * x)))) from funext h'] at d1
    have e := d1.unique (d pcP.kCav)
    have hpi : (Real.pi : ℂ) ≠ 0 := by exact_mod_cast Real.pi_ne_zero
    have : (pcP.kCav : ℂ) = 1 := by
      apply mul_right_cancel₀ hpi
      apply mul_left_cancel₀ Complex.I_ne_zero
      linear_combination (1 / 2 : ℂ) * e
    exact_mod_cast this
  · intro h x0
    have e1 : pcP.mf = ⟨pcP.modeCav, 1⟩ := by simp [ParsAlong.mf, h]
    have e2 : pcM.mf = ⟨pcM.modeCav, 1⟩ := by simp [ParsAlong.mf, ← hk, h]
    rw [e1, e2]
    exact ringEvolved_eq _ _ _ _ _ hU.le

/-- The default wave numbers: the hypotheses are met. -/
example : ∃ f, ringEvolved ⟨10, -10, 0, 0, 10, 0, 1⟩ ⟨10, -10, 0, 0, 10, 0, 0⟩ ⟨-1, 1, .plus⟩ ⟨-2, 1, .minus⟩ (1 / 3) = some f ∧ Simulated.Integrates.{0} (fun _ => f) := by
  obtain ⟨f, h1, h2, -⟩ := ringEvolved_integrates.{0} ⟨10, -10, 0, 0, 10, 0, 1⟩ ⟨10, -10, 0, 0, 10, 0, 0⟩ rfl rfl (by norm_num) (by norm_num) ⟨-1, 1, .plus⟩ ⟨-2, 1, .minus⟩ rfl rfl (by norm_num) (1 / 3)
  exact ⟨f, h1, h2⟩

/-- Wave number 2. -/
example : ¬ ∀ x0, ringEvolved ⟨10, -10, 0, 0, 10, 0, 1⟩ ⟨10, -10, 0, 0, 10, 0, 0⟩ ⟨-1, 2, .plus⟩ ⟨-2, 2, .minus⟩ x0 =
    some (ringRhs ⟨10, -10, 0, 0, 10, 0, 1⟩ ⟨10, -10, 0, 0, 10, 0, 0⟩ (-1) (-2) (waveFunction ⟨.plus, 2⟩ (Real.pi * x0)) (waveFunction ⟨.minus, 2⟩ (Real.pi * x0))) := by
  intro h
  have := (ringEvolved_wave_number_partial ⟨10, -10, 0, 0, 10, 0, 1⟩ ⟨10, -10, 0, 0, 10, 0, 0⟩ ⟨-1, 2, .plus⟩ ⟨-2, 2, .minus⟩ rfl rfl rfl (by norm_num)).1 h
  simp at this

end CppQED.ScriptSys
