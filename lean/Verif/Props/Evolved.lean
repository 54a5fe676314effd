import Verif.Model.Evolved
import Verif.Props.ModeTrace
import Verif.Props.MultiLevel
import Verif.Props.BichromaticMode
import Verif.Spec.Interactions
import Mathlib.Analysis.ODE.Gronwall
import Mathlib.Analysis.ODE.ExistUnique
import Mathlib.Analysis.Calculus.Deriv.Pi

/-!
# The scripts integrating amplitudes against the simulations of the quantum systems: C103-C106
-/

namespace CppQED.Evolved
open CppQED.Elem CppQED.Spec CppQED.ModeEl CppQED.MultiEl Matrix
open ComplexConjugate

/-! ## The Bloch equations -/

/-- The Bloch vector of a density operator of a qbit: the inversion, and the two quadratures of the dipole moment. -/
noncomputable def bloch (ρ : Matrix (Fin 2) (Fin 2) ℂ) : Fin 3 → ℝ := ![2 * (ρ 0 0).re - 1, 2 * (ρ 0 1).re, -2 * (ρ 0 1).im]

theorem lindblad_ptla (γ δ : ℝ) (hγ : 0 ≤ γ) (η : ℂ) (ρ : Matrix (Fin 2) (Fin 2) ℂ) (hh : ρ.IsHermitian) (ht : ρ.trace = 1) :
    2 * (lindblad (mat 2 (qbitH γ δ η)) [mat 2 (sc (Real.sqrt (2 * γ)) sigma)] ρ 0 0).re = blochDerivs γ δ η (bloch ρ) 0 ∧
    2 * (lindblad (mat 2 (qbitH γ δ η)) [mat 2 (sc (Real.sqrt (2 * γ)) sigma)] ρ 0 1).re = blochDerivs γ δ η (bloch ρ) 1 ∧
    -2 * (lindblad (mat 2 (qbitH γ δ η)) [mat 2 (sc (Real.sqrt (2 * γ)) sigma)] ρ 0 1).im = blochDerivs γ δ η (bloch ρ) 2 := by
  have hs : Real.sqrt (2 * γ) * Real.sqrt (2 * γ) = 2 * γ := Real.mul_self_sqrt (by linarith)
  generalize (Real.sqrt (2 * γ)) = r at hs
  have h00 : (ρ 0 0).im = 0 := by
    have := congrArg Complex.im (hh.apply 0 0)
    simp at this; linarith
  have h10 : ρ 1 0 = conj (ρ 0 1) := (hh.apply 1 0).symm
  have h11 : ρ 1 1 = 1 - ρ 0 0 := by
    rw [Matrix.trace, Fin.sum_univ_two] at ht; simp only [Matrix.diag_apply] at ht; linear_combination ht
  refine ⟨?_, ?_, ?_⟩ <;>
    simp [lindblad, Matrix.mul_apply, Fin.sum_univ_two, mat_apply, qbitH, excited, sigma, sigmaDag, sc, Matrix.conjTranspose_apply, blochDerivs, bloch, h10, h11, h00]
  · linear_combination 2 * (1 - (ρ 0 0).re) * hs
  · ring
  · ring

theorem ptla_exactPart (γ δ : ℝ) (η : ℂ) (t t0 : ℝ) (rho : Matrix (Fin 2) (Fin 2) ℂ) : Master.exactPart (ptla γ δ η).toSys t t0 rho = rho := rfl

theorem ptla_master (γ δ : ℝ) (η : ℂ) (t t0 : ℝ) (rho : ℝ → Matrix (Fin 2) (Fin 2) ℂ) (hh : (rho t).IsHermitian)
    (hρ : ∀ i j : Fin 2, HasDerivAt (fun s => rho s i j) (Master.derivative (ptla γ δ η).toSys t t0 (rho t) i j) t) (i j : Fin 2) :
    HasDerivAt (fun s => rho s i j) (lindblad (mat 2 (qbitH γ δ η)) [mat 2 (sc (Real.sqrt (2 * γ)) sigma)] (rho t) i j) t :=
  (ptla_generates γ δ η).1.master rfl t0 t rho hh hρ i j

theorem hasDerivAt_re {f : ℝ → ℂ} {f' : ℂ} {t : ℝ} (h : HasDerivAt f f' t) : HasDerivAt (fun s => (f s).re) f'.re t :=
  Complex.reCLM.hasFDerivAt.comp_hasDerivAt t h

theorem hasDerivAt_im {f : ℝ → ℂ} {f' : ℂ} {t : ℝ} (h : HasDerivAt f f' t) : HasDerivAt (fun s => (f s).im) f'.im t :=
  Complex.imCLM.hasFDerivAt.comp_hasDerivAt t h

/-- **C103.** If the density operator of the pumped two-level atom evolves according to the Master equation integrated by the framework, then its Bloch vector evolves according to the equations of the script. -/
theorem bloch_follows (γ δ : ℝ) (hγ : 0 ≤ γ) (η : ℂ) (t t0 : ℝ) (rho : ℝ → Matrix (Fin 2) (Fin 2) ℂ) (hh : (rho t).IsHermitian) (ht : (rho t).trace = 1)
    (hρ : ∀ i j : Fin 2, HasDerivAt (fun s => rho s i j) (Master.derivative (ptla γ δ η).toSys t t0 (rho t) i j) t) :
    HasDerivAt (fun s => bloch (rho s)) (blochDerivs γ δ η (bloch (rho t))) t := by
  have h := ptla_master γ δ η t t0 rho hh hρ
  obtain ⟨e0, e1, e2⟩ := lindblad_ptla γ δ hγ η (rho t) hh ht
  rw [hasDerivAt_pi]
  intro i
  fin_cases i
  · exact (((hasDerivAt_re (h 0 0)).const_mul 2).sub_const 1).congr_deriv e0
  · exact ((hasDerivAt_re (h 0 1)).const_mul 2).congr_deriv e1
  · exact ((hasDerivAt_im (h 0 1)).const_mul (-2)).congr_deriv e2

/-- The equations of the script are linear and inhomogeneous. -/
noncomputable def blochLinear (γ δ : ℝ) (η : ℂ) : (Fin 3 → ℝ) →ₗ[ℝ] (Fin 3 → ℝ) where
  toFun b := blochDerivs γ δ η b - blochDerivs γ δ η 0
  map_add' a b := by
    funext i
    fin_cases i <;> simp [blochDerivs] <;> ring
  map_smul' c b := by
    funext i
    fin_cases i <;> simp [blochDerivs] <;> ring

theorem bloch_lipschitz (γ δ : ℝ) (η : ℂ) : LipschitzWith ‖(blochLinear γ δ η).toContinuousLinearMap‖₊ (blochDerivs γ δ η) := by
  have h := (blochLinear γ δ η).toContinuousLinearMap.lipschitz
  intro a b
  have := h a b
  simpa [blochLinear] using this

/-- **C103.** The trajectory integrated by the script is the Bloch vector of the density operator evolved by the framework, if they agree at one time. -/
theorem bloch_same (γ δ : ℝ) (hγ : 0 ≤ γ) (η : ℂ) (t0 : ℝ) (rho : ℝ → Matrix (Fin 2) (Fin 2) ℂ) (hh : ∀ t, (rho t).IsHermitian) (ht : ∀ t, (rho t).trace = 1)
    (hρ : ∀ t, ∀ i j : Fin 2, HasDerivAt (fun s => rho s i j) (Master.derivative (ptla γ δ η).toSys t t0 (rho t) i j) t)
    (b : ℝ → Fin 3 → ℝ) (hb : ∀ t, HasDerivAt b (blochDerivs γ δ η (b t)) t) (h0 : b t0 = bloch (rho t0)) : ∀ t, b t = bloch (rho t) := by
  have := ODE_solution_unique_univ (v := fun _ => blochDerivs γ δ η) (s := fun _ => Set.univ) (t₀ := t0) (fun _ => (bloch_lipschitz γ δ η).lipschitzOnWith) (fun t => ⟨hb t, Set.mem_univ _⟩)
    (fun t => ⟨bloch_follows γ δ hγ η t t0 rho (hh t) (ht t) (hρ t), Set.mem_univ _⟩) h0
  exact fun t => congrFun this t

/-- **C103.** The initial values of the script are the Bloch vector of the pure state with the given amplitude of the excited state. -/
theorem bloch_init (q : ℂ) : blochInit q = bloch (Matrix.of fun i j : Fin 2 => ket 2 (QbitEl.init q) i * conj (ket 2 (QbitEl.init q) j)) := rfl

/-- **C103.** The steady state: the Bloch vector at rest is unique for a decaying atom, and its inversion is that of the saturated two-level atom. -/
theorem bloch_steady (γ δ : ℝ) (hγ : 0 < γ) (η : ℂ) (b : Fin 3 → ℝ) (hb : blochDerivs γ δ η b = 0) : b 0 * (γ ^ 2 + δ ^ 2 + 2 * Complex.normSq η) = γ ^ 2 + δ ^ 2 := by
  have h0 := congrFun hb 0
  have h1 := congrFun hb 1
  have h2 := congrFun hb 2
  have e0 : 2 * (η.re * b 1 + η.im * b 2) + 2 * γ * (1 - b 0) = 0 := by simpa [blochDerivs] using h0
  have e1 : -2 * η.re * b 0 - γ * b 1 - δ * b 2 = 0 := by
    refine Eq.trans ?_ h1; simp [blochDerivs]; ring
  have e2 : -2 * η.im * b 0 - γ * b 2 + δ * b 1 = 0 := by
    refine Eq.trans ?_ h2; simp [blochDerivs]; ring
  rw [Complex.normSq_apply]
  have hg : γ ≠ 0 := hγ.ne'
  have : γ * (b 0 * (γ ^ 2 + δ ^ 2 + 2 * (η.re * η.re + η.im * η.im)) - (γ ^ 2 + δ ^ 2)) = 0 := by
    linear_combination (-(γ ^ 2 + δ ^ 2) / 2) * e0 - (η.re * γ + η.im * δ) * e1 + (η.re * δ - η.im * γ) * e2
  rcases mul_eq_zero.1 this with h | h
  · exact absurd h hg
  · linarith

/-- **C103.** The script of low saturation neglects the population of the excited state: the derivative of the dipole moment `ρ₁₀` differs from that of the Master equation exactly by the pump times twice this population. -/
theorem lowSaturation_error (γ δ : ℝ) (η : ℂ) (t t0 : ℝ) (rho : ℝ → Matrix (Fin 2) (Fin 2) ℂ) (hh : (rho t).IsHermitian) (ht : (rho t).trace = 1)
    (hρ : ∀ i j : Fin 2, HasDerivAt (fun s => rho s i j) (Master.derivative (ptla γ δ η).toSys t t0 (rho t) i j) t) :
    HasDerivAt (fun s => rho s 1 0) (lowSaturationDerivs γ δ η (rho t 1 0) + 2 * η * rho t 1 1) t := by
  refine (ptla_master γ δ η t t0 rho hh hρ 1 0).congr_deriv ?_
  have h00 : rho t 0 0 = 1 - rho t 1 1 := by
    rw [Matrix.trace, Fin.sum_univ_two] at ht; simp only [Matrix.diag_apply] at ht; linear_combination ht
  have hz : (⟨-γ, δ⟩ : ℂ) = -γ + δ * Complex.I := by apply Complex.ext <;> simp
  simp [lindblad, Matrix.mul_apply, Fin.sum_univ_two, mat_apply, qbitH, excited, sigma, sigmaDag, sc, Matrix.conjTranspose_apply, lowSaturationDerivs, h00, hz]
  ring

/-! ## The amplitude of the mode -/

theorem a_adag (d : ℕ) : mat d aOp * (mat d aOp)ᴴ = mat d nOp + 1 - (d : ℂ) • Matrix.diagonal fun i : Fin d => if (i : ℕ) + 1 = d then (1 : ℂ) else 0 := by
  ext i j
  rw [← mat_adOp]
  refine (aOp_mulVec d (fun k => adOp k j) i).trans ?_
  have hi := i.2
  have hj := j.2
  simp only [Matrix.sub_apply, Matrix.add_apply, Matrix.smul_apply, Matrix.diagonal_apply, Matrix.one_apply, smul_eq_mul, mat_apply, nOp, adOp, Fin.ext_iff]
  by_cases h : (i : ℕ) = j
  · by_cases hl : (i : ℕ) + 1 < d
    · rw [if_pos hl, if_pos (by omega), if_pos h, if_pos h, if_pos h, if_neg (by omega), ← Complex.ofReal_mul]
      push_cast
      rw [← Complex.ofReal_one, ← Complex.ofReal_natCast, ← Complex.ofReal_add, ← Complex.ofReal_mul, Real.mul_self_sqrt (by positivity)]
      simp
    · rw [if_neg hl, if_pos h, if_pos h, if_pos h, if_pos (by omega)]
      have : (d : ℂ) = (i : ℕ) + 1 := by rw [← Nat.cast_one, ← Nat.cast_add]; congr 1; omega
      rw [this]; ring
  · rw [if_neg h, if_neg h, if_neg h, if_neg (show ¬ (i : ℕ) + 1 = (j : ℕ) + 1 by omega)]
    simp

theorem a_n (d : ℕ) : mat d aOp * mat d nOp = mat d nOp * mat d aOp + mat d aOp := by
  have e : mat d nOp = Matrix.diagonal fun i : Fin d => ((i : ℕ) : ℂ) := by
    ext i j
    rw [mat_apply, nOp, Matrix.diagonal_apply]
    simp only [Fin.ext_iff]
  rw [e]
  ext i j
  rw [Matrix.mul_diagonal, Matrix.add_apply, Matrix.diagonal_mul, mat_apply, aOp]
  by_cases h : (j : ℕ) = i + 1
  · rw [if_pos h, h]; push_cast; ring
  · rw [if_neg h]; simp

/-- The projector on the highest level kept. -/
def top (d : ℕ) : Matrix (Fin d) (Fin d) ℂ := Matrix.diagonal fun i : Fin d => if (i : ℕ) + 1 = d then (1 : ℂ) else 0

theorem heisenberg {d : ℕ} (A : Matrix (Fin d) (Fin d) ℂ) (G : Matrix (Fin d) (Fin d) ℂ) (J : List (Matrix (Fin d) (Fin d) ℂ)) (ρ : Matrix (Fin d) (Fin d) ℂ) :
    expectation A (lindblad G J ρ) = expectation (A * G + Gᴴ * A + (J.map fun j => jᴴ * A * j).sum) ρ := by
  unfold expectation lindblad
  have hJ : (A * (J.map fun j => j * ρ * jᴴ).sum).trace = ((J.map fun j => jᴴ * A * j).sum * ρ).trace := by
    induction J with
    | nil => simp
    | cons j J ih =>
      simp only [List.map_cons, List.sum_cons, Matrix.mul_add, Matrix.add_mul, Matrix.trace_add, ih]
      congr 1
      rw [Matrix.trace_mul_comm, Matrix.mul_assoc, Matrix.mul_assoc, Matrix.trace_mul_comm, Matrix.mul_assoc, Matrix.trace_mul_comm]
  rw [Matrix.mul_add, Matrix.mul_add, Matrix.trace_add, Matrix.trace_add, hJ, Matrix.add_mul, Matrix.add_mul, Matrix.trace_add, Matrix.trace_add]
  congr 2
  · rw [Matrix.mul_assoc]
  · rw [← Matrix.mul_assoc, Matrix.trace_mul_comm, Matrix.mul_assoc]

/-- The derivative of the mean amplitude, including the terms stemming from the cutoff. -/
theorem amplitude_generator (d : ℕ) (κ n : ℝ) (hκ : 0 ≤ κ) (hn : 0 ≤ n) (δ : ℝ) (η : ℂ) (ρ : Matrix (Fin d) (Fin d) ℂ) :
    expectation (mat d aOp) (lindblad (mat d (modeH (κ * (2 * n + 1)) δ η)) ((modeJ κ n).map (mat d)) ρ) =
      (-κ + 2 * κ * n + Complex.I * δ) * expectation (mat d aOp) ρ + η * (ρ.trace - d * expectation (top d) ρ) - 2 * κ * n * d * expectation (mat d aOp * top d) ρ := by
  set A := mat d aOp with hA
  set N := mat d nOp with hN
  have hNA : N = Aᴴ * A := mat_nOp d
  have c1 : A * N = N * A + A := a_n d
  have c2 : A * Aᴴ = N + 1 - (d : ℂ) • top d := a_adag d
  have hNh : Nᴴ = N := nOp_hermitian d
  rw [heisenberg]
  have key : A * mat d (modeH (κ * (2 * n + 1)) δ η) + (mat d (modeH (κ * (2 * n + 1)) δ η))ᴴ * A + (((modeJ κ n).map (mat d)).map fun j => jᴴ * A * j).sum =
      (-κ + 2 * κ * n + Complex.I * δ : ℂ) • A + η • (1 - (d : ℂ) • top d) - (2 * κ * n * d : ℂ) • (A * top d) := by
    have hG : A * mat d (modeH (κ * (2 * n + 1)) δ η) + (mat d (modeH (κ * (2 * n + 1)) δ η))ᴴ * A =
        (-(2 * κ * (2 * n + 1)) : ℂ) • (N * A) + (-(κ * (2 * n + 1)) + Complex.I * δ : ℂ) • A + η • (1 - (d : ℂ) • top d) := by
      rw [mat_modeH, ← hA, ← hN]
      simp only [Matrix.conjTranspose_add, Matrix.conjTranspose_sub, Matrix.conjTranspose_smul, hNh, Matrix.conjTranspose_conjTranspose, Matrix.mul_add, Matrix.mul_sub, Matrix.add_mul, Matrix.sub_mul,
        Matrix.mul_smul, Matrix.smul_mul, c1, c2, ← hNA, Complex.star_def, Complex.conj_conj, map_neg, map_sub, map_mul, Complex.conj_I, Complex.conj_ofReal]
      push_cast
      module
    have hs : ∀ (c : ℝ) (B : Matrix (Fin d) (Fin d) ℂ), 0 ≤ c → ((Real.sqrt c : ℂ) • B)ᴴ * A * ((Real.sqrt c : ℂ) • B) = (c : ℂ) • (Bᴴ * A * B) := by
      intro c B hc
      rw [Matrix.conjTranspose_smul, Matrix.mul_smul, Matrix.smul_mul, Matrix.smul_mul, smul_smul, Complex.star_def, Complex.conj_ofReal, ← Complex.ofReal_mul, Real.mul_self_sqrt hc]
    have j1 : Aᴴ * A * A = N * A := by rw [← hNA]
    have j2 : (Aᴴ)ᴴ * A * Aᴴ = N * A + (2 : ℂ) • A - (d : ℂ) • (A * top d) := by
      rw [Matrix.conjTranspose_conjTranspose, Matrix.mul_assoc, c2]
      simp only [Matrix.mul_add, Matrix.mul_sub, Matrix.mul_smul, c1, Matrix.mul_one]
      module
    rw [hG]
    unfold modeJ
    by_cases h : κ = 0
    · rw [if_pos h, h]
      simp only [List.map_nil, List.sum_nil]
      push_cast
      module
    by_cases h1 : n = 0
    · rw [if_neg h, if_pos h1]
      simp only [List.map_cons, List.map_nil, List.sum_cons, List.sum_nil, add_zero]
      rw [mat_sc, hs _ _ (by linarith), ← hA, j1, h1]
      push_cast
      module
    · rw [if_neg h, if_neg h1]
      simp only [List.map_cons, List.map_nil, List.sum_cons, List.sum_nil, add_zero]
      rw [mat_sc, hs _ _ (by nlinarith), mat_sc, hs _ _ (by nlinarith [mul_nonneg hκ hn]), mat_adOp, ← hA, j1, j2]
      push_cast
      module
  rw [key]
  unfold expectation
  simp only [Matrix.sub_mul, Matrix.add_mul, Matrix.smul_mul, Matrix.one_mul, Matrix.trace_sub, Matrix.trace_add, Matrix.trace_smul, smul_eq_mul]

/-- The mean amplitude of the field in the (not necessarily normalised) state. -/
noncomputable def amplitude (d : ℕ) (ρ : Matrix (Fin d) (Fin d) ℂ) : ℂ := expectation (mat d aOp) ρ / ρ.trace

/-- The deviation caused by the cutoff: proportional to the elements of the density operator belonging to the highest level kept. -/
noncomputable def cutoffError (d : ℕ) (κ n : ℝ) (η : ℂ) (ρ : Matrix (Fin d) (Fin d) ℂ) : ℂ :=
  d * (η * (expectation (top d) ρ / ρ.trace) + 2 * κ * n * (expectation (mat d aOp * top d) ρ / ρ.trace - amplitude d ρ * (expectation (top d) ρ / ρ.trace)))

theorem expectation_hasDerivAt {d : ℕ} (A : Matrix (Fin d) (Fin d) ℂ) (ρ : ℝ → Matrix (Fin d) (Fin d) ℂ) (ρ' : Matrix (Fin d) (Fin d) ℂ) (t : ℝ) (h : ∀ i j, HasDerivAt (fun s => ρ s i j) (ρ' i j) t) :
    HasDerivAt (fun s => expectation A (ρ s)) (expectation A ρ') t := by
  have : HasDerivAt (fun s => ∑ i, ∑ j, A i j * ρ s j i) (∑ i, ∑ j, A i j * ρ' j i) t :=
    HasDerivAt.fun_sum fun i _ => HasDerivAt.fun_sum fun j _ => (h j i).const_mul _
  exact this

theorem trace_hasDerivAt {d : ℕ} (ρ : ℝ → Matrix (Fin d) (Fin d) ℂ) (ρ' : Matrix (Fin d) (Fin d) ℂ) (t : ℝ) (h : ∀ i j, HasDerivAt (fun s => ρ s i j) (ρ' i j) t) :
    HasDerivAt (fun s => (ρ s).trace) ρ'.trace t := HasDerivAt.fun_sum fun i _ => h i i

theorem trace_generator (d : ℕ) (hd : 0 < d) (κ n : ℝ) (hκ : 0 ≤ κ) (hn : 0 ≤ n) (δ : ℝ) (η : ℂ) (ρ : Matrix (Fin d) (Fin d) ℂ) :
    (lindblad (mat d (modeH (κ * (2 * n + 1)) δ η)) ((modeJ κ n).map (mat d)) ρ).trace = 2 * κ * n * (ρ.trace - d * expectation (top d) ρ) := by
  have h := mode_trace d hd κ n hκ hn δ η (fun i j => if h : i < d ∧ j < d then ρ ⟨i, h.1⟩ ⟨j, h.2⟩ else 0)
  rw [mat_surj, dif_pos ⟨by omega, by omega⟩] at h
  rw [h]
  congr 3
  unfold expectation top
  rw [Matrix.trace]
  simp only [Matrix.diag_apply, Matrix.diagonal_mul, ite_mul, one_mul, zero_mul]
  rw [Finset.sum_eq_single (⟨d - 1, by omega⟩ : Fin d), if_pos (by simp; omega)]
  · intro i _ hi
    rw [if_neg]
    intro h
    exact hi (Fin.ext (by simp; omega))
  · simp

/-- The script with the second pump switched off. -/
noncomputable def monochromatic (p : ModeEl.Pars) : ParsBichromatic := { p with deltaOther := 0, etaOther := 0 }

/-- **C104.** The mean amplitude of the field of the pumped lossy mode evolved by the Master equation of the framework, in whichever picture and at whichever temperature, follows the equation of the script, apart from the effect
of the cutoff. -/
theorem amplitude_follows (p : ModeEl.Pars) (hd : p.cutoff < 2 ^ 63) (h0 : 0 < p.cutoff) (hκ : 0 ≤ p.kappa) (hn : 0 ≤ p.nTh) (hK : p.omegaKerr = 0) (hA : p.omegaKerrAlter = 0)
    (qmp : Picture) (hq : qmp ≠ .ip) : ∃ e, makePumpedLossy p qmp = .ok e ∧
      ∀ (t0 t : ℝ) (rho : ℝ → Matrix (Fin e.dim) (Fin e.dim) ℂ), (rho t).IsHermitian → (∀ i j, HasDerivAt (fun s => rho s i j) (Master.derivative e.toSys t t0 (rho t) i j) t) →
        (Master.exactPart e.toSys t t0 (rho t)).trace ≠ 0 →
        HasDerivAt (fun s => amplitude e.dim (Master.exactPart e.toSys s t0 (rho s)))
          (modeDerivs (monochromatic p) t (amplitude e.dim (Master.exactPart e.toSys t t0 (rho t))) - cutoffError e.dim p.kappa p.nTh p.eta (Master.exactPart e.toSys t t0 (rho t))) t := by
  obtain ⟨e, h1, h2, h3, h4⟩ := makePumpedLossy_simulates p hd h0 hκ hn hK hA qmp
  refine ⟨e, h1, fun t0 t rho hr hρ htr => ?_⟩
  have h := h4.master (h3 hq) t0 t rho hr hρ
  have ha := expectation_hasDerivAt (mat e.dim aOp) _ _ t h
  have ht := trace_hasDerivAt _ _ t h
  rw [amplitude_generator e.dim p.kappa p.nTh hκ hn] at ha
  rw [trace_generator e.dim (by omega) p.kappa p.nTh hκ hn] at ht
  refine (ha.div ht htr).congr_deriv ?_
  have hz : (⟨-p.kappa, p.delta⟩ : ℂ) = -p.kappa + p.delta * Complex.I := by apply Complex.ext <;> simp
  unfold modeDerivs monochromatic cutoffError amplitude
  simp only [hz, zero_mul, add_zero]
  generalize expectation (mat e.dim aOp) _ = x
  generalize expectation (top e.dim) _ = y
  generalize expectation (mat e.dim aOp * top e.dim) _ = w
  set T := (Master.exactPart e.toSys t t0 (rho t)).trace
  field_simp
  ring

/-- **C104.** As long as the highest level kept is not populated, the equation of the script is followed exactly. -/
theorem amplitude_exact (d : ℕ) (κ n : ℝ) (η : ℂ) (ρ : Matrix (Fin d) (Fin d) ℂ) (h : ∀ i j : Fin d, (i : ℕ) + 1 = d → ρ i j = 0) : cutoffError d κ n η ρ = 0 := by
  have : top d * ρ = 0 := by
    ext i j
    unfold top
    rw [Matrix.diagonal_mul]
    by_cases hi : (i : ℕ) + 1 = d
    · rw [h i j hi]; simp
    · rw [if_neg hi]; simp
  unfold cutoffError expectation
  rw [Matrix.mul_assoc, this]
  simp

/-- **C104.** The trajectory of the script agrees with the mean amplitude of the simulated mode up to the effect of the cutoff accumulated: if the deviation `cutoffError` remains below `ε`, the difference of the amplitudes
at the time `T` is at most its initial value, damped, plus `εT`. -/
theorem amplitude_close (p : ModeEl.Pars) (hd : p.cutoff < 2 ^ 63) (h0 : 0 < p.cutoff) (hκ : 0 ≤ p.kappa) (hn : 0 ≤ p.nTh) (hK : p.omegaKerr = 0) (hA : p.omegaKerrAlter = 0)
    (qmp : Picture) (hq : qmp ≠ .ip) : ∃ e, makePumpedLossy p qmp = .ok e ∧
      ∀ (t0 T ε : ℝ) (rho : ℝ → Matrix (Fin e.dim) (Fin e.dim) ℂ) (b : ℝ → ℂ), t0 ≤ T →
        (∀ t, (rho t).IsHermitian) → (∀ t i j, HasDerivAt (fun s => rho s i j) (Master.derivative e.toSys t t0 (rho t) i j) t) →
        (∀ t, (Master.exactPart e.toSys t t0 (rho t)).trace ≠ 0) → (∀ t, HasDerivAt b (modeDerivs (monochromatic p) t (b t)) t) →
        (∀ t ∈ Set.Ico t0 T, ‖cutoffError e.dim p.kappa p.nTh p.eta (Master.exactPart e.toSys t t0 (rho t))‖ ≤ ε) →
        ‖b T - amplitude e.dim (Master.exactPart e.toSys T t0 (rho T))‖ ≤
          Real.exp (-p.kappa * (T - t0)) * ‖b t0 - amplitude e.dim (Master.exactPart e.toSys t0 t0 (rho t0))‖ + ε * (T - t0) := by
  obtain ⟨e, h1, h⟩ := amplitude_follows p hd h0 hκ hn hK hA qmp hq
  refine ⟨e, h1, fun t0 T ε rho b hT hr hρ htr hb hε => ?_⟩
  set α : ℝ → ℂ := fun t => amplitude e.dim (Master.exactPart e.toSys t t0 (rho t)) with hα
  set E : ℝ → ℂ := fun t => cutoffError e.dim p.kappa p.nTh p.eta (Master.exactPart e.toSys t t0 (rho t)) with hE
  set z : ℂ := ⟨-p.kappa, p.delta⟩ with hz
  have hd1 : ∀ t, HasDerivAt (fun s => b s - α s) (z * (b t - α t) + E t) t := by
    intro t
    refine ((hb t).sub (h t0 t rho (hr t) (hρ t) (htr t))).congr_deriv ?_
    simp only [modeDerivs, monochromatic]
    rw [← hz]
    ring
  set u : ℝ → ℂ := fun s => Complex.exp (-z * (s - t0 : ℝ)) * (b s - α s) with hu
  have hexp : ∀ t : ℝ, HasDerivAt (fun s : ℝ => Complex.exp (-z * (s - t0 : ℝ))) (-z * Complex.exp (-z * (t - t0 : ℝ))) t := by
    intro t
    have h1 : HasDerivAt (fun s : ℝ => -z * ((s - t0 : ℝ) : ℂ)) (-z) t := by
      have := (((hasDerivAt_id t).sub_const t0).ofReal_comp).const_mul (-z)
      simpa using this
    exact (h1.cexp).congr_deriv (by ring)
  have hu' : ∀ t, HasDerivAt u (Complex.exp (-z * (t - t0 : ℝ)) * E t) t := fun t => ((hexp t).mul (hd1 t)).congr_deriv (by ring)
  have hnorm : ∀ t : ℝ, ‖Complex.exp (-z * (t - t0 : ℝ))‖ = Real.exp (p.kappa * (t - t0)) := by
    intro t
    rw [Complex.norm_exp]; congr 1; simp [hz]
  have hε0 : t0 < T → 0 ≤ ε := fun hlt => (norm_nonneg _).trans (hε t0 ⟨le_rfl, hlt⟩)
  have hle : ‖u T - u t0‖ ≤ (Real.exp (p.kappa * (T - t0)) * ε) * (T - t0) := by
    refine norm_image_sub_le_of_norm_deriv_le_segment' (f' := fun t => Complex.exp (-z * (t - t0 : ℝ)) * E t) (fun t _ => (hu' t).hasDerivWithinAt) (fun t ht => ?_) T ⟨hT, le_rfl⟩
    rw [norm_mul, hnorm]
    have hlt : t0 < T := lt_of_le_of_lt ht.1 ht.2
    have := hε0 hlt
    refine mul_le_mul (Real.exp_le_exp.2 (mul_le_mul_of_nonneg_left (by linarith [ht.2]) hκ)) (hε t ht) (norm_nonneg _) (Real.exp_nonneg _)
  have hu0 : u t0 = b t0 - α t0 := by simp [hu]
  have huT : ‖u T‖ = Real.exp (p.kappa * (T - t0)) * ‖b T - α T‖ := by rw [hu]; dsimp only; rw [norm_mul, hnorm]
  have h2 : ‖u T‖ ≤ ‖b t0 - α t0‖ + Real.exp (p.kappa * (T - t0)) * ε * (T - t0) := by
    rw [← hu0]
    calc ‖u T‖ = ‖u t0 + (u T - u t0)‖ := by congr 1; ring
      _ ≤ _ := (norm_add_le _ _).trans (by linarith)
  rw [huT] at h2
  have hpos := Real.exp_pos (-p.kappa * (T - t0))
  have hinv : Real.exp (-p.kappa * (T - t0)) * Real.exp (p.kappa * (T - t0)) = 1 := by rw [← Real.exp_add]; simp
  have := mul_le_mul_of_nonneg_left h2 hpos.le
  calc ‖b T - α T‖ = Real.exp (-p.kappa * (T - t0)) * (Real.exp (p.kappa * (T - t0)) * ‖b T - α T‖) := by rw [← mul_assoc, hinv, one_mul]
    _ ≤ _ := this
    _ = Real.exp (-p.kappa * (T - t0)) * ‖b t0 - α t0‖ + (Real.exp (-p.kappa * (T - t0)) * Real.exp (p.kappa * (T - t0))) * ε * (T - t0) := by ring
    _ = _ := by rw [hinv, one_mul]

/-! ## Two pumps -/

/-- The pumping in the equation of the script. -/
theorem modeDerivs_pump (p : ParsBichromatic) (t : ℝ) (b : ℂ) :
    modeDerivs p t b = (-p.kappa + Complex.I * p.delta) * b + (p.eta + p.etaOther * Complex.exp (Complex.I * ((p.delta + p.deltaOther) * t))) := by
  have hz : (⟨-p.kappa, p.delta⟩ : ℂ) = -p.kappa + p.delta * Complex.I := by apply Complex.ext <;> simp
  unfold modeDerivs
  rw [hz, show Complex.I * t * (p.deltaOther + p.delta) = Complex.I * ((p.delta + p.deltaOther) * t) by ring]
  ring

/-- **C105** (what remains of it). The second pump of the script is that of the bichromatically pumped mode exactly if there is no second pump, or its detuning is zero: the sign of this detuning differs. -/
theorem bichromatic_pump_partial (p : ParsBichromatic) :
    (∀ t b, modeDerivs p t b = (-p.kappa + Complex.I * p.delta) * b + twoPumps p.delta p.deltaOther p.eta p.etaOther t) ↔ p.etaOther = 0 ∨ p.deltaOther = 0 := by
  constructor
  · intro h
    by_contra hc
    push Not at hc
    obtain ⟨h1, h2⟩ := hc
    have := h (Real.pi / (2 * p.deltaOther)) 0
    rw [modeDerivs_pump, twoPumps, add_right_inj, add_right_inj] at this
    have h3 := mul_left_cancel₀ h1 this
    have h4 : Complex.exp (Complex.I * ((p.delta + p.deltaOther) * (Real.pi / (2 * p.deltaOther) : ℝ))) =
        Complex.exp (Complex.I * ((p.delta - p.deltaOther) * (Real.pi / (2 * p.deltaOther) : ℝ))) * Complex.exp (Real.pi * Complex.I) := by
      rw [← Complex.exp_add]
      congr 1
      have : (p.deltaOther : ℂ) ≠ 0 := by exact_mod_cast h2
      push_cast
      field_simp
      ring
    rw [h4, Complex.exp_pi_mul_I] at h3
    have h5 := Complex.exp_ne_zero (Complex.I * ((p.delta - p.deltaOther) * (Real.pi / (2 * p.deltaOther) : ℝ)))
    apply h5
    linear_combination (-1 / 2) * h3
  · rintro (h | h) t b
    · rw [modeDerivs_pump, twoPumps, h]; simp
    · rw [modeDerivs_pump, twoPumps, h]; simp

/-! ## The Jaynes-Cummings system -/

/-- The Hamiltonian divided by `i` of the Jaynes-Cummings system simulated (cf. `jaynesCummings_master`), without pumps, at zero temperature. -/
noncomputable def jc (κ δm γ δq : ℝ) (g : ℂ) (i j : List ℤ) : ℂ := tensor (qbitH γ δq 0) one i j + tensor one (modeH κ δm 0) i j + jcH g sigma sigmaDag i j

/-- Without pumps, the number of the excitations is conserved between the jumps, so that the two states of one excitation evolve by themselves. -/
theorem jc_conserves (κ δm γ δq : ℝ) (g : ℂ) (a m b k : ℕ) (h : a + m ≠ b + k) : jc κ δm γ δq g [a, m] [b, k] = 0 := by
  simp only [jc, jcH, tensor, q, qbitH, modeH, excited, sigma, sigmaDag, Spec.one, nOp, aOp, adOp, List.getD_cons_zero, List.getD_cons_succ, Int.toNat_natCast, map_zero, zero_mul, sub_zero, add_zero]
  have h1 : ∀ x y z w : ℂ, (if a = 1 ∧ b = 1 then x else 0) * (if m = k then y else 0) = 0 ∧ (if a = b then z else 0) * (if m = k then w else 0) = 0 := by
    intro x y z w
    constructor <;> (split_ifs <;> first | omega | simp)
  have h2 : ∀ x y z w : ℂ, (if a = 0 ∧ b = 1 then x else 0) * (if m = k + 1 then y else 0) = 0 ∧ (if a = 1 ∧ b = 0 then z else 0) * (if k = m + 1 then w else 0) = 0 := by
    intro x y z w
    constructor <;> (split_ifs <;> first | omega | simp)
  rw [(h2 _ _ 0 0).1, (h2 0 0 _ _).2, mul_assoc, (h1 _ _ 0 0).1, mul_left_comm, (h1 0 0 _ _).2]
  simp

/-- The derivatives of the two amplitudes of one excitation, `[0,1]` being that with the photon in the mode, `[1,0]` that with the excited qbit. -/
theorem jc_oneExcitation (κ δm γ δq : ℝ) (g : ℂ) (b : Fin 2 → ℂ) :
    jc κ δm γ δq g [0, 1] [0, 1] * b 0 + jc κ δm γ δq g [0, 1] [1, 0] * b 1 = ⟨-κ, δm⟩ * b 0 + conj g * b 1 ∧
    jc κ δm γ δq g [1, 0] [1, 0] * b 1 + jc κ δm γ δq g [1, 0] [0, 1] * b 0 = ⟨-γ, δq⟩ * b 1 - g * b 0 := by
  have hz : ∀ x y : ℝ, (⟨x, y⟩ : ℂ) = x + y * Complex.I := fun x y => by apply Complex.ext <;> simp
  rw [hz, hz]
  constructor
  · simp [jc, jcH, tensor, q, qbitH, modeH, excited, sigma, sigmaDag, Spec.one, nOp, aOp, adOp]; left; ring
  · simp [jc, jcH, tensor, q, qbitH, modeH, excited, sigma, sigmaDag, Spec.one, nOp, aOp, adOp]; ring

/-- The same with the pumps. -/
noncomputable def jcPumped (κ δm : ℝ) (ηm : ℂ) (γ δq : ℝ) (ηq g : ℂ) (i j : List ℤ) : ℂ := tensor (qbitH γ δq ηq) one i j + tensor one (modeH κ δm ηm) i j + jcH g sigma sigmaDag i j

theorem jcPumped_fromVacuum (κ δm : ℝ) (ηm : ℂ) (γ δq : ℝ) (ηq g : ℂ) : jcPumped κ δm ηm γ δq ηq g [0, 1] [0, 0] = ηm ∧ jcPumped κ δm ηm γ δq ηq g [1, 0] [0, 0] = -ηq := by
  constructor
  · simp [jcPumped, jcH, tensor, q, qbitH, modeH, excited, sigma, sigmaDag, Spec.one, nOp, aOp, adOp]
  · simp [jcPumped, jcH, tensor, q, qbitH, modeH, excited, sigma, sigmaDag, Spec.one, nOp, aOp, adOp]

theorem jcPumped_oneExcitation (κ δm : ℝ) (ηm : ℂ) (γ δq : ℝ) (ηq g : ℂ) : jcPumped κ δm ηm γ δq ηq g [0, 1] [0, 1] = jc κ δm γ δq g [0, 1] [0, 1] ∧
    jcPumped κ δm ηm γ δq ηq g [0, 1] [1, 0] = jc κ δm γ δq g [0, 1] [1, 0] ∧ jcPumped κ δm ηm γ δq ηq g [1, 0] [0, 1] = jc κ δm γ δq g [1, 0] [0, 1] ∧
    jcPumped κ δm ηm γ δq ηq g [1, 0] [1, 0] = jc κ δm γ δq g [1, 0] [1, 0] := by
  refine ⟨?_, ?_, ?_, ?_⟩ <;> simp [jcPumped, jc, jcH, tensor, q, qbitH, modeH, excited, sigma, sigmaDag, Spec.one, nOp, aOp, adOp]

/-- **C106** (what remains of it). The equations of the script are those of the two amplitudes of the Jaynes-Cummings system in the states of one excitation, pumped from the vacuum (of amplitude 1: weak pumps), exactly if the
coupling is real: the mode should be driven with the complex conjugate of the coupling. -/
theorem qbitMode_partial (κ δm : ℝ) (ηm : ℂ) (γ δq : ℝ) (ηq g : ℂ) :
    (∀ b : Fin 2 → ℂ, qbitModeDerivs κ δm ηm γ δq ηq g b =
      ![jcPumped κ δm ηm γ δq ηq g [0, 1] [0, 1] * b 0 + jcPumped κ δm ηm γ δq ηq g [0, 1] [1, 0] * b 1 + jcPumped κ δm ηm γ δq ηq g [0, 1] [0, 0] * 1,
        jcPumped κ δm ηm γ δq ηq g [1, 0] [1, 0] * b 1 + jcPumped κ δm ηm γ δq ηq g [1, 0] [0, 1] * b 0 + jcPumped κ δm ηm γ δq ηq g [1, 0] [0, 0] * 1]) ↔ g.im = 0 := by
  obtain ⟨e1, e2, e3, e4⟩ := jcPumped_oneExcitation κ δm ηm γ δq ηq g
  obtain ⟨e5, e6⟩ := jcPumped_fromVacuum κ δm ηm γ δq ηq g
  simp only [e1, e2, e3, e4, e5, e6, (jc_oneExcitation κ δm γ δq g _).1, (jc_oneExcitation κ δm γ δq g _).2]
  rw [← Complex.conj_eq_iff_im]
  constructor
  · intro h
    have := congrFun (h ![0, 1]) 0
    simpa [qbitModeDerivs] using this.symm
  · intro h b
    rw [h]
    funext i
    fin_cases i <;> simp [qbitModeDerivs, sub_eq_add_neg]

/-! ## Instances -/

/-- The excited atom: the inversion begins to grow with four times the decay rate of the amplitude. -/
example : blochDerivs 2 3 0 (bloch !![0, 0; 0, 1]) = ![8, 0, 0] := by
  funext i; fin_cases i <;> simp [blochDerivs, bloch]; norm_num

/-- The atom at rest for `γ=1`, `δ=0`, `η=1`. -/
example : blochDerivs 1 0 1 ![1 / 3, -2 / 3, 0] = 0 := by
  funext i; fin_cases i <;> simp [blochDerivs] <;> norm_num

/-- Curves fulfilling the hypotheses of `bloch_follows` go through every state; here, the equal superposition. -/
example (t t0 : ℝ) : ∃ rho : ℝ → Matrix (Fin 2) (Fin 2) ℂ, rho t = !![1 / 2, 1 / 2; 1 / 2, 1 / 2] ∧ HasDerivAt (fun s => bloch (rho s)) ![6, -2, 3] t := by
  set ρ0 : Matrix (Fin 2) (Fin 2) ℂ := !![1 / 2, 1 / 2; 1 / 2, 1 / 2] with hρ0
  obtain ⟨D, hD⟩ : ∃ D : Matrix (Fin 2) (Fin 2) ℂ, D = Master.derivative (ptla 2 3 1).toSys t t0 ρ0 := ⟨_, rfl⟩
  refine ⟨fun s => ρ0 + ((s - t : ℝ) : ℂ) • D, by simp, ?_⟩
  have h := bloch_follows 2 3 (by norm_num) 1 t t0 (fun s => ρ0 + ((s - t : ℝ) : ℂ) • D) ?_ ?_ ?_
  · refine h.congr_deriv ?_
    funext i
    fin_cases i <;> simp [blochDerivs, bloch, hρ0] <;> norm_num
  · simp only [sub_self, Complex.ofReal_zero, zero_smul, add_zero]
    ext i j; fin_cases i <;> fin_cases j <;> simp [hρ0]
  · simp [hρ0, Matrix.trace, Fin.sum_univ_two]; norm_num
  · intro i j
    have h1 : HasDerivAt (fun s : ℝ => ((s - t : ℝ) : ℂ)) 1 t := by
      have := ((hasDerivAt_id t).sub_const t).ofReal_comp
      simpa using this
    have h2 := (h1.mul_const (D i j)).const_add (ρ0 i j)
    refine h2.congr_deriv ?_
    simp only [sub_self, Complex.ofReal_zero, zero_smul, add_zero, one_mul]
    rw [hD]

/-- The vacuum without pump: the amplitude is zero and remains so. -/
example : ∀ ρ : Matrix (Fin 3) (Fin 3) ℂ, ρ = !![1, 0, 0; 0, 0, 0; 0, 0, 0] → cutoffError 3 1 (1 / 2) 1 ρ = 0 ∧ amplitude 3 ρ = 0 := by
  rintro ρ rfl
  refine ⟨amplitude_exact 3 _ _ _ _ fun i j h => ?_, ?_⟩
  · fin_cases i <;> simp_all; fin_cases j <;> rfl
  · simp [amplitude, expectation, Matrix.trace, Fin.sum_univ_three, Matrix.mul_apply, mat_apply, aOp]

/-- A superposition of zero and one photons with the amplitude 1/2. -/
example : amplitude 3 !![1, 1, 0; 1, 1, 0; 0, 0, 0] = 1 / 2 := by
  simp [amplitude, expectation, Matrix.trace, Fin.sum_univ_three, Matrix.mul_apply, mat_apply, aOp]; norm_num

example : ¬ ∀ t b, modeDerivs ⟨⟨10, 1, 0, 0, 2, 0, 1⟩, 1, 1⟩ t b = (-(2 : ℝ) + Complex.I * (1 : ℝ)) * b + twoPumps 1 1 1 1 t := by
  have := (bichromatic_pump_partial ⟨⟨10, 1, 0, 0, 2, 0, 1⟩, 1, 1⟩).not.2 (by simp)
  exact this

end CppQED.Evolved
