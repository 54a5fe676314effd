import Verif.Props.HomodynedMode
import Verif.Props.ModeAverages

/-!
# The mode in interaction picture without exact part: C92, C93
-/

namespace CppQED.ModeEl
open CppQED.Elem CppQED.Tridiag CppQED.Spec Matrix
open ComplexConjugate

/-! ## Specification -/

/-- The physical state vector at time `t`. -/
noncomputable def physical (κ δ t : ℝ) (psi : Vec) : Vec := fun n => Complex.exp (-(((κ : ℂ) - Complex.I * δ) * n * t)) * psi n

/-- The rate of photon loss in the state `psi`: `2κ⟨a†a⟩` in the normalised state. -/
noncomputable def lossRate (κ : ℝ) (d : ℕ) (psi : Vec) : ℝ :=
  2 * κ * (∑ n ∈ Finset.range d, n * Complex.normSq (psi n)) / ∑ n ∈ Finset.range d, Complex.normSq (psi n)

/-- The Hamiltonian followed if the time is counted from `t0` in the Hamiltonian, but from 0 everywhere else. -/
noncomputable def noExactH (κ δ : ℝ) (η : ℂ) (t0 : ℝ) : Dens := fun i j =>
  -((κ : ℂ) - Complex.I * δ) * nOp i j + (η * Complex.exp (-(((κ : ℂ) - Complex.I * δ) * t0)) * adOp i j - conj η * Complex.exp (((κ : ℂ) - Complex.I * δ) * t0) * aOp i j)

theorem noExactH_zero (κ δ : ℝ) (η : ℂ) : noExactH κ δ η 0 = modeH κ δ η := by
  funext i j; simp [noExactH, modeH]; ring

theorem z_eq (κ δ : ℝ) : (⟨κ, -δ⟩ : ℂ) = (κ : ℂ) - Complex.I * δ := by apply Complex.ext <;> simp

theorem physical_eq (κ δ t : ℝ) (psi : Vec) (n : ℕ) : physical κ δ t psi n = uDiag (mainDiagonal ⟨κ, -δ⟩ 0) t n * psi n := by
  simp only [physical, uDiag, mainDiagonal, kerrDiagonal, z_eq]
  congr 3
  push_cast; ring_nf

theorem noExact_picture (d : ℕ) (κ δ : ℝ) (η : ℂ) (t t0 : ℝ) :
    (Matrix.diagonal fun i : Fin d => uDiag (mainDiagonal ⟨κ, -δ⟩ 0) t i) * mat d (interactionPicture (mainDiagonal ⟨κ, -δ⟩ 0) (fun i j => η * adOp i j - conj η * aOp i j) (t - t0)) =
      mat d (fun i j => η * Complex.exp (-(((κ : ℂ) - Complex.I * δ) * t0)) * adOp i j - conj η * Complex.exp (((κ : ℂ) - Complex.I * δ) * t0) * aOp i j) *
        Matrix.diagonal fun i : Fin d => uDiag (mainDiagonal ⟨κ, -δ⟩ 0) t i := by
  have hw : ∀ (m : ℕ) (t : ℝ), uDiag (mainDiagonal ⟨κ, -δ⟩ 0) t m = Complex.exp (-(m * ((κ : ℂ) - Complex.I * δ) * t)) := by
    intro m t; rw [z_eq]; simp [uDiag, mainDiagonal, kerrDiagonal]
  ext i j
  rw [Matrix.diagonal_mul, Matrix.mul_diagonal, hw, hw]
  simp only [mat_apply, interactionPicture, mainDiagonal, kerrDiagonal, adOp, aOp, z_eq, ← Complex.exp_neg]
  by_cases h1 : (i : ℕ) = j + 1
  · have h2 : ¬ (j : ℕ) = i + 1 := by omega
    rw [if_pos h1, if_neg h2, h1]
    simp only [mul_zero, sub_zero]
    have e : ∀ a b c y u v w : ℂ, b * a * c = u * v → a * (b * (y * w) * c) = y * u * w * v := by
      intro a b c y u v w h
      linear_combination y * w * h
    refine e _ _ _ _ _ _ _ ?_
    rw [← Complex.exp_add, ← Complex.exp_add, ← Complex.exp_add]
    congr 1
    push_cast; simp; ring
  · rw [if_neg h1]
    by_cases h2 : (j : ℕ) = i + 1
    · rw [if_pos h2, h2]
      simp only [mul_zero, zero_sub]
      have e : ∀ a b c y u v w : ℂ, b * a * c = u * v → a * (b * (-(y * w)) * c) = -(y * u * w) * v := by
        intro a b c y u v w h
        linear_combination -(y * w) * h
      refine e _ _ _ _ _ _ _ ?_
      rw [← Complex.exp_add, ← Complex.exp_add, ← Complex.exp_add]
      congr 1
      push_cast; simp; ring
    · rw [if_neg h2]; simp

/-- **C92, C93.** The physical state vector follows the Schrödinger equation of the pumped lossy mode as long as the time is counted from 0 in the Hamiltonian (`noExactH_zero`). With a different initial time –
it is set to the actual time when a trajectory is resumed – the pump terms are multiplied by `exp(∓z t0)`. -/
theorem noExact_follows (p : Pars) (hd : p.cutoff < 2 ^ 63) (h0 : 0 < p.cutoff) (hK : p.omegaKerr = 0) :
    ∃ e, noExact p = .ok e ∧ ∀ (t0 t : ℝ) (psi : ℝ → Vec),
      (∀ n < p.cutoff, HasDerivAt (fun s => psi s n) (e.addContribution t (psi t) (fun _ => 0) t0 n) t) →
      ∀ n : Fin p.cutoff, HasDerivAt (fun s => physical p.kappa p.delta s (psi s) n) ((mat p.cutoff (noExactH p.kappa p.delta p.eta t0) *ᵥ ket p.cutoff (physical p.kappa p.delta t (psi t))) n) t := by
  obtain ⟨P, hP, okP, -, -⟩ := pumping_ok p.eta p.cutoff hd h0
  refine ⟨_, by unfold noExact; rw [hP]; rfl, fun t0 t psi h n => ?_⟩
  set w := mainDiagonal ⟨p.kappa, -p.delta⟩ 0 with hw
  have e1 : (fun s => physical p.kappa p.delta s (psi s) n) = fun s => uDiag w (s - 0) n * psi s n := by
    funext s; rw [physical_eq, sub_zero]
  rw [e1]
  refine ((uDiag_hasDerivAt w 0 t n).mul (h n n.2)).congr_deriv ?_
  have hadd : (fun n : Fin p.cutoff => (TriHam.mk true [furnishWithFreqs P (mainDiagonal ⟨p.kappa, -p.delta⟩ p.omegaKerr)]).addContribution t (psi t) (fun _ => 0) t0 n) =
      mat p.cutoff (interactionPicture w (fun i j => p.eta * adOp i j - conj p.eta * aOp i j) (t - t0)) *ᵥ ket p.cutoff (psi t) := by
    funext k
    rw [mulVec_ket]
    simp only [TriHam.addContribution, List.foldl_cons, List.foldl_nil, if_true, hK]
    rw [apply_furnished okP _ _ _ _ _ k.2]
    simp [arr1, hw]
  have haddn := congrFun hadd n
  have e3 : mat p.cutoff (noExactH p.kappa p.delta p.eta t0) = mat p.cutoff (fun i j => p.eta * Complex.exp (-(((p.kappa : ℂ) - Complex.I * p.delta) * t0)) * adOp i j -
        conj p.eta * Complex.exp (((p.kappa : ℂ) - Complex.I * p.delta) * t0) * aOp i j) - Matrix.diagonal fun i : Fin p.cutoff => w i := by
    ext a b
    simp only [mat_apply, noExactH, Matrix.sub_apply, Matrix.diagonal_apply, hw, mainDiagonal, kerrDiagonal, nOp, Fin.ext_iff, z_eq]
    split_ifs <;> simp <;> ring
  have e2 : ket p.cutoff (physical p.kappa p.delta t (psi t)) = (Matrix.diagonal fun i : Fin p.cutoff => uDiag w t i) *ᵥ ket p.cutoff (psi t) := by
    funext k; rw [Matrix.mulVec_diagonal]; exact physical_eq _ _ _ _ _
  rw [e3, e2, Matrix.sub_mulVec, Pi.sub_apply, Matrix.mulVec_mulVec, ← noExact_picture, ← Matrix.mulVec_mulVec, Matrix.mulVec_diagonal, Matrix.mulVec_diagonal, Matrix.mulVec_diagonal, ← hw]
  have h3 := congrFun hadd n
  simp only [sub_zero]
  rw [← h3]
  simp only [ket]
  ring

/-- **C92.** The jump, seen on the physical state vector, is photon loss. -/
theorem noExact_jump (κ δ : ℝ) (d : ℕ) (t : ℝ) (psi : Vec) :
    ket d (physical κ δ t (noExactJump ⟨κ, -δ⟩ d t psi)) = mat d (sc (Real.sqrt (2 * κ)) aOp) *ᵥ ket d (physical κ δ t psi) := by
  funext n
  rw [mat_sc, Matrix.smul_mulVec, Pi.smul_apply, aOp_mulVec, smul_eq_mul]
  have hf := ascending (fun n x => ((Real.sqrt (2 * κ) : ℂ) * Complex.exp (-⟨κ, -δ⟩ * t)) * (Real.sqrt ((n : ℝ) + 1) : ℂ) * x) (d - 1) psi
  simp only [ket, noExactJump, physical]
  rw [set_apply, hf]
  have := n.2
  by_cases h : (n : ℕ) = d - 1
  · rw [if_pos h, if_neg (by omega)]; simp
  · rw [if_neg h, if_pos (by omega), if_pos (by omega), z_eq]
    have : Complex.exp (-(((κ : ℂ) - Complex.I * δ) * ((n + 1 : ℕ) : ℂ) * t)) = Complex.exp (-(((κ : ℂ) - Complex.I * δ) * (n : ℕ) * t)) * Complex.exp (-((κ : ℂ) - Complex.I * δ) * t) := by
      rw [← Complex.exp_add]; congr 1; push_cast; ring
    rw [this]
    ring

theorem normSq_physical (κ δ t : ℝ) (psi : Vec) (n : ℕ) : Complex.normSq (physical κ δ t psi n) = Real.exp (-2 * κ * n * t) * Complex.normSq (psi n) := by
  unfold physical
  rw [Complex.normSq_mul, Complex.normSq_eq_norm_sq (Complex.exp _), Complex.norm_exp, ← Real.exp_nat_mul]
  congr 2
  simp
  ring

/-- **C92.** The averages are the photon number and the ladder operator averaged in the physical state vector, which is, however, not normalised. -/
theorem noExact_average (κ δ : ℝ) (d : ℕ) (t : ℝ) (psi : Vec) :
    noExactAverage ⟨κ, -δ⟩ t (LDO.ofSV d psi) 0 = average (LDO.ofSV d (physical κ δ t psi)) 0 ∧
    noExactAverage ⟨κ, -δ⟩ t (LDO.ofSV d psi) 1 = average (LDO.ofSV d (physical κ δ t psi)) 2 ∧
    noExactAverage ⟨κ, -δ⟩ t (LDO.ofSV d psi) 2 = average (LDO.ofSV d (physical κ δ t psi)) 3 := by
  set m := LDO.ofSV d psi with hm
  obtain ⟨h0, -, h2, h3, -⟩ := average_apply (LDO.ofSV d (physical κ δ t psi))
  have key : ∀ i, noExactAverage ⟨κ, -δ⟩ t m i = 0 + ((List.range' 1 (m.dim - 1)).map fun (n : ℕ) => (if i = 0 then n * Real.exp (-2 * κ * n * t) * m.diag n else 0) +
      (if i = 1 then (Real.sqrt n * m.index n (n - 1) * Complex.exp (-((⟨κ, -δ⟩ : ℂ) + 2 * ((n : ℂ) - 1) * κ) * t)).re else 0) +
      (if i = 2 then (Real.sqrt n * m.index n (n - 1) * Complex.exp (-((⟨κ, -δ⟩ : ℂ) + 2 * ((n : ℂ) - 1) * κ) * t)).im else 0)).sum := by
    intro i
    unfold noExactAverage
    rw [foldl_averages _ _ fun (n : ℕ) i => (if i = 0 then n * Real.exp (-2 * κ * n * t) * m.diag n else 0) +
      (if i = 1 then (Real.sqrt n * m.index n (n - 1) * Complex.exp (-((⟨κ, -δ⟩ : ℂ) + 2 * ((n : ℂ) - 1) * κ) * t)).re else 0) +
      (if i = 2 then (Real.sqrt n * m.index n (n - 1) * Complex.exp (-((⟨κ, -δ⟩ : ℂ) + 2 * ((n : ℂ) - 1) * κ) * t)).im else 0)]
    intro a n i
    simp only [Averages.add_apply]
    ring
  have hidx : ∀ k : ℕ, (Real.sqrt ((1 + k : ℕ) : ℝ) : ℂ) * m.index (1 + k) k * Complex.exp (-((⟨κ, -δ⟩ : ℂ) + 2 * (((1 + k : ℕ) : ℂ) - 1) * κ) * t) =
      (Real.sqrt ((1 + k : ℕ) : ℝ) : ℂ) * (LDO.ofSV d (physical κ δ t psi)).index (1 + k) k := by
    intro k
    simp only [hm, LDO.ofSV, physical, map_mul, ← Complex.exp_conj, z_eq]
    have : Complex.exp (-(((κ : ℂ) - Complex.I * δ) * ((1 + k : ℕ) : ℂ) * t)) * Complex.exp (conj (-(((κ : ℂ) - Complex.I * δ) * (k : ℂ) * t))) =
        Complex.exp (-((κ : ℂ) - Complex.I * δ + 2 * (((1 + k : ℕ) : ℂ) - 1) * κ) * t) := by
      rw [← Complex.exp_add]; congr 1
      simp
      ring
    rw [← this]
    ring
  have hdim : (LDO.ofSV d (physical κ δ t psi)).dim = m.dim := rfl
  refine ⟨?_, ?_, ?_⟩
  · rw [key, h0, sum_map_range', hdim, zero_add]
    refine Finset.sum_congr rfl fun k _ => ?_
    have : (LDO.ofSV d (physical κ δ t psi)).diag (1 + k) = Real.exp (-2 * κ * (1 + k : ℕ) * t) * m.diag (1 + k) := by
      have e : ∀ (v : Vec) (n : ℕ), (LDO.ofSV d v).diag n = Complex.normSq (v n) := by
        intro v n; simp [LDO.diag, LDO.ofSV, Complex.mul_conj]
      rw [e, hm, e, normSq_physical]
    rw [this]; simp; ring
  · rw [key, h2, sum_map_range', hdim, zero_add, Complex.re_sum]
    refine Finset.sum_congr rfl fun k _ => ?_
    rw [← hidx k]; simp
  · rw [key, h3, sum_map_range', hdim, zero_add, Complex.im_sum]
    refine Finset.sum_congr rfl fun k _ => ?_
    rw [← hidx k]; simp

/-- The state with one photon, and its superposition with the vacuum. -/
noncomputable def onePhoton : Vec := fun n => if n = 1 then 1 else 0
noncomputable def halfPhoton : Vec := fun n => if n ≤ 1 then (Real.sqrt (1 / 2) : ℂ) else 0

theorem sum_two {d : ℕ} (h : 2 ≤ d) (f : ℕ → ℝ) (hf : ∀ n ≥ 2, f n = 0) : ∑ n ∈ Finset.range d, f n = f 0 + f 1 := by
  rw [← Finset.sum_subset (Finset.range_subset_range.2 h) (fun n _ hn => hf n (by have := Finset.mem_range.not.1 hn; omega)), Finset.sum_range_succ, Finset.sum_range_one]

theorem lossRate_one {d : ℕ} (h : 2 ≤ d) (κ δ t : ℝ) : lossRate κ d (physical κ δ t onePhoton) = 2 * κ := by
  unfold lossRate
  simp only [normSq_physical]
  rw [sum_two h _ (fun n hn => by simp [onePhoton, show n ≠ 1 by omega]), sum_two h _ (fun n hn => by simp [onePhoton, show n ≠ 1 by omega])]
  simp only [onePhoton]
  norm_num

theorem lossRate_half {d : ℕ} (h : 2 ≤ d) (κ δ t : ℝ) : lossRate κ d (physical κ δ t halfPhoton) = 2 * κ * Real.exp (-2 * κ * t) / (1 + Real.exp (-2 * κ * t)) := by
  have hh : Complex.normSq (Real.sqrt (1 / 2) : ℂ) = 1 / 2 := by rw [Complex.normSq_ofReal, Real.mul_self_sqrt (by norm_num)]
  unfold lossRate
  simp only [normSq_physical]
  rw [sum_two h _ (fun n hn => by simp [halfPhoton, show ¬ n ≤ 1 by omega]), sum_two h _ (fun n hn => by simp [halfPhoton, show ¬ n ≤ 1 by omega])]
  simp only [halfPhoton, if_true, zero_le, le_refl, hh]
  have := Real.exp_pos (-2 * κ * t)
  rw [div_eq_div_iff]
  · push_cast; simp; ring
  · simp; positivity
  · positivity

/-- **C93** (what remains of it). The jump rate reported for the state with one photon is the rate of photon loss only for `2κ=1`, and even then, it is right for a superposition only at the beginning. The photon number displayed
for the state with one photon is 1 only at the beginning. -/
theorem noExact_rate_partial (p : Pars) (hd : p.cutoff < 2 ^ 63) (h2 : 2 ≤ p.cutoff) :
    ∃ e, noExact p = .ok e ∧
      (∀ t, e.rate t (LDO.ofSV p.cutoff onePhoton) = lossRate p.kappa p.cutoff (physical p.kappa p.delta t onePhoton) ↔ 2 * p.kappa = 1) ∧
      (2 * p.kappa = 1 → ∀ t, e.rate t (LDO.ofSV p.cutoff halfPhoton) = lossRate p.kappa p.cutoff (physical p.kappa p.delta t halfPhoton) ↔ t = 0) ∧
      ∀ t, e.average t (LDO.ofSV p.cutoff onePhoton) 0 = 1 ↔ p.kappa * t = 0 := by
  obtain ⟨P, hP, okP, -, -⟩ := pumping_ok p.eta p.cutoff hd (by omega)
  have hr : ∀ v : Vec, (∀ n ≥ 2, v n = 0) → photonNumber (LDO.ofSV p.cutoff v) = Complex.normSq (v 1) := by
    intro v hv
    rw [photonNumber_eq]
    change ∑ n ∈ Finset.range p.cutoff, (n : ℝ) * (LDO.ofSV p.cutoff v).diag n = _
    rw [sum_two h2]
    · simp [LDO.diag, LDO.ofSV, Complex.mul_conj]
    · intro n hn; simp [LDO.diag, LDO.ofSV, hv n hn]
  refine ⟨_, by unfold noExact; rw [hP]; rfl, fun t => ?_, fun hκ t => ?_, fun t => ?_⟩
  · change photonNumber _ = _ ↔ _
    rw [hr _ (fun n hn => by simp [onePhoton, show n ≠ 1 by omega]), lossRate_one h2]
    simp [onePhoton, eq_comm]
  · change photonNumber _ = _ ↔ _
    rw [hr _ (fun n hn => by simp [halfPhoton, show ¬ n ≤ 1 by omega]), lossRate_half h2]
    have hh : Complex.normSq (halfPhoton 1) = 1 / 2 := by simp only [halfPhoton, le_refl, if_true]; rw [Complex.normSq_ofReal, Real.mul_self_sqrt (by norm_num)]
    have hp := Real.exp_pos (-2 * p.kappa * t)
    rw [hh, hκ, one_mul, div_eq_div_iff (by norm_num) (by positivity)]
    constructor
    · intro h
      have h1 : Real.exp (-2 * p.kappa * t) = 1 := by linarith
      rw [Real.exp_eq_one_iff] at h1
      have : p.kappa ≠ 0 := by intro h; rw [h] at hκ; norm_num at hκ
      have h4 : p.kappa * t = 0 := by linarith
      exact (mul_eq_zero.1 h4).resolve_left this
    · intro h; rw [h]; norm_num
  · change noExactAverage _ _ _ _ = _ ↔ _
    rw [(noExact_average p.kappa p.delta p.cutoff t onePhoton).1, (average_apply _).1, Finset.sum_eq_single_of_mem 0 (by simp [LDO.ofSV]; omega)]
    · have e : (LDO.ofSV p.cutoff (physical p.kappa p.delta t onePhoton)).diag 1 = Real.exp (-2 * p.kappa * t) := by
        have : (LDO.ofSV p.cutoff (physical p.kappa p.delta t onePhoton)).diag 1 = Complex.normSq (physical p.kappa p.delta t onePhoton 1) := by simp [LDO.diag, LDO.ofSV, Complex.mul_conj]
        rw [this, normSq_physical]; simp [onePhoton]
      simp only [add_zero, Nat.cast_one, one_mul]
      rw [e, Real.exp_eq_one_iff]
      constructor <;> intro h <;> linarith
    · intro k _ hk
      have : physical p.kappa p.delta t onePhoton (1 + k) = 0 := by simp [physical, onePhoton, hk]
      simp [LDO.diag, LDO.ofSV, this]

/-- A pumped lossy mode; the initial state of a resumed trajectory sees pump amplitudes that are not even complex conjugates. -/
example : ∃ e, noExact ⟨10, 1, 0, 0, 2, 0, 3⟩ = .ok e := by
  obtain ⟨e, h, -⟩ := noExact_follows ⟨10, 1, 0, 0, 2, 0, 3⟩ (by norm_num) (by norm_num) rfl
  exact ⟨e, h⟩

example : noExactH 2 1 3 1 1 0 ≠ modeH 2 1 3 1 0 := by
  simp only [noExactH, modeH, nOp, adOp, aOp]
  norm_num
  intro h
  have := congrArg (‖·‖) h
  simp only [Complex.norm_exp] at this
  norm_num at this

end CppQED.ModeEl
