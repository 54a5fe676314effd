import Verif.Lemmas.Mode

/-!
# Properties of the mode: C21, C22, C23, C72
-/

namespace CppQED.ModeEl
open CppQED.Elem CppQED.Tridiag CppQED.Spec Matrix
open ComplexConjugate

/-! ## The operators of the specification -/

theorem mat_adOp (d : ℕ) : mat d adOp = (mat d aOp)ᴴ := by
  ext i j
  rw [Matrix.conjTranspose_apply, mat_apply, mat_apply, Complex.star_def, conj_aOp]

theorem mat_sc (d : ℕ) (c : ℂ) (A : Dens) : mat d (sc c A) = c • mat d A := by
  ext i j; rfl

/-! ## C21 -/

theorem aOp_mulVec (d : ℕ) (psi : Vec) (n : Fin d) : (mat d aOp *ᵥ ket d psi) n = if (n : ℕ) + 1 < d then (Real.sqrt ((n : ℕ) + 1) : ℂ) * psi (n + 1) else 0 := by
  rw [mulVec_ket]
  simp only [aOp, ite_mul, zero_mul, Finset.sum_ite_eq', Finset.mem_range]
  push_cast
  rfl

theorem adOp_mulVec (d : ℕ) (psi : Vec) (n : Fin d) : (mat d adOp *ᵥ ket d psi) n = if 1 ≤ (n : ℕ) then (Real.sqrt (n : ℕ) : ℂ) * psi (n - 1) else 0 := by
  rw [mulVec_ket]
  simp only [adOp, ite_mul, zero_mul]
  by_cases h : 1 ≤ (n : ℕ)
  · rw [if_pos h, Finset.sum_eq_single_of_mem (n - 1 : ℕ) (by simp; omega), if_pos (by omega)]
    intro k _ hk; exact if_neg (by omega)
  · rw [if_neg h]
    exact Finset.sum_eq_zero fun k _ => if_neg (by omega)

theorem mat_nOp (d : ℕ) : mat d nOp = (mat d aOp)ᴴ * mat d aOp := by
  ext i j
  rw [← mat_adOp]
  refine Eq.trans ?_ (adOp_mulVec d (fun k => aOp k j) i).symm
  rw [mat_apply, nOp, aOp]
  by_cases h : 1 ≤ (i : ℕ)
  · rw [if_pos h]
    by_cases hj : (i : ℕ) = j
    · rw [if_pos hj, if_pos (by omega), ← hj, ← Complex.ofReal_mul, Real.mul_self_sqrt (by positivity)]; simp
    · rw [if_neg hj, if_neg (by omega), mul_zero]
  · rw [if_neg h]
    have h0 : (i : ℕ) = 0 := by omega
    rw [h0]; simp

/-- **C21.** The loss jump is the multiplication with `√(2κ) a`. -/
theorem aJump_eq (κ : ℝ) (d : ℕ) : IsJump d (aJump κ d) (mat d (sc (Real.sqrt (2 * κ)) aOp)) := by
  intro psi
  funext n
  rw [mat_sc, Matrix.smul_mulVec, Pi.smul_apply, aOp_mulVec, smul_eq_mul]
  simp only [ket, aJump]
  rw [set_apply, ascending (fun n x => (Real.sqrt (2 * κ) : ℂ) * (Real.sqrt ((n : ℝ) + 1) : ℂ) * x)]
  have := n.2
  by_cases h : (n : ℕ) = d - 1
  · rw [if_pos h, if_neg (by omega), mul_zero]
  · rw [if_neg h, if_pos (by omega), if_pos (by omega), mul_assoc]

/-- **C21.** The absorption jump is the multiplication with `√(2κ) a†`, truncated at the cutoff. -/
theorem aDagJump_eq (κ : ℝ) (d : ℕ) : IsJump d (aDagJump κ d) (mat d (sc (Real.sqrt (2 * κ)) adOp)) := by
  intro psi
  funext n
  rw [mat_sc, Matrix.smul_mulVec, Pi.smul_apply, adOp_mulVec, smul_eq_mul]
  simp only [ket, aDagJump]
  rw [set_apply, descending (fun n x => (Real.sqrt (2 * κ) : ℂ) * (Real.sqrt n : ℂ) * x)]
  have := n.2
  by_cases h : (n : ℕ) = 0
  · rw [if_pos h, if_neg (by omega), mul_zero]
  · rw [if_neg h, if_pos (by omega), if_pos (by omega), mul_assoc]

theorem sandwich (d : ℕ) (A ρ : Matrix (Fin d) (Fin d) ℂ) (c : ℝ) (hc : 0 ≤ c) :
    ((Real.sqrt c : ℂ) • A) * ρ * ((Real.sqrt c : ℂ) • A)ᴴ = (c : ℂ) • (A * ρ * Aᴴ) := by
  rw [Matrix.conjTranspose_smul, Matrix.mul_smul, Matrix.smul_mul, Matrix.smul_mul, smul_smul, Complex.star_def, Complex.conj_ofReal, ← Complex.ofReal_mul, Real.mul_self_sqrt hc]

theorem aOp_sandwich (d : ℕ) (rho : Dens) (m n : Fin d) : (mat d aOp * mat d rho * (mat d aOp)ᴴ) m n =
    if (m : ℕ) + 1 < d ∧ (n : ℕ) + 1 < d then (Real.sqrt (((m : ℕ) + 1) * ((n : ℕ) + 1)) : ℂ) * rho (m + 1) (n + 1) else 0 := by
  rw [Matrix.mul_apply]
  have e1 : ∀ k : Fin d, (mat d aOp * mat d rho) m k = if (m : ℕ) + 1 < d then (Real.sqrt ((m : ℕ) + 1) : ℂ) * rho (m + 1) k else 0 := by
    intro k
    exact aOp_mulVec d (fun i => rho i k) m
  simp only [e1, ← mat_adOp, mat_apply, adOp]
  by_cases hm : (m : ℕ) + 1 < d
  · simp only [hm, if_true, true_and]
    by_cases hn : (n : ℕ) + 1 < d
    · rw [if_pos hn, Finset.sum_eq_single (⟨n + 1, hn⟩ : Fin d), if_pos rfl, Real.sqrt_mul (by positivity)]
      · push_cast; ring
      · intro k _ hk
        rw [if_neg (fun h => hk (Fin.ext h)), mul_zero]
      · simp
    · rw [if_neg hn]
      exact Finset.sum_eq_zero fun k _ => by rw [if_neg (by omega), mul_zero]
  · simp [hm]

theorem adOp_sandwich (d : ℕ) (rho : Dens) (m n : Fin d) : (mat d adOp * mat d rho * (mat d adOp)ᴴ) m n =
    if 1 ≤ (m : ℕ) ∧ 1 ≤ (n : ℕ) then (Real.sqrt ((m : ℕ) * (n : ℕ)) : ℂ) * rho (m - 1) (n - 1) else 0 := by
  rw [Matrix.mul_apply]
  have e1 : ∀ k : Fin d, (mat d adOp * mat d rho) m k = if 1 ≤ (m : ℕ) then (Real.sqrt (m : ℕ) : ℂ) * rho (m - 1) k else 0 := by
    intro k
    exact adOp_mulVec d (fun i => rho i k) m
  have e2 : (mat d adOp)ᴴ = mat d aOp := by rw [mat_adOp, Matrix.conjTranspose_conjTranspose]
  rw [e2]
  simp only [e1, mat_apply, aOp]
  by_cases hm : 1 ≤ (m : ℕ)
  · simp only [hm, if_true, true_and]
    by_cases hn : 1 ≤ (n : ℕ)
    · rw [if_pos hn, Finset.sum_eq_single (⟨n - 1, by omega⟩ : Fin d), if_pos (by simp; omega), Real.sqrt_mul (by positivity)]
      · push_cast; ring
      · intro k _ hk
        rw [if_neg (fun h => hk (Fin.ext (by simp; omega))), mul_zero]
      · simp
    · rw [if_neg hn]
      exact Finset.sum_eq_zero fun k _ => by rw [if_neg (by omega), mul_zero]
  · simp [hm]

/-- **C21.** The superoperator of the loss adds `JρJ†` with the very `J` of the loss jump. -/
theorem aSuperoperator_eq (κ : ℝ) (hκ : 0 ≤ κ) (d : ℕ) : IsSuper d (aSuperoperator κ d) (mat d (sc (Real.sqrt (2 * κ)) aOp)) := by
  intro rho drhodt
  rw [mat_sc, sandwich d _ _ _ (by linarith)]
  ext m n
  rw [Matrix.add_apply, Matrix.smul_apply, aOp_sandwich, smul_eq_mul]
  simp only [mat_apply, aSuperoperator]
  rw [nested_additive _ (fun m n => 2 * (κ : ℂ) * (Real.sqrt (((m : ℝ) + 1) * ((n : ℝ) + 1)) : ℂ) * rho (m + 1) (n + 1)) _ _ _ List.nodup_range]
  simp only [List.mem_range]
  congr 1
  by_cases h : (m : ℕ) < d - 1 ∧ (n : ℕ) < d - 1
  · rw [if_pos h, if_pos (by omega)]; push_cast; ring
  · rw [if_neg h, if_neg (by omega), mul_zero]

/-- **C21.** The superoperator of the absorption adds `JρJ†` with the very `J` of the absorption jump. -/
theorem aDagSuperoperator_eq (κ : ℝ) (hκ : 0 ≤ κ) (d : ℕ) : IsSuper d (aDagSuperoperator κ d) (mat d (sc (Real.sqrt (2 * κ)) adOp)) := by
  intro rho drhodt
  rw [mat_sc, sandwich d _ _ _ (by linarith)]
  ext m n
  rw [Matrix.add_apply, Matrix.smul_apply, adOp_sandwich, smul_eq_mul]
  simp only [mat_apply, aDagSuperoperator]
  rw [nested_additive _ (fun m n => 2 * (κ : ℂ) * (Real.sqrt ((m : ℝ) * (n : ℝ)) : ℂ) * rho (m - 1) (n - 1)) _ _ _ List.nodup_range']
  simp only [List.mem_range'_1]
  congr 1
  have := m.2
  have := n.2
  by_cases h : 1 ≤ (m : ℕ) ∧ 1 ≤ (n : ℕ)
  · rw [if_pos (by omega), if_pos h]; push_cast; ring
  · rw [if_neg (by omega), if_neg h, mul_zero]

theorem foldl_add_eq {α : Type*} (L : List α) (f : α → ℝ) (x : ℝ) : L.foldl (fun r a => r + f a) x = x + (L.map f).sum := by
  induction L generalizing x with
  | nil => simp
  | cons a L ih => rw [List.foldl_cons, ih, List.map_cons, List.sum_cons, add_assoc]

theorem photonNumber_eq (m : LDO) : photonNumber m = ∑ n ∈ Finset.range m.dim, (n : ℝ) * m.diag n := by
  unfold photonNumber
  rw [foldl_add_eq, zero_add, sum_map_range']
  cases m.dim with
  | zero => simp
  | succ d =>
    rw [Finset.sum_range_succ']
    simp [add_comm]

/-- **C21.** The photon number of a lazy density operator is the expectation value of the number operator; for state vectors both functions agree. -/
theorem photonNumber_spec (m : LDO) (d : ℕ) (psi : Vec) :
    photonNumber m = (expectation (mat m.dim nOp) (state m)).re ∧ photonNumber (LDO.ofSV d psi) = photonNumberSV d psi := by
  constructor
  · rw [photonNumber_eq, expectation, Matrix.trace, Complex.re_sum, Finset.sum_range]
    refine Finset.sum_congr rfl fun i _ => ?_
    rw [Matrix.diag_apply, Matrix.mul_apply, Finset.sum_eq_single i]
    · simp [mat_apply, nOp, state, LDO.diag]
    · intro k _ hk
      rw [mat_apply, nOp, if_neg (fun h => hk (Fin.ext h.symm)), zero_mul]
    · simp
  · rw [photonNumber_eq, photonNumberSV, sum_map_range]
    refine Finset.sum_congr rfl fun i _ => ?_
    simp [LDO.ofSV, LDO.diag, Complex.mul_conj]

theorem trace_aOp (d : ℕ) (rho : Dens) : (mat d aOp * mat d rho * (mat d aOp)ᴴ).trace = ∑ n ∈ Finset.range d, (n : ℂ) * rho n n := by
  have : (mat d aOp * mat d rho * (mat d aOp)ᴴ).trace = (mat d nOp * mat d rho).trace := by
    rw [Matrix.trace_mul_comm, mat_nOp, Matrix.mul_assoc]
  rw [this, Matrix.trace, Finset.sum_range]
  refine Finset.sum_congr rfl fun i _ => ?_
  rw [Matrix.diag_apply, Matrix.mul_apply, Finset.sum_eq_single i]
  · simp [mat_apply, nOp]
  · intro k _ hk
    rw [mat_apply, nOp, if_neg (fun h => hk (Fin.ext h.symm)), zero_mul]
  · simp

/-- The dyad of a state vector. -/
theorem dyad_sandwich (d : ℕ) (J : Matrix (Fin d) (Fin d) ℂ) (psi : Vec) :
    (J * mat d (fun i j => psi i * conj (psi j)) * Jᴴ).trace = ((∑ i, Complex.normSq ((J *ᵥ ket d psi) i) : ℝ) : ℂ) := by
  rw [Matrix.trace, Complex.ofReal_sum]
  refine Finset.sum_congr rfl fun i _ => ?_
  rw [← Complex.mul_conj, Matrix.diag_apply, Matrix.mul_apply]
  simp only [Matrix.mulVec, dotProduct, map_sum, map_mul, Matrix.mul_apply, mat_apply, ket, Matrix.conjTranspose_apply, Complex.star_def]
  rw [Finset.sum_mul_sum, Finset.sum_comm]
  refine Finset.sum_congr rfl fun j _ => ?_
  rw [Finset.sum_mul]
  refine Finset.sum_congr rfl fun k _ => ?_
  ring

/-- **C21.** The rate of the loss is `Tr(JρJ†)`, which is `‖Jψ‖²` for state vectors. -/
theorem loss_rate (κ : ℝ) (hκ : 0 ≤ κ) (d : ℕ) : IsRate d (fun m => 2 * κ * photonNumber m) (mat d (sc (Real.sqrt (2 * κ)) aOp)) := by
  have h : ∀ rho : Dens, ((mat d (sc (Real.sqrt (2 * κ)) aOp)) * mat d rho * (mat d (sc (Real.sqrt (2 * κ)) aOp))ᴴ).trace =
      ((2 * κ : ℝ) : ℂ) * ∑ n ∈ Finset.range d, (n : ℂ) * rho n n := by
    intro rho
    rw [mat_sc, sandwich d _ _ _ (by linarith), Matrix.trace_smul, trace_aOp, smul_eq_mul]
  have hp : ∀ m : LDO, 2 * κ * photonNumber m = (((2 * κ : ℝ) : ℂ) * ∑ n ∈ Finset.range m.dim, (n : ℂ) * m.index n n).re := by
    intro m
    rw [photonNumber_eq, Complex.re_ofReal_mul, Complex.re_sum]
    congr 1
    refine Finset.sum_congr rfl fun n _ => ?_
    rw [← Complex.ofReal_natCast, Complex.re_ofReal_mul]; rfl
  constructor
  · intro rho
    rw [h]
    simp only
    rw [hp]; rfl
  · intro psi
    have := dyad_sandwich d (mat d (sc (Real.sqrt (2 * κ)) aOp)) psi
    rw [h] at this
    simp only
    rw [hp]
    have := congrArg Complex.re this
    rw [Complex.ofReal_re] at this
    exact this

/-- **C21.** The rate of the absorption is `Tr(JρJ†)` with the untruncated `a†`: with a cutoff larger by at least one, of which the added states are not populated. With the truncated operator the
difference is that coming from the last level. -/
theorem absorption_rate (κ nTh : ℝ) (h0 : 0 ≤ κ * nTh) (d : ℕ) (hd : 0 < d) (rho : Dens) :
    (∀ D > d, 2 * κ * nTh * (photonNumber (LDO.ofDM d rho) + (LDO.ofDM d rho).trace) =
      (mat D (sc (Real.sqrt (2 * (κ * nTh))) adOp) * mat D (pad d rho) * (mat D (sc (Real.sqrt (2 * (κ * nTh))) adOp))ᴴ).trace.re) ∧
    2 * κ * nTh * (photonNumber (LDO.ofDM d rho) + (LDO.ofDM d rho).trace) =
      (mat d (sc (Real.sqrt (2 * (κ * nTh))) adOp) * mat d rho * (mat d (sc (Real.sqrt (2 * (κ * nTh))) adOp))ᴴ).trace.re + 2 * κ * nTh * d * (rho (d - 1) (d - 1)).re := by
  have hl : 2 * κ * nTh * (photonNumber (LDO.ofDM d rho) + (LDO.ofDM d rho).trace) = 2 * (κ * nTh) * ∑ n ∈ Finset.range d, ((n : ℝ) + 1) * (rho n n).re := by
    rw [photonNumber_eq]
    simp only [LDO.ofDM, LDO.diag, Complex.re_sum]
    rw [← Finset.sum_add_distrib, mul_assoc 2 κ nTh]
    congr 1
    refine Finset.sum_congr rfl fun n _ => ?_
    ring
  have hr : ∀ (D : ℕ) (r : Dens), (mat (D + 1) (sc (Real.sqrt (2 * (κ * nTh))) adOp) * mat (D + 1) r * (mat (D + 1) (sc (Real.sqrt (2 * (κ * nTh))) adOp))ᴴ).trace.re =
      2 * (κ * nTh) * ∑ n ∈ Finset.range D, ((n : ℝ) + 1) * (r n n).re := by
    intro D r
    rw [mat_sc, sandwich _ _ _ _ (by linarith), Matrix.trace_smul, smul_eq_mul, Complex.re_ofReal_mul, Matrix.trace, Complex.re_sum]
    congr 1
    simp only [Matrix.diag_apply, adOp_sandwich]
    rw [Fin.sum_univ_succ, Finset.sum_range]
    simp
    refine Finset.sum_congr rfl fun n _ => ?_
    rw [Real.sqrt_mul_self (by positivity)]
  constructor
  · intro D hD
    obtain ⟨D, rfl⟩ : ∃ E, D = E + 1 := ⟨D - 1, by omega⟩
    rw [hl, hr]
    congr 1
    rw [← Finset.sum_subset (Finset.range_subset_range.2 (show d ≤ D by omega))]
    · refine Finset.sum_congr rfl fun n hn => ?_
      rw [pad, if_pos (by simpa using hn)]
    · intro n _ hn
      rw [pad, if_neg (by simpa using hn)]; simp
  · obtain ⟨d, rfl⟩ : ∃ E, d = E + 1 := ⟨d - 1, by omega⟩
    rw [hl, hr, Finset.sum_range_succ]
    simp only [Nat.add_sub_cancel]
    push_cast
    ring

/-- **C21.** On a state vector, in which the norm stands for the trace (C65), the rate of the absorption is `‖Jψ‖²` with the untruncated `a†` exactly if the state vector is normalised (or zero). -/
theorem absorption_rate_SV (κ nTh : ℝ) (h0 : 0 < κ * nTh) (d : ℕ) (hd : 0 < d) (psi : Vec) (D : ℕ) (hD : d < D) :
    2 * κ * nTh * (photonNumber (LDO.ofSV d psi) + (LDO.ofSV d psi).trace) =
      (mat D (sc (Real.sqrt (2 * (κ * nTh))) adOp) * mat D (pad d fun i j => psi i * conj (psi j)) * (mat D (sc (Real.sqrt (2 * (κ * nTh))) adOp))ᴴ).trace.re ↔
    ∑ n ∈ Finset.range d, Complex.normSq (psi n) = 1 ∨ ∑ n ∈ Finset.range d, Complex.normSq (psi n) = 0 := by
  rw [← (absorption_rate κ nTh h0.le d hd _).1 D hD]
  have h1 : photonNumber (LDO.ofDM d fun i j => psi i * conj (psi j)) = photonNumber (LDO.ofSV d psi) := rfl
  have h2 : (LDO.ofDM d fun i j => psi i * conj (psi j)).trace = ∑ n ∈ Finset.range d, Complex.normSq (psi n) := by
    simp [LDO.ofDM, Complex.mul_conj]
  have h3 : (LDO.ofSV d psi).trace = Real.sqrt (∑ n ∈ Finset.range d, Complex.normSq (psi n)) := rfl
  rw [h1, h2, h3]
  have hpos : 0 ≤ ∑ n ∈ Finset.range d, Complex.normSq (psi n) := Finset.sum_nonneg fun n _ => Complex.normSq_nonneg _
  generalize ∑ n ∈ Finset.range d, Complex.normSq (psi n) = S at hpos
  have hk : 2 * κ * nTh ≠ 0 := by nlinarith
  rw [mul_right_inj' hk, add_right_inj]
  constructor
  · intro h
    have h4 := Real.mul_self_sqrt hpos
    rw [h] at h4
    have : S * (S - 1) = 0 := by linarith
    rcases mul_eq_zero.1 this with h5 | h5
    · right; exact h5
    · left; linarith
  · rintro (h | h) <;> simp [h]

/-- **C21.** The rates actually returned by the Liouvilleans of the mode: at zero temperature the single rate is that of the loss; at finite temperature the first is that of the loss with `κ(n+1)`, and the second is that of
`absorption_rate`. In the alternative version, all of them are negative, which delegates their calculation to the trajectory (`MCWF.effectiveRates_spec`). -/
theorem liouvillean_rates (κ nTh : ℝ) (hκ : 0 ≤ κ) (hn : 0 ≤ nTh) (d : ℕ) :
    (∃ r : LDO → ℝ, (∀ m, (liouvilleanZeroT false κ d).rates m = [r m]) ∧ IsRate d r (mat d (sc (Real.sqrt (2 * κ)) aOp))) ∧
    (∃ r₀ r₁ : LDO → ℝ, (∀ m, (liouvilleanFiniteT false κ nTh d).rates m = [r₀ m, r₁ m]) ∧ IsRate d r₀ (mat d (sc (Real.sqrt (2 * (κ * (nTh + 1)))) aOp)) ∧
      ∀ rho, 0 < d → ∀ D > d, r₁ (LDO.ofDM d rho) =
        (mat D (sc (Real.sqrt (2 * (κ * nTh))) adOp) * mat D (pad d rho) * (mat D (sc (Real.sqrt (2 * (κ * nTh))) adOp))ᴴ).trace.re) ∧
    (∀ m, (liouvilleanZeroT true κ d).rates m = [-1]) ∧ ∀ m, (liouvilleanFiniteT true κ nTh d).rates m = [-1, -1] := by
  refine ⟨⟨_, fun m => by simp only [liouvilleanZeroT, elementLiouvillean, List.map_cons, List.map_nil, Bool.false_eq_true, if_false], loss_rate κ hκ d⟩,
    ⟨fun m => 2 * (κ * (nTh + 1)) * photonNumber m, fun m => 2 * κ * nTh * (photonNumber m + m.trace), fun m => ?_, loss_rate _ (by positivity) d,
      fun rho hd D hD => (absorption_rate κ nTh (by positivity) d hd rho).1 D hD⟩,
    fun m => by simp [liouvilleanZeroT, elementLiouvillean], fun m => by simp [liouvilleanFiniteT, elementLiouvillean]⟩
  simp only [liouvilleanFiniteT, elementLiouvillean, List.map_cons, List.map_nil, Bool.false_eq_true, if_false, List.cons.injEq, and_true]
  ring

/-- **C21.** The ordinary modes, made from the parameters, return rates calculated by the element, i.e., not negative, and none of them delegates the calculation to the trajectory: `temperature` tells whether there is a thermal
photon number. -/
theorem liouvillean_made (p : Pars) (hκ : 0 ≤ p.kappa) (hn : 0 ≤ p.nTh) (psi : Vec) :
    (liouvillean false p).rates (LDO.ofSV p.cutoff psi) = [2 * p.kappa * ∑ n ∈ Finset.range p.cutoff, n * Complex.normSq (psi n)] ∧
    (liouvillean true p).rates (LDO.ofSV p.cutoff psi) = [2 * (p.kappa * (p.nTh + 1)) * ∑ n ∈ Finset.range p.cutoff, n * Complex.normSq (psi n),
      2 * (p.kappa * p.nTh) * (∑ n ∈ Finset.range p.cutoff, n * Complex.normSq (psi n) + (LDO.ofSV p.cutoff psi).trace)] ∧
    ∀ temperature, ∀ r ∈ (liouvillean temperature p).rates (LDO.ofSV p.cutoff psi), 0 ≤ r := by
  have hN : photonNumber (LDO.ofSV p.cutoff psi) = ∑ n ∈ Finset.range p.cutoff, n * Complex.normSq (psi n) := by
    rw [photonNumber_eq]
    refine Finset.sum_congr rfl fun n _ => ?_
    simp [LDO.ofSV, LDO.diag, Complex.mul_conj, Complex.normSq_apply]
  have h0 : 0 ≤ ∑ n ∈ Finset.range p.cutoff, (n : ℝ) * Complex.normSq (psi n) := Finset.sum_nonneg fun n _ => mul_nonneg (Nat.cast_nonneg n) (Complex.normSq_nonneg _)
  have ht : 0 ≤ (LDO.ofSV p.cutoff psi).trace := Real.sqrt_nonneg _
  have e0 : (liouvillean false p).rates (LDO.ofSV p.cutoff psi) = [2 * p.kappa * ∑ n ∈ Finset.range p.cutoff, n * Complex.normSq (psi n)] := by
    simp only [liouvillean, liouvilleanZeroT, elementLiouvillean, List.map_cons, List.map_nil, Bool.false_eq_true, if_false, hN]
  have e1 : (liouvillean true p).rates (LDO.ofSV p.cutoff psi) = [2 * (p.kappa * (p.nTh + 1)) * ∑ n ∈ Finset.range p.cutoff, n * Complex.normSq (psi n),
      2 * (p.kappa * p.nTh) * (∑ n ∈ Finset.range p.cutoff, n * Complex.normSq (psi n) + (LDO.ofSV p.cutoff psi).trace)] := by
    simp only [liouvillean, liouvilleanFiniteT, elementLiouvillean, List.map_cons, List.map_nil, Bool.false_eq_true, if_false, if_true, hN, mul_assoc]
  refine ⟨e0, e1, fun b r hr => ?_⟩
  cases b
  · rw [e0] at hr
    simp only [List.mem_singleton] at hr
    subst hr; positivity
  · rw [e1] at hr
    simp only [List.mem_cons, List.not_mem_nil, or_false] at hr
    rcases hr with rfl | rfl
    · have : 0 ≤ p.nTh + 1 := by linarith
      positivity
    · exact mul_nonneg (by positivity) (add_nonneg h0 ht)

example := liouvillean_made ⟨10, 1, 0, 0, 2, 1 / 2, 3⟩

/-- The hypotheses are met by a lossy mode at finite temperature. -/
example := liouvillean_rates 2 (1 / 2) (by norm_num) (by norm_num) 10

end CppQED.ModeEl
