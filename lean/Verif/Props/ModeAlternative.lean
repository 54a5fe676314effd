import Verif.Props.HomodynedMode

/-!
# The mode with alternative jumping: C90, C91
-/

namespace CppQED.ModeEl
open CppQED.Elem CppQED.Tridiag CppQED.Spec Matrix
open ComplexConjugate

/-! ## Alternative jumping -/

/-- The jumps of a mode at zero and at finite temperature. -/
noncomputable def temperatureJ (temperature : Bool) (κ n : ℝ) : List Dens :=
  if temperature then [sc (Real.sqrt (2 * (κ * (n + 1)))) aOp, sc (Real.sqrt (2 * (κ * n))) adOp] else [sc (Real.sqrt (2 * κ)) aOp]

theorem alternative_li (temperature : Bool) (p : Pars) (hκ : 0 ≤ p.kappa) (hn : 0 ≤ p.nTh) (ha : Option (ℝ → Vec → Vec → ℝ → Vec)) (ex : Option (ℝ → ℕ → ℂ)) (b : Bool) :
    LiIs ⟨p.cutoff, ha, ex, b, some (if temperature then liouvilleanFiniteT true p.kappa p.nTh p.cutoff else liouvilleanZeroT true p.kappa p.cutoff)⟩ (temperatureJ temperature p.kappa p.nTh) := by
  cases temperature
  · refine elementLiouvillean_is _ _ _ rfl rfl ?_ ha ex b
    intro i L hL
    rcases i with - | i
    · simp only [List.getElem?_cons_zero, Option.some.injEq] at hL
      subst hL
      refine ⟨aJump_eq _ _, fun s hs => ?_⟩
      simp only [Option.some.injEq] at hs
      rw [← hs]
      exact aSuperoperator_eq _ hκ _
    · simp at hL
  · refine elementLiouvillean_is _ _ _ rfl rfl ?_ ha ex b
    intro i L hL
    rcases i with - | i
    · simp only [List.getElem?_cons_zero, Option.some.injEq] at hL
      subst hL
      refine ⟨aJump_eq _ _, fun s hs => ?_⟩
      simp only [Option.some.injEq] at hs
      rw [← hs]
      exact aSuperoperator_eq _ (by positivity) _
    · rcases i with - | i
      · simp only [List.getElem?_cons_succ, List.getElem?_cons_zero, Option.some.injEq] at hL
        subst hL
        refine ⟨aDagJump_eq _ _, fun s hs => ?_⟩
        simp only [Option.some.injEq] at hs
        rw [← hs]
        exact aDagSuperoperator_eq _ (by positivity) _
      · simp at hL

/-- **C90, C91.** The mode with alternative jumping: the Hamiltonian is always that of zero temperature; the jumps are those of the temperature; all the rates are to be calculated from the jumps. -/
theorem alternative_generates (temperature : Bool) (p : Pars) (hd : p.cutoff < 2 ^ 63) (h0 : 0 < p.cutoff) (hκ : 0 < p.kappa) (hn : 0 ≤ p.nTh) (hK : p.omegaKerr = 0) (hA : p.omegaKerrAlter = 0) :
    ∃ e, pumpedLossyModeAlternative temperature p = .ok e ∧ e.dim = p.cutoff ∧ Generates e (modeH p.kappa p.delta p.eta) (temperatureJ temperature p.kappa p.nTh) ∧
      ∃ l, e.li = some l ∧ ∀ m, ∀ r ∈ l.rates m, r = -1 := by
  obtain ⟨e, h1, h2, h3, h4⟩ := elementIP_generates (p := p) (J := temperatureJ temperature p.kappa p.nTh)
    (li := some (if temperature then liouvilleanFiniteT true p.kappa p.nTh p.cutoff else liouvilleanZeroT true p.kappa p.cutoff)) hd h0 hK 0 ⟨p.kappa, -p.delta⟩ p.eta
    (fun h => absurd h hκ.ne') (fun ha ex b => alternative_li temperature p hκ.le hn ha ex b)
  refine ⟨e, h1, h2, ?_, ?_⟩
  · rw [hA, kerrE_zero] at h4
    simp only [add_zero, hOverIE_add, zero_add] at h4
    rw [← hOverIE_eq]
    exact h4
  · unfold elementIP at h1
    obtain ⟨H, hH, -⟩ := hamiltonianIP_ok 0 ⟨p.kappa, -p.delta⟩ p.eta p.omegaKerr p.omegaKerrAlter p.cutoff hd h0
    rw [hH] at h1
    injection h1 with h1
    subst h1
    refine ⟨_, rfl, fun m r hr => ?_⟩
    cases temperature
    · simpa [liouvilleanZeroT, elementLiouvillean] using hr
    · simpa [liouvilleanFiniteT, elementLiouvillean] using hr

/-- **C90.** At zero temperature, the mode with alternative jumping simulates the same Hamiltonian and the same jumps as the mode with ordinary jumping. -/
theorem alternative_zero (p : Pars) (hd : p.cutoff < 2 ^ 63) (h0 : 0 < p.cutoff) (hκ : 0 < p.kappa) (hn : p.nTh = 0) (hK : p.omegaKerr = 0) (hA : p.omegaKerrAlter = 0) (qmp : Picture) :
    ∃ H J, Simulates p .ip (pumpedLossyModeAlternative false p) H J ∧ Simulates p qmp (makePumpedLossy p qmp) H J := by
  refine ⟨_, _, ?_, makePumpedLossy_simulates p hd h0 hκ.le hn.ge hK hA qmp⟩
  obtain ⟨e, h1, h2, h3, -⟩ := alternative_generates false p hd h0 hκ hn.ge hK hA
  refine ⟨e, h1, h2, fun h => absurd rfl h, ?_⟩
  have e1 : p.kappa * (2 * p.nTh + 1) = p.kappa := by rw [hn]; ring
  have e2 : modeJ p.kappa p.nTh = temperatureJ false p.kappa p.nTh := by
    unfold modeJ temperatureJ; simp [hκ.ne', hn]
  rw [e1, e2]
  exact h3

theorem modeH_diag (κ δ : ℝ) (η : ℂ) (d : ℕ) (k : Fin d) : mat d (modeH κ δ η) k k = -((κ : ℂ) - Complex.I * δ) * (k : ℕ) := by
  rw [mat_apply]
  simp [modeH, nOp, adOp, aOp]

/-- **C91** (what remains of it). With thermal jumps, the probability lost in the evolution without jumps from each number state below the last is the sum of the jump rates exactly if the temperature is zero; and this is also when
the Hamiltonian is that of the mode with ordinary jumping. -/
theorem alternative_thermal_partial (d : ℕ) (hd : 2 ≤ d) (κ n δ : ℝ) (hκ : 0 < κ) (hn : 0 ≤ n) (η : ℂ) :
    ((∀ k : Fin d, (k : ℕ) + 1 < d → (mat d (modeH κ δ η) + (mat d (modeH κ δ η))ᴴ) k k = -(((temperatureJ true κ n).map (mat d)).map fun J => Jᴴ * J).sum k k) ↔ n = 0) ∧
    (mat d (modeH κ δ η) = mat d (modeH (κ * (2 * n + 1)) δ η) ↔ n = 0) := by
  have hsum : ∀ k : Fin d, (k : ℕ) + 1 < d → (((temperatureJ true κ n).map (mat d)).map fun J => Jᴴ * J).sum k k = 2 * (κ * (n + 1)) * (k : ℕ) + 2 * (κ * n) * ((k : ℕ) + 1) := by
    intro k hk
    have h1 : ∀ (c : ℝ) (A : Dens), 0 ≤ c → (mat d (sc (Real.sqrt c) A))ᴴ * mat d (sc (Real.sqrt c) A) = (c : ℂ) • ((mat d A)ᴴ * mat d A) := by
      intro c A hc
      rw [mat_sc, Matrix.conjTranspose_smul, Matrix.smul_mul, Matrix.mul_smul, smul_smul, Complex.star_def, Complex.conj_ofReal, ← Complex.ofReal_mul, Real.mul_self_sqrt hc]
    simp only [temperatureJ, if_true, List.map_cons, List.map_nil, List.sum_cons, List.sum_nil, add_zero, Matrix.add_apply]
    rw [h1 _ _ (by positivity), h1 _ _ (by positivity), ← mat_nOp]
    have h2 : ((mat d adOp)ᴴ * mat d adOp) k k = ((k : ℕ) : ℂ) + 1 := by
      rw [mat_adOp, Matrix.conjTranspose_conjTranspose, ← mat_adOp]
      have := aOp_mulVec d (fun i => adOp i k) k
      rw [if_pos hk] at this
      refine Eq.trans this ?_
      simp only [adOp, if_true]
      push_cast
      rw [← Complex.ofReal_natCast, ← Complex.ofReal_one, ← Complex.ofReal_add, ← Complex.ofReal_mul, Real.mul_self_sqrt (by positivity)]
    rw [Matrix.smul_apply, Matrix.smul_apply, h2, mat_apply]
    simp only [nOp, if_true, smul_eq_mul]
    push_cast; ring
  constructor
  · constructor
    · intro h
      have h0 := h ⟨0, by omega⟩ (by simp; omega)
      rw [hsum _ (by simp; omega), Matrix.add_apply, Matrix.conjTranspose_apply, modeH_diag] at h0
      simp at h0
      rcases h0 with h0 | h0
      · exact absurd h0 hκ.ne'
      · exact h0
    · intro h k hk
      rw [hsum k hk, Matrix.add_apply, Matrix.conjTranspose_apply, modeH_diag, h]
      simp
      ring
  · constructor
    · intro h
      have := congrFun (congrFun h ⟨1, by omega⟩) ⟨1, by omega⟩
      rw [modeH_diag, modeH_diag] at this
      have := congrArg Complex.re this
      simp at this
      have h3 : κ * (2 * n) = 0 := by linarith
      rcases mul_eq_zero.1 h3 with h4 | h4
      · exact absurd h4 hκ.ne'
      · linarith
    · intro h; rw [h]; simp

/-- A thermal mode with alternative jumping, and the missing loss. -/
example : ¬ ∀ k : Fin 10, (k : ℕ) + 1 < 10 → (mat 10 (modeH 2 1 0) + (mat 10 (modeH 2 1 0))ᴴ) k k = -(((temperatureJ true 2 (1 / 2)).map (mat 10)).map fun J => Jᴴ * J).sum k k := by
  rw [(alternative_thermal_partial 10 (by norm_num) 2 (1 / 2) 1 (by norm_num) (by norm_num) 0).1]; norm_num

end CppQED.ModeEl
