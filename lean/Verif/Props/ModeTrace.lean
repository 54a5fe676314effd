import Verif.Props.ModeDynamics
import Verif.Props.Master

/-!
# The conservation of probability by the mode, and the Kerr nonlinearity: C22, C72
-/

namespace CppQED.ModeEl
open CppQED.Elem CppQED.Tridiag CppQED.Spec Matrix
open ComplexConjugate

theorem trace_adOp (d : ℕ) (hd : 0 < d) (rho : Dens) : (mat d adOp * mat d rho * (mat d adOp)ᴴ).trace = ∑ n ∈ Finset.range (d - 1), ((n : ℂ) + 1) * rho n n := by
  obtain ⟨d, rfl⟩ : ∃ E, d = E + 1 := ⟨d - 1, by omega⟩
  rw [Matrix.trace]
  simp only [Matrix.diag_apply, adOp_sandwich]
  rw [Fin.sum_univ_succ, Nat.add_sub_cancel, Finset.sum_range]
  simp
  refine Finset.sum_congr rfl fun n _ => ?_
  rw [Real.sqrt_mul_self (by positivity)]; push_cast; ring

theorem mat_modeH (d : ℕ) (κ δ : ℝ) (η : ℂ) : mat d (modeH κ δ η) = (-((κ : ℂ) - Complex.I * δ)) • mat d nOp + η • (mat d aOp)ᴴ - conj η • mat d aOp := by
  rw [← mat_adOp]; rfl

theorem trace_nOp (d : ℕ) (rho : Dens) : (mat d nOp * mat d rho).trace = ∑ n ∈ Finset.range d, (n : ℂ) * rho n n := by
  rw [mat_nOp, Matrix.mul_assoc, Matrix.trace_mul_comm, trace_aOp]

theorem nOp_hermitian (d : ℕ) : (mat d nOp)ᴴ = mat d nOp := by
  rw [mat_nOp, Matrix.conjTranspose_mul, Matrix.conjTranspose_conjTranspose]

theorem trace_modeH (d : ℕ) (κ δ : ℝ) (η : ℂ) (rho : Dens) :
    (mat d (modeH κ δ η) * mat d rho + mat d rho * (mat d (modeH κ δ η))ᴴ).trace = -(2 * κ) * ∑ n ∈ Finset.range d, (n : ℂ) * rho n n := by
  rw [← trace_nOp, Matrix.trace_add, Matrix.trace_mul_comm (mat d rho), ← Matrix.trace_add, ← Matrix.add_mul]
  have : mat d (modeH κ δ η) + (mat d (modeH κ δ η))ᴴ = (-(2 * κ : ℂ)) • mat d nOp := by
    rw [mat_modeH]
    simp only [Matrix.conjTranspose_add, Matrix.conjTranspose_sub, Matrix.conjTranspose_smul, nOp_hermitian, Matrix.conjTranspose_conjTranspose, Complex.star_def, Complex.conj_conj, map_neg, map_sub,
      map_mul, Complex.conj_I, Complex.conj_ofReal]
    ext i j
    simp only [Matrix.add_apply, Matrix.sub_apply, Matrix.smul_apply, smul_eq_mul]
    ring
  rw [this, Matrix.smul_mul, Matrix.trace_smul, smul_eq_mul]

/-- **C22.** The trace of the derivative of the density operator of a mode: zero at zero temperature; with `nTh` thermal photons, that documented, proportional to the trace, apart from the population of
the last level before the cutoff. -/
theorem mode_trace (d : ℕ) (hd : 0 < d) (κ n : ℝ) (hκ : 0 ≤ κ) (hn : 0 ≤ n) (δ : ℝ) (η : ℂ) (rho : Dens) :
    (lindblad (mat d (modeH (κ * (2 * n + 1)) δ η)) ((modeJ κ n).map (mat d)) (mat d rho)).trace = 2 * κ * n * ((mat d rho).trace - d * rho (d - 1) (d - 1)) := by
  unfold lindblad
  rw [Matrix.trace_add, trace_modeH]
  unfold modeJ
  by_cases h : κ = 0
  · simp [h]
  by_cases h1 : n = 0
  · rw [if_neg h, if_pos h1]
    simp only [List.map_cons, List.map_nil, List.sum_cons, List.sum_nil, add_zero]
    rw [mat_sc, sandwich d _ _ _ (by linarith), Matrix.trace_smul, trace_aOp, smul_eq_mul, h1]
    push_cast; ring
  · have hκn : 0 ≤ κ * n := mul_nonneg hκ hn
    rw [if_neg h, if_neg h1]
    simp only [List.map_cons, List.map_nil, List.sum_cons, List.sum_nil, add_zero]
    rw [Matrix.trace_add, mat_sc, sandwich d _ _ _ (by nlinarith), Matrix.trace_smul, trace_aOp, smul_eq_mul, mat_sc, sandwich d _ _ _ (by nlinarith), Matrix.trace_smul, trace_adOp d hd, smul_eq_mul]
    obtain ⟨d, rfl⟩ : ∃ E, d = E + 1 := ⟨d - 1, by omega⟩
    have ht : (mat (d + 1) rho).trace = ∑ n ∈ Finset.range (d + 1), rho n n := by
      rw [Finset.sum_range]; rfl
    rw [ht, Nat.add_sub_cancel, Finset.sum_range_succ, Finset.sum_range_succ]
    have : ∑ k ∈ Finset.range d, ((k : ℂ) + 1) * rho k k = ∑ k ∈ Finset.range d, (k : ℂ) * rho k k + ∑ k ∈ Finset.range d, rho k k := by
      rw [← Finset.sum_add_distrib]; exact Finset.sum_congr rfl fun k _ => by ring
    rw [this]
    push_cast
    ring

theorem mat_surj {d : ℕ} (ρ : Matrix (Fin d) (Fin d) ℂ) : mat d (fun i j => if h : i < d ∧ j < d then ρ ⟨i, h.1⟩ ⟨j, h.2⟩ else 0) = ρ := by
  ext i j; simp [mat_apply]

/-- **C22.** At zero temperature, the Hamiltonian and the jumps together conserve the probability. -/
theorem mode_conserving (d : ℕ) (hd : 0 < d) (κ : ℝ) (hκ : 0 ≤ κ) (δ : ℝ) (η : ℂ) : Conserving (mat d (modeH κ δ η)) ((modeJ κ 0).map (mat d)) := by
  rw [← Master.lindblad_traceless_iff]
  intro rho
  have := mode_trace d hd κ 0 hκ le_rfl δ η (fun i j => if h : i < d ∧ j < d then rho ⟨i, h.1⟩ ⟨j, h.2⟩ else 0)
  rw [mat_surj] at this
  simpa using this

/-- **C22.** The trace of the physical density operator evolved by the Master equation of the made mode, in whichever picture. -/
theorem makePumpedLossy_trace (p : Pars) (hd : p.cutoff < 2 ^ 63) (h0 : 0 < p.cutoff) (hκ : 0 ≤ p.kappa) (hn : 0 ≤ p.nTh) (hK : p.omegaKerr = 0) (hA : p.omegaKerrAlter = 0)
    (qmp : Picture) (hq : qmp ≠ .ip) : ∃ e, makePumpedLossy p qmp = .ok e ∧ ∃ hdim : e.dim = p.cutoff,
      ∀ (t0 t : ℝ) (rho : ℝ → Matrix (Fin e.dim) (Fin e.dim) ℂ), (rho t).IsHermitian → (∀ i j, HasDerivAt (fun s => rho s i j) (Master.derivative e.toSys t t0 (rho t) i j) t) →
        HasDerivAt (fun s => (Master.exactPart e.toSys s t0 (rho s)).trace)
          (2 * p.kappa * p.nTh * ((Master.exactPart e.toSys t t0 (rho t)).trace - p.cutoff *
            Master.exactPart e.toSys t t0 (rho t) ⟨p.cutoff - 1, by rw [hdim]; omega⟩ ⟨p.cutoff - 1, by rw [hdim]; omega⟩)) t := by
  obtain ⟨e, h1, h2, h3, h4⟩ := makePumpedLossy_simulates p hd h0 hκ hn hK hA qmp
  refine ⟨e, h1, h2, fun t0 t rho hr hρ => ?_⟩
  have h := h4.master (h3 hq) t0 t rho hr hρ
  have hs : HasDerivAt (fun s => ∑ i, Master.exactPart e.toSys s t0 (rho s) i i) (∑ i, lindblad (mat e.dim (modeH (p.kappa * (2 * p.nTh + 1)) p.delta p.eta)) ((modeJ p.kappa p.nTh).map (mat e.dim))
      (Master.exactPart e.toSys t t0 (rho t)) i i) t := HasDerivAt.fun_sum fun i _ => h i i
  have ht := mode_trace e.dim (by omega) p.kappa p.nTh hκ hn p.delta p.eta
    (fun i j => if h : i < e.dim ∧ j < e.dim then Master.exactPart e.toSys t t0 (rho t) ⟨i, h.1⟩ ⟨j, h.2⟩ else 0)
  rw [mat_surj] at ht
  have hlt : e.dim - 1 < e.dim := by omega
  rw [dif_pos ⟨hlt, hlt⟩] at ht
  simp only [h2] at ht
  refine hs.congr_deriv (Eq.trans ?_ ht)
  rfl

/-- The trace is conserved at zero temperature. -/
theorem makePumpedLossy_trace_zeroT (p : Pars) (hd : p.cutoff < 2 ^ 63) (h0 : 0 < p.cutoff) (hκ : 0 ≤ p.kappa) (hn : p.nTh = 0) (hK : p.omegaKerr = 0) (hA : p.omegaKerrAlter = 0)
    (qmp : Picture) (hq : qmp ≠ .ip) : ∃ e, makePumpedLossy p qmp = .ok e ∧
      ∀ (t0 t : ℝ) (rho : ℝ → Matrix (Fin e.dim) (Fin e.dim) ℂ), (rho t).IsHermitian → (∀ i j, HasDerivAt (fun s => rho s i j) (Master.derivative e.toSys t t0 (rho t) i j) t) →
        HasDerivAt (fun s => (Master.exactPart e.toSys s t0 (rho s)).trace) 0 t := by
  obtain ⟨e, h1, h2, h⟩ := makePumpedLossy_trace p hd h0 hκ hn.ge hK hA qmp hq
  refine ⟨e, h1, fun t0 t rho hr hρ => ?_⟩
  have := h t0 t rho hr hρ
  rw [hn] at this
  simpa using this

/-! ## The Kerr nonlinearity -/

/-- The Hamiltonian simulated by an element is unique. -/
theorem generates_unique {e : Element} {H H' : Dens} {J J' : List Dens} (h : Generates e H J) (h' : Generates e H' J') : mat e.dim H = mat e.dim H' := by
  have : ∀ v, mat e.dim H *ᵥ v = mat e.dim H' *ᵥ v := by
    intro v
    funext i
    have hd : ∀ i, HasDerivAt (fun s : ℝ => (fun s : ℝ => fun i => v i + (s : ℂ) * rhs e 0 0 v i) s i) (rhs e 0 0 ((fun s : ℝ => fun i => v i + (s : ℂ) * rhs e 0 0 v i) 0) i) 0 := by
      intro i
      have e0 : (fun i => v i + ((0 : ℝ) : ℂ) * rhs e 0 0 v i) = v := by funext i; simp
      simp only [e0]
      have := ((Complex.ofRealCLM.hasDerivAt (x := (0 : ℝ))).mul_const (rhs e 0 0 v i)).const_add (v i)
      simpa using this
    have a := h.schroedinger 0 0 _ hd i
    have b := h'.schroedinger 0 0 _ hd i
    have := a.unique b
    have e0 : (fun i => v i + ((0 : ℝ) : ℂ) * rhs e 0 0 v i) = v := by funext i; simp
    simp only [e0, h.initial] at this
    exact this
  exact Matrix.mulVec_injective (funext this)

/-- The Hamiltonian (divided by `i`) of a Kerr nonlinearity of strength `ω`: `ωn(n-1)/i`, cf. the documentation. -/
noncomputable def kerr (ω : ℝ) : Dens := fun i j => if i = j then -Complex.I * (ω * i * (i - 1)) else 0

theorem kerrE_eq (ω : ℝ) : kerrE ω = kerr ω := by
  funext i j
  unfold kerrE kerr kerrDiagonal
  split_ifs
  · rcases i with - | i
    · simp
    · simp [Complex.div_I]; try ring
  · rfl

/-- **C72**, the part that holds. The classes having a Hamiltonian simulate the nonlinearity `omegaKerrAlter` correctly in every picture, and that of `omegaKerr` in the Schrödinger picture with
`-δ≠0` or decay. What is missing: `omegaKerr` in the interaction pictures; `omegaKerr` with `δ=κ=0`; both in the classes with exact part only. -/
theorem kerr_partial (p : Pars) (hd : p.cutoff < 2 ^ 63) (h0 : 0 < p.cutoff) (hκ : 0 < p.kappa) (hn : 0 ≤ p.nTh) (hη : p.eta ≠ 0) (qmp : Picture) (hK : qmp ≠ .sch → p.omegaKerr = 0) :
    Simulates p qmp (makePumpedLossy p qmp)
      (fun i j => modeH (p.kappa * (2 * p.nTh + 1)) p.delta p.eta i j + kerr (p.omegaKerr + p.omegaKerrAlter) i j) (modeJ p.kappa p.nTh) := by
  have hz : (⟨p.kappa * (2 * p.nTh + 1), -p.delta⟩ : ℂ) ≠ 0 := by
    intro h
    have := congrArg Complex.re h
    simp only [Complex.zero_re] at this
    nlinarith
  have hsum : ∀ i j, kerr (p.omegaKerr + p.omegaKerrAlter) i j = kerr p.omegaKerr i j + kerr p.omegaKerrAlter i j := by
    intro i j; unfold kerr; split_ifs <;> push_cast <;> ring
  unfold makePumpedLossy
  rw [if_neg hκ.ne', if_neg hη]
  have hIP : ∀ zSch zI : ℂ, p.omegaKerr = 0 → zSch + zI = ⟨p.kappa * (2 * p.nTh + 1), -p.delta⟩ → ∃ e, elementIP p zSch zI p.eta (some (liouvillean (decide (p.nTh ≠ 0)) p)) = .ok e ∧ e.dim = p.cutoff ∧
      (e.exApplicable = true ↔ zI.re = 0) ∧
        Generates e (fun i j => modeH (p.kappa * (2 * p.nTh + 1)) p.delta p.eta i j + kerr (p.omegaKerr + p.omegaKerrAlter) i j) (modeJ p.kappa p.nTh) := by
    intro zSch zI hK hz
    obtain ⟨e, h1, h2, h3, h4⟩ := elementIP_generates (p := p) (J := modeJ p.kappa p.nTh) hd h0 hK zSch zI p.eta (fun h => phase _ _ h _ _)
      (fun ha ex b => liouvillean_is p hκ hn ha ex b)
    refine ⟨e, h1, h2, h3, ?_⟩
    rw [kerrE_eq] at h4
    simp only [add_sub_right_comm, hOverIE_add, hz] at h4
    rw [← hOverIE_eq, hK, zero_add]
    exact h4
  cases qmp with
  | ip =>
    obtain ⟨e, h1, h2, h3, h4⟩ := hIP 0 ⟨p.kappa * (2 * p.nTh + 1), -p.delta⟩ (hK (by simp)) (by simp)
    exact ⟨e, by rw [← h1]; unfold pumpedLossyMode; simp only [decay_eq], h2, fun h => absurd rfl h, h4⟩
  | uip =>
    obtain ⟨e, h1, h2, h3, h4⟩ := hIP ⟨p.kappa * (2 * p.nTh + 1), 0⟩ ⟨0, -p.delta⟩ (hK (by simp)) (by apply Complex.ext <;> simp)
    exact ⟨e, by rw [← h1]; unfold pumpedLossyMode; simp only [decay_eq], h2, fun _ => h3.2 rfl, h4⟩
  | sch =>
    obtain ⟨e, h1, h2, h3, h4⟩ := elementSch_generates (p := p) (J := modeJ p.kappa p.nTh) hd h0 ⟨p.kappa * (2 * p.nTh + 1), -p.delta⟩ p.eta
      (fun ha ex b => liouvillean_is p hκ hn ha ex b)
    refine ⟨e, by rw [← h1]; unfold pumpedLossyMode; simp only [decay_eq], h2, fun _ => h3, ?_⟩
    have : (fun i j => modeH (p.kappa * (2 * p.nTh + 1)) p.delta p.eta i j + kerr (p.omegaKerr + p.omegaKerrAlter) i j) =
        fun i j => hOverIE ⟨p.kappa * (2 * p.nTh + 1), -p.delta⟩ p.eta p.omegaKerr i j + kerrE p.omegaKerrAlter i j := by
      funext i j
      rw [hsum, ← hOverIE_eq, kerrE_eq, ← kerrE_eq p.omegaKerr]
      unfold hOverIE kerrE
      simp only [ne_eq, hz, not_false_eq_true, if_true, mainDiagonal, kerrDiagonal]
      split_ifs <;> simp <;> ring
    rw [this]; exact h4

/-- A pumped lossy Kerr mode. -/
example : Simulates ⟨10, 1, 3, 0, 2, 0, 1⟩ .sch (makePumpedLossy ⟨10, 1, 3, 0, 2, 0, 1⟩ .sch) (fun i j => modeH (2 * (2 * 0 + 1)) 1 1 i j + kerr (3 + 0) i j) (modeJ 2 0) :=
  kerr_partial ⟨10, 1, 3, 0, 2, 0, 1⟩ (by norm_num) (by norm_num) (by norm_num) le_rfl one_ne_zero .sch (by simp)

/-- **C72** fails: for all free modes with a Kerr nonlinearity that has at least three levels, no Hamiltonian is simulated both in the interaction and in the Schrödinger picture. -/
theorem kerr_pictures_differ (p : Pars) (hd : p.cutoff < 2 ^ 63) (h0 : 3 ≤ p.cutoff) (hδ : p.delta ≠ 0) (hK : p.omegaKerr + p.omegaKerrAlter ≠ 0) :
    ¬∃ H J, Simulates p .ip (makeFree p .ip) H J ∧ Simulates p .sch (makeFree p .sch) H J := by
  rintro ⟨H, J, ⟨e, h1, h2, -, h4⟩, ⟨e', h1', h2', -, h4'⟩⟩
  obtain ⟨f, g1, g2, -, g4⟩ := elementExact_generates (p := p) (J := modeJ 0 0) (li := none) ⟨0, -p.delta⟩ (fun h => phase _ _ h 0 0) (fun _ _ _ => noLi _ 0 _ _ _)
  obtain ⟨f', g1', g2', -, g4'⟩ := elementSch_generates (p := p) (J := modeJ 0 0) (li := none) hd (by omega) ⟨0, -p.delta⟩ 0 (fun _ _ _ => noLi _ 0 _ _ _)
  have e1 : f = e := by
    have : makeFree p .ip = .ok f := g1
    rw [h1] at this; injection this with this; exact this.symm
  have e2 : f' = e' := by
    have : makeFree p .sch = .ok f' := g1'
    rw [h1'] at this; injection this with this; exact this.symm
  subst e1 e2
  have a := congrFun₂ (generates_unique h4 g4) ⟨2, by omega⟩ ⟨2, by omega⟩
  have b := congrFun₂ (generates_unique h4' g4') ⟨2, by omega⟩ ⟨2, by omega⟩
  simp only [mat_apply] at a b
  rw [a] at b
  have hz : (⟨0, -p.delta⟩ : ℂ) ≠ 0 := by
    intro h; have := congrArg Complex.im h; simp at this; exact hδ this
  rw [kerrE_eq] at b
  simp only [if_true, hOverIE, ne_eq, hz, not_false_eq_true, mainDiagonal, kerrDiagonal, kerr] at b
  apply hK
  have := congrArg Complex.im b
  simp [aOp, adOp] at this
  linarith

example : ∃ p : Pars, p.cutoff < 2 ^ 63 ∧ 3 ≤ p.cutoff ∧ p.delta ≠ 0 ∧ p.omegaKerr + p.omegaKerrAlter ≠ 0 := ⟨⟨10, 1, 3, 0, 2, 0, 1⟩, by norm_num, by norm_num, by norm_num, by norm_num⟩

end CppQED.ModeEl
