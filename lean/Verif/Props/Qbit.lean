import Verif.Model.Qbit
import Verif.Spec.Qbit
import Verif.Props.ModeAverages

/-!
# The qbit: C21, C22, C23, C24
-/

namespace CppQED.QbitEl
open CppQED.Elem CppQED.Tridiag CppQED.Spec CppQED.ModeEl Matrix
open ComplexConjugate ComplexOrder

/-! ## Jumps -/

theorem mat_sigma (c : ℂ) : mat 2 (sc c aOp) = mat 2 fun i j => c * sigma i j := by
  ext i j
  fin_cases i <;> fin_cases j <;> simp [mat_apply, sc, aOp, sigma]

/-- **C21.** The jumps of the qbit with phase noise; both rates are given as negative, that is, they are calculated from the jumps by the trajectory. -/
theorem phaseNoise_jumps (γ γp : ℝ) : IsJump 2 (sigmaJump γ) (mat 2 fun i j => (Real.sqrt (2 * γ) : ℂ) * sigma i j) ∧
    IsJump 2 (sigmaZJump γp) (mat 2 fun i j => (Real.sqrt (2 * γp) : ℂ) * sigmaZ i j) ∧ ∀ m, (liouvilleanPhaseNoise γ γp).rates m = [-1, -1] := by
  refine ⟨?_, ?_, fun m => rfl⟩
  · intro psi
    funext i
    fin_cases i <;> simp [ket, sigmaJump, Elem.set_apply, Matrix.mulVec, dotProduct, mat_apply, sigma, Fin.sum_univ_two]
  · intro psi
    funext i
    fin_cases i <;> simp [ket, sigmaZJump, Elem.set_apply, Matrix.mulVec, dotProduct, mat_apply, sigmaZ, Fin.sum_univ_two] <;> ring

/-- **C21.** The lossy qbit without phase noise: jump, superoperator, rate. -/
theorem loss_spec (γ : ℝ) (hγ : 0 ≤ γ) : IsJump 2 (aJump γ 2) (mat 2 fun i j => (Real.sqrt (2 * γ) : ℂ) * sigma i j) ∧
    IsSuper 2 (aSuperoperator γ 2) (mat 2 fun i j => (Real.sqrt (2 * γ) : ℂ) * sigma i j) ∧
    IsRate 2 (fun m => 2 * γ * photonNumber m) (mat 2 fun i j => (Real.sqrt (2 * γ) : ℂ) * sigma i j) := by
  rw [← mat_sigma]
  exact ⟨aJump_eq γ 2, aSuperoperator_eq γ hγ 2, loss_rate γ hγ 2⟩

/-! ## The dynamics -/

theorem generates_congr {e : Element} {H H' : Dens} {J J' : List Dens} (h : Generates e H J) (hH : mat e.dim H = mat e.dim H') (hJ : J.map (mat e.dim) = J'.map (mat e.dim)) : Generates e H' J' := by
  have hlen : J.length = J'.length := by have := congrArg List.length hJ; simpa using this
  have hget : ∀ i, mat e.dim (J.getD i 0) = mat e.dim (J'.getD i 0) := by
    intro i
    have := congrArg (fun l => l.getD i (mat e.dim 0)) hJ
    simpa [List.getD_eq_getElem?_getD, List.getElem?_map, Option.getD_map] using this
  refine ⟨h.initial, ?_, ?_, ?_⟩
  · rw [← hH]; exact h.schroedinger
  · have := h.jumps
    revert this
    cases e.toSys.li with
    | none => simp only; intro h; rw [h] at hlen; exact List.eq_nil_of_length_eq_zero (by simpa using hlen.symm)
    | some l => simp only [← hlen, ← hget]; exact id
  · rw [← hH, ← hJ]; exact h.master

theorem qbitH_eq (γ δ : ℝ) (η : ℂ) : mat 2 (modeH γ δ (-η)) = mat 2 (qbitH γ δ η) := by
  ext i j
  fin_cases i <;> fin_cases j <;> simp [mat_apply, modeH, qbitH, nOp, aOp, adOp, excited, sigma, sigmaDag]

theorem phaseNoise_is (γ γp : ℝ) (hp : γp ≠ 0) (ha : Option (ℝ → Vec → Vec → ℝ → Vec)) (ex : Option (ℝ → ℕ → ℂ)) (b : Bool) :
    LiIs ⟨2, ha, ex, b, some (liouvilleanPhaseNoise γ γp)⟩ (qbitJ γ γp) := by
  obtain ⟨h1, h2, -⟩ := phaseNoise_jumps γ γp
  unfold LiIs qbitJ
  rw [if_pos hp]
  simp only
  refine ⟨rfl, fun i hi => ?_⟩
  match i, hi with
  | 0, _ => exact ⟨fun psi => ⟨_, rfl, h1 psi⟩, fun rho drhodt d' h => by simp [liouvilleanPhaseNoise, elementLiouvilleanStrategies, Lindblad.doActWithSuperoperator] at h⟩
  | 1, _ => exact ⟨fun psi => ⟨_, rfl, h2 psi⟩, fun rho drhodt d' h => by simp [liouvilleanPhaseNoise, elementLiouvilleanStrategies, Lindblad.doActWithSuperoperator] at h⟩

theorem loss_is (γ : ℝ) (hγ : 0 < γ) (ha : Option (ℝ → Vec → Vec → ℝ → Vec)) (ex : Option (ℝ → ℕ → ℂ)) (b : Bool) :
    LiIs ⟨2, ha, ex, b, some (liouvillean γ)⟩ (modeJ γ 0) := by
  have := liouvillean_is ⟨2, 0, 0, 0, γ, 0, 0⟩ hγ le_rfl ha ex b
  simpa [ModeEl.liouvillean, QbitEl.liouvillean] using this

theorem phases_qbit (zI : ℂ) (hz : zI.re = 0) (γ γp : ℝ) (hp : γp ≠ 0) : Phases 2 zI (qbitJ γ γp) := by
  unfold qbitJ
  rw [if_pos hp]
  intro j hj t
  simp only [List.mem_cons, List.not_mem_nil, or_false] at hj
  rcases hj with rfl | rfl
  · rw [← mat_sigma]
    by_cases hγ : γ = 0
    · refine ⟨1, by simp, ?_⟩
      have : mat 2 (sc ((Real.sqrt (2 * γ) : ℝ) : ℂ) aOp) = 0 := by ext i j; simp [mat_apply, sc, hγ]
      rw [this]; simp
    · have := phase 2 zI hz γ 0 (sc ((Real.sqrt (2 * γ) : ℝ) : ℂ) aOp) (by unfold modeJ; rw [if_neg hγ, if_pos rfl]; simp) t
      exact this
  · refine ⟨1, by simp, ?_⟩
    ext i j
    rw [Matrix.diagonal_mul, one_smul, Matrix.mul_diagonal, mul_comm]
    simp only [mat_apply, sigmaZ]
    by_cases h : i = j
    · rw [h]
    · rw [if_neg (fun h' => h (Fin.ext h'))]; simp

/-- The qbit made simulates the dynamics of `H` and `J`; with the exception of the interaction picture, it can be used in the Master equation. -/
def Simulates (qmp : Picture) (o : Outcome Element) (H : Dens) (J : List Dens) : Prop :=
  ∃ e, o = .ok e ∧ e.dim = 2 ∧ (qmp ≠ .ip → e.exApplicable = true) ∧ Generates e H J

section
variable {p : Pars} {J : List Dens} {li : Option Liouvillean} (hL : ∀ ha ex b, LiIs ⟨2, ha, ex, b, li⟩ J)
include hL

theorem exact_generates (zI : ℂ) (hJ : zI.re = 0 → Phases 2 zI J) (γ δ : ℝ) (hz : zI = ⟨γ, -δ⟩) :
    ∃ e, elementExact p zI li = .ok e ∧ e.dim = 2 ∧ (e.exApplicable = true ↔ zI.re = 0) ∧ Generates e (qbitH γ δ 0) J := by
  obtain ⟨e, h1, h2, h3, h4⟩ := elementExact_generates (p := p.mode) (J := J) (li := li) zI hJ hL
  refine ⟨e, h1, h2, h3, generates_congr h4 ?_ rfl⟩
  have h2' : e.dim = 2 := h2
  rw [h2', ← qbitH_eq, neg_zero, ← hOverIE_eq, ← hz]
  ext i j
  have := hOverIE_add 0 zI 0 i j
  rw [zero_add] at this
  simp only [mat_apply]
  rw [← this, hOverIE_zero]; simp

theorem ip_generates (zSch zI η : ℂ) (hJ : zI.re = 0 → Phases 2 zI J) (γ δ : ℝ) (hz : zSch + zI = ⟨γ, -δ⟩) :
    ∃ e, elementIP p zSch zI η li = .ok e ∧ e.dim = 2 ∧ (e.exApplicable = true ↔ zI.re = 0) ∧ Generates e (qbitH γ δ η) J := by
  obtain ⟨e, h1, h2, h3, h4⟩ := elementIP_generates (p := p.mode) (J := J) (li := li) (by norm_num [Pars.mode]) (by norm_num [Pars.mode]) rfl zSch zI (-η) hJ hL
  refine ⟨e, h1, h2, h3, generates_congr h4 ?_ rfl⟩
  have h2' : e.dim = 2 := h2
  rw [h2', ← qbitH_eq, ← hOverIE_eq, ← hz]
  ext i j
  simp only [mat_apply, show p.mode.omegaKerrAlter = 0 from rfl, kerrE_zero, add_zero, hOverIE_add]

theorem sch_generates (zSch η : ℂ) (γ δ : ℝ) (hz : zSch = ⟨γ, -δ⟩) :
    ∃ e, elementSch p zSch η li = .ok e ∧ e.dim = 2 ∧ e.exApplicable = true ∧ Generates e (qbitH γ δ η) J := by
  obtain ⟨e, h1, h2, h3, h4⟩ := elementSch_generates (p := p.mode) (J := J) (li := li) (by norm_num [Pars.mode]) (by norm_num [Pars.mode]) zSch (-η) hL
  refine ⟨e, h1, h2, h3, generates_congr h4 ?_ rfl⟩
  have h2' : e.dim = 2 := h2
  rw [h2', ← qbitH_eq, ← hOverIE_eq, ← hz]
  ext i j
  simp only [mat_apply, show p.mode.omegaKerrAlter = 0 from rfl, show p.mode.omegaKerr = 0 from rfl, kerrE_zero, add_zero]

end

theorem simulates_of {qmp : Picture} {o : Outcome Element} {H : Dens} {J J' : List Dens} {P : Element → Prop} (hJ : J.map (mat 2) = J'.map (mat 2))
    (h : ∃ e, o = .ok e ∧ e.dim = 2 ∧ P e ∧ Generates e H J) (hP : qmp ≠ .ip → ∀ e, P e → e.exApplicable = true) : Simulates qmp o H J' := by
  obtain ⟨e, h1, h2, h3, h4⟩ := h
  exact ⟨e, h1, h2, fun hq => hP hq e h3, generates_congr h4 rfl (by rw [h2]; exact hJ)⟩

theorem noLi (ha : Option (ℝ → Vec → Vec → ℝ → Vec)) (ex : Option (ℝ → ℕ → ℂ)) (b : Bool) : LiIs ⟨2, ha, ex, b, none⟩ [] := by
  unfold LiIs; simp

theorem qbitJ_loss (γ : ℝ) (h : γ ≠ 0) : (modeJ γ 0).map (mat 2) = (qbitJ γ 0).map (mat 2) := by
  unfold modeJ qbitJ
  rw [if_neg h, if_pos rfl, if_neg (by simp), if_neg h]
  simp [mat_sigma]

theorem qbitJ_free : ([] : List Dens).map (mat 2) = (qbitJ 0 0).map (mat 2) := by
  simp [qbitJ]

/-- **C23.** Whatever the picture, the qbit made from the given parameters simulates the same Hamiltonian and jumps. -/
theorem make_simulates (p : Pars) (hγ : 0 ≤ p.gamma) (qmp : Picture) : Simulates qmp (make p qmp) (qbitH p.gamma p.delta p.eta) (qbitJ p.gamma 0) := by
  have hz : ∀ γ δ : ℝ, (⟨γ, 0⟩ : ℂ) + ⟨0, -δ⟩ = ⟨γ, -δ⟩ := by intro γ δ; apply Complex.ext <;> simp
  by_cases hg : p.gamma = 0
  · rw [hg]
    by_cases he : p.eta = 0
    · rw [he]
      have hf : ∃ e, qbit p = .ok e ∧ e.dim = 2 ∧ (e.exApplicable = true ↔ (⟨0, -p.delta⟩ : ℂ).re = 0) ∧ Generates e (qbitH 0 p.delta 0) [] :=
        exact_generates noLi _ (fun _ j hj => by simp at hj) _ _ rfl
      cases qmp with
      | ip => unfold make; simp only [if_pos (show p.gamma = 0 ∧ p.eta = 0 from ⟨hg, he⟩)]; exact simulates_of qbitJ_free hf (fun h => absurd rfl h)
      | uip => unfold make; simp only [if_pos (show p.gamma = 0 ∧ p.eta = 0 from ⟨hg, he⟩)]; exact simulates_of qbitJ_free hf (fun _ e h => h.2 rfl)
      | sch =>
        unfold make; simp only [if_pos (show p.gamma = 0 ∧ p.eta = 0 from ⟨hg, he⟩)]
        exact simulates_of (P := fun e => e.exApplicable = true) qbitJ_free (sch_generates noLi _ _ _ _ rfl) (fun _ e h => h)
    · have hf : ∃ e, pumpedQbit p = .ok e ∧ e.dim = 2 ∧ (e.exApplicable = true ↔ (⟨0, -p.delta⟩ : ℂ).re = 0) ∧ Generates e (qbitH 0 p.delta p.eta) [] :=
        ip_generates noLi _ _ _ (fun _ j hj => by simp at hj) _ _ (by rw [zero_add])
      cases qmp with
      | ip => unfold make; simp only [if_neg (show ¬(p.gamma = 0 ∧ p.eta = 0) from fun h => he h.2), if_pos hg]; exact simulates_of qbitJ_free hf (fun h => absurd rfl h)
      | uip => unfold make; simp only [if_neg (show ¬(p.gamma = 0 ∧ p.eta = 0) from fun h => he h.2), if_pos hg]; exact simulates_of qbitJ_free hf (fun _ e h => h.2 rfl)
      | sch =>
        unfold make; simp only [if_neg (show ¬(p.gamma = 0 ∧ p.eta = 0) from fun h => he h.2), if_pos hg]
        exact simulates_of (P := fun e => e.exApplicable = true) qbitJ_free (sch_generates noLi _ _ _ _ rfl) (fun _ e h => h)
  · have hγ' : 0 < p.gamma := lt_of_le_of_ne hγ (Ne.symm hg)
    have hJ := qbitJ_loss p.gamma hg
    have hL := fun ha ex b => loss_is p.gamma hγ' ha ex b
    have hc : ¬(p.gamma = 0 ∧ p.eta = 0) := fun h => hg h.1
    by_cases he : p.eta = 0
    · cases qmp with
      | ip =>
        unfold make; simp only [if_neg hc, if_neg hg, if_pos he]; rw [he]
        exact simulates_of hJ (exact_generates hL _ (fun h => phase _ _ h _ _) _ _ rfl) (fun h => absurd rfl h)
      | uip =>
        unfold make; simp only [if_neg hc, if_neg hg, if_pos he]; rw [he]
        exact simulates_of hJ (ip_generates hL _ _ _ (fun h => phase _ _ h _ _) _ _ (hz _ _)) (fun _ e h => h.2 rfl)
      | sch =>
        unfold make; simp only [if_neg hc, if_neg hg, if_pos he]; rw [he]
        exact simulates_of (P := fun e => e.exApplicable = true) hJ (sch_generates hL _ _ _ _ rfl) (fun _ e h => h)
    · cases qmp with
      | ip =>
        unfold make; simp only [if_neg hc, if_neg hg, if_neg he]
        exact simulates_of hJ (ip_generates hL _ _ _ (fun h => phase _ _ h _ _) _ _ (zero_add _)) (fun h => absurd rfl h)
      | uip =>
        unfold make; simp only [if_neg hc, if_neg hg, if_neg he]
        exact simulates_of hJ (ip_generates hL _ _ _ (fun h => phase _ _ h _ _) _ _ (hz _ _)) (fun _ e h => h.2 rfl)
      | sch =>
        unfold make; simp only [if_neg hc, if_neg hg, if_neg he]
        exact simulates_of (P := fun e => e.exApplicable = true) hJ (sch_generates hL _ _ _ _ rfl) (fun _ e h => h)

/-- **C23.** The same with phase noise. In this case, what is made for the Schrödinger picture is in the interaction picture, so that with decay, it cannot be used in the Master equation. -/
theorem makePhaseNoise_simulates (p : Pars) (hγ : 0 ≤ p.gamma) (qmp : Picture) :
    ∃ e, makePhaseNoise p qmp = .ok e ∧ e.dim = 2 ∧ Generates e (qbitH p.gamma p.delta p.eta) (qbitJ p.gamma p.gammaParallel) ∧
      (qmp = .uip → e.exApplicable = true) ∧ (qmp = .sch → (e.exApplicable = true ↔ p.gammaParallel = 0 ∨ p.gamma = 0)) := by
  have hz : ∀ γ δ : ℝ, (⟨γ, 0⟩ : ℂ) + ⟨0, -δ⟩ = ⟨γ, -δ⟩ := by intro γ δ; apply Complex.ext <;> simp
  unfold makePhaseNoise
  by_cases hp : p.gammaParallel = 0
  · rw [if_neg (by simpa using hp), hp]
    obtain ⟨e, h1, h2, h3, h4⟩ := make_simulates p hγ qmp
    exact ⟨e, h1, h2, h4, fun h => h3 (by rw [h]; simp), fun h => ⟨fun _ => Or.inl rfl, fun _ => h3 (by rw [h]; simp)⟩⟩
  · rw [if_pos hp]
    have hL := fun ha ex b => phaseNoise_is p.gamma p.gammaParallel hp ha ex b
    by_cases hq : qmp = .uip
    · rw [if_pos hq]
      by_cases he : p.eta = 0
      · rw [if_neg (by simpa using he), he]
        obtain ⟨e, h1, h2, h3, h4⟩ := ip_generates (p := p) hL ⟨p.gamma, 0⟩ ⟨0, -p.delta⟩ 0 (fun h => phases_qbit _ h _ _ hp) _ _ (hz _ _)
        exact ⟨e, h1, h2, h4, fun _ => h3.2 rfl, fun h => by rw [hq] at h; cases h⟩
      · rw [if_pos he]
        obtain ⟨e, h1, h2, h3, h4⟩ := ip_generates (p := p) hL ⟨p.gamma, 0⟩ ⟨0, -p.delta⟩ p.eta (fun h => phases_qbit _ h _ _ hp) _ _ (hz _ _)
        exact ⟨e, h1, h2, h4, fun _ => h3.2 rfl, fun h => by rw [hq] at h; cases h⟩
    · rw [if_neg hq]
      by_cases he : p.eta = 0
      · rw [if_neg (by simpa using he), he]
        obtain ⟨e, h1, h2, h3, h4⟩ := exact_generates (p := p) hL ⟨p.gamma, -p.delta⟩ (fun h => phases_qbit _ h _ _ hp) _ _ rfl
        exact ⟨e, h1, h2, h4, fun h => absurd h hq, fun _ => by rw [h3]; simp [hp]⟩
      · rw [if_pos he]
        obtain ⟨e, h1, h2, h3, h4⟩ := ip_generates (p := p) hL 0 ⟨p.gamma, -p.delta⟩ p.eta (fun h => phases_qbit _ h _ _ hp) _ _ (zero_add _)
        exact ⟨e, h1, h2, h4, fun h => absurd h hq, fun _ => by rw [h3]; simp [hp]⟩

example : ∃ e, makePhaseNoise ⟨-10, 2, 1, Complex.I⟩ .uip = .ok e ∧ e.dim = 2 ∧ Generates e (qbitH 2 (-10) Complex.I) (qbitJ 2 1) := by
  obtain ⟨e, h1, h2, h3, -⟩ := makePhaseNoise_simulates ⟨-10, 2, 1, Complex.I⟩ (by norm_num) .uip
  exact ⟨e, h1, h2, h3⟩

/-- **C22.** The probability is conserved without phase noise; with phase noise, the trace grows with the rate documented. -/
theorem qbit_trace (γ γp δ : ℝ) (η : ℂ) (hγ : 0 ≤ γ) (hγp : 0 ≤ γp) (ρ : Matrix (Fin 2) (Fin 2) ℂ) :
    (lindblad (mat 2 (qbitH γ δ η)) ((qbitJ γ γp).map (mat 2)) ρ).trace = 2 * γp * ρ.trace := by
  have hs : ∀ x : ℝ, 0 ≤ x → (Real.sqrt (2 * x) : ℂ) * (Real.sqrt (2 * x) : ℂ) = 2 * x := by
    intro x hx; rw [← Complex.ofReal_mul, Real.mul_self_sqrt (by linarith)]; push_cast; ring
  have hg := hs γ hγ
  have hp := hs γp hγp
  have e1 : ∀ c : ℂ, conj c = c → ((mat 2 fun i j => c * sigma i j) * ρ * (mat 2 fun i j => c * sigma i j)ᴴ).trace = c * c * ρ 1 1 := by
    intro c hc
    simp [Matrix.trace, Fin.sum_univ_two, Matrix.mul_apply, mat_apply, sigma, Matrix.conjTranspose_apply, hc]; ring
  have e2 : ∀ c : ℂ, conj c = c → ((mat 2 fun i j => c * sigmaZ i j) * ρ * (mat 2 fun i j => c * sigmaZ i j)ᴴ).trace = c * c * ρ.trace := by
    intro c hc
    simp [Matrix.trace, Fin.sum_univ_two, Matrix.mul_apply, mat_apply, sigmaZ, Matrix.conjTranspose_apply, hc]; ring
  have e3 : (mat 2 (qbitH γ δ η) * ρ + ρ * (mat 2 (qbitH γ δ η))ᴴ).trace = -(2 * γ) * ρ 1 1 := by
    simp [Matrix.trace, Fin.sum_univ_two, Matrix.mul_apply, mat_apply, qbitH, excited, sigma, sigmaDag, Matrix.conjTranspose_apply]; ring
  unfold lindblad
  rw [Matrix.trace_add, e3]
  unfold qbitJ
  by_cases h : γp = 0
  · rw [if_neg (by simpa using h), h]
    by_cases h0 : γ = 0
    · rw [if_pos h0]; simp [h0]
    · rw [if_neg h0]
      simp only [List.map_cons, List.map_nil, List.sum_cons, List.sum_nil, add_zero]
      rw [e1 _ (Complex.conj_ofReal _), hg]; simp
  · rw [if_pos h]
    simp only [List.map_cons, List.map_nil, List.sum_cons, List.sum_nil, add_zero, Matrix.trace_add]
    rw [e1 _ (Complex.conj_ofReal _), e2 _ (Complex.conj_ofReal _), hg, hp]; ring

/-! ## Averages -/

/-- **C24.** What is displayed for a qbit: the populations and the expectation value of `σ`. -/
theorem averaged_spec (m : LDO) (hd : m.dim = 2) :
    average m 0 = mean (mat 2 fun i j => if i = 0 ∧ j = 0 then 1 else 0) (mat 2 m.index) ∧ average m 1 = mean (mat 2 excited) (mat 2 m.index) ∧
    average m 2 = (expectation (mat 2 sigma) (mat 2 m.index)).re ∧ average m 3 = (expectation (mat 2 sigma) (mat 2 m.index)).im := by
  refine ⟨?_, ?_, ?_, ?_⟩ <;>
    simp [average, mean, expectation, LDO.diag, Matrix.trace, Fin.sum_univ_two, Matrix.mul_apply, mat_apply, excited, sigma]

/-- The initial condition is normalised if the given amplitude is at most one. -/
theorem init_norm (psi1 : ℂ) (h : Complex.normSq psi1 ≤ 1) : ∑ i ∈ Finset.range 2, Complex.normSq (init psi1 i) = 1 ∧ init psi1 1 = psi1 := by
  simp only [Finset.sum_range_succ, Finset.sum_range_zero, init, zero_add, Complex.normSq_ofReal, and_true]
  rw [Real.mul_self_sqrt (by linarith)]; ring

example : Complex.normSq (1 / 2) ≤ 1 := by norm_num [Complex.normSq_div]

/-- **C21.** The rate returned by the Liouvillean of the qbit is the one of its jump `√(2γ) σ`. -/
theorem liouvillean_rates (γ : ℝ) (hγ : 0 ≤ γ) :
    ∃ r : LDO → ℝ, (∀ m, (liouvillean γ).rates m = [r m]) ∧ IsRate 2 r (mat 2 (sc (Real.sqrt (2 * γ)) sigma)) := by
  obtain ⟨r, h1, h2⟩ := (ModeEl.liouvillean_rates γ 0 hγ le_rfl 2).1
  refine ⟨r, h1, ?_⟩
  have e : mat 2 (sc (Real.sqrt (2 * γ)) aOp) = mat 2 (sc (Real.sqrt (2 * γ)) sigma) := by
    ext i j; fin_cases i <;> fin_cases j <;> simp [mat_apply, sc, aOp, sigma]
  rwa [e] at h2

example := liouvillean_rates 3 (by norm_num)

end CppQED.QbitEl
