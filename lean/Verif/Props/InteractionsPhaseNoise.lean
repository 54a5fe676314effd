import Verif.Props.Interactions

/-!
# Jaynes-Cummings coupling of a qbit with phase noise: C77
-/

namespace CppQED.Interactions
open CppQED.Elem CppQED.Tridiag CppQED.Spec CppQED.ModeEl Matrix
open ComplexConjugate

/-- The picture in which the qbit with phase noise is made: there is none in Schrödinger picture. -/
noncomputable def phaseNoisePicture (p : QbitEl.Pars) (qmp : Picture) : Picture :=
  open Classical in if p.gammaParallel ≠ 0 ∧ qmp = .sch then .ip else qmp

theorem qbitPtrPhaseNoise_eq (p : QbitEl.Pars) (qmp : Picture) : qbitPtrPhaseNoise p qmp = qbitPtr p (phaseNoisePicture p qmp) := by
  unfold qbitPtrPhaseNoise phaseNoisePicture
  by_cases h : p.gammaParallel = 0
  · simp [h]
  · cases qmp <;> simp [h]

/-- The qbit with phase noise, with its jumps. -/
theorem qbit_free_phaseNoise_jumps (p : QbitEl.Pars) (hp : p.gammaParallel ≠ 0) (qmp : Picture) :
    FreeOK (QbitEl.makePhaseNoise p qmp) 2 (qbitPtrPhaseNoise p qmp).w (qbitH p.gamma p.delta p.eta) (qbitJ p.gamma p.gammaParallel) := by
  have hz : (⟨p.gamma, 0⟩ : ℂ) + ⟨0, -p.delta⟩ = ⟨p.gamma, -p.delta⟩ := by apply Complex.ext <;> simp
  have hH : ∀ γ δ η, ∀ i < 2, ∀ j < 2, hOverIE ⟨γ, -δ⟩ (-η) 0 i j = qbitH γ δ η i j := by
    intro γ δ η i hi j hj
    have := congrFun (congrFun (QbitEl.qbitH_eq γ δ η) ⟨i, hi⟩) ⟨j, hj⟩
    rw [← hOverIE_eq] at this
    exact this
  have kz : ∀ i j, kerrE p.mode.omegaKerrAlter i j = 0 := by intro i j; rw [show p.mode.omegaKerrAlter = 0 from rfl, kerrE_zero]
  have hd : p.mode.cutoff < 2 ^ 63 := by norm_num [QbitEl.Pars.mode]
  have h0 : 0 < p.mode.cutoff := by norm_num [QbitEl.Pars.mode]
  have hL := fun ha ex b => QbitEl.phaseNoise_is p.gamma p.gammaParallel hp ha ex b
  have hx : FreeOK (QbitEl.elementExact p ⟨p.gamma, -p.delta⟩ (some (QbitEl.liouvilleanPhaseNoise p.gamma p.gammaParallel))) 2 (mainDiagonal ⟨p.gamma, -p.delta⟩ 0) (qbitH p.gamma p.delta 0)
      (qbitJ p.gamma p.gammaParallel) := by
    refine (exact_free (p := p.mode) ⟨p.gamma, -p.delta⟩ hL).congr fun i hi j hj => ?_
    rw [neg_diag, ← hH _ _ _ i hi j hj, neg_zero]
  have hi : ∀ (zSch zI η : ℂ) (_ : zSch + zI = ⟨p.gamma, -p.delta⟩),
      FreeOK (QbitEl.elementIP p zSch zI η (some (QbitEl.liouvilleanPhaseNoise p.gamma p.gammaParallel))) 2 (mainDiagonal zI 0) (qbitH p.gamma p.delta η) (qbitJ p.gamma p.gammaParallel) := by
    intro zSch zI η h
    refine (ip_free (p := p.mode) hd h0 rfl zSch zI (-η) hL).congr fun i hi j hj => ?_
    rw [kz, add_zero, ← hH _ _ _ i hi j hj, h]
  unfold QbitEl.makePhaseNoise qbitPtrPhaseNoise
  simp only [ne_eq, hp, not_false_eq_true, if_true]
  by_cases hq : qmp = .uip
  · simp only [hq, if_true]
    by_cases he : p.eta = 0
    · simp only [he, not_true_eq_false, if_false]; exact hi _ _ _ hz
    · simp only [he, not_false_eq_true, if_true]; exact hi _ _ _ hz
  · simp only [hq, if_false]
    by_cases he : p.eta = 0
    · simp only [he, not_true_eq_false, if_false]; exact hx
    · simp only [he, not_false_eq_true, if_true]; exact hi _ _ _ (zero_add _)

/-- The qbit with phase noise as a constituent. -/
theorem qbit_free_phaseNoise (p : QbitEl.Pars) (hγ : 0 ≤ p.gamma) (qmp : Picture) :
    ∃ J, FreeOK (QbitEl.makePhaseNoise p qmp) 2 (qbitPtrPhaseNoise p qmp).w (qbitH p.gamma p.delta p.eta) J := by
  by_cases hp : p.gammaParallel = 0
  · have h := qbit_free_jumps p hγ qmp
    have e1 : QbitEl.makePhaseNoise p qmp = QbitEl.make p qmp := by unfold QbitEl.makePhaseNoise; simp [hp]
    have e2 : qbitPtrPhaseNoise p qmp = qbitPtr p qmp := by unfold qbitPtrPhaseNoise; simp [hp]
    rw [e1, e2]
    exact ⟨_, h⟩
  · exact ⟨_, qbit_free_phaseNoise_jumps p hp qmp⟩

/-- **C77.** The Jaynes-Cummings system of a qbit with phase noise and a mode. As the qbit with phase noise is never in Schrödinger picture, the mode must not be either. -/
theorem jaynesCummings_phaseNoise (pq : QbitEl.Pars) (pm : ModeEl.Pars) (g : ℂ) (qmq qmm : Picture) (hq : phaseNoisePicture pq qmq = .sch ↔ qmm = .sch) (hγ : 0 ≤ pq.gamma)
    (hd : pm.cutoff < 2 ^ 63) (h0 : 0 < pm.cutoff) (hκ : 0 ≤ pm.kappa) (hn : 0 ≤ pm.nTh) (hK : pm.omegaKerr = 0) (hA : pm.omegaKerrAlter = 0) :
    ∃ e0 e1 ia, QbitEl.makePhaseNoise pq qmq = .ok e0 ∧ makePumpedLossy pm qmm = .ok e1 ∧ jaynesCummings [0, 1] (aop (qbitPtrPhaseNoise pq qmq)) (modePtr pm qmm) g = .ok ia ∧
      BinSimulates (binary e0 e1 ia) fun i j => tensor (qbitH pq.gamma pq.delta pq.eta) one i j + tensor one (modeH (pm.kappa * (2 * pm.nTh + 1)) pm.delta pm.eta) i j + jcH g sigma sigmaDag i j := by
  obtain ⟨J0, e0, a1, a2, a3⟩ := qbit_free_phaseNoise pq hγ qmq
  obtain ⟨e1, b1, b2, b3⟩ := mode_free pm hd h0 hκ hn hK hA qmm
  rw [qbitPtrPhaseNoise_eq] at a3 ⊢
  obtain ⟨S, s1, s2, s3⟩ := aop_qbit pq (phaseNoisePicture pq qmq)
  obtain ⟨ia, i1, -, i3⟩ := jaynesCummings_couples (modePtr pm qmm) (by rw [modePtr_dim]; exact hd) (by rw [modePtr_dim]; exact h0) s2
    (by rw [modePtr_exact, ← show decide (phaseNoisePicture pq qmq ≠ .sch) = decide (qmm ≠ .sch) by simp only [ne_eq, hq], ← qbitPtr_exact pq]; exact s3) [0, 1] g
  rw [s1]
  refine ⟨e0, e1, ia, a1, b1, i1, ?_⟩
  have hs : (fun i j => conj (sigma j i)) = sigmaDag := by
    funext i j; simp only [sigma, sigmaDag]; split_ifs <;> simp_all
  rw [hs, modePtr_dim] at i3
  exact binary_simulates e0 e1 ia (by rw [a2]; norm_num) (by rw [b2]; exact h0) a3 b3 (by rw [a2, b2]; exact i3)

/-- A qbit with phase noise, asked for in Schrödinger picture, with a mode in interaction picture. -/
example : phaseNoisePicture ⟨-10, 2, 1, Complex.I⟩ .sch = .sch ↔ Picture.ip = .sch := by simp [phaseNoisePicture]

end CppQED.Interactions
