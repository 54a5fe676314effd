import Verif.Model.ParticleScripts
import Verif.Spec.ParticleScripts
import Verif.Props.IdenticalParticles
import Verif.Props.CavityScripts
import Verif.Props.Correlations

/-!
# Two particles in the modes of a ring cavity, the correlation of their momenta: C151, C152; the ring cavity of the tutorial: C153
-/

namespace CppQED.ScriptSys
open CppQED.Elem CppQED.Tridiag CppQED.ModeEl CppQED.Spec CppQED.Composite CppQED.Interactions CppQED.PTrace CppQED.Slice
open CppQED.MII (Idx)
open CppQED.ParticleEl (ModeFunction isComplex)
open CppQED.CavScr (makeLossy_eq modePtr_eta)
open ComplexConjugate

/-! ## The system of two particles -/

theorem amplitude_square (U a : ℝ) (h : 0 ≤ a) : scatteringAmplitude U (U * a) = U * Real.sqrt a := by
  unfold scatteringAmplitude
  rw [← mul_assoc, Real.sqrt_mul (mul_self_nonneg U), Real.sqrt_mul_self_eq_abs]
  split_ifs with hU
  · rw [abs_of_neg hU]; ring
  · rw [abs_of_nonneg (not_lt.1 hU)]; ring

/-- The lossy mode which the script makes. -/
noncomputable def sineLossy (pm : ModeEl.Pars) (U : ℝ) : ModeEl.Pars := { sineMode pm U with eta := 0 }

theorem usable_sine {pm : ModeEl.Pars} (h : Usable pm) (U : ℝ) : Usable (sineLossy pm U) := h

/-- The parts of the system, the coupling `X` of a particle to the mode being a matter of the case. -/
theorem sine_of (pm : ModeEl.Pars) (hm : Usable pm) (pp : ParticleEl.Pars) (hp : pp.fin < 63) (U : ℝ) (kCav : ℕ) (a : ℝ) (qmp : Picture) (X : Idx → Idx → ℂ)
    (hX : ∃ ia, alongPumped [0, 1] (modePtr (sineMode pm U) qmp) (part pp qmp) ⟨pp.modePart, pp.kPart⟩ (U * a) ⟨U, kCav, .cos⟩ = .ok ia ∧ ia.li = none ∧
      Couples ia [pm.cutoff, 2 ^ pp.fin] [(modePtr (sineMode pm U) qmp).w, (part pp qmp).m] fun i j => lightShiftH pp.fin U ⟨.cos, kCav⟩ i j + X i j) :
    ∃ e0 e1 ia, sineSystem pm pp U kCav a qmp = .ok (composite [e0, e1, e1] [{ ia with axes := [0, 1] }, { ia with axes := [0, 2] }, identicalParticles [1, 2]]) ∧
      e0.dim = pm.cutoff ∧ e1.dim = 2 ^ pp.fin ∧ FreeIs e0 (modePtr (sineMode pm U) qmp).w (modeOf (sineLossy pm U)) (modeJ pm.kappa pm.nTh) ∧
      FreeIs e1 (part pp qmp).m (pumpedOf { pp with vClass := U * a }) [] ∧ ia.li = none ∧
      Couples ia [pm.cutoff, 2 ^ pp.fin] [(modePtr (sineMode pm U) qmp).w, (part pp qmp).m] fun i j => lightShiftH pp.fin U ⟨.cos, kCav⟩ i j + X i j := by
  obtain ⟨ia, i1, i2, i3⟩ := hX
  obtain ⟨e0, a1, a2, a3⟩ := (usable_sine hm U).free qmp
  obtain ⟨e1, b1, b2, b3⟩ := pumped_free (sinePart pp U a) hp qmp
  rw [show modePtr (sineLossy pm U) qmp = modePtr (sineMode pm U) qmp from modePtr_eta (sineMode pm U) 0 qmp] at a3
  refine ⟨e0, e1, ia, ?_, a2, b2, a3, b3, i2, i3⟩
  unfold sineSystem
  simp only []
  rw [makeLossy_eq, show makePumpedLossy { sineMode pm U with eta := 0 } qmp = .ok e0 from a1, b1]
  simp only [Outcome.bind]
  have : part (sinePart pp U a) qmp = part pp qmp := rfl
  rw [this]
  simp only [sinePart]
  rw [i1]
  rfl

theorem sine_hypotheses {w0 w1 : ℕ → ℂ} {d0 d1 : ℕ} {e0 e1 : Element} {ia : Part} (a2 : e0.dim = d0) (b2 : e1.dim = d1) {X : Idx → Idx → ℂ} (i3 : Couples ia [d0, d1] [w0, w1] X) :
    ∀ x ∈ [{ ia with axes := [0, 1] }, { ia with axes := [0, 2] }, identicalParticles [1, 2]], ValidAxes 3 x.axes ∧ 2 ≤ x.axes.length ∧
      Couples x (x.axes.map fun a => [e0.dim, e1.dim, e1.dim].getD a 0) (x.axes.map fun k => if k = 0 then w0 else w1) (if x.axes = [1, 2] then fun _ _ => 0 else X) := by
  simp only [List.mem_cons, List.not_mem_nil, or_false]
  rintro x (rfl | rfl | rfl)
  · refine ⟨⟨by simp, by simp, by simp⟩, by simp, ?_⟩
    simp [a2, b2]
    exact i3
  · refine ⟨⟨by simp, by simp, by simp⟩, by simp, ?_⟩
    simp [a2, b2]
    exact i3
  · refine ⟨⟨by simp [identicalParticles, interaction], by simp [identicalParticles, interaction], by simp [identicalParticles, interaction]⟩, by simp [identicalParticles, interaction], ?_⟩
    rw [if_pos (show (identicalParticles [1, 2]).axes = [1, 2] from rfl)]
    exact couples_none _ (fun _ _ _ _ => rfl) _

/-- The light shifts of the two particles together with the detuning of the script are the full ones with the detuning of the user. -/
theorem two_shifts (fin : ℕ) (pm : ModeEl.Pars) (U : ℝ) (kCav : ℕ) (i j : Idx) :
    tensor3 (modeOf (sineLossy pm U)) one one i j + lightShiftH fin U ⟨.cos, kCav⟩ (coords [0, 1] i) (coords [0, 1] j) * one (q i 2) (q j 2) +
        lightShiftH fin U ⟨.cos, kCav⟩ (coords [0, 2] i) (coords [0, 2] j) * one (q i 1) (q j 1) =
      tensor3 (modeOf { pm with eta := 0 }) one one i j + U * (tensor3 nOp (multiplication fin fun x => Complex.normSq (waveFunction ⟨.cos, kCav⟩ x)) one i j +
        tensor3 nOp one (multiplication fin fun x => Complex.normSq (waveFunction ⟨.cos, kCav⟩ x)) i j) / Complex.I := by
  let pc : ParsAlong := ⟨U, kCav, .cos⟩
  let pm1 : ModeEl.Pars := { shifted pm pc with eta := 0 }
  have e : sineLossy pm U = shifted pm1 pc := by
    have hc : isComplex ParticleEl.MFT.cos = false := by decide
    simp only [sineLossy, sineMode, shifted, pm1, pc, hc, Bool.false_eq_true, if_false]
    congr 1
    ring
  have e' : pm1 = shifted { pm with eta := 0 } pc := rfl
  have s1 := shift_compensates fin pm1 pc (coords [0, 1] i) (coords [0, 1] j)
  have s2 := shift_compensates fin { pm with eta := 0 } pc (coords [0, 2] i) (coords [0, 2] j)
  rw [← e] at s1
  rw [← e'] at s2
  have q1 : ∀ i : Idx, q (coords [0, 1] i) 0 = q i 0 ∧ q (coords [0, 1] i) 1 = q i 1 ∧ q (coords [0, 2] i) 0 = q i 0 ∧ q (coords [0, 2] i) 1 = q i 2 := fun i => ⟨rfl, rfl, rfl, rfl⟩
  simp only [tensor, fullShiftH, q1] at s1 s2
  have hpc : pc.mf = ⟨.cos, kCav⟩ := rfl
  have hu : pc.uNot = U := rfl
  rw [hpc, hu] at s1 s2
  simp only [tensor3]
  linear_combination one (q i 2) (q j 2) * s1 + one (q i 1) (q j 1) * s2

theorem sine_simulates_of {pm : ModeEl.Pars} (hm : Usable pm) {pp : ParticleEl.Pars} {U : ℝ} {kCav : ℕ} {a : ℝ} {w0 w1 : ℕ → ℂ} {X : Idx → Idx → ℂ} {e0 e1 : Element} {ia : Part} {J0 : List Dens}
    (a2 : e0.dim = pm.cutoff) (b2 : e1.dim = 2 ^ pp.fin) (a3 : FreeIs e0 w0 (modeOf (sineLossy pm U)) J0) (b3 : FreeIs e1 w1 (pumpedOf { pp with vClass := U * a }) [])
    (i3 : Couples ia [pm.cutoff, 2 ^ pp.fin] [w0, w1] fun i j => lightShiftH pp.fin U ⟨.cos, kCav⟩ i j + X i j) (H : Idx → Idx → ℂ)
    (hH : ∀ i j, H i j = tensor3 (modeOf { pm with eta := 0 }) one one i j + tensor3 one (pumpedOf { pp with vClass := U * a }) one i j + tensor3 one one (pumpedOf { pp with vClass := U * a }) i j +
      U * (tensor3 nOp (multiplication pp.fin fun x => Complex.normSq (waveFunction ⟨.cos, kCav⟩ x)) one i j + tensor3 nOp one (multiplication pp.fin fun x => Complex.normSq (waveFunction ⟨.cos, kCav⟩ x)) i j) / Complex.I +
      (X (coords [0, 1] i) (coords [0, 1] j) * one (q i 2) (q j 2) + X (coords [0, 2] i) (coords [0, 2] j) * one (q i 1) (q j 1))) :
    CompSimulates (composite [e0, e1, e1] [{ ia with axes := [0, 1] }, { ia with axes := [0, 2] }, identicalParticles [1, 2]]) H := by
  refine composite_simulates3 e0 e1 e1 _ (by rw [a2]; exact hm.2.1) (by rw [b2]; positivity) (by rw [b2]; positivity) (fun k => if k = 0 then w0 else w1) a3 b3 b3
    (fun x => if x.axes = [1, 2] then fun _ _ => 0 else fun i j => lightShiftH pp.fin U ⟨.cos, kCav⟩ i j + X i j) (sine_hypotheses a2 b2 i3) _ ?_
  intro i j hi hj h0
  simp only [List.map_cons, List.map_nil, List.sum_cons, List.sum_nil, identicalParticles, interaction]
  rw [if_neg (by simp : ¬ ([0, 1] : List ℕ) = [1, 2]), if_neg (by simp : ¬ ([0, 2] : List ℕ) = [1, 2]), if_pos trivial, extend3_missing [0, 1] 2 (by norm_num) (by simp; omega) _ h0,
    extend3_missing [0, 2] 1 (by norm_num) (by simp; omega) _ h0, extend3_missing [1, 2] 0 (by norm_num) (by simp; omega) _ h0, hH]
  linear_combination two_shifts pp.fin pm U kCav i j

theorem bind_ok {α β : Type} {x : Outcome α} {f : α → Outcome β} {b : β} (h : x.bind f = .ok b) : ∃ a, x = .ok a ∧ f a = .ok b := by
  cases x with
  | ok a => exact ⟨a, rfl, h⟩
  | throw => simp [Outcome.bind] at h
  | undef => simp [Outcome.bind] at h

theorem li_of_alongPumped {axes : List ℕ} {m : ModePtr} {p : ParticleEl.Part} {mf : ModeFunction} {V : ℝ} {pc : ParsAlong} {ia : Part} (h : alongPumped axes m p mf V pc = .ok ia) : ia.li = none := by
  unfold alongPumped at h
  cases he : etaEff pc.uNot V with
  | none => rw [he] at h; simp [withEta] at h
  | some η =>
    rw [he] at h
    simp only [withEta, particleAlongCavityPumped] at h
    obtain ⟨_, -, h⟩ := bind_ok h
    obtain ⟨_, -, h⟩ := bind_ok h
    obtain ⟨_, -, h⟩ := bind_ok h
    obtain ⟨_, -, h⟩ := bind_ok h
    obtain ⟨_, -, h⟩ := bind_ok h
    rw [← Outcome.ok.inj h]
    rfl

theorem sine_sign {U a : ℝ} (ha : 0 ≤ a) : 0 ≤ U * (U * a) := by rw [← mul_assoc]; exact mul_nonneg (mul_self_nonneg U) ha

/-- The coupling of a particle in Schrödinger picture, of the same wave number of its potential as that of the mode. -/
theorem sine_coupling (pm : ModeEl.Pars) (hm : Usable pm) (pp : ParticleEl.Pars) (hp : pp.fin < 63) (U : ℝ) (kCav : ℕ) (hn : 2 * kCav ≤ 2 ^ pp.fin) (hk : kCav = pp.kPart) (a : ℝ) (ha : 0 ≤ a) :
    ∃ ia, alongPumped [0, 1] (modePtr (sineMode pm U) .sch) (part pp .sch) ⟨pp.modePart, pp.kPart⟩ (U * a) ⟨U, kCav, .cos⟩ = .ok ia ∧ ia.li = none ∧
      Couples ia [pm.cutoff, 2 ^ pp.fin] [(modePtr (sineMode pm U) .sch).w, (part pp .sch).m] fun i j => lightShiftH pp.fin U ⟨.cos, kCav⟩ i j +
        interferenceH pp.fin (U * Real.sqrt a) (fun x => waveFunction ⟨.cos, kCav⟩ x * conj (waveFunction ⟨pp.modePart, pp.kPart⟩ x)) i j := by
  obtain ⟨ia, i1, -, i3⟩ := alongPumped_special_good (p := part pp .sch) (modePtr (sineMode pm U) .sch) (by rw [modePtr_dim]; exact hm.1) (by rw [modePtr_dim]; exact hm.2.1) hp ⟨.cos, kCav⟩ ⟨pp.modePart, pp.kPart⟩
    U (U * Real.sqrt a) (by simpa [part] using hn) (picture_agrees _ pp .sch) (fun h => absurd rfl (part_exact h))
    (fun _ T hT => ⟨fun h => by simp [part] at h, fun h => part_static T h⟩)
    (by simp [hk]) [0, 1]
  rw [modePtr_dim] at i3
  have i4 : alongPumped [0, 1] (modePtr (sineMode pm U) .sch) (part pp .sch) ⟨pp.modePart, pp.kPart⟩ (U * a) ⟨U, kCav, .cos⟩ = .ok ia := by
    unfold alongPumped
    rw [etaEff_eq (sine_sign ha), amplitude_square U a ha]
    exact i1
  exact ⟨ia, i4, li_of_alongPumped i4, i3⟩

/-- The same with different wave numbers. -/
theorem sine_coupling_general (pm : ModeEl.Pars) (hm : Usable pm) (pp : ParticleEl.Pars) (hp : pp.fin < 63) (U : ℝ) (kCav : ℕ) (hn : 2 * kCav ≤ 2 ^ pp.fin) (hn' : pp.kPart ≤ 2 ^ pp.fin) (hk : kCav ≠ pp.kPart) (a : ℝ)
    (ha : 0 ≤ a) :
    ∃ ia, alongPumped [0, 1] (modePtr (sineMode pm U) .sch) (part pp .sch) ⟨pp.modePart, pp.kPart⟩ (U * a) ⟨U, kCav, .cos⟩ = .ok ia ∧ ia.li = none ∧
      Couples ia [pm.cutoff, 2 ^ pp.fin] [(modePtr (sineMode pm U) .sch).w, (part pp .sch).m] fun i j => lightShiftH pp.fin U ⟨.cos, kCav⟩ i j +
        interferenceMulH pp.fin (U * Real.sqrt a) (waveFunction ⟨.cos, kCav⟩) (waveFunction ⟨pp.modePart, pp.kPart⟩) i j := by
  obtain ⟨ia, i1, -, i3⟩ := alongPumped_general_couples (p := part pp .sch) (modePtr (sineMode pm U) .sch) (by rw [modePtr_dim]; exact hm.1) (by rw [modePtr_dim]; exact hm.2.1) hp ⟨.cos, kCav⟩ ⟨pp.modePart, pp.kPart⟩
    U (U * Real.sqrt a) (by simpa [part] using hn) (by simpa [part] using hn') (picture_agrees _ pp .sch) (fun h => absurd rfl (part_exact h)) (by simpa using hk) [0, 1]
  rw [modePtr_dim] at i3
  have i4 : alongPumped [0, 1] (modePtr (sineMode pm U) .sch) (part pp .sch) ⟨pp.modePart, pp.kPart⟩ (U * a) ⟨U, kCav, .cos⟩ = .ok ia := by
    unfold alongPumped
    rw [etaEff_eq (sine_sign ha), amplitude_square U a ha]
    exact i1
  exact ⟨ia, i4, li_of_alongPumped i4, i3⟩

theorem coords_two (i : Idx) : q (coords [0, 1] i) 0 = q i 0 ∧ q (coords [0, 1] i) 1 = q i 1 ∧ q (coords [0, 2] i) 0 = q i 0 ∧ q (coords [0, 2] i) 1 = q i 2 := ⟨rfl, rfl, rfl, rfl⟩

/-- **C151.** In Schrödinger picture, the script 2ParticlesRingCavitySine simulates a lossy mode of the detuning given by the user and two particles in the potential of another mode in a coherent state, of the same wave
number, each of them with the full light shift of the mode and with the scattering between the two modes. -/
theorem sine_simulates (pm : ModeEl.Pars) (hm : Usable pm) (pp : ParticleEl.Pars) (hp : pp.fin < 63) (U : ℝ) (kCav : ℕ) (hn : 2 * kCav ≤ 2 ^ pp.fin) (hk : kCav = pp.kPart) (a : ℝ) (ha : 0 ≤ a) :
    ∃ c, sineSystem pm pp U kCav a .sch = .ok c ∧ CompSimulates c (sineH pm pp U kCav a) := by
  obtain ⟨e0, e1, ia, h1, a2, b2, a3, b3, -, i3⟩ := sine_of pm hm pp hp U kCav a .sch _ (sine_coupling pm hm pp hp U kCav hn hk a ha)
  refine ⟨_, h1, sine_simulates_of hm a2 b2 a3 b3 i3 _ fun i j => ?_⟩
  unfold sineH interferenceH
  simp only [tensor, tensor3, coords_two]
  ring

/-- **C151.** The same with different wave numbers. -/
theorem sine_general_simulates (pm : ModeEl.Pars) (hm : Usable pm) (pp : ParticleEl.Pars) (hp : pp.fin < 63) (U : ℝ) (kCav : ℕ) (hn : 2 * kCav ≤ 2 ^ pp.fin) (hn' : pp.kPart ≤ 2 ^ pp.fin) (hk : kCav ≠ pp.kPart) (a : ℝ)
    (ha : 0 ≤ a) : ∃ c, sineSystem pm pp U kCav a .sch = .ok c ∧ CompSimulates c (sineMulH pm pp U kCav a) := by
  obtain ⟨e0, e1, ia, h1, a2, b2, a3, b3, -, i3⟩ := sine_of pm hm pp hp U kCav a .sch _ (sine_coupling_general pm hm pp hp U kCav hn hn' hk a ha)
  refine ⟨_, h1, sine_simulates_of hm a2 b2 a3 b3 i3 _ fun i j => ?_⟩
  unfold sineMulH interferenceMulH
  simp only [tensor, tensor3, coords_two]
  ring

/-- **C151.** A negative square of the amplitude: the script throws, if there is any light shift. -/
theorem sine_throws (pm : ModeEl.Pars) (hm : Usable pm) (pp : ParticleEl.Pars) (hp : pp.fin < 63) (U : ℝ) (hU : U ≠ 0) (kCav : ℕ) (a : ℝ) (ha : a < 0) (qmp : Picture) : sineSystem pm pp U kCav a qmp = .throw := by
  obtain ⟨e0, a1, -⟩ := (usable_sine hm U).free qmp
  obtain ⟨e1, b1, -⟩ := pumped_free (sinePart pp U a) hp qmp
  have h : U * (U * a) < 0 := by rw [← mul_assoc]; exact mul_neg_of_pos_of_neg (mul_self_pos.2 hU) ha
  unfold sineSystem
  simp only []
  rw [makeLossy_eq, show makePumpedLossy { sineMode pm U with eta := 0 } qmp = .ok e0 from a1, b1]
  simp only [Outcome.bind, alongPumped, sinePart]
  rw [etaEff_neg h]
  simp only [withEta]

theorem sineH_invariant (pm : ModeEl.Pars) (pp : ParticleEl.Pars) (U : ℝ) (kCav : ℕ) (a : ℝ) : Invariant (sineH pm pp U kCav a) ∧ Invariant (sineMulH pm pp U kCav a) := by
  refine ⟨fun i j => ?_, fun i j => ?_⟩
  · unfold sineH
    simp only [tensor3, exchange_q]
    ring
  · unfold sineMulH
    simp only [tensor3, exchange_q]
    ring

theorem sine_kept_of {pm : ModeEl.Pars} (hm : Usable pm) {pp : ParticleEl.Pars} {U a : ℝ} {w0 w1 : ℕ → ℂ} {X : Idx → Idx → ℂ} {e0 e1 : Element} {ia : Part}
    (a2 : e0.dim = pm.cutoff) (b2 : e1.dim = 2 ^ pp.fin) (a3 : FreeIs e0 w0 (modeOf (sineLossy pm U)) (modeJ pm.kappa pm.nTh)) (b3 : FreeIs e1 w1 (pumpedOf { pp with vClass := U * a }) []) (hli : ia.li = none)
    (i3 : Couples ia [pm.cutoff, 2 ^ pp.fin] [w0, w1] X) {H : Idx → Idx → ℂ} (hH : Invariant H) {c : Comp}
    (hc : c = composite [e0, e1, e1] [{ ia with axes := [0, 1] }, { ia with axes := [0, 2] }, identicalParticles [1, 2]]) (hs : CompSimulates c H) :
    c.lb = lower [pm.cutoff, 2 ^ pp.fin, 2 ^ pp.fin] ∧ c.ub = upper [pm.cutoff, 2 ^ pp.fin, 2 ^ pp.fin] ∧
      ∀ (σ : ℂ) (psi psi' : Idx → ℂ), Relation.ReflTransGen (Happens c) psi psi' → HasSymmetry c.lb c.ub σ psi → HasSymmetry c.lb c.ub σ psi' := by
  have hlb : c.lb = lower [pm.cutoff, 2 ^ pp.fin, 2 ^ pp.fin] := by rw [hc]; simp [composite, lower]
  have hub : c.ub = upper [pm.cutoff, 2 ^ pp.fin, 2 ^ pp.fin] := by rw [hc]; simp [composite, upper, a2, b2]
  refine ⟨hlb, hub, fun σ psi psi' hr h => ?_⟩
  have hA : ∀ x ∈ [{ ia with axes := [0, 1] }, { ia with axes := [0, 2] }, identicalParticles [1, 2]], x.li = none := by
    simp only [List.mem_cons, List.not_mem_nil, or_false]
    rintro x (rfl | rfl | rfl)
    · exact hli
    · exact hli
    · rfl
  rw [hlb, hub, ← a2, ← b2] at h ⊢
  subst hc
  exact symmetry_kept_of e0 e1 _ (by rw [a2]; exact hm.2.1) (by rw [b2]; positivity) a3 b3 (by simp only [modeJ]; split_ifs <;> simp) hA _ (sine_hypotheses a2 b2 i3) hs hH σ psi psi' hr h

/-- **C151.** Whatever happens in a quantum trajectory of the script, bosons remain bosons and fermions remain fermions. -/
theorem sine_symmetry_kept (pm : ModeEl.Pars) (hm : Usable pm) (pp : ParticleEl.Pars) (hp : pp.fin < 63) (U : ℝ) (kCav : ℕ) (hn : 2 * kCav ≤ 2 ^ pp.fin) (hn' : pp.kPart ≤ 2 ^ pp.fin) (a : ℝ) (ha : 0 ≤ a) :
    ∃ c, sineSystem pm pp U kCav a .sch = .ok c ∧ c.lb = lower [pm.cutoff, 2 ^ pp.fin, 2 ^ pp.fin] ∧ c.ub = upper [pm.cutoff, 2 ^ pp.fin, 2 ^ pp.fin] ∧
      ∀ (σ : ℂ) (psi psi' : Idx → ℂ), Relation.ReflTransGen (Happens c) psi psi' → HasSymmetry c.lb c.ub σ psi → HasSymmetry c.lb c.ub σ psi' := by
  by_cases hk : kCav = pp.kPart
  · obtain ⟨c, h1, hs⟩ := sine_simulates pm hm pp hp U kCav hn hk a ha
    obtain ⟨e0, e1, ia, h1', a2, b2, a3, b3, hli, i3⟩ := sine_of pm hm pp hp U kCav a .sch _ (sine_coupling pm hm pp hp U kCav hn hk a ha)
    exact ⟨c, h1, sine_kept_of hm a2 b2 a3 b3 hli i3 (sineH_invariant pm pp U kCav a).1 (by rw [h1] at h1'; exact Outcome.ok.inj h1') hs⟩
  · obtain ⟨c, h1, hs⟩ := sine_general_simulates pm hm pp hp U kCav hn hn' hk a ha
    obtain ⟨e0, e1, ia, h1', a2, b2, a3, b3, hli, i3⟩ := sine_of pm hm pp hp U kCav a .sch _ (sine_coupling_general pm hm pp hp U kCav hn hn' hk a ha)
    exact ⟨c, h1, sine_kept_of hm a2 b2 a3 b3 hli i3 (sineH_invariant pm pp U kCav a).2 (by rw [h1] at h1'; exact Outcome.ok.inj h1') hs⟩

/-! ## The initial state -/

/-- The two states are different. -/
def Different (d : ℕ) (s1 s2 : ℕ → ℂ) : Prop := ∃ n < d, ∃ m < d, s1 n * s2 m ≠ s2 n * s1 m

/-- The product with the state of the mode has the symmetry of the state of the particles. -/
theorem product_symmetry {d0 d : ℕ} {σ : ℂ} {psi : ℕ → ℕ → ℂ} (h : ∀ n < d, ∀ m < d, psi m n = σ * psi n m) (a : ℕ → ℂ) :
    HasSymmetry (lower [d0, d, d]) (upper [d0, d, d]) σ fun i => a (q i 0) * psi (q i 1) (q i 2) := by
  intro i hi
  obtain ⟨x, y, z, rfl, -, hy, hz⟩ := inBox3.1 hi
  simp only [exchange_q]
  rw [h _ (by simp [q]; omega) _ (by simp [q]; omega)]
  ring

theorem norm_ne_zero {d1 d2 : ℕ} {s : ℕ → ℕ → ℂ} : Real.sqrt (∑ n ∈ Finset.range d1, ∑ m ∈ Finset.range d2, Complex.normSq (s n m)) ≠ 0 ↔ ∃ n < d1, ∃ m < d2, s n m ≠ 0 := by
  have nn : 0 ≤ ∑ n ∈ Finset.range d1, ∑ m ∈ Finset.range d2, Complex.normSq (s n m) := Finset.sum_nonneg fun n _ => Finset.sum_nonneg fun m _ => Complex.normSq_nonneg _
  rw [Ne, Real.sqrt_eq_zero nn, Finset.sum_eq_zero_iff_of_nonneg fun n _ => Finset.sum_nonneg fun m _ => Complex.normSq_nonneg _]
  constructor
  · intro h
    by_contra hc
    refine h fun n hn => Finset.sum_eq_zero fun m hm => ?_
    by_contra hz
    exact hc ⟨n, Finset.mem_range.1 hn, m, Finset.mem_range.1 hm, fun e => hz (by rw [e, map_zero])⟩
  · rintro ⟨n, hn, m, hm, hz⟩ h
    have := (Finset.sum_eq_zero_iff_of_nonneg fun m _ => Complex.normSq_nonneg (s n m)).1 (h n (Finset.mem_range.2 hn)) m (Finset.mem_range.2 hm)
    exact hz (Complex.normSq_eq_zero.1 this)

theorem normalised_div {d1 d2 : ℕ} {s : ℕ → ℕ → ℂ} (h : Real.sqrt (∑ n ∈ Finset.range d1, ∑ m ∈ Finset.range d2, Complex.normSq (s n m)) ≠ 0) :
    Normalised2 d1 d2 fun n m => s n m / (Real.sqrt (∑ n ∈ Finset.range d1, ∑ m ∈ Finset.range d2, Complex.normSq (s n m)) : ℝ) := by
  unfold Normalised2
  have nn : 0 ≤ ∑ n ∈ Finset.range d1, ∑ m ∈ Finset.range d2, Complex.normSq (s n m) := Finset.sum_nonneg fun n _ => Finset.sum_nonneg fun m _ => Complex.normSq_nonneg _
  simp only [map_div₀, Complex.normSq_ofReal, Real.mul_self_sqrt nn, ← Finset.sum_div]
  exact div_self fun h0 => h (by rw [h0, Real.sqrt_zero])

/-- The symmetrised product of states which are not zero is not zero. -/
theorem symmetric_ne_zero {d : ℕ} {s1 s2 : ℕ → ℂ} (h1 : ∃ n < d, s1 n ≠ 0) (h2 : ∃ n < d, s2 n ≠ 0) : ∃ n < d, ∃ m < d, s1 n * s2 m + s2 n * s1 m ≠ 0 := by
  by_contra hc
  push Not at hc
  obtain ⟨n, hn, a⟩ := h1
  obtain ⟨m, hm, b⟩ := h2
  have e1 := hc n hn n hn
  have b' : s2 n = 0 := by
    have : 2 * s1 n * s2 n = 0 := by linear_combination e1
    rcases mul_eq_zero.1 this with h | h
    · exact absurd h (mul_ne_zero two_ne_zero a)
    · exact h
  have e2 := hc n hn m hm
  rw [b', zero_mul, add_zero] at e2
  exact (mul_ne_zero a b) e2

/-- **C151.** The initial state of bosons is normalised, symmetric and proportional to `|1⟩|2⟩+|2⟩|1⟩`, whatever the states of the two particles are. -/
theorem sineState_bosons (fermions : Bool) (d : ℕ) (s1 s2 : ℕ → ℂ) (h1 : ∃ n < d, s1 n ≠ 0) (h2 : ∃ n < d, s2 n ≠ 0) :
    ∃ psi, sineState true fermions d d s1 s2 = .ok psi ∧ Normalised2 d d psi ∧ (∀ n m, psi m n = 1 * psi n m) ∧ ∃ c : ℝ, 0 < c ∧ ∀ n m, psi n m = c * (s1 n * s2 m + s2 n * s1 m) := by
  have hz := norm_ne_zero.2 (symmetric_ne_zero h1 h2)
  unfold sineState sineProducts
  simp only [if_true, Outcome.bind]
  rw [if_neg hz]
  refine ⟨_, rfl, normalised_div hz, fun n m => ?_, (Real.sqrt (∑ n ∈ Finset.range d, ∑ m ∈ Finset.range d, Complex.normSq (s1 n * s2 m + s2 n * s1 m)))⁻¹, ?_, fun n m => ?_⟩
  · ring
  · exact inv_pos.2 (lt_of_le_of_ne (Real.sqrt_nonneg _) (Ne.symm hz))
  · push_cast; ring

/-- **C151.** The initial state of fermions in different states is normalised, antisymmetric and proportional to `|1⟩|2⟩-|2⟩|1⟩`. -/
theorem sineState_fermions (d : ℕ) (s1 s2 : ℕ → ℂ) (h : Different d s1 s2) :
    ∃ psi, sineState false true d d s1 s2 = .ok psi ∧ Normalised2 d d psi ∧ (∀ n m, psi m n = -1 * psi n m) ∧ ∃ c : ℝ, 0 < c ∧ ∀ n m, psi n m = c * (s1 n * s2 m - s2 n * s1 m) := by
  have hz := norm_ne_zero (d1 := d) (d2 := d) (s := fun n m => s1 n * s2 m - s2 n * s1 m).2 (by obtain ⟨n, hn, m, hm, hh⟩ := h; exact ⟨n, hn, m, hm, sub_ne_zero.2 hh⟩)
  unfold sineState sineProducts
  simp only [if_true, Outcome.bind, Bool.false_eq_true, if_false]
  rw [if_neg hz]
  refine ⟨_, rfl, normalised_div hz, fun n m => ?_, (Real.sqrt (∑ n ∈ Finset.range d, ∑ m ∈ Finset.range d, Complex.normSq (s1 n * s2 m - s2 n * s1 m)))⁻¹, ?_, fun n m => ?_⟩
  · ring
  · exact inv_pos.2 (lt_of_le_of_ne (Real.sqrt_nonneg _) (Ne.symm hz))
  · push_cast; ring

/-- **C151.** Distinguishable particles: the initial state is the normalised product. -/
theorem sineState_product (d1 d2 : ℕ) (s1 s2 : ℕ → ℂ) (h1 : ∃ n < d1, s1 n ≠ 0) (h2 : ∃ n < d2, s2 n ≠ 0) :
    ∃ psi, sineState false false d1 d2 s1 s2 = .ok psi ∧ Normalised2 d1 d2 psi ∧ ∃ c : ℝ, 0 < c ∧ ∀ n m, psi n m = c * (s1 n * s2 m) := by
  have hz := norm_ne_zero (d1 := d1) (d2 := d2) (s := fun n m => s1 n * s2 m).2 (by obtain ⟨n, hn, a⟩ := h1; obtain ⟨m, hm, b⟩ := h2; exact ⟨n, hn, m, hm, mul_ne_zero a b⟩)
  unfold sineState sineProducts
  simp only [Outcome.bind, Bool.false_eq_true, if_false]
  rw [if_neg hz]
  refine ⟨_, rfl, normalised_div hz, (Real.sqrt (∑ n ∈ Finset.range d1, ∑ m ∈ Finset.range d2, Complex.normSq (s1 n * s2 m)))⁻¹, ?_, fun n m => ?_⟩
  · exact inv_pos.2 (lt_of_le_of_ne (Real.sqrt_nonneg _) (Ne.symm hz))
  · push_cast; ring

/-- **C152, violated.** The initial state of fermions is a state exactly if the two given states are not proportional; otherwise (in particular with the default parameters, where they are the same) the normalisation
divides zero by zero, and the trajectory is started without any message. Missing for the full claim: an exception, as the script throws for other parameters without meaning. -/
theorem sineState_fermions_partial (d : ℕ) (s1 s2 : ℕ → ℂ) : (∃ psi, sineState false true d d s1 s2 = .ok psi) ↔ Different d s1 s2 := by
  constructor
  · rintro ⟨psi, h⟩
    unfold sineState sineProducts at h
    simp only [if_true, Outcome.bind, Bool.false_eq_true, if_false] at h
    split_ifs at h with hz
    obtain ⟨n, hn, m, hm, hh⟩ := norm_ne_zero.1 hz
    exact ⟨n, hn, m, hm, sub_ne_zero.1 hh⟩
  · intro h
    obtain ⟨psi, h, -⟩ := sineState_fermions d s1 s2 h
    exact ⟨psi, h⟩

theorem sineState_same_partial (d : ℕ) (s : ℕ → ℂ) : sineState false true d d s s = .undef := by
  unfold sineState sineProducts
  simp [Outcome.bind]

/-! ## The correlation of the momenta -/

theorem foldl_add_sum (f : ℕ → ℝ) (l : ℕ) (x : ℝ) : (List.range l).foldl (fun s n => s + f n) x = x + ∑ n ∈ Finset.range l, f n := by
  induction l with
  | zero => simp
  | succ l ih => rw [List.range_succ, List.foldl_append, ih, Finset.sum_range_succ]; simp [add_assoc]

/-- **C151.** The displayed average is the expectation value of the product of the momenta of the two particles. -/
theorem momentumCorrelation_spec (m : Corr.LDO2) (hρ : (Spec.state2 m).IsHermitian) (fin0 fin1 : ℕ) (h0 : m.dim0 = 2 ^ fin0) (h1 : m.dim1 = 2 ^ fin1) :
    (momentumCorrelation m : ℂ) = (Matrix.kroneckerMap (fun x y => x * y) (mat m.dim0 (momentumOp fin0)) (mat m.dim1 (momentumOp fin1)) * Spec.state2 m).trace := by
  have e := Corr.T_eq m (momentumOp fin0) (momentumOp fin1)
  unfold Corr.T at e
  rw [e]
  have hr : ∀ n < m.dim0, ∀ k < m.dim1, ((m.index n k n k).re : ℂ) = m.index n k n k := by
    intro n hn k hk
    have := congrFun (congrFun hρ (⟨n, hn⟩, ⟨k, hk⟩)) (⟨n, hn⟩, ⟨k, hk⟩)
    simp only [Matrix.conjTranspose_apply, Spec.state2, Matrix.of_apply] at this
    exact Complex.conj_eq_iff_re.1 this
  unfold momentumCorrelation
  simp only [foldl_add_sum, zero_add, momentumOp, ite_mul, zero_mul]
  push_cast
  refine Finset.sum_congr rfl fun n hn => ?_
  rw [Finset.sum_eq_single_of_mem n hn fun b _ hb => if_neg (Ne.symm hb), if_pos rfl, Finset.mul_sum]
  refine Finset.sum_congr rfl fun k hk => ?_
  rw [Finset.sum_eq_single_of_mem k hk fun b _ hb => if_neg (Ne.symm hb), if_pos rfl, hr n (Finset.mem_range.1 hn) k (Finset.mem_range.1 hk), h0, h1]
  simp only [waveNumber]
  push_cast
  ring

/-! ## The ring cavity of the tutorial -/

/-- What `Ring` would be given to be the same. -/
theorem tutorialRing_eq (pp : ParticleEl.Pars) (pmP pmM : ModeEl.Pars) (pcP pcM : ParsAlong) (qmp : Picture) :
    tutorialRing pp pmP pmM pcP pcM qmp = ring pp { detunedBy pmP (pcP.uNot / (if isComplex pcP.modeCav then 1 else 2)) with eta := 0 } (detunedBy pmM (pcM.uNot / (if isComplex pcM.modeCav then 1 else 2))) pcP pcM qmp := by
  have hP : shifted { detunedBy pmP (pcP.uNot / (if isComplex pcP.modeCav then 1 else 2)) with eta := 0 } pcP = { pmP with eta := 0 } := by
    simp [shifted, detunedBy]
  have hM : shifted (detunedBy pmM (pcM.uNot / (if isComplex pcM.modeCav then 1 else 2))) pcM = pmM := by
    simp [shifted, detunedBy]
  unfold tutorialRing ring
  simp only []
  rw [hP, hM, makeLossy_eq, modePtr_eta pmP 0 qmp]

/-- **C153.** The script tutorialCompositeRing simulates a particle in a ring cavity, one mode of which is pumped, as does `Ring` – but the detunings given by the user are those with the light shift: the modes are
detuned by `δ+U`. -/
theorem tutorialRing_simulates (pp : ParticleEl.Pars) (hp : pp.fin < 63) (pmP pmM : ModeEl.Pars) (hmP : Usable pmP) (hmM : Usable pmM) (pcP pcM : ParsAlong) (hk : pcP.kCav = pcM.kCav) (h0 : pcP.kCav ≠ 0)
    (hn : 2 * pcP.kCav ≤ 2 ^ pp.fin) (qmp : Picture) (hcP : pcP.modeCav = .plus) (hcM : pcM.modeCav = .minus) (hU : 0 ≤ pcP.uNot * pcM.uNot) :
    ∃ c, tutorialRing pp pmP pmM pcP pcM qmp = .ok c ∧
      CompSimulates c (ringH pp { detunedBy pmP pcP.uNot with eta := 0 } (detunedBy pmM pcM.uNot) pcP.uNot pcM.uNot pcP.mf pcM.mf) := by
  rw [tutorialRing_eq]
  have cP : isComplex pcP.modeCav = true := by rw [hcP]; decide
  have cM : isComplex pcM.modeCav = true := by rw [hcM]; decide
  rw [cP, cM]
  simp only [if_true, div_one]
  exact ring_simulates pp hp { detunedBy pmP pcP.uNot with eta := 0 } (detunedBy pmM pcM.uNot) hmP hmM pcP pcM hk hn qmp (Or.inr ⟨h0, Or.inl ⟨hcP, hcM⟩⟩) hU

/-- **C153.** Light shifts of opposite sign: the script throws. -/
theorem tutorialRing_throws (pp : ParticleEl.Pars) (hp : pp.fin < 63) (pmP pmM : ModeEl.Pars) (hmP : Usable pmP) (hmM : Usable pmM) (pcP pcM : ParsAlong) (h0 : pcP.kCav ≠ 0) (h1 : pcM.kCav ≠ 0)
    (hnP : 2 * pcP.kCav ≤ 2 ^ pp.fin) (hnM : 2 * pcM.kCav ≤ 2 ^ pp.fin) (qmp : Picture) (hcP : pcP.modeCav = .plus) (hcM : pcM.modeCav = .minus) (hU : pcP.uNot * pcM.uNot < 0) :
    tutorialRing pp pmP pmM pcP pcM qmp = .throw := by
  rw [tutorialRing_eq]
  exact ring_throws pp hp { detunedBy pmP (pcP.uNot / (if isComplex pcP.modeCav then 1 else 2)) with eta := 0 } (detunedBy pmM (pcM.uNot / (if isComplex pcM.modeCav then 1 else 2))) hmP hmM pcP pcM hnP hnM qmp (Or.inr ⟨h0, h1, by rw [hcP]; decide, by rw [hcM]; decide⟩) hU

/-! ## Cases which meet the hypotheses -/

theorem aMode_ok : Usable ⟨10, -10, 0, 0, 10, 0, 0⟩ := ⟨by norm_num, by norm_num, by norm_num, by norm_num, rfl, rfl⟩

/-- The default parameters, in Schrödinger picture. -/
example : ∃ c, sineSystem ⟨10, -10, 0, 0, 10, 0, 0⟩ ⟨6, 1, -10, 1, .sin⟩ (-1) 1 1 .sch = .ok c ∧ CompSimulates c (sineH ⟨10, -10, 0, 0, 10, 0, 0⟩ ⟨6, 1, -10, 1, .sin⟩ (-1) 1 1) :=
  sine_simulates _ aMode_ok _ (by norm_num) _ _ (by norm_num) rfl _ (by norm_num)

example : ∃ c, sineSystem ⟨10, -10, 0, 0, 10, 0, 0⟩ ⟨6, 1, -10, 1, .sin⟩ (-1) 2 1 .sch = .ok c ∧ CompSimulates c (sineMulH ⟨10, -10, 0, 0, 10, 0, 0⟩ ⟨6, 1, -10, 1, .sin⟩ (-1) 2 1) :=
  sine_general_simulates _ aMode_ok _ (by norm_num) _ _ (by norm_num) (by norm_num) (by norm_num) _ (by norm_num)

example : sineSystem ⟨10, -10, 0, 0, 10, 0, 0⟩ ⟨6, 1, -10, 1, .sin⟩ (-1) 1 (-1) .ip = .throw := sine_throws _ aMode_ok _ (by norm_num) _ (by norm_num) _ _ (by norm_num) _

/-- Two fermions of different momenta: their state is antisymmetric, and remains so. -/
example : ∃ psi c, sineState false true 64 64 (fun n => if n = 32 then 1 else 0) (fun n => if n = 33 then 1 else 0) = .ok psi ∧ sineSystem ⟨10, -10, 0, 0, 10, 0, 0⟩ ⟨6, 1, -10, 1, .sin⟩ (-1) 1 1 .sch = .ok c ∧
    ∀ psi', Relation.ReflTransGen (Happens c) (fun i => (if q i 0 = 0 then 1 else 0) * psi (q i 1) (q i 2)) psi' → HasSymmetry (lower [10, 64, 64]) (upper [10, 64, 64]) (-1) psi' := by
  obtain ⟨psi, h1, -, h2, -⟩ := sineState_fermions 64 (fun n => if n = 32 then 1 else 0) (fun n => if n = 33 then 1 else 0) ⟨32, by norm_num, 33, by norm_num, by norm_num⟩
  obtain ⟨c, h3, h4, h5, h6⟩ := sine_symmetry_kept ⟨10, -10, 0, 0, 10, 0, 0⟩ aMode_ok ⟨6, 1, -10, 1, .sin⟩ (by norm_num) (-1) 1 (by norm_num) (by norm_num) 1 (by norm_num)
  rw [h4, h5] at h6
  refine ⟨psi, c, h1, h3, fun psi' hr => h6 (-1) _ psi' hr ?_⟩
  exact product_symmetry (fun n _ m _ => h2 n m) fun n => if n = 0 then 1 else 0

/-- Two bosons in the same state. -/
example : ∃ psi, sineState true false 2 2 (fun _ => 1) (fun _ => 1) = .ok psi ∧ Normalised2 2 2 psi := by
  obtain ⟨psi, h1, h2, -⟩ := sineState_bosons false 2 (fun _ => 1) (fun _ => 1) ⟨0, by norm_num, by norm_num⟩ ⟨0, by norm_num, by norm_num⟩
  exact ⟨psi, h1, h2⟩

/-- Both of two particles at the wave number `-1`: the correlation is one. -/
example : (momentumCorrelation ⟨2, 2, fun i j k l => if i = 0 ∧ j = 0 ∧ k = 0 ∧ l = 0 then 1 else 0⟩ : ℝ) = 1 := by
  norm_num [momentumCorrelation, List.range_succ]

example : ∃ c, tutorialRing ⟨6, 1, -10, 1, .sin⟩ ⟨10, -10, 0, 0, 10, 0, 0⟩ ⟨10, -10, 0, 0, 10, 0, 1⟩ ⟨-1, 1, .plus⟩ ⟨-1, 1, .minus⟩ .ip = .ok c ∧
    CompSimulates c (ringH ⟨6, 1, -10, 1, .sin⟩ { detunedBy ⟨10, -10, 0, 0, 10, 0, 0⟩ (-1) with eta := 0 } (detunedBy ⟨10, -10, 0, 0, 10, 0, 1⟩ (-1)) (-1) (-1) ⟨.plus, 1⟩ ⟨.minus, 1⟩) :=
  tutorialRing_simulates _ (by norm_num) _ _ aMode_ok ⟨by norm_num, by norm_num, by norm_num, by norm_num, rfl, rfl⟩ ⟨-1, 1, .plus⟩ ⟨-1, 1, .minus⟩ rfl (by norm_num) (by norm_num) _ rfl rfl (by norm_num)

end CppQED.ScriptSys
