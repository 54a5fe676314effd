import Verif.Lemmas.ScriptSystems

/-!
# One particle in one mode: C127
-/

namespace CppQED.ScriptSys
open CppQED.Elem CppQED.Tridiag CppQED.ModeEl CppQED.Spec CppQED.Composite CppQED.Interactions CppQED.PTrace
open CppQED.MII (Idx)
open CppQED.Slice (Arr sliceBound)
open CppQED.ParticleEl (ModeFunction isComplex potE lightShift expE)
open ComplexConjugate

/-- The parameters of the mode are usable, and there is no Kerr nonlinearity. -/
def Usable (pm : ModeEl.Pars) : Prop := pm.cutoff < 2 ^ 63 ∧ 0 < pm.cutoff ∧ 0 ≤ pm.kappa ∧ 0 ≤ pm.nTh ∧ pm.omegaKerr = 0 ∧ pm.omegaKerrAlter = 0

theorem Usable.shifted {pm : ModeEl.Pars} (h : Usable pm) (pc : ParsAlong) : Usable (shifted pm pc) := h

theorem Usable.free {pm : ModeEl.Pars} (h : Usable pm) (qmp : Picture) : FreeOK (makePumpedLossy pm qmp) pm.cutoff (modePtr pm qmp).w (modeOf pm) (modeJ pm.kappa pm.nTh) :=
  mode_free pm h.1 h.2.1 h.2.2.1 h.2.2.2.1 h.2.2.2.2.1 h.2.2.2.2.2 qmp

theorem pumped_free (pp : ParticleEl.Pars) (hp : pp.fin < 63) (qmp : Picture) : FreeOK (ParticleEl.makePumped pp qmp) (2 ^ pp.fin) (part pp qmp).m (pumpedOf pp) [] := by
  rw [pumpedOf_eq]; exact pumpedParticle_free pp hp qmp

theorem unpumped_free (pp : ParticleEl.Pars) (hp : pp.fin < 63) (qmp : Picture) : FreeOK (ParticleEl.make pp qmp) (2 ^ pp.fin) (part pp qmp).m (particleOf pp) [] := particle_free pp hp qmp

theorem sim_congr {b : Bin} {H H' : Idx → Idx → ℂ} (h : BinSimulates b H) (he : ∀ i j, H i j = H' i j) : BinSimulates b H' := by
  rwa [show H' = H from funext fun i => funext fun j => (he i j).symm]

theorem picture_agrees (pm : ModeEl.Pars) (pp : ParticleEl.Pars) (qmp : Picture) : (modePtr pm qmp).exact.isSome = (part pp qmp).exact := by rw [modePtr_exact]; rfl

theorem part_exact {pp : ParticleEl.Pars} {qmp : Picture} (h : (part pp qmp).exact = true) : qmp ≠ .sch := by simpa [part] using h

/-- The interaction of a particle along the cavity, in the pictures where it is right. -/
theorem along_ok (pm : ModeEl.Pars) (hm : Usable pm) (pp : ParticleEl.Pars) (hp : pp.fin < 63) (pc : ParsAlong) (hn : 2 * pc.kCav ≤ 2 ^ pp.fin) (V : ℝ) (hUV : 0 ≤ pc.uNot * V) (qmp : Picture)
    (hx : qmp = .sch ∨ pc.kCav ≠ 0 ∧ (pc.uNot = 0 ∨ isComplex pc.modeCav = true)) (axes : List ℕ) :
    ∃ ia, along axes (modePtr pm qmp) (part pp qmp) pc V = .ok ia ∧ ia.axes = axes ∧
      Couples ia [pm.cutoff, 2 ^ pp.fin] [(modePtr pm qmp).w, (part pp qmp).m]
        (fun i j => lightShiftH pp.fin pc.uNot pc.mf i j + interferenceH pp.fin (scatteringAmplitude pc.uNot V) (waveFunction pc.mf) i j) := by
  obtain ⟨ia, i1, i2, i3⟩ := along_couples (p := part pp qmp) (modePtr pm qmp) (by rw [modePtr_dim]; exact hm.1) (by rw [modePtr_dim]; exact hm.2.1) hp pc.mf pc.uNot (scatteringAmplitude pc.uNot V)
    (by simpa [ParsAlong.mf, part] using hn) (fun _ => picture_agrees pm pp qmp)
    (fun h => (hx.resolve_left (part_exact h)).imp (fun h => by simpa [ParsAlong.mf] using h) id) axes
  rw [modePtr_dim] at i3
  exact ⟨ia, by unfold along; rw [etaEff_eq hUV]; exact i1, i2, i3⟩

/-- **C127.** Configuration 1, in all the pictures: a pumped particle moving orthogonally to the cavity. -/
theorem conf1_simulates (pm : ModeEl.Pars) (hm : Usable pm) (pp : ParticleEl.Pars) (hp : pp.fin < 63) (hn : pp.kPart ≤ 2 ^ pp.fin) (pc : ParsAlong) (sig : ℝ) (qmp : Picture)
    (hx : qmp ≠ .sch → pp.kPart ≠ 0) (hUV : 0 ≤ pc.uNot * pp.vClass) :
    ∃ b, oneParticleOneMode 1 pm pp pc sig qmp = .ok (.evolve b) ∧ BinSimulates b (conf1H pm pp pc.uNot) := by
  obtain ⟨e0, a1, a2, a3⟩ := hm.free qmp
  obtain ⟨e, c1, -, -⟩ := unpumped_free pp hp qmp
  obtain ⟨e1, b1, b2, b3⟩ := pumped_free pp hp qmp
  obtain ⟨ia, i1, -, i3⟩ := orthogonal_couples (p := part pp qmp) (modePtr pm qmp) (by rw [modePtr_dim]; exact hm.1) (by rw [modePtr_dim]; exact hm.2.1) hp
    ⟨pp.modePart, pp.kPart⟩ pp.vClass pc.uNot (by simpa [part] using hn) (picture_agrees pm pp qmp) (fun h => by simpa using hx (part_exact h)) hUV [0, 1]
  rw [modePtr_dim] at i3
  refine ⟨binary e0 e1 ia, ?_, sim_congr (binary_simulates e0 e1 ia (by rw [a2]; exact hm.2.1) (by rw [b2]; positivity) a3 b3 (by rw [a2, b2]; exact i3)) fun i j => rfl⟩
  unfold oneParticleOneMode
  simp only [ne_eq, not_true_eq_false, if_false, if_true, a1, b1, c1, Outcome.bind, i1]

/-- **C127.** Configuration 2: the particle moves along the cavity, which is pumped, or the particle scatters from a pump orthogonal to it. -/
theorem conf2_simulates (pm : ModeEl.Pars) (hm : Usable pm) (pp : ParticleEl.Pars) (hp : pp.fin < 63) (pc : ParsAlong) (hn : 2 * pc.kCav ≤ 2 ^ pp.fin) (sig : ℝ) (qmp : Picture)
    (hx : qmp = .sch ∨ pc.kCav ≠ 0 ∧ (pc.uNot = 0 ∨ isComplex pc.modeCav = true)) (hUV : 0 ≤ pc.uNot * pp.vClass) (hd : pm.eta ≠ 0 ∨ pp.vClass ≠ 0) (hs : sig ≠ 0) :
    ∃ b, oneParticleOneMode 2 pm pp pc sig qmp = .ok (.evolve b) ∧ BinSimulates b (conf2H pm pp pc.uNot pc.mf) := by
  obtain ⟨e0, a1, a2, a3⟩ := (hm.shifted pc).free qmp
  obtain ⟨e, c1, -, -⟩ := pumped_free pp hp qmp
  obtain ⟨e1, b1, b2, b3⟩ := unpumped_free pp hp qmp
  obtain ⟨ia, i1, -, i3⟩ := along_ok (shifted pm pc) (hm.shifted pc) pp hp pc hn pp.vClass hUV qmp hx [0, 1]
  refine ⟨binary e0 e1 ia, ?_, sim_congr (binary_simulates e0 e1 ia (by rw [a2]; exact hm.2.1) (by rw [b2]; positivity) a3 b3 (by rw [a2, b2]; exact i3)) fun i j => ?_⟩
  · unfold oneParticleOneMode
    have h : ¬ ((shifted pm pc).eta = 0 ∧ pp.vClass = 0) := fun h => hd.elim (fun k => k h.1) (fun k => k h.2)
    simp [a1, b1, c1, Outcome.bind, i1, h, hs]
  · unfold conf2H
    linear_combination shift_compensates pp.fin pm pc i j

/-- **C127.** Configuration 3 with the same wave numbers of the pump and of the cavity: both along the axis of the motion. -/
theorem conf3_simulates (pm : ModeEl.Pars) (hm : Usable pm) (pp : ParticleEl.Pars) (hp : pp.fin < 63) (pc : ParsAlong) (hn : 2 * pc.kCav ≤ 2 ^ pp.fin) (hk : pc.kCav = pp.kPart) (sig : ℝ) (qmp : Picture)
    (hx : qmp = .sch ∨ pc.kCav ≠ 0 ∧ (pc.modeCav = .plus ∧ pp.modePart = .minus ∨ pc.modeCav = .minus ∧ pp.modePart = .plus)) (hUV : 0 ≤ pc.uNot * pp.vClass) :
    ∃ b, oneParticleOneMode 3 pm pp pc sig qmp = .ok (.evolve b) ∧ BinSimulates b (conf3H pm pp pc.uNot pc.mf) := by
  obtain ⟨e0, a1, a2, a3⟩ := (hm.shifted pc).free qmp
  obtain ⟨e1, b1, b2, b3⟩ := pumped_free pp hp qmp
  obtain ⟨e, c1, -, -⟩ := unpumped_free pp hp qmp
  obtain ⟨ia, i1, -, i3⟩ := alongPumped_special_good (p := part pp qmp) (modePtr (shifted pm pc) qmp) (by rw [modePtr_dim]; exact hm.1) (by rw [modePtr_dim]; exact hm.2.1) hp pc.mf ⟨pp.modePart, pp.kPart⟩
    pc.uNot (scatteringAmplitude pc.uNot pp.vClass) (by simpa [ParsAlong.mf, part] using hn) (picture_agrees _ pp qmp)
    (fun h => by
      obtain ⟨h1, h2⟩ := hx.resolve_left (part_exact h)
      refine ⟨by simpa [ParsAlong.mf] using h1, Or.inr ?_⟩
      rcases h2 with ⟨h2, -⟩ | ⟨h2, -⟩ <;> simp [ParsAlong.mf, isComplex, h2])
    (fun _ T hT => by
      by_cases hq : qmp = .sch
      · have : (part pp qmp).exact = false := by simp [part, hq]
        exact ⟨fun h => by simp [this] at h, fun h => part_static T h⟩
      · obtain ⟨h1, h2⟩ := hx.resolve_left hq
        exact composition_good hp pc.kCav h1 hn pc.mf ⟨pp.modePart, pp.kPart⟩ rfl (by simp [hk]) h2 hT)
    (by simp [ParsAlong.mf, hk]) [0, 1]
  rw [modePtr_dim] at i3
  refine ⟨binary e0 e1 ia, ?_, sim_congr (binary_simulates e0 e1 ia (by rw [a2]; exact hm.2.1) (by rw [b2]; positivity) a3 b3 (by rw [a2, b2]; exact i3)) fun i j => ?_⟩
  · unfold oneParticleOneMode alongPumped
    rw [etaEff_eq hUV]
    simp [a1, b1, c1, Outcome.bind, withEta, i1]
  · unfold conf3H
    change tensor (modeOf (shifted pm pc)) one i j + tensor one (pumpedOf pp) i j + (lightShiftH pp.fin pc.uNot pc.mf i j + _) = _
    rw [show (part pp qmp).fin = pp.fin from rfl]
    linear_combination shift_compensates pp.fin pm pc i j

/-- **C127.** Configuration 3 with different wave numbers: the same with the product of the operators of the particle. -/
theorem conf3_general_simulates (pm : ModeEl.Pars) (hm : Usable pm) (pp : ParticleEl.Pars) (hp : pp.fin < 63) (pc : ParsAlong) (hn : 2 * pc.kCav ≤ 2 ^ pp.fin) (hn' : pp.kPart ≤ 2 ^ pp.fin)
    (hk : pc.kCav ≠ pp.kPart) (sig : ℝ) (qmp : Picture) (hx : qmp = .sch ∨ pc.kCav ≠ 0 ∧ (pc.uNot = 0 ∨ isComplex pc.modeCav = true)) (hUV : 0 ≤ pc.uNot * pp.vClass) :
    ∃ b, oneParticleOneMode 3 pm pp pc sig qmp = .ok (.evolve b) ∧ BinSimulates b (conf3MulH pm pp pc.uNot pc.mf) := by
  obtain ⟨e0, a1, a2, a3⟩ := (hm.shifted pc).free qmp
  obtain ⟨e1, b1, b2, b3⟩ := pumped_free pp hp qmp
  obtain ⟨e, c1, -, -⟩ := unpumped_free pp hp qmp
  obtain ⟨ia, i1, -, i3⟩ := alongPumped_general_couples (p := part pp qmp) (modePtr (shifted pm pc) qmp) (by rw [modePtr_dim]; exact hm.1) (by rw [modePtr_dim]; exact hm.2.1) hp pc.mf
    ⟨pp.modePart, pp.kPart⟩ pc.uNot (scatteringAmplitude pc.uNot pp.vClass) (by simpa [ParsAlong.mf, part] using hn) (by simpa [part] using hn') (picture_agrees _ pp qmp)
    (fun h => (hx.resolve_left (part_exact h)).imp (fun h => by simpa [ParsAlong.mf] using h) id) (by simpa [ParsAlong.mf] using hk) [0, 1]
  rw [modePtr_dim] at i3
  refine ⟨binary e0 e1 ia, ?_, sim_congr (binary_simulates e0 e1 ia (by rw [a2]; exact hm.2.1) (by rw [b2]; positivity) a3 b3 (by rw [a2, b2]; exact i3)) fun i j => ?_⟩
  · unfold oneParticleOneMode alongPumped
    rw [etaEff_eq hUV]
    simp [a1, b1, c1, Outcome.bind, withEta, i1]
  · unfold conf3MulH
    change tensor (modeOf (shifted pm pc)) one i j + tensor one (pumpedOf pp) i j + (lightShiftH pp.fin pc.uNot pc.mf i j + _) = _
    rw [show (part pp qmp).fin = pp.fin from rfl]
    linear_combination shift_compensates pp.fin pm pc i j

/-- **C127.** Configuration 4: the pump is merely a potential, whatever the sign of its depth. -/
theorem conf4_simulates (pm : ModeEl.Pars) (hm : Usable pm) (pp : ParticleEl.Pars) (hp : pp.fin < 63) (pc : ParsAlong) (hn : 2 * pc.kCav ≤ 2 ^ pp.fin) (sig : ℝ) (qmp : Picture)
    (hx : qmp = .sch ∨ pc.kCav ≠ 0 ∧ (pc.uNot = 0 ∨ isComplex pc.modeCav = true)) :
    ∃ b, oneParticleOneMode 4 pm pp pc sig qmp = .ok (.evolve b) ∧ BinSimulates b (conf4H pm pp pc.uNot pc.mf) := by
  obtain ⟨e0, a1, a2, a3⟩ := (hm.shifted pc).free qmp
  obtain ⟨e, c1, -, -⟩ := unpumped_free pp hp qmp
  obtain ⟨e1, b1, b2, b3⟩ := pumped_free pp hp qmp
  obtain ⟨ia, i1, -, i3⟩ := along_ok (shifted pm pc) (hm.shifted pc) pp hp pc hn 0 (by simp) qmp hx [0, 1]
  refine ⟨binary e0 e1 ia, ?_, sim_congr (binary_simulates e0 e1 ia (by rw [a2]; exact hm.2.1) (by rw [b2]; positivity) a3 b3 (by rw [a2, b2]; exact i3)) fun i j => ?_⟩
  · unfold oneParticleOneMode
    simp [a1, b1, c1, Outcome.bind, i1]
  · have h0 : interferenceH pp.fin (scatteringAmplitude pc.uNot 0) (waveFunction pc.mf) i j = 0 := by simp [interferenceH, scatteringAmplitude]
    rw [h0]
    unfold conf4H
    linear_combination shift_compensates pp.fin pm pc i j

/-- **C127.** Whatever else is given as configuration code ends the program, and so does configuration 2 without drive or without spread of the initial wave packet. -/
theorem exits (conf : ℤ) (pm : ModeEl.Pars) (hm : Usable pm) (pp : ParticleEl.Pars) (hp : pp.fin < 63) (pc : ParsAlong) (sig : ℝ) (qmp : Picture) :
    (¬(1 ≤ conf ∧ conf ≤ 4) ∨ conf = 2 ∧ (pm.eta = 0 ∧ pp.vClass = 0 ∨ sig = 0)) → oneParticleOneMode conf pm pp pc sig qmp = .ok .exit1 := by
  have mk : ∀ pm', Usable pm' → ∃ e0, makePumpedLossy pm' qmp = .ok e0 := fun pm' h => ⟨_, (h.free qmp).choose_spec.1⟩
  obtain ⟨e1, c1, -, -⟩ := unpumped_free pp hp qmp
  obtain ⟨e2, b1, -, -⟩ := pumped_free pp hp qmp
  obtain ⟨e0, a1⟩ := mk _ (hm.shifted pc)
  rintro (h | ⟨rfl, h⟩)
  · have h1 : conf ≠ 1 := by omega
    have h2 : conf ≠ 2 := by omega
    have h3 : conf ≠ 3 := by omega
    have h4 : conf ≠ 4 := by omega
    unfold oneParticleOneMode
    simp [h1, h2, h3, h4, a1, b1, c1, Outcome.bind]
  · unfold oneParticleOneMode
    rcases h with h | h
    · have h' : (shifted pm pc).eta = 0 ∧ pp.vClass = 0 := h
      simp [a1, b1, c1, Outcome.bind, h']
    · simp [a1, b1, c1, Outcome.bind, h]

/-- **C127.** Opposite signs of the light shift and of the depth of the pump: configurations 1, 2 and 3, where the particle scatters from the pump into the cavity, throw. -/
theorem sign_throws (conf : ℤ) (hc : conf = 1 ∨ conf = 2 ∨ conf = 3) (pm : ModeEl.Pars) (hm : Usable pm) (pp : ParticleEl.Pars) (hp : pp.fin < 63) (pc : ParsAlong) (sig : ℝ) (hs : sig ≠ 0) (qmp : Picture)
    (hUV : pc.uNot * pp.vClass < 0) : oneParticleOneMode conf pm pp pc sig qmp = .throw := by
  have mk : ∀ pm', Usable pm' → ∃ e0, makePumpedLossy pm' qmp = .ok e0 := fun pm' h => ⟨_, (h.free qmp).choose_spec.1⟩
  obtain ⟨e1, c1, -, -⟩ := unpumped_free pp hp qmp
  obtain ⟨e2, b1, -, -⟩ := pumped_free pp hp qmp
  obtain ⟨e0, a0⟩ := mk _ hm
  obtain ⟨e0', a1⟩ := mk _ (hm.shifted pc)
  have hv : pp.vClass ≠ 0 := by rintro h; simp [h] at hUV
  unfold oneParticleOneMode particleOrthogonalToCavity along alongPumped
  rw [etaEff_neg hUV]
  rcases hc with rfl | rfl | rfl <;> simp [a0, a1, b1, c1, Outcome.bind, withEta, hs, hv]

/-- A particle of 64 plane waves in a driven cavity with the mode function `sin x`, in Schrödinger picture: all the hypotheses of configuration 2 are met. -/
example : ∃ b, oneParticleOneMode 2 ⟨10, -10, 0, 0, 10, 0, 1⟩ ⟨6, 1, -10, 1, .cos⟩ ⟨-5, 1, .sin⟩ (1 / 2) .sch = .ok (.evolve b) ∧
    BinSimulates b (conf2H ⟨10, -10, 0, 0, 10, 0, 1⟩ ⟨6, 1, -10, 1, .cos⟩ (-5) ⟨.sin, 1⟩) :=
  conf2_simulates _ ⟨by norm_num, by norm_num, by norm_num, by norm_num, rfl, rfl⟩ _ (by norm_num) ⟨-5, 1, .sin⟩ (by norm_num) _ _ (Or.inl rfl) (by norm_num) (Or.inl (by norm_num)) (by norm_num)

/-- Travelling waves in the interaction picture. -/
example : ∃ b, oneParticleOneMode 3 ⟨10, -10, 0, 0, 10, 0, 1⟩ ⟨6, 1, -10, 1, .minus⟩ ⟨-5, 1, .plus⟩ (1 / 2) .ip = .ok (.evolve b) ∧
    BinSimulates b (conf3H ⟨10, -10, 0, 0, 10, 0, 1⟩ ⟨6, 1, -10, 1, .minus⟩ (-5) ⟨.plus, 1⟩) :=
  conf3_simulates _ ⟨by norm_num, by norm_num, by norm_num, by norm_num, rfl, rfl⟩ _ (by norm_num) ⟨-5, 1, .plus⟩ (by norm_num) rfl _ _ (Or.inr ⟨by norm_num, Or.inl ⟨rfl, rfl⟩⟩) (by norm_num)

end CppQED.ScriptSys
