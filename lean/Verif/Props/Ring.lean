import Verif.Props.ScriptSystems
import Verif.Lemmas.Tensor3

/-!
# A particle in a ring cavity: C129
-/

namespace CppQED.ScriptSys
open CppQED.Elem CppQED.Tridiag CppQED.ModeEl CppQED.Spec CppQED.Composite CppQED.Interactions CppQED.PTrace
open CppQED.MII (Idx)
open CppQED.ParticleEl (ModeFunction isComplex)
open ComplexConjugate

/-- The frequencies of the constituents of the ring. -/
noncomputable def ringW (pp : ParticleEl.Pars) (pmP pmM : ModeEl.Pars) (qmp : Picture) : ℕ → ℕ → ℂ
  | 0 => (part pp qmp).m
  | 1 => (modePtr pmP qmp).w
  | _ => (modePtr pmM qmp).w

/-- What is common to the cases: the third interaction is a matter of the case. -/
theorem ring_of (pp : ParticleEl.Pars) (hp : pp.fin < 63) (pmP pmM : ModeEl.Pars) (hmP : Usable pmP) (hmM : Usable pmM) (pcP pcM : ParsAlong) (hnP : 2 * pcP.kCav ≤ 2 ^ pp.fin)
    (hnM : 2 * pcM.kCav ≤ 2 ^ pp.fin) (qmp : Picture) (hxP : qmp = .sch ∨ pcP.kCav ≠ 0 ∧ (pcP.uNot = 0 ∨ isComplex pcP.modeCav = true))
    (hxM : qmp = .sch ∨ pcM.kCav ≠ 0 ∧ (pcM.uNot = 0 ∨ isComplex pcM.modeCav = true)) (T : Idx → Idx → ℂ)
    (hT : ∃ ia, particleTwoModes [1, 2, 0] (modePtr (shifted pmP pcP) qmp) (modePtr (shifted pmM pcM) qmp) (part pp qmp) pcP.uNot pcM.uNot pcP.mf pcM.mf 0 = .ok ia ∧ ia.axes = [1, 2, 0] ∧
      Couples ia [pmP.cutoff, pmM.cutoff, 2 ^ pp.fin] [(modePtr (shifted pmP pcP) qmp).w, (modePtr (shifted pmM pcM) qmp).w, (part pp qmp).m] T) :
    ∃ c, ring pp pmP pmM pcP pcM qmp = .ok c ∧ CompSimulates c fun i j =>
      tensor3 (particleOf pp) one one i j + tensor3 one (modeOf pmP) one i j + tensor3 one one (modeOf pmM) i j +
        pcP.uNot * tensor3 (multiplication pp.fin fun x => Complex.normSq (waveFunction pcP.mf x)) nOp one i j / Complex.I +
        pcM.uNot * tensor3 (multiplication pp.fin fun x => Complex.normSq (waveFunction pcM.mf x)) one nOp i j / Complex.I + T (coords [1, 2, 0] i) (coords [1, 2, 0] j) := by
  obtain ⟨e0, a1, a2, a3⟩ := unpumped_free pp hp qmp
  obtain ⟨e1, b1, b2, b3⟩ := (hmP.shifted pcP).free qmp
  obtain ⟨e2, c1, c2, c3⟩ := (hmM.shifted pcM).free qmp
  obtain ⟨iaP, p1, p2, p3⟩ := along_ok (shifted pmP pcP) (hmP.shifted pcP) pp hp pcP hnP 0 (by simp) qmp hxP [1, 0]
  obtain ⟨iaM, m1, m2, m3⟩ := along_ok (shifted pmM pcM) (hmM.shifted pcM) pp hp pcM hnM 0 (by simp) qmp hxM [2, 0]
  obtain ⟨ia, t1, t2, t3⟩ := hT
  have zP : ∀ i j, interferenceH pp.fin (scatteringAmplitude pcP.uNot 0) (waveFunction pcP.mf) i j = 0 := fun i j => by simp [interferenceH, scatteringAmplitude]
  have zM : ∀ i j, interferenceH pp.fin (scatteringAmplitude pcM.uNot 0) (waveFunction pcM.mf) i j = 0 := fun i j => by simp [interferenceH, scatteringAmplitude]
  simp only [zP, add_zero] at p3
  simp only [zM, add_zero] at m3
  refine ⟨composite [e0, e1, e2] [iaP, iaM, ia], ?_, ?_⟩
  · unfold ring
    simp only [a1, b1, c1, Outcome.bind, p1, m1, t1]
  refine composite_simulates3 e0 e1 e2 _ (by rw [a2]; positivity) (by rw [b2]; exact hmP.2.1) (by rw [c2]; exact hmM.2.1) (ringW pp (shifted pmP pcP) (shifted pmM pcM) qmp) a3 b3 c3
    (fun x => if x.axes = [1, 0] then lightShiftH pp.fin pcP.uNot pcP.mf else if x.axes = [2, 0] then lightShiftH pp.fin pcM.uNot pcM.mf else T) ?_ _ ?_
  · simp only [List.mem_cons, List.not_mem_nil, or_false]
    rintro x (rfl | rfl | rfl)
    · rw [p2]
      refine ⟨⟨by simp, by decide, by decide⟩, by simp, ?_⟩
      simpa [b2, a2, ringW] using p3
    · rw [m2]
      refine ⟨⟨by simp, by decide, by decide⟩, by simp, ?_⟩
      simpa [c2, a2, ringW] using m3
    · rw [t2]
      refine ⟨⟨by simp, by decide, by decide⟩, by simp, ?_⟩
      simpa [c2, b2, a2, ringW, modePtr_shifted_dim] using t3
  · intro i j hi hj h0
    simp only [List.map_cons, List.map_nil, List.sum_cons, List.sum_nil, p2, m2, t2]
    rw [if_pos trivial, if_neg (by simp : ¬ ([2, 0] : List ℕ) = [1, 0]), if_pos trivial, if_neg (by simp : ¬ ([1, 2, 0] : List ℕ) = [1, 0]), if_neg (by simp : ¬ ([1, 2, 0] : List ℕ) = [2, 0])]
    rw [extend3_missing [1, 0] 2 (by norm_num) (by simp; omega) _ h0, extend3_missing [2, 0] 1 (by norm_num) (by simp; omega) _ h0]
    have hx : extend 3 [1, 2, 0] T i j = T (coords [1, 2, 0] i) (coords [1, 2, 0] j) := by
      unfold extend
      rw [if_pos]
      intro a ha h
      simp only [List.mem_cons, List.not_mem_nil, or_false, not_or] at h
      omega
    rw [hx]
    have sP := shift_compensates pp.fin pmP pcP (coords [1, 0] i) (coords [1, 0] j)
    have sM := shift_compensates pp.fin pmM pcM (coords [2, 0] i) (coords [2, 0] j)
    simp only [tensor, fullShiftH] at sP sM
    have q1 : ∀ i : Idx, q (coords [1, 0] i) 0 = q i 1 ∧ q (coords [1, 0] i) 1 = q i 0 ∧ q (coords [2, 0] i) 0 = q i 2 ∧ q (coords [2, 0] i) 1 = q i 0 := fun i => ⟨rfl, rfl, rfl, rfl⟩
    simp only [q1] at sP sM
    simp only [tensor3]
    linear_combination one (q i 2) (q j 2) * sP + one (q i 1) (q j 1) * sM

/-- **C129.** A particle in a ring cavity, the two modes being of the same wave number. In the interaction pictures: for two travelling waves of opposite direction, which is the default. -/
theorem ring_simulates (pp : ParticleEl.Pars) (hp : pp.fin < 63) (pmP pmM : ModeEl.Pars) (hmP : Usable pmP) (hmM : Usable pmM) (pcP pcM : ParsAlong) (hk : pcP.kCav = pcM.kCav)
    (hn : 2 * pcP.kCav ≤ 2 ^ pp.fin) (qmp : Picture) (hx : qmp = .sch ∨ pcP.kCav ≠ 0 ∧ (pcP.modeCav = .plus ∧ pcM.modeCav = .minus ∨ pcP.modeCav = .minus ∧ pcM.modeCav = .plus))
    (hU : 0 ≤ pcP.uNot * pcM.uNot) :
    ∃ c, ring pp pmP pmM pcP pcM qmp = .ok c ∧ CompSimulates c (ringH pp pmP pmM pcP.uNot pcM.uNot pcP.mf pcM.mf) := by
  obtain ⟨ia, t1, t2, t3⟩ := twoModes_special_good (p := part pp qmp) (modePtr (shifted pmP pcP) qmp) (modePtr (shifted pmM pcM) qmp) (by rw [modePtr_dim]; exact hmP.1)
    (by rw [modePtr_dim]; exact hmP.2.1) (by rw [modePtr_dim]; exact hmM.1) (by rw [modePtr_dim]; exact hmM.2.1) hp pcP.mf pcM.mf pcP.uNot pcM.uNot 0 hU
    (by simpa [ParsAlong.mf, part] using hn) (picture_agrees _ pp qmp) (picture_agrees _ pp qmp)
    (fun h => by simpa [ParsAlong.mf] using (hx.resolve_left (part_exact h)).1)
    (fun T hT => by
      by_cases hq : qmp = .sch
      · have : (part pp qmp).exact = false := by simp [part, hq]
        exact ⟨fun h => by simp [this] at h, fun h => part_static T h⟩
      · obtain ⟨h1, h2⟩ := hx.resolve_left hq
        exact composition_good hp pcP.kCav h1 hn pcP.mf pcM.mf rfl (by simp [ParsAlong.mf, hk]) h2 hT)
    (by simp [ParsAlong.mf, hk]) [1, 2, 0]
  rw [modePtr_dim, modePtr_dim] at t3
  obtain ⟨c, h1, h2⟩ := ring_of pp hp pmP pmM hmP hmM pcP pcM hn (hk ▸ hn) qmp
    (hx.imp id fun h => ⟨h.1, Or.inr (by rcases h.2 with ⟨k, -⟩ | ⟨k, -⟩ <;> simp [isComplex, k])⟩)
    (hx.imp id fun h => ⟨hk ▸ h.1, Or.inr (by rcases h.2 with ⟨-, k⟩ | ⟨-, k⟩ <;> simp [isComplex, k])⟩) _ ⟨ia, t1, t2, t3⟩
  refine ⟨c, h1, ?_⟩
  convert h2 using 3 with i j
  have q1 : ∀ i : Idx, q (coords [1, 2, 0] i) 0 = q i 1 ∧ q (coords [1, 2, 0] i) 1 = q i 2 ∧ q (coords [1, 2, 0] i) 2 = q i 0 := fun i => ⟨rfl, rfl, rfl⟩
  unfold ringH twoModesH
  simp only [tensor3, q1, scatteringAmplitude, part, Complex.ofReal_zero, mul_zero, neg_zero, Complex.exp_zero, mul_one, map_mul, Complex.conj_ofReal]
  split_ifs <;> simp <;> ring

/-- **C129.** The two modes being of different wave numbers: the same with the product of the operators of the particle. -/
theorem ring_general_simulates (pp : ParticleEl.Pars) (hp : pp.fin < 63) (pmP pmM : ModeEl.Pars) (hmP : Usable pmP) (hmM : Usable pmM) (pcP pcM : ParsAlong) (hk : pcP.kCav ≠ pcM.kCav)
    (hnP : 2 * pcP.kCav ≤ 2 ^ pp.fin) (hnM : 2 * pcM.kCav ≤ 2 ^ pp.fin) (qmp : Picture)
    (hx : qmp = .sch ∨ pcP.kCav ≠ 0 ∧ pcM.kCav ≠ 0 ∧ isComplex pcP.modeCav = true ∧ isComplex pcM.modeCav = true) (hU : 0 ≤ pcP.uNot * pcM.uNot) :
    ∃ c, ring pp pmP pmM pcP pcM qmp = .ok c ∧ CompSimulates c (ringMulH pp pmP pmM pcP.uNot pcM.uNot pcP.mf pcM.mf) := by
  obtain ⟨ia, t1, t2, t3⟩ := twoModes_general_couples (p := part pp qmp) (modePtr (shifted pmP pcP) qmp) (modePtr (shifted pmM pcM) qmp) (by rw [modePtr_dim]; exact hmP.1)
    (by rw [modePtr_dim]; exact hmP.2.1) (by rw [modePtr_dim]; exact hmM.1) (by rw [modePtr_dim]; exact hmM.2.1) hp pcP.mf pcM.mf pcP.uNot pcM.uNot 0 hU
    (by simp only [ParsAlong.mf, part, Int.natAbs_natCast]; omega) (by simp only [ParsAlong.mf, part, Int.natAbs_natCast]; omega) (picture_agrees _ pp qmp) (picture_agrees _ pp qmp)
    (fun h => by simpa [ParsAlong.mf] using (hx.resolve_left (part_exact h)).1) (by simpa [ParsAlong.mf] using hk) [1, 2, 0]
  rw [modePtr_dim, modePtr_dim] at t3
  obtain ⟨c, h1, h2⟩ := ring_of pp hp pmP pmM hmP hmM pcP pcM hnP hnM qmp
    (hx.imp id fun h => ⟨h.1, Or.inr h.2.2.1⟩) (hx.imp id fun h => ⟨h.2.1, Or.inr h.2.2.2⟩) _ ⟨ia, t1, t2, t3⟩
  refine ⟨c, h1, ?_⟩
  convert h2 using 3 with i j
  have q1 : ∀ i : Idx, q (coords [1, 2, 0] i) 0 = q i 1 ∧ q (coords [1, 2, 0] i) 1 = q i 2 ∧ q (coords [1, 2, 0] i) 2 = q i 0 := fun i => ⟨rfl, rfl, rfl⟩
  unfold ringMulH twoModesMulH
  simp only [tensor3, q1, scatteringAmplitude, part, Complex.ofReal_zero, mul_zero, Complex.exp_zero, mul_one, map_mul, Complex.conj_ofReal]
  split_ifs <;> simp <;> ring

/-- **C129.** Light shifts of opposite sign: there is no amplitude of the scattering between the modes, the script throws. -/
theorem ring_throws (pp : ParticleEl.Pars) (hp : pp.fin < 63) (pmP pmM : ModeEl.Pars) (hmP : Usable pmP) (hmM : Usable pmM) (pcP pcM : ParsAlong)
    (hnP : 2 * pcP.kCav ≤ 2 ^ pp.fin) (hnM : 2 * pcM.kCav ≤ 2 ^ pp.fin) (qmp : Picture)
    (hx : qmp = .sch ∨ pcP.kCav ≠ 0 ∧ pcM.kCav ≠ 0 ∧ isComplex pcP.modeCav = true ∧ isComplex pcM.modeCav = true) (hU : pcP.uNot * pcM.uNot < 0) :
    ring pp pmP pmM pcP pcM qmp = .throw := by
  obtain ⟨e0, a1, -⟩ := unpumped_free pp hp qmp
  obtain ⟨e1, b1, -⟩ := (hmP.shifted pcP).free qmp
  obtain ⟨e2, c1, -⟩ := (hmM.shifted pcM).free qmp
  obtain ⟨iaP, p1, -⟩ := along_ok (shifted pmP pcP) (hmP.shifted pcP) pp hp pcP hnP 0 (by simp) qmp (hx.imp id fun h => ⟨h.1, Or.inr h.2.2.1⟩) [1, 0]
  obtain ⟨iaM, m1, -⟩ := along_ok (shifted pmM pcM) (hmM.shifted pcM) pp hp pcM hnM 0 (by simp) qmp (hx.imp id fun h => ⟨h.2.1, Or.inr h.2.2.2⟩) [2, 0]
  have hf : factor pcP.uNot pcM.uNot 0 = none := by unfold factor; rw [if_pos hU]
  unfold ring particleTwoModes
  simp only [a1, b1, c1, Outcome.bind, p1, m1, hf]

/-- The default mode functions in the default picture. -/
example : ∃ c, ring ⟨6, 1, -10, 1, .cos⟩ ⟨10, -10, 0, 0, 10, 0, 1⟩ ⟨10, -10, 0, 0, 10, 0, 0⟩ ⟨-1, 1, .plus⟩ ⟨-2, 1, .minus⟩ .ip = .ok c ∧
    CompSimulates c (ringH ⟨6, 1, -10, 1, .cos⟩ ⟨10, -10, 0, 0, 10, 0, 1⟩ ⟨10, -10, 0, 0, 10, 0, 0⟩ (-1) (-2) ⟨.plus, 1⟩ ⟨.minus, 1⟩) :=
  ring_simulates _ (by norm_num) _ _ ⟨by norm_num, by norm_num, by norm_num, by norm_num, rfl, rfl⟩ ⟨by norm_num, by norm_num, by norm_num, by norm_num, rfl, rfl⟩ ⟨-1, 1, .plus⟩ ⟨-2, 1, .minus⟩ rfl
    (by norm_num) _ (Or.inr ⟨by norm_num, Or.inl ⟨rfl, rfl⟩⟩) (by norm_num)

example : ring ⟨6, 1, -10, 1, .cos⟩ ⟨10, -10, 0, 0, 10, 0, 1⟩ ⟨10, -10, 0, 0, 10, 0, 0⟩ ⟨-1, 1, .plus⟩ ⟨2, 1, .minus⟩ .ip = .throw :=
  ring_throws _ (by norm_num) _ _ ⟨by norm_num, by norm_num, by norm_num, by norm_num, rfl, rfl⟩ ⟨by norm_num, by norm_num, by norm_num, by norm_num, rfl, rfl⟩ ⟨-1, 1, .plus⟩ ⟨2, 1, .minus⟩
    (by norm_num) (by norm_num) _ (Or.inr ⟨by norm_num, by norm_num, rfl, rfl⟩) (by norm_num)

end CppQED.ScriptSys
