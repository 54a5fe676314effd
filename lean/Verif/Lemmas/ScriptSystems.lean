import Verif.Model.ScriptSystems
import Verif.Spec.ScriptSystems
import Verif.Props.InteractionsTwoStep

/-! # Lemmas for the systems of the scripts -/

namespace CppQED.ScriptSys
open CppQED.Elem CppQED.Tridiag CppQED.ModeEl CppQED.Spec CppQED.Composite CppQED.Interactions CppQED.PTrace
open CppQED.MII (Idx)
open CppQED.Slice (Arr sliceBound)
open CppQED.ParticleEl (ModeFunction isComplex potE lightShift expE multiplication_smul multiplication_add multiplication_exp)
open ComplexConjugate

theorem multiplication_const (fin : ℕ) (c : ℂ) (i j : ℕ) : multiplication fin (fun _ => c) i j = c * one i j := by
  have h := ParticleEl.multiplication_trig fin 0 c 0 0 i j
  simpa [one] using h

theorem waveFunction_continuous (mf : ModeFunction) : Continuous (waveFunction mf) := by
  obtain ⟨t, n⟩ := mf
  cases t <;> (unfold waveFunction; simp only; fun_prop)

/-- The light shift without its average. -/
theorem lightShift_split (fin : ℕ) (U : ℝ) (mf : ModeFunction) (i j : List ℤ) :
    lightShiftH fin U mf i j = fullShiftH fin U mf i j - (U * averageIntensity mf : ℝ) * tensor nOp one i j / Complex.I := by
  have hc := waveFunction_continuous mf
  have h1 : ∀ a b, multiplication fin (fun x => (Complex.normSq (waveFunction mf x) : ℂ) - averageIntensity mf) a b =
      multiplication fin (fun x => (Complex.normSq (waveFunction mf x) : ℂ)) a b - averageIntensity mf * one a b := by
    intro a b
    have := multiplication_add fin (f := fun x => (Complex.normSq (waveFunction mf x) : ℂ)) (g := fun _ => -(averageIntensity mf : ℂ))
      (Complex.continuous_ofReal.comp (Complex.continuous_normSq.comp hc)) continuous_const a b
    rw [multiplication_const] at this
    simp only [← sub_eq_add_neg] at this
    rw [this]
    ring
  unfold lightShiftH fullShiftH tensor
  rw [h1]
  push_cast
  ring

/-- The change of the detuning. -/
theorem modeOf_shift (pm : ModeEl.Pars) (c : ℝ) (i j : ℕ) : modeOf { pm with delta := pm.delta - c } i j = modeOf pm i j + c * nOp i j / Complex.I := by
  unfold modeOf modeH
  simp only
  rw [Complex.div_I]
  push_cast
  ring

theorem shifted_eq (pm : ModeEl.Pars) (pc : ParsAlong) : shifted pm pc = { pm with delta := pm.delta - pc.uNot * averageIntensity pc.mf } := by
  unfold shifted averageIntensity ParsAlong.mf
  cases h : pc.modeCav <;> simp [isComplex, div_eq_mul_inv]

/-- The shift of the detuning makes up for the average which the interaction leaves out. -/
theorem shift_compensates (fin : ℕ) (pm : ModeEl.Pars) (pc : ParsAlong) (i j : List ℤ) :
    tensor (modeOf (shifted pm pc)) one i j + lightShiftH fin pc.uNot pc.mf i j = tensor (modeOf pm) one i j + fullShiftH fin pc.uNot pc.mf i j := by
  rw [lightShift_split, shifted_eq]
  unfold tensor
  rw [modeOf_shift]
  push_cast
  ring

theorem pumpedOf_eq (pp : ParticleEl.Pars) : pumpedOf pp = particleH pp.fin pp.omrec (lightShift pp.vClass ⟨pp.modePart, pp.kPart⟩) := by
  unfold pumpedOf lightShift ParticleEl.meanIntensity averageIntensity
  congr 1; funext x
  cases pp.modePart <;> simp [isComplex]

theorem etaEff_eq {U V : ℝ} (h : 0 ≤ U * V) : etaEff U V = some (scatteringAmplitude U V) := by
  unfold etaEff scatteringAmplitude sign
  rw [if_pos h]
  by_cases h : U < 0
  · rw [if_pos h, if_neg (by simpa using h)]
  · rw [if_neg h, if_pos (by simpa using h)]

theorem etaEff_neg {U V : ℝ} (h : U * V < 0) : etaEff U V = none := by
  unfold etaEff; rw [if_neg (by simpa using h)]

theorem modePtr_shifted_dim (pm : ModeEl.Pars) (pc : ParsAlong) : (shifted pm pc).cutoff = pm.cutoff := rfl

/-- The operator `f*g` for travelling waves of opposite direction can be multiplied with other ones in the interaction picture. -/
theorem composition_good {p : ParticleEl.Part} (hp : p.fin < 63) (k : ℕ) (hk : k ≠ 0) (hn : 2 * k ≤ 2 ^ p.fin) (f g : ModeFunction) (hf : f.nK = k) (hg : g.nK = k)
    (h : f.type = .plus ∧ g.type = .minus ∨ f.type = .minus ∧ g.type = .plus) {T : Tri} (hT : ParticleEl.mfComposition p f g = .ok T) : Good p.exact T (phases [p.m]) := by
  obtain ⟨t1, n1⟩ := f
  obtain ⟨t2, n2⟩ := g
  simp only at hf hg h
  subst hf hg
  have hk' : ¬ ((k : ℤ) < 0) := by omega
  obtain ⟨I, i1, -⟩ := ParticleEl.identity_dop (2 ^ p.fin) (Nat.pow_lt_pow_right (by norm_num) hp) (by positivity)
  unfold ParticleEl.mfComposition ParticleEl.mfCompositionNormalized at hT
  rw [i1] at hT
  have habs : |(k : ℤ)| = k := abs_of_nonneg (by omega)
  rcases h with ⟨rfl, rfl⟩ | ⟨rfl, rfl⟩
  · simp [ParticleEl.normalizeMF, hk', habs, Outcome.bind] at hT
    exact expOf_good hp _ (by simpa [Int.natAbs_mul] using hn) (fun _ => by omega) hT
  · simp [ParticleEl.normalizeMF, hk', habs, Outcome.bind] at hT
    exact expOf_good hp _ (by simpa [Int.natAbs_mul] using hn) (fun _ => by omega) hT

end CppQED.ScriptSys
