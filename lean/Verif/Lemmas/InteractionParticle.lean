import Verif.Lemmas.InteractionOps
import Verif.Props.ParticleDynamics

/-! # The operators of the particle in interactions -/

namespace CppQED.Interactions
open CppQED.Elem CppQED.Tridiag CppQED.ModeEl CppQED.Spec
open CppQED.ParticleEl (POp DOp expOf sinOf cosOf mfNKX expE ModeFunction)
open ComplexConjugate

variable {p : ParticleEl.Part}

theorem m_none (h : p.exact = false) : p.m = fun _ => 0 := by unfold ParticleEl.Part.m; rw [h]; rfl

theorem part_static (T : Tri) (h : p.exact = false) : Static T (phases [p.m]) := by rw [m_none h]; exact static_none

theorem expOf_good (hp : p.fin < 63) (nK : ℤ) (hn : nK.natAbs ≤ 2 ^ p.fin) (h0 : p.exact = true → nK ≠ 0) {T : Tri} (hT : expOf p nK = .ok T) : Good p.exact T (phases [p.m]) := by
  refine ⟨fun hx => ?_, fun hx => part_static T hx⟩
  obtain ⟨S, h1, h2, h3, h4⟩ := ParticleEl.expINKX_ok (2 ^ p.fin) (Nat.pow_lt_pow_right (by norm_num) hp) (by positivity) nK hn
  have hz : (S.diagonals 0).size = 0 := by
    have h0 := h0 hx
    unfold ParticleEl.expINKX at h1
    simp only [h0, if_false] at h1
    split_ifs at h1 <;> first
      | (rw [unary_ok h1]; simp [empty_size]; done)
      | (rw [Outcome.ok.injEq] at h1; subst h1; rfl)
  unfold expOf at hT
  rw [h1] at hT
  simp only [hx, if_true, Outcome.bind, Outcome.ok.injEq] at hT
  subst hT
  exact furnish_pure h2.wf h2.rank h2.dims h3 hz _

/-- `mfNKX`: in the interaction picture it can be multiplied with other operators unless the wave number is zero. -/
theorem mfNKX_op (hp : p.fin < 63) (f : ModeFunction) (hn : f.nK.natAbs ≤ 2 ^ p.fin) (h0 : p.exact = true → f.nK ≠ 0) :
    ∃ T, mfNKX p f = .ok T ∧ Op [2 ^ p.fin] (phases [p.m]) T (lift (multiplication p.fin (waveFunction f))) ∧ T.diffs = [f.nK.natAbs] ∧ Good p.exact T (phases [p.m]) := by
  obtain ⟨T, h1, h2⟩ := ParticleEl.mfNKX_pop hp f hn
  refine ⟨T, h1, op_of_pop h2, h2.diffs, ?_⟩
  obtain ⟨t, n⟩ := f
  obtain ⟨A, a1, a2⟩ := ParticleEl.expOf_ok hp n hn
  obtain ⟨B, b1, b2⟩ := ParticleEl.expOf_ok hp (-n) (by simpa using hn)
  have ga := expOf_good hp n hn h0 a1
  have gb := expOf_good hp (-n) (by simpa using hn) (by simpa using h0) b1
  unfold mfNKX at h1
  cases t <;> simp only at h1
  · unfold sinOf at h1
    rw [a1, b1] at h1
    simp only [Outcome.bind] at h1
    unfold sub at h1
    obtain ⟨R, r1, r2⟩ := a2.sub_same (by rw [Int.natAbs_neg] at b2; exact b2)
    unfold sub at r1
    rw [r1] at h1
    simp only [Outcome.ok.injEq] at h1
    subst h1
    refine Good.scale ⟨fun hx => ?_, fun hx => part_static _ hx⟩ _
    exact (ga.1 hx).add (gb.1 hx).neg (by rw [show (neg B).rank = B.rank from rfl, a2.ok.rank, b2.ok.rank]) r1
  · unfold cosOf at h1
    rw [a1, b1] at h1
    simp only [Outcome.bind] at h1
    obtain ⟨R, r1, r2⟩ := a2.add_same (by rw [Int.natAbs_neg] at b2; exact b2)
    rw [r1] at h1
    simp only [Outcome.ok.injEq] at h1
    subst h1
    refine Good.scale ⟨fun hx => ?_, fun hx => part_static _ hx⟩ _
    exact (ga.1 hx).add (gb.1 hx) (by rw [a2.ok.rank, b2.ok.rank]) r1
  · rw [a1, Outcome.ok.injEq] at h1; rwa [← h1]
  · rw [b1, Outcome.ok.injEq] at h1; rwa [← h1]

/-- The matrix of the complex conjugate function. -/
theorem multiplication_conj (fin : ℕ) (f : ℝ → ℂ) (i j : ℕ) : conj (multiplication fin f j i) = multiplication fin (fun x => conj (f x)) i j := by
  unfold multiplication
  rw [← intervalIntegral.intervalIntegral_conj]
  congr 1; funext x
  simp only [map_mul, Complex.conj_conj]
  ring

/-- The light shift. -/
theorem lightShift_tensor (fin : ℕ) (U : ℝ) (mf : ModeFunction) (i j : NIdx) : lightShiftH fin U mf (up i) (up j) = lift2 nOp (ParticleEl.potE U mf) i j := by
  have h := ParticleEl.potE_eq fin U mf (i.getD 1 0) (j.getD 1 0)
  have e : ∀ x, ParticleEl.lightShift U mf x = (U : ℂ) * (Complex.normSq (waveFunction mf x) - averageIntensity mf) := by
    intro x
    unfold ParticleEl.lightShift ParticleEl.meanIntensity averageIntensity
    cases mf.type <;> simp [ParticleEl.isComplex]
  have e' : multiplication fin (ParticleEl.lightShift U mf) = _ := congrArg (multiplication fin) (funext e)
  rw [e', ParticleEl.multiplication_smul] at h
  unfold lightShiftH
  rw [tensor_up]
  simp only [lift2]
  rw [h]
  ring

end CppQED.Interactions
