import Verif.Spec.Rabi
import Verif.Props.Relaxation
import Verif.Props.IdenticalParticles
import Verif.Props.Conservation

/-! # Property C155: Rabi oscillations -/

namespace CppQED.Interactions
open CppQED.Composite CppQED.PTrace CppQED.Slice CppQED.Elem CppQED.ModeEl CppQED.Spec CppQED.Master CppQED.Relax CppQED.Tridiag CppQED.MII Matrix
open scoped ComplexConjugate ComplexOrder

section
variable (g : ℂ) (δq δm : ℝ) (n : ℕ)

theorem rabiFrequency_sq : (rabiFrequency g δq δm n) ^ 2 = ((δq - δm) / 2) ^ 2 + Complex.normSq g * (n + 1) :=
  Real.sq_sqrt (add_nonneg (sq_nonneg _) (mul_nonneg (Complex.normSq_nonneg _) (by positivity)))

theorem rabi_cancel : rabiFrequency g δq δm n * ((δq - δm) / 2 / rabiFrequency g δq δm n) = (δq - δm) / 2 ∧
    (rabiFrequency g δq δm n : ℂ) * (conj g * Real.sqrt (n + 1) / rabiFrequency g δq δm n) = conj g * Real.sqrt (n + 1) := by
  by_cases h : rabiFrequency g δq δm n = 0
  · have h2 := rabiFrequency_sq g δq δm n
    rw [h, zero_pow (by norm_num)] at h2
    have a := sq_nonneg ((δq - δm) / 2)
    have b := mul_nonneg (Complex.normSq_nonneg g) (by positivity : (0 : ℝ) ≤ n + 1)
    have c : (δq - δm) / 2 = 0 := pow_eq_zero_iff (two_ne_zero) |>.1 (by linarith)
    have d : Complex.normSq g = 0 := by
      rcases mul_eq_zero.1 (show Complex.normSq g * (n + 1) = 0 by linarith) with d | d
      · exact d
      · linarith [Nat.cast_nonneg (α := ℝ) n]
    rw [Complex.normSq_eq_zero] at d
    rw [h, c, d]
    simp
  · refine ⟨by field_simp, ?_⟩
    have : (rabiFrequency g δq δm n : ℂ) ≠ 0 := by exact_mod_cast h
    field_simp

theorem rabi_cancel' : ((δq : ℂ) - δm) / 2 * ((δq - δm) / 2 / rabiFrequency g δq δm n) + g * Real.sqrt (n + 1) * (conj g * Real.sqrt (n + 1) / rabiFrequency g δq δm n) = rabiFrequency g δq δm n := by
  have hsq := rabiFrequency_sq g δq δm n
  have hsq' : (rabiFrequency g δq δm n : ℂ) ^ 2 = (((δq : ℂ) - δm) / 2) ^ 2 + g * conj g * (n + 1) := by
    rw [Complex.mul_conj]
    exact_mod_cast hsq
  have hr : ((Real.sqrt (n + 1) : ℝ) : ℂ) * (Real.sqrt (n + 1) : ℝ) = n + 1 := by
    rw [← Complex.ofReal_mul, Real.mul_self_sqrt (by positivity)]
    push_cast; rfl
  by_cases h : rabiFrequency g δq δm n = 0
  · rw [h]; simp
  · have h' : (rabiFrequency g δq δm n : ℂ) ≠ 0 := by exact_mod_cast h
    have e : ((δq : ℂ) - δm) / 2 * ((δq - δm) / 2 / rabiFrequency g δq δm n) + g * Real.sqrt (n + 1) * (conj g * Real.sqrt (n + 1) / rabiFrequency g δq δm n) =
        ((((δq : ℂ) - δm) / 2) ^ 2 + g * conj g * (((Real.sqrt (n + 1) : ℝ) : ℂ) * (Real.sqrt (n + 1) : ℝ))) / rabiFrequency g δq δm n := by ring
    rw [e, hr, ← hsq', sq, mul_div_assoc, div_self h', mul_one]

/-- The derivative of the state. -/
noncomputable def rabiKet' (t : ℝ) (i : List ℤ) : ℂ :=
  if q i 0 = 1 ∧ q i 1 = n then -(rabiFrequency g δq δm n * Real.sin (rabiFrequency g δq δm n * t) : ℂ) + Complex.I * ((δq - δm) / 2 * Real.cos (rabiFrequency g δq δm n * t))
  else if q i 0 = 0 ∧ q i 1 = n + 1 then conj g * Real.sqrt (n + 1) * Real.cos (rabiFrequency g δq δm n * t)
  else 0

theorem hasDerivAt_rabiKet (t : ℝ) (i : List ℤ) : HasDerivAt (fun s => rabiKet g δq δm n s i) (rabiKet' g δq δm n t i) t := by
  obtain ⟨c1, c2⟩ := rabi_cancel g δq δm n
  set Ω := rabiFrequency g δq δm n with hΩ
  have hl : HasDerivAt (fun s : ℝ => Ω * s) Ω t := by simpa using (hasDerivAt_id t).const_mul Ω
  have hs : HasDerivAt (fun s : ℝ => (Real.sin (Ω * s) : ℂ)) ((Real.cos (Ω * t) * Ω : ℝ) : ℂ) t := (hl.sin).ofReal_comp
  have hc : HasDerivAt (fun s : ℝ => (Real.cos (Ω * s) : ℂ)) ((-Real.sin (Ω * t) * Ω : ℝ) : ℂ) t := (hl.cos).ofReal_comp
  unfold rabiKet rabiKet'
  rw [← hΩ]
  have c1' : (Ω : ℂ) * (((δq : ℂ) - δm) / 2 / Ω) = (δq - δm) / 2 := by exact_mod_cast c1
  split_ifs
  · refine (hc.add ((hs.const_mul _).const_mul _)).congr_deriv ?_
    push_cast
    linear_combination Complex.I * Complex.cos (Ω * t) * c1'
  · refine (hs.const_mul _).congr_deriv ?_
    push_cast
    linear_combination Complex.cos (Ω * t) * c2
  · exact hasDerivAt_const _ _

/-- The Hamiltonian of the system without pumps and losses. -/
noncomputable def rabiH (i j : List ℤ) : ℂ := tensor (qbitH 0 δq 0) one i j + tensor one (modeH 0 δm 0) i j + jcH g sigma sigmaDag i j

theorem box2 {d0 d1 : ℕ} {i : List ℤ} (hi : InBox (lower [d0, d1]) (upper [d0, d1]) i) : i = [(q i 0 : ℤ), (q i 1 : ℤ)] ∧ q i 0 < d0 ∧ q i 1 < d1 := by
  obtain ⟨h1, h2⟩ := (box_iff _ i).1 hi
  obtain ⟨a, b, hab⟩ := two_mem h1
  rw [hab] at h1 h2
  have hm := mem_natBox.1 h1
  simp only [List.forall₂_cons, List.forall₂_nil_left_iff] at hm
  subst h2
  refine ⟨by simp [q, up], ?_, ?_⟩
  · simpa [q, up] using hm.1
  · simpa [q, up] using hm.2.1

theorem box2_mem {d0 d1 a b : ℕ} (ha : a < d0) (hb : b < d1) : InBox (lower [d0, d1]) (upper [d0, d1]) [(a : ℤ), (b : ℤ)] := by
  refine (box_iff _ _).2 ⟨mem_natBox.2 ?_, by simp [down, up]⟩
  simp [down, ha, hb]

omit g δq δm in
theorem sum_pair_box (c : ℕ) (hc : n + 1 < c) (f : List ℤ → ℂ) (hf : ∀ s, ¬ (q s 0 = 1 ∧ q s 1 = n) → ¬ (q s 0 = 0 ∧ q s 1 = n + 1) → f s = 0) :
    ∑ s ∈ boxFinset (lower [2, c]) (upper [2, c]), f s = f [((1 : ℕ) : ℤ), (n : ℤ)] + f [((0 : ℕ) : ℤ), ((n + 1 : ℕ) : ℤ)] := by
  have hlen : (upper [2, c]).length = (lower [2, c]).length := by simp [upper, lower]
  rw [← Finset.sum_pair (f := f) (by simp)]
  symm
  refine Finset.sum_subset ?_ ?_
  · intro s hs
    rw [mem_boxFinset _ _ _ hlen]
    simp only [Finset.mem_insert, Finset.mem_singleton] at hs
    rcases hs with rfl | rfl
    · exact box2_mem (by norm_num) (by omega)
    · exact box2_mem (by norm_num) (by omega)
  · intro s hs hn
    obtain ⟨e, -, -⟩ := box2 ((mem_boxFinset _ _ _ hlen).1 hs)
    simp only [Finset.mem_insert, Finset.mem_singleton, not_or] at hn
    refine hf s ?_ ?_
    · rintro ⟨a, b⟩
      rw [a, b] at e
      exact hn.1 e
    · rintro ⟨a, b⟩
      rw [a, b] at e
      exact hn.2 e

theorem rabi_action (c : ℕ) (hc : n + 1 < c) (t : ℝ) (i : List ℤ) (hi : InBox (lower [2, c]) (upper [2, c]) i) :
    matAction (lower [2, c]) (upper [2, c]) (rabiH g δq δm) (rabiKet g δq δm n t) i = Complex.I * rabiPhase δq δm n * rabiKet g δq δm n t i + rabiKet' g δq δm n t i := by
  obtain ⟨c1, c2⟩ := rabi_cancel g δq δm n
  have hsq := rabiFrequency_sq g δq δm n
  have hlen : (upper [2, c]).length = (lower [2, c]).length := by simp [upper, lower]
  have hsum : matAction (lower [2, c]) (upper [2, c]) (rabiH g δq δm) (rabiKet g δq δm n t) i =
      rabiH g δq δm i [((1 : ℕ) : ℤ), (n : ℤ)] * rabiKet g δq δm n t [((1 : ℕ) : ℤ), (n : ℤ)] + rabiH g δq δm i [((0 : ℕ) : ℤ), ((n + 1 : ℕ) : ℤ)] * rabiKet g δq δm n t [((0 : ℕ) : ℤ), ((n + 1 : ℕ) : ℤ)] := by
    refine sum_pair_box n c hc (fun s => rabiH g δq δm i s * rabiKet g δq δm n t s) fun s h1 h2 => ?_
    simp only [rabiKet, if_neg h1, if_neg h2, mul_zero]
  obtain ⟨-, ha, hb⟩ := box2 hi
  rw [hsum]
  unfold rabiH rabiKet rabiKet' jcH tensor rabiPhase
  set Ω := rabiFrequency g δq δm n with hΩ
  have q1 : q [((1 : ℕ) : ℤ), (n : ℤ)] 0 = 1 ∧ q [((1 : ℕ) : ℤ), (n : ℤ)] 1 = n := by simp [q]
  have q0 : q [((0 : ℕ) : ℤ), ((n + 1 : ℕ) : ℤ)] 0 = 0 ∧ q [((0 : ℕ) : ℤ), ((n + 1 : ℕ) : ℤ)] 1 = n + 1 := by
    refine ⟨by simp [q], ?_⟩
    unfold q
    simp only [List.getD_cons_succ, List.getD_cons_zero, Int.toNat_natCast]
  rw [q1.1, q1.2, q0.1, q0.2]
  generalize q i 0 = a at *
  generalize q i 1 = b at *
  have c1' : (Ω : ℂ) * (((δq : ℂ) - δm) / 2 / Ω) = (δq - δm) / 2 := by exact_mod_cast c1
  have c3 := rabi_cancel' g δq δm n
  rw [← hΩ] at c3
  have ha : a = 0 ∨ a = 1 := by omega
  rcases ha with rfl | rfl
  · by_cases hbn : b = n + 1
    · subst hbn
      simp [qbitH, modeH, Spec.one, nOp, aOp, adOp, sigma, sigmaDag, excited]
      ring
    · simp [qbitH, modeH, Spec.one, nOp, aOp, adOp, sigma, sigmaDag, excited, hbn]
  · by_cases hbn : b = n
    · subst hbn
      simp [qbitH, modeH, Spec.one, nOp, aOp, adOp, sigma, sigmaDag, excited]
      linear_combination -Complex.sin (Ω * t) * c3 + ((δq : ℂ) - δm) / 2 * ((δq - δm) / 2 / Ω) * Complex.sin (Ω * t) * Complex.I_sq
    · simp [qbitH, modeH, Spec.one, nOp, aOp, adOp, sigma, sigmaDag, excited, hbn, Ne.symm hbn]

/-- Initially the atom is excited, and there are `n` photons. -/
theorem rabiKet_zero (i : List ℤ) : rabiKet g δq δm n 0 i = if q i 0 = 1 ∧ q i 1 = n then 1 else 0 := by
  unfold rabiKet
  simp

/-- **C155.** The probabilities oscillate: the photon is given over to the mode with the probability of the formula of Rabi; there are no other states. -/
theorem rabi_probabilities (t : ℝ) : Complex.normSq (rabiKet g δq δm n t [1, n]) + Complex.normSq (rabiKet g δq δm n t [0, n + 1]) = 1 ∧
    Complex.normSq (rabiKet g δq δm n t [0, n + 1]) = Complex.normSq g * (n + 1) / (rabiFrequency g δq δm n) ^ 2 * Real.sin (rabiFrequency g δq δm n * t) ^ 2 ∧
    (δq = δm → Complex.normSq (rabiKet g δq δm n t [1, n]) = Real.cos (Real.sqrt (Complex.normSq g * (n + 1)) * t) ^ 2) ∧
    ∀ i, rabiKet g δq δm n t i ≠ 0 → (q i 0 = 1 ∧ q i 1 = n) ∨ (q i 0 = 0 ∧ q i 1 = n + 1) := by
  have q1 : q [(1 : ℤ), (n : ℤ)] 0 = 1 ∧ q [(1 : ℤ), (n : ℤ)] 1 = n := by simp [q]
  have q0 : q [(0 : ℤ), (n : ℤ) + 1] 0 = 0 ∧ q [(0 : ℤ), (n : ℤ) + 1] 1 = n + 1 := by
    refine ⟨by simp [q], ?_⟩
    unfold q
    simp only [List.getD_cons_succ, List.getD_cons_zero]
    omega
  have hsq := rabiFrequency_sq g δq δm n
  obtain ⟨c1, -⟩ := rabi_cancel g δq δm n
  have e1 : Complex.normSq (rabiKet g δq δm n t [1, n]) = Real.cos (rabiFrequency g δq δm n * t) ^ 2 + ((δq - δm) / 2 / rabiFrequency g δq δm n * Real.sin (rabiFrequency g δq δm n * t)) ^ 2 := by
    unfold rabiKet
    rw [if_pos q1]
    have : (Real.cos (rabiFrequency g δq δm n * t) : ℂ) + Complex.I * (((δq : ℂ) - δm) / 2 / rabiFrequency g δq δm n * Real.sin (rabiFrequency g δq δm n * t)) =
        ⟨Real.cos (rabiFrequency g δq δm n * t), (δq - δm) / 2 / rabiFrequency g δq δm n * Real.sin (rabiFrequency g δq δm n * t)⟩ := by
      rw [Complex.mk_eq_add_mul_I]
      push_cast
      ring
    rw [this, Complex.normSq_mk]
    ring
  have e0 : Complex.normSq (rabiKet g δq δm n t [0, n + 1]) = Complex.normSq g * (n + 1) / (rabiFrequency g δq δm n) ^ 2 * Real.sin (rabiFrequency g δq δm n * t) ^ 2 := by
    unfold rabiKet
    rw [if_neg (by rw [q0.1]; simp), if_pos q0]
    simp only [Complex.normSq_mul, Complex.normSq_div, Complex.normSq_ofReal, Complex.normSq_conj]
    rw [Real.mul_self_sqrt (by positivity)]
    ring
  refine ⟨?_, e0, ?_, ?_⟩
  · rw [e1, e0]
    by_cases h : rabiFrequency g δq δm n = 0
    · rw [h]; simp
    · have hne : rabiFrequency g δq δm n ^ 2 ≠ 0 := pow_ne_zero _ h
      have : ((δq - δm) / 2 / rabiFrequency g δq δm n * Real.sin (rabiFrequency g δq δm n * t)) ^ 2 + Complex.normSq g * (n + 1) / (rabiFrequency g δq δm n) ^ 2 * Real.sin (rabiFrequency g δq δm n * t) ^ 2 =
          (((δq - δm) / 2) ^ 2 + Complex.normSq g * (n + 1)) / (rabiFrequency g δq δm n) ^ 2 * Real.sin (rabiFrequency g δq δm n * t) ^ 2 := by
        rw [mul_pow, div_pow]; ring
      rw [add_assoc, this, ← hsq, div_self hne, one_mul, add_comm, Real.sin_sq_add_cos_sq]
  · intro h
    rw [e1, h]
    have : rabiFrequency g δm δm n = Real.sqrt (Complex.normSq g * (n + 1)) := by
      unfold rabiFrequency
      simp
    rw [this]
    simp
  · intro i hi
    unfold rabiKet at hi
    split_ifs at hi with h1 h2
    · exact Or.inl h1
    · exact Or.inr h2
    · exact absurd rfl hi

theorem lindblad_dyad {m : ℕ} (A : Rho m) (v : Fin m → ℂ) (i j : Fin m) : lindblad A [] (vecMulVec v (star v)) i j = (A *ᵥ v) i * conj (v j) + v i * conj ((A *ᵥ v) j) := by
  have e : lindblad A [] (vecMulVec v (star v)) = A * vecMulVec v (star v) + vecMulVec v (star v) * Aᴴ := by
    unfold lindblad
    simp
  rw [e, Matrix.add_apply]
  congr 1
  · rw [Matrix.mul_apply, Matrix.mulVec, dotProduct, Finset.sum_mul]
    refine Finset.sum_congr rfl fun k _ => ?_
    rw [vecMulVec_apply, Pi.star_apply, Complex.star_def]; ring
  · rw [Matrix.mul_apply, Matrix.mulVec, dotProduct, map_sum, Finset.mul_sum]
    refine Finset.sum_congr rfl fun k _ => ?_
    rw [vecMulVec_apply, Pi.star_apply, Matrix.conjTranspose_apply, Complex.star_def, map_mul]; ring

/-- The trace of the projector on the state. -/
theorem rabi_trace (c : ℕ) (hc : n + 1 < c) {N : ℕ} {lb ub : List ℤ} (hl : lb = lower [2, c]) (hu : ub = upper [2, c]) (en : Enum lb ub N) (t : ℝ) :
    (vecMulVec (fun k => rabiKet g δq δm n t (en k)) (star fun k => rabiKet g δq δm n t (en k))).trace = 1 := by
  subst hl hu
  rw [Matrix.trace]
  simp only [Matrix.diag_apply, vecMulVec_apply, Pi.star_apply, Complex.star_def]
  rw [← sum_enum en (fun s => rabiKet g δq δm n t s * conj (rabiKet g δq δm n t s)), sum_pair_box n c hc (fun s => rabiKet g δq δm n t s * conj (rabiKet g δq δm n t s)) fun s h1 h2 => by
    simp only [rabiKet, if_neg h1, if_neg h2, zero_mul]]
  simp only [Complex.mul_conj]
  have := (rabi_probabilities g δq δm n t).1
  have h1 : ([((1 : ℕ) : ℤ), (n : ℤ)] : List ℤ) = [1, (n : ℤ)] := by simp
  have h0 : ([((0 : ℕ) : ℤ), ((n + 1 : ℕ) : ℤ)] : List ℤ) = [0, (n : ℤ) + 1] := by simp
  rw [h1, h0]
  exact_mod_cast this

/-- The solution of the Master equation. -/
theorem rabi_solves (c : ℕ) (hc : n + 1 < c) {N : ℕ} {lb ub : List ℤ} (hl : lb = lower [2, c]) (hu : ub = upper [2, c]) (en : Enum lb ub N) (T : ℝ) :
    Unravel.Solves (boxMat en (rabiH g δq δm)) [] T fun t => vecMulVec (fun k => rabiKet g δq δm n t (en k)) (star fun k => rabiKet g δq δm n t (en k)) := by
  subst hl hu
  intro t _ _ i j
  have hlen : (upper [2, c]).length = (lower [2, c]).length := by simp [upper, lower]
  have hA : ∀ k, (boxMat en (rabiH g δq δm) *ᵥ fun k => rabiKet g δq δm n t (en k)) k = Complex.I * rabiPhase δq δm n * rabiKet g δq δm n t (en k) + rabiKet' g δq δm n t (en k) := by
    intro k
    rw [← rabi_action g δq δm n c hc t (en k) (enum_box hlen en k)]
    unfold matAction
    rw [sum_enum en]
    rfl
  rw [lindblad_dyad, hA, hA]
  have hd := fun k => hasDerivAt_rabiKet g δq δm n t (en k)
  have hj : HasDerivAt (fun s => conj (rabiKet g δq δm n s (en j))) (conj (rabiKet' g δq δm n t (en j))) t := (hd j).star
  refine ((hd i).mul hj).congr_deriv ?_
  simp only [map_add, map_mul, Complex.conj_I, Complex.conj_ofReal]
  ring

end

/-- **C155.** The Jaynes-Cummings system without pumps and losses, with whatever detunings and in whatever pictures, started with excited atom and `n` photons. The states of the trajectories are, as long as there is room for one
photon more, exactly the ones of the Rabi oscillation. In Master-equation trajectories, the density operator is the projector on this state up to the error of the stepper. -/
theorem jaynesCummings_rabi.{v} (pq : QbitEl.Pars) (pm : ModeEl.Pars) (g : ℂ) (qmq qmm : Picture) (hq : qmq = .sch ↔ qmm = .sch) (hγ : pq.gamma = 0) (hηq : pq.eta = 0) (hηm : pm.eta = 0)
    (hd : pm.cutoff < 2 ^ 63) (hκ : pm.kappa = 0) (hn : 0 ≤ pm.nTh) (hK : pm.omegaKerr = 0) (hA : pm.omegaKerrAlter = 0) (n : ℕ) (hc : n + 1 < pm.cutoff) :
    ∃ e0 e1 ia, QbitEl.make pq qmq = .ok e0 ∧ makePumpedLossy pm qmm = .ok e1 ∧ jaynesCummings [0, 1] (aop (qbitPtr pq qmq)) (modePtr pm qmm) g = .ok ia ∧ e0.dim = 2 ∧ e1.dim = pm.cutoff ∧
      (∀ (t0 : ℝ) (psi : ℝ → List ℤ → ℂ), (∀ t i, InBox (binary e0 e1 ia).lb (binary e0 e1 ia).ub i → HasDerivAt (fun s => psi s i) ((binary e0 e1 ia).addContribution t t0 (psi t) (fun _ => 0) i) t) →
        (∀ i, InBox (binary e0 e1 ia).lb (binary e0 e1 ia).ub i → psi t0 i = if i = [1, (n : ℤ)] then 1 else 0) →
        ∀ t i, InBox (binary e0 e1 ia).lb (binary e0 e1 ia).ub i →
          (binary e0 e1 ia).actWithU t t0 (psi t) i = Complex.exp (Complex.I * rabiPhase pq.delta pm.delta n * (t - t0)) * rabiKet g pq.delta pm.delta n (t - t0) i) ∧
      ∀ (implemented : ℕ → Bool) (N : ℕ) (en : Enum (binary e0 e1 ia).lb (binary e0 e1 ia).ub N) (T : ℝ), 0 ≤ T → ∃ C, 0 ≤ C ∧
        ∀ rho : Rho N, (∀ i j, rho i j = if (en i : List ℤ) = [1, (n : ℤ)] ∧ (en j : List ℤ) = [1, (n : ℤ)] then 1 else 0) →
          (∃ x, Reached.{v} ((binary e0 e1 ia).toSys implemented en) C T 0 rho x) ∧
          ∀ ε x, Reached.{v} ((binary e0 e1 ia).toSys implemented en) C T ε rho x →
            ∀ i j, ‖x i j - rabiKet g pq.delta pm.delta n T (en i) * conj (rabiKet g pq.delta pm.delta n T (en j))‖ ≤ C * ε := by
  obtain ⟨e0, e1, ia, a1, a2, a3, a4⟩ := jaynesCummings_simulates pq pm g qmq qmm hq hγ.ge hd (by omega) hκ.ge hn hK hA
  obtain ⟨e0', e1', ia', b1, b2, b3, b4⟩ := jaynesCummings_normalised.{v} pq pm g qmq qmm hq hγ.ge hd (by omega) hκ.ge hn hK hA (Or.inr hγ) (Or.inr hκ)
  rw [a1, Outcome.ok.injEq] at b1
  rw [a2, Outcome.ok.injEq] at b2
  rw [a3, Outcome.ok.injEq] at b3
  subst b1 b2 b3
  obtain ⟨_, e0', b1, d0, -⟩ := qbit_free pq hγ.ge qmq
  obtain ⟨e1', c1, d1, -⟩ := mode_free pm hd (by omega) hκ.ge hn hK hA qmm
  rw [a1, Outcome.ok.injEq] at b1
  rw [a2, Outcome.ok.injEq] at c1
  subst b1 c1
  have hlb : (binary e0 e1 ia).lb = lower [2, pm.cutoff] := by rw [← d0, ← d1]; rfl
  have hub : (binary e0 e1 ia).ub = upper [2, pm.cutoff] := by rw [← d0, ← d1]; rfl
  have hH : (fun i j => tensor (qbitH pq.gamma pq.delta pq.eta) Spec.one i j + tensor Spec.one (modeH (pm.kappa * (2 * pm.nTh + 1)) pm.delta pm.eta) i j + jcH g sigma sigmaDag i j) = rabiH g pq.delta pm.delta := by
    rw [hγ, hηq, hηm, hκ, zero_mul]; rfl
  rw [hH] at a4
  have hlen : (upper [2, pm.cutoff]).length = (lower [2, pm.cutoff]).length := by simp [upper, lower]
  have hidx : ∀ i, InBox (lower [2, pm.cutoff]) (upper [2, pm.cutoff]) i → (i = [1, (n : ℤ)] ↔ q i 0 = 1 ∧ q i 1 = n) := by
    intro i hi
    obtain ⟨h, -, -⟩ := box2 hi
    constructor
    · rintro rfl; simp [q]
    · rintro ⟨x, y⟩
      rw [x, y] at h
      exact h
  refine ⟨e0, e1, ia, a1, a2, a3, d0, d1, ?_, ?_⟩
  · intro t0 psi hpsi h0 t i hi
    have hphys := fun t i hi => (a4 t0 t psi (hpsi t) i hi).2
    have hinit := fun i hi => (a4 t0 t0 psi (hpsi t0) i hi).1
    rw [hlb, hub] at hphys hinit h0 hi
    have hz := ScriptSys.linear_zero hlen (rabiH g pq.delta pm.delta)
      (fun s i => (binary e0 e1 ia).actWithU s t0 (psi s) i - Complex.exp (Complex.I * rabiPhase pq.delta pm.delta n * (s - t0)) * rabiKet g pq.delta pm.delta n (s - t0) i) (fun s i hi => by
        have he : HasDerivAt (fun s : ℝ => Complex.exp (Complex.I * rabiPhase pq.delta pm.delta n * (s - t0))) (Complex.I * rabiPhase pq.delta pm.delta n * Complex.exp (Complex.I * rabiPhase pq.delta pm.delta n * (s - t0))) s := by
          have h1 : HasDerivAt (fun s : ℝ => Complex.I * rabiPhase pq.delta pm.delta n * ((s : ℂ) - t0)) (Complex.I * rabiPhase pq.delta pm.delta n) s := by
            simpa using (((hasDerivAt_id s).ofReal_comp).sub_const (t0 : ℂ)).const_mul (Complex.I * rabiPhase pq.delta pm.delta n)
          exact (h1.cexp).congr_deriv (by ring)
        have hk : HasDerivAt (fun s : ℝ => rabiKet g pq.delta pm.delta n (s - t0) i) (rabiKet' g pq.delta pm.delta n (s - t0) i) s := (hasDerivAt_rabiKet g pq.delta pm.delta n (s - t0) i).comp_sub_const s t0
        refine ((hphys s i hi).sub (he.mul hk)).congr_deriv ?_
        have hact := rabi_action g pq.delta pm.delta n pm.cutoff hc (s - t0) i hi
        unfold matAction at hact ⊢
        simp only [mul_sub, Finset.sum_sub_distrib]
        congr 1
        have : ∀ s', rabiH g pq.delta pm.delta i s' * (Complex.exp (Complex.I * rabiPhase pq.delta pm.delta n * (s - t0)) * rabiKet g pq.delta pm.delta n (s - t0) s') =
            Complex.exp (Complex.I * rabiPhase pq.delta pm.delta n * (s - t0)) * (rabiH g pq.delta pm.delta i s' * rabiKet g pq.delta pm.delta n (s - t0) s') := fun s' => by ring
        simp only [mul_sub] at this
        simp only [this]
        rw [← Finset.mul_sum, hact]
        ring) t0 (fun i hi => by
        simp only [sub_self, mul_zero, Complex.exp_zero, one_mul]
        rw [hinit i hi, h0 i hi, rabiKet_zero, sub_eq_zero]
        by_cases h : i = [1, (n : ℤ)]
        · rw [if_pos h, if_pos ((hidx i hi).1 h)]
        · rw [if_neg h, if_neg fun h' => h ((hidx i hi).2 h')]) t i hi
    exact sub_eq_zero.1 hz
  · intro implemented N en T hT
    have h := b4 implemented N en
    rw [hH, hγ, hκ] at h
    have hJ : (modeJ 0 0).map (fun j => boxMat en (tensor j Spec.one)) ++ (modeJ 0 pm.nTh).map (fun j => boxMat en (tensor Spec.one j)) = [] := by simp [modeJ]
    rw [hJ] at h
    obtain ⟨C, hC, H⟩ := reached_close h T hT
    refine ⟨C, hC, fun rho hrho => ?_⟩
    have hbox : ∀ k, InBox (lower [2, pm.cutoff]) (upper [2, pm.cutoff]) (en k) := fun k => by
      rw [← hlb, ← hub]
      exact enum_box (by rw [hlb, hub, hlen]) en k
    have hsol := rabi_solves g pq.delta pm.delta n pm.cutoff hc hlb hub en T
    have hini : vecMulVec (fun k => rabiKet g pq.delta pm.delta n 0 (en k)) (star fun k => rabiKet g pq.delta pm.delta n 0 (en k)) = rho := by
      ext i j
      rw [vecMulVec_apply, Pi.star_apply, rabiKet_zero, rabiKet_zero, hrho]
      simp only [← hidx _ (hbox _)]
      split_ifs <;> simp_all
    have htr := rabi_trace g pq.delta pm.delta n pm.cutoff hc hlb hub en
    have hpsd : rho.PosSemidef := by rw [← hini]; exact Matrix.posSemidef_vecMulVec_self_star _
    have htr0 : rho.trace = 1 := by rw [← hini]; exact htr 0
    refine ⟨reached_exists h C T hT rho hpsd htr0, fun ε x hx i j => ?_⟩
    obtain ⟨-, -, -, ρ, hs, hz, hcl⟩ := H C ε rho x le_rfl hx
    have u1 := sol_unique _ _ 0 T hT ρ fun r a b => hs r a (by linarith)
    have u2 := sol_unique _ _ 0 T hT _ fun r a b => hsol r a (by linarith)
    simp only [zero_add] at u1 u2
    rw [hz] at u1
    rw [hini, ← u1] at u2
    have hTT := htr T
    have := hcl i j
    unfold normalised at this
    rw [Matrix.of_apply, ← u2, hTT, div_one] at this
    exact this

/-- Instance: vacuum Rabi oscillations off resonance in a cavity with two levels only, in interaction pictures. -/
example : ∃ e0 e1 ia, QbitEl.make ⟨1, 0, 0, 0⟩ .uip = .ok e0 ∧ makePumpedLossy ⟨2, 3, 0, 0, 0, 0, 0⟩ .ip = .ok e1 ∧
    jaynesCummings [0, 1] (aop (qbitPtr ⟨1, 0, 0, 0⟩ .uip)) (modePtr ⟨2, 3, 0, 0, 0, 0, 0⟩ .ip) (2 + Complex.I) = .ok ia ∧ e0.dim = 2 ∧ e1.dim = 2 := by
  obtain ⟨e0, e1, ia, h1, h2, h3, h4, h5, -⟩ := jaynesCummings_rabi.{0} ⟨1, 0, 0, 0⟩ ⟨2, 3, 0, 0, 0, 0, 0⟩ (2 + Complex.I) .uip .ip (by simp) rfl rfl rfl (by norm_num) rfl le_rfl rfl rfl 0 (by norm_num)
  exact ⟨e0, e1, ia, h1, h2, h3, h4, h5⟩

/-- The oscillation is there: on resonance with `g=1` the excitation is in the mode entirely at `t=π/2`. -/
example : Complex.normSq (rabiKet 1 3 3 0 (Real.pi / 2) [0, 1]) = 1 := by
  have h := (rabi_probabilities 1 3 3 0 (Real.pi / 2)).1
  have h' := (rabi_probabilities 1 3 3 0 (Real.pi / 2)).2.2.1 rfl
  simp at h h'
  rw [h'] at h
  simpa using h

end CppQED.Interactions
