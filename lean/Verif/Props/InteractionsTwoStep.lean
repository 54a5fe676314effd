import Verif.Lemmas.InteractionTwoStep
import Verif.Props.InteractionsParticle

/-!
# Particles pumped along the cavity and particles in two modes: C78, C79
-/

namespace CppQED.Interactions
open CppQED.Elem CppQED.Tridiag CppQED.ModeEl CppQED.Spec CppQED.Composite
open CppQED.MII (Idx)
open CppQED.Slice (Arr sliceBound)
open CppQED.ParticleEl (ModeFunction isComplex potE lightShift expE)
open ComplexConjugate

variable {p : ParticleEl.Part}

theorem two_mem {d0 d1 : ℕ} {i : NIdx} (hi : i ∈ natBox [d0, d1]) : ∃ a b, i = [a, b] := by
  have := length_of_mem hi
  rcases i with - | ⟨a, - | ⟨b, i⟩⟩ <;> simp at this
  subst this
  exact ⟨a, b, rfl⟩

theorem three_mem {d0 d1 d2 : ℕ} {i : NIdx} (hi : i ∈ natBox [d0, d1, d2]) : ∃ a b c, i = [a, b, c] := by
  have := length_of_mem hi
  rcases i with - | ⟨a, - | ⟨b, - | ⟨c, i⟩⟩⟩ <;> simp at this
  subst this
  exact ⟨a, b, c, rfl⟩

theorem lastMul_two (c : ℂ) (A B C : Dens) (d a b a' b' : ℕ) : lastMul d B (fun i j => c * lift2 A C i j) [a, b] [a', b'] = c * (A a a' * Spec.mul d B C b b') := by
  unfold lastMul Spec.mul
  simp only [List.getLastD_cons, List.dropLast, lift2, List.cons_append, List.nil_append, List.getD_cons_zero, List.getD_cons_succ, List.getLastD_nil]
  rw [Finset.mul_sum, Finset.mul_sum]
  refine Finset.sum_congr rfl fun n _ => ?_
  ring

theorem lastMul_three (c : ℂ) (A A' B C : Dens) (d x a b x' a' b' : ℕ) :
    lastMul d B (fun i j => c * (kron 2 (lift2 A A') (lift C)) i j) [x, a, b] [x', a', b'] = c * (A x x' * A' a a' * Spec.mul d B C b b') := by
  unfold lastMul Spec.mul
  simp only [List.getLastD_cons, List.dropLast, kron, lift, lift2, List.cons_append, List.nil_append, List.getD_cons_zero, List.getD_cons_succ, List.getLastD_nil, List.take, List.drop]
  rw [Finset.mul_sum, Finset.mul_sum]
  refine Finset.sum_congr rfl fun n _ => ?_
  ring

/-! ## The particle pumped along the cavity -/

/-- If the wave numbers of the cavity and of the pump agree, then the Hamiltonian is `U |f|² n+η(a f f_p*+h.c.)`, provided that the operators of the particle can be multiplied with other ones in its picture. -/
theorem alongPumped_special_good (m : ModePtr) (hd : m.dim < 2 ^ 63) (h0 : 0 < m.dim) (hp : p.fin < 63) (mfC mfP : ModeFunction) (U η : ℝ) (hn : 2 * mfC.nK.natAbs ≤ 2 ^ p.fin)
    (hpic : m.exact.isSome = p.exact) (hx : p.exact = true → mfC.nK ≠ 0 ∧ (U = 0 ∨ isComplex mfC.type = true))
    (hG : η ≠ 0 → ∀ T, ParticleEl.mfComposition p mfC mfP = .ok T → Good p.exact T (phases [p.m])) (hs : mfC.nK = |mfP.nK|) (axes : List ℕ) :
    ∃ ia, particleAlongCavityPumped axes m p U mfC mfP η = .ok ia ∧ ia.axes = axes ∧
      Couples ia [m.dim, 2 ^ p.fin] [m.w, p.m] (fun i j => lightShiftH p.fin U mfC i j + interferenceH p.fin η (fun x => waveFunction mfC x * conj (waveFunction mfP x)) i j) := by
  obtain ⟨hs', Es, d1, d2, d3⟩ := dispersive_ops m hd h0 hp U mfC hn (fun h => (hx h).2)
  obtain ⟨a, a1, a2, -, a4⟩ := aop_op m hd h0
  obtain ⟨f, f1, f2, -, f4⟩ := mfNKX_op hp mfC (by omega) (fun h => (hx h).1)
  obtain ⟨g, g1, g2⟩ := ParticleEl.mfNKX_pop hp mfP (by rw [hs, Int.natAbs_abs] at hn; omega)
  have g2 := op_of_pop g2
  have ea : Op [m.dim] (phases [m.w]) (scale (η : ℂ) a) (lift fun i j => η * aOp i j) := a2.scale _
  obtain ⟨P, p1, p2, -, -, -⟩ := product_op ea f2 (a4.scale _) (by rw [hpic]; exact f4)
  have hstep : ∃ hs2 Es2, fillTTwoModeFN m p U η mfC mfP true = .ok hs2 ∧ List.Forall₂ (Op [m.dim, 2 ^ p.fin] (phases [m.w, p.m])) hs2 Es2 ∧
      ∀ i j, (Es2.map fun E => E i j).sum = lift2 nOp (potE U mfC) i j + interferenceH p.fin η (fun x => waveFunction mfC x * conj (waveFunction mfP x)) (up i) (up j) := by
    unfold fillTTwoModeFN
    rw [d1]
    simp only [Outcome.bind]
    by_cases hη : η = 0
    · rw [if_neg (by simp [hη])]
      exact ⟨_, _, rfl, d2, fun i j => by rw [d3]; simp [interferenceH, hη]⟩
    · rw [if_pos ⟨hη, trivial⟩]
      obtain ⟨c, k, c1, c2⟩ := ParticleEl.mfComposition_pop hp mfC mfP (by rw [hs, abs_abs]) hn
      have ad : Op [m.dim] (phases [m.w]) (hermitianConjugate a) (lift adOp) := a2.dagger.congr fun i _ j _ => by simp only [lift, conj_aOp]
      obtain ⟨Q, q1, q2, -, -, -⟩ := product_op ad (op_of_pop c2) (by rw [hpic] at a4; exact a4.dagger) (hG hη _ c1)
      obtain ⟨R, r1, r2, -, -⟩ := q2.plusHC
      unfold interfericTwoModeFN plusHC_overI
      rw [a1, c1]
      simp only [Outcome.bind]
      rw [q1]
      simp only [r1]
      refine ⟨_, _, rfl, List.rel_append d2 (List.Forall₂.cons ((r2.scale _).scale _) .nil), fun i j => ?_⟩
      rw [List.map_append, List.sum_append, d3]
      simp only [List.map_cons, List.map_nil, List.sum_cons, List.sum_nil, interferenceH, tensor_up, lift2, map_mul, conj_adOp, multiplication_conj, Complex.conj_conj]
      ring
  obtain ⟨hs2, Es2, s1, s2, s3⟩ := hstep
  unfold particleAlongCavityPumped
  simp only [hs, decide_true]
  rw [s1, a1]
  simp only [Outcome.bind]
  rw [f1]
  simp only [p1, g1]
  refine ⟨_, rfl, rfl, couples_twoStep (ds := [m.dim]) (ws := [m.w]) rfl s2 (p2.scale _) (p2.scale _).dagger.neg (B := fun i j => conj (multiplication p.fin (waveFunction mfP) j i))
    (C := fun i j => conj (conj (multiplication p.fin (waveFunction mfP) i j))) g2.dagger g2.dagger.dagger true _ (fun i _ j _ => ?_) axes⟩
  rw [s3, lightShift_tensor]
  simp

/-- **C78.** If the wave numbers of the cavity and of the pump agree, then the Hamiltonian is `U |f|² n+η(a f f_p*+h.c.)`. -/
theorem alongPumped_special_couples (m : ModePtr) (hd : m.dim < 2 ^ 63) (h0 : 0 < m.dim) (hp : p.fin < 63) (mfC mfP : ModeFunction) (U η : ℝ) (hn : 2 * mfC.nK.natAbs ≤ 2 ^ p.fin)
    (hm : m.exact = none) (hx : p.exact = false) (hs : mfC.nK = |mfP.nK|) (axes : List ℕ) :
    ∃ ia, particleAlongCavityPumped axes m p U mfC mfP η = .ok ia ∧ ia.axes = axes ∧
      Couples ia [m.dim, 2 ^ p.fin] [m.w, p.m] (fun i j => lightShiftH p.fin U mfC i j + interferenceH p.fin η (fun x => waveFunction mfC x * conj (waveFunction mfP x)) i j) := by
  exact alongPumped_special_good m hd h0 hp mfC mfP U η hn (by rw [hm, hx]; rfl) (by simp [hx]) (fun _ _ _ => ⟨fun h => by simp [hx] at h, fun _ => part_static _ hx⟩) hs axes

/-- **C78.** If they are different, then the Hamiltonian is the same with the composition of the operators of the two mode functions, in whichever picture. -/
theorem alongPumped_general_couples (m : ModePtr) (hd : m.dim < 2 ^ 63) (h0 : 0 < m.dim) (hp : p.fin < 63) (mfC mfP : ModeFunction) (U η : ℝ) (hn : 2 * mfC.nK.natAbs ≤ 2 ^ p.fin)
    (hn' : mfP.nK.natAbs ≤ 2 ^ p.fin) (hpic : m.exact.isSome = p.exact) (hx : p.exact = true → mfC.nK ≠ 0 ∧ (U = 0 ∨ isComplex mfC.type = true))
    (hs : mfC.nK ≠ |mfP.nK|) (axes : List ℕ) :
    ∃ ia, particleAlongCavityPumped axes m p U mfC mfP η = .ok ia ∧ ia.axes = axes ∧
      Couples ia [m.dim, 2 ^ p.fin] [m.w, p.m] (fun i j => lightShiftH p.fin U mfC i j + interferenceMulH p.fin η (waveFunction mfC) (waveFunction mfP) i j) := by
  obtain ⟨hs', Es, d1, d2, d3⟩ := dispersive_ops m hd h0 hp U mfC hn (fun h => (hx h).2)
  obtain ⟨a, a1, a2, -, a4⟩ := aop_op m hd h0
  obtain ⟨f, f1, f2, -, f4⟩ := mfNKX_op hp mfC (by omega) (fun h => (hx h).1)
  obtain ⟨g, g1, g2⟩ := ParticleEl.mfNKX_pop hp mfP hn'
  have g2 := op_of_pop g2
  have ea : Op [m.dim] (phases [m.w]) (scale (η : ℂ) a) (lift fun i j => η * aOp i j) := a2.scale _
  obtain ⟨P, p1, p2, -, -, -⟩ := product_op ea f2 (a4.scale _) (by rw [hpic]; exact f4)
  have hsp : decide (mfC.nK = |mfP.nK|) = false := by simpa using hs
  unfold particleAlongCavityPumped fillTTwoModeFN
  simp only [hsp]
  rw [d1, a1]
  simp only [Outcome.bind, Bool.false_eq_true, and_false, if_false]
  rw [f1]
  simp only [p1, g1]
  have q2 : Op [m.dim, 2 ^ p.fin] (phases [m.w, p.m]) (scale (1 / Complex.I) P) (fun i j => (η / Complex.I) * lift2 aOp (multiplication p.fin (waveFunction mfC)) i j) :=
    (p2.scale _).congr fun i _ j _ => by simp only [lift2]; ring
  have q3 : Op [m.dim, 2 ^ p.fin] (phases [m.w, p.m]) (neg (hermitianConjugate (scale (1 / Complex.I) P)))
      (fun i j => (η / Complex.I) * lift2 adOp (multiplication p.fin fun x => conj (waveFunction mfC x)) i j) :=
    q2.dagger.neg.congr fun i _ j _ => by
      simp only [lift2, map_mul, map_div₀, Complex.conj_ofReal, Complex.conj_I, conj_aOp, multiplication_conj]
      rw [div_neg]; ring
  have g3 : Op [2 ^ p.fin] (phases [p.m]) (hermitianConjugate g) (lift (multiplication p.fin fun x => conj (waveFunction mfP x))) :=
    g2.dagger.congr fun i _ j _ => by simp only [lift, multiplication_conj]
  have g4 : Op [2 ^ p.fin] (phases [p.m]) (hermitianConjugate (hermitianConjugate g)) (lift (multiplication p.fin (waveFunction mfP))) :=
    g3.dagger.congr fun i _ j _ => by simp only [lift, multiplication_conj, Complex.conj_conj]
  refine ⟨_, rfl, rfl, couples_twoStep (ds := [m.dim]) (ws := [m.w]) rfl d2 q2 q3 g3 g4 false _ (fun i hi j hj => ?_) axes⟩
  obtain ⟨x, y, rfl⟩ := two_mem hi
  obtain ⟨x', y', rfl⟩ := two_mem hj
  rw [d3, lightShift_tensor, lastMul_two, lastMul_two]
  simp only [Bool.false_eq_true, if_false, interferenceMulH, tensor_up, lift2, List.getD_cons_zero, List.getD_cons_succ]
  ring

/-! ## The truncated products -/

theorem waveFunction_amp (mf : ModeFunction) : ∃ a b : ℂ, ∀ x, waveFunction mf x = a * Complex.exp (Complex.I * ((mf.nK : ℤ) * x)) + b * Complex.exp (Complex.I * ((-mf.nK : ℤ) * x)) := by
  obtain ⟨t, n⟩ := mf
  have neg : ∀ x : ℝ, Complex.exp (Complex.I * ((-n : ℤ) * x)) = Complex.exp (-(Complex.I * (n * x))) := by intro x; congr 1; push_cast; ring
  have r1 : ∀ x : ℝ, (n : ℂ) * x * Complex.I = Complex.I * (n * x) := fun x => by ring
  have r2 : ∀ x : ℝ, -((n : ℂ) * x) * Complex.I = -(Complex.I * (n * x)) := fun x => by ring
  cases t
  · refine ⟨-Complex.I / 2, Complex.I / 2, fun x => ?_⟩
    simp only [waveFunction, neg]
    rw [Complex.ofReal_sin, Complex.sin]; push_cast; rw [r1, r2]; ring
  · refine ⟨1 / 2, 1 / 2, fun x => ?_⟩
    simp only [waveFunction, neg]
    rw [Complex.ofReal_cos, Complex.cos]; push_cast; rw [r1, r2]; ring
  · exact ⟨1, 0, fun x => by simp [waveFunction]⟩
  · exact ⟨0, 1, fun x => by simp only [waveFunction, neg]; ring⟩

theorem expE_mul (d : ℕ) (a b : ℤ) (i j : ℕ) (h : 0 ≤ (j : ℤ) + b ∧ (j : ℤ) + b < d) : Spec.mul d (expE a) (expE b) i j = expE (a + b) i j := by
  unfold Spec.mul
  have hk : ((j : ℤ) + b).toNat < d := by omega
  rw [Finset.sum_eq_single ((j : ℤ) + b).toNat]
  · have e : (((j : ℤ) + b).toNat : ℤ) = j + b := by omega
    simp only [expE, e, if_true, mul_one]
    congr 1
    simp only [eq_iff_iff]
    constructor <;> intro h <;> omega
  · intro n _ hn
    simp only [expE]
    rw [if_neg (show ¬ ((n : ℤ) = j + b) by omega), mul_zero]
  · intro hn; exact absurd (Finset.mem_range.2 hk) hn

theorem multiplication_two (fin : ℕ) (n : ℤ) (a b : ℂ) (i j : ℕ) :
    multiplication fin (fun x => a * Complex.exp (Complex.I * ((n : ℤ) * x)) + b * Complex.exp (Complex.I * ((-n : ℤ) * x))) i j = a * expE n i j + b * expE (-n) i j := by
  have := ParticleEl.multiplication_trig fin n 0 a b i j
  simpa using this

/-- **C78.** Away from the edges of the momentum space, the composition of the operators is the operator of the product of the functions. -/
theorem mul_multiplication (fin : ℕ) (f g : ModeFunction) (F G : ℝ → ℂ) (hF : F = waveFunction f ∨ F = fun x => conj (waveFunction f x)) (hG : G = waveFunction g ∨ G = fun x => conj (waveFunction g x))
    (i j : ℕ) (h0 : g.nK.natAbs ≤ j) (h1 : j + g.nK.natAbs < 2 ^ fin) : Spec.mul (2 ^ fin) (multiplication fin F) (multiplication fin G) i j = multiplication fin (fun x => F x * G x) i j := by
  have key : ∀ (f : ModeFunction) (F : ℝ → ℂ), (F = waveFunction f ∨ F = fun x => conj (waveFunction f x)) → ∃ a b : ℂ, F = fun x : ℝ => a * Complex.exp (Complex.I * ((f.nK : ℤ) * x)) + b * Complex.exp (Complex.I * ((-f.nK : ℤ) * x)) := by
    intro f F hF
    obtain ⟨a, b, h⟩ := waveFunction_amp f
    rcases hF with rfl | rfl
    · exact ⟨a, b, funext h⟩
    · refine ⟨conj b, conj a, funext fun x => ?_⟩
      rw [h x, map_add, map_mul, map_mul, ← Complex.exp_conj, ← Complex.exp_conj]
      simp only [map_mul, Complex.conj_I, Complex.conj_ofReal, Int.cast_neg, map_neg, map_intCast]
      ring_nf
  obtain ⟨a, b, rfl⟩ := key f F hF
  obtain ⟨c, e, rfl⟩ := key g G hG
  have l1 : Spec.mul (2 ^ fin) (multiplication fin fun x => a * Complex.exp (Complex.I * ((f.nK : ℤ) * x)) + b * Complex.exp (Complex.I * ((-f.nK : ℤ) * x)))
      (multiplication fin fun x => c * Complex.exp (Complex.I * ((g.nK : ℤ) * x)) + e * Complex.exp (Complex.I * ((-g.nK : ℤ) * x))) i j =
      a * c * Spec.mul (2 ^ fin) (expE f.nK) (expE g.nK) i j + b * c * Spec.mul (2 ^ fin) (expE (-f.nK)) (expE g.nK) i j +
      a * e * Spec.mul (2 ^ fin) (expE f.nK) (expE (-g.nK)) i j + b * e * Spec.mul (2 ^ fin) (expE (-f.nK)) (expE (-g.nK)) i j := by
    unfold Spec.mul
    simp only [multiplication_two, Finset.mul_sum, ← Finset.sum_add_distrib]
    refine Finset.sum_congr rfl fun n _ => ?_
    ring
  rw [l1, expE_mul _ _ _ _ _ (by omega), expE_mul _ _ _ _ _ (by omega), expE_mul _ _ _ _ _ (by omega), expE_mul _ _ _ _ _ (by omega)]
  have l2 : (fun x : ℝ => (a * Complex.exp (Complex.I * ((f.nK : ℤ) * x)) + b * Complex.exp (Complex.I * ((-f.nK : ℤ) * x))) * (c * Complex.exp (Complex.I * ((g.nK : ℤ) * x)) + e * Complex.exp (Complex.I * ((-g.nK : ℤ) * x)))) =
      fun x : ℝ => a * c * Complex.exp (Complex.I * ((f.nK + g.nK : ℤ) * x)) + b * c * Complex.exp (Complex.I * ((-f.nK + g.nK : ℤ) * x)) +
        a * e * Complex.exp (Complex.I * ((f.nK + -g.nK : ℤ) * x)) + b * e * Complex.exp (Complex.I * ((-f.nK + -g.nK : ℤ) * x)) := by
    funext x
    have : ∀ u v : ℤ, Complex.exp (Complex.I * ((u + v : ℤ) * x)) = Complex.exp (Complex.I * ((u : ℤ) * x)) * Complex.exp (Complex.I * ((v : ℤ) * x)) := by
      intro u v; rw [← Complex.exp_add]; congr 1; push_cast; ring
    rw [this, this, this, this]
    ring
  rw [l2, ParticleEl.multiplication_add fin (by fun_prop) (by fun_prop), ParticleEl.multiplication_add fin (by fun_prop) (by fun_prop), ParticleEl.multiplication_add fin (by fun_prop) (by fun_prop)]
  simp only [ParticleEl.multiplication_smul, ParticleEl.multiplication_exp]

/-- **C79, violated.** With different wave numbers of the pump and of the cavity, the Hamiltonian divided by `i` is not anti-Hermitian at the edges of the momentum space. -/
theorem general_not_antihermitian : ∃ (fin : ℕ) (fC fP : ModeFunction) (i j : List ℤ), InBox (lower [2, 2 ^ fin]) (upper [2, 2 ^ fin]) i ∧ InBox (lower [2, 2 ^ fin]) (upper [2, 2 ^ fin]) j ∧
    fC.nK.natAbs ≤ 2 ^ fin ∧ fP.nK.natAbs ≤ 2 ^ fin ∧
    conj (interferenceMulH fin 1 (waveFunction fC) (waveFunction fP) j i) ≠ -interferenceMulH fin 1 (waveFunction fC) (waveFunction fP) i j := by
  refine ⟨2, ⟨.plus, 2⟩, ⟨.plus, 1⟩, [0, 1], [1, 0], ?_, ?_, by norm_num, by norm_num, ?_⟩
  · rw [inBox_cons, inBox_cons, inBox_nil]; norm_num
  · rw [inBox_cons, inBox_cons, inBox_nil]; norm_num
  · have hc : ∀ n : ℤ, multiplication 2 (waveFunction ⟨.plus, n⟩) = expE n := by
      intro n; funext i j; exact ParticleEl.multiplication_exp 2 n i j
    have hc' : ∀ n : ℤ, multiplication 2 (fun x => conj (waveFunction ⟨.plus, n⟩ x)) = expE (-n) := by
      intro n; funext i j
      rw [← ParticleEl.multiplication_exp 2 (-n) i j]
      congr 1; funext x
      simp only [waveFunction]
      rw [← Complex.exp_conj]
      congr 1
      simp
    unfold interferenceMulH tensor
    rw [hc, hc, hc', hc']
    simp only [q, List.getD_cons_zero, List.getD_cons_succ, Int.toNat_zero, Int.toNat_one, Spec.mul, aOp, adOp, expE]
    norm_num
    simp [Finset.sum_range_succ]

/-! ## The particle in two modes -/

theorem tensor3_up (A B C : Dens) (i j : NIdx) : tensor3 A B C (up i) (up j) = A (i.getD 0 0) (j.getD 0 0) * B (i.getD 1 0) (j.getD 1 0) * C (i.getD 2 0) (j.getD 2 0) := by
  simp only [tensor3, q_up]

theorem factor_eq (U0 U1 φ : ℝ) (hU : 0 ≤ U0 * U1) : factor U0 U1 φ = some ((if U0 < 0 then -1 else 1) * Real.sqrt (U0 * U1) * Complex.exp (Complex.I * φ)) := by
  unfold factor sign
  rw [if_neg (not_lt.2 hU)]
  by_cases h : U0 < 0
  · rw [if_pos h, if_neg (by simpa using h)]; push_cast; rfl
  · rw [if_neg h, if_pos (by simpa using h)]; push_cast; rfl

/-- **C79.** If the product of the two depths is negative, then the constructor throws. -/
theorem twoModes_throws (m0 m1 : ModePtr) (mf0 mf1 : ModeFunction) (U0 U1 φ : ℝ) (hU : U0 * U1 < 0) (axes : List ℕ) : particleTwoModes axes m0 m1 p U0 U1 mf0 mf1 φ = .throw := by
  unfold particleTwoModes factor
  rw [if_pos hU]

theorem ad_op {m : ModePtr} {a : Tri} (a2 : Op [m.dim] (phases [m.w]) a (lift aOp)) : Op [m.dim] (phases [m.w]) (hermitianConjugate a) (lift adOp) :=
  a2.dagger.congr fun i _ j _ => by simp only [lift, conj_aOp]

/-- The first of the operators to be applied. -/
theorem twoModes_first (m0 m1 : ModePtr) (hd0 : m0.dim < 2 ^ 63) (h0 : 0 < m0.dim) (hd1 : m1.dim < 2 ^ 63) (h1 : 0 < m1.dim) (hp : p.fin < 63) (mf0 mf1 : ModeFunction) (f : ℂ)
    (hn : mf0.nK.natAbs ≤ 2 ^ p.fin) (hn' : mf1.nK.natAbs ≤ 2 ^ p.fin) (hp0 : m0.exact.isSome = p.exact) (hp1 : m1.exact.isSome = p.exact) (hx : p.exact = true → mf0.nK ≠ 0) :
    ∃ a0 a1 aa f0 P f1, aop m0 = .ok a0 ∧ aop m1 = .ok a1 ∧ product (scale f a0) (hermitianConjugate a1) = .ok aa ∧ ParticleEl.mfNKX p mf0 = .ok f0 ∧ product aa f0 = .ok P ∧
      ParticleEl.mfNKX p mf1 = .ok f1 ∧ Op [m0.dim] (phases [m0.w]) a0 (lift aOp) ∧ Op [m1.dim] (phases [m1.w]) a1 (lift aOp) ∧ Good p.exact a0 (phases [m0.w]) ∧ Good p.exact a1 (phases [m1.w]) ∧
      Op [m0.dim, m1.dim, 2 ^ p.fin] (phases [m0.w, m1.w, p.m]) (scale (1 / Complex.I) P)
        (fun i j => (f / Complex.I) * kron 2 (lift2 aOp adOp) (lift (multiplication p.fin (waveFunction mf0))) i j) ∧
      Op [m0.dim, m1.dim, 2 ^ p.fin] (phases [m0.w, m1.w, p.m]) (neg (hermitianConjugate (scale (1 / Complex.I) P)))
        (fun i j => (conj f / Complex.I) * kron 2 (lift2 adOp aOp) (lift (multiplication p.fin fun x => conj (waveFunction mf0 x))) i j) ∧
      Op [2 ^ p.fin] (phases [p.m]) (hermitianConjugate f1) (lift (multiplication p.fin fun x => conj (waveFunction mf1 x))) ∧
      Op [2 ^ p.fin] (phases [p.m]) (hermitianConjugate (hermitianConjugate f1)) (lift (multiplication p.fin (waveFunction mf1))) := by
  obtain ⟨a0, a01, a02, -, a04⟩ := aop_op m0 hd0 h0
  obtain ⟨a1, a11, a12, -, a14⟩ := aop_op m1 hd1 h1
  rw [hp0] at a04
  rw [hp1] at a14
  obtain ⟨f0, f01, f02, -, f04⟩ := mfNKX_op hp mf0 hn hx
  obtain ⟨f1, f11, f12⟩ := ParticleEl.mfNKX_pop hp mf1 hn'
  have f12 := op_of_pop f12
  have ea : Op [m0.dim] (phases [m0.w]) (scale f a0) (lift fun i j => f * aOp i j) := a02.scale _
  obtain ⟨aa, aa1, aa2, -, aa4, -⟩ := product_op ea (ad_op a12) (a04.scale _) a14.dagger
  obtain ⟨P, p1, p2, -⟩ := product_last (ds := [m0.dim, m1.dim]) (ws := [m0.w, m1.w]) rfl aa2 f02 aa4 f04
  have q2 : Op [m0.dim, m1.dim, 2 ^ p.fin] (phases [m0.w, m1.w, p.m]) (scale (1 / Complex.I) P)
      (fun i j => (f / Complex.I) * kron 2 (lift2 aOp adOp) (lift (multiplication p.fin (waveFunction mf0))) i j) :=
    (p2.scale _).congr fun i _ j _ => by simp only [kron, lift2, lift, List.length_cons, List.length_nil]; ring
  refine ⟨a0, a1, aa, f0, P, f1, a01, a11, aa1, f01, p1, f11, a02, a12, a04, a14, q2, q2.dagger.neg.congr fun i _ j _ => ?_, f12.dagger.congr fun i _ j _ => by simp only [lift, multiplication_conj],
    f12.dagger.dagger.congr fun i _ j _ => by simp only [lift, Complex.conj_conj]⟩
  simp only [kron, lift2, lift, map_mul, map_div₀, Complex.conj_I, conj_aOp, conj_adOp, multiplication_conj]
  rw [div_neg]; ring

/-- If the wave numbers of the two modes agree, then the Hamiltonian is `g a₀ a₁† f₀f₁*+h.c.` with `g=sign(U₀)√(U₀U₁)exp(-iφ)`, provided that the operator of the particle can be multiplied with other ones in its picture. -/
theorem twoModes_special_good (m0 m1 : ModePtr) (hd0 : m0.dim < 2 ^ 63) (h0 : 0 < m0.dim) (hd1 : m1.dim < 2 ^ 63) (h1 : 0 < m1.dim) (hp : p.fin < 63) (mf0 mf1 : ModeFunction) (U0 U1 φ : ℝ)
    (hU : 0 ≤ U0 * U1) (hn : 2 * mf0.nK.natAbs ≤ 2 ^ p.fin) (hp0 : m0.exact.isSome = p.exact) (hp1 : m1.exact.isSome = p.exact) (hx : p.exact = true → mf0.nK ≠ 0)
    (hG : ∀ T, ParticleEl.mfComposition p mf0 mf1 = .ok T → Good p.exact T (phases [p.m])) (hs : |mf0.nK| = |mf1.nK|) (axes : List ℕ) :
    ∃ ia, particleTwoModes axes m0 m1 p U0 U1 mf0 mf1 φ = .ok ia ∧ ia.axes = axes ∧
      Couples ia [m0.dim, m1.dim, 2 ^ p.fin] [m0.w, m1.w, p.m]
        (twoModesH p.fin ((if U0 < 0 then -1 else 1) * Real.sqrt (U0 * U1) * Complex.exp (-(Complex.I * φ))) (waveFunction mf0) (waveFunction mf1)) := by
  have hn1 : mf1.nK.natAbs = mf0.nK.natAbs := by rw [← Int.natAbs_abs mf0.nK, hs, Int.natAbs_abs]
  set f : ℂ := (if U0 < 0 then -1 else 1) * Real.sqrt (U0 * U1) * Complex.exp (Complex.I * φ) with hf
  have hg : (if U0 < 0 then -1 else 1) * Real.sqrt (U0 * U1) * Complex.exp (-(Complex.I * φ)) = conj f := by
    rw [hf, map_mul, map_mul, Complex.conj_ofReal, ← Complex.exp_conj]
    congr 1
    · split_ifs <;> simp
    · simp
  rw [hg]
  obtain ⟨a0, a1, aa, f0, P, f1, e1, e2, e3, e4, e5, e6, o0, o1, g0, g1, q1, q2, q3, q4⟩ := twoModes_first (p := p) m0 m1 hd0 h0 hd1 h1 hp mf0 mf1 f (by omega) (by omega) hp0 hp1 hx
  obtain ⟨c, k, c1, c2⟩ := ParticleEl.mfComposition_pop hp mf0 mf1 hs hn
  have eb : Op [m0.dim] (phases [m0.w]) (scale f (hermitianConjugate a0)) (lift fun i j => f * adOp i j) := (ad_op o0).scale _
  obtain ⟨ab, ab1, ab2, -, ab4, -⟩ := product_op eb o1 (g0.dagger.scale _) g1
  obtain ⟨Q, r1, r2, -⟩ := product_last (ds := [m0.dim, m1.dim]) (ws := [m0.w, m1.w]) rfl ab2 (op_of_pop c2) ab4 (hG _ c1)
  obtain ⟨R, s1, s2, -, -⟩ := r2.plusHC
  unfold particleTwoModes
  rw [factor_eq U0 U1 φ hU]
  simp only [← hf, hs, decide_true, if_true]
  rw [e1, e2]
  simp only [Outcome.bind]
  rw [e3, e4]
  simp only [e5, e6, ab1, c1, r1, plusHC_overI, s1, Outcome.bind]
  refine ⟨_, rfl, rfl, couples_twoStep (ds := [m0.dim, m1.dim]) (ws := [m0.w, m1.w]) rfl (List.Forall₂.cons (s2.scale _) .nil) q1 q2 q3 q4 true _ (fun i hi j hj => ?_) axes⟩
  obtain ⟨x, y, z, rfl⟩ := three_mem hi
  obtain ⟨x', y', z', rfl⟩ := three_mem hj
  simp only [twoModesH, tensor3_up, kron, lift, lift2, List.map_cons, List.map_nil, List.sum_cons, List.sum_nil, map_mul, conj_adOp, conj_aOp, multiplication_conj, Complex.conj_conj, if_true,
    List.length_cons, List.length_nil, Nat.zero_add, Nat.reduceAdd, List.take, List.drop, List.getD_cons_zero, List.getD_cons_succ]
  ring

/-- **C79.** If the wave numbers of the two modes agree, then the Hamiltonian is `g a₀ a₁† f₀f₁*+h.c.` with `g=sign(U₀)√(U₀U₁)exp(-iφ)`. -/
theorem twoModes_special_couples (m0 m1 : ModePtr) (hd0 : m0.dim < 2 ^ 63) (h0 : 0 < m0.dim) (hd1 : m1.dim < 2 ^ 63) (h1 : 0 < m1.dim) (hp : p.fin < 63) (mf0 mf1 : ModeFunction) (U0 U1 φ : ℝ)
    (hU : 0 ≤ U0 * U1) (hn : 2 * mf0.nK.natAbs ≤ 2 ^ p.fin) (hm0 : m0.exact = none) (hm1 : m1.exact = none) (hx : p.exact = false) (hs : |mf0.nK| = |mf1.nK|) (axes : List ℕ) :
    ∃ ia, particleTwoModes axes m0 m1 p U0 U1 mf0 mf1 φ = .ok ia ∧ ia.axes = axes ∧
      Couples ia [m0.dim, m1.dim, 2 ^ p.fin] [m0.w, m1.w, p.m]
        (twoModesH p.fin ((if U0 < 0 then -1 else 1) * Real.sqrt (U0 * U1) * Complex.exp (-(Complex.I * φ))) (waveFunction mf0) (waveFunction mf1)) := by
  exact twoModes_special_good m0 m1 hd0 h0 hd1 h1 hp mf0 mf1 U0 U1 φ hU hn (by rw [hm0, hx]; rfl) (by rw [hm1, hx]; rfl) (by simp [hx])
    (fun _ _ => ⟨fun h => by simp [hx] at h, fun _ => part_static _ hx⟩) hs axes

/-- **C79.** If they are different, then it is `g a₀ a₁† f₀f₁*+h.c.` with `g=sign(U₀)√(U₀U₁)exp(+iφ)`, the particle operators being composed. -/
theorem twoModes_general_couples (m0 m1 : ModePtr) (hd0 : m0.dim < 2 ^ 63) (h0 : 0 < m0.dim) (hd1 : m1.dim < 2 ^ 63) (h1 : 0 < m1.dim) (hp : p.fin < 63) (mf0 mf1 : ModeFunction) (U0 U1 φ : ℝ)
    (hU : 0 ≤ U0 * U1) (hn : mf0.nK.natAbs ≤ 2 ^ p.fin) (hn' : mf1.nK.natAbs ≤ 2 ^ p.fin) (hp0 : m0.exact.isSome = p.exact) (hp1 : m1.exact.isSome = p.exact) (hx : p.exact = true → mf0.nK ≠ 0)
    (hs : |mf0.nK| ≠ |mf1.nK|) (axes : List ℕ) :
    ∃ ia, particleTwoModes axes m0 m1 p U0 U1 mf0 mf1 φ = .ok ia ∧ ia.axes = axes ∧
      Couples ia [m0.dim, m1.dim, 2 ^ p.fin] [m0.w, m1.w, p.m]
        (twoModesMulH p.fin ((if U0 < 0 then -1 else 1) * Real.sqrt (U0 * U1) * Complex.exp (Complex.I * φ)) (waveFunction mf0) (waveFunction mf1)) := by
  set f : ℂ := (if U0 < 0 then -1 else 1) * Real.sqrt (U0 * U1) * Complex.exp (Complex.I * φ) with hf
  obtain ⟨a0, a1, aa, f0, P, f1, e1, e2, e3, e4, e5, e6, o0, o1, g0, g1, q1, q2, q3, q4⟩ := twoModes_first (p := p) m0 m1 hd0 h0 hd1 h1 hp mf0 mf1 f hn hn' hp0 hp1 hx
  unfold particleTwoModes
  rw [factor_eq U0 U1 φ hU]
  have hsp : decide (|mf0.nK| = |mf1.nK|) = false := by simpa using hs
  simp only [← hf, hsp]
  rw [e1, e2]
  simp only [Outcome.bind]
  rw [e3, e4]
  simp only [e5, e6, Bool.false_eq_true, if_false]
  refine ⟨_, rfl, rfl, couples_twoStep (ds := [m0.dim, m1.dim]) (ws := [m0.w, m1.w]) rfl .nil q1 q2 q3 q4 false _ (fun i hi j hj => ?_) axes⟩
  obtain ⟨x, y, z, rfl⟩ := three_mem hi
  obtain ⟨x', y', z', rfl⟩ := three_mem hj
  rw [lastMul_three, lastMul_three]
  simp only [twoModesMulH, tensor3_up, List.map_nil, List.sum_nil, Bool.false_eq_true, if_false, List.getD_cons_zero, List.getD_cons_succ]
  ring

/-- An interaction describes a single Hamiltonian. -/
theorem couples_unique {ia : Part} {ds : List ℕ} {ws : List (ℕ → ℂ)} {H H' : Idx → Idx → ℂ} (h : Couples ia ds ws H) (h' : Couples ia ds ws H') {s s' : Idx}
    (hs : InBox (lower ds) (upper ds) s) (hs' : InBox (lower ds) (upper ds) s') : H s s' = H' s s' := by
  obtain ⟨-, h⟩ := h
  obtain ⟨-, h'⟩ := h'
  have h := h 0 0
  have h' := h' 0 0
  cases hh : ia.ha with
  | none => rw [hh] at h h'; rw [h s s' hs hs', h' s s' hs hs']
  | some ha =>
    rw [hh] at h h'
    have e := (h (fun j => if j = s' then 1 else 0) (fun _ => 0) s hs).symm.trans (h' (fun j => if j = s' then 1 else 0) (fun _ => 0) s hs)
    have m := (mem_boxFinset _ _ s' (lower_length ds)).2 hs'
    simpa [matAction, rotating, m] using e

/-- **C79, violated.** The two branches contain the phase with opposite signs: the general branch describes `g a₀ a₁† f₀f₁*+h.c.` with `g=sign(U₀)√(U₀U₁)exp(+iφ)`, the special one does not. -/
theorem twoModes_special_wrong_sign : ∃ (m : ModePtr) (p : ParticleEl.Part) (mf : ModeFunction) (φ : ℝ) (ia : Part), particleTwoModes [0, 1, 2] m m p 1 1 mf mf φ = .ok ia ∧
    ¬ Couples ia [m.dim, m.dim, 2 ^ p.fin] [m.w, m.w, p.m] (twoModesH p.fin (Complex.exp (Complex.I * φ)) (waveFunction mf) (waveFunction mf)) := by
  obtain ⟨ia, h1, -, h2⟩ := twoModes_special_couples (p := ⟨0, 1, false⟩) ⟨2, none⟩ ⟨2, none⟩ (by norm_num) (by norm_num) (by norm_num) (by norm_num) (by norm_num) ⟨.plus, 0⟩ ⟨.plus, 0⟩ 1 1 (Real.pi / 2)
    (by norm_num) (by norm_num) rfl rfl rfl rfl [0, 1, 2]
  refine ⟨⟨2, none⟩, ⟨0, 1, false⟩, ⟨.plus, 0⟩, Real.pi / 2, ia, h1, fun h => ?_⟩
  have e := couples_unique h h2 (s := [0, 1, 0]) (s' := [1, 0, 0]) (by rw [inBox_cons, inBox_cons, inBox_cons, inBox_nil]; norm_num) (by rw [inBox_cons, inBox_cons, inBox_cons, inBox_nil]; norm_num)
  have hI : Complex.exp (Complex.I * (Real.pi / 2 : ℝ)) = Complex.I := by rw [mul_comm]; push_cast; exact Complex.exp_pi_div_two_mul_I
  have hm : ∀ F : ℝ → ℂ, (∀ x, F x = 1) → multiplication 0 F 0 0 = 1 := by
    intro F hF
    have := ParticleEl.multiplication_exp 0 0 0 0
    simp only [expE, Int.cast_zero, zero_mul, mul_zero, Complex.exp_zero, add_zero, if_true] at this
    rw [← this]
    congr 1; funext x; exact hF x
  have h1 : multiplication 0 (fun x => waveFunction ⟨.plus, 0⟩ x * conj (waveFunction ⟨.plus, 0⟩ x)) 0 0 = 1 := hm _ fun x => by simp [waveFunction]
  simp only [twoModesH, tensor3, q, List.getD_cons_zero, List.getD_cons_succ, Int.toNat_zero, Int.toNat_one, aOp, adOp, Complex.exp_neg, hI, h1] at e
  norm_num at e

/-- **C79, the part which holds.** Without phase and with mode functions of equal wave number, the coupling is `g (a₀ a₁† f₀f₁*+h.c.)/i` with `g=sign(U₀)√(U₀U₁)`, and it is anti-Hermitian. Missing: the phases,
and the anti-Hermiticity in the case of different wave numbers. -/
theorem twoModes_partial (m0 m1 : ModePtr) (hd0 : m0.dim < 2 ^ 63) (h0 : 0 < m0.dim) (hd1 : m1.dim < 2 ^ 63) (h1 : 0 < m1.dim) (hp : p.fin < 63) (mf0 mf1 : ModeFunction) (U0 U1 : ℝ)
    (hU : 0 ≤ U0 * U1) (hn : 2 * mf0.nK.natAbs ≤ 2 ^ p.fin) (hm0 : m0.exact = none) (hm1 : m1.exact = none) (hx : p.exact = false) (hs : |mf0.nK| = |mf1.nK|) (axes : List ℕ) :
    ∃ ia H, particleTwoModes axes m0 m1 p U0 U1 mf0 mf1 0 = .ok ia ∧ Couples ia [m0.dim, m1.dim, 2 ^ p.fin] [m0.w, m1.w, p.m] H ∧
      H = twoModesH p.fin ((if U0 < 0 then -1 else 1) * Real.sqrt (U0 * U1)) (waveFunction mf0) (waveFunction mf1) ∧ ∀ i j, conj (H j i) = -H i j := by
  obtain ⟨ia, a1, -, a2⟩ := twoModes_special_couples (p := p) m0 m1 hd0 h0 hd1 h1 hp mf0 mf1 U0 U1 0 hU hn hm0 hm1 hx hs axes
  simp only [Complex.ofReal_zero, mul_zero, neg_zero, Complex.exp_zero, mul_one] at a2
  refine ⟨ia, _, a1, a2, rfl, fun i j => ?_⟩
  simp only [twoModesH]
  rw [map_div₀, Complex.conj_I, div_neg]
  simp only [tensor3, map_mul, map_add, Complex.conj_conj, conj_aOp, conj_adOp, multiplication_conj]
  ring

example : ∃ ia H, particleTwoModes [0, 1, 2] ⟨10, none⟩ ⟨7, none⟩ ⟨6, 1, false⟩ (-2) (-3) ⟨.sin, 2⟩ ⟨.plus, -2⟩ 0 = .ok ia ∧ Couples ia [10, 7, 2 ^ 6] [fun _ => 0, fun _ => 0, ParticleEl.Part.m ⟨6, 1, false⟩] H ∧
    ∀ i j, conj (H j i) = -H i j :=
  let ⟨ia, H, h1, h2, _, h4⟩ := twoModes_partial (p := ⟨6, 1, false⟩) ⟨10, none⟩ ⟨7, none⟩ (by norm_num) (by norm_num) (by norm_num) (by norm_num) (by norm_num) ⟨.sin, 2⟩ ⟨.plus, -2⟩ (-2) (-3) (by norm_num)
    (by norm_num) rfl rfl rfl rfl [0, 1, 2]
  ⟨ia, H, h1, h2, h4⟩

end CppQED.Interactions
