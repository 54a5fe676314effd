import Verif.Spec.SingleExcitation
import Verif.Props.Rabi

/-! # Property C171: the damped vacuum Rabi oscillation -/

namespace CppQED.Interactions
open CppQED.Composite CppQED.PTrace CppQED.Slice CppQED.Elem CppQED.ModeEl CppQED.Spec CppQED.Master CppQED.Relax CppQED.Tridiag CppQED.MII Matrix
open scoped ComplexConjugate ComplexOrder

section general
variable {m : ℕ} (A : Rho m) (J : List (Rho m)) (v : Fin m → ℂ)

theorem lindblad_split (r : Rho m) : lindblad A J r = lindblad A [] r + (J.map fun j => j * r * jᴴ).sum := by
  unfold lindblad
  simp

theorem sandwich_dyad (j : Rho m) (w : Fin m → ℂ) : j * vecMulVec w (star w) * jᴴ = vecMulVec (j *ᵥ w) (star (j *ᵥ w)) := by
  rw [Matrix.mul_vecMulVec, Matrix.vecMulVec_mul, Matrix.star_mulVec]

theorem jumps_dyad (w : Fin m → ℂ) (h : ∀ j ∈ J, ∃ c : ℂ, j *ᵥ w = c • v) : ∃ s : ℂ, (J.map fun j => j * vecMulVec w (star w) * jᴴ).sum = s • vecMulVec v (star v) := by
  induction J with
  | nil => exact ⟨0, by simp⟩
  | cons j J ih =>
    obtain ⟨s, hs⟩ := ih fun j' h' => h j' (List.mem_cons_of_mem _ h')
    obtain ⟨c, hc⟩ := h j List.mem_cons_self
    refine ⟨c * conj c + s, ?_⟩
    rw [List.map_cons, List.sum_cons, hs, sandwich_dyad, hc, add_smul]
    congr 1
    ext x y
    simp only [vecMulVec_apply, Pi.smul_apply, Pi.star_apply, smul_eq_mul, Matrix.smul_apply, Complex.star_def, map_mul]
    ring

theorem jumps_linear (r r' : Rho m) (c : ℂ) : (J.map fun j => j * (r + c • r') * jᴴ).sum = (J.map fun j => j * r * jᴴ).sum + c • (J.map fun j => j * r' * jᴴ).sum := by
  induction J with
  | nil => simp
  | cons j J ih =>
    rw [List.map_cons, List.sum_cons, List.map_cons, List.sum_cons, List.map_cons, List.sum_cons, ih]
    simp only [mul_add, add_mul, Matrix.mul_smul, Matrix.smul_mul, smul_add]
    abel

/-- If all the jumps lead from the states `w t` to the dark state `v`, then the solution of the Master equation is the mixture of these, `w` evolving according to the non-Hermitian Hamiltonian. -/
theorem dark_solves (hA : A *ᵥ v = 0) (hJ : ∀ j ∈ J, j *ᵥ v = 0) (hv : ∑ k, v k * conj (v k) = 1) (hc : Conserving A J) (T : ℝ) (w : ℝ → Fin m → ℂ)
    (hw : ∀ t, 0 ≤ t → t ≤ T → ∀ k, HasDerivAt (fun s => w s k) ((A *ᵥ w t) k) t) (hJw : ∀ t, ∀ j ∈ J, ∃ c : ℂ, j *ᵥ w t = c • v) :
    Unravel.Solves A J T fun t => vecMulVec (w t) (star (w t)) + (1 - ∑ k, w t k * conj (w t k)) • vecMulVec v (star v) := by
  intro t h0 hT i j
  obtain ⟨s, hs⟩ := jumps_dyad J v (w t) (hJw t)
  have hvv : lindblad A J (vecMulVec v (star v)) = 0 := by
    rw [lindblad_split]
    have h1 : lindblad A [] (vecMulVec v (star v)) = 0 := by
      ext x y
      rw [lindblad_dyad, hA]
      simp
    have h2 : (J.map fun j => j * vecMulVec v (star v) * jᴴ).sum = 0 := by
      refine List.sum_eq_zero fun x hx => ?_
      obtain ⟨j, hj, rfl⟩ := List.mem_map.1 hx
      rw [sandwich_dyad, hJ j hj]
      simp
    rw [h1, h2, add_zero]
  have hlin : ∀ (r r' : Rho m) (c : ℂ), lindblad A J (r + c • r') = lindblad A J r + c • lindblad A J r' := by
    intro r r' c
    have hsum := jumps_linear J r r' c
    unfold lindblad
    rw [hsum]
    simp only [mul_add, add_mul, Matrix.mul_smul, Matrix.smul_mul, smul_add]
    abel
  have htr : (lindblad A J (vecMulVec (w t) (star (w t)))).trace = 0 := (lindblad_traceless_iff A J).2 hc _
  rw [lindblad_split, hs, Matrix.trace_add, Matrix.trace_smul] at htr
  have hv1 : (vecMulVec v (star v)).trace = 1 := by
    rw [Matrix.trace, ← hv]
    rfl
  rw [hv1, smul_eq_mul, mul_one, Matrix.trace] at htr
  simp only [Matrix.diag_apply, lindblad_dyad] at htr
  rw [hlin, hvv, smul_zero, add_zero, lindblad_split, hs, Matrix.add_apply, lindblad_dyad, Matrix.smul_apply, smul_eq_mul]
  have hcj : ∀ k, HasDerivAt (fun s => conj (w s k)) (conj ((A *ᵥ w t) k)) t := fun k => (hw t h0 hT k).star
  have hn : HasDerivAt (fun s => 1 - ∑ k, w s k * conj (w s k)) s t := by
    have h1 : HasDerivAt (fun s => ∑ k, w s k * conj (w s k)) (∑ k, ((A *ᵥ w t) k * conj (w t k) + w t k * conj ((A *ᵥ w t) k))) t :=
      HasDerivAt.fun_sum fun k _ => (hw t h0 hT k).mul (hcj k)
    refine (h1.const_sub 1).congr_deriv ?_
    linear_combination -htr
  exact ((hw t h0 hT i).mul (hcj j)).add (hn.mul_const (vecMulVec v (star v) i j))

end general

/-- The Hamiltonian of the lossy system divided by `i`. -/
noncomputable def lossyH (γ δq κ δm : ℝ) (g : ℂ) (i j : List ℤ) : ℂ := tensor (qbitH γ δq 0) Spec.one i j + tensor Spec.one (modeH κ δm 0) i j + jcH g sigma sigmaDag i j

theorem sum_ground_box (c : ℕ) (hc : 1 < c) (f : List ℤ → ℂ) (hf : ∀ s, ¬ (q s 0 = 0 ∧ q s 1 = 0) → f s = 0) :
    ∑ s ∈ boxFinset (lower [2, c]) (upper [2, c]), f s = f [((0 : ℕ) : ℤ), ((0 : ℕ) : ℤ)] := by
  have hlen : (upper [2, c]).length = (lower [2, c]).length := by simp [upper, lower]
  refine Finset.sum_eq_single_of_mem _ ((mem_boxFinset _ _ _ hlen).2 (box2_mem (by norm_num) (by omega))) fun s hs hne => hf s ?_
  obtain ⟨e, -, -⟩ := box2 ((mem_boxFinset _ _ _ hlen).1 hs)
  rintro ⟨x, y⟩
  rw [x, y] at e
  exact hne e

theorem single_sum (c : ℕ) (hc : 1 < c) (a b : ℂ) (F : List ℤ → ℂ) :
    ∑ s ∈ boxFinset (lower [2, c]) (upper [2, c]), F s * singleKet a b s = F [((1 : ℕ) : ℤ), ((0 : ℕ) : ℤ)] * a + F [((0 : ℕ) : ℤ), ((1 : ℕ) : ℤ)] * b := by
  rw [sum_pair_box 0 c hc (fun s => F s * singleKet a b s) fun s h1 h2 => by
    simp only [zero_add] at h2
    simp only [singleKet, if_neg h1, if_neg h2, mul_zero]]
  simp [singleKet, q]

theorem ground_sum (c : ℕ) (hc : 1 < c) (F : List ℤ → ℂ) :
    ∑ s ∈ boxFinset (lower [2, c]) (upper [2, c]), F s * groundKet s = F [((0 : ℕ) : ℤ), ((0 : ℕ) : ℤ)] := by
  rw [sum_ground_box c hc (fun s => F s * groundKet s) fun s h => by simp only [groundKet, if_neg h, mul_zero]]
  simp [groundKet, q]

theorem single_action (γ δq κ δm : ℝ) (g : ℂ) (c : ℕ) (hc : 1 < c) (a b : ℂ) (i : List ℤ) (hi : InBox (lower [2, c]) (upper [2, c]) i) :
    ∑ s ∈ boxFinset (lower [2, c]) (upper [2, c]), lossyH γ δq κ δm g i s * singleKet a b s = singleKet ((-γ + Complex.I * δq) * a - g * b) ((-κ + Complex.I * δm) * b + conj g * a) i := by
  rw [single_sum c hc]
  obtain ⟨-, ha, hb⟩ := box2 hi
  unfold lossyH singleKet jcH tensor
  have q1 : q [((1 : ℕ) : ℤ), ((0 : ℕ) : ℤ)] 0 = 1 ∧ q [((1 : ℕ) : ℤ), ((0 : ℕ) : ℤ)] 1 = 0 := by simp [q]
  have q0 : q [((0 : ℕ) : ℤ), ((1 : ℕ) : ℤ)] 0 = 0 ∧ q [((0 : ℕ) : ℤ), ((1 : ℕ) : ℤ)] 1 = 1 := by simp [q]
  rw [q1.1, q1.2, q0.1, q0.2]
  generalize q i 0 = x at *
  generalize q i 1 = y at *
  have hx : x = 0 ∨ x = 1 := by omega
  rcases hx with rfl | rfl
  · by_cases hy : y = 1
    · subst hy
      simp [qbitH, modeH, Spec.one, nOp, aOp, adOp, sigma, sigmaDag, excited]
      ring
    · simp [qbitH, modeH, Spec.one, nOp, aOp, adOp, sigma, sigmaDag, excited, hy]
  · by_cases hy : y = 0
    · subst hy
      simp [qbitH, modeH, Spec.one, nOp, aOp, adOp, sigma, sigmaDag, excited]
      ring
    · simp [qbitH, modeH, Spec.one, nOp, aOp, adOp, sigma, sigmaDag, excited, hy]

theorem ground_action (γ δq κ δm : ℝ) (g : ℂ) (c : ℕ) (hc : 1 < c) (i : List ℤ) :
    ∑ s ∈ boxFinset (lower [2, c]) (upper [2, c]), lossyH γ δq κ δm g i s * groundKet s = 0 := by
  rw [ground_sum c hc]
  unfold lossyH jcH tensor
  have q1 : q [((0 : ℕ) : ℤ), ((0 : ℕ) : ℤ)] 0 = 0 ∧ q [((0 : ℕ) : ℤ), ((0 : ℕ) : ℤ)] 1 = 0 := by simp [q]
  rw [q1.1, q1.2]
  simp [qbitH, modeH, Spec.one, nOp, aOp, sigma, sigmaDag, excited]
  tauto

/-- The jumps of the lossy system. -/
theorem single_jumps (γ κ : ℝ) (c : ℕ) (hc : 1 < c) (j : Idx → Idx → ℂ) (hj : j ∈ (modeJ γ 0).map (fun j => tensor j Spec.one) ++ (modeJ κ 0).map (fun j => tensor Spec.one j)) :
    (∀ i, InBox (lower [2, c]) (upper [2, c]) i → ∑ s ∈ boxFinset (lower [2, c]) (upper [2, c]), j i s * groundKet s = 0) ∧
    ∀ a b, ∃ r : ℂ, ∀ i, InBox (lower [2, c]) (upper [2, c]) i → ∑ s ∈ boxFinset (lower [2, c]) (upper [2, c]), j i s * singleKet a b s = r * groundKet i := by
  have q1 : q [((1 : ℕ) : ℤ), ((0 : ℕ) : ℤ)] 0 = 1 ∧ q [((1 : ℕ) : ℤ), ((0 : ℕ) : ℤ)] 1 = 0 := by simp [q]
  have q0 : q [((0 : ℕ) : ℤ), ((1 : ℕ) : ℤ)] 0 = 0 ∧ q [((0 : ℕ) : ℤ), ((1 : ℕ) : ℤ)] 1 = 1 := by simp [q]
  have qg : q [((0 : ℕ) : ℤ), ((0 : ℕ) : ℤ)] 0 = 0 ∧ q [((0 : ℕ) : ℤ), ((0 : ℕ) : ℤ)] 1 = 0 := by simp [q]
  have hk' : ∀ (x : ℝ) k, k ∈ modeJ x 0 → k = sc (Real.sqrt (2 * x)) aOp := by
    intro x k hk
    unfold modeJ at hk
    split_ifs at hk
    · simp at hk
    · simpa using hk
    · exact absurd rfl ‹¬ (0 : ℝ) = 0›
  have hcase : (∃ r : ℂ, j = tensor (sc r aOp) Spec.one) ∨ ∃ r : ℂ, j = tensor Spec.one (sc r aOp) := by
    rcases List.mem_append.1 hj with h | h
    · obtain ⟨k, hk, rfl⟩ := List.mem_map.1 h
      exact Or.inl ⟨_, congrArg (fun x => tensor x Spec.one) (hk' γ k hk)⟩
    · obtain ⟨k, hk, rfl⟩ := List.mem_map.1 h
      exact Or.inr ⟨_, congrArg (tensor Spec.one) (hk' κ k hk)⟩
  rcases hcase with ⟨r, rfl⟩ | ⟨r, rfl⟩
  · refine ⟨fun i hi => ?_, fun a b => ⟨r * a, fun i hi => ?_⟩⟩
    · rw [ground_sum c hc]
      unfold tensor
      rw [qg.1, qg.2]
      simp [sc, aOp]
    · rw [single_sum c hc]
      obtain ⟨-, ha, hb⟩ := box2 hi
      unfold tensor groundKet
      rw [q1.1, q1.2, q0.1, q0.2]
      generalize q i 0 = x at *
      generalize q i 1 = y at *
      have hx : x = 0 ∨ x = 1 := by omega
      rcases hx with rfl | rfl <;> by_cases hy : y = 0 <;> simp [sc, aOp, Spec.one, hy]
  · refine ⟨fun i hi => ?_, fun a b => ⟨r * b, fun i hi => ?_⟩⟩
    · rw [ground_sum c hc]
      unfold tensor
      rw [qg.1, qg.2]
      simp [sc, aOp]
    · rw [single_sum c hc]
      obtain ⟨-, ha, hb⟩ := box2 hi
      unfold tensor groundKet
      rw [q1.1, q1.2, q0.1, q0.2]
      generalize q i 0 = x at *
      generalize q i 1 = y at *
      have hx : x = 0 ∨ x = 1 := by omega
      rcases hx with rfl | rfl <;> by_cases hy : y = 0 <;> simp [sc, aOp, Spec.one, hy, eq_comm]

/-- There are amplitudes as wanted. -/
theorem amplitudes_exist (γ δq κ δm : ℝ) (g : ℂ) (T : ℝ) (a0 b0 : ℂ) : ∃ a b, Amplitudes γ δq κ δm g T a b ∧ a 0 = a0 ∧ b 0 = b0 := by
  let A : Rho 3 := !![-γ + Complex.I * δq, -g, 0; conj g, -κ + Complex.I * δm, 0; 0, 0, 0]
  let r : Rho 3 := !![0, 0, a0; 0, 0, b0; 0, 0, 0]
  have hX : ∀ X : Rho 3, lindblad A [] X 0 2 = (-γ + Complex.I * δq) * X 0 2 - g * X 1 2 ∧ lindblad A [] X 1 2 = (-κ + Complex.I * δm) * X 1 2 + conj g * X 0 2 := by
    intro X
    have e : ∀ i, lindblad A [] X i 2 = ∑ k, A i k * X k 2 + ∑ k, X i k * conj (A 2 k) := by
      intro i
      unfold lindblad
      simp only [List.map_nil, List.sum_nil, Matrix.add_apply, Matrix.mul_apply, Matrix.conjTranspose_apply, Complex.star_def, Matrix.zero_apply, add_zero]
    rw [e, e]
    simp only [Fin.sum_univ_three]
    constructor <;> simp [A] <;> ring
  refine ⟨fun t => sol A [] t r 0 2, fun t => sol A [] t r 1 2, fun t _ _ => ⟨?_, ?_⟩, ?_, ?_⟩
  · have h := hasDerivAt_sol A [] r 0 t 0 2
    simp only [sub_zero] at h
    exact h.congr_deriv (hX _).1
  · have h := hasDerivAt_sol A [] r 0 t 1 2
    simp only [sub_zero] at h
    exact h.congr_deriv (hX _).2
  · simp [sol_zero, r]
  · simp [sol_zero, r]

/-- The solution of the Master equation. -/
theorem single_solves (γ δq κ δm : ℝ) (g : ℂ) (c : ℕ) (hc : 1 < c) {N : ℕ} {lb ub : List ℤ} (hl : lb = lower [2, c]) (hu : ub = upper [2, c]) (en : Enum lb ub N) (T : ℝ) (a b : ℝ → ℂ)
    (hab : Amplitudes γ δq κ δm g T a b)
    (hcons : Conserving (boxMat en (lossyH γ δq κ δm g)) ((modeJ γ 0).map (fun j => boxMat en (tensor j Spec.one)) ++ (modeJ κ 0).map (fun j => boxMat en (tensor Spec.one j)))) :
    Unravel.Solves (boxMat en (lossyH γ δq κ δm g)) ((modeJ γ 0).map (fun j => boxMat en (tensor j Spec.one)) ++ (modeJ κ 0).map (fun j => boxMat en (tensor Spec.one j))) T
      fun t => Matrix.of fun i j => singleState (a t) (b t) (en i) (en j) := by
  subst hl hu
  have hlen : (upper [2, c]).length = (lower [2, c]).length := by simp [upper, lower]
  have hbox := enum_box hlen en
  have hmul : ∀ (F : Idx → Idx → ℂ) (f : List ℤ → ℂ) k, (boxMat en F *ᵥ fun k => f (en k)) k = ∑ s ∈ boxFinset (lower [2, c]) (upper [2, c]), F (en k) s * f s := by
    intro F f k
    rw [sum_enum en]
    rfl
  have hJmem : ∀ j, j ∈ (modeJ γ 0).map (fun j => boxMat en (tensor j Spec.one)) ++ (modeJ κ 0).map (fun j => boxMat en (tensor Spec.one j)) →
      ∃ F, F ∈ (modeJ γ 0).map (fun j => tensor j Spec.one) ++ (modeJ κ 0).map (fun j => tensor Spec.one j) ∧ j = boxMat en F := by
    intro j hj
    rcases List.mem_append.1 hj with h | h
    · obtain ⟨k, hk, rfl⟩ := List.mem_map.1 h
      exact ⟨_, List.mem_append_left _ (List.mem_map.2 ⟨k, hk, rfl⟩), rfl⟩
    · obtain ⟨k, hk, rfl⟩ := List.mem_map.1 h
      exact ⟨_, List.mem_append_right _ (List.mem_map.2 ⟨k, hk, rfl⟩), rfl⟩
  have hsol := dark_solves (boxMat en (lossyH γ δq κ δm g)) _ (fun k => groundKet (en k)) (by
      funext k
      rw [hmul]
      exact ground_action γ δq κ δm g c hc _) (by
      intro j hj
      obtain ⟨F, hF, rfl⟩ := hJmem j hj
      funext k
      rw [hmul]
      exact (single_jumps γ κ c hc F hF).1 _ (hbox k)) (by
      rw [← sum_enum en (fun s => groundKet s * conj (groundKet s)), sum_ground_box c hc (fun s => groundKet s * conj (groundKet s)) fun s h => by simp only [groundKet, if_neg h, zero_mul]]
      simp [groundKet, q]) hcons T (fun t k => singleKet (a t) (b t) (en k)) (by
      intro t h0 h1 k
      rw [hmul, single_action γ δq κ δm g c hc _ _ _ (hbox k)]
      obtain ⟨h2, h3⟩ := hab t h0 h1
      unfold singleKet
      split_ifs
      · exact h2
      · exact h3
      · exact hasDerivAt_const t 0) (by
      intro t j hj
      obtain ⟨F, hF, rfl⟩ := hJmem j hj
      obtain ⟨r, hr⟩ := (single_jumps γ κ c hc F hF).2 (a t) (b t)
      refine ⟨r, ?_⟩
      funext k
      rw [hmul]
      exact hr _ (hbox k))
  have e : (fun t => Matrix.of fun i j => singleState (a t) (b t) (en i) (en j)) = fun t => vecMulVec (fun k => singleKet (a t) (b t) (en k)) (star fun k => singleKet (a t) (b t) (en k)) +
      (1 - ∑ k, singleKet (a t) (b t) (en k) * conj (singleKet (a t) (b t) (en k))) • vecMulVec (fun k => groundKet (en k)) (star fun k => groundKet (en k)) := by
    funext t
    have hn : ∑ k, singleKet (a t) (b t) (en k) * conj (singleKet (a t) (b t) (en k)) = Complex.normSq (a t) + Complex.normSq (b t) := by
      rw [← sum_enum en (fun s => singleKet (a t) (b t) s * conj (singleKet (a t) (b t) s))]
      have := single_sum c hc (a t) (b t) fun s => conj (singleKet (a t) (b t) s)
      simp only [mul_comm (conj _)] at this
      rw [this]
      simp [singleKet, q, Complex.mul_conj]
    rw [hn]
    ext i j
    rw [Matrix.of_apply, Matrix.add_apply, vecMulVec_apply, Matrix.smul_apply, vecMulVec_apply, smul_eq_mul, Pi.star_apply, Pi.star_apply, Complex.star_def]
    unfold singleState
    ring
  rw [e]
  exact hsol

theorem single_trace (c : ℕ) (hc : 1 < c) {N : ℕ} {lb ub : List ℤ} (hl : lb = lower [2, c]) (hu : ub = upper [2, c]) (en : Enum lb ub N) (a b : ℂ) :
    (Matrix.of fun i j : Fin N => singleState a b (en i) (en j)).trace = 1 := by
  subst hl hu
  rw [Matrix.trace]
  simp only [Matrix.diag_apply, Matrix.of_apply, singleState]
  rw [Finset.sum_add_distrib, ← Finset.mul_sum, ← sum_enum en (fun s => singleKet a b s * conj (singleKet a b s)), ← sum_enum en (fun s => groundKet s * conj (groundKet s)),
    sum_ground_box c hc (fun s => groundKet s * conj (groundKet s)) fun s h => by simp only [groundKet, if_neg h, zero_mul]]
  have := single_sum c hc a b fun s => conj (singleKet a b s)
  simp only [mul_comm (conj _)] at this
  rw [this]
  simp [singleKet, groundKet, q, Complex.mul_conj]

theorem single_posSemidef {N : ℕ} {lb ub : List ℤ} (en : Enum lb ub N) (a b : ℂ) (h : Complex.normSq a + Complex.normSq b ≤ 1) :
    (Matrix.of fun i j : Fin N => singleState a b (en i) (en j)).PosSemidef := by
  have e : (Matrix.of fun i j : Fin N => singleState a b (en i) (en j)) = vecMulVec (fun k => singleKet a b (en k)) (star fun k => singleKet a b (en k)) +
      (((1 - Complex.normSq a - Complex.normSq b : ℝ)) : ℂ) • vecMulVec (fun k => groundKet (en k)) (star fun k => groundKet (en k)) := by
    ext i j
    rw [Matrix.of_apply, Matrix.add_apply, vecMulVec_apply, Matrix.smul_apply, vecMulVec_apply, smul_eq_mul, Pi.star_apply, Pi.star_apply, Complex.star_def]
    unfold singleState
    push_cast
    ring
  rw [e]
  refine (Matrix.posSemidef_vecMulVec_self_star _).add ((Matrix.posSemidef_vecMulVec_self_star _).smul ?_)
  exact_mod_cast (by linarith : (0 : ℝ) ≤ 1 - Complex.normSq a - Complex.normSq b)

/-- **C171.** The lossy Jaynes-Cummings system without pumps at zero temperature in Master-equation trajectories, started with one excitation (or with none with some probability): whatever the cutoff of the mode from two on, the
excitation is in the atom and in the mode with amplitudes obeying the equations of two coupled damped classical oscillators, and what is missing from the norm is in the state without excitation, up to the error of the stepper. -/
theorem jaynesCummings_single.{v} (pq : QbitEl.Pars) (pm : ModeEl.Pars) (g : ℂ) (qmq qmm : Picture) (hq : qmq = .sch ↔ qmm = .sch) (hγ : 0 ≤ pq.gamma) (hηq : pq.eta = 0) (hηm : pm.eta = 0)
    (hd : pm.cutoff < 2 ^ 63) (hc : 1 < pm.cutoff) (hκ : 0 ≤ pm.kappa) (hn : pm.nTh = 0) (hK : pm.omegaKerr = 0) (hA : pm.omegaKerrAlter = 0) (hpq : qmq ≠ .ip ∨ pq.gamma = 0) (hpm : qmm ≠ .ip ∨ pm.kappa = 0) :
    ∃ e0 e1 ia, QbitEl.make pq qmq = .ok e0 ∧ makePumpedLossy pm qmm = .ok e1 ∧ jaynesCummings [0, 1] (aop (qbitPtr pq qmq)) (modePtr pm qmm) g = .ok ia ∧ e0.dim = 2 ∧ e1.dim = pm.cutoff ∧
      ∀ (implemented : ℕ → Bool) (N : ℕ) (en : Enum (binary e0 e1 ia).lb (binary e0 e1 ia).ub N) (T : ℝ), 0 ≤ T → ∃ C, 0 ≤ C ∧
        ∀ a b : ℝ → ℂ, Amplitudes pq.gamma pq.delta pm.kappa pm.delta g T a b → Complex.normSq (a 0) + Complex.normSq (b 0) ≤ 1 →
          ∀ rho : Rho N, (∀ i j, rho i j = singleState (a 0) (b 0) (en i) (en j)) →
            (∃ x, Reached.{v} ((binary e0 e1 ia).toSys implemented en) C T 0 rho x) ∧
            ∀ ε x, Reached.{v} ((binary e0 e1 ia).toSys implemented en) C T ε rho x → ∀ i j, ‖x i j - singleState (a T) (b T) (en i) (en j)‖ ≤ C * ε := by
  obtain ⟨e0, e1, ia, b1, b2, b3, b4⟩ := jaynesCummings_normalised.{v} pq pm g qmq qmm hq hγ hd (by omega) hκ hn.ge hK hA hpq hpm
  obtain ⟨_, e0', c0, d0, -⟩ := qbit_free pq hγ qmq
  obtain ⟨e1', c1, d1, -⟩ := mode_free pm hd (by omega) hκ hn.ge hK hA qmm
  rw [b1, Outcome.ok.injEq] at c0
  rw [b2, Outcome.ok.injEq] at c1
  subst c0 c1
  have hlb : (binary e0 e1 ia).lb = lower [2, pm.cutoff] := by rw [← d0, ← d1]; rfl
  have hub : (binary e0 e1 ia).ub = upper [2, pm.cutoff] := by rw [← d0, ← d1]; rfl
  refine ⟨e0, e1, ia, b1, b2, b3, d0, d1, fun implemented N en T hT => ?_⟩
  have h := b4 implemented N en
  have hH : (fun i j => tensor (qbitH pq.gamma pq.delta pq.eta) Spec.one i j + tensor Spec.one (modeH (pm.kappa * (2 * pm.nTh + 1)) pm.delta pm.eta) i j + jcH g sigma sigmaDag i j) =
      lossyH pq.gamma pq.delta pm.kappa pm.delta g := by
    rw [hηq, hηm, hn, mul_zero, zero_add, mul_one]; rfl
  rw [hH, hn] at h
  have hs : (fun i j => conj (sigma j i)) = sigmaDag := by
    funext i j; simp only [sigma, sigmaDag]; split_ifs <;> simp_all
  have hcons : Conserving (boxMat en (lossyH pq.gamma pq.delta pm.kappa pm.delta g)) ((modeJ pq.gamma 0).map (fun j => boxMat en (tensor j Spec.one)) ++ (modeJ pm.kappa 0).map (fun j => boxMat en (tensor Spec.one j))) := by
    refine binary_conserving e0 e1 ia (by rw [d0]; norm_num) (by rw [d1]; omega) en ?_ ?_ (antiHermitian_jcH g sigma sigmaDag fun i j => congrFun (congrFun hs i) j)
    · rw [d0]
      have := mode_conserving 2 (by norm_num) pq.gamma hγ pq.delta (-0)
      rwa [QbitEl.qbitH_eq] at this
    · rw [d1]
      exact mode_conserving pm.cutoff (by omega) pm.kappa hκ pm.delta 0
  obtain ⟨C, hC, H⟩ := reached_close h T hT
  refine ⟨C, hC, fun a b hab h1 rho hrho => ?_⟩
  have hsol := single_solves pq.gamma pq.delta pm.kappa pm.delta g pm.cutoff hc hlb hub en T a b hab hcons
  have hini : (Matrix.of fun i j : Fin N => singleState (a 0) (b 0) (en i) (en j)) = rho := by
    ext i j
    rw [Matrix.of_apply, hrho]
  have htr := single_trace pm.cutoff hc hlb hub en
  have hpsd : rho.PosSemidef := by rw [← hini]; exact single_posSemidef en _ _ h1
  have htr0 : rho.trace = 1 := by rw [← hini]; exact htr _ _
  refine ⟨reached_exists h C T hT rho hpsd htr0, fun ε x hx i j => ?_⟩
  obtain ⟨-, -, -, ρ, hs, hz, hcl⟩ := H C ε rho x le_rfl hx
  have u1 := sol_unique _ _ 0 T hT ρ fun r a b => hs r a (by linarith)
  have u2 := sol_unique _ _ 0 T hT _ fun r a b => hsol r a (by linarith)
  simp only [zero_add] at u1 u2
  rw [hz] at u1
  rw [hini, ← u1] at u2
  have hTT := htr (a T) (b T)
  have := hcl i j
  unfold normalised at this
  rw [Matrix.of_apply, ← u2, hTT, div_one, Matrix.of_apply] at this
  exact this

/-- What the displayed values of such states are: the probability of the excited atom, and of a photon. -/
theorem singleState_populations (a b : ℂ) : singleState a b [1, 0] [1, 0] = Complex.normSq a ∧ singleState a b [0, 1] [0, 1] = Complex.normSq b ∧
    singleState a b [0, 0] [0, 0] = 1 - Complex.normSq a - Complex.normSq b ∧ singleState a b [1, 0] [0, 1] = a * conj b := by
  simp [singleState, singleKet, groundKet, q, Complex.mul_conj]

/-- Instance: an atom excited initially in a lossy cavity. -/
example : ∃ e0 e1 ia, QbitEl.make ⟨1, 0.1, 0, 0⟩ .uip = .ok e0 ∧ makePumpedLossy ⟨2, 3, 0, 0, 0.5, 0, 0⟩ .uip = .ok e1 ∧
    jaynesCummings [0, 1] (aop (qbitPtr ⟨1, 0.1, 0, 0⟩ .uip)) (modePtr ⟨2, 3, 0, 0, 0.5, 0, 0⟩ .uip) (2 + Complex.I) = .ok ia ∧
    ∀ (implemented : ℕ → Bool) (N : ℕ) (en : Enum (binary e0 e1 ia).lb (binary e0 e1 ia).ub N), ∃ C a b, Amplitudes 0.1 1 0.5 3 (2 + Complex.I) 7 a b ∧ a 0 = 1 ∧ b 0 = 0 ∧
      ∃ x, Reached.{0} ((binary e0 e1 ia).toSys implemented en) C 7 0 (Matrix.of fun i j => singleState 1 0 (en i) (en j)) x := by
  obtain ⟨e0, e1, ia, h1, h2, h3, -, -, h⟩ := jaynesCummings_single.{0} ⟨1, 0.1, 0, 0⟩ ⟨2, 3, 0, 0, 0.5, 0, 0⟩ (2 + Complex.I) .uip .uip (by simp) (by norm_num) rfl rfl (by norm_num) (by norm_num) (by norm_num) rfl rfl rfl
    (Or.inl (by decide)) (Or.inl (by decide))
  refine ⟨e0, e1, ia, h1, h2, h3, fun implemented N en => ?_⟩
  obtain ⟨C, -, H⟩ := h implemented N en 7 (by norm_num)
  obtain ⟨a, b, hab, ha, hb⟩ := amplitudes_exist 0.1 1 0.5 3 (2 + Complex.I) 7 1 0
  refine ⟨C, a, b, hab, ha, hb, ?_⟩
  exact (H a b hab (by rw [ha, hb]; simp) _ (fun i j => by rw [ha, hb]; rfl)).1

end CppQED.Interactions
