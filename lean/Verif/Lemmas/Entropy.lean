import Mathlib.Analysis.Matrix.Spectrum
import Mathlib.Analysis.Matrix.PosDef
import Mathlib.Analysis.Matrix.Order
import Mathlib.Analysis.SpecialFunctions.Log.NegMulLog
import Mathlib.Analysis.Convex.Jensen
import Mathlib.LinearAlgebra.Matrix.Kronecker
import Mathlib.Algebra.Order.Chebyshev
import Mathlib.LinearAlgebra.Matrix.Charpoly.Eigs
import Mathlib.Analysis.Complex.Polynomial.Basic

/-! Helper lemmas on entropies: the Gibbs inequality, concavity under a change of basis, subadditivity. -/

namespace CppQED.Entropy
open ComplexConjugate Matrix
open scoped ComplexOrder Kronecker

/-- one term of the Gibbs inequality -/
theorem gibbs_term {p q : ℝ} (hp : 0 ≤ p) (hq : 0 ≤ q) (h0 : q = 0 → p = 0) :
    Real.negMulLog p + p * Real.log q ≤ q - p ∧ (Real.negMulLog p + p * Real.log q = q - p → p = q) := by
  rcases hp.eq_or_lt with rfl | hp'
  · refine ⟨by simpa using hq, fun h => by simpa using h⟩
  · have hq' : 0 < q := lt_of_le_of_ne hq (fun h => hp'.ne' (h0 h.symm))
    have e : Real.negMulLog p + p * Real.log q = p * Real.log (q / p) := by
      rw [Real.negMulLog, Real.log_div hq'.ne' hp'.ne']; ring
    have e2 : q - p = p * (q / p - 1) := by field_simp
    have hqp : 0 < q / p := by positivity
    rw [e, e2]
    refine ⟨mul_le_mul_of_nonneg_left (Real.log_le_sub_one_of_pos hqp) hp, fun h => ?_⟩
    by_contra hne
    have h1 : q / p ≠ 1 := fun h1 => hne (by rw [div_eq_one_iff_eq hp'.ne'] at h1; exact h1.symm)
    have := mul_lt_mul_of_pos_left (Real.log_lt_sub_one_of_pos hqp h1) hp'
    linarith

/-- subadditivity of the classical entropy, with the case of equality -/
theorem classical_subadd {A B : Type*} [Fintype A] [Fintype B] (P : A × B → ℝ) (hP : ∀ x, 0 ≤ P x) (h1 : ∑ x, P x = 1)
    (a : A → ℝ) (b : B → ℝ) (ha : ∀ i, a i = ∑ j, P (i, j)) (hb : ∀ j, b j = ∑ i, P (i, j)) :
    ∑ x, Real.negMulLog (P x) ≤ ∑ i, Real.negMulLog (a i) + ∑ j, Real.negMulLog (b j) ∧
    (∑ x, Real.negMulLog (P x) = ∑ i, Real.negMulLog (a i) + ∑ j, Real.negMulLog (b j) → ∀ i j, P (i, j) = a i * b j) := by
  have ha0 : ∀ i, 0 ≤ a i := fun i => by rw [ha]; exact Finset.sum_nonneg fun j _ => hP _
  have hb0 : ∀ j, 0 ≤ b j := fun j => by rw [hb]; exact Finset.sum_nonneg fun i _ => hP _
  have hPa : ∀ i j, P (i, j) ≤ a i := fun i j => by
    rw [ha]; exact Finset.single_le_sum (f := fun j => P (i, j)) (fun j _ => hP _) (Finset.mem_univ j)
  have hPb : ∀ i j, P (i, j) ≤ b j := fun i j => by
    rw [hb]; exact Finset.single_le_sum (f := fun i => P (i, j)) (fun j _ => hP _) (Finset.mem_univ i)
  have hz : ∀ x : A × B, a x.1 * b x.2 = 0 → P x = 0 := by
    rintro ⟨i, j⟩ h
    rcases mul_eq_zero.1 h with h | h
    · exact le_antisymm (h ▸ hPa i j) (hP _)
    · exact le_antisymm (h ▸ hPb i j) (hP _)
  have hlog : ∑ x : A × B, P x * Real.log (a x.1 * b x.2) = - (∑ i, Real.negMulLog (a i) + ∑ j, Real.negMulLog (b j)) := by
    have e : ∀ x : A × B, P x * Real.log (a x.1 * b x.2) = P x * Real.log (a x.1) + P x * Real.log (b x.2) := by
      intro x
      by_cases h : a x.1 * b x.2 = 0
      · rw [hz x h]; simp
      · rw [Real.log_mul (left_ne_zero_of_mul h) (right_ne_zero_of_mul h)]; ring
    simp only [e, Finset.sum_add_distrib]
    rw [neg_add]
    congr 1
    · rw [Fintype.sum_prod_type, ← Finset.sum_neg_distrib]
      apply Finset.sum_congr rfl
      intro i _
      change ∑ y, P (i, y) * Real.log (a i) = _
      rw [← Finset.sum_mul, ← ha, Real.negMulLog]; ring
    · rw [Fintype.sum_prod_type_right, ← Finset.sum_neg_distrib]
      apply Finset.sum_congr rfl
      intro j _
      change ∑ x, P (x, j) * Real.log (b j) = _
      rw [← Finset.sum_mul, ← hb, Real.negMulLog]; ring
  have hsa : ∑ i, a i = 1 := by rw [← h1, Fintype.sum_prod_type]; exact Finset.sum_congr rfl fun i _ => ha i
  have hsb : ∑ j, b j = 1 := by rw [← h1, Fintype.sum_prod_type_right]; exact Finset.sum_congr rfl fun i _ => hb i
  have hs : ∑ x : A × B, (a x.1 * b x.2 - P x) = 0 := by
    rw [Finset.sum_sub_distrib, h1, Fintype.sum_prod_type]
    simp only [← Finset.mul_sum, hsb, mul_one, hsa, sub_self]
  have g := fun x : A × B => gibbs_term (hP x) (mul_nonneg (ha0 x.1) (hb0 x.2)) (hz x)
  have hle := Finset.sum_le_sum (s := Finset.univ) fun x _ => (g x).1
  rw [hs, Finset.sum_add_distrib, hlog] at hle
  refine ⟨by linarith, fun h i j => ?_⟩
  apply (g (i, j)).2
  have := (Finset.sum_eq_sum_iff_of_le (s := Finset.univ) fun x _ => (g x).1).1 (by rw [hs, Finset.sum_add_distrib, hlog]; linarith)
  exact this (i, j) (Finset.mem_univ _)

/-- The entropy increases under a doubly stochastic mixing coming from a unitary, with the case of equality. -/
theorem mixing {n m : Type*} [Fintype n] [Fintype m] (Q : n → m → ℝ) (hQ : ∀ k l, 0 ≤ Q k l) (hr : ∀ k, ∑ l, Q k l = 1) (hc : ∀ l, ∑ k, Q k l = 1)
    (p : n → ℝ) (hp : ∀ k, 0 ≤ p k) (P : m → ℝ) (hP : ∀ l, P l = ∑ k, Q k l * p k) :
    ∑ k, Real.negMulLog (p k) ≤ ∑ l, Real.negMulLog (P l) ∧
    (∑ k, Real.negMulLog (p k) = ∑ l, Real.negMulLog (P l) → ∀ k l, Q k l ≠ 0 → p k = P l) := by
  have hj : ∀ l, ∑ k, Q k l * Real.negMulLog (p k) ≤ Real.negMulLog (P l) := by
    intro l
    have := Real.concaveOn_negMulLog.le_map_sum (t := Finset.univ) (w := fun k => Q k l) (p := p) (fun k _ => hQ k l) (hc l) (fun k _ => hp k)
    simpa only [smul_eq_mul, ← hP] using this
  have hsum : ∑ l, ∑ k, Q k l * Real.negMulLog (p k) = ∑ k, Real.negMulLog (p k) := by
    rw [Finset.sum_comm]
    apply Finset.sum_congr rfl
    intro k _
    rw [← Finset.sum_mul, hr, one_mul]
  refine ⟨by rw [← hsum]; exact Finset.sum_le_sum fun l _ => hj l, fun h k l hkl => ?_⟩
  rw [← hsum] at h
  have h' := (Finset.sum_eq_sum_iff_of_le (s := Finset.univ) fun l _ => hj l).1 h l (Finset.mem_univ l)
  have := (Real.strictConcaveOn_negMulLog.map_sum_eq_iff' (t := Finset.univ) (w := fun k => Q k l) (p := p) (fun k _ => hQ k l) (hc l) (fun k _ => hp k)).1
    (by simp only [smul_eq_mul, ← hP]; exact h'.symm)
  have := this k (Finset.mem_univ k) hkl
  rw [this]; simp only [smul_eq_mul, ← hP]

/-- Entropy of a matrix from the roots of its characteristic polynomial. -/
noncomputable def vN {n : Type*} [Fintype n] [DecidableEq n] (M : Matrix n n ℂ) : ℝ := (M.charpoly.roots.map (fun e => Real.negMulLog e.re)).sum

section
variable {n : Type*} [Fintype n] [DecidableEq n]

theorem charpoly_diag (U : Matrix n n ℂ) (hU : U * Uᴴ = 1) (d : n → ℂ) :
    (U * diagonal d * Uᴴ).charpoly = ∏ k, (Polynomial.X - Polynomial.C (d k)) := by
  have hU' : Uᴴ * U = 1 := mul_eq_one_comm.1 hU
  rw [charpoly_mul_comm, ← mul_assoc, hU', one_mul, charpoly_diagonal]

theorem vN_diag (U : Matrix n n ℂ) (hU : U * Uᴴ = 1) (d : n → ℝ) :
    vN (U * diagonal (fun k => (d k : ℂ)) * Uᴴ) = ∑ k, Real.negMulLog (d k) := by
  rw [vN, charpoly_diag U hU, Polynomial.roots_prod _ _ (Finset.prod_ne_zero_iff.2 fun k _ => Polynomial.X_sub_C_ne_zero _)]
  simp only [Polynomial.roots_X_sub_C, Multiset.bind_singleton, Multiset.map_map, Function.comp_def, Complex.ofReal_re]
  rfl

/-- the entropy of `AB` and `BA` -/
theorem vN_mul_comm {m : Type*} [Fintype m] [DecidableEq m] (A : Matrix m n ℂ) (B : Matrix n m ℂ) : vN (A * B) = vN (B * A) := by
  have h := congrArg Polynomial.roots (charpoly_mul_comm' A B)
  rw [Polynomial.roots_mul (mul_ne_zero (pow_ne_zero _ Polynomial.X_ne_zero) (charpoly_monic _).ne_zero),
    Polynomial.roots_mul (mul_ne_zero (pow_ne_zero _ Polynomial.X_ne_zero) (charpoly_monic _).ne_zero), Polynomial.roots_X_pow, Polynomial.roots_X_pow] at h
  have h' := congrArg (fun s => (Multiset.map (fun e : ℂ => Real.negMulLog e.re) s).sum) h
  simp only [Multiset.map_add, Multiset.sum_add, Multiset.map_nsmul, Multiset.sum_nsmul, Multiset.map_singleton, Multiset.sum_singleton,
    Complex.zero_re, Real.negMulLog_zero, smul_zero, zero_add] at h'
  exact h'

theorem vN_transpose (M : Matrix n n ℂ) : vN Mᵀ = vN M := by rw [vN, charpoly_transpose, vN]

theorem vN_reindex {m : Type*} [Fintype m] [DecidableEq m] (e : n ≃ m) (M : Matrix n n ℂ) : vN (reindex e e M) = vN M := by
  rw [vN, charpoly_reindex, vN]

theorem exists_diag {M : Matrix n n ℂ} (hM : M.PosSemidef) : ∃ (U : Matrix n n ℂ) (d : n → ℝ), U * Uᴴ = 1 ∧ (∀ k, 0 ≤ d k) ∧
    M = U * diagonal (fun k => (d k : ℂ)) * Uᴴ := by
  refine ⟨hM.1.eigenvectorUnitary, hM.1.eigenvalues, ?_, hM.eigenvalues_nonneg, ?_⟩
  · exact Unitary.coe_mul_star_self hM.1.eigenvectorUnitary
  · exact hM.1.spectral_theorem

/-- diagonal elements in another orthonormal basis -/
theorem diag_basis {m : Type*} [Fintype m] [DecidableEq m] {M : Matrix n n ℂ} {U : Matrix n n ℂ} {d : n → ℝ} (hM : M = U * diagonal (fun k => (d k : ℂ)) * Uᴴ)
    (W : Matrix n m ℂ) (l : m) : (Wᴴ * M * W) l l = ((∑ k, Complex.normSq ((Uᴴ * W) k l) * d k : ℝ) : ℂ) := by
  have : Wᴴ * M * W = (Uᴴ * W)ᴴ * diagonal (fun k => (d k : ℂ)) * (Uᴴ * W) := by
    rw [hM, conjTranspose_mul, conjTranspose_conjTranspose]; simp only [Matrix.mul_assoc]
  rw [this, Matrix.mul_apply]
  push_cast
  apply Finset.sum_congr rfl
  intro k _
  rw [mul_diagonal, conjTranspose_apply, Complex.normSq_eq_conj_mul_self, Complex.star_def]; ring

theorem normSq_col {T : Matrix n n ℂ} (h : Tᴴ * T = 1) (l : n) : ∑ k, Complex.normSq (T k l) = 1 := by
  have := congrFun (congrFun h l) l
  rw [Matrix.mul_apply, one_apply_eq] at this
  have := congrArg Complex.re this
  simpa only [Complex.re_sum, conjTranspose_apply, Complex.star_def, ← Complex.normSq_eq_conj_mul_self, Complex.ofReal_re, Complex.one_re] using this

theorem normSq_row {T : Matrix n n ℂ} (h : T * Tᴴ = 1) (k : n) : ∑ l, Complex.normSq (T k l) = 1 := by
  have := normSq_col (T := Tᴴ) (by rwa [conjTranspose_conjTranspose]) k
  simpa only [conjTranspose_apply, Complex.star_def, Complex.normSq_conj] using this

/-- a pure state has no entropy -/
theorem vN_dyad (psi : n → ℂ) (hpsi : ∑ x, Complex.normSq (psi x) = 1) : vN (fun x y => psi x * conj (psi y)) = 0 := by
  have e : (fun x y => psi x * conj (psi y)) = Matrix.of (fun x (_ : Unit) => psi x) * Matrix.of (fun (_ : Unit) y => conj (psi y)) := by
    ext x y; simp [Matrix.mul_apply]
  rw [e, vN_mul_comm]
  have e2 : Matrix.of (fun (_ : Unit) y => conj (psi y)) * Matrix.of (fun x (_ : Unit) => psi x) = 1 * diagonal (fun _ => ((1 : ℝ) : ℂ)) * (1 : Matrix Unit Unit ℂ)ᴴ := by
    ext x y
    simp only [Matrix.mul_apply, of_apply, ← Complex.normSq_eq_conj_mul_self]
    rw [← Complex.ofReal_sum, hpsi]; simp
  rw [e2, vN_diag _ (by simp)]; simp

/-- the purity of a density matrix -/
theorem purity_spec {M : Matrix n n ℂ} (hM : M.PosSemidef) (ht : M.trace = 1) :
    1 / (Fintype.card n : ℝ) ≤ ∑ i, ∑ j, Complex.normSq (M i j) ∧ ∑ i, ∑ j, Complex.normSq (M i j) ≤ 1 ∧
    (∑ i, ∑ j, Complex.normSq (M i j) = 1 ↔ ∃ φ : n → ℂ, ∀ i j, M i j = φ i * conj (φ j)) := by
  obtain ⟨U, d, hU, hd, e⟩ := exists_diag hM
  have hU' : Uᴴ * U = 1 := mul_eq_one_comm.1 hU
  have t1 : ∑ i, d i = 1 := by
    have ht' := ht
    rw [e, trace_mul_comm, ← Matrix.mul_assoc, hU', Matrix.one_mul, trace_diagonal] at ht'
    exact_mod_cast ht'
  have hs : ∑ i, ∑ j, Complex.normSq (M i j) = ∑ k, d k ^ 2 := by
    have e1 : (M * Mᴴ).trace = ((∑ i, ∑ j, Complex.normSq (M i j) : ℝ) : ℂ) := by
      rw [trace]; push_cast
      refine Finset.sum_congr rfl fun i _ => ?_
      rw [diag_apply, Matrix.mul_apply]
      refine Finset.sum_congr rfl fun j _ => ?_
      rw [conjTranspose_apply, Complex.star_def, Complex.mul_conj]
    have e2 : (M * Mᴴ).trace = ((∑ k, d k ^ 2 : ℝ) : ℂ) := by
      rw [hM.1.eq, e, Matrix.mul_assoc, trace_mul_comm]
      have : Uᴴ * (U * diagonal (fun k => (d k : ℂ)) * Uᴴ) * (U * diagonal (fun k => (d k : ℂ))) = diagonal (fun k => (d k : ℂ) * d k) := by
        rw [← diagonal_mul_diagonal]
        calc _ = (Uᴴ * U) * diagonal (fun k => (d k : ℂ)) * (Uᴴ * U) * diagonal (fun k => (d k : ℂ)) := by simp only [Matrix.mul_assoc]
          _ = _ := by rw [hU', Matrix.mul_one, Matrix.one_mul]
      rw [this, trace_diagonal]; push_cast
      exact Finset.sum_congr rfl fun k _ => by ring
    exact_mod_cast e1.symm.trans e2
  have d1 : ∀ k, d k ≤ 1 := fun k => t1 ▸ Finset.single_le_sum (fun k _ => hd k) (Finset.mem_univ k)
  have hle : ∀ k, d k ^ 2 ≤ d k := fun k => by nlinarith [hd k, d1 k]
  have hne : Nonempty n := by
    by_contra h
    rw [not_nonempty_iff] at h
    simp at t1
  rw [hs]
  refine ⟨?_, t1 ▸ Finset.sum_le_sum fun k _ => hle k, ?_, ?_⟩
  · have := sq_sum_le_card_mul_sum_sq (s := (Finset.univ : Finset n)) (f := d)
    rw [t1, Finset.card_univ] at this
    rw [div_le_iff₀ (by exact_mod_cast Fintype.card_pos)]
    linarith
  · intro h
    have h01 : ∀ k, d k ^ 2 = d k := fun k => (Finset.sum_eq_sum_iff_of_le (s := Finset.univ) fun k _ => hle k).1 (h.trans t1.symm) k (Finset.mem_univ k)
    obtain ⟨k, -, hk⟩ := Finset.exists_ne_zero_of_sum_ne_zero (by rw [t1]; exact one_ne_zero : ∑ i, d i ≠ 0)
    have hk1 : d k = 1 := by
      have := h01 k
      have h2 : d k * (d k - 1) = 0 := by linarith
      rcases mul_eq_zero.1 h2 with h3 | h3
      · exact absurd h3 hk
      · linarith
    have hk0 : ∀ l, l ≠ k → d l = 0 := by
      intro l hl
      have := Finset.add_sum_erase Finset.univ d (Finset.mem_univ k)
      rw [t1, hk1] at this
      have h0 : ∑ x ∈ Finset.univ.erase k, d x = 0 := by linarith
      exact (Finset.sum_eq_zero_iff_of_nonneg (fun x _ => hd x)).1 h0 l (Finset.mem_erase.2 ⟨hl, Finset.mem_univ l⟩)
    refine ⟨fun i => U i k, fun i j => ?_⟩
    rw [e, Matrix.mul_apply, Finset.sum_eq_single k]
    · rw [mul_diagonal, hk1, conjTranspose_apply, Complex.star_def]; simp
    · intro l _ hl
      rw [mul_diagonal, hk0 l hl]; simp
    · simp
  · rintro ⟨φ, h⟩
    have hφ : ∑ i, Complex.normSq (φ i) = 1 := by
      rw [trace] at ht
      simp only [diag_apply, h, Complex.mul_conj] at ht
      exact_mod_cast ht
    rw [← hs]
    simp only [h, Complex.normSq_mul, Complex.normSq_conj, ← Finset.mul_sum, hφ, mul_one]

end

section
variable {A B : Type*} [Fintype A] [DecidableEq A] [Fintype B] [DecidableEq B]

/-- the partial traces -/
def margA (M : Matrix (A × B) (A × B) ℂ) : Matrix A A ℂ := fun i i' => ∑ j, M (i, j) (i', j)
def margB (M : Matrix (A × B) (A × B) ℂ) : Matrix B B ℂ := fun j j' => ∑ i, M (i, j) (i, j')

theorem margA_diag (M : Matrix (A × B) (A × B) ℂ) (UA : Matrix A A ℂ) (UB : Matrix B B ℂ) (hB : UB * UBᴴ = 1) (i : A) :
    ∑ j, ((UA ⊗ₖ UB)ᴴ * M * (UA ⊗ₖ UB)) (i, j) (i, j) = (UAᴴ * margA M * UA) i i := by
  have hB' : ∀ y y', ∑ j, UB y' j * star (UB y j) = if y' = y then 1 else 0 := by
    intro y y'
    have := congrFun (congrFun hB y') y
    rw [Matrix.mul_apply, Matrix.one_apply] at this
    simpa only [conjTranspose_apply] using this
  have e1 : ∀ j, ((UA ⊗ₖ UB)ᴴ * M * (UA ⊗ₖ UB)) (i, j) (i, j) =
      ∑ x', ∑ y', ∑ x, ∑ y, (star (UA x i) * M (x, y) (x', y') * UA x' i) * (UB y' j * star (UB y j)) := by
    intro j
    rw [Matrix.mul_apply, Fintype.sum_prod_type]
    refine Finset.sum_congr rfl fun x' _ => Finset.sum_congr rfl fun y' _ => ?_
    rw [Matrix.mul_apply, Fintype.sum_prod_type, Finset.sum_mul]
    refine Finset.sum_congr rfl fun x _ => ?_
    rw [Finset.sum_mul]
    refine Finset.sum_congr rfl fun y _ => ?_
    rw [conjTranspose_apply, kroneckerMap_apply, kroneckerMap_apply, star_mul']
    ring
  simp only [e1]
  rw [Finset.sum_comm]
  rw [Matrix.mul_apply]
  refine Finset.sum_congr rfl fun x' _ => ?_
  rw [Finset.sum_comm, Matrix.mul_apply, Finset.sum_mul]
  simp only [margA, Finset.mul_sum, Finset.sum_mul]
  rw [Finset.sum_comm (s := (Finset.univ : Finset A))]
  refine Finset.sum_congr rfl fun y' _ => ?_
  rw [Finset.sum_comm]
  refine Finset.sum_congr rfl fun x _ => ?_
  rw [Finset.sum_comm]
  simp only [← Finset.mul_sum, hB']
  rw [Finset.sum_eq_single y']
  · simp [conjTranspose_apply]
  · intro y _ hy; simp [Ne.symm hy]
  · simp

theorem swap_kron (UA : Matrix A A ℂ) (UB : Matrix B B ℂ) : (UA ⊗ₖ UB).submatrix Prod.swap Prod.swap = UB ⊗ₖ UA := by
  ext ⟨x, y⟩ ⟨x', y'⟩; simp [mul_comm]

theorem margB_diag (M : Matrix (A × B) (A × B) ℂ) (UA : Matrix A A ℂ) (UB : Matrix B B ℂ) (hA : UA * UAᴴ = 1) (j : B) :
    ∑ i, ((UA ⊗ₖ UB)ᴴ * M * (UA ⊗ₖ UB)) (i, j) (i, j) = (UBᴴ * margB M * UB) j j := by
  have := margA_diag (M.submatrix Prod.swap Prod.swap) UB UA hA j
  rw [← swap_kron UA UB] at this
  rw [show margB M = margA (M.submatrix Prod.swap Prod.swap) from rfl, ← this]
  have e := Matrix.submatrix_mul_equiv ((UA ⊗ₖ UB)ᴴ * M) (UA ⊗ₖ UB) (Prod.swap) (Equiv.prodComm B A) (Prod.swap)
  have e2 := Matrix.submatrix_mul_equiv ((UA ⊗ₖ UB)ᴴ) M (Prod.swap) (Equiv.prodComm B A) (Prod.swap)
  simp only [Equiv.coe_prodComm] at e e2
  rw [conjTranspose_submatrix, e2, e]
  rfl

/-- subadditivity of the entropy; equality only for products -/
theorem subadd {M : Matrix (A × B) (A × B) ℂ} (hM : M.PosSemidef) (ht : M.trace = 1) (hMA : (margA M).PosSemidef) (hMB : (margB M).PosSemidef) :
    vN M ≤ vN (margA M) + vN (margB M) ∧ (vN M = vN (margA M) + vN (margB M) → M = margA M ⊗ₖ margB M) := by
  obtain ⟨U, p, hU, hp, eM⟩ := exists_diag hM
  obtain ⟨UA, a, hUA, ha, eA⟩ := exists_diag hMA
  obtain ⟨UB, b, hUB, hb, eB⟩ := exists_diag hMB
  have hU' : Uᴴ * U = 1 := mul_eq_one_comm.1 hU
  have hUA' : UAᴴ * UA = 1 := mul_eq_one_comm.1 hUA
  have hUB' : UBᴴ * UB = 1 := mul_eq_one_comm.1 hUB
  set W := UA ⊗ₖ UB with hW
  have hWW : W * Wᴴ = 1 := by
    rw [hW, conjTranspose_kronecker, ← mul_kronecker_mul, hUA, hUB, one_kronecker_one]
  have hWW' : Wᴴ * W = 1 := mul_eq_one_comm.1 hWW
  set T := Uᴴ * W with hT
  have hTT : Tᴴ * T = 1 := by
    rw [hT, conjTranspose_mul, conjTranspose_conjTranspose, Matrix.mul_assoc, ← Matrix.mul_assoc U, hU, Matrix.one_mul, hWW']
  have hTT' : T * Tᴴ = 1 := mul_eq_one_comm.1 hTT
  set P : A × B → ℝ := fun l => ∑ k, Complex.normSq (T k l) * p k with hP
  have hPd : ∀ l, (Wᴴ * M * W) l l = (P l : ℂ) := fun l => diag_basis eM W l
  have ea : ∀ i, a i = ∑ j, P (i, j) := by
    intro i
    have h1 : (UAᴴ * margA M * UA) i i = (a i : ℂ) := by
      have : UAᴴ * (UA * diagonal (fun k => (a k : ℂ)) * UAᴴ) * UA = diagonal (fun k => (a k : ℂ)) := by
        rw [← Matrix.mul_assoc, ← Matrix.mul_assoc, hUA', Matrix.one_mul, Matrix.mul_assoc, hUA', Matrix.mul_one]
      rw [eA, this, diagonal_apply_eq]
    rw [← margA_diag M UA UB hUB, ← hW] at h1
    simp only [hPd] at h1
    exact_mod_cast h1.symm
  have eb : ∀ j, b j = ∑ i, P (i, j) := by
    intro j
    have h1 : (UBᴴ * margB M * UB) j j = (b j : ℂ) := by
      have : UBᴴ * (UB * diagonal (fun k => (b k : ℂ)) * UBᴴ) * UB = diagonal (fun k => (b k : ℂ)) := by
        rw [← Matrix.mul_assoc, ← Matrix.mul_assoc, hUB', Matrix.one_mul, Matrix.mul_assoc, hUB', Matrix.mul_one]
      rw [eB, this, diagonal_apply_eq]
    rw [← margB_diag M UA UB hUA, ← hW] at h1
    simp only [hPd] at h1
    exact_mod_cast h1.symm
  have h1 : ∑ l, P l = 1 := by
    have : (Wᴴ * M * W).trace = 1 := by rw [trace_mul_comm, ← Matrix.mul_assoc, hWW, Matrix.one_mul, ht]
    rw [trace] at this
    simp only [diag_apply, hPd] at this
    exact_mod_cast this
  have hP0 : ∀ l, 0 ≤ P l := fun l => Finset.sum_nonneg fun k _ => mul_nonneg (Complex.normSq_nonneg _) (hp k)
  have c := classical_subadd P hP0 h1 a b ea eb
  have q := mixing (fun k l => Complex.normSq (T k l)) (fun _ _ => Complex.normSq_nonneg _) (normSq_row hTT') (normSq_col hTT) p hp P (fun l => rfl)
  have s1 : vN M = ∑ k, Real.negMulLog (p k) := by rw [eM]; exact vN_diag U hU p
  have s2 : vN (margA M) = ∑ k, Real.negMulLog (a k) := by rw [eA]; exact vN_diag UA hUA a
  have s3 : vN (margB M) = ∑ k, Real.negMulLog (b k) := by rw [eB]; exact vN_diag UB hUB b
  rw [s1, s2, s3]
  refine ⟨q.1.trans c.1, fun h => ?_⟩
  have q2 := q.2 (le_antisymm q.1 (h ▸ c.1))
  have c2 := c.2 (le_antisymm c.1 (h ▸ q.1))
  have key : diagonal (fun k => (p k : ℂ)) * T = T * diagonal (fun l => (P l : ℂ)) := by
    ext k l
    rw [diagonal_mul, mul_diagonal]
    by_cases h0 : T k l = 0
    · rw [h0]; ring
    · rw [q2 k l (fun h => h0 (Complex.normSq_eq_zero.1 h))]; ring
  have hd : diagonal (fun l => (P l : ℂ)) = diagonal (fun k => (a k : ℂ)) ⊗ₖ diagonal (fun k => (b k : ℂ)) := by
    rw [diagonal_kronecker_diagonal]
    congr 1
    ext ⟨i, j⟩
    rw [c2 i j]; push_cast; rfl
  have e1 : M * W = W * diagonal (fun l => (P l : ℂ)) := by
    have : U * T = W := by rw [hT, ← Matrix.mul_assoc, hU, Matrix.one_mul]
    rw [eM, Matrix.mul_assoc, ← hT, Matrix.mul_assoc, key, ← Matrix.mul_assoc, this]
  calc M = M * W * Wᴴ := by rw [Matrix.mul_assoc, hWW, Matrix.mul_one]
    _ = W * diagonal (fun l => (P l : ℂ)) * Wᴴ := by rw [e1]
    _ = margA M ⊗ₖ margB M := by
      conv_rhs => rw [eA, eB]
      rw [hd, hW, conjTranspose_kronecker, mul_kronecker_mul, mul_kronecker_mul]

/-- entropy of products -/
theorem vN_kron {X : Matrix A A ℂ} {Y : Matrix B B ℂ} (hX : X.PosSemidef) (hY : Y.PosSemidef) (tX : X.trace = 1) (tY : Y.trace = 1) :
    vN (X ⊗ₖ Y) = vN X + vN Y := by
  obtain ⟨UA, a, hUA, ha, eA⟩ := exists_diag hX
  obtain ⟨UB, b, hUB, hb, eB⟩ := exists_diag hY
  have t1 : ∑ i, a i = 1 := by
    rw [eA, trace_mul_comm, ← Matrix.mul_assoc, mul_eq_one_comm.1 hUA, Matrix.one_mul, trace_diagonal] at tX
    exact_mod_cast tX
  have t2 : ∑ i, b i = 1 := by
    rw [eB, trace_mul_comm, ← Matrix.mul_assoc, mul_eq_one_comm.1 hUB, Matrix.one_mul, trace_diagonal] at tY
    exact_mod_cast tY
  have e : X ⊗ₖ Y = (UA ⊗ₖ UB) * diagonal (fun l : A × B => ((a l.1 * b l.2 : ℝ) : ℂ)) * (UA ⊗ₖ UB)ᴴ := by
    have : diagonal (fun l : A × B => ((a l.1 * b l.2 : ℝ) : ℂ)) = diagonal (fun k => (a k : ℂ)) ⊗ₖ diagonal (fun k => (b k : ℂ)) := by
      rw [diagonal_kronecker_diagonal]; push_cast; rfl
    rw [this, conjTranspose_kronecker, ← mul_kronecker_mul, ← mul_kronecker_mul, ← eA, ← eB]
  have s2 : vN X = ∑ k, Real.negMulLog (a k) := by rw [eA]; exact vN_diag UA hUA a
  have s3 : vN Y = ∑ k, Real.negMulLog (b k) := by rw [eB]; exact vN_diag UB hUB b
  rw [e, vN_diag _ (by rw [conjTranspose_kronecker, ← mul_kronecker_mul, hUA, hUB, one_kronecker_one]), s2, s3, Fintype.sum_prod_type]
  simp only [Real.negMulLog_mul, Finset.sum_add_distrib, ← Finset.sum_mul, ← Finset.mul_sum, t2, t1, one_mul]

/-- both subsystems of a pure state have the same entropy, and the whole has none -/
theorem vN_pure (psi : A × B → ℂ) (hpsi : ∑ x, Complex.normSq (psi x) = 1) :
    vN (fun x y => psi x * conj (psi y)) = 0 ∧ vN (margA (fun x y => psi x * conj (psi y))) = vN (margB (fun x y => psi x * conj (psi y))) := by
  constructor
  · exact vN_dyad psi hpsi
  · have e1 : margA (fun x y => psi x * conj (psi y)) = Matrix.of (fun i j => psi (i, j)) * (Matrix.of (fun i j => psi (i, j)))ᴴ := by
      ext i i'; simp [margA, Matrix.mul_apply]
    have e2 : margB (fun x y => psi x * conj (psi y)) = ((Matrix.of (fun i j => psi (i, j)))ᴴ * Matrix.of (fun i j => psi (i, j)))ᵀ := by
      ext i i'; simp [margB, Matrix.mul_apply, mul_comm]
    rw [e1, e2, vN_transpose, vN_mul_comm]

end

end CppQED.Entropy
