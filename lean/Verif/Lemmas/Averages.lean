import Verif.Spec.Averages
import Verif.Props.ModeTrace
import Mathlib.LinearAlgebra.Matrix.PosDef
import Mathlib.Analysis.Matrix.PosDef

/-! # Lemmas on averages -/

namespace CppQED.Spec
open CppQED.Elem Matrix
open ComplexConjugate ComplexOrder

variable {ι : Type*} [Fintype ι] [DecidableEq ι]

theorem trace_hermitian_real {A B : Matrix ι ι ℂ} (hA : A.IsHermitian) (hB : B.IsHermitian) : (A * B).trace = ((A * B).trace.re : ℂ) := by
  have : conj (A * B).trace = (A * B).trace := by
    rw [← Complex.star_def, ← Matrix.trace_conjTranspose, Matrix.conjTranspose_mul, hA.eq, hB.eq, Matrix.trace_mul_comm]
  exact (Complex.conj_eq_iff_re.1 this).symm

omit [DecidableEq ι] in
theorem trace_psd_nonneg {A : Matrix ι ι ℂ} (hA : A.PosSemidef) : 0 ≤ A.trace.re := by
  rw [Matrix.trace, Complex.re_sum]
  exact Finset.sum_nonneg fun i _ => (Complex.le_def.1 hA.diag_nonneg).1

/-- The variance is not negative. -/
theorem variance_nonneg {A ρ : Matrix ι ι ℂ} (hA : A.IsHermitian) (hρ : ρ.PosSemidef) (h1 : ρ.trace = 1) : 0 ≤ variance A ρ := by
  set m : ℂ := (mean A ρ : ℂ) with hm
  have hB : (A - m • (1 : Matrix ι ι ℂ)).IsHermitian := by
    unfold Matrix.IsHermitian
    rw [Matrix.conjTranspose_sub, hA.eq, Matrix.conjTranspose_smul, Matrix.conjTranspose_one, hm, Complex.star_def, Complex.conj_ofReal]
  have h := trace_psd_nonneg (hρ.mul_mul_conjTranspose_same (A - m • (1 : Matrix ι ι ℂ)))
  rw [hB.eq] at h
  have e : ((A - m • (1 : Matrix ι ι ℂ)) * ρ * (A - m • (1 : Matrix ι ι ℂ))).trace = (A * A * ρ).trace - 2 * m * (A * ρ).trace + m * m := by
    rw [Matrix.trace_mul_comm, ← Matrix.mul_assoc]
    simp only [Matrix.sub_mul, Matrix.mul_sub, Matrix.smul_mul, Matrix.mul_smul, Matrix.one_mul, Matrix.mul_one, Matrix.trace_sub, Matrix.trace_smul, smul_eq_mul, h1]
    ring
  rw [e] at h
  unfold variance
  have hr : (2 * m * (A * ρ).trace).re = 2 * mean A ρ ^ 2 := by
    rw [hm, show (2 : ℂ) * (mean A ρ : ℂ) = ((2 * mean A ρ : ℝ) : ℂ) by push_cast; rfl, Complex.re_ofReal_mul, pow_two, ← mul_assoc]; rfl
  have hr2 : (m * m).re = mean A ρ ^ 2 := by rw [hm, ← Complex.ofReal_mul, Complex.ofReal_re, pow_two]
  rw [Complex.add_re, Complex.sub_re, hr, hr2] at h
  unfold mean at *
  linarith

/-- The embedding into the space of larger dimension. -/
def embed (d D : ℕ) : Matrix (Fin d) (Fin D) ℂ := Matrix.of fun i k => if (i : ℕ) = k then 1 else 0

theorem mat_pad (d D : ℕ) (rho : Dens) : mat D (pad d rho) = (embed d D)ᴴ * mat d rho * embed d D := by
  ext i j
  rw [Matrix.mul_apply]
  simp only [Matrix.mul_apply, Matrix.conjTranspose_apply, embed, Matrix.of_apply, mat_apply, pad]
  have h1 : ∀ y : Fin d, (∑ x : Fin d, star (if (x : ℕ) = i then (1 : ℂ) else 0) * rho x y) = if (i : ℕ) < d then rho i y else 0 := by
    intro y
    split_ifs with hi
    · rw [Finset.sum_eq_single ⟨i, hi⟩]
      · simp
      · intro b _ hb; rw [if_neg (fun h => hb (Fin.ext h))]; simp
      · simp
    · refine Finset.sum_eq_zero fun b _ => ?_
      rw [if_neg (fun h => hi (by rw [← h]; exact b.2))]; simp
  simp only [h1]
  by_cases hj : (j : ℕ) < d
  · rw [Finset.sum_eq_single ⟨j, hj⟩]
    · by_cases hi : (i : ℕ) < d <;> simp [hi, hj]
    · intro b _ hb; rw [if_neg (fun h => hb (Fin.ext h))]; simp
    · simp
  · rw [if_neg (by tauto)]
    symm
    refine Finset.sum_eq_zero fun b _ => ?_
    rw [if_neg (show ¬ (b : ℕ) = j from fun h => hj (by rw [← h]; exact b.2)), mul_zero]

theorem pad_psd (d D : ℕ) (rho : Dens) (h : (mat d rho).PosSemidef) : (mat D (pad d rho)).PosSemidef := by
  rw [mat_pad]; exact h.conjTranspose_mul_mul_same _

theorem pad_hermitian (d D : ℕ) (rho : Dens) (h : (mat d rho).IsHermitian) : (mat D (pad d rho)).IsHermitian := by
  rw [mat_pad]; exact Matrix.isHermitian_conjTranspose_mul_mul _ h

/-- Expectation values in the padded state. -/
theorem trace_pad (d D : ℕ) (hD : d ≤ D) (A rho : Dens) : (mat D A * mat D (pad d rho)).trace = ∑ i ∈ Finset.range d, ∑ j ∈ Finset.range d, A i j * rho j i := by
  have e : (mat D A * mat D (pad d rho)).trace = ∑ i ∈ Finset.range D, ∑ j ∈ Finset.range D, A i j * pad d rho j i := by
    rw [Finset.sum_range, Matrix.trace]
    refine Finset.sum_congr rfl fun i _ => ?_
    rw [Finset.sum_range, Matrix.diag_apply, Matrix.mul_apply]; rfl
  rw [e, ← Finset.sum_subset (Finset.range_subset_range.2 hD)]
  · refine Finset.sum_congr rfl fun i hi => ?_
    rw [← Finset.sum_subset (Finset.range_subset_range.2 hD)]
    · refine Finset.sum_congr rfl fun j hj => ?_
      rw [pad, if_pos ⟨by simpa using hj, by simpa using hi⟩]
    · intro j _ hj
      rw [pad, if_neg (fun h => hj (by simpa using h.1)), mul_zero]
  · intro i _ hi
    refine Finset.sum_eq_zero fun j _ => ?_
    rw [pad, if_neg (fun h => hi (by simpa using h.2)), mul_zero]

theorem trace_pad_one (d D : ℕ) (hD : d ≤ D) (rho : Dens) : (mat D (pad d rho)).trace = (mat d rho).trace := by
  have e : (mat D (pad d rho)).trace = ∑ i ∈ Finset.range D, pad d rho i i := by
    rw [Finset.sum_range]; rfl
  have e2 : (mat d rho).trace = ∑ i ∈ Finset.range d, rho i i := by
    rw [Finset.sum_range]; rfl
  rw [e, e2, ← Finset.sum_subset (Finset.range_subset_range.2 hD)]
  · refine Finset.sum_congr rfl fun i hi => ?_
    rw [pad, if_pos ⟨by simpa using hi, by simpa using hi⟩]
  · intro i _ hi
    rw [pad, if_neg (fun h => hi (by simpa using h.2))]

/-- A diagonal operator. -/
theorem sum_diag (d : ℕ) (A rho : Dens) (f : ℕ → ℂ) (hA : ∀ i < d, ∀ j, A i j = if i = j then f i else 0) :
    ∑ i ∈ Finset.range d, ∑ j ∈ Finset.range d, A i j * rho j i = ∑ i ∈ Finset.range d, f i * rho i i := by
  refine Finset.sum_congr rfl fun i hi => ?_
  rw [Finset.sum_eq_single i]
  · rw [hA i (by simpa using hi), if_pos rfl]
  · intro j _ hj; rw [hA i (by simpa using hi), if_neg (fun h => hj h.symm), zero_mul]
  · intro h; exact absurd hi h

/-- An operator with one upper diagonal. -/
theorem sum_upper (d k : ℕ) (A rho : Dens) (f : ℕ → ℂ) (hA : ∀ i j, A i j = if j = i + k then f j else 0) :
    ∑ i ∈ Finset.range d, ∑ j ∈ Finset.range d, A i j * rho j i = ∑ i ∈ Finset.range (d - k), f (k + i) * rho (k + i) i := by
  rw [← Finset.sum_subset (s₁ := Finset.range (d - k)) (Finset.range_subset_range.2 (Nat.sub_le d k))]
  · refine Finset.sum_congr rfl fun i hi => ?_
    have hi' : i < d - k := by simpa using hi
    rw [Finset.sum_eq_single (k + i)]
    · rw [hA, if_pos (by omega)]
    · intro j _ hj; rw [hA, if_neg (by omega), zero_mul]
    · intro h; exact absurd (Finset.mem_range.2 (by omega)) h
  · intro i hi hn
    refine Finset.sum_eq_zero fun j hj => ?_
    have h1 : i < d := by simpa using hi
    have h2 : ¬ i < d - k := by simpa using hn
    have h3 : j < d := by simpa using hj
    rw [hA, if_neg (by omega), zero_mul]

/-- The square of the annihilation operator. -/
noncomputable def a2Op : Dens := fun i j => if j = i + 2 then (Real.sqrt ((j : ℝ) * (j - 1)) : ℂ) else 0

theorem aOp_sq (D : ℕ) : mat D aOp * mat D aOp = mat D a2Op := by
  ext i j
  rw [Matrix.mul_apply]
  simp only [mat_apply, aOp, a2Op]
  by_cases h : (j : ℕ) = i + 2
  · rw [if_pos h, Finset.sum_eq_single ⟨i + 1, by have := j.2; omega⟩]
    · simp only [h, if_true]
      rw [← Complex.ofReal_mul, ← Real.sqrt_mul (by positivity)]
      congr 2; push_cast; ring
    · intro b _ hb
      rw [if_neg (show ¬ (b : ℕ) = i + 1 from fun h => hb (Fin.ext h)), zero_mul]
    · simp
  · rw [if_neg h]
    refine Finset.sum_eq_zero fun b _ => ?_
    by_cases hb : (b : ℕ) = i + 1
    · rw [if_neg (show ¬ (j : ℕ) = b + 1 by omega), mul_zero]
    · rw [if_neg hb, zero_mul]

theorem aOp_adOp (D : ℕ) : mat D aOp * (mat D aOp)ᴴ = mat D (fun i j => if i = j then (if i + 1 < D then (i : ℂ) + 1 else 0) else 0) := by
  ext i j
  rw [Matrix.mul_apply]
  simp only [mat_apply, aOp, Matrix.conjTranspose_apply]
  by_cases hi : (i : ℕ) + 1 < D
  · rw [Finset.sum_eq_single ⟨i + 1, hi⟩]
    · by_cases h : i = j
      · subst h
        simp only [if_true, hi]
        rw [Complex.star_def, Complex.conj_ofReal, ← Complex.ofReal_mul, Real.mul_self_sqrt (by positivity)]; push_cast; ring
      · have h' : ¬ (i : ℕ) = j := fun h2 => h (Fin.ext h2)
        rw [if_neg h', if_neg (show ¬ ((⟨i + 1, hi⟩ : Fin D) : ℕ) = j + 1 by simp; omega)]; simp
    · intro b _ hb
      rw [if_neg (show ¬ (b : ℕ) = i + 1 from fun h => hb (Fin.ext h)), zero_mul]
    · simp
  · rw [Finset.sum_eq_zero]
    · simp [hi]
    · intro b _
      rw [if_neg (show ¬ (b : ℕ) = i + 1 by have := b.2; omega), zero_mul]

end CppQED.Spec
