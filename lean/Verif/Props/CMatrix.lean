import Verif.Model.CMatrix
import Verif.Lemmas.Slice
import Mathlib.Tactic.Ring
import Mathlib.Tactic.NormNum

/-! # C05, C06, C07: in-place `M + M†`, Hermitian conjugation, direct product and sum -/

namespace CppQED.CMat
open CppQED.MII (Idx)
open ComplexConjugate

theorem set_apply (m : Mat) (a b : ℕ) (z : ℂ) (i j : ℕ) : set m a b z i j = if i = a ∧ j = b then z else m i j := rfl

theorem inner_loop (i k : ℕ) (m : Mat) (a b : ℕ) :
    (List.range' (i + 1) k).foldl (offDiagStep i) m a b =
      if (a = i ∧ i < b ∧ b < i + 1 + k) ∨ (b = i ∧ i < a ∧ a < i + 1 + k) then m a b + conj (m b a) else m a b := by
  induction k generalizing a b with
  | zero => simp only [List.range'_zero, List.foldl_nil]; rw [if_neg]; omega
  | succ k ih =>
    rw [List.range'_concat, List.foldl_append]
    simp only [List.foldl_cons, List.foldl_nil, one_mul]
    simp only [offDiagStep, set_apply]
    by_cases h1 : a = i + 1 + k ∧ b = i
    · rw [if_pos h1, if_pos (by omega), ih, if_neg (by omega), ih, if_neg (by omega)]
      obtain ⟨rfl, rfl⟩ := h1
      simp [add_comm]
    · rw [if_neg h1]
      by_cases h2 : a = i ∧ b = i + 1 + k
      · rw [if_pos h2, if_pos (by omega), ih, if_neg (by omega), ih, if_neg (by omega)]
        obtain ⟨rfl, rfl⟩ := h2; rfl
      · rw [if_neg h2, ih]
        by_cases h3 : (a = i ∧ i < b ∧ b < i + 1 + k) ∨ (b = i ∧ i < a ∧ a < i + 1 + k)
        · rw [if_pos h3, if_pos (by omega)]
        · rw [if_neg h3, if_neg (by omega)]

theorem outer_loop (dim k : ℕ) (hk : k ≤ dim) (m : Mat) (a b : ℕ) :
    (List.range k).foldl (rowStep dim) m a b =
      if a < dim ∧ b < dim ∧ (a < k ∨ b < k) then m a b + conj (m b a) else m a b := by
  induction k generalizing a b with
  | zero => simp
  | succ k ih =>
    rw [List.range_succ, List.foldl_append]
    simp only [List.foldl_cons, List.foldl_nil]
    rw [rowStep, inner_loop]
    have hdim : k + 1 + (dim - (k + 1)) = dim := by omega
    rw [hdim]
    simp only [set_apply]
    by_cases h1 : (a = k ∧ k < b ∧ b < dim) ∨ (b = k ∧ k < a ∧ a < dim)
    · rw [if_pos h1, if_neg (by omega), if_neg (by omega), ih (by omega), ih (by omega), if_neg (by omega), if_neg (by omega),
        if_pos (by omega)]
    · rw [if_neg h1]
      by_cases h2 : a = k ∧ b = k
      · rw [if_pos h2, if_pos (by omega), ih (by omega), if_neg (by omega)]
        obtain ⟨rfl, rfl⟩ := h2
        rw [Complex.add_conj]; push_cast; ring
      · rw [if_neg h2, ih (by omega)]
        by_cases h3 : a < dim ∧ b < dim ∧ (a < k ∨ b < k)
        · rw [if_pos h3, if_pos (by omega)]
        · rw [if_neg h3, if_neg (by omega)]

/-- **C05.** The in-place routine turns any complex `dim × dim` matrix `M` into exactly `M + M†`, and touches nothing else. -/
theorem twoTimesRealPartOfSelf_eq (dim : ℕ) (m : Mat) (i j : ℕ) :
    (i < dim → j < dim → twoTimesRealPartOfSelf dim m i j = m i j + conj (m j i)) ∧
    (¬ (i < dim ∧ j < dim) → twoTimesRealPartOfSelf dim m i j = m i j) := by
  unfold twoTimesRealPartOfSelf
  rw [outer_loop dim dim (le_refl _)]
  constructor
  · intro h1 h2; rw [if_pos (by omega)]
  · intro h; rw [if_neg (by omega)]

/-- **C05, consequences.** The result is Hermitian, and its trace is twice the real part of the trace of `M`. -/
theorem twoTimesRealPartOfSelf_hermitian_trace (dim : ℕ) (m : Mat) :
    (∀ i < dim, ∀ j < dim, twoTimesRealPartOfSelf dim m i j = conj (twoTimesRealPartOfSelf dim m j i)) ∧
    ∑ i ∈ Finset.range dim, twoTimesRealPartOfSelf dim m i i = ((2 * (∑ i ∈ Finset.range dim, m i i).re : ℝ) : ℂ) := by
  constructor
  · intro i hi j hj
    rw [(twoTimesRealPartOfSelf_eq dim m i j).1 hi hj, (twoTimesRealPartOfSelf_eq dim m j i).1 hj hi]
    simp [add_comm]
  · rw [Complex.re_sum, Finset.mul_sum, Complex.ofReal_sum]
    apply Finset.sum_congr rfl
    intro i hi
    rw [Finset.mem_range] at hi
    rw [(twoTimesRealPartOfSelf_eq dim m i i).1 hi hi, Complex.add_conj]

example : twoTimesRealPartOfSelf 2 (fun i j => if i = 0 ∧ j = 1 then Complex.I else 1) 1 0 = 1 - Complex.I := by
  rw [(twoTimesRealPartOfSelf_eq 2 _ 1 0).1 (by norm_num) (by norm_num)]
  simp; ring

/-- **C06.** For every rank `2N` and every content, the element `(i;j)` of the Hermitian conjugate is the complex conjugate of the
element `(j;i)` of the original. -/
theorem hermitianConjugate_eq_adjoint (N : ℕ) (array : Slice.Arr ℂ) (i j : Idx) (hi : i.length = N) (hj : j.length = N) :
    hermitianConjugate N array (i ++ j) = conj (array (j ++ i)) := by
  simp only [hermitianConjugate]
  congr 2
  have hax : (hermitianAxes N).length = 2 * N := by simp [hermitianAxes]; omega
  have hnd : (hermitianAxes N).Nodup := by
    unfold hermitianAxes
    refine List.nodup_append.2 ⟨List.nodup_range', List.nodup_range, ?_⟩
    intro a ha b hb hab
    simp at ha hb; omega
  have hkeys : (((hermitianAxes N).zip (i ++ j)).map Prod.fst).Nodup := by
    rw [List.map_fst_zip (by simp [hax]; omega)]; exact hnd
  apply MII.ext_idx (n := 2 * N) (by simp [Slice.untranspose]) (by simp; omega)
  intro a ha
  have hget : (Slice.untranspose (2 * N) (hermitianAxes N) (i ++ j)).getD a 0 = (((hermitianAxes N).zip (i ++ j)).lookup a).getD 0 := by
    rw [Slice.untranspose, List.getD_eq_getElem?_getD, List.getElem?_map, List.getElem?_range ha]; rfl
  have hmem : (a, (j ++ i).getD a 0) ∈ (hermitianAxes N).zip (i ++ j) := by
    rw [List.mem_iff_getElem]
    rcases Nat.lt_or_ge a N with h | h
    · refine ⟨a + N, by simp [hax]; omega, ?_⟩
      rw [List.getElem_zip]
      have e1 : (hermitianAxes N)[a + N]'(by omega) = a := by
        simp only [hermitianAxes]
        rw [List.getElem_append_right (by simp)]
        simp
      have e2 : (i ++ j)[a + N]'(by simp; omega) = (j ++ i).getD a 0 := by
        rw [List.getElem_append_right (by omega), List.getD_eq_getElem?_getD, List.getElem?_append_left (by omega),
          List.getElem?_eq_getElem (by omega)]
        simp [hi]
      rw [e1, e2]
    · refine ⟨a - N, by simp [hax]; omega, ?_⟩
      rw [List.getElem_zip]
      have e1 : (hermitianAxes N)[a - N]'(by omega) = a := by
        simp only [hermitianAxes]
        rw [List.getElem_append_left (by simp; omega)]
        simp; omega
      have e2 : (i ++ j)[a - N]'(by simp; omega) = (j ++ i).getD a 0 := by
        rw [List.getElem_append_left (by omega), List.getD_eq_getElem?_getD, List.getElem?_append_right (by omega),
          List.getElem?_eq_getElem (by omega)]
        simp [hj]
      rw [e1, e2]
  rw [hget, Slice.lookup_of_mem hkeys hmem]; rfl

/-- **C06, involution and fixed points.** Conjugating twice restores every element; an array is fixed iff it is Hermitian. -/
theorem hermitianConjugate_involutive (N : ℕ) (array : Slice.Arr ℂ) :
    (∀ i j : Idx, i.length = N → j.length = N → hermitianConjugate N (hermitianConjugate N array) (i ++ j) = array (i ++ j)) ∧
    ((∀ i j : Idx, i.length = N → j.length = N → hermitianConjugate N array (i ++ j) = array (i ++ j)) ↔
      ∀ i j : Idx, i.length = N → j.length = N → array (i ++ j) = conj (array (j ++ i))) := by
  constructor
  · intro i j hi hj
    rw [hermitianConjugate_eq_adjoint N _ i j hi hj, hermitianConjugate_eq_adjoint N _ j i hj hi]
    simp
  · constructor
    · intro h i j hi hj
      rw [← h i j hi hj, hermitianConjugate_eq_adjoint N _ i j hi hj]
    · intro h i j hi hj
      rw [hermitianConjugate_eq_adjoint N _ i j hi hj, h j i hj hi]; simp

example : hermitianAxes 2 = [2, 3, 0, 1] := by decide
example : hermitianConjugate 1 (fun i => if i = [0, 1] then Complex.I else 0) [1, 0] = -Complex.I := by
  have := hermitianConjugate_eq_adjoint 1 (fun i => if i = [0, 1] then Complex.I else 0) [1] [0] rfl rfl
  simpa using this

/-- `idx` is a valid index into an array of the given shape -/
def ValidIdx (shape idx : List ℕ) : Prop := List.Forall₂ (fun e i => i < e) shape idx

theorem flat_lt (shape idx : List ℕ) (h : ValidIdx shape idx) : flat shape idx < shape.prod := by
  induction h with
  | nil => simp [flat]
  | @cons e i shape idx h1 h2 ih =>
    simp only [flat, List.prod_cons]
    calc i * shape.prod + flat shape idx < i * shape.prod + shape.prod := by omega
      _ = (i + 1) * shape.prod := by ring
      _ ≤ e * shape.prod := Nat.mul_le_mul_right _ h1

theorem flat_append (s1 s2 i1 i2 : List ℕ) (h : s1.length = i1.length) :
    flat (s1 ++ s2) (i1 ++ i2) = flat s1 i1 * s2.prod + flat s2 i2 := by
  induction s1 generalizing i1 with
  | nil => cases i1 with
    | nil => simp [flat]
    | cons => simp at h
  | cons e s1 ih => cases i1 with
    | nil => simp at h
    | cons i i1 =>
      simp only [List.cons_append, flat, List.prod_append]
      rw [ih i1 (by simpa using h)]; ring

/-- **C07.** `doDirect` on contiguous arrays of arbitrary rank and extents: the element at the concatenated index is the product (sum)
of the elements, and the shape is the concatenation of the shapes. -/
theorem doDirect_elementwise (a1 a2 : Array) (i1 i2 : List ℕ) (h1 : ValidIdx a1.shape i1) (h2 : ValidIdx a2.shape i2) :
    (doDirect true a1 a2).get (i1 ++ i2) = a1.get i1 * a2.get i2 ∧
    (doDirect false a1 a2).get (i1 ++ i2) = a1.get i1 + a2.get i2 ∧
    (∀ b, (doDirect b a1 a2).shape = a1.shape ++ a2.shape) := by
  have hl := flat_lt _ _ h2
  have e := flat_append a1.shape a2.shape i1 i2 h1.length_eq
  have hd : (flat a1.shape i1 * a2.shape.prod + flat a2.shape i2) / a2.shape.prod = flat a1.shape i1 := by
    rw [mul_comm, Nat.mul_add_div (by omega), Nat.div_eq_of_lt hl, add_zero]
  have hm : (flat a1.shape i1 * a2.shape.prod + flat a2.shape i2) % a2.shape.prod = flat a2.shape i2 := by
    rw [mul_comm, Nat.mul_add_mod, Nat.mod_eq_of_lt hl]
  refine ⟨?_, ?_, fun _ => rfl⟩ <;> simp [Array.get, doDirect, direct, e, hd, hm]

/-- The flat offset of a contiguous array is injective on valid indices, so distinct elements are distinct memory cells. -/
theorem flat_injective (shape i j : List ℕ) (hi : ValidIdx shape i) (hj : ValidIdx shape j) (h : flat shape i = flat shape j) : i = j := by
  induction hi generalizing j with
  | nil => cases hj; rfl
  | @cons e i shape idx h1 h2 ih =>
    cases hj with
    | @cons _ k _ jdx h3 h4 =>
      simp only [flat] at h
      have l1 := flat_lt _ _ h2
      have l2 := flat_lt _ _ h4
      have hik : i = k := by
        have d1 : (i * shape.prod + flat shape idx) / shape.prod = i := by
          rw [mul_comm, Nat.mul_add_div (by omega), Nat.div_eq_of_lt l1, add_zero]
        have d2 : (k * shape.prod + flat shape jdx) / shape.prod = k := by
          rw [mul_comm, Nat.mul_add_div (by omega), Nat.div_eq_of_lt l2, add_zero]
        rw [← d1, ← d2, h]
      subst hik
      rw [ih jdx h4 (by omega)]

example : ValidIdx [2, 3] [1, 2] ∧ flat [2, 3] [1, 2] = 5 := by
  refine ⟨?_, rfl⟩
  unfold ValidIdx; simp

end CppQED.CMat
