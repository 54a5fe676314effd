import Verif.Lemmas.Tridiagonal

/-! Further lemmas: the unary constructor, propagation. -/

namespace CppQED.Tridiag
open CppQED.Spec ComplexConjugate

theorem compatible_iff {a b k : ℕ} (ha : a < 2 ^ 63) (hb : b < 2 ^ 63) (hk : k < 2 ^ 63) :
    compatible a k b 0 = true ↔ (a ≠ 0 → b ≠ 0 → a = b + k) := by
  unfold compatible
  by_cases h₁ : a = 0
  · simp [h₁]
  by_cases h₂ : b = 0
  · simp [h₂]
  simp only [h₁, h₂, Bool.or_eq_true, beq_iff_eq, false_or, ne_eq, not_false_eq_true, forall_const]
  rw [← BitVec.toNat_inj]
  simp only [BitVec.toNat_sub, BitVec.toNat_ofNat]
  omega

/-- The consistency condition the unary constructor checks. -/
theorem unary_eq {zero minus plus : Diag} {k : ℕ} (hz : zero.size < 2 ^ 63) (hm : minus.size < 2 ^ 63) (hp : plus.size < 2 ^ 63)
    (hk : k < 2 ^ 63) (toFreqs : Bool) :
    (unary zero k minus plus toFreqs ≠ .throw ↔
      (zero.size ≠ 0 → minus.size ≠ 0 → zero.size = minus.size + k) ∧ (zero.size ≠ 0 → plus.size ≠ 0 → zero.size = plus.size + k) ∧
      (minus.size ≠ 0 → plus.size ≠ 0 → minus.size = plus.size) ∧ (minus.size ≠ 0 ∨ plus.size ≠ 0 → k ≠ 0)) := by
  unfold unary
  have h₁ := compatible_iff hz hm hk
  have h₂ := compatible_iff hz hp hk
  have h₃ := compatible_iff hm hp (by norm_num : 0 < 2 ^ 63)
  simp only [Nat.add_zero] at h₃
  rw [← h₁, ← h₂, ← h₃]
  cases compatible zero.size k minus.size 0 <;> cases compatible zero.size k plus.size 0 <;> cases compatible minus.size 0 plus.size 0 <;>
    simp

theorem unary_ok {zero minus plus : Diag} {k : ℕ} {T : Tri} (h : unary zero k minus plus false = .ok T) :
    T = { rank := 1, dims := [max (max zero.size (minus.size + k)) (plus.size + k)], diffs := [k], time := 0,
          diagonals := fun i => if i = 0 then zero else if i = 1 then minus else plus, freqs := fun _ => Diag.empty 1 } := by
  unfold unary at h
  simp only [Bool.false_eq_true, if_false] at h
  split_ifs at h
  injection h with h
  exact h.symm

theorem digits3_one (x : ℕ) (h : x < 3) : digits3 1 x = [x] := by simp [digits3, Nat.mod_eq_of_lt h]

theorem entry_unary_of {T : Tri} {k : ℕ} (hr : T.rank = 1) (hk : T.diffs = [k]) (i j : ℕ) :
    entry T [i] [j] =
      (if (T.diagonals 0).size ≠ 0 ∧ i = j then (T.diagonals 0).val [i] else 0) +
      (if (T.diagonals 1).size ≠ 0 ∧ i = j + k then (T.diagonals 1).val [j] else 0) +
      (if (T.diagonals 2).size ≠ 0 ∧ j = i + k then (T.diagonals 2).val [i] else 0) := by
  unfold entry
  rw [hr, hk]
  rw [show (3 : ℕ) ^ 1 = 3 from rfl]
  rw [Finset.sum_range_succ, Finset.sum_range_succ, Finset.sum_range_succ, Finset.sum_range_zero, zero_add,
    digits3_one 0 (by norm_num), digits3_one 1 (by norm_num), digits3_one 2 (by norm_num)]
  simp [OnDiags, OnDiag, posOns, posOn]

/-! ## Propagation -/

theorem propagate_rank (T : Tri) (t : ℝ) : (propagate T t).rank = T.rank := by unfold propagate; extract_lets; split_ifs <;> rfl
theorem propagate_dims (T : Tri) (t : ℝ) : (propagate T t).dims = T.dims := by unfold propagate; extract_lets; split_ifs <;> rfl
theorem propagate_diffs (T : Tri) (t : ℝ) : (propagate T t).diffs = T.diffs := by unfold propagate; extract_lets; split_ifs <;> rfl
theorem propagate_freqs (T : Tri) (t : ℝ) : (propagate T t).freqs = T.freqs := by unfold propagate; extract_lets; split_ifs <;> rfl
theorem propagate_time (T : Tri) (t : ℝ) : (propagate T t).time = t := by unfold propagate; extract_lets; split_ifs <;> rfl

theorem propagate_diagonals (T : Tri) (t : ℝ) (i : ℕ) :
    (propagate T t).diagonals i =
      if 1 ≤ i ∧ i < 3 ^ T.rank ∧ (T.diagonals i).size ≠ 0 ∧ (T.freqs i).size ≠ 0 then
          ⟨(T.diagonals i).shape, fun n => (T.diagonals i).val n * Complex.exp ((t - T.time : ℝ) * (T.freqs i).val n)⟩
        else T.diagonals i := by
  unfold propagate
  by_cases h : t - T.time = 0
  · simp only [h, ne_eq, not_true_eq_false, if_false]
    simp
  · simp only [h, ne_eq, not_false_eq_true, if_true]

theorem propagate_size (T : Tri) (t : ℝ) (i : ℕ) : ((propagate T t).diagonals i).size = (T.diagonals i).size := by
  rw [propagate_diagonals]; split_ifs <;> rfl

theorem propagate_propagate (T : Tri) (s t : ℝ) : propagate (propagate T s) t = propagate T t := by
  have hd : (propagate (propagate T s) t).diagonals = (propagate T t).diagonals := by
    funext i
    rw [propagate_diagonals, propagate_size, propagate_rank, propagate_freqs, propagate_time, propagate_diagonals, propagate_diagonals]
    split_ifs
    · congr 1
      funext n
      rw [mul_assoc, ← Complex.exp_add, ← add_mul]
      congr 3
      push_cast; ring
    · rfl
  have key : ∀ A B : Tri, A.rank = B.rank → A.dims = B.dims → A.diffs = B.diffs → A.time = B.time → A.diagonals = B.diagonals →
      A.freqs = B.freqs → A = B := by
    rintro ⟨⟩ ⟨⟩ h₁ h₂ h₃ h₄ h₅ h₆
    simp only at *
    subst h₁ h₂ h₃ h₄ h₅ h₆; rfl
  apply key <;> simp [propagate_rank, propagate_dims, propagate_diffs, propagate_time, propagate_freqs, hd]

theorem propagate_self (T : Tri) : propagate T T.time = T := by
  unfold propagate
  simp

end CppQED.Tridiag
