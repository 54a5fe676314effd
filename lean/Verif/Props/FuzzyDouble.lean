import Verif.Model.FuzzyDouble
import Mathlib.Tactic.Linarith
import Mathlib.Tactic.NormNum
import Mathlib.Tactic.Positivity
import Mathlib.Tactic.Ring

/-! # C183, C184: numbers compared up to rounding -/

namespace CppQED.Fuzzy

theorem eps_pos : 0 < eps := by unfold eps; positivity

theorem eps_small : eps < 1 / 100 := by unfold eps; norm_num

/-- The tolerance as function of the larger absolute value. -/
noncomputable def tol (m : ℝ) : ℝ := eps * 2 ^ (if m = 0 then 0 else Int.log 2 m + 1 : ℤ)

theorem tol_pos (m : ℝ) : 0 < tol m := mul_pos eps_pos (zpow_pos (by norm_num) _)

theorem le_tol (m : ℝ) : eps * m ≤ tol m := by
  unfold tol
  refine mul_le_mul_of_nonneg_left ?_ eps_pos.le
  split
  · next h => rw [h]; norm_num
  · exact_mod_cast (Int.lt_zpow_succ_log_self (b := 2) (by norm_num) m).le

theorem tol_le {m : ℝ} (hm : 0 < m) : tol m ≤ 2 * eps * m := by
  unfold tol
  rw [if_neg hm.ne']
  have h := Int.zpow_log_le_self (b := 2) (by norm_num) hm
  push_cast at h
  rw [zpow_add_one₀ (by norm_num)]
  nlinarith [eps_pos]

theorem tol_mono {m m' : ℝ} (hm : 0 < m) (h : m ≤ m') : tol m ≤ tol m' := by
  unfold tol
  rw [if_neg hm.ne', if_neg (hm.trans_le h).ne']
  refine mul_le_mul_of_nonneg_left ?_ eps_pos.le
  exact zpow_le_zpow_right₀ (by norm_num) (by have := Int.log_mono_right (b := 2) hm h; omega)

theorem delta_eq (x y : ℝ) : eps * 2 ^ exponent (if |x| > |y| then x else y) = tol (max |x| |y|) := by
  unfold tol exponent
  by_cases h : |x| > |y|
  · rw [if_pos h, max_eq_left h.le]
    simp [abs_eq_zero]
  · rw [if_neg h, max_eq_right (not_lt.1 h)]
    simp [abs_eq_zero]

theorem fcmp_eq (x y : ℝ) : fcmp x y eps = if x - y > tol (max |x| |y|) then 1 else if x - y < -tol (max |x| |y|) then -1 else 0 := by
  simp only [fcmp, delta_eq]

theorem lt_tol {a b : ℝ} : lt a b = true ↔ tol (max |a| |b|) < b - a := by
  have := tol_pos (max |a| |b|)
  simp only [lt, fcmp_eq, decide_eq_true_eq]
  split
  · constructor
    · intro h; omega
    · intro h; linarith
  · split
    · exact ⟨fun _ => by linarith, fun _ => by omega⟩
    · constructor
      · intro h; omega
      · intro h; linarith

theorem gt_tol {a b : ℝ} : gt a b = true ↔ tol (max |a| |b|) < a - b := by
  have := tol_pos (max |a| |b|)
  simp only [gt, fcmp_eq, decide_eq_true_eq]
  split
  · exact ⟨fun _ => by linarith, fun _ => by omega⟩
  · split
    · constructor
      · intro h; omega
      · intro h; linarith
    · constructor
      · intro h; omega
      · intro h; linarith

theorem eq_tol {a b : ℝ} : eq a b = true ↔ |a - b| ≤ tol (max |a| |b|) := by
  have := tol_pos (max |a| |b|)
  simp only [eq, fcmp_eq, beq_iff_eq, abs_le]
  split
  · constructor
    · intro h; omega
    · rintro ⟨-, h⟩; linarith
  · split
    · constructor
      · intro h; omega
      · rintro ⟨h, -⟩; linarith
    · exact ⟨fun _ => ⟨by linarith, by linarith⟩, fun _ => rfl⟩

/-- C183: of any two numbers either they are equal, or exactly one of them is the smaller one. -/
theorem trichotomy (a b : ℝ) : (lt a b = true ∧ eq a b = false ∧ lt b a = false) ∨ (lt a b = false ∧ eq a b = true ∧ lt b a = false) ∨ (lt a b = false ∧ eq a b = false ∧ lt b a = true) := by
  have := tol_pos (max |a| |b|)
  simp only [← Bool.not_eq_true, lt_tol, eq_tol, max_comm |b| |a|, abs_le, not_lt, not_and_or, not_le]
  rcases lt_or_ge (tol (max |a| |b|)) (b - a) with h | h
  · exact Or.inl ⟨h, Or.inl (by linarith), by linarith⟩
  · rcases lt_or_ge (tol (max |a| |b|)) (a - b) with h' | h'
    · exact Or.inr (Or.inr ⟨h, Or.inr h', h'⟩)
    · exact Or.inr (Or.inl ⟨h, ⟨by linarith, h'⟩, h'⟩)

/-- C183: the equality is reflexive and symmetric. -/
theorem eq_refl_symm : (∀ a, eq a a = true) ∧ ∀ a b, eq a b = eq b a := by
  refine ⟨fun a => eq_tol.2 (by simpa using (tol_pos _).le), fun a b => ?_⟩
  rw [Bool.eq_iff_iff, eq_tol, eq_tol, abs_sub_comm, max_comm]

/-- C183: "less" is transitive (and by the trichotomy irreflexive and asymmetric), and it is never at odds with the order of the numbers. -/
theorem lt_order : (∀ a b, lt a b = true → a < b) ∧ ∀ a b c, lt a b = true → lt b c = true → lt a c = true := by
  have h0 : ∀ a b, lt a b = true → a < b := fun a b h => by
    have := tol_pos (max |a| |b|)
    linarith [lt_tol.1 h]
  refine ⟨h0, fun a b c h1 h2 => lt_tol.2 ?_⟩
  have hab := h0 a b h1
  have hbc := h0 b c h2
  rw [lt_tol] at h1 h2
  have p1 := tol_pos (max |a| |b|)
  have p2 := tol_pos (max |b| |c|)
  have hpos : 0 < max |a| |c| := by
    by_contra hn
    have e1 := abs_eq_zero.1 (le_antisymm ((le_max_left |a| |c|).trans (not_lt.1 hn)) (abs_nonneg a))
    have e2 := abs_eq_zero.1 (le_antisymm ((le_max_right |a| |c|).trans (not_lt.1 hn)) (abs_nonneg c))
    linarith
  rcases le_total |a| |c| with h | h
  · rw [max_eq_right h] at hpos ⊢
    have := tol_mono hpos (le_max_right |b| |c|)
    linarith
  · rw [max_eq_left h] at hpos ⊢
    have := tol_mono hpos (le_max_left |a| |b|)
    linarith

/-- C183: numbers whose difference is at most ten machine epsilons times the larger one are equal. -/
theorem eq_of_close {a b : ℝ} (h : |a - b| ≤ 10 / 2 ^ 52 * max |a| |b|) : eq a b = true := by
  have e : (10 / 2 ^ 52 : ℝ) = eps := by unfold eps; ring
  rw [e] at h
  exact eq_tol.2 (h.trans (le_tol _))

/-- C183: and those whose difference is greater than twenty machine epsilons times the larger one are ordered as they are as numbers. -/
theorem lt_of_far {a b : ℝ} (h : 20 / 2 ^ 52 * max |a| |b| < b - a) : lt a b = true := by
  have e : (20 / 2 ^ 52 : ℝ) = 2 * eps := by unfold eps; ring
  rw [e] at h
  have hpos : 0 < max |a| |b| := by
    have := eps_pos
    have hm : 0 ≤ max |a| |b| := le_max_of_le_left (abs_nonneg a)
    have : a < b := by nlinarith [mul_nonneg this.le hm]
    by_contra hn
    have e1 := abs_eq_zero.1 (le_antisymm ((le_max_left |a| |b|).trans (not_lt.1 hn)) (abs_nonneg a))
    have e2 := abs_eq_zero.1 (le_antisymm ((le_max_right |a| |b|).trans (not_lt.1 hn)) (abs_nonneg b))
    linarith
  exact lt_tol.2 ((tol_le hpos).trans_lt h)

/-- C183: only 0 is equal to 0, however small a number is. -/
theorem eq_zero_iff (a : ℝ) : eq a 0 = true ↔ a = 0 := by
  constructor
  · intro h
    by_contra ha
    have hp := abs_pos.2 ha
    rw [eq_tol] at h
    simp only [sub_zero, abs_zero, max_eq_left hp.le] at h
    have := tol_le hp
    nlinarith [eps_small]
  · rintro rfl
    exact eq_refl_symm.1 0

/-- C183: the other comparisons are what they should be, and those with a `double` are the same as those with a `FuzzyDouble`. -/
theorem derived (a b : ℝ) : gt a b = lt b a ∧ gt' a b = lt b a ∧ ne a b = (lt a b || lt b a) ∧ le a b = (lt a b || eq a b) ∧ le' a b = (lt a b || eq a b) ∧ ge a b = (lt b a || eq a b) := by
  have hg : gt a b = lt b a := by rw [Bool.eq_iff_iff, gt_tol, lt_tol, max_comm]
  unfold gt' ne le le' ge
  rw [hg]
  rcases trichotomy a b with ⟨h1, h2, h3⟩ | ⟨h1, h2, h3⟩ | ⟨h1, h2, h3⟩ <;> simp [h1, h2, h3]

/-- C184: from every positive number three steps between equal numbers lead to a greater one. -/
theorem drift {x : ℝ} (hx : 0 < x) : ∃ y z w, eq x y = true ∧ eq y z = true ∧ eq z w = true ∧ lt x w = true := by
  have e0 := eps_pos
  have e1 := eps_small
  have e : (10 / 2 ^ 52 : ℝ) = eps := by unfold eps; ring
  have e' : (20 / 2 ^ 52 : ℝ) = 2 * eps := by unfold eps; ring
  have step : ∀ y : ℝ, 0 < y → eq y (y * (1 + eps)) = true := fun y hy => by
    apply eq_of_close
    have h : y ≤ y * (1 + eps) := by nlinarith
    rw [e, abs_of_pos hy, abs_of_pos (hy.trans_le h), max_eq_right h, abs_sub_comm, abs_of_nonneg (by linarith)]
    nlinarith [mul_pos hy e0, mul_pos (mul_pos hy e0) e0]
  refine ⟨x * (1 + eps), x * (1 + eps) * (1 + eps), x * (1 + eps) * (1 + eps) * (1 + eps), step x hx, step _ (by positivity), step _ (by positivity), lt_of_far ?_⟩
  have hp : 0 < x * (1 + eps) * (1 + eps) * (1 + eps) := by positivity
  have h : x ≤ x * (1 + eps) * (1 + eps) * (1 + eps) := by
    have : 0 ≤ x * (3 * eps + 3 * eps ^ 2 + eps ^ 3) := by positivity
    nlinarith
  rw [e', abs_of_pos hx, abs_of_pos hp, max_eq_right h]
  have key : 0 < x * eps * (1 - 3 * eps - 5 * eps ^ 2 - 2 * eps ^ 3) := by
    refine mul_pos (mul_pos hx e0) ?_
    have : eps ^ 2 ≤ 1 / 100 := by nlinarith
    have : eps ^ 3 ≤ 1 / 100 := by nlinarith [pow_pos e0 2]
    linarith
  nlinarith [key]

/-- C184: so the equality is not transitive, and "less" is no strict weak order, contrary to what `boost::totally_ordered` and the algorithms of the standard library expect. -/
theorem eq_not_transitive : ¬ ∀ a b c, eq a b = true → eq b c = true → eq a c = true := by
  intro ht
  obtain ⟨y, z, w, h1, h2, h3, h4⟩ := drift one_pos
  have h5 := ht _ _ _ (ht _ _ _ h1 h2) h3
  rcases trichotomy 1 w with ⟨_, h, _⟩ | ⟨h, _, _⟩ | ⟨h, _, _⟩ <;> simp_all

/-- C184: what holds of the transitivity: if two numbers are equal, then all those between them are equal to that one of the two which is farther from 0. Missing: the transitivity, which does not hold (`eq_not_transitive`). -/
theorem eq_between_partial {a b c : ℝ} (hab : a ≤ b) (hbc : b ≤ c) (h : eq a c = true) : (|a| ≤ |c| → eq b c = true) ∧ (|c| ≤ |a| → eq a b = true) := by
  rw [eq_tol, abs_sub_comm, abs_of_nonneg (by linarith)] at h
  refine ⟨fun hl => ?_, fun hl => ?_⟩
  · have hb : |b| ≤ |c| := (abs_le_max_abs_abs hab hbc).trans (max_le hl le_rfl)
    rw [max_eq_right hl] at h
    rw [eq_tol, max_eq_right hb, abs_sub_comm, abs_of_nonneg (by linarith)]
    linarith
  · have hb : |b| ≤ |a| := (abs_le_max_abs_abs hab hbc).trans (max_le le_rfl hl)
    rw [max_eq_left hl] at h
    rw [eq_tol, max_eq_left hb, abs_sub_comm, abs_of_nonneg (by linarith)]
    linarith

/-! ## Examples -/

/-- 1 and `1 + 8ε` are equal. -/
example : eq 1 (1 + 8 / 2 ^ 52) = true := eq_of_close (by
  rw [abs_of_pos (show (0 : ℝ) < 1 by norm_num), abs_of_pos (show (0 : ℝ) < 1 + 8 / 2 ^ 52 by norm_num), max_eq_right (by norm_num), abs_sub_comm, abs_of_pos (by norm_num)]
  norm_num)

/-- 1 is less than `1 + 24ε`, which is less than 2. -/
example : lt 1 2 = true := by
  refine lt_order.2 1 (1 + 24 / 2 ^ 52) 2 (lt_of_far ?_) (lt_of_far ?_)
  · rw [abs_of_pos (show (0 : ℝ) < 1 by norm_num), abs_of_pos (show (0 : ℝ) < 1 + 24 / 2 ^ 52 by norm_num), max_eq_right (by norm_num)]
    norm_num
  · rw [abs_of_pos (show (0 : ℝ) < 2 by norm_num), abs_of_pos (show (0 : ℝ) < 1 + 24 / 2 ^ 52 by norm_num), max_eq_right (by norm_num)]
    norm_num

/-- `10⁻³⁰⁰` is not equal to 0. -/
example : eq (1 / 10 ^ 300) 0 = false := by
  rw [← Bool.not_eq_true, eq_zero_iff]
  positivity

/-- `1 + 4ε` is equal to `1 + 8ε`, since 1 is. -/
example (h : eq 1 (1 + 8 / 2 ^ 52) = true) : eq (1 + 4 / 2 ^ 52) (1 + 8 / 2 ^ 52) = true :=
  (eq_between_partial (by norm_num) (by norm_num) h).1 (by rw [abs_of_pos (show (0 : ℝ) < 1 by norm_num), abs_of_pos (show (0 : ℝ) < 1 + 8 / 2 ^ 52 by norm_num)]; norm_num)

end CppQED.Fuzzy
