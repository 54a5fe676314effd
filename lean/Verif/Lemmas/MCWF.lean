import Verif.Model.MCWF
import Verif.Props.ODE
import Mathlib.Algebra.BigOperators.Group.List.Lemmas
import Mathlib.Algebra.Order.BigOperators.Group.List
import Mathlib.Algebra.Order.BigOperators.Group.Finset
import Mathlib.Algebra.BigOperators.Field
import Mathlib.Tactic.FieldSimp

/-! # Helper lemmas about the Monte Carlo trajectory -/

namespace CppQED.MCWF

variable {ι κ : Type*} [Fintype ι]

theorem total_eq_sum (rates : List ℝ) : total rates = rates.sum := by
  unfold total
  rw [List.sum_eq_foldl]

theorem selectLoop_neg_no (rs : List ℝ) (x : ℝ) (hx : 0 ≤ x) (no : ℕ) (h : (selectLoop rs x no).1 < 0) : no < (selectLoop rs x no).2 := by
  induction rs generalizing x no with
  | nil => exact absurd h (by simp [selectLoop, hx])
  | cons r rs ih =>
    rw [selectLoop] at h ⊢
    by_cases h0 : 0 < x
    · simp only [eq_true h0, if_true] at h ⊢
      by_cases h1 : 0 ≤ x - r
      · have := ih (x - r) h1 (no + 1) h
        omega
      · have : selectLoop rs (x - r) (no + 1) = (x - r, no + 1) := by
          cases rs with
          | nil => rfl
          | cons s rs => rw [selectLoop]; exact if_neg (fun hh => h1 hh.le)
        rw [this]
        show no < no + 1
        omega
    · simp only [eq_false h0, if_false] at h ⊢
      exact absurd h (not_lt.2 hx)

theorem selectLoop_spec (rs : List ℝ) (hrs : ∀ r ∈ rs, 0 ≤ r) (x : ℝ) (hx : 0 ≤ x) (no i : ℕ) :
    ((selectLoop rs x no).1 < 0 ∧ (selectLoop rs x no).2 = no + i + 1) ↔ i < rs.length ∧ (rs.take i).sum < x ∧ x < (rs.take (i + 1)).sum := by
  induction rs generalizing x no i with
  | nil => simp [selectLoop, hx]
  | cons r rs ih =>
    have hr : 0 ≤ r := hrs r (by simp)
    have hrs' : ∀ r ∈ rs, 0 ≤ r := fun s hs => hrs s (by simp [hs])
    have hsum : ∀ k, 0 ≤ (rs.take k).sum := fun k => List.sum_nonneg fun s hs => hrs' s (List.mem_of_mem_take hs)
    rw [selectLoop]
    by_cases h0 : 0 < x
    · simp only [eq_true h0, if_true]
      by_cases h1 : 0 ≤ x - r
      · cases i with
        | zero =>
          simp only [List.take_zero, List.sum_nil, zero_add, List.take_succ_cons, List.sum_cons, add_zero]
          constructor
          · rintro ⟨a, b⟩
            have := selectLoop_neg_no rs (x - r) h1 (no + 1) a
            omega
          · rintro ⟨_, _, b⟩
            linarith
        | succ i =>
          rw [show no + (i + 1) + 1 = (no + 1) + i + 1 by omega, ih hrs' (x - r) h1 (no + 1) i]
          simp only [List.length_cons, List.take_succ_cons, List.sum_cons, Nat.add_lt_add_iff_right]
          constructor
          · rintro ⟨a, b, c⟩; exact ⟨a, by linarith, by linarith⟩
          · rintro ⟨a, b, c⟩; exact ⟨a, by linarith, by linarith⟩
      · have : selectLoop rs (x - r) (no + 1) = (x - r, no + 1) := by
          cases rs with
          | nil => rfl
          | cons s rs => rw [selectLoop]; exact if_neg (fun hh => h1 hh.le)
        rw [this]
        constructor
        · rintro ⟨a, b⟩
          have hi : i = 0 := by simp only at b; omega
          subst hi
          simp only [List.length_cons, List.take_zero, List.sum_nil, zero_add, List.take_succ_cons, List.sum_cons]
          exact ⟨by omega, h0, by simp only at a; linarith⟩
        · rintro ⟨a, b, c⟩
          cases i with
          | zero => exact ⟨not_le.1 h1, by simp⟩
          | succ i =>
            simp only [List.take_succ_cons, List.sum_cons] at b
            have := hsum i
            exact absurd h1 (by push Not; linarith)
    · simp only [eq_false h0, if_false]
      have hx0 : x = 0 := le_antisymm (not_lt.1 h0) hx
      constructor
      · rintro ⟨a, _⟩; exact absurd a (not_lt.2 hx)
      · rintro ⟨_, b, _⟩
        have : 0 ≤ ((r :: rs).take i).sum := List.sum_nonneg fun s hs => hrs s (List.mem_of_mem_take hs)
        linarith

theorem selectJump_eq_some (rates : List ℝ) (hr : ∀ r ∈ rates, 0 ≤ r) (u dt : ℝ) (hu : 0 ≤ u) (hdt : 0 < dt) (i : ℕ) :
    selectJump rates u dt = some i ↔ i < rates.length ∧ (rates.take i).sum < u / dt ∧ u / dt < (rates.take (i + 1)).sum := by
  have hx : 0 ≤ u / dt := div_nonneg hu hdt.le
  rw [← selectLoop_spec rates hr (u / dt) hx 0 i]
  unfold selectJump
  simp only
  by_cases h : (selectLoop rates (u / dt) 0).1 < 0
  · have := selectLoop_neg_no rates (u / dt) hx 0 h
    simp only [h, if_true, Option.some.injEq, true_and]
    omega
  · simp only [h, if_false, false_and, iff_false]
    simp

theorem normSq_div_real (z : ℂ) (c : ℝ) : Complex.normSq (z / (c : ℂ)) = Complex.normSq z / c ^ 2 := by
  rw [Complex.normSq_div, Complex.normSq_ofReal, sq]

theorem norm_nonneg (psi : ι → ℂ) : 0 ≤ norm psi := Real.sqrt_nonneg _

theorem norm_sq (psi : ι → ℂ) : norm psi ^ 2 = ∑ i, Complex.normSq (psi i) :=
  Real.sq_sqrt (Finset.sum_nonneg fun i _ => Complex.normSq_nonneg _)

theorem norm_divBy (psi : ι → ℂ) (c : ℝ) (hc : 0 ≤ c) : norm (divBy psi c) = norm psi / c := by
  unfold norm divBy
  simp only [normSq_div_real, ← Finset.sum_div]
  rw [Real.sqrt_div (Finset.sum_nonneg fun i _ => Complex.normSq_nonneg _), Real.sqrt_sq hc]

theorem norm_pos_iff (psi : ι → ℂ) : 0 < norm psi ↔ psi ≠ 0 := by
  unfold norm
  rw [Real.sqrt_pos]
  constructor
  · rintro h rfl
    simp at h
  · intro h
    obtain ⟨i, hi⟩ := Function.ne_iff.1 h
    exact Finset.sum_pos' (fun j _ => Complex.normSq_nonneg _) ⟨i, Finset.mem_univ _, Complex.normSq_pos.2 hi⟩

theorem norm_renorm (psi : ι → ℂ) (h : psi ≠ 0) : norm (renorm psi) = 1 := by
  unfold renorm
  rw [norm_divBy _ _ (norm_nonneg _)]
  exact div_self ((norm_pos_iff psi).2 h).ne'

theorem find?_flatten_mapIdx {α : Type*} (rs : List ℝ) (p : ℝ → Bool) (f : ℕ → α) (k no : ℕ) :
    ((rs.mapIdx fun i r => if p r then [(i + k, f (i + k))] else []).flatten).find? (fun j => j.1 == no + k) =
      if (rs[no]?).any p then some (no + k, f (no + k)) else none := by
  induction rs generalizing k no with
  | nil => simp
  | cons r rs ih =>
    rw [List.mapIdx_cons, List.flatten_cons, List.find?_append]
    have ih' := ih (k + 1) (no - 1)
    have e : ∀ i, i + (k + 1) = i + 1 + k := fun i => by omega
    simp only [e] at ih'
    cases no with
    | zero =>
      by_cases hp : p r = true
      · simp [hp]
      · simp only [hp, Bool.false_eq_true, if_false, List.find?_nil, Option.none_or, zero_add, List.getElem?_cons_zero, Option.any_some]
        rw [List.find?_eq_none]
        intro x hx
        simp only [List.mem_flatten, List.mem_mapIdx] at hx
        obtain ⟨l, ⟨i, hi, rfl⟩, hx⟩ := hx
        by_cases hpi : p rs[i] = true
        · simp only [hpi, if_true, List.mem_singleton] at hx
          subst hx
          simp
        · simp [hpi] at hx
    | succ no =>
      have h1 : (if p r = true then [(0 + k, f (0 + k))] else []).find? (fun j => j.1 == no + 1 + k) = none := by
        split
        · simp
        · rfl
      rw [h1, Option.none_or]
      simpa using ih'

end CppQED.MCWF
