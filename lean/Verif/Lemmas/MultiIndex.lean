import Verif.Model.MultiIndex
import Verif.Spec.MultiIndex
import Mathlib.Data.List.Iterate
import Mathlib.Algebra.BigOperators.Group.Finset.Basic
import Mathlib.Algebra.BigOperators.Intervals
import Mathlib.Tactic.Ring
import Mathlib.Tactic.Linarith
import Mathlib.Order.Interval.Finset.Nat

/-! Helper lemmas for `Verif.Props.MultiIndex`. -/

namespace CppQED.MII

/-- width of axis `j` -/
def width (lb ub : Idx) (j : Nat) : Int := ub.getD j 0 - lb.getD j 0 + 1

/-- Mixed-radix value of the first `N+1` digits. -/
def val (lb ub : Idx) : Nat → Idx → Int
  | 0, idx => idx.getD 0 0 - lb.getD 0 0
  | N + 1, idx => val lb ub N idx * width lb ub (N + 1) + (idx.getD (N + 1) 0 - lb.getD (N + 1) 0)

/-- all digits from 1 to N are within bounds (digit 0 arbitrary) -/
def Tail (lb ub : Idx) (N : Nat) (idx : Idx) : Prop :=
  ∀ j, 1 ≤ j → j ≤ N → lb.getD j 0 ≤ idx.getD j 0 ∧ idx.getD j 0 ≤ ub.getD j 0

theorem getD_set (l : List Int) (i j : Nat) (x : Int) (hi : i < l.length) :
    (l.set i x).getD j 0 = if i = j then x else l.getD j 0 := by
  simp only [List.getD_eq_getElem?_getD, List.getElem?_set]
  split <;> simp_all

theorem doIt_length (lb ub : Idx) (N : Nat) (idx : Idx) : (doIt lb ub N idx).length = idx.length := by
  induction N generalizing idx with
  | zero => simp [doIt]
  | succ n ih => unfold doIt; split <;> simp [ih]

theorem val_congr (lb ub : Idx) (N : Nat) (a b : Idx) (h : ∀ j ≤ N, a.getD j 0 = b.getD j 0) :
    val lb ub N a = val lb ub N b := by
  induction N with
  | zero => simp only [val]; rw [h 0 (le_refl _)]
  | succ n ih =>
    simp only [val]
    rw [ih (fun j hj => h j (by omega)), h (n+1) (le_refl _)]

theorem doIt_above (lb ub : Idx) (N : Nat) (idx : Idx) (hN : N < idx.length) (j : Nat) (hj : N < j) :
    (doIt lb ub N idx).getD j 0 = idx.getD j 0 := by
  induction N generalizing idx with
  | zero => simp only [doIt]; rw [getD_set _ _ _ _ hN]; simp; omega
  | succ n ih =>
    unfold doIt
    split
    · rw [ih _ (by simp; omega) (by omega), getD_set _ _ _ _ hN]; simp; omega
    · rw [getD_set _ _ _ _ hN]; simp; omega

theorem doIt_spec (lb ub : Idx) (N : Nat) (idx : Idx) (hN : N < idx.length)
    (hb : ∀ j ≤ N, lb.getD j 0 ≤ ub.getD j 0) (ht : Tail lb ub N idx) :
    Tail lb ub N (doIt lb ub N idx) ∧ val lb ub N (doIt lb ub N idx) = val lb ub N idx + 1 := by
  induction N generalizing idx with
  | zero =>
    refine ⟨fun j h1 h2 => by omega, ?_⟩
    simp only [doIt, val]; rw [getD_set _ _ _ _ hN]; simp; ring
  | succ n ih =>
    unfold doIt
    split
    · rename_i he
      have hlen : n < (idx.set (n+1) (lb.getD (n+1) 0)).length := by simp; omega
      have hg : ∀ j, (idx.set (n+1) (lb.getD (n+1) 0)).getD j 0 = if n+1 = j then lb.getD (n+1) 0 else idx.getD j 0 :=
        fun j => getD_set _ _ _ _ hN
      have ht' : Tail lb ub n (idx.set (n+1) (lb.getD (n+1) 0)) := by
        intro j h1 h2
        rw [hg, if_neg (by omega)]; exact ht j h1 (by omega)
      obtain ⟨i1, i2⟩ := ih _ hlen (fun j hj => hb j (by omega)) ht'
      have hab := doIt_above lb ub n _ hlen (n+1) (by omega)
      rw [hg, if_pos rfl] at hab
      refine ⟨?_, ?_⟩
      · intro j h1 h2
        rcases Nat.lt_or_ge n j with h | h
        · have : j = n+1 := by omega
          subst this
          rw [hab]; exact ⟨le_refl _, hb _ (le_refl _)⟩
        · exact i1 j h1 h
      · simp only [val]
        rw [hab, i2, val_congr lb ub n _ idx (fun j hj => by rw [hg, if_neg (by omega)])]
        rw [he]; unfold width; ring
    · rename_i hne
      have hg : ∀ j, (idx.set (n+1) (idx.getD (n+1) 0 + 1)).getD j 0 = if n+1 = j then idx.getD (n+1) 0 + 1 else idx.getD j 0 :=
        fun j => getD_set _ _ _ _ hN
      refine ⟨?_, ?_⟩
      · intro j h1 h2
        rw [hg]
        have := ht j h1 h2
        split
        · rename_i h; subst h; omega
        · exact this
      · simp only [val]
        rw [hg, if_pos rfl, val_congr lb ub n _ idx (fun j hj => by rw [hg, if_neg (by omega)])]
        ring

/-- in the full box -/
def Box (lb ub : Idx) (N : Nat) (idx : Idx) : Prop :=
  ∀ j, j ≤ N → lb.getD j 0 ≤ idx.getD j 0 ∧ idx.getD j 0 ≤ ub.getD j 0

def total (lb ub : Idx) : Nat → Int
  | 0 => width lb ub 0
  | N + 1 => total lb ub N * width lb ub (N + 1)

theorem val_nonneg_lt (lb ub : Idx) (N : Nat) (idx : Idx) (hb : Box lb ub N idx) :
    0 ≤ val lb ub N idx ∧ val lb ub N idx < total lb ub N := by
  induction N with
  | zero => have := hb 0 (le_refl _); simp only [val, total, width]; omega
  | succ n ih =>
    obtain ⟨h1, h2⟩ := ih (fun j hj => hb j (by omega))
    have h3 := hb (n+1) (le_refl _)
    simp only [val, total]
    have hw : 0 < width lb ub (n+1) := by unfold width; omega
    have h4 : idx.getD (n+1) 0 - lb.getD (n+1) 0 < width lb ub (n+1) := by unfold width; omega
    constructor
    · have := mul_nonneg h1 hw.le; omega
    · have : (val lb ub n idx + 1) * width lb ub (n+1) ≤ total lb ub n * width lb ub (n+1) :=
        mul_le_mul_of_nonneg_right (by omega) hw.le
      rw [add_mul] at this; omega

theorem box_of_val (lb ub : Idx) (N : Nat) (idx : Idx) (hw : ∀ j ≤ N, 0 < width lb ub j) (ht : Tail lb ub N idx)
    (h0 : 0 ≤ val lb ub N idx) (h1 : val lb ub N idx < total lb ub N) : Box lb ub N idx := by
  induction N with
  | zero =>
    intro j hj; obtain rfl : j = 0 := by omega
    simp only [val, total, width] at *; omega
  | succ n ih =>
    have hwn := hw (n+1) (le_refl _)
    have hd := ht (n+1) (by omega) (le_refl _)
    simp only [val, total] at h0 h1
    have hd2 : idx.getD (n+1) 0 - lb.getD (n+1) 0 < width lb ub (n+1) := by unfold width; omega
    have a0 : 0 ≤ val lb ub n idx := by
      by_contra h
      have : val lb ub n idx * width lb ub (n+1) ≤ (-1) * width lb ub (n+1) :=
        mul_le_mul_of_nonneg_right (by omega) hwn.le
      omega
    have a1 : val lb ub n idx < total lb ub n := by
      by_contra h
      have : total lb ub n * width lb ub (n+1) ≤ val lb ub n idx * width lb ub (n+1) :=
        mul_le_mul_of_nonneg_right (by omega) hwn.le
      omega
    have := ih (fun j hj => hw j (by omega)) (fun j h1 h2 => ht j h1 (by omega)) a0 a1
    intro j hj
    rcases Nat.lt_or_ge n j with h | h
    · obtain rfl : j = n+1 := by omega
      exact hd
    · exact this j h

theorem val_lt_lex (lb ub : Idx) (N : Nat) (a b : Idx) (ha : Tail lb ub N a) (hb : Tail lb ub N b) :
    (val lb ub N a = val lb ub N b → ∀ j ≤ N, a.getD j 0 = b.getD j 0) ∧
    (val lb ub N a < val lb ub N b → ∃ k ≤ N, (∀ j < k, a.getD j 0 = b.getD j 0) ∧ a.getD k 0 < b.getD k 0) := by
  induction N with
  | zero =>
    constructor
    · intro h j hj; obtain rfl : j = 0 := by omega
      simp only [val] at h; omega
    · intro h; exact ⟨0, le_refl _, fun j hj => by omega, by simp only [val] at h; omega⟩
  | succ n ih =>
    obtain ⟨i1, i2⟩ := ih (fun j h1 h2 => ha j h1 (by omega)) (fun j h1 h2 => hb j h1 (by omega))
    have ha' := ha (n+1) (by omega) (le_refl _)
    have hb' := hb (n+1) (by omega) (le_refl _)
    set x := val lb ub n a
    set y := val lb ub n b
    set w := width lb ub (n+1) with hw
    have hwd : w = ub.getD (n+1) 0 - lb.getD (n+1) 0 + 1 := rfl
    have hwpos : 0 < w := by omega
    have key1 : x < y → x * w + w ≤ y * w := by
      intro h
      have := mul_le_mul_of_nonneg_right (show x + 1 ≤ y by omega) hwpos.le
      rw [add_mul, one_mul] at this; exact this
    have key2 : y < x → y * w + w ≤ x * w := by
      intro h
      have := mul_le_mul_of_nonneg_right (show y + 1 ≤ x by omega) hwpos.le
      rw [add_mul, one_mul] at this; exact this
    simp only [val]
    constructor
    · intro h
      change x * w + _ = y * w + _ at h
      have hxy : x = y := by
        rcases lt_trichotomy x y with h1 | h1 | h1
        · have := key1 h1; omega
        · exact h1
        · have := key2 h1; omega
      intro j hj
      rcases Nat.lt_or_ge n j with h2 | h2
      · obtain rfl : j = n+1 := by omega
        rw [hxy] at h; omega
      · exact i1 hxy j h2
    · intro h
      change x * w + _ < y * w + _ at h
      rcases lt_trichotomy x y with h1 | h1 | h1
      · obtain ⟨k, hk, h3, h4⟩ := i2 h1
        exact ⟨k, by omega, h3, h4⟩
      · refine ⟨n+1, le_refl _, fun j hj => i1 h1 j (by omega), ?_⟩
        rw [h1] at h; omega
      · have := key2 h1; omega

open Spec

theorem inc_iter (lb ub : Idx) (hv : ValidBounds lb ub) (k : ℕ) (idx : Idx) (hl : idx.length = lb.length)
    (ht : Tail lb ub (lb.length - 1) idx) :
    ((inc lb ub)^[k] idx).length = lb.length ∧ Tail lb ub (lb.length - 1) ((inc lb ub)^[k] idx) ∧
      val lb ub (lb.length - 1) ((inc lb ub)^[k] idx) = val lb ub (lb.length - 1) idx + k := by
  obtain ⟨h0, h1, h2⟩ := hv
  induction k with
  | zero => simp [hl, ht]
  | succ k ih =>
    obtain ⟨i1, i2, i3⟩ := ih
    rw [Function.iterate_succ_apply']
    obtain ⟨j1, j2⟩ := doIt_spec lb ub (lb.length - 1) _ (by omega) (fun j hj => h2 j (by omega)) i2
    refine ⟨by rw [inc, doIt_length, i1], j1, ?_⟩
    rw [inc, j2, i3]; push_cast; ring

theorem tail_of_box {lb ub idx : Idx} (h : InBox lb ub idx) (h0 : 0 < lb.length) : Tail lb ub (lb.length - 1) idx :=
  fun j _ h2 => h.2 j (by omega)

theorem box_of_box {lb ub idx : Idx} (h : InBox lb ub idx) (h0 : 0 < lb.length) : Box lb ub (lb.length - 1) idx :=
  fun j h2 => h.2 j (by omega)

theorem val_ub (lb ub : Idx) (N : ℕ) : val lb ub N ub = total lb ub N - 1 := by
  induction N with
  | zero => simp [val, total, width]
  | succ n ih => simp only [val, total, ih]; unfold width; ring

theorem val_lb (lb ub : Idx) (N : ℕ) : val lb ub N lb = 0 := by
  induction N with
  | zero => simp [val]
  | succ n ih => simp only [val, ih]; ring

theorem inBox_lb {lb ub : Idx} (hv : ValidBounds lb ub) : InBox lb ub lb :=
  ⟨rfl, fun j hj => ⟨le_refl _, hv.2.2 j hj⟩⟩
theorem inBox_ub {lb ub : Idx} (hv : ValidBounds lb ub) : InBox lb ub ub :=
  ⟨hv.2.1, fun j hj => ⟨hv.2.2 j hj, le_refl _⟩⟩

theorem end_spec (lb ub : Idx) (hv : ValidBounds lb ub) :
    («end» lb ub).length = lb.length ∧ Tail lb ub (lb.length - 1) («end» lb ub) ∧
      val lb ub (lb.length - 1) («end» lb ub) = total lb ub (lb.length - 1) := by
  have := inc_iter lb ub hv 1 ub hv.2.1 (tail_of_box (inBox_ub hv) hv.1)
  simp only [Function.iterate_one, val_ub] at this
  refine ⟨this.1, this.2.1, ?_⟩
  show val lb ub _ (inc lb ub ub) = _
  rw [this.2.2]; push_cast; ring

theorem ext_idx {n : ℕ} {a b : Idx} (ha : a.length = n) (hb : b.length = n) (h : ∀ j < n, a.getD j 0 = b.getD j 0) : a = b := by
  apply List.ext_getElem (by omega)
  intro i h1 h2
  have := h i (by omega)
  simpa [List.getD_eq_getElem?_getD, h1, h2] using this

theorem loop_eq (lb ub : Idx) (hv : ValidBounds lb ub) (m : ℕ) (idx : Idx) (hl : idx.length = lb.length)
    (ht : Tail lb ub (lb.length - 1) idx) (hm : val lb ub (lb.length - 1) idx + m = total lb ub (lb.length - 1))
    (fuel : ℕ) (hf : m < fuel) : loop lb ub fuel idx = some (List.iterate (inc lb ub) idx m) := by
  obtain ⟨e1, e2, e3⟩ := end_spec lb ub hv
  have h0 := hv.1
  induction m generalizing idx fuel with
  | zero =>
    obtain ⟨fuel, rfl⟩ : ∃ f, fuel = f + 1 := ⟨fuel - 1, by omega⟩
    have : idx = «end» lb ub := by
      apply ext_idx hl e1
      intro j hj
      exact (val_lt_lex lb ub _ idx _ ht e2).1 (by rw [e3, ← hm]; simp) j (by omega)
    simp [loop, this, List.iterate]
  | succ m ih =>
    obtain ⟨fuel, rfl⟩ : ∃ f, fuel = f + 1 := ⟨fuel - 1, by omega⟩
    have hne : idx ≠ «end» lb ub := by
      rintro rfl
      rw [e3] at hm; push_cast at hm; omega
    obtain ⟨i1, i2, i3⟩ := inc_iter lb ub hv 1 idx hl ht
    simp only [Function.iterate_one] at i1 i2 i3
    rw [loop, if_neg hne, ih _ i1 i2 (by rw [i3, ← hm]; push_cast; ring) fuel (by omega)]
    simp [List.iterate]

theorem total_eq_boxSize_aux (lb ub : Idx) (hl : ub.length = lb.length) (h : 0 < lb.length) :
    total lb ub (lb.length - 1) = boxSize lb ub := by
  -- peel from the front
  have gen : ∀ (n : ℕ) (x y : Int) (lb ub : Idx),
      total (x :: lb) (y :: ub) (n+1) = (y - x + 1) * total lb ub n := by
    intro n x y lb ub
    induction n with
    | zero => simp [total, width]
    | succ n ih =>
      rw [total, ih, total]; simp only [width, List.getD_cons_succ]; ring
  induction lb generalizing ub with
  | nil => simp at h
  | cons x lb ih =>
    cases ub with
    | nil => simp at hl
    | cons y ub =>
      simp only [List.length_cons, Nat.add_right_cancel_iff] at hl
      cases lb with
      | nil =>
        cases ub with
        | nil => simp [total, width, boxSize]
        | cons => simp at hl
      | cons z lb =>
        have := ih ub hl (by simp)
        simp only [List.length_cons, Nat.add_sub_cancel] at this ⊢
        rw [gen, this, boxSize]

end CppQED.MII
