import Verif.Spec.MultiIndex
import Mathlib.Data.List.Basic
import Mathlib.Algebra.BigOperators.Group.Finset.Basic
import Mathlib.Algebra.BigOperators.Ring.Finset
import Mathlib.Data.Int.Interval
import Mathlib.Tactic.Linarith

/-! Specification vocabulary for slicing, independent of the slice iterator's code. -/

namespace CppQED.Spec

/-- `V` is a valid axis selection of a rank-`r` array: nonempty, distinct, in range. -/
def ValidAxes (r : ℕ) (V : List ℕ) : Prop := V ≠ [] ∧ V.Nodup ∧ ∀ a ∈ V, a < r

/-- The coordinates of the full index `i` on the axes `V`, in the order of `V`. -/
def coords (V : List ℕ) (i : List Int) : List Int := V.map (fun a => i.getD a 0)

/-- Two full indices of rank `r` agree on all the axes outside `V`. -/
def AgreeOff (r : ℕ) (V : List ℕ) (i j : List Int) : Prop := ∀ a < r, a ∉ V → i.getD a 0 = j.getD a 0

/-- The full index obtained from `i` by replacing its coordinates on the axes `V` by `s`. -/
def replace (V : List ℕ) (s i : List Int) : List Int :=
  i.mapIdx (fun a x => if a ∈ V then s.getD (V.idxOf a) 0 else x)

/-- All the multi-indices of the box `[lb, ub]`. -/
def boxFinset : List Int → List Int → Finset (List Int)
  | l :: lb, u :: ub => (Finset.Icc l u ×ˢ boxFinset lb ub).map ⟨fun p => p.1 :: p.2, fun p q h => by
      simp only [List.cons.injEq] at h; exact Prod.ext h.1 h.2⟩
  | _, _ => {[]}

theorem mem_boxFinset (lb ub idx : List Int) (hl : ub.length = lb.length) : idx ∈ boxFinset lb ub ↔ InBox lb ub idx := by
  induction lb generalizing ub idx with
  | nil =>
    simp only [boxFinset, Finset.mem_singleton, InBox, List.length_nil, Nat.not_lt_zero, false_imp_iff, implies_true, and_true]
    exact List.length_eq_zero_iff.symm
  | cons l lb ih =>
    cases ub with
    | nil => simp at hl
    | cons u ub =>
      simp only [boxFinset, Finset.mem_map, Finset.mem_product, Prod.exists, Finset.mem_Icc]
      constructor
      · rintro ⟨x, xs, ⟨h1, h2⟩, rfl⟩
        rw [ih ub xs (by simpa using hl)] at h2
        change InBox (l :: lb) (u :: ub) (x :: xs)
        refine ⟨by simp [h2.1], ?_⟩
        intro j hj
        cases j with
        | zero => simpa using h1
        | succ j => simpa using h2.2 j (by simpa using hj)
      · intro h
        cases idx with
        | nil => simp [InBox] at h
        | cons x xs =>
          refine ⟨x, xs, ⟨by simpa using h.2 0 (by simp), ?_⟩, rfl⟩
          rw [ih ub xs (by simpa using hl)]
          refine ⟨by simpa using h.1, fun j hj => ?_⟩
          simpa using h.2 (j+1) (by simpa using hj)

/-- The linear operator on (small) arrays with matrix `M`, summing over the box `[lb, ub]`. -/
def matAction {K : Type*} [Semiring K] (lb ub : List Int) (M : List Int → List Int → K) (t : List Int → K) : List Int → K :=
  fun s => ∑ s' ∈ boxFinset lb ub, M s s' * t s'

end CppQED.Spec
