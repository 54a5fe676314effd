import Verif.Spec.TinyOfArrays
import Mathlib.Data.List.Range
import Mathlib.Data.List.Nodup
import Mathlib.Algebra.Ring.Int.Defs
import Mathlib.Algebra.Ring.Basic

/-! # C185: copies of vectors of arrays are independent -/

namespace CppQED.TinyArrays

variable {R : Type}

theorem read_append {h h' : Memory R} {a : ℕ} (ha : a < h.length) : read (h ++ h') a = read h a := by
  simp [read, List.getD_eq_getElem?_getD, List.getElem?_append_left ha]

theorem read_write_ne {h : Memory R} {a b : ℕ} (hab : a ≠ b) (v : List R) : read (write h a v) b = read h b := by
  simp [read, write, List.getD_eq_getElem?_getD, List.getElem?_set_ne hab]

theorem read_write_self {h : Memory R} {a : ℕ} (ha : a < h.length) (v : List R) : read (write h a v) a = v := by
  simp [read, write, List.getD_eq_getElem?_getD, List.getElem?_set_self ha]

theorem deepCopy_eq (h : Memory R) (xs : List ℕ) (hx : ∀ x ∈ xs, x < h.length) : deepCopy h xs = (h ++ xs.map (read h), List.range' h.length xs.length) := by
  induction xs generalizing h with
  | nil => simp [deepCopy]
  | cons x xs ih =>
    have hx' : ∀ z ∈ xs, z < h.length := fun z hz => hx z (List.mem_cons_of_mem _ hz)
    simp only [deepCopy, copy]
    rw [ih _ (fun z hz => by have := hx' z hz; simp; omega)]
    have e : xs.map (read (h ++ [read h x])) = xs.map (read h) := List.map_congr_left fun z hz => read_append (hx' z hz)
    rw [e]
    simp [List.range'_succ]

theorem read_history {h : Memory R} {ws : List (ℕ × List R)} {a : ℕ} (hw : ∀ w ∈ ws, w.1 ≠ a) : read (history h ws) a = read h a := by
  induction ws generalizing h with
  | nil => rfl
  | cons w ws ih =>
    show read (history (write h w.1 w.2) ws) a = _
    rw [ih (fun z hz => hw z (List.mem_cons_of_mem _ hz)), read_write_ne (hw w List.mem_cons_self)]

theorem range'_read (h : Memory R) (l : List (List R)) : (List.range' h.length l.length).map (read (h ++ l)) = l := by
  apply List.ext_getElem (by simp)
  intro i h1 h2
  simp [read, List.getD_eq_getElem?_getD, h2]

theorem independent_range' {h h' : Memory R} {l : List (List R)} (hl : h'.length = h.length + l.length) (hc : (List.range' h.length l.length).map (read h') = l) (hu : ∀ a < h.length, read h' a = read h a) :
    Independent h h' (List.range' h.length l.length) l where
  has_contents := hc
  unchanged := hu
  forward ws hw a ha := by
    rw [read_history, hu a ha]
    intro w hw'
    have := List.mem_range'_1.1 (hw w hw')
    omega
  backward ws hw := by
    conv_rhs => rw [← hc]
    refine List.map_congr_left fun y hy => read_history fun w hw' => ?_
    have := List.mem_range'_1.1 hy
    have := hw w hw'
    omega
  separate i j y z hij hy hz v := by
    obtain ⟨hi, rfl⟩ := List.getElem?_eq_some_iff.1 hy
    obtain ⟨hj, rfl⟩ := List.getElem?_eq_some_iff.1 hz
    rw [List.length_range'] at hi hj
    simp only [List.getElem_range']
    exact ⟨read_write_self (by omega) v, read_write_ne (by omega) v⟩

/-- C185: a deep copy, even of a vector some of whose components are the same array. -/
theorem deepCopy_independent (h : Memory R) (xs : List ℕ) (hx : ∀ x ∈ xs, x < h.length) : Independent h (deepCopy h xs).1 (deepCopy h xs).2 (xs.map (read h)) := by
  rw [deepCopy_eq h xs hx]
  have := independent_range' (h := h) (h' := h ++ xs.map (read h)) (l := xs.map (read h)) (by simp) (range'_read h _) (fun a ha => read_append ha)
  simpa using this

/-- C185: and a vector filled with deep copies of one array. -/
theorem deepFill_independent (h : Memory R) (n : ℕ) (x : ℕ) (hx : x < h.length) : Independent h (deepFill h n x).1 (deepFill h n x).2 (List.replicate n (read h x)) := by
  have := deepCopy_independent h (List.replicate n x) (fun z hz => by rw [List.eq_of_mem_replicate hz]; exact hx)
  simpa [deepFill] using this

/-- C185: a vector filled with shallow copies of an array always has the contents of this array in each component, whatever is written where. -/
theorem shallowFill_shares (h : Memory R) (n : ℕ) (x : ℕ) (ws : List (ℕ × List R)) : (shallowFill n x).map (read (history h ws)) = List.replicate n (read (history h ws) x) := by
  simp [shallowFill]

theorem timesMinusOne_length [Ring R] (h : Memory R) (xs : List ℕ) : (timesMinusOne h xs).length = h.length := by
  induction xs generalizing h with
  | nil => rfl
  | cons x xs ih => simp [timesMinusOne, ih, write]

theorem timesMinusOne_ne [Ring R] (h : Memory R) (xs : List ℕ) {a : ℕ} (ha : a ∉ xs) : read (timesMinusOne h xs) a = read h a := by
  induction xs generalizing h with
  | nil => rfl
  | cons x xs ih =>
    simp only [List.mem_cons, not_or] at ha
    simp only [timesMinusOne]
    rw [ih _ ha.2, read_write_ne (Ne.symm ha.1)]

theorem timesMinusOne_mem [Ring R] (h : Memory R) (xs : List ℕ) (hn : xs.Nodup) {a : ℕ} (ha : a ∈ xs) (hl : a < h.length) : read (timesMinusOne h xs) a = (read h a).map (- ·) := by
  induction xs generalizing h with
  | nil => simp at ha
  | cons x xs ih =>
    obtain ⟨hx, hn⟩ := List.nodup_cons.1 hn
    simp only [timesMinusOne]
    by_cases e : a = x
    · subst e
      rw [timesMinusOne_ne _ _ hx, read_write_self hl]
      simp
    · rw [ih _ hn ((List.mem_cons.1 ha).resolve_left e) (by simpa [write] using hl), read_write_ne (Ne.symm e)]

/-- C185: the negative of a vector of arrays consists of new arrays, with the elements negated; its argument remains what it was, even if some of its components are the same array. -/
theorem negate_independent [Ring R] (h : Memory R) (xs : List ℕ) (hx : ∀ x ∈ xs, x < h.length) : Independent h (negate h xs).1 (negate h xs).2 (xs.map fun x => (read h x).map (- ·)) := by
  unfold negate
  rw [deepCopy_eq h xs hx]
  have e : xs.length = (xs.map fun x => (read h x).map (- ·)).length := by simp
  have := independent_range' (h := h) (h' := timesMinusOne (h ++ xs.map (read h)) (List.range' h.length xs.length)) (l := xs.map fun x => (read h x).map (- ·)) (by simp [timesMinusOne_length]) ?_ ?_
  · simpa using this
  · rw [← e]
    have hr := range'_read h (xs.map (read h))
    rw [List.length_map] at hr
    have : (List.range' h.length xs.length).map (read (timesMinusOne (h ++ xs.map (read h)) (List.range' h.length xs.length)))
        = ((List.range' h.length xs.length).map (read (h ++ xs.map (read h)))).map (List.map (- ·)) := by
      rw [List.map_map]
      refine List.map_congr_left fun a ha => timesMinusOne_mem _ _ List.nodup_range' ha ?_
      have := List.mem_range'_1.1 ha
      simp
      omega
    rw [this, hr]
    simp
  · intro a ha
    rw [timesMinusOne_ne _ _ (fun hm => by have := List.mem_range'_1.1 hm; omega), read_append ha]

/-! ## Examples: two arrays, and a vector of three components, two of which are the same array -/

example : Independent [[1, 2], [3]] (negate [[1, 2], [3]] [0, 1, 0]).1 (negate ([[1, 2], [3]] : Memory ℤ) [0, 1, 0]).2 [[-1, -2], [-3], [-1, -2]] := negate_independent _ _ (by decide)

example : negate ([[1, 2], [3]] : Memory ℤ) [0, 1, 0] = ([[1, 2], [3], [-1, -2], [-3], [-1, -2]], [2, 3, 4]) := by decide

example : Independent [[1, 2], [3]] (deepFill [[1, 2], [3]] 2 0).1 (deepFill ([[1, 2], [3]] : Memory ℤ) 2 0).2 [[1, 2], [1, 2]] := deepFill_independent _ 2 0 (by decide)

end CppQED.TinyArrays
