import Verif.Lemmas.Combinatorics

/-! # C04: combinations with repetition -/

namespace CppQED.CWR

/-- **C04.** For every number of sites `n ≥ 1` and particles `k`, the table of `CWR_Dir<n>(k)` contains each occupation vector of
length `n` with sum `k` exactly once, and nothing else; it has `binomial(n+k-1, k)` rows. -/
theorem cwr_complete (n k : ℕ) (hn : 1 ≤ n) :
    (∀ v, v ∈ impl n k ↔ v.length = n ∧ v.sum = k) ∧ (impl n k).Nodup ∧ (impl n k).length = (n + k - 1).choose k := by
  rw [impl_eq n k hn]
  refine ⟨fun v => ?_, comps_nodup _ _, ?_⟩
  · rw [mem_comps, show n - 1 + 1 = n by omega]
  · rw [comps_length, show n - 1 + 1 = n by omega]; rfl

/-- **C04, lookup.** The two subscripts are inverse to each other: looking up a configuration returns the position at which subscripting
by number yields it, and conversely; the exception is raised exactly for vectors that are not configurations. -/
theorem cwr_subscript_inverse (n k : ℕ) (hn : 1 ≤ n) (c : List ℕ) :
    (∀ i, find n k c = some i ↔ row n k i = some c) ∧ (find n k c = none ↔ ¬ (c.length = n ∧ c.sum = k)) := by
  obtain ⟨h1, h2, _⟩ := cwr_complete n k hn
  have hfi : find n k c = none ↔ c ∉ impl n k := by
    unfold find
    simp only
    split
    · rename_i h
      simp only [true_iff]
      rw [List.findIdx_eq_length] at h
      intro hc
      simpa using h c hc
    · rename_i h
      simp only [reduceCtorEq, false_iff, not_not]
      by_contra hc
      apply h
      rw [List.findIdx_eq_length]
      intro x hx
      simp only [beq_eq_false_iff_ne, ne_eq]
      rintro rfl; exact hc hx
  refine ⟨fun i => ?_, by rw [hfi, h1]⟩
  constructor
  · intro h
    unfold find at h
    simp only at h
    split at h
    · simp at h
    · rename_i hne
      have hi : (impl n k).findIdx (· == c) = i := by simpa using h
      have hlt : (impl n k).findIdx (· == c) < (impl n k).length :=
        lt_of_le_of_ne List.findIdx_le_length hne
      have := List.findIdx_getElem (w := hlt)
      rw [beq_iff_eq] at this
      rw [row, ← hi, List.getElem?_eq_getElem hlt, this]
  · intro h
    rw [row, List.getElem?_eq_some_iff] at h
    obtain ⟨hi, hc⟩ := h
    have hm : c ∈ impl n k := hc ▸ List.getElem_mem hi
    have hne : ¬ find n k c = none := by rw [hfi]; simpa using hm
    obtain ⟨j, hj⟩ := Option.ne_none_iff_exists'.1 hne
    rw [hj]
    unfold find at hj
    simp only at hj
    split at hj
    · simp at hj
    · rename_i hne2
      have hjj : (impl n k).findIdx (· == c) = j := by simpa using hj
      have hlt : (impl n k).findIdx (· == c) < (impl n k).length :=
        lt_of_le_of_ne List.findIdx_le_length hne2
      have := List.findIdx_getElem (w := hlt)
      rw [beq_iff_eq] at this
      have hij := (List.Nodup.getElem_inj_iff h2 (hi := hlt) (hj := hi)).1 (by rw [this, hc])
      rw [← hjj, hij]

/-- Non-vacuity: three sites, two particles. -/
example : impl 3 2 = [[0,0,2],[0,1,1],[0,2,0],[1,0,1],[1,1,0],[2,0,0]] := by decide
example : find 3 2 [1,0,1] = some 3 ∧ find 3 2 [1,0,0] = none := by decide

end CppQED.CWR
