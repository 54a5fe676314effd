import Verif.Model.MatrixSlices
import Verif.Props.Slice

/-! # C179: operators act on density operators from the left and from the right -/

namespace CppQED.Slice
open CppQED.MII (Idx)
open CppQED.Spec

theorem leftRight_valid {k : ℕ} (hk : 0 < k) (S : Side) : ValidAxes (2 * k) (leftRight k S) := by
  cases S with
  | left =>
    refine ⟨?_, List.nodup_range', fun a ha => ?_⟩
    · simp [leftRight]; omega
    · simp [leftRight, List.mem_range'] at ha; omega
  | right =>
    refine ⟨?_, List.nodup_range', fun a ha => ?_⟩
    · simp [leftRight]; omega
    · simp only [leftRight, List.mem_range'_1] at ha; omega

theorem map_range' (s : Idx) (p : Idx) (t : Idx) : (List.range' p.length s.length).map (fun a => (p ++ (s ++ t)).getD a 0) = s := by
  apply List.ext_getElem (by simp)
  intro n h1 h2
  simp [List.getD_eq_getElem?_getD, List.getElem?_append_right, List.getElem?_append_left h2, h2]

theorem coords_left {k : ℕ} {i j : Idx} (hi : i.length = k) : coords (leftRight k .left) (i ++ j) = i := by
  subst hi
  simpa [coords, leftRight] using map_range' i [] j

theorem coords_right {k : ℕ} {i j : Idx} (hi : i.length = k) (hj : j.length = k) : coords (leftRight k .right) (i ++ j) = j := by
  have h := map_range' j i []
  rw [hi, hj, List.append_nil] at h
  exact h

theorem idxOf_range' {a k n : ℕ} (h : n < k) : (List.range' a k).idxOf (a + n) = n := by
  have e : (List.range' a k)[n]'(by simpa using h) = a + n := by simp
  rw [← e]
  exact List.Nodup.idxOf_getElem List.nodup_range' n _

theorem replace_left {k : ℕ} {s i j : Idx} (hs : s.length = k) (hi : i.length = k) : replace (leftRight k .left) s (i ++ j) = s ++ j := by
  apply List.ext_getElem (by simp [replace, hs, hi])
  intro n h1 h2
  simp only [replace, List.getElem_mapIdx]
  by_cases hn : n < k
  · have hm : n ∈ leftRight k .left := by simp [leftRight, List.mem_range'_1, hn]
    have hx : (leftRight k .left).idxOf n = n := by simpa [leftRight] using idxOf_range' (a := 0) hn
    rw [if_pos hm, hx, List.getElem_append_left (by omega), List.getD_eq_getElem?_getD, List.getElem?_eq_getElem (by omega), Option.getD_some]
  · have hm : n ∉ leftRight k .left := by simp [leftRight, List.mem_range'_1, hn]
    rw [if_neg hm, List.getElem_append_right (by omega), List.getElem_append_right (by omega)]
    simp [hs, hi]

theorem replace_right {k : ℕ} {s i j : Idx} (hs : s.length = k) (hi : i.length = k) (hj : j.length = k) : replace (leftRight k .right) s (i ++ j) = i ++ s := by
  apply List.ext_getElem (by simp [replace, hs, hi, hj])
  intro n h1 h2
  have h3 : n < k + k := by simpa [hs, hi] using h2
  simp only [replace, List.getElem_mapIdx]
  by_cases hn : n < k
  · have hm : n ∉ leftRight k .right := by simp only [leftRight, List.mem_range'_1]; omega
    rw [if_neg hm, List.getElem_append_left (by omega), List.getElem_append_left (by omega)]
  · have hm : n ∈ leftRight k .right := by simp only [leftRight, List.mem_range'_1]; omega
    have hx : (leftRight k .right).idxOf n = n - k := by
      have := idxOf_range' (a := k) (k := k) (n := n - k) (by omega)
      rwa [show k + (n - k) = n by omega] at this
    rw [if_pos hm, hx, List.getElem_append_right (by omega), List.getD_eq_getElem?_getD, List.getElem?_eq_getElem (by omega), Option.getD_some]
    simp [hi]

theorem getD_append_cases (b b' : Idx) (m : ℕ) : (b ++ b').getD m 0 = if m < b.length then b.getD m 0 else b'.getD (m - b.length) 0 := by
  simp only [List.getD_eq_getElem?_getD]
  split_ifs with h
  · rw [List.getElem?_append_left h]
  · rw [List.getElem?_append_right (by omega)]

theorem inBox_append {b u b' u' i j : Idx} (hb : ValidBounds b u) (hi : InBox b u i) (hj : InBox b' u' j) : InBox (b ++ b') (u ++ u') (i ++ j) := by
  refine ⟨by simp [hi.1, hj.1], fun m hm => ?_⟩
  rw [getD_append_cases, getD_append_cases, getD_append_cases, hi.1, hb.2.1]
  split_ifs with h
  · exact hi.2 m h
  · exact hj.2 _ (by simp at hm; omega)

theorem validBounds_append {b u b' u' : Idx} (hb : ValidBounds b u) (hb' : ValidBounds b' u') : ValidBounds (b ++ b') (u ++ u') := by
  refine ⟨by simp; have := hb.1; omega, by simp [hb.2.1, hb'.2.1], fun m hm => ?_⟩
  rw [getD_append_cases, getD_append_cases, hb.2.1]
  split_ifs with h
  · exact hb.2.2 m h
  · exact hb'.2.2 _ (by simp at hm; omega)

/-- C179: what acts on the vectors of a multi-matrix as `f`, from the left, replaces each column by its image. -/
theorem left_columns {α : Type*} {k : ℕ} {b u b' u' : Idx} (hb : ValidBounds b u) (hb' : ValidBounds b' u') (hk : b.length = k) (hk' : b'.length = k) (f : Arr α → Arr α) (hf : Local b u f) :
    ∃ ds, (∀ fuel, ds.length < fuel → vectors (2 * k) .left (b ++ b') (u ++ u') fuel = some ds) ∧ ∀ rho i j, InBox b u i → InBox b' u' j →
      forEachVector (2 * k) .left (b ++ b') (u ++ u') ds f rho (i ++ j) = f (fun s => rho (s ++ j)) i := by
  have hk0 : 0 < k := hk ▸ hb.1
  have e : 2 * k / 2 = k := by omega
  have s1 : sliceBound (leftRight k .left) (b ++ b') = b := coords_left hk
  have s2 : sliceBound (leftRight k .left) (u ++ u') = u := coords_left (by rw [hb.2.1, hk])
  obtain ⟨ds, h1, h2⟩ := forEachSlice_eq_extension (2 * k) (leftRight k .left) (b ++ b') (u ++ u') (leftRight_valid hk0 _) (validBounds_append hb hb') (by simp [hk, hk']; omega) f (by rw [s1, s2]; exact hf)
  refine ⟨ds, fun fuel hfu => by rw [vectors, e]; exact h1 fuel hfu, fun rho i j hi hj => ?_⟩
  rw [forEachVector, e, (h2 rho (i ++ j)).1 (inBox_append hb hi hj), coords_left (by rw [hi.1, hk])]
  exact hf _ _ (fun s hs => by rw [replace_left (by rw [hs.1, hk]) (by rw [hi.1, hk])]) i hi

/-- C179: from the right, each row is replaced by its image. -/
theorem right_rows {α : Type*} {k : ℕ} {b u b' u' : Idx} (hb : ValidBounds b u) (hb' : ValidBounds b' u') (hk : b.length = k) (hk' : b'.length = k) (f : Arr α → Arr α) (hf : Local b' u' f) :
    ∃ ds, (∀ fuel, ds.length < fuel → vectors (2 * k) .right (b ++ b') (u ++ u') fuel = some ds) ∧ ∀ rho i j, InBox b u i → InBox b' u' j →
      forEachVector (2 * k) .right (b ++ b') (u ++ u') ds f rho (i ++ j) = f (fun s => rho (i ++ s)) j := by
  have hk0 : 0 < k := hk ▸ hb.1
  have e : 2 * k / 2 = k := by omega
  have s1 : sliceBound (leftRight k .right) (b ++ b') = b' := coords_right hk hk'
  have s2 : sliceBound (leftRight k .right) (u ++ u') = u' := coords_right (by rw [hb.2.1, hk]) (by rw [hb'.2.1, hk'])
  obtain ⟨ds, h1, h2⟩ := forEachSlice_eq_extension (2 * k) (leftRight k .right) (b ++ b') (u ++ u') (leftRight_valid hk0 _) (validBounds_append hb hb') (by simp [hk, hk']; omega) f (by rw [s1, s2]; exact hf)
  refine ⟨ds, fun fuel hfu => by rw [vectors, e]; exact h1 fuel hfu, fun rho i j hi hj => ?_⟩
  rw [forEachVector, e, (h2 rho (i ++ j)).1 (inBox_append hb hi hj), coords_right (by rw [hi.1, hk]) (by rw [hj.1, hk'])]
  exact hf _ _ (fun s hs => by rw [replace_right (by rw [hs.1, hk']) (by rw [hi.1, hk]) (by rw [hj.1, hk'])]) j hj

/-- C179: with two multi-matrices, each column of the second is replaced by the image of the two columns (this is how the derivative of a density operator gets the contribution of the Hamiltonian). -/
theorem left_columns₂ {α β : Type*} {k : ℕ} {b u b' u' : Idx} (hb : ValidBounds b u) (hb' : ValidBounds b' u') (hk : b.length = k) (hk' : b'.length = k) (f : Arr α → Arr β → Arr β)
    (hf1 : ∀ v, Local b u (fun t => f t v)) (hf2 : ∀ t, Local b u (f t)) :
    ∃ ds, (∀ fuel, ds.length < fuel → vectors (2 * k) .left (b ++ b') (u ++ u') fuel = some ds) ∧ ∀ rho drhodt i j, InBox b u i → InBox b' u' j →
      forEachVector₂ (2 * k) .left (b ++ b') (u ++ u') ds f rho drhodt (i ++ j) = f (fun s => rho (s ++ j)) (fun s => drhodt (s ++ j)) i := by
  have hk0 : 0 < k := hk ▸ hb.1
  have e : 2 * k / 2 = k := by omega
  have s1 : sliceBound (leftRight k .left) (b ++ b') = b := coords_left hk
  have s2 : sliceBound (leftRight k .left) (u ++ u') = u := coords_left (by rw [hb.2.1, hk])
  obtain ⟨ds, h1, h2⟩ := forEachSlice₂_eq_extension (2 * k) (leftRight k .left) (b ++ b') (u ++ u') (leftRight_valid hk0 _) (validBounds_append hb hb') (by simp [hk, hk']; omega) f
    (by rw [s1, s2]; exact hf1) (by rw [s1, s2]; exact hf2)
  refine ⟨ds, fun fuel hfu => by rw [vectors, e]; exact h1 fuel hfu, fun rho drhodt i j hi hj => ?_⟩
  rw [forEachVector₂, e, (h2 rho drhodt (i ++ j)).1 (inBox_append hb hi hj), coords_left (by rw [hi.1, hk])]
  have hr : ∀ s, InBox b u s → replace (leftRight k .left) s (i ++ j) = s ++ j := fun s hs => replace_left (by rw [hs.1, hk]) (by rw [hi.1, hk])
  exact (hf1 _ _ _ (fun s hs => by rw [hr s hs]) i hi).trans (hf2 _ _ _ (fun s hs => by rw [hr s hs]) i hi)

/-- C179: acting with the operator of matrix `A` on all the vectors from the left and then with that of matrix `B` from the right makes of the density operator the product of `A`, the density operator, and the transpose of `B`. -/
theorem sandwich {K : Type*} [CommSemiring K] {k : ℕ} {b u : Idx} (hb : ValidBounds b u) (hk : b.length = k) (A B : Idx → Idx → K) :
    ∃ ds ds', (∀ fuel, ds.length < fuel → vectors (2 * k) .left (b ++ b) (u ++ u) fuel = some ds) ∧ (∀ fuel, ds'.length < fuel → vectors (2 * k) .right (b ++ b) (u ++ u) fuel = some ds') ∧
      ∀ rho i j, InBox b u i → InBox b u j →
        forEachVector (2 * k) .left (b ++ b) (u ++ u) ds (matAction b u A) rho (i ++ j) = ∑ m ∈ boxFinset b u, A i m * rho (m ++ j) ∧
        forEachVector (2 * k) .right (b ++ b) (u ++ u) ds' (matAction b u B) rho (i ++ j) = ∑ n ∈ boxFinset b u, rho (i ++ n) * B j n ∧
        forEachVector (2 * k) .right (b ++ b) (u ++ u) ds' (matAction b u B) (forEachVector (2 * k) .left (b ++ b) (u ++ u) ds (matAction b u A) rho) (i ++ j) =
          ∑ m ∈ boxFinset b u, ∑ n ∈ boxFinset b u, A i m * rho (m ++ n) * B j n := by
  obtain ⟨ds, h1, h2⟩ := left_columns hb hb hk hk _ (matAction_local b u hb.2.1 A)
  obtain ⟨ds', h1', h2'⟩ := right_rows hb hb hk hk _ (matAction_local b u hb.2.1 B)
  refine ⟨ds, ds', h1, h1', fun rho i j hi hj => ⟨h2 rho i j hi hj, ?_, ?_⟩⟩
  · rw [h2' rho i j hi hj]
    exact Finset.sum_congr rfl fun n _ => mul_comm _ _
  · rw [h2' _ i j hi hj, Finset.sum_comm]
    refine Finset.sum_congr rfl fun n hn => ?_
    show B j n * forEachVector (2 * k) .left (b ++ b) (u ++ u) ds (matAction b u A) rho (i ++ n) = _
    rw [h2 rho i n hi ((mem_boxFinset b u n hb.2.1).1 hn), ← Finset.sum_mul, mul_comm]
    rfl

/-- Two subsystems of 2 and 3 levels. -/
example :=
  sandwich (K := ℤ) (k := 2) (b := [0, 0]) (u := [1, 2]) ⟨by decide, by decide, fun j hj => match j, hj with
    | 0, _ => by decide
    | 1, _ => by decide⟩ rfl (fun s s' => s.getD 0 0 + 2 * s'.getD 1 0) fun s s' => s.getD 1 0 * s'.getD 0 0

/-- The columns of a density operator of these, in the order of their visit. -/
example : vectors 4 .left [0, 0, 0, 0] [1, 2, 1, 2] 7 = some [[0, 0], [0, 1], [0, 2], [1, 0], [1, 1], [1, 2]] := by decide

/-- The element `[1, 2]` of the column `[0, 1]` is that with the indices `[1, 2, 0, 1]`, of the row `[0, 1]` that with the indices `[0, 1, 1, 2]`. -/
example : sliceAddr 4 (leftRight 2 .left) [0, 1] [1, 2] = [1, 2, 0, 1] ∧ sliceAddr 4 (leftRight 2 .right) [0, 1] [1, 2] = [0, 1, 1, 2] := by decide

end CppQED.Slice
