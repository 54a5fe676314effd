import Verif.Lemmas.MultiIndex

/-! # C01: the multi-index iterator visits every index of the box exactly once, in lexicographic order, and stops -/

namespace CppQED.MII
open Spec

/-- **C01.** For every rank and every nonempty box, the canonical loop over a `MultiIndexIterator` from begin to end terminates;
the indices it visits are exactly the indices of the box, each exactly once, in strictly increasing lexicographic order (the last
index is fastest); and their number is the product of the extents. -/
theorem mii_visits_box_once_lex (lb ub : Idx) (hv : ValidBounds lb ub) :
    ∃ L : List Idx,
      (∀ fuel, L.length < fuel → loop lb ub fuel (begin lb ub) = some L) ∧
      (∀ idx, idx ∈ L ↔ InBox lb ub idx) ∧
      L.Nodup ∧ L.Pairwise (· < ·) ∧ (L.length : ℤ) = boxSize lb ub := by
  obtain h0 := hv.1
  have htot0 : 0 ≤ total lb ub (lb.length - 1) := by
    have := val_nonneg_lt lb ub _ lb (box_of_box (inBox_lb hv) h0); omega
  obtain ⟨m, hm⟩ := Int.eq_ofNat_of_zero_le htot0
  have hit := fun k => inc_iter lb ub hv k lb rfl (tail_of_box (inBox_lb hv) h0)
  simp only [val_lb, zero_add] at hit
  have hlen : (List.iterate (inc lb ub) lb m).length = m := by simp
  have hpw : (List.iterate (inc lb ub) lb m).Pairwise (· < ·) := by
    rw [List.pairwise_iff_getElem]
    intro i j hi hj hij
    simp only [List.getElem_iterate]
    obtain ⟨a1, a2, a3⟩ := hit i
    obtain ⟨b1, b2, b3⟩ := hit j
    obtain ⟨k, hk, h3, h4⟩ := (val_lt_lex lb ub _ _ _ a2 b2).2 (by rw [a3, b3]; exact_mod_cast hij)
    rw [List.lt_iff_exists]
    right
    have ka : k < ((inc lb ub)^[i] lb).length := by omega
    have kb : k < ((inc lb ub)^[j] lb).length := by omega
    refine ⟨k, ka, kb, ?_, ?_⟩
    · intro l hl
      have := h3 l hl
      have la : l < ((inc lb ub)^[i] lb).length := by omega
      have lb' : l < ((inc lb ub)^[j] lb).length := by omega
      simpa [List.getD_eq_getElem?_getD, la, lb'] using this
    · simpa [List.getD_eq_getElem?_getD, ka, kb] using h4
  refine ⟨List.iterate (inc lb ub) lb m, ?_, ?_, ?_, hpw, ?_⟩
  · intro fuel hf
    exact loop_eq lb ub hv m lb rfl (tail_of_box (inBox_lb hv) h0) (by rw [val_lb, hm]; simp) fuel (by omega)
  · intro idx
    rw [List.mem_iff_getElem]
    simp only [List.getElem_iterate, List.length_iterate, exists_prop]
    constructor
    · rintro ⟨k, hk, rfl⟩
      obtain ⟨a1, a2, a3⟩ := hit k
      refine ⟨a1, fun j hj => box_of_val lb ub (lb.length - 1) _ ?_ a2 (by omega) ?_ j (by omega)⟩
      · intro j hj; have := hv.2.2 j (by omega); unfold width; omega
      · rw [a3, hm]; exact_mod_cast hk
    · intro h
      obtain ⟨v0, v1⟩ := val_nonneg_lt lb ub _ idx (box_of_box h h0)
      obtain ⟨k, hk⟩ := Int.eq_ofNat_of_zero_le v0
      refine ⟨k, by rw [hk, hm] at v1; exact_mod_cast v1, ?_⟩
      obtain ⟨a1, a2, a3⟩ := hit k
      apply ext_idx a1 h.1
      intro j hj
      exact (val_lt_lex lb ub _ _ _ a2 (tail_of_box h h0)).1 (by rw [a3, hk]) j (by omega)
  · exact hpw.imp (fun h => by rintro rfl; exact lt_irrefl _ h)
  · rw [hlen, ← total_eq_boxSize_aux lb ub hv.2.1 h0, hm]

/-- The hypotheses are met by the non-trivial box `[-1,1] × [2,4]`, and the conclusion is observable there. -/
example : ValidBounds [-1, 2] [1, 4] := by
  refine ⟨by simp, by simp, ?_⟩
  intro j hj
  match j, hj with
  | 0, _ => simp
  | 1, _ => simp

example : loop [-1, 2] [1, 4] 10 (begin [-1, 2] [1, 4]) =
    some [[-1,2],[-1,3],[-1,4],[0,2],[0,3],[0,4],[1,2],[1,3],[1,4]] := by decide

/-- The end iterator itself: one past the end on axis 0 and the lower bound on all the other axes
(MultiIndexIterator.h:57), so it is different from every index of the box. -/
theorem mii_end_form (lb ub : Idx) (hv : ValidBounds lb ub) :
    «end» lb ub = (ub.getD 0 0 + 1) :: lb.tail ∧ ¬ InBox lb ub («end» lb ub) := by
  obtain ⟨e1, e2, e3⟩ := end_spec lb ub hv
  have h0 := hv.1
  have hl : ((ub.getD 0 0 + 1) :: lb.tail).length = lb.length := by simp; omega
  have hget : ∀ j, 1 ≤ j → ((ub.getD 0 0 + 1) :: lb.tail).getD j 0 = lb.getD j 0 := by
    intro j hj
    obtain ⟨j, rfl⟩ : ∃ i, j = i + 1 := ⟨j - 1, by omega⟩
    cases lb with
    | nil => simp at h0
    | cons x lb => simp
  have hval : ∀ N, N < lb.length → val lb ub N ((ub.getD 0 0 + 1) :: lb.tail) = total lb ub N := by
    intro N hN
    induction N with
    | zero => simp only [val, total, width, List.getD_cons_zero]; ring
    | succ n ih => simp only [val, total]; rw [ih (by omega), hget _ (by omega)]; ring
  constructor
  · apply ext_idx e1 hl
    intro j hj
    refine (val_lt_lex lb ub _ _ _ e2 ?_).1 ?_ j (by omega : j ≤ lb.length - 1)
    · intro j h1 h2; rw [hget j h1]; exact ⟨le_refl _, hv.2.2 j (by omega)⟩
    · rw [e3, hval _ (by omega)]
  · intro h
    have := val_nonneg_lt lb ub _ _ (box_of_box h h0)
    omega

end CppQED.MII
