import Verif.Lemmas.Deflate

/-! # C08: `deflate` and `inflate` are inverse to each other -/

namespace CppQED.Deflate
open CppQED.MII (Idx)
open CppQED.Spec
open ComplexConjugate

theorem diagLoop_eq (lb ub : Idx) (ρ : Idx → Idx → ℂ) (m : ℕ) :
    diagLoop lb ub ρ m = (List.iterate (MII.inc lb ub) lb m).map (fun i => (ρ i i).re) := by
  apply List.ext_getElem
  · simp [diagLoop]
  · intro k h1 h2
    simp [diagLoop, List.getElem_iterate]

theorem inflateDiag_apply (lb ub : Idx) (hv : ValidBounds lb ub) (m : ℕ) (hm : (m : ℤ) = boxSize lb ub) (fl : List ℝ)
    (ρ : Idx → Idx → ℂ) (a b : Idx) :
    inflateDiag lb ub fl m ρ a b = if a = b ∧ InBox lb ub a
      then (fl.getD ((List.iterate (MII.inc lb ub) lb m).idxOf a) 0 : ℂ) else ρ a b := by
  obtain ⟨_, b2, b3, _⟩ := box_list lb ub hv m hm
  have := foldl_diag (List.iterate (MII.inc lb ub) lb m) b2 (fun k => fl.getD k 0) ρ m (by simp) a b
  rw [List.take_of_length_le (by simp)] at this
  have e : inflateDiag lb ub fl m ρ = (List.range m).foldl (fun ρ k => set ρ ((List.iterate (MII.inc lb ub) lb m).getD k [])
      ((List.iterate (MII.inc lb ub) lb m).getD k []) (fl.getD k 0 : ℂ)) ρ := by
    unfold inflateDiag
    apply List.foldl_ext
    intro ρ k hk
    rw [List.mem_range] at hk
    have : (List.iterate (MII.inc lb ub) lb m).getD k [] = (MII.inc lb ub)^[k] lb := by
      rw [List.getD_eq_getElem?_getD, List.getElem?_eq_getElem (by simpa using hk), List.getElem_iterate]; rfl
    simp only [this]
  rw [e, this]
  simp only [b3]

/-- **C08, meaning.** The output of `deflate` is the flattened matrix: with the indices `L` of the box in lexicographic order, first the
(real) diagonal, then, if asked for, real and imaginary parts of the strict upper triangle row by row. In particular its length is
`dim`, respectively `dim²`, for every dimension, and the loops terminate. -/
theorem deflate_eq_flatten (lb ub : Idx) (hv : ValidBounds lb ub) (dim : ℕ) (hm : (dim : ℤ) = boxSize lb ub) :
    ∃ L : List Idx, (∀ idx, idx ∈ L ↔ InBox lb ub idx) ∧ L.Pairwise (· < ·) ∧ L.length = dim ∧
      ∀ fuel, dim < fuel → ∀ (ρ : Idx → Idx → ℂ) (off : Bool),
        deflate lb ub dim fuel ρ off = some (flatten L ρ off) ∧
        (flatten L ρ off).length = if off then dim * dim else dim := by
  obtain ⟨_, b2, b3, b4⟩ := box_list lb ub hv dim hm
  refine ⟨List.iterate (MII.inc lb ub) lb dim, b3, b4, by simp, fun fuel hf ρ off => ?_⟩
  have hup := upperPairs_length (List.iterate (MII.inc lb ub) lb dim)
  rw [List.length_iterate] at hup
  cases off with
  | false => simp [deflate, flatten, diagLoop_eq]
  | true =>
    constructor
    · simp only [deflate, flatten, if_true, diagLoop_eq]
      have := offLoop_eq lb ub hv dim hm ρ fuel hf dim 0 (by omega) fuel hf
        ((List.iterate (MII.inc lb ub) lb dim).map (fun i => (ρ i i).re))
        (by simp only [Function.iterate_zero, id_eq, List.length_map, List.length_iterate]; omega)
      simpa only [Function.iterate_zero, id_eq] using this
    · simp only [flatten, if_true, List.length_append, List.length_map, List.length_iterate, flatMap_pair_length]; omega

/-- **C08, round trip 1.** For every Hermitian matrix, inflating its deflated form restores it on the whole box, whatever the density
operator contained before. -/
theorem inflate_deflate (lb ub : Idx) (hv : ValidBounds lb ub) (dim : ℕ) (hm : (dim : ℤ) = boxSize lb ub) (fuel : ℕ) (hf : dim < fuel)
    (ρ ρ0 : Idx → Idx → ℂ) (hρ : ∀ i j, InBox lb ub i → InBox lb ub j → ρ j i = conj (ρ i j)) :
    ∃ fl ρ', deflate lb ub dim fuel ρ true = some fl ∧ inflate lb ub dim fuel fl ρ0 true = some ρ' ∧
      ∀ i j, InBox lb ub i → InBox lb ub j → ρ' i j = ρ i j := by
  obtain ⟨_, b2, b3, b4⟩ := box_list lb ub hv dim hm
  set L := List.iterate (MII.inc lb ub) lb dim with hL
  have hup := upperPairs_length L
  have hLl : L.length = dim := by simp [hL]
  rw [hLl] at hup
  have hdef : deflate lb ub dim fuel ρ true = some (flatten L ρ true) := by
    simp only [deflate, flatten, if_true, diagLoop_eq]
    have := offLoop_eq lb ub hv dim hm ρ fuel hf dim 0 (by omega) fuel hf (L.map (fun i => (ρ i i).re))
      (by simp only [Function.iterate_zero, id_eq, List.length_map, ← hL]; omega)
    simpa only [Function.iterate_zero, id_eq] using this
  refine ⟨_, ((upperPairs L).foldl (fun st p => inflateStep (flatten L ρ true) p.1 st p.2)
    (inflateDiag lb ub (flatten L ρ true) dim ρ0, dim)).1, hdef, ?_, ?_⟩
  · simp only [inflate, if_true]
    have := inflateOff_eq lb ub hv dim hm (flatten L ρ true) fuel hf dim 0 (by omega) fuel hf
      (inflateDiag lb ub (flatten L ρ true) dim ρ0, dim) (by simp only [Function.iterate_zero, id_eq, ← hL]; omega)
    simpa only [Function.iterate_zero, id_eq] using this
  · intro i j hi hj
    have hpl : (L.map (fun i => (ρ i i).re)).length = dim := by simp [hLl]
    have := fold_inflate_hermitian ρ (upperPairs L) (fun p hp => hρ _ _ ((b3 _).1 (upperPairs_mem hp).1) ((b3 _).1 (upperPairs_mem hp).2))
      (L.map (fun i => (ρ i i).re)) (inflateDiag lb ub (flatten L ρ true) dim ρ0) i j []
    rw [List.append_nil, hpl] at this
    have hfl : flatten L ρ true = L.map (fun i => (ρ i i).re) ++ (upperPairs L).flatMap (fun p => [(ρ p.1 p.2).re, (ρ p.1 p.2).im]) := by
      simp [flatten]
    rw [← hfl] at this
    rw [this]
    by_cases hij : i = j
    · subst hij
      rw [if_neg]
      · rw [inflateDiag_apply lb ub hv dim hm, if_pos ⟨rfl, hi⟩]
        have hlt : L.idxOf i < L.length := List.idxOf_lt_length_iff.2 ((b3 i).2 hi)
        have : (flatten L ρ true).getD (L.idxOf i) 0 = (ρ i i).re := by
          rw [hfl, List.getD_eq_getElem?_getD, List.getElem?_append_left (by simpa using hlt), List.getElem?_map,
            List.getElem?_eq_getElem hlt]
          simp
        rw [← hL, this]
        have := hρ i i hi hi
        rw [eq_comm, Complex.conj_eq_iff_re] at this
        exact this
      · have := (upperPairs_separated b2).2
        rintro (h | h)
        · exact this _ h rfl
        · exact this _ h rfl
    · rw [if_pos (mem_upperPairs b2 ((b3 i).2 hi) ((b3 j).2 hj) hij)]

/-- **C08, round trip 2.** Every real vector of length `dim²` is the deflated form of what it inflates to; inflating always yields a
Hermitian matrix on the box. -/
theorem deflate_inflate (lb ub : Idx) (hv : ValidBounds lb ub) (dim : ℕ) (hm : (dim : ℤ) = boxSize lb ub) (fuel : ℕ) (hf : dim < fuel)
    (fl : List ℝ) (hfl : fl.length = dim * dim) (ρ0 : Idx → Idx → ℂ) :
    ∃ ρ', inflate lb ub dim fuel fl ρ0 true = some ρ' ∧ deflate lb ub dim fuel ρ' true = some fl := by
  obtain ⟨_, b2, b3, b4⟩ := box_list lb ub hv dim hm
  set L := List.iterate (MII.inc lb ub) lb dim with hL
  have hup := upperPairs_length L
  have hLl : L.length = dim := by simp [hL]
  rw [hLl] at hup
  set ρ' := ((upperPairs L).foldl (fun st p => inflateStep fl p.1 st p.2) (inflateDiag lb ub fl dim ρ0, dim)).1 with hρ'
  refine ⟨ρ', ?_, ?_⟩
  · simp only [inflate, if_true]
    have := inflateOff_eq lb ub hv dim hm fl fuel hf dim 0 (by omega) fuel hf
      (inflateDiag lb ub fl dim ρ0, dim) (by simp only [Function.iterate_zero, id_eq, ← hL]; omega)
    simpa only [Function.iterate_zero, id_eq] using this
  · have hdef : deflate lb ub dim fuel ρ' true = some (flatten L ρ' true) := by
      simp only [deflate, flatten, if_true, diagLoop_eq]
      have := offLoop_eq lb ub hv dim hm ρ' fuel hf dim 0 (by omega) fuel hf (L.map (fun i => (ρ' i i).re))
        (by simp only [Function.iterate_zero, id_eq, List.length_map, ← hL]; omega)
      simpa only [Function.iterate_zero, id_eq] using this
    rw [hdef]
    congr 1
    have hsep := upperPairs_separated b2
    have hdle : dim ≤ fl.length := by rw [hfl]; nlinarith [Nat.zero_le dim]
    have h2 := fold_inflate_read fl (upperPairs L) hsep.1 hsep.2 (inflateDiag lb ub fl dim ρ0) dim (by omega)
    rw [← hρ'] at h2
    have h1 : L.map (fun i => (ρ' i i).re) = fl.take dim := by
      apply List.ext_getElem
      · simp [hLl, hdle]
      · intro k hk1 hk2
        simp only [List.getElem_map, List.getElem_take]
        have hkL : k < L.length := by simpa using hk1
        have hcell : ρ' L[k] L[k] = inflateDiag lb ub fl dim ρ0 L[k] L[k] := by
          apply fold_inflate_other
          intro p hp
          have := hsep.2 p hp
          exact ⟨fun h => this (h.1.symm.trans h.2), fun h => this (h.2.symm.trans h.1)⟩
        rw [hcell]
        · have hin : InBox lb ub L[k] := (b3 _).1 (List.getElem_mem hkL)
          rw [inflateDiag_apply lb ub hv dim hm, if_pos ⟨rfl, hin⟩]
          have hkm : k < fl.length := by omega
          rw [← hL, List.Nodup.idxOf_getElem b2]
          simp [List.getD_eq_getElem?_getD, hkm]
    simp only [flatten, if_true]
    rw [h1, h2, show 2 * (upperPairs L).length = (fl.drop dim).length by rw [List.length_drop]; omega, List.take_length,
      List.take_append_drop]

/-- **C08, diagonal only.** Without off-diagonals exactly the diagonal is restored and no other element is touched. -/
theorem inflate_diag_only (lb ub : Idx) (hv : ValidBounds lb ub) (dim : ℕ) (hm : (dim : ℤ) = boxSize lb ub) (fuel : ℕ) (hf : dim < fuel)
    (ρ ρ0 : Idx → Idx → ℂ) :
    ∃ fl ρ', deflate lb ub dim fuel ρ false = some fl ∧ inflate lb ub dim fuel fl ρ0 false = some ρ' ∧
      ∀ i j, ρ' i j = if i = j ∧ InBox lb ub i then ((ρ i i).re : ℂ) else ρ0 i j := by
  obtain ⟨_, b2, b3, b4⟩ := box_list lb ub hv dim hm
  refine ⟨_, _, rfl, rfl, fun i j => ?_⟩
  rw [inflateDiag_apply lb ub hv dim hm]
  by_cases h : i = j ∧ InBox lb ub i
  · rw [if_pos h, if_pos h]
    have hlt := List.idxOf_lt_length_iff.2 ((b3 i).2 h.2)
    rw [diagLoop_eq, List.getD_eq_getElem?_getD, List.getElem?_map, List.getElem?_eq_getElem hlt]
    simp
  · rw [if_neg h, if_neg h]

/-- Non-vacuity: a `2 × 3`-dimensional binary system, `dim = 6`, with a non-diagonal Hermitian matrix. -/
example : ValidBounds [0, 0] [1, 2] ∧ ((6 : ℕ) : ℤ) = boxSize [0, 0] [1, 2] ∧
    ∀ i j : Idx, (fun i j : Idx => if i < j then Complex.I else if j < i then -Complex.I else 1) j i =
      conj ((fun i j : Idx => if i < j then Complex.I else if j < i then -Complex.I else (1 : ℂ)) i j) := by
  refine ⟨⟨by simp, by simp, ?_⟩, by simp [boxSize], ?_⟩
  · intro j hj
    match j, hj with
    | 0, _ => simp
    | 1, _ => simp
  · intro i j
    by_cases h1 : i < j
    · have h2 : ¬ j < i := lt_asymm h1
      simp [h1, h2]
    · by_cases h2 : j < i
      · simp [h1, h2]
      · simp [h1, h2]

example : upperPairs [0, 1, 2] = [(0,1),(0,2),(1,2)] := by decide

end CppQED.Deflate
