import Verif.Model.Negativity
import Verif.Props.PartialTrace
import Mathlib.Analysis.Matrix.PosDef
import Mathlib.Analysis.Matrix.Order
import Mathlib.LinearAlgebra.Matrix.Charpoly.Eigs
import Mathlib.Analysis.Complex.Polynomial.Basic
import Mathlib.Analysis.SpecialFunctions.Log.NegMulLog
import Mathlib.Analysis.Convex.Jensen

/-! # C11: partial transposition and negativity; C55: entropy -/

namespace CppQED.PTrace
open CppQED.MII (Idx)
open CppQED.Slice CppQED.Spec
open ComplexConjugate ComplexOrder

/-! ## Helpers -/

/-- the permutation of the `2r` axes -/
def extFun (r : ℕ) (V : List ℕ) (j : ℕ) : ℕ :=
  if j < r then (if j ∈ V then j + r else j) else (if j - r ∈ V then j - r else j)

theorem foldl_push {α β : Type*} (f : α → β) (L : List α) (acc : List β) : L.foldl (fun acc j => acc ++ [f j]) acc = acc ++ L.map f := by
  induction L generalizing acc with
  | nil => simp
  | cons x L ih => rw [List.foldl_cons, ih]; simp

theorem extendV_eq (r : ℕ) (V : List ℕ) : extendV r V = (List.range (2 * r)).map (extFun r V) := by
  unfold extendV
  rw [foldl_push (fun j => if V.contains j then j + r else j), foldl_push (fun j => if V.contains (j - r) then j - r else j), List.nil_append,
    show 2 * r = r + r by omega, List.range_add, List.map_append, List.range'_eq_map_range, List.map_map, List.map_map]
  congr 1
  · apply List.map_congr_left
    intro j hj
    rw [List.mem_range] at hj
    simp [extFun, hj]
  · apply List.map_congr_left
    intro j _
    simp [extFun]

theorem extFun_lt {r : ℕ} {V : List ℕ} {j : ℕ} (hj : j < 2 * r) : extFun r V j < 2 * r := by
  unfold extFun; split_ifs <;> omega

theorem extFun_invol {r : ℕ} {V : List ℕ} (hV : ∀ a ∈ V, a < r) {j : ℕ} : extFun r V (extFun r V j) = j := by
  unfold extFun
  by_cases h1 : j < r
  · by_cases h2 : j ∈ V
    · simp [h1, h2]
    · simp [h1, h2]
  · by_cases h2 : j - r ∈ V
    · have := hV _ h2
      simp [h1, h2, this]; omega
    · simp [h1, h2]

theorem permRec_full (V L rest : List ℕ) (h : ∀ j ∈ L, V.contains j = true) (hl : L.length = rest.length) : permRec V L rest = rest := by
  induction L generalizing rest with
  | nil => simp at hl; simp [permRec, List.length_eq_zero_iff.1 hl.symm]
  | cons j L ih =>
    cases rest with
    | nil => simp at hl
    | cons x rest =>
      simp only [permRec, h j (by simp), if_true, List.headD_cons, List.tail_cons]
      rw [ih _ (fun k hk => h k (List.mem_cons_of_mem _ hk)) (by simpa using hl)]

theorem untranspose_extendV (r : ℕ) (V : List ℕ) (hV : ∀ a ∈ V, a < r) (x : Idx) (hx : x.length = 2 * r) :
    untranspose (2 * r) (transposerMeta (2 * r) (extendV r V)) x = (List.range (2 * r)).map (fun a => x.getD (extFun r V a) 0) := by
  have hE := extendV_eq r V
  have ht : transposerMeta (2 * r) (extendV r V) = extendV r V := by
    unfold transposerMeta
    rw [foldl_algorithm, List.nil_append]
    apply permRec_full
    · intro j hj
      rw [List.mem_range] at hj
      rw [hE, List.contains_iff_mem, List.mem_map]
      exact ⟨extFun r V j, List.mem_range.2 (extFun_lt hj), extFun_invol hV⟩
    · rw [hE]; simp
  rw [ht, untranspose]
  apply List.map_congr_left
  intro a ha
  rw [List.mem_range] at ha
  have hlt := extFun_lt (V := V) ha
  have hm : (a, x.getD (extFun r V a) 0) ∈ (extendV r V).zip x := by
    rw [List.mem_iff_getElem]
    have hl : extFun r V a < ((extendV r V).zip x).length := by rw [List.length_zip, hE]; simp; omega
    refine ⟨extFun r V a, hl, ?_⟩
    rw [List.getElem_zip]
    simp only [hE, List.getElem_map, List.getElem_range, extFun_invol hV]
    congr 1
    rw [List.getD_eq_getElem?_getD, List.getElem?_eq_getElem (by omega)]; rfl
  rw [lookup_of_mem _ hm]
  · rfl
  · have hz : ((extendV r V).zip x).map Prod.fst = extendV r V := List.map_fst_zip (by rw [hE]; simp; omega)
    rw [hz, hE, List.nodup_map_iff_inj_on List.nodup_range]
    intro a _ b _ h
    rw [← extFun_invol hV (j := a), h, extFun_invol hV]

/-! ## Partial transposition -/

/-- **C11, meaning of the index swap.** The `(i,j)` element of the partially transposed operator is the element of the original one between
the indices obtained from `i` and `j` by exchanging their coordinates on the axes `V`. -/
theorem partialTranspose_apply (r : ℕ) (V : List ℕ) (hV : ValidAxes r V) (rho : Arr ℂ) (i j : Idx) (hi : i.length = r) (hj : j.length = r) :
    partialTranspose r V rho (i ++ j) = rho (replace V (coords V j) i ++ replace V (coords V i) j) := by
  rw [partialTranspose, untranspose_extendV r V hV.2.2 _ (by simp [hi, hj]; omega)]
  congr 1
  have hc : ∀ (k : Idx) (a : ℕ), a ∈ V → (coords V k).getD (V.idxOf a) 0 = k.getD a 0 := by
    intro k a ha
    have hlt := List.idxOf_lt_length_of_mem ha
    rw [coords, getD_map_getD V k _ hlt]
    congr 1
    rw [List.getD_eq_getElem?_getD, List.getElem?_eq_getElem hlt]; simp
  apply MII.ext_idx (n := 2 * r) (by simp) (by simp [replace, hi, hj]; omega)
  intro a ha
  have e1 : ((List.range (2 * r)).map (fun a => (i ++ j).getD (extFun r V a) 0)).getD a 0 = (i ++ j).getD (extFun r V a) 0 := by
    simp [List.getD_eq_getElem?_getD, ha]
  rw [e1]
  have happ : ∀ (p q : Idx) (b : ℕ), p.length = r → (p ++ q).getD b 0 = if b < r then p.getD b 0 else q.getD (b - r) 0 := by
    intro p q b hp
    by_cases h : b < r
    · rw [if_pos h, List.getD_eq_getElem?_getD, List.getElem?_append_left (by omega), List.getD_eq_getElem?_getD]
    · rw [if_neg h, List.getD_eq_getElem?_getD, List.getElem?_append_right (by omega), hp, List.getD_eq_getElem?_getD]
  rw [happ _ _ _ hi, happ _ _ _ (by simp [replace, hi])]
  by_cases h1 : a < r
  · rw [if_pos h1, replace_getD _ _ _ _ (by omega)]
    by_cases h2 : a ∈ V
    · rw [if_pos h2, hc j a h2]; simp [extFun, h1, h2]
    · simp [extFun, h1, h2]
  · rw [if_neg h1, replace_getD _ _ _ _ (by omega)]
    by_cases h2 : a - r ∈ V
    · have := hV.2.2 _ h2
      rw [if_pos h2, hc i _ h2]; simp [extFun, h1, h2, this]
    · simp [extFun, h1, h2]

/-- facts about exchanging coordinates -/
theorem replace_swap {r : ℕ} {V : List ℕ} {lb ub : Idx} (g : Geo r V lb ub) {i j : Idx} (hi : i ∈ boxFinset lb ub) (hj : j ∈ boxFinset lb ub) :
    replace V (coords V j) i ∈ boxFinset lb ub ∧ coords V (replace V (coords V j) i) = coords V j ∧
    filterOut r V (replace V (coords V j) i) = filterOut r V i ∧ replace V (coords V j) i = sliceAddr r V (filterOut r V i) (coords V j) ∧
    replace V (coords V i) (replace V (coords V j) i) = i := by
  have hil := (g.split hi).2.2.2
  have e := sliceAddr_eq_replace r V i (coords V j) g.hV hil (by simp [coords])
  have a := g.addr (g.split hi).2.1 (g.split hj).1
  refine ⟨e ▸ a.1, e ▸ a.2.1, e ▸ a.2.2, e.symm, ?_⟩
  rw [← e, g.replace_addr (g.split hi).2.1 (g.split hj).1 (g.split hi).1, (g.split hi).2.2.1]

/-- **C11, involution.** Partial transposition twice is the identity. -/
theorem partialTranspose_involutive (r : ℕ) (V : List ℕ) (lb ub : Idx) (hV : ValidAxes r V) (hb : ValidBounds lb ub) (hl : lb.length = r) (rho : Arr ℂ)
    (i j : Idx) (hi : InBox lb ub i) (hj : InBox lb ub j) :
    partialTranspose r V (partialTranspose r V rho) (i ++ j) = rho (i ++ j) := by
  have g : Geo r V lb ub := ⟨hV, hb, hl⟩
  rw [← g.mem_full] at hi hj
  have hil := (g.split hi).2.2.2
  have hjl := (g.split hj).2.2.2
  rw [partialTranspose_apply r V hV _ i j hil hjl, partialTranspose_apply r V hV _ _ _ (by simp [replace, hil]) (by simp [replace, hjl])]
  obtain ⟨_, a2, _, _, a5⟩ := replace_swap g hi hj
  obtain ⟨_, b2, _, _, b5⟩ := replace_swap g hj hi
  rw [a2, b2, a5, b5]

/-- **C11, trace.** Partial transposition preserves the trace. -/
theorem partialTranspose_trace (r : ℕ) (V : List ℕ) (lb ub : Idx) (hV : ValidAxes r V) (hb : ValidBounds lb ub) (hl : lb.length = r) (rho : Arr ℂ) :
    trace lb ub (fun i j => partialTranspose r V rho (i ++ j)) = trace lb ub (fun i j => rho (i ++ j)) := by
  have g : Geo r V lb ub := ⟨hV, hb, hl⟩
  apply Finset.sum_congr rfl
  intro i hi
  have hil := (g.split hi).2.2.2
  have a := (replace_swap g hi hi)
  have e : replace V (coords V i) i = i := by rw [a.2.2.2.1]; exact (g.split hi).2.2.1
  simp only
  rw [partialTranspose_apply r V hV _ i i hil hil, e]

/-- **C11, Hermiticity.** Partial transposition preserves Hermiticity. -/
theorem partialTranspose_hermitian (r : ℕ) (V : List ℕ) (lb ub : Idx) (hV : ValidAxes r V) (hb : ValidBounds lb ub) (hl : lb.length = r) (rho : Arr ℂ)
    (hH : Hermitian lb ub (fun i j => rho (i ++ j))) : Hermitian lb ub (fun i j => partialTranspose r V rho (i ++ j)) := by
  have g : Geo r V lb ub := ⟨hV, hb, hl⟩
  intro i hi j hj
  have hil := (g.split hi).2.2.2
  have hjl := (g.split hj).2.2.2
  simp only
  rw [partialTranspose_apply r V hV _ j i hjl hil, partialTranspose_apply r V hV _ i j hil hjl]
  exact hH _ (replace_swap g hi hj).1 _ (replace_swap g hj hi).1

/-! ## Negativity -/

theorem boxMatrix_trace (lb ub : Idx) (ρ : Idx → Idx → ℂ) : (boxMatrix lb ub ρ).trace = trace lb ub ρ := by
  rw [Matrix.trace, trace, ← Finset.sum_coe_sort (boxFinset lb ub)]; rfl

theorem boxMatrix_hermitian {lb ub : Idx} {ρ : Idx → Idx → ℂ} (h : Hermitian lb ub ρ) : (boxMatrix lb ub ρ).IsHermitian := by
  ext i j
  rw [Matrix.conjTranspose_apply]
  simp only [boxMatrix]
  rw [h i.1 i.2 j.1 j.2]; simp

theorem boxMatrix_posSemidef {lb ub : Idx} {ρ : Idx → Idx → ℂ} (h : Hermitian lb ub ρ) (hP : Positive lb ub ρ) : (boxMatrix lb ub ρ).PosSemidef := by
  refine Matrix.PosSemidef.of_dotProduct_mulVec_nonneg (boxMatrix_hermitian h) (fun x => ?_)
  have hx := hP (fun i => if h : i ∈ boxFinset lb ub then x ⟨i, h⟩ else 0)
  have e : star x ⬝ᵥ (boxMatrix lb ub ρ).mulVec x = ∑ i ∈ boxFinset lb ub, ∑ j ∈ boxFinset lb ub,
      conj ((fun i => if h : i ∈ boxFinset lb ub then x ⟨i, h⟩ else 0) i) * ρ i j * ((fun i => if h : i ∈ boxFinset lb ub then x ⟨i, h⟩ else 0) j) := by
    rw [dotProduct, ← Finset.sum_coe_sort (boxFinset lb ub)]
    apply Finset.sum_congr rfl
    intro i _
    rw [Matrix.mulVec, dotProduct, Finset.mul_sum, ← Finset.sum_coe_sort (boxFinset lb ub)]
    apply Finset.sum_congr rfl
    intro j _
    simp [boxMatrix, mul_assoc]
  have him : (star x ⬝ᵥ (boxMatrix lb ub ρ).mulVec x).im = 0 := (boxMatrix_hermitian h).im_star_dotProduct_mulVec_self x
  rw [Complex.le_def]
  refine ⟨by rw [e]; exact hx, by rw [him]; rfl⟩

theorem posSemidef_boxMatrix_of {lb ub : Idx} {ρ : Idx → Idx → ℂ} (h : (boxMatrix lb ub ρ).PosSemidef) : Hermitian lb ub ρ ∧ Positive lb ub ρ := by
  refine ⟨fun i hi j hj => ?_, fun x => ?_⟩
  · have := congrFun (congrFun h.1 ⟨j, hj⟩) ⟨i, hi⟩
    rw [Matrix.conjTranspose_apply] at this
    exact this.symm
  · have := (Complex.le_def.1 (h.dotProduct_mulVec_nonneg (fun i : boxFinset lb ub => x i.1))).1
    have e : star (fun i : boxFinset lb ub => x i.1) ⬝ᵥ (boxMatrix lb ub ρ).mulVec (fun i : boxFinset lb ub => x i.1) =
        ∑ i ∈ boxFinset lb ub, ∑ j ∈ boxFinset lb ub, conj (x i) * ρ i j * x j := by
      rw [dotProduct, ← Finset.sum_coe_sort (boxFinset lb ub)]
      apply Finset.sum_congr rfl
      intro i _
      rw [Matrix.mulVec, dotProduct, Finset.mul_sum, ← Finset.sum_coe_sort (boxFinset lb ub)]
      apply Finset.sum_congr rfl
      intro j _
      simp [boxMatrix, mul_assoc]
    rw [e] at this
    exact this

/-- **C11, non-negativity.** For every operator of unit trace (Hermitian or not), `negPT ≥ 0`. -/
theorem negPT_nonneg (r : ℕ) (V : List ℕ) (lb ub : Idx) (hV : V = [] ∨ ValidAxes r V) (hb : ValidBounds lb ub) (hl : lb.length = r) (rho : Arr ℂ)
    (ht : trace lb ub (fun i j => rho (i ++ j)) = 1) : 0 ≤ negPT r V lb ub rho := by
  rw [negPT]
  split
  · exact le_rfl
  · rename_i hne
    have hV := hV.resolve_left hne
    have h1 := partialTranspose_trace r V lb ub hV hb hl rho
    rw [ht, ← boxMatrix_trace, Matrix.trace_eq_sum_roots_charpoly] at h1
    have h2 : ‖(eigenvalues lb ub (partialTranspose r V rho)).sum‖ ≤ ((eigenvalues lb ub (partialTranspose r V rho)).map (fun e => ‖e‖)).sum :=
      norm_multiset_sum_le _
    rw [show (eigenvalues lb ub (partialTranspose r V rho)).sum = 1 from h1, norm_one] at h2
    linarith

/-- the negativity in terms of the (real) eigenvalues -/
theorem negPT_eq_sum (r : ℕ) (V : List ℕ) (lb ub : Idx) (hV : ValidAxes r V) (hb : ValidBounds lb ub) (hl : lb.length = r) (rho : Arr ℂ)
    (hH : Hermitian lb ub (fun i j => rho (i ++ j))) (ht : trace lb ub (fun i j => rho (i ++ j)) = 1) :
    negPT r V lb ub rho = ∑ k, max 0 (-((boxMatrix_hermitian (partialTranspose_hermitian r V lb ub hV hb hl rho hH)).eigenvalues k)) := by
  have hM := boxMatrix_hermitian (partialTranspose_hermitian r V lb ub hV hb hl rho hH)
  have htr := partialTranspose_trace r V lb ub hV hb hl rho
  rw [ht, ← boxMatrix_trace, hM.trace_eq_sum_eigenvalues] at htr
  have htr' : ∑ k, hM.eigenvalues k = 1 := by
    have := congrArg Complex.re htr
    simpa using this
  have hsum : ((eigenvalues lb ub (partialTranspose r V rho)).map (fun e => ‖e‖)).sum = ∑ k, |hM.eigenvalues k| := by
    rw [eigenvalues, hM.roots_charpoly_eq_eigenvalues, Multiset.map_map]
    simp [Finset.sum]
  rw [negPT, if_neg hV.1, hsum]
  have e : ∀ x : ℝ, max 0 (-x) = (|x| - x) / 2 := by
    intro x
    rcases le_total 0 x with h | h
    · rw [max_eq_left (by linarith), abs_of_nonneg h]; ring
    · rw [max_eq_right (by linarith), abs_of_nonpos h]; ring
  rw [Finset.sum_congr rfl (fun k _ => e _), ← Finset.sum_div, Finset.sum_sub_distrib, htr']

/-- **C11, meaning.** For a Hermitian operator of unit trace, `negPT` vanishes exactly if the partially transposed operator is positive. -/
theorem negPT_eq_zero_iff (r : ℕ) (V : List ℕ) (lb ub : Idx) (hV : ValidAxes r V) (hb : ValidBounds lb ub) (hl : lb.length = r) (rho : Arr ℂ)
    (hH : Hermitian lb ub (fun i j => rho (i ++ j))) (ht : trace lb ub (fun i j => rho (i ++ j)) = 1) :
    negPT r V lb ub rho = 0 ↔ Positive lb ub (fun i j => rho (replace V (coords V j) i ++ replace V (coords V i) j)) := by
  have hPH := partialTranspose_hermitian r V lb ub hV hb hl rho hH
  have hM := boxMatrix_hermitian hPH
  have g : Geo r V lb ub := ⟨hV, hb, hl⟩
  have hpos : Positive lb ub (fun i j => rho (replace V (coords V j) i ++ replace V (coords V i) j)) ↔
      Positive lb ub (fun i j => partialTranspose r V rho (i ++ j)) := by
    unfold Positive
    apply forall_congr'
    intro x
    have : ∀ i ∈ boxFinset lb ub, ∀ j ∈ boxFinset lb ub, partialTranspose r V rho (i ++ j) = rho (replace V (coords V j) i ++ replace V (coords V i) j) :=
      fun i hi j hj => partialTranspose_apply r V hV rho i j (g.split hi).2.2.2 (g.split hj).2.2.2
    have e : ∑ i ∈ boxFinset lb ub, ∑ j ∈ boxFinset lb ub, conj (x i) * rho (replace V (coords V j) i ++ replace V (coords V i) j) * x j =
        ∑ i ∈ boxFinset lb ub, ∑ j ∈ boxFinset lb ub, conj (x i) * partialTranspose r V rho (i ++ j) * x j :=
      Finset.sum_congr rfl (fun i hi => Finset.sum_congr rfl (fun j hj => by rw [← this i hi j hj]))
    rw [e]
  rw [negPT_eq_sum r V lb ub hV hb hl rho hH ht, hpos, Finset.sum_eq_zero_iff_of_nonneg (fun k _ => le_max_left _ _)]
  have h3 : (∀ k ∈ Finset.univ, max 0 (-hM.eigenvalues k) = 0) ↔ 0 ≤ hM.eigenvalues := by
    simp only [Finset.mem_univ, true_imp_iff, max_eq_left_iff, Left.neg_nonpos_iff]
    rfl
  rw [h3, ← hM.posSemidef_iff_eigenvalues_nonneg]
  exact ⟨fun h => (posSemidef_boxMatrix_of h).2, fun h => boxMatrix_posSemidef hPH h⟩

/-- **C11, separable states.** If the state is a sum of products of positive operators on `V` and on the remaining axes `W` (in particular
for every product state), its negativity with respect to `V` is zero. -/
theorem negPT_separable (r : ℕ) (V W : List ℕ) (lb ub : Idx) (hV : ValidAxes r V) (hb : ValidBounds lb ub) (hl : lb.length = r)
    (hW' : ∀ j, j ∈ W ↔ j < r ∧ j ∉ V) (rho : Arr ℂ) (n : ℕ) (A B : ℕ → Idx → Idx → ℂ)
    (hA : ∀ k < n, Hermitian (coords V lb) (coords V ub) (A k) ∧ Positive (coords V lb) (coords V ub) (A k))
    (hB : ∀ k < n, Hermitian (coords W lb) (coords W ub) (B k) ∧ Positive (coords W lb) (coords W ub) (B k))
    (hs : ∀ i ∈ boxFinset lb ub, ∀ j ∈ boxFinset lb ub,
      rho (i ++ j) = ∑ k ∈ Finset.range n, A k (coords V i) (coords V j) * B k (coords W i) (coords W j))
    (ht : trace lb ub (fun i j => rho (i ++ j)) = 1) : negPT r V lb ub rho = 0 := by
  have g : Geo r V lb ub := ⟨hV, hb, hl⟩
  have hWb : ∀ i ∈ boxFinset lb ub, coords W i ∈ boxFinset (coords W lb) (coords W ub) := by
    intro i hi
    rw [mem_boxFinset _ _ _ (by simp [coords])]
    rw [g.mem_full] at hi
    refine ⟨by simp [coords], fun q hq => ?_⟩
    simp only [coords, List.length_map] at hq ⊢
    have : ∀ b : Idx, (W.map (fun a => b.getD a 0)).getD q 0 = b.getD (W.getD q 0) 0 := fun b => getD_map_getD W b q hq
    rw [this, this, this]
    apply hi.2
    rw [hl]
    have hm : W.getD q 0 ∈ W := by rw [List.getD_eq_getElem?_getD, List.getElem?_eq_getElem hq]; simp
    exact ((hW' _).1 hm).1
  have hWr : ∀ i ∈ boxFinset lb ub, ∀ j ∈ boxFinset lb ub, coords W (replace V (coords V j) i) = coords W i := by
    intro i hi j _
    apply List.map_congr_left
    intro c hc
    rw [hW'] at hc
    rw [replace_getD _ _ _ _ (by rw [(g.split hi).2.2.2]; exact hc.1), if_neg hc.2]
  have hH : Hermitian lb ub (fun i j => rho (i ++ j)) := by
    intro i hi j hj
    simp only
    rw [hs i hi j hj, hs j hj i hi, map_sum]
    apply Finset.sum_congr rfl
    intro k hk
    rw [Finset.mem_range] at hk
    rw [map_mul, (hA k hk).1 _ (g.split hi).1 _ (g.split hj).1, (hB k hk).1 _ (hWb i hi) _ (hWb j hj)]
  rw [negPT_eq_zero_iff r V lb ub hV hb hl rho hH ht]
  apply (posSemidef_boxMatrix_of _).2
  have e : boxMatrix lb ub (fun i j => rho (replace V (coords V j) i ++ replace V (coords V i) j)) =
      ∑ k ∈ Finset.range n, (Matrix.kronecker (boxMatrix (coords V lb) (coords V ub) (A k)).transpose (boxMatrix (coords W lb) (coords W ub) (B k))).submatrix
        (fun i : boxFinset lb ub => (⟨coords V i.1, (g.split i.2).1⟩, ⟨coords W i.1, hWb i.1 i.2⟩))
        (fun i : boxFinset lb ub => (⟨coords V i.1, (g.split i.2).1⟩, ⟨coords W i.1, hWb i.1 i.2⟩)) := by
    ext i j
    rw [Matrix.sum_apply]
    have a := replace_swap g i.2 j.2
    have b := replace_swap g j.2 i.2
    simp only [boxMatrix, Matrix.submatrix_apply, Matrix.kronecker, Matrix.kroneckerMap_apply, Matrix.transpose_apply]
    rw [hs _ a.1 _ b.1, a.2.1, b.2.1, hWr _ i.2 _ j.2, hWr _ j.2 _ i.2]
  rw [e]
  apply Matrix.posSemidef_sum
  intro k hk
  rw [Finset.mem_range] at hk
  apply Matrix.PosSemidef.submatrix
  exact (boxMatrix_posSemidef (hA k hk).1 (hA k hk).2).transpose.kronecker (boxMatrix_posSemidef (hB k hk).1 (hB k hk).2)

/-! ### Concrete cases -/

/-- the Bell state `(|00⟩+|11⟩)/√2` of two qubits, as a density operator array -/
noncomputable def bell : Arr ℂ := fun x => if x ∈ [[0,0,0,0], [0,0,1,1], [1,1,0,0], [1,1,1,1]] then 1/2 else 0

theorem box22 : boxFinset [0,0] [1,1] = {[0,0],[0,1],[1,0],[1,1]} := by decide

/-- The hypotheses are met by the Bell state, and for it the negativity is not zero. -/
example : ValidAxes 2 [0] ∧ ValidBounds [0,0] [1,1] ∧ Hermitian [0,0] [1,1] (fun i j => bell (i ++ j)) ∧
    trace [0,0] [1,1] (fun i j => bell (i ++ j)) = 1 ∧ 0 < negPT 2 [0] [0,0] [1,1] bell := by
  have h1 : ValidAxes 2 [0] := by unfold ValidAxes; decide
  have h2 : ValidBounds [0,0] [1,1] := by unfold ValidBounds; decide
  have h3 : Hermitian [0,0] [1,1] (fun i j => bell (i ++ j)) := by
    unfold Hermitian
    rw [box22]
    simp [bell, map_ofNat]
  have h4 : trace [0,0] [1,1] (fun i j => bell (i ++ j)) = 1 := by
    unfold Spec.trace
    rw [box22]
    simp [bell]
    norm_num
  refine ⟨h1, h2, h3, h4, lt_of_le_of_ne (negPT_nonneg 2 [0] _ _ (Or.inr h1) h2 rfl bell h4) (Ne.symm ?_)⟩
  intro h0
  rw [negPT_eq_zero_iff 2 [0] _ _ h1 h2 rfl bell h3 h4] at h0
  have := h0 (fun i => if i = [0,1] then 1 else if i = [1,0] then -1 else 0)
  rw [box22] at this
  simp [bell, coords, replace] at this
  norm_num at this

/-- the product hypotheses are met by two qubits in their ground states -/
example : (∀ j, j ∈ [1] ↔ j < 2 ∧ j ∉ [0]) ∧
    Hermitian (coords [0] [0,0]) (coords [0] [1,1]) (fun i j => if i = [0] ∧ j = [0] then 1 else 0) ∧
    Positive (coords [0] [0,0]) (coords [0] [1,1]) (fun i j => if i = [0] ∧ j = [0] then 1 else 0) := by
  refine ⟨fun j => by simp; omega, ?_, ?_⟩
  · intro i _ j _
    by_cases hi : i = [0] <;> by_cases hj : j = [0] <;> simp [hi, hj]
  · intro x
    have : boxFinset (coords [0] [0,0]) (coords [0] [1,1]) = {[0],[1]} := by decide
    rw [this]
    simp
    nlinarith [mul_self_nonneg (x [0]).re, mul_self_nonneg (x [0]).im]

/-! ## Entropy -/

/-- **C55.** The von Neumann entropy of a positive operator of unit trace is the sum of `-λ log λ` over its eigenvalues, and it lies between
`0` and the logarithm of the total dimension. -/
theorem entropy_bounds (lb ub : Idx) (hb : ValidBounds lb ub) (rho : Arr ℂ) (hH : Hermitian lb ub (fun i j => rho (i ++ j)))
    (hP : Positive lb ub (fun i j => rho (i ++ j))) (ht : trace lb ub (fun i j => rho (i ++ j)) = 1) :
    0 ≤ entropy lb ub rho ∧ entropy lb ub rho ≤ Real.log (boxSize lb ub) := by
  have hM := boxMatrix_posSemidef hH hP
  rw [← boxMatrix_trace, hM.1.trace_eq_sum_eigenvalues] at ht
  have htr : ∑ k, hM.1.eigenvalues k = 1 := by
    have := congrArg Complex.re ht
    simpa using this
  have h0 : ∀ k, 0 ≤ hM.1.eigenvalues k := hM.eigenvalues_nonneg
  have h1 : ∀ k, hM.1.eigenvalues k ≤ 1 := fun k => htr ▸ Finset.single_le_sum (fun k _ => h0 k) (Finset.mem_univ k)
  have he : entropy lb ub rho = ∑ k, Real.negMulLog (hM.1.eigenvalues k) := by
    rw [entropy, eigenvalues, hM.1.roots_charpoly_eq_eigenvalues, Multiset.map_map]
    rw [Finset.sum]
    congr 1
    apply Multiset.map_congr rfl
    intro k _
    simp only [Function.comp, Real.negMulLog]
    rw [show ((RCLike.ofReal (hM.1.eigenvalues k) : ℂ)).re = hM.1.eigenvalues k from Complex.ofReal_re _]
    split
    · ring
    · have : hM.1.eigenvalues k = 0 := le_antisymm (not_lt.1 ‹_›) (h0 k)
      rw [this]; simp
  rw [he]
  refine ⟨Finset.sum_nonneg (fun k _ => Real.negMulLog_nonneg (h0 k) (h1 k)), ?_⟩
  have hc := card_boxFinset lb ub hb
  have hne : (boxFinset lb ub).Nonempty := ⟨lb, (mem_boxFinset _ _ _ hb.2.1).2 (MII.inBox_lb hb)⟩
  have hcard : Fintype.card (boxFinset lb ub) = (boxFinset lb ub).card := Fintype.card_coe _
  set D : ℝ := ((boxFinset lb ub).card : ℝ) with hD
  have hDpos : 0 < D := by rw [hD]; exact_mod_cast hne.card_pos
  have hDb : ((boxSize lb ub : ℤ) : ℝ) = D := by rw [hD, ← hc]; norm_cast
  have hj := Real.concaveOn_negMulLog.le_map_sum (t := Finset.univ) (w := fun _ : boxFinset lb ub => 1 / D) (p := fun k => hM.1.eigenvalues k)
    (fun _ _ => by positivity) (by rw [Finset.sum_const, Finset.card_univ, hcard, nsmul_eq_mul, ← hD]; field_simp) (fun k _ => h0 k)
  simp only [smul_eq_mul, ← Finset.mul_sum, htr, mul_one] at hj
  rw [hDb]
  have : Real.negMulLog (1 / D) = 1 / D * Real.log D := by
    rw [Real.negMulLog, one_div, Real.log_inv]; ring
  rw [this] at hj
  exact le_of_mul_le_mul_left hj (by positivity)

end CppQED.PTrace
