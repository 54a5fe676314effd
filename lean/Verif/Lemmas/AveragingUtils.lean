import Verif.Model.AveragingUtils
import Verif.Spec.AveragingUtils
import Verif.Props.Deflate
import Verif.Props.Negativity
import Verif.Props.Composite

/-! Helper lemmas for `Verif.Props.AveragingUtils`. -/

namespace CppQED.AvgUtils
open CppQED.MII (Idx)
open CppQED.Spec CppQED.Slice
open ComplexConjugate

theorem flatten_eq_entries {α : Type*} (L : List α) (ρ : α → α → ℂ) (off : Bool) : flatten L ρ off = (rdoEntries L off).map (Entry.value ρ) := by
  cases off <;> simp [flatten, rdoEntries, List.map_flatMap, Entry.value, Function.comp_def]

theorem offLabelLoop_eq (lb ub : Idx) (hv : ValidBounds lb ub) (m : ℕ) (hm : (m : ℤ) = boxSize lb ub) (sh : Idx → String) (jfuel : ℕ) (hj : m < jfuel) (n : ℕ) :
    ∀ k, k + n = m → ∀ fuel, n < fuel → ∀ res,
      offLabelLoop lb ub sh jfuel fuel ((MII.inc lb ub)^[k] lb) res =
        some (res ++ (upperPairs (List.iterate (MII.inc lb ub) ((MII.inc lb ub)^[k] lb) n)).flatMap fun p => offLabels sh p.1 p.2) := by
  obtain ⟨b1, _, _, _⟩ := Deflate.box_list lb ub hv m hm
  induction n with
  | zero =>
    intro k hk fuel hf res
    obtain ⟨fuel, rfl⟩ : ∃ f, fuel = f + 1 := ⟨fuel - 1, by omega⟩
    have h := b1 k (by omega) (m + 1) (by omega)
    rw [show m - k = 0 by omega, MII.loop] at h
    by_cases he : (MII.inc lb ub)^[k] lb = MII.end lb ub
    · simp [offLabelLoop, he, upperPairs, List.iterate]
    · rw [if_neg he] at h
      simp [List.iterate] at h
  | succ n ih =>
    intro k hk fuel hf res
    obtain ⟨fuel, rfl⟩ : ∃ f, fuel = f + 1 := ⟨fuel - 1, by omega⟩
    have h := b1 k (by omega) (m + 1) (by omega)
    rw [show m - k = n + 1 by omega, MII.loop] at h
    have he : (MII.inc lb ub)^[k] lb ≠ MII.end lb ub := by
      intro he
      rw [if_pos he] at h
      simp [List.iterate] at h
    have hs : MII.inc lb ub ((MII.inc lb ub)^[k] lb) = (MII.inc lb ub)^[k + 1] lb := by rw [Function.iterate_succ_apply']
    have h2 := b1 (k + 1) (by omega) jfuel hj
    rw [show m - (k + 1) = n by omega] at h2
    rw [offLabelLoop, if_pos he, hs, h2]
    simp only
    rw [ih (k + 1) (by omega) fuel (by omega), Deflate.iterate_succ_eq, hs]
    simp [upperPairs, List.flatMap_map]

/-! ## The matrix written by `process_v` -/

theorem setM_apply (m : ℕ → ℕ → ℂ) (i j : ℕ) (z : ℂ) (a b : ℕ) : setM m i j z a b = if a = i ∧ b = j then z else m a b := rfl

theorem diag_fold (av : List ℝ) (m0 : ℕ → ℕ → ℂ) (n : ℕ) :
    ((List.range n).foldl (diagBody av) (m0, 0)).2 = n ∧
    ∀ a b, ((List.range n).foldl (diagBody av) (m0, 0)).1 a b = if a = b ∧ a < n then (av.getD a 0 : ℂ) else m0 a b := by
  induction n with
  | zero => simp
  | succ n ih =>
    rw [List.range_succ, List.foldl_append, List.foldl_cons, List.foldl_nil]
    obtain ⟨h1, h2⟩ := ih
    constructor
    · simp only [diagBody, h1]
    · intro a b
      simp only [diagBody, setM_apply, h1, h2]
      by_cases h : a = n ∧ b = n
      · obtain ⟨rfl, rfl⟩ := h
        rw [if_pos ⟨rfl, rfl⟩, if_pos ⟨rfl, by omega⟩]
      · rw [if_neg h]
        by_cases h3 : a = b ∧ a < n
        · rw [if_pos h3, if_pos ⟨h3.1, by omega⟩]
        · rw [if_neg h3, if_neg]
          rintro ⟨rfl, h4⟩
          have : a = n := by
            by_contra hne
            exact h3 ⟨rfl, by omega⟩
          exact h ⟨this, this⟩

theorem upperPairs_range' (n : ℕ) : ∀ s, upperPairs (List.range' s n) = (List.range' s n).flatMap fun i => (List.range' (i + 1) (s + n - (i + 1))).map fun j => (i, j) := by
  induction n with
  | zero => intro s; rfl
  | succ n ih =>
    intro s
    rw [List.range'_succ, upperPairs, ih (s + 1), List.flatMap_cons]
    congr 1
    · rw [show s + (n + 1) - (s + 1) = n by omega]
    · rw [show s + 1 + n = s + (n + 1) by omega]

theorem nested_fold (av : List ℝ) (dim : ℕ) (st : (ℕ → ℕ → ℂ) × ℕ) :
    (List.range dim).foldl (fun st i => (List.range' (i + 1) (dim - (i + 1))).foldl (fun st j => offBody av st (i, j)) st) st =
      (upperPairs (List.range dim)).foldl (offBody av) st := by
  rw [List.range_eq_range', upperPairs_range', List.foldl_flatMap]
  simp only [Nat.zero_add, List.foldl_map]

theorem off_fold (σ : ℕ → ℕ → ℂ) (P : List (ℕ × ℕ)) (hσ : ∀ p ∈ P, σ p.2 p.1 = conj (σ p.1 p.2)) (pre : List ℝ) (ρ : ℕ → ℕ → ℂ) (a b : ℕ) (suf : List ℝ) :
    (P.foldl (offBody (pre ++ P.flatMap (fun p => [(σ p.1 p.2).re, (σ p.1 p.2).im]) ++ suf)) (ρ, pre.length)).1 a b
      = if (a, b) ∈ P ∨ (b, a) ∈ P then σ a b else ρ a b := by
  induction P generalizing pre ρ with
  | nil => simp
  | cons p P ih =>
    rw [List.foldl_cons]
    have hfl : pre ++ (p :: P).flatMap (fun p => [(σ p.1 p.2).re, (σ p.1 p.2).im]) ++ suf =
        (pre ++ [(σ p.1 p.2).re, (σ p.1 p.2).im]) ++ P.flatMap (fun p => [(σ p.1 p.2).re, (σ p.1 p.2).im]) ++ suf := by
      simp [List.flatMap_cons, List.append_assoc]
    rw [hfl]
    have g0 : ((pre ++ [(σ p.1 p.2).re, (σ p.1 p.2).im]) ++ P.flatMap (fun p => [(σ p.1 p.2).re, (σ p.1 p.2).im]) ++ suf).getD pre.length 0 = (σ p.1 p.2).re := by
      simp [List.getD_eq_getElem?_getD]
    have g1 : ((pre ++ [(σ p.1 p.2).re, (σ p.1 p.2).im]) ++ P.flatMap (fun p => [(σ p.1 p.2).re, (σ p.1 p.2).im]) ++ suf).getD (pre.length + 1) 0 = (σ p.1 p.2).im := by
      simp [List.getD_eq_getElem?_getD]
    have hstep : ∀ fl : List ℝ, fl.getD pre.length 0 = (σ p.1 p.2).re → fl.getD (pre.length + 1) 0 = (σ p.1 p.2).im →
        offBody fl (ρ, pre.length) p = (setM (setM ρ p.1 p.2 (σ p.1 p.2)) p.2 p.1 (conj (σ p.1 p.2)), (pre ++ [(σ p.1 p.2).re, (σ p.1 p.2).im]).length) := by
      intro fl h0 h1
      simp only [offBody, h0, h1, Complex.eta]; simp
    rw [hstep _ g0 g1, ih (fun q hq => hσ q (List.mem_cons_of_mem _ hq))]
    have hp := hσ p List.mem_cons_self
    by_cases h : (a, b) ∈ P ∨ (b, a) ∈ P
    · rw [if_pos h, if_pos (by simp only [List.mem_cons]; tauto)]
    · rw [if_neg h]
      simp only [setM_apply, List.mem_cons]
      obtain ⟨x, y⟩ := p
      simp only [Prod.mk.injEq]
      simp only at hp
      by_cases h2 : a = y ∧ b = x
      · obtain ⟨rfl, rfl⟩ := h2
        rw [if_pos (by simp), if_pos (by simp), hp]
      · rw [if_neg h2]
        by_cases h3 : a = x ∧ b = y
        · obtain ⟨rfl, rfl⟩ := h3
          rw [if_pos (by simp), if_pos (by simp)]
        · rw [if_neg h3, if_neg]
          push Not at h
          rintro ((h4 | h4) | (h4 | h4))
          · exact h3 h4
          · exact h.1 h4
          · exact h2 ⟨h4.2, h4.1⟩
          · exact h.2 h4

theorem upperPairs_map {α β : Type*} (f : α → β) (L : List α) : upperPairs (L.map f) = (upperPairs L).map fun p => (f p.1, f p.2) := by
  induction L with
  | nil => rfl
  | cons x xs ih => simp [upperPairs, ih, Function.comp_def]

/-- The matrix restored from the flattened Hermitian matrix, whatever follows in the averages and whatever the storage contained. -/
theorem negMatrix_eq (dim : ℕ) (m0 σ : ℕ → ℕ → ℂ) (hσ : ∀ a < dim, ∀ b < dim, σ b a = conj (σ a b)) (suf : List ℝ) (a b : ℕ) (ha : a < dim) (hb : b < dim) :
    negMatrix dim m0 (flatten (List.range dim) σ true ++ suf) a b = σ a b := by
  unfold negMatrix
  rw [nested_fold]
  obtain ⟨h1, h2⟩ := diag_fold (flatten (List.range dim) σ true ++ suf) m0 dim
  generalize hst : (List.range dim).foldl (diagBody (flatten (List.range dim) σ true ++ suf)) (m0, 0) = st at h1 h2
  obtain ⟨m1, n⟩ := st
  simp only at h1 h2
  subst h1
  have := off_fold σ (upperPairs (List.range n)) (fun p hp => hσ _ (List.mem_range.1 (Deflate.upperPairs_mem hp).1) _ (List.mem_range.1 (Deflate.upperPairs_mem hp).2))
    ((List.range n).map fun i => (σ i i).re) m1 a b suf
  simp only [List.length_map, List.length_range] at this
  simp only [flatten, if_true]
  rw [this]
  by_cases hab : a = b
  · subst hab
    have hn := (Deflate.upperPairs_separated (List.nodup_range (n := n))).2
    rw [if_neg (by rintro (h | h) <;> exact hn _ h rfl), h2, if_pos ⟨rfl, ha⟩]
    have hr : (σ a a).im = 0 := by
      have := congrArg Complex.im (hσ a ha a ha)
      rw [Complex.conj_im] at this; linarith
    have hg : (flatten (List.range n) σ true ++ suf).getD a 0 = (σ a a).re := by
      rw [List.getD_eq_getElem?_getD, flatten, List.append_assoc, List.getElem?_append_left (by simpa using ha)]
      simp [ha]
    rw [hg]
    exact Complex.ext (by simp) (by simp [hr])
  · rw [if_pos (Deflate.mem_upperPairs List.nodup_range (List.mem_range.2 ha) (List.mem_range.2 hb) hab)]

theorem address_eq (lb ub idx : Idx) (h0 : 0 < lb.length) : address lb ub idx = (MII.val lb ub (lb.length - 1) idx).toNat := by
  have key : ∀ N, (List.range (N + 1)).foldl (fun a k => a * (ub.getD k 0 - lb.getD k 0 + 1) + (idx.getD k 0 - lb.getD k 0)) (0 : Int) = MII.val lb ub N idx := by
    intro N
    induction N with
    | zero => simp [MII.val]
    | succ N ih =>
      rw [List.range_succ, List.foldl_append, ih, List.foldl_cons, List.foldl_nil, MII.val, MII.width]
  rw [address, ← key, Nat.sub_add_cancel h0]

theorem address_iterate (lb ub : Idx) (hv : ValidBounds lb ub) (k : ℕ) : address lb ub ((MII.inc lb ub)^[k] lb) = k := by
  obtain ⟨_, _, a3⟩ := MII.inc_iter lb ub hv k lb rfl (MII.tail_of_box (MII.inBox_lb hv) hv.1)
  rw [address_eq _ _ _ hv.1, a3, MII.val_lb]; simp

/-- The negativity depends on the elements within the dimensions only. -/
theorem negPT_congr (r : ℕ) (V : List ℕ) (lb ub : Idx) (hV : V = [] ∨ ValidAxes r V) (hb : ValidBounds lb ub) (hl : lb.length = r) (rho rho' : Arr ℂ)
    (h : ∀ i j, InBox lb ub i → InBox lb ub j → rho (i ++ j) = rho' (i ++ j)) : PTrace.negPT r V lb ub rho = PTrace.negPT r V lb ub rho' := by
  rcases hV with rfl | hV
  · simp [PTrace.negPT]
  · have hne : V ≠ [] := hV.1
    unfold PTrace.negPT
    rw [if_neg hne, if_neg hne]
    have : PTrace.boxMatrix lb ub (fun i j => PTrace.partialTranspose r V rho (i ++ j)) = PTrace.boxMatrix lb ub (fun i j => PTrace.partialTranspose r V rho' (i ++ j)) := by
      ext i j
      have hi := i.2
      have hj := j.2
      have hi' : InBox lb ub i.1 := (mem_boxFinset lb ub _ hb.2.1).1 hi
      have hj' : InBox lb ub j.1 := (mem_boxFinset lb ub _ hb.2.1).1 hj
      simp only [PTrace.boxMatrix]
      rw [PTrace.partialTranspose_apply r V hV _ _ _ (hi'.1.trans hl) (hj'.1.trans hl), PTrace.partialTranspose_apply r V hV _ _ _ (hi'.1.trans hl) (hj'.1.trans hl)]
      have g : PTrace.Geo r V lb ub := ⟨hV, hb, hl⟩
      exact h _ _ ((mem_boxFinset lb ub _ hb.2.1).1 (PTrace.replace_swap g hi hj).1) ((mem_boxFinset lb ub _ hb.2.1).1 (PTrace.replace_swap g hj hi).1)
    simp only [PTrace.eigenvalues, this]

end CppQED.AvgUtils
