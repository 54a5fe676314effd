import Verif.Props.Negativity
import Verif.Lemmas.Entropy

/-! # C99: mutual information; C100: purity of the partial trace -/

namespace CppQED.PTrace
open CppQED.MII (Idx)
open CppQED.Slice CppQED.Spec
open ComplexConjugate ComplexOrder
open CppQED.Entropy (vN margA margB)

/-! ## Helpers -/

theorem entropy_eq_vN {lb ub : Idx} {rho : Arr ℂ} (hM : (boxMatrix lb ub (fun i j => rho (i ++ j))).PosSemidef) :
    entropy lb ub rho = vN (boxMatrix lb ub (fun i j => rho (i ++ j))) := by
  rw [entropy, eigenvalues, vN, hM.1.roots_charpoly_eq_eigenvalues, Multiset.map_map, Multiset.map_map]
  congr 1
  apply Multiset.map_congr rfl
  intro k _
  simp only [Function.comp, Real.negMulLog]
  rw [show ((RCLike.ofReal (hM.1.eigenvalues k) : ℂ)).re = hM.1.eigenvalues k from Complex.ofReal_re _]
  split
  · ring
  · have : hM.1.eigenvalues k = 0 := le_antisymm (not_lt.1 ‹_›) (hM.eigenvalues_nonneg k)
    rw [this]; simp

theorem boxMatrix_arrOf (V : List ℕ) (lb ub : Idx) (σ : Idx → Idx → ℂ) :
    boxMatrix (sliceBound V lb) (sliceBound V ub) (fun i j => arrOf V.length σ (i ++ j)) = boxMatrix (sliceBound V lb) (sliceBound V ub) σ := by
  ext i j
  have : i.1.length = V.length := by
    have := ((mem_boxFinset _ _ _ (by simp [sliceBound])).1 i.2).1
    simpa [sliceBound] using this
  simp [boxMatrix, arrOf, ← this]

/-- the box as a product of the two parts -/
def Geo.equiv {r : ℕ} {V : List ℕ} {lb ub : Idx} (g : Geo r V lb ub) :
    boxFinset lb ub ≃ boxFinset (sliceBound V lb) (sliceBound V ub) × boxFinset (filterOut r V lb) (filterOut r V ub) where
  toFun i := (⟨coords V i.1, (g.split i.2).1⟩, ⟨filterOut r V i.1, (g.split i.2).2.1⟩)
  invFun p := ⟨sliceAddr r V p.2.1 p.1.1, (g.addr p.2.2 p.1.2).1⟩
  left_inv i := Subtype.ext (g.split i.2).2.2.1
  right_inv p := Prod.ext (Subtype.ext (g.addr p.2.2 p.1.2).2.1) (Subtype.ext (g.addr p.2.2 p.1.2).2.2)

theorem Geo.negated_axes {r : ℕ} {V : List ℕ} (h : ∃ a < r, a ∉ V) : ValidAxes r (negated r V) := by
  obtain ⟨a, h1, h2⟩ := h
  exact ⟨List.ne_nil_of_mem (mem_negated.2 ⟨h1, h2⟩), negated_nodup r V, fun a ha => (mem_negated.1 ha).1⟩

theorem Geo.margA {r : ℕ} {V : List ℕ} {lb ub : Idx} (g : Geo r V lb ub) (fuel : ℕ) (hf : boxSize lb ub < fuel) (rho : Arr ℂ)
    (σ : Idx → Idx → ℂ) (hσ : reduceDO r V lb ub fuel rho = some σ) :
    margA (Matrix.reindex g.equiv g.equiv (boxMatrix lb ub (fun i j => rho (i ++ j)))) = boxMatrix (sliceBound V lb) (sliceBound V ub) σ := by
  obtain ⟨σ', h1, h2⟩ := reduceDO_sum g fuel hf rho
  rw [hσ] at h1; obtain rfl := Option.some.inj h1
  ext s s'
  rw [boxMatrix, h2 _ s.2, Entropy.margA, ← Finset.sum_coe_sort (boxFinset (filterOut r V lb) (filterOut r V ub))]
  rfl

theorem Geo.margB {r : ℕ} {V : List ℕ} {lb ub : Idx} (g : Geo r V lb ub) (hc : ∃ a < r, a ∉ V) (fuel : ℕ) (hf : boxSize lb ub < fuel) (rho : Arr ℂ)
    (τ : Idx → Idx → ℂ) (hτ : reduceDO r (negated r V) lb ub fuel rho = some τ) :
    margB (Matrix.reindex g.equiv g.equiv (boxMatrix lb ub (fun i j => rho (i ++ j)))) =
      boxMatrix (filterOut r V lb) (filterOut r V ub) τ := by
  have hW := Geo.negated_axes hc
  obtain ⟨τ', h1, h2⟩ := reduce_eq_ptrace r (negated r V) lb ub hW g.hb g.hl fuel hf rho
  rw [hτ] at h1; obtain rfl := Option.some.inj h1
  ext d d'
  rw [boxMatrix, h2 _ _ (g.mem_dummy.1 d.2) (g.mem_dummy.1 d'.2), ptrace, Entropy.margB, Finset.sum_filter, g.fubini,
    Finset.sum_eq_single_of_mem d.1 d.2]
  · rw [← Finset.sum_coe_sort (boxFinset (sliceBound V lb) (sliceBound V ub))]
    refine Finset.sum_congr rfl fun s _ => ?_
    rw [show coords (negated r V) (sliceAddr r V d.1 s.1) = d.1 from (g.addr d.2 s.2).2.2, if_pos rfl]
    have : replace (negated r V) d'.1 (sliceAddr r V d.1 s.1) = sliceAddr r V d'.1 s.1 := by
      have a1 := g.addr d.2 s.2
      have a2 := g.addr d'.2 s.2
      have l1 := (g.split a1.1).2.2.2
      have l2 := (g.split a2.1).2.2.2
      apply MII.ext_idx (n := r) (by simp [replace, l1]) l2
      intro c hcr
      rw [replace_getD _ _ _ _ (by omega)]
      by_cases hcV : c ∈ V
      · rw [if_neg (fun h => (mem_negated.1 h).2 hcV)]
        have e1 := List.map_inj_left.1 (a1.2.1.trans a2.2.1.symm) c hcV
        exact e1
      · have hm : c ∈ negated r V := mem_negated.2 ⟨hcr, hcV⟩
        have hk : (negated r V).getD ((negated r V).idxOf c) 0 = c := by
          rw [List.getD_eq_getElem?_getD, List.getElem?_eq_getElem (List.idxOf_lt_length_of_mem hm)]; simp
        have e1 := getD_map_getD (negated r V) (sliceAddr r V d'.1 s.1) _ (List.idxOf_lt_length_of_mem hm)
        rw [hk] at e1
        rw [if_pos hm, ← e1]
        congr 1
        exact a2.2.2.symm
    rw [this]
    rfl
  · intro e he hne
    apply Finset.sum_eq_zero
    intro s hs
    rw [if_neg]
    rw [show coords (negated r V) (sliceAddr r V e s) = filterOut r V (sliceAddr r V e s) from rfl, (g.addr he hs).2.2]
    exact hne

/-- everything about the two parts of a state -/
theorem parts {r : ℕ} {V : List ℕ} {lb ub : Idx} (g : Geo r V lb ub) (hc : ∃ a < r, a ∉ V) (fuel : ℕ) (hf : boxSize lb ub < fuel) (rho : Arr ℂ)
    (hH : Hermitian lb ub (fun i j => rho (i ++ j))) (hP : Positive lb ub (fun i j => rho (i ++ j))) :
    ∃ σ τ, reduceDO r V lb ub fuel rho = some σ ∧ reduceDO r (negated r V) lb ub fuel rho = some τ ∧
      (boxMatrix (sliceBound V lb) (sliceBound V ub) σ).PosSemidef ∧ (boxMatrix (filterOut r V lb) (filterOut r V ub) τ).PosSemidef ∧
      mutualInformation r V lb ub fuel rho = some (vN (boxMatrix (sliceBound V lb) (sliceBound V ub) σ) +
        vN (boxMatrix (filterOut r V lb) (filterOut r V ub) τ) - vN (Matrix.reindex g.equiv g.equiv (boxMatrix lb ub (fun i j => rho (i ++ j))))) := by
  obtain ⟨σ, h1, _⟩ := reduce_eq_ptrace r V lb ub g.hV g.hb g.hl fuel hf rho
  have hW := Geo.negated_axes hc
  obtain ⟨τ, h2, _⟩ := reduce_eq_ptrace r (negated r V) lb ub hW g.hb g.hl fuel hf rho
  have pσ := boxMatrix_posSemidef (reduce_hermitian r V lb ub g.hV g.hb g.hl fuel hf rho σ h1 hH) (reduce_positive r V lb ub g.hV g.hb g.hl fuel hf rho σ h1 hP)
  have pτ := boxMatrix_posSemidef (reduce_hermitian r _ lb ub hW g.hb g.hl fuel hf rho τ h2 hH) (reduce_positive r _ lb ub hW g.hb g.hl fuel hf rho τ h2 hP)
  refine ⟨σ, τ, h1, h2, pσ, pτ, ?_⟩
  have e1 : entropy (sliceBound V lb) (sliceBound V ub) (arrOf V.length σ) = vN (boxMatrix (sliceBound V lb) (sliceBound V ub) σ) := by
    rw [entropy_eq_vN (by rw [boxMatrix_arrOf]; exact pσ), boxMatrix_arrOf]
  have e2 : entropy (sliceBound (negated r V) lb) (sliceBound (negated r V) ub) (arrOf (negated r V).length τ) =
      vN (boxMatrix (filterOut r V lb) (filterOut r V ub) τ) := by
    rw [entropy_eq_vN (by rw [boxMatrix_arrOf]; exact pτ), boxMatrix_arrOf]; rfl
  rw [mutualInformation, h1, h2, Option.bind_some, Option.map_some, e1, e2, entropy_eq_vN (boxMatrix_posSemidef hH hP), Entropy.vN_reindex]

/-- a pure state is Hermitian and positive -/
theorem pure_state {lb ub : Idx} {rho : Arr ℂ} {psi : Idx → ℂ}
    (hpsi : ∀ i ∈ boxFinset lb ub, ∀ j ∈ boxFinset lb ub, rho (i ++ j) = psi i * conj (psi j)) :
    Hermitian lb ub (fun i j => rho (i ++ j)) ∧ Positive lb ub (fun i j => rho (i ++ j)) := by
  constructor
  · intro i hi j hj
    simp only [hpsi i hi j hj, hpsi j hj i hi, map_mul, Complex.conj_conj]; ring
  · intro x
    have : ∑ i ∈ boxFinset lb ub, ∑ j ∈ boxFinset lb ub, conj (x i) * rho (i ++ j) * x j =
        ((Complex.normSq (∑ i ∈ boxFinset lb ub, conj (x i) * psi i) : ℝ) : ℂ) := by
      rw [← Complex.mul_conj, map_sum, Finset.sum_mul_sum]
      refine Finset.sum_congr rfl fun i hi => Finset.sum_congr rfl fun j hj => ?_
      rw [hpsi i hi j hj, map_mul, Complex.conj_conj]; ring
    rw [this, Complex.ofReal_re]
    exact Complex.normSq_nonneg _

/-! ## C99 -/

/-- **C99.** For every rank, every proper selection `V` of the axes, all dimensions, and every density operator (Hermitian, positive, of unit trace),
the mutual information between the two parts is defined and non-negative. It vanishes exactly for the product states. -/
theorem mutualInformation_spec (r : ℕ) (V W : List ℕ) (lb ub : Idx) (hV : ValidAxes r V) (hb : ValidBounds lb ub) (hl : lb.length = r)
    (hne : W ≠ []) (hW : W.Pairwise (· < ·)) (hW' : ∀ j, j ∈ W ↔ j < r ∧ j ∉ V) (fuel : ℕ) (hf : boxSize lb ub < fuel) (rho : Arr ℂ)
    (hH : Hermitian lb ub (fun i j => rho (i ++ j))) (hP : Positive lb ub (fun i j => rho (i ++ j))) (ht : trace lb ub (fun i j => rho (i ++ j)) = 1) :
    ∃ I, mutualInformation r V lb ub fuel rho = some I ∧ 0 ≤ I ∧
      (I = 0 ↔ ∃ a b : Idx → Idx → ℂ, ∀ i ∈ boxFinset lb ub, ∀ j ∈ boxFinset lb ub,
        rho (i ++ j) = a (coords V i) (coords V j) * b (coords W i) (coords W j)) := by
  have g : Geo r V lb ub := ⟨hV, hb, hl⟩
  have hc : ∃ a < r, a ∉ V := by
    obtain ⟨a, ha⟩ := List.exists_mem_of_ne_nil W hne
    exact ⟨a, (hW' a).1 ha⟩
  have hWn : W = negated r V := by
    apply List.Perm.eq_of_pairwise (le := (· < ·)) (fun a b _ _ h1 h2 => absurd h1 (lt_asymm h2)) hW
    · exact List.Pairwise.filter _ List.pairwise_lt_range
    · rw [List.perm_ext_iff_of_nodup (hW.imp (fun h => ne_of_lt h)) (negated_nodup r V)]
      intro j; rw [hW', mem_negated]
  have hcW : ∀ i, coords W i = filterOut r V i := by intro i; rw [hWn]; rfl
  obtain ⟨σ, τ, h1, h2, pσ, pτ, hI⟩ := parts g hc fuel hf rho hH hP
  have pM := boxMatrix_posSemidef hH hP
  have pM' : (Matrix.reindex g.equiv g.equiv (boxMatrix lb ub (fun i j => rho (i ++ j)))).PosSemidef := pM.submatrix _
  have tM' : (Matrix.reindex g.equiv g.equiv (boxMatrix lb ub (fun i j => rho (i ++ j)))).trace = 1 := by
    rw [← ht, ← boxMatrix_trace, Matrix.trace, Matrix.trace]
    exact Fintype.sum_equiv g.equiv.symm _ _ (fun _ => rfl)
  have eA := g.margA fuel hf rho σ h1
  have eB := g.margB hc fuel hf rho τ h2
  have sub := Entropy.subadd pM' tM' (by rw [eA]; exact pσ) (by rw [eB]; exact pτ)
  rw [eA, eB] at sub
  refine ⟨_, hI, ?_, ?_⟩
  · linarith [sub.1]
  · constructor
    · intro h
      have hk := sub.2 (by linarith)
      refine ⟨σ, τ, fun i hi j hj => ?_⟩
      have := congrFun (congrFun hk (g.equiv ⟨i, hi⟩)) (g.equiv ⟨j, hj⟩)
      rw [Matrix.reindex_apply, Matrix.submatrix_apply, Equiv.symm_apply_apply, Equiv.symm_apply_apply, Matrix.kroneckerMap_apply] at this
      rw [hcW, hcW]
      exact this
    · rintro ⟨a, b, hab⟩
      have q1 := reduce_product r V W lb ub hV hb hl hW hW' fuel hf rho σ h1 a b hab
      have tσ : (boxMatrix (sliceBound V lb) (sliceBound V ub) σ).trace = 1 := by
        rw [boxMatrix_trace, reduce_trace r V lb ub hV hb hl fuel hf rho σ h1, ht]
      have tτ : (boxMatrix (filterOut r V lb) (filterOut r V ub) τ).trace = 1 := by
        rw [boxMatrix_trace]
        exact (reduce_trace r _ lb ub (Geo.negated_axes hc) hb hl fuel hf rho τ h2).trans ht
      -- the second part is a multiple of `b`
      have q2 : ∀ d d', d ∈ boxFinset (filterOut r V lb) (filterOut r V ub) → d' ∈ boxFinset (filterOut r V lb) (filterOut r V ub) →
          τ d d' = trace (sliceBound V lb) (sliceBound V ub) a * b d d' := by
        intro d d' hd hd'
        have := congrFun (congrFun eB ⟨d, hd⟩) ⟨d', hd'⟩
        rw [boxMatrix] at this
        rw [← this, Entropy.margB, trace, Finset.sum_mul, ← Finset.sum_coe_sort (boxFinset (sliceBound V lb) (sliceBound V ub))]
        refine Finset.sum_congr rfl fun s _ => ?_
        have a1 := g.addr hd s.2
        have a2 := g.addr hd' s.2
        change rho (sliceAddr r V d s.1 ++ sliceAddr r V d' s.1) = _
        rw [hab _ a1.1 _ a2.1, a1.2.1, a2.2.1, hcW, hcW, a1.2.2, a2.2.2]
      have tab : trace (sliceBound V lb) (sliceBound V ub) a * trace (coords W lb) (coords W ub) b = 1 := by
        rw [← ht, trace, trace, trace, g.fubini, Finset.sum_mul_sum, hcW, hcW, Finset.sum_comm]
        refine Finset.sum_congr rfl fun d hd => Finset.sum_congr rfl fun s hs => ?_
        have a1 := g.addr hd hs
        rw [hab _ a1.1 _ a1.1, a1.2.1, hcW, a1.2.2]
      have hk : Matrix.reindex g.equiv g.equiv (boxMatrix lb ub (fun i j => rho (i ++ j))) =
          Matrix.kroneckerMap (· * ·) (boxMatrix (sliceBound V lb) (sliceBound V ub) σ) (boxMatrix (filterOut r V lb) (filterOut r V ub) τ) := by
        ext ⟨s, d⟩ ⟨s', d'⟩
        rw [Matrix.kroneckerMap_apply, boxMatrix, boxMatrix, q1 _ _ (g.mem_slice.1 s.2) (g.mem_slice.1 s'.2), q2 _ _ d.2 d'.2]
        have a1 := g.addr d.2 s.2
        have a2 := g.addr d'.2 s'.2
        change rho (sliceAddr r V d.1 s.1 ++ sliceAddr r V d'.1 s'.1) = _
        rw [hab _ a1.1 _ a2.1, a1.2.1, a2.2.1, hcW, hcW, a1.2.2, a2.2.2]
        linear_combination (- a s.1 s'.1 * b d.1 d'.1) * tab
      rw [hk, Entropy.vN_kron pσ pτ tσ tτ, sub_self]

/-- **C99, pure states.** In a pure state both parts have the same entropy, and the mutual information is twice this (the entanglement entropy). -/
theorem mutualInformation_pure (r : ℕ) (V : List ℕ) (lb ub : Idx) (hV : ValidAxes r V) (hb : ValidBounds lb ub) (hl : lb.length = r)
    (hc : ∃ a < r, a ∉ V) (fuel : ℕ) (hf : boxSize lb ub < fuel) (rho : Arr ℂ) (psi : Idx → ℂ)
    (hpsi : ∀ i ∈ boxFinset lb ub, ∀ j ∈ boxFinset lb ub, rho (i ++ j) = psi i * conj (psi j)) (hn : ∑ i ∈ boxFinset lb ub, Complex.normSq (psi i) = 1) :
    ∃ σ, reduceDO r V lb ub fuel rho = some σ ∧
      mutualInformation r V lb ub fuel rho = some (2 * entropy (sliceBound V lb) (sliceBound V ub) (arrOf V.length σ)) := by
  have g : Geo r V lb ub := ⟨hV, hb, hl⟩
  obtain ⟨hH, hP⟩ := pure_state hpsi
  obtain ⟨σ, τ, h1, h2, pσ, pτ, hI⟩ := parts g hc fuel hf rho hH hP
  refine ⟨σ, h1, ?_⟩
  rw [hI, entropy_eq_vN (by rw [boxMatrix_arrOf]; exact pσ), boxMatrix_arrOf, ← g.margA fuel hf rho σ h1, ← g.margB hc fuel hf rho τ h2]
  have e : Matrix.reindex g.equiv g.equiv (boxMatrix lb ub (fun i j => rho (i ++ j))) =
      fun x y => psi (g.equiv.symm x).1 * conj (psi (g.equiv.symm y).1) := by
    ext x y
    exact hpsi _ (g.equiv.symm x).2 _ (g.equiv.symm y).2
  have hn' : ∑ x, Complex.normSq (psi (g.equiv.symm x).1) = 1 := by
    rw [← hn, ← Finset.sum_coe_sort (boxFinset lb ub)]
    exact Fintype.sum_equiv g.equiv.symm _ _ (fun _ => rfl)
  have := Entropy.vN_pure (fun x => psi (g.equiv.symm x).1) hn'
  rw [e, this.1, this.2]
  congr 1; ring

/-! ## C100 -/

/-- **C100.** For every rank, every selection of the axes, all dimensions, and every density operator, the purity of the partial trace is defined, lies
between the inverse of the dimension of the part and one, and it is one exactly if the part is in a pure state. -/
theorem purityOfPartialTrace_spec (r : ℕ) (V : List ℕ) (lb ub : Idx) (hV : ValidAxes r V) (hb : ValidBounds lb ub) (hl : lb.length = r)
    (fuel : ℕ) (hf : boxSize lb ub < fuel) (rho : Arr ℂ)
    (hH : Hermitian lb ub (fun i j => rho (i ++ j))) (hP : Positive lb ub (fun i j => rho (i ++ j))) (ht : trace lb ub (fun i j => rho (i ++ j)) = 1) :
    ∃ p, purityOfPartialTrace r V lb ub fuel rho = some p ∧ 1 / (boxSize (coords V lb) (coords V ub) : ℝ) ≤ p ∧ p ≤ 1 ∧
      (p = 1 ↔ ∃ φ : Idx → ℂ, ∀ s ∈ boxFinset (coords V lb) (coords V ub), ∀ s' ∈ boxFinset (coords V lb) (coords V ub),
        ptrace V lb ub (fun i j => rho (i ++ j)) s s' = φ s * conj (φ s')) := by
  have g : Geo r V lb ub := ⟨hV, hb, hl⟩
  obtain ⟨σ, h1, h2⟩ := reduce_eq_ptrace r V lb ub hV hb hl fuel hf rho
  have pσ := boxMatrix_posSemidef (reduce_hermitian r V lb ub hV hb hl fuel hf rho σ h1 hH) (reduce_positive r V lb ub hV hb hl fuel hf rho σ h1 hP)
  have tσ : (boxMatrix (sliceBound V lb) (sliceBound V ub) σ).trace = 1 := by
    rw [boxMatrix_trace, reduce_trace r V lb ub hV hb hl fuel hf rho σ h1, ht]
  have hsb : ValidBounds (sliceBound V lb) (sliceBound V ub) := by
    refine ⟨by simpa [sliceBound] using List.length_pos_iff.2 hV.1, by simp [sliceBound], ?_⟩
    have := (g.split (g.mem_full.2 (MII.inBox_lb hb))).1
    rw [g.mem_slice] at this
    exact fun j hj => this.2 j hj |>.1.trans (this.2 j hj).2
  have hcard : ((boxSize (coords V lb) (coords V ub) : ℤ) : ℝ) = Fintype.card (boxFinset (sliceBound V lb) (sliceBound V ub)) := by
    rw [Fintype.card_coe, show boxSize (coords V lb) (coords V ub) = _ from (card_boxFinset _ _ hsb).symm]; norm_cast
  have hs : ∑ i ∈ boxFinset (sliceBound V lb) (sliceBound V ub), ∑ j ∈ boxFinset (sliceBound V lb) (sliceBound V ub), Complex.normSq (σ i j) =
      ∑ i, ∑ j, Complex.normSq (boxMatrix (sliceBound V lb) (sliceBound V ub) σ i j) := by
    rw [← Finset.sum_coe_sort (boxFinset (sliceBound V lb) (sliceBound V ub))]
    refine Finset.sum_congr rfl fun i _ => ?_
    rw [← Finset.sum_coe_sort (boxFinset (sliceBound V lb) (sliceBound V ub))]
    rfl
  refine ⟨_, by rw [purityOfPartialTrace, h1, Option.map_some], ?_⟩
  rw [hs, hcard]
  have key := Entropy.purity_spec pσ tσ
  refine ⟨key.1, key.2.1, key.2.2.trans ?_⟩
  constructor
  · rintro ⟨φ, h⟩
    classical
    refine ⟨fun s => if hs : s ∈ boxFinset (sliceBound V lb) (sliceBound V ub) then φ ⟨s, hs⟩ else 0, fun s hs s' hs' => ?_⟩
    change s ∈ boxFinset (sliceBound V lb) (sliceBound V ub) at hs
    change s' ∈ boxFinset (sliceBound V lb) (sliceBound V ub) at hs'
    dsimp only
    rw [dif_pos hs, dif_pos hs', ← h2 s s' (g.mem_slice.1 hs) (g.mem_slice.1 hs')]
    exact h ⟨s, hs⟩ ⟨s', hs'⟩
  · rintro ⟨φ, h⟩
    refine ⟨fun s => φ s.1, fun s s' => ?_⟩
    rw [boxMatrix, h2 _ _ (g.mem_slice.1 s.2) (g.mem_slice.1 s'.2)]
    exact h _ s.2 _ s'.2

/-- **C100, entanglement of pure states.** In a pure state, the purity of the partial trace is one exactly if the state is a product (not entangled). -/
theorem purityOfPartialTrace_pure (r : ℕ) (V W : List ℕ) (lb ub : Idx) (hV : ValidAxes r V) (hb : ValidBounds lb ub) (hl : lb.length = r)
    (hne : W ≠ []) (hW : W.Pairwise (· < ·)) (hW' : ∀ j, j ∈ W ↔ j < r ∧ j ∉ V) (fuel : ℕ) (hf : boxSize lb ub < fuel) (rho : Arr ℂ) (psi : Idx → ℂ)
    (hpsi : ∀ i ∈ boxFinset lb ub, ∀ j ∈ boxFinset lb ub, rho (i ++ j) = psi i * conj (psi j)) (hn : ∑ i ∈ boxFinset lb ub, Complex.normSq (psi i) = 1) :
    purityOfPartialTrace r V lb ub fuel rho = some 1 ↔ ∃ a b : Idx → ℂ, ∀ i ∈ boxFinset lb ub, psi i = a (coords V i) * b (coords W i) := by
  obtain ⟨hH, hP⟩ := pure_state hpsi
  have g : Geo r V lb ub := ⟨hV, hb, hl⟩
  have hc : ∃ a < r, a ∉ V := by
    obtain ⟨a, ha⟩ := List.exists_mem_of_ne_nil W hne
    exact ⟨a, (hW' a).1 ha⟩
  have ht : trace lb ub (fun i j => rho (i ++ j)) = 1 := by
    rw [trace, Finset.sum_congr rfl (fun i hi => hpsi i hi i hi)]
    simp only [Complex.mul_conj]
    exact_mod_cast hn
  obtain ⟨σ, h1, hI⟩ := mutualInformation_pure r V lb ub hV hb hl hc fuel hf rho psi hpsi hn
  obtain ⟨σ', h1', h2⟩ := reduce_eq_ptrace r V lb ub hV hb hl fuel hf rho
  rw [h1] at h1'; obtain rfl := Option.some.inj h1'
  obtain ⟨p, hp, -, -, hp1⟩ := purityOfPartialTrace_spec r V lb ub hV hb hl fuel hf rho hH hP ht
  obtain ⟨I, hI', -, hI0⟩ := mutualInformation_spec r V W lb ub hV hb hl hne hW hW' fuel hf rho hH hP ht
  have pσ := boxMatrix_posSemidef (reduce_hermitian r V lb ub hV hb hl fuel hf rho σ h1 hH) (reduce_positive r V lb ub hV hb hl fuel hf rho σ h1 hP)
  have tσ : (boxMatrix (sliceBound V lb) (sliceBound V ub) σ).trace = 1 := by
    rw [boxMatrix_trace, reduce_trace r V lb ub hV hb hl fuel hf rho σ h1, ht]
  rw [hp, Option.some.injEq, hp1]
  constructor
  · rintro ⟨φ, h⟩
    have eσ : boxMatrix (sliceBound V lb) (sliceBound V ub) σ = fun s s' => φ s.1 * conj (φ s'.1) := by
      ext s s'
      rw [boxMatrix, h2 _ _ (g.mem_slice.1 s.2) (g.mem_slice.1 s'.2)]
      exact h _ s.2 _ s'.2
    have nφ : ∑ s : boxFinset (sliceBound V lb) (sliceBound V ub), Complex.normSq (φ s.1) = 1 := by
      rw [eσ] at tσ
      change ∑ s : boxFinset (sliceBound V lb) (sliceBound V ub), φ s.1 * conj (φ s.1) = 1 at tσ
      simp only [Complex.mul_conj] at tσ
      exact_mod_cast tσ
    have hI2 : I = 0 := by
      rw [hI, entropy_eq_vN (by rw [boxMatrix_arrOf]; exact pσ), boxMatrix_arrOf, eσ, Entropy.vN_dyad _ nφ, mul_zero] at hI'
      exact (Option.some.inj hI').symm
    obtain ⟨a, b, hab⟩ := hI0.1 hI2
    obtain ⟨k, hk, hk0⟩ := Finset.exists_ne_zero_of_sum_ne_zero (by rw [hn]; exact one_ne_zero : ∑ i ∈ boxFinset lb ub, Complex.normSq (psi i) ≠ 0)
    have hk0' : conj (psi k) ≠ 0 := by simpa using hk0
    refine ⟨fun s => a s (coords V k), fun d => b d (coords W k) / conj (psi k), fun i hi => ?_⟩
    have := hpsi i hi k hk
    rw [hab i hi k hk] at this
    rw [← mul_div_assoc, this, mul_div_assoc, div_self hk0', mul_one]
  · rintro ⟨a, b, hab⟩
    have q := reduce_product r V W lb ub hV hb hl hW hW' fuel hf rho σ h1 (fun s s' => a s * conj (a s')) (fun s s' => b s * conj (b s'))
      (fun i hi j hj => by rw [hpsi i hi j hj, hab i hi, hab j hj, map_mul]; ring)
    refine ⟨fun s => (Real.sqrt (∑ d ∈ boxFinset (coords W lb) (coords W ub), Complex.normSq (b d)) : ℂ) * a s, fun s hs s' hs' => ?_⟩
    rw [← h2 s s' (g.mem_slice.1 hs) (g.mem_slice.1 hs'), q s s' (g.mem_slice.1 hs) (g.mem_slice.1 hs'), trace]
    simp only [Complex.mul_conj, map_mul, Complex.conj_ofReal]
    have e := Real.mul_self_sqrt (Finset.sum_nonneg fun d (_ : d ∈ boxFinset (coords W lb) (coords W ub)) => Complex.normSq_nonneg (b d))
    rw [← Complex.ofReal_sum]
    conv_lhs => rw [← e]
    push_cast; ring

/-! ## Concrete cases -/

/-- the Bell state `(|00⟩+|11⟩)/√2` of two qubits -/
noncomputable def bellPsi : Idx → ℂ := fun i => if i = [0,0] ∨ i = [1,1] then ((Real.sqrt 2)⁻¹ : ℝ) else 0

/-- its density operator as a rank-4 array -/
noncomputable def bellRho : Arr ℂ := fun x => bellPsi (x.take 2) * conj (bellPsi (x.drop 2))

theorem bellRho_apply : ∀ i ∈ boxFinset [0,0] [1,1], ∀ j ∈ boxFinset [0,0] [1,1], bellRho (i ++ j) = bellPsi i * conj (bellPsi j) := by
  intro i hi j _
  have : i.length = 2 := ((mem_boxFinset [0,0] [1,1] _ rfl).1 hi).1
  simp [bellRho, ← this]

theorem bell_norm : ∑ i ∈ boxFinset [0,0] [1,1], Complex.normSq (bellPsi i) = 1 := by
  rw [box22]
  simp only [bellPsi]
  rw [Finset.sum_insert (by decide), Finset.sum_insert (by decide), Finset.sum_insert (by decide), Finset.sum_singleton]
  have e : (Real.sqrt 2)⁻¹ * (Real.sqrt 2)⁻¹ = 1 / 2 := by rw [← mul_inv, Real.mul_self_sqrt (by norm_num)]; norm_num
  rw [if_pos (by decide), if_neg (by decide), if_neg (by decide), if_pos (by decide), Complex.normSq_ofReal, e, Complex.normSq_zero]
  norm_num

/-- The hypotheses are met by the Bell state; being entangled, it is no product: the purity of its partial trace is not one, and its mutual
information is positive. -/
theorem bell_entangled : purityOfPartialTrace 2 [0] [0,0] [1,1] 5 bellRho ≠ some 1 ∧
    ∃ I, mutualInformation 2 [0] [0,0] [1,1] 5 bellRho = some I ∧ 0 < I := by
  have hV : ValidAxes 2 [0] := by unfold ValidAxes; decide
  have hb : ValidBounds [0,0] [1,1] := by unfold ValidBounds; decide
  have hW : ∀ j, j ∈ [1] ↔ j < 2 ∧ j ∉ [0] := fun j => by simp; omega
  have hs2 : ((Real.sqrt 2)⁻¹ : ℝ) ≠ 0 := by positivity
  have m : ∀ i, i ∈ ({[0,0],[0,1],[1,0],[1,1]} : Finset Idx) → i ∈ boxFinset [0,0] [1,1] := fun i hi => by rw [box22]; exact hi
  have m00 := m [0,0] (by decide)
  have m01 := m [0,1] (by decide)
  have m10 := m [1,0] (by decide)
  have m11 := m [1,1] (by decide)
  constructor
  · rw [Ne, purityOfPartialTrace_pure 2 [0] [1] [0,0] [1,1] hV hb rfl (by simp) (by simp) hW 5 (by decide) bellRho bellPsi bellRho_apply bell_norm]
    rintro ⟨a, b, h⟩
    have h00 := h _ m00
    have h01 := h _ m01
    have h11 := h _ m11
    simp [bellPsi, coords] at h00 h01 h11
    rcases h01 with h | h
    · rw [h, zero_mul] at h00; simp at h00
    · rw [h, mul_zero] at h11; simp at h11
  · obtain ⟨hH, hP⟩ := pure_state bellRho_apply
    have ht : trace [0,0] [1,1] (fun i j => bellRho (i ++ j)) = 1 := by
      rw [trace, Finset.sum_congr rfl (fun i hi => bellRho_apply i hi i hi)]
      simp only [Complex.mul_conj]
      exact_mod_cast bell_norm
    obtain ⟨I, h1, h2, h3⟩ := mutualInformation_spec 2 [0] [1] [0,0] [1,1] hV hb rfl (by simp) (by simp) hW 5 (by decide) bellRho hH hP ht
    refine ⟨I, h1, lt_of_le_of_ne h2 (fun h0 => ?_)⟩
    obtain ⟨a, b, h⟩ := h3.1 h0.symm
    have q1 := h _ m00 _ m00
    have q2 := h _ m11 _ m11
    have q3 := h _ m01 _ m01
    rw [bellRho_apply _ m00 _ m00] at q1
    rw [bellRho_apply _ m11 _ m11] at q2
    rw [bellRho_apply _ m01 _ m01] at q3
    simp [bellPsi, coords] at q1 q2 q3
    rcases q3 with h | h
    · rw [h, zero_mul] at q1; simp at q1
    · rw [h, mul_zero] at q2; simp at q2

end CppQED.PTrace
