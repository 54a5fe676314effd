import Verif.Spec.Mode
import Verif.Model.Mode
import Verif.Lemmas.Element

/-! # Lemmas on the mode -/

namespace CppQED.ModeEl
open CppQED.Elem CppQED.Tridiag CppQED.Spec Matrix
open ComplexConjugate

/-! ## Rank-1 tridiagonals -/

/-- A consistent rank-1 operator of dimension `d` at time 0 with the matrix elements `E`. -/
structure TriOK (d : ℕ) (T : Tri) (E : Dens) : Prop where
  rank : T.rank = 1
  dims : T.dims = [d]
  time : T.time = 0
  wf : WF T
  entry : ∀ i < d, ∀ j < d, Spec.entry T [i] [j] = E i j

theorem TriOK.diffs {d : ℕ} {T : Tri} {E : Dens} (h : TriOK d T E) : ∃ k, T.diffs = [k] := by
  have := h.wf.diffs
  rw [h.rank] at this
  exact List.length_eq_one_iff.1 this

theorem sum_natBox_one (d : ℕ) (f : NIdx → ℂ) : ∑ j ∈ natBox [d], f j = ∑ j ∈ Finset.range d, f [j] := by
  rw [sum_natBox_cons]
  simp [sum_natBox_nil]

theorem mem_natBox_one (d n : ℕ) : [n] ∈ natBox [d] ↔ n < d := by
  rw [mem_natBox]; simp

/-- `apply` of a rank-1 operator. -/
theorem apply_one (T : Tri) (d : ℕ) (hr : T.rank = 1) (hd : T.dims = [d]) (hk : T.diffs.length = 1) (psi : Vec) (D : NIdx → ℂ) (n : ℕ) (hn : n < d) :
    Tridiag.apply T (arr1 psi) D [n] = D [n] + ∑ j ∈ Finset.range d, Spec.entry T [n] [j] * psi j := by
  rw [apply_eq_matrix T (by rw [hr, hd]; rfl) (by rw [hr, hk]) _ _ _ (by rw [hd, mem_natBox_one]; exact hn), hd, sum_natBox_one]
  rfl

theorem apply_emptyTri (psi D : NIdx → ℂ) (n : ℕ) : Tridiag.apply emptyTri psi D [n] = D [n] :=
  apply_outside emptyTri rfl rfl psi D [n] (by change [n] ∉ natBox [0]; rw [mem_natBox_one]; omega)

theorem furnish_fields (T : Tri) (m : ℕ → ℂ) : (furnishWithFreqs T m).rank = T.rank ∧ (furnishWithFreqs T m).dims = T.dims ∧ (furnishWithFreqs T m).diffs = T.diffs ∧
    (furnishWithFreqs T m).time = T.time ∧ (furnishWithFreqs T m).diagonals = T.diagonals := by
  unfold furnishWithFreqs
  extract_lets
  split_ifs <;> exact ⟨rfl, rfl, rfl, rfl, rfl⟩

theorem furnish_entry (T : Tri) (m : ℕ → ℂ) (i j : NIdx) : Spec.entry (furnishWithFreqs T m) i j = Spec.entry T i j := by
  obtain ⟨h1, h2, h3, h4, h5⟩ := furnish_fields T m
  unfold Spec.entry
  rw [h1, h3, h5]

/-- A furnished operator applied in the interaction picture. -/
theorem apply_furnished {d : ℕ} {T : Tri} {E : Dens} (h : TriOK d T E) (m : ℕ → ℂ) (t : ℝ) (psi : Vec) (D : NIdx → ℂ) (n : ℕ) (hn : n < d) :
    Tridiag.apply (propagate (furnishWithFreqs T m) t) (arr1 psi) D [n] = D [n] + ∑ j ∈ Finset.range d, interactionPicture m E t n j * psi j := by
  obtain ⟨h1, h2, h3, h4, h5⟩ := furnish_fields T m
  obtain ⟨k, hk⟩ := h.diffs
  rw [apply_one _ d (by rw [propagate_rank, h1, h.rank]) (by rw [propagate_dims, h2, h.dims]) (by rw [propagate_diffs, h3, hk]; rfl) _ _ _ hn]
  congr 1
  refine Finset.sum_congr rfl fun j hj => ?_
  rw [propagate_unary T h.wf h.rank d k h.dims hk h.time]
  simp only [interactionPicture, h.entry n hn j (Finset.mem_range.1 hj)]

/-- An operator without frequencies does not change. -/
theorem apply_unfurnished {d : ℕ} {T : Tri} {E : Dens} (h : TriOK d T E) (hf : ∀ i, (T.freqs i).size = 0) (t : ℝ) (psi : Vec) (D : NIdx → ℂ) (n : ℕ) (hn : n < d) :
    Tridiag.apply (propagate T t) (arr1 psi) D [n] = D [n] + ∑ j ∈ Finset.range d, E n j * psi j := by
  obtain ⟨k, hk⟩ := h.diffs
  rw [apply_one _ d (by rw [propagate_rank, h.rank]) (by rw [propagate_dims, h.dims]) (by rw [propagate_diffs, hk]; rfl) _ _ _ hn]
  congr 1
  refine Finset.sum_congr rfl fun j hj => ?_
  have : Spec.entry (propagate T t) [n] [j] = Spec.entry T [n] [j] := by
    unfold Spec.entry
    rw [propagate_rank, propagate_diffs]
    refine Finset.sum_congr rfl fun x _ => ?_
    have : (propagate T t).diagonals x = T.diagonals x := by
      rw [propagate_diagonals, if_neg]
      intro hh; exact hh.2.2.2 (hf x)
    rw [this]
  rw [this, h.entry n hn j (Finset.mem_range.1 hj)]

theorem apply_static {d : ℕ} {T : Tri} {E : Dens} (h : TriOK d T E) (psi : Vec) (D : NIdx → ℂ) (n : ℕ) (hn : n < d) :
    Tridiag.apply T (arr1 psi) D [n] = D [n] + ∑ j ∈ Finset.range d, E n j * psi j := by
  obtain ⟨k, hk⟩ := h.diffs
  rw [apply_one _ d h.rank h.dims (by rw [hk]; rfl) _ _ _ hn]
  congr 1
  exact Finset.sum_congr rfl fun j hj => by rw [h.entry n hn j (Finset.mem_range.1 hj)]

/-! ## The operators of the mode -/

theorem diag1_size (n : ℕ) (f : ℕ → ℂ) : (diag1 n f).size = n := by simp [diag1, Diag.size]
theorem empty_size : (Diag.empty 1).size = 0 := rfl

theorem diagonalOperator_ok (d : ℕ) (hd : d < 2 ^ 63) (h0 : 0 < d) (f : ℕ → ℂ) :
    ∃ T, diagonalOperator d f = .ok T ∧ TriOK d T (fun i j => if i = j then f i else 0) ∧ ∀ i, (T.freqs i).size = 0 := by
  have ht := (unary_throws_iff (diag1 d f) (Diag.empty 1) (Diag.empty 1) 0 false (by rw [diag1_size]; exact hd) (by rw [empty_size]; norm_num) (by rw [empty_size]; norm_num) (by norm_num)).2
    (by simp [empty_size])
  cases h : unary (diag1 d f) 0 (Diag.empty 1) (Diag.empty 1) false with
  | throw => exact absurd h ht
  | undef => unfold unary at h; simp only at h; split_ifs at h
  | ok T =>
    have hT := unary_ok h
    obtain ⟨w1, w2⟩ := unary_wf (nz := d) (nm := 0) (np := 0) rfl rfl rfl hd (by norm_num) (by norm_num) (by norm_num) (by omega) h
    refine ⟨T, h, ⟨by rw [hT], w2 h0.ne', by rw [hT], w1, fun i _ j _ => ?_⟩, fun i => by rw [hT]; rfl⟩
    rw [unary_entry h, diag1_size, empty_size]
    simp [h0.ne', diag1]

theorem aop_ok (d : ℕ) (hd : d < 2 ^ 63) (h0 : 0 < d) : ∃ T, aop d = .ok T ∧ TriOK d T aOp ∧ ∀ i, (T.freqs i).size = 0 := by
  have ht := (unary_throws_iff (Diag.empty 1) (Diag.empty 1) (diag1 (d - 1) fun i => (Real.sqrt (i + 1) : ℂ)) 1 false (by rw [empty_size]; norm_num) (by rw [empty_size]; norm_num)
    (by rw [diag1_size]; omega) (by norm_num)).2 (by simp [empty_size])
  unfold aop
  cases h : unary (Diag.empty 1) 1 (Diag.empty 1) (diag1 (d - 1) fun i => (Real.sqrt (i + 1) : ℂ)) false with
  | throw => exact absurd h ht
  | undef => unfold unary at h; simp only at h; split_ifs at h
  | ok T =>
    have hT := unary_ok h
    refine ⟨T, rfl, ⟨by rw [hT], ?_, by rw [hT], ?_, fun i hi j hj => ?_⟩, fun i => by rw [hT]; rfl⟩
    · rw [hT]; simp only [empty_size, diag1_size]
      congr 1; omega
    · rw [hT]
      refine ⟨rfl, rfl, ?_, ?_⟩
      · intro x hx hs
        have : x = 0 ∨ x = 1 ∨ x = 2 := by change x < 3 at hx; omega
        rcases this with rfl | rfl | rfl
        · simp [empty_size] at hs
        · simp [empty_size] at hs
        · simp only [empty_size, diag1_size]
          simp [diag1, diagShape, digits3]
      · intro x hx hs
        have : x = 0 ∨ x = 1 ∨ x = 2 := by change x < 3 at hx; omega
        rcases this with rfl | rfl | rfl
        · simp [empty_size] at hs
        · simp [empty_size] at hs
        · simp [KPos, digits3]
    · rw [unary_entry h, diag1_size, empty_size]
      simp only [ne_eq, not_true_eq_false, false_and, if_false, zero_add, diag1, aOp]
      by_cases hj : j = i + 1
      · subst hj
        have : ¬ (d - 1 = 0) := by omega
        simp [this]
      · rw [if_neg (by tauto), if_neg hj]

theorem TriOK.scale {d : ℕ} {T : Tri} {E : Dens} (h : TriOK d T E) (c : ℂ) : TriOK d (Tridiag.scale c T) (fun i j => c * E i j) :=
  ⟨h.rank, h.dims, h.time, scale_wf h.wf c, fun i hi j hj => by rw [scale_entry, h.entry i hi j hj]⟩

theorem TriOK.dagger {d : ℕ} {T : Tri} {E : Dens} (h : TriOK d T E) : TriOK d (hermitianConjugate T) (fun i j => conj (E j i)) :=
  ⟨h.rank, h.dims, h.time, dagger_wf h.wf, fun i hi j hj => by rw [dagger_entry, h.entry j hj i hi]⟩

theorem TriOK.add {d : ℕ} {T S : Tri} {E F : Dens} (h : TriOK d T E) (k : TriOK d S F) {R : Tri} (hR : Tridiag.add T S = .ok R) : TriOK d R (fun i j => E i j + F i j) := by
  obtain ⟨w, hd, ht, he⟩ := add_entry h.wf k.wf (by rw [h.rank, k.rank]) (by rw [h.dims, k.dims]) hR
  exact ⟨by rw [(add_ok hR).1, h.rank], by rw [hd, h.dims], by rw [ht, h.time], w, fun i hi j hj => by rw [he, h.entry i hi j hj, k.entry i hi j hj]⟩

theorem TriOK.neg {d : ℕ} {T : Tri} {E : Dens} (h : TriOK d T E) : TriOK d (Tridiag.neg T) (fun i j => -E i j) :=
  ⟨h.rank, h.dims, h.time, neg_wf h.wf, fun i hi j hj => by rw [neg_entry, h.entry i hi j hj]⟩

theorem TriOK.minusHC {d : ℕ} {T : Tri} {E : Dens} (h : TriOK d T E) : ∃ R, Tridiag.minusHC T = .ok R ∧ TriOK d R (fun i j => E i j - conj (E j i)) := by
  obtain ⟨R, hR⟩ := hc_add_succeeds h.wf (neg_wf (dagger_wf h.wf)) rfl rfl rfl rfl
  refine ⟨R, hR, ?_⟩
  have := h.add h.dagger.neg hR
  simpa only [sub_eq_add_neg] using this

theorem TriOK.congr {d : ℕ} {T : Tri} {E F : Dens} (h : TriOK d T E) (he : ∀ i < d, ∀ j < d, E i j = F i j) : TriOK d T F :=
  ⟨h.rank, h.dims, h.time, h.wf, fun i hi j hj => by rw [h.entry i hi j hj, he i hi j hj]⟩

theorem conj_aOp (i j : ℕ) : conj (aOp j i) = adOp i j := by
  unfold aOp adOp
  split_ifs <;> simp

theorem conj_adOp (i j : ℕ) : conj (adOp j i) = aOp i j := by
  rw [← conj_aOp, Complex.conj_conj]

theorem pumping_ok (eta : ℂ) (d : ℕ) (hd : d < 2 ^ 63) (h0 : 0 < d) :
    ∃ T, pumping eta d = .ok T ∧ TriOK d T (fun i j => eta * adOp i j - conj eta * aOp i j) ∧ T.diffs = [1] ∧ ∀ i < 3, (T.freqs i).size = 0 := by
  obtain ⟨a, ha, ok, hf⟩ := aop_ok d hd h0
  obtain ⟨T, hT, okT⟩ := (ok.dagger.scale eta).minusHC
  refine ⟨T, by unfold pumping; rw [ha]; exact hT, okT.congr fun i _ j _ => ?_, ?_, ?_⟩
  · simp only [conj_aOp, map_mul, conj_adOp]
  · have hk : a.diffs = [1] := by unfold aop at ha; rw [unary_ok ha]
    have := (add_ok hT).2.2.2.1
    change mergeDiffs a.diffs a.diffs = _ at this
    rw [hk] at this
    simpa [mergeDiffs, mergeDiff] using this.symm
  · intro i hi
    have := (add_ok hT).2.2.2.2.2 i (by change i < 3 ^ a.rank; rw [ok.rank]; exact hi)
    change mergeFreq (a.freqs i) (a.freqs i) = _ at this
    unfold mergeFreq at this
    rw [hf i] at this
    simp only [ne_eq, not_true_eq_false, if_false] at this
    injection this with this
    rw [← this, hf i]

open Classical in
/-- The matrix elements of `hOverI`. -/
noncomputable def hOverIE (z eta : ℂ) (omegaKerr : ℝ) : Dens :=
  fun i j => (if z ≠ 0 then (if i = j then mainDiagonal (-z) omegaKerr i else 0) else 0) + (eta * adOp i j - conj eta * aOp i j)

theorem hOverI_ok (z eta : ℂ) (omegaKerr : ℝ) (d : ℕ) (hd : d < 2 ^ 63) (h0 : 0 < d) :
    ∃ T, hOverI z eta omegaKerr d = .ok T ∧ (TriOK d T (hOverIE z eta omegaKerr) ∨ (T = emptyTri ∧ z = 0 ∧ eta = 0)) := by
  unfold hOverI
  by_cases hz : z = 0
  · rw [if_neg (by simpa using hz)]
    by_cases he : eta = 0
    · rw [if_neg (by simpa using he)]
      exact ⟨_, rfl, Or.inr ⟨rfl, hz, he⟩⟩
    · rw [if_pos he]
      obtain ⟨T, h1, h2, -⟩ := pumping_ok eta d hd h0
      exact ⟨T, h1, Or.inl (h2.congr fun i _ j _ => by simp [hOverIE, hz])⟩
  · rw [if_pos hz]
    obtain ⟨D, hD, okD, hfD⟩ := diagonalOperator_ok d hd h0 (mainDiagonal (-z) omegaKerr)
    rw [hD]
    simp only [Outcome.bind]
    by_cases he : eta = 0
    · rw [if_neg (by simpa using he)]
      exact ⟨D, rfl, Or.inl (okD.congr fun i _ j _ => by simp [hOverIE, hz, he])⟩
    · rw [if_pos he]
      obtain ⟨P, hP, okP, hkP, hfP⟩ := pumping_ok eta d hd h0
      rw [hP]
      have hkD : D.diffs = [0] := by unfold diagonalOperator at hD; rw [unary_ok hD]
      obtain ⟨R, hR⟩ := add_succeeds okD.wf okP.wf (by rw [okD.rank, okP.rank]) (by rw [okD.dims, okP.dims])
        (by intro a ha; rw [hkD] at ha ⊢; left; have : a = 0 := by simpa using ha
            rw [this]; rfl)
        (by intro x hx h; exact absurd (hfD x) h)
      exact ⟨R, hR, Or.inl ((okD.add okP hR).congr fun i _ j _ => by simp [hOverIE, hz])⟩

/-- The Kerr term. -/
noncomputable def kerrE (o : ℝ) : Dens := fun i j => if i = j then kerrDiagonal o i else 0

theorem mulVec_ket (d : ℕ) (E : Dens) (psi : Vec) (n : Fin d) : (mat d E *ᵥ ket d psi) n = ∑ j ∈ Finset.range d, E n j * psi j := by
  rw [Finset.sum_range]; rfl

theorem hOverIE_zero (omegaKerr : ℝ) : hOverIE 0 0 omegaKerr = 0 := by
  funext i j; simp [hOverIE]

theorem ip_add (m : ℕ → ℂ) (E F : Dens) (t : ℝ) (i j : ℕ) : interactionPicture m (fun i j => E i j + F i j) t i j = interactionPicture m E t i j + interactionPicture m F t i j := by
  simp only [interactionPicture]; ring

theorem ip_diag (m : ℕ → ℂ) (f : ℕ → ℂ) (t : ℝ) (i j : ℕ) : interactionPicture m (fun i j => if i = j then f i else 0) t i j = if i = j then f i else 0 := by
  simp only [interactionPicture]
  split_ifs with h
  · subst h; rw [mul_comm _ (f i), mul_assoc, inv_mul_cancel₀ (Complex.exp_ne_zero _), mul_one]
  · simp

theorem hamiltonianIP_ok (zSch zI eta : ℂ) (oK oA : ℝ) (d : ℕ) (hd : d < 2 ^ 63) (h0 : 0 < d) : ∃ H, hamiltonianIP zSch zI eta oK oA d = .ok H ∧
    ∀ t psi dpsidt t0, ket d (H.addContribution t psi dpsidt t0) =
      ket d dpsidt + mat d (interactionPicture (mainDiagonal zI oK) (fun i j => hOverIE zSch eta oK i j + kerrE oA i j) (t - t0)) *ᵥ ket d psi := by
  obtain ⟨T, hT, okT⟩ := hOverI_ok zSch eta oK d hd h0
  obtain ⟨K, hK, okK, hfK⟩ := diagonalOperator_ok d hd h0 (kerrDiagonal oA)
  refine ⟨_, by unfold hamiltonianIP; rw [hT, hK]; rfl, fun t psi dpsidt t0 => ?_⟩
  funext n
  rw [Pi.add_apply, mulVec_ket]
  simp only [ket, TriHam.addContribution, List.foldl_cons, List.foldl_nil, if_true]
  rw [apply_unfurnished okK hfK _ _ _ _ n.2]
  simp only [ip_add, add_mul, Finset.sum_add_distrib]
  rw [← add_assoc]
  congr 1
  · rcases okT with okT | ⟨rfl, rfl, rfl⟩
    · rw [apply_furnished okT _ _ _ _ _ n.2]; rfl
    · have e : furnishWithFreqs emptyTri (mainDiagonal zI oK) = emptyTri := by
        unfold furnishWithFreqs; rfl
      have e2 : ∀ t, Tridiag.apply (propagate emptyTri t) (arr1 psi) (arr1 dpsidt) [(n : ℕ)] = arr1 dpsidt [(n : ℕ)] := by
        intro t
        exact apply_outside _ (by rw [propagate_rank, propagate_dims]; rfl) (by rw [propagate_rank, propagate_diffs]; rfl) _ _ _
          (by rw [propagate_dims]; change [(n : ℕ)] ∉ natBox [0]; rw [mem_natBox_one]; omega)
      rw [e, e2, hOverIE_zero]
      simp [arr1, interactionPicture]
  · refine Finset.sum_congr rfl fun j _ => ?_
    unfold kerrE
    rw [ip_diag]

theorem hamiltonianSch_ok (zSch eta : ℂ) (oK oA : ℝ) (d : ℕ) (hd : d < 2 ^ 63) (h0 : 0 < d) : ∃ H, hamiltonianSch zSch eta oK oA d = .ok H ∧
    ∀ t psi dpsidt t0, ket d (H.addContribution t psi dpsidt t0) = ket d dpsidt + mat d (fun i j => hOverIE zSch eta oK i j + kerrE oA i j) *ᵥ ket d psi := by
  obtain ⟨T, hT, okT⟩ := hOverI_ok zSch eta oK d hd h0
  obtain ⟨K, hK, okK, hfK⟩ := diagonalOperator_ok d hd h0 (kerrDiagonal oA)
  refine ⟨_, by unfold hamiltonianSch; rw [hT, hK]; rfl, fun t psi dpsidt t0 => ?_⟩
  funext n
  rw [Pi.add_apply, mulVec_ket]
  simp only [ket, TriHam.addContribution, List.foldl_cons, List.foldl_nil, Bool.false_eq_true, if_false]
  rw [apply_static okK _ _ _ n.2]
  simp only [add_mul, Finset.sum_add_distrib]
  rw [← add_assoc]
  congr 1
  rcases okT with okT | ⟨rfl, rfl, rfl⟩
  · rw [apply_static okT _ _ _ n.2]; rfl
  · rw [apply_emptyTri, hOverIE_zero]
    simp [arr1]

/-! ## The loops of the jumps -/

theorem ascending (f : ℕ → ℂ → ℂ) (k : ℕ) (psi : Vec) (n : ℕ) :
    (List.range k).foldl (fun (psi : Vec) n => psi.set n (f n (psi (n + 1)))) psi n = if n < k then f n (psi (n + 1)) else psi n := by
  induction k generalizing n with
  | zero => simp
  | succ k ih =>
    rw [List.range_succ, List.foldl_append, List.foldl_cons, List.foldl_nil, set_apply, ih, ih]
    by_cases h : n = k
    · subst h; simp
    · rw [if_neg h]
      by_cases h2 : n < k
      · rw [if_pos h2, if_pos (by omega)]
      · rw [if_neg h2, if_neg (by omega)]

theorem descending (f : ℕ → ℂ → ℂ) (k : ℕ) (psi : Vec) (n : ℕ) :
    (List.range' 1 k).reverse.foldl (fun (psi : Vec) n => psi.set n (f n (psi (n - 1)))) psi n = if 1 ≤ n ∧ n ≤ k then f n (psi (n - 1)) else psi n := by
  induction k generalizing psi n with
  | zero => simp; omega
  | succ k ih =>
    rw [List.range'_concat, List.reverse_append, List.reverse_singleton, List.singleton_append, List.foldl_cons, ih]
    simp only [set_apply]
    by_cases h : n = 1 + 1 * k
    · rw [if_neg (by omega), if_pos h, if_pos (by omega), h]
    · by_cases h2 : 1 ≤ n ∧ n ≤ k
      · rw [if_pos h2, if_neg (by omega), if_pos (by omega)]
      · rw [if_neg h2, if_neg h, if_neg (by omega)]

/-- Nested loops of `+=`. -/
theorem nested_additive (L : List ℕ) (f : ℕ → ℕ → ℂ) (D : Dens) (i j : ℕ) (hL : L.Nodup) :
    L.foldl (fun D m => L.foldl (fun (D : Dens) n => D.add m n (f m n)) D) D i j = D i j + if i ∈ L ∧ j ∈ L then f i j else 0 := by
  have hs : ∀ (L : List ℕ), L.Nodup → ∀ (g : ℕ → ℂ) (i : ℕ), (L.map fun m => if i = m then g m else 0).sum = if i ∈ L then g i else 0 := by
    intro L hL g i
    induction L with
    | nil => simp
    | cons a L ih =>
      rw [List.nodup_cons] at hL
      rw [List.map_cons, List.sum_cons, ih hL.2]
      by_cases h : i = a
      · subst h; simp [hL.1]
      · simp [h]
  rw [foldl_additive L _ (fun m i j => (L.map fun n => if i = m ∧ j = n then f m n else 0).sum) (fun d m i j => by
    rw [foldl_additive L _ (fun n i j => if i = m ∧ j = n then f m n else 0) (fun d n i j => add_apply _ _ _ _ _ _)])]
  congr 1
  have e : ∀ m, (L.map fun n => if i = m ∧ j = n then f m n else 0).sum = if i = m then (if j ∈ L then f m j else 0) else 0 := by
    intro m
    by_cases h : i = m
    · simp only [h, true_and, if_true]; rw [hs L hL]
    · simp [h]
  simp only [e]
  rw [hs L hL (fun m => if j ∈ L then f m j else 0)]
  split_ifs <;> simp_all

end CppQED.ModeEl
