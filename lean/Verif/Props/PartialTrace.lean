import Verif.Lemmas.PartialTrace

/-! # C10: the partial trace is a physical reduction -/

namespace CppQED.PTrace
open CppQED.MII (Idx)
open CppQED.Slice CppQED.Spec
open ComplexConjugate

/-- the working form: a sum over the dummy indices -/
theorem reduceDO_sum {r : ℕ} {V : List ℕ} {lb ub : Idx} (g : Geo r V lb ub) (fuel : ℕ) (hf : boxSize lb ub < fuel) (rho : Arr ℂ) :
    ∃ σ, reduceDO r V lb ub fuel rho = some σ ∧ ∀ s ∈ boxFinset (sliceBound V lb) (sliceBound V ub), ∀ s',
      σ s s' = ∑ d ∈ boxFinset (filterOut r V lb) (filterOut r V ub), rho (sliceAddr r V d s ++ sliceAddr r V d s') := by
  obtain ⟨ds, h1, h2, h3, h4⟩ := g.reduce_list
  refine ⟨_, by rw [reduceDO, h1 fuel hf, Option.bind_some, partialTrace_sum _ _ h3], fun s hs s' => ?_⟩
  rw [← h4, ← List.sum_toFinset _ h2]
  simp only [Finset.sum_apply]
  apply Finset.sum_congr rfl
  intro d _
  rw [doSlice, diagSliceAddr_eq r V d s s' g.hV (by rw [((g.mem_slice).1 hs).1]; simp [sliceBound])]

theorem ptrace_sum {r : ℕ} {V : List ℕ} {lb ub : Idx} (g : Geo r V lb ub) (ρ : Idx → Idx → ℂ)
    {s s' : Idx} (hs : s ∈ boxFinset (sliceBound V lb) (sliceBound V ub)) (hs' : s' ∈ boxFinset (sliceBound V lb) (sliceBound V ub)) :
    ptrace V lb ub ρ s s' = ∑ d ∈ boxFinset (filterOut r V lb) (filterOut r V ub), ρ (sliceAddr r V d s) (sliceAddr r V d s') := by
  rw [ptrace, Finset.sum_filter, g.fubini]
  apply Finset.sum_congr rfl
  intro d hd
  rw [Finset.sum_eq_single_of_mem s hs]
  · rw [if_pos (g.addr hd hs).2.1, g.replace_addr hd hs hs']
  · intro t ht hne
    rw [if_neg (by rw [(g.addr hd ht).2.1]; exact hne)]

/-- **C10, meaning.** For every rank, every selection `V` of axes to retain (in any order), all dimensions and every density operator,
`reduce<V>` terminates, and its `(s,s')` element is the sum, over all the full indices `i` whose coordinates on `V` are `s`, of the
element of the density operator between `i` and `i` with its `V`-coordinates replaced by `s'`. -/
theorem reduce_eq_ptrace (r : ℕ) (V : List ℕ) (lb ub : Idx) (hV : ValidAxes r V) (hb : ValidBounds lb ub) (hl : lb.length = r)
    (fuel : ℕ) (hf : boxSize lb ub < fuel) (rho : Arr ℂ) :
    ∃ σ, reduceDO r V lb ub fuel rho = some σ ∧
      ∀ s s', InBox (sliceBound V lb) (sliceBound V ub) s → InBox (sliceBound V lb) (sliceBound V ub) s' →
        σ s s' = ptrace V lb ub (fun i j => rho (i ++ j)) s s' := by
  have g : Geo r V lb ub := ⟨hV, hb, hl⟩
  obtain ⟨σ, h1, h2⟩ := reduceDO_sum g fuel hf rho
  refine ⟨σ, h1, fun s s' hs hs' => ?_⟩
  rw [h2 s (g.mem_slice.2 hs), ptrace_sum g _ (g.mem_slice.2 hs) (g.mem_slice.2 hs')]

/-- **C10, state vectors.** Reducing a state vector as a lazy density operator (through `densityOperatorize`) gives the same as forming
the dyad and reducing that. -/
theorem reduceSV_eq_ptrace (r : ℕ) (V : List ℕ) (lb ub : Idx) (hV : ValidAxes r V) (hb : ValidBounds lb ub) (hl : lb.length = r)
    (fuel : ℕ) (hf : boxSize lb ub < fuel) (psi : Arr ℂ) :
    ∃ σ, reduceSV r V lb ub fuel psi = some σ ∧
      ∀ s s', InBox (sliceBound V lb) (sliceBound V ub) s → InBox (sliceBound V lb) (sliceBound V ub) s' →
        σ s s' = ptrace V lb ub (fun i j => psi i * conj (psi j)) s s' := by
  have g : Geo r V lb ub := ⟨hV, hb, hl⟩
  obtain ⟨ds, h1, h2, h3, h4⟩ := g.reduce_list
  refine ⟨_, by rw [reduceSV, h1 fuel hf, Option.bind_some, partialTrace_sum _ _ h3], fun s s' hs hs' => ?_⟩
  have hsb : ValidBounds (sliceBound V lb) (sliceBound V ub) := by
    refine ⟨by simpa [sliceBound] using List.length_pos_iff.2 hV.1, by simp [sliceBound], ?_⟩
    have := (g.split (g.mem_full.2 (MII.inBox_lb hb))).1
    rw [g.mem_slice] at this
    exact fun j hj => this.2 j hj |>.1.trans (this.2 j hj).2
  have hfs : boxSize (sliceBound V lb) (sliceBound V ub) < fuel := by
    have hc : (boxFinset (sliceBound V lb) (sliceBound V ub)).card ≤ (boxFinset lb ub).card := by
      have hlb := g.split (g.mem_full.2 (MII.inBox_lb hb))
      apply Finset.card_le_card_of_injOn (fun s => sliceAddr r V (filterOut r V lb) s)
      · intro s hs; exact (g.addr hlb.2.1 hs).1
      · intro s hs t ht h
        have a := (g.addr hlb.2.1 hs).2.1
        have b := (g.addr hlb.2.1 ht).2.1
        simp only at h
        rw [← a, ← b, h]
    have e1 := card_boxFinset _ _ hsb
    have e2 := card_boxFinset _ _ hb
    omega
  rw [ptrace_sum g _ (g.mem_slice.2 hs) (g.mem_slice.2 hs'), ← h4, ← List.sum_toFinset _ h2]
  simp only [Finset.sum_apply]
  apply Finset.sum_congr rfl
  intro d _
  rw [densityOperatorize_eq _ _ hsb _ fuel hfs]
  · simp only [Option.getD_some]
    rw [if_pos ⟨hs, hs'⟩]; rfl
  · intro i _ j _; simp [svSlice, mul_comm]

/-- **C10, trace.** The trace is preserved. -/
theorem reduce_trace (r : ℕ) (V : List ℕ) (lb ub : Idx) (hV : ValidAxes r V) (hb : ValidBounds lb ub) (hl : lb.length = r)
    (fuel : ℕ) (hf : boxSize lb ub < fuel) (rho : Arr ℂ) (σ : Idx → Idx → ℂ) (hσ : reduceDO r V lb ub fuel rho = some σ) :
    trace (sliceBound V lb) (sliceBound V ub) σ = trace lb ub (fun i j => rho (i ++ j)) := by
  have g : Geo r V lb ub := ⟨hV, hb, hl⟩
  obtain ⟨σ', h1, h2⟩ := reduceDO_sum g fuel hf rho
  rw [hσ] at h1; obtain rfl := Option.some.inj h1
  rw [trace, trace, g.fubini, Finset.sum_comm]
  exact Finset.sum_congr rfl (fun s hs => h2 s hs s)

/-- **C10, Hermiticity.** A Hermitian operator is reduced to a Hermitian operator. -/
theorem reduce_hermitian (r : ℕ) (V : List ℕ) (lb ub : Idx) (hV : ValidAxes r V) (hb : ValidBounds lb ub) (hl : lb.length = r)
    (fuel : ℕ) (hf : boxSize lb ub < fuel) (rho : Arr ℂ) (σ : Idx → Idx → ℂ) (hσ : reduceDO r V lb ub fuel rho = some σ)
    (hH : Hermitian lb ub (fun i j => rho (i ++ j))) : Hermitian (sliceBound V lb) (sliceBound V ub) σ := by
  have g : Geo r V lb ub := ⟨hV, hb, hl⟩
  obtain ⟨σ', h1, h2⟩ := reduceDO_sum g fuel hf rho
  rw [hσ] at h1; obtain rfl := Option.some.inj h1
  intro s hs s' hs'
  rw [h2 s hs, h2 s' hs', map_sum]
  exact Finset.sum_congr rfl (fun d hd => hH _ (g.addr hd hs).1 _ (g.addr hd hs').1)

/-- **C10, positivity.** A positive operator is reduced to a positive operator. -/
theorem reduce_positive (r : ℕ) (V : List ℕ) (lb ub : Idx) (hV : ValidAxes r V) (hb : ValidBounds lb ub) (hl : lb.length = r)
    (fuel : ℕ) (hf : boxSize lb ub < fuel) (rho : Arr ℂ) (σ : Idx → Idx → ℂ) (hσ : reduceDO r V lb ub fuel rho = some σ)
    (hP : Positive lb ub (fun i j => rho (i ++ j))) : Positive (sliceBound V lb) (sliceBound V ub) σ := by
  have g : Geo r V lb ub := ⟨hV, hb, hl⟩
  obtain ⟨σ', h1, h2⟩ := reduceDO_sum g fuel hf rho
  rw [hσ] at h1; obtain rfl := Option.some.inj h1
  intro x
  have key : ∑ i ∈ boxFinset (sliceBound V lb) (sliceBound V ub), ∑ j ∈ boxFinset (sliceBound V lb) (sliceBound V ub), conj (x i) * σ i j * x j =
      ∑ d ∈ boxFinset (filterOut r V lb) (filterOut r V ub), ∑ i ∈ boxFinset lb ub, ∑ j ∈ boxFinset lb ub,
        conj (if filterOut r V i = d then x (coords V i) else 0) * rho (i ++ j) * (if filterOut r V j = d then x (coords V j) else 0) := by
    have e : ∀ d ∈ boxFinset (filterOut r V lb) (filterOut r V ub), ∑ i ∈ boxFinset lb ub, ∑ j ∈ boxFinset lb ub,
        conj (if filterOut r V i = d then x (coords V i) else 0) * rho (i ++ j) * (if filterOut r V j = d then x (coords V j) else 0) =
        ∑ s ∈ boxFinset (sliceBound V lb) (sliceBound V ub), ∑ t ∈ boxFinset (sliceBound V lb) (sliceBound V ub),
          conj (x s) * rho (sliceAddr r V d s ++ sliceAddr r V d t) * x t := by
      intro d hd
      rw [g.fubini, Finset.sum_eq_single_of_mem d hd]
      · apply Finset.sum_congr rfl
        intro s hs
        rw [g.fubini, Finset.sum_eq_single_of_mem d hd]
        · apply Finset.sum_congr rfl
          intro t ht
          rw [if_pos (g.addr hd hs).2.2, if_pos (g.addr hd ht).2.2, (g.addr hd hs).2.1, (g.addr hd ht).2.1]
        · intro e he hne
          apply Finset.sum_eq_zero
          intro t ht
          rw [(g.addr he ht).2.2, if_neg hne, mul_zero]
      · intro e he hne
        apply Finset.sum_eq_zero
        intro s hs
        apply Finset.sum_eq_zero
        intro j _
        rw [(g.addr he hs).2.2, if_neg hne]; simp
    rw [Finset.sum_congr rfl e]
    conv_rhs => rw [Finset.sum_comm]
    apply Finset.sum_congr rfl
    intro s hs
    rw [Finset.sum_comm]
    apply Finset.sum_congr rfl
    intro t _
    rw [h2 s hs, Finset.mul_sum, Finset.sum_mul]
  rw [key, Complex.re_sum]
  exact Finset.sum_nonneg (fun d _ => hP (fun i => if filterOut r V i = d then x (coords V i) else 0))

/-- **C10, product states.** If `ρ` is the product of an operator `a` on the axes `V` and an operator `b` on the remaining ones
(`W` lists them in increasing order), then the reduced operator is `Tr(b) a`. -/
theorem reduce_product (r : ℕ) (V W : List ℕ) (lb ub : Idx) (hV : ValidAxes r V) (hb : ValidBounds lb ub) (hl : lb.length = r)
    (hW : W.Pairwise (· < ·)) (hW' : ∀ j, j ∈ W ↔ j < r ∧ j ∉ V)
    (fuel : ℕ) (hf : boxSize lb ub < fuel) (rho : Arr ℂ) (σ : Idx → Idx → ℂ) (hσ : reduceDO r V lb ub fuel rho = some σ)
    (a b : Idx → Idx → ℂ) (hp : ∀ i ∈ boxFinset lb ub, ∀ j ∈ boxFinset lb ub, rho (i ++ j) = a (coords V i) (coords V j) * b (coords W i) (coords W j)) :
    ∀ s s', InBox (sliceBound V lb) (sliceBound V ub) s → InBox (sliceBound V lb) (sliceBound V ub) s' →
      σ s s' = trace (coords W lb) (coords W ub) b * a s s' := by
  have g : Geo r V lb ub := ⟨hV, hb, hl⟩
  have hWn : W = negated r V := by
    apply List.Perm.eq_of_pairwise (le := (· < ·)) (fun a b _ _ h1 h2 => absurd h1 (lt_asymm h2)) hW
    · exact List.Pairwise.filter _ List.pairwise_lt_range
    · rw [List.perm_ext_iff_of_nodup (hW.imp (fun h => ne_of_lt h)) (negated_nodup r V)]
      intro j; rw [hW', mem_negated]
  obtain ⟨σ', h1, h2⟩ := reduceDO_sum g fuel hf rho
  rw [hσ] at h1; obtain rfl := Option.some.inj h1
  intro s s' hs hs'
  rw [← g.mem_slice] at hs hs'
  have hc : ∀ i, coords W i = filterOut r V i := by intro i; rw [hWn]; rfl
  rw [h2 s hs, trace, Finset.sum_mul, hc, hc]
  apply Finset.sum_congr rfl
  intro d hd
  obtain ⟨p1, p2, p3⟩ := g.addr hd hs
  obtain ⟨q1, q2, q3⟩ := g.addr hd hs'
  rw [hp _ p1 _ q1, hc, hc, p2, q2, p3, q3, mul_comm]

/-- **C10, expectation values.** For every operator `A` on the axes `V`, `Tr(A σ) = Tr((A⊗1) ρ)`. -/
theorem reduce_expectation (r : ℕ) (V : List ℕ) (lb ub : Idx) (hV : ValidAxes r V) (hb : ValidBounds lb ub) (hl : lb.length = r)
    (fuel : ℕ) (hf : boxSize lb ub < fuel) (rho : Arr ℂ) (σ : Idx → Idx → ℂ) (hσ : reduceDO r V lb ub fuel rho = some σ) (A : Idx → Idx → ℂ) :
    expect (sliceBound V lb) (sliceBound V ub) A σ = expect lb ub (extend r V A) (fun i j => rho (i ++ j)) := by
  have g : Geo r V lb ub := ⟨hV, hb, hl⟩
  obtain ⟨σ', h1, h2⟩ := reduceDO_sum g fuel hf rho
  rw [hσ] at h1; obtain rfl := Option.some.inj h1
  have hag : ∀ i ∈ boxFinset lb ub, ∀ j ∈ boxFinset lb ub, AgreeOff r V i j ↔ filterOut r V i = filterOut r V j := by
    intro i _ j _
    constructor
    · intro h
      apply List.map_congr_left
      intro c hc
      rw [mem_negated] at hc
      exact h c hc.1 hc.2
    · intro h c hc hcV
      have : c ∈ negated r V := mem_negated.2 ⟨hc, hcV⟩
      exact List.map_inj_left.1 h c this
  rw [expect, expect, g.fubini]
  conv_rhs => rw [Finset.sum_comm]
  apply Finset.sum_congr rfl
  intro s hs
  have e : ∀ d ∈ boxFinset (filterOut r V lb) (filterOut r V ub), ∑ j ∈ boxFinset lb ub,
      extend r V A j (sliceAddr r V d s) * rho (sliceAddr r V d s ++ j) =
      ∑ t ∈ boxFinset (sliceBound V lb) (sliceBound V ub), A t s * rho (sliceAddr r V d s ++ sliceAddr r V d t) := by
    intro d hd
    rw [g.fubini, Finset.sum_eq_single_of_mem d hd]
    · apply Finset.sum_congr rfl
      intro t ht
      rw [extend, if_pos, (g.addr hd hs).2.1, (g.addr hd ht).2.1]
      rw [hag _ (g.addr hd ht).1 _ (g.addr hd hs).1, (g.addr hd hs).2.2, (g.addr hd ht).2.2]
    · intro e he hne
      apply Finset.sum_eq_zero
      intro t ht
      rw [extend, if_neg, zero_mul]
      rw [hag _ (g.addr he ht).1 _ (g.addr hd hs).1, (g.addr hd hs).2.2, (g.addr he ht).2.2]
      exact hne
  rw [Finset.sum_congr rfl e, Finset.sum_comm]
  apply Finset.sum_congr rfl
  intro t _
  rw [h2 s hs, Finset.mul_sum]

/-- **C10, composition.** Reducing to `V` and then to the positions `W` within `V` is the same as reducing at once to the axes
`V[w], w ∈ W`. -/
theorem reduce_reduce (r : ℕ) (V W : List ℕ) (lb ub : Idx) (hV : ValidAxes r V) (hW : ValidAxes V.length W) (hb : ValidBounds lb ub)
    (hl : lb.length = r) (fuel : ℕ) (hf : boxSize lb ub < fuel) (hf' : boxSize (sliceBound V lb) (sliceBound V ub) < fuel)
    (rho rho' : Arr ℂ) (σ σ₂ τ : Idx → Idx → ℂ) (hσ : reduceDO r V lb ub fuel rho = some σ)
    (hrho' : ∀ s s', s.length = V.length → rho' (s ++ s') = σ s s')
    (hσ₂ : reduceDO V.length W (sliceBound V lb) (sliceBound V ub) fuel rho' = some σ₂)
    (hτ : reduceDO r (W.map (fun w => V.getD w 0)) lb ub fuel rho = some τ) :
    ∀ t t', InBox (sliceBound (W.map (fun w => V.getD w 0)) lb) (sliceBound (W.map (fun w => V.getD w 0)) ub) t →
      InBox (sliceBound (W.map (fun w => V.getD w 0)) lb) (sliceBound (W.map (fun w => V.getD w 0)) ub) t' → σ₂ t t' = τ t t' := by
  have hVget : ∀ w < V.length, V.getD w 0 ∈ V := fun w hw => by
    rw [List.getD_eq_getElem?_getD, List.getElem?_eq_getElem hw]; simp
  have hinj : ∀ w < V.length, ∀ w' < V.length, V.getD w 0 = V.getD w' 0 → w = w' := by
    intro w hw w' hw' h
    rw [List.getD_eq_getElem?_getD, List.getElem?_eq_getElem hw, List.getD_eq_getElem?_getD, List.getElem?_eq_getElem hw'] at h
    exact (List.Nodup.getElem_inj_iff hV.2.1).1 (by simpa using h)
  have hU : ValidAxes r (W.map (fun w => V.getD w 0)) := by
    refine ⟨by simpa using hW.1, ?_, ?_⟩
    · exact (List.nodup_map_iff_inj_on hW.2.1).2 (fun w hw w' hw' h => hinj w (hW.2.2 w hw) w' (hW.2.2 w' hw') h)
    · intro a ha
      obtain ⟨w, hw, rfl⟩ := List.mem_map.1 ha
      exact hV.2.2 _ (hVget w (hW.2.2 w hw))
  have g : Geo r V lb ub := ⟨hV, hb, hl⟩
  have gU : Geo r (W.map (fun w => V.getD w 0)) lb ub := ⟨hU, hb, hl⟩
  have hsb : ValidBounds (sliceBound V lb) (sliceBound V ub) := by
    refine ⟨by simpa [sliceBound] using List.length_pos_iff.2 hV.1, by simp [sliceBound], ?_⟩
    have := (g.split (g.mem_full.2 (MII.inBox_lb hb))).1
    rw [g.mem_slice] at this
    exact fun j hj => this.2 j hj |>.1.trans (this.2 j hj).2
  have g2 : Geo V.length W (sliceBound V lb) (sliceBound V ub) := ⟨hW, hsb, by simp [sliceBound]⟩
  obtain ⟨a, a1, a2⟩ := reduce_eq_ptrace r V lb ub hV hb hl fuel hf rho
  rw [hσ] at a1; obtain rfl := Option.some.inj a1
  obtain ⟨a, a1, a3⟩ := reduce_eq_ptrace V.length W _ _ hW hsb (by simp [sliceBound]) fuel hf' rho'
  rw [hσ₂] at a1; obtain rfl := Option.some.inj a1
  obtain ⟨a, a1, a4⟩ := reduce_eq_ptrace r _ lb ub hU hb hl fuel hf rho
  rw [hτ] at a1; obtain rfl := Option.some.inj a1
  have hcc : ∀ b : Idx, coords W (coords V b) = coords (W.map (fun w => V.getD w 0)) b := by
    intro b
    simp only [coords, List.map_map]
    apply List.map_congr_left
    intro w hw
    exact getD_map_getD V b w (hW.2.2 w hw)
  intro t t' ht ht'
  have hbb : ∀ b, sliceBound W (sliceBound V b) = sliceBound (W.map (fun w => V.getD w 0)) b := hcc
  rw [a4 t t' ht ht', a3 t t' (by rw [hbb, hbb]; exact ht) (by rw [hbb, hbb]; exact ht'), ptrace, ptrace]
  rw [← Finset.sum_fiberwise_of_maps_to (s := (boxFinset lb ub).filter (fun i => coords (W.map (fun w => V.getD w 0)) i = t))
    (t := (boxFinset (sliceBound V lb) (sliceBound V ub)).filter (fun s => coords W s = t)) (g := fun i => coords V i)]
  · apply Finset.sum_congr rfl
    intro s hs
    rw [Finset.mem_filter] at hs
    have hsl : s.length = V.length := by have := g.mem_slice.1 hs.1; rw [this.1]; simp [sliceBound]
    have ht'l : t'.length = W.length := by rw [ht'.1]; simp [sliceBound]
    have hrep : replace W t' s ∈ boxFinset (sliceBound V lb) (sliceBound V ub) := by
      rw [← sliceAddr_eq_replace V.length W s t' hW hsl ht'l]
      exact (g2.addr (g2.split hs.1).2.1 (g2.mem_slice.2 (by rw [hbb, hbb]; exact ht'))).1
    rw [hrho' _ _ hsl, a2 _ _ (g.mem_slice.1 hs.1) (g.mem_slice.1 hrep), ptrace]
    have hfil : (boxFinset lb ub).filter (fun i => coords V i = s) =
        ((boxFinset lb ub).filter (fun i => coords (W.map (fun w => V.getD w 0)) i = t)).filter (fun i => coords V i = s) := by
      ext i
      simp only [Finset.mem_filter]
      constructor
      · rintro ⟨h1, rfl⟩; exact ⟨⟨h1, by rw [← hcc]; exact hs.2⟩, rfl⟩
      · rintro ⟨⟨h1, _⟩, h2⟩; exact ⟨h1, h2⟩
    rw [hfil]
    apply Finset.sum_congr rfl
    intro i hi
    simp only [Finset.mem_filter] at hi
    obtain ⟨⟨hi1, hi2⟩, hi3⟩ := hi
    have hil := (g.split hi1).2.2.2
    congr 2
    apply MII.ext_idx (n := r) (by simp [replace, hil]) (by simp [replace, hil])
    intro c hc
    rw [replace_getD V _ _ _ (by omega), replace_getD (W.map _) _ _ _ (by omega)]
    by_cases hcV : c ∈ V
    · rw [if_pos hcV]
      have hlt := List.idxOf_lt_length_of_mem hcV
      have hget : V.getD (V.idxOf c) 0 = c := by
        rw [List.getD_eq_getElem?_getD, List.getElem?_eq_getElem hlt]; simp
      rw [replace_getD _ _ _ _ (by omega)]
      by_cases hw : V.idxOf c ∈ W
      · rw [if_pos hw, if_pos (List.mem_map.2 ⟨_, hw, hget⟩)]
        congr 1
        have hlw := List.idxOf_lt_length_of_mem hw
        have : (W.map (fun w => V.getD w 0))[W.idxOf (V.idxOf c)]'(by simpa using hlw) = c := by
          rw [List.getElem_map, List.getElem_idxOf]; exact hget
        conv_rhs => rw [← this]
        rw [List.Nodup.idxOf_getElem hU.2.1]
      · rw [if_neg hw, if_neg, ← hi3, coords, getD_map_getD V i _ hlt, hget]
        intro hm
        obtain ⟨w, hw1, hw2⟩ := List.mem_map.1 hm
        apply hw
        have := hinj w (hW.2.2 w hw1) _ hlt (by rw [hget]; exact hw2)
        rwa [← this]
    · rw [if_neg hcV, if_neg]
      intro hm
      obtain ⟨w, hw1, hw2⟩ := List.mem_map.1 hm
      exact hcV (hw2 ▸ hVget w (hW.2.2 w hw1))
  · intro i hi
    rw [Finset.mem_filter] at hi ⊢
    exact ⟨(g.split hi.1).1, by rw [hcc]; exact hi.2⟩

/-- The hypotheses are met by a 2x3x2 system reduced to its last and first axes (in this order). -/
example : ValidAxes 3 [2, 0] ∧ ValidBounds [0, 0, 0] [1, 2, 1] ∧ ValidAxes ([2, 0] : List ℕ).length [1] ∧
    boxSize [0, 0, 0] [1, 2, 1] < (13 : ℕ) ∧ ([1] : List ℕ).Pairwise (· < ·) ∧ (∀ j, j ∈ [1] ↔ j < 3 ∧ j ∉ [2, 0]) := by
  refine ⟨by unfold ValidAxes; decide, by unfold ValidBounds; decide, by unfold ValidAxes; decide, by decide, by simp, fun j => ?_⟩
  simp; omega

/-- a Hermitian, positive, trace-one density operator on that system: the totally mixed state -/
example : Hermitian [0, 0, 0] [1, 2, 1] (fun i j => if i = j then (1/12 : ℂ) else 0) ∧
    Positive [0, 0, 0] [1, 2, 1] (fun i j => if i = j then (1/12 : ℂ) else 0) := by
  constructor
  · intro i _ j _
    by_cases h : i = j
    · simp [h, map_ofNat]
    · simp [h, Ne.symm h]
  · intro x
    rw [Complex.re_sum]
    apply Finset.sum_nonneg
    intro i hi
    rw [Finset.sum_eq_single_of_mem i hi (fun j _ hne => by simp [Ne.symm hne])]
    have : (conj (x i) * (if i = i then (1/12 : ℂ) else 0) * x i) = ((Complex.normSq (x i) / 12 : ℝ) : ℂ) := by
      rw [if_pos rfl, Complex.ofReal_div, ← Complex.mul_conj]; push_cast; ring
    rw [this, Complex.ofReal_re]
    exact div_nonneg (Complex.normSq_nonneg _) (by norm_num)

end CppQED.PTrace
