import Verif.Lemmas.Slice
import Verif.Props.MultiIndex

/-! # C02, C03: slices partition an array; slice-wise application is the tensor extension -/

namespace CppQED.Slice
open CppQED.MII (Idx)
open CppQED.Spec

theorem filterOut_valid {r : ℕ} {V : List ℕ} {lb ub : Idx} (hb : ValidBounds lb ub) (hl : lb.length = r)
    (h : 0 < (negated r V).length) : ValidBounds (filterOut r V lb) (filterOut r V ub) := by
  refine ⟨by simpa [filterOut] using h, by simp [filterOut], fun m hm => ?_⟩
  simp only [filterOut, List.length_map] at hm
  simp only [filterOut, getD_map_getD _ _ _ hm]
  have hVm : (negated r V).getD m 0 ∈ negated r V := by rw [List.getD_eq_getElem?_getD, List.getElem?_eq_getElem hm]; simp
  exact hb.2.2 _ (by rw [hl]; exact (mem_negated.1 hVm).1)

theorem fullRange_spec (r : ℕ) (V : List ℕ) (lb ub : Idx) (hV : ValidAxes r V) (hb : ValidBounds lb ub) (hl : lb.length = r) :
    ∃ ds : List Idx, (∀ fuel, ds.length < fuel → fullRange r V lb ub fuel = some ds) ∧
      (∀ d, d ∈ ds ↔ InBox (filterOut r V lb) (filterOut r V ub) d) ∧ ds.Nodup := by
  have hn := negated_length r V hV.2.1 hV.2.2
  by_cases h : V.length = r
  · have hneg : negated r V = [] := List.length_eq_zero_iff.1 (by omega)
    refine ⟨[[]], fun fuel _ => by simp [fullRange, h], fun d => ?_, by simp⟩
    simp only [filterOut, hneg, InBox, List.map_nil, List.length_nil, Nat.not_lt_zero, false_imp_iff, implies_true, and_true,
      List.mem_singleton]
    exact List.length_eq_zero_iff.symm
  · obtain ⟨L, h1, h2, h3, _, _⟩ := MII.mii_visits_box_once_lex _ _ (filterOut_valid (V := V) hb hl (by omega))
    exact ⟨L, fun fuel hf => by rw [fullRange, if_neg h]; exact h1 fuel hf, h2, h3⟩

/-- **C02.** For every rank, bounds and valid axis selection `V`, the range-for over `fullRange<V>(array)` terminates, visiting
pairwise distinct slices; every element of every slice is an element of the array; and every element of the array is reached from
exactly one pair (slice, slice-internal position). -/
theorem slices_partition (r : ℕ) (V : List ℕ) (lb ub : Idx) (hV : ValidAxes r V) (hb : ValidBounds lb ub) (hl : lb.length = r) :
    ∃ ds : List Idx, (∀ fuel, ds.length < fuel → fullRange r V lb ub fuel = some ds) ∧ ds.Nodup ∧
      (∀ d ∈ ds, ∀ s, InBox (sliceBound V lb) (sliceBound V ub) s → InBox lb ub (sliceAddr r V d s)) ∧
      (∀ i, InBox lb ub i →
        ∃! p : Idx × Idx, p.1 ∈ ds ∧ InBox (sliceBound V lb) (sliceBound V ub) p.2 ∧ sliceAddr r V p.1 p.2 = i) := by
  obtain ⟨ds, h1, h2, h3⟩ := fullRange_spec r V lb ub hV hb hl
  refine ⟨ds, h1, h3, ?_, ?_⟩
  · intro d hd s hs
    have hd' := (h2 d).1 hd
    have hdl : d.length = (negated r V).length := by rw [hd'.1]; simp [filterOut]
    have hsl : s.length = V.length := by rw [hs.1]; simp [sliceBound]
    obtain ⟨c1, c2⟩ := coords_sliceAddr r V d s hV.2.1 hV.2.2 hsl hdl
    rw [inBox_split r V lb ub _ hV.2.2 hl (sliceAddr_spec r V d s hV.2.1 hV.2.2 hsl hdl).1, c1, c2]
    exact ⟨hs, hd'⟩
  · intro i hi
    have hil : i.length = r := by rw [hi.1, hl]
    have hci := (inBox_split r V lb ub i hV.2.2 hl hil).1 hi
    refine ⟨(filterOut r V i, coords V i), ⟨(h2 _).2 hci.2, hci.1, sliceAddr_coords r V i hV.2.1 hV.2.2 hil⟩, ?_⟩
    rintro ⟨d, s⟩ ⟨hd, hs, rfl⟩
    have hd' := (h2 d).1 hd
    have hdl : d.length = (negated r V).length := by rw [hd'.1]; simp [filterOut]
    have hsl : s.length = V.length := by rw [hs.1]; simp [sliceBound]
    obtain ⟨c1, c2⟩ := coords_sliceAddr r V d s hV.2.1 hV.2.2 hsl hdl
    exact Prod.ext c2.symm c1.symm

/-- **C02, addressing.** What the slices are: the `m`-th coordinate of a slice is the coordinate of the array on axis `V[m]` (so the
retained axes appear in the order of `V`), and two elements belong to the same slice iff they agree on all the other axes. -/
theorem slice_addressing (r : ℕ) (V : List ℕ) (lb ub : Idx) (hV : ValidAxes r V) (hl : lb.length = r)
    (d d' s s' : Idx) (hd : InBox (filterOut r V lb) (filterOut r V ub) d) (hd' : InBox (filterOut r V lb) (filterOut r V ub) d')
    (hs : InBox (sliceBound V lb) (sliceBound V ub) s) (hs' : InBox (sliceBound V lb) (sliceBound V ub) s') :
    coords V (sliceAddr r V d s) = s ∧ (AgreeOff r V (sliceAddr r V d s) (sliceAddr r V d' s') ↔ d = d') := by
  have hdl : d.length = (negated r V).length := by rw [hd.1]; simp [filterOut]
  have hsl : s.length = V.length := by rw [hs.1]; simp [sliceBound]
  have hdl' : d'.length = (negated r V).length := by rw [hd'.1]; simp [filterOut]
  have hsl' : s'.length = V.length := by rw [hs'.1]; simp [sliceBound]
  obtain ⟨c1, c2⟩ := coords_sliceAddr r V d s hV.2.1 hV.2.2 hsl hdl
  obtain ⟨c1', c2'⟩ := coords_sliceAddr r V d' s' hV.2.1 hV.2.2 hsl' hdl'
  refine ⟨c1, ⟨fun h => ?_, ?_⟩⟩
  · rw [← c2, ← c2']
    apply List.map_congr_left
    intro a ha
    exact h a (mem_negated.1 ha).1 (mem_negated.1 ha).2
  · rintro rfl a ha haV
    obtain ⟨m, hm, rfl⟩ := exists_getD_of_mem ((mem_negated (r := r)).2 ⟨ha, haV⟩)
    rw [(sliceAddr_spec r V d s hV.2.1 hV.2.2 hsl hdl).2.2 m hm, (sliceAddr_spec r V d s' hV.2.1 hV.2.2 hsl' hdl).2.2 m hm]

/-- Non-vacuity: a rank-3 array with permuted axis selection `<2,0>`. -/
example : ValidAxes 3 [2, 0] ∧ ValidBounds [0, 0, 0] [1, 2, 3] := by
  refine ⟨⟨by simp, by simp, by simp⟩, by simp, by simp, ?_⟩
  intro j hj
  match j, hj with
  | 0, _ => simp
  | 1, _ => simp
  | 2, _ => simp

/-- The documented example (SliceIterator.h:127-150): `<3,6,1,9,7>` in rank 11 is `transposeSelf(0,3,2,6,4,5,1,9,8,7,10)`. -/
example : transposerMeta 11 [3, 6, 1, 9, 7] = [0, 3, 2, 6, 4, 5, 1, 9, 8, 7, 10] := by decide

example : fullRange 3 [2, 0] [0, 0, 0] [1, 2, 3] 4 = some [[0], [1], [2]] := by decide
example : sliceAddr 3 [2, 0] [1] [3, 0] = [0, 1, 3] := by decide

/-- `ConsistencyChecker` accepts exactly the valid axis selections … -/
theorem consistent_iff (r : ℕ) (V : List ℕ) : consistent r V = true ↔ ValidAxes r V := by
  simp only [consistent, Bool.and_eq_true, decide_eq_true_eq, List.all_eq_true, ValidAxes]
  constructor
  · rintro ⟨⟨⟨_, h2⟩, h3⟩, h4⟩; exact ⟨h3, h2, h4⟩
  · rintro ⟨h3, h2, h4⟩
    refine ⟨⟨⟨?_, h2⟩, h3⟩, h4⟩
    have := filter_contains_length r V h2 h4
    have h5 := List.length_filter_le (fun j => V.contains j) (List.range r)
    rw [List.length_range] at h5; omega

/-- … whereas its specialisation for consecutive ranges rejects the valid full range `0..RANK-1` (finding: `I2<RANK` is an
off-by-one for a half-open range), and accepts only valid ones. -/
theorem consistentRange_rejects_full (r : ℕ) (hr : 0 < r) :
    ValidAxes r (List.range r) ∧ consistentRange r 0 r = false := by
  refine ⟨⟨?_, List.nodup_range, fun a ha => List.mem_range.1 ha⟩, by simp [consistentRange]⟩
  intro h; rw [List.range_eq_nil] at h; omega

/-- Apart from those ending with the last axis, the ranges accepted are exactly those within the axes. -/
theorem consistentRange_iff (r : ℕ) (i1 i2 : ℕ) (h : i1 < i2) (hr : i2 ≠ r) : consistentRange r i1 i2 = true ↔ ValidAxes r (List.range' i1 (i2 - i1)) := by
  simp only [consistentRange, Bool.and_eq_true, decide_eq_true_eq, ValidAxes]
  constructor
  · rintro ⟨-, h2⟩
    refine ⟨by simp; omega, List.nodup_range', fun a ha => ?_⟩
    rw [List.mem_range'_1] at ha; omega
  · rintro ⟨-, -, h3⟩
    have := h3 (i2 - 1) (by rw [List.mem_range'_1]; omega)
    omega

/-- … and none beginning with a negative axis. -/
theorem consistentRange_neg (r : ℕ) (i1 i2 : ℤ) (h : i1 < 0) : consistentRange r i1 i2 = false := by simp [consistentRange, h]

example : consistentRange 4 0 3 = true := by rw [show (0 : ℤ) = (0 : ℕ) by rfl, show (3 : ℤ) = (3 : ℕ) by rfl, consistentRange_iff] <;> simp [ValidAxes, List.nodup_range']; omega

theorem sliceAddr_eq_replace (r : ℕ) (V : List ℕ) (i s : Idx) (hV : ValidAxes r V) (hi : i.length = r) (hs : s.length = V.length) :
    sliceAddr r V (filterOut r V i) s = replace V s i := by
  obtain ⟨h1, h2, h3⟩ := sliceAddr_spec r V (filterOut r V i) s hV.2.1 hV.2.2 hs (by simp [filterOut])
  apply MII.ext_idx h1 (by simp [replace, hi])
  intro a ha
  have hrep : (replace V s i).getD a 0 = if a ∈ V then s.getD (V.idxOf a) 0 else i.getD a 0 := by
    rw [replace, List.getD_eq_getElem?_getD, List.getElem?_mapIdx]
    have : i[a]? = some i[a] := List.getElem?_eq_getElem (by omega)
    rw [this]; simp [List.getD_eq_getElem?_getD, this]
  rw [hrep]
  split
  · rename_i haV
    have hm : V.idxOf a < V.length := List.idxOf_lt_length_iff.2 haV
    have := h2 _ hm
    rw [List.getD_eq_getElem?_getD (l := V), List.getElem?_eq_getElem hm] at this
    simpa using this
  · rename_i haV
    obtain ⟨m, hm, rfl⟩ := exists_getD_of_mem ((mem_negated (r := r)).2 ⟨ha, haV⟩)
    rw [h3 m hm, filterOut, getD_map_getD _ _ _ hm]

theorem readSlice_eq_replace {α : Type*} (r : ℕ) (V : List ℕ) (lb ub : Idx) (hV : ValidAxes r V) (i : Idx) (hil : i.length = r)
    (g : Arr α) (s : Idx) (hs : InBox (sliceBound V lb) (sliceBound V ub) s) :
    readSlice r V (filterOut r V i) g s = g (replace V s i) := by
  rw [readSlice, sliceAddr_eq_replace r V i s hV hil (by rw [hs.1]; simp [sliceBound])]

/-- an action on slices is local if the new contents of the slice depend only on the old contents of the slice -/
def Local {α β : Type*} (lb ub : Idx) (f : Arr α → Arr β) : Prop :=
  ∀ t t', (∀ s, InBox lb ub s → t s = t' s) → ∀ s, InBox lb ub s → f t s = f t' s

theorem matAction_local {K : Type*} [Semiring K] (lb ub : Idx) (hl : ub.length = lb.length) (M : Idx → Idx → K) :
    Local lb ub (matAction lb ub M) := by
  intro t t' h s _
  apply Finset.sum_congr rfl
  intro s' hs'
  rw [h s' ((mem_boxFinset lb ub s' hl).1 hs')]

/-- **C03.** Applying an in-place action `f` to all `V`-slices, in the order in which the code visits them: the result at any full
index `i` is `f` applied to the slice through `i` (the original contents with the `V` coordinates varied and the others kept), evaluated
at the `V` coordinates of `i`. Nothing outside the array changes. -/
theorem forEachSlice_eq_extension {α : Type*} (r : ℕ) (V : List ℕ) (lb ub : Idx) (hV : ValidAxes r V) (hb : ValidBounds lb ub)
    (hl : lb.length = r) (f : Arr α → Arr α) (hf : Local (sliceBound V lb) (sliceBound V ub) f) :
    ∃ ds, (∀ fuel, ds.length < fuel → fullRange r V lb ub fuel = some ds) ∧ ∀ psi i,
      (InBox lb ub i → forEachSlice r V lb ub ds f psi i = f (fun s => psi (replace V s i)) (coords V i)) ∧
      (¬ InBox lb ub i → forEachSlice r V lb ub ds f psi i = psi i) := by
  obtain ⟨ds, h1, h2, h3⟩ := fullRange_spec r V lb ub hV hb hl
  refine ⟨ds, h1, fun psi i => ⟨fun hi => ?_, fun hi => ?_⟩⟩
  · have hil : i.length = r := by rw [hi.1, hl]
    have hci := (inBox_split r V lb ub i hV.2.2 hl hil).1 hi
    unfold forEachSlice
    rw [fold_write r V lb ub hV.2.1 hV.2.2 hl ds (fun d hd => (h2 d).1 hd) h3 (fun _ => f) (fun _ => hf) psi i hi,
      if_pos ((h2 _).2 hci.2)]
    apply hf _ _ _ _ hci.1
    intro s hs
    rw [readSlice, sliceAddr_eq_replace r V i s hV hil (by rw [hs.1]; simp [sliceBound])]
  · exact fold_write_outside r V lb ub hV.2.1 hV.2.2 hl ds (fun d hd => (h2 d).1 hd) (fun _ => f) psi i hi

/-- **C03, two arrays** (`addContribution`): running over the slices of `psi` and `dpsidt` in parallel. -/
theorem forEachSlice₂_eq_extension {α β : Type*} (r : ℕ) (V : List ℕ) (lb ub : Idx) (hV : ValidAxes r V) (hb : ValidBounds lb ub)
    (hl : lb.length = r) (f : Arr α → Arr β → Arr β) (hf1 : ∀ u, Local (sliceBound V lb) (sliceBound V ub) (fun t => f t u))
    (hf2 : ∀ t, Local (sliceBound V lb) (sliceBound V ub) (f t)) :
    ∃ ds, (∀ fuel, ds.length < fuel → fullRange r V lb ub fuel = some ds) ∧ ∀ psi dpsidt i,
      (InBox lb ub i → forEachSlice₂ r V lb ub ds f psi dpsidt i =
        f (fun s => psi (replace V s i)) (fun s => dpsidt (replace V s i)) (coords V i)) ∧
      (¬ InBox lb ub i → forEachSlice₂ r V lb ub ds f psi dpsidt i = dpsidt i) := by
  obtain ⟨ds, h1, h2, h3⟩ := fullRange_spec r V lb ub hV hb hl
  refine ⟨ds, h1, fun psi dpsidt i => ⟨fun hi => ?_, fun hi => ?_⟩⟩
  · have hil : i.length = r := by rw [hi.1, hl]
    have hci := (inBox_split r V lb ub i hV.2.2 hl hil).1 hi
    unfold forEachSlice₂
    rw [fold_write r V lb ub hV.2.1 hV.2.2 hl ds (fun d hd => (h2 d).1 hd) h3 (fun d => f (readSlice r V d psi))
      (fun d => hf2 _) dpsidt i hi, if_pos ((h2 _).2 hci.2)]
    rw [hf2 _ _ (fun s => dpsidt (replace V s i)) (fun s hs => readSlice_eq_replace r V lb ub hV i hil dpsidt s hs) _ hci.1]
    exact hf1 (fun s => dpsidt (replace V s i)) _ _ (fun s hs => readSlice_eq_replace r V lb ub hV i hil psi s hs) _ hci.1
  · exact fold_write_outside r V lb ub hV.2.1 hV.2.2 hl ds (fun d hd => (h2 d).1 hd) (fun d => f (readSlice r V d psi)) dpsidt i hi

/-- **C03, product states.** If the state is the product of a `V`-factor `φ` and a factor `χ` depending only on the other
coordinates, then a homogeneous action changes the `V`-factor only: `φ ⊗ χ ↦ (f φ) ⊗ χ`. -/
theorem forEachSlice_product {K : Type*} [CommSemiring K] (r : ℕ) (V : List ℕ) (lb ub : Idx) (hV : ValidAxes r V)
    (hb : ValidBounds lb ub) (hl : lb.length = r) (f : Arr K → Arr K) (hf : Local (sliceBound V lb) (sliceBound V ub) f)
    (hom : ∀ (c : K) (t : Arr K), f (fun s => t s * c) = fun s => f t s * c)
    (φ χ : Idx → K) (hχ : ∀ i j, i.length = r → j.length = r → AgreeOff r V i j → χ i = χ j) :
    ∃ ds, (∀ fuel, ds.length < fuel → fullRange r V lb ub fuel = some ds) ∧ ∀ psi : Arr K,
      (∀ i, InBox lb ub i → psi i = φ (coords V i) * χ i) →
      ∀ i, InBox lb ub i → forEachSlice r V lb ub ds f psi i = f φ (coords V i) * χ i := by
  obtain ⟨ds, h1, h2⟩ := forEachSlice_eq_extension r V lb ub hV hb hl f hf
  refine ⟨ds, h1, fun psi hpsi i hi => ?_⟩
  have hil : i.length = r := by rw [hi.1, hl]
  have hci := (inBox_split r V lb ub i hV.2.2 hl hil).1 hi
  rw [(h2 psi i).1 hi]
  have : ∀ s, InBox (sliceBound V lb) (sliceBound V ub) s → psi (replace V s i) = φ s * χ i := by
    intro s hs
    have hsl : s.length = V.length := by rw [hs.1]; simp [sliceBound]
    have ha := sliceAddr_eq_replace r V i s hV hil hsl
    obtain ⟨c1, c2⟩ := coords_sliceAddr r V (filterOut r V i) s hV.2.1 hV.2.2 hsl (by simp [filterOut])
    rw [ha] at c1 c2
    have hlen : (replace V s i).length = r := by simp [replace, hil]
    have hbx : InBox lb ub (replace V s i) := by
      rw [inBox_split r V lb ub _ hV.2.2 hl hlen, c1, c2]; exact ⟨hs, hci.2⟩
    rw [hpsi _ hbx, c1]
    congr 1
    apply hχ _ _ hlen hil
    intro a har haV
    rw [replace, List.getD_eq_getElem?_getD, List.getElem?_mapIdx, List.getD_eq_getElem?_getD]
    have : i[a]? = some i[a] := List.getElem?_eq_getElem (by omega)
    simp [this, haV]
  rw [hf _ (fun s => φ s * χ i) this _ hci.1, hom]

theorem replace_getD (V : List ℕ) (s i : Idx) (a : ℕ) (ha : a < i.length) :
    (replace V s i).getD a 0 = if a ∈ V then s.getD (V.idxOf a) 0 else i.getD a 0 := by
  rw [replace, List.getD_eq_getElem?_getD, List.getElem?_mapIdx]
  have : i[a]? = some i[a] := List.getElem?_eq_getElem ha
  rw [this]; simp [List.getD_eq_getElem?_getD, this]

/-- **C03, commutation.** Linear actions on disjoint axis sets commute, whatever the order in which the slices are visited. -/
theorem forEachSlice_commute {K : Type*} [CommSemiring K] (r : ℕ) (V W : List ℕ) (lb ub : Idx) (hV : ValidAxes r V)
    (hW : ValidAxes r W) (hVW : ∀ a ∈ V, a ∉ W) (hb : ValidBounds lb ub) (hl : lb.length = r) (M N : Idx → Idx → K) :
    ∃ dv dw, (∀ fuel, dv.length < fuel → fullRange r V lb ub fuel = some dv) ∧
      (∀ fuel, dw.length < fuel → fullRange r W lb ub fuel = some dw) ∧ ∀ psi i,
      forEachSlice r V lb ub dv (matAction (sliceBound V lb) (sliceBound V ub) M)
        (forEachSlice r W lb ub dw (matAction (sliceBound W lb) (sliceBound W ub) N) psi) i =
      forEachSlice r W lb ub dw (matAction (sliceBound W lb) (sliceBound W ub) N)
        (forEachSlice r V lb ub dv (matAction (sliceBound V lb) (sliceBound V ub) M) psi) i := by
  have hbl : ∀ U : List ℕ, (sliceBound U ub).length = (sliceBound U lb).length := by intro U; simp [sliceBound]
  obtain ⟨dv, h1, h2⟩ := forEachSlice_eq_extension r V lb ub hV hb hl _ (matAction_local _ _ (hbl V) M)
  obtain ⟨dw, k1, k2⟩ := forEachSlice_eq_extension r W lb ub hW hb hl _ (matAction_local _ _ (hbl W) N)
  refine ⟨dv, dw, h1, k1, fun psi i => ?_⟩
  by_cases hi : InBox lb ub i
  · have hil : i.length = r := by rw [hi.1, hl]
    rw [(h2 _ i).1 hi, (k2 _ i).1 hi]
    -- facts about `replace`
    have box : ∀ U : List ℕ, ValidAxes r U → ∀ s, InBox (sliceBound U lb) (sliceBound U ub) s → InBox lb ub (replace U s i) := by
      intro U hU s hs
      have hsl : s.length = U.length := by rw [hs.1]; simp [sliceBound]
      obtain ⟨c1, c2⟩ := coords_sliceAddr r U (filterOut r U i) s hU.2.1 hU.2.2 hsl (by simp [filterOut])
      rw [sliceAddr_eq_replace r U i s hU hil hsl] at c1 c2
      rw [inBox_split r U lb ub _ hU.2.2 hl (by simp [replace, hil]), c1, c2]
      exact ⟨hs, ((inBox_split r U lb ub i hU.2.2 hl hil).1 hi).2⟩
    have co : ∀ (U U' : List ℕ), ValidAxes r U' → (∀ a ∈ U', a ∉ U) → ∀ s, coords U' (replace U s i) = coords U' i := by
      intro U U' hU' hd s
      apply List.map_congr_left
      intro a ha
      rw [replace_getD _ _ _ _ (by rw [hil]; exact hU'.2.2 a ha), if_neg (hd a ha)]
    have hWV : ∀ a ∈ W, a ∉ V := fun a ha hb => hVW a hb ha
    have sw : ∀ s t, replace W t (replace V s i) = replace V s (replace W t i) := by
      intro s t
      apply MII.ext_idx (n := r) (by simp [replace, hil]) (by simp [replace, hil])
      intro a ha
      rw [replace_getD _ _ _ _ (by simp [replace]; omega), replace_getD _ _ _ _ (by omega),
        replace_getD _ _ _ _ (by simp [replace]; omega), replace_getD _ _ _ _ (by omega)]
      by_cases haV : a ∈ V
      · simp [haV, hVW a haV]
      · simp [haV]
    have lhs : matAction (sliceBound V lb) (sliceBound V ub) M (fun s => forEachSlice r W lb ub dw (matAction (sliceBound W lb) (sliceBound W ub) N) psi (replace V s i)) (coords V i)
        = ∑ s ∈ boxFinset (sliceBound V lb) (sliceBound V ub), ∑ t ∈ boxFinset (sliceBound W lb) (sliceBound W ub),
          M (coords V i) s * (N (coords W i) t * psi (replace W t (replace V s i))) := by
      apply Finset.sum_congr rfl
      intro s hs
      rw [mem_boxFinset _ _ _ (hbl V)] at hs
      beta_reduce
      rw [(k2 psi _).1 (box V hV s hs), co V W hW hWV, matAction, Finset.mul_sum]
    have rhs : matAction (sliceBound W lb) (sliceBound W ub) N (fun s => forEachSlice r V lb ub dv (matAction (sliceBound V lb) (sliceBound V ub) M) psi (replace W s i)) (coords W i)
        = ∑ t ∈ boxFinset (sliceBound W lb) (sliceBound W ub), ∑ s ∈ boxFinset (sliceBound V lb) (sliceBound V ub),
          N (coords W i) t * (M (coords V i) s * psi (replace V s (replace W t i))) := by
      apply Finset.sum_congr rfl
      intro s hs
      rw [mem_boxFinset _ _ _ (hbl W)] at hs
      beta_reduce
      rw [(h2 psi _).1 (box W hW s hs), co W V hV hVW, matAction, Finset.mul_sum]
    rw [lhs, rhs, Finset.sum_comm]
    apply Finset.sum_congr rfl; intro t _
    apply Finset.sum_congr rfl; intro s _
    rw [sw]; ring
  · rw [(h2 _ i).2 hi, (k2 _ i).2 hi, (k2 _ i).2 hi, (h2 _ i).2 hi]

/-- Non-vacuity: disjoint axis sets of a rank-3 array, and a genuinely non-trivial local homogeneous action. -/
example : ValidAxes 3 [2, 0] ∧ ValidAxes 3 [1] ∧ (∀ a ∈ [2, 0], a ∉ [1]) := by
  refine ⟨⟨by simp, by simp, by simp⟩, ⟨by simp, by simp, by simp⟩, by simp⟩

example : Local (sliceBound [1] [0, 0]) (sliceBound [1] [2, 2])
    (matAction (K := ℤ) (sliceBound [1] [0, 0]) (sliceBound [1] [2, 2]) (fun s s' => s.getD 0 0 + 2 * s'.getD 0 0)) :=
  matAction_local _ _ (by simp [sliceBound]) _

end CppQED.Slice
