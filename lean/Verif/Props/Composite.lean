import Verif.Spec.Composite
import Verif.Props.Slice
import Verif.Props.PartialTrace

/-!
# Properties C27–C30: numbering of jumps, rates, averages and labels in composite systems; C66
-/

namespace CppQED.Composite
open CppQED.MII (Idx)
open CppQED.Slice CppQED.Spec CppQED.PTrace

theorem offset_zero (counts : List ℕ) : offset counts 0 = 0 := by simp [offset]
theorem offset_succ (n : ℕ) (counts : List ℕ) (k : ℕ) : offset (n :: counts) (k + 1) = n + offset counts k := by simp [offset]

theorem sub64_of_le (a b : ℕ) (h : b ≤ a) (ha : a < 2 ^ 64) : sub64 a b = a - b := by
  unfold sub64
  rw [show a + 2 ^ 64 - b = (a - b) + 2 ^ 64 by omega, Nat.add_mod_right, Nat.mod_eq_of_lt (by omega)]

/-! ## C28: jumps of a `Composite` -/

theorem jump_flag {β : Type*} (act : Part → Li → ℕ → β → β) (parts : List Part) (st : JumpState β) (h : st.flag = true) :
    (parts.foldl (jumpLambda act) st).x = st.x := by
  induction parts generalizing st with
  | nil => rfl
  | cons p parts ih =>
    rw [List.foldl_cons]
    have : jumpLambda act st p = st := by
      unfold jumpLambda
      cases p.li with
      | none => rfl
      | some li => simp [h]
    rw [this, ih st h]

/-- The dispatch: jump number `i` belongs to the component in whose range of numbers it is, with the number counted from the beginning of the range; a number beyond all the ranges has
no effect. -/
theorem jump_dispatch {β : Type*} (act : Part → Li → ℕ → β → β) (parts : List Part) (i : ℕ) (hi : i < 2 ^ 64) (x : β) :
    (∀ k p li j, parts[k]? = some p → p.li = some li → j < li.nAvr → i = offset (parts.map (nAvr .li)) k + j →
      (parts.foldl (jumpLambda act) ⟨false, i, x⟩).x = act p li j x) ∧
    ((parts.map (nAvr .li)).sum ≤ i → (parts.foldl (jumpLambda act) ⟨false, i, x⟩).x = x) := by
  induction parts generalizing i with
  | nil => exact ⟨fun k p li j h => by simp at h, fun _ => rfl⟩
  | cons q parts ih =>
    rw [List.foldl_cons]
    cases hq : q.li with
    | none =>
      have hn : nAvr .li q = 0 := by simp [nAvr, getLA, hq]
      have hst : jumpLambda act ⟨false, i, x⟩ q = ⟨false, i, x⟩ := by unfold jumpLambda; rw [hq]
      rw [hst]
      obtain ⟨h1, h2⟩ := ih i hi
      constructor
      · intro k p li j hk hp hj hij
        cases k with
        | zero =>
          simp only [List.getElem?_cons_zero, Option.some.injEq] at hk
          rw [← hk, hq] at hp
          cases hp
        | succ k =>
          rw [List.map_cons, offset_succ, hn, zero_add] at hij
          exact h1 k p li j (by simpa using hk) hp hj hij
      · intro h
        rw [List.map_cons, List.sum_cons, hn, zero_add] at h
        exact h2 h
    | some li0 =>
      have hn : nAvr .li q = li0.nAvr := by simp [nAvr, getLA, hq]
      by_cases hlt : i < li0.nAvr
      · have hst : jumpLambda act ⟨false, i, x⟩ q = ⟨true, sub64 i li0.nAvr, act q li0 i x⟩ := by
          unfold jumpLambda; rw [hq]; simp [hlt]
        rw [hst, jump_flag act parts _ rfl]
        constructor
        · intro k p li j hk hp hj hij
          cases k with
          | zero =>
            simp only [List.getElem?_cons_zero, Option.some.injEq] at hk
            rw [← hk, hq, Option.some.injEq] at hp
            rw [offset_zero, zero_add] at hij
            rw [← hk, ← hp, hij]
          | succ k =>
            rw [List.map_cons, offset_succ, hn] at hij
            omega
        · intro h
          rw [List.map_cons, List.sum_cons, hn] at h
          omega
      · have hst : jumpLambda act ⟨false, i, x⟩ q = ⟨false, i - li0.nAvr, x⟩ := by
          unfold jumpLambda; rw [hq]; simp [hlt, sub64_of_le i li0.nAvr (by omega) hi]
        rw [hst]
        obtain ⟨h1, h2⟩ := ih (i - li0.nAvr) (by omega)
        constructor
        · intro k p li j hk hp hj hij
          cases k with
          | zero =>
            simp only [List.getElem?_cons_zero, Option.some.injEq] at hk
            rw [← hk, hq, Option.some.injEq] at hp
            rw [offset_zero, zero_add] at hij
            rw [← hp] at hj
            omega
          | succ k =>
            rw [List.map_cons, offset_succ, hn] at hij
            exact h1 k p li j (by simpa using hk) hp hj (by omega)
        · intro h
          rw [List.map_cons, List.sum_cons, hn] at h
          exact h2 (by omega)

theorem slices_eq {r : ℕ} {V : List ℕ} {lb ub : Idx} (g : Geo r V lb ub) (ds : List Idx) (h : ∀ fuel, ds.length < fuel → fullRange r V lb ub fuel = some ds) :
    slices r V lb ub = ds := by
  obtain ⟨ds', h1, -⟩ := g.reduce_list
  have e := h1 ((boxSize lb ub).toNat + 1) (by push_cast; omega)
  unfold slices
  rw [e, Option.getD_some]
  have h2 := h (max (ds.length + 1) ((boxSize lb ub).toNat + 1)) (by omega)
  have h3 := h1 (max (ds.length + 1) ((boxSize lb ub).toNat + 1)) (by push_cast; omega)
  rw [h2] at h3
  exact (Option.some.inj h3).symm

theorem forEachSlice_slices {α : Type*} {r : ℕ} {V : List ℕ} {lb ub : Idx} (g : Geo r V lb ub) (f : Arr α → Arr α) (hf : Local (sliceBound V lb) (sliceBound V ub) f) (psi : Arr α) (i : Idx) :
    (InBox lb ub i → forEachSlice r V lb ub (slices r V lb ub) f psi i = f (fun s => psi (replace V s i)) (coords V i)) ∧
    (¬ InBox lb ub i → forEachSlice r V lb ub (slices r V lb ub) f psi i = psi i) := by
  obtain ⟨ds, h1, h2⟩ := forEachSlice_eq_extension r V lb ub g.hV g.hb g.hl f hf
  rw [slices_eq g ds h1]
  exact h2 psi i

theorem forEachSlice₂_slices {α β : Type*} {r : ℕ} {V : List ℕ} {lb ub : Idx} (g : Geo r V lb ub) (f : Arr α → Arr β → Arr β)
    (hf1 : ∀ u, Local (sliceBound V lb) (sliceBound V ub) (fun t => f t u)) (hf2 : ∀ t, Local (sliceBound V lb) (sliceBound V ub) (f t)) (psi : Arr α) (dpsidt : Arr β) (i : Idx) :
    (InBox lb ub i → forEachSlice₂ r V lb ub (slices r V lb ub) f psi dpsidt i = f (fun s => psi (replace V s i)) (fun s => dpsidt (replace V s i)) (coords V i)) ∧
    (¬ InBox lb ub i → forEachSlice₂ r V lb ub (slices r V lb ub) f psi dpsidt i = dpsidt i) := by
  obtain ⟨ds, h1, h2⟩ := forEachSlice₂_eq_extension r V lb ub g.hV g.hb g.hl f hf1 hf2
  rw [slices_eq g ds h1]
  exact h2 psi dpsidt i

theorem geo_extend {r : ℕ} {V : List ℕ} {lb ub : Idx} (g : Geo r V lb ub) : Geo (2 * r) (extendVector r V) (lb ++ lb) (ub ++ ub) := by
  obtain ⟨⟨hne, hnd, hlt⟩, ⟨hpos, hlen, hle⟩, hl⟩ := g
  refine ⟨⟨by simp [extendVector, hne], ?_, ?_⟩, ⟨by rw [List.length_append]; omega, by simp [hlen], ?_⟩, by simp [hl]; omega⟩
  · unfold extendVector
    rw [List.nodup_append]
    refine ⟨hnd, hnd.map (add_left_injective r), ?_⟩
    intro a ha b hb hab
    obtain ⟨c, hc, rfl⟩ := List.mem_map.1 hb
    have := hlt a ha
    omega
  · intro a ha
    rcases List.mem_append.1 ha with ha | ha
    · have := hlt a ha; omega
    · obtain ⟨c, hc, rfl⟩ := List.mem_map.1 ha
      have := hlt c hc; omega
  · intro j hj
    rw [List.length_append] at hj
    by_cases h : j < lb.length
    · have := hle j h
      simpa only [List.getD_eq_getElem?_getD, List.getElem?_append_left h, List.getElem?_append_left (hlen.symm ▸ h)] using this
    · have := hle (j - lb.length) (by omega)
      have h1 : lb.length ≤ j := by omega
      have h2 : ub.length ≤ j := by omega
      simpa only [List.getD_eq_getElem?_getD, List.getElem?_append_right h1, List.getElem?_append_right h2, hlen] using this

/-- A composite is well formed if the axes of the components are valid (these are compile-time conditions in the code). -/
structure Comp.Ok (c : Comp) : Prop where
  bounds : ValidBounds c.lb c.ub
  len : c.lb.length = c.r
  axes : ∀ p ∈ c.parts, ValidAxes c.r p.axes

theorem Comp.Ok.geo {c : Comp} (h : c.Ok) {p : Part} (hp : p ∈ c.parts) : Geo c.r p.axes c.lb c.ub := ⟨h.axes p hp, h.bounds, h.len⟩

/-- **C28.** Jump number `offset k + j` of a composite is jump `j` of the component `k`, performed on the subspace of that component: the amplitude with full index `i` becomes that of
the jumped slice through `i`. -/
theorem comp_actWithJ (c : Comp) (hc : c.Ok) (t : ℝ) (psi : Arr ℂ) (k j : ℕ) (p : Part) (li : Li) (hk : c.parts[k]? = some p) (hli : p.li = some li) (hj : j < li.nAvr)
    (hsz : (c.parts.map (nAvr .li)).sum < 2 ^ 64) (hloc : Local (sliceBound p.axes c.lb) (sliceBound p.axes c.ub) (li.actWithJ t j)) (i : Idx) (hi : InBox c.lb c.ub i) :
    c.actWithJ t psi (offset (c.parts.map (nAvr .li)) k + j) i = li.actWithJ t j (fun s => psi (replace p.axes s i)) (coords p.axes i) := by
  have hmem : p ∈ c.parts := List.mem_of_getElem? hk
  have hlt : offset (c.parts.map (nAvr .li)) k + j < 2 ^ 64 := by
    refine lt_of_lt_of_le ?_ hsz.le
    have hk' : (c.parts.map (nAvr .li))[k]? = some li.nAvr := by rw [List.getElem?_map, hk]; simp [nAvr, getLA, hli]
    have : offset (c.parts.map (nAvr .li)) (k + 1) ≤ (c.parts.map (nAvr .li)).sum := by
      unfold offset
      conv_rhs => rw [← List.take_append_drop (k + 1) (c.parts.map (nAvr .li)), List.sum_append]
      omega
    unfold offset at this ⊢
    rw [List.take_add_one, hk', List.sum_append] at this
    simp only [Option.toList_some, List.sum_singleton] at this
    omega
  unfold Comp.actWithJ
  rw [(jump_dispatch _ c.parts _ hlt psi).1 k p li j hk hli hj rfl]
  exact (forEachSlice_slices (hc.geo hmem) _ hloc psi i).1 hi

/-- **C28.** A number out of range acts on nothing. -/
theorem comp_actWithJ_out (c : Comp) (t : ℝ) (psi : Arr ℂ) (i : ℕ) (hi : i < 2 ^ 64) (h : (c.parts.map (nAvr .li)).sum ≤ i) : c.actWithJ t psi i = psi :=
  (jump_dispatch _ c.parts i hi psi).2 h

/-- **C28.** The same for the superoperators: `rho` and `drhodt` are acted on in their slices along the row and the column axes of the component. -/
theorem comp_actWithSuperoperator (c : Comp) (hc : c.Ok) (t : ℝ) (rho drhodt : Arr ℂ) (k j : ℕ) (p : Part) (li : Li) (hk : c.parts[k]? = some p) (hli : p.li = some li) (hj : j < li.nAvr)
    (hsz : (c.parts.map (nAvr .li)).sum < 2 ^ 64)
    (hloc1 : ∀ u, Local (sliceBound (extendVector c.r p.axes) (c.lb ++ c.lb)) (sliceBound (extendVector c.r p.axes) (c.ub ++ c.ub)) (fun x => li.actWithSuperoperator t j x u))
    (hloc2 : ∀ x, Local (sliceBound (extendVector c.r p.axes) (c.lb ++ c.lb)) (sliceBound (extendVector c.r p.axes) (c.ub ++ c.ub)) (li.actWithSuperoperator t j x))
    (i : Idx) (hi : InBox (c.lb ++ c.lb) (c.ub ++ c.ub) i) :
    c.actWithSuperoperator t rho drhodt (offset (c.parts.map (nAvr .li)) k + j) i =
      li.actWithSuperoperator t j (fun s => rho (replace (extendVector c.r p.axes) s i)) (fun s => drhodt (replace (extendVector c.r p.axes) s i)) (coords (extendVector c.r p.axes) i) := by
  have hmem : p ∈ c.parts := List.mem_of_getElem? hk
  have hlt : offset (c.parts.map (nAvr .li)) k + j < 2 ^ 64 := by
    refine lt_of_lt_of_le ?_ hsz.le
    have hk' : (c.parts.map (nAvr .li))[k]? = some li.nAvr := by rw [List.getElem?_map, hk]; simp [nAvr, getLA, hli]
    have : offset (c.parts.map (nAvr .li)) (k + 1) ≤ (c.parts.map (nAvr .li)).sum := by
      unfold offset
      conv_rhs => rw [← List.take_append_drop (k + 1) (c.parts.map (nAvr .li)), List.sum_append]
      omega
    unfold offset at this ⊢
    rw [List.take_add_one, hk', List.sum_append] at this
    simp only [Option.toList_some, List.sum_singleton] at this
    omega
  unfold Comp.actWithSuperoperator
  rw [(jump_dispatch _ c.parts _ hlt drhodt).1 k p li j hk hli hj rfl]
  exact (forEachSlice₂_slices (geo_extend (hc.geo hmem)) _ hloc1 hloc2 rho drhodt i).1 hi

theorem comp_actWithSuperoperator_out (c : Comp) (t : ℝ) (rho drhodt : Arr ℂ) (i : ℕ) (hi : i < 2 ^ 64) (h : (c.parts.map (nAvr .li)).sum ≤ i) :
    c.actWithSuperoperator t rho drhodt i = drhodt :=
  (jump_dispatch _ c.parts i hi drhodt).2 h

/-! ## C27, C66: jumps of a `BinarySystem` -/

theorem nAvr_of_li {p : Part} {li : Li} (h : p.li = some li) : nAvr .li p = li.nAvr := by simp [nAvr, getLA, h]
theorem nAvr_of_none {p : Part} (h : p.li = none) : nAvr .li p = 0 := by simp [nAvr, getLA, h]

/-- **C27.** The jumps of the frees are dispatched to them; those of the interaction are dispatched to it if the second free is noisy or the first one has no jumps. A number out of
range acts on nothing (under the same condition). -/
theorem binary_dispatch {β : Type*} (free0 free1 ia : Part) (act0 act1 act01 : Li → ℕ → β → β) (x : β) (hsz : nAvr .li free0 + nAvr .li free1 + nAvr .li ia < 2 ^ 64) :
    (∀ li j, free0.li = some li → j < li.nAvr → binaryDispatch free0 free1 ia act0 act1 act01 j x = act0 li j x) ∧
    (∀ li j, free1.li = some li → j < li.nAvr → binaryDispatch free0 free1 ia act0 act1 act01 (nAvr .li free0 + j) x = act1 li j x) ∧
    ((free1.li.isSome ∨ nAvr .li free0 = 0) → ∀ li j, ia.li = some li → j < li.nAvr →
      binaryDispatch free0 free1 ia act0 act1 act01 (nAvr .li free0 + nAvr .li free1 + j) x = act01 li j x) ∧
    ((free1.li.isSome ∨ nAvr .li free0 = 0) → ∀ i, i < 2 ^ 64 → nAvr .li free0 + nAvr .li free1 + nAvr .li ia ≤ i → binaryDispatch free0 free1 ia act0 act1 act01 i x = x) := by
  refine ⟨?_, ?_, ?_, ?_⟩
  · intro li j h0 hj
    have hc : free0.li.isSome ∧ j < nAvr .li free0 := ⟨by simp [h0], by rw [nAvr_of_li h0]; exact hj⟩
    unfold binaryDispatch
    simp only [dif_pos hc]
    congr 1
    simp [h0]
  · intro li j h1 hj
    have hc : ¬ (free0.li.isSome ∧ nAvr .li free0 + j < nAvr .li free0) := by omega
    have hn := nAvr_of_li h1
    have hs : sub64 (nAvr .li free0 + j) (nAvr .li free0) = j := by rw [sub64_of_le _ _ (by omega) (by omega)]; omega
    unfold binaryDispatch
    simp only [dif_neg hc, hs]
    rw [dif_pos ⟨by simp [h1], by rw [hn]; exact hj⟩]
    congr 1
    simp [h1]
  · intro hcond li j hia hj
    have hc : ¬ (free0.li.isSome ∧ nAvr .li free0 + nAvr .li free1 + j < nAvr .li free0) := by omega
    have hn := nAvr_of_li hia
    have hs : sub64 (nAvr .li free0 + nAvr .li free1 + j) (nAvr .li free0) = nAvr .li free1 + j := by rw [sub64_of_le _ _ (by omega) (by omega)]; omega
    have hc1 : ¬ (free1.li.isSome ∧ nAvr .li free1 + j < nAvr .li free1) := by omega
    have hs2 : sub64 (nAvr .li free1 + j) (if free1.li.isSome then nAvr .li free1 else nAvr .li free0) = j := by
      by_cases h1 : free1.li.isSome
      · rw [if_pos h1, sub64_of_le _ _ (by omega) (by omega)]; omega
      · have h1n : free1.li = none := by simpa using h1
        have h0 : nAvr .li free0 = 0 := by simpa [h1] using hcond
        rw [if_neg h1, nAvr_of_none h1n, h0, sub64_of_le _ _ (by omega) (by omega)]; omega
    unfold binaryDispatch
    simp only [dif_neg hc, hs, dif_neg hc1, hs2, hn, hj, if_true, hia]
  · intro hcond i hi hge
    have hc : ¬ (free0.li.isSome ∧ i < nAvr .li free0) := by omega
    have hs : sub64 i (nAvr .li free0) = i - nAvr .li free0 := sub64_of_le _ _ (by omega) hi
    have hc1 : ¬ (free1.li.isSome ∧ i - nAvr .li free0 < nAvr .li free1) := by omega
    have hs2 : sub64 (i - nAvr .li free0) (if free1.li.isSome then nAvr .li free1 else nAvr .li free0) = i - nAvr .li free0 - nAvr .li free1 := by
      by_cases h1 : free1.li.isSome
      · rw [if_pos h1, sub64_of_le _ _ (by omega) (by omega)]
      · have h1n : free1.li = none := by simpa using h1
        have h0 : nAvr .li free0 = 0 := by simpa [h1] using hcond
        rw [if_neg h1, nAvr_of_none h1n, h0, sub64_of_le _ _ (by omega) (by omega)]
    have hc2 : ¬ (i - nAvr .li free0 - nAvr .li free1 < nAvr .li ia) := by omega
    unfold binaryDispatch
    simp only [dif_neg hc, hs, dif_neg hc1, hs2, hc2, if_false]

/-- **C66**, the violated part: with a noisy first free and a noiseless second one, the number of jumps of the first free is subtracted twice, so that the jump `j` of the interaction
is not performed if `j` is less than that number, and another jump is performed in its place otherwise. -/
theorem binary_interaction_jump {β : Type*} (free0 free1 ia : Part) (act0 act1 act01 : Li → ℕ → β → β) (x : β) (hsz : nAvr .li free0 + nAvr .li ia < 2 ^ 63)
    (h1 : free1.li = none) (li : Li) (hia : ia.li = some li) (j : ℕ) (hj : j < li.nAvr) :
    binaryDispatch free0 free1 ia act0 act1 act01 (nAvr .li free0 + nAvr .li free1 + j) x = if j < nAvr .li free0 then x else act01 li (j - nAvr .li free0) x := by
  have hn1 := nAvr_of_none h1
  have hn := nAvr_of_li hia
  have hc : ¬ (free0.li.isSome ∧ nAvr .li free0 + 0 + j < nAvr .li free0) := by omega
  have hs : sub64 (nAvr .li free0 + 0 + j) (nAvr .li free0) = j := by rw [sub64_of_le _ _ (by omega) (by omega)]; omega
  have hc1 : ¬ (free1.li.isSome ∧ j < 0) := by omega
  have hf : free1.li.isSome = false := by simp [h1]
  rw [hn1]
  unfold binaryDispatch
  simp only [dif_neg hc, hs, hn1, dif_neg hc1, hf, Bool.false_eq_true, if_false, hia]
  by_cases hlt : j < nAvr .li free0
  · have : ¬ sub64 j (nAvr .li free0) < nAvr .li ia := by
      unfold sub64
      rw [Nat.mod_eq_of_lt (by omega)]
      omega
    rw [if_neg this, if_pos hlt, dif_neg (by simp)]
  · have hs2 : sub64 j (nAvr .li free0) = j - nAvr .li free0 := sub64_of_le _ _ (by omega) (by omega)
    rw [hs2, if_pos (by omega), if_neg hlt, dif_neg (by simp)]

/-- **C66**, the part that holds: all jumps of the interaction are dispatched correctly iff the second free is noisy or the first one has no jumps (or there is no jump of the
interaction at all). -/
theorem binary_interaction_jump_iff_partial (free0 free1 ia : Part) (hsz : nAvr .li free0 + nAvr .li free1 + nAvr .li ia < 2 ^ 63) :
    (∀ {β : Type} (act0 act1 act01 : Li → ℕ → β → β) (x : β) li j, ia.li = some li → j < li.nAvr →
      binaryDispatch free0 free1 ia act0 act1 act01 (nAvr .li free0 + nAvr .li free1 + j) x = act01 li j x) ↔
    (free1.li.isSome ∨ nAvr .li free0 = 0 ∨ nAvr .li ia = 0) := by
  constructor
  · intro h
    by_contra hcon
    simp only [not_or] at hcon
    obtain ⟨h1, h0, h01⟩ := hcon
    have h1 : free1.li = none := by simpa using h1
    cases hia : ia.li with
    | none => exact h01 (nAvr_of_none hia)
    | some li =>
      rw [nAvr_of_li hia] at h01
      have a := h (fun _ _ x => x) (fun _ _ x => x) (fun _ _ _ => true) false li 0 hia (by omega)
      rw [binary_interaction_jump free0 free1 ia _ _ _ _ (by omega) h1 li hia 0 (by omega), if_pos (by omega)] at a
      cases a
  · intro h β act0 act1 act01 x li j hia hj
    rcases h with h | h | h
    · exact (binary_dispatch free0 free1 ia act0 act1 act01 x (by omega)).2.2.1 (Or.inl h) li j hia hj
    · exact (binary_dispatch free0 free1 ia act0 act1 act01 x (by omega)).2.2.1 (Or.inr h) li j hia hj
    · rw [nAvr_of_li hia] at h; omega

theorem valid0 : ValidAxes 2 [0] := ⟨by simp, by simp, by simp⟩
theorem valid1 : ValidAxes 2 [1] := ⟨by simp, by simp, by simp⟩

/-- **C27.** The jumps of the two frees, in terms of the amplitudes. -/
theorem bin_actWithJ (b : Bin) (hb : ValidBounds b.lb b.ub) (hl : b.lb.length = 2) (t : ℝ) (psi : Arr ℂ) (hsz : b.nAvr .li < 2 ^ 64) (i : Idx) (hi : InBox b.lb b.ub i) :
    (∀ li j, b.free0.li = some li → j < li.nAvr → Local (sliceBound [0] b.lb) (sliceBound [0] b.ub) (li.actWithJ t j) →
      b.actWithJ t psi j i = li.actWithJ t j (fun s => psi (replace [0] s i)) (coords [0] i)) ∧
    (∀ li j, b.free1.li = some li → j < li.nAvr → Local (sliceBound [1] b.lb) (sliceBound [1] b.ub) (li.actWithJ t j) →
      b.actWithJ t psi (nAvr .li b.free0 + j) i = li.actWithJ t j (fun s => psi (replace [1] s i)) (coords [1] i)) ∧
    ((b.free1.li.isSome ∨ nAvr .li b.free0 = 0) → ∀ li j, b.ia.li = some li → j < li.nAvr →
      b.actWithJ t psi (nAvr .li b.free0 + nAvr .li b.free1 + j) = li.actWithJ t j psi) := by
  have hd := binary_dispatch b.free0 b.free1 b.ia
    (fun li i psi => Slice.forEachSlice 2 [0] b.lb b.ub (slices 2 [0] b.lb b.ub) (li.actWithJ t i) psi)
    (fun li i psi => Slice.forEachSlice 2 [1] b.lb b.ub (slices 2 [1] b.lb b.ub) (li.actWithJ t i) psi)
    (fun li i psi => li.actWithJ t i psi) psi hsz
  refine ⟨fun li j h hj hloc => ?_, fun li j h hj hloc => ?_, fun hc li j h hj => ?_⟩
  · unfold Bin.actWithJ
    rw [hd.1 li j h hj]
    exact (forEachSlice_slices ⟨valid0, hb, hl⟩ _ hloc psi i).1 hi
  · unfold Bin.actWithJ
    rw [hd.2.1 li j h hj]
    exact (forEachSlice_slices ⟨valid1, hb, hl⟩ _ hloc psi i).1 hi
  · unfold Bin.actWithJ
    rw [hd.2.2.1 hc li j h hj]

/-- **C27.** The superoperators of the two frees. -/
theorem bin_actWithSuperoperator (b : Bin) (hb : ValidBounds b.lb b.ub) (hl : b.lb.length = 2) (t : ℝ) (rho drhodt : Arr ℂ) (hsz : b.nAvr .li < 2 ^ 64) (i : Idx)
    (hi : InBox (b.lb ++ b.lb) (b.ub ++ b.ub) i) :
    (∀ li j, b.free0.li = some li → j < li.nAvr →
      (∀ u, Local (sliceBound [0, 2] (b.lb ++ b.lb)) (sliceBound [0, 2] (b.ub ++ b.ub)) (fun x => li.actWithSuperoperator t j x u)) →
      (∀ x, Local (sliceBound [0, 2] (b.lb ++ b.lb)) (sliceBound [0, 2] (b.ub ++ b.ub)) (li.actWithSuperoperator t j x)) →
      b.actWithSuperoperator t rho drhodt j i =
        li.actWithSuperoperator t j (fun s => rho (replace [0, 2] s i)) (fun s => drhodt (replace [0, 2] s i)) (coords [0, 2] i)) ∧
    (∀ li j, b.free1.li = some li → j < li.nAvr →
      (∀ u, Local (sliceBound [1, 3] (b.lb ++ b.lb)) (sliceBound [1, 3] (b.ub ++ b.ub)) (fun x => li.actWithSuperoperator t j x u)) →
      (∀ x, Local (sliceBound [1, 3] (b.lb ++ b.lb)) (sliceBound [1, 3] (b.ub ++ b.ub)) (li.actWithSuperoperator t j x)) →
      b.actWithSuperoperator t rho drhodt (nAvr .li b.free0 + j) i =
        li.actWithSuperoperator t j (fun s => rho (replace [1, 3] s i)) (fun s => drhodt (replace [1, 3] s i)) (coords [1, 3] i)) ∧
    ((b.free1.li.isSome ∨ nAvr .li b.free0 = 0) → ∀ li j, b.ia.li = some li → j < li.nAvr →
      b.actWithSuperoperator t rho drhodt (nAvr .li b.free0 + nAvr .li b.free1 + j) = li.actWithSuperoperator t j rho drhodt) := by
  have hd := binary_dispatch b.free0 b.free1 b.ia
    (fun li i drhodt => Slice.forEachSlice₂ 4 [0, 2] (b.lb ++ b.lb) (b.ub ++ b.ub) (slices 4 [0, 2] (b.lb ++ b.lb) (b.ub ++ b.ub)) (li.actWithSuperoperator t i) rho drhodt)
    (fun li i drhodt => Slice.forEachSlice₂ 4 [1, 3] (b.lb ++ b.lb) (b.ub ++ b.ub) (slices 4 [1, 3] (b.lb ++ b.lb) (b.ub ++ b.ub)) (li.actWithSuperoperator t i) rho drhodt)
    (fun li i drhodt => li.actWithSuperoperator t i rho drhodt) drhodt hsz
  have g0 : Geo 4 [0, 2] (b.lb ++ b.lb) (b.ub ++ b.ub) := geo_extend (r := 2) (V := [0]) ⟨valid0, hb, hl⟩
  have g1 : Geo 4 [1, 3] (b.lb ++ b.lb) (b.ub ++ b.ub) := geo_extend (r := 2) (V := [1]) ⟨valid1, hb, hl⟩
  refine ⟨fun li j h hj h1 h2 => ?_, fun li j h hj h1 h2 => ?_, fun hc li j h hj => ?_⟩
  · unfold Bin.actWithSuperoperator
    rw [hd.1 li j h hj]
    exact (forEachSlice₂_slices g0 _ h1 h2 rho drhodt i).1 hi
  · unfold Bin.actWithSuperoperator
    rw [hd.2.1 li j h hj]
    exact (forEachSlice₂_slices g1 _ h1 h2 rho drhodt i).1 hi
  · unfold Bin.actWithSuperoperator
    rw [hd.2.2.1 hc li j h hj]

/-! ## C28, C29: rates and averages -/

theorem foldl_add_sum {α : Type*} (f : α → ℕ) (L : List α) (a : ℕ) : L.foldl (fun res p => res + f p) a = a + (L.map f).sum := by
  induction L generalizing a with
  | nil => simp
  | cons p L ih => rw [List.foldl_cons, ih, List.map_cons, List.sum_cons, add_assoc]

/-- The number of columns of a composite is the sum of those of the components. -/
theorem comp_nAvr (c : Comp) (tag : Tag) : c.nAvrLA tag = (c.parts.map (nAvr tag)).sum := by
  rw [Comp.nAvrLA, foldl_add_sum, zero_add]

theorem concatenate_eq (sOs : List (List ℝ)) (out : List ℝ) (h : out.length = (sOs.map List.length).sum) : concatenate sOs out = sOs.flatten := by
  have key : ∀ (sOs : List (List ℝ)) (done out : List ℝ), out.length = (sOs.map List.length).sum →
      (sOs.foldl (fun (st : List ℝ × ℕ) t => (st.1.take st.2 ++ t ++ st.1.drop (st.2 + t.length), st.2 + t.length)) (done ++ out, done.length)).1 = done ++ sOs.flatten := by
    intro sOs
    induction sOs with
    | nil =>
      intro done out h
      have : out = [] := List.length_eq_zero_iff.1 (by simpa using h)
      simp [this]
    | cons t sOs ih =>
      intro done out h
      rw [List.map_cons, List.sum_cons] at h
      rw [List.foldl_cons, List.flatten_cons, ← List.append_assoc]
      have e : ((done ++ out).take done.length ++ t ++ (done ++ out).drop (done.length + t.length), done.length + t.length) = ((done ++ t) ++ out.drop t.length, (done ++ t).length) := by
        simp [List.drop_append]
      simp only
      rw [e]
      exact ih (done ++ t) (out.drop t.length) (by rw [List.length_drop]; omega)
  exact key sOs [] out h

theorem flatten_offset {α β : Type*} (f : α → List β) (L : List α) (k : ℕ) (a : α) (ha : L[k]? = some a) (j : ℕ) (hj : j < (f a).length) :
    (L.map f).flatten[offset (L.map fun x => (f x).length) k + j]? = (f a)[j]? := by
  induction L generalizing k with
  | nil => simp at ha
  | cons b L ih =>
    cases k with
    | zero =>
      simp only [List.getElem?_cons_zero, Option.some.injEq] at ha
      subst ha
      rw [offset_zero, zero_add, List.map_cons, List.flatten_cons, List.getElem?_append_left hj]
    | succ k =>
      rw [List.map_cons, List.map_cons, offset_succ, List.flatten_cons, add_assoc, List.getElem?_append_right (by omega), Nat.add_sub_cancel_left]
      exact ih k (by simpa using ha)

theorem foldl_zipWith_length {σ : Type*} (f : σ → List ℝ) (n : ℕ) (hf : ∀ d, (f d).length = n) (ds : List σ) (a : List ℝ) (ha : a.length = n) :
    (ds.foldl (fun res s => res + f s) a).length = n := by
  induction ds generalizing a with
  | nil => exact ha
  | cons d ds ih =>
    rw [List.foldl_cons]
    refine ih _ ?_
    show (List.zipWith (· + ·) a (f d)).length = n
    rw [List.length_zipWith, ha, hf d]; simp

theorem foldl_zipWith_getD {σ : Type*} (f : σ → List ℝ) (n : ℕ) (hf : ∀ d, (f d).length = n) (ds : List σ) (a : List ℝ) (ha : a.length = n) (j : ℕ) (hj : j < n) :
    (ds.foldl (fun res s => res + f s) a).getD j 0 = a.getD j 0 + (ds.map fun d => (f d).getD j 0).sum := by
  induction ds generalizing a with
  | nil => simp
  | cons d ds ih =>
    have hl : (a + f d).length = n := by
      show (List.zipWith (· + ·) a (f d)).length = n
      rw [List.length_zipWith, ha, hf d]; simp
    rw [List.foldl_cons, ih _ hl, List.map_cons, List.sum_cons, ← add_assoc]
    congr 1
    show (List.zipWith (· + ·) a (f d)).getD j 0 = _
    simp only [List.getD_eq_getElem?_getD]
    rw [List.getElem?_zipWith, List.getElem?_eq_getElem (by omega : j < a.length), List.getElem?_eq_getElem (by rw [hf d]; exact hj : j < (f d).length)]
    simp

/-- The contribution of a component to the averages: the sum of its averages over the slices. -/
noncomputable def partAverage (tag : Tag) (r : ℕ) (lb ub : Idx) (t : ℝ) (ldo : Ldo) (p : Part) : List ℝ :=
  (PTrace.partialTrace (slices r p.axes lb ub) (fun d => average tag p t (ldo.slice r p.axes d))).getD []

/-- The components give as many averages as they promise (an exception is thrown by the code otherwise). -/
def LengthOK (tag : Tag) (p : Part) : Prop := ∀ t m, (average tag p t m).length = nAvr tag p

theorem slices_spec {r : ℕ} {V : List ℕ} {lb ub : Idx} (g : Geo r V lb ub) :
    (slices r V lb ub).Nodup ∧ slices r V lb ub ≠ [] ∧ (slices r V lb ub).toFinset = boxFinset (filterOut r V lb) (filterOut r V ub) := by
  obtain ⟨ds, h1, h2, h3, h4⟩ := g.exists_ds
  rw [slices_eq g ds h1]
  exact ⟨h2, h3, h4⟩

theorem partAverage_length (tag : Tag) (r : ℕ) (lb ub : Idx) (t : ℝ) (ldo : Ldo) (p : Part) (g : Geo r p.axes lb ub) (h : LengthOK tag p) :
    (partAverage tag r lb ub t ldo p).length = nAvr tag p := by
  unfold partAverage PTrace.partialTrace
  have := (slices_spec g).2.1
  cases hs : slices r p.axes lb ub with
  | nil => exact absurd hs this
  | cons d ds => exact foldl_zipWith_length _ _ (fun d => h t _) ds _ (h t _)

/-- Every average is the sum of the averages in the slices. -/
theorem partAverage_getD (tag : Tag) (r : ℕ) (lb ub : Idx) (t : ℝ) (ldo : Ldo) (p : Part) (g : Geo r p.axes lb ub) (h : LengthOK tag p) (j : ℕ) (hj : j < nAvr tag p) :
    (partAverage tag r lb ub t ldo p).getD j 0 = ∑ d ∈ boxFinset (filterOut r p.axes lb) (filterOut r p.axes ub), (average tag p t (ldo.slice r p.axes d)).getD j 0 := by
  obtain ⟨h1, h2, h3⟩ := slices_spec g
  rw [← h3, List.sum_toFinset _ h1]
  unfold partAverage PTrace.partialTrace
  cases hs : slices r p.axes lb ub with
  | nil => exact absurd hs h2
  | cons d ds =>
    simp only [Option.getD_some]
    rw [foldl_zipWith_getD _ (nAvr tag p) (fun d => h t _) ds _ (h t _) j hj, List.map_cons, List.sum_cons]

/-- **C28, C29.** The rates/averages of a composite are the concatenation of those of the components; in particular column `offset k + j` is the `j`-th one of the component `k`. -/
theorem comp_average (c : Comp) (hc : c.Ok) (tag : Tag) (t : ℝ) (ldo : Ldo) (h : ∀ p ∈ c.parts, LengthOK tag p) :
    c.averageLA tag t ldo = (c.parts.map (partAverage tag c.r c.lb c.ub t ldo)).flatten ∧
    (∀ k p j, c.parts[k]? = some p → j < nAvr tag p →
      (c.averageLA tag t ldo)[offset (c.parts.map (nAvr tag)) k + j]? = (partAverage tag c.r c.lb c.ub t ldo p)[j]?) ∧
    (c.averageLA tag t ldo).length = c.nAvrLA tag := by
  have hlen : (c.parts.map (fun p => (partAverage tag c.r c.lb c.ub t ldo p).length)) = c.parts.map (nAvr tag) :=
    List.map_congr_left fun p hp => partAverage_length tag c.r c.lb c.ub t ldo p (hc.geo hp) (h p hp)
  have h1 : c.averageLA tag t ldo = (c.parts.map (partAverage tag c.r c.lb c.ub t ldo)).flatten := by
    unfold Comp.averageLA
    simp only
    rw [concatenate_eq]
    · rfl
    · rw [List.length_replicate, comp_nAvr, ← hlen, List.map_map]
      rfl
  refine ⟨h1, ?_, ?_⟩
  · intro k p j hk hj
    have hp : p ∈ c.parts := List.mem_of_getElem? hk
    rw [h1, ← hlen]
    exact flatten_offset _ c.parts k p hk j (by rw [partAverage_length tag c.r c.lb c.ub t ldo p (hc.geo hp) (h p hp)]; exact hj)
  · rw [h1, List.length_flatten, List.map_map, comp_nAvr, ← hlen]
    rfl

theorem slice_eq_mat {r : ℕ} {V : List ℕ} {lb ub : Idx} (g : Geo r V lb ub) (ldo : Ldo) (d s s' : Idx) (hs : s.length = V.length) :
    ldo.slice r V d s s' = ldo.mat (sliceAddr r V d s) (sliceAddr r V d s') := by
  cases ldo with
  | sv psi => rfl
  | dm rho =>
    show rho (diagSliceAddr r V d s s') = rho (sliceAddr r V d s ++ sliceAddr r V d s')
    rw [diagSliceAddr_eq r V d s s' g.hV hs]

/-- **C29.** If the `j`-th average of a component is the expectation value of the operator `A` of its own space, then its column in the composite is the expectation value of `A ⊗ 1` in
the state of the composite. -/
theorem comp_average_expectation (c : Comp) (hc : c.Ok) (tag : Tag) (t : ℝ) (ldo : Ldo) (h : ∀ p ∈ c.parts, LengthOK tag p) (k : ℕ) (p : Part) (j : ℕ) (hk : c.parts[k]? = some p)
    (hj : j < nAvr tag p) (A : Idx → Idx → ℂ)
    (hA : ∀ m, (average tag p t m).getD j 0 = (expect (sliceBound p.axes c.lb) (sliceBound p.axes c.ub) A m).re) :
    (c.averageLA tag t ldo)[offset (c.parts.map (nAvr tag)) k + j]? = some (expect c.lb c.ub (extend c.r p.axes A) ldo.mat).re := by
  have hp : p ∈ c.parts := List.mem_of_getElem? hk
  have g := hc.geo hp
  rw [(comp_average c hc tag t ldo h).2.1 k p j hk hj]
  have hl := partAverage_length tag c.r c.lb c.ub t ldo p g (h p hp)
  rw [List.getElem?_eq_getElem (by omega)]
  congr 1
  have e : (partAverage tag c.r c.lb c.ub t ldo p)[j] = (partAverage tag c.r c.lb c.ub t ldo p).getD j 0 := by
    rw [List.getD_eq_getElem?_getD, List.getElem?_eq_getElem (by omega)]; simp
  rw [e, partAverage_getD tag c.r c.lb c.ub t ldo p g (h p hp) j hj]
  simp only [hA]
  rw [← Complex.re_sum]
  congr 1
  -- the array with the given matrix
  obtain ⟨σ, hσ, hσ'⟩ := reduceDO_sum g ((boxSize c.lb c.ub).toNat + 1) (by push_cast; omega) (fun i => ldo.mat (i.take c.r) (i.drop c.r))
  have hre := reduce_expectation c.r p.axes c.lb c.ub g.hV g.hb g.hl ((boxSize c.lb c.ub).toNat + 1) (by push_cast; omega) _ σ hσ A
  have e2 : expect c.lb c.ub (extend c.r p.axes A) (fun i j => (fun i => ldo.mat (i.take c.r) (i.drop c.r)) (i ++ j)) = expect c.lb c.ub (extend c.r p.axes A) ldo.mat := by
    unfold expect
    refine Finset.sum_congr rfl fun i hi => Finset.sum_congr rfl fun j _ => ?_
    have hil := (g.split hi).2.2.2
    simp only
    rw [List.take_left' hil, List.drop_left' hil]
  rw [e2] at hre
  rw [← hre]
  unfold expect
  rw [Finset.sum_comm]
  refine Finset.sum_congr rfl fun s hs => ?_
  rw [Finset.sum_comm]
  refine Finset.sum_congr rfl fun s' hs' => ?_
  rw [hσ' s hs s', Finset.mul_sum]
  refine Finset.sum_congr rfl fun d hd => ?_
  have hil := (g.split (g.addr hd hs).1).2.2.2
  have hsl : s.length = p.axes.length := by rw [(g.mem_slice.1 hs).1]; simp [sliceBound]
  rw [slice_eq_mat g ldo d s s' hsl]
  rw [List.take_left' hil, List.drop_left' hil]

/-- **C27, C29.** The same for a binary system: the concatenation of the averages of free 0, free 1 and the interaction, which sees the whole state. -/
theorem bin_average (b : Bin) (hb : ValidBounds b.lb b.ub) (hl : b.lb.length = 2) (tag : Tag) (t : ℝ) (ldo : Ldo)
    (h0 : LengthOK tag b.free0) (h1 : LengthOK tag b.free1) (h01 : LengthOK tag b.ia) :
    b.average tag t ldo = partAverage tag 2 b.lb b.ub t ldo { b.free0 with axes := [0] } ++ partAverage tag 2 b.lb b.ub t ldo { b.free1 with axes := [1] } ++
      Composite.average tag b.ia t ldo.mat ∧
    (b.average tag t ldo).length = b.nAvr tag ∧
    (partAverage tag 2 b.lb b.ub t ldo { b.free0 with axes := [0] }).length = nAvr tag b.free0 ∧
    (partAverage tag 2 b.lb b.ub t ldo { b.free1 with axes := [1] }).length = nAvr tag b.free1 := by
  have hla : ∀ (p : Part) (V : List ℕ), getLA { p with axes := V } tag = getLA p tag := fun p V => by cases tag <;> rfl
  have hav : ∀ (p : Part) (V : List ℕ), Composite.average tag { p with axes := V } = Composite.average tag p := fun p V => by funext t m; unfold Composite.average; rw [hla]
  have hn : ∀ (p : Part) (V : List ℕ), nAvr tag { p with axes := V } = nAvr tag p := fun p V => by unfold nAvr; rw [hla]
  have l0 := partAverage_length tag 2 b.lb b.ub t ldo { b.free0 with axes := [0] } ⟨valid0, hb, hl⟩ (by intro t m; rw [hav, hn]; exact h0 t m)
  have l1 := partAverage_length tag 2 b.lb b.ub t ldo { b.free1 with axes := [1] } ⟨valid1, hb, hl⟩ (by intro t m; rw [hav, hn]; exact h1 t m)
  rw [hn] at l0 l1
  have e0 : partAverage tag 2 b.lb b.ub t ldo { b.free0 with axes := [0] } =
      (PTrace.partialTrace (slices 2 [0] b.lb b.ub) (fun d => Composite.average tag b.free0 t (ldo.slice 2 [0] d))).getD [] := by unfold partAverage; simp only [hav]
  have e1 : partAverage tag 2 b.lb b.ub t ldo { b.free1 with axes := [1] } =
      (PTrace.partialTrace (slices 2 [1] b.lb b.ub) (fun d => Composite.average tag b.free1 t (ldo.slice 2 [1] d))).getD [] := by unfold partAverage; simp only [hav]
  have h : b.average tag t ldo = partAverage tag 2 b.lb b.ub t ldo { b.free0 with axes := [0] } ++ partAverage tag 2 b.lb b.ub t ldo { b.free1 with axes := [1] } ++
      Composite.average tag b.ia t ldo.mat := by
    unfold Bin.average
    simp only
    rw [← e0, ← e1, concatenate_eq]
    · simp
    · simp only [List.length_replicate, List.map_cons, List.map_nil, List.sum_cons, List.sum_nil, l0, l1, h01 t ldo.mat, Bin.nAvr]
      omega
  refine ⟨h, ?_, l0, l1⟩
  rw [h, List.length_append, List.length_append, l0, l1, h01 t ldo.mat]
  rfl

/-! ## C30: keys -/

theorem entries_append (a b : List KeyItem) : entries (a ++ b) = entries a ++ entries b := List.filterMap_append

/-- **C30.** A `KeyPrinter` numbers its labels successively. -/
theorem keyPrinter_ok (title : String) (labels : List String) : KeyOK labels.length (keyPrinter title labels) labels := by
  refine ⟨rfl, fun i => ?_⟩
  have key : ∀ (labels : List String) (items : List KeyItem) (i : ℕ),
      entries (labels.foldl (fun st label => (st.1 ++ [KeyItem.entry st.2 label], st.2 + 1)) (items, i)).1 = entries items ++ labels.zipIdx i ∧
      (labels.foldl (fun st label => (st.1 ++ [KeyItem.entry st.2 label], st.2 + 1)) (items, i)).2 = i + labels.length := by
    intro labels
    induction labels with
    | nil => intro items i; simp
    | cons l labels ih =>
      intro items i
      rw [List.foldl_cons]
      obtain ⟨h1, h2⟩ := ih (items ++ [KeyItem.entry i l]) (i + 1)
      refine ⟨?_, by rw [h2, List.length_cons]; omega⟩
      rw [h1, entries_append, List.zipIdx_cons]
      simp [entries]
  obtain ⟨h1, h2⟩ := key labels [.title title] i
  exact ⟨by rw [keyPrinter, h1]; simp [entries], h2⟩

theorem streamKey_ok (tag : Tag) (p : Part) (labels : List String) (h : PartKeyOK tag p labels) (items : List KeyItem) (i : ℕ) :
    labels.length = nAvr tag p ∧ entries (streamKey tag (items, i) p).1 = entries items ++ labels.zipIdx i ∧ (streamKey tag (items, i) p).2 = i + nAvr tag p := by
  unfold PartKeyOK at h
  unfold streamKey nAvr
  cases hp : getLA p tag with
  | none => rw [hp] at h; simp only at h; simp [h]
  | some la =>
    rw [hp] at h
    simp only at h ⊢
    obtain ⟨h1, h2⟩ := h
    exact ⟨h1, by rw [entries_append, (h2 i).1], (h2 i).2⟩

/-- **C30.** The key of a composite consists of the labels of its components, in order, numbered successively from the given number without gap or overlap; there are as many as
averages, and the returned number is the next free one. -/
theorem comp_key (c : Comp) (tag : Tag) (labels : Part → List String) (h : ∀ p ∈ c.parts, PartKeyOK tag p (labels p)) :
    KeyOK (c.nAvrLA tag) (c.streamKeyLA tag) (c.parts.flatMap labels) := by
  have key : ∀ (parts : List Part), (∀ p ∈ parts, PartKeyOK tag p (labels p)) → ∀ (items : List KeyItem) (i : ℕ),
      (parts.flatMap labels).length = (parts.map (nAvr tag)).sum ∧
      entries (parts.foldl (streamKey tag) (items, i)).1 = entries items ++ (parts.flatMap labels).zipIdx i ∧
      (parts.foldl (streamKey tag) (items, i)).2 = i + (parts.map (nAvr tag)).sum := by
    intro parts
    induction parts with
    | nil => intro _ items i; simp
    | cons p parts ih =>
      intro h items i
      obtain ⟨h1, h2, h3⟩ := streamKey_ok tag p (labels p) (h p (by simp)) items i
      rw [List.foldl_cons, List.map_cons, List.sum_cons, List.flatMap_cons]
      obtain ⟨h4, h5, h6⟩ := ih (fun q hq => h q (by simp [hq])) (streamKey tag (items, i) p).1 (streamKey tag (items, i) p).2
      simp only [Prod.mk.eta] at h5 h6
      refine ⟨by rw [List.length_append, h1, h4], ?_, by rw [h6, h3, add_assoc]⟩
      rw [h5, h2, h3, List.zipIdx_append, h1, List.append_assoc]
  refine ⟨?_, fun i => ?_⟩
  · rw [comp_nAvr]; exact (key c.parts h [] 0).1
  · obtain ⟨-, h2, h3⟩ := key c.parts h [] i
    refine ⟨by rw [Comp.streamKeyLA, h2]; simp [entries], by rw [comp_nAvr]; exact h3⟩

/-- **C30**, for a binary system. -/
theorem bin_key (b : Bin) (tag : Tag) (l0 l1 l01 : List String) (h0 : PartKeyOK tag b.free0 l0) (h1 : PartKeyOK tag b.free1 l1) (h01 : PartKeyOK tag b.ia l01) :
    KeyOK (b.nAvr tag) (b.streamKey tag) (l0 ++ l1 ++ l01) := by
  refine ⟨?_, fun i => ?_⟩
  · rw [List.length_append, List.length_append, (streamKey_ok tag _ _ h0 [] 0).1, (streamKey_ok tag _ _ h1 [] 0).1, (streamKey_ok tag _ _ h01 [] 0).1]; rfl
  · obtain ⟨a1, a2, a3⟩ := streamKey_ok tag _ _ h0 [KeyItem.title "Binary system"] i
    obtain ⟨b1, b2, b3⟩ := streamKey_ok tag _ _ h1 (streamKey tag ([KeyItem.title "Binary system"], i) b.free0).1 (streamKey tag ([KeyItem.title "Binary system"], i) b.free0).2
    simp only [Prod.mk.eta] at b2 b3
    obtain ⟨c1, c2, c3⟩ := streamKey_ok tag _ _ h01 (streamKey tag (streamKey tag ([KeyItem.title "Binary system"], i) b.free0) b.free1).1
      (streamKey tag (streamKey tag ([KeyItem.title "Binary system"], i) b.free0) b.free1).2
    simp only [Prod.mk.eta] at c2 c3
    constructor
    · show entries (streamKey tag (streamKey tag (streamKey tag ([KeyItem.title "Binary system"], i) b.free0) b.free1) b.ia).1 = _
      rw [c2, b2, a2, b3, a3, List.zipIdx_append, List.zipIdx_append, a1, List.length_append, a1, b1]
      simp [entries, add_assoc]
    · show (streamKey tag (streamKey tag (streamKey tag ([KeyItem.title "Binary system"], i) b.free0) b.free1) b.ia).2 = _
      rw [c3, b3, a3, Bin.nAvr]; omega

/-! ## C29: processing and streaming of the averages -/

theorem readRange_block (pre block post : List ℝ) (n : ℕ) (hn : block.length = n) :
    readRange (pre ++ block ++ post) ((pre.length : Int) - 1 + 1) ((pre.length : Int) - 1 + n) = block := by
  unfold readRange
  have h1 : ((pre.length : Int) - 1 + 1).toNat = pre.length := by omega
  have h2 : ((pre.length : Int) - 1 + n + 1 - ((pre.length : Int) - 1 + 1)).toNat = n := by omega
  rw [h1, h2, List.append_assoc, List.drop_left, ← hn, List.take_left]

theorem writeRange_block (pre block post new : List ℝ) (n : ℕ) (hn : block.length = n) :
    writeRange (pre ++ block ++ post) ((pre.length : Int) - 1 + 1) ((pre.length : Int) - 1 + n) new = pre ++ new ++ post := by
  unfold writeRange
  have h1 : ((pre.length : Int) - 1 + 1).toNat = pre.length := by omega
  have h2 : ((pre.length : Int) - 1 + n + 1).toNat = pre.length + n := by omega
  rw [h1, h2, List.append_assoc pre block post, List.take_left, ← List.append_assoc pre block post, ← hn, ← List.length_append, List.drop_left]

theorem nAvr_of_av {p : Part} {av : Av} (h : p.av = some av) : nAvr .av p = av.nAvr := by simp [nAvr, getLA, h]
theorem nAvr_of_av_none {p : Part} (h : p.av = none) : nAvr .av p = 0 := by simp [nAvr, getLA, h]

theorem processLambda_block (p : Part) (pre block post : List ℝ) (hn : block.length = nAvr .av p) :
    processLambda ((pre.length : Int) - 1, pre ++ block ++ post) p = (((pre.length + block.length : ℕ) : Int) - 1, pre ++ processBlock p block ++ post) := by
  unfold processLambda processBlock
  cases hp : p.av with
  | none =>
    rw [nAvr_of_av_none hp] at hn
    simp only [Prod.mk.injEq, and_true]
    omega
  | some av =>
    rw [nAvr_of_av hp] at hn
    simp only
    by_cases h0 : av.nAvr = 0
    · rw [if_neg (by omega), if_pos h0]
      simp only [Prod.mk.injEq, and_true]
      omega
    · rw [if_pos (by omega), if_neg h0, readRange_block pre block post _ hn, writeRange_block pre block post _ _ hn]
      simp only [Prod.mk.injEq, and_true]
      omega

theorem streamLambda_block (p : Part) (pre block post : List ℝ) (out : List String) (hn : block.length = nAvr .av p) :
    streamLambda (pre ++ block ++ post) ((pre.length : Int) - 1, out) p = (((pre.length + block.length : ℕ) : Int) - 1, out ++ streamBlock p block) := by
  unfold streamLambda streamBlock
  cases hp : p.av with
  | none =>
    rw [nAvr_of_av_none hp] at hn
    simp only [Prod.mk.injEq, List.append_nil, and_true]
    omega
  | some av =>
    rw [nAvr_of_av hp] at hn
    simp only
    by_cases h0 : av.nAvr = 0
    · rw [if_neg (by omega), if_pos h0]
      simp only [Prod.mk.injEq, List.append_nil, and_true]
      omega
    · rw [if_pos (by omega), if_neg h0, readRange_block pre block post _ hn]
      simp only [Prod.mk.injEq, and_true]
      omega

/-- **C29.** `process` and `stream` of a composite hand every component exactly its own block of the averages. -/
theorem comp_process_stream (c : Comp) (L : List (Part × List ℝ)) (hL : L.map Prod.fst = c.parts) (hlen : ∀ x ∈ L, x.2.length = nAvr .av x.1)
    (hproc : ∀ x ∈ L, (processBlock x.1 x.2).length = x.2.length) :
    c.process (L.flatMap Prod.snd) = L.flatMap (fun x => processBlock x.1 x.2) ∧ c.stream (L.flatMap Prod.snd) = L.flatMap (fun x => streamBlock x.1 x.2) := by
  constructor
  · unfold Comp.process
    rw [← hL]
    have key : ∀ (L : List (Part × List ℝ)), (∀ x ∈ L, x.2.length = nAvr .av x.1) → (∀ x ∈ L, (processBlock x.1 x.2).length = x.2.length) → ∀ pre : List ℝ,
        ((L.map Prod.fst).foldl processLambda ((pre.length : Int) - 1, pre ++ L.flatMap Prod.snd)).2 = pre ++ L.flatMap (fun x => processBlock x.1 x.2) := by
      intro L
      induction L with
      | nil => intro _ _ pre; rfl
      | cons x L ih =>
        intro h1 h2 pre
        rw [List.map_cons, List.foldl_cons, List.flatMap_cons, ← List.append_assoc, processLambda_block x.1 pre x.2 _ (h1 x (by simp)), List.flatMap_cons, ← List.append_assoc]
        have hl : pre.length + x.2.length = (pre ++ processBlock x.1 x.2).length := by rw [List.length_append, h2 x (by simp)]
        rw [hl]
        exact ih (fun y hy => h1 y (by simp [hy])) (fun y hy => h2 y (by simp [hy])) _
    exact key L hlen hproc []
  · unfold Comp.stream
    rw [← hL]
    have key : ∀ (L : List (Part × List ℝ)), (∀ x ∈ L, x.2.length = nAvr .av x.1) → ∀ (pre : List ℝ) (out : List String),
        ((L.map Prod.fst).foldl (streamLambda (pre ++ L.flatMap Prod.snd)) ((pre.length : Int) - 1, out)).2 = out ++ L.flatMap (fun x => streamBlock x.1 x.2) := by
      intro L
      induction L with
      | nil => intro _ pre out; simp
      | cons x L ih =>
        intro h1 pre out
        rw [List.map_cons, List.foldl_cons, List.flatMap_cons, ← List.append_assoc, streamLambda_block x.1 pre x.2 _ out (h1 x (by simp)), List.flatMap_cons, ← List.append_assoc]
        rw [← List.length_append]
        exact ih (fun y hy => h1 y (by simp [hy])) _ _
    exact key L hlen [] []

/-- **C29**, for a binary system. -/
theorem bin_process_stream (b : Bin) (x0 x1 x01 : List ℝ) (h0 : x0.length = nAvr .av b.free0) (h1 : x1.length = nAvr .av b.free1) (h01 : x01.length = nAvr .av b.ia)
    (p0 : (processBlock b.free0 x0).length = x0.length) (p1 : (processBlock b.free1 x1).length = x1.length) :
    b.process (x0 ++ x1 ++ x01) = processBlock b.free0 x0 ++ processBlock b.free1 x1 ++ processBlock b.ia x01 ∧
    b.stream (x0 ++ x1 ++ x01) = streamBlock b.free0 x0 ++ streamBlock b.free1 x1 ++ streamBlock b.ia x01 := by
  have one : ∀ (p : Part) (pre block post : List ℝ), block.length = nAvr .av p →
      (if (pre.length : Int) - 1 + nAvr .av p > (pre.length : Int) - 1 then
        processRange p (pre ++ block ++ post) ((pre.length : Int) - 1 + 1) ((pre.length : Int) - 1 + nAvr .av p) else pre ++ block ++ post) = pre ++ processBlock p block ++ post := by
    intro p pre block post hb
    unfold processBlock processRange
    cases hp : p.av with
    | none => simp
    | some av =>
      rw [nAvr_of_av hp] at hb ⊢
      simp only
      by_cases hz : av.nAvr = 0
      · rw [if_neg (by omega), if_pos hz]
      · rw [if_pos (by omega), if_neg hz, readRange_block pre block post _ hb, writeRange_block pre block post _ _ hb]
  have two : ∀ (p : Part) (pre block post : List ℝ), block.length = nAvr .av p →
      (if (pre.length : Int) - 1 + nAvr .av p > (pre.length : Int) - 1 then
        streamRange p (pre ++ block ++ post) ((pre.length : Int) - 1 + 1) ((pre.length : Int) - 1 + nAvr .av p) else []) = streamBlock p block := by
    intro p pre block post hb
    unfold streamBlock streamRange
    cases hp : p.av with
    | none => simp
    | some av =>
      rw [nAvr_of_av hp] at hb ⊢
      simp only
      by_cases hz : av.nAvr = 0
      · rw [if_neg (by omega), if_pos hz]
      · rw [if_pos (by omega), if_neg hz, readRange_block pre block post _ hb]
  constructor
  · have a0 := one b.free0 [] x0 (x1 ++ x01) h0
    have a1 := one b.free1 (processBlock b.free0 x0) x1 x01 h1
    have a2 := one b.ia (processBlock b.free0 x0 ++ processBlock b.free1 x1) x01 [] h01
    simp only [List.nil_append, List.append_nil, List.length_nil, Nat.cast_zero, zero_sub, List.length_append, p0, p1, h0, h1, Nat.cast_add] at a0 a1 a2
    unfold Bin.process
    simp only
    rw [List.append_assoc x0 x1 x01, a0]
    have e1 : (-1 : Int) + (nAvr .av b.free0 : ℕ) = ((nAvr .av b.free0 : ℕ) : Int) - 1 := by omega
    rw [e1, ← List.append_assoc, a1]
    have e2 : ((nAvr .av b.free0 : ℕ) : Int) - 1 + (nAvr .av b.free1 : ℕ) = ((nAvr .av b.free0 : ℕ) : Int) + (nAvr .av b.free1 : ℕ) - 1 := by omega
    rw [e2, a2]
  · have a0 := two b.free0 [] x0 (x1 ++ x01) h0
    have a1 := two b.free1 x0 x1 x01 h1
    have a2 := two b.ia (x0 ++ x1) x01 [] h01
    simp only [List.nil_append, List.append_nil, List.length_nil, Nat.cast_zero, zero_sub, List.length_append, h0, h1, Nat.cast_add] at a0 a1 a2
    unfold Bin.stream
    simp only
    rw [← List.append_assoc] at a0
    have e1 : (-1 : Int) + (nAvr .av b.free0 : ℕ) = ((nAvr .av b.free0 : ℕ) : Int) - 1 := by omega
    have e2 : ((nAvr .av b.free0 : ℕ) : Int) - 1 + (nAvr .av b.free1 : ℕ) = ((nAvr .av b.free0 : ℕ) : Int) + (nAvr .av b.free1 : ℕ) - 1 := by omega
    rw [a0, e1, a1, e2, a2]

end CppQED.Composite
