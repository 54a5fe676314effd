import Verif.Props.CompositeDynamics
import Verif.Spec.CompositePicture
import Mathlib.Analysis.Calculus.Deriv.Mul
import Mathlib.Analysis.SpecialFunctions.ExpDeriv

/-!
# C76: composite systems simulate the sum of the Hamiltonians of their components, whatever the pictures of the free subsystems
-/

namespace CppQED.Composite
open CppQED.MII (Idx)
open CppQED.Slice CppQED.Spec CppQED.PTrace

theorem phaseOf_coords (w : ℕ → ℤ → ℂ) (V : List ℕ) (i : Idx) : phaseOf w V (coords V i) = (V.map fun a => w a (i.getD a 0)).sum := by
  unfold phaseOf coords
  congr 1
  induction V with
  | nil => rfl
  | cons a V ih => simp only [List.map_cons, List.zipWith_cons_cons, ih]

theorem phaseOf_range (w : ℕ → ℤ → ℂ) (i : Idx) : phaseOf w (List.range i.length) i = ∑ a ∈ Finset.range i.length, w a (i.getD a 0) := by
  have h : coords (List.range i.length) i = i := by
    unfold coords
    apply List.ext_getElem
    · simp
    · intro n h1 h2; simp [List.getD_eq_getElem?_getD, h2]
  have := phaseOf_coords w (List.range i.length) i
  rw [h] at this
  rw [this, Finset.sum_range, ← List.sum_ofFn]
  congr 1
  apply List.ext_getElem
  · simp
  · intro n h1 h2; simp only [List.getElem_map, List.getElem_range, List.getElem_ofFn]

theorem map_mapIdx_ofFn {α β γ : Type} (f : ℕ → α → β) (g : β → γ) (l : List α) : (l.mapIdx f).map g = List.ofFn fun a : Fin l.length => g (f a l[a]) := by
  apply List.ext_getElem
  · simp
  · intro n h1 h2; simp

/-- The frequencies of the axes an operator does not act on do not matter. -/
theorem phase_split (w : ℕ → ℤ → ℂ) {r : ℕ} {V : List ℕ} (hV : ValidAxes r V) {i j : Idx} (h : AgreeOff r V i j) :
    (∑ a ∈ Finset.range r, w a (i.getD a 0)) - phaseOf w V (coords V i) = (∑ a ∈ Finset.range r, w a (j.getD a 0)) - phaseOf w V (coords V j) := by
  have e : ∀ i : Idx, (∑ a ∈ Finset.range r, w a (i.getD a 0)) - phaseOf w V (coords V i) = ∑ a ∈ (Finset.range r).filter (· ∉ V), w a (i.getD a 0) := by
    intro i
    rw [phaseOf_coords, ← List.sum_toFinset _ hV.2.1, sub_eq_iff_eq_add, ← Finset.sum_filter_add_sum_filter_not (Finset.range r) (· ∉ V)]
    congr 1
    refine Finset.sum_congr ?_ fun _ _ => rfl
    ext a
    simp only [Finset.mem_filter, Finset.mem_range, not_not, List.mem_toFinset]
    exact ⟨fun h => h.2, fun h => ⟨hV.2.2 a h, h⟩⟩
  rw [e, e]
  refine Finset.sum_congr rfl fun a ha => ?_
  rw [Finset.mem_filter, Finset.mem_range] at ha
  rw [h a ha.1 ha.2]

/-- The extension of an operator in the interaction picture. -/
theorem extend_picture (w : ℕ → ℤ → ℂ) {r : ℕ} {V : List ℕ} (hV : ValidAxes r V) (A : Idx → Idx → ℂ) (τ : ℝ) (i j : Idx) :
    extend r V (inPicture w V A τ) i j * Complex.exp (-((∑ a ∈ Finset.range r, w a (i.getD a 0)) * τ)) = extend r V A i j * Complex.exp (-((∑ a ∈ Finset.range r, w a (j.getD a 0)) * τ)) := by
  unfold extend
  by_cases h : AgreeOff r V i j
  · rw [if_pos h, if_pos h]
    have := phase_split w hV h
    unfold inPicture
    have e : Complex.exp (phaseOf w V (coords V i) * τ) * Complex.exp (-(phaseOf w V (coords V j) * τ)) * Complex.exp (-((∑ a ∈ Finset.range r, w a (i.getD a 0)) * τ)) =
        Complex.exp (-((∑ a ∈ Finset.range r, w a (j.getD a 0)) * τ)) := by
      rw [← Complex.exp_add, ← Complex.exp_add]
      congr 1
      linear_combination (-(τ : ℂ)) * this
    rw [← e]; ring
  · rw [if_neg h, if_neg h]; simp

theorem picture_hasDerivAt (Φ : ℂ) (t0 t : ℝ) (f : ℝ → ℂ) (f' : ℂ) (hf : HasDerivAt f f' t) :
    HasDerivAt (fun s : ℝ => f s * Complex.exp (-(Φ * (s - t0 : ℝ)))) (f' * Complex.exp (-(Φ * (t - t0 : ℝ))) - Φ * (f t * Complex.exp (-(Φ * (t - t0 : ℝ))))) t := by
  have h1 : HasDerivAt (fun s : ℝ => ((s - t0 : ℝ) : ℂ)) 1 t := by
    have := ((hasDerivAt_id t).sub_const t0).ofReal_comp
    simpa using this
  have h2 : HasDerivAt (fun s : ℝ => Complex.exp (-(Φ * (s - t0 : ℝ)))) (Complex.exp (-(Φ * (t - t0 : ℝ))) * (-(Φ * 1))) t := ((h1.const_mul Φ).neg).cexp
  have := hf.mul h2
  refine this.congr_deriv ?_
  ring

/-- The matrix of the whole Hamiltonian (divided by `i`): the sum of those of the components, and the free evolution of the axes. -/
noncomputable def Comp.hamiltonian (c : Comp) (w : ℕ → ℤ → ℂ) (V : Part → Idx → Idx → ℂ) (i j : Idx) : ℂ :=
  (c.parts.map fun p => extend c.r p.axes (V p) i j).sum - if i = j then ∑ a ∈ Finset.range c.r, w a (i.getD a 0) else 0

theorem comp_propagator (c : Comp) (hc : c.Ok) (hr : c.frees.length = c.r) (w : ℕ → ℤ → ℂ) (t t0 : ℝ)
    (hE : ∀ idx p, c.frees[idx]? = some p → ExOK c.lb c.ub t t0 { p with axes := [idx] } (fun s => Complex.exp (-(w idx (s.getD 0 0) * (t - t0 : ℝ)))))
    (hA : ∀ p ∈ c.acts, p.ex = none) (psi : Arr ℂ) (i : Idx) (hi : InBox c.lb c.ub i) :
    c.actWithU t t0 psi i = psi i * Complex.exp (-((∑ a ∈ Finset.range c.r, w a (i.getD a 0)) * (t - t0 : ℝ))) := by
  let D : Part → Idx → ℂ := fun p s => if p.ex.isSome then Complex.exp (-(w (p.axes.getD 0 0) (s.getD 0 0) * (t - t0 : ℝ))) else 1
  have hfree : ∀ (idx : ℕ) (p : Part), c.frees[idx]? = some p → ({ p with axes := [idx] } : Part) ∈ c.parts := by
    intro idx p hp
    unfold Comp.parts
    rw [List.mem_append]
    left
    rw [List.mem_mapIdx]
    obtain ⟨h1, h2⟩ := List.getElem?_eq_some_iff.1 hp
    exact ⟨idx, h1, by rw [h2]⟩
  have hD : ∀ p ∈ c.parts, ExOK c.lb c.ub t t0 p (D p) := by
    intro p hp
    unfold Comp.parts at hp
    rw [List.mem_append, List.mem_mapIdx] at hp
    rcases hp with ⟨idx, h1, rfl⟩ | hp
    · have := hE idx _ (List.getElem?_eq_getElem h1)
      unfold ExOK at this ⊢
      simp only at this ⊢
      cases hx : c.frees[idx].ex with
      | none => simp only; intro s _; simp [D, hx]
      | some ex =>
        rw [hx] at this
        simp only at this ⊢
        intro psi s hs
        rw [this psi s hs]
        simp [D, hx]
    · unfold ExOK
      rw [hA p hp]
      simp only
      intro s _
      simp [D, hA p hp]
  rw [comp_actWithU c hc t t0 D hD psi i hi]
  congr 1
  have hacts : (c.acts.map fun p => D p (coords p.axes i)).prod = 1 := by
    apply List.prod_eq_one
    intro x hx
    obtain ⟨p, hp, rfl⟩ := List.mem_map.1 hx
    simp [D, hA p hp]
  unfold Comp.parts
  rw [List.map_append, List.prod_append, hacts, mul_one, map_mapIdx_ofFn, List.prod_ofFn, Finset.sum_mul, ← Finset.sum_neg_distrib, Complex.exp_sum, Finset.prod_range,
    ← Fin.prod_congr' _ hr]
  refine Finset.prod_congr rfl fun a _ => ?_
  have hex := hE a _ (List.getElem?_eq_getElem a.2)
  simp only [Function.comp_apply, D, List.getD_cons_zero, coords, List.map_cons, List.map_nil, Fin.val_cast]
  split_ifs with h
  · rfl
  · simp only [Bool.not_eq_true, Option.isSome_eq_false_iff, Option.isNone_iff_eq_none] at h
    unfold ExOK at hex
    simp only [Fin.getElem_fin] at h hex
    rw [h] at hex
    simp only at hex
    have g := hc.geo (hfree a _ (List.getElem?_eq_getElem a.2))
    have := hex _ (g.mem_slice.1 (g.split (g.mem_full.2 hi)).1)
    simpa [coords] using this.symm

/-- **C76.** If each free subsystem is in the interaction picture of its frequencies `w` (which vanish for subsystems in the Schrödinger picture), and the Hamiltonian part of each component is the
operator `V` in the picture of the subsystems it acts on, then the physical state vector of the composite follows the Schrödinger equation with the sum of all the `V`, each extended to the whole
space, and the free evolution of the subsystems. -/
theorem comp_schroedinger (c : Comp) (hc : c.Ok) (hr : c.frees.length = c.r) (w : ℕ → ℤ → ℂ) (V : Part → Idx → Idx → ℂ)
    (hE : ∀ t t0 idx p, c.frees[idx]? = some p → ExOK c.lb c.ub t t0 { p with axes := [idx] } (fun s => Complex.exp (-(w idx (s.getD 0 0) * (t - t0 : ℝ)))))
    (hA : ∀ p ∈ c.acts, p.ex = none)
    (hH : ∀ t t0, ∀ p ∈ c.parts, HaOK c.lb c.ub t t0 p (inPicture w p.axes (V p) (t - t0)))
    (t0 t : ℝ) (psi : ℝ → Arr ℂ) (hpsi : ∀ i, InBox c.lb c.ub i → HasDerivAt (fun s => psi s i) (c.addContribution t t0 (psi t) (fun _ => 0) i) t) (i : Idx) (hi : InBox c.lb c.ub i) :
    c.actWithU t0 t0 (psi t0) i = psi t0 i ∧
    HasDerivAt (fun s => c.actWithU s t0 (psi s) i) (matAction c.lb c.ub (c.hamiltonian w V) (c.actWithU t t0 (psi t)) i) t := by
  constructor
  · rw [comp_propagator c hc hr w t0 t0 (hE t0 t0) hA _ i hi]; simp
  · have hU : ∀ s (x : Arr ℂ) j, InBox c.lb c.ub j → c.actWithU s t0 x j = _ := fun s x j hj => comp_propagator c hc hr w s t0 (hE s t0) hA x j hj
    have hfun : (fun s => c.actWithU s t0 (psi s) i) = fun s : ℝ => psi s i * Complex.exp (-((∑ a ∈ Finset.range c.r, w a (i.getD a 0)) * (s - t0 : ℝ))) := by
      funext s; rw [hU _ _ _ hi]
    rw [hfun]
    have := picture_hasDerivAt (∑ a ∈ Finset.range c.r, w a (i.getD a 0)) t0 t _ _ (hpsi i hi)
    convert this using 1
    rw [comp_addContribution c hc t t0 _ (hH t t0) _ _ i hi, zero_add]
    unfold matAction Comp.hamiltonian
    have hmem : ∀ j, j ∈ boxFinset c.lb c.ub ↔ InBox c.lb c.ub j := fun j => mem_boxFinset c.lb c.ub j hc.bounds.2.1
    rw [Finset.sum_congr rfl fun j hj => by rw [hU t _ j ((hmem j).1 hj)]]
    simp only [sub_mul, Finset.sum_sub_distrib]
    congr 1
    · rw [Finset.sum_mul]
      refine Finset.sum_congr rfl fun j _ => ?_
      have e : (c.parts.map fun p => extend c.r p.axes (V p) i j).sum * Complex.exp (-((∑ a ∈ Finset.range c.r, w a (j.getD a 0)) * (t - t0 : ℝ))) =
          (c.parts.map fun p => extend c.r p.axes (inPicture w p.axes (V p) (t - t0)) i j).sum * Complex.exp (-((∑ a ∈ Finset.range c.r, w a (i.getD a 0)) * (t - t0 : ℝ))) := by
        rw [← List.sum_map_mul_right, ← List.sum_map_mul_right]
        congr 1
        refine List.map_congr_left fun p hp => ?_
        exact (extend_picture w (hc.axes p hp) (V p) (t - t0) i j).symm
      linear_combination (psi t j) * e
    · rw [Finset.sum_eq_single i]
      · rw [if_pos rfl]
      · intro b _ hb; rw [if_neg (Ne.symm hb), zero_mul]
      · intro h; exact absurd ((hmem i).2 hi) h

/-- The matrix of the whole Hamiltonian of a binary system. -/
noncomputable def binHamiltonian (w : ℕ → ℤ → ℂ) (V0 V1 V01 : Idx → Idx → ℂ) (i j : Idx) : ℂ :=
  extend 2 [0] V0 i j + extend 2 [1] V1 i j + V01 i j - if i = j then w 0 (i.getD 0 0) + w 1 (i.getD 1 0) else 0

/-- **C76**, for a binary system. -/
theorem bin_schroedinger (b : Bin) (hb : ValidBounds b.lb b.ub) (hl : b.lb.length = 2) (w : ℕ → ℤ → ℂ) (V0 V1 V01 : Idx → Idx → ℂ)
    (hE0 : ∀ t t0, ExOK b.lb b.ub t t0 { b.free0 with axes := [0] } (fun s => Complex.exp (-(w 0 (s.getD 0 0) * (t - t0 : ℝ)))))
    (hE1 : ∀ t t0, ExOK b.lb b.ub t t0 { b.free1 with axes := [1] } (fun s => Complex.exp (-(w 1 (s.getD 0 0) * (t - t0 : ℝ)))))
    (hA : b.ia.ex = none)
    (hH0 : ∀ t t0, HaOK b.lb b.ub t t0 { b.free0 with axes := [0] } (inPicture w [0] V0 (t - t0)))
    (hH1 : ∀ t t0, HaOK b.lb b.ub t t0 { b.free1 with axes := [1] } (inPicture w [1] V1 (t - t0)))
    (hH01 : ∀ t t0, match b.ia.ha with
      | none => ∀ s s', InBox b.lb b.ub s → InBox b.lb b.ub s' → V01 s s' = 0
      | some ha => ∀ psi dpsidt s, InBox b.lb b.ub s → ha t t0 psi dpsidt s = dpsidt s + matAction b.lb b.ub (inPicture w [0, 1] V01 (t - t0)) psi s)
    (t0 t : ℝ) (psi : ℝ → Arr ℂ) (hpsi : ∀ i, InBox b.lb b.ub i → HasDerivAt (fun s => psi s i) (b.addContribution t t0 (psi t) (fun _ => 0) i) t) (i : Idx) (hi : InBox b.lb b.ub i) :
    b.actWithU t0 t0 (psi t0) i = psi t0 i ∧
    HasDerivAt (fun s => b.actWithU s t0 (psi s) i) (matAction b.lb b.ub (binHamiltonian w V0 V1 V01) (b.actWithU t t0 (psi t)) i) t := by
  have hsum : ∀ i : Idx, ∑ a ∈ Finset.range 2, w a (i.getD a 0) = w 0 (i.getD 0 0) + w 1 (i.getD 1 0) := by intro i; simp [Finset.sum_range_succ]
  have hU : ∀ s (x : Arr ℂ) j, InBox b.lb b.ub j → b.actWithU s t0 x j = x j * Complex.exp (-((∑ a ∈ Finset.range 2, w a (j.getD a 0)) * (s - t0 : ℝ))) := by
    intro s x j hj
    rw [bin_actWithU b hb hl s t0 _ _ (fun _ => 1) (hE0 s t0) (hE1 s t0) (by rw [hA]; simp) x j hj, mul_one, ← Complex.exp_add, hsum]
    simp only [List.getD_cons_zero]
    ring_nf
  constructor
  · rw [hU t0 _ i hi]; simp
  · have hfun : (fun s => b.actWithU s t0 (psi s) i) = fun s : ℝ => psi s i * Complex.exp (-((∑ a ∈ Finset.range 2, w a (i.getD a 0)) * (s - t0 : ℝ))) := by
      funext s; rw [hU _ _ _ hi]
    rw [hfun]
    have := picture_hasDerivAt (∑ a ∈ Finset.range 2, w a (i.getD a 0)) t0 t _ _ (hpsi i hi)
    convert this using 1
    rw [bin_addContribution b hb hl t t0 _ _ (inPicture w [0, 1] V01 (t - t0)) (hH0 t t0) (hH1 t t0) (by
      have := hH01 t t0
      cases hia : b.ia.ha with
      | none =>
        rw [hia] at this
        simp only at this ⊢
        intro s s' hs hs'
        simp [inPicture, this s s' hs hs']
      | some ha => rw [hia] at this; exact this) _ _ i hi, zero_add]
    unfold matAction binHamiltonian
    have hmem : ∀ j, j ∈ boxFinset b.lb b.ub ↔ InBox b.lb b.ub j := fun j => mem_boxFinset b.lb b.ub j hb.2.1
    rw [Finset.sum_congr rfl fun j hj => by rw [hU t _ j ((hmem j).1 hj)]]
    have h01 : ∀ j, InBox b.lb b.ub j → inPicture w [0, 1] V01 (t - t0) i j * Complex.exp (-((∑ a ∈ Finset.range 2, w a (i.getD a 0)) * (t - t0 : ℝ))) =
        V01 i j * Complex.exp (-((∑ a ∈ Finset.range 2, w a (j.getD a 0)) * (t - t0 : ℝ))) := by
      intro j hj
      have hco : ∀ k, InBox b.lb b.ub k → phaseOf w [0, 1] k = ∑ a ∈ Finset.range 2, w a (k.getD a 0) := by
        intro k hk
        have hk2 : k.length = 2 := by rw [hk.1, hl]
        obtain ⟨x, y, rfl⟩ : ∃ x y, k = [x, y] := List.length_eq_two.1 hk2
        simp [phaseOf, Finset.sum_range_succ]
      unfold inPicture
      rw [hco i hi, hco j hj]
      have : Complex.exp ((∑ a ∈ Finset.range 2, w a (i.getD a 0)) * (t - t0 : ℝ)) * Complex.exp (-((∑ a ∈ Finset.range 2, w a (i.getD a 0)) * (t - t0 : ℝ))) = 1 := by
        rw [← Complex.exp_add]; simp
      linear_combination (V01 i j * Complex.exp (-((∑ a ∈ Finset.range 2, w a (j.getD a 0)) * (t - t0 : ℝ)))) * this
    simp only [sub_mul, Finset.sum_sub_distrib]
    congr 1
    · rw [Finset.sum_mul]
      refine Finset.sum_congr rfl fun j hj => ?_
      have e0 := extend_picture w (r := 2) valid0 V0 (t - t0) i j
      have e1 := extend_picture w (r := 2) valid1 V1 (t - t0) i j
      have e2 := h01 j ((hmem j).1 hj)
      linear_combination (-(psi t j)) * (e0 + e1 + e2)
    · rw [Finset.sum_eq_single i]
      · rw [if_pos rfl, hsum]
      · intro b _ hb; rw [if_neg (Ne.symm hb), zero_mul]
      · intro h; exact absurd ((hmem i).2 hi) h

end CppQED.Composite
