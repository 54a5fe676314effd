import Verif.Props.Interactions

/-!
# Operators of one or two of three constituents, as tensor products
-/

namespace CppQED.Interactions
open CppQED.Elem CppQED.Spec CppQED.Composite CppQED.PTrace
open CppQED.MII (Idx)

/-- An operator on the axes `V` of three, of which just `c` is missing. -/
theorem extend3_missing (V : List ℕ) (c : ℕ) (hc : c < 3) (hV : ∀ a < 3, a ∉ V ↔ a = c) (X : Idx → Idx → ℂ) {i j : Idx} (h0 : ∀ a < 3, 0 ≤ i.getD a 0 ∧ 0 ≤ j.getD a 0) :
    extend 3 V X i j = X (coords V i) (coords V j) * one (q i c) (q j c) := by
  have hA : AgreeOff 3 V i j ↔ q i c = q j c := by
    have h := h0 c hc
    constructor
    · intro h; unfold q; rw [h c hc ((hV c hc).2 rfl)]
    · intro h' a ha ha'
      have : a = c := (hV a ha).1 ha'
      subst this
      unfold q at h'
      omega
  unfold extend one
  simp only [hA]
  split_ifs <;> simp

/-- An operator on a single axis of three. -/
theorem extend3_single (a c c' : ℕ) (hc : c < 3) (hc' : c' < 3) (hV : ∀ x < 3, x ≠ a ↔ x = c ∨ x = c') (H : Dens) {i j : Idx} (h0 : ∀ a < 3, 0 ≤ i.getD a 0 ∧ 0 ≤ j.getD a 0) :
    extend 3 [a] (single H) i j = H (q i a) (q j a) * one (q i c) (q j c) * one (q i c') (q j c') := by
  have hs : single H (coords [a] i) (coords [a] j) = H (q i a) (q j a) := rfl
  have hA : AgreeOff 3 [a] i j ↔ q i c = q j c ∧ q i c' = q j c' := by
    have h1 := h0 c hc
    have h2 := h0 c' hc'
    constructor
    · intro h
      unfold q
      rw [h c hc (by simpa using (hV c hc).2 (Or.inl rfl)), h c' hc' (by simpa using (hV c' hc').2 (Or.inr rfl))]
      exact ⟨rfl, rfl⟩
    · intro h' x hx hx'
      unfold q at h'
      rcases (hV x hx).1 (by simpa using hx') with e | e
      · subst e; omega
      · subst e; omega
  unfold extend one
  simp only [hA, hs]
  by_cases h1 : q i c = q j c <;> by_cases h2 : q i c' = q j c' <;> simp [h1, h2]

/-- The system of three constituents: the sum written with tensor products. -/
theorem composite_simulates3 (e0 e1 e2 : Element) (acts : List Part) (d0 : 0 < e0.dim) (d1 : 0 < e1.dim) (d2 : 0 < e2.dim) (w : ℕ → ℕ → ℂ) {H0 H1 H2 : Dens} {J0 J1 J2 : List Dens}
    (f0 : FreeIs e0 (w 0) H0 J0) (f1 : FreeIs e1 (w 1) H1 J1) (f2 : FreeIs e2 (w 2) H2 J2) (V : Part → Idx → Idx → ℂ)
    (hI : ∀ ia ∈ acts, ValidAxes 3 ia.axes ∧ 2 ≤ ia.axes.length ∧ Couples ia (ia.axes.map fun a => [e0.dim, e1.dim, e2.dim].getD a 0) (ia.axes.map w) (V ia))
    (H : Idx → Idx → ℂ) (hH : ∀ i j, i.length = 3 → j.length = 3 → (∀ a < 3, 0 ≤ i.getD a 0 ∧ 0 ≤ j.getD a 0) →
      tensor3 H0 one one i j + tensor3 one H1 one i j + tensor3 one one H2 i j + (acts.map fun ia => extend 3 ia.axes (V ia) i j).sum = H i j) :
    CompSimulates (composite [e0, e1, e2] acts) H := by
  have hs := composite_simulates [e0, e1, e2] acts (by simp) (by simp [d0, d1, d2]) w (fun k => match k with | 0 => H0 | 1 => H1 | _ => H2) V
    (fun k e h => by
      rcases k with - | - | - | k
      · simp at h; subst h; exact ⟨_, f0⟩
      · simp at h; subst h; exact ⟨_, f1⟩
      · simp at h; subst h; exact ⟨_, f2⟩
      · simp at h)
    hI
  intro t0 t psi hpsi i hi
  obtain ⟨k1, k2⟩ := hs t0 t psi hpsi i hi
  refine ⟨k1, k2.congr_deriv ?_⟩
  refine matAction_congr (by simp [composite]) (fun j hj => ?_) _
  have hi' : i.length = 3 := by simpa [composite] using hi.1
  have hj' : j.length = 3 := by simpa [composite] using hj.1
  have hp : ∀ a < 3, 0 ≤ i.getD a 0 ∧ 0 ≤ j.getD a 0 := by
    intro a ha
    have e : ([e0, e1, e2].map fun _ => (0 : ℤ)).getD a 0 = 0 := by rcases a with - | - | - | a <;> simp
    have x := hi.2 a (by simpa [composite] using ha)
    have y := hj.2 a (by simpa [composite] using ha)
    simp only [composite] at x y
    rw [e] at x y
    exact ⟨x.1, y.1⟩
  rw [← hH i j hi' hj' hp]
  simp only [List.length_cons, List.length_nil, Nat.zero_add, Nat.reduceAdd, Finset.sum_range_succ, Finset.sum_range_zero, zero_add]
  rw [extend3_single 0 1 2 (by norm_num) (by norm_num) (by omega) _ hp, extend3_single 1 0 2 (by norm_num) (by norm_num) (by omega) _ hp, extend3_single 2 0 1 (by norm_num) (by norm_num) (by omega) _ hp]
  unfold tensor3
  ring

end CppQED.Interactions
