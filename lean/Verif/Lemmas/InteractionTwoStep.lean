import Verif.Lemmas.InteractionParticle

/-! # Hamiltonians applied in two steps -/

namespace CppQED.Interactions
open CppQED.Elem CppQED.Tridiag CppQED.ModeEl CppQED.Spec CppQED.Composite
open CppQED.MII (Idx)
open CppQED.Slice (Arr sliceBound)
open ComplexConjugate

/-- The product with an operator on an additional last index. -/
theorem product_last {ds : List ℕ} {d : ℕ} {ws : List (ℕ → ℂ)} {w : ℕ → ℂ} {T S : Tri} {E : NIdx → NIdx → ℂ} {B : Dens} {b : Bool} (hl : ws.length = ds.length)
    (h0 : Op ds (phases ws) T E) (h1 : Op [d] (phases [w]) S (lift B)) (g0 : Good b T (phases ws)) (g1 : Good b S (phases [w])) :
    ∃ P, product T S = .ok P ∧ Op (ds ++ [d]) (phases (ws ++ [w])) P (kron ds.length E (lift B)) ∧ Good b P (phases (ws ++ [w])) := by
  obtain ⟨P, p1, p2, -, p4, p5, -⟩ := h0.product h1 (by
    cases b with
    | true => exact Or.inl ⟨g0.1 rfl, g1.1 rfl⟩
    | false => exact Or.inr ⟨g0.2 rfl, g1.2 rfl⟩)
  have e : ∀ i ∈ natBox (ds ++ [d]), phases ws (i.take ds.length) + phases [w] (i.drop ds.length) = phases (ws ++ [w]) i := by
    intro i hi
    have := length_of_mem hi
    rw [List.length_append, List.length_singleton] at this
    conv_rhs => rw [← List.take_append_drop ds.length i]
    rw [phases_append]
    rw [List.length_take, hl]; omega
  have e' : ∀ i ∈ natBox (ds ++ [d]), ∀ j ∈ natBox (ds ++ [d]), phases ws (i.take ds.length) + phases [w] (i.drop ds.length) - (phases ws (j.take ds.length) + phases [w] (j.drop ds.length)) =
      phases (ws ++ [w]) i - phases (ws ++ [w]) j := fun i hi j hj => by rw [e i hi, e j hj]
  refine ⟨P, p1, p2.congrM e', fun hb => p4 ⟨g0.1 hb, g1.1 hb⟩, fun hb => ?_⟩
  exact (p5 ⟨g0.2 hb, g1.2 hb⟩).congr (by rw [p2.dims]; exact e')

/-- The matrix elements of an operator of the last of the subsystems times an operator of all of them. -/
noncomputable def lastMul (d : ℕ) (B : Dens) (E : NIdx → NIdx → ℂ) (i j : NIdx) : ℂ := ∑ n ∈ Finset.range d, B (i.getLastD 0) n * E (i.dropLast ++ [n]) j

theorem mem_append_last {ds : List ℕ} {d : ℕ} {i : NIdx} (hi : i ∈ natBox (ds ++ [d])) :
    i.dropLast ∈ natBox ds ∧ i.getLastD 0 < d ∧ i.dropLast ++ [i.getLastD 0] = i ∧ ∀ n < d, i.dropLast ++ [n] ∈ natBox (ds ++ [d]) := by
  rw [mem_natBox] at hi
  rcases List.eq_nil_or_concat i with rfl | ⟨l, x, rfl⟩
  · have := hi.length_eq; simp at this
  · rw [List.concat_eq_append] at hi ⊢
    have hl : l.length = ds.length := by have := hi.length_eq; simpa using this
    have h2 : List.Forall₂ (fun a b => a < b) l ds ∧ x < d := by
      have h := hi
      rw [List.forall₂_iff_get] at h ⊢
      obtain ⟨h1, h2⟩ := h
      refine ⟨⟨hl, fun k a b => ?_⟩, ?_⟩
      · have := h2 k (by simp; omega) (by simp; omega)
        simp only [List.get_eq_getElem] at this ⊢
        rwa [List.getElem_append_left, List.getElem_append_left] at this
      · have := h2 l.length (by simp) (by simp [hl])
        simp only [List.get_eq_getElem] at this
        rw [List.getElem_append_right (by omega), List.getElem_append_right (by omega)] at this
        simpa using this
    simp only [List.dropLast_concat]
    refine ⟨mem_natBox.2 h2.1, by simpa using h2.2, by simp, fun n hn => mem_natBox.2 (List.rel_append h2.1 (by simpa using hn))⟩

theorem applyLast_op {ds : List ℕ} {d : ℕ} {ws : List (ℕ → ℂ)} {w : ℕ → ℂ} {T S : Tri} {E : NIdx → NIdx → ℂ} {B : Dens} (hl : ws.length = ds.length)
    (hT : Op (ds ++ [d]) (phases (ws ++ [w])) T E) (hS : Op [d] (phases [w]) S (lift B)) (τ : ℝ) (psi f : NIdx → ℂ) (i : NIdx) (hi : i ∈ natBox (ds ++ [d])) :
    applyLast (propagate S τ) (Tridiag.apply (propagate T τ) psi fun _ => 0) f i =
      f i + ∑ j ∈ natBox (ds ++ [d]), Complex.exp (phases (ws ++ [w]) i * τ) * lastMul d B E i j * Complex.exp (-(phases (ws ++ [w]) j * τ)) * psi j := by
  obtain ⟨h1, h2, h3, h4⟩ := mem_append_last hi
  have hph : ∀ n, phases (ws ++ [w]) (i.dropLast ++ [n]) = phases ws i.dropLast + w n := by
    intro n
    rw [phases_append _ _ _ _ (by rw [hl, length_of_mem h1]), phases_one]
  unfold applyLast
  rw [hS.apply τ _ _ _ ((mem_natBox_one _ _).2 h2), h3, sum_natBox_one]
  congr 1
  have hi' : phases (ws ++ [w]) i = phases ws i.dropLast + w (i.getLastD 0) := by rw [← hph, h3]
  simp only [phases_one]
  have : ∀ n ∈ Finset.range d, Complex.exp (w (i.getLastD 0) * τ) * lift B [i.getLastD 0] [n] * Complex.exp (-(w n * τ)) * Tridiag.apply (propagate T τ) psi (fun _ => 0) (i.dropLast ++ [n]) =
      ∑ j ∈ natBox (ds ++ [d]), Complex.exp (phases (ws ++ [w]) i * τ) * (B (i.getLastD 0) n * E (i.dropLast ++ [n]) j) * Complex.exp (-(phases (ws ++ [w]) j * τ)) * psi j := by
    intro n hn
    rw [hT.apply τ _ _ _ (h4 n (Finset.mem_range.1 hn)), zero_add, Finset.mul_sum]
    refine Finset.sum_congr rfl fun j _ => ?_
    rw [hph, hi', add_mul, add_mul, Complex.exp_add, Complex.exp_add, Complex.exp_neg (w n * τ)]
    have := Complex.exp_ne_zero (w n * τ)
    simp only [lift, List.getD_cons_zero]
    field_simp
  rw [Finset.sum_congr rfl this, Finset.sum_comm]
  refine Finset.sum_congr rfl fun j _ => ?_
  unfold lastMul
  rw [Finset.mul_sum, Finset.sum_mul, Finset.sum_mul]

/-- The two-step Hamiltonians. -/
theorem couples_twoStep {ds : List ℕ} {d : ℕ} {ws : List (ℕ → ℂ)} {w : ℕ → ℂ} {Hs : List Tri} {Es : List (NIdx → NIdx → ℂ)} {F G S R : Tri} {E E' : NIdx → NIdx → ℂ} {B C : Dens}
    (hl : ws.length = ds.length) (h : List.Forall₂ (Op (ds ++ [d]) (phases (ws ++ [w]))) Hs Es) (hF : Op (ds ++ [d]) (phases (ws ++ [w])) F E) (hG : Op (ds ++ [d]) (phases (ws ++ [w])) G E')
    (hS : Op [d] (phases [w]) S (lift B)) (hR : Op [d] (phases [w]) R (lift C)) (b : Bool) (H : Idx → Idx → ℂ)
    (hH : ∀ i ∈ natBox (ds ++ [d]), ∀ j ∈ natBox (ds ++ [d]), H (up i) (up j) = (Es.map fun E => E i j).sum + if b then 0 else lastMul d B E i j + lastMul d C E' i j) (axes : List ℕ) :
    Couples (interaction axes (some (twoStepHam Hs b F G S R))) (ds ++ [d]) (ws ++ [w]) H := by
  refine ⟨rfl, fun t t0 => ?_⟩
  simp only [interaction]
  intro psi dpsidt s hs
  obtain ⟨h1, h2⟩ := (box_iff _ s).1 hs
  unfold twoStepHam
  cases b with
  | true =>
    simp only [if_true] at hH ⊢
    rw [foldl_ops h _ _ _ _ h1, h2]
    unfold matAction
    rw [sum_box]
    congr 1
    refine Finset.sum_congr rfl fun j hj => ?_
    unfold rotating
    have := hH _ h1 j hj
    rw [add_zero, h2] at this
    rw [← this, phaseSum_up, ← phaseSum_up, h2]
  | false =>
    simp only [Bool.false_eq_true, if_false] at hH ⊢
    rw [applyLast_op hl hG hR _ _ _ _ h1, applyLast_op hl hF hS _ _ _ _ h1, foldl_ops h _ _ _ _ h1, h2]
    unfold matAction
    rw [sum_box, add_assoc, add_assoc, ← Finset.sum_add_distrib, ← Finset.sum_add_distrib]
    congr 1
    refine Finset.sum_congr rfl fun j hj => ?_
    unfold rotating
    have := hH _ h1 j hj
    rw [h2] at this
    rw [this, phaseSum_up, ← phaseSum_up _ (down s), h2]
    ring

end CppQED.Interactions
