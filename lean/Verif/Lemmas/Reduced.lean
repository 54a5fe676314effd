import Verif.Spec.Reduced
import Verif.Lemmas.ExtendAlgebra

/-! # Helper lemmas: the partial trace and the Master equation -/

namespace CppQED.Composite
open CppQED.MII (Idx)
open CppQED.Slice CppQED.Spec CppQED.PTrace
open ComplexConjugate Matrix

variable {r : ℕ} {V W : List ℕ} {lb ub : Idx} {n n' : ℕ}

open Classical in
/-- Operators of disjoint sets of subsystems: the product. -/
theorem extend_mul_disjoint (g : Geo r V lb ub) (e : Enum lb ub n) (hd : ∀ a ∈ V, a ∉ W) (A B : Idx → Idx → ℂ) (k l : Fin n) :
    (boxMat e (extend r V A) * boxMat e (extend r W B)) k l =
      if AgreeOff r (V ++ W) (e k : Idx) (e l) then A (coords V (e k)) (coords V (e l)) * B (coords W (e k)) (coords W (e l)) else 0 := by
  have hi := enum_box g.hb.2.1 e k
  have hlen : (e k : Idx).length = r := by rw [hi.1, g.hl]
  rw [Matrix.mul_apply]
  simp only [boxMat, Matrix.of_apply]
  rw [← sum_enum e fun u => extend r V A (e k) u * extend r W B u (e l)]
  have h := (extension_eq g A (fun u => extend r W B u (e l)) (e k) hi).symm
  unfold matAction at h
  rw [h]
  have hl := (g.split (e l).2).1
  have hcW : ∀ s, coords W (replace V s (e k)) = coords W (e k) := by
    intro s
    unfold coords
    refine List.map_congr_left fun a ha => ?_
    by_cases hlt : a < r
    · rw [replace_getD _ _ _ _ (by omega), if_neg fun h => hd a h ha]
    · simp [replace, List.getD_eq_getElem?_getD, List.getElem?_eq_none (show (e k : Idx).length ≤ a by omega)]
  have hag : ∀ s ∈ boxFinset (sliceBound V lb) (sliceBound V ub), AgreeOff r W (replace V s (e k)) (e l) ↔ s = coords V (e l) ∧ AgreeOff r (V ++ W) (e k : Idx) (e l) := by
    intro s hs
    have hsl : s.length = V.length := by rw [(g.mem_slice.1 hs).1]; simp [sliceBound]
    constructor
    · intro h
      constructor
      · apply List.ext_getElem
        · simp [coords, hsl]
        · intro m h1 h2
          have hm : m < V.length := by omega
          have hV := g.hV.2.2 V[m] (List.getElem_mem hm)
          have := h V[m] hV (hd _ (List.getElem_mem hm))
          rw [replace_getD _ _ _ _ (by omega), if_pos (List.getElem_mem hm), g.hV.2.1.idxOf_getElem] at this
          simp only [coords, List.getElem_map]
          rw [← this, List.getD_eq_getElem?_getD, List.getElem?_eq_getElem h1]
          rfl
      · intro a ha hn
        rw [List.mem_append, not_or] at hn
        have := h a ha hn.2
        rwa [replace_getD _ _ _ _ (by omega), if_neg hn.1] at this
    · rintro ⟨rfl, h⟩ a ha hn
      rw [replace_getD _ _ _ _ (by omega)]
      split_ifs with hV
      · have hx := List.idxOf_lt_length_of_mem hV
        simp [coords, List.getD_eq_getElem?_getD, hx]
      · exact h a ha (by simp [hV, hn])
  rw [Finset.sum_eq_single_of_mem _ hl]
  · simp only [extend]
    rw [hcW]
    simp only [hag _ hl, true_and]
    split_ifs <;> simp
  · intro s hs hne
    simp only [extend]
    rw [if_neg fun h => hne ((hag s hs).1 h).1, mul_zero]

theorem agreeOff_append_comm (i j : Idx) : AgreeOff r (V ++ W) i j ↔ AgreeOff r (W ++ V) i j := by
  unfold AgreeOff
  simp only [List.mem_append, or_comm]

/-- Operators of disjoint sets of subsystems commute. -/
theorem extend_commute (gV : Geo r V lb ub) (gW : Geo r W lb ub) (e : Enum lb ub n) (hd : ∀ a ∈ V, a ∉ W) (A B : Idx → Idx → ℂ) :
    boxMat e (extend r V A) * boxMat e (extend r W B) = boxMat e (extend r W B) * boxMat e (extend r V A) := by
  ext k l
  rw [extend_mul_disjoint gV e hd, extend_mul_disjoint gW e fun a h h' => hd a h' h]
  have h := agreeOff_append_comm (r := r) (V := V) (W := W) (e k : Idx) (e l)
  by_cases hc : AgreeOff r (V ++ W) (e k : Idx) (e l)
  · rw [if_pos hc, if_pos (h.1 hc), mul_comm]
  · rw [if_neg hc, if_neg fun h' => hc (h.2 h')]

/-- An operator of some of the subsystems `V`. -/
theorem extend_extend (hV : ValidAxes r V) (hW : ∀ a ∈ W, a < V.length) (A : Idx → Idx → ℂ) (i j : Idx) :
    extend r V (extend V.length W A) i j = extend r (W.map fun a => V.getD a 0) A i j := by
  have hc : ∀ i : Idx, coords W (coords V i) = coords (W.map fun a => V.getD a 0) i := by
    intro i
    simp only [coords, List.map_map]
    refine List.map_congr_left fun a ha => ?_
    simp [List.getD_eq_getElem?_getD, hW a ha]
  have hget : ∀ (i : Idx) (a : ℕ) (ha : a < V.length), (coords V i).getD a 0 = i.getD V[a] 0 := by
    intro i a ha
    simp [coords, List.getD_eq_getElem?_getD, ha]
  unfold extend
  rw [hc, hc]
  by_cases h : AgreeOff r (W.map fun a => V.getD a 0) i j
  · rw [if_pos h, if_pos, if_pos]
    · intro a ha hn
      rw [hget _ _ ha, hget _ _ ha]
      refine h _ (hV.2.2 _ (List.getElem_mem ha)) fun hm => hn ?_
      obtain ⟨b, hb, he⟩ := List.mem_map.1 hm
      have hb' := hW b hb
      rw [List.getD_eq_getElem?_getD, List.getElem?_eq_getElem hb', Option.getD_some] at he
      rwa [← (List.Nodup.getElem_inj_iff hV.2.1).1 he]
    · intro a ha hn
      refine h a ha fun hm => hn ?_
      obtain ⟨b, hb, rfl⟩ := List.mem_map.1 hm
      rw [List.getD_eq_getElem?_getD, List.getElem?_eq_getElem (hW b hb)]
      exact List.getElem_mem _
  · rw [if_neg h]
    split_ifs with h1 h2
    · exfalso
      apply h
      intro a ha hn
      by_cases hm : a ∈ V
      · obtain ⟨b, hb, rfl⟩ := List.getElem_of_mem hm
        have := h2 b hb fun hbW => hn (List.mem_map.2 ⟨b, hbW, by simp [List.getD_eq_getElem?_getD, hb]⟩)
        rwa [hget _ _ hb, hget _ _ hb] at this
      · exact h1 a ha hm
    all_goals rfl

/-! ## Partial trace and expectation values -/

theorem trace_expect (hl : ub.length = lb.length) (e : Enum lb ub n) (A : Idx → Idx → ℂ) (ρ : Matrix (Fin n) (Fin n) ℂ) :
    (boxMat e A * ρ).trace = expect lb ub A fun i j => unflatten2 e ρ (i ++ j) := by
  unfold expect
  rw [sum_enum e, Matrix.trace]
  simp only [Matrix.diag_apply, Matrix.mul_apply]
  rw [Finset.sum_comm]
  refine Finset.sum_congr rfl fun k _ => ?_
  rw [sum_enum e]
  refine Finset.sum_congr rfl fun l _ => ?_
  rw [unflatten2_enum hl]
  rfl

/-- The expectation value of an operator of the subsystems `V` is that in the reduced density operator. -/
theorem trace_reduced (g : Geo r V lb ub) (e : Enum lb ub n) (e' : Enum (sliceBound V lb) (sliceBound V ub) n') (A : Idx → Idx → ℂ) (ρ : Matrix (Fin n) (Fin n) ℂ) :
    (boxMat e (extend r V A) * ρ).trace = (boxMat e' A * reduced V e e' ρ).trace := by
  obtain ⟨σ, h1, h2⟩ := reduce_eq_ptrace r V lb ub g.hV g.hb g.hl ((boxSize lb ub).toNat + 1) (by push_cast; omega) (unflatten2 e ρ)
  rw [trace_expect g.hb.2.1, ← reduce_expectation r V lb ub g.hV g.hb g.hl ((boxSize lb ub).toNat + 1) (by push_cast; omega) _ σ h1 A]
  unfold expect
  rw [sum_enum e', Matrix.trace]
  simp only [Matrix.diag_apply, Matrix.mul_apply]
  conv_rhs => rw [Finset.sum_comm]
  refine Finset.sum_congr rfl fun k _ => ?_
  rw [sum_enum e']
  refine Finset.sum_congr rfl fun l _ => ?_
  rw [h2 _ _ (g.mem_slice.1 (e' k).2) (g.mem_slice.1 (e' l).2)]
  rfl

/-- The matrix elements, given to the indices. -/
noncomputable def elements {lb ub : Idx} {n : ℕ} (e : Enum lb ub n) (M : Matrix (Fin n) (Fin n) ℂ) (i j : Idx) : ℂ := unflatten2 e M (i ++ j)

theorem boxMat_elements (hl : ub.length = lb.length) (e : Enum lb ub n) (M : Matrix (Fin n) (Fin n) ℂ) : boxMat e (elements e M) = M := by
  ext k l
  exact unflatten2_enum hl e M k l

theorem eq_of_trace {A B : Matrix (Fin n) (Fin n) ℂ} (h : ∀ M : Matrix (Fin n) (Fin n) ℂ, (M * A).trace = (M * B).trace) : A = B := by
  ext i j
  have := h (Matrix.single j i 1)
  simpa [Matrix.trace_single_mul] using this

theorem boxMat_mul (e : Enum lb ub n) (A B : Idx → Idx → ℂ) : boxMat e A * boxMat e B = boxMat e fun s s' => ∑ x ∈ boxFinset lb ub, A s x * B x s' := by
  ext k l
  simp only [boxMat, Matrix.mul_apply, Matrix.of_apply]
  rw [sum_enum e]

variable {ρ : Matrix (Fin n) (Fin n) ℂ}

section
variable (g : Geo r V lb ub) (e : Enum lb ub n) (e' : Enum (sliceBound V lb) (sliceBound V ub) n')
include g

theorem slice_length : (sliceBound V ub).length = (sliceBound V lb).length := by simp [sliceBound]

/-- The reduced density operator is determined by the expectation values. -/
theorem reduced_eq_iff (ρ : Matrix (Fin n) (Fin n) ℂ) (σ : Matrix (Fin n') (Fin n') ℂ) (h : ∀ A : Idx → Idx → ℂ, (boxMat e (extend r V A) * ρ).trace = (boxMat e' A * σ).trace) : reduced V e e' ρ = σ := by
  refine eq_of_trace fun M => ?_
  have hl : (sliceBound V ub).length = (sliceBound V lb).length := by simp [sliceBound]
  rw [← boxMat_elements hl e' M, ← trace_reduced g, h]

theorem reduced_add (ρ σ : Matrix (Fin n) (Fin n) ℂ) : reduced V e e' (ρ + σ) = reduced V e e' ρ + reduced V e e' σ :=
  reduced_eq_iff g e e' _ _ fun A => by rw [Matrix.mul_add, Matrix.trace_add, trace_reduced g e e', trace_reduced g e e', Matrix.mul_add, Matrix.trace_add]

theorem reduced_zero : reduced V e e' (0 : Matrix (Fin n) (Fin n) ℂ) = 0 :=
  reduced_eq_iff g e e' _ _ fun A => by simp

theorem reduced_listSum (l : List (Matrix (Fin n) (Fin n) ℂ)) : reduced V e e' l.sum = (l.map (reduced V e e')).sum := by
  induction l with
  | nil => exact reduced_zero g e e'
  | cons a l ih => rw [List.sum_cons, reduced_add g, ih, List.map_cons, List.sum_cons]

theorem reduced_left (K : Idx → Idx → ℂ) (ρ : Matrix (Fin n) (Fin n) ℂ) : reduced V e e' (boxMat e (extend r V K) * ρ) = boxMat e' K * reduced V e e' ρ :=
  reduced_eq_iff g e e' _ _ fun A => by rw [← Matrix.mul_assoc, boxMat_extend_mul g, trace_reduced g e e', ← boxMat_mul, Matrix.mul_assoc]

theorem reduced_right (K : Idx → Idx → ℂ) (ρ : Matrix (Fin n) (Fin n) ℂ) : reduced V e e' (ρ * boxMat e (extend r V K)) = reduced V e e' ρ * boxMat e' K :=
  reduced_eq_iff g e e' _ _ fun A => by
    rw [← Matrix.mul_assoc, Matrix.trace_mul_comm, ← Matrix.mul_assoc, boxMat_extend_mul g, trace_reduced g e e', ← boxMat_mul, Matrix.mul_assoc, Matrix.trace_mul_comm, Matrix.mul_assoc, Matrix.trace_mul_comm]

/-- The generator of the subsystems themselves. -/
theorem reduced_inside (K : Idx → Idx → ℂ) (L : List (Idx → Idx → ℂ)) (ρ : Matrix (Fin n) (Fin n) ℂ) :
    reduced V e e' (lindblad (boxMat e (extend r V K)) (L.map fun j => boxMat e (extend r V j)) ρ) = lindblad (boxMat e' K) (L.map (boxMat e')) (reduced V e e' ρ) := by
  have hconj : ∀ K : Idx → Idx → ℂ, (boxMat e' K)ᴴ = boxMat e' fun s s' => conj (K s' s) := fun K => by ext k l; rfl
  unfold lindblad
  rw [reduced_add g, reduced_add g, reduced_left g, boxMat_extend_conj, reduced_right g, reduced_listSum g, hconj]
  simp only [List.map_map]
  congr 2
  refine List.map_congr_left fun j _ => ?_
  simp only [Function.comp]
  rw [boxMat_extend_conj, reduced_right g, reduced_left g, hconj]

/-- The generator of other subsystems, which conserves the probability. -/
theorem reduced_outside (B : Matrix (Fin n) (Fin n) ℂ) (J : List (Matrix (Fin n) (Fin n) ℂ)) (hB : ∀ A, boxMat e (extend r V A) * B = B * boxMat e (extend r V A))
    (hJ : ∀ j ∈ J, ∀ A, boxMat e (extend r V A) * j = j * boxMat e (extend r V A)) (hc : B + Bᴴ + (J.map fun j => jᴴ * j).sum = 0) (ρ : Matrix (Fin n) (Fin n) ℂ) :
    reduced V e e' (lindblad B J ρ) = 0 :=
  reduced_eq_iff g e e' _ _ fun A => by
    have hBc : ∀ X : Matrix (Fin n) (Fin n) ℂ, (∀ A, boxMat e (extend r V A) * X = X * boxMat e (extend r V A)) → ∀ A, boxMat e (extend r V A) * Xᴴ = Xᴴ * boxMat e (extend r V A) := by
      intro X hX A
      have := congrArg Matrix.conjTranspose (hX fun s s' => conj (A s' s))
      rw [Matrix.conjTranspose_mul, Matrix.conjTranspose_mul, boxMat_extend_conj] at this
      simp only [Complex.conj_conj] at this
      exact this.symm
    set E := boxMat e (extend r V A) with hE
    have e1 : (E * (B * ρ)).trace = (E * B * ρ).trace := by rw [Matrix.mul_assoc]
    have e2 : (E * (ρ * Bᴴ)).trace = (E * Bᴴ * ρ).trace := by rw [← Matrix.mul_assoc, Matrix.trace_mul_comm, ← Matrix.mul_assoc, ← hBc B hB A]
    have e3 : ∀ l : List (Matrix (Fin n) (Fin n) ℂ), (∀ j ∈ l, j ∈ J) → (E * (l.map fun j => j * ρ * jᴴ).sum).trace = (E * (l.map fun j => jᴴ * j).sum * ρ).trace := by
      intro l hl
      induction l with
      | nil => simp
      | cons j l ih =>
        simp only [List.map_cons, List.sum_cons, Matrix.mul_add, Matrix.add_mul, Matrix.trace_add]
        rw [ih fun k hk => hl k (by simp [hk])]
        congr 1
        have h1 := hBc j (hJ j (hl j (by simp))) A
        have h2 := hJ j (hl j (by simp)) A
        rw [← Matrix.mul_assoc, Matrix.trace_mul_comm, ← Matrix.mul_assoc, ← Matrix.mul_assoc, ← h1, ← Matrix.mul_assoc]
    unfold lindblad
    rw [Matrix.mul_add, Matrix.mul_add, Matrix.trace_add, Matrix.trace_add, e1, e2, e3 J fun _ h => h, ← Matrix.trace_add, ← Matrix.trace_add, ← Matrix.add_mul, ← Matrix.add_mul, ← Matrix.mul_add, ← Matrix.mul_add, hc]
    simp

end

end CppQED.Composite
