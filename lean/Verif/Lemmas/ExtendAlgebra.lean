import Verif.Props.CompositeMaster

/-! # Extension of operators of subsystems to the whole space as an algebra homomorphism -/

namespace CppQED.Composite
open CppQED.MII (Idx)
open CppQED.Slice CppQED.Spec CppQED.PTrace
open ComplexConjugate Matrix

variable {r : ℕ} {V : List ℕ} {lb ub : Idx} {n : ℕ}

theorem agreeOff_comm (i j : Idx) : AgreeOff r V i j ↔ AgreeOff r V j i :=
  ⟨fun h a ha hV => (h a ha hV).symm, fun h a ha hV => (h a ha hV).symm⟩

open Classical in
theorem boxMat_extend_mul (g : Geo r V lb ub) (e : Enum lb ub n) (A B : Idx → Idx → ℂ) :
    boxMat e (extend r V A) * boxMat e (extend r V B) = boxMat e (extend r V fun s s' => ∑ x ∈ boxFinset (sliceBound V lb) (sliceBound V ub), A s x * B x s') := by
  ext k l
  have hi := enum_box g.hb.2.1 e k
  obtain ⟨h1, h2, h3, h4⟩ := g.split (e k).2
  rw [Matrix.mul_apply]
  simp only [boxMat, Matrix.of_apply]
  rw [← sum_enum e fun u => extend r V A (e k) u * extend r V B u (e l)]
  have h := (extension_eq g A (fun u => extend r V B u (e l)) (e k) hi).symm
  unfold matAction at h
  rw [h]
  have hs : ∀ s ∈ boxFinset (sliceBound V lb) (sliceBound V ub), extend r V B (replace V s (e k)) (e l) = if AgreeOff r V (e k : Idx) (e l) then B s (coords V (e l)) else 0 := by
    intro s hs
    obtain ⟨a1, a2, a3⟩ := g.addr h2 hs
    have e1 : replace V s (e k) = sliceAddr r V (filterOut r V (e k)) s := by
      have := g.replace_addr h2 h1 hs
      rwa [h3] at this
    rw [e1, extend, a2]
    simp only [agreeOff_iff, a3]
  beta_reduce
  rw [Finset.sum_congr rfl fun s h => by rw [hs s h]]
  unfold extend
  split_ifs with h
  · rfl
  · simp

theorem boxMat_extend_conj (e : Enum lb ub n) (A : Idx → Idx → ℂ) : (boxMat e (extend r V A))ᴴ = boxMat e (extend r V fun s s' => conj (A s' s)) := by
  ext k l
  have := agreeOff_comm (r := r) (V := V) (e l : Idx) (e k)
  simp only [Matrix.conjTranspose_apply, boxMat, Matrix.of_apply, extend]
  split_ifs <;> simp <;> tauto

theorem boxMat_extend_add (e : Enum lb ub n) (A B : Idx → Idx → ℂ) : boxMat e (extend r V A) + boxMat e (extend r V B) = boxMat e (extend r V fun s s' => A s s' + B s s') := by
  ext k l
  simp only [Matrix.add_apply, boxMat, Matrix.of_apply, extend]
  split_ifs <;> simp

theorem boxMat_extend_congr (g : Geo r V lb ub) (e : Enum lb ub n) {A B : Idx → Idx → ℂ}
    (h : ∀ s s', s ∈ boxFinset (sliceBound V lb) (sliceBound V ub) → s' ∈ boxFinset (sliceBound V lb) (sliceBound V ub) → A s s' = B s s') :
    boxMat e (extend r V A) = boxMat e (extend r V B) := by
  ext k l
  simp only [boxMat, Matrix.of_apply, extend]
  rw [h _ _ (g.split (e k).2).1 (g.split (e l).2).1]

theorem boxMat_extend_zero (e : Enum lb ub n) : boxMat e (extend r V fun _ _ => 0) = 0 := by
  ext k l; simp [boxMat, extend]

/-- The condition of trace conservation of an operator and jumps on the given box, in matrix elements. -/
def ConservingOn (lb ub : Idx) (H : Idx → Idx → ℂ) (J : List (Idx → Idx → ℂ)) : Prop :=
  ∀ s s', s ∈ boxFinset lb ub → s' ∈ boxFinset lb ub → H s s' + conj (H s' s) + (J.map fun j => ∑ u ∈ boxFinset lb ub, conj (j u s) * j u s').sum = 0

/-- Trace conservation carries over from the components to the whole system. -/
theorem conserving_extend (g : Geo r V lb ub) (e : Enum lb ub n) (H : Idx → Idx → ℂ) (J : List (Idx → Idx → ℂ)) (h : ConservingOn (sliceBound V lb) (sliceBound V ub) H J) :
    boxMat e (extend r V H) + (boxMat e (extend r V H))ᴴ + ((J.map fun j => boxMat e (extend r V j)).map fun j => jᴴ * j).sum = 0 := by
  have hs : ((J.map fun j => boxMat e (extend r V j)).map fun j => jᴴ * j).sum =
      boxMat e (extend r V fun s s' => (J.map fun j => ∑ u ∈ boxFinset (sliceBound V lb) (sliceBound V ub), conj (j u s) * j u s').sum) := by
    clear h
    induction J with
    | nil => simp [boxMat_extend_zero]
    | cons j J ih =>
      simp only [List.map_cons, List.sum_cons]
      simp only [List.map_map] at ih ⊢
      rw [ih, boxMat_extend_conj, boxMat_extend_mul g, boxMat_extend_add]
  rw [hs, boxMat_extend_conj, boxMat_extend_add, boxMat_extend_add, boxMat_extend_congr g e (B := fun _ _ => 0) h, boxMat_extend_zero]

end CppQED.Composite
