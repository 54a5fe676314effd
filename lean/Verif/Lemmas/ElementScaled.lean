import Verif.Lemmas.Element

/-! # What the Master-equation trajectory simulates if the exact part commutes with the jumps up to arbitrary factors -/

namespace CppQED.Elem
open CppQED.Spec CppQED.Tridiag Matrix
open ComplexConjugate

/-- The jumps get multiplied with the factors. -/
theorem master_scaled {e : Element} {w : ℕ → ℂ} {V : Dens} {J : List Dens} (hH : HaIs e w V) (hE : ExIs e w) (hL : LiIs e J) (c : ℕ → ℝ → ℂ)
    (hM : ∀ k < J.length, ∀ t : ℝ, (Matrix.diagonal fun i : Fin e.dim => uDiag w t i) * mat e.dim (J.getD k 0) =
      c k t • (mat e.dim (J.getD k 0) * Matrix.diagonal fun i : Fin e.dim => uDiag w t i))
    (t0 t : ℝ) (rho : ℝ → Matrix (Fin e.dim) (Fin e.dim) ℂ) (hrho : (rho t).IsHermitian)
    (h : ∀ i j, HasDerivAt (fun s => rho s i j) (Master.derivative e.toSys t t0 (rho t) i j) t) (i j : Fin e.dim) :
    HasDerivAt (fun s => Master.exactPart e.toSys s t0 (rho s) i j)
      (lindblad (mat e.dim (fun i j => V i j - if i = j then w i else 0)) ((List.range J.length).map fun k => c k (t - t0) • mat e.dim (J.getD k 0))
        (Master.exactPart e.toSys t t0 (rho t)) i j) t := by
  have hW : mat e.dim (fun i j => V i j - if i = j then w i else 0) = mat e.dim V - Matrix.diagonal fun i : Fin e.dim => w i := by
    ext i j
    simp [mat_apply, Matrix.diagonal_apply, Fin.ext_iff]
  have lin := linear_of hH hE hL
  set U : ℝ → Matrix (Fin e.dim) (Fin e.dim) ℂ := fun s => Matrix.diagonal fun i => uDiag w (s - t0) i with hU
  have hex : ∀ s r, Master.exactPart e.toSys s t0 r = U s * r * (U s)ᴴ := by
    intro s r
    cases hx : e.toSys.ex with
    | none =>
      have := lin.ex_none hx s t0
      rw [hU]; simp only; rw [this]
      simp [Master.exactPart, hx]
    | some f => exact Master.exactPart_eq e.toSys f hx s t0 _ (fun psi => lin.ex f hx s psi t0) r
  simp only [hex]
  have hel : ∀ (s : ℝ) (r : Matrix (Fin e.dim) (Fin e.dim) ℂ), (U s * r * (U s)ᴴ) i j = uDiag w (s - t0) i * r i j * conj (uDiag w (s - t0) j) := by
    intro s r
    rw [hU]; simp only
    rw [Matrix.diagonal_conjTranspose, Matrix.mul_diagonal, Matrix.diagonal_mul]; rfl
  simp only [hel]
  have hc : HasDerivAt (fun s => conj (uDiag w (s - t0) j)) (conj (-(w j) * uDiag w (t - t0) j)) t := (uDiag_hasDerivAt w t0 t j).star
  have h2 := ((uDiag_hasDerivAt w t0 t i).mul (h i j)).mul hc
  refine h2.congr_deriv ?_
  rw [hW, Master.derivative_eq e.toSys _ _ _ _ lin t t0 (rho t) hrho]
  set P := U t * rho t * (U t)ᴴ with hP
  set G := mat e.dim (interactionPicture w V (t - t0)) with hG
  have key : U t * lindblad G ((List.range J.length).map fun k => mat e.dim (J.getD k 0)) (rho t) * (U t)ᴴ =
      lindblad (mat e.dim V) ((List.range J.length).map fun k => c k (t - t0) • mat e.dim (J.getD k 0)) P := by
    unfold lindblad
    rw [Matrix.mul_add, Matrix.mul_add, Matrix.add_mul, Matrix.add_mul]
    have k1 : U t * (G * rho t) * (U t)ᴴ = mat e.dim V * P := by
      rw [← Matrix.mul_assoc, hG, hU]; simp only
      rw [uDiag_ip, hP, hU]; simp only [Matrix.mul_assoc]
    have k2 : U t * (rho t * Gᴴ) * (U t)ᴴ = P * (mat e.dim V)ᴴ := by
      have : Gᴴ * (U t)ᴴ = (U t)ᴴ * (mat e.dim V)ᴴ := by
        rw [← Matrix.conjTranspose_mul, ← Matrix.conjTranspose_mul, hG, hU]; simp only
        rw [uDiag_ip]
      rw [Matrix.mul_assoc, Matrix.mul_assoc, this, hP]
      simp only [Matrix.mul_assoc]
    rw [k1, k2]
    congr 1
    have one : ∀ k < J.length, U t * (mat e.dim (J.getD k 0) * rho t * (mat e.dim (J.getD k 0))ᴴ) * (U t)ᴴ =
        (c k (t - t0) • mat e.dim (J.getD k 0)) * P * (c k (t - t0) • mat e.dim (J.getD k 0))ᴴ := by
      intro k hk
      have hc3 : U t * mat e.dim (J.getD k 0) = c k (t - t0) • (mat e.dim (J.getD k 0) * U t) := hM k hk (t - t0)
      have hc4 : (mat e.dim (J.getD k 0))ᴴ * (U t)ᴴ = conj (c k (t - t0)) • ((U t)ᴴ * (mat e.dim (J.getD k 0))ᴴ) := by
        rw [← Matrix.conjTranspose_mul, hc3, Matrix.conjTranspose_smul, Matrix.conjTranspose_mul]; rfl
      calc U t * (mat e.dim (J.getD k 0) * rho t * (mat e.dim (J.getD k 0))ᴴ) * (U t)ᴴ
          = (U t * mat e.dim (J.getD k 0)) * rho t * ((mat e.dim (J.getD k 0))ᴴ * (U t)ᴴ) := by simp only [Matrix.mul_assoc]
        _ = _ := by
          rw [hc3, hc4, Matrix.conjTranspose_smul, hP]
          simp only [Matrix.smul_mul, Matrix.mul_smul, smul_smul, Matrix.mul_assoc]
          rfl
    rw [List.map_map, List.map_map]
    have gen : ∀ n ≤ J.length, U t * ((List.range n).map ((fun j => j * rho t * jᴴ) ∘ fun k => mat e.dim (J.getD k 0))).sum * (U t)ᴴ =
        ((List.range n).map ((fun j => j * P * jᴴ) ∘ fun k => c k (t - t0) • mat e.dim (J.getD k 0))).sum := by
      intro n hn
      induction n with
      | zero => simp
      | succ n ih =>
        rw [List.range_succ, List.map_append, List.map_append, List.sum_append, List.sum_append, Matrix.mul_add, Matrix.add_mul, ih (by omega)]
        simp only [List.map_cons, List.map_nil, List.sum_cons, List.sum_nil, add_zero, Function.comp]
        rw [one n (by omega)]
    exact gen _ le_rfl
  have key' := congrFun (congrFun key i) j
  rw [hel] at key'
  have hlin : lindblad (mat e.dim V - Matrix.diagonal fun i : Fin e.dim => w i) ((List.range J.length).map fun k => c k (t - t0) • mat e.dim (J.getD k 0)) P i j =
      lindblad (mat e.dim V) ((List.range J.length).map fun k => c k (t - t0) • mat e.dim (J.getD k 0)) P i j - w i * P i j - P i j * conj (w j) := by
    unfold lindblad
    simp only [Matrix.sub_mul, Matrix.conjTranspose_sub, Matrix.mul_sub, Matrix.diagonal_conjTranspose, Matrix.add_apply, Matrix.sub_apply, Matrix.diagonal_mul, Matrix.mul_diagonal,
      Pi.star_apply, Complex.star_def]
    ring
  rw [hlin, ← key', hP, hel, map_mul, map_neg, Pi.mul_apply]
  ring

end CppQED.Elem
