import Verif.Spec.Element
import Verif.Props.Element
import Verif.Props.Master
import Verif.Props.Tridiagonal
import Mathlib.Analysis.Calculus.Deriv.Star

/-! # Lemmas on elements: when an element generates a given dynamics -/

namespace CppQED.Elem
open CppQED.Spec CppQED.Tridiag Matrix
open ComplexConjugate

/-- The diagonal of an exact part with the given frequencies. -/
noncomputable def uDiag (w : ℕ → ℂ) (t : ℝ) (n : ℕ) : ℂ := Complex.exp (-(w n * t))

/-- The Hamiltonian part adds the interaction-picture transform of `V`. -/
def HaIs (e : Element) (w : ℕ → ℂ) (V : Dens) : Prop :=
  match e.ha with
  | some f => ∀ t psi dpsidt t0, ket e.dim (f t psi dpsidt t0) = ket e.dim dpsidt + mat e.dim (interactionPicture w V (t - t0)) *ᵥ ket e.dim psi
  | none => ∀ i < e.dim, ∀ j < e.dim, V i j = 0

/-- The exact part has the frequencies `w`. -/
def ExIs (e : Element) (w : ℕ → ℂ) : Prop :=
  match e.ex with
  | some U => ∀ t, ∀ n < e.dim, U t n = uDiag w t n
  | none => ∀ n < e.dim, w n = 0

/-- The Lindblads are the given ones. -/
def LiIs (e : Element) (J : List Dens) : Prop :=
  match e.li with
  | some l => l.labels.length = J.length ∧ ∀ i < J.length, (∀ psi, ∃ psi', l.actWithJ i psi = .ok psi' ∧ ket e.dim psi' = mat e.dim (J.getD i 0) *ᵥ ket e.dim psi) ∧
      (∀ rho drhodt d', l.actWithSuperoperator i rho drhodt = .ok d' → mat e.dim d' = mat e.dim drhodt + mat e.dim (J.getD i 0) * mat e.dim rho * (mat e.dim (J.getD i 0))ᴴ)
  | none => J = []

theorem vec_arr {d : ℕ} (v : Fin d → ℂ) : ket d (arr v) = v := by
  funext i; simp [ket, arr]

theorem mat_arr2 {d : ℕ} (v : Matrix (Fin d) (Fin d) ℂ) : mat d (arr2 v) = v := by
  ext i j; simp [mat, arr2]

theorem exp_ne (z : ℂ) : Complex.exp z ≠ 0 := Complex.exp_ne_zero z

/-- The element is a linear system. -/
theorem linear_of {e : Element} {w : ℕ → ℂ} {V : Dens} {J : List Dens} (hH : HaIs e w V) (hE : ExIs e w) (hL : LiIs e J) :
    Master.Linear e.toSys (fun t t0 => mat e.dim (interactionPicture w V (t - t0))) (fun t t0 => Matrix.diagonal fun i => uDiag w (t - t0) i) J.length
      (fun _ i => mat e.dim (J.getD i 0)) where
  ha := by
    intro f hf t psi d t0
    unfold Element.toSys at hf
    obtain ⟨g, hg, rfl⟩ := Option.map_eq_some_iff.1 hf
    unfold HaIs at hH
    rw [hg] at hH
    have := hH t (arr psi) (arr d) t0
    rw [vec_arr, vec_arr] at this
    exact this
  ha_none := by
    intro hn t t0
    unfold Element.toSys at hn
    rw [Option.map_eq_none_iff] at hn
    unfold HaIs at hH
    rw [hn] at hH
    ext i j
    simp [mat, interactionPicture, hH i i.2 j j.2]
  ex := by
    intro f hf t psi t0
    unfold Element.toSys at hf
    obtain ⟨g, hg, rfl⟩ := Option.map_eq_some_iff.1 hf
    unfold ExIs at hE
    rw [hg] at hE
    funext i
    simp only [actWithU, Matrix.mulVec_diagonal, hE _ i i.2]
    rw [mul_comm]
    simp [arr]
  ex_none := by
    intro hn t t0
    unfold Element.toSys at hn
    rw [Option.map_eq_none_iff] at hn
    unfold ExIs at hE
    rw [hn] at hE
    ext i j
    simp [uDiag, Matrix.diagonal_apply, Matrix.one_apply, hE i i.2]
  jumps := by
    intro l hl
    unfold Element.toSys at hl
    obtain ⟨g, hg, rfl⟩ := Option.map_eq_some_iff.1 hl
    unfold LiIs at hL
    rw [hg] at hL
    refine ⟨hL.1, fun i hi t psi => ?_⟩
    obtain ⟨psi', h1, h2⟩ := (hL.2 i hi).1 (arr psi)
    simp only [h1]
    rw [vec_arr] at h2
    exact h2
  superops := by
    intro l hl i hi t rho d d' hrho h
    unfold Element.toSys at hl
    obtain ⟨g, hg, rfl⟩ := Option.map_eq_some_iff.1 hl
    unfold LiIs at hL
    rw [hg] at hL
    simp only at h
    cases hs : g.actWithSuperoperator i (arr2 rho) (arr2 d) with
    | error x => rw [hs] at h; cases h
    | ok x =>
      rw [hs] at h
      have := (hL.2 i hi).2 _ _ _ hs
      rw [mat_arr2, mat_arr2] at this
      rw [← this]
      exact (Option.some.inj h).symm
  li_none := by
    intro hn
    unfold Element.toSys at hn
    rw [Option.map_eq_none_iff] at hn
    unfold LiIs at hL
    rw [hn] at hL
    rw [hL]; rfl

theorem toSchroedinger_eq {e : Element} {w : ℕ → ℂ} (hE : ExIs e w) (t t0 : ℝ) (psi : Fin e.dim → ℂ) (i : Fin e.dim) :
    toSchroedinger e t t0 psi i = uDiag w (t - t0) i * psi i := by
  unfold toSchroedinger Element.toSys
  unfold ExIs at hE
  cases h : e.ex with
  | none => rw [h] at hE; simp [uDiag, hE i i.2]
  | some U =>
    rw [h] at hE
    simp only [Option.map_some, actWithU, hE _ i i.2]
    rw [mul_comm]
    simp [arr]

theorem rhs_eq {e : Element} {w : ℕ → ℂ} {V : Dens} (hH : HaIs e w V) (t t0 : ℝ) (psi : Fin e.dim → ℂ) :
    rhs e t t0 psi = mat e.dim (interactionPicture w V (t - t0)) *ᵥ psi := by
  unfold rhs Element.toSys
  unfold HaIs at hH
  cases h : e.ha with
  | none =>
    rw [h] at hH
    funext i
    simp only [Option.map_none, Pi.zero_apply, Matrix.mulVec, dotProduct, mat, Matrix.of_apply, interactionPicture]
    symm
    refine Finset.sum_eq_zero fun j _ => ?_
    rw [hH i i.2 j j.2]; ring
  | some f =>
    rw [h] at hH
    have := hH t (arr psi) (arr (0 : Fin e.dim → ℂ)) t0
    rw [vec_arr, vec_arr, zero_add] at this
    simp only [Option.map_some]
    exact this

theorem uDiag_hasDerivAt (w : ℕ → ℂ) (t0 t : ℝ) (n : ℕ) : HasDerivAt (fun s : ℝ => uDiag w (s - t0) n) (-(w n) * uDiag w (t - t0) n) t := by
  unfold uDiag
  have h1 : HasDerivAt (fun s : ℝ => ((s - t0 : ℝ) : ℂ)) 1 t := by
    have := ((hasDerivAt_id t).sub_const t0).ofReal_comp
    simpa using this
  have h2 : HasDerivAt (fun s : ℝ => -(w n * ((s - t0 : ℝ) : ℂ))) (-(w n)) t := by
    have := (h1.const_mul (w n)).neg
    rw [mul_one] at this
    exact this
  have h3 := h2.cexp
  rw [mul_comm]
  exact h3

theorem mat_apply (d : ℕ) (r : Dens) (i j : Fin d) : mat d r i j = r i j := rfl

/-- `U G = V U`. -/
theorem uDiag_ip (d : ℕ) (w : ℕ → ℂ) (V : Dens) (t : ℝ) :
    (Matrix.diagonal fun i : Fin d => uDiag w t i) * mat d (interactionPicture w V t) = mat d V * Matrix.diagonal fun i : Fin d => uDiag w t i := by
  ext i j
  rw [Matrix.diagonal_mul, Matrix.mul_diagonal]
  simp only [mat_apply, interactionPicture, uDiag]
  rw [← mul_assoc, ← mul_assoc, mul_inv_cancel₀ (exp_ne _), one_mul]

/-- An element with the given constituents generates the dynamics of `V - W`. In the Master equation, the exact part must commute with the jumps up to a phase. -/
theorem generates_of {e : Element} {w : ℕ → ℂ} {V : Dens} {J : List Dens} (hH : HaIs e w V) (hE : ExIs e w) (hL : LiIs e J)
    (hM : e.exApplicable = true → ∀ j ∈ J, ∀ t : ℝ, ∃ c : ℂ, c * conj c = 1 ∧
      (Matrix.diagonal fun i : Fin e.dim => uDiag w t i) * mat e.dim j = c • (mat e.dim j * Matrix.diagonal fun i : Fin e.dim => uDiag w t i)) :
    Generates e (fun i j => V i j - if i = j then w i else 0) J := by
  have hW : ∀ (P : Matrix (Fin e.dim) (Fin e.dim) ℂ), mat e.dim (fun i j => V i j - if i = j then w i else 0) = mat e.dim V - Matrix.diagonal fun i : Fin e.dim => w i := by
    intro _; ext i j
    simp [mat_apply, Matrix.diagonal_apply, Fin.ext_iff]
  refine ⟨?_, ?_, ?_, ?_⟩
  · intro t0 psi
    funext i
    rw [toSchroedinger_eq hE]
    simp [uDiag]
  · intro t0 t psi h i
    rw [hW 0]
    have e1 : (fun s => toSchroedinger e s t0 (psi s) i) = fun s => uDiag w (s - t0) i * psi s i := by
      funext s; rw [toSchroedinger_eq hE]
    rw [e1]
    have h2 := (uDiag_hasDerivAt w t0 t i).mul (h i)
    refine h2.congr_deriv ?_
    rw [Matrix.sub_mulVec, Pi.sub_apply, Matrix.mulVec_diagonal, toSchroedinger_eq hE, rhs_eq hH]
    have e2 : toSchroedinger e t t0 (psi t) = (Matrix.diagonal fun i : Fin e.dim => uDiag w (t - t0) i) *ᵥ psi t := by
      funext k; rw [toSchroedinger_eq hE, Matrix.mulVec_diagonal]
    rw [e2, Matrix.mulVec_mulVec, ← uDiag_ip, ← Matrix.mulVec_mulVec, Matrix.mulVec_diagonal]
    ring
  · have := (linear_of hH hE hL)
    cases h : e.toSys.li with
    | none =>
      have := this.li_none h
      exact List.length_eq_zero_iff.1 this
    | some l =>
      exact this.jumps l h
  · intro hA t0 t rho hrho h i j
    have lin := linear_of hH hE hL
    set U : ℝ → Matrix (Fin e.dim) (Fin e.dim) ℂ := fun s => Matrix.diagonal fun i => uDiag w (s - t0) i with hU
    have hex : ∀ s r, Master.exactPart e.toSys s t0 r = U s * r * (U s)ᴴ := by
      intro s r
      cases hx : e.toSys.ex with
      | none =>
        have := lin.ex_none hx s t0
        rw [hU]; simp only; rw [this]
        simp [Master.exactPart, hx]
      | some f => exact Master.exactPart_eq e.toSys f hx s t0 _ (fun psi => lin.ex f hx s psi t0) r
    simp only [hex]
    have hel : ∀ (s : ℝ) (r : Matrix (Fin e.dim) (Fin e.dim) ℂ), (U s * r * (U s)ᴴ) i j = uDiag w (s - t0) i * r i j * conj (uDiag w (s - t0) j) := by
      intro s r
      rw [hU]; simp only
      rw [Matrix.diagonal_conjTranspose, Matrix.mul_diagonal, Matrix.diagonal_mul]; rfl
    simp only [hel]
    have hc : HasDerivAt (fun s => conj (uDiag w (s - t0) j)) (conj (-(w j) * uDiag w (t - t0) j)) t := (uDiag_hasDerivAt w t0 t j).star
    have h2 := ((uDiag_hasDerivAt w t0 t i).mul (h i j)).mul hc
    refine h2.congr_deriv ?_
    rw [hW 0, Master.derivative_eq e.toSys _ _ _ _ lin t t0 (rho t) hrho]
    have hJ : (List.range J.length).map (fun i => mat e.dim (J.getD i 0)) = J.map (mat e.dim) := by
      apply List.ext_getElem
      · simp
      · intro k h1 h2
        have : k < J.length := by simpa using h2
        simp [List.getElem?_eq_getElem this]
    rw [hJ]
    set P := U t * rho t * (U t)ᴴ with hP
    set G := mat e.dim (interactionPicture w V (t - t0)) with hG
    -- the main identity
    have key : U t * lindblad G (J.map (mat e.dim)) (rho t) * (U t)ᴴ = lindblad (mat e.dim V) (J.map (mat e.dim)) P := by
      unfold lindblad
      rw [Matrix.mul_add, Matrix.mul_add, Matrix.add_mul, Matrix.add_mul]
      have k1 : U t * (G * rho t) * (U t)ᴴ = mat e.dim V * P := by
        rw [← Matrix.mul_assoc, hG, hU]; simp only
        rw [uDiag_ip, hP, hU]; simp only [Matrix.mul_assoc]
      have k2 : U t * (rho t * Gᴴ) * (U t)ᴴ = P * (mat e.dim V)ᴴ := by
        have : Gᴴ * (U t)ᴴ = (U t)ᴴ * (mat e.dim V)ᴴ := by
          rw [← Matrix.conjTranspose_mul, ← Matrix.conjTranspose_mul, hG, hU]; simp only
          rw [uDiag_ip]
        rw [Matrix.mul_assoc, Matrix.mul_assoc, this, hP]
        simp only [Matrix.mul_assoc]
      rw [k1, k2]
      congr 1
      have : ∀ j ∈ J, U t * (mat e.dim j * rho t * (mat e.dim j)ᴴ) * (U t)ᴴ = mat e.dim j * P * (mat e.dim j)ᴴ := by
        intro j hj
        obtain ⟨c, hc1, hc2⟩ := hM hA j hj (t - t0)
        have hc3 : U t * mat e.dim j = c • (mat e.dim j * U t) := hc2
        have hc4 : (mat e.dim j)ᴴ * (U t)ᴴ = conj c • ((U t)ᴴ * (mat e.dim j)ᴴ) := by
          rw [← Matrix.conjTranspose_mul, hc3, Matrix.conjTranspose_smul, Matrix.conjTranspose_mul]; rfl
        calc U t * (mat e.dim j * rho t * (mat e.dim j)ᴴ) * (U t)ᴴ = (U t * mat e.dim j) * rho t * ((mat e.dim j)ᴴ * (U t)ᴴ) := by simp only [Matrix.mul_assoc]
          _ = (c * conj c) • (mat e.dim j * P * (mat e.dim j)ᴴ) := by
              rw [hc3, hc4, Matrix.smul_mul, Matrix.smul_mul, Matrix.mul_smul, smul_smul, hP]
              simp only [Matrix.mul_assoc]
          _ = _ := by rw [hc1, one_smul]
      clear hL hM lin hJ
      induction J with
      | nil => simp
      | cons j J ih =>
        simp only [List.map_cons, List.sum_cons, Matrix.mul_add, Matrix.add_mul]
        rw [this j (by simp), ih fun k hk => this k (by simp [hk])]
    have key' := congrFun (congrFun key i) j
    rw [hel] at key'
    have hlin : lindblad (mat e.dim V - Matrix.diagonal fun i : Fin e.dim => w i) (J.map (mat e.dim)) P i j =
        lindblad (mat e.dim V) (J.map (mat e.dim)) P i j - w i * P i j - P i j * conj (w j) := by
      unfold lindblad
      simp only [Matrix.sub_mul, Matrix.conjTranspose_sub, Matrix.mul_sub, Matrix.diagonal_conjTranspose, Matrix.add_apply, Matrix.sub_apply, Matrix.diagonal_mul, Matrix.mul_diagonal,
        Pi.star_apply, Complex.star_def]
      ring
    rw [hlin, ← key', hP, hel, map_mul, map_neg, Pi.mul_apply]
    ring

end CppQED.Elem
