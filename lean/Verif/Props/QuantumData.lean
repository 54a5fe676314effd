import Verif.Model.QuantumData
import Verif.Props.CMatrix
import Mathlib.Algebra.Order.Chebyshev
import Mathlib.LinearAlgebra.Matrix.PosDef
import Mathlib.Analysis.Matrix.PosDef
import Mathlib.LinearAlgebra.Matrix.Trace

/-! # C09, C12, C13, C54: state vectors as density operators, purity, renormalisation, dimensions -/

namespace CppQED.QD
open CppQED.CMat
open ComplexConjugate ComplexOrder

/-- **C09, elements.** For every rank, shape and content: reading an element of the lazy density operator of a state vector gives the same
complex number as reading it from the density operator built from the state vector (by `dyad`, or by assignment into an arbitrary density operator
of the right shape), and the diagonal is the non-negative number `|ψ_i|²`. -/
theorem sv_index_eq_dyad_index (psi : Array) (i j : List ℕ) (hi : ValidIdx psi.shape i) (hj : ValidIdx psi.shape j)
    (rho : Array) (hr : rho.shape = psi.shape ++ psi.shape) :
    svIndex psi i j = doIndex (dyad psi psi) i j ∧ svIndex psi i j = doIndex (assignDyad rho psi) i j ∧
    diagonal (svIndex psi) i = Complex.normSq (psi.get i) := by
  have hj' : ValidIdx (conjArray psi).shape j := hj
  refine ⟨?_, ?_, ?_⟩
  · rw [doIndex, dyad, (doDirect_elementwise psi (conjArray psi) i j hi hj').1]; rfl
  · have e := flat_append psi.shape psi.shape i j hi.length_eq
    have hl := flat_lt _ _ hj
    have hd : (flat psi.shape i * psi.shape.prod + flat psi.shape j) / psi.shape.prod = flat psi.shape i := by
      rw [mul_comm, Nat.mul_add_div (by omega), Nat.div_eq_of_lt hl, add_zero]
    have hm : (flat psi.shape i * psi.shape.prod + flat psi.shape j) % psi.shape.prod = flat psi.shape j := by
      rw [mul_comm, Nat.mul_add_mod, Nat.mod_eq_of_lt hl]
    simp only [doIndex, Array.get, assignDyad, ofMatrixView, hr, e, hd, hm, svIndex]
  · simp [diagonal, svIndex, Complex.mul_conj]

/-- **C09, averaging.** `addTo` adds exactly `weight·ψ_i ψ_j*` to the element `(i;j)`. -/
theorem addTo_index (psi rho : Array) (w : ℝ) (hr : rho.shape = psi.shape ++ psi.shape) (i j : List ℕ) (hi : ValidIdx psi.shape i)
    (hj : ValidIdx psi.shape j) : doIndex (addTo psi rho w) i j = doIndex rho i j + (w : ℂ) * svIndex psi i j := by
  have e := flat_append psi.shape psi.shape i j hi.length_eq
  have hl := flat_lt _ _ hj
  have hd : (flat psi.shape i * psi.shape.prod + flat psi.shape j) / psi.shape.prod = flat psi.shape i := by
    rw [mul_comm, Nat.mul_add_div (by omega), Nat.div_eq_of_lt hl, add_zero]
  have hm : (flat psi.shape i * psi.shape.prod + flat psi.shape j) % psi.shape.prod = flat psi.shape j := by
    rw [mul_comm, Nat.mul_add_mod, Nat.mod_eq_of_lt hl]
  simp only [doIndex, Array.get, addTo, ofMatrixView, matrixView, hr, e, hd, hm, svIndex]
  ring

theorem dyad_matrixView (psi : Array) (k l : ℕ) (hl : l < psi.shape.prod) :
    matrixView (dyad psi psi) psi.shape.prod k l = psi.data k * conj (psi.data l) := by
  simp only [matrixView, dyad, doDirect, direct, if_true, conjArray]
  have hd : (k * psi.shape.prod + l) / psi.shape.prod = k := by
    rw [mul_comm, Nat.mul_add_div (by omega), Nat.div_eq_of_lt hl, add_zero]
  have hm : (k * psi.shape.prod + l) % psi.shape.prod = l := by
    rw [mul_comm, Nat.mul_add_mod, Nat.mod_eq_of_lt hl]
  rw [hd, hm]

theorem svNorm_sq (psi : Array) : svNorm psi ^ 2 = ∑ k ∈ Finset.range psi.shape.prod, Complex.normSq (psi.data k) := by
  rw [svNorm, frobeniusNorm, Real.sq_sqrt]
  exact Finset.sum_nonneg (fun k _ => Complex.normSq_nonneg _)

/-- **C09, trace (partial).** The trace reported through the state vector agrees with that of its density operator exactly when
the state vector has norm 0 or 1: the former is the norm, the latter the norm squared. Full property (agreement for every state
vector): refuted by `sv_trace_ne_dyad_trace`. -/
theorem sv_trace_eq_dyad_trace_iff_partial (psi : Array) :
    doTrace (dyad psi psi) psi.shape.prod = svTrace psi ^ 2 ∧
    (doTrace (dyad psi psi) psi.shape.prod = svTrace psi ↔ svTrace psi = 0 ∨ svTrace psi = 1) := by
  have h : doTrace (dyad psi psi) psi.shape.prod = svTrace psi ^ 2 := by
    rw [svTrace, svNorm_sq, doTrace, doNorm, Complex.re_sum]
    apply Finset.sum_congr rfl
    intro k hk
    rw [dyad_matrixView _ _ _ (Finset.mem_range.1 hk), Complex.mul_conj]; simp
  refine ⟨h, ?_⟩
  rw [h]
  constructor
  · intro h2
    have : svTrace psi * (svTrace psi - 1) = 0 := by nlinarith
    rcases mul_eq_zero.1 this with h3 | h3
    · exact Or.inl h3
    · exact Or.inr (by linarith)
  · rintro (h2 | h2) <;> rw [h2] <;> norm_num

/-- **C09, finding.** For an unnormalised state vector, `trace()` through the state vector and through its density operator differ. -/
theorem sv_trace_ne_dyad_trace : ∃ psi : Array, doTrace (dyad psi psi) psi.shape.prod ≠ svTrace psi := by
  refine ⟨⟨[1], fun _ => 2⟩, ?_⟩
  rw [ne_eq, (sv_trace_eq_dyad_trace_iff_partial _).2]
  have : svTrace ⟨[1], fun _ => 2⟩ = 2 := by
    rw [svTrace, svNorm, frobeniusNorm]
    simp [Complex.normSq_apply]
  rw [this]; norm_num

/-- **C13, state vectors.** Renormalisation returns the old norm; if that is non-zero the new norm is one and the state is the old one
scaled by a positive real. -/
theorem svRenorm_spec (psi : Array) (h : svNorm psi ≠ 0) :
    (svRenorm psi).1 = svNorm psi ∧ svNorm (svRenorm psi).2 = 1 ∧ (svRenorm psi).2.shape = psi.shape ∧ 0 < svNorm psi ∧
    ∀ i, (svRenorm psi).2.get i = (((svNorm psi)⁻¹ : ℝ) : ℂ) * psi.get i := by
  have hpos : 0 < svNorm psi := lt_of_le_of_ne (Real.sqrt_nonneg _) (Ne.symm h)
  refine ⟨rfl, ?_, rfl, hpos, fun i => ?_⟩
  · have hsq : svNorm (svRenorm psi).2 ^ 2 = 1 := by
      rw [svNorm_sq]
      simp only [svRenorm, divBy, Complex.normSq_div]
      rw [← Finset.sum_div, ← svNorm_sq, Complex.normSq_ofReal]
      field_simp
    have h0 : 0 ≤ svNorm (svRenorm psi).2 := Real.sqrt_nonneg _
    nlinarith
  · simp only [svRenorm, divBy, Array.get]
    push_cast; rw [div_eq_inv_mul]

/-- The zero state vector cannot be renormalised: its norm is zero iff all the amplitudes vanish (in C++ the division then yields NaNs). -/
theorem svNorm_eq_zero_iff (psi : Array) : svNorm psi = 0 ↔ ∀ k < psi.shape.prod, psi.data k = 0 := by
  rw [svNorm, frobeniusNorm, Real.sqrt_eq_zero (Finset.sum_nonneg (fun k _ => Complex.normSq_nonneg _)),
    Finset.sum_eq_zero_iff_of_nonneg (fun k _ => Complex.normSq_nonneg _)]
  simp [Complex.normSq_eq_zero]

/-- **C13, density operators.** Renormalisation returns the old trace; if it is non-zero, the new trace is one and every element is scaled by its
inverse. -/
theorem doRenorm_spec (rho : Array) (D : ℕ) (h : doNorm rho D ≠ 0) :
    (doRenorm rho D).1 = doNorm rho D ∧ doNorm (doRenorm rho D).2 D = 1 ∧
    ∀ i, (doRenorm rho D).2.get i = rho.get i / (doNorm rho D : ℂ) := by
  refine ⟨rfl, ?_, fun i => rfl⟩
  have : doNorm (doRenorm rho D).2 D = doNorm rho D / doNorm rho D := by
    conv_lhs => rw [doNorm]
    simp only [doRenorm, divBy, matrixView]
    rw [← Finset.sum_div, Complex.div_ofReal_re]
    congr 1
  rw [this, div_self h]

/-- idempotence of renormalisation -/
theorem svRenorm_idempotent (psi : Array) (h : svNorm psi ≠ 0) (i : List ℕ) :
    (svRenorm (svRenorm psi).2).2.get i = (svRenorm psi).2.get i := by
  obtain ⟨_, h2, _, _, _⟩ := svRenorm_spec psi h
  have := (svRenorm_spec (svRenorm psi).2 (by rw [h2]; norm_num)).2.2.2.2 i
  rw [this, h2]; simp

example : svNorm ⟨[2], fun k => if k = 0 then 3 else 4 * Complex.I⟩ ≠ 0 := by
  rw [ne_eq, svNorm_eq_zero_iff]; push Not
  exact ⟨0, by simp, by simp⟩

/-- The matrix over `Fin D` that a density operator represents. -/
def toMatrix (rho : Array) (D : ℕ) : Matrix (Fin D) (Fin D) ℂ := fun i j => matrixView rho D i j

theorem purity_eq_sum (rho : Array) (D : ℕ) (hs : rho.shape.prod = D * D) :
    purity rho = ∑ i : Fin D, ∑ j : Fin D, Complex.normSq (toMatrix rho D i j) := by
  have h1 : ∀ n, (List.range n).foldl (fun init k => init + Complex.normSq (rho.data k)) 0 = ∑ k ∈ Finset.range n, Complex.normSq (rho.data k) := by
    intro n
    induction n with
    | zero => simp
    | succ n ih => rw [List.range_succ, List.foldl_append, ih, Finset.sum_range_succ]; rfl
  rw [purity, h1, hs]
  have h2 : ∀ n, ∑ k ∈ Finset.range (n * D), Complex.normSq (rho.data k) =
      ∑ i ∈ Finset.range n, ∑ j ∈ Finset.range D, Complex.normSq (rho.data (i * D + j)) := by
    intro n
    induction n with
    | zero => simp
    | succ n ih => rw [add_mul, one_mul, Finset.sum_range_add, ih, Finset.sum_range_succ]
  rw [h2 D, Finset.sum_range]
  apply Finset.sum_congr rfl; intro i _
  rw [Finset.sum_range]
  rfl

/-- **C12.** For a Hermitian density operator of any dimension, `purity` is `Tr ρ²`. -/
theorem purity_eq_trace_sq (rho : Array) (D : ℕ) (hs : rho.shape.prod = D * D) (hH : (toMatrix rho D).IsHermitian) :
    (purity rho : ℂ) = Matrix.trace (toMatrix rho D * toMatrix rho D) := by
  rw [purity_eq_sum rho D hs, Matrix.trace]
  push_cast
  apply Finset.sum_congr rfl; intro i _
  rw [Matrix.diag_apply, Matrix.mul_apply]
  apply Finset.sum_congr rfl; intro j _
  rw [← Complex.mul_conj]
  congr 1
  exact hH.apply j i

theorem posSemidef_minor {D : ℕ} (A : Matrix (Fin D) (Fin D) ℂ) (hA : A.PosSemidef) (i j : Fin D) :
    Complex.normSq (A i j) ≤ (A i i).re * (A j j).re := by
  have hd := (hA.submatrix ![i, j]).det_nonneg
  rw [Matrix.det_fin_two] at hd
  simp only [Matrix.submatrix_apply, Matrix.cons_val_zero, Matrix.cons_val_one] at hd
  have hji : A j i = conj (A i j) := (hA.isHermitian.apply j i).symm
  have hii : ((A i i).re : ℂ) = A i i := Complex.conj_eq_iff_re.1 (hA.isHermitian.apply i i)
  have hjj : ((A j j).re : ℂ) = A j j := Complex.conj_eq_iff_re.1 (hA.isHermitian.apply j j)
  rw [hji, Complex.mul_conj, ← hii, ← hjj, ← Complex.ofReal_mul, ← Complex.ofReal_sub, Complex.zero_le_real] at hd
  linarith

/-- **C12, bounds.** For a positive semidefinite density operator of dimension `D` and trace `t`: `t²/D ≤ purity ≤ t²`; in particular between
`1/D` and `1` for a normalised one. -/
theorem purity_bounds (rho : Array) (D : ℕ) (hD : 0 < D) (hs : rho.shape.prod = D * D) (hP : (toMatrix rho D).PosSemidef) :
    doTrace rho D ^ 2 / D ≤ purity rho ∧ purity rho ≤ doTrace rho D ^ 2 := by
  have htr : doTrace rho D = ∑ i : Fin D, (toMatrix rho D i i).re := by
    rw [doTrace, doNorm, Complex.re_sum, Finset.sum_range]; rfl
  rw [purity_eq_sum rho D hs, htr]
  constructor
  · rw [div_le_iff₀ (by exact_mod_cast hD)]
    calc (∑ i : Fin D, (toMatrix rho D i i).re) ^ 2 ≤ (Finset.univ : Finset (Fin D)).card * ∑ i : Fin D, (toMatrix rho D i i).re ^ 2 :=
          sq_sum_le_card_mul_sum_sq
      _ ≤ D * ∑ i : Fin D, ∑ j : Fin D, Complex.normSq (toMatrix rho D i j) := by
          rw [Finset.card_univ, Fintype.card_fin]
          apply mul_le_mul_of_nonneg_left _ (by positivity)
          apply Finset.sum_le_sum; intro i _
          calc (toMatrix rho D i i).re ^ 2 ≤ Complex.normSq (toMatrix rho D i i) := by
                rw [Complex.normSq_apply]; nlinarith [mul_self_nonneg (toMatrix rho D i i).im]
            _ ≤ _ := Finset.single_le_sum (f := fun j => Complex.normSq (toMatrix rho D i j)) (fun j _ => Complex.normSq_nonneg _) (Finset.mem_univ i)
      _ = _ := by ring
  · rw [sq, Finset.sum_mul_sum]
    apply Finset.sum_le_sum; intro i _
    apply Finset.sum_le_sum; intro j _
    exact posSemidef_minor _ hP i j

/-- **C12, pure states.** The purity of the density operator of a state vector is the fourth power of its norm: one for normalised states. -/
theorem purity_dyad (psi : Array) : purity (dyad psi psi) = svNorm psi ^ 4 := by
  rw [purity_eq_sum (dyad psi psi) psi.shape.prod (by simp [dyad, doDirect, conjArray])]
  have : ∀ i j : Fin psi.shape.prod, Complex.normSq (toMatrix (dyad psi psi) psi.shape.prod i j) = Complex.normSq (psi.data i) * Complex.normSq (psi.data j) := by
    intro i j
    rw [toMatrix, dyad_matrixView _ _ _ j.2]; simp
  simp_rw [this]
  rw [← Finset.sum_mul_sum, show svNorm psi ^ 4 = svNorm psi ^ 2 * svNorm psi ^ 2 by ring, svNorm_sq, Finset.sum_range]

/-- the dyad is positive semidefinite: the hypotheses of `purity_bounds` and `purity_eq_trace_sq` are met by every state vector -/
theorem dyad_posSemidef (psi : Array) : (toMatrix (dyad psi psi) psi.shape.prod).PosSemidef := by
  have : toMatrix (dyad psi psi) psi.shape.prod = Matrix.vecMulVec (fun i : Fin psi.shape.prod => psi.data i) (star (fun i : Fin psi.shape.prod => psi.data i)) := by
    ext i j
    rw [toMatrix, dyad_matrixView _ _ _ j.2]
    rfl
  rw [this]
  exact Matrix.posSemidef_vecMulVec_self_star _

example : (toMatrix (dyad ⟨[2, 2], fun k => (k : ℂ) + Complex.I⟩ ⟨[2, 2], fun k => (k : ℂ) + Complex.I⟩) 4).PosSemidef :=
  dyad_posSemidef ⟨[2, 2], fun k => (k : ℂ) + Complex.I⟩

/-- **C07/C13, products.** The norm of a direct product of state vectors is the product of the norms. -/
theorem svProduct_norm (psi1 psi2 : Array) : svNorm (svProduct psi1 psi2) = svNorm psi1 * svNorm psi2 := by
  have hn : ∀ n, ∑ k ∈ Finset.range (n * psi2.shape.prod), Complex.normSq ((svProduct psi1 psi2).data k) =
      (∑ i ∈ Finset.range n, Complex.normSq (psi1.data i)) * ∑ j ∈ Finset.range psi2.shape.prod, Complex.normSq (psi2.data j) := by
    intro n
    induction n with
    | zero => simp
    | succ n ih =>
      rw [add_mul, one_mul, Finset.sum_range_add, ih, Finset.sum_range_succ, add_mul, Finset.mul_sum (s := Finset.range psi2.shape.prod) (a := Complex.normSq (psi1.data n))]
      congr 1
      apply Finset.sum_congr rfl
      intro l hl
      rw [Finset.mem_range] at hl
      simp only [svProduct, doDirect, direct, if_true]
      have hd : (n * psi2.shape.prod + l) / psi2.shape.prod = n := by
        rw [mul_comm, Nat.mul_add_div (by omega), Nat.div_eq_of_lt hl, add_zero]
      have hm : (n * psi2.shape.prod + l) % psi2.shape.prod = l := by
        rw [mul_comm, Nat.mul_add_mod, Nat.mod_eq_of_lt hl]
      rw [hd, hm, Complex.normSq_mul]
  have h2 : svNorm (svProduct psi1 psi2) ^ 2 = (svNorm psi1 * svNorm psi2) ^ 2 := by
    rw [svNorm_sq, mul_pow, svNorm_sq, svNorm_sq]
    have : (svProduct psi1 psi2).shape.prod = psi1.shape.prod * psi2.shape.prod := by simp [svProduct, doDirect]
    rw [this, hn]
  have p1 : 0 ≤ svNorm (svProduct psi1 psi2) := Real.sqrt_nonneg _
  have p2 : 0 ≤ svNorm psi1 * svNorm psi2 := mul_nonneg (Real.sqrt_nonneg _) (Real.sqrt_nonneg _)
  exact (sq_eq_sq₀ p1 p2).1 h2

/-- **C09/C13, inner product.** `braket` is the inner product: conjugate symmetric, and `⟨ψ|ψ⟩` is the square of the norm. -/
theorem braket_spec (psi phi : Array) (h : psi.shape = phi.shape) :
    braket psi phi = conj (braket phi psi) ∧ braket psi psi = ((svNorm psi ^ 2 : ℝ) : ℂ) := by
  constructor
  · simp only [braket, h, map_sum, map_mul, Complex.conj_conj]
    apply Finset.sum_congr rfl; intro k _; ring
  · rw [svNorm_sq, braket]; push_cast
    apply Finset.sum_congr rfl; intro k _
    rw [mul_comm, Complex.mul_conj]

/-- Histories of the bookkeeper: constructed with some dimensions, then set any number of times. -/
inductive BookReach : Bookkeeper → Prop
  | ctor (dims : List ℕ) : BookReach (Bookkeeper.mk' dims)
  | set (b : Bookkeeper) (dims : List ℕ) : BookReach b → BookReach (b.setDimensions dims)

theorem foldl_mul (l : List ℕ) (a : ℕ) : l.foldl (· * ·) a = a * l.prod := by
  induction l generalizing a with
  | nil => simp
  | cons x xs ih => rw [List.foldl_cons, ih, List.prod_cons, mul_assoc]

/-- **C54.** After any history of constructions and `setDimensions` calls, the total dimension is the product of the dimensions; and two
bookkeepers compare equal iff they have the same dimensions (hence the same total dimension). -/
theorem bookkeeper_invariant (b : Bookkeeper) (h : BookReach b) : b.totalDimension = b.dimensions.prod := by
  cases h <;> simp [Bookkeeper.mk', Bookkeeper.setDimensions, foldl_mul]

theorem bookkeeper_eq_iff (b c : Bookkeeper) (hb : BookReach b) (hc : BookReach c) :
    (b.eqv c = true ↔ b.dimensions = c.dimensions) ∧ (b.eqv c = true → b.totalDimension = c.totalDimension) := by
  have h : b.eqv c = true ↔ b.dimensions = c.dimensions := by simp [Bookkeeper.eqv]
  refine ⟨h, fun he => ?_⟩
  rw [bookkeeper_invariant b hb, bookkeeper_invariant c hc, h.1 he]

/-- **C54.** The total dimension is the product of the dimensions reported of the axes one by one, after any sequence of updates. -/
theorem bookkeeper_axes (b : Bookkeeper) (h : BookReach b) : ∃ d : ℕ → ℕ, (∀ i < b.dimensions.length, b.getDimension i = some (d i)) ∧ (∀ i, b.dimensions.length ≤ i → b.getDimension i = none) ∧
    b.totalDimension = ∏ i ∈ Finset.range b.dimensions.length, d i := by
  refine ⟨fun i => b.dimensions.getD i 0, fun i hi => by simp [Bookkeeper.getDimension, hi], fun i hi => by simp [Bookkeeper.getDimension, hi], ?_⟩
  rw [bookkeeper_invariant b h, Finset.prod_range]
  simp [← List.prod_ofFn]

example : BookReach ((Bookkeeper.mk' [2, 3]).setDimensions [4, 5]) := .set _ _ (.ctor _)
example : ((Bookkeeper.mk' [2, 3]).setDimensions [4, 5]).totalDimension = 20 := by decide

end CppQED.QD
