import Verif.Model.Sigma
import Verif.Props.Tridiagonal
import Mathlib.Data.Matrix.Basic
import Mathlib.LinearAlgebra.Matrix.Hermitian

/-! # Properties C19 (Sigma and its direct products) and C20 (`calculateMatrix`) -/

namespace CppQED.Sigma
open CppQED.Tridiag CppQED.Spec ComplexConjugate

/-- `f` adds the product with the matrix `A` on state vectors of the given dimensions. -/
def ActsAs (dims : List ℕ) (f : Action) (A : NIdx → NIdx → ℂ) : Prop :=
  ∀ psi dpsidt i, i ∈ natBox dims → f psi dpsidt i = dpsidt i + ∑ j ∈ natBox dims, A i j * psi j

/-- Matrix of `|L⟩⟨R|`. -/
def ketbra (L R a b : ℕ) : ℂ := if a = L ∧ b = R then 1 else 0

/-- Kronecker product of a matrix on the first axis and one on the rest. -/
def kronHead (A : ℕ → ℕ → ℂ) (B : NIdx → NIdx → ℂ) : NIdx → NIdx → ℂ
  | a :: i, b :: j => A a b * B i j
  | _, _ => 0

/-- Kronecker product of a matrix on the last axis and one on the rest. -/
def kronTail (B : NIdx → NIdx → ℂ) (A : ℕ → ℕ → ℂ) (i j : NIdx) : ℂ := B i.dropLast j.dropLast * A (i.getLastD 0) (j.getLastD 0)

theorem sum_single_natBox {dims : List ℕ} {j₀ : NIdx} (h : j₀ ∈ natBox dims) (f : NIdx → ℂ) (hf : ∀ j ∈ natBox dims, j ≠ j₀ → f j = 0) :
    ∑ j ∈ natBox dims, f j = f j₀ := Finset.sum_eq_single j₀ hf (fun h' => absurd h h')

/-- **C19.** `Sigma<L,R>` acts as `|L⟩⟨R|`, on every dimension containing `R`. -/
theorem sigma_acts (N L R : ℕ) (hR : R < N) :
    ActsAs [N] (sigmaApply L R) (fun i j => ketbra L R (i.headD 0) (j.headD 0)) := by
  intro psi dpsidt i hi
  rw [sum_natBox_cons]
  simp only [sum_natBox_nil]
  obtain ⟨a, rfl⟩ : ∃ a, i = [a] := by
    have := length_of_mem hi
    exact List.length_eq_one_iff.1 this
  simp only [List.headD_cons, sigmaApply]
  rw [Finset.sum_eq_single R (fun b _ hb => by simp [ketbra, hb]) (fun h => absurd (Finset.mem_range.2 hR) h)]
  by_cases h : a = L
  · subst h; simp [ketbra]
  · rw [Function.update_of_ne (by simpa using h)]; simp [ketbra, h]

/-- **C19.** The matrix of `Sigma<L,R>::dagger()`, i.e. of `Sigma<R,L>`, is the adjoint of that of `Sigma<L,R>`. -/
theorem sigma_dagger (L R a b : ℕ) : ketbra R L a b = conj (ketbra L R b a) := by
  unfold ketbra
  by_cases h : a = R ∧ b = L
  · rw [if_pos h, if_pos ⟨h.2, h.1⟩]; simp
  · rw [if_neg h, if_neg (by tauto)]; simp

/-- **C19.** `Sigma<L,R>*other` acts as `|L⟩⟨R| ⊗ other`, for every partner operator, of any rank. -/
theorem direct_head_acts {dims : List ℕ} {other : Action} {B : NIdx → NIdx → ℂ} (h : ActsAs dims other B) (N L R : ℕ) (hR : R < N) :
    ActsAs (N :: dims) (directApply L R other true) (kronHead (ketbra L R) B) := by
  intro psi dpsidt i hi
  rw [mem_natBox] at hi
  cases hi with
  | @cons a _ i _ ha hi =>
    rw [sum_natBox_cons, Finset.sum_eq_single R]
    · simp only [directApply, writeProject, if_true]
      by_cases e : a = L
      · subst e
        rw [if_pos rfl, h _ _ _ (mem_natBox.2 hi)]
        simp [partialProject, kronHead, ketbra]
      · simp [e, kronHead, ketbra]
    · intro b _ hb
      simp [kronHead, ketbra, hb]
    · intro h'; exact absurd (Finset.mem_range.2 hR) h'

theorem split_last {N : ℕ} {dims : List ℕ} {i : NIdx} (hi : i ∈ natBox (dims ++ [N])) : ∃ i' a, i = i' ++ [a] ∧ i' ∈ natBox dims ∧ a < N := by
  rw [mem_natBox, List.forall₂_iff_zip] at hi
  have hl := hi.1
  have hne : i ≠ [] := by rintro rfl; simp at hl
  refine ⟨i.dropLast, i.getLast hne, (List.dropLast_append_getLast hne).symm, ?_, ?_⟩
  all_goals
    have hi' : List.Forall₂ (· < ·) (i.dropLast ++ [i.getLast hne]) (dims ++ [N]) := by
      rw [List.dropLast_append_getLast hne]; exact List.forall₂_iff_zip.2 hi
    have hlen : i.dropLast.length = dims.length := by simp [hl]
  · rw [mem_natBox]
    have := List.forall₂_take dims.length hi'
    rwa [List.take_left' hlen, List.take_left' rfl] at this
  · have := List.forall₂_drop dims.length hi'
    rw [List.drop_left' hlen, List.drop_left' rfl] at this
    simpa using this

/-- **C19.** `other*Sigma<L,R>` acts as `other ⊗ |L⟩⟨R|`. -/
theorem direct_tail_acts {dims : List ℕ} {other : Action} {B : NIdx → NIdx → ℂ} (h : ActsAs dims other B) (N L R : ℕ) (hR : R < N) :
    ActsAs (dims ++ [N]) (directApply L R other false) (kronTail B (ketbra L R)) := by
  intro psi dpsidt i hi
  obtain ⟨i, a, rfl, hi', ha⟩ := split_last hi
  rw [sum_natBox_append]
  simp only [sum_natBox_cons, sum_natBox_nil]
  have key : ∀ j, ∑ b ∈ Finset.range N, kronTail B (ketbra L R) (i ++ [a]) (j ++ [b]) * psi (j ++ [b]) =
      if a = L then B i j * psi (j ++ [R]) else 0 := by
    intro j
    rw [Finset.sum_eq_single R]
    · by_cases e : a = L <;> simp [kronTail, ketbra, e]
    · intro b _ hb; simp [kronTail, ketbra, hb]
    · intro h'; exact absurd (Finset.mem_range.2 hR) h'
  rw [Finset.sum_congr rfl fun j _ => key j]
  simp only [directApply, writeProject, Bool.false_eq_true, if_false, List.getLast?_append, List.getLast?_singleton, Option.some_or,
    Option.some.injEq, List.dropLast_concat]
  by_cases e : a = L
  · subst e
    rw [if_pos rfl, h _ _ _ hi']
    simp [partialProject]
  · simp [e]

/-- **C19.** `Tridiagonal`s are admissible partners. -/
theorem tridiagonal_acts (T : Tri) (h₁ : T.dims.length = T.rank) (h₂ : T.diffs.length = T.rank) :
    ActsAs T.dims (Tridiag.apply T) (entry T) := fun psi dpsidt i hi => apply_eq_matrix T h₁ h₂ psi dpsidt i hi

/-- **C58, partial.** The product of two `Sigma`s acts as the tensor product whenever it exists. What is missing: it exists only for `R₁=R₂`, cf.
`homogeneous_ill_formed`. -/
theorem homogeneous_acts_partial {L₁ R₁ L₂ R₂ : ℕ} {f : Action} (h : homogeneousProduct L₁ R₁ L₂ R₂ = some f) (N₁ N₂ : ℕ) (h₁ : R₁ < N₁)
    (h₂ : R₂ < N₂) : ActsAs [N₁, N₂] f (kronHead (ketbra L₁ R₁) (fun i j => ketbra L₂ R₂ (i.headD 0) (j.headD 0))) := by
  unfold homogeneousProduct at h
  split_ifs at h with e
  injection h with h
  subst h e
  exact direct_head_acts (sigma_acts N₂ L₂ R₁ h₂) N₁ L₁ R₁ h₁

/-- **C58, negation.** `Sigma<L1,R1>*Sigma<L2,R2>` does not compile for `R1≠R2`. -/
theorem homogeneous_ill_formed (L₁ R₁ L₂ R₂ : ℕ) (h : R₁ ≠ R₂) : homogeneousProduct L₁ R₁ L₂ R₂ = none := if_neg h

/-- Non-trivial instances: `Sigma<0,1>*a` and `a*Sigma<0,1>` on a two-level system and a three-dimensional mode. -/
example : ActsAs [2, 3] (directApply 0 1 (Tridiag.apply aop3) true) (kronHead (ketbra 0 1) (entry aop3)) ∧
    ActsAs [3, 2] (directApply 0 1 (Tridiag.apply aop3) false) (kronTail (entry aop3) (ketbra 0 1)) ∧
    kronHead (ketbra 0 1) (entry aop3) [0, 1] [1, 2] = (Real.sqrt 2 : ℂ) := by
  refine ⟨direct_head_acts (tridiagonal_acts aop3 rfl rfl) 2 0 1 (by norm_num), direct_tail_acts (tridiagonal_acts aop3 rfl rfl) 2 0 1 (by norm_num), ?_⟩
  simp only [kronHead, entry_unary_of (T := aop3) (k := 1) rfl rfl]
  simp [aop3, Diag.size, Diag.empty, ketbra]
  norm_num

/-! ## C20 -/

theorem foldl_colStep {n : ℕ} (f : (Fin n → ℂ) → (Fin n → ℂ) → (Fin n → ℂ)) (row : Fin n) (psi : Fin n → ℂ) (l : List (Fin n))
    (res : Fin n → Fin n → ℂ) :
    (l.foldl (colStep (some f) row) (psi, fun _ => 0, res)) =
      (psi, fun _ => 0, fun c r => if c ∈ l ∧ r = row then Complex.I * f psi (fun _ => 0) c else res c r) := by
  induction l generalizing res with
  | nil => simp
  | cons a l ih =>
    rw [List.foldl_cons]
    simp only [colStep] at ih ⊢
    rw [ih]
    refine Prod.ext rfl (Prod.ext rfl ?_)
    funext c r
    simp only [List.mem_cons]
    by_cases hr : r = row
    · subst hr
      by_cases hl : c ∈ l
      · simp [hl]
      · by_cases hc : c = a
        · subst hc; simp
        · simp [hl, hc, Function.update_of_ne]
    · by_cases hc : c = a
      · subst hc; simp [hr, Function.update_of_ne]
      · simp [hr, hc, Function.update_of_ne]

theorem foldl_rowStep {n : ℕ} (f : (Fin n → ℂ) → (Fin n → ℂ) → (Fin n → ℂ)) (l : List (Fin n)) (res : Fin n → Fin n → ℂ) :
    (l.foldl (rowStep (some f)) (fun _ => 0, fun _ => 0, res)) =
      (fun _ => 0, fun _ => 0, fun c r => if r ∈ l then Complex.I * f (Pi.single r 1) (fun _ => 0) c else res c r) := by
  induction l generalizing res with
  | nil => simp
  | cons a l ih =>
    rw [List.foldl_cons, rowStep, foldl_colStep]
    have e : Function.update (Function.update (fun _ => (0 : ℂ)) a 1) a 0 = fun _ => 0 := by
      rw [Function.update_idem]
      funext x; by_cases h : x = a
      · subst h; simp
      · simp [h]
    simp only [e]
    rw [ih]
    refine Prod.ext rfl (Prod.ext rfl ?_)
    funext c r
    simp only [List.mem_finRange, true_and, List.mem_cons]
    by_cases hl : r ∈ l
    · simp [hl]
    · by_cases hr : r = a
      · subst hr; simp [hl]; rfl
      · simp [hl, hr]

/-- **C20.** If the Hamiltonian part adds `(H/i) psi` to `dpsidt`, then `calculateMatrix` returns the matrix of `H`, for every dimension and every
(even non-Hermitian) `H`, whatever the initial content of the result. -/
theorem calculateMatrix_eq {n : ℕ} (H : Matrix (Fin n) (Fin n) ℂ) (add : (Fin n → ℂ) → (Fin n → ℂ) → (Fin n → ℂ))
    (hadd : ∀ psi dpsidt i, add psi dpsidt i = dpsidt i + ∑ j, (H i j / Complex.I) * psi j) (res0 : Fin n → Fin n → ℂ) (i j : Fin n) :
    calculateMatrix (some add) res0 i j = H i j := by
  rw [calculateMatrix, foldl_rowStep]
  simp only [List.mem_finRange, if_true]
  rw [hadd, Finset.sum_eq_single j]
  · simp only [Pi.single_eq_same, mul_one, zero_add]
    exact mul_div_cancel₀ _ Complex.I_ne_zero
  · intro b _ hb; simp [hb]
  · simp

/-- **C20.** A system without a Hamiltonian part has the zero matrix. -/
theorem calculateMatrix_none {n : ℕ} (res0 : Fin n → Fin n → ℂ) (i j : Fin n) : calculateMatrix none res0 i j = 0 := by
  have h := calculateMatrix_eq (0 : Matrix (Fin n) (Fin n) ℂ) (fun _ d => d) (by simp) res0 i j
  have e : ∀ row : Fin n, colStep (none : Option ((Fin n → ℂ) → (Fin n → ℂ) → (Fin n → ℂ))) row = colStep (some fun _ d => d) row := by
    intro row; funext s col; rfl
  have e' : rowStep (none : Option ((Fin n → ℂ) → (Fin n → ℂ) → (Fin n → ℂ))) = rowStep (some fun _ d => d) := by
    funext s row; simp only [rowStep, e]
  rw [calculateMatrix, e']
  exact h

/-- **C20.** If the contribution `H/i` is anti-Hermitian then the returned matrix is Hermitian. -/
theorem calculateMatrix_hermitian {n : ℕ} (A : Matrix (Fin n) (Fin n) ℂ) (hA : A.conjTranspose = -A)
    (add : (Fin n → ℂ) → (Fin n → ℂ) → (Fin n → ℂ)) (hadd : ∀ psi dpsidt i, add psi dpsidt i = dpsidt i + ∑ j, A i j * psi j)
    (res0 : Fin n → Fin n → ℂ) : (Matrix.of (calculateMatrix (some add) res0)).IsHermitian := by
  have h : Matrix.of (calculateMatrix (some add) res0) = Complex.I • A := by
    ext i j
    rw [Matrix.of_apply, calculateMatrix_eq (Complex.I • A) add]
    intro psi d i; rw [hadd]; simp [mul_div_cancel_left₀]
  rw [h, Matrix.IsHermitian, Matrix.conjTranspose_smul, hA]
  simp

example : calculateMatrix (n := 2) (some fun psi d => fun i => d i + ∑ j, ((!![1, 2; 3, Complex.I] : Matrix _ _ ℂ) i j / Complex.I) * psi j)
    (fun _ _ => 7) 1 0 = 3 := by
  rw [calculateMatrix_eq !![1, 2; 3, Complex.I] _ (fun _ _ _ => rfl)]
  simp

end CppQED.Sigma
