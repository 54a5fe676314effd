import Verif.Spec.Correlations
import Verif.Props.ModeAverages

/-!
# The averages of two-mode and qbit-mode interactions: C24
-/

namespace CppQED.Corr
open CppQED.Elem CppQED.Spec CppQED.ModeEl Matrix
open ComplexConjugate

/-- The expectation value of a product of operators given as matrices. -/
noncomputable def T (m : LDO2) (A : Matrix (Fin m.dim0) (Fin m.dim0) ℂ) (B : Matrix (Fin m.dim1) (Fin m.dim1) ℂ) : ℂ := (Matrix.kroneckerMap (fun x y => x * y) A B * state2 m).trace

theorem T_dagger (m : LDO2) (h : (state2 m).IsHermitian) (A : Matrix (Fin m.dim0) (Fin m.dim0) ℂ) (B : Matrix (Fin m.dim1) (Fin m.dim1) ℂ) : T m Aᴴ Bᴴ = conj (T m A B) := by
  unfold T
  rw [← Complex.star_def, ← Matrix.trace_conjTranspose, Matrix.conjTranspose_mul, h.eq, Matrix.trace_mul_comm, Matrix.conjTranspose_kronecker]

theorem T_add_left (m : LDO2) (A A' : Matrix (Fin m.dim0) (Fin m.dim0) ℂ) (B : Matrix (Fin m.dim1) (Fin m.dim1) ℂ) : T m (A + A') B = T m A B + T m A' B := by
  unfold T; rw [Matrix.add_kronecker, Matrix.add_mul, Matrix.trace_add]

theorem T_add_right (m : LDO2) (A : Matrix (Fin m.dim0) (Fin m.dim0) ℂ) (B B' : Matrix (Fin m.dim1) (Fin m.dim1) ℂ) : T m A (B + B') = T m A B + T m A B' := by
  unfold T; rw [Matrix.kronecker_add, Matrix.add_mul, Matrix.trace_add]

theorem T_smul_left (m : LDO2) (c : ℂ) (A : Matrix (Fin m.dim0) (Fin m.dim0) ℂ) (B : Matrix (Fin m.dim1) (Fin m.dim1) ℂ) : T m (c • A) B = c * T m A B := by
  unfold T; rw [Matrix.smul_kronecker, Matrix.smul_mul, Matrix.trace_smul, smul_eq_mul]

theorem T_smul_right (m : LDO2) (c : ℂ) (A : Matrix (Fin m.dim0) (Fin m.dim0) ℂ) (B : Matrix (Fin m.dim1) (Fin m.dim1) ℂ) : T m A (c • B) = c * T m A B := by
  unfold T; rw [Matrix.kronecker_smul, Matrix.smul_mul, Matrix.trace_smul, smul_eq_mul]

theorem T_neg_left (m : LDO2) (A : Matrix (Fin m.dim0) (Fin m.dim0) ℂ) (B : Matrix (Fin m.dim1) (Fin m.dim1) ℂ) : T m (-A) B = -T m A B := by
  rw [← neg_one_smul ℂ A, T_smul_left]; ring

theorem T_neg_right (m : LDO2) (A : Matrix (Fin m.dim0) (Fin m.dim0) ℂ) (B : Matrix (Fin m.dim1) (Fin m.dim1) ℂ) : T m A (-B) = -T m A B := by
  rw [← neg_one_smul ℂ B, T_smul_right]; ring

theorem T_eq (m : LDO2) (A B : Dens) : T m (mat m.dim0 A) (mat m.dim1 B) =
    ∑ i ∈ Finset.range m.dim0, ∑ j ∈ Finset.range m.dim0, A i j * ∑ k ∈ Finset.range m.dim1, ∑ l ∈ Finset.range m.dim1, B k l * m.index j l i k := by
  unfold T Matrix.trace
  simp only [Matrix.diag_apply, Matrix.mul_apply, Fintype.sum_prod_type, Matrix.kroneckerMap_apply, mat_apply, state2, Matrix.of_apply, Finset.sum_range]
  refine Finset.sum_congr rfl fun i _ => ?_
  rw [Finset.sum_comm]
  refine Finset.sum_congr rfl fun j _ => ?_
  rw [Finset.mul_sum]
  refine Finset.sum_congr rfl fun k _ => ?_
  rw [Finset.mul_sum]
  exact Finset.sum_congr rfl fun l _ => by ring

theorem sum_a (d : ℕ) (F : ℕ → ℕ → ℂ) : ∑ k ∈ Finset.range d, ∑ l ∈ Finset.range d, aOp k l * F k l = ∑ k ∈ Finset.range (d - 1), (Real.sqrt ((1 + k : ℕ) : ℝ) : ℂ) * F k (1 + k) := by
  have := sum_upper d 1 aOp (fun j i => F i j) (fun j => (Real.sqrt j : ℂ)) (fun i j => rfl)
  exact this

theorem sum_ad (d : ℕ) (F : ℕ → ℕ → ℂ) : ∑ k ∈ Finset.range d, ∑ l ∈ Finset.range d, adOp k l * F k l = ∑ k ∈ Finset.range (d - 1), (Real.sqrt ((1 + k : ℕ) : ℝ) : ℂ) * F (1 + k) k := by
  rw [Finset.sum_comm, ← sum_a d fun k l => F l k]
  refine Finset.sum_congr rfl fun k _ => Finset.sum_congr rfl fun l _ => ?_
  congr 1

theorem sum_one (d : ℕ) (F : ℕ → ℕ → ℂ) : ∑ k ∈ Finset.range d, ∑ l ∈ Finset.range d, (if k = l then (1 : ℂ) else 0) * F k l = ∑ k ∈ Finset.range d, F k k := by
  refine Finset.sum_congr rfl fun k hk => ?_
  rw [Finset.sum_eq_single k]
  · simp
  · intro l _ hl; rw [if_neg (Ne.symm hl), zero_mul]
  · intro h; exact absurd hk h

/-! ## The raw averages -/

theorem partialTrace_sum {β : Type*} [AddCommMonoid β] (n : ℕ) (f : ℕ → β) : (PTrace.partialTrace (List.range n) f).getD 0 = ∑ k ∈ Finset.range n, f k := by
  have h : ∀ (L : List ℕ) (b : β), L.foldl (fun res s => res + f s) b = b + (L.map f).sum := by
    intro L
    induction L with
    | nil => simp
    | cons x L ih => intro b; rw [List.foldl_cons, ih, List.map_cons, List.sum_cons, add_assoc]
  have h2 : ∀ L : List ℕ, (PTrace.partialTrace L f).getD 0 = (L.map f).sum := by
    intro L
    cases L with
    | nil => rfl
    | cons x L => unfold PTrace.partialTrace; simp only [Option.getD_some]; rw [h, List.map_cons, List.sum_cons]
  rw [h2, ← Finset.sum_map_val]
  rfl

/-- The averages of the quadratures class are linear in the state. -/
theorem averageQ_sum (d n : ℕ) (I : ℕ → ℕ → ℕ → ℂ) (i : ℕ) (hi : i < 7) :
    ∑ k ∈ Finset.range n, averageQ ⟨d, I k, 0⟩ i = averageQ ⟨d, fun a b => ∑ k ∈ Finset.range n, I k a b, 0⟩ i := by
  have hA := fun m => average_apply m
  have hQ := fun m => averageQ_apply m
  have hre : ∀ (N : ℕ) (c : ℕ → ℂ) (x y : ℕ → ℕ), ∑ k ∈ Finset.range n, (∑ j ∈ Finset.range N, c j * I k (x j) (y j)).re = (∑ j ∈ Finset.range N, c j * ∑ k ∈ Finset.range n, I k (x j) (y j)).re := by
    intro N c x y
    rw [← Complex.re_sum, Finset.sum_comm]
    congr 1
    exact Finset.sum_congr rfl fun j _ => by rw [Finset.mul_sum]
  have him : ∀ (N : ℕ) (c : ℕ → ℂ) (x y : ℕ → ℕ), ∑ k ∈ Finset.range n, (∑ j ∈ Finset.range N, c j * I k (x j) (y j)).im = (∑ j ∈ Finset.range N, c j * ∑ k ∈ Finset.range n, I k (x j) (y j)).im := by
    intro N c x y
    rw [← Complex.im_sum, Finset.sum_comm]
    congr 1
    exact Finset.sum_congr rfl fun j _ => by rw [Finset.mul_sum]
  have hdg : ∀ (N : ℕ) (c : ℕ → ℝ) (x : ℕ → ℕ), ∑ k ∈ Finset.range n, ∑ j ∈ Finset.range N, c j * (⟨d, I k, 0⟩ : LDO).diag (x j) =
      ∑ j ∈ Finset.range N, c j * (⟨d, fun a b => ∑ k ∈ Finset.range n, I k a b, 0⟩ : LDO).diag (x j) := by
    intro N c x
    rw [Finset.sum_comm]
    refine Finset.sum_congr rfl fun j _ => ?_
    rw [← Finset.mul_sum]
    congr 1
    simp only [LDO.diag, Complex.re_sum]
  have : i = 0 ∨ i = 1 ∨ i = 2 ∨ i = 3 ∨ i = 4 ∨ i = 5 ∨ i = 6 := by omega
  rcases this with rfl | rfl | rfl | rfl | rfl | rfl | rfl
  · simp only [(hQ _).1 0 (by norm_num), (hA _).1]; exact hdg _ _ _
  · simp only [(hQ _).1 1 (by norm_num), (hA _).2.1]; exact hdg _ _ _
  · simp only [(hQ _).1 2 (by norm_num), (hA _).2.2.1]; exact hre _ _ _ _
  · simp only [(hQ _).1 3 (by norm_num), (hA _).2.2.2.1]; exact him _ _ _ _
  · simp only [(hQ _).2.1]; exact hre _ _ _ _
  · simp only [(hQ _).2.2.1]; exact him _ _ _ _
  · simp only [(hQ _).2.2.2, Finset.sum_const_zero]

theorem sqrt_prod (a b : ℕ) : (Real.sqrt ((a * b : ℕ) : ℝ) : ℂ) = (Real.sqrt (a : ℝ) : ℂ) * (Real.sqrt (b : ℝ) : ℂ) := by
  rw [Nat.cast_mul, Real.sqrt_mul (by positivity), Complex.ofReal_mul]

theorem average_eq (m : LDO2) : (∀ i < 7, average m i = averageQ (reduced0 m) i) ∧ (∀ i < 7, average m (7 + i) = averageQ (reduced1 m) i) ∧
    T m (mat m.dim0 adOp) (mat m.dim1 aOp) = ⟨average m 14, average m 15⟩ ∧ T m (mat m.dim0 aOp) (mat m.dim1 aOp) = ⟨average m 16, average m 17⟩ := by
  let c : ℕ → ℕ → ℕ → ℝ := fun n k i =>
    (if n < m.dim0 - 1 then (if i = 14 then ((Real.sqrt ((k * (n + 1) : ℕ) : ℝ) : ℂ) * m.index n k (n + 1) (k - 1)).re else 0) + (if i = 15 then ((Real.sqrt ((k * (n + 1) : ℕ) : ℝ) : ℂ) * m.index n k (n + 1) (k - 1)).im else 0) else 0) +
    (if 0 < n then (if i = 16 then ((Real.sqrt ((k * n : ℕ) : ℝ) : ℂ) * m.index n k (n - 1) (k - 1)).re else 0) + (if i = 17 then ((Real.sqrt ((k * n : ℕ) : ℝ) : ℂ) * m.index n k (n - 1) (k - 1)).im else 0) else 0)
  have key : ∀ i, average m i = (if i < 7 then averageQ (reduced0 m) i else if i < 14 then averageQ (reduced1 m) (i - 7) else 0) +
      ((List.range m.dim0).map fun n => ((List.range' 1 (m.dim1 - 1)).map fun k => c n k i).sum).sum := by
    intro i
    unfold average
    simp only
    rw [foldl_averages _ _ fun n i => ((List.range' 1 (m.dim1 - 1)).map fun k => c n k i).sum]
    · congr 1
      rw [partialTrace_sum, partialTrace_sum, Finset.sum_apply]
      by_cases h : i < 7
      · rw [if_pos h, if_pos h]
        exact averageQ_sum m.dim0 m.dim1 (fun k a b => m.index a k b k) i h
      · rw [if_neg h, if_neg h]
        by_cases h' : i < 14
        · rw [if_pos h', if_pos h', Finset.sum_apply]
          exact averageQ_sum m.dim1 m.dim0 (fun k a b => m.index k a k b) (i - 7) (by omega)
        · rw [if_neg h', if_neg h']
    · intro a n i
      rw [foldl_averages _ _ fun k i => c n k i]
      intro a k i
      simp only [c]
      by_cases h1 : n < m.dim0 - 1 <;> by_cases h2 : 0 < n <;> simp only [h1, h2, if_true, if_false, Averages.add_apply] <;> ring
  have red : ∀ i, ((List.range m.dim0).map fun n => ((List.range' 1 (m.dim1 - 1)).map fun k => c n k i).sum).sum = ∑ n ∈ Finset.range m.dim0, ∑ k ∈ Finset.range (m.dim1 - 1), c n (1 + k) i := by
    intro i; rw [sum_map_range]; exact Finset.sum_congr rfl fun n _ => by rw [sum_map_range']
  have low : ∀ i < 14, average m i = if i < 7 then averageQ (reduced0 m) i else averageQ (reduced1 m) (i - 7) := by
    intro i hi
    rw [key, red, if_pos hi, Finset.sum_eq_zero, add_zero]
    intro n _
    refine Finset.sum_eq_zero fun k _ => ?_
    simp [c, show i ≠ 14 by omega, show i ≠ 15 by omega, show i ≠ 16 by omega, show i ≠ 17 by omega]
  have hi : ∀ i ≥ 14, average m i = ∑ n ∈ Finset.range m.dim0, ∑ k ∈ Finset.range (m.dim1 - 1), c n (1 + k) i := by
    intro i hi
    rw [key, red, if_neg (by omega), if_neg (by omega), zero_add]
  have cut : ∀ f : ℕ → ℝ, ∑ n ∈ Finset.range m.dim0, (if n < m.dim0 - 1 then f n else 0) = ∑ n ∈ Finset.range (m.dim0 - 1), f n := by
    intro f
    rcases m.dim0 with - | d
    · simp
    · rw [Finset.sum_range_succ, Nat.add_sub_cancel, if_neg (lt_irrefl _), add_zero]
      exact Finset.sum_congr rfl fun n hn => if_pos (Finset.mem_range.1 hn)
  have shift : ∀ f : ℕ → ℝ, ∑ n ∈ Finset.range m.dim0, (if 0 < n then f n else 0) = ∑ n ∈ Finset.range (m.dim0 - 1), f (1 + n) := by
    intro f
    rcases m.dim0 with - | d
    · simp
    · rw [Finset.sum_range_succ', Nat.add_sub_cancel, if_neg (lt_irrefl _), add_zero]
      exact Finset.sum_congr rfl fun n hn => by rw [if_pos (Nat.succ_pos n), add_comm 1 n]
  refine ⟨fun i h => by rw [low i (by omega), if_pos h], fun i h => by rw [low (7 + i) (by omega), if_neg (by omega), Nat.add_sub_cancel_left], ?_, ?_⟩
  · have e : T m (mat m.dim0 adOp) (mat m.dim1 aOp) = ∑ n ∈ Finset.range (m.dim0 - 1), ∑ k ∈ Finset.range (m.dim1 - 1), (Real.sqrt (((1 + k) * (n + 1) : ℕ) : ℝ) : ℂ) * m.index n (1 + k) (n + 1) k := by
      rw [T_eq, sum_ad]
      refine Finset.sum_congr rfl fun n _ => ?_
      rw [sum_a, Finset.mul_sum]
      refine Finset.sum_congr rfl fun k _ => ?_
      rw [sqrt_prod, add_comm 1 n]; ring
    rw [hi 14 (by norm_num), hi 15 (by norm_num), e]
    apply Complex.ext
    · simp only [Complex.re_sum]
      rw [← cut]
      refine Finset.sum_congr rfl fun n _ => ?_
      simp only [c]
      by_cases h : n < m.dim0 - 1 <;> simp [h]
    · simp only [Complex.im_sum]
      rw [← cut]
      refine Finset.sum_congr rfl fun n _ => ?_
      simp only [c]
      by_cases h : n < m.dim0 - 1 <;> simp [h]
  · have e : T m (mat m.dim0 aOp) (mat m.dim1 aOp) = ∑ n ∈ Finset.range (m.dim0 - 1), ∑ k ∈ Finset.range (m.dim1 - 1), (Real.sqrt (((1 + k) * (1 + n) : ℕ) : ℝ) : ℂ) * m.index (1 + n) (1 + k) n k := by
      rw [T_eq, sum_a]
      refine Finset.sum_congr rfl fun n _ => ?_
      rw [sum_a, Finset.mul_sum]
      refine Finset.sum_congr rfl fun k _ => ?_
      rw [sqrt_prod]; ring
    rw [hi 16 (by norm_num), hi 17 (by norm_num), e]
    apply Complex.ext
    · simp only [Complex.re_sum]
      refine Eq.trans ?_ ((shift fun n => ∑ k ∈ Finset.range (m.dim1 - 1), ((Real.sqrt (((1 + k) * n : ℕ) : ℝ) : ℂ) * m.index n (1 + k) (n - 1) k).re).symm.trans ?_)
      · exact Finset.sum_congr rfl fun n _ => by rw [Nat.add_sub_cancel_left]
      · refine Finset.sum_congr rfl fun n _ => ?_
        simp only [c]
        by_cases h : 0 < n <;> simp [h]
    · simp only [Complex.im_sum]
      refine Eq.trans ?_ ((shift fun n => ∑ k ∈ Finset.range (m.dim1 - 1), ((Real.sqrt (((1 + k) * n : ℕ) : ℝ) : ℂ) * m.index n (1 + k) (n - 1) k).im).symm.trans ?_)
      · exact Finset.sum_congr rfl fun n _ => by rw [Nat.add_sub_cancel_left]
      · refine Finset.sum_congr rfl fun n _ => ?_
        simp only [c]
        by_cases h : 0 < n <;> simp [h]

/-- The expectation value of an operator of one subsystem is that in the reduced state. -/
theorem T_left (m : LDO2) (A : Dens) : T m (mat m.dim0 A) (mat m.dim1 fun i j => if i = j then 1 else 0) = ∑ i ∈ Finset.range m.dim0, ∑ j ∈ Finset.range m.dim0, A i j * (reduced0 m).index j i := by
  rw [T_eq]
  refine Finset.sum_congr rfl fun i _ => Finset.sum_congr rfl fun j _ => ?_
  rw [sum_one]; rfl

theorem T_right (m : LDO2) (B : Dens) : T m (mat m.dim0 fun i j => if i = j then 1 else 0) (mat m.dim1 B) = ∑ k ∈ Finset.range m.dim1, ∑ l ∈ Finset.range m.dim1, B k l * (reduced1 m).index l k := by
  rw [T_eq, sum_one m.dim0 fun i j => ∑ k ∈ Finset.range m.dim1, ∑ l ∈ Finset.range m.dim1, B k l * m.index j l i k, Finset.sum_comm]
  refine Finset.sum_congr rfl fun k _ => ?_
  rw [Finset.sum_comm]
  refine Finset.sum_congr rfl fun l _ => ?_
  rw [← Finset.mul_sum]; rfl

theorem mean_a_sum (m : LDO) : ∑ i ∈ Finset.range m.dim, ∑ j ∈ Finset.range m.dim, aOp i j * m.index j i = ⟨averageQ m 2, averageQ m 3⟩ := by
  rw [sum_a, (averageQ_apply m).1 2 (by norm_num), (averageQ_apply m).1 3 (by norm_num), (ModeEl.average_apply m).2.2.1, (ModeEl.average_apply m).2.2.2.1]

/-- **C24.** The displayed averages of two modes (with or without an interaction between them): of either mode those of the mode with quadratures in its reduced state,
and the correlations `<XQ>-<X><Q>`, `<XP>-<X><P>`, `<YQ>-<Y><Q>`, `<YP>-<Y><P>` of the quadratures. -/
theorem modeCorrelations_spec (m : LDO2) (hρ : (state2 m).IsHermitian) :
    let shown := process (average m)
    (∀ i < 7, shown i = processQ (averageQ (reduced0 m)) i) ∧ (∀ i < 7, shown (7 + i) = processQ (averageQ (reduced1 m)) i) ∧
    shown 14 = correlation m xOp xOp ∧ shown 15 = correlation m xOp yOp ∧ shown 16 = correlation m yOp xOp ∧ shown 17 = correlation m yOp yOp := by
  intro shown
  obtain ⟨h0, h1, hda, haa⟩ := average_eq m
  have congrQ : ∀ (a b : Averages), (∀ i < 7, a i = b i) → ∀ i < 7, processQ a i = processQ b i := by
    intro a b h i hi
    have h7 : ∀ k < 7, a k = b k := h
    simp only [processQ, ModeEl.process, Averages.set_apply, h7 0 (by norm_num), h7 1 (by norm_num), h7 2 (by norm_num), h7 3 (by norm_num), h7 4 (by norm_num), h7 5 (by norm_num), h7 6 (by norm_num), h7 i hi]
  have low : ∀ i < 7, shown i = processQ (averageQ (reduced0 m)) i := by
    intro i hi
    simp only [shown, process, Averages.set_apply, show i ≠ 14 by omega, show i ≠ 15 by omega, show i ≠ 16 by omega, show i ≠ 17 by omega, if_false, show ¬ (7 ≤ i ∧ i < 14) by omega, hi, if_true]
    exact congrQ _ _ h0 i hi
  have high : ∀ i < 7, shown (7 + i) = processQ (averageQ (reduced1 m)) i := by
    intro i hi
    simp only [shown, process, Averages.set_apply, show 7 + i ≠ 14 by omega, show 7 + i ≠ 15 by omega, show 7 + i ≠ 16 by omega, show 7 + i ≠ 17 by omega, if_false, show (7 ≤ 7 + i ∧ 7 + i < 14) by omega,
      and_self, if_true, Nat.add_sub_cancel_left]
    refine congrQ _ _ (fun k hk => ?_) i hi
    rw [if_neg (by omega), h1 k hk]
  have keep : ∀ a : Averages, processQ a 2 = a 2 ∧ processQ a 3 = a 3 := fun a => by constructor <;> simp [processQ, ModeEl.process, Averages.set_apply]
  set r0 := averageQ (reduced0 m) with hr0
  set r1 := averageQ (reduced1 m) with hr1
  have val : shown 14 = average m 14 + average m 16 - Real.sqrt 2 * r0 2 * (Real.sqrt 2 * r1 2) ∧ shown 15 = average m 15 + average m 17 - Real.sqrt 2 * r0 2 * (Real.sqrt 2 * r1 3) ∧
      shown 16 = -average m 15 + average m 17 - Real.sqrt 2 * r0 3 * (Real.sqrt 2 * r1 2) ∧ shown 17 = average m 14 - average m 16 - Real.sqrt 2 * r0 3 * (Real.sqrt 2 * r1 3) := by
    have a2 := h0 2 (by norm_num)
    have a3 := h0 3 (by norm_num)
    have a9 := h1 2 (by norm_num)
    have a10 := h1 3 (by norm_num)
    refine ⟨?_, ?_, ?_, ?_⟩ <;> simp [shown, process, Averages.set_apply, keep, a2, a3, a9, a10]
  refine ⟨low, high, ?_⟩
  set one : Dens := fun i j => if i = j then 1 else 0 with hone
  have mone : ∀ d, mat d one = 1 := by
    intro d; ext i j; rw [mat_apply, Matrix.one_apply, hone]; simp [Fin.ext_iff]
  have adeq : ∀ d, mat d adOp = (mat d aOp)ᴴ := by
    intro d; ext i j; rw [Matrix.conjTranspose_apply, mat_apply, mat_apply]; simp only [adOp, aOp]; split_ifs <;> simp
  set A := mat m.dim0 aOp
  set B := mat m.dim1 aOp
  rw [adeq] at hda
  have hdd : T m Aᴴ Bᴴ = ⟨average m 16, -average m 17⟩ := by rw [T_dagger m hρ, haa]; rfl
  have had : T m A Bᴴ = ⟨average m 14, -average m 15⟩ := by
    have := T_dagger m hρ Aᴴ B
    rw [Matrix.conjTranspose_conjTranspose, hda] at this; rw [this]; rfl
  have ha1 : T m A 1 = ⟨r0 2, r0 3⟩ := by rw [← mone, T_left]; exact mean_a_sum (reduced0 m)
  have hd1 : T m Aᴴ 1 = ⟨r0 2, -r0 3⟩ := by
    have := T_dagger m hρ A 1
    rw [Matrix.conjTranspose_one, ha1] at this; rw [this]; rfl
  have h1a : T m 1 B = ⟨r1 2, r1 3⟩ := by rw [← mone, T_right]; exact mean_a_sum (reduced1 m)
  have h1d : T m 1 Bᴴ = ⟨r1 2, -r1 3⟩ := by
    have := T_dagger m hρ 1 B
    rw [Matrix.conjTranspose_one, h1a] at this; rw [this]; rfl
  have hs : (Real.sqrt 2)⁻¹ * (Real.sqrt 2)⁻¹ = 1 / 2 := by
    rw [← mul_inv, Real.mul_self_sqrt (by norm_num)]; norm_num
  have hs2 : Real.sqrt 2 * (Real.sqrt 2) = 2 := Real.mul_self_sqrt (by norm_num)
  have hi : (Real.sqrt 2)⁻¹ = Real.sqrt 2 / 2 := by
    rw [inv_eq_one_div, div_eq_div_iff (by positivity) (by norm_num), hs2]; norm_num
  have e2 : ∀ X Y : Dens, expectation2 m X Y = T m (mat m.dim0 X) (mat m.dim1 Y) := fun _ _ => rfl
  have cst : ((Real.sqrt 2 : ℂ)⁻¹) = (((Real.sqrt 2) / 2 : ℝ) : ℂ) := by rw [← hi, Complex.ofReal_inv]
  have x1 : T m (mat m.dim0 xOp) 1 = ((Real.sqrt 2 * r0 2 : ℝ) : ℂ) := by
    rw [mat_xOp, T_smul_left, T_add_left, ha1, hd1, cst]
    apply Complex.ext <;> simp
    ring
  have y1 : T m (mat m.dim0 yOp) 1 = ((Real.sqrt 2 * r0 3 : ℝ) : ℂ) := by
    rw [mat_yOp, sub_eq_add_neg, T_smul_left, T_add_left, T_neg_left, ha1, hd1, cst]
    apply Complex.ext <;> simp
    ring
  have q1 : T m 1 (mat m.dim1 xOp) = ((Real.sqrt 2 * r1 2 : ℝ) : ℂ) := by
    rw [mat_xOp, T_smul_right, T_add_right, h1a, h1d, cst]
    apply Complex.ext <;> simp
    ring
  have p1 : T m 1 (mat m.dim1 yOp) = ((Real.sqrt 2 * r1 3 : ℝ) : ℂ) := by
    rw [mat_yOp, sub_eq_add_neg, T_smul_right, T_add_right, T_neg_right, h1a, h1d, cst]
    apply Complex.ext <;> simp
    ring
  have hI : ∀ z : ℂ, (Real.sqrt 2 : ℂ)⁻¹ * ((Real.sqrt 2 : ℂ)⁻¹ * z) = 1 / 2 * z := fun z => by rw [← mul_assoc, inv_sqrt_two]
  have xq : T m (mat m.dim0 xOp) (mat m.dim1 xOp) = ((average m 14 + average m 16 : ℝ) : ℂ) := by
    rw [mat_xOp, mat_xOp, T_smul_left, T_smul_right, T_add_left, T_add_right, T_add_right, haa, hda, hdd, had, hI]
    apply Complex.ext <;> simp <;> ring
  have xp : T m (mat m.dim0 xOp) (mat m.dim1 yOp) = ((average m 15 + average m 17 : ℝ) : ℂ) := by
    rw [mat_xOp, mat_yOp, sub_eq_add_neg, T_smul_left, T_smul_right, mul_assoc (-Complex.I), mul_left_comm _ (-Complex.I), hI, T_add_left, T_add_right, T_add_right, T_neg_right, T_neg_right, haa, hda, hdd, had]
    apply Complex.ext <;> simp <;> ring
  have yq : T m (mat m.dim0 yOp) (mat m.dim1 xOp) = ((-average m 15 + average m 17 : ℝ) : ℂ) := by
    rw [mat_xOp, mat_yOp, sub_eq_add_neg, T_smul_left, T_smul_right, mul_assoc (-Complex.I), hI, T_add_left, T_add_right, T_add_right, T_neg_left, T_neg_left, haa, hda, hdd, had]
    apply Complex.ext <;> simp <;> ring
  have yp : T m (mat m.dim0 yOp) (mat m.dim1 yOp) = ((average m 14 - average m 16 : ℝ) : ℂ) := by
    rw [mat_yOp, mat_yOp, sub_eq_add_neg, sub_eq_add_neg, T_smul_left, T_smul_right, mul_assoc (-Complex.I), mul_assoc (-Complex.I), mul_left_comm _ (-Complex.I), hI,
      T_add_left, T_add_right, T_add_right, T_neg_left, T_neg_left, T_neg_right, T_neg_right, haa, hda, hdd, had]
    apply Complex.ext <;> simp <;> ring
  unfold correlation
  simp only [e2, ← hone, mone, x1, y1, q1, p1, xq, xp, yq, yp, Complex.ofReal_re]
  exact val

/-- The reduced states are Hermitian, so that the averages of either mode have the meaning given by `averagedQuadratures_spec`. -/
theorem reduced_hermitian (m : LDO2) (hρ : (state2 m).IsHermitian) : (state (reduced0 m)).IsHermitian ∧ (state (reduced1 m)).IsHermitian := by
  have h : ∀ i < m.dim0, ∀ k < m.dim1, ∀ j < m.dim0, ∀ l < m.dim1, conj (m.index j l i k) = m.index i k j l := by
    intro i hi k hk j hj l hl
    exact congrFun (congrFun hρ (⟨i, hi⟩, ⟨k, hk⟩)) (⟨j, hj⟩, ⟨l, hl⟩)
  constructor
  · ext i j
    change conj (∑ k ∈ Finset.range m.dim1, m.index j k i k) = ∑ k ∈ Finset.range m.dim1, m.index i k j k
    rw [map_sum]
    exact Finset.sum_congr rfl fun k hk => h i i.2 k (Finset.mem_range.1 hk) j j.2 k (Finset.mem_range.1 hk)
  · ext i j
    change conj (∑ k ∈ Finset.range m.dim0, m.index k j k i) = ∑ k ∈ Finset.range m.dim0, m.index k i k j
    rw [map_sum]
    exact Finset.sum_congr rfl fun k hk => h k (Finset.mem_range.1 hk) i i.2 k (Finset.mem_range.1 hk) j j.2

/-- The reduced states have the trace of the state. -/
theorem reduced_trace (m : LDO2) : (state (reduced0 m)).trace = (state2 m).trace ∧ (state (reduced1 m)).trace = (state2 m).trace := by
  have e : (state2 m).trace = ∑ i ∈ Finset.range m.dim0, ∑ k ∈ Finset.range m.dim1, m.index i k i k := by
    unfold Matrix.trace
    simp only [Matrix.diag_apply, Fintype.sum_prod_type, state2, Matrix.of_apply, Finset.sum_range]
  constructor
  · rw [e, Finset.sum_range]; rfl
  · rw [e, Finset.sum_comm, Finset.sum_range]; rfl

/-! ## Qbit and mode -/

/-- **C24.** The displayed correlations of a qbit and a mode are the expectation values `<σa†>`, `<σa>` and `<½(|1><1|-|0><0|)a>`, real and imaginary parts.
(The last is labelled by `sigmaZ`; as an operator it is `-½` times the `sigmazop` of the qbit.) -/
theorem qbitModeCorrelations_spec (m : LDO2) (h2 : m.dim0 = 2) :
    expectation2 m sigma adOp = ⟨averageQbitMode m 0, averageQbitMode m 1⟩ ∧ expectation2 m sigma aOp = ⟨averageQbitMode m 2, averageQbitMode m 3⟩ ∧
    expectation2 m (fun i j => -(1 / 2) * sigmaZ i j) aOp = ⟨averageQbitMode m 4, averageQbitMode m 5⟩ := by
  let t0 : ℕ → ℂ := fun n => Real.sqrt ((n + 1 : ℕ) : ℝ) * m.index 1 n 0 (n + 1)
  let t2 : ℕ → ℂ := fun n => Real.sqrt ((n + 1 : ℕ) : ℝ) * m.index 1 (n + 1) 0 n
  let t4 : ℕ → ℂ := fun n => ((1 / 2 : ℝ) : ℂ) * Real.sqrt ((n + 1 : ℕ) : ℝ) * (m.index 1 (n + 1) 1 n - m.index 0 (n + 1) 0 n)
  have key : ∀ i, averageQbitMode m i = ∑ n ∈ Finset.range (m.dim1 - 1), ((if i = 0 then (t0 n).re else 0) + if i = 1 then (t0 n).im else 0) +
      ∑ n ∈ Finset.range (m.dim1 - 1), ((if i = 2 then (t2 n).re else 0) + if i = 3 then (t2 n).im else 0) + ∑ n ∈ Finset.range (m.dim1 - 1), ((if i = 4 then (t4 n).re else 0) + if i = 5 then (t4 n).im else 0) := by
    intro i
    unfold averageQbitMode
    rw [foldl_averages _ _ fun n i => (if i = 4 then (t4 n).re else 0) + if i = 5 then (t4 n).im else 0,
      foldl_averages _ _ fun n i => (if i = 2 then (t2 n).re else 0) + if i = 3 then (t2 n).im else 0,
      foldl_averages _ _ fun n i => (if i = 0 then (t0 n).re else 0) + if i = 1 then (t0 n).im else 0]
    · rw [sum_map_range, sum_map_range, sum_map_range, zero_add]
    all_goals
      intro a n i
      simp only [Averages.add_apply, t0, t2, t4]
      ring
  have pick : ∀ (f : ℕ → ℕ → ℂ), ∑ i ∈ Finset.range m.dim0, ∑ j ∈ Finset.range m.dim0, f i j = f 0 0 + f 0 1 + (f 1 0 + f 1 1) := by
    intro f; rw [h2]; simp [Finset.sum_range_succ]
  have e2 : ∀ X Y : Dens, expectation2 m X Y = T m (mat m.dim0 X) (mat m.dim1 Y) := fun _ _ => rfl
  refine ⟨?_, ?_, ?_⟩
  · have : expectation2 m sigma adOp = ∑ n ∈ Finset.range (m.dim1 - 1), t0 n := by
      rw [e2, T_eq, pick]
      simp only [sigma, sum_ad]
      simp [t0, add_comm]
    rw [this, key 0, key 1]
    apply Complex.ext <;> simp [Complex.re_sum, Complex.im_sum]
  · have : expectation2 m sigma aOp = ∑ n ∈ Finset.range (m.dim1 - 1), t2 n := by
      rw [e2, T_eq, pick]
      simp only [sigma, sum_a]
      simp [t2, add_comm]
    rw [this, key 2, key 3]
    apply Complex.ext <;> simp [Complex.re_sum, Complex.im_sum]
  · have : expectation2 m (fun i j => -(1 / 2) * sigmaZ i j) aOp = ∑ n ∈ Finset.range (m.dim1 - 1), t4 n := by
      rw [e2, T_eq, pick]
      simp only [sigmaZ, sum_a]
      simp only [if_true, show (0 : ℕ) ≠ 1 by norm_num, show (1 : ℕ) ≠ 0 by norm_num, if_false, mul_zero, zero_mul, add_zero, zero_add, Finset.mul_sum, ← Finset.sum_add_distrib]
      refine Finset.sum_congr rfl fun n _ => ?_
      simp only [t4, add_comm 1 n]
      push_cast
      ring
    rw [this, key 4, key 5]
    apply Complex.ext <;> simp [Complex.re_sum, Complex.im_sum]

/-! ## Monitoring the cutoff -/

/-- **C24.** With the monitoring of the cutoff, the averages of the base are unchanged provided the base does not use more than its own averages, and the last one is the population of the highest level. -/
theorem monitorCutoff_spec (base : LDO → Averages) (proc : Averages → Averages) (size : ℕ) (m : LDO) (hsize : 1 < size)
    (hproc : ∀ a b : Averages, (∀ i < size - 1, a i = b i) → ∀ i < size - 1, proc a i = proc b i) :
    (∀ i < size - 1, processMonitorCutoff proc size (averageMonitorCutoff base size m) i = proc (base m) i) ∧
    processMonitorCutoff proc size (averageMonitorCutoff base size m) (size - 1) = m.diag (m.dim - 1) := by
  unfold processMonitorCutoff averageMonitorCutoff
  rw [if_pos hsize]
  constructor
  · intro i hi
    rw [if_pos (by omega)]
    exact hproc _ _ (fun k hk => by rw [Averages.set_apply, if_neg (by omega)]) i hi
  · rw [if_neg (by omega), Averages.set_apply, if_pos rfl]

/-- The mode with quadratures and cutoff monitoring: eight averages. -/
theorem monitorCutoff_quadratures (m : LDO) :
    (∀ i < 7, processMonitorCutoff processQ 8 (averageMonitorCutoff averageQ 8 m) i = processQ (averageQ m) i) ∧ processMonitorCutoff processQ 8 (averageMonitorCutoff averageQ 8 m) 7 = m.diag (m.dim - 1) := by
  refine monitorCutoff_spec averageQ processQ 8 m (by norm_num) ?_
  intro a b h i hi
  have h7 : ∀ k < 7, a k = b k := h
  simp only [processQ, ModeEl.process, Averages.set_apply, h7 0 (by norm_num), h7 1 (by norm_num), h7 2 (by norm_num), h7 3 (by norm_num), h7 4 (by norm_num), h7 5 (by norm_num), h7 6 (by norm_num), h7 i hi]

/-! ## Non-vacuity -/

/-- A Hermitian state of two modes with nonzero correlations: an equal superposition of |01> and |10>. -/
noncomputable def bell : LDO2 := ⟨2, 2, fun n k n' k' => if n + k = 1 ∧ n' + k' = 1 then ((1 / 2 : ℝ) : ℂ) else 0⟩

theorem bell_hermitian : (state2 bell).IsHermitian := by
  ext x y
  change conj (bell.index y.1 y.2 x.1 x.2) = bell.index x.1 x.2 y.1 y.2
  simp only [bell]
  by_cases h : (x.1 : ℕ) + x.2 = 1 <;> by_cases h' : (y.1 : ℕ) + y.2 = 1 <;> simp only [h, h', and_self, and_true, and_false, if_true, if_false, Complex.conj_ofReal, map_zero]

/-- Its displayed `XQ` correlation is `½`. -/
example : correlation bell xOp xOp = 1 / 2 := by
  rw [← (modeCorrelations_spec bell bell_hermitian).2.2.1]
  have h := average_eq bell
  obtain ⟨h0, h1, hda, haa⟩ := h
  have a2 : averageQ (reduced0 bell) 2 = 0 := by
    rw [(averageQ_apply _).1 2 (by norm_num), (ModeEl.average_apply _).2.2.1]
    simp [reduced0, bell, Finset.sum_range_succ]
  have a9 : averageQ (reduced1 bell) 2 = 0 := by
    rw [(averageQ_apply _).1 2 (by norm_num), (ModeEl.average_apply _).2.2.1]
    simp [reduced1, bell, Finset.sum_range_succ]
  have e14 : average bell 14 = 1 / 2 := by
    have := congrArg Complex.re hda
    rw [T_eq, sum_ad] at this
    simp only [sum_a] at this
    rw [← this]
    simp [bell]
  have e16 : average bell 16 = 0 := by
    have := congrArg Complex.re haa
    rw [T_eq, sum_a] at this
    simp only [sum_a] at this
    rw [← this]
    simp [bell]
  simp [process, Averages.set_apply, processQ, ModeEl.process, h0 2 (by norm_num), a2, e14, e16]

end CppQED.Corr
