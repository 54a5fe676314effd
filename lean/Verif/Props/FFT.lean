import Verif.Model.FFT
import Mathlib.RingTheory.RootsOfUnity.Complex
import Mathlib.Data.Complex.BigOperators
import Mathlib.Tactic.FieldSimp

/-! # C14: the position/momentum transformation -/

namespace CppQED.FFT
open ComplexConjugate

/-- Specification: the element `F_{jn} = N^{-1/2} (-1)^{j+n} e^{∓2πi jn/N}` of the transformation matrix (− for x→k, + for k→x). -/
noncomputable def kernel (N : ℕ) (dir : Direction) (j n : ℕ) : ℂ :=
  (-1) ^ (j + n) / (Real.sqrt N : ℂ) * Complex.exp ((match dir with | .xk => -1 | .kx => 1) * (2 * Real.pi * Complex.I * j * n / N))

/-! ## Helpers -/

theorem swapLoop_apply (size half : ℕ) (psi : ℕ → ℂ) (m : ℕ) (hm : m ≤ half) (j : ℕ) :
    ((List.range m).foldl (fun psi j => helper psi j (j + half) ((size : ℝ) ^ (-(1/2) : ℝ))) psi) j =
      if j < m then ((size : ℝ) ^ (-(1/2) : ℝ) : ℝ) * psi (j + half)
      else if half ≤ j ∧ j < half + m then ((size : ℝ) ^ (-(1/2) : ℝ) : ℝ) * psi (j - half) else psi j := by
  induction m generalizing j with
  | zero => simp
  | succ m ih =>
    rw [List.range_succ, List.foldl_append]
    have ih := ih (by omega)
    generalize (List.range m).foldl (fun psi j => helper psi j (j + half) ((size : ℝ) ^ (-(1/2) : ℝ))) psi = φ at ih
    simp only [List.foldl_cons, List.foldl_nil, helper]
    rw [Function.update_apply, Function.update_apply]
    by_cases h1 : j = m + half
    · subst h1
      rw [if_pos rfl, ih, if_neg (by omega), if_neg (by omega), if_neg (by omega), if_pos (by omega)]
      congr 2; omega
    · rw [if_neg h1]
      by_cases h2 : j = m
      · subst h2
        rw [if_pos rfl, if_pos (by omega), ih, if_neg (by omega), if_neg (by omega)]
      · rw [if_neg h2, ih]
        by_cases h3 : j < m
        · rw [if_pos h3, if_pos (by omega)]
        · rw [if_neg h3, if_neg (show ¬ j < m + 1 by omega)]
          by_cases h4 : half ≤ j ∧ j < half + m
          · rw [if_pos h4, if_pos (by omega)]
          · rw [if_neg h4, if_neg (by omega)]

theorem signLoop_apply (m : ℕ) (psi : ℕ → ℂ) (j : ℕ) :
    (((List.range m).map (fun m => 2 * m + 1)).foldl (fun psi j => Function.update psi j (psi j * (-1))) psi) j =
      if j < 2 * m then (-1) ^ j * psi j else psi j := by
  induction m generalizing j with
  | zero => simp
  | succ m ih =>
    rw [List.range_succ, List.map_append, List.foldl_append]
    simp only [List.map_cons, List.map_nil, List.foldl_cons, List.foldl_nil]
    rw [Function.update_apply]
    by_cases h : j = 2 * m + 1
    · subst h
      rw [if_pos rfl, ih, if_neg (by omega), if_pos (by omega)]
      rw [pow_succ, pow_mul]; simp
    · rw [if_neg h, ih]
      by_cases h2 : j < 2 * m
      · rw [if_pos h2, if_pos (by omega)]
      · rw [if_neg h2]
        by_cases h3 : j = 2 * m
        · subst h3; rw [if_pos (by omega), pow_mul]; simp
        · rw [if_neg (by omega)]

theorem gslSign_eq (dir : Direction) : gslSign dir = (match dir with | .xk => -1 | .kx => 1) := by
  cases dir <;> simp [gslSign]

theorem exp_half (s : ℂ) (hs : s = 1 ∨ s = -1) (N half j n : ℕ) (hN : N = 2 * half) (h0 : 0 < half) :
    Complex.exp (s * (2 * Real.pi * Complex.I * ((j + half : ℕ) : ℂ) * n / N)) = (-1) ^ n * Complex.exp (s * (2 * Real.pi * Complex.I * j * n / N)) := by
  have hN0 : (N : ℂ) ≠ 0 := by simp; omega
  have e : s * (2 * Real.pi * Complex.I * ((j + half : ℕ) : ℂ) * n / N) = (n : ℂ) * (s * (Real.pi * Complex.I)) + s * (2 * Real.pi * Complex.I * j * n / N) := by
    have : (N : ℂ) = 2 * half := by rw [hN]; push_cast; ring
    field_simp
    rw [this]; push_cast; ring
  rw [e, Complex.exp_add, Complex.exp_nat_mul]
  have : Complex.exp (s * (Real.pi * Complex.I)) = -1 := by
    rcases hs with rfl | rfl
    · rw [one_mul, Complex.exp_pi_mul_I]
    · rw [neg_one_mul, Complex.exp_neg, Complex.exp_pi_mul_I]; norm_num
  rw [this]

/-! ## Theorems -/

/-- **C14, meaning.** For every power-of-two size (including the trivial size 1) the transformation is the matrix `kernel`, i.e. the unitary
discrete Fourier transform with both origins shifted to the middle of the grid. -/
theorem ffTransformCV_eq_kernel (m : ℕ) (dir : Direction) (psi : ℕ → ℂ) :
    ∃ φ, ffTransformCV (2 ^ m) dir psi = some φ ∧
      ∀ j < 2 ^ m, φ j = ∑ n ∈ Finset.range (2 ^ m), kernel (2 ^ m) dir j n * psi n := by
  cases m with
  | zero =>
    refine ⟨psi, by simp [ffTransformCV], fun j hj => ?_⟩
    obtain rfl : j = 0 := by simpa using hj
    simp [kernel]
  | succ m =>
    have hsz : ¬ 2 ^ (m + 1) < 2 := by
      have := Nat.one_le_two_pow (n := m)
      rw [pow_succ]; omega
    have hN : 2 ^ (m + 1) = 2 * 2 ^ m := by rw [pow_succ]; ring
    have hh : 2 ^ (m + 1) >>> 1 = 2 ^ m := by rw [Nat.shiftRight_one, hN]; omega
    have h0 : 0 < 2 ^ m := by positivity
    refine ⟨_, by rw [ffTransformCV, if_neg hsz, transform, if_pos ⟨m + 1, rfl⟩, Option.map_some], fun j hj => ?_⟩
    rw [signLoop, signLoop_apply, if_pos (by omega), hh, swapLoop, swapLoop_apply _ _ _ _ le_rfl]
    have hr : (((2 ^ (m + 1) : ℕ) : ℝ) ^ (-(1/2) : ℝ) : ℝ) = 1 / Real.sqrt ((2 ^ (m + 1) : ℕ) : ℝ) := by
      rw [Real.rpow_neg (by positivity), Real.sqrt_eq_rpow, one_div, one_div]
    have hsg : gslSign dir = 1 ∨ gslSign dir = -1 := by cases dir <;> simp [gslSign]
    have key : ∀ j' : ℕ, (∀ n : ℕ, Complex.exp (gslSign dir * (2 * Real.pi * Complex.I * j' * n / ((2 ^ (m+1) : ℕ) : ℂ))) =
          (-1) ^ n * Complex.exp (gslSign dir * (2 * Real.pi * Complex.I * j * n / ((2 ^ (m+1) : ℕ) : ℂ)))) →
        (-1) ^ j * ((((2 ^ (m + 1) : ℕ) : ℝ) ^ (-(1/2) : ℝ) : ℝ) *
          ∑ l ∈ Finset.range (2 ^ (m + 1)), Complex.exp (gslSign dir * (2 * Real.pi * Complex.I * j' * l / ((2 ^ (m + 1) : ℕ) : ℂ))) * psi l) =
        ∑ n ∈ Finset.range (2 ^ (m + 1)), kernel (2 ^ (m + 1)) dir j n * psi n := by
      intro j' h
      rw [hr, Finset.mul_sum, Finset.mul_sum]
      apply Finset.sum_congr rfl
      intro n _
      rw [h]
      unfold kernel
      rw [← gslSign_eq]
      push_cast
      rw [pow_add]
      ring
    by_cases h : j < 2 ^ m
    · rw [if_pos h]
      exact key (j + 2 ^ m) (fun n => exp_half _ hsg _ _ _ _ hN h0)
    · rw [if_neg h, if_pos (by omega)]
      apply key (j - 2 ^ m)
      intro n
      have e := exp_half (gslSign dir) hsg (2 ^ (m+1)) (2 ^ m) (j - 2 ^ m) n hN h0
      rw [show j - 2 ^ m + 2 ^ m = j by omega] at e
      rw [e, ← mul_assoc, ← mul_pow]; simp

/-- **C14, domain.** The transformation raises an error exactly for sizes `≥ 2` that are not powers of two. -/
theorem ffTransformCV_throws_iff (size : ℕ) (dir : Direction) (psi : ℕ → ℂ) :
    ffTransformCV size dir psi = none ↔ 2 ≤ size ∧ ¬ ∃ m, size = 2 ^ m := by
  rw [ffTransformCV]
  split
  · simp; omega
  · rw [transform]
    split
    · simp_all
    · simp_all; omega

theorem kernel_symm (N : ℕ) (dir : Direction) (j n : ℕ) : kernel N dir j n = kernel N dir n j := by
  unfold kernel
  rw [add_comm j n]
  congr 3
  ring

theorem kernel_conj (N : ℕ) (dir : Direction) (j n : ℕ) : conj (kernel N dir j n) = kernel N (reverse dir) j n := by
  unfold kernel
  rw [map_mul, ← Complex.exp_conj]
  simp only [map_div₀, map_pow, map_neg, map_one, map_mul, Complex.conj_ofReal, Complex.conj_I, Complex.conj_natCast, map_ofNat]
  cases dir <;> simp only [reverse] <;> congr 2 <;> simp [neg_div]

/-- orthogonality of the kernel -/
theorem kernel_orthogonal (N : ℕ) (hN : 0 < N) (dir : Direction) (j k : ℕ) (hj : j < N) (hk : k < N) :
    ∑ n ∈ Finset.range N, kernel N (reverse dir) j n * kernel N dir n k = if j = k then 1 else 0 := by
  have hNc : (N : ℂ) ≠ 0 := by simp; omega
  have hsq : (Real.sqrt N : ℂ) * Real.sqrt N = N := by
    rw [← Complex.ofReal_mul, Real.mul_self_sqrt (by positivity)]; simp
  have hsq0 : (Real.sqrt N : ℂ) ≠ 0 := fun h => hNc (by rw [← hsq, h, zero_mul])
  set s : ℂ := (match dir with | .xk => -1 | .kx => 1) with hs
  have hrev : (match reverse dir with | .xk => (-1 : ℂ) | .kx => 1) = -s := by
    cases dir <;> simp [reverse, hs]
  have hsg : s = 1 ∨ s = -1 := by cases dir <;> simp [hs]
  have hterm : ∀ n, kernel N (reverse dir) j n * kernel N dir n k =
      (-1) ^ (j + k) / N * (Complex.exp (s * (2 * Real.pi * Complex.I * ((k : ℂ) - j) / N))) ^ n := by
    intro n
    unfold kernel
    rw [← hs, hrev, ← Complex.exp_nat_mul]
    have e : Complex.exp ((n : ℂ) * (s * (2 * Real.pi * Complex.I * ((k : ℂ) - j) / N))) =
        Complex.exp (-s * (2 * Real.pi * Complex.I * j * n / N)) * Complex.exp (s * (2 * Real.pi * Complex.I * n * k / N)) := by
      rw [← Complex.exp_add]; congr 1; ring
    rw [e, ← hsq]
    have e2 : ((-1 : ℂ)) ^ (j + n) * (-1) ^ (n + k) = (-1) ^ (j + k) := by
      rw [← pow_add, show j + n + (n + k) = (j + k) + 2 * n by ring, pow_add, pow_mul]; simp
    rw [← e2]
    field_simp
  rw [Finset.sum_congr rfl (fun n _ => hterm n), ← Finset.mul_sum]
  by_cases h : j = k
  · subst h
    rw [if_pos rfl]
    simp only [sub_self, mul_zero, zero_div, Complex.exp_zero, one_pow, Finset.sum_const, Finset.card_range, nsmul_eq_mul, mul_one]
    rw [← two_mul, pow_mul]
    field_simp
    norm_num
  · rw [if_neg h]
    set z := Complex.exp (s * (2 * Real.pi * Complex.I * ((k : ℂ) - j) / N)) with hz
    have hzN : z ^ N = 1 := by
      rw [hz, ← Complex.exp_nat_mul, Complex.exp_eq_one_iff]
      rcases hsg with h1 | h1
      · refine ⟨(k : ℤ) - j, ?_⟩
        rw [h1]; push_cast; field_simp
      · refine ⟨(j : ℤ) - k, ?_⟩
        rw [h1]; push_cast; field_simp; ring
    have hz1 : z ≠ 1 := by
      intro h1
      rw [hz, Complex.exp_eq_one_iff] at h1
      obtain ⟨q, hq⟩ := h1
      have hpi : (2 * Real.pi * Complex.I : ℂ) ≠ 0 := Complex.two_pi_I_ne_zero
      have hq' : s * ((k : ℂ) - j) = q * N := by
        have : s * (2 * Real.pi * Complex.I * ((k : ℂ) - j) / N) * N = q * (2 * Real.pi * Complex.I) * N := by rw [hq]
        rw [show s * (2 * Real.pi * Complex.I * ((k : ℂ) - j) / N) * N = (2 * Real.pi * Complex.I) * (s * ((k : ℂ) - j)) by field_simp,
          show (q : ℂ) * (2 * Real.pi * Complex.I) * N = (2 * Real.pi * Complex.I) * (q * N) by ring] at this
        exact mul_left_cancel₀ hpi this
      have hint : ∃ d : ℤ, (d = (k : ℤ) - j ∨ d = (j : ℤ) - k) ∧ d = q * N := by
        rcases hsg with h1 | h1
        · refine ⟨(k : ℤ) - j, Or.inl rfl, ?_⟩
          rw [h1, one_mul] at hq'; exact_mod_cast hq'
        · refine ⟨(j : ℤ) - k, Or.inr rfl, ?_⟩
          rw [h1] at hq'
          have : ((j : ℂ) - k) = q * N := by rw [← hq']; ring
          exact_mod_cast this
      obtain ⟨d, hd, hdq⟩ := hint
      have hd0 : d = 0 := Int.eq_zero_of_abs_lt_dvd (m := (N : ℤ)) ⟨q, by rw [hdq]; ring⟩ (by rw [abs_lt]; omega)
      omega
    have : (z - 1) * ∑ n ∈ Finset.range N, z ^ n = 0 := by
      rw [mul_comm, geom_sum_mul, hzN, sub_self]
    rw [(mul_eq_zero.1 this).resolve_left (sub_ne_zero.2 hz1), mul_zero]

theorem reverse_reverse (dir : Direction) : reverse (reverse dir) = dir := by cases dir <;> rfl

/-- **C14, round trip.** Transforming in one direction and then in the reverse one restores the state vector. -/
theorem ffTransform_roundtrip (m : ℕ) (dir : Direction) (psi φ χ : ℕ → ℂ) (h1 : ffTransformCV (2 ^ m) dir psi = some φ)
    (h2 : ffTransformCV (2 ^ m) (reverse dir) φ = some χ) : ∀ j < 2 ^ m, χ j = psi j := by
  intro j hj
  obtain ⟨φ', a1, a2⟩ := ffTransformCV_eq_kernel m dir psi
  rw [h1] at a1; obtain rfl := Option.some.inj a1
  obtain ⟨χ', b1, b2⟩ := ffTransformCV_eq_kernel m (reverse dir) φ
  rw [h2] at b1; obtain rfl := Option.some.inj b1
  rw [b2 j hj]
  have : ∀ n ∈ Finset.range (2 ^ m), kernel (2 ^ m) (reverse dir) j n * φ n =
      ∑ k ∈ Finset.range (2 ^ m), kernel (2 ^ m) (reverse dir) j n * kernel (2 ^ m) dir n k * psi k := by
    intro n hn
    rw [a2 n (Finset.mem_range.1 hn), Finset.mul_sum]
    exact Finset.sum_congr rfl (fun k _ => by ring)
  rw [Finset.sum_congr rfl this, Finset.sum_comm]
  have h3 : ∀ k ∈ Finset.range (2 ^ m), ∑ n ∈ Finset.range (2 ^ m), kernel (2 ^ m) (reverse dir) j n * kernel (2 ^ m) dir n k * psi k =
      (if j = k then 1 else 0) * psi k := by
    intro k hk
    rw [← Finset.sum_mul, kernel_orthogonal _ (by positivity) dir j k hj (Finset.mem_range.1 hk)]
  rw [Finset.sum_congr rfl h3]
  simp [hj]

/-- **C14, Parseval.** Scalar products, in particular the norm, are preserved. -/
theorem ffTransform_inner (m : ℕ) (dir : Direction) (psi₁ psi₂ φ₁ φ₂ : ℕ → ℂ) (h1 : ffTransformCV (2 ^ m) dir psi₁ = some φ₁)
    (h2 : ffTransformCV (2 ^ m) dir psi₂ = some φ₂) :
    ∑ j ∈ Finset.range (2 ^ m), conj (φ₁ j) * φ₂ j = ∑ j ∈ Finset.range (2 ^ m), conj (psi₁ j) * psi₂ j := by
  obtain ⟨φ', a1, a2⟩ := ffTransformCV_eq_kernel m dir psi₁
  rw [h1] at a1; obtain rfl := Option.some.inj a1
  obtain ⟨φ', b1, b2⟩ := ffTransformCV_eq_kernel m dir psi₂
  rw [h2] at b1; obtain rfl := Option.some.inj b1
  have e : ∀ j ∈ Finset.range (2 ^ m), conj (φ₁ j) * φ₂ j = ∑ n ∈ Finset.range (2 ^ m), ∑ k ∈ Finset.range (2 ^ m),
      (kernel (2 ^ m) (reverse dir) n j * kernel (2 ^ m) dir j k) * (conj (psi₁ n) * psi₂ k) := by
    intro j hj
    rw [a2 j (Finset.mem_range.1 hj), b2 j (Finset.mem_range.1 hj), map_sum, Finset.sum_mul_sum]
    refine Finset.sum_congr rfl (fun n _ => Finset.sum_congr rfl (fun k _ => ?_))
    rw [map_mul, kernel_conj, kernel_symm _ _ j n]; ring
  rw [Finset.sum_congr rfl e, Finset.sum_comm]
  apply Finset.sum_congr rfl
  intro n hn
  rw [Finset.sum_comm, Finset.sum_eq_single_of_mem n hn]
  · rw [← Finset.sum_mul, kernel_orthogonal _ (by positivity) dir n n (Finset.mem_range.1 hn) (Finset.mem_range.1 hn), if_pos rfl, one_mul]
  · intro k hk hne
    rw [← Finset.sum_mul, kernel_orthogonal _ (by positivity) dir n k (Finset.mem_range.1 hn) (Finset.mem_range.1 hk), if_neg (Ne.symm hne), zero_mul]

/-- **C14, density operators.** The transformed density operator is `F ρ F†`. -/
theorem ffTransformCM_eq (m : ℕ) (dir : Direction) (rho : ℕ → ℕ → ℂ) :
    ∃ σ, ffTransformCM (2 ^ m) dir rho = some σ ∧ ∀ i < 2 ^ m, ∀ j < 2 ^ m,
      σ i j = ∑ k ∈ Finset.range (2 ^ m), ∑ l ∈ Finset.range (2 ^ m), kernel (2 ^ m) dir i k * rho k l * conj (kernel (2 ^ m) dir j l) := by
  have hsome : ∀ d psi, (ffTransformCV (2 ^ m) d psi).isSome := by
    intro d psi
    obtain ⟨φ, h, _⟩ := ffTransformCV_eq_kernel m d psi
    rw [h]; rfl
  have hval : ∀ d psi, ∀ j < 2 ^ m, (ffTransformCV (2 ^ m) d psi).getD (fun _ => 0) j = ∑ n ∈ Finset.range (2 ^ m), kernel (2 ^ m) d j n * psi n := by
    intro d psi j hj
    obtain ⟨φ, h, h2⟩ := ffTransformCV_eq_kernel m d psi
    rw [h]; exact h2 j hj
  refine ⟨_, by rw [ffTransformCM, if_pos (fun c _ => hsome _ _)]; simp only; rw [if_pos (fun c _ => hsome _ _)], fun i hi j hj => ?_⟩
  rw [hval _ _ j hj]
  rw [Finset.sum_comm]
  apply Finset.sum_congr rfl
  intro l _
  rw [hval _ _ i hi, Finset.mul_sum]
  apply Finset.sum_congr rfl
  intro k _
  rw [kernel_conj]; ring

/-- **C14, trace and Hermiticity.** -/
theorem ffTransformCM_trace_hermitian (m : ℕ) (dir : Direction) (rho σ : ℕ → ℕ → ℂ) (h : ffTransformCM (2 ^ m) dir rho = some σ) :
    ∑ i ∈ Finset.range (2 ^ m), σ i i = ∑ i ∈ Finset.range (2 ^ m), rho i i ∧
    ((∀ i < 2 ^ m, ∀ j < 2 ^ m, rho j i = conj (rho i j)) → ∀ i < 2 ^ m, ∀ j < 2 ^ m, σ j i = conj (σ i j)) := by
  obtain ⟨σ', a1, a2⟩ := ffTransformCM_eq m dir rho
  rw [h] at a1; obtain rfl := Option.some.inj a1
  constructor
  · have e : ∀ i ∈ Finset.range (2 ^ m), σ i i = ∑ k ∈ Finset.range (2 ^ m), ∑ l ∈ Finset.range (2 ^ m),
        (kernel (2 ^ m) (reverse dir) l i * kernel (2 ^ m) dir i k) * rho k l := by
      intro i hi
      rw [a2 i (Finset.mem_range.1 hi) i (Finset.mem_range.1 hi)]
      refine Finset.sum_congr rfl (fun k _ => Finset.sum_congr rfl (fun l _ => ?_))
      rw [kernel_conj, kernel_symm _ _ i l]; ring
    rw [Finset.sum_congr rfl e, Finset.sum_comm]
    apply Finset.sum_congr rfl
    intro k hk
    rw [Finset.sum_comm, Finset.sum_eq_single_of_mem k hk]
    · rw [← Finset.sum_mul, kernel_orthogonal _ (by positivity) dir k k (Finset.mem_range.1 hk) (Finset.mem_range.1 hk), if_pos rfl, one_mul]
    · intro l hl hne
      rw [← Finset.sum_mul, kernel_orthogonal _ (by positivity) dir l k (Finset.mem_range.1 hl) (Finset.mem_range.1 hk), if_neg hne, zero_mul]
  · intro hH i hi j hj
    rw [a2 i hi j hj, a2 j hj i hi, map_sum, Finset.sum_comm]
    apply Finset.sum_congr rfl
    intro k hk
    rw [map_sum]
    apply Finset.sum_congr rfl
    intro l hl
    rw [map_mul, map_mul, Complex.conj_conj, ← hH k (Finset.mem_range.1 hk) l (Finset.mem_range.1 hl)]
    ring

/-- **C14, physical meaning of the sign conventions.** If four divides the number of points, the kernel is the one of a Fourier transform
between grids centred at zero, `x_n = n - N/2` and `k_j = j - N/2`. -/
theorem kernel_centred (q : ℕ) (hq : 0 < q) (dir : Direction) (j n : ℕ) :
    kernel (4 * q) dir j n = 1 / (Real.sqrt (4 * q : ℕ) : ℂ) *
      Complex.exp ((match dir with | .xk => -1 | .kx => 1) * (2 * Real.pi * Complex.I * ((j : ℂ) - 2 * q) * ((n : ℂ) - 2 * q) / (4 * q : ℕ))) := by
  unfold kernel
  set s : ℂ := (match dir with | .xk => -1 | .kx => 1) with hs
  have hsg : s = 1 ∨ s = -1 := by cases dir <;> simp [hs]
  have hq0 : (q : ℂ) ≠ 0 := by simp; omega
  have hpi : Complex.exp (s * (Real.pi * Complex.I)) = -1 ∧ Complex.exp (-(s * (Real.pi * Complex.I))) = -1 := by
    have hneg : Complex.exp (-(Real.pi * Complex.I)) = -1 := by rw [Complex.exp_neg, Complex.exp_pi_mul_I]; norm_num
    rcases hsg with h | h <;> rw [h] <;> simp [Complex.exp_pi_mul_I, hneg]
  have e : s * (2 * Real.pi * Complex.I * ((j : ℂ) - 2 * q) * ((n : ℂ) - 2 * q) / (4 * q : ℕ)) =
      s * (2 * Real.pi * Complex.I * j * n / (4 * q : ℕ)) + ((j + n : ℕ) : ℂ) * (-(s * (Real.pi * Complex.I))) + ((2 * q : ℕ) : ℂ) * (s * (Real.pi * Complex.I)) := by
    push_cast
    field_simp
    ring
  rw [e, Complex.exp_add, Complex.exp_add, Complex.exp_nat_mul, Complex.exp_nat_mul, hpi.1, hpi.2, pow_mul]
  simp
  ring

/-- a non-trivial case: four points -/
example : (ffTransformCV (2 ^ 2) .xk (fun n => n)).isSome ∧ ffTransformCV 6 .xk (fun n => (n : ℂ)) = none := by
  refine ⟨?_, (ffTransformCV_throws_iff _ _ _).2 ⟨by norm_num, ?_⟩⟩
  · obtain ⟨φ, h, _⟩ := ffTransformCV_eq_kernel 2 .xk (fun n => n)
    rw [h]; rfl
  · rintro ⟨m, hm⟩
    have : m < 3 := by
      by_contra h
      have := Nat.pow_le_pow_right (n := 2) (by norm_num) (not_lt.1 h)
      omega
    interval_cases m <;> omega

end CppQED.FFT
