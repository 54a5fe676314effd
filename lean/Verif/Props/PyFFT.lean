import Verif.Model.PyState
import Verif.Props.FFT

/-!
# Fourier transformation in Python: C139
-/

namespace CppQED.PyTools
open CppQED.FFT ComplexConjugate

/-- the sign of the exponent -/
def sgn (inverse : Bool) : ℂ := if inverse then 1 else -1

/-- Specification: the transformation between grids centred at zero, `N^{-1/2} exp(∓2πi (j-h)(m-h)/N)`, where `h` is the integer part of `N/2`. -/
noncomputable def centred (n : ℕ) (inverse : Bool) (j m : ℕ) : ℂ :=
  1 / (Real.sqrt n : ℂ) * Complex.exp (sgn inverse * (2 * Real.pi * Complex.I * ((j : ℂ) - (n / 2 : ℕ)) * ((m : ℂ) - (n / 2 : ℕ)) / n))

theorem exp_periodic {n : ℕ} (hn : 0 < n) (inverse : Bool) {a b : ℤ} (h : a ≡ b [ZMOD n]) :
    Complex.exp (sgn inverse * (2 * Real.pi * Complex.I * a / n)) = Complex.exp (sgn inverse * (2 * Real.pi * Complex.I * b / n)) := by
  have hnc : (n : ℂ) ≠ 0 := by exact_mod_cast hn.ne'
  obtain ⟨t, ht⟩ := h.dvd
  rw [Complex.exp_eq_exp_iff_exists_int]
  have hb : (b : ℂ) = a + n * t := by
    have : b = a + n * t := by linarith
    rw [this]; push_cast; rfl
  refine ⟨if inverse then -t else t, ?_⟩
  rw [hb]
  cases inverse
  · simp only [sgn]; field_simp; simp
  · simp only [sgn]; field_simp; simp

theorem roll_sum {n s : ℕ} (hn : 0 < n) (f : ℕ → ℂ) : ∑ l ∈ Finset.range n, f ((l + s) % n) = ∑ m ∈ Finset.range n, f m := by
  refine Finset.sum_bij' (fun l _ => (l + s) % n) (fun m _ => (m + (n - s % n)) % n) ?_ ?_ ?_ ?_ ?_
  · intro l _; exact Finset.mem_range.2 (Nat.mod_lt _ hn)
  · intro m _; exact Finset.mem_range.2 (Nat.mod_lt _ hn)
  · intro l hl
    have hl := Finset.mem_range.1 hl
    have hs := Nat.mod_lt s hn
    have h1 : ((l + s) % n + (n - s % n)) % n = (l + s + (n - s % n)) % n := Nat.mod_add_mod _ _ _
    have h2 : l + s + (n - s % n) = l + n * (s / n + 1) := by
      have := Nat.div_add_mod s n
      have e : n * (s / n + 1) = n * (s / n) + n := by ring
      omega
    rw [h1, h2, Nat.add_mul_mod_self_left, Nat.mod_eq_of_lt hl]
  · intro m hm
    have hm := Finset.mem_range.1 hm
    have hs := Nat.mod_lt s hn
    have h1 : ((m + (n - s % n)) % n + s) % n = (m + (n - s % n) + s) % n := Nat.mod_add_mod _ _ _
    have h2 : m + (n - s % n) + s = m + n * (s / n + 1) := by
      have := Nat.div_add_mod s n
      have e : n * (s / n + 1) = n * (s / n) + n := by ring
      omega
    rw [h1, h2, Nat.add_mul_mod_self_left, Nat.mod_eq_of_lt hm]
  · intro l _; rfl

theorem shifted_sum {n : ℕ} (hn : 0 < n) (inverse : Bool) (x : ℕ → ℂ) (j : ℕ) :
    ∑ l ∈ Finset.range n, ifftshift n x l * Complex.exp (sgn inverse * (2 * Real.pi * Complex.I * (((j + (n - n / 2 % n)) % n : ℕ) : ℂ) * l / n)) =
    ∑ m ∈ Finset.range n, x m * Complex.exp (sgn inverse * (2 * Real.pi * Complex.I * ((j : ℂ) - (n / 2 : ℕ)) * ((m : ℂ) - (n / 2 : ℕ)) / n)) := by
  set h := n / 2 with hh
  have hlt : h < n := Nat.div_lt_self hn (by norm_num)
  set s := n - (n - h) % n with hs
  rw [← roll_sum hn (s := s) fun m => x m * Complex.exp (sgn inverse * (2 * Real.pi * Complex.I * ((j : ℂ) - (h : ℕ)) * ((m : ℂ) - (h : ℕ)) / n))]
  refine Finset.sum_congr rfl fun l _ => ?_
  have e1 : ifftshift n x l = x ((l + s) % n) := rfl
  rw [e1]
  congr 1
  have a1 : (((j + (n - h % n)) % n : ℕ) : ℤ) ≡ (j : ℤ) - h [ZMOD n] := by
    rw [Nat.mod_eq_of_lt hlt]
    have : (((j + (n - h)) % n : ℕ) : ℤ) = ((j : ℤ) + (n - h)) % n := by
      push_cast [Nat.cast_sub hlt.le]; rfl
    rw [this]
    refine (Int.mod_modEq _ _).trans ?_
    have : (j : ℤ) + (n - h) = (j - h) + n * 1 := by ring
    rw [this]
    exact Int.modEq_iff_dvd.2 ⟨-1, by ring⟩
  have a2 : (l : ℤ) ≡ (((l + s) % n : ℕ) : ℤ) - h [ZMOD n] := by
    have hs' : ((s : ℕ) : ℤ) ≡ h [ZMOD n] := by
      rw [hs, Nat.cast_sub (Nat.mod_lt _ hn).le]
      have : (((n - h) % n : ℕ) : ℤ) ≡ (n : ℤ) - h [ZMOD n] := by
        push_cast [Nat.cast_sub hlt.le]
        exact Int.mod_modEq _ _
      have := (Int.ModEq.refl (n : ℤ)).sub this
      refine this.trans (Int.modEq_iff_dvd.2 ⟨0, by ring⟩)
    have : (((l + s) % n : ℕ) : ℤ) ≡ (l : ℤ) + h [ZMOD n] := by
      push_cast
      exact (Int.mod_modEq _ _).trans ((Int.ModEq.refl _).add hs')
    have := this.sub (Int.ModEq.refl (h : ℤ))
    rw [add_sub_cancel_right] at this
    exact this.symm
  generalize (j + (n - h % n)) % n = K at a1 ⊢
  generalize (l + s) % n = M at a2 ⊢
  have := exp_periodic hn inverse (a1.mul a2)
  push_cast at this
  convert this using 3 <;> ring

/-- What the Fourier transformations compute, for any number of points. -/
theorem fftHelper_eq {n : ℕ} (hn : 0 < n) (inverse : Bool) (x : ℕ → ℂ) (j : ℕ) : fftHelper n inverse x j = ∑ m ∈ Finset.range n, centred n inverse j m * x m := by
  have hnc : (n : ℂ) ≠ 0 := by exact_mod_cast hn.ne'
  have hsq : (Real.sqrt n : ℂ) * Real.sqrt n = n := by
    rw [← Complex.ofReal_mul, Real.mul_self_sqrt (by positivity)]; simp
  have hsq0 : (Real.sqrt n : ℂ) ≠ 0 := fun h => hnc (by rw [← hsq, h, zero_mul])
  have h := shifted_sum hn inverse x j
  cases inverse
  · simp only [fftHelper, Bool.false_eq_true, if_false, fftshift, roll, npFft]
    have e : ∀ k l : ℕ, Complex.exp (-(2 * Real.pi * Complex.I * k * l / n)) = Complex.exp (sgn false * (2 * Real.pi * Complex.I * k * l / n)) := by
      intro k l; simp [sgn]
    simp only [e]
    rw [h, Finset.sum_mul]
    refine Finset.sum_congr rfl fun m _ => ?_
    unfold centred
    push_cast
    ring
  · simp only [fftHelper, if_true, fftshift, roll, npIfft]
    have e : ∀ k l : ℕ, Complex.exp (2 * Real.pi * Complex.I * k * l / n) = Complex.exp (sgn true * (2 * Real.pi * Complex.I * k * l / n)) := by
      intro k l; simp [sgn]
    simp only [e]
    rw [h, Finset.mul_sum, Finset.sum_mul]
    refine Finset.sum_congr rfl fun m _ => ?_
    unfold centred
    have : 1 / (n : ℂ) * (Real.sqrt n : ℂ) = 1 / Real.sqrt n := by
      rw [← hsq]; field_simp
    linear_combination (x m * Complex.exp (sgn true * (2 * Real.pi * Complex.I * ((j : ℂ) - (n / 2 : ℕ)) * ((m : ℂ) - (n / 2 : ℕ)) / n))) * this

theorem centred_conj (n : ℕ) (inverse : Bool) (j m : ℕ) : conj (centred n inverse j m) = centred n (!inverse) j m := by
  unfold centred
  rw [map_mul, ← Complex.exp_conj]
  simp only [map_div₀, map_one, map_mul, map_sub, Complex.conj_ofReal, Complex.conj_I, Complex.conj_natCast, map_ofNat]
  cases inverse <;> simp [sgn, neg_div]

theorem centred_symm (n : ℕ) (inverse : Bool) (j m : ℕ) : centred n inverse j m = centred n inverse m j := by
  unfold centred
  congr 3
  ring

/-- the phases that relate the transformation to that of the C++ programs -/
noncomputable def phase (n : ℕ) (inverse : Bool) (j : ℕ) : ℂ := (-1) ^ j * Complex.exp (sgn inverse * (-(2 * Real.pi * Complex.I * j * (n / 2 : ℕ) / n)))

theorem centred_kernel (n : ℕ) (inverse : Bool) (j m : ℕ) :
    centred n inverse j m = phase n inverse j * kernel n (if inverse then .kx else .xk) j m * phase n inverse m * Complex.exp (sgn inverse * (2 * Real.pi * Complex.I * (n / 2 : ℕ) * (n / 2 : ℕ) / n)) := by
  have hs : kernel n (if inverse then .kx else .xk) j m = (-1) ^ (j + m) / (Real.sqrt n : ℂ) * Complex.exp (sgn inverse * (2 * Real.pi * Complex.I * j * m / n)) := by cases inverse <;> rfl
  rw [hs]
  unfold centred phase
  have h1 : ((-1 : ℂ)) ^ j * (-1) ^ j = 1 := by rw [← mul_pow]; simp
  have h2 : ((-1 : ℂ)) ^ m * (-1) ^ m = 1 := by rw [← mul_pow]; simp
  have h3 : ((-1 : ℂ)) ^ (j + m) = (-1) ^ j * (-1) ^ m := pow_add _ _ _
  have h4 : Complex.exp (sgn inverse * (2 * Real.pi * Complex.I * ((j : ℂ) - (n / 2 : ℕ)) * ((m : ℂ) - (n / 2 : ℕ)) / n)) =
      Complex.exp (sgn inverse * (-(2 * Real.pi * Complex.I * j * (n / 2 : ℕ) / n))) * Complex.exp (sgn inverse * (2 * Real.pi * Complex.I * j * m / n)) *
      Complex.exp (sgn inverse * (-(2 * Real.pi * Complex.I * m * (n / 2 : ℕ) / n))) * Complex.exp (sgn inverse * (2 * Real.pi * Complex.I * (n / 2 : ℕ) * (n / 2 : ℕ) / n)) := by
    rw [← Complex.exp_add, ← Complex.exp_add, ← Complex.exp_add]
    congr 1
    ring
  rw [h4, h3]
  set A := Complex.exp (sgn inverse * (-(2 * Real.pi * Complex.I * j * (n / 2 : ℕ) / n)))
  set B := Complex.exp (sgn inverse * (2 * Real.pi * Complex.I * j * m / n))
  set C := Complex.exp (sgn inverse * (-(2 * Real.pi * Complex.I * m * (n / 2 : ℕ) / n)))
  set D := Complex.exp (sgn inverse * (2 * Real.pi * Complex.I * (n / 2 : ℕ) * (n / 2 : ℕ) / n))
  have : (-1 : ℂ) ^ j * A * ((-1) ^ j * (-1) ^ m / (Real.sqrt n : ℂ) * B) * ((-1) ^ m * C) * D = ((-1 : ℂ) ^ j * (-1) ^ j) * ((-1) ^ m * (-1) ^ m) * (1 / (Real.sqrt n : ℂ)) * (A * B * C * D) := by ring
  rw [this, h1, h2]; ring

theorem phase_inverse (n : ℕ) (inverse : Bool) (j : ℕ) : phase n inverse j * phase n (!inverse) j = 1 := by
  unfold phase
  have h1 : ((-1 : ℂ)) ^ j * (-1) ^ j = 1 := by rw [← mul_pow]; simp
  have h2 : ∀ z : ℂ, Complex.exp (sgn inverse * z) * Complex.exp (sgn (!inverse) * z) = 1 := by
    intro z
    rw [← Complex.exp_add]
    cases inverse <;> simp [sgn]
  have : ∀ a b c : ℂ, a * b * (a * c) = a * a * (b * c) := fun a b c => by ring
  rw [this, h1, h2, one_mul]

theorem centred_orthogonal {n : ℕ} (hn : 0 < n) (inverse : Bool) {j k : ℕ} (hj : j < n) (hk : k < n) :
    ∑ m ∈ Finset.range n, centred n (!inverse) j m * centred n inverse m k = if j = k then 1 else 0 := by
  have h := kernel_orthogonal n hn (if inverse then .kx else .xk) j k hj hk
  have hr : reverse (if inverse then Direction.kx else .xk) = if (!inverse) then Direction.kx else .xk := by cases inverse <;> rfl
  rw [hr] at h
  have hc : ∀ z : ℂ, Complex.exp (sgn inverse * z) * Complex.exp (sgn (!inverse) * z) = 1 := by
    intro z
    rw [← Complex.exp_add]
    cases inverse <;> simp [sgn]
  set z : ℂ := 2 * Real.pi * Complex.I * (n / 2 : ℕ) * (n / 2 : ℕ) / n with hz
  have e : ∀ m ∈ Finset.range n, centred n (!inverse) j m * centred n inverse m k =
      phase n (!inverse) j * phase n inverse k * (kernel n (if (!inverse) then .kx else .xk) j m * kernel n (if inverse then .kx else .xk) m k) := by
    intro m _
    rw [centred_kernel, centred_kernel, ← hz]
    linear_combination (phase n (!inverse) j * kernel n (if (!inverse) then .kx else .xk) j m * kernel n (if inverse then .kx else .xk) m k * phase n inverse k *
      (phase n inverse m * phase n (!inverse) m)) * hc z + (phase n (!inverse) j * kernel n (if (!inverse) then .kx else .xk) j m * kernel n (if inverse then .kx else .xk) m k * phase n inverse k) * phase_inverse n inverse m
  rw [Finset.sum_congr rfl e, ← Finset.mul_sum, h]
  split_ifs with hjk
  · subst hjk
    rw [mul_one, mul_comm]
    exact phase_inverse n inverse j
  · rw [mul_zero]

/-- **C139.** `fft` is the transformation between grids centred at zero, for any number of points, also odd; `ifft` is its inverse; scalar products are preserved. -/
theorem fft_spec {n : ℕ} (hn : 0 < n) (x y : ℕ → ℂ) :
    (∀ j, fft n x j = ∑ m ∈ Finset.range n, 1 / (Real.sqrt n : ℂ) * Complex.exp (-(2 * Real.pi * Complex.I * ((j : ℂ) - (n / 2 : ℕ)) * ((m : ℂ) - (n / 2 : ℕ)) / n)) * x m) ∧
    (∀ j < n, ifft n (fft n x) j = x j) ∧ (∀ j < n, fft n (ifft n x) j = x j) ∧
    ∑ j ∈ Finset.range n, conj (fft n x j) * fft n y j = ∑ j ∈ Finset.range n, conj (x j) * y j := by
  have hinv : ∀ inverse, ∀ j < n, fftHelper n (!inverse) (fftHelper n inverse x) j = x j := by
    intro inverse j hj
    rw [fftHelper_eq hn]
    have : ∀ m ∈ Finset.range n, centred n (!inverse) j m * fftHelper n inverse x m = ∑ k ∈ Finset.range n, centred n (!inverse) j m * centred n inverse m k * x k := by
      intro m _
      rw [fftHelper_eq hn, Finset.mul_sum]
      exact Finset.sum_congr rfl fun k _ => by ring
    rw [Finset.sum_congr rfl this, Finset.sum_comm]
    rw [Finset.sum_congr rfl fun k hk => by rw [← Finset.sum_mul, centred_orthogonal hn inverse hj (Finset.mem_range.1 hk)]]
    simp [hj]
  refine ⟨fun j => ?_, hinv false, hinv true, ?_⟩
  · rw [fft, fftHelper_eq hn]
    refine Finset.sum_congr rfl fun m _ => ?_
    simp [centred, sgn]
  · have e : ∀ j ∈ Finset.range n, conj (fft n x j) * fft n y j = ∑ m ∈ Finset.range n, ∑ k ∈ Finset.range n, (centred n true m j * centred n false j k) * (conj (x m) * y k) := by
      intro j _
      rw [fft, fft, fftHelper_eq hn, fftHelper_eq hn, map_sum, Finset.sum_mul_sum]
      refine Finset.sum_congr rfl fun m _ => Finset.sum_congr rfl fun k _ => ?_
      rw [map_mul, centred_conj, centred_symm n _ j m]
      simp only [Bool.not_false]; ring
    rw [Finset.sum_congr rfl e, Finset.sum_comm]
    refine Finset.sum_congr rfl fun m hm => ?_
    rw [Finset.sum_comm]
    rw [Finset.sum_congr rfl fun k hk => by
      rw [← Finset.sum_mul, show ∑ j ∈ Finset.range n, centred n true m j * centred n false j k = _ from centred_orthogonal hn false (Finset.mem_range.1 hm) (Finset.mem_range.1 hk)]]
    have := Finset.mem_range.1 hm
    simp [this]

/-- **C139.** The Fourier transform of the density operator of a state is the density operator of the Fourier transform of the state. -/
theorem dofft_dyad {n : ℕ} (hn : 0 < n) (x : ℕ → ℂ) (i j : ℕ) :
    dofft n (fun i j => x i * conj (x j)) i j = fft n x i * conj (fft n x j) ∧ doifft n (fun i j => x i * conj (x j)) i j = ifft n x i * conj (ifft n x j) := by
  have key : ∀ inverse, fftHelper n (!inverse) (fun j => fftHelper n inverse (fun i => x i * conj (x j)) i) j = fftHelper n inverse x i * conj (fftHelper n inverse x j) := by
    intro inverse
    rw [fftHelper_eq hn, fftHelper_eq hn, fftHelper_eq hn, map_sum, Finset.mul_sum]
    refine Finset.sum_congr rfl fun m _ => ?_
    rw [fftHelper_eq hn, map_mul, centred_conj, Finset.sum_mul, Finset.mul_sum]
    refine Finset.sum_congr rfl fun k _ => ?_
    ring
  exact ⟨key false, key true⟩

/-- **C139.** On grids of `2^m` points, `m ≥ 2`, these are the same transformations as those of the C++ programs. -/
theorem fft_agrees (m : ℕ) (hm : 2 ≤ m) (x : ℕ → ℂ) :
    (∃ y, ffTransformCV (2 ^ m) .xk x = some y ∧ ∀ j < 2 ^ m, fft (2 ^ m) x j = y j) ∧ (∃ y, ffTransformCV (2 ^ m) .kx x = some y ∧ ∀ j < 2 ^ m, ifft (2 ^ m) x j = y j) := by
  obtain ⟨q, hq⟩ : ∃ q, 2 ^ m = 4 * q := ⟨2 ^ (m - 2), by rw [← pow_sub_mul_pow 2 hm]; ring⟩
  have hq0 : 0 < q := by
    rcases Nat.eq_zero_or_pos q with rfl | h
    · simp at hq
    · exact h
  have key : ∀ inverse, ∀ j k, centred (2 ^ m) inverse j k = kernel (2 ^ m) (if inverse then .kx else .xk) j k := by
    intro inverse j k
    rw [hq, kernel_centred q hq0]
    unfold centred
    rw [show 4 * q / 2 = 2 * q by omega]
    cases inverse <;> simp [sgn]
  have hn : 0 < 2 ^ m := by positivity
  constructor
  · obtain ⟨y, h1, h2⟩ := ffTransformCV_eq_kernel m .xk x
    refine ⟨y, h1, fun j hj => ?_⟩
    rw [h2 j hj, fft, fftHelper_eq hn]
    exact Finset.sum_congr rfl fun k _ => by rw [key]; rfl
  · obtain ⟨y, h1, h2⟩ := ffTransformCV_eq_kernel m .kx x
    refine ⟨y, h1, fun j hj => ?_⟩
    rw [h2 j hj, ifft, fftHelper_eq hn]
    exact Finset.sum_congr rfl fun k _ => by rw [key]; rfl

/-- … but not with two points, where they differ in the sign. -/
theorem fft_two (x : ℕ → ℂ) : ∃ y, ffTransformCV 2 .xk x = some y ∧ ∀ j < 2, fft 2 x j = -y j := by
  obtain ⟨y, h1, h2⟩ := ffTransformCV_eq_kernel 1 .xk x
  refine ⟨y, h1, fun j hj => ?_⟩
  rw [h2 j hj, fft, fftHelper_eq (by norm_num), pow_one, ← Finset.sum_neg_distrib]
  refine Finset.sum_congr rfl fun k hk => ?_
  have hk := Finset.mem_range.1 hk
  have hexp : Complex.exp (-(Real.pi * Complex.I)) = -1 := by rw [Complex.exp_neg, Complex.exp_pi_mul_I]; norm_num
  have e : -(2 * Real.pi * Complex.I / 2) = -(Real.pi * Complex.I) := by ring
  have hj' : j = 0 ∨ j = 1 := by omega
  have hk' : k = 0 ∨ k = 1 := by omega
  rcases hj' with rfl | rfl <;> rcases hk' with rfl | rfl <;> simp [centred, kernel, sgn, e, hexp, neg_div]

/-- Three points with equal amplitudes: the transform is the state of zero momentum, in the middle of the grid, and the round trip gives the amplitudes back. -/
example : ifft 3 (fft 3 fun _ => 1) 2 = 1 ∧ fft 3 (fun _ => 1) 1 = Real.sqrt 3 := by
  refine ⟨(fft_spec (by norm_num) _ fun _ => 0).2.1 2 (by norm_num), ?_⟩
  rw [(fft_spec (by norm_num) _ fun _ => 0).1 1]
  have h : (Real.sqrt 3 : ℂ) ≠ 0 := by exact_mod_cast (Real.sqrt_ne_zero'.2 (by norm_num))
  have h2 : (Real.sqrt 3 : ℂ) * Real.sqrt 3 = 3 := by exact_mod_cast Real.mul_self_sqrt (by norm_num)
  simp
  field_simp
  rw [pow_two, h2]

/-- Four points: the same transformation as in C++. -/
example : ∃ y, ffTransformCV (2 ^ 2) .xk (fun j => j) = some y ∧ ∀ j < 2 ^ 2, fft (2 ^ 2) (fun j => j) j = y j := (fft_agrees 2 le_rfl _).1

/-- The density operator of a superposition of three points. -/
example : dofft 3 (fun i j => (Complex.I ^ i) * starRingEnd ℂ (Complex.I ^ j)) 0 2 = fft 3 (fun i => Complex.I ^ i) 0 * starRingEnd ℂ (fft 3 (fun i => Complex.I ^ i) 2) :=
  (dofft_dyad (by norm_num) _ 0 2).1

end CppQED.PyTools
