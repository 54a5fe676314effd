import Verif.Model.PyInit
import Verif.Props.PyFFT
import Verif.Props.PyActwith
import Verif.Props.ParticleInit
import Verif.Props.MathExtensions

/-!
# Initial conditions and operators in Python: C141 and C142
-/

namespace CppQED.PyTools
open CppQED.Tridiag CppQED.PySpec CppQED.ParticleEl CppQED.FFT ComplexConjugate

theorem normSquare_vec (n : ℕ) (psi : ℕ → ℂ) : normSquare (vec n psi).shape (vec n psi).val = ∑ j ∈ Finset.range n, Complex.normSq (psi j) := by
  have h := sumBox_eq [n] fun x => ((Complex.normSq (psi (x.getD 0 0)) : ℝ) : ℂ)
  simp only [sumBox] at h
  have : ((normSquare (vec n psi).shape (vec n psi).val : ℝ) : ℂ) = ((∑ j ∈ Finset.range n, Complex.normSq (psi j) : ℝ) : ℂ) := by
    unfold normSquare vec
    push_cast
    rw [← h]
    simp
  exact_mod_cast this

/-- normalisation of proportional vectors in the two languages -/
theorem normalize_agrees {n : ℕ} {v w phi : ℕ → ℂ} {c : ℝ} (hc : 0 < c) (h : ∀ j < n, v j = c * w j) (hw : renormVec n w = .ok phi) :
    ∃ b, normalize (vec n v) = .ok b ∧ b.shape = [n] ∧ ∀ j < n, b.val [j] = phi j := by
  unfold renormVec at hw
  dsimp only at hw
  set S := ∑ j ∈ Finset.range n, Complex.normSq (w j) with hS
  by_cases h0 : Real.sqrt S = 0
  · rw [if_pos h0] at hw; cases hw
  · rw [if_neg h0] at hw
    obtain rfl : (fun j => w j / ((Real.sqrt S : ℝ) : ℂ)) = phi := by simpa using hw
    have hv : normSquare (vec n v).shape (vec n v).val = c ^ 2 * S := by
      rw [normSquare_vec, hS, Finset.mul_sum]
      refine Finset.sum_congr rfl fun j hj => ?_
      rw [h j (Finset.mem_range.1 hj), map_mul, Complex.normSq_ofReal, sq]
    have hS0 : 0 ≤ S := Finset.sum_nonneg fun j _ => Complex.normSq_nonneg _
    have hS1 : S ≠ 0 := fun hh => h0 (by rw [hh, Real.sqrt_zero])
    obtain ⟨b, hb, hbs, -, hbv⟩ := (normalize_spec (vec n v)).2.1 (by rw [hv]; exact mul_ne_zero (pow_ne_zero 2 hc.ne') hS1)
    refine ⟨b, hb, hbs, fun j hj => ?_⟩
    rw [hbv, hv, Real.sqrt_mul (by positivity), Real.sqrt_sq hc.le]
    show v j / _ = _
    rw [h j hj]
    have hcc : (c : ℂ) ≠ 0 := by exact_mod_cast hc.ne'
    have hcs : ((Real.sqrt S : ℝ) : ℂ) ≠ 0 := by exact_mod_cast h0
    push_cast
    field_simp

theorem fftHelper_linear {n : ℕ} (hn : 0 < n) (inverse : Bool) (c : ℂ) (x : ℕ → ℂ) (j : ℕ) : fftHelper n inverse (fun i => c * x i) j = c * fftHelper n inverse x j := by
  rw [fftHelper_eq hn, fftHelper_eq hn, Finset.mul_sum]
  exact Finset.sum_congr rfl fun m _ => by ring

/-- **C141.** With the flag `cppqed=True`, the function `gaussian` generates the same state vector as the C++ function `wavePacket` in momentum representation with the same parameters, for any positive width, and at least four points in the case of a packet
given in position space (the Fourier transformations differ in the sign with two points). -/
theorem gaussian_agrees (x0 k0 sigma : ℝ) (hs : 0 < sigma) (fin : ℕ) (isItInK : Bool) (hf : isItInK = true ∨ 2 ≤ fin) :
    ∃ b phi, gaussian x0 k0 sigma fin isItInK true = .ok b ∧ wavePacket ⟨x0, k0, sigma, isItInK⟩ fin true = .ok phi ∧ b.shape = [2 ^ fin] ∧ ∀ j < 2 ^ fin, b.val [j] = phi j := by
  obtain ⟨phi, hphi, -⟩ := wavePacket_spec ⟨x0, k0, sigma, isItInK⟩ hs.ne' fin true
  have hN : (0 : ℝ) < ((2 ^ fin : ℕ) : ℝ) := by positivity
  have hNr : ((2 ^ fin : ℕ) : ℝ) = 2 ^ fin := by push_cast; rfl
  cases isItInK
  · have hf' : 2 ≤ fin := by simpa using hf
    have hphi' := hphi
    unfold wavePacket at hphi'
    simp only [hs.ne', if_false, Bool.not_false, Bool.and_self, if_true, Bool.false_eq_true] at hphi'
    set low : ℕ → ℂ := fun i => Complex.exp (-(gridX fin i - Real.pi * x0 : ℝ) ^ 2 / (4 * sigma ^ 2 : ℝ) + Complex.I * gridX fin i * k0) with hlow
    obtain ⟨⟨y, hy1, hy2⟩, -⟩ := fft_agrees fin hf' low
    rw [hy1] at hphi'
    have hr : renormVec (2 ^ fin) y = .ok phi := hphi'
    set Norm : ℝ := Real.sqrt (2 * Real.pi / (2 ^ fin : ℕ)) / (2 * Real.pi) ^ (1 / 4 : ℝ) / Real.sqrt sigma with hNorm
    have hNp : 0 < Norm := by
      have h2 := Real.pi_pos
      have h3 : 0 < Real.sqrt (2 * Real.pi / (2 ^ fin : ℕ)) := Real.sqrt_pos.2 (by positivity)
      have h4 := Real.sqrt_pos.2 hs
      positivity
    have hlin : ∀ j, fft (2 ^ fin) (fun i => (Norm : ℂ) * low i) j = Norm * fft (2 ^ fin) low j := fun j => fftHelper_linear (by positivity) false _ _ _
    obtain ⟨b, hb, hbs, hbv⟩ := normalize_agrees (v := fft (2 ^ fin) fun i => (Norm : ℂ) * low i) hNp (fun j hj => by rw [hlin, hy2 j hj]) hr
    refine ⟨b, phi, ?_, hphi, hbs, hbv⟩
    rw [← hb]
    unfold gaussian
    simp only [not_le.2 hs, if_false, Bool.false_eq_true, if_true, Bool.not_false]
    congr 2
    congr 1
    funext i
    rw [hlow]
    dsimp only
    rw [mul_assoc, ← Complex.exp_add]
    have hg : linspace (-(2 * Real.pi) / 2) (2 * Real.pi / 2) (2 ^ fin) i = gridX fin i := by
      rw [gridX_eq]
      unfold linspace Spec.position
      rw [hNr]; ring
    rw [hg]
    rw [mul_comm x0 Real.pi, hNorm]
    push_cast
    rfl
  · have hphi' := hphi
    unfold wavePacket at hphi'
    simp only [hs.ne', if_false, Bool.not_true, Bool.and_false, Bool.false_and, if_true, Bool.false_eq_true] at hphi'
    set low : ℕ → ℂ := fun i => Complex.exp (-(gridK fin i - k0 : ℝ) ^ 2 / (4 * sigma ^ 2 : ℝ) + Complex.I * gridK fin i * ((-(Real.pi * x0) : ℝ) : ℂ)) with hlow
    have hr : renormVec (2 ^ fin) low = .ok phi := hphi'
    set Norm : ℝ := Real.sqrt (((2 ^ fin : ℕ) : ℝ) / (2 ^ fin : ℕ)) / (2 * Real.pi) ^ (1 / 4 : ℝ) / Real.sqrt sigma with hNorm
    have hNp : 0 < Norm := by
      have h2 := Real.pi_pos
      have h3 : 0 < Real.sqrt (((2 ^ fin : ℕ) : ℝ) / (2 ^ fin : ℕ)) := Real.sqrt_pos.2 (by positivity)
      have h4 := Real.sqrt_pos.2 hs
      positivity
    obtain ⟨b, hb, hbs, hbv⟩ := normalize_agrees (v := fun i => (Norm : ℂ) * low i) hNp (fun j hj => rfl) hr
    refine ⟨b, phi, ?_, hphi, hbs, hbv⟩
    rw [← hb]
    unfold gaussian
    simp only [not_le.2 hs, if_false, Bool.false_eq_true, if_true, Bool.not_true]
    congr 2
    funext i
    rw [hlow]
    dsimp only
    rw [mul_assoc, ← Complex.exp_add]
    have hg : linspace (-((2 ^ fin : ℕ) : ℝ) / 2) (((2 ^ fin : ℕ) : ℝ) / 2) (2 ^ fin) i = gridK fin i := by
      rw [gridK_eq]
      unfold linspace Spec.waveNumber
      have : ((2 : ℝ) ^ fin) ≠ 0 := by positivity
      rw [hNr]; field_simp; ring
    rw [hg]
    rw [mul_comm x0 Real.pi, hNorm]
    push_cast
    rfl

/-- **C141.** For a real amplitude, `coherent` generates the components of the coherent state, and the same as the C++ function `mode::coherent` (for the components below 170, where the latter is exact). -/
theorem coherent_agrees (alpha : ℝ) (N : ℕ) (hN : 0 < N) : ∃ b, coherent (.real alpha) N = .ok b ∧ b.shape = [N] ∧
    (∀ n < N, b.val [n] = Spec.coherentComponent alpha n) ∧ ∀ n (h : n < N), n < 170 → b.val [n] = MathExt.coherent alpha N ⟨n, h⟩ := by
  have hrec : ∀ n, coherentRec alpha n = alpha ^ n / Real.sqrt n.factorial := by
    intro n
    induction n with
    | zero => simp [coherentRec]
    | succ n ih =>
      rw [coherentRec, ih, Nat.factorial_succ, pow_succ]
      have h1 : (0 : ℝ) < Real.sqrt (n + 1 : ℕ) := Real.sqrt_pos.2 (by positivity)
      have h2 : (0 : ℝ) < Real.sqrt n.factorial := Real.sqrt_pos.2 (by exact_mod_cast n.factorial_pos)
      rw [Nat.cast_mul, Real.sqrt_mul (by positivity)]
      field_simp
  have hc : ∀ n, ((Real.exp (-|alpha| ^ 2 / 2) * coherentRec alpha n : ℝ) : ℂ) = Spec.coherentComponent alpha n := by
    intro n
    rw [hrec]
    unfold Spec.coherentComponent
    rw [Complex.norm_real, Real.norm_eq_abs]
    push_cast
    ring
  refine ⟨_, by unfold coherent; rw [if_neg hN.ne'], rfl, fun n _ => hc n, fun n h hn => ?_⟩
  rw [MathExt.coherent_components _ _ _ hn]
  exact hc n

/-- **C142.** But a complex amplitude, which the documentation asks for, is an exception for any dimension above 1. -/
theorem coherent_partial (alpha : ℂ) (N : ℕ) (hN : 2 ≤ N) : coherent (.complex alpha) N = .throw := by
  unfold coherent
  rw [if_neg (by omega)]
  exact if_neg (by omega)

theorem fock_eq {dim : ℕ} {i : ℤ} {p : ℕ} (h : pyIndex dim i = some p) : fock dim i = .ok (vec dim fun n => if n = p then 1 else 0) := by
  unfold fock; rw [h]

/-- **C141.** `fock` generates the basis vector, as does the C++ function with zero phase, and raises an exception if there is no such basis vector, as does the C++ function. -/
theorem fock_agrees (dim n : ℕ) :
    (∀ h : n < dim, ∃ b psi, fock dim n = .ok b ∧ MathExt.fock n dim 0 = .ok psi ∧ b.shape = [dim] ∧ (∀ j (hj : j < dim), b.val [j] = psi ⟨j, hj⟩) ∧ b.val [n] = 1 ∧ ∀ j, j ≠ n → b.val [j] = 0) ∧
    (dim ≤ n → fock dim n = .throw ∧ MathExt.fock n dim 0 = .throws) := by
  constructor
  · intro h
    have hp : pyIndex dim n = some n := by
      unfold pyIndex
      rw [if_pos ⟨by positivity, by exact_mod_cast h⟩]; simp
    refine ⟨_, _, fock_eq hp, if_neg (by omega), rfl, fun j hj => ?_, by simp [vec], fun j hj => by simp [vec, hj]⟩
    simp [vec]
  · intro h
    refine ⟨?_, if_pos h⟩
    unfold fock
    have : pyIndex dim n = none := by
      unfold pyIndex
      rw [if_neg (by push Not; intro _; exact_mod_cast h), if_neg (by push Not; intro _; positivity)]
    rw [this]

/-- **C141.** `momentum_eigen(k,fin)` for `-N/2 ≤ k < N/2` is the basis vector of the wave number `k` on the momentum grid of the C++ programs. -/
theorem momentumEigen_spec (k : ℤ) (fin : ℕ) (h1 : -((2 ^ fin / 2 : ℕ) : ℤ) ≤ k) (h2 : k < ((2 ^ fin : ℕ) : ℤ) - (2 ^ fin / 2 : ℕ)) (hf : 0 < fin) :
    ∃ b, momentumEigen k fin = .ok b ∧ b.shape = [2 ^ fin] ∧ ∀ j < 2 ^ fin, b.val [j] = if Spec.waveNumber fin j = k then 1 else 0 := by
  have hp : pyIndex (2 ^ fin) (k + (2 ^ fin / 2 : ℕ)) = some (k + (2 ^ fin / 2 : ℕ)).toNat := by
    unfold pyIndex
    rw [if_pos ⟨by omega, by omega⟩]
  refine ⟨_, fock_eq hp, rfl, fun j hj => ?_⟩
  have hhalf : ((2 ^ fin / 2 : ℕ) : ℝ) = 2 ^ fin / 2 := by
    rw [Nat.cast_div (dvd_pow_self 2 hf.ne') (by norm_num)]
    push_cast; rfl
  show (if j = (k + (2 ^ fin / 2 : ℕ)).toNat then (1 : ℂ) else 0) = _
  refine if_congr ?_ rfl rfl
  unfold Spec.waveNumber
  rw [← hhalf]
  generalize 2 ^ fin / 2 = M at *
  constructor
  · intro hh
    have : (j : ℤ) = k + M := by rw [hh]; omega
    have : (j : ℝ) = k + M := by exact_mod_cast this
    linarith
  · intro hh
    have : (j : ℝ) = k + M := by linarith
    have : (j : ℤ) = k + M := by exact_mod_cast this
    omega

/-- **C142.** A wave number below the grid is no error: what is returned is the state of the wave number `k+N`. (Above the grid, it is an exception.) -/
theorem momentumEigen_partial (k : ℤ) (fin : ℕ) (hf : 0 < fin) :
    (k < -((2 ^ fin / 2 : ℕ) : ℤ) → -((2 ^ fin / 2 : ℕ) : ℤ) ≤ k + (2 ^ fin : ℕ) → ∃ b, momentumEigen k fin = .ok b ∧ b.shape = [2 ^ fin] ∧ ∀ j < 2 ^ fin, b.val [j] = if Spec.waveNumber fin j = k + 2 ^ fin then 1 else 0) ∧
    (((2 ^ fin : ℕ) : ℤ) - (2 ^ fin / 2 : ℕ) ≤ k → momentumEigen k fin = .throw) := by
  constructor
  · intro h1 h2
    have hp : pyIndex (2 ^ fin) (k + (2 ^ fin / 2 : ℕ)) = pyIndex (2 ^ fin) (k + (2 ^ fin : ℕ) + (2 ^ fin / 2 : ℕ)) := by
      unfold pyIndex
      rw [if_neg (by omega), if_pos ⟨by omega, by omega⟩, if_pos ⟨by omega, by omega⟩]
      congr 2
      ring
    have he : momentumEigen k fin = momentumEigen (k + (2 ^ fin : ℕ)) fin := by
      unfold momentumEigen fock
      rw [hp]
    obtain ⟨b, b1, b2, b3⟩ := momentumEigen_spec (k + (2 ^ fin : ℕ)) fin h2 (by omega) hf
    refine ⟨b, he.trans b1, b2, fun j hj => ?_⟩
    rw [b3 j hj]
    push_cast
    rfl
  · intro h
    unfold momentumEigen fock
    have : pyIndex (2 ^ fin) (k + (2 ^ fin / 2 : ℕ)) = none := by
      unfold pyIndex
      rw [if_neg (by omega), if_neg (by omega)]
    rw [this]

/-- **C141.** `create` and `destroy` are the matrices of the ladder operators, `⟨i|a†|j⟩ = √(j+1) δ(i,j+1)`, Hermitian adjoints of each other. -/
theorem ladder_spec (dim : ℕ) (h : 0 < dim) : ∃ c d, create dim = .ok c ∧ destroy dim = .ok d ∧ c.shape = [dim, dim] ∧ d.shape = [dim, dim] ∧
    (∀ i j, c.val [i, j] = if i = j + 1 then (Real.sqrt (j + 1) : ℂ) else 0) ∧ (∀ i j, d.val [i, j] = if j = i + 1 then (Real.sqrt (i + 1) : ℂ) else 0) ∧
    ∀ i j, c.val [i, j] = conj (d.val [j, i]) := by
  have hc : ∀ i j : ℕ, (diag dim (fun i => (Real.sqrt (i + 1 : ℕ) : ℂ)) (-1)).val [i, j] = if i = j + 1 then (Real.sqrt (j + 1) : ℂ) else 0 := by
    intro i j
    unfold diag
    simp only [List.getD_cons_zero, List.getD_cons_succ]
    by_cases hij : i = j + 1
    · rw [if_pos (by omega), if_pos hij, min_eq_right (by omega)]; push_cast; rfl
    · rw [if_neg (by omega), if_neg hij]
  have hd : ∀ i j : ℕ, (diag dim (fun i => (Real.sqrt (i + 1 : ℕ) : ℂ)) 1).val [i, j] = if j = i + 1 then (Real.sqrt (i + 1) : ℂ) else 0 := by
    intro i j
    unfold diag
    simp only [List.getD_cons_zero, List.getD_cons_succ]
    by_cases hij : j = i + 1
    · rw [if_pos (by omega), if_pos hij, min_eq_left (by omega)]; push_cast; rfl
    · rw [if_neg (by omega), if_neg hij]
  refine ⟨_, _, if_neg h.ne', if_neg h.ne', rfl, rfl, hc, hd, fun i j => ?_⟩
  rw [hc, hd]
  split_ifs <;> simp

/-- **C140.** What `expvalue` returns for the operator `destroy` is `⟨a†⟩`, the complex conjugate of `⟨a⟩`. -/
theorem expvalue_destroy_partial (N : ℕ) (hN : 0 < N) (psi : ℕ → ℂ) (d : NDArray) (hd : destroy N = .ok d) :
    expvalue (vec N psi) d (.seq [0]) = .ok (conj (∑ n ∈ Finset.range N, ∑ m ∈ Finset.range N, conj (psi n) * (if m = n + 1 then (Real.sqrt (n + 1) : ℂ) else 0) * psi m)) := by
  obtain ⟨c, d', hc, hd', hcs, hds, hcv, hdv, hadj⟩ := ladder_spec N hN
  rw [hd] at hd'
  obtain rfl : d = d' := by simpa using hd'
  have h0 : among 1 [0] = [0] := by decide
  have := (expvalue_partial d).1 (vec N psi) [0] (by simp [vec, NDArray.ndim]) (by
    show d.shape = interleave (restrict (among 1 [0]) [N]) (restrict (among 1 [0]) [N])
    rw [hds, h0]; rfl)
  rw [this]
  congr 1
  show expectation [N] (fun i => psi (i.getD 0 0)) (extended 1 (among 1 [0]) fun i j => operatorOf d j i) = _
  rw [h0]
  have ha : ∀ x y, AgreeOff 1 [0] x y := by
    intro x y p hp hh
    exact absurd (by simp; omega) hh
  unfold expectation
  simp only [extended, if_pos (ha _ _)]
  have hsum : ∀ f : List ℕ → ℂ, ∑ x ∈ box [N], f x = ∑ n ∈ Finset.range N, f [n] := by
    intro f
    rw [← sumBox_eq]; rfl
  simp only [hsum, map_sum, map_mul, Complex.conj_conj]
  rw [Finset.sum_comm]
  refine Finset.sum_congr rfl fun n _ => Finset.sum_congr rfl fun m _ => ?_
  have : operatorOf d (restrict [0] [n]) (restrict [0] [m]) = if m = n + 1 then (Real.sqrt (n + 1) : ℂ) else 0 := hdv n m
  rw [this]
  have hr : conj (if m = n + 1 then (Real.sqrt (n + 1) : ℂ) else 0) = if m = n + 1 then (Real.sqrt (n + 1) : ℂ) else 0 := by
    split_ifs <;> simp
  rw [hr]
  simp only [List.getD_cons_zero]
  ring

/-! ## Examples -/

example : ∃ b phi, gaussian (1 / 2) 3 (1 / 10) 6 false true = .ok b ∧ wavePacket ⟨1 / 2, 3, 1 / 10, false⟩ 6 true = .ok phi ∧ b.shape = [64] ∧ ∀ j < 64, b.val [j] = phi j :=
  gaussian_agrees (1 / 2) 3 (1 / 10) (by norm_num) 6 false (Or.inr (by norm_num))

example : ∃ b, momentumEigen (-3) 4 = .ok b ∧ b.val [5] = 1 := by
  obtain ⟨b, h1, _, h2⟩ := momentumEigen_spec (-3) 4 (by norm_num) (by norm_num) (by norm_num)
  refine ⟨b, h1, ?_⟩
  rw [h2 5 (by norm_num)]
  norm_num [Spec.waveNumber]

end CppQED.PyTools
