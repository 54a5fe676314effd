import Verif.Model.Spin
import Verif.Spec.Spin
import Verif.Props.ModeAverages
import Verif.Props.Qbit

/-!
# The spin: C21, C23, C24, C70
-/

namespace CppQED.SpinEl
open CppQED.Elem CppQED.Tridiag CppQED.Spec CppQED.ModeEl Matrix
open ComplexConjugate ComplexOrder

/-! ## The operators -/

/-- The operators specified are those of a spin: in the whole space, of dimension `2S+1`, `[Sp,Sm]=2S_z` and `[S_z,Sp]=Sp`. -/
theorem spin_algebra (twoS : ℕ) : let Sp := mat (twoS + 1) (sPlus twoS)
    let Sm := mat (twoS + 1) (sMinus twoS)
    let Sz := mat (twoS + 1) (sZ twoS)
    Sm = Spᴴ ∧ Sp * Sm - Sm * Sp = (2 : ℂ) • Sz ∧ Sz * Sp - Sp * Sz = Sp := by
  intro Sp Sm Sz
  have hr : ∀ j : ℕ, j ≤ twoS → Real.sqrt (((twoS : ℝ) - j) * (j + 1)) * Real.sqrt (((twoS : ℝ) - j) * (j + 1)) = ((twoS : ℝ) - j) * (j + 1) := by
    intro j hj
    have : (j : ℝ) ≤ twoS := by exact_mod_cast hj
    exact Real.mul_self_sqrt (mul_nonneg (by linarith) (by positivity))
  have h1 : Sm = Spᴴ := by
    ext i j
    simp only [Sm, Sp, Matrix.conjTranspose_apply, mat_apply, sMinus, sPlus]
    split_ifs <;> simp
  refine ⟨h1, ?_, ?_⟩
  · ext i j
    rw [Matrix.sub_apply, Matrix.smul_apply, Matrix.mul_apply, Matrix.mul_apply]
    simp only [Sp, Sm, Sz, mat_apply, sMinus, sPlus, sZ]
    have a1 : ∑ x : Fin (twoS + 1), (if (i : ℕ) = x + 1 then (Real.sqrt (((twoS : ℝ) - (x : ℕ)) * ((x : ℕ) + 1)) : ℂ) else 0) *
        (if (j : ℕ) = x + 1 then (Real.sqrt (((twoS : ℝ) - (x : ℕ)) * ((x : ℕ) + 1)) : ℂ) else 0) = if i = j then ((twoS : ℂ) - i + 1) * i else 0 := by
      by_cases hij : i = j
      · subst hij
        rw [if_pos rfl]
        by_cases hi : (i : ℕ) = 0
        · rw [Finset.sum_eq_zero]
          · rw [hi]; simp
          · intro x _; rw [if_neg (by omega), zero_mul]
        · rw [Finset.sum_eq_single ⟨i - 1, by omega⟩]
          · rw [if_pos (by simp; omega), ← Complex.ofReal_mul, hr _ (by simp only; omega)]
            have : (((i : ℕ) - 1 : ℕ) : ℝ) = (i : ℕ) - 1 := by rw [Nat.cast_sub (by omega)]; simp
            simp only [this]; push_cast; ring
          · intro x _ hx
            rw [if_neg (fun h => hx (Fin.ext (by simp; omega))), zero_mul]
          · simp
      · rw [if_neg hij]
        refine Finset.sum_eq_zero fun x _ => ?_
        by_cases h : (i : ℕ) = x + 1
        · rw [if_neg (show ¬ (j : ℕ) = x + 1 from fun h' => hij (Fin.ext (by omega))), mul_zero]
        · rw [if_neg h, zero_mul]
    have a2 : ∑ x : Fin (twoS + 1), (if (x : ℕ) = i + 1 then (Real.sqrt (((twoS : ℝ) - (i : ℕ)) * ((i : ℕ) + 1)) : ℂ) else 0) *
        (if (x : ℕ) = j + 1 then (Real.sqrt (((twoS : ℝ) - (j : ℕ)) * ((j : ℕ) + 1)) : ℂ) else 0) = if i = j then ((twoS : ℂ) - i) * (i + 1) else 0 := by
      by_cases hij : i = j
      · subst hij
        rw [if_pos rfl]
        by_cases hi : (i : ℕ) = twoS
        · rw [Finset.sum_eq_zero]
          · rw [hi]; simp
          · intro x _; rw [if_neg (by have := x.2; omega), zero_mul]
        · rw [Finset.sum_eq_single ⟨i + 1, by have := i.2; omega⟩]
          · rw [if_pos rfl, ← Complex.ofReal_mul, hr _ (by have := i.2; omega)]; push_cast; ring
          · intro x _ hx
            rw [if_neg (fun h => hx (Fin.ext h)), zero_mul]
          · simp
      · rw [if_neg hij]
        refine Finset.sum_eq_zero fun x _ => ?_
        by_cases h : (x : ℕ) = i + 1
        · rw [if_neg (show ¬ (x : ℕ) = j + 1 from fun h' => hij (Fin.ext (by omega))), mul_zero]
        · rw [if_neg h, zero_mul]
    rw [a1, a2]
    by_cases hij : i = j
    · subst hij; simp; ring
    · have : ¬ (i : ℕ) = j := fun h => hij (Fin.ext h)
      simp [hij, this]
  · have hz : Sz = Matrix.diagonal fun i : Fin (twoS + 1) => ((i : ℕ) : ℂ) - twoS / 2 := by
      ext i j; simp [Sz, mat_apply, sZ, Matrix.diagonal_apply, Fin.ext_iff]
    ext i j
    rw [hz, Matrix.sub_apply, Matrix.diagonal_mul, Matrix.mul_diagonal]
    simp only [Sp, mat_apply, sPlus]
    by_cases h : (i : ℕ) = j + 1
    · rw [if_pos h, h]; push_cast; ring
    · rw [if_neg h]; simp

/-! ## Jump and rate -/

theorem sMinus_mulVec (twoS d : ℕ) (psi : Vec) (n : Fin d) :
    (mat d (sMinus twoS) *ᵥ ket d psi) n = if (n : ℕ) + 1 < d then (Real.sqrt (((twoS : ℝ) - (n : ℕ)) * ((n : ℕ) + 1)) : ℂ) * psi (n + 1) else 0 := by
  rw [mulVec_ket]
  simp only [sMinus, sPlus]
  split_ifs with h
  · rw [Finset.sum_eq_single ((n : ℕ) + 1)]
    · simp
    · intro j _ hj; rw [if_neg hj, zero_mul]
    · intro h'; exact absurd (Finset.mem_range.2 h) h'
  · refine Finset.sum_eq_zero fun j hj => ?_
    have := Finset.mem_range.1 hj
    rw [if_neg (by omega), zero_mul]

/-- **C21.** The jump of the spin. -/
theorem jump_eq (twoS : ℕ) (γ : ℝ) (d : ℕ) : IsJump d (jump twoS γ d) (mat d (sc (Real.sqrt (2 * γ)) (sMinus twoS))) := by
  intro psi
  funext n
  rw [mat_sc, Matrix.smul_mulVec, Pi.smul_apply, sMinus_mulVec]
  unfold jump ket
  simp only
  rw [Elem.set_apply, ascending (fun n x => (Real.sqrt (2 * γ) : ℂ) * Real.sqrt (((n : ℝ) + 1) * (twoS - n)) * x)]
  have := n.2
  by_cases h : (n : ℕ) + 1 < d
  · rw [if_neg (by omega), if_pos (by omega), if_pos h, smul_eq_mul, mul_comm ((n : ℝ) + 1)]; ring
  · rw [if_pos (by omega), if_neg h]; simp

theorem trace_jump (twoS : ℕ) (γ : ℝ) (hγ : 0 ≤ γ) (d : ℕ) (hd : d ≤ twoS + 1) (rho : Dens) :
    (mat d (sc (Real.sqrt (2 * γ)) (sMinus twoS)) * mat d rho * (mat d (sc (Real.sqrt (2 * γ)) (sMinus twoS)))ᴴ).trace =
      ∑ k ∈ Finset.range (d - 1), ((2 * γ * (1 + k : ℕ) * ((twoS : ℝ) - (1 + k : ℕ) + 1) : ℝ) : ℂ) * rho (1 + k) (1 + k) := by
  rw [mat_sc, sandwich d _ _ _ (by linarith), Matrix.trace_smul, smul_eq_mul]
  have e : mat d (sMinus twoS) * mat d rho * (mat d (sMinus twoS))ᴴ = Matrix.of fun m n : Fin d => if (m : ℕ) + 1 < d ∧ (n : ℕ) + 1 < d then
      (Real.sqrt (((twoS : ℝ) - (m : ℕ)) * ((m : ℕ) + 1)) : ℂ) * rho (m + 1) (n + 1) * (Real.sqrt (((twoS : ℝ) - (n : ℕ)) * ((n : ℕ) + 1)) : ℂ) else 0 := by
    ext m n
    have h1 : ∀ x : Fin d, (mat d (sMinus twoS) * mat d rho) m x = if (m : ℕ) + 1 < d then (Real.sqrt (((twoS : ℝ) - (m : ℕ)) * ((m : ℕ) + 1)) : ℂ) * rho (m + 1) x else 0 := by
      intro x
      exact sMinus_mulVec twoS d (fun i => rho i x) m
    rw [Matrix.mul_apply]
    simp only [h1, Matrix.conjTranspose_apply, mat_apply, Matrix.of_apply]
    by_cases hm : (m : ℕ) + 1 < d
    · simp only [hm, if_true, true_and]
      by_cases hn : (n : ℕ) + 1 < d
      · rw [if_pos hn, Finset.sum_eq_single ⟨n + 1, hn⟩]
        · simp [sMinus, sPlus]
        · intro x _ hx
          have : ¬ (x : ℕ) = n + 1 := fun h => hx (Fin.ext h)
          simp [sMinus, sPlus, this]
        · simp
      · rw [if_neg hn]
        refine Finset.sum_eq_zero fun x _ => ?_
        have : ¬ (x : ℕ) = n + 1 := by have := x.2; omega
        simp [sMinus, sPlus, this]
    · simp [hm]
  rw [e, Matrix.trace]
  simp only [Matrix.diag_apply, Matrix.of_apply, and_self]
  rcases d with - | d
  · simp
  · rw [Fin.sum_univ_castSucc, Nat.add_sub_cancel, Finset.sum_range]
    simp only [Fin.val_castSucc, Fin.val_last, lt_irrefl, if_false, add_zero]
    rw [Finset.mul_sum]
    refine Finset.sum_congr rfl fun k _ => ?_
    have hk : ((k : ℕ) : ℝ) ≤ twoS := by have := k.2; exact_mod_cast (show (k : ℕ) ≤ twoS by omega)
    rw [if_pos (by have := k.2; omega), mul_right_comm (Complex.ofReal _), ← Complex.ofReal_mul, Real.mul_self_sqrt (mul_nonneg (by linarith) (by positivity)), add_comm 1 (k : ℕ), ← mul_assoc,
      ← Complex.ofReal_mul]
    congr 2
    push_cast; ring

/-- **C21.** The rate of the spin is `Tr(JρJ†)`. -/
theorem rate_eq (twoS : ℕ) (γ : ℝ) (hγ : 0 ≤ γ) (d : ℕ) (hd : d ≤ twoS + 1) : IsRate d (rate twoS γ) (mat d (sc (Real.sqrt (2 * γ)) (sMinus twoS))) := by
  have hr : ∀ m : LDO, rate twoS γ m = ∑ k ∈ Finset.range (m.dim - 1), 2 * γ * (1 + k : ℕ) * ((twoS : ℝ) - (1 + k : ℕ) + 1) * m.diag (1 + k) := by
    intro m
    unfold rate
    rw [foldl_add_eq, zero_add, sum_map_range']
  have ht := trace_jump twoS γ hγ d hd
  have hp : ∀ m : LDO, m.dim = d → rate twoS γ m = (∑ k ∈ Finset.range (d - 1), ((2 * γ * (1 + k : ℕ) * ((twoS : ℝ) - (1 + k : ℕ) + 1) : ℝ) : ℂ) * m.index (1 + k) (1 + k)).re := by
    intro m hm
    rw [hr, hm, Complex.re_sum]
    refine Finset.sum_congr rfl fun k _ => ?_
    rw [Complex.re_ofReal_mul]; rfl
  constructor
  · intro rho; rw [ht, hp _ rfl]; rfl
  · intro psi
    have := dyad_sandwich d (mat d (sc (Real.sqrt (2 * γ)) (sMinus twoS))) psi
    rw [ht] at this
    have := congrArg Complex.re this
    rw [Complex.ofReal_re] at this
    rw [hp _ rfl, ← this]; rfl

/-! ## The dynamics -/

/-- The jump operators. -/
noncomputable def spinJ (p : Pars) : List Dens := [sc (Real.sqrt (2 * p.gamma)) (sMinus p.twoS)]

theorem dimension_le (p : Pars) : p.dimension ≤ p.twoS + 1 := by
  unfold Pars.dimension decideDimension; split_ifs <;> omega

theorem liouvillean_is (p : Pars) (ha : Option (ℝ → Vec → Vec → ℝ → Vec)) (ex : Option (ℝ → ℕ → ℂ)) (b : Bool) :
    LiIs ⟨p.dimension, ha, ex, b, some (liouvillean p)⟩ (spinJ p) := by
  refine elementLiouvillean_is _ _ _ rfl rfl ?_ ha ex b
  intro i L hL
  rcases i with - | i
  · simp only [List.getElem?_cons_zero, Option.some.injEq] at hL
    subst hL
    exact ⟨jump_eq _ _ _, fun s hs => by simp at hs⟩
  · simp at hL

theorem noLi (p : Pars) (ha : Option (ℝ → Vec → Vec → ℝ → Vec)) (ex : Option (ℝ → ℕ → ℂ)) (b : Bool) : LiIs ⟨p.dimension, ha, ex, b, none⟩ [] := by
  unfold LiIs; simp

theorem phases_spin (p : Pars) (hγ : p.gamma = 0) : Phases p.dimension p.z (spinJ p) := by
  intro j hj t
  have : j = sc (Real.sqrt (2 * p.gamma)) (sMinus p.twoS) := by simpa [spinJ] using hj
  refine ⟨1, by simp, ?_⟩
  have h0 : mat p.dimension j = 0 := by rw [this, mat_sc, hγ]; simp
  rw [h0]; simp

/-- **C23.** `Spin` and `LossySpin` (`J` being empty in the former case): the exact part corresponds to the Hamiltonian `z(S_z+S)/i`. -/
theorem spin_generates (p : Pars) (li : Option Liouvillean) (J : List Dens) (h : (li = none ∧ J = []) ∨ (li = some (liouvillean p) ∧ J = spinJ p)) :
    ∃ e, spin p li = .ok e ∧ e.dim = p.dimension ∧ (e.exApplicable = true ↔ p.gamma = 0) ∧ Generates e (fun i j => -p.z * (sZ p.twoS i j + if i = j then (p.twoS : ℂ) / 2 else 0)) J := by
  have hL : ∀ ha ex b, LiIs ⟨p.dimension, ha, ex, b, li⟩ J := by
    rcases h with ⟨rfl, rfl⟩ | ⟨rfl, rfl⟩
    · exact noLi p
    · exact liouvillean_is p
  have hJ : p.gamma = 0 → Phases p.dimension p.z J := by
    rcases h with ⟨rfl, rfl⟩ | ⟨rfl, rfl⟩
    · intro _ j hj; simp at hj
    · exact phases_spin p
  refine ⟨_, rfl, rfl, by simp, ?_⟩
  have := generates_of (e := ⟨p.dimension, none, some fun t i => Complex.exp (-t * i * p.z), decide (p.gamma = 0), li⟩) (w := mainDiagonal p.z 0) (V := fun _ _ => 0) (J := J)
    (by unfold HaIs; simp) (by
      unfold ExIs; intro t n _
      rw [← exactDiagonal_is]; unfold exactDiagonal; simp only; congr 1; ring) (hL _ _ _) (by
      intro hA j hj t
      exact hJ (by simpa using hA) j hj t)
  refine CppQED.QbitEl.generates_congr this ?_ rfl
  ext i j
  simp only [mat_apply, mainDiagonal, kerrDiagonal, sZ]
  by_cases h : (i : ℕ) = j <;> simp [h]; ring

/-- Rank-1 operators without frequencies and with at most the first side diagonals. -/
structure Static (d : ℕ) (T : Tri) (E : Dens) : Prop where
  ok : TriOK d T E
  diffs : T.diffs = [0] ∨ T.diffs = [1]
  freqs : ∀ i < 3, (T.freqs i).size = 0

theorem Static.add {d : ℕ} {T S : Tri} {E F : Dens} (h : Static d T E) (k : Static d S F) : ∃ R, Tridiag.add T S = .ok R ∧ Static d R (fun i j => E i j + F i j) := by
  obtain ⟨R, hR⟩ := add_succeeds h.ok.wf k.ok.wf (by rw [h.ok.rank, k.ok.rank]) (by rw [h.ok.dims, k.ok.dims])
    (by
      intro a ha
      rcases h.diffs with h1 | h1 <;> rcases k.diffs with k1 | k1 <;> rw [h1] at ha ⊢ <;> rw [k1] <;> (have : a = 0 := by simpa using ha) <;> subst this <;> simp)
    (by intro x hx hn; rw [h.ok.rank] at hx; exact absurd (h.freqs x hx) hn)
  refine ⟨R, hR, h.ok.add k.ok hR, ?_, ?_⟩
  · have := (add_ok hR).2.2.2.1
    rcases h.diffs with h1 | h1 <;> rcases k.diffs with k1 | k1 <;> rw [h1, k1] at this <;> simp [mergeDiffs, mergeDiff] at this <;> rw [← this] <;> simp
  · intro i hi
    have := (add_ok hR).2.2.2.2.2 i (by rw [h.ok.rank]; exact hi)
    unfold mergeFreq at this
    rw [k.freqs i hi] at this
    simp only [ne_eq, not_true_eq_false, if_false] at this
    injection this with this
    rw [← this, h.freqs i hi]

theorem Static.scale {d : ℕ} {T : Tri} {E : Dens} (h : Static d T E) (c : ℂ) : Static d (Tridiag.scale c T) (fun i j => c * E i j) := ⟨h.ok.scale c, h.diffs, h.freqs⟩

theorem Static.neg {d : ℕ} {T : Tri} {E : Dens} (h : Static d T E) : Static d (Tridiag.neg T) (fun i j => -E i j) := ⟨h.ok.neg, h.diffs, h.freqs⟩

theorem Static.dagger {d : ℕ} {T : Tri} {E : Dens} (h : Static d T E) : Static d (hermitianConjugate T) (fun i j => conj (E j i)) := ⟨h.ok.dagger, h.diffs, h.freqs⟩

theorem Static.congr {d : ℕ} {T : Tri} {E F : Dens} (h : Static d T E) (he : ∀ i j, E i j = F i j) : Static d T F := ⟨h.ok.congr fun i _ j _ => he i j, h.diffs, h.freqs⟩

theorem splus_static (d twoS : ℕ) (hd : d < 2 ^ 63) (h0 : 0 < d) : ∃ T, splus d twoS = .ok T ∧ Static d T (sPlus twoS) := by
  have ht := (unary_throws_iff (Diag.empty 1) (diag1 (d - 1) fun i => (Real.sqrt (((twoS : ℝ) - i) * (i + 1)) : ℂ)) (Diag.empty 1) 1 false (by rw [empty_size]; norm_num)
    (by rw [diag1_size]; omega) (by rw [empty_size]; norm_num) (by norm_num)).2 (by simp [empty_size])
  unfold splus
  cases h : unary (Diag.empty 1) 1 (diag1 (d - 1) fun i => (Real.sqrt (((twoS : ℝ) - i) * (i + 1)) : ℂ)) (Diag.empty 1) false with
  | throw => exact absurd h ht
  | undef => unfold unary at h; simp only at h; split_ifs at h
  | ok T =>
    have hT := unary_ok h
    refine ⟨T, rfl, ⟨by rw [hT], ?_, by rw [hT], ?_, fun i hi j hj => ?_⟩, by rw [hT]; simp, fun i _ => by rw [hT]; rfl⟩
    · rw [hT]; simp only [empty_size, diag1_size]
      congr 1; omega
    · rw [hT]
      refine ⟨rfl, rfl, ?_, ?_⟩
      · intro x hx hs
        have : x = 0 ∨ x = 1 ∨ x = 2 := by change x < 3 at hx; omega
        rcases this with rfl | rfl | rfl
        · simp [empty_size] at hs
        · simp only [empty_size, diag1_size]
          simp [diag1, diagShape, digits3]
        · simp [empty_size] at hs
      · intro x hx hs
        have : x = 0 ∨ x = 1 ∨ x = 2 := by change x < 3 at hx; omega
        rcases this with rfl | rfl | rfl
        · simp [empty_size] at hs
        · simp [KPos, digits3]
        · simp [empty_size] at hs
    · rw [unary_entry h, diag1_size, empty_size]
      simp only [ne_eq, not_true_eq_false, false_and, if_false, zero_add, add_zero, diag1, sPlus]
      by_cases hi' : i = j + 1
      · subst hi'
        have : ¬ (d - 1 = 0) := by omega
        simp [this]
      · rw [if_neg (by tauto), if_neg hi']

theorem sz_static (d twoS : ℕ) (hd : d < 2 ^ 63) (h0 : 0 < d) : ∃ T, sz d twoS = .ok T ∧ Static d T (sZ twoS) := by
  obtain ⟨T, hT, ok, hf⟩ := diagonalOperator_ok d hd h0 fun i => (i : ℂ) - twoS / 2
  refine ⟨T, hT, ok, ?_, fun i _ => hf i⟩
  left
  unfold diagonalOperator at hT
  rw [unary_ok hT]

/-- **C23.** `sn` is the component of the spin in the given direction. -/
theorem sn_static (d twoS : ℕ) (hd : d < 2 ^ 63) (h0 : 0 < d) (θ φ : ℝ) : ∃ T, sn d twoS θ φ = .ok T ∧ Static d T (sN twoS θ φ) := by
  obtain ⟨P, hP, sP⟩ := splus_static d twoS hd h0
  obtain ⟨Z, hZ, sZ⟩ := sz_static d twoS hd h0
  obtain ⟨X, hX, sX⟩ := sP.add sP.dagger
  obtain ⟨Y, hY, sY⟩ := sP.add sP.dagger.neg
  obtain ⟨XY, hXY, sXY⟩ := ((sX.scale (1 / 2)).scale (Real.cos φ)).add ((sY.scale (1 / (2 * Complex.I))).scale (Real.sin φ))
  obtain ⟨N, hN, sN'⟩ := (sXY.scale (Real.sin θ)).add (sZ.scale (Real.cos θ))
  refine ⟨N, ?_, sN'.congr fun i j => ?_⟩
  · unfold sn sx sy
    rw [hP, hZ]
    simp only [Outcome.bind]
    rw [hX, hY]
    simp only [Outcome.bind]
    rw [hXY]
    simp only [Outcome.bind]
    exact hN
  · have : conj (sPlus twoS j i) = sMinus twoS i j := by
      unfold sMinus sPlus; split_ifs <;> simp
    simp only [this, sN, Spec.sX, Spec.sY]
    ring

theorem dimension_pos (p : Pars) : 0 < p.dimension := by
  unfold Pars.dimension decideDimension; split_ifs <;> omega

/-- **C23.** `SpinSch` and `LossySpinSch`: the Hamiltonian is `z S_n/i`, for any direction. -/
theorem spinSch_generates (p : Pars) (hd : p.dimension < 2 ^ 63) (li : Option Liouvillean) (J : List Dens) (h : (li = none ∧ J = []) ∨ (li = some (liouvillean p) ∧ J = spinJ p)) :
    ∃ e, spinSch p li = .ok e ∧ e.dim = p.dimension ∧ e.exApplicable = true ∧ Generates e (fun i j => -p.z * sN p.twoS p.theta p.phi i j) J := by
  have hL : ∀ ha ex b, LiIs ⟨p.dimension, ha, ex, b, li⟩ J := by
    rcases h with ⟨rfl, rfl⟩ | ⟨rfl, rfl⟩
    · exact noLi p
    · exact liouvillean_is p
  obtain ⟨N, hN, sN'⟩ := sn_static p.dimension p.twoS hd (dimension_pos p) p.theta p.phi
  refine ⟨_, by unfold spinSch; rw [hN]; rfl, rfl, rfl, ?_⟩
  have := generates_of (e := ⟨p.dimension, some (TriHam.addContribution ⟨false, [scale (-p.z) N]⟩), none, true, li⟩) (w := fun _ => 0)
    (V := fun i j => -p.z * sN p.twoS p.theta p.phi i j) (J := J)
    (by
      unfold HaIs; intro t psi dpsidt t0
      have e1 : ∀ (V : Dens) (t : ℝ), interactionPicture (fun _ => 0) V t = V := by
        intro V t; funext i j; simp [interactionPicture]
      rw [e1]
      funext n
      rw [Pi.add_apply, mulVec_ket]
      simp only [ket, TriHam.addContribution, List.foldl_cons, List.foldl_nil, Bool.false_eq_true, if_false]
      rw [apply_static (sN'.scale (-p.z)).ok _ _ _ n.2]; rfl) (by unfold ExIs; intro n _; rfl) (hL _ _ _) (fun _ j _ t => phase_one _ j t)
  simpa using this

example : ∃ e, spinSch ⟨3, 0, 1, 2, 5, 1 / 2⟩ (some (liouvillean ⟨3, 0, 1, 2, 5, 1 / 2⟩)) = .ok e ∧ e.dim = 4 := by
  obtain ⟨e, h, hd, -⟩ := spinSch_generates ⟨3, 0, 1, 2, 5, 1 / 2⟩ (by simp [Pars.dimension, decideDimension]) _ _ (.inr ⟨rfl, rfl⟩)
  exact ⟨e, h, by simpa [Pars.dimension, decideDimension] using hd⟩

/-! ## The trace -/

/-- The derivative of the trace of the density operator of the lossy spin in the free picture. -/
theorem spin_trace (p : Pars) (hγ : 0 ≤ p.gamma) (rho : Dens) :
    (lindblad (mat p.dimension fun i j => -p.z * (sZ p.twoS i j + if i = j then (p.twoS : ℂ) / 2 else 0)) ((spinJ p).map (mat p.dimension)) (mat p.dimension rho)).trace =
      ∑ n ∈ Finset.range p.dimension, 2 * p.gamma * n * (p.twoS - n) * rho n n := by
  have e : (mat p.dimension fun i j => -p.z * (sZ p.twoS i j + if i = j then (p.twoS : ℂ) / 2 else 0)) = Matrix.diagonal fun i : Fin p.dimension => -p.z * (i : ℕ) := by
    ext i j
    simp only [mat_apply, sZ, Matrix.diagonal_apply, Fin.ext_iff]
    by_cases h : (i : ℕ) = j <;> simp [h]
  unfold lindblad
  rw [Matrix.trace_add, e, Matrix.trace_add, Matrix.diagonal_conjTranspose]
  simp only [spinJ, List.map_cons, List.map_nil, List.sum_cons, List.sum_nil, add_zero]
  rw [trace_jump _ _ hγ _ (dimension_le p)]
  obtain ⟨d, hd⟩ : ∃ d, p.dimension = d + 1 := ⟨p.dimension - 1, by have := dimension_pos p; omega⟩
  rw [hd, Nat.add_sub_cancel, Finset.sum_range_succ']
  have e2 : (Matrix.diagonal (fun i : Fin (d + 1) => -p.z * (i : ℕ)) * mat (d + 1) rho).trace + (mat (d + 1) rho * Matrix.diagonal (star fun i : Fin (d + 1) => -p.z * (i : ℕ))).trace =
      ∑ n ∈ Finset.range (d + 1), -(2 * p.gamma) * n * rho n n := by
    rw [← Matrix.trace_add, Finset.sum_range]
    unfold Matrix.trace
    refine Finset.sum_congr rfl fun n _ => ?_
    rw [Matrix.diag_apply, Matrix.add_apply, Matrix.diagonal_mul, Matrix.mul_diagonal, mat_apply, Pi.star_apply, Complex.star_def, map_mul, map_neg, Complex.conj_natCast,
      show p.z = p.gamma + p.omega * Complex.I from by apply Complex.ext <;> simp [Pars.z]]
    simp; ring
  rw [e2, Finset.sum_range_succ']
  simp only [Nat.cast_zero, mul_zero, zero_mul, add_zero]
  rw [← Finset.sum_add_distrib]
  refine Finset.sum_congr rfl fun k _ => ?_
  rw [add_comm 1 k]
  push_cast
  ring

/-- **C22.** For the spin 1/2, the probability is conserved. -/
theorem spinHalf_trace (p : Pars) (h : p.twoS = 1) (hγ : 0 ≤ p.gamma) (rho : Dens) :
    (lindblad (mat p.dimension fun i j => -p.z * (sZ p.twoS i j + if i = j then (p.twoS : ℂ) / 2 else 0)) ((spinJ p).map (mat p.dimension)) (mat p.dimension rho)).trace = 0 := by
  rw [spin_trace p hγ]
  refine Finset.sum_eq_zero fun n hn => ?_
  have h1 := Finset.mem_range.1 hn
  have h2 := dimension_le p
  have : n = 0 ∨ n = 1 := by omega
  rcases this with rfl | rfl <;> simp [h]

/-- **C70, `_partial`.** For larger spins, what is missing from conserving the probability. The full claim, that the derivative of the trace be zero for all states, is refuted in
`spin_trace_not_conserved`. -/
theorem spin_trace_partial (p : Pars) (hγ : 0 ≤ p.gamma) (ρ : Matrix (Fin p.dimension) (Fin p.dimension) ℂ) :
    (lindblad (mat p.dimension fun i j => -p.z * (sZ p.twoS i j + if i = j then (p.twoS : ℂ) / 2 else 0)) ((spinJ p).map (mat p.dimension)) ρ).trace =
      ∑ n : Fin p.dimension, 2 * p.gamma * (n : ℕ) * (p.twoS - (n : ℕ)) * ρ n n := by
  have := spin_trace p hγ fun i j => if h : i < p.dimension ∧ j < p.dimension then ρ ⟨i, h.1⟩ ⟨j, h.2⟩ else 0
  rw [mat_surj] at this
  rw [this, Finset.sum_range]
  exact Finset.sum_congr rfl fun n _ => by rw [dif_pos ⟨n.2, n.2⟩]

/-- **C70.** The lossy spin with `S>1/2` does not conserve the probability: the derivative of the trace is not even proportional to the trace (which renormalisation would remedy): it vanishes in the
lowest state, but not in the next one. -/
theorem spin_trace_not_conserved (p : Pars) (hγ : 0 < p.gamma) (hS : 2 ≤ p.twoS) (hd : 2 ≤ p.dimension) :
    ¬ ∃ c : ℂ, ∀ ρ : Matrix (Fin p.dimension) (Fin p.dimension) ℂ, ρ.PosSemidef →
      (lindblad (mat p.dimension fun i j => -p.z * (sZ p.twoS i j + if i = j then (p.twoS : ℂ) / 2 else 0)) ((spinJ p).map (mat p.dimension)) ρ).trace = c * ρ.trace := by
  rintro ⟨c, hc⟩
  have hp : ∀ k : Fin p.dimension, (Matrix.diagonal (Pi.single k (1 : ℂ))).PosSemidef := by
    intro k
    refine Matrix.PosSemidef.diagonal fun i => ?_
    by_cases h : i = k
    · subst h; simp
    · simp [h]
  have ev : ∀ k : Fin p.dimension, 2 * p.gamma * (k : ℕ) * (p.twoS - (k : ℕ)) = c := by
    intro k
    have := hc _ (hp k)
    rw [spin_trace_partial p hγ.le, Matrix.trace_diagonal, Finset.sum_eq_single k, Finset.sum_eq_single k] at this
    · simpa using this
    · intro i _ hi; simp [hi]
    · simp
    · intro i _ hi; simp [hi]
    · simp
  have e0 := ev ⟨0, by omega⟩
  have e1 := ev ⟨1, by omega⟩
  simp only [Nat.cast_zero, mul_zero, zero_mul, Nat.cast_one, mul_one] at e0 e1
  rw [← e0] at e1
  rcases mul_eq_zero.1 e1 with h | h
  · have : (2 * p.gamma : ℝ) = 0 := by exact_mod_cast h
    linarith
  · have : ((p.twoS : ℕ) : ℂ) = (1 : ℕ) := by rw [Nat.cast_one]; exact sub_eq_zero.1 h
    have := Nat.cast_injective this
    omega

example : (⟨2, 0, 0, 0, 1, 1⟩ : Pars).dimension = 3 := by simp [Pars.dimension, decideDimension]

/-! ## Averages -/

theorem average_apply (m : LDO) (twoS : ℕ) : average twoS m 0 = ∑ n ∈ Finset.range m.dim, ((n : ℝ) - twoS / 2) * m.diag n ∧
    average twoS m 1 = ∑ n ∈ Finset.range m.dim, ((n : ℝ) - twoS / 2) ^ 2 * m.diag n ∧
    average twoS m 2 = (∑ n ∈ Finset.range (m.dim - 1), (Real.sqrt (((twoS : ℝ) - n) * (n + 1)) : ℂ) * m.index n (n + 1)).re ∧
    average twoS m 3 = (∑ n ∈ Finset.range (m.dim - 1), (Real.sqrt (((twoS : ℝ) - n) * (n + 1)) : ℂ) * m.index n (n + 1)).im ∧ average twoS m 4 = m.diag (m.dim - 1) := by
  have key : ∀ i, average twoS m i = if i = 4 then m.diag (m.dim - 1) else 0 + ((List.range m.dim).map fun (n : ℕ) => (if i = 0 then ((n : ℝ) - twoS / 2) * m.diag n else 0) +
      (if i = 1 then ((n : ℝ) - twoS / 2) ^ 2 * m.diag n else 0) +
      (if i = 2 then (if n < m.dim - 1 then ((Real.sqrt (((twoS : ℝ) - n) * (n + 1)) : ℂ) * m.index n (n + 1)).re else 0) else 0) +
      (if i = 3 then (if n < m.dim - 1 then ((Real.sqrt (((twoS : ℝ) - n) * (n + 1)) : ℂ) * m.index n (n + 1)).im else 0) else 0)).sum := by
    intro i
    unfold average
    simp only
    rw [Averages.set_apply]
    by_cases h : i = 4
    · rw [if_pos h, if_pos h]
    rw [if_neg h, if_neg h]
    rw [foldl_averages _ _ fun (n : ℕ) i => (if i = 0 then ((n : ℝ) - twoS / 2) * m.diag n else 0) +
      (if i = 1 then ((n : ℝ) - twoS / 2) ^ 2 * m.diag n else 0) +
      (if i = 2 then (if n < m.dim - 1 then ((Real.sqrt (((twoS : ℝ) - n) * (n + 1)) : ℂ) * m.index n (n + 1)).re else 0) else 0) +
      (if i = 3 then (if n < m.dim - 1 then ((Real.sqrt (((twoS : ℝ) - n) * (n + 1)) : ℂ) * m.index n (n + 1)).im else 0) else 0)]
    intro a n i
    by_cases h : n < m.dim - 1
    · simp only [h, if_true, Averages.add_apply]; ring
    · simp only [h, if_false, Averages.add_apply, ite_self]; ring
  have cut : ∀ f : ℕ → ℝ, ∑ n ∈ Finset.range m.dim, (if n < m.dim - 1 then f n else 0) = ∑ n ∈ Finset.range (m.dim - 1), f n := by
    intro f
    rcases m.dim with - | d
    · simp
    · rw [Finset.sum_range_succ, Nat.add_sub_cancel, if_neg (lt_irrefl _), add_zero]
      exact Finset.sum_congr rfl fun n hn => if_pos (Finset.mem_range.1 hn)
  refine ⟨?_, ?_, ?_, ?_, ?_⟩
  · rw [key, sum_map_range]; simp
  · rw [key, sum_map_range]; simp
  · rw [key, sum_map_range, Complex.re_sum, ← cut]; simp
  · rw [key, sum_map_range, Complex.im_sum, ← cut]; simp
  · rw [key]; simp

theorem pad_self (m : LDO) : mat m.dim (pad m.dim m.index) = state m := by
  ext i j; simp [mat_apply, pad, state]

/-- **C24.** What is displayed for the spin: the expectation value and the variance of `S_z` (the latter under the label `<sz^2>`), the real and imaginary part of the expectation value of `S₊`, the population
of the last level. -/
theorem averaged_spec (m : LDO) (twoS : ℕ) :
    let shown := process (average twoS m)
    shown 0 = mean (mat m.dim (sZ twoS)) (state m) ∧ shown 1 = variance (mat m.dim (sZ twoS)) (state m) ∧
    shown 2 = (expectation (mat m.dim (sPlus twoS)) (state m)).re ∧ shown 3 = (expectation (mat m.dim (sPlus twoS)) (state m)).im ∧ shown 4 = m.diag (m.dim - 1) := by
  intro shown
  obtain ⟨a0, a1, a2, a3, a4⟩ := average_apply m twoS
  have hz : mat m.dim (sZ twoS) = Matrix.diagonal fun i : Fin m.dim => ((((i : ℕ) : ℝ) - twoS / 2 : ℝ) : ℂ) := by
    ext i j; simp [mat_apply, sZ, Matrix.diagonal_apply, Fin.ext_iff]
  have hd : ∀ f : ℕ → ℝ, (Matrix.diagonal (fun i : Fin m.dim => (f i : ℂ)) * state m).trace.re = ∑ n ∈ Finset.range m.dim, f n * m.diag n := by
    intro f
    unfold Matrix.trace
    rw [Finset.sum_range, Complex.re_sum]
    refine Finset.sum_congr rfl fun n _ => ?_
    rw [Matrix.diag_apply, Matrix.diagonal_mul, Complex.re_ofReal_mul]; rfl
  have m0 : mean (mat m.dim (sZ twoS)) (state m) = average twoS m 0 := by
    unfold mean; rw [hz, hd fun n => (n : ℝ) - twoS / 2, a0]
  have m1 : mean (mat m.dim (sZ twoS) * mat m.dim (sZ twoS)) (state m) = average twoS m 1 := by
    unfold mean
    rw [hz, Matrix.diagonal_mul_diagonal, a1, ← hd fun n => ((n : ℝ) - twoS / 2) ^ 2]
    congr 4
    funext i; push_cast; ring
  have mp : expectation (mat m.dim (sPlus twoS)) (state m) = ∑ n ∈ Finset.range (m.dim - 1), (Real.sqrt (((twoS : ℝ) - n) * (n + 1)) : ℂ) * m.index n (n + 1) := by
    unfold expectation
    rw [← pad_self, trace_pad _ _ le_rfl, Finset.sum_comm]
    obtain hd0 | ⟨d, hd1⟩ : m.dim = 0 ∨ ∃ d, m.dim = d + 1 := by
      rcases h : m.dim with - | d
      · simp
      · exact .inr ⟨d, rfl⟩
    · rw [hd0]; simp
    · rw [hd1, Nat.add_sub_cancel, Finset.sum_range_succ]
      have : ∑ x ∈ Finset.range (d + 1), sPlus twoS x d * m.index d x = 0 := by
        refine Finset.sum_eq_zero fun x hx => ?_
        have := Finset.mem_range.1 hx
        unfold sPlus; rw [if_neg (by omega), zero_mul]
      rw [this, add_zero]
      refine Finset.sum_congr rfl fun n hn => ?_
      have := Finset.mem_range.1 hn
      rw [Finset.sum_eq_single (n + 1)]
      · unfold sPlus; rw [if_pos rfl]
      · intro x _ hx; unfold sPlus; rw [if_neg hx, zero_mul]
      · intro h; exact absurd (Finset.mem_range.2 (by omega)) h
  have s0 : shown 0 = average twoS m 0 := by simp [shown, process, Averages.set_apply]
  have s1 : shown 1 = average twoS m 1 - average twoS m 0 ^ 2 := by simp [shown, process, Averages.set_apply]
  have s2 : shown 2 = average twoS m 2 := by simp [shown, process, Averages.set_apply]
  have s3 : shown 3 = average twoS m 3 := by simp [shown, process, Averages.set_apply]
  have s4 : shown 4 = average twoS m 4 := by simp [shown, process, Averages.set_apply]
  refine ⟨by rw [s0, m0], by rw [s1]; unfold variance; rw [m0, m1], by rw [s2, mp, a2], by rw [s3, mp, a3], by rw [s4, a4]⟩

/-- **C21.** The rate returned by the Liouvillean of the spin is the one of its jump. -/
theorem liouvillean_rates (p : Pars) (hγ : 0 ≤ p.gamma) (hd : p.dimension ≤ p.twoS + 1) :
    ∃ r : LDO → ℝ, (∀ m, (liouvillean p).rates m = [r m]) ∧ IsRate p.dimension r (mat p.dimension (sc (Real.sqrt (2 * p.gamma)) (sMinus p.twoS))) :=
  ⟨rate p.twoS p.gamma, fun m => by simp [liouvillean, elementLiouvillean], rate_eq p.twoS p.gamma hγ _ hd⟩

example := liouvillean_rates ⟨3, 0, 1, 2, 5, 1 / 2⟩ (by norm_num) (by simp [Pars.dimension, decideDimension])

end CppQED.SpinEl
