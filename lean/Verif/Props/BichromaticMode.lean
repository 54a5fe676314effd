import Verif.Model.ModeVariants
import Verif.Props.ModeDynamics
import Verif.Props.MCWF

/-!
# The bichromatically pumped mode: C88, C89
-/

namespace CppQED.ModeEl
open CppQED.Elem CppQED.Tridiag CppQED.Spec Matrix
open ComplexConjugate

/-! ## Specification -/

/-- The physical state vector follows, in the time step beginning at `t0`, the Schrödinger equation of the mode with the time-dependent pumping `η`. -/
def FollowsPump (e : Element) (κ δ : ℝ) (η : ℝ → ℂ) (t0 : ℝ) : Prop :=
  ∀ (t : ℝ) (psi : ℝ → Fin e.dim → ℂ), (∀ i, HasDerivAt (fun s => psi s i) (rhs e t t0 (psi t) i) t) →
    ∀ i, HasDerivAt (fun s => toSchroedinger e s t0 (psi s) i) ((mat e.dim (modeH κ δ (η t)) *ᵥ toSchroedinger e t t0 (psi t)) i) t

/-- Two pumps in the frame rotating with the first: the second, with the detuning `δ'`, rotates with the difference of the detunings. -/
noncomputable def twoPumps (δ δ' : ℝ) (η η' : ℂ) (t : ℝ) : ℂ := η + η' * Complex.exp (Complex.I * ((δ - δ') * t))

/-! ## Within a step -/

theorem two_pictures (d : ℕ) (κ δ δ' : ℝ) (η' : ℂ) (τ : ℝ) :
    (Matrix.diagonal fun i : Fin d => uDiag (mainDiagonal ⟨κ, -δ⟩ 0) τ i) * mat d (interactionPicture (mainDiagonal ⟨κ, -δ'⟩ 0) (fun i j => η' * adOp i j - conj η' * aOp i j) τ) =
      mat d (fun i j => (η' * Complex.exp (Complex.I * ((δ - δ') * τ))) * adOp i j - conj (η' * Complex.exp (Complex.I * ((δ - δ') * τ))) * aOp i j) *
        Matrix.diagonal fun i : Fin d => uDiag (mainDiagonal ⟨κ, -δ⟩ 0) τ i := by
  have hz : ∀ x : ℝ, (⟨κ, -x⟩ : ℂ) = (κ : ℂ) - Complex.I * x := by
    intro x; apply Complex.ext <;> simp
  have hw : ∀ (x : ℝ) (m : ℕ) (t : ℝ), uDiag (mainDiagonal ⟨κ, -x⟩ 0) t m = Complex.exp (-(m * ((κ : ℂ) - Complex.I * x) * t)) := by
    intro x m t; rw [hz]; simp [uDiag, mainDiagonal, kerrDiagonal]
  have hc : conj (Complex.exp (Complex.I * ((δ - δ') * τ))) = Complex.exp (-(Complex.I * ((δ - δ') * τ))) := by
    rw [← Complex.exp_conj]; simp
  ext i j
  rw [Matrix.diagonal_mul, Matrix.mul_diagonal, hw, hw]
  simp only [mat_apply, interactionPicture, mainDiagonal, kerrDiagonal, adOp, aOp, map_mul, hc, hz, ← Complex.exp_neg]
  by_cases h1 : (i : ℕ) = j + 1
  · have h2 : ¬ (j : ℕ) = i + 1 := by omega
    rw [if_pos h1, if_neg h2, h1]
    simp only [mul_zero, sub_zero]
    have : ∀ a b c x y u v w : ℂ, a * b * c = u * v → x * (a * (y * w) * (b * c)) = y * u * w * (x * v) := by
      intro a b c x y u v w h
      linear_combination x * y * w * h
    have e : ∀ a b c x y u v w : ℂ, b * a * c = u * v → a * (b * (y * w) * c) = y * u * w * v := by
      intro a b c x y u v w h
      linear_combination y * w * h
    refine e _ _ _ 0 _ _ _ _ ?_
    rw [← Complex.exp_add, ← Complex.exp_add, ← Complex.exp_add]
    congr 1
    push_cast; simp; ring
  · rw [if_neg h1]
    by_cases h2 : (j : ℕ) = i + 1
    · rw [if_pos h2, h2]
      simp only [mul_zero, zero_sub]
      have e : ∀ a b c y u v w : ℂ, b * a * c = u * v → a * (b * (-(y * w)) * c) = -(y * u * w) * v := by
        intro a b c y u v w h
        linear_combination -(y * w) * h
      refine e _ _ _ _ _ _ _ ?_
      rw [← Complex.exp_add, ← Complex.exp_add, ← Complex.exp_add]
      congr 1
      push_cast; simp; ring
    · rw [if_neg h2]; simp

/-- **C88.** The bichromatically pumped mode: within a time step beginning at `t0`, the mode is pumped with the two amplitudes, of which the second rotates with the difference of the detunings as a function of the
time *elapsed since the beginning of the step*. The jumps are those of the mode, and the exact part is not applicable in the Master equation. -/
theorem bichromatic_step (p : ParsBichromatic) (hd : p.cutoff < 2 ^ 63) (h0 : 0 < p.cutoff) (hκ : 0 < p.kappa) (hn : 0 ≤ p.nTh) (hK : p.omegaKerr = 0) (hA : p.omegaKerrAlter = 0) :
    ∃ e, bichromaticMode (decide (p.nTh ≠ 0)) p = .ok e ∧ e.dim = p.cutoff ∧ e.ex.isSome ∧ e.exApplicable = false ∧ LiIs e (modeJ p.kappa p.nTh) ∧
      (∀ t0 psi, toSchroedinger e t0 t0 psi = psi) ∧
      ∀ t0, FollowsPump e (p.kappa * (2 * p.nTh + 1)) p.delta (fun t => twoPumps p.delta p.deltaOther p.eta p.etaOther (t - t0)) t0 := by
  set κ' := p.kappa * (2 * p.nTh + 1) with hκ'
  have hpos : 0 < κ' := by rw [hκ']; positivity
  set zI : ℂ := ⟨κ', -p.delta⟩ with hzI
  set zO : ℂ := ⟨κ', -p.deltaOther⟩ with hzO
  obtain ⟨H, hH, h⟩ := hamiltonianIP_ok 0 zI p.eta p.omegaKerr p.omegaKerrAlter p.cutoff hd h0
  obtain ⟨P, hP, okP, hkP, hfP⟩ := pumping_ok p.etaOther p.cutoff hd h0
  rw [hK, hA, kerrE_zero] at h
  have hH' : ∃ hs, H = ⟨true, hs⟩ := by
    unfold hamiltonianIP at hH
    obtain ⟨T, hT, -⟩ := hOverI_ok 0 p.eta p.omegaKerr p.cutoff hd h0
    obtain ⟨K, hKK, -⟩ := diagonalOperator_ok p.cutoff hd h0 (kerrDiagonal p.omegaKerrAlter)
    rw [hT, hKK] at hH
    simp only [Outcome.bind] at hH
    injection hH with hH
    exact ⟨_, hH.symm⟩
  obtain ⟨hs, rfl⟩ := hH'
  refine ⟨⟨p.cutoff, some (TriHam.mk true (hs ++ [furnishWithFreqs P (mainDiagonal zO 0)])).addContribution, some (exactDiagonal zI), decide (zI.re = 0), some (liouvillean (decide (p.nTh ≠ 0)) p.toPars)⟩,
    ?_, rfl, rfl, ?_, liouvillean_is p.toPars hκ hn _ _ _, ?_, ?_⟩
  · unfold bichromaticMode
    simp only [decay_eq]
    rw [hH, hP]
    rfl
  · simp [hzI, hpos.ne']
  · intro t0 psi
    funext i
    rw [toSchroedinger_eq (w := mainDiagonal zI 0) (by unfold ExIs; intro t n _; exact exactDiagonal_is zI t n)]
    simp [uDiag]
  · intro t0
    set e : Element := ⟨p.cutoff, some (TriHam.mk true (hs ++ [furnishWithFreqs P (mainDiagonal zO 0)])).addContribution, some (exactDiagonal zI), decide (zI.re = 0),
      some (liouvillean (decide (p.nTh ≠ 0)) p.toPars)⟩ with he
    intro t psi hψ i
    have hE : ExIs e (mainDiagonal zI 0) := by unfold ExIs; intro t n _; exact exactDiagonal_is zI t n
    have hadd : ∀ t psi dpsidt t0, ket e.dim ((TriHam.mk true (hs ++ [furnishWithFreqs P (mainDiagonal zO 0)])).addContribution t psi dpsidt t0) = ket e.dim dpsidt +
        (mat e.dim (interactionPicture (mainDiagonal zI 0) (fun i j => hOverIE 0 p.eta 0 i j + 0) (t - t0)) +
          mat e.dim (interactionPicture (mainDiagonal zO 0) (fun i j => p.etaOther * adOp i j - conj p.etaOther * aOp i j) (t - t0))) *ᵥ ket e.dim psi := by
      intro t psi dpsidt t0
      have h1 := h t psi dpsidt t0
      funext n
      have h1n := congrFun h1 n
      rw [Matrix.add_mulVec, ← add_assoc, Pi.add_apply, ← h1n, mulVec_ket]
      simp only [ket, TriHam.addContribution, List.foldl_append, List.foldl_cons, List.foldl_nil, if_true]
      rw [apply_furnished okP _ _ _ _ _ n.2]
    have hr : rhs e t t0 (psi t) = (mat e.dim (interactionPicture (mainDiagonal zI 0) (fun i j => hOverIE 0 p.eta 0 i j + 0) (t - t0)) +
          mat e.dim (interactionPicture (mainDiagonal zO 0) (fun i j => p.etaOther * adOp i j - conj p.etaOther * aOp i j) (t - t0))) *ᵥ psi t := by
      have := hadd t (arr (psi t)) (arr (0 : Fin e.dim → ℂ)) t0
      rw [vec_arr, vec_arr, zero_add] at this
      exact this
    have e1 : (fun s => toSchroedinger e s t0 (psi s) i) = fun s => uDiag (mainDiagonal zI 0) (s - t0) i * psi s i := by
      funext s; rw [toSchroedinger_eq hE]
    rw [e1]
    have h2 := (uDiag_hasDerivAt (mainDiagonal zI 0) t0 t i).mul (hψ i)
    refine h2.congr_deriv ?_
    have e2 : toSchroedinger e t t0 (psi t) = (Matrix.diagonal fun i : Fin e.dim => uDiag (mainDiagonal zI 0) (t - t0) i) *ᵥ psi t := by
      funext k; rw [toSchroedinger_eq hE, Matrix.mulVec_diagonal]
    have e3 : mat e.dim (modeH κ' p.delta (twoPumps p.delta p.deltaOther p.eta p.etaOther (t - t0))) =
        mat e.dim (fun i j => hOverIE 0 p.eta 0 i j + 0) +
        mat e.dim (fun i j => (p.etaOther * Complex.exp (Complex.I * ((p.delta - p.deltaOther) * (t - t0 : ℝ)))) * adOp i j -
          conj (p.etaOther * Complex.exp (Complex.I * ((p.delta - p.deltaOther) * (t - t0 : ℝ)))) * aOp i j) - Matrix.diagonal fun i : Fin e.dim => mainDiagonal zI 0 i := by
      have hz : zI = (κ' : ℂ) - Complex.I * p.delta := by rw [hzI]; apply Complex.ext <;> simp
      ext a b
      simp only [mat_apply, modeH, twoPumps, hOverIE, Matrix.add_apply, Matrix.sub_apply, Matrix.diagonal_apply, mainDiagonal, kerrDiagonal, nOp, Fin.ext_iff, hz, map_add, ne_eq, not_true_eq_false, if_false]
      split_ifs <;> simp <;> ring
    rw [e3, e2, Matrix.sub_mulVec, Pi.sub_apply, Matrix.add_mulVec, Matrix.mulVec_mulVec, Matrix.mulVec_mulVec, ← uDiag_ip, ← two_pictures, Matrix.mulVec_diagonal, Matrix.mulVec_diagonal,
      ← Matrix.add_mulVec, ← Matrix.mul_add, ← Matrix.mulVec_mulVec, Matrix.mulVec_diagonal, hr]
    ring

/-! ## From step to step -/

/-- A given curve through the vacuum. -/
theorem exists_solution (e : Element) (t0 : ℝ) (psi0 : Fin e.dim → ℂ) :
    ∃ psi : ℝ → Fin e.dim → ℂ, psi t0 = psi0 ∧ ∀ i, HasDerivAt (fun s => psi s i) (rhs e t0 t0 (psi t0) i) t0 := by
  refine ⟨fun s i => psi0 i + ((s - t0 : ℝ) : ℂ) * rhs e t0 t0 psi0 i, by funext i; simp, fun i => ?_⟩
  have h1 : HasDerivAt (fun s : ℝ => ((s - t0 : ℝ) : ℂ)) 1 t0 := by
    have := ((hasDerivAt_id t0).sub_const t0).ofReal_comp
    simpa using this
  have h2 := (h1.mul_const (rhs e t0 t0 psi0 i)).const_add (psi0 i)
  have e0 : (fun i => psi0 i + ((t0 - t0 : ℝ) : ℂ) * rhs e t0 t0 psi0 i) = psi0 := by funext i; simp
  simp only [e0]
  simpa using h2

/-- Two different pumpings cannot both be followed. -/
theorem followsPump_unique (e : Element) (hd : 2 ≤ e.dim) (hi : ∀ t0 psi, toSchroedinger e t0 t0 psi = psi) (κ δ : ℝ) (η η' : ℝ → ℂ) (t0 : ℝ) (h : FollowsPump e κ δ η t0) (h' : FollowsPump e κ δ η' t0) :
    η t0 = η' t0 := by
  set i0 : Fin e.dim := ⟨0, by omega⟩
  set i1 : Fin e.dim := ⟨1, by omega⟩
  obtain ⟨psi, h1, h2⟩ := exists_solution e t0 (Pi.single i0 1)
  have e1 := (h t0 psi h2 i1).unique (h' t0 psi h2 i1)
  rw [hi, h1, Matrix.mulVec_single_one, Matrix.mulVec_single_one] at e1
  simpa [Matrix.col_apply, mat_apply, modeH, nOp, adOp, aOp, i0, i1] using e1

/-- **C89** (what remains of it). In the step beginning at `t0`, the phase of the second pump is the one corresponding to its frequency exactly if it has performed an integer number of rotations with respect to the
first until then: in the first step, or if the two frequencies are the same. As every step begins at the current time (`t0` is set to the time at the end of each step: `MCWF.Inv`), the phase of the second pump begins anew in
every step, and the frequency difference is lost in the limit of small steps. -/
theorem bichromatic_phase_partial (p : ParsBichromatic) (hd : p.cutoff < 2 ^ 63) (h0 : 2 ≤ p.cutoff) (hκ : 0 < p.kappa) (hn : 0 ≤ p.nTh) (hK : p.omegaKerr = 0) (hA : p.omegaKerrAlter = 0) (hη : p.etaOther ≠ 0)
    (e : Element) (he : bichromaticMode (decide (p.nTh ≠ 0)) p = .ok e) (t0 : ℝ) :
    FollowsPump e (p.kappa * (2 * p.nTh + 1)) p.delta (twoPumps p.delta p.deltaOther p.eta p.etaOther) t0 ↔ Complex.exp (Complex.I * ((p.delta - p.deltaOther) * t0)) = 1 := by
  obtain ⟨e', h1, h2, -, -, -, h5, h6⟩ := bichromatic_step p hd (by omega) hκ hn hK hA
  rw [he] at h1
  injection h1 with h1
  subst h1
  constructor
  · intro h
    have := followsPump_unique e (by omega) h5 _ _ _ _ t0 h (h6 t0)
    simp only [twoPumps, sub_self, add_right_inj] at this
    have := mul_left_cancel₀ hη this
    simpa using this
  · intro h
    have : (fun t => twoPumps p.delta p.deltaOther p.eta p.etaOther (t - t0)) = twoPumps p.delta p.deltaOther p.eta p.etaOther := by
      funext t
      unfold twoPumps
      have : Complex.exp (Complex.I * ((p.delta - p.deltaOther) * t)) =
          Complex.exp (Complex.I * ((p.delta - p.deltaOther) * (t - t0 : ℝ))) * Complex.exp (Complex.I * ((p.delta - p.deltaOther) * t0)) := by
        rw [← Complex.exp_add]; congr 1; push_cast; ring
      rw [this, h, mul_one]
    rw [← this]
    exact h6 t0

/-- **C88.** Without a second pump, the maker function makes the mode in the picture required; with a second pump, the picture required is disregarded. -/
theorem makeBichromatic_spec (p : ParsBichromatic) (qmp : Picture) :
    (p.etaOther = 0 → makeBichromatic p qmp = makePumpedLossy p.toPars qmp) ∧ (p.etaOther ≠ 0 → ∀ qmp', makeBichromatic p qmp = makeBichromatic p qmp') := by
  unfold makeBichromatic
  constructor
  · intro h; rw [if_pos h]
  · intro h qmp'; rw [if_neg h, if_neg h]

/-- **C88.** What the maker function makes if there is a second pump, whichever picture is required: the above, the jumps being those of the temperature given. -/
theorem makeBichromatic_step (p : ParsBichromatic) (qmp : Picture) (hη : p.etaOther ≠ 0) (hd : p.cutoff < 2 ^ 63) (h0 : 0 < p.cutoff) (hκ : 0 < p.kappa) (hn : 0 ≤ p.nTh) (hK : p.omegaKerr = 0) (hA : p.omegaKerrAlter = 0) :
    ∃ e, makeBichromatic p qmp = .ok e ∧ e.dim = p.cutoff ∧ e.ex.isSome ∧ e.exApplicable = false ∧ LiIs e (modeJ p.kappa p.nTh) ∧
      (∀ t0 psi, toSchroedinger e t0 t0 psi = psi) ∧
      ∀ t0, FollowsPump e (p.kappa * (2 * p.nTh + 1)) p.delta (fun t => twoPumps p.delta p.deltaOther p.eta p.etaOther (t - t0)) t0 := by
  unfold makeBichromatic
  rw [if_neg hη]
  exact bichromatic_step p hd h0 hκ hn hK hA

/-- With the detunings 1 and -1, the steps beginning at `π/2`, so in the middle of a rotation, start with the wrong phase. -/
example (e : Element) (he : bichromaticMode true ⟨⟨10, 1, 0, 0, 2, 1 / 2, Complex.I⟩, -1, 3⟩ = .ok e) :
    FollowsPump e (2 * (2 * (1 / 2) + 1)) 1 (twoPumps 1 (-1) Complex.I 3) 0 ∧ ¬ FollowsPump e (2 * (2 * (1 / 2) + 1)) 1 (twoPumps 1 (-1) Complex.I 3) (Real.pi / 2) := by
  have h := bichromatic_phase_partial ⟨⟨10, 1, 0, 0, 2, 1 / 2, Complex.I⟩, -1, 3⟩ (by norm_num) (by norm_num) (by norm_num) (by norm_num) rfl rfl (by norm_num) e (by norm_num; exact he)
  constructor
  · exact (h 0).2 (by simp)
  · intro hf
    have := (h _).1 hf
    have e1 : Complex.I * (((1 : ℝ) - (-1 : ℝ)) * ((Real.pi / 2 : ℝ) : ℂ)) = Real.pi * Complex.I := by push_cast; ring
    simp only at this
    rw [e1, Complex.exp_pi_mul_I] at this
    norm_num at this

end CppQED.ModeEl
