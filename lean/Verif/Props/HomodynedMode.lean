import Verif.Model.ModeVariants
import Verif.Props.ModeDynamics

/-!
# The homodyned mode: C86, C87
-/

namespace CppQED.ModeEl
open CppQED.Elem CppQED.Tridiag CppQED.Spec Matrix
open ComplexConjugate

/-! ## Specification -/

/-- The jump operators of a mode whose loss and absorption are mixed with the local oscillator: `α+√(2κ(n+1)) a`, `α*+√(2κn) a†`. -/
noncomputable def homodyneJ (alpha : ℂ) (κ n : ℝ) : List Dens :=
  [fun i j => (if i = j then alpha else 0) + (Real.sqrt (2 * κ * (n + 1)) : ℂ) * aOp i j, fun i j => (if i = j then conj alpha else 0) + (Real.sqrt (2 * κ * n) : ℂ) * adOp i j]

/-- The Hamiltonian divided by `i` of the mode, supplemented by the cross terms of `-½J†J`. -/
noncomputable def homodyneH (alpha : ℂ) (κ n δ : ℝ) (η : ℂ) : Dens := fun i j =>
  modeH (κ * (2 * n + 1)) δ η i j - (Real.sqrt (2 * κ * (n + 1)) + Real.sqrt (2 * κ * n)) / 2 * (conj alpha * aOp i j + alpha * adOp i j)

/-! ## Jumps -/

theorem ascending' (f : ℕ → ℂ → ℂ → ℂ) (k : ℕ) (psi : Vec) (n : ℕ) :
    (List.range k).foldl (fun (psi : Vec) n => psi.set n (f n (psi n) (psi (n + 1)))) psi n = if n < k then f n (psi n) (psi (n + 1)) else psi n := by
  induction k generalizing n with
  | zero => simp
  | succ k ih =>
    rw [List.range_succ, List.foldl_append, List.foldl_cons, List.foldl_nil, Elem.set_apply, ih, ih, ih]
    by_cases h : n = k
    · subst h; simp
    · rw [if_neg h]
      by_cases h2 : n < k
      · rw [if_pos h2, if_pos (by omega)]
      · rw [if_neg h2, if_neg (by omega)]

theorem descending' (f : ℕ → ℂ → ℂ → ℂ) (k : ℕ) (psi : Vec) (n : ℕ) :
    (List.range' 1 k).reverse.foldl (fun (psi : Vec) n => psi.set n (f n (psi n) (psi (n - 1)))) psi n = if 1 ≤ n ∧ n ≤ k then f n (psi n) (psi (n - 1)) else psi n := by
  induction k generalizing psi n with
  | zero => simp; omega
  | succ k ih =>
    rw [List.range'_concat, List.reverse_append, List.reverse_singleton, List.singleton_append, List.foldl_cons, ih]
    simp only [Elem.set_apply]
    by_cases h : n = 1 + 1 * k
    · rw [if_neg (by omega), if_pos h, if_pos (by omega), h]
    · by_cases h2 : 1 ≤ n ∧ n ≤ k
      · rw [if_pos h2, if_neg h, if_neg (by omega), if_pos (by omega)]
      · rw [if_neg h2, if_neg h, if_neg (by omega)]

theorem one_mulVec (d : ℕ) (c : ℂ) (E : Dens) (psi : Vec) (n : Fin d) :
    (mat d (fun i j => (if i = j then c else 0) + E i j) *ᵥ ket d psi) n = c * psi n + (mat d E *ᵥ ket d psi) n := by
  rw [mulVec_ket, mulVec_ket]
  simp only [add_mul, Finset.sum_add_distrib]
  congr 1
  rw [Finset.sum_eq_single (n : ℕ)]
  · simp
  · intro j _ hj; rw [if_neg (Ne.symm hj), zero_mul]
  · intro h; exact absurd (Finset.mem_range.2 n.2) h

/-- **C86.** The first jump is the multiplication with `α+√(2κ(n+1)) a`. -/
theorem homodynedLoss_eq (alpha : ℂ) (κ nTh : ℝ) (d : ℕ) : IsJump d (homodynedLoss alpha κ nTh d) (mat d ((homodyneJ alpha κ nTh).getD 0 0)) := by
  intro psi
  funext n
  change _ = (mat d (fun i j => (if i = j then alpha else 0) + sc (Real.sqrt (2 * κ * (nTh + 1))) aOp i j) *ᵥ ket d psi) n
  rw [one_mulVec, mat_sc, Matrix.smul_mulVec, Pi.smul_apply, aOp_mulVec, smul_eq_mul]
  simp only [ket, homodynedLoss]
  have hf := ascending' (fun n x y => alpha * x + (Real.sqrt (2 * κ * (nTh + 1)) : ℂ) * (Real.sqrt ((n : ℝ) + 1) : ℂ) * y) (d - 1) psi
  rw [Elem.set_apply, hf, hf]
  have := n.2
  by_cases h : (n : ℕ) = d - 1
  · rw [if_pos h, if_neg (by omega), if_neg (by omega), h]; ring
  · rw [if_neg h, if_pos (by omega), if_pos (by omega)]; ring

/-- **C86.** The second jump is the multiplication with `α*+√(2κn) a†`. -/
theorem homodynedAbsorption_eq (alpha : ℂ) (κ nTh : ℝ) (d : ℕ) : IsJump d (homodynedAbsorption alpha κ nTh d) (mat d ((homodyneJ alpha κ nTh).getD 1 0)) := by
  intro psi
  funext n
  change _ = (mat d (fun i j => (if i = j then conj alpha else 0) + sc (Real.sqrt (2 * κ * nTh)) adOp i j) *ᵥ ket d psi) n
  rw [one_mulVec, mat_sc, Matrix.smul_mulVec, Pi.smul_apply, adOp_mulVec, smul_eq_mul]
  simp only [ket, homodynedAbsorption]
  have hf := descending' (fun n x y => conj alpha * x + (Real.sqrt (2 * κ * nTh) : ℂ) * (Real.sqrt n : ℂ) * y) (d - 1) psi
  rw [Elem.set_apply, hf, hf]
  have := n.2
  by_cases h : (n : ℕ) = 0
  · rw [if_pos h, if_neg (by omega), if_neg (by omega), h]; ring
  · rw [if_neg h, if_pos (by omega), if_pos (by omega)]; ring

theorem homodyned_li (p : Pars) (alpha : ℂ) (ha : Option (ℝ → Vec → Vec → ℝ → Vec)) (ex : Option (ℝ → ℕ → ℂ)) (b : Bool) :
    LiIs ⟨p.cutoff, ha, ex, b, some (homodynedLiouvillean alpha p.kappa p.nTh p.cutoff)⟩ (homodyneJ alpha p.kappa p.nTh) := by
  refine elementLiouvillean_is _ _ _ rfl rfl ?_ ha ex b
  intro i L hL
  rcases i with - | i
  · simp only [List.getElem?_cons_zero, Option.some.injEq] at hL
    subst hL
    exact ⟨homodynedLoss_eq _ _ _ _, fun s hs => by simp at hs⟩
  · rcases i with - | i
    · simp only [List.getElem?_cons_succ, List.getElem?_cons_zero, Option.some.injEq] at hL
      subst hL
      exact ⟨homodynedAbsorption_eq _ _ _ _, fun s hs => by simp at hs⟩
    · simp at hL

/-! ## The Hamiltonian -/

theorem TriOK.plusHC {d : ℕ} {T : Tri} {E : Dens} (h : TriOK d T E) : ∃ R, Tridiag.plusHC T = .ok R ∧ TriOK d R (fun i j => E i j + conj (E j i)) := by
  obtain ⟨R, hR⟩ := hc_add_succeeds h.wf (dagger_wf h.wf) rfl rfl rfl rfl
  exact ⟨R, hR, h.add h.dagger hR⟩

theorem homodyneTerm_ok (alpha : ℂ) (κ nTh : ℝ) (d : ℕ) (hd : d < 2 ^ 63) (h0 : 0 < d) :
    ∃ X, homodyneTerm alpha κ nTh d = .ok X ∧ X.diffs = [1] ∧ (∀ i < 3, (X.freqs i).size = 0) ∧
      TriOK d X fun i j => (Real.sqrt (κ / 2) * (Real.sqrt nTh + Real.sqrt (nTh + 1)) : ℝ) * (conj alpha * aOp i j + alpha * adOp i j) := by
  obtain ⟨a, ha, ok, hf⟩ := aop_ok d hd h0
  obtain ⟨R, hR, okR⟩ := (ok.scale (conj alpha)).plusHC
  refine ⟨_, by unfold homodyneTerm; rw [ha]; simp only [Outcome.bind]; rw [hR], ?_, ?_, (okR.scale _).congr fun i _ j _ => ?_⟩
  · have hk : a.diffs = [1] := by unfold aop at ha; rw [unary_ok ha]
    have := (add_ok hR).2.2.2.1
    change mergeDiffs a.diffs a.diffs = _ at this
    rw [hk] at this
    change R.diffs = [1]
    simpa [mergeDiffs, mergeDiff] using this.symm
  · intro i hi
    have := (add_ok hR).2.2.2.2.2 i (by change i < 3 ^ a.rank; rw [ok.rank]; exact hi)
    change mergeFreq (a.freqs i) (a.freqs i) = _ at this
    unfold mergeFreq at this
    rw [hf i] at this
    simp only [ne_eq, not_true_eq_false, if_false] at this
    injection this with this
    change (R.freqs i).size = 0
    rw [← this, hf i]
  · rw [map_mul, Complex.conj_conj, conj_aOp]

/-- The shape of `hOverI`. -/
theorem hOverI_shape (z eta : ℂ) (omegaKerr : ℝ) (d : ℕ) (hd : d < 2 ^ 63) (h0 : 0 < d) (hne : z ≠ 0 ∨ eta ≠ 0) :
    ∃ T, hOverI z eta omegaKerr d = .ok T ∧ TriOK d T (hOverIE z eta omegaKerr) ∧ (T.diffs = [0] ∨ T.diffs = [1]) ∧ ∀ i < 3, (T.freqs i).size = 0 := by
  obtain ⟨T, hT, ok⟩ := hOverI_ok z eta omegaKerr d hd h0
  have ok : TriOK d T (hOverIE z eta omegaKerr) := by
    rcases ok with ok | ⟨-, h1, h2⟩
    · exact ok
    · rcases hne with h | h <;> contradiction
  refine ⟨T, hT, ok, ?_⟩
  unfold hOverI at hT
  obtain ⟨P, hP, okP, hkP, hfP⟩ := pumping_ok eta d hd h0
  obtain ⟨D, hD, okD, hfD⟩ := diagonalOperator_ok d hd h0 (mainDiagonal (-z) omegaKerr)
  have hkD : D.diffs = [0] := by unfold diagonalOperator at hD; rw [unary_ok hD]
  by_cases hz : z = 0
  · rw [if_neg (by simpa using hz)] at hT
    by_cases he : eta = 0
    · rcases hne with h | h <;> contradiction
    · rw [if_pos he, hP] at hT
      injection hT with hT
      subst hT
      exact ⟨Or.inr hkP, hfP⟩
  · rw [if_pos hz, hD] at hT
    simp only [Outcome.bind] at hT
    by_cases he : eta = 0
    · rw [if_neg (by simpa using he)] at hT
      injection hT with hT
      subst hT
      exact ⟨Or.inl hkD, fun i _ => hfD i⟩
    · rw [if_pos he, hP] at hT
      simp only at hT
      obtain ⟨-, -, -, h4, -, h6⟩ := add_ok hT
      refine ⟨Or.inr ?_, fun i hi => ?_⟩
      · rw [hkP, hkD] at h4
        simpa [mergeDiffs, mergeDiff] using h4.symm
      · have := h6 i (by rw [okD.rank]; exact hi)
        unfold mergeFreq at this
        rw [hfP i hi] at this
        simp only [ne_eq, not_true_eq_false, if_false] at this
        injection this with this
        rw [← this, hfD i]

theorem half_sqrt (κ n : ℝ) (hκ : 0 ≤ κ) (hn : 0 ≤ n) :
    Real.sqrt (κ / 2) * (Real.sqrt n + Real.sqrt (n + 1)) = (Real.sqrt (2 * κ * (n + 1)) + Real.sqrt (2 * κ * n)) / 2 := by
  have h : Real.sqrt (2 * κ) = 2 * Real.sqrt (κ / 2) := by
    rw [show 2 * κ = 2 ^ 2 * (κ / 2) by ring, Real.sqrt_mul (by positivity), Real.sqrt_sq (by norm_num)]
  rw [Real.sqrt_mul (show 0 ≤ 2 * κ by positivity) (n + 1), Real.sqrt_mul (show 0 ≤ 2 * κ by positivity) n, h]
  ring

/-- **C86.** The homodyned mode evolves between the jumps with the Hamiltonian of the mode supplemented by the cross terms of `-½J†J`, the jumps are those mixed with the local oscillator,
and the rates are those following from the jumps. (Without Kerr nonlinearity, and with at least one of decay, detuning, pumping.) -/
theorem homodynedMode_generates (p : Pars) (alpha : ℂ) (hd : p.cutoff < 2 ^ 63) (h0 : 0 < p.cutoff) (hκ : 0 ≤ p.kappa) (hn : 0 ≤ p.nTh) (hK : p.omegaKerr = 0) (hA : p.omegaKerrAlter = 0)
    (hne : p.kappa ≠ 0 ∨ p.delta ≠ 0 ∨ p.eta ≠ 0) :
    ∃ e, homodynedMode p alpha = .ok e ∧ e.dim = p.cutoff ∧ Generates e (homodyneH alpha p.kappa p.nTh p.delta p.eta) (homodyneJ alpha p.kappa p.nTh) ∧
      ∃ l, e.li = some l ∧ ∀ m, l.rates m = [-1, -1] := by
  set z : ℂ := ⟨finiteTemperatureHamiltonianDecay true p, -p.delta⟩ with hz
  have hne' : z ≠ 0 ∨ p.eta ≠ 0 := by
    rcases hne with h | h | h
    · left; intro h'
      have := congrArg Complex.re h'
      simp only [hz, finiteTemperatureHamiltonianDecay, if_true, Complex.zero_re] at this
      rcases mul_eq_zero.1 this with h1 | h1
      · exact h h1
      · linarith
    · left; intro h'
      have := congrArg Complex.im h'
      simp only [hz, Complex.zero_im, neg_eq_zero] at this
      exact h this
    · exact Or.inr h
  obtain ⟨T, hT, okT, hkT, hfT⟩ := hOverI_shape z p.eta p.omegaKerr p.cutoff hd h0 hne'
  obtain ⟨K, hKK, okK, -⟩ := diagonalOperator_ok p.cutoff hd h0 (kerrDiagonal p.omegaKerrAlter)
  obtain ⟨X, hX, hkX, hfX, okX⟩ := homodyneTerm_ok alpha p.kappa p.nTh p.cutoff hd h0
  have hkN : (Tridiag.neg X).diffs = [1] := hkX
  obtain ⟨R, hR⟩ := add_succeeds okT.wf okX.neg.wf (by rw [okT.rank, okX.neg.rank]) (by rw [okT.dims, okX.neg.dims])
    (by
      intro a ha
      rw [hkN]
      rcases hkT with h | h
      · left; rw [h] at ha ⊢; have : a = 0 := by simpa using ha
        rw [this]; rfl
      · right; right; rw [h])
    (by intro x hx h; rw [okT.rank] at hx; exact absurd (hfT x hx) h)
  have okR := okT.add okX.neg hR
  refine ⟨_, by unfold homodynedMode hamiltonianSch; rw [hT]; simp only [Outcome.bind]; rw [hKK]; simp only; rw [hX]; simp only; unfold Tridiag.sub; rw [hR], rfl, ?_, homodynedLiouvillean alpha p.kappa p.nTh p.cutoff, rfl, fun m => rfl⟩
  have := generates_of (e := ⟨p.cutoff, some (TriHam.mk false [R, K]).addContribution, none, true, some (homodynedLiouvillean alpha p.kappa p.nTh p.cutoff)⟩) (w := fun _ => 0)
    (V := homodyneH alpha p.kappa p.nTh p.delta p.eta) (J := homodyneJ alpha p.kappa p.nTh)
    (by
      unfold HaIs; intro t psi dpsidt t0
      have e1 : ∀ (V : Dens) (t : ℝ), interactionPicture (fun _ => 0) V t = V := by
        intro V t; funext i j; simp [interactionPicture]
      rw [e1]
      funext n
      rw [Pi.add_apply, mulVec_ket]
      simp only [ket, TriHam.addContribution, List.foldl_cons, List.foldl_nil, Bool.false_eq_true, if_false]
      rw [apply_static okK _ _ _ n.2, apply_static okR _ _ _ n.2, add_assoc, ← Finset.sum_add_distrib]
      congr 1
      refine Finset.sum_congr rfl fun j _ => ?_
      rw [hK, hA, hz]
      simp only [finiteTemperatureHamiltonianDecay, if_true]
      rw [show (p.kappa * (2 * p.nTh + 1) : ℝ) = p.kappa * (2 * p.nTh + 1) from rfl, hOverIE_eq, half_sqrt _ _ hκ hn]
      have hk : ∀ i : ℕ, kerrDiagonal 0 i = 0 := by intro i; simp [kerrDiagonal]
      simp only [hk, ite_self, zero_mul, zero_add, add_zero, homodyneH]
      push_cast
      ring) (by unfold ExIs; intro n _; rfl) (homodyned_li p alpha _ _ _) (fun _ j _ t => phase_one _ j t)
  simpa using this

/-! ## The average evolution -/

theorem lindblad_modeJ (d : ℕ) (G ρ : Matrix (Fin d) (Fin d) ℂ) (κ n : ℝ) :
    lindblad G ((modeJ κ n).map (mat d)) ρ = lindblad G [mat d (sc (Real.sqrt (2 * κ * (n + 1))) aOp), mat d (sc (Real.sqrt (2 * κ * n)) adOp)] ρ := by
  unfold lindblad modeJ
  congr 1
  by_cases h : κ = 0
  · simp [h, mat_sc]
  · rw [if_neg h]
    by_cases hn : n = 0
    · simp [hn, mat_sc]
    · rw [if_neg hn]
      simp [mul_assoc]

theorem homodyne_algebra {d : ℕ} (G A ρ : Matrix (Fin d) (Fin d) ℂ) (α : ℂ) (f g : ℝ) :
    lindblad (G - ((f + g) / 2 : ℂ) • (conj α • A + α • Aᴴ)) [α • 1 + (f : ℂ) • A, conj α • 1 + (g : ℂ) • Aᴴ] ρ =
      lindblad (G + (-((f - g) / 2 * α)) • Aᴴ - conj (-((f - g) / 2 * α)) • A) [(f : ℂ) • A, (g : ℂ) • Aᴴ] ρ + (2 * (Complex.normSq α : ℂ)) • ρ := by
  unfold lindblad
  have hn : (Complex.normSq α : ℂ) = α * conj α := (Complex.mul_conj α).symm
  have h2 : conj (2 : ℂ) = 2 := Complex.conj_ofNat 2
  rw [hn]
  simp only [List.map_cons, List.map_nil, List.sum_cons, List.sum_nil, add_zero, Matrix.conjTranspose_add, Matrix.conjTranspose_sub, Matrix.conjTranspose_smul, Matrix.conjTranspose_conjTranspose,
    Matrix.conjTranspose_one, Matrix.add_mul, Matrix.mul_add, Matrix.sub_mul, Matrix.mul_sub, Matrix.smul_mul, Matrix.mul_smul, Matrix.one_mul, Matrix.mul_one, Complex.star_def, map_neg, map_mul,
    map_div₀, map_sub, map_add, Complex.conj_ofReal, Complex.conj_conj, h2]
  module

/-- **C86.** The average evolution of the homodyned mode is – apart from the growth of the norm by the constant `2|α|²`, removed by the normalisation – that of the mode not homodyned, but with the pumping
shifted by `-½(√(2κ(n+1))-√(2κn))α`. -/
theorem homodyne_average (d : ℕ) (alpha : ℂ) (κ n δ : ℝ) (η : ℂ) (ρ : Matrix (Fin d) (Fin d) ℂ) :
    lindblad (mat d (homodyneH alpha κ n δ η)) ((homodyneJ alpha κ n).map (mat d)) ρ =
      lindblad (mat d (modeH (κ * (2 * n + 1)) δ (η - (Real.sqrt (2 * κ * (n + 1)) - Real.sqrt (2 * κ * n)) / 2 * alpha))) ((modeJ κ n).map (mat d)) ρ + (2 * (Complex.normSq alpha : ℂ)) • ρ := by
  rw [lindblad_modeJ, mat_sc, mat_sc, mat_adOp]
  have e1 : mat d (homodyneH alpha κ n δ η) =
      mat d (modeH (κ * (2 * n + 1)) δ η) - (((Real.sqrt (2 * κ * (n + 1)) : ℝ) + (Real.sqrt (2 * κ * n) : ℝ)) / 2 : ℂ) • (conj alpha • mat d aOp + alpha • (mat d aOp)ᴴ) := by
    rw [← mat_adOp]; ext i j; simp only [mat_apply, homodyneH, Matrix.sub_apply, Matrix.smul_apply, Matrix.add_apply, smul_eq_mul]
  have e2 : (homodyneJ alpha κ n).map (mat d) = [alpha • 1 + (Real.sqrt (2 * κ * (n + 1)) : ℂ) • mat d aOp, conj alpha • 1 + (Real.sqrt (2 * κ * n) : ℂ) • (mat d aOp)ᴴ] := by
    rw [← mat_adOp]
    have : ∀ c : ℂ, ∀ E : Dens, mat d (fun i j => (if i = j then c else 0) + E i j) = c • 1 + mat d E := by
      intro c E; ext i j
      simp [mat_apply, Matrix.one_apply, Fin.ext_iff]
    unfold homodyneJ
    simp only [List.map_cons, List.map_nil]
    rw [this, this]
    rfl
  have e3 : mat d (modeH (κ * (2 * n + 1)) δ (η - (Real.sqrt (2 * κ * (n + 1)) - Real.sqrt (2 * κ * n)) / 2 * alpha)) =
      mat d (modeH (κ * (2 * n + 1)) δ η) + (-(((Real.sqrt (2 * κ * (n + 1)) : ℝ) - (Real.sqrt (2 * κ * n) : ℝ)) / 2 * alpha : ℂ)) • (mat d aOp)ᴴ -
        conj (-(((Real.sqrt (2 * κ * (n + 1)) : ℝ) - (Real.sqrt (2 * κ * n) : ℝ)) / 2 * alpha : ℂ)) • mat d aOp := by
    rw [← mat_adOp]; ext i j
    simp only [mat_apply, modeH, Matrix.add_apply, Matrix.sub_apply, Matrix.smul_apply, smul_eq_mul, map_sub, map_neg]
    ring
  rw [e1, e2, e3]
  exact homodyne_algebra _ _ _ _ _ _

/-- **C86.** The maker function: without local oscillator it makes the mode in the Schrödinger picture, otherwise the homodyned one. -/
theorem makeHomodyned_spec (p : Pars) (alpha : ℂ) (hd : p.cutoff < 2 ^ 63) (h0 : 0 < p.cutoff) (hκ : 0 ≤ p.kappa) (hn : 0 ≤ p.nTh) (hK : p.omegaKerr = 0) (hA : p.omegaKerrAlter = 0)
    (hne : p.kappa ≠ 0 ∨ p.delta ≠ 0 ∨ p.eta ≠ 0) :
    (alpha = 0 → Simulates p .sch (makeHomodyned p alpha) (modeH (p.kappa * (2 * p.nTh + 1)) p.delta p.eta) (modeJ p.kappa p.nTh)) ∧
    (alpha ≠ 0 → ∃ e, makeHomodyned p alpha = .ok e ∧ e.dim = p.cutoff ∧ Generates e (homodyneH alpha p.kappa p.nTh p.delta p.eta) (homodyneJ alpha p.kappa p.nTh)) := by
  constructor
  · intro h
    unfold makeHomodyned
    rw [if_pos h]
    exact makePumpedLossy_simulates p hd h0 hκ hn hK hA .sch
  · intro h
    unfold makeHomodyned
    rw [if_neg h]
    obtain ⟨e, h1, h2, h3, -⟩ := homodynedMode_generates p alpha hd h0 hκ hn hK hA hne
    exact ⟨e, h1, h2, h3⟩

/-- **C87** (what remains of it). The average evolution of the mode, up to normalisation, is left unchanged by the homodyne detection exactly if there is no local oscillator or no decay. So, as soon as the
homodyne detection is switched on, the averages change. -/
theorem homodyne_same_average_partial (d : ℕ) (hd : 2 ≤ d) (alpha : ℂ) (κ n δ : ℝ) (hκ : 0 ≤ κ) (hn : 0 ≤ n) (η : ℂ) :
    (∀ ρ : Matrix (Fin d) (Fin d) ℂ, ∃ c : ℂ, lindblad (mat d (homodyneH alpha κ n δ η)) ((homodyneJ alpha κ n).map (mat d)) ρ =
      lindblad (mat d (modeH (κ * (2 * n + 1)) δ η)) ((modeJ κ n).map (mat d)) ρ + c • ρ) ↔ κ = 0 ∨ alpha = 0 := by
  constructor
  · intro h
    by_contra hc
    push Not at hc
    obtain ⟨hk, ha⟩ := hc
    have hκ' : 0 < κ := lt_of_le_of_ne hκ (Ne.symm hk)
    set i0 : Fin d := ⟨0, by omega⟩
    set i1 : Fin d := ⟨1, by omega⟩
    obtain ⟨c, hc⟩ := h (Matrix.single i0 i0 1)
    rw [homodyne_average] at hc
    have hne : i0 ≠ i1 := by simp [i0, i1, Fin.ext_iff]
    have h10 := congrFun (congrFun hc i1) i0
    have hs : ∀ x : ℂ, (x • Matrix.single i0 i0 (1 : ℂ)) i1 i0 = 0 := by
      intro x; simp [Matrix.single_apply, hne]
    rw [Matrix.add_apply, Matrix.add_apply, hs, hs, add_zero, add_zero] at h10
    unfold lindblad at h10
    simp only [Matrix.add_apply, add_left_inj] at h10
    have hm : ∀ G : Matrix (Fin d) (Fin d) ℂ, (G * Matrix.single i0 i0 (1 : ℂ)) i1 i0 = G i1 i0 := by
      intro G; simp
    have hm' : ∀ G : Matrix (Fin d) (Fin d) ℂ, (Matrix.single i0 i0 (1 : ℂ) * G) i1 i0 = 0 := by
      intro G
      rw [Matrix.single_mul_apply_of_ne _ _ _ _ _ hne.symm]
    rw [hm, hm, hm', hm'] at h10
    simp only [mat_apply, modeH, nOp, adOp, aOp, i0, i1] at h10
    norm_num at h10
    have hf : Real.sqrt (2 * κ * n) < Real.sqrt (2 * κ * (n + 1)) := Real.sqrt_lt_sqrt (by positivity) (by nlinarith)
    rcases h10 with h10 | h10
    · have : Real.sqrt (2 * κ * (n + 1)) = Real.sqrt (2 * κ * n) := by
        have := sub_eq_zero.1 h10
        exact_mod_cast this
      linarith
    · exact ha h10
  · rintro (h | h) ρ
    · refine ⟨2 * Complex.normSq alpha, ?_⟩
      rw [homodyne_average]; simp [h]
    · refine ⟨2 * Complex.normSq alpha, ?_⟩
      rw [homodyne_average]; simp [h]

/-- A homodyned, pumped and lossy mode. -/
example : ∃ e, makeHomodyned ⟨10, 1, 0, 0, 2, 1 / 2, Complex.I⟩ 3 = .ok e ∧ e.dim = 10 ∧ Generates e (homodyneH 3 2 (1 / 2) 1 Complex.I) (homodyneJ 3 2 (1 / 2)) :=
  (makeHomodyned_spec ⟨10, 1, 0, 0, 2, 1 / 2, Complex.I⟩ 3 (by norm_num) (by norm_num) (by norm_num) (by norm_num) rfl rfl (by norm_num)).2 (by norm_num)

/-- At zero temperature, with `κ=2`, local-oscillator amplitude 3, the pumping is shifted by -3. -/
example (ρ : Matrix (Fin 10) (Fin 10) ℂ) : lindblad (mat 10 (homodyneH 3 2 0 1 5)) ((homodyneJ 3 2 0).map (mat 10)) ρ =
    lindblad (mat 10 (modeH 2 1 2)) ((modeJ 2 0).map (mat 10)) ρ + (18 : ℂ) • ρ := by
  rw [homodyne_average]
  have h4 : Real.sqrt (2 * 2 * (0 + 1)) = 2 := by rw [show (2 * 2 * (0 + 1) : ℝ) = 2 ^ 2 by norm_num]; exact Real.sqrt_sq (by norm_num)
  rw [h4]
  norm_num [Complex.normSq_apply]

end CppQED.ModeEl
