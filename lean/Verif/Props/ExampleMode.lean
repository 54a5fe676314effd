import Verif.Model.ExampleMode
import Verif.Spec.ExampleMode
import Verif.Lemmas.ElementScaled
import Verif.Props.HomodynedMode
import Verif.Props.InteractionsPictures
import Verif.Props.InteractionsTwoStep
import Verif.Props.ModeAverages

/-!
# The mode of the guide: C145, C146
-/

namespace CppQED.Examples
open CppQED.Elem CppQED.Tridiag CppQED.Spec Matrix
open CppQED.ModeEl (TriOK aop_ok diagonalOperator_ok apply_static apply_furnished mulVec_ket conj_aOp conj_adOp)
open ComplexConjugate
open CppQED.Interactions (aop_op good_add product_op aop_sch lift lift2 Good phases couples_of_ops tensor_up FreeIs couples_unique couples_phases binary_simulates binary lost_product)

/-! ## The Liouvillean -/

theorem jumps_ok (p : Pars) : ∀ i (L : Lindblad), (lindblads p)[i]? = some L →
    IsJump p.cutoff L.jump (mat p.cutoff ((guideJ p.kappa p.nTh).getD i 0)) ∧ ∀ s, L.super = some s → IsSuper p.cutoff s (mat p.cutoff ((guideJ p.kappa p.nTh).getD i 0)) := by
  intro i L hL
  rcases i with - | i
  · simp only [lindblads, List.getElem?_cons_zero, Option.some.injEq] at hL
    subst hL
    exact ⟨ModeEl.aJump_eq _ _, fun s hs => by simp at hs⟩
  · rcases i with - | i
    · simp only [lindblads, List.getElem?_cons_succ, List.getElem?_cons_zero, Option.some.injEq] at hL
      subst hL
      exact ⟨ModeEl.aDagJump_eq _ _, fun s hs => by simp at hs⟩
    · simp [lindblads] at hL

theorem liouvillean_is (p : Pars) (design : Design) (ha : Option (ℝ → Vec → Vec → ℝ → Vec)) (ex : Option (ℝ → ℕ → ℂ)) (b : Bool) :
    LiIs ⟨p.cutoff, ha, ex, b, some (liouvillean p design)⟩ (guideJ p.kappa p.nTh) := by
  cases design with
  | hierarchical => exact ModeEl.elementLiouvillean_is _ _ _ rfl rfl (jumps_ok p) ha ex b
  | basic =>
    unfold LiIs
    simp only [liouvillean]
    refine ⟨rfl, fun i hi => ?_⟩
    obtain ⟨L, hL⟩ : ∃ L, (lindblads p)[i]? = some L := ⟨_, List.getElem?_eq_getElem (by simpa [lindblads, guideJ] using hi)⟩
    obtain ⟨h1, h2⟩ := jumps_ok p i L hL
    simp only [elementLiouvilleanStrategies, hL]
    refine ⟨fun psi => ⟨_, rfl, h1 psi⟩, fun rho drhodt d' hd => ?_⟩
    unfold Lindblad.doActWithSuperoperator at hd
    cases hs : L.super with
    | none => rw [hs] at hd; simp at hd
    | some s =>
      rw [hs] at hd
      simp only at hd
      injection hd with hd
      rw [← hd]
      exact h2 s hs rho drhodt

/-! ## The Hamiltonian -/

/-- The pump. -/
noncomputable def pumpE (eta : ℂ) : Dens := fun i j => (eta * adOp i j + conj eta * aOp i j) / Complex.I

theorem pump_ok (p : Pars) (hd : p.cutoff < 2 ^ 63) (h0 : 0 < p.cutoff) :
    ∃ T, pump p = .ok T ∧ TriOK p.cutoff T (pumpE p.eta) ∧ T.diffs = [1] ∧ ∀ i < 3, (T.freqs i).size = 0 := by
  obtain ⟨a, ha, ok, hf⟩ := aop_ok p.cutoff hd h0
  obtain ⟨R, hR, okR⟩ := (ok.scale (conj p.eta)).plusHC
  have ha' : aop p.cutoff = .ok a := ha
  refine ⟨scale (1 / Complex.I) R, by unfold pump Interactions.plusHC_overI; rw [ha']; simp only [Outcome.bind]; rw [hR], (okR.scale _).congr fun i _ j _ => ?_, ?_, ?_⟩
  · simp only [pumpE, map_mul, Complex.conj_conj, conj_aOp]
    ring
  · have hk : a.diffs = [1] := by unfold ModeEl.aop at ha; rw [unary_ok ha]
    have := (add_ok hR).2.2.2.1
    change mergeDiffs a.diffs a.diffs = _ at this
    rw [hk] at this
    change R.diffs = [1]
    simpa [mergeDiffs, mergeDiff] using this.symm
  · intro i hi
    have := (add_ok hR).2.2.2.2.2 i (by change i < 3 ^ a.rank; rw [ok.rank]; exact hi)
    change mergeFreq (a.freqs i) (a.freqs i) = _ at this
    unfold mergeFreq at this
    rw [hf i] at this
    simp only [ne_eq, not_true_eq_false, if_false] at this
    injection this with this
    change (R.freqs i).size = 0
    rw [← this, hf i]

theorem guideH_eq (p : Pars) (i j : ℕ) : guideH p.delta p.kappa p.nTh p.eta i j = (⟨-p.kappa * (2 * p.nTh + 1), p.delta⟩ : ℂ) * nOp i j + pumpE p.eta i j := by
  have e : (⟨-p.kappa * (2 * p.nTh + 1), p.delta⟩ : ℂ) = (-(p.delta : ℂ) - Complex.I * (p.kappa * (2 * p.nTh + 1))) / Complex.I := by
    rw [div_eq_mul_inv, Complex.inv_I]
    apply Complex.ext <;> simp
  rw [e]
  simp only [guideH, pumpE]
  ring

theorem hOverI_ok (p : Pars) (hd : p.cutoff < 2 ^ 63) (h0 : 0 < p.cutoff) : ∃ T, hOverI p = .ok T ∧ TriOK p.cutoff T (guideH p.delta p.kappa p.nTh p.eta) := by
  obtain ⟨P, hP, okP, hkP, hfP⟩ := pump_ok p hd h0
  obtain ⟨D, hD, okD, hfD⟩ := diagonalOperator_ok p.cutoff hd h0 (mainDiagonal 1)
  have hkD : D.diffs = [0] := by unfold ModeEl.diagonalOperator at hD; rw [unary_ok hD]
  have okD' := okD.scale ⟨-p.kappa * (2 * p.nTh + 1), p.delta⟩
  obtain ⟨R, hR⟩ := add_succeeds okD'.wf okP.wf (by rw [okD'.rank, okP.rank]) (by rw [okD'.dims, okP.dims])
    (by intro a ha
        change a < (scale _ D).diffs.length at ha
        left
        rw [show (scale ⟨-p.kappa * (2 * p.nTh + 1), p.delta⟩ D).diffs = D.diffs from rfl, hkD] at ha ⊢
        have : a = 0 := by simpa using ha
        rw [this]; rfl)
    (by intro x hx h; exact absurd (hfD x) h)
  refine ⟨R, by unfold hOverI nop; rw [hD, hP]; exact hR, (okD'.add okP hR).congr fun i _ j _ => ?_⟩
  rw [guideH_eq]
  congr 1
  simp [mainDiagonal, nOp]

/-! ## The modes -/

/-- The mode in Schrödinger picture. -/
theorem mode_is (p : Pars) (hd : p.cutoff < 2 ^ 63) (h0 : 0 < p.cutoff) (design : Design) :
    ∃ e, mode p design = .ok e ∧ e.dim = p.cutoff ∧ e.exApplicable = true ∧ e.ex = none ∧ HaIs e (fun _ => 0) (guideH p.delta p.kappa p.nTh p.eta) ∧ ExIs e (fun _ => 0) ∧
      LiIs e (guideJ p.kappa p.nTh) := by
  obtain ⟨T, hT, ok⟩ := hOverI_ok p hd h0
  refine ⟨_, by unfold mode; rw [hT]; rfl, rfl, rfl, rfl, ?_, by unfold ExIs; intro n _; rfl, liouvillean_is p design _ _ _⟩
  unfold HaIs
  intro t psi dpsidt t0
  funext n
  rw [Pi.add_apply, mulVec_ket]
  simp only [ket, TriHam.addContribution, List.foldl_cons, List.foldl_nil, Bool.false_eq_true, if_false]
  rw [apply_static ok _ _ _ n.2]
  simp [interactionPicture, arr1]

/-- The mode in interaction picture. -/
theorem modeIP_is (p : Pars) (hd : p.cutoff < 2 ^ 63) (h0 : 0 < p.cutoff) (design : Design) :
    ∃ e, modeIP p design = .ok e ∧ e.dim = p.cutoff ∧ e.exApplicable = true ∧ HaIs e (mainDiagonal (z p)) (pumpE p.eta) ∧ ExIs e (mainDiagonal (z p)) ∧ LiIs e (guideJ p.kappa p.nTh) := by
  obtain ⟨T, hT, ok, -, -⟩ := pump_ok p hd h0
  refine ⟨_, by unfold modeIP; rw [hT]; rfl, rfl, rfl, ?_, ?_, liouvillean_is p design _ _ _⟩
  · unfold HaIs
    intro t psi dpsidt t0
    funext n
    rw [Pi.add_apply, mulVec_ket]
    simp only [ket, TriHam.addContribution, List.foldl_cons, List.foldl_nil, if_true]
    rw [apply_furnished ok _ _ _ _ _ n.2]
    rfl
  · unfold ExIs
    intro t n _
    simp only [updateU, uDiag, mainDiagonal]
    congr 1; ring

theorem z_eq (p : Pars) : z p = -(⟨-p.kappa * (2 * p.nTh + 1), p.delta⟩ : ℂ) := by
  unfold z; apply Complex.ext <;> simp

theorem ipH_eq (p : Pars) : (fun i j => pumpE p.eta i j - if i = j then mainDiagonal (z p) i else 0) = guideH p.delta p.kappa p.nTh p.eta := by
  funext i j
  rw [guideH_eq]
  simp only [mainDiagonal, nOp, z_eq]
  split_ifs <;> ring

/-- The clauses on the Monte Carlo trajectory hold also if the exact part is not unitary (cf. `generates_of`). -/
theorem mcwf_of {e : Element} {w : ℕ → ℂ} {V : Dens} {J : List Dens} (hH : HaIs e w V) (hE : ExIs e w) (hL : LiIs e J) : SimulatesMCWF e (fun i j => V i j - if i = j then w i else 0) J := by
  have hW : mat e.dim (fun i j => V i j - if i = j then w i else 0) = mat e.dim V - Matrix.diagonal fun i : Fin e.dim => w i := by
    ext i j
    simp [mat_apply, Matrix.diagonal_apply, Fin.ext_iff]
  refine ⟨fun t0 psi => ?_, fun t0 t psi h i => ?_, ?_⟩
  · funext i
    rw [toSchroedinger_eq hE]
    simp [uDiag]
  · have e1 : (fun s => toSchroedinger e s t0 (psi s) i) = fun s => uDiag w (s - t0) i * psi s i := by
      funext s; rw [toSchroedinger_eq hE]
    rw [hW, e1]
    refine ((uDiag_hasDerivAt w t0 t i).mul (h i)).congr_deriv ?_
    rw [Matrix.sub_mulVec, Pi.sub_apply, Matrix.mulVec_diagonal, toSchroedinger_eq hE, rhs_eq hH]
    have e2 : toSchroedinger e t t0 (psi t) = (Matrix.diagonal fun i : Fin e.dim => uDiag w (t - t0) i) *ᵥ psi t := by
      funext k; rw [toSchroedinger_eq hE, Matrix.mulVec_diagonal]
    rw [e2, Matrix.mulVec_mulVec, ← uDiag_ip, ← Matrix.mulVec_mulVec, Matrix.mulVec_diagonal]
    ring
  · have := (linear_of hH hE hL)
    cases h : e.toSys.li with
    | none => exact List.length_eq_zero_iff.1 (this.li_none h)
    | some l => exact this.jumps l h

/-- **C145.** The mode of the guide in both designs, in Schrödinger picture: it simulates the documented non-Hermitian Hamiltonian and jumps, both in the Monte Carlo method and in the Master equation. -/
theorem mode_simulates (p : Pars) (hd : p.cutoff < 2 ^ 63) (h0 : 0 < p.cutoff) (design : Design) :
    ∃ e, mode p design = .ok e ∧ e.dim = p.cutoff ∧ e.exApplicable = true ∧ Generates e (guideH p.delta p.kappa p.nTh p.eta) (guideJ p.kappa p.nTh) := by
  obtain ⟨e, h1, h2, h3, h4, h5, h6, h7⟩ := mode_is p hd h0 design
  refine ⟨e, h1, h2, h3, ?_⟩
  have := generates_of h5 h6 h7 (fun _ j _ t => ModeEl.phase_one _ j t)
  simpa using this

/-- **C145.** In interaction picture: the same Hamiltonian and jumps in the Monte Carlo method. -/
theorem modeIP_simulates (p : Pars) (hd : p.cutoff < 2 ^ 63) (h0 : 0 < p.cutoff) (design : Design) :
    ∃ e, modeIP p design = .ok e ∧ e.dim = p.cutoff ∧ SimulatesMCWF e (guideH p.delta p.kappa p.nTh p.eta) (guideJ p.kappa p.nTh) := by
  obtain ⟨e, h1, h2, h3, h4, h5, h6⟩ := modeIP_is p hd h0 design
  refine ⟨e, h1, h2, ?_⟩
  have := mcwf_of h4 h5 h6
  rwa [ipH_eq] at this

/-- The mode of ExampleModeMain.cc:13. -/
example (design : Design) : ∃ e, modeIP ⟨1, 1, Complex.I, 1, 10⟩ design = .ok e ∧ e.dim = 10 ∧ SimulatesMCWF e (guideH 1 1 1 Complex.I) (guideJ 1 1) :=
  modeIP_simulates ⟨1, 1, Complex.I, 1, 10⟩ (by norm_num) (by norm_num) design

/-- **C145.** The rates: that of the loss is `Tr(JρJ†)` (`‖Jψ‖²` for state vectors), that of the absorption is the same with the untruncated `a†`. -/
theorem mode_rates (p : Pars) (hκ : 0 ≤ p.kappa) (hn : 0 ≤ p.nTh) (design : Design) : ∃ r₀ r₁ : LDO → ℝ, (∀ m, (liouvillean p design).rates m = [r₀ m, r₁ m]) ∧
    IsRate p.cutoff r₀ (mat p.cutoff ((guideJ p.kappa p.nTh).getD 0 0)) ∧
    ∀ rho, 0 < p.cutoff → ∀ D > p.cutoff, r₁ (LDO.ofDM p.cutoff rho) =
      (mat D ((guideJ p.kappa p.nTh).getD 1 0) * mat D (pad p.cutoff rho) * (mat D ((guideJ p.kappa p.nTh).getD 1 0))ᴴ).trace.re := by
  refine ⟨fun m => aJumpRate m (p.kappa * (p.nTh + 1)), fun m => aDagJumpRate m (p.kappa * p.nTh), fun m => by cases design <;> rfl, ModeEl.loss_rate _ (by positivity) _, fun rho h0 D hD => ?_⟩
  have := (ModeEl.absorption_rate p.kappa p.nTh (by positivity) p.cutoff h0 rho).1 D hD
  rw [mul_assoc 2 p.kappa p.nTh] at this
  exact this

example (design : Design) : ∃ e, mode ⟨1, 1, Complex.I, 1, 10⟩ design = .ok e ∧ e.dim = 10 ∧ e.exApplicable = true ∧ Generates e (guideH 1 1 1 Complex.I) (guideJ 1 1) :=
  mode_simulates ⟨1, 1, Complex.I, 1, 10⟩ (by norm_num) (by norm_num) design

example (design : Design) := mode_rates ⟨1, 1, Complex.I, 1, 10⟩ zero_le_one zero_le_one design

/-! ## The Master equation of the mode in interaction picture -/

/-- The factor with which the exact part commutes with the jumps. -/
noncomputable def factor (p : Pars) (k : ℕ) (t : ℝ) : ℂ := if k = 0 then Complex.exp (z p * t) else Complex.exp (-(z p * t))

theorem commutes (d : ℕ) (p : Pars) : ∀ k < (guideJ p.kappa p.nTh).length, ∀ t : ℝ, (Matrix.diagonal fun i : Fin d => uDiag (mainDiagonal (z p)) t i) * mat d ((guideJ p.kappa p.nTh).getD k 0) =
      factor p k t • (mat d ((guideJ p.kappa p.nTh).getD k 0) * Matrix.diagonal fun i : Fin d => uDiag (mainDiagonal (z p)) t i) := by
  intro k hk t
  have : k = 0 ∨ k = 1 := by simp [guideJ] at hk; omega
  rcases this with rfl | rfl
  · ext i j
    rw [Matrix.diagonal_mul, Matrix.smul_apply, Matrix.mul_diagonal, smul_eq_mul]
    simp only [guideJ, List.getD_cons_zero, mat_apply, sc, aOp, uDiag, mainDiagonal, factor, if_true]
    by_cases h : (j : ℕ) = i + 1
    · have e1 : Complex.exp (-((i : ℕ) * z p * t)) = Complex.exp (z p * t) * Complex.exp (-(((i : ℕ) + 1 : ℕ) * z p * t)) := by
        rw [← Complex.exp_add]; congr 1; push_cast; ring
      rw [if_pos h, h, e1]; ring
    · rw [if_neg h]; ring
  · ext i j
    rw [Matrix.diagonal_mul, Matrix.smul_apply, Matrix.mul_diagonal, smul_eq_mul]
    simp only [guideJ, List.getD_cons_succ, List.getD_cons_zero, mat_apply, sc, adOp, uDiag, mainDiagonal, factor, one_ne_zero, if_false]
    by_cases h : (i : ℕ) = j + 1
    · have e1 : Complex.exp (-(((j : ℕ) + 1 : ℕ) * z p * t)) = Complex.exp (-(z p * t)) * Complex.exp (-((j : ℕ) * z p * t)) := by
        rw [← Complex.exp_add]; congr 1; push_cast; ring
      rw [if_pos h, h, e1]; ring
    · rw [if_neg h]; ring

/-- **C146, violated.** The mode in interaction picture claims to be applicable in the Master equation, but what is simulated is a Master equation whose jump terms change within the step: the rate of the loss
gets multiplied with `exp(2κ(2n+1)τ)`, that of the absorption with `exp(-2κ(2n+1)τ)`, `τ` being the time since the beginning of the step. -/
theorem modeIP_master_partial (p : Pars) (hd : p.cutoff < 2 ^ 63) (h0 : 0 < p.cutoff) (design : Design) :
    ∃ e, modeIP p design = .ok e ∧ e.dim = p.cutoff ∧ e.exApplicable = true ∧ FollowsScaled e (guideH p.delta p.kappa p.nTh p.eta) fun τ =>
      [sc (Real.exp (p.kappa * (2 * p.nTh + 1) * τ)) ((guideJ p.kappa p.nTh).getD 0 0), sc (Real.exp (-(p.kappa * (2 * p.nTh + 1) * τ))) ((guideJ p.kappa p.nTh).getD 1 0)] := by
  obtain ⟨e, h1, h2, h3, h4, h5, h6⟩ := modeIP_is p hd h0 design
  refine ⟨e, h1, h2, h3, fun t0 t rho hrho h i j => ?_⟩
  have key := master_scaled h4 h5 h6 (factor p) (commutes e.dim p) t0 t rho hrho h i j
  rw [ipH_eq] at key
  convert key using 1
  have phase : ∀ (a b c : ℂ) (J ρ : Matrix (Fin e.dim) (Fin e.dim) ℂ), c * conj c = 1 → a = c * b → (a • J) * ρ * (a • J)ᴴ = (b • J) * ρ * (b • J)ᴴ := by
    intro a b c J ρ hc ha
    simp only [Matrix.conjTranspose_smul, Matrix.smul_mul, Matrix.mul_smul, smul_smul, ha, Complex.star_def, map_mul]
    congr 1
    linear_combination (conj b * b) * hc
  have hm : ∀ (c : ℂ) (A : Dens), mat e.dim (sc c A) = c • mat e.dim A := fun c A => rfl
  have hexp : ∀ x : ℝ, Complex.exp (Complex.I * x) * conj (Complex.exp (Complex.I * x)) = 1 := by
    intro x
    rw [Complex.mul_conj, Complex.normSq_eq_norm_sq, Complex.norm_exp]
    simp
  have hz : ∀ s : ℝ, z p * s = Complex.I * ((-p.delta * s : ℝ) : ℂ) + ((p.kappa * (2 * p.nTh + 1) * s : ℝ) : ℂ) := by
    intro s
    unfold z
    apply Complex.ext <;> simp
  unfold lindblad
  simp only [List.map_cons, List.map_nil, List.sum_cons, List.sum_nil, hm]
  rw [show (guideJ p.kappa p.nTh).length = 2 from rfl, show List.range 2 = [0, 1] from rfl]
  simp only [List.map_cons, List.map_nil, List.sum_cons, List.sum_nil, factor, if_true, one_ne_zero, if_false]
  rw [phase (Complex.exp (z p * (t - t0 : ℝ))) ((Real.exp (p.kappa * (2 * p.nTh + 1) * (t - t0)) : ℝ) : ℂ) _ _ _ (hexp (-p.delta * (t - t0))) (by rw [hz, Complex.exp_add, Complex.ofReal_exp]),
    phase (Complex.exp (-(z p * (t - t0 : ℝ)))) ((Real.exp (-(p.kappa * (2 * p.nTh + 1) * (t - t0))) : ℝ) : ℂ) _ _ _ (hexp (-(-p.delta * (t - t0))))
      (by rw [hz, Complex.ofReal_exp, ← Complex.exp_add]; congr 1; push_cast; ring)]

/-- **C146, violated.** Consequently, with any loss, the trajectory does not follow the Master equation of the mode, although the element claims that it is applicable there. -/
theorem modeIP_not_master_partial (p : Pars) (hd : p.cutoff < 2 ^ 63) (h2 : 2 ≤ p.cutoff) (hκ : 0 < p.kappa) (hn : 0 ≤ p.nTh) (design : Design) :
    ∃ e, modeIP p design = .ok e ∧ e.exApplicable = true ∧ ¬ Generates e (guideH p.delta p.kappa p.nTh p.eta) (guideJ p.kappa p.nTh) := by
  obtain ⟨e, h1, hdim, h3, hF⟩ := modeIP_master_partial p hd (by omega) design
  obtain ⟨e', h1', -, -, h4, h5, h6⟩ := modeIP_is p hd (by omega) design
  rw [h1, Outcome.ok.injEq] at h1'
  subst h1'
  refine ⟨e, h1, h3, fun hG => ?_⟩
  let o : Fin e.dim := ⟨1, by omega⟩
  let zr : Fin e.dim := ⟨0, by omega⟩
  have hoz : zr ≠ o := by simp [o, zr]
  let R : Matrix (Fin e.dim) (Fin e.dim) ℂ := Matrix.single o o 1
  let rho : ℝ → Matrix (Fin e.dim) (Fin e.dim) ℂ := fun s => R + ((s - 1 : ℝ) : ℂ) • Master.derivative e.toSys 1 0 R
  have hr1 : rho 1 = R := by simp [rho]
  have hherm : (rho 1).IsHermitian := by rw [hr1]; simp [R, Matrix.IsHermitian]
  have hder : ∀ i j, HasDerivAt (fun s => rho s i j) (Master.derivative e.toSys 1 0 (rho 1) i j) 1 := by
    intro i j
    rw [hr1]
    simp only [rho, Matrix.add_apply, Matrix.smul_apply, smul_eq_mul]
    have := (((hasDerivAt_id (1 : ℝ)).sub_const 1).ofReal_comp.mul_const (Master.derivative e.toSys 1 0 R i j)).const_add (R i j)
    simpa using this
  have hx := (hG.master h3 0 1 rho hherm hder zr zr).unique (hF 0 1 rho hherm hder zr zr)
  rw [hr1] at hx
  have lin := linear_of h4 h5 h6
  set u := uDiag (mainDiagonal (z p)) (1 - 0) 1 with hu
  have hex : Master.exactPart e.toSys 1 0 R = Matrix.single o o (u * conj u) := by
    have : Master.exactPart e.toSys 1 0 R = (Matrix.diagonal fun i : Fin e.dim => uDiag (mainDiagonal (z p)) (1 - 0) i) * R * (Matrix.diagonal fun i : Fin e.dim => uDiag (mainDiagonal (z p)) (1 - 0) i)ᴴ := by
      cases hx : e.toSys.ex with
      | none =>
        have := lin.ex_none hx 1 0
        rw [this]
        simp [Master.exactPart, hx]
      | some f => exact Master.exactPart_eq e.toSys f hx 1 0 _ (fun psi => lin.ex f hx 1 psi 0) R
    rw [this, Matrix.diagonal_conjTranspose]
    ext i j
    rw [Matrix.mul_diagonal, Matrix.diagonal_mul]
    simp only [R, Matrix.single_apply]
    by_cases h : o = i ∧ o = j
    · obtain ⟨rfl, rfl⟩ := h
      simp [o, hu]
    · rw [if_neg h, if_neg h]; simp
  rw [hex] at hx
  have entry : ∀ A B : Matrix (Fin e.dim) (Fin e.dim) ℂ, (A * Matrix.single o o (u * conj u) * B) zr zr = A zr o * (u * conj u) * B o zr := by
    intro A B
    rw [Matrix.mul_apply, Finset.sum_eq_single o]
    · simp
    · intro b _ hb
      rw [Matrix.mul_single_apply_of_ne _ _ _ _ _ hb, zero_mul]
    · simp
  have left : ∀ A : Matrix (Fin e.dim) (Fin e.dim) ℂ, (A * Matrix.single o o (u * conj u)) zr zr = 0 := fun A => Matrix.mul_single_apply_of_ne _ _ _ _ _ hoz _
  have right : ∀ A : Matrix (Fin e.dim) (Fin e.dim) ℂ, (Matrix.single o o (u * conj u) * A) zr zr = 0 := fun A => Matrix.single_mul_apply_of_ne _ _ _ _ _ hoz _
  unfold lindblad at hx
  simp only [guideJ, List.map_cons, List.map_nil, List.sum_cons, List.sum_nil, Matrix.add_apply, entry, left, right, List.getD_cons_zero, List.getD_cons_succ] at hx
  simp only [Matrix.conjTranspose_apply, mat_apply, sc, aOp, adOp, o, zr] at hx
  simp at hx
  have hE : Complex.exp (p.kappa * (2 * p.nTh + 1)) = ((Real.exp (p.kappa * (2 * p.nTh + 1)) : ℝ) : ℂ) := by push_cast; rfl
  have hu0 : u ≠ 0 := by rw [hu]; exact Complex.exp_ne_zero _
  rw [hE, Complex.conj_ofReal, Complex.mul_conj] at hx
  have ha : 0 < Real.sqrt 2 * Real.sqrt (p.kappa * (p.nTh + 1)) := by positivity
  set a := Real.sqrt 2 * Real.sqrt (p.kappa * (p.nTh + 1)) with hadef
  have hx' : a * Complex.normSq u * a = Real.exp (p.kappa * (2 * p.nTh + 1)) * a * Complex.normSq u * (Real.exp (p.kappa * (2 * p.nTh + 1)) * a) := by
    have := hx
    rw [← Complex.ofReal_mul (Real.sqrt 2)] at this
    exact_mod_cast this
  have hN : 0 < Complex.normSq u := Complex.normSq_pos.2 hu0
  have hgt : 1 < Real.exp (p.kappa * (2 * p.nTh + 1)) := Real.one_lt_exp_iff.2 (by positivity)
  have hpos : 0 < a * Complex.normSq u * a := by positivity
  nlinarith [mul_pos hpos (sub_pos.2 hgt)]

/-- The mode of ExampleModeMain.cc:23. -/
example : ∃ e, modeIP ⟨1, 1, Complex.I, 1, 10⟩ .hierarchical = .ok e ∧ e.exApplicable = true ∧ ¬ Generates e (guideH 1 1 1 Complex.I) (guideJ 1 1) :=
  modeIP_not_master_partial ⟨1, 1, Complex.I, 1, 10⟩ (by norm_num) (by norm_num) one_pos zero_le_one _

/-! ## The averages -/

theorem photonNumber_eq (m : LDO) : photonNumber m = ModeEl.average m 0 := by
  rw [(ModeEl.average_apply m).1]
  unfold photonNumber
  have : ∀ (L : List ℕ) (r : ℝ), L.foldl (fun (res : ℝ) (n : ℕ) => res + (n : ℝ) * m.diag n) r = r + (L.map fun n : ℕ => (n : ℝ) * m.diag n).sum := by
    intro L
    induction L with
    | nil => simp
    | cons x L ih => intro r; rw [List.foldl_cons, ih, List.map_cons, List.sum_cons]; ring
  rw [this, zero_add, sum_map_range']

theorem average_eq (m : LDO) : average m 0 = 2 * photonNumber m ∧ average m 1 = ModeEl.average m 2 ∧ average m 2 = ModeEl.average m 3 := by
  have key : ∀ i, average m i = (if i = 0 then aJumpRate m 1 else 0) + ((List.range' 1 (m.dim - 1)).map fun (n : ℕ) =>
      (if i = 1 then Real.sqrt n * (m.index n (n - 1)).re else 0) + (if i = 2 then Real.sqrt n * (m.index n (n - 1)).im else 0)).sum := by
    intro i
    unfold average
    rw [ModeEl.foldl_averages _ _ fun (n : ℕ) i => (if i = 1 then Real.sqrt n * (m.index n (n - 1)).re else 0) + (if i = 2 then Real.sqrt n * (m.index n (n - 1)).im else 0)]
    · rw [ModeEl.Averages.set_apply]
    · intro a n i
      simp only [ModeEl.Averages.add_apply]
      ring
  refine ⟨?_, ?_, ?_⟩
  · rw [key, sum_map_range']; simp [aJumpRate]
  · rw [key, sum_map_range', (ModeEl.average_apply m).2.2.1, Complex.re_sum]; simp
  · rw [key, sum_map_range', (ModeEl.average_apply m).2.2.2.1, Complex.im_sum]; simp

/-- **C145.** The averages labelled "real(<ladder operator>)" and "imag(\")" are those of `Tr(aρ)`. -/
theorem guide_ladder (m : LDO) (D : ℕ) (hD : m.dim < D) : (mat D aOp * mat D (pad m.dim m.index)).trace = ⟨average m 1, average m 2⟩ := by
  rw [(average_eq m).2.1, (average_eq m).2.2]
  exact ModeEl.mean_a m D hD

/-- **C146, violated.** The average labelled "<number operator>" is twice the photon number. -/
theorem guide_number_partial (m : LDO) (D : ℕ) (hD : m.dim < D) : average m 0 = 2 * mean (mat D nOp) (mat D (pad m.dim m.index)) := by
  rw [(average_eq m).1, photonNumber_eq, ModeEl.mean_n m D hD]

/-! ## The interaction -/

/-- What the interaction of the framework would need to know of the mode. -/
noncomputable def ptr (m : ModeRef) : Interactions.ModePtr := { dim := m.pars.cutoff, exact := if m.ip then some (z m.pars, 0) else none }

theorem aopOf_eq (m : ModeRef) : aopOf m = Interactions.aop (ptr m) := by
  have : mainDiagonal (z m.pars) = ModeEl.mainDiagonal (z m.pars) 0 := by
    funext i; simp [mainDiagonal, ModeEl.mainDiagonal, ModeEl.kerrDiagonal]
  unfold aopOf Interactions.aop ModeEl.aopOf ptr
  rw [this]
  cases m.ip <;> rfl

/-- `a+a†`. -/
noncomputable def xE : Dens := fun i j => aOp i j + adOp i j

theorem add_nofreqs {T S R : Tri} (h : add T S = .ok R) (hT : ∀ x, (T.freqs x).size = 0) (hS : ∀ x, (S.freqs x).size = 0) : ∀ x, (R.freqs x).size = 0 := by
  unfold Tridiag.add at h
  cases hd : mergeDiffs S.diffs T.diffs with
  | none => rw [hd] at h; simp at h
  | some M =>
    rw [hd] at h
    simp only at h
    cases h₁ : mergeAll mergeDiag S.diagonals T.diagonals (3 ^ T.rank) with
    | throw => rw [h₁] at h; simp [Outcome.bind] at h
    | undef => rw [h₁] at h; simp [Outcome.bind] at h
    | ok D =>
      rw [h₁] at h
      simp only [Outcome.bind] at h
      cases h₂ : mergeAll mergeFreq S.freqs T.freqs (3 ^ T.rank) with
      | throw => rw [h₂] at h; simp at h
      | undef => rw [h₂] at h; simp at h
      | ok F =>
        rw [h₂] at h
        simp only [Outcome.ok.injEq] at h
        subst h
        intro x
        change (F x).size = 0
        by_cases hx : x < 3 ^ T.rank
        · have := (mergeAll_ok h₂).1 x hx
          unfold mergeFreq at this
          rw [hS x] at this
          simp only [ne_eq, not_true_eq_false, if_false] at this
          injection this with this
          rw [← this, hT x]
        · rw [(mergeAll_ok h₂).2 x (by omega), hT x]

theorem x_op (m : ModeRef) (hd : m.pars.cutoff < 2 ^ 63) (h0 : 0 < m.pars.cutoff) : ∃ a X, aopOf m = .ok a ∧ add a (hermitianConjugate a) = .ok X ∧
    Op [m.pars.cutoff] (phases [(ptr m).w]) X (lift xE) ∧ Good m.ip X (phases [(ptr m).w]) ∧ (m.ip = false → ∀ x, (X.freqs x).size = 0) := by
  obtain ⟨T, h1, h2, h3, h4⟩ := aop_op (ptr m) hd h0
  obtain ⟨R, r1, r2, r3, r4⟩ := good_add h2 h2.dagger rfl h4 h4.dagger
  refine ⟨T, R, by rw [aopOf_eq, h1], r1, r2.congr fun i _ j _ => ?_, ?_, fun hip x => ?_⟩
  · simp only [lift, xE, conj_aOp]
  · have : (ptr m).exact.isSome = m.ip := by unfold ptr; cases m.ip <;> rfl
    rw [this] at r4; exact r4
  · obtain ⟨T', t1, -, t3⟩ := aop_sch (ptr m) hd h0 (by unfold ptr; rw [hip]; rfl)
    rw [h1, Outcome.ok.injEq] at t1
    subst t1
    exact add_nofreqs r1 t3 t3 x

/-- The free modes. -/
theorem make_free (m : ModeRef) (hd : m.pars.cutoff < 2 ^ 63) (h0 : 0 < m.pars.cutoff) :
    ∃ e, m.make = .ok e ∧ e.dim = m.pars.cutoff ∧ FreeIs e (ptr m).w (guideH m.pars.delta m.pars.kappa m.pars.nTh m.pars.eta) (guideJ m.pars.kappa m.pars.nTh) := by
  unfold ModeRef.make
  cases h : m.ip with
  | true =>
    obtain ⟨e, h1, h2, h3, h4, h5, h6⟩ := modeIP_is m.pars hd h0 .hierarchical
    have hw : (ptr m).w = mainDiagonal (z m.pars) := by
      unfold ptr Interactions.ModePtr.w; rw [h]
      funext i; simp [mainDiagonal, ModeEl.mainDiagonal, ModeEl.kerrDiagonal]
    refine ⟨e, h1, h2, pumpE m.pars.eta, by rw [hw]; exact h4, by rw [hw]; exact h5, h6, fun i _ j _ => ?_⟩
    rw [hw, ← ipH_eq]
  | false =>
    obtain ⟨e, h1, h2, h3, h3', h4, h5, h6⟩ := mode_is m.pars hd h0 .hierarchical
    have hw : (ptr m).w = fun _ => 0 := by
      unfold ptr Interactions.ModePtr.w; rw [h]; rfl
    refine ⟨e, h1, h2, _, by rw [hw]; exact h4, by rw [hw]; exact h5, h6, fun i _ j _ => ?_⟩
    rw [hw]; simp

/-- The product of the quadratures of modes in the same picture. -/
theorem xx_same (m0 m1 : ModeRef) (hd0 : m0.pars.cutoff < 2 ^ 63) (h0 : 0 < m0.pars.cutoff) (hd1 : m1.pars.cutoff < 2 ^ 63) (h1 : 0 < m1.pars.cutoff) (hp : m0.ip = m1.ip) (g : ℝ) :
    ∃ P, xx (aopOf m0) (aopOf m1) g = .ok P ∧ Op [m0.pars.cutoff, m1.pars.cutoff] (phases [(ptr m0).w, (ptr m1).w]) P (lift2 (fun i j => g * xE i j) xE) := by
  obtain ⟨a, X, a1, a2, a3, a4, -⟩ := x_op m0 hd0 h0
  obtain ⟨b, Q, b1, b2, b3, b4, -⟩ := x_op m1 hd1 h1
  have s : Op [m0.pars.cutoff] (phases [(ptr m0).w]) (scale (g : ℂ) X) (lift fun i j => g * xE i j) := a3.scale _
  obtain ⟨P, p1, p2, -⟩ := product_op s b3 (a4.scale _) (hp ▸ b4)
  exact ⟨P, by unfold xx; rw [a1]; simp only [Outcome.bind]; rw [a2]; simp only; rw [b1]; simp only; rw [b2]; exact p1, p2⟩

/-- **C146, violated.** What the interaction of modes in the same picture couples: as the division by `i` is missing, `g(a+a†)(b+b†)` stands for the Hamiltonian divided by `i`, the Hamiltonian is
`i` times the documented one. -/
theorem xx_couples_partial (m0 m1 : ModeRef) (hd0 : m0.pars.cutoff < 2 ^ 63) (h0 : 0 < m0.pars.cutoff) (hd1 : m1.pars.cutoff < 2 ^ 63) (h1 : 0 < m1.pars.cutoff) (hp : m0.ip = m1.ip) (g : ℝ) :
    ∃ ia, interaction m0 m1 g = .ok ia ∧ Couples ia [m0.pars.cutoff, m1.pars.cutoff] [(ptr m0).w, (ptr m1).w] (guideXX g) := by
  obtain ⟨P, p1, p2⟩ := xx_same m0 m1 hd0 h0 hd1 h1 hp g
  refine ⟨_, by unfold interaction; rw [p1]; rfl, couples_of_ops (List.Forall₂.cons p2 .nil) _ (fun i _ j _ => ?_) _⟩
  simp only [guideXX, tensor_up, lift2, List.map_cons, List.map_nil, List.sum_cons, List.sum_nil, xE]
  ring

theorem inBox_two (d0 d1 a b : ℕ) (ha : a < d0) (hb : b < d1) : Spec.InBox (lower [d0, d1]) (upper [d0, d1]) [(a : ℤ), (b : ℤ)] := by
  rw [Interactions.inBox_cons, Interactions.inBox_cons, Interactions.inBox_nil]
  exact ⟨by omega, by omega, rfl⟩

/-- **C146, violated.** Consequently, the documented Hamiltonian is not the one coupled. -/
theorem xx_wrong_partial (m0 m1 : ModeRef) (hd0 : m0.pars.cutoff < 2 ^ 63) (h0 : 1 < m0.pars.cutoff) (hd1 : m1.pars.cutoff < 2 ^ 63) (h1 : 1 < m1.pars.cutoff) (hp : m0.ip = m1.ip) (g : ℝ) (hg : g ≠ 0) :
    ∃ ia, interaction m0 m1 g = .ok ia ∧ ¬ Couples ia [m0.pars.cutoff, m1.pars.cutoff] [(ptr m0).w, (ptr m1).w] fun i j => guideXX g i j / Complex.I := by
  obtain ⟨ia, i1, i2⟩ := xx_couples_partial m0 m1 hd0 (by omega) hd1 (by omega) hp g
  refine ⟨ia, i1, fun h => ?_⟩
  have e := couples_unique i2 h (inBox_two _ _ 0 0 (by omega) (by omega)) (inBox_two _ _ 1 1 h0 h1)
  simp [guideXX, tensor, q, aOp, adOp] at e
  rw [eq_comm, neg_eq_iff_eq_neg] at e
  have := congrArg Complex.re e
  simp at this
  exact hg this

/-- **C146, violated.** The binary system of two modes in the same picture. -/
theorem xx_simulates_partial (m0 m1 : ModeRef) (hd0 : m0.pars.cutoff < 2 ^ 63) (h0 : 0 < m0.pars.cutoff) (hd1 : m1.pars.cutoff < 2 ^ 63) (h1 : 0 < m1.pars.cutoff) (hp : m0.ip = m1.ip) (g : ℝ) :
    ∃ e0 e1 ia, m0.make = .ok e0 ∧ m1.make = .ok e1 ∧ interaction m0 m1 g = .ok ia ∧ BinSimulates (binary e0 e1 ia) fun i j =>
      tensor (guideH m0.pars.delta m0.pars.kappa m0.pars.nTh m0.pars.eta) one i j + tensor one (guideH m1.pars.delta m1.pars.kappa m1.pars.nTh m1.pars.eta) i j + guideXX g i j := by
  obtain ⟨e0, a1, a2, a3⟩ := make_free m0 hd0 h0
  obtain ⟨e1, b1, b2, b3⟩ := make_free m1 hd1 h1
  obtain ⟨ia, i1, i2⟩ := xx_couples_partial m0 m1 hd0 h0 hd1 h1 hp g
  exact ⟨e0, e1, ia, a1, b1, i1, binary_simulates e0 e1 ia (by omega) (by omega) a3 b3 (by rw [a2, b2]; exact i2)⟩

/-- Two modes both in interaction picture. -/
example : ∃ e0 e1 ia, (ModeRef.mk ⟨1, 1, Complex.I, 1, 10⟩ true).make = .ok e0 ∧ (ModeRef.mk ⟨1, 1, Complex.I, 1, 20⟩ true).make = .ok e1 ∧
    interaction ⟨⟨1, 1, Complex.I, 1, 10⟩, true⟩ ⟨⟨1, 1, Complex.I, 1, 20⟩, true⟩ 2 = .ok ia ∧ BinSimulates (binary e0 e1 ia) fun i j =>
      tensor (guideH 1 1 1 Complex.I) one i j + tensor one (guideH 1 1 1 Complex.I) i j + guideXX 2 i j :=
  xx_simulates_partial ⟨⟨1, 1, Complex.I, 1, 10⟩, true⟩ ⟨⟨1, 1, Complex.I, 1, 20⟩, true⟩ (by norm_num) (by norm_num) (by norm_num) (by norm_num) rfl 2

example := xx_wrong_partial ⟨⟨1, 1, Complex.I, 1, 10⟩, false⟩ ⟨⟨1, 1, Complex.I, 1, 10⟩, false⟩ (by norm_num) (by norm_num) (by norm_num) (by norm_num) rfl 2 (by norm_num)

/-- **C146, violated.** The interaction of the other design. -/
theorem xx_basic_partial (d0 d1 : ℕ) (hd0 : d0 < 2 ^ 63) (h0 : 0 < d0) (hd1 : d1 < 2 ^ 63) (h1 : 0 < d1) (g : ℝ) :
    ∃ ia, interactionBasic d0 d1 g = .ok ia ∧ Couples ia [d0, d1] [fun _ => 0, fun _ => 0] (guideXX g) := by
  obtain ⟨P, p1, p2⟩ := xx_same ⟨⟨0, 0, 0, 0, d0⟩, false⟩ ⟨⟨0, 0, 0, 0, d1⟩, false⟩ hd0 h0 hd1 h1 rfl g
  have ha : ∀ d, aopOf ⟨⟨0, 0, 0, 0, d⟩, false⟩ = aop d := by
    intro d
    unfold aopOf
    cases h : aop d <;> simp [Outcome.bind, h]
  rw [ha, ha] at p1
  refine ⟨_, by unfold interactionBasic; rw [p1]; rfl, rfl, fun t t0 => ?_⟩
  simp only [Interactions.interaction]
  intro psi dpsidt s hs
  obtain ⟨k1, k2⟩ := (Interactions.box_iff [d0, d1] s).1 hs
  simp only [triHamStatic, List.foldl_cons, List.foldl_nil]
  rw [apply_eq_matrix _ (by rw [p2.wf.dims]) (by rw [p2.wf.diffs]) _ _ _ (by rw [p2.dims]; exact k1), p2.dims, k2]
  unfold Spec.matAction
  rw [Interactions.sum_box]
  congr 1
  refine Finset.sum_congr rfl fun j hj => ?_
  rw [p2.entry _ k1 j hj]
  have hz : ∀ x : List ℤ, Spec.phaseSum [fun _ => 0, fun _ => 0] x = 0 := by
    intro x
    rcases x with - | ⟨x, - | ⟨y, x⟩⟩ <;> simp [Spec.phaseSum]
  unfold Spec.rotating
  rw [hz, hz]
  have : guideXX g s (Interactions.up j) = lift2 (fun i j => (g : ℂ) * xE i j) xE (Interactions.down s) j := by
    rw [show s = Interactions.up (Interactions.down s) from k2.symm]
    simp only [guideXX, tensor_up, lift2, xE, Interactions.down_up]
    ring
  rw [this]
  simp

/-- The Hamiltonian can be read off the interaction, whatever the frequencies. -/
theorem couples_values {ia : Composite.Part} {ds : List ℕ} {ws ws' : List (ℕ → ℂ)} {H H' : List ℤ → List ℤ → ℂ} (h : Couples ia ds ws H) (h' : Couples ia ds ws' H') {s s' : List ℤ}
    (hs : Spec.InBox (lower ds) (upper ds) s) (hs' : Spec.InBox (lower ds) (upper ds) s') : H s s' = H' s s' := by
  obtain ⟨-, h⟩ := h
  obtain ⟨-, h'⟩ := h'
  have h := h 0 0
  have h' := h' 0 0
  cases hh : ia.ha with
  | none => rw [hh] at h h'; rw [h s s' hs hs', h' s s' hs hs']
  | some ha =>
    rw [hh] at h h'
    have e := (h (fun j => if j = s' then 1 else 0) (fun _ => 0) s hs).symm.trans (h' (fun j => if j = s' then 1 else 0) (fun _ => 0) s hs)
    have m := (mem_boxFinset _ _ s' (Interactions.lower_length ds)).2 hs'
    simpa [matAction, rotating, m] using e

/-- **C146, violated.** If the modes are in different pictures as in ExampleModeMain.cc, then the interaction is not the one documented up to any factor, although the guide says it works with either free element. -/
theorem xx_mixed_partial (m0 m1 : ModeRef) (hd0 : m0.pars.cutoff < 2 ^ 63) (h0 : 1 < m0.pars.cutoff) (hd1 : m1.pars.cutoff < 2 ^ 63) (h1 : 1 < m1.pars.cutoff) (hp : m0.ip ≠ m1.ip)
    (hz0 : z m0.pars ≠ 0) (hz1 : z m1.pars ≠ 0) (g : ℝ) (hg : g ≠ 0) :
    ∃ ia, interaction m0 m1 g = .ok ia ∧ ∀ c : ℂ, ¬ Couples ia [m0.pars.cutoff, m1.pars.cutoff] [(ptr m0).w, (ptr m1).w] fun i j => c * guideXX g i j := by
  obtain ⟨a, X, a1, a2, a3, -, a5⟩ := x_op m0 hd0 (by omega)
  obtain ⟨b, Q, b1, b2, b3, -, b5⟩ := x_op m1 hd1 (by omega)
  have s : Op [m0.pars.cutoff] (phases [(ptr m0).w]) (scale (g : ℂ) X) (lift fun i j => g * xE i j) := a3.scale _
  obtain ⟨P, p1, p2⟩ := lost_product s b3 (by
    cases h : m0.ip with
    | false => exact Or.inl fun x => a5 h x
    | true =>
      cases h' : m1.ip with
      | false => exact Or.inr (b5 h')
      | true => rw [h, h'] at hp; exact absurd rfl hp)
  have px : xx (aopOf m0) (aopOf m1) g = .ok P := by unfold xx; rw [a1]; simp only [Outcome.bind]; rw [a2]; simp only; rw [b1]; simp only; rw [b2]; exact p1
  refine ⟨_, by unfold interaction; rw [px]; rfl, fun c h => ?_⟩
  have h' : Couples (Interactions.interaction [0, 1] (some (Interactions.triHam [P]))) [m0.pars.cutoff, m1.pars.cutoff] [fun _ => 0, fun _ => 0] (guideXX g) := by
    refine couples_of_ops (List.Forall₂.cons p2 .nil) _ (fun i _ j _ => ?_) _
    simp only [guideXX, tensor_up, lift2, List.map_cons, List.map_nil, List.sum_cons, List.sum_nil, xE]
    ring
  have s0 := inBox_two m0.pars.cutoff m1.pars.cutoff 0 0 (by omega) (by omega)
  have s1 := inBox_two m0.pars.cutoff m1.pars.cutoff 1 1 h0 h1
  have e0 := couples_values h h' s0 s1
  have hx : guideXX g [((0 : ℕ) : ℤ), ((0 : ℕ) : ℤ)] [((1 : ℕ) : ℤ), ((1 : ℕ) : ℤ)] = g := by simp [guideXX, tensor, q, aOp, adOp]
  have hg' : (g : ℂ) ≠ 0 := by exact_mod_cast hg
  have hc : c = 1 := by
    rw [hx] at e0
    exact mul_right_cancel₀ hg' (by rw [e0, one_mul])
  subst hc
  simp only [one_mul] at h
  have e := couples_phases h h' s0 s1 (by rw [hx]; exact hg')
  have hw : ∀ m : ModeRef, m.ip = false → (ptr m).w = fun _ => 0 := by intro m h; unfold ptr Interactions.ModePtr.w; rw [h]; rfl
  have hw' : ∀ m : ModeRef, m.ip = true → (ptr m).w 1 - (ptr m).w 0 = z m.pars := by
    intro m h; unfold ptr Interactions.ModePtr.w; rw [h]; simp [ModeEl.mainDiagonal, ModeEl.kerrDiagonal]
  cases h0' : m0.ip with
  | false =>
    have h1' : m1.ip = true := by cases h : m1.ip <;> simp_all
    have := hw' m1 h1'
    simp only [Spec.phaseSum, hw m0 h0', List.zipWith_cons_cons, List.zipWith_nil_left, List.sum_cons, List.sum_nil, Int.toNat_natCast] at e
    apply hz1
    rw [← this]
    linear_combination -e
  | true =>
    have h1' : m1.ip = false := by cases h : m1.ip <;> simp_all
    have := hw' m0 h0'
    simp only [Spec.phaseSum, hw m1 h1', List.zipWith_cons_cons, List.zipWith_nil_left, List.sum_cons, List.sum_nil, Int.toNat_natCast] at e
    apply hz0
    rw [← this]
    linear_combination -e

/-- The interaction of ExampleModeMain.cc:23-26. -/
example : ∃ ia, interaction ⟨⟨1, 1, Complex.I, 1, 10⟩, true⟩ ⟨⟨1, 1, Complex.I, 1, 20⟩, false⟩ 2 = .ok ia ∧
    ∀ c : ℂ, ¬ Couples ia [10, 20] [(ptr ⟨⟨1, 1, Complex.I, 1, 10⟩, true⟩).w, (ptr ⟨⟨1, 1, Complex.I, 1, 20⟩, false⟩).w] fun i j => c * guideXX 2 i j :=
  xx_mixed_partial ⟨⟨1, 1, Complex.I, 1, 10⟩, true⟩ ⟨⟨1, 1, Complex.I, 1, 20⟩, false⟩ (by norm_num) (by norm_num) (by norm_num) (by norm_num) (by simp)
    (by simp [z, Complex.ext_iff]) (by simp [z, Complex.ext_iff]) 2 (by norm_num)

/-! ## The correlations -/

/-- The density operator of the two modes. -/
def state2 (M : LDO2) : Matrix (Fin M.d0 × Fin M.d1) (Fin M.d0 × Fin M.d1) ℂ := Matrix.of fun x y => M.index (x.1, x.2) (y.1, y.2)

open Kronecker in
/-- `Tr(A⊗B ρ)`. -/
noncomputable def mean2 (M : LDO2) (A : Matrix (Fin M.d0) (Fin M.d0) ℂ) (B : Matrix (Fin M.d1) (Fin M.d1) ℂ) : ℂ := ((A ⊗ₖ B) * state2 M).trace

theorem mean2_eq (M : LDO2) (A B : Dens) : mean2 M (mat M.d0 A) (mat M.d1 B) =
    ∑ n ∈ Finset.range M.d0, ∑ m ∈ Finset.range M.d1, ∑ n' ∈ Finset.range M.d0, A n' n * ∑ m' ∈ Finset.range M.d1, B m' m * M.index (n, m) (n', m') := by
  unfold mean2
  rw [Matrix.trace_mul_comm, Matrix.trace, Finset.sum_range, Fintype.sum_prod_type]
  refine Finset.sum_congr rfl fun n _ => ?_
  rw [Finset.sum_range]
  refine Finset.sum_congr rfl fun m _ => ?_
  rw [Matrix.diag_apply, Matrix.mul_apply, Finset.sum_range, Fintype.sum_prod_type]
  refine Finset.sum_congr rfl fun n' _ => ?_
  rw [Finset.sum_range, Finset.mul_sum]
  refine Finset.sum_congr rfl fun m' _ => ?_
  simp only [state2, Matrix.of_apply, Matrix.kroneckerMap_apply, mat_apply]
  ring

/-- The sums of the loop. -/
theorem loop_eq (M : LDO2) (i : ℕ) : (List.range M.d0).foldl (fun a n => (List.range' 1 (M.d1 - 1)).foldl (correlationStep M n) a) (fun _ => 0) i =
    ∑ n ∈ Finset.range M.d0, ∑ k ∈ Finset.range (M.d1 - 1),
      ((if n + 1 < M.d0 then (if i = 0 then ((Real.sqrt ((1 + k : ℕ) * (n + 1)) : ℂ) * M.index (n, 1 + k) (n + 1, k)).re else 0) + (if i = 1 then ((Real.sqrt ((1 + k : ℕ) * (n + 1)) : ℂ) * M.index (n, 1 + k) (n + 1, k)).im else 0) else 0) +
      if 0 < n then (if i = 2 then ((Real.sqrt ((1 + k : ℕ) * n) : ℂ) * M.index (n, 1 + k) (n - 1, k)).re else 0) + (if i = 3 then ((Real.sqrt ((1 + k : ℕ) * n) : ℂ) * M.index (n, 1 + k) (n - 1, k)).im else 0) else 0) := by
  have step : ∀ (n : ℕ) (a : ModeEl.Averages) (m i : ℕ), correlationStep M n a m i = a i +
      ((if n + 1 < M.d0 then (if i = 0 then ((Real.sqrt (m * (n + 1)) : ℂ) * M.index (n, m) (n + 1, m - 1)).re else 0) + (if i = 1 then ((Real.sqrt (m * (n + 1)) : ℂ) * M.index (n, m) (n + 1, m - 1)).im else 0) else 0) +
      if 0 < n then (if i = 2 then ((Real.sqrt (m * n) : ℂ) * M.index (n, m) (n - 1, m - 1)).re else 0) + (if i = 3 then ((Real.sqrt (m * n) : ℂ) * M.index (n, m) (n - 1, m - 1)).im else 0) else 0) := by
    intro n a m i
    unfold correlationStep
    by_cases h1 : n + 1 < M.d0 <;> by_cases h2 : 0 < n <;> simp only [h1, h2, if_true, if_false, ModeEl.Averages.add_apply] <;> ring
  rw [ModeEl.foldl_averages _ _ (fun n i => _) (fun a n i => ModeEl.foldl_averages _ _ _ (step n) a i)]
  rw [zero_add, ← List.sum_toFinset _ (List.nodup_range)]
  simp only [List.toFinset_range]
  refine Finset.sum_congr rfl fun n _ => ?_
  rw [sum_map_range']
  refine Finset.sum_congr rfl fun k _ => ?_
  simp only [Nat.add_sub_cancel_left]

theorem collapse_a (d m : ℕ) (hm : m < d) (F : ℕ → ℂ) : ∑ m' ∈ Finset.range d, aOp m' m * F m' = if 0 < m then (Real.sqrt m : ℂ) * F (m - 1) else 0 := by
  split_ifs with h
  · rw [Finset.sum_eq_single (m - 1)]
    · simp only [aOp]; rw [if_pos (by omega)]
    · intro b _ hb
      simp only [aOp]; rw [if_neg (by omega), zero_mul]
    · intro hn; exact absurd (Finset.mem_range.2 (by omega)) hn
  · refine Finset.sum_eq_zero fun b _ => ?_
    simp only [aOp]; rw [if_neg (by omega), zero_mul]

theorem collapse_ad (d m : ℕ) (F : ℕ → ℂ) : ∑ m' ∈ Finset.range d, adOp m' m * F m' = if m + 1 < d then (Real.sqrt (m + 1 : ℕ) : ℂ) * F (m + 1) else 0 := by
  split_ifs with h
  · rw [Finset.sum_eq_single (m + 1)]
    · simp [adOp]
    · intro b _ hb
      simp only [adOp]; rw [if_neg hb, zero_mul]
    · intro hn; exact absurd (Finset.mem_range.2 h) hn
  · refine Finset.sum_eq_zero fun b hb => ?_
    have := Finset.mem_range.1 hb
    simp only [adOp]; rw [if_neg (by omega), zero_mul]

theorem drop_zero (d : ℕ) (f : ℕ → ℂ) (h : f 0 = 0) : ∑ m ∈ Finset.range d, f m = ∑ k ∈ Finset.range (d - 1), f (1 + k) := by
  rcases d with - | d
  · simp
  · rw [Finset.sum_range_succ', h, add_zero, Nat.add_sub_cancel]
    exact Finset.sum_congr rfl fun k _ => by rw [add_comm]

theorem mean_ada (M : LDO2) : mean2 M (mat M.d0 adOp) (mat M.d1 aOp) = ∑ n ∈ Finset.range M.d0, ∑ k ∈ Finset.range (M.d1 - 1), if n + 1 < M.d0 then (Real.sqrt ((1 + k : ℕ) * (n + 1)) : ℂ) * M.index (n, 1 + k) (n + 1, k) else 0 := by
  rw [mean2_eq]
  refine Finset.sum_congr rfl fun n _ => ?_
  have : ∀ m ∈ Finset.range M.d1, (∑ n' ∈ Finset.range M.d0, adOp n' n * ∑ m' ∈ Finset.range M.d1, aOp m' m * M.index (n, m) (n', m')) =
      if n + 1 < M.d0 then (Real.sqrt (n + 1 : ℕ) : ℂ) * if 0 < m then (Real.sqrt m : ℂ) * M.index (n, m) (n + 1, m - 1) else 0 else 0 := by
    intro m hm
    rw [collapse_ad _ _ fun n' => ∑ m' ∈ Finset.range M.d1, aOp m' m * M.index (n, m) (n', m'), collapse_a _ _ (Finset.mem_range.1 hm) fun m' => M.index (n, m) (n + 1, m')]
  rw [Finset.sum_congr rfl this, drop_zero _ _ (by simp)]
  refine Finset.sum_congr rfl fun k _ => ?_
  split_ifs with h1 h2
  · rw [Real.sqrt_mul (by positivity), Nat.add_sub_cancel_left]; push_cast; ring
  · omega
  · rfl

theorem mean_aa (M : LDO2) : mean2 M (mat M.d0 aOp) (mat M.d1 aOp) = ∑ n ∈ Finset.range M.d0, ∑ k ∈ Finset.range (M.d1 - 1), if 0 < n then (Real.sqrt ((1 + k : ℕ) * n) : ℂ) * M.index (n, 1 + k) (n - 1, k) else 0 := by
  rw [mean2_eq]
  refine Finset.sum_congr rfl fun n hn => ?_
  have : ∀ m ∈ Finset.range M.d1, (∑ n' ∈ Finset.range M.d0, aOp n' n * ∑ m' ∈ Finset.range M.d1, aOp m' m * M.index (n, m) (n', m')) =
      if 0 < n then (Real.sqrt n : ℂ) * if 0 < m then (Real.sqrt m : ℂ) * M.index (n, m) (n - 1, m - 1) else 0 else 0 := by
    intro m hm
    rw [collapse_a _ _ (Finset.mem_range.1 hn) fun n' => ∑ m' ∈ Finset.range M.d1, aOp m' m * M.index (n, m) (n', m'), collapse_a _ _ (Finset.mem_range.1 hm) fun m' => M.index (n, m) (n - 1, m')]
  rw [Finset.sum_congr rfl this, drop_zero _ _ (by simp)]
  refine Finset.sum_congr rfl fun k _ => ?_
  split_ifs with h1 h2
  · rw [Real.sqrt_mul (by positivity), Nat.add_sub_cancel_left]; push_cast; ring
  · omega
  · rfl

theorem correlations_eq (M : LDO2) : correlations M =
    [(mean2 M (mat M.d0 adOp) (mat M.d1 aOp)).re + (mean2 M (mat M.d0 aOp) (mat M.d1 aOp)).re, (mean2 M (mat M.d0 adOp) (mat M.d1 aOp)).im + (mean2 M (mat M.d0 aOp) (mat M.d1 aOp)).im,
     -(mean2 M (mat M.d0 adOp) (mat M.d1 aOp)).im + (mean2 M (mat M.d0 aOp) (mat M.d1 aOp)).im, (mean2 M (mat M.d0 adOp) (mat M.d1 aOp)).re - (mean2 M (mat M.d0 aOp) (mat M.d1 aOp)).re] := by
  have l0 := (loop_eq M 0).trans (b := _) (c := (mean2 M (mat M.d0 adOp) (mat M.d1 aOp)).re) (by
    rw [mean_ada, Complex.re_sum]; refine Finset.sum_congr rfl fun n _ => ?_
    rw [Complex.re_sum]; refine Finset.sum_congr rfl fun k _ => ?_
    split_ifs <;> simp_all)
  have l1 := (loop_eq M 1).trans (b := _) (c := (mean2 M (mat M.d0 adOp) (mat M.d1 aOp)).im) (by
    rw [mean_ada, Complex.im_sum]; refine Finset.sum_congr rfl fun n _ => ?_
    rw [Complex.im_sum]; refine Finset.sum_congr rfl fun k _ => ?_
    split_ifs <;> simp_all)
  have l2 := (loop_eq M 2).trans (b := _) (c := (mean2 M (mat M.d0 aOp) (mat M.d1 aOp)).re) (by
    rw [mean_aa, Complex.re_sum]; refine Finset.sum_congr rfl fun n _ => ?_
    rw [Complex.re_sum]; refine Finset.sum_congr rfl fun k _ => ?_
    split_ifs <;> simp_all)
  have l3 := (loop_eq M 3).trans (b := _) (c := (mean2 M (mat M.d0 aOp) (mat M.d1 aOp)).im) (by
    rw [mean_aa, Complex.im_sum]; refine Finset.sum_congr rfl fun n _ => ?_
    rw [Complex.im_sum]; refine Finset.sum_congr rfl fun k _ => ?_
    split_ifs <;> simp_all)
  unfold correlations
  simp only [l0, l1, l2, l3]

/-- `⟨A†B†⟩=⟨AB⟩*`. -/
theorem mean2_adjoint (M : LDO2) (h : (state2 M).IsHermitian) (A : Matrix (Fin M.d0) (Fin M.d0) ℂ) (B : Matrix (Fin M.d1) (Fin M.d1) ℂ) : mean2 M Aᴴ Bᴴ = conj (mean2 M A B) := by
  unfold mean2
  rw [← Complex.star_def, ← Matrix.trace_conjTranspose, Matrix.conjTranspose_mul, h.eq, Matrix.trace_mul_comm, Matrix.conjTranspose_kronecker]

theorem mean2_add_left (M : LDO2) (A A' B) : mean2 M (A + A') B = mean2 M A B + mean2 M A' B := by
  unfold mean2; rw [Matrix.add_kronecker, Matrix.add_mul, Matrix.trace_add]
theorem mean2_add_right (M : LDO2) (A B B') : mean2 M A (B + B') = mean2 M A B + mean2 M A B' := by
  unfold mean2; rw [Matrix.kronecker_add, Matrix.add_mul, Matrix.trace_add]
theorem mean2_smul_left (M : LDO2) (c : ℂ) (A B) : mean2 M (c • A) B = c * mean2 M A B := by
  unfold mean2; rw [Matrix.smul_kronecker, Matrix.smul_mul, Matrix.trace_smul, smul_eq_mul]
theorem mean2_smul_right (M : LDO2) (c : ℂ) (A B) : mean2 M A (c • B) = c * mean2 M A B := by
  unfold mean2; rw [Matrix.kronecker_smul, Matrix.smul_mul, Matrix.trace_smul, smul_eq_mul]

theorem quadX_eq (d : ℕ) : quadX d = (1 / (Real.sqrt 2 : ℂ)) • (mat d aOp + mat d adOp) := by
  ext i j; simp [quadX, mat_apply]; ring
theorem quadY_eq (d : ℕ) : quadY d = (1 / (Complex.I * (Real.sqrt 2 : ℂ))) • (mat d aOp + (-1 : ℂ) • mat d adOp) := by
  ext i j; simp only [quadY, mat_apply, Matrix.smul_apply, Matrix.add_apply, smul_eq_mul]; ring

/-- **C145.** The correlations displayed are those of the quadratures. -/
theorem guide_correlations (M : LDO2) (h : (state2 M).IsHermitian) : (correlations M).map Complex.ofReal =
    [mean2 M (quadX M.d0) (quadX M.d1), mean2 M (quadX M.d0) (quadY M.d1), mean2 M (quadY M.d0) (quadX M.d1), mean2 M (quadY M.d0) (quadY M.d1)] := by
  have ha : ∀ d, (mat d aOp)ᴴ = mat d adOp := by intro d; ext i j; simp [mat_apply, conj_aOp]
  have had : ∀ d, (mat d adOp)ᴴ = mat d aOp := by intro d; rw [← ha, Matrix.conjTranspose_conjTranspose]
  have e1 := mean2_adjoint M h (mat M.d0 adOp) (mat M.d1 aOp)
  have e2 := mean2_adjoint M h (mat M.d0 aOp) (mat M.d1 aOp)
  rw [had, ha] at e1
  rw [ha, ha] at e2
  rw [correlations_eq]
  simp only [quadX_eq, quadY_eq, mean2_add_left, mean2_add_right, mean2_smul_left, mean2_smul_right, e1, e2]
  generalize mean2 M (mat M.d0 adOp) (mat M.d1 aOp) = x
  generalize mean2 M (mat M.d0 aOp) (mat M.d1 aOp) = y
  have h2 : (Real.sqrt 2 : ℂ) * (Real.sqrt 2 : ℂ) = 2 := by rw [← Complex.ofReal_mul, Real.mul_self_sqrt (by norm_num)]; simp
  have hs : (1 / (Real.sqrt 2 : ℂ)) * (1 / (Real.sqrt 2 : ℂ)) = 1 / 2 := by rw [div_mul_div_comm, h2, one_mul]
  have hi : 1 / (Complex.I * (Real.sqrt 2 : ℂ)) = -Complex.I * (1 / (Real.sqrt 2 : ℂ)) := by rw [one_div, mul_inv, Complex.inv_I, one_div]
  rw [hi]
  simp only [List.map_cons, List.map_nil, List.cons.injEq, and_true]
  have hre : ∀ w : ℂ, (w.re : ℂ) = (w + conj w) / 2 := fun w => by rw [Complex.add_conj]; simp
  have him : ∀ w : ℂ, (w.im : ℂ) = (w - conj w) / 2 * -Complex.I := fun w => by rw [Complex.sub_conj]; apply Complex.ext <;> simp
  push_cast
  simp only [hre, him]
  refine ⟨?_, ?_, ?_, ?_⟩
  · linear_combination -(x + conj x + y + conj y) * hs
  · linear_combination Complex.I * (x - conj x + y - conj y) * hs
  · linear_combination Complex.I * (-x + conj x + y - conj y) * hs
  · linear_combination (y + conj y - x - conj x) * hs - (1 / (Real.sqrt 2 : ℂ)) * (1 / (Real.sqrt 2 : ℂ)) * (y + conj y - x - conj x) * Complex.I_sq

/-- The entangled state `(|01⟩+i|10⟩)/√2`, in which `⟨YQ⟩=-⟨XP⟩` do not vanish. -/
example : let psi : ℕ × ℕ → ℂ := fun i => if i = (0, 1) then 1 else if i = (1, 0) then Complex.I else 0
    (correlations ⟨2, 2, fun i j => psi i * conj (psi j) / 2⟩).map Complex.ofReal =
      let M : LDO2 := ⟨2, 2, fun i j => psi i * conj (psi j) / 2⟩
      [mean2 M (quadX 2) (quadX 2), mean2 M (quadX 2) (quadY 2), mean2 M (quadY 2) (quadX 2), mean2 M (quadY 2) (quadY 2)] := by
  intro psi
  refine guide_correlations ⟨2, 2, fun i j => psi i * conj (psi j) / 2⟩ ?_
  ext x y
  simp [state2, mul_comm]

end CppQED.Examples
