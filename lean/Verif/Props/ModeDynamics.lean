import Verif.Props.Mode

/-!
# The dynamics of the mode: C22, C23, C72
-/

namespace CppQED.ModeEl
open CppQED.Elem CppQED.Tridiag CppQED.Spec Matrix
open ComplexConjugate

/-! ## The Liouvillean -/

theorem elementLiouvillean_is {d : ℕ} (labels : List String) (Ls : List Lindblad) (J : List Dens) (hl : labels.length = Ls.length) (hJ : Ls.length = J.length)
    (h : ∀ i (L : Lindblad), Ls[i]? = some L → IsJump d L.jump (mat d (J.getD i 0)) ∧ ∀ s, L.super = some s → IsSuper d s (mat d (J.getD i 0)))
    (ha : Option (ℝ → Vec → Vec → ℝ → Vec)) (ex : Option (ℝ → ℕ → ℂ)) (b : Bool) :
    LiIs ⟨d, ha, ex, b, some (elementLiouvillean labels Ls)⟩ J := by
  unfold LiIs
  simp only
  refine ⟨by rw [← hJ, ← hl]; rfl, fun i hi => ?_⟩
  obtain ⟨L, hL⟩ : ∃ L, Ls[i]? = some L := ⟨_, List.getElem?_eq_getElem (by omega)⟩
  obtain ⟨h1, h2⟩ := h i L hL
  constructor
  · intro psi
    exact ⟨_, ((elementLiouvillean_spec labels Ls i psi (fun _ _ => 0) (fun _ _ => 0) ⟨1, fun _ _ => 0, 0⟩).2.1 L hL).1, h1 psi⟩
  · intro rho drhodt d' hd
    have := ((elementLiouvillean_spec labels Ls i (fun _ => 0) rho drhodt ⟨1, fun _ _ => 0, 0⟩).2.1 L hL).2.2
    rw [this] at hd
    cases hs : L.super with
    | none => rw [hs] at hd; simp at hd
    | some s =>
      rw [hs] at hd
      simp only at hd
      injection hd with hd
      rw [← hd]
      exact h2 s hs rho drhodt

/-- The Lindblads of the mode. -/
theorem liouvillean_is (p : Pars) (hκ : 0 < p.kappa) (hn : 0 ≤ p.nTh) (ha : Option (ℝ → Vec → Vec → ℝ → Vec)) (ex : Option (ℝ → ℕ → ℂ)) (b : Bool) :
    LiIs ⟨p.cutoff, ha, ex, b, some (liouvillean (decide (p.nTh ≠ 0)) p)⟩ (modeJ p.kappa p.nTh) := by
  unfold liouvillean modeJ
  rw [if_neg hκ.ne']
  by_cases h0 : p.nTh = 0
  · simp only [h0, ne_eq, not_true_eq_false, decide_false, Bool.false_eq_true, if_false, if_true]
    refine elementLiouvillean_is _ _ _ rfl rfl ?_ ha ex b
    intro i L hL
    rcases i with - | i
    · simp only [List.getElem?_cons_zero, Option.some.injEq] at hL
      subst hL
      refine ⟨aJump_eq _ _, fun s hs => ?_⟩
      simp only [Option.some.injEq] at hs
      rw [← hs]
      exact aSuperoperator_eq _ hκ.le _
    · simp at hL
  · have hn' : 0 ≤ p.kappa * p.nTh := mul_nonneg hκ.le hn
    simp only [h0, ne_eq, not_false_eq_true, decide_true, if_true, if_false]
    refine elementLiouvillean_is _ _ _ rfl rfl ?_ ha ex b
    intro i L hL
    rcases i with - | i
    · simp only [List.getElem?_cons_zero, Option.some.injEq] at hL
      subst hL
      refine ⟨aJump_eq _ _, fun s hs => ?_⟩
      simp only [Option.some.injEq] at hs
      rw [← hs]
      exact aSuperoperator_eq _ (by nlinarith) _
    · rcases i with - | i
      · simp only [List.getElem?_cons_succ, List.getElem?_cons_zero, Option.some.injEq] at hL
        subst hL
        refine ⟨aDagJump_eq _ _, fun s hs => ?_⟩
        simp only [Option.some.injEq] at hs
        rw [← hs]
        exact aDagSuperoperator_eq _ hn' _
      · simp at hL

/-! ## Phases -/

/-- The exact part commutes with the jumps up to a phase. -/
def Phases (d : ℕ) (zI : ℂ) (J : List Dens) : Prop := ∀ j ∈ J, ∀ t : ℝ, ∃ c : ℂ, c * conj c = 1 ∧
    (Matrix.diagonal fun i : Fin d => uDiag (mainDiagonal zI 0) t i) * mat d j = c • (mat d j * Matrix.diagonal fun i : Fin d => uDiag (mainDiagonal zI 0) t i)

/-- The exact part commutes with `a` and `a†` up to a phase if it is unitary. -/
theorem phase (d : ℕ) (zI : ℂ) (hz : zI.re = 0) (κ n : ℝ) : Phases d zI (modeJ κ n) := by
  have hw : ∀ (m : ℕ) (t : ℝ), uDiag (mainDiagonal zI 0) t m = Complex.exp (-(m * zI * t)) := by
    intro m t; simp [uDiag, mainDiagonal, kerrDiagonal]
  have hu : ∀ (s t : ℝ), s * s = 1 → Complex.exp (s * (zI * t)) * conj (Complex.exp (s * (zI * t))) = 1 := by
    intro s t _
    rw [Complex.mul_conj, Complex.normSq_eq_norm_sq, Complex.norm_exp]
    simp [hz]
  have ha : ∀ (c : ℂ) (t : ℝ), ∃ u : ℂ, u * conj u = 1 ∧ (Matrix.diagonal fun i : Fin d => uDiag (mainDiagonal zI 0) t i) * mat d (sc c aOp) =
      u • (mat d (sc c aOp) * Matrix.diagonal fun i : Fin d => uDiag (mainDiagonal zI 0) t i) := by
    intro c t
    refine ⟨Complex.exp ((1 : ℝ) * (zI * t)), hu 1 t (by norm_num), ?_⟩
    ext i j
    rw [Matrix.diagonal_mul, Matrix.smul_apply, Matrix.mul_diagonal, smul_eq_mul, hw, hw]
    simp only [mat_apply, sc, aOp]
    by_cases h : (j : ℕ) = i + 1
    · have e1 : Complex.exp (-((i : ℕ) * zI * t)) = Complex.exp ((1 : ℝ) * (zI * t)) * Complex.exp (-(((i : ℕ) + 1 : ℕ) * zI * t)) := by
        rw [← Complex.exp_add]; congr 1; push_cast; ring
      rw [if_pos h, h, e1]; ring
    · rw [if_neg h]; ring
  have hd : ∀ (c : ℂ) (t : ℝ), ∃ u : ℂ, u * conj u = 1 ∧ (Matrix.diagonal fun i : Fin d => uDiag (mainDiagonal zI 0) t i) * mat d (sc c adOp) =
      u • (mat d (sc c adOp) * Matrix.diagonal fun i : Fin d => uDiag (mainDiagonal zI 0) t i) := by
    intro c t
    refine ⟨Complex.exp ((-1 : ℝ) * (zI * t)), hu (-1) t (by norm_num), ?_⟩
    ext i j
    rw [Matrix.diagonal_mul, Matrix.smul_apply, Matrix.mul_diagonal, smul_eq_mul, hw, hw]
    simp only [mat_apply, sc, adOp]
    by_cases h : (i : ℕ) = j + 1
    · have e1 : Complex.exp (-(((j : ℕ) + 1 : ℕ) * zI * t)) = Complex.exp ((-1 : ℝ) * (zI * t)) * Complex.exp (-((j : ℕ) * zI * t)) := by
        rw [← Complex.exp_add]; congr 1; push_cast; ring
      rw [if_pos h, h, e1]; ring
    · rw [if_neg h]; ring
  intro j hj t
  unfold modeJ at hj
  split_ifs at hj
  · simp at hj
  · rw [List.mem_singleton] at hj; subst hj; exact ha _ t
  · simp only [List.mem_cons, List.not_mem_nil, or_false] at hj
    rcases hj with rfl | rfl
    · exact ha _ t
    · exact hd _ t

theorem phase_one (d : ℕ) (A : Dens) (t : ℝ) : ∃ c : ℂ, c * conj c = 1 ∧
    (Matrix.diagonal fun i : Fin d => uDiag (fun _ => 0) t i) * mat d A = c • (mat d A * Matrix.diagonal fun i : Fin d => uDiag (fun _ => 0) t i) := by
  refine ⟨1, by simp, ?_⟩
  have : (Matrix.diagonal fun i : Fin d => uDiag (fun _ => 0) t i) = 1 := by
    ext i j; simp [uDiag, Matrix.one_apply, Matrix.diagonal_apply]
  rw [this]; simp

/-! ## The three kinds of classes -/

variable {p : Pars} {J : List Dens} {li : Option Liouvillean}

theorem exactDiagonal_is (zI : ℂ) (t : ℝ) (n : ℕ) : exactDiagonal zI t n = uDiag (mainDiagonal zI 0) t n := by
  simp only [exactDiagonal, uDiag, mainDiagonal, kerrDiagonal]
  congr 1
  simp; ring

/-- The classes with exact part only, whatever the Kerr constants. -/
theorem elementExact_generates (zI : ℂ) (hJ : zI.re = 0 → Phases p.cutoff zI J) (hL : ∀ ha ex b, LiIs ⟨p.cutoff, ha, ex, b, li⟩ J) :
    ∃ e, elementExact p zI li = .ok e ∧ e.dim = p.cutoff ∧ (e.exApplicable = true ↔ zI.re = 0) ∧ Generates e (fun i j => - if i = j then i * zI else 0) J := by
  refine ⟨_, rfl, rfl, by simp, ?_⟩
  have := generates_of (e := ⟨p.cutoff, none, some (exactDiagonal zI), decide (zI.re = 0), li⟩) (w := mainDiagonal zI 0) (V := fun _ _ => 0) (J := J)
    (by unfold HaIs; simp) (by unfold ExIs; intro t n _; exact exactDiagonal_is zI t n) (hL _ _ _) (by
      intro hA j hj t
      exact hJ (by simpa using hA) j hj t)
  simpa [mainDiagonal, kerrDiagonal] using this

/-- The classes with Hamiltonian and exact part, with vanishing `omegaKerr`. -/
theorem elementIP_generates (hd : p.cutoff < 2 ^ 63) (h0 : 0 < p.cutoff) (hK : p.omegaKerr = 0) (zSch zI eta : ℂ) (hJ : zI.re = 0 → Phases p.cutoff zI J)
    (hL : ∀ ha ex b, LiIs ⟨p.cutoff, ha, ex, b, li⟩ J) :
    ∃ e, elementIP p zSch zI eta li = .ok e ∧ e.dim = p.cutoff ∧ (e.exApplicable = true ↔ zI.re = 0) ∧
      Generates e (fun i j => hOverIE zSch eta 0 i j + kerrE p.omegaKerrAlter i j - if i = j then i * zI else 0) J := by
  obtain ⟨H, hH, h⟩ := hamiltonianIP_ok zSch zI eta p.omegaKerr p.omegaKerrAlter p.cutoff hd h0
  rw [hK] at h
  refine ⟨_, by unfold elementIP; rw [hH]; rfl, rfl, by simp, ?_⟩
  have := generates_of (e := ⟨p.cutoff, some H.addContribution, some (exactDiagonal zI), decide (zI.re = 0), li⟩) (w := mainDiagonal zI 0)
    (V := fun i j => hOverIE zSch eta 0 i j + kerrE p.omegaKerrAlter i j) (J := J)
    (by unfold HaIs; exact h) (by unfold ExIs; intro t n _; exact exactDiagonal_is zI t n) (hL _ _ _) (by
      intro hA j hj t
      exact hJ (by simpa using hA) j hj t)
  simpa [mainDiagonal, kerrDiagonal] using this

/-- The classes in the Schrödinger picture, whatever the Kerr constants. -/
theorem elementSch_generates (hd : p.cutoff < 2 ^ 63) (h0 : 0 < p.cutoff) (zSch eta : ℂ) (hL : ∀ ha ex b, LiIs ⟨p.cutoff, ha, ex, b, li⟩ J) :
    ∃ e, elementSch p zSch eta li = .ok e ∧ e.dim = p.cutoff ∧ e.exApplicable = true ∧
      Generates e (fun i j => hOverIE zSch eta p.omegaKerr i j + kerrE p.omegaKerrAlter i j) J := by
  obtain ⟨H, hH, h⟩ := hamiltonianSch_ok zSch eta p.omegaKerr p.omegaKerrAlter p.cutoff hd h0
  refine ⟨_, by unfold elementSch; rw [hH]; rfl, rfl, rfl, ?_⟩
  have := generates_of (e := ⟨p.cutoff, some H.addContribution, none, true, li⟩) (w := fun _ => 0)
    (V := fun i j => hOverIE zSch eta p.omegaKerr i j + kerrE p.omegaKerrAlter i j) (J := J)
    (by
      unfold HaIs; intro t psi dpsidt t0
      have e1 : ∀ (V : Dens) (t : ℝ), interactionPicture (fun _ => 0) V t = V := by
        intro V t; funext i j; simp [interactionPicture]
      rw [e1]
      exact h t psi dpsidt t0) (by unfold ExIs; intro n _; rfl) (hL _ _ _) (fun _ j _ t => phase_one _ j t)
  simpa using this

theorem hOverIE_eq (κ δ : ℝ) (eta : ℂ) : hOverIE ⟨κ, -δ⟩ eta 0 = modeH κ δ eta := by
  funext i j
  have hz : (⟨κ, -δ⟩ : ℂ) = (κ : ℂ) - Complex.I * δ := by
    apply Complex.ext <;> simp
  unfold hOverIE modeH
  rw [hz]
  simp only [mainDiagonal, kerrDiagonal, nOp]
  by_cases h : (κ : ℂ) - Complex.I * δ = 0
  · simp [h]
  · simp only [ne_eq, h, not_false_eq_true, if_true]
    split_ifs <;> simp <;> ring

theorem kerrE_zero : kerrE 0 = fun _ _ => 0 := by
  funext i j; simp [kerrE, kerrDiagonal]

theorem hOverIE_add (zSch zI eta : ℂ) (i j : ℕ) : hOverIE zSch eta 0 i j - (if i = j then (i : ℂ) * zI else 0) = hOverIE (zSch + zI) eta 0 i j := by
  unfold hOverIE
  simp only [mainDiagonal, kerrDiagonal]
  by_cases h : i = j
  · simp only [h, if_true]
    split_ifs with h1 h2 h2
    · simp; ring
    · simp only [ne_eq, not_not] at h2; rw [eq_neg_of_add_eq_zero_right h2]; simp
    · simp only [ne_eq, not_not] at h1; simp [h1]; ring
    · simp only [ne_eq, not_not] at h1 h2; simp only [h1, zero_add] at h2; simp [h2]
  · simp [h]

/-- The decay of the amplitude. -/
theorem decay_eq (p : Pars) : finiteTemperatureHamiltonianDecay (decide (p.nTh ≠ 0)) p = p.kappa * (2 * p.nTh + 1) := by
  unfold finiteTemperatureHamiltonianDecay
  by_cases h : p.nTh = 0 <;> simp [h]

theorem noLi (d : ℕ) (n : ℝ) (ha : Option (ℝ → Vec → Vec → ℝ → Vec)) (ex : Option (ℝ → ℕ → ℂ)) (b : Bool) : LiIs ⟨d, ha, ex, b, none⟩ (modeJ 0 n) := by
  unfold LiIs modeJ; simp

/-- A class in the given picture simulates `H`, `J`; the unitary and Schrödinger-picture ones can be used in the Master equation. -/
def Simulates (p : Pars) (qmp : Picture) (o : Outcome Element) (H : Dens) (J : List Dens) : Prop :=
  ∃ e, o = .ok e ∧ e.dim = p.cutoff ∧ (qmp ≠ .ip → e.exApplicable = true) ∧ Generates e H J

theorem makeFree_simulates (p : Pars) (hd : p.cutoff < 2 ^ 63) (h0 : 0 < p.cutoff) (hK : p.omegaKerr = 0) (hA : p.omegaKerrAlter = 0) (n : ℝ) (qmp : Picture) :
    Simulates p qmp (makeFree p qmp) (modeH 0 p.delta 0) (modeJ 0 n) := by
  have hx : Simulates p .uip (elementExact p ⟨0, -p.delta⟩ none) (modeH 0 p.delta 0) (modeJ 0 n) := by
    obtain ⟨e, h1, h2, h3, h4⟩ := elementExact_generates (p := p) (J := modeJ 0 n) (li := none) ⟨0, -p.delta⟩ (fun h => phase _ _ h 0 n) (fun _ _ _ => noLi _ n _ _ _)
    refine ⟨e, h1, h2, fun _ => h3.2 rfl, ?_⟩
    have : modeH 0 p.delta 0 = fun (i j : ℕ) => -(if i = j then (i : ℂ) * ⟨0, -p.delta⟩ else 0) := by
      rw [← hOverIE_eq]
      funext i j
      have := hOverIE_add 0 ⟨0, -p.delta⟩ 0 i j
      rw [zero_add] at this
      rw [← this, hOverIE_zero]; simp
    rw [this]; exact h4
  cases qmp with
  | ip => obtain ⟨e, h1, h2, h3, h4⟩ := hx; exact ⟨e, h1, h2, fun h => absurd rfl h, h4⟩
  | uip => exact hx
  | sch =>
    obtain ⟨e, h1, h2, h3, h4⟩ := elementSch_generates (p := p) (J := modeJ 0 n) (li := none) hd h0 ⟨0, -p.delta⟩ 0 (fun _ _ _ => noLi _ n _ _ _)
    refine ⟨e, h1, h2, fun _ => h3, ?_⟩
    rw [hK, hA, hOverIE_eq, kerrE_zero] at h4
    simpa using h4

theorem makeLossy_simulates (p : Pars) (hd : p.cutoff < 2 ^ 63) (h0 : 0 < p.cutoff) (hκ : 0 ≤ p.kappa) (hn : 0 ≤ p.nTh) (hK : p.omegaKerr = 0) (hA : p.omegaKerrAlter = 0) (qmp : Picture) :
    Simulates p qmp (makeLossy p qmp) (modeH (p.kappa * (2 * p.nTh + 1)) p.delta 0) (modeJ p.kappa p.nTh) := by
  unfold makeLossy
  by_cases h : p.kappa = 0
  · rw [if_pos h, h, zero_mul]; exact makeFree_simulates p hd h0 hK hA _ qmp
  · rw [if_neg h]
    have hκ' : 0 < p.kappa := lt_of_le_of_ne hκ (Ne.symm h)
    cases qmp with
    | ip =>
      obtain ⟨e, h1, h2, h3, h4⟩ := elementExact_generates (p := p) (J := modeJ p.kappa p.nTh) ⟨p.kappa * (2 * p.nTh + 1), -p.delta⟩ (fun h => phase _ _ h _ _)
        (fun ha ex b => liouvillean_is p hκ' hn ha ex b)
      refine ⟨e, by rw [← h1]; unfold lossyMode; simp only [decay_eq], h2, fun h => absurd rfl h, ?_⟩
      have : modeH (p.kappa * (2 * p.nTh + 1)) p.delta 0 = fun (i j : ℕ) => -(if i = j then (i : ℂ) * ⟨p.kappa * (2 * p.nTh + 1), -p.delta⟩ else 0) := by
        rw [← hOverIE_eq]
        funext i j
        have := hOverIE_add 0 ⟨p.kappa * (2 * p.nTh + 1), -p.delta⟩ 0 i j
        rw [zero_add] at this
        rw [← this, hOverIE_zero]; simp
      rw [this]; exact h4
    | uip =>
      obtain ⟨e, h1, h2, h3, h4⟩ := elementIP_generates (p := p) (J := modeJ p.kappa p.nTh) hd h0 hK ⟨p.kappa * (2 * p.nTh + 1), 0⟩ ⟨0, -p.delta⟩ 0 (fun h => phase _ _ h _ _)
        (fun ha ex b => liouvillean_is p hκ' hn ha ex b)
      refine ⟨e, by rw [← h1]; unfold lossyMode; simp only [decay_eq], h2, fun _ => h3.2 rfl, ?_⟩
      rw [hA, kerrE_zero] at h4
      simp only [add_zero, hOverIE_add] at h4
      rw [← hOverIE_eq]
      convert h4 using 2
      apply Complex.ext <;> simp
    | sch =>
      obtain ⟨e, h1, h2, h3, h4⟩ := elementSch_generates (p := p) (J := modeJ p.kappa p.nTh) hd h0 ⟨p.kappa * (2 * p.nTh + 1), -p.delta⟩ 0
        (fun ha ex b => liouvillean_is p hκ' hn ha ex b)
      refine ⟨e, by rw [← h1]; unfold lossyMode; simp only [decay_eq], h2, fun _ => h3, ?_⟩
      rw [hK, hA, hOverIE_eq, kerrE_zero] at h4
      simpa using h4

theorem makePumped_simulates (p : Pars) (hd : p.cutoff < 2 ^ 63) (h0 : 0 < p.cutoff) (hK : p.omegaKerr = 0) (hA : p.omegaKerrAlter = 0) (n : ℝ) (qmp : Picture) :
    Simulates p qmp (makePumped p qmp) (modeH 0 p.delta p.eta) (modeJ 0 n) := by
  unfold makePumped
  by_cases h : p.eta = 0
  · rw [if_pos h, h]; exact makeFree_simulates p hd h0 hK hA n qmp
  · rw [if_neg h]
    have hx : Simulates p .uip (elementIP p 0 ⟨0, -p.delta⟩ p.eta none) (modeH 0 p.delta p.eta) (modeJ 0 n) := by
      obtain ⟨e, h1, h2, h3, h4⟩ := elementIP_generates (p := p) (J := modeJ 0 n) (li := none) hd h0 hK 0 ⟨0, -p.delta⟩ p.eta (fun h => phase _ _ h 0 n) (fun _ _ _ => noLi _ n _ _ _)
      refine ⟨e, h1, h2, fun _ => h3.2 rfl, ?_⟩
      rw [hA, kerrE_zero] at h4
      simp only [add_zero, hOverIE_add, zero_add] at h4
      rw [← hOverIE_eq]
      exact h4
    cases qmp with
    | ip => obtain ⟨e, h1, h2, h3, h4⟩ := hx; exact ⟨e, h1, h2, fun h => absurd rfl h, h4⟩
    | uip => exact hx
    | sch =>
      obtain ⟨e, h1, h2, h3, h4⟩ := elementSch_generates (p := p) (J := modeJ 0 n) (li := none) hd h0 ⟨0, -p.delta⟩ p.eta (fun _ _ _ => noLi _ n _ _ _)
      refine ⟨e, h1, h2, fun _ => h3, ?_⟩
      rw [hK, hA, hOverIE_eq, kerrE_zero] at h4
      simpa using h4

/-- **C23.** Whatever the picture, the mode made from the given parameters simulates the dynamics with the same Hamiltonian and the same jumps (without Kerr nonlinearity, for that cf. C72). -/
theorem makePumpedLossy_simulates (p : Pars) (hd : p.cutoff < 2 ^ 63) (h0 : 0 < p.cutoff) (hκ : 0 ≤ p.kappa) (hn : 0 ≤ p.nTh) (hK : p.omegaKerr = 0) (hA : p.omegaKerrAlter = 0)
    (qmp : Picture) : Simulates p qmp (makePumpedLossy p qmp) (modeH (p.kappa * (2 * p.nTh + 1)) p.delta p.eta) (modeJ p.kappa p.nTh) := by
  unfold makePumpedLossy
  by_cases h : p.kappa = 0
  · rw [if_pos h, h, zero_mul]; exact makePumped_simulates p hd h0 hK hA _ qmp
  · rw [if_neg h]
    by_cases he : p.eta = 0
    · rw [if_pos he, he]; exact makeLossy_simulates p hd h0 hκ hn hK hA qmp
    · rw [if_neg he]
      have hκ' : 0 < p.kappa := lt_of_le_of_ne hκ (Ne.symm h)
      have hIP : ∀ zSch zI : ℂ, zSch + zI = ⟨p.kappa * (2 * p.nTh + 1), -p.delta⟩ → ∃ e, elementIP p zSch zI p.eta (some (liouvillean (decide (p.nTh ≠ 0)) p)) = .ok e ∧ e.dim = p.cutoff ∧
          (e.exApplicable = true ↔ zI.re = 0) ∧ Generates e (modeH (p.kappa * (2 * p.nTh + 1)) p.delta p.eta) (modeJ p.kappa p.nTh) := by
        intro zSch zI hz
        obtain ⟨e, h1, h2, h3, h4⟩ := elementIP_generates (p := p) (J := modeJ p.kappa p.nTh) hd h0 hK zSch zI p.eta (fun h => phase _ _ h _ _)
          (fun ha ex b => liouvillean_is p hκ' hn ha ex b)
        refine ⟨e, h1, h2, h3, ?_⟩
        rw [hA, kerrE_zero] at h4
        simp only [add_zero, hOverIE_add, hz] at h4
        rw [← hOverIE_eq]
        exact h4
      cases qmp with
      | ip =>
        obtain ⟨e, h1, h2, h3, h4⟩ := hIP 0 ⟨p.kappa * (2 * p.nTh + 1), -p.delta⟩ (by simp)
        exact ⟨e, by rw [← h1]; unfold pumpedLossyMode; simp only [decay_eq], h2, fun h => absurd rfl h, h4⟩
      | uip =>
        obtain ⟨e, h1, h2, h3, h4⟩ := hIP ⟨p.kappa * (2 * p.nTh + 1), 0⟩ ⟨0, -p.delta⟩ (by apply Complex.ext <;> simp)
        exact ⟨e, by rw [← h1]; unfold pumpedLossyMode; simp only [decay_eq], h2, fun _ => h3.2 rfl, h4⟩
      | sch =>
        obtain ⟨e, h1, h2, h3, h4⟩ := elementSch_generates (p := p) (J := modeJ p.kappa p.nTh) hd h0 ⟨p.kappa * (2 * p.nTh + 1), -p.delta⟩ p.eta
          (fun ha ex b => liouvillean_is p hκ' hn ha ex b)
        refine ⟨e, by rw [← h1]; unfold pumpedLossyMode; simp only [decay_eq], h2, fun _ => h3, ?_⟩
        rw [hK, hA, hOverIE_eq, kerrE_zero] at h4
        simpa using h4

/-- A pumped, lossy mode of finite temperature. -/
example : Simulates ⟨10, 1, 0, 0, 2, 1 / 2, Complex.I⟩ .uip (makePumpedLossy ⟨10, 1, 0, 0, 2, 1 / 2, Complex.I⟩ .uip) (modeH (2 * (2 * (1 / 2) + 1)) 1 Complex.I) (modeJ 2 (1 / 2)) :=
  makePumpedLossy_simulates ⟨10, 1, 0, 0, 2, 1 / 2, Complex.I⟩ (by norm_num) (by norm_num) (by norm_num) (by norm_num) rfl rfl .uip

end CppQED.ModeEl
