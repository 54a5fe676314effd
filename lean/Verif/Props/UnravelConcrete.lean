import Verif.Props.UnravelElements
import Verif.Props.CompositeTrace
import Verif.Props.InteractionsPhaseNoise
import Verif.Props.MultiLevel

/-! # Property C116: qbits, modes, and multilevel elements in Monte Carlo trajectories -/

namespace CppQED.Unravel
open Matrix Elem Spec Interactions

/-- The rate of an element with a single jump. -/
theorem ratesAre_single {e : Element} {l : Liouvillean} {r : LDO → ℝ} {J : Dens} (hl : e.li = some l) (hr : ∀ m, l.rates m = [r m]) (h : IsRate e.dim r (mat e.dim J)) : RatesAre e [J] := by
  intro l' hl' psi
  rw [hl, Option.some.injEq] at hl'
  subst hl'
  rw [hr]
  refine ⟨rfl, fun _ i x hx => ?_⟩
  match i with
  | 0 =>
    simp only [List.getElem?_cons_zero, Option.some.injEq] at hx
    right
    rw [← hx, h.2 psi]
    rfl
  | i + 1 => simp at hx

theorem mainDiagonal_re (z : ℂ) (hz : 0 ≤ z.re) (i : ℕ) : 0 ≤ (ModeEl.mainDiagonal z 0 i).re := by
  simp [ModeEl.mainDiagonal, ModeEl.kerrDiagonal]
  positivity

theorem qbitPtr_re (p : QbitEl.Pars) (hγ : 0 ≤ p.gamma) (qmp : ModeEl.Picture) (i : ℕ) : 0 ≤ ((qbitPtr p qmp).w i).re := by
  cases qmp with
  | ip => exact mainDiagonal_re _ hγ i
  | uip => exact mainDiagonal_re _ le_rfl i
  | sch => exact le_rfl

theorem qbit_ready (p : QbitEl.Pars) (hγ : 0 < p.gamma) (qmp : ModeEl.Picture) : ∃ e, QbitEl.make p qmp = .ok e ∧ e.dim = 2 ∧ FreeIs e (qbitPtr p qmp).w (qbitH p.gamma p.delta p.eta) [sc (Real.sqrt (2 * p.gamma)) aOp] ∧
    e.li = some (QbitEl.liouvillean p.gamma) ∧ mat e.dim (sc (Real.sqrt (2 * p.gamma)) aOp) = mat e.dim (sc (Real.sqrt (2 * p.gamma)) sigma) ∧ RatesAre e [sc (Real.sqrt (2 * p.gamma)) aOp] := by
  obtain ⟨e, h1, h2, h3⟩ := qbit_free_jumps p hγ.le qmp
  have hJ : modeJ p.gamma 0 = [sc (Real.sqrt (2 * p.gamma)) aOp] := by simp [modeJ, hγ.ne']
  have hJ' : mat e.dim (sc (Real.sqrt (2 * p.gamma)) aOp) = mat e.dim (sc (Real.sqrt (2 * p.gamma)) sigma) := by
    rw [h2]
    ext i j; fin_cases i <;> fin_cases j <;> simp [mat_apply, sc, aOp, sigma]
  rw [hJ] at h3
  obtain ⟨f1, -⟩ := qbit_fields h1
  have f2 : e.li = some (QbitEl.liouvillean p.gamma) := by
    rcases f1 with f1 | f1
    · obtain ⟨_, -, -, hLi, -⟩ := h3
      unfold LiIs at hLi
      rw [f1] at hLi
      cases hLi
    · exact f1
  obtain ⟨r, r1, r2⟩ := QbitEl.liouvillean_rates p.gamma hγ.le
  exact ⟨e, h1, h2, h3, f2, hJ', ratesAre_single f2 r1 (by rw [hJ', h2]; exact r2)⟩

/-- **C116.** The lossy qbit, with or without pump, in any of the pictures. -/
theorem qbit_unravels.{v, w} (p : QbitEl.Pars) (hγ : 0 < p.gamma) (qmp : ModeEl.Picture) : ∃ e, QbitEl.make p qmp = .ok e ∧ e.dim = 2 ∧
    Unravels.{v, w} e.toSys e.mcwfRates (mat e.dim (qbitH p.gamma p.delta p.eta)) [mat e.dim (sc (Real.sqrt (2 * p.gamma)) sigma)] := by
  obtain ⟨e, h1, h2, h3, f2, hJ', hr⟩ := qbit_ready p hγ qmp
  refine ⟨e, h1, h2, ?_⟩
  have hJ : modeJ p.gamma 0 = [sc (Real.sqrt (2 * p.gamma)) aOp] := by simp [modeJ, hγ.ne']
  have hc := ModeEl.mode_conserving 2 (by norm_num) p.gamma hγ.le p.delta (-p.eta)
  rw [QbitEl.qbitH_eq, hJ, ← h2] at hc
  have := element_unravels.{v, w} h3 (fun i _ => qbitPtr_re p hγ.le qmp i) (by rw [f2]; rfl) hr 0 le_rfl (by simpa using hc)
  rw [List.map_cons, List.map_nil, hJ'] at this
  simpa only [Complex.ofReal_zero, zero_smul, sub_zero] using this

/-- **C116.** The lossy qbit with phase noise: it is correct in Monte Carlo trajectories, although the decay belonging to the phase noise is not in its Hamiltonian (because of which it would not conserve the trace in the Master
equation: C22). -/
theorem qbitPhaseNoise_unravels.{v, w} (p : QbitEl.Pars) (hγ : 0 ≤ p.gamma) (hp : 0 < p.gammaParallel) (qmp : ModeEl.Picture) : ∃ e, QbitEl.makePhaseNoise p qmp = .ok e ∧ e.dim = 2 ∧
    Unravels.{v, w} e.toSys e.mcwfRates (mat e.dim (qbitH p.gamma p.delta p.eta) - (p.gammaParallel : ℂ) • 1)
      [mat e.dim (sc (Real.sqrt (2 * p.gamma)) sigma), mat e.dim (sc (Real.sqrt (2 * p.gammaParallel)) sigmaZ)] := by
  obtain ⟨e, h1, h2, h3⟩ := qbit_free_phaseNoise_jumps p hp.ne' qmp
  refine ⟨e, h1, h2, ?_⟩
  have hJ : qbitJ p.gamma p.gammaParallel = [sc (Real.sqrt (2 * p.gamma)) sigma, sc (Real.sqrt (2 * p.gammaParallel)) sigmaZ] := by
    unfold qbitJ; rw [if_pos hp.ne']; rfl
  rw [hJ] at h3
  have f2 : e.li = some (QbitEl.liouvilleanPhaseNoise p.gamma p.gammaParallel) := by
    unfold QbitEl.makePhaseNoise at h1
    rw [if_pos hp.ne'] at h1
    split_ifs at h1
    · exact (elementIP_fields h1).1
    · exact (elementIP_fields h1).1
    · exact (elementIP_fields h1).1
    · exact (elementExact_fields h1).1
  have hr := (QbitEl.phaseNoise_jumps p.gamma p.gammaParallel).2.2
  have := element_unravels.{v, w} h3 (fun i _ => by rw [qbitPtrPhaseNoise_eq]; exact qbitPtr_re p hγ _ i) (by rw [f2]; rfl) ?_ p.gammaParallel hp.le ?_
  · simpa using this
  · intro l hl psi
    rw [f2, Option.some.injEq] at hl
    subst hl
    rw [hr]
    refine ⟨rfl, fun _ i x hx => Or.inl ?_⟩
    match i with
    | 0 => simp at hx; linarith
    | 1 => simp at hx; linarith
    | i + 2 => simp at hx
  · rw [h2]
    have hs : ∀ x : ℝ, 0 ≤ x → (Real.sqrt (2 * x) : ℂ) * (Real.sqrt (2 * x) : ℂ) = 2 * x := by
      intro x hx; rw [← Complex.ofReal_mul, Real.mul_self_sqrt (by linarith)]; push_cast; ring
    have hs1 := hs _ hγ
    have hs2 := hs _ hp.le
    generalize (Real.sqrt (2 * p.gamma)) = r at hs1
    generalize (Real.sqrt (2 * p.gammaParallel)) = r' at hs2
    unfold Conserving
    ext i j
    fin_cases i <;> fin_cases j <;>
      simp [Matrix.mul_apply, Fin.sum_univ_two, mat_apply, qbitH, excited, sigma, sigmaDag, sigmaZ, sc, Matrix.conjTranspose_apply, hs1, hs2] <;> ring

/-- **C116.** The lossy mode at zero temperature, with or without pump, in any of the pictures. -/
theorem mode_unravels.{v, w} (p : ModeEl.Pars) (hd : p.cutoff < 2 ^ 63) (h0 : 0 < p.cutoff) (hκ : 0 < p.kappa) (hn : p.nTh = 0) (hK : p.omegaKerr = 0) (hA : p.omegaKerrAlter = 0) (qmp : ModeEl.Picture) :
    ∃ e, ModeEl.makePumpedLossy p qmp = .ok e ∧ e.dim = p.cutoff ∧
      Unravels.{v, w} e.toSys e.mcwfRates (mat e.dim (modeH p.kappa p.delta p.eta)) [mat e.dim (sc (Real.sqrt (2 * p.kappa)) aOp)] := by
  obtain ⟨e, h1, h2, h3⟩ := mode_free p hd h0 hκ.le hn.symm.le hK hA qmp
  refine ⟨e, h1, h2, ?_⟩
  have hJ : modeJ p.kappa 0 = [sc (Real.sqrt (2 * p.kappa)) aOp] := by simp [modeJ, hκ.ne']
  rw [hn, hJ] at h3
  have hk : p.kappa * (2 * 0 + 1) = p.kappa := by ring
  rw [hk] at h3
  obtain ⟨f1, -⟩ := makePumpedLossy_fields h1
  obtain ⟨_, -, -, hLi, -⟩ := id h3
  unfold LiIs at hLi
  obtain ⟨b, f2⟩ : ∃ b, e.li = some (ModeEl.liouvillean b p) := by
    rcases f1 with f1 | f1
    · rw [f1] at hLi
      cases hLi
    · exact f1
  have hb : b = false := by
    rw [f2] at hLi
    cases b with
    | false => rfl
    | true => simp [ModeEl.liouvillean, ModeEl.liouvilleanFiniteT, elementLiouvillean] at hLi
  subst hb
  obtain ⟨r, r1, r2⟩ := (ModeEl.liouvillean_rates p.kappa 0 hκ.le le_rfl p.cutoff).1
  have hc := ModeEl.mode_conserving p.cutoff h0 p.kappa hκ.le p.delta p.eta
  rw [hJ, ← h2] at hc
  have hre : ∀ i, 0 ≤ ((modePtr p qmp).w i).re := by
    intro i
    cases qmp with
    | ip =>
      simp only [modePtr, ModePtr.w, hK]
      refine mainDiagonal_re _ ?_ i
      simp only [if_neg hκ.ne', hn, ModeEl.finiteTemperatureHamiltonianDecay]
      simpa using hκ.le
    | uip => simp only [modePtr, ModePtr.w, hK]; exact mainDiagonal_re _ le_rfl i
    | sch => exact le_rfl
  have := element_unravels.{v, w} h3 (fun i _ => hre i) (by rw [f2]; rfl) (ratesAre_single f2 (by unfold ModeEl.liouvillean; exact r1) (by rw [h2]; exact r2)) 0 le_rfl (by simpa using hc)
  simpa using this

/-- Monte Carlo trajectories do not use the superoperators. -/
theorem Unravels.of_jumps.{v, w} {d : ℕ} {ha : Option (ℝ → Vec → Vec → ℝ → Vec)} {ex : Option (ℝ → ℕ → ℂ)} {b : Bool} {l : Liouvillean} {A : Matrix (Fin d) (Fin d) ℂ} {J : List (Matrix (Fin d) (Fin d) ℂ)}
    (h : Unravels.{v, w} (n := d) (⟨d, ha, ex, b, some { l with actWithSuperoperator := fun _ _ _ => .error .superoperatorNotImplemented }⟩ : Element).toSys
      (⟨d, ha, ex, b, some { l with actWithSuperoperator := fun _ _ _ => .error .superoperatorNotImplemented }⟩ : Element).mcwfRates A J) :
    Unravels.{v, w} (n := d) (⟨d, ha, ex, b, some l⟩ : Element).toSys (⟨d, ha, ex, b, some l⟩ : Element).mcwfRates A J :=
  ⟨h.mean, h.attained, h.normalised⟩

/-- The phase flip of level `l`. -/
def flipDens (l : ℕ) : Dens := fun i j => if i = j then (if i = l then -1 else 1) else 0

/-- **C116.** The multilevel system with decays. -/
theorem multiLevel_unravels.{v, w} (p : MultiEl.Pars) (hs : p.Sane) (hγ : ∀ g ∈ p.gammas, 0 ≤ g.gamma) :
    Unravels.{v, w} (MultiEl.make p 0).toSys (MultiEl.make p 0).mcwfRates (mat (MultiEl.make p 0).dim p.H) (p.J.map (mat (MultiEl.make p 0).dim)) := by
  have hm : MultiEl.make p 0 = MultiEl.pumpedLossySch p := by unfold MultiEl.make; simp
  rw [hm]
  have hF : FreeIs (MultiEl.pumpedLossySch p) (fun _ => 0) p.H p.J := by
    refine ⟨p.H, ?_, fun _ _ => rfl, MultiEl.radiative_is p hs hγ _ _ _, fun i _ j _ => by simp⟩
    intro t psi dpsidt t0
    rw [ip_zero]
    exact MultiEl.addContribution_eq p hs psi dpsidt
  have := element_unravels.{v, w} hF (fun _ _ => le_rfl) rfl ?_ 0 le_rfl (by
    rw [Complex.ofReal_zero, zero_smul, sub_zero]
    exact MultiEl.multiLevel_conserving p hs hγ)
  · rwa [Complex.ofReal_zero, zero_smul, sub_zero] at this
  · intro l hl psi
    cases hl
    refine ⟨by simp [MultiEl.radiative, elementLiouvillean, MultiEl.Pars.J], fun _ i x hx => Or.inr ?_⟩
    obtain ⟨g, hg, hx⟩ : ∃ g, p.gammas[i]? = some g ∧ (MultiEl.decay g).rate (LDO.ofSV p.nl psi) = x := by simpa [MultiEl.radiative, elementLiouvillean, MultiEl.pumpedLossySch] using hx
    have hmem := List.mem_of_getElem? hg
    have h1 := (MultiEl.decay_eq p.nl g (hs.gammas g hmem).1 (hs.gammas g hmem).2.1 (hγ g hmem)).2.2.2 psi
    have h2 : p.J.getD i 0 = sc (Real.sqrt (2 * g.gamma)) (transition g.first g.second) := by
      simp [MultiEl.Pars.J, hg]
    rw [← hx, h1, h2]
    rfl

/-- **C116.** The multilevel system with decays and phase diffusion: correct in Monte Carlo trajectories with a rate of its own for each of the levels, although its superoperator is not (C71). -/
theorem multiLevelDiffusive_unravels.{v, w} (p : MultiEl.Pars) (hs : p.Sane) (hγ : ∀ g ∈ p.gammas, 0 ≤ g.gamma) (D : List ℝ) (hD : ∀ x ∈ D, 0 ≤ x) :
    Unravels.{v, w} (n := p.nl) (MultiEl.pumpedLossyDiffusiveSch p D).toSys (MultiEl.pumpedLossyDiffusiveSch p D).mcwfRates
      (mat p.nl p.H - ((∑ i ∈ Finset.range p.nl, D.getD i 0 : ℝ) : ℂ) • 1)
      (p.J.map (mat p.nl) ++ (List.range p.nl).map fun i => mat p.nl (sc (Real.sqrt (2 * D.getD i 0)) (flipDens i))) := by
  have hD' : ∀ i, 0 ≤ D.getD i 0 := by
    intro i
    rw [List.getD_eq_getElem?_getD]
    cases h : D[i]? with
    | none => exact le_rfl
    | some x => exact hD x (List.mem_of_getElem? h)
  set l := diffusive p.nl p.nl D (MultiEl.radiative p.gammas) with hl
  have hflip : ∀ i, mat p.nl (flipDens i) = Elem.flip p.nl i := by
    intro i; ext a b
    simp [mat_apply, flipDens, Elem.flip, Matrix.diagonal_apply, Fin.ext_iff]
  have hlen : (MultiEl.radiative p.gammas).labels.length = p.gammas.length := by simp [MultiEl.radiative, elementLiouvillean]
  have hJl : p.J.length = p.gammas.length := by simp [MultiEl.Pars.J]
  refine Unravels.of_jumps ?_
  set e : Element := ⟨p.nl, some fun _ psi dpsidt _ => MultiEl.addContribution p psi dpsidt, none, true, some { l with actWithSuperoperator := fun _ _ _ => .error .superoperatorNotImplemented }⟩ with he
  set J : List Dens := p.J ++ (List.range p.nl).map fun i => sc (Real.sqrt (2 * D.getD i 0)) (flipDens i) with hJ
  have hJm : J.map (mat p.nl) = p.J.map (mat p.nl) ++ (List.range p.nl).map fun i => mat p.nl (sc (Real.sqrt (2 * D.getD i 0)) (flipDens i)) := by simp [hJ]
  have hJ1 : ∀ i < p.J.length, J.getD i 0 = p.J.getD i 0 := by
    intro i hi
    simp [hJ, List.getElem?_append_left hi]
  have hJ2 : ∀ i < p.nl, J.getD (p.J.length + i) 0 = sc (Real.sqrt (2 * D.getD i 0)) (flipDens i) := by
    intro i hi
    simp [hJ, hi]
  have hF : FreeIs e (fun _ => 0) p.H J := by
    refine ⟨p.H, ?_, fun _ _ => rfl, ?_, fun i _ j _ => by simp⟩
    · intro t psi dpsidt t0
      rw [ip_zero]
      exact MultiEl.addContribution_eq p hs psi dpsidt
    · refine ⟨by simp [hl, diffusive, hlen, hJ, hJl], fun i hi => ⟨fun psi => ?_, fun _ _ _ h => by simp at h⟩⟩
      by_cases h : i < p.J.length
      · rw [hJ1 i h]
        have h1 := MultiEl.radiative_is p hs hγ none none true
        obtain ⟨psi', h2, h3⟩ := (h1.2 i h).1 psi
        refine ⟨psi', ?_, h3⟩
        rw [← h2]
        have := diffusive_dispatch p.nl p.nl D (MultiEl.radiative p.gammas) i psi (fun _ _ => 0) (fun _ _ => 0) (LDO.ofSV 0 fun _ => 0)
        exact (this.2.2.1 rfl (by rw [hlen, ← hJl]; exact h)).1
      · obtain ⟨k, rfl⟩ := Nat.exists_eq_add_of_le (not_lt.1 h)
        have hk : k < p.nl := by simpa [hJ] using hi
        rw [hJ2 k hk]
        obtain ⟨psi', h2, h3⟩ := diffusive_jump p.nl D (MultiEl.radiative p.gammas) k psi
        refine ⟨psi', by rw [hJl, ← hlen]; exact h2, ?_⟩
        rw [h3, ModeEl.mat_sc, hflip]
  have := element_unravels.{v, w} hF (fun _ _ => le_rfl) rfl ?_ (∑ i ∈ Finset.range p.nl, D.getD i 0) (Finset.sum_nonneg fun i _ => hD' i) ?_
  · rw [← hJm]
    exact this
  · intro l' hl' psi
    cases hl'
    have hrates : l.rates (LDO.ofSV p.nl psi) = (p.gammas.map fun g => (MultiEl.decay g).rate (LDO.ofSV p.nl psi)) ++ List.replicate p.nl (-1) := by
      simp [hl, diffusive, MultiEl.radiative, elementLiouvillean]
    have hrates' : { l with actWithSuperoperator := fun _ _ _ => .error .superoperatorNotImplemented : Liouvillean }.rates (LDO.ofSV e.dim psi) = l.rates (LDO.ofSV p.nl psi) := rfl
    rw [hrates', hrates]
    refine ⟨by simp [hJ, hJl], fun _ i x hx => ?_⟩
    by_cases h : i < p.gammas.length
    · rw [List.getElem?_append_left (by simpa using h)] at hx
      obtain ⟨g, hg, hx⟩ : ∃ g, p.gammas[i]? = some g ∧ (MultiEl.decay g).rate (LDO.ofSV p.nl psi) = x := by simpa using hx
      have hmem := List.mem_of_getElem? hg
      have h1 := (MultiEl.decay_eq p.nl g (hs.gammas g hmem).1 (hs.gammas g hmem).2.1 (hγ g hmem)).2.2.2 psi
      have h2 : J.getD i 0 = sc (Real.sqrt (2 * g.gamma)) (transition g.first g.second) := by
        rw [hJ1 i (by rw [hJl]; exact h)]
        simp [MultiEl.Pars.J, hg]
      right
      rw [← hx, h1, h2]
    · left
      rw [List.getElem?_append_right (by simpa using h)] at hx
      rw [List.getElem?_replicate] at hx
      split_ifs at hx
      have := Option.some.inj hx
      linarith
  · change Conserving (mat p.nl p.H - _) (J.map (mat p.nl))
    rw [hJm]
    have hc := MultiEl.multiLevel_conserving p hs hγ
    unfold Conserving at hc ⊢
    have hsum : ∀ m, (((List.range m).map fun i => mat p.nl (sc (Real.sqrt (2 * D.getD i 0)) (flipDens i))).map fun j => jᴴ * j).sum = ((2 * ∑ i ∈ Finset.range m, D.getD i 0 : ℝ) : ℂ) • 1 := by
      intro m
      induction m with
      | zero => simp
      | succ m ih =>
        rw [List.range_succ, List.map_append, List.map_append, List.sum_append, ih, Finset.sum_range_succ]
        simp only [List.map_cons, List.map_nil, List.sum_cons, List.sum_nil, add_zero]
        rw [ModeEl.mat_sc, hflip, Matrix.conjTranspose_smul, Matrix.smul_mul, Matrix.mul_smul, smul_smul, Complex.star_def, Complex.conj_ofReal, ← Complex.ofReal_mul, Real.mul_self_sqrt (by linarith [hD' m])]
        have : (Elem.flip p.nl m)ᴴ * Elem.flip p.nl m = 1 := by
          unfold Elem.flip
          rw [Matrix.diagonal_conjTranspose, Matrix.diagonal_mul_diagonal]
          ext a b
          by_cases h : a = b
          · subst h
            simp only [Matrix.diagonal_apply_eq, Matrix.one_apply_eq, Pi.star_apply]
            split_ifs <;> simp
          · rw [Matrix.diagonal_apply_ne _ h, Matrix.one_apply_ne h]
        rw [this, ← add_smul]
        congr 1
        push_cast; ring
    rw [List.map_append, List.sum_append, hsum, Matrix.conjTranspose_sub, Matrix.conjTranspose_smul, Matrix.conjTranspose_one, Complex.star_def, Complex.conj_ofReal, neg_add, ← hc]
    have : ((2 * ∑ i ∈ Finset.range p.nl, D.getD i 0 : ℝ) : ℂ) • (1 : Matrix (Fin p.nl) (Fin p.nl) ℂ) =
        ((∑ i ∈ Finset.range p.nl, D.getD i 0 : ℝ) : ℂ) • 1 + ((∑ i ∈ Finset.range p.nl, D.getD i 0 : ℝ) : ℂ) • 1 := by
      rw [← add_smul]; congr 1; push_cast; ring
    rw [this]
    abel

end CppQED.Unravel
