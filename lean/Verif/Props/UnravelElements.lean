import Verif.Lemmas.EnsembleRate
import Verif.Lemmas.UnravelPicture
import Verif.Lemmas.UnravelFinish
import Verif.Lemmas.UnravelExists
import Verif.Lemmas.Interactions
import Verif.Props.Unravelling

/-! # Property C116: the elements of the framework in Monte Carlo trajectories -/

namespace CppQED.Unravel
open MeasureTheory ProbabilityTheory Matrix MCWF Filter
open scoped ComplexConjugate Topology

/-- The rates are consistent with the jump operators `J`: one for each, and for normalised states, each is either the square of the norm of the jumped state, or negative (in which case the trajectory calculates it
from the jumped state). -/
def RatesOf {n : ℕ} (nJ : ℕ) (J : ℕ → Matrix (Fin n) (Fin n) ℂ) (rates : ℝ → (Fin n → ℂ) → List ℝ) : Prop :=
  ∀ t psi, (rates t psi).length = nJ ∧ (MCWF.norm psi = 1 → ∀ (i : ℕ) (r : ℝ), (rates t psi)[i]? = some r → r < 0 ∨ r = MCWF.norm (J i *ᵥ psi) ^ 2)

/-- The norm of the jumped states is bounded. -/
theorem jump_bound {n : ℕ} (J : Matrix (Fin n) (Fin n) ℂ) : ∃ Γ, 0 ≤ Γ ∧ ∀ psi, MCWF.norm psi = 1 → MCWF.norm (J *ᵥ psi) ^ 2 ≤ Γ := by
  refine ⟨∑ i, (∑ j, ‖J i j‖) ^ 2, by positivity, fun psi hpsi => ?_⟩
  rw [MCWF.norm_sq]
  refine Finset.sum_le_sum fun i _ => ?_
  rw [Complex.normSq_eq_norm_sq]
  refine pow_le_pow_left₀ (_root_.norm_nonneg _) ?_ 2
  change ‖∑ j, J i j * psi j‖ ≤ _
  refine (norm_sum_le _ _).trans (Finset.sum_le_sum fun j _ => ?_)
  rw [norm_mul]
  exact mul_le_of_le_one_right (_root_.norm_nonneg _) (norm_apply_le psi hpsi j)

theorem toMCWF_consistent {n : ℕ} {κ : Type*} (S : Master.Sys n) (G U : ℝ → ℝ → Matrix (Fin n) (Fin n) ℂ) (nJ : ℕ) (J : ℕ → Matrix (Fin n) (Fin n) ℂ) (lin : Master.Linear S G U nJ fun _ => J)
    (make : (ℝ → (Fin n → ℂ) → Fin n → ℂ) → ODE.Stepper (Fin n → ℂ) κ) (rates : ℝ → (Fin n → ℂ) → List ℝ) (hr : RatesOf nJ J rates) (l : Li (Fin n)) (hl : (S.toMCWF make rates).li = some l) :
    Consistent l ∧ l.rates = rates ∧ ∀ i < nJ, ∀ t psi, l.actWithJ t psi i = J i *ᵥ psi := by
  unfold Master.Sys.toMCWF at hl
  obtain ⟨m, hm, rfl⟩ := Option.map_eq_some_iff.1 hl
  refine ⟨fun t psi hpsi i r h h0 => ?_, rfl, fun i hi t psi => (lin.jumps m hm).2 i hi t psi⟩
  obtain ⟨h1, h2⟩ := hr t psi
  have hi : i < nJ := by
    rw [← h1]
    exact (List.getElem?_eq_some_iff.1 h).1
  simp only
  rw [(lin.jumps m hm).2 i hi t psi]
  rcases h2 hpsi i r h with h3 | h3
  · exact absurd h3 (not_lt.2 h0)
  · exact h3.symm

/-- The total rate is bounded. -/
theorem total_bound {n : ℕ} (nJ : ℕ) (J : ℕ → Matrix (Fin n) (Fin n) ℂ) : ∃ Γ, 0 ≤ Γ ∧ ∀ l : Li (Fin n), Consistent l → RatesOf nJ J l.rates → (∀ i < nJ, ∀ t psi, l.actWithJ t psi i = J i *ᵥ psi) →
    ∀ t psi, MCWF.norm psi = 1 → total (effectiveRates l t psi) ≤ Γ := by
  choose Γ h0 hΓ using fun i => jump_bound (J i)
  refine ⟨∑ i ∈ Finset.range nJ, Γ i, Finset.sum_nonneg fun i _ => h0 i, fun l hc hr hJ t psi hpsi => ?_⟩
  rw [total_eq_sum]
  have hlen : (effectiveRates l t psi).length = nJ := by rw [length_effectiveRates]; exact (hr t psi).1
  rw [← Fin.sum_univ_getElem, Finset.sum_fin_eq_sum_range]
  have hrange : Finset.range nJ = Finset.range (effectiveRates l t psi).length := by rw [hlen]
  rw [hrange]
  refine Finset.sum_le_sum fun i hi => ?_
  have hi' : i < nJ := by rw [← hlen]; exact Finset.mem_range.1 hi
  rw [dif_pos (Finset.mem_range.1 hi)]
  change (effectiveRates l t psi)[i] ≤ _
  have h1 := effectiveRates_consistent l hc t psi hpsi i (by rw [(hr t psi).1]; exact hi')
  rw [List.getElem?_eq_getElem (by rw [hlen]; exact hi'), Option.some.injEq, hJ i hi'] at h1
  rw [h1]
  exact hΓ i psi hpsi

theorem toMCWF_wellBehaved {n : ℕ} {κ : Type*} (S : Master.Sys n) (G U : ℝ → ℝ → Matrix (Fin n) (Fin n) ℂ) (nJ : ℕ) (J : ℕ → Matrix (Fin n) (Fin n) ℂ) (lin : Master.Linear S G U nJ fun _ => J) (W : Fin n → ℂ)
    (hU : ∀ t t0, U t t0 = Matrix.diagonal fun i => Complex.exp (-(W i * (t - t0 : ℝ))))
    (make : (ℝ → (Fin n → ℂ) → Fin n → ℂ) → ODE.Stepper (Fin n → ℂ) κ) (rates : ℝ → (Fin n → ℂ) → List ℝ) (hr : RatesOf nJ J rates)
    (hst : S.ha.isSome → ∀ t0, ODE.Controlled (make (S.rhs t0)) ∧ ∀ k s t d, s ≠ 0 → (make (S.rhs t0) k s t d).1.success = true → (make (S.rhs t0) k s t d).1.state ≠ 0) : WellBehaved (S.toMCWF make rates) := by
  refine ⟨fun ha h t0 => ?_, fun ha h t0 => ?_, fun u h t psi t0 hpsi => ?_, fun l h => (toMCWF_consistent S G U nJ J lin make rates hr l h).1⟩
  · obtain ⟨f, hf, rfl⟩ := Option.map_eq_some_iff.1 h
    exact (hst (by simp [hf]) t0).1
  · obtain ⟨f, hf, rfl⟩ := Option.map_eq_some_iff.1 h
    exact (hst (by simp [hf]) t0).2
  · rw [lin.ex u h, hU]
    intro h0
    refine hpsi (funext fun i => ?_)
    have := congrFun h0 i
    rw [Matrix.mulVec_diagonal] at this
    simpa [Complex.exp_ne_zero] using this

/-- For such systems, there is an exact stepper, with which the trajectories arrive. -/
theorem picture_attained.{v} {n : ℕ} (S : Master.Sys n) (W : Fin n → ℂ) (V : Matrix (Fin n) (Fin n) ℂ) (nJ : ℕ) (J : ℕ → Matrix (Fin n) (Fin n) ℂ) (hP : Pictured S W V nJ J) (hli : S.li.isSome)
    (rates : ℝ → (Fin n → ℂ) → List ℝ) (hr : RatesOf nJ J rates) : Attained.{v} S rates := by
  obtain ⟨G, U, lin, hU', hG⟩ := hP
  obtain ⟨Γ, hΓ0, hΓ⟩ := total_bound nJ J
  have hrhs : ∀ t0 t psi, S.rhs t0 t psi = G t t0 *ᵥ psi := by
    intro t0 t psi
    unfold Master.Sys.rhs
    cases hx : S.ha with
    | none => simp [lin.ha_none hx]
    | some f => simp [lin.ha f hx]
  have hgood := makeFlow_good.{v} S W V G hrhs (fun t t0 => by rw [← hU']; exact hG t t0)
  refine ⟨Γ, PUnit, makeFlow S W (V - Matrix.diagonal W), hΓ0, ⟨PUnit.unit⟩, fun _ => hgood, ?_⟩
  intro L Dt T hDt hDt1 hdp htol hΓD psi ces dtInit hpsi hdt fuel m k hfuel hk s hs
  obtain ⟨l, hl⟩ : ∃ l, (S.toMCWF (makeFlow S W (V - Matrix.diagonal W)) rates).li = some l := by
    obtain ⟨l, hl⟩ := Option.isSome_iff_exists.1 hli
    exact ⟨⟨rates, l.actWithJ⟩, by simp [Master.Sys.toMCWF, hl]⟩
  obtain ⟨q1, q2, q3⟩ := toMCWF_consistent S G U nJ J lin _ rates hr l hl
  have hwell := toMCWF_wellBehaved S G U nJ J lin W hU' _ rates hr fun _ t0 => ⟨(hgood t0).controlled, (hgood t0).nonzero⟩
  have hbound := hΓ l q1 (by rw [q2]; exact hr) q3
  obtain ⟨hinv, -, ht, -⟩ := construct_inv (S.toMCWF (makeFlow S W (V - Matrix.diagonal W)) rates) L hdp htol psi hpsi ces dtInit (hDt.trans_le hdt)
  refine runTo_ready _ hwell l hl L hdp htol Γ Dt T hbound hDt hΓD (fun ha h t0 k s t d hd => ?_) s hs fuel m (fun _ => hfuel) k _ hinv
    (construct_ready _ l hl L hdp htol Γ Dt hbound hDt hΓD psi hpsi ces dtInit fun _ => hdt) (by rw [ht, zero_add]; exact hk)
  obtain ⟨f, hf, rfl⟩ := Option.map_eq_some_iff.1 h
  exact ⟨rfl, by simp only [makeFlow, flowStepper, if_pos hd]; exact hDt1⟩

/-- **C116.** A linear system in an interaction picture with non-growing frequencies: with an accurate stepper, the average over the trajectories solves the Master equation. A uniform decay `g` may be missing
from the simulated Hamiltonian. -/
theorem picture_unravels.{v, w} {n : ℕ} (S : Master.Sys n) (W : Fin n → ℂ) (V : Matrix (Fin n) (Fin n) ℂ) (nJ : ℕ) (J : ℕ → Matrix (Fin n) (Fin n) ℂ) (hP : Pictured S W V nJ J)
    (hW : ∀ i, 0 ≤ (W i).re) (hli : S.li.isSome) (g : ℝ) (hg : 0 ≤ g) (hC : Spec.Conserving (V - Matrix.diagonal W - (g : ℂ) • 1) ((List.range nJ).map J)) (rates : ℝ → (Fin n → ℂ) → List ℝ)
    (hr : RatesOf nJ J rates) : Unravels.{v, w} S rates (V - Matrix.diagonal W - (g : ℂ) • 1) ((List.range nJ).map J) := by
  refine ⟨?_, picture_attained S W V nJ J hP hli rates hr, ?_⟩
  rotate_left
  · intro κ make L ε Dt T hst hDt hdp htol hT psi ces dtInit hpsi hdt fuel m N k s hs x hx
    obtain ⟨G, U, lin, hU', hG⟩ := hP
    have hwell := toMCWF_wellBehaved S G U nJ J lin W hU' make rates hr fun h t0 => ⟨(hst h t0).controlled, (hst h t0).nonzero⟩
    obtain ⟨hinv, -, ht, -⟩ := construct_inv (S.toMCWF make rates) L hdp htol psi hpsi ces dtInit hdt
    obtain ⟨h1, h2⟩ := runTo_arrives _ hwell L hdp htol s (fun k => (hs k).1) fuel m N T Dt hDt k _ x hinv (by rw [ht]; exact hT) hx
    exact ⟨h2, h1.norm_one⟩
  intro T hT
  obtain ⟨c, hc, hfol⟩ := picture_follows.{v} S W V nJ J hP hW hli g hg
  obtain ⟨C, hC0, hmain⟩ := unravelling.{0, v, w} (V - Matrix.diagonal W - (g : ℂ) • 1) ((List.range nJ).map J) hC c T hc hT
  obtain ⟨Γ, hΓ0, hΓ⟩ := total_bound nJ J
  refine ⟨C, Γ, hC0, hΓ0, ?_⟩
  intro κ Ω _ μ _ sample hU make L ε Dt hst hε hε1 hDt hDt1 hdp htol hprob hno psi ces dtInit hpsi hdt fuel m N k hfin ρ hρ hρ0
  obtain ⟨G, U, lin, hU', hG⟩ := hP
  obtain ⟨l, hl⟩ : ∃ l, (S.toMCWF make rates).li = some l := by
    obtain ⟨l, hl⟩ := Option.isSome_iff_exists.1 hli
    exact ⟨⟨rates, l.actWithJ⟩, by simp [Master.Sys.toMCWF, hl]⟩
  have hcons := toMCWF_consistent S G U nJ J lin make rates hr
  obtain ⟨q1, q2, q3⟩ := hcons l hl
  have hwell := toMCWF_wellBehaved S G U nJ J lin W hU' make rates hr fun h t0 => ⟨(hst h t0).controlled, (hst h t0).nonzero⟩
  refine hmain μ sample hU _ l L ε Dt hwell hl (hfol make rates ε Dt hε hDt1 (fun t psi => (hr t psi).1) fun h t0 => ⟨(hst h t0).controlled, (hst h t0).accurate⟩) hε hε1 hDt hdp htol hprob ?_
    psi ces dtInit hpsi hdt fuel m N k hfin ρ hρ hρ0
  intro hex t psi' hpsi'
  refine le_trans (mul_le_mul_of_nonneg_right (hΓ l q1 (by rw [q2]; exact hr) q3 t psi' hpsi') hDt.le) (hno hex)

/-- The Master equation has a solution for any initial condition. -/
theorem solution_exists {n : ℕ} (A : Matrix (Fin n) (Fin n) ℂ) (J : List (Matrix (Fin n) (Fin n) ℂ)) (T : ℝ) (ρ0 : Matrix (Fin n) (Fin n) ℂ) : ∃ ρ, Solves A J T ρ ∧ ρ 0 = ρ0 := by
  let r : Fin n → Fin n → ℂ := ρ0
  refine ⟨fun t => Matrix.of (semi (gen A J) t r), fun t _ _ i j => ?_, by beta_reduce; rw [semi_zero]; rfl⟩
  have h := (hasDerivAt_semi (gen A J) t).clm_apply (hasDerivAt_const t r)
  have h2 := hasDerivAt_pi.1 (hasDerivAt_pi.1 h i) j
  refine h2.congr_deriv ?_
  rw [lindblad_eq, map_zero, add_zero]
  rfl

/-- **C116.** With the exact stepper, nothing has to be supposed of the trajectories: they arrive at `T`, and their mean is the solution of the Master equation up to an error proportional to the intervals `Dt` of the driver. -/
theorem Unravels.exact_mean.{v, w} {n : ℕ} {S : Master.Sys n} {rates : ℝ → (Fin n → ℂ) → List ℝ} {A : Matrix (Fin n) (Fin n) ℂ} {J : List (Matrix (Fin n) (Fin n) ℂ)} (h : Unravels.{v, w} S rates A J) (T : ℝ)
    (hT : 0 ≤ T) : ∃ (κ : Type v) (make : (ℝ → (Fin n → ℂ) → Fin n → ℂ) → ODE.Stepper (Fin n → ℂ) κ) (ces : κ) (C Γ : ℝ), 0 ≤ C ∧ 0 ≤ Γ ∧ (S.ha.isSome → ∀ t0, GoodStepper (make (S.rhs t0)) (S.rhs t0) 0) ∧
      ∀ {Ω : Type w} [MeasurableSpace Ω] (μ : Measure Ω) [IsProbabilityMeasure μ] (sample : ℕ → Ω → ℝ), UniformNumbers μ sample → ∀ (L : Lim) (Dt : ℝ), 0 < Dt → Dt ≤ 1 → 0 < L.dpLimit → 1 ≤ L.overshootTolerance →
        L.overshootTolerance * L.dpLimit ≤ 1 → Γ * Dt ≤ L.dpLimit → ∀ psi : Fin n → ℂ, MCWF.norm psi = 1 → ∀ (ρ : ℝ → Matrix (Fin n) (Fin n) ℂ), Solves A J T ρ → ρ 0 = vecMulVec psi (star psi) → ∀ k : ℕ, T ≤ k * Dt →
        (∀ ω, (runTo (S.toMCWF make rates) L (fun k => sample k ω) 1 0 1 T Dt k (construct (S.toMCWF make rates) L psi ces 1)).isSome) ∧
        ∀ i j, ‖(∫ ω, dyad (runTo (S.toMCWF make rates) L (fun k => sample k ω) 1 0 1 T Dt k (construct (S.toMCWF make rates) L psi ces 1)) i j ∂μ) - ρ T i j‖ ≤ C * Dt := by
  obtain ⟨C, Γ, hC, hΓ, hmean⟩ := h.mean T hT
  obtain ⟨Γ', κ, make, hΓ', ⟨ces⟩, hgood, harr⟩ := h.attained
  refine ⟨κ, make, ces, C, Γ + Γ', hC, by linarith, hgood, ?_⟩
  intro Ω _ μ _ sample hU L Dt hDt hDt1 hdp htol hprob hΓD psi hpsi ρ hρ hρ0 k hk
  have hΓD1 : Γ * Dt ≤ L.overshootTolerance * L.dpLimit := by nlinarith [mul_nonneg hΓ' hDt.le]
  have hΓD2 : Γ' * Dt ≤ L.dpLimit := by nlinarith [mul_nonneg hΓ hDt.le]
  have hf := harr L Dt T hDt hDt1 hdp htol hΓD2 psi ces 1 hpsi hDt1 1 0 k one_pos hk
  refine ⟨fun ω => hf _ fun k => hU.range k ω, fun i j => ?_⟩
  have := hmean μ sample hU make L 0 Dt hgood le_rfl zero_le_one hDt hDt1 hdp htol hprob (fun _ => hΓD1) psi ces 1 hpsi one_pos 1 0 1 k hf ρ hρ hρ0 i j
  rwa [add_zero] at this

/-- **C116.** Without Hamiltonian part (purely exact evolution), the trajectories arrive at any time `T` with whatever random numbers, with one step in each of the intervals of the driver, if these are short enough
compared to the limit on the jump probability. -/
theorem exact_finishes.{v} {n : ℕ} (S : Master.Sys n) (W : Fin n → ℂ) (V : Matrix (Fin n) (Fin n) ℂ) (nJ : ℕ) (J : ℕ → Matrix (Fin n) (Fin n) ℂ) (hP : Pictured S W V nJ J) (hha : S.ha = none) (hli : S.li.isSome) :
    ∃ Γ, 0 ≤ Γ ∧ ∀ {κ : Type v} (make : (ℝ → (Fin n → ℂ) → Fin n → ℂ) → ODE.Stepper (Fin n → ℂ) κ) (rates : ℝ → (Fin n → ℂ) → List ℝ), RatesOf nJ J rates → ∀ (L : Lim) (Dt T : ℝ), 0 < Dt → 0 < L.dpLimit →
      1 ≤ L.overshootTolerance → Γ * Dt ≤ L.dpLimit → ∀ (psi : Fin n → ℂ) (ces : κ) (dtInit : ℝ), MCWF.norm psi = 1 → 0 < dtInit → ∀ fuel k m : ℕ, T ≤ m * Dt →
      ∀ s : ℕ → ℝ, (∀ k, 0 ≤ s k ∧ s k < 1) → (runTo (S.toMCWF make rates) L s fuel k 1 T Dt m (construct (S.toMCWF make rates) L psi ces dtInit)).isSome := by
  obtain ⟨G, U, lin, hU', hG⟩ := hP
  obtain ⟨Γ, hΓ0, hΓ⟩ := total_bound nJ J
  refine ⟨Γ, hΓ0, ?_⟩
  intro κ make rates hr L Dt T hDt hdp htol hΓD psi ces dtInit hpsi hdt fuel k m hm s hs
  obtain ⟨l, hl⟩ : ∃ l, (S.toMCWF make rates).li = some l := by
    obtain ⟨l, hl⟩ := Option.isSome_iff_exists.1 hli
    exact ⟨⟨rates, l.actWithJ⟩, by simp [Master.Sys.toMCWF, hl]⟩
  obtain ⟨q1, q2, q3⟩ := toMCWF_consistent S G U nJ J lin make rates hr l hl
  have hwell := toMCWF_wellBehaved S G U nJ J lin W hU' make rates hr fun h => by simp [hha] at h
  have hha' : (S.toMCWF make rates).ha = none := by simp [Master.Sys.toMCWF, hha]
  have hbound := hΓ l q1 (by rw [q2]; exact hr) q3
  obtain ⟨hinv, -, ht, -⟩ := construct_inv (S.toMCWF make rates) L hdp htol psi hpsi ces dtInit hdt
  exact runTo_ready _ hwell l hl L hdp htol Γ Dt T hbound hDt hΓD (fun ha h => by simp [hha'] at h) s hs fuel k (fun h => by simp [hha'] at h) m _ hinv
    (construct_ready _ l hl L hdp htol Γ Dt hbound hDt hΓD psi hpsi ces dtInit fun h => by simp [hha'] at h) (by rw [ht, zero_add]; exact hm)

open Elem Spec in
/-- The elements are such systems. -/
theorem element_pictured {e : Element} {w : ℕ → ℂ} {V : Dens} {J : List Dens} (hH : HaIs e w V) (hE : ExIs e w) (hL : LiIs e J) :
    Pictured e.toSys (fun i => w i) (mat e.dim V) J.length (fun i => mat e.dim (J.getD i 0)) := by
  refine ⟨_, _, linear_of hH hE hL, fun t t0 => rfl, fun t t0 => uDiag_ip e.dim w V (t - t0)⟩

theorem map_range_getD {α β : Type*} (l : List α) (d : α) (f : α → β) : (List.range l.length).map (fun i => f (l.getD i d)) = l.map f := by
  apply List.ext_getElem
  · simp
  · intro i h1 h2
    simp at h1
    simp [h1]

/-- The element has a rate for each of its jumps `J`; they are negative, or the ones belonging to the jumps. -/
def RatesAre (e : Elem.Element) (J : List Elem.Dens) : Prop :=
  ∀ l, e.li = some l → ∀ psi, (l.rates (Elem.LDO.ofSV e.dim psi)).length = J.length ∧ (MCWF.norm (Spec.ket e.dim psi) = 1 →
    ∀ (i : ℕ) (r : ℝ), (l.rates (Elem.LDO.ofSV e.dim psi))[i]? = some r → r < 0 ∨ r = ∑ k, Complex.normSq ((Spec.mat e.dim (J.getD i 0) *ᵥ Spec.ket e.dim psi) k))

open Elem Spec in
theorem RatesAre.of {e : Element} {J : List Dens} (hR : RatesAre e J) (hli : e.li.isSome) : RatesOf J.length (fun i => mat e.dim (J.getD i 0)) e.mcwfRates := by
  intro t psi
  obtain ⟨l, hl⟩ := Option.isSome_iff_exists.1 hli
  unfold Element.mcwfRates
  rw [hl]
  obtain ⟨h1, h2⟩ := hR l hl (arr psi)
  rw [vec_arr] at h2
  refine ⟨h1, fun hn i r hr => ?_⟩
  rw [MCWF.norm_sq]
  exact h2 hn i r hr

open Elem Spec in
/-- **C116.** Monte Carlo trajectories of an element with the Hamiltonian `H` and the jumps `J`, in whatever picture, by an accurate stepper: their average solves the Master equation, up to an error proportional to the longest
allowed step and to the error of the stepper. `g` is a uniform decay missing from the Hamiltonian. -/
theorem element_unravels.{v, w} {e : Element} {w : ℕ → ℂ} {H : Dens} {J : List Dens} (hF : Interactions.FreeIs e w H J) (hw : ∀ i < e.dim, 0 ≤ (w i).re) (hli : e.li.isSome) (hR : RatesAre e J) (g : ℝ) (hg : 0 ≤ g)
    (hC : Spec.Conserving (mat e.dim H - (g : ℂ) • 1) (J.map (mat e.dim))) :
    Unravels.{v, w} e.toSys e.mcwfRates (mat e.dim H - (g : ℂ) • 1) (J.map (mat e.dim)) := by
  obtain ⟨V, hH, hE, hL, hV⟩ := hF
  have hP := element_pictured hH hE hL
  have hVH : mat e.dim V - Matrix.diagonal (fun i : Fin e.dim => w i) = mat e.dim H := by
    ext i j
    have := hV i i.2 j j.2
    rw [Matrix.sub_apply, mat_apply, mat_apply, ← this, Matrix.diagonal_apply]
    simp [Fin.ext_iff]
  have hJ := map_range_getD J 0 (mat e.dim)
  rw [← hJ] at hC
  rw [← hVH] at hC
  have hli' : e.toSys.li.isSome := by simpa [Element.toSys] using hli
  have := picture_unravels.{v, w} e.toSys _ _ _ _ hP (fun i => hw i i.2) hli' g hg hC e.mcwfRates (hR.of hli)
  rwa [hVH, hJ] at this

open Elem Spec in
/-- **C116.** The trajectories of an element without Hamiltonian part arrive. -/
theorem element_finishes.{v} {e : Element} {w : ℕ → ℂ} {H : Dens} {J : List Dens} (hF : Interactions.FreeIs e w H J) (hha : e.ha = none) (hli : e.li.isSome) (hR : RatesAre e J) :
    ∃ Γ, 0 ≤ Γ ∧ ∀ {κ : Type v} (make : (ℝ → (Fin e.dim → ℂ) → Fin e.dim → ℂ) → ODE.Stepper (Fin e.dim → ℂ) κ) (L : Lim) (Dt T : ℝ), 0 < Dt → 0 < L.dpLimit →
      1 ≤ L.overshootTolerance → Γ * Dt ≤ L.dpLimit → ∀ (psi : Fin e.dim → ℂ) (ces : κ) (dtInit : ℝ), MCWF.norm psi = 1 → 0 < dtInit → ∀ fuel k m : ℕ, T ≤ m * Dt →
      ∀ s : ℕ → ℝ, (∀ k, 0 ≤ s k ∧ s k < 1) → (runTo (e.toMCWF make) L s fuel k 1 T Dt m (construct (e.toMCWF make) L psi ces dtInit)).isSome := by
  obtain ⟨V, hH, hE, hL, hV⟩ := hF
  obtain ⟨Γ, h0, h1⟩ := exact_finishes.{v} e.toSys _ _ _ _ (element_pictured hH hE hL) (by simp [Element.toSys, hha]) (by simpa [Element.toSys] using hli)
  exact ⟨Γ, h0, fun make L Dt T => h1 make e.mcwfRates (hR.of hli) L Dt T⟩

end CppQED.Unravel
