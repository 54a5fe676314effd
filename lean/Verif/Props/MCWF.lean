import Verif.Lemmas.MCWF
import Mathlib.MeasureTheory.Measure.Lebesgue.Basic
import Mathlib.Analysis.Complex.Exponential
import Mathlib.Tactic.Positivity

/-!
# Properties C40, C41 (Monte Carlo step) and C63 (retried steps)
-/

namespace CppQED.MCWF

variable {ι κ : Type*} [Fintype ι]

/-! ## C40: jump selection -/

/-- **C40.** Jump `i` is selected if and only if the random number falls strictly between `dt` times the sum of the first `i` rates and `dt` times the sum of the first
`i+1` rates. -/
theorem jump_iff (rates : List ℝ) (hr : ∀ r ∈ rates, 0 ≤ r) (u dt : ℝ) (hu : 0 ≤ u) (hdt : 0 < dt) (i : ℕ) :
    selectJump rates u dt = some i ↔ i < rates.length ∧ (rates.take i).sum * dt < u ∧ u < (rates.take (i + 1)).sum * dt := by
  rw [selectJump_eq_some rates hr u dt hu hdt i, lt_div_iff₀ hdt, div_lt_iff₀ hdt]

example : selectJump [1, 0, 3] (1 / 2) (1 / 5) = some 2 :=
  (jump_iff [1, 0, 3] (by simp) _ _ (by norm_num) (by norm_num) 2).2 ⟨by simp, by norm_num, by norm_num⟩

theorem take_succ_sum (rates : List ℝ) (i : ℕ) (hi : i < rates.length) : (rates.take (i + 1)).sum = (rates.take i).sum + rates[i] := by
  rw [List.take_succ_eq_append_getElem hi, List.sum_append, List.sum_singleton]

theorem take_sum_mono (rates : List ℝ) (hr : ∀ r ∈ rates, 0 ≤ r) (i j : ℕ) (hij : i ≤ j) : (rates.take i).sum ≤ (rates.take j).sum := by
  obtain ⟨k, rfl⟩ := Nat.exists_eq_add_of_le hij
  rw [List.take_add, List.sum_append]
  have : 0 ≤ ((rates.drop i).take k).sum := List.sum_nonneg fun s hs => hr s (List.mem_of_mem_drop (List.mem_of_mem_take hs))
  linarith

theorem take_sum_le (rates : List ℝ) (hr : ∀ r ∈ rates, 0 ≤ r) (i : ℕ) : (rates.take i).sum ≤ rates.sum := by
  have := take_sum_mono rates hr i (max i rates.length) (le_max_left _ _)
  rwa [List.take_of_length_le (le_max_right _ _)] at this

open MeasureTheory in
/-- **C40.** For a random number uniformly distributed in `[0,1)`, the probability of jump `i` is the `i`th rate times the time step, if the total probability is at
most 1. -/
theorem jump_probability (rates : List ℝ) (hr : ∀ r ∈ rates, 0 ≤ r) (dt : ℝ) (hdt : 0 < dt) (hp : rates.sum * dt ≤ 1) (i : ℕ) (hi : i < rates.length) :
    volume {u : ℝ | u ∈ Set.Ico 0 1 ∧ selectJump rates u dt = some i} = ENNReal.ofReal (rates[i] * dt) := by
  have h : {u : ℝ | u ∈ Set.Ico 0 1 ∧ selectJump rates u dt = some i} = Set.Ioo ((rates.take i).sum * dt) ((rates.take (i + 1)).sum * dt) := by
    ext u
    simp only [Set.mem_setOf_eq, Set.mem_Ico, Set.mem_Ioo]
    have h0 : 0 ≤ (rates.take i).sum := List.sum_nonneg fun s hs => hr s (List.mem_of_mem_take hs)
    have h1 := mul_le_mul_of_nonneg_right (take_sum_le rates hr (i + 1)) hdt.le
    constructor
    · rintro ⟨⟨a, b⟩, c⟩
      exact ((jump_iff rates hr u dt a hdt i).1 c).2
    · rintro ⟨a, b⟩
      have hu : 0 ≤ u := le_trans (mul_nonneg h0 hdt.le) a.le
      exact ⟨⟨hu, by linarith⟩, (jump_iff rates hr u dt hu hdt i).2 ⟨hi, a, b⟩⟩
  rw [h, Real.volume_Ioo, take_succ_sum rates i hi]
  congr 1
  ring

open MeasureTheory in
/-- **C40.** The probability of no jump is 1 minus the time step times the total rate. -/
theorem no_jump_probability (rates : List ℝ) (hr : ∀ r ∈ rates, 0 ≤ r) (dt : ℝ) (hdt : 0 < dt) (hp : rates.sum * dt ≤ 1) :
    volume {u : ℝ | u ∈ Set.Ico 0 1 ∧ selectJump rates u dt = none} = ENNReal.ofReal (1 - rates.sum * dt) := by
  let A : Fin rates.length → Set ℝ := fun i => {u : ℝ | u ∈ Set.Ico 0 1 ∧ selectJump rates u dt = some (i : ℕ)}
  have hA : ∀ i, A i = Set.Ico 0 1 ∩ Set.Ioo ((rates.take i).sum * dt) ((rates.take (i + 1)).sum * dt) := by
    intro i
    ext u
    simp only [A, Set.mem_setOf_eq, Set.mem_inter_iff, Set.mem_Ico, Set.mem_Ioo]
    constructor
    · rintro ⟨⟨a, b⟩, c⟩; exact ⟨⟨a, b⟩, ((jump_iff rates hr u dt a hdt i).1 c).2⟩
    · rintro ⟨⟨a, b⟩, c⟩; exact ⟨⟨a, b⟩, (jump_iff rates hr u dt a hdt i).2 ⟨i.2, c⟩⟩
  have hmeas : ∀ i, MeasurableSet (A i) := fun i => by rw [hA]; exact measurableSet_Ico.inter measurableSet_Ioo
  have hdisj : Pairwise (Function.onFun Disjoint A) := by
    intro i j hij
    rw [Function.onFun, Set.disjoint_left]
    rintro u ⟨_, h1⟩ ⟨_, h2⟩
    rw [h1] at h2
    exact hij (Fin.ext (by simpa using h2))
  have hset : {u : ℝ | u ∈ Set.Ico 0 1 ∧ selectJump rates u dt = none} = Set.Ico 0 1 \ ⋃ i, A i := by
    ext u
    simp only [Set.mem_setOf_eq, Set.mem_diff, Set.mem_iUnion, A, not_exists]
    constructor
    · rintro ⟨a, b⟩; exact ⟨a, fun i h => by rw [b] at h; exact absurd h.2 (by simp)⟩
    · rintro ⟨a, b⟩
      refine ⟨a, ?_⟩
      cases hs : selectJump rates u dt with
      | none => rfl
      | some i => exact absurd ⟨a, hs⟩ (b ⟨i, ((jump_iff rates hr u dt a.1 hdt i).1 hs).1⟩)
  have hunion : volume (⋃ i, A i) = ENNReal.ofReal (rates.sum * dt) := by
    rw [measure_iUnion hdisj hmeas, tsum_fintype]
    have : ∀ i : Fin rates.length, volume (A i) = ENNReal.ofReal (rates[i] * dt) := fun i => jump_probability rates hr dt hdt hp i i.2
    simp only [this]
    have hnn : ∀ i ∈ (Finset.univ : Finset (Fin rates.length)), 0 ≤ rates[i] * dt := fun i _ => mul_nonneg (hr rates[i] (List.getElem_mem _)) hdt.le
    rw [← ENNReal.ofReal_sum_of_nonneg hnn, ← Finset.sum_mul]
    congr 2
    conv_rhs => rw [← List.ofFn_getElem (xs := rates), List.sum_ofFn]
    rfl
  have hsub : (⋃ i, A i) ⊆ Set.Ico 0 1 := Set.iUnion_subset fun i u hu => hu.1
  rw [hset, measure_sdiff hsub (MeasurableSet.iUnion hmeas).nullMeasurableSet (by rw [hunion]; exact ENNReal.ofReal_ne_top), hunion, Real.volume_Ico]
  have h0 : 0 ≤ rates.sum * dt := mul_nonneg (List.sum_nonneg hr) hdt.le
  rw [ENNReal.ofReal_sub _ h0]
  simp

/-- Such a list of rates: 1, 0 and 3 with a time step of 1/5; the probabilities are 1/5, 0, 3/5, and the one of no jump is 1/5. -/
example : MeasureTheory.volume {u : ℝ | u ∈ Set.Ico 0 1 ∧ selectJump [1, 0, 3] u (1 / 5) = none} = ENNReal.ofReal (1 / 5) := by
  rw [no_jump_probability [1, 0, 3] (by simp) (1 / 5) (by norm_num) (by norm_num)]
  norm_num

/-- **C40.** The rates used for the selection: a nonnegative rate is the one the system supplies; a negative one is replaced by the square of the norm of the
jumped state. They are all nonnegative. -/
theorem effectiveRates_spec (l : Li ι) (t : ℝ) (psi : ι → ℂ) (i : ℕ) (r : ℝ) (h : (l.rates t psi)[i]? = some r) :
    (0 ≤ r → (effectiveRates l t psi)[i]? = some r) ∧ (r < 0 → (effectiveRates l t psi)[i]? = some (∑ j, Complex.normSq (l.actWithJ t psi i j))) := by
  unfold effectiveRates
  rw [List.getElem?_mapIdx, h]
  constructor
  · intro h0
    simp [not_lt.2 h0]
  · intro h0
    simp [h0, norm_sq]

theorem effectiveRates_nonneg (l : Li ι) (t : ℝ) (psi : ι → ℂ) : ∀ r ∈ effectiveRates l t psi, 0 ≤ r := by
  intro r hr
  unfold effectiveRates at hr
  obtain ⟨i, hi, rfl⟩ := List.mem_mapIdx.1 hr
  split
  · positivity
  · rename_i h; exact not_lt.1 h

theorem total_nonneg (l : Li ι) (t : ℝ) (psi : ι → ℂ) : 0 ≤ total (effectiveRates l t psi) := by
  rw [total_eq_sum]
  exact List.sum_nonneg (effectiveRates_nonneg l t psi)

/-- The rates which are not negative are consistent with the jump operators: on normalised states, the rate is the square of the norm of the jumped state. -/
def Consistent (l : Li ι) : Prop :=
  ∀ t psi, norm psi = 1 → ∀ (i : ℕ) (r : ℝ), (l.rates t psi)[i]? = some r → 0 ≤ r → norm (l.actWithJ t psi i) ^ 2 = r

/-- **C40.** If the rates are consistent with the jump operators, then all the rates used for the selection are the squares of the norms of the jumped states. -/
theorem effectiveRates_consistent (l : Li ι) (hl : Consistent l) (t : ℝ) (psi : ι → ℂ) (hpsi : norm psi = 1) (i : ℕ) (hi : i < (l.rates t psi).length) :
    (effectiveRates l t psi)[i]? = some (norm (l.actWithJ t psi i) ^ 2) := by
  have h : (l.rates t psi)[i]? = some (l.rates t psi)[i] := List.getElem?_eq_getElem hi
  obtain ⟨h1, h2⟩ := effectiveRates_spec l t psi i _ h
  rcases le_or_gt 0 (l.rates t psi)[i] with h0 | h0
  · rw [h1 h0, hl t psi hpsi i _ h h0]
  · rw [h2 h0, norm_sq]

theorem length_effectiveRates (l : Li ι) (t : ℝ) (psi : ι → ℂ) : (effectiveRates l t psi).length = (l.rates t psi).length := by
  unfold effectiveRates; simp

theorem specialJumps_find (l : Li ι) (t : ℝ) (psi : ι → ℂ) (no : ℕ) :
    (specialJumps l t psi).find? (fun j => j.1 == no) =
      open Classical in if (∃ r, (l.rates t psi)[no]? = some r ∧ r < 0) then some (no, renorm (l.actWithJ t psi no)) else none := by
  classical
  have h := find?_flatten_mapIdx (l.rates t psi) (fun r => decide (r < 0)) (fun i => renorm (l.actWithJ t psi i)) 0 no
  simp only [add_zero, decide_eq_true_eq] at h
  unfold specialJumps
  convert h using 2
  cases hh : (l.rates t psi)[no]? with
  | none => simp
  | some r => simp

/-- **C40.** The jump: with consistent rates, the state after jump `i` is `J_i ψ` normalised; without a jump, it is unchanged. One random number is used in either
case; the time and the time step are unchanged. -/
theorem performJump_spec (l : Li ι) (hl : Consistent l) (sample : ℕ → ℝ) (hs : ∀ k, 0 ≤ sample k) (x : St ι κ) (hx : norm x.psi = 1) (hdt : 0 < x.dtDid) :
    let rates := effectiveRates l x.t x.psi
    (∀ i, i < rates.length → (rates.take i).sum * x.dtDid < sample x.nRandom → sample x.nRandom < (rates.take (i + 1)).sum * x.dtDid →
      l.actWithJ x.t x.psi i ≠ 0 ∧
      (performJump l sample x).psi = fun j => l.actWithJ x.t x.psi i j / (Real.sqrt (∑ k, Complex.normSq (l.actWithJ x.t x.psi i k)) : ℝ)) ∧
    (selectJump rates (sample x.nRandom) x.dtDid = none → (performJump l sample x).psi = x.psi) ∧
    (performJump l sample x).nRandom = x.nRandom + 1 ∧ (performJump l sample x).t = x.t ∧ (performJump l sample x).t0 = x.t0 ∧
    (performJump l sample x).dtDid = x.dtDid ∧ (performJump l sample x).dtTry = x.dtTry := by
  intro rates
  refine ⟨?_, ?_, ?_⟩
  · intro i hi h1 h2
    have hsel : selectJump rates (sample x.nRandom) x.dtDid = some i :=
      (jump_iff rates (effectiveRates_nonneg l x.t x.psi) _ _ (hs _) hdt i).2 ⟨hi, h1, h2⟩
    have hi' : i < (l.rates x.t x.psi).length := by rwa [← length_effectiveRates l x.t x.psi]
    have hri := effectiveRates_consistent l hl x.t x.psi hx i hi'
    have hpos : 0 < rates[i] := by
      rw [take_succ_sum rates i hi] at h2
      have := h1.trans h2
      by_contra hc
      have : rates[i] * x.dtDid ≤ 0 := mul_nonpos_of_nonpos_of_nonneg (not_lt.1 hc) hdt.le
      linarith
    have hri' : rates[i] = norm (l.actWithJ x.t x.psi i) ^ 2 := by
      have : rates[i]? = some rates[i] := List.getElem?_eq_getElem hi
      rw [hri] at this
      exact (Option.some.inj this).symm
    have hne : l.actWithJ x.t x.psi i ≠ 0 := by
      rw [← norm_pos_iff]
      rw [hri'] at hpos
      refine lt_of_le_of_ne (norm_nonneg _) fun h => ?_
      rw [← h] at hpos
      norm_num at hpos
    refine ⟨hne, ?_⟩
    have hp : (performJump l sample x).psi = jumped l x.t x.psi rates (specialJumps l x.t x.psi) i := by
      unfold performJump
      simp only [rates] at hsel ⊢
      simp only [hsel]
    rw [hp]
    unfold jumped
    rw [specialJumps_find]
    by_cases hneg : ∃ r, (l.rates x.t x.psi)[i]? = some r ∧ r < 0
    · rw [if_pos hneg]
      rfl
    · rw [if_neg hneg]
      simp only
      have : rates.getD i 0 = norm (l.actWithJ x.t x.psi i) ^ 2 := by
        rw [List.getD_eq_getElem?_getD, hri]; rfl
      rw [this, Real.sqrt_sq (norm_nonneg _)]
      rfl
  · intro hsel
    unfold performJump
    simp only [rates] at hsel
    simp only [hsel]
  · unfold performJump
    simp only
    split <;> exact ⟨rfl, rfl, rfl, rfl, rfl⟩

/-! ## C41: normalisation, time-step control -/

/-- What is assumed about the system: the steppers are controlled (cf. C39), neither the Hamiltonian nor the exact evolution annihilates a state, and the rates which
are not negative are consistent with the jump operators. -/
structure WellBehaved (S : Sys ι κ) : Prop where
  ha_controlled : ∀ ha, S.ha = some ha → ∀ t0, ODE.Controlled (ha t0)
  ha_ne : ∀ ha, S.ha = some ha → ∀ t0 k s t d, s ≠ 0 → (ha t0 k s t d).1.success = true → (ha t0 k s t d).1.state ≠ 0
  ex_ne : ∀ U, S.ex = some U → ∀ t psi t0, psi ≠ 0 → U t psi t0 ≠ 0
  li_consistent : ∀ l, S.li = some l → Consistent l

/-- The state of a trajectory between steps: normalised, the trial step is positive (and finite if there is a Hamiltonian part), and if there is an exact
part, then the reference time of the interaction picture is the time. -/
structure Inv (S : Sys ι κ) (x : St ι κ) : Prop where
  norm_one : norm x.psi = 1
  try_pos : 0 < x.dtTry
  try_fin : S.ha.isSome → x.dtTry ≠ ⊤
  t0_eq : S.ex.isSome → x.t0 = x.t

theorem ne_zero_of_norm (psi : ι → ℂ) (h : norm psi = 1) : psi ≠ 0 := (norm_pos_iff psi).1 (by rw [h]; norm_num)

theorem evolve_spec (S : Sys ι κ) (hS : WellBehaved S) (fuel : ℕ) (Dt : ℝ) (hDt : 0 < Dt) (x y : St ι κ) (hx : x.psi ≠ 0) (hp : 0 < x.dtTry)
    (hf : S.ha.isSome → x.dtTry ≠ ⊤) (h : evolve S fuel Dt x = some y) :
    y.t = x.t + y.dtDid ∧ 0 < y.dtDid ∧ y.dtDid ≤ Dt ∧ (S.ha.isSome ∨ S.li.isSome → (y.dtDid : WithTop ℝ) ≤ x.dtTry) ∧ 0 < y.dtTry ∧
    (S.ha.isSome → y.dtTry ≠ ⊤) ∧ y.psi ≠ 0 ∧ y.nRandom = x.nRandom ∧ y.t0 = x.t0 := by
  unfold evolve at h
  cases hha : S.ha with
  | some ha =>
    rw [hha] at h hf
    simp only at h
    cases hd : x.dtTry with
    | top => exact absurd hd (hf rfl)
    | coe d =>
      rw [hd] at h hp
      obtain ⟨⟨s', t', e'⟩, hr, rfl⟩ := Option.map_eq_some_iff.1 h
      have hdp : 0 < d := WithTop.coe_lt_coe.1 hp
      obtain ⟨a1, a2, a3, a4, a5, -, ⟨k', b1, b2, -⟩, -⟩ :=
        ODE.step_forward (ha x.t0) (hS.ha_controlled ha hha x.t0) fuel Dt hDt ⟨x.ces, x.dtDid, d, x.nSteps, x.nFailedSteps⟩ hdp x.psi x.t s' t' e' hr
      refine ⟨a1, a2, a3, fun _ => WithTop.coe_le_coe.2 a4, WithTop.coe_lt_coe.2 a5, fun _ => WithTop.coe_ne_top, ?_, rfl, rfl⟩
      simp only
      rw [b2]
      exact hS.ha_ne ha hha _ _ _ _ _ hx b1
  | none =>
    rw [hha] at h
    simp only at h
    cases hli : S.li with
    | none =>
      rw [hli] at h
      simp only [Option.some.injEq] at h
      subst h
      exact ⟨rfl, hDt, le_rfl, fun hh => by simp at hh, hp, fun hh => by simp at hh, hx, rfl, rfl⟩
    | some l =>
      rw [hli] at h
      simp only [Option.some.injEq] at h
      subst h
      have hm : ∃ m : ℝ, min x.dtTry (Dt : WithTop ℝ) = m ∧ 0 < m ∧ m ≤ Dt ∧ (m : WithTop ℝ) ≤ x.dtTry := by
        rcases le_total x.dtTry (Dt : WithTop ℝ) with hle | hle
        · obtain ⟨d, hd⟩ := WithTop.ne_top_iff_exists.1 (ne_top_of_le_ne_top WithTop.coe_ne_top hle)
          rw [← hd] at hle hp ⊢
          exact ⟨d, min_eq_left hle, WithTop.coe_lt_coe.1 hp, WithTop.coe_le_coe.1 hle, le_rfl⟩
        · exact ⟨Dt, min_eq_right hle, hDt, le_rfl, hle⟩
      obtain ⟨m, hm, m1, m2, m3⟩ := hm
      simp only [hm, WithTop.untopD_coe]
      exact ⟨trivial, m1, m2, fun _ => m3, hp, fun hh => by simp at hh, hx, trivial, trivial⟩

/-- What the coherent time development makes of a state. -/
structure Evolved (S : Sys ι κ) (Dt : ℝ) (x y : St ι κ) : Prop where
  time : y.t = x.t + y.dtDid
  did_pos : 0 < y.dtDid
  did_le : y.dtDid ≤ Dt
  did_le_try : S.ha.isSome ∨ S.li.isSome → (y.dtDid : WithTop ℝ) ≤ x.dtTry
  try_pos : 0 < y.dtTry
  try_fin : S.ha.isSome → y.dtTry ≠ ⊤
  norm_one : norm y.psi = 1
  random : y.nRandom = x.nRandom
  t0_ex : S.ex.isSome → y.t0 = y.t
  t0_none : S.ex = none → y.t0 = x.t0

theorem coherent_spec (S : Sys ι κ) (hS : WellBehaved S) (fuel : ℕ) (Dt : ℝ) (hDt : 0 < Dt) (x y : St ι κ) (hx : x.psi ≠ 0) (hp : 0 < x.dtTry)
    (hf : S.ha.isSome → x.dtTry ≠ ⊤) (h : coherent S fuel Dt x = some y) : Evolved S Dt x y := by
  unfold coherent at h
  obtain ⟨z, hz, rfl⟩ := Option.map_eq_some_iff.1 h
  obtain ⟨a1, a2, a3, a4, a5, a6, a7, a8, a9⟩ := evolve_spec S hS fuel Dt hDt x z hx hp hf hz
  unfold exact
  cases hex : S.ex with
  | none => exact ⟨a1, a2, a3, a4, a5, a6, norm_renorm _ a7, a8, fun hh => by rw [hex] at hh; simp at hh, fun _ => a9⟩
  | some U => exact ⟨a1, a2, a3, a4, a5, a6, norm_renorm _ (hS.ex_ne U hex _ _ _ a7), a8, fun _ => rfl, fun hh => by rw [hex] at hh; simp at hh⟩

theorem suggested_pos (L : Lim) (hL : 0 < L.dpLimit) (l : Li ι) (t : ℝ) (psi : ι → ℂ) : 0 < suggested L (effectiveRates l t psi) := by
  unfold suggested
  have h := total_nonneg l t psi
  split
  · exact WithTop.coe_lt_top 0
  · rename_i h0
    exact WithTop.coe_lt_coe.2 (div_pos hL (lt_of_le_of_ne h (Ne.symm h0)))

theorem overshot_total_pos (L : Lim) (hL : 0 < L.dpLimit) (hT : 1 ≤ L.overshootTolerance) (l : Li ι) (t : ℝ) (psi : ι → ℂ) (dt : ℝ) (hdt : 0 ≤ dt)
    (h : overshot L (effectiveRates l t psi) dt) : 0 < total (effectiveRates l t psi) := by
  unfold overshot at h
  refine lt_of_le_of_ne (total_nonneg l t psi) fun h0 => ?_
  rw [← h0, zero_mul] at h
  have : 0 < L.overshootTolerance * L.dpLimit := mul_pos (by linarith) hL
  linarith

/-- The trial whose result is accepted in a step from `x`: it starts with the state, time, `dtDid` of `x`, and it either is the first one (`w = x`) or follows the rejection
of an earlier trial, in which case its trial step is the probability limit divided by the total rate of the rejected trial. -/
def TrialFrom (S : Sys ι κ) (l : Li ι) (L : Lim) (Dt : ℝ) (x w : St ι κ) : Prop :=
  w.psi = x.psi ∧ w.t = x.t ∧ w.dtDid = x.dtDid ∧ w.nRandom = x.nRandom ∧ (S.ex = none → w.t0 = x.t0) ∧
  (w = x ∨ ∃ v y : St ι κ, Evolved S Dt v y ∧ v.psi = x.psi ∧ v.t = x.t ∧
    total (effectiveRates l y.t y.psi) * y.dtDid > L.overshootTolerance * L.dpLimit ∧
    w.dtTry = ((L.dpLimit / total (effectiveRates l y.t y.psi) : ℝ) : WithTop ℝ))

theorem retryLoop_spec (S : Sys ι κ) (hS : WellBehaved S) (l : Li ι) (L : Lim) (hL : 0 < L.dpLimit) (hT : 1 ≤ L.overshootTolerance)
    (fuel : ℕ) (Dt : ℝ) (hDt : 0 < Dt) (x : St ι κ) (hx : x.psi ≠ 0) (n : ℕ) (w y z : St ι κ) (hw : TrialFrom S l L Dt x w)
    (hwp : 0 < w.dtTry) (hwf : S.ha.isSome → w.dtTry ≠ ⊤)
    (hwy : coherent S fuel Dt w = some y) (h : retryLoop S l L fuel Dt x n y = some z) :
    ∃ w' y', TrialFrom S l L Dt x w' ∧ coherent S fuel Dt w' = some y' ∧ Evolved S Dt w' y' ∧
      total (effectiveRates l y'.t y'.psi) * y'.dtDid ≤ L.overshootTolerance * L.dpLimit ∧ z = adjustTry S L (effectiveRates l y'.t y'.psi) y' := by
  have hwx : w.psi ≠ 0 := by rw [hw.1]; exact hx
  have hev := coherent_spec S hS fuel Dt hDt w y hwx hwp hwf hwy
  induction n generalizing w y with
  | zero =>
    unfold retryLoop at h
    by_cases ho : overshot L (effectiveRates l y.t y.psi) y.dtDid
    · simp only [eq_true ho, if_true] at h
      exact absurd h (by simp)
    · simp only [eq_false ho, if_false, Option.some.injEq] at h
      exact ⟨w, y, hw, hwy, hev, not_lt.1 ho, h.symm⟩
  | succ n ih =>
    unfold retryLoop at h
    by_cases ho : overshot L (effectiveRates l y.t y.psi) y.dtDid
    · simp only [eq_true ho, if_true] at h
      obtain ⟨y2, hy2, hz⟩ := Option.bind_eq_some_iff.1 h
      have htot := overshot_total_pos L hL hT l y.t y.psi y.dtDid hev.did_pos.le ho
      have hsug : suggested L (effectiveRates l y.t y.psi) = ((L.dpLimit / total (effectiveRates l y.t y.psi) : ℝ) : WithTop ℝ) := by
        unfold suggested; exact if_neg htot.ne'
      refine ih { setBack L (effectiveRates l y.t y.psi) x.t x.dtDid y with psi := x.psi } y2 ?_ ?_ ?_ hy2 hz hx ?_
      · refine ⟨rfl, rfl, rfl, ?_, ?_, Or.inr ⟨w, y, hev, hw.1, hw.2.1, ho, hsug⟩⟩
        · show y.nRandom = x.nRandom
          rw [hev.random, hw.2.2.2.1]
        · intro hex
          show y.t0 = x.t0
          rw [hev.t0_none hex, hw.2.2.2.2.1 hex]
      · exact suggested_pos L hL l y.t y.psi
      · intro _
        show suggested L (effectiveRates l y.t y.psi) ≠ ⊤
        rw [hsug]; exact WithTop.coe_ne_top
      · refine coherent_spec S hS fuel Dt hDt _ y2 hx (suggested_pos L hL l y.t y.psi) (fun _ => ?_) hy2
        show suggested L (effectiveRates l y.t y.psi) ≠ ⊤
        rw [hsug]; exact WithTop.coe_ne_top
    · simp only [eq_false ho, if_false, Option.some.injEq] at h
      exact ⟨w, y, hw, hwy, hev, not_lt.1 ho, h.symm⟩

/-- **C41.** A step of a system with a Liouvillean part. The accepted trial starts from exactly the state, time and `dtDid` of the trajectory before the step, with
either the original trial step or, after the rejection of a trial, with the probability limit divided by the total rate of the rejected one; in the accepted trial the
total jump probability does not exceed the tolerated one; the next trial step is such that its jump probability does not exceed the limit; one jump at most follows, with one random
number drawn. -/
theorem step_spec (S : Sys ι κ) (hS : WellBehaved S) (l : Li ι) (hl : S.li = some l) (L : Lim) (hL : 0 < L.dpLimit) (hT : 1 ≤ L.overshootTolerance)
    (sample : ℕ → ℝ) (fuel n : ℕ) (Dt : ℝ) (hDt : 0 < Dt) (x z : St ι κ) (hx : Inv S x) (h : step S L sample fuel n Dt x = some z) :
    ∃ w y y' : St ι κ, TrialFrom S l L Dt x w ∧ coherent S fuel Dt w = some y ∧ Evolved S Dt w y ∧
      total (effectiveRates l y.t y.psi) * y.dtDid ≤ L.overshootTolerance * L.dpLimit ∧
      y' = adjustTry S L (effectiveRates l y.t y.psi) y ∧ z = performJump l sample y' := by
  unfold step at h
  obtain ⟨y, hy, h⟩ := Option.bind_eq_some_iff.1 h
  rw [hl] at h
  obtain ⟨y', hy', rfl⟩ := Option.map_eq_some_iff.1 h
  have hx0 := ne_zero_of_norm _ hx.norm_one
  obtain ⟨w, y2, h1, h2, h3, h4, h5⟩ := retryLoop_spec S hS l L hL hT fuel Dt hDt x hx0 n x y y' ⟨rfl, rfl, rfl, rfl, fun _ => rfl, Or.inl rfl⟩ hx.try_pos hx.try_fin hy hy'
  exact ⟨w, y2, y', h1, h2, h3, h4, h5, rfl⟩

theorem adjustTry_pos (S : Sys ι κ) (L : Lim) (hL : 0 < L.dpLimit) (l : Li ι) (x : St ι κ) (t : ℝ) (psi : ι → ℂ) (hx : 0 < x.dtTry) :
    0 < (adjustTry S L (effectiveRates l t psi) x).dtTry := by
  unfold adjustTry
  cases S.ha with
  | some ha => exact lt_min hx (suggested_pos L hL l t psi)
  | none => exact suggested_pos L hL l t psi

theorem adjustTry_fin (S : Sys ι κ) (L : Lim) (rates : List ℝ) (x : St ι κ) (hx : S.ha.isSome → x.dtTry ≠ ⊤) (h : S.ha.isSome) :
    (adjustTry S L rates x).dtTry ≠ ⊤ := by
  unfold adjustTry
  cases hha : S.ha with
  | some ha => exact ne_top_of_le_ne_top (hx h) (min_le_left _ _)
  | none => rw [hha] at h; simp at h

/-- **C41.** After each step, the state vector has norm one, and the other invariants hold as well: the trial step is positive, and with an exact part, the reference time
of the interaction picture is the time. -/
theorem step_inv (S : Sys ι κ) (hS : WellBehaved S) (L : Lim) (hL : 0 < L.dpLimit) (hT : 1 ≤ L.overshootTolerance)
    (sample : ℕ → ℝ) (hs : ∀ k, 0 ≤ sample k) (fuel n : ℕ) (Dt : ℝ) (hDt : 0 < Dt) (x z : St ι κ) (hx : Inv S x)
    (h : step S L sample fuel n Dt x = some z) : Inv S z := by
  cases hl : S.li with
  | none =>
    unfold step at h
    obtain ⟨y, hy, h⟩ := Option.bind_eq_some_iff.1 h
    rw [hl] at h
    simp only [Option.some.injEq] at h
    subst h
    have := coherent_spec S hS fuel Dt hDt x y (ne_zero_of_norm _ hx.norm_one) hx.try_pos hx.try_fin hy
    exact ⟨this.norm_one, this.try_pos, this.try_fin, this.t0_ex⟩
  | some l =>
    obtain ⟨w, y, y', hw, -, hev, hp, hy', rfl⟩ := step_spec S hS l hl L hL hT sample fuel n Dt hDt x z hx h
    have hpsi : y'.psi = y.psi := by rw [hy']; rfl
    have hdt : y'.dtDid = y.dtDid := by rw [hy']; rfl
    obtain ⟨p1, p2, -, p4, p5, -, p7⟩ := performJump_spec l (hS.li_consistent l hl) sample hs y' (by rw [hpsi]; exact hev.norm_one) (by rw [hdt]; exact hev.did_pos)
    refine ⟨?_, ?_, ?_, ?_⟩
    · cases hsel : selectJump (effectiveRates l y'.t y'.psi) (sample y'.nRandom) y'.dtDid with
      | none => rw [p2 hsel, hpsi]; exact hev.norm_one
      | some i =>
        obtain ⟨q1, q2, q3⟩ := (jump_iff _ (effectiveRates_nonneg l _ _) _ _ (hs _) (by rw [hdt]; exact hev.did_pos) i).1 hsel
        obtain ⟨r1, r2⟩ := p1 i q1 q2 q3
        rw [r2]
        exact norm_renorm _ r1
    · rw [p7, hy']
      exact adjustTry_pos S L hL l y y.t y.psi hev.try_pos
    · intro hha
      rw [p7, hy']
      exact adjustTry_fin S L _ y hev.try_fin hha
    · intro hex
      rw [p5, p4, hy']
      exact hev.t0_ex hex

/-- **C41.** Over an accepted step, the time increases by `dtDid`, which does not exceed the requested interval. -/
theorem step_time (S : Sys ι κ) (hS : WellBehaved S) (L : Lim) (hL : 0 < L.dpLimit) (hT : 1 ≤ L.overshootTolerance)
    (sample : ℕ → ℝ) (hs : ∀ k, 0 ≤ sample k) (fuel n : ℕ) (Dt : ℝ) (hDt : 0 < Dt) (x z : St ι κ) (hx : Inv S x)
    (h : step S L sample fuel n Dt x = some z) :
    z.t = x.t + z.dtDid ∧ 0 < z.dtDid ∧ z.dtDid ≤ Dt ∧ z.nRandom = x.nRandom + if S.li.isSome then 1 else 0 := by
  cases hl : S.li with
  | none =>
    unfold step at h
    obtain ⟨y, hy, h⟩ := Option.bind_eq_some_iff.1 h
    rw [hl] at h
    simp only [Option.some.injEq] at h
    subst h
    have := coherent_spec S hS fuel Dt hDt x y (ne_zero_of_norm _ hx.norm_one) hx.try_pos hx.try_fin hy
    exact ⟨this.time, this.did_pos, this.did_le, by simp [this.random]⟩
  | some l =>
    obtain ⟨w, y, y', hw, -, hev, hp, hy', rfl⟩ := step_spec S hS l hl L hL hT sample fuel n Dt hDt x z hx h
    have hpsi : y'.psi = y.psi := by rw [hy']; rfl
    have hdt : y'.dtDid = y.dtDid := by rw [hy']; rfl
    obtain ⟨-, -, p3, p4, -, p6, -⟩ := performJump_spec l (hS.li_consistent l hl) sample hs y' (by rw [hpsi]; exact hev.norm_one) (by rw [hdt]; exact hev.did_pos)
    rw [p3, p4, p6, hy']
    refine ⟨?_, hev.did_pos, hev.did_le, ?_⟩
    · show y.t = x.t + y.dtDid
      rw [hev.time, hw.2.1]
    · show y.nRandom + 1 = _
      rw [hev.random, hw.2.2.2.1]; simp

/-- **C41.** The next trial step respects the probability limit at the rates of the accepted trial. -/
theorem adjustTry_limit (S : Sys ι κ) (L : Lim) (hL : 0 < L.dpLimit) (l : Li ι) (x : St ι κ) (t : ℝ) (psi : ι → ℂ) (d : ℝ)
    (hd : (adjustTry S L (effectiveRates l t psi) x).dtTry = (d : WithTop ℝ)) : total (effectiveRates l t psi) * d ≤ L.dpLimit := by
  have h : (d : WithTop ℝ) ≤ suggested L (effectiveRates l t psi) := by
    rw [← hd]
    unfold adjustTry
    cases S.ha with
    | some ha => exact min_le_right _ _
    | none => exact le_rfl
  unfold suggested at h
  have h0 := total_nonneg l t psi
  by_cases hz : total (effectiveRates l t psi) = 0
  · rw [hz, zero_mul]; exact hL.le
  · simp only [eq_false hz, if_false] at h
    have := WithTop.coe_le_coe.1 h
    rw [le_div_iff₀ (lt_of_le_of_ne h0 (Ne.symm hz))] at this
    linarith

/-- **C41.** The invariants hold from the construction of the trajectory; the first trial step respects the probability limit. -/
theorem construct_inv (S : Sys ι κ) (L : Lim) (hL : 0 < L.dpLimit) (hT : 1 ≤ L.overshootTolerance) (psi : ι → ℂ) (hpsi : norm psi = 1) (ces : κ)
    (dtInit : ℝ) (hdt : 0 < dtInit) :
    Inv S (construct S L psi ces dtInit) ∧ (construct S L psi ces dtInit).psi = psi ∧ (construct S L psi ces dtInit).t = 0 ∧
    (∀ l, S.li = some l → ∀ d : ℝ, (construct S L psi ces dtInit).dtTry = (d : WithTop ℝ) → total (effectiveRates l 0 psi) * d ≤ L.dpLimit) := by
  unfold construct
  cases hl : S.li with
  | none =>
    exact ⟨⟨hpsi, WithTop.coe_lt_coe.2 hdt, fun _ => WithTop.coe_ne_top, fun _ => rfl⟩, rfl, rfl, fun l hh => by simp at hh⟩
  | some l =>
    have ho : ¬ overshot L (effectiveRates l 0 psi) 0 := by
      unfold overshot
      rw [mul_zero]
      exact not_lt.2 (mul_pos (by linarith) hL).le
    simp only [eq_false ho, if_false]
    refine ⟨⟨hpsi, ?_, ?_, fun _ => rfl⟩, rfl, rfl, ?_⟩
    · exact adjustTry_pos S L hL l _ 0 psi (WithTop.coe_lt_coe.2 hdt)
    · exact adjustTry_fin S L _ _ (fun _ => WithTop.coe_ne_top)
    · rintro l' hl' d hd
      obtain rfl := Option.some.inj hl'
      exact adjustTry_limit S L hL l _ 0 psi d hd

/-- A series of steps with the given intervals. -/
noncomputable def steps (S : Sys ι κ) (L : Lim) (sample : ℕ → ℝ) (fuel n : ℕ) : List ℝ → St ι κ → Option (St ι κ)
  | [], x => some x
  | Dt :: Dts, x => (step S L sample fuel n Dt x).bind (steps S L sample fuel n Dts)

/-- **C41.** The state vector has norm one after any series of steps from the construction of a trajectory. -/
theorem steps_norm (S : Sys ι κ) (hS : WellBehaved S) (L : Lim) (hL : 0 < L.dpLimit) (hT : 1 ≤ L.overshootTolerance) (psi : ι → ℂ) (hpsi : norm psi = 1)
    (ces : κ) (dtInit : ℝ) (hdt : 0 < dtInit) (sample : ℕ → ℝ) (hs : ∀ k, 0 ≤ sample k) (fuel n : ℕ) (Dts : List ℝ) (hDts : ∀ Dt ∈ Dts, 0 < Dt) (z : St ι κ)
    (h : steps S L sample fuel n Dts (construct S L psi ces dtInit) = some z) : ∑ i, Complex.normSq (z.psi i) = 1 := by
  have key : ∀ (Dts : List ℝ), (∀ Dt ∈ Dts, 0 < Dt) → ∀ x : St ι κ, Inv S x → steps S L sample fuel n Dts x = some z → Inv S z := by
    intro Dts
    induction Dts with
    | nil => intro _ x hx h; simp only [steps, Option.some.injEq] at h; exact h ▸ hx
    | cons Dt Dts ih =>
      intro hD x hx h
      obtain ⟨y, hy, h⟩ := Option.bind_eq_some_iff.1 h
      exact ih (fun d hd => hD d (by simp [hd])) y (step_inv S hS L hL hT sample hs fuel n Dt (hD Dt (by simp)) x y hx hy) h
  rw [← norm_sq, (key Dts hDts _ (construct_inv S L hL hT psi hpsi ces dtInit hdt).1 h).norm_one]
  norm_num

/-- **C41.** The step-backs come to an end if the tolerance factor is greater than one, the total rate is bounded, and the evolution itself always succeeds: each rejected
trial has a total rate greater than the previous one by the tolerance factor. -/
theorem step_terminates (S : Sys ι κ) (hS : WellBehaved S) (l : Li ι) (hl : S.li = some l) (L : Lim) (hL : 0 < L.dpLimit) (hT : 1 < L.overshootTolerance)
    (R : ℝ) (hR : ∀ t psi, norm psi = 1 → total (effectiveRates l t psi) ≤ R)
    (fuel : ℕ) (Dt : ℝ) (hDt : 0 < Dt) (hev : ∀ x : St ι κ, x.psi ≠ 0 → 0 < x.dtTry → (S.ha.isSome → x.dtTry ≠ ⊤) → (coherent S fuel Dt x).isSome)
    (sample : ℕ → ℝ) (x : St ι κ) (hx : Inv S x) : ∃ N, ∀ n ≥ N, (step S L sample fuel n Dt x).isSome := by
  have hx0 := ne_zero_of_norm _ hx.norm_one
  -- the total rate `q` of a rejected trial is followed by either acceptance or a total rate greater than `q * tolerance`
  have key : ∀ (N : ℕ) (q : ℝ), 0 < q → R < q * L.overshootTolerance ^ N → ∀ n ≥ N, ∀ w y : St ι κ, w.psi = x.psi → 0 < w.dtTry → (S.ha.isSome → w.dtTry ≠ ⊤) →
      coherent S fuel Dt w = some y → (overshot L (effectiveRates l y.t y.psi) y.dtDid → q ≤ total (effectiveRates l y.t y.psi)) →
      (retryLoop S l L fuel Dt x n y).isSome := by
    intro N
    induction N with
    | zero =>
      intro q hq hRq n _ w y hw hp hf hy hoq
      have e := coherent_spec S hS fuel Dt hDt w y (by rw [hw]; exact hx0) hp hf hy
      have ho : ¬ overshot L (effectiveRates l y.t y.psi) y.dtDid := fun ho => by
        have := hoq ho
        have := hR y.t y.psi e.norm_one
        simp only [pow_zero, mul_one] at hRq
        linarith
      rw [retryLoop.eq_def]
      simp [ho]
    | succ N ih =>
      intro q hq hRq n hn w y hw hp hf hy hoq
      have e := coherent_spec S hS fuel Dt hDt w y (by rw [hw]; exact hx0) hp hf hy
      by_cases ho : overshot L (effectiveRates l y.t y.psi) y.dtDid
      · obtain ⟨n, rfl⟩ : ∃ m, n = m + 1 := ⟨n - 1, by omega⟩
        have hqy := hoq ho
        have htot : 0 < total (effectiveRates l y.t y.psi) := lt_of_lt_of_le hq hqy
        have hsug : suggested L (effectiveRates l y.t y.psi) = ((L.dpLimit / total (effectiveRates l y.t y.psi) : ℝ) : WithTop ℝ) := by
          unfold suggested; exact if_neg htot.ne'
        set w2 : St ι κ := { setBack L (effectiveRates l y.t y.psi) x.t x.dtDid y with psi := x.psi } with hw2
        have hp2 : 0 < w2.dtTry := suggested_pos L hL l y.t y.psi
        have hf2 : S.ha.isSome → w2.dtTry ≠ ⊤ := fun _ => by
          show suggested L (effectiveRates l y.t y.psi) ≠ ⊤
          rw [hsug]; exact WithTop.coe_ne_top
        obtain ⟨y2, hy2⟩ := Option.isSome_iff_exists.1 (hev w2 hx0 hp2 hf2)
        rw [retryLoop.eq_def]
        simp only [eq_true ho, if_true]
        rw [← hw2, hy2, Option.bind_some]
        refine ih (q * L.overshootTolerance) (mul_pos hq (by linarith)) (by rw [mul_assoc, ← pow_succ']; exact hRq) n (by omega) w2 y2 rfl hp2 hf2 hy2 ?_
        intro ho2
        have e2 := coherent_spec S hS fuel Dt hDt w2 y2 hx0 hp2 hf2 hy2
        have hle : y2.dtDid ≤ L.dpLimit / total (effectiveRates l y.t y.psi) := by
          have := e2.did_le_try (Or.inr (by rw [hl]; rfl))
          change _ ≤ suggested L (effectiveRates l y.t y.psi) at this
          rw [hsug] at this
          exact WithTop.coe_le_coe.1 this
        unfold overshot at ho2
        have h1 : total (effectiveRates l y2.t y2.psi) * y2.dtDid ≤ total (effectiveRates l y2.t y2.psi) * (L.dpLimit / total (effectiveRates l y.t y.psi)) :=
          mul_le_mul_of_nonneg_left hle (total_nonneg l _ _)
        have h2 : L.overshootTolerance * L.dpLimit < total (effectiveRates l y2.t y2.psi) * L.dpLimit / total (effectiveRates l y.t y.psi) := by
          rw [mul_div_assoc]; linarith
        rw [lt_div_iff₀ htot] at h2
        have h3 : L.overshootTolerance * total (effectiveRates l y.t y.psi) < total (effectiveRates l y2.t y2.psi) := by
          by_contra hc
          have := mul_le_mul_of_nonneg_right (not_lt.1 hc) hL.le
          linarith
        have h4 : L.overshootTolerance * q ≤ L.overshootTolerance * total (effectiveRates l y.t y.psi) := mul_le_mul_of_nonneg_left hqy (by linarith)
        linarith
      · rw [retryLoop.eq_def]
        simp [ho]
  obtain ⟨y, hy⟩ := Option.isSome_iff_exists.1 (hev x hx0 hx.try_pos hx.try_fin)
  have e := coherent_spec S hS fuel Dt hDt x y hx0 hx.try_pos hx.try_fin hy
  by_cases ho : overshot L (effectiveRates l y.t y.psi) y.dtDid
  · have htot := overshot_total_pos L hL hT.le l y.t y.psi y.dtDid e.did_pos.le ho
    obtain ⟨N, hN⟩ := pow_unbounded_of_one_lt (R / total (effectiveRates l y.t y.psi)) hT
    rw [div_lt_iff₀ htot] at hN
    refine ⟨N, fun n hn => ?_⟩
    unfold step
    rw [hy, Option.bind_some, hl]
    simp only [Option.isSome_map]
    exact key N _ htot (by linarith) n hn x y rfl hx.try_pos hx.try_fin hy (fun _ => le_rfl)
  · refine ⟨0, fun n _ => ?_⟩
    unfold step
    rw [hy, Option.bind_some, hl]
    simp only [Option.isSome_map]
    rw [retryLoop.eq_def]
    simp [ho]

/-! ## Saving and reloading between steps (cf. C37) -/

/-- **C41, C37.** With an exact part, loading the state saved between two steps into whatever object restores the trajectory completely. -/
theorem reload_between_steps (S : Sys ι κ) (hS : WellBehaved S) (hex : S.ex.isSome) (L : Lim) (hL : 0 < L.dpLimit) (hT : 1 ≤ L.overshootTolerance)
    (sample : ℕ → ℝ) (hs : ∀ k, 0 ≤ sample k) (fuel n : ℕ) (Dt : ℝ) (hDt : 0 < Dt) (x z : St ι κ) (hx : Inv S x)
    (h : step S L sample fuel n Dt x = some z) (y : St ι κ) : load (save z) y = z := by
  have := (step_inv S hS L hL hT sample hs fuel n Dt hDt x z hx h).t0_eq hex
  obtain ⟨t, t0, psi, ces, dtDid, dtTry, nSteps, nFailedSteps, nRandom⟩ := z
  simp only at this
  subst this
  rfl

/-- Two states of the trajectory that may differ in the reference time only. -/
def SameButT0 (x y : St ι κ) : Prop := y = { x with t0 := y.t0 }

theorem SameButT0.iff (x y : St ι κ) : SameButT0 x y ↔ ∃ t0, y = { x with t0 := t0 } :=
  ⟨fun h => ⟨y.t0, h⟩, fun ⟨t0, h⟩ => by subst h; rfl⟩

theorem evolve_t0 (S : Sys ι κ) (hha : ∀ ha, S.ha = some ha → ∀ t0 t0', ha t0 = ha t0') (fuel : ℕ) (Dt : ℝ) (x : St ι κ) (t0 : ℝ) :
    evolve S fuel Dt { x with t0 := t0 } = (evolve S fuel Dt x).map fun y => { y with t0 := t0 } := by
  unfold evolve
  cases h : S.ha with
  | none => rfl
  | some ha =>
    simp only
    cases x.dtTry with
    | top => rfl
    | coe d =>
      simp only [Option.map_map]
      rw [hha ha h t0 x.t0]
      rfl

theorem coherent_t0 (S : Sys ι κ) (hex : S.ex = none) (hha : ∀ ha, S.ha = some ha → ∀ t0 t0', ha t0 = ha t0') (fuel : ℕ) (Dt : ℝ) (x : St ι κ) (t0 : ℝ) :
    coherent S fuel Dt { x with t0 := t0 } = (coherent S fuel Dt x).map fun y => { y with t0 := t0 } := by
  unfold coherent
  rw [evolve_t0 S hha, Option.map_map, Option.map_map]
  congr 1
  funext y
  simp only [Function.comp, exact, hex]

theorem retryLoop_t0 (S : Sys ι κ) (hex : S.ex = none) (hha : ∀ ha, S.ha = some ha → ∀ t0 t0', ha t0 = ha t0') (l : Li ι) (L : Lim) (fuel : ℕ) (Dt : ℝ) (c : St ι κ)
    (n : ℕ) (x : St ι κ) (t0 t0' : ℝ) :
    retryLoop S l L fuel Dt { c with t0 := t0' } n { x with t0 := t0 } = (retryLoop S l L fuel Dt c n x).map fun y => { y with t0 := t0 } := by
  induction n generalizing x with
  | zero =>
    rw [retryLoop.eq_def, retryLoop.eq_def]
    simp only
    by_cases ho : overshot L (effectiveRates l x.t x.psi) x.dtDid
    · simp only [eq_true ho, if_true, Option.map_none]
    · simp only [eq_false ho, if_false, Option.map_some]
      rfl
  | succ n ih =>
    rw [retryLoop.eq_def, retryLoop.eq_def]
    simp only
    by_cases ho : overshot L (effectiveRates l x.t x.psi) x.dtDid
    · simp only [eq_true ho, if_true]
      have := coherent_t0 S hex hha fuel Dt { setBack L (effectiveRates l x.t x.psi) c.t c.dtDid x with psi := c.psi } t0
      simp only [setBack] at this ⊢
      rw [this]
      cases hc : coherent S fuel Dt { x with t := c.t, dtDid := c.dtDid, dtTry := suggested L (effectiveRates l x.t x.psi), psi := c.psi } with
      | none => rfl
      | some y =>
        simp only [Option.map_some, Option.bind_some]
        exact ih y
    · simp only [eq_false ho, if_false, Option.map_some]
      rfl

/-- **C41, C37.** Without an exact part, if the Hamiltonian does not depend on the reference time, loading what has been saved between steps has no effect on the evolution: the next step
gives the same except for the reference time. -/
theorem reload_without_exact (S : Sys ι κ) (hex : S.ex = none) (hha : ∀ ha, S.ha = some ha → ∀ t0 t0', ha t0 = ha t0') (L : Lim) (sample : ℕ → ℝ) (fuel n : ℕ)
 (Dt : ℝ) (x y : St ι κ) :
    step S L sample fuel n Dt (load (save x) y) = (step S L sample fuel n Dt x).map fun y => { y with t0 := x.t } := by
  have hl : load (save x) y = { x with t0 := x.t } := rfl
  rw [hl]
  unfold step
  rw [coherent_t0 S hex hha]
  cases hc : coherent S fuel Dt x with
  | none => rfl
  | some y =>
    simp only [Option.map_some, Option.bind_some]
    cases hl : S.li with
    | none => rfl
    | some l =>
      simp only
      rw [retryLoop_t0 S hex hha, Option.map_map, Option.map_map]
      congr 1
      funext z
      simp only [Function.comp, performJump]
      split <;> rfl

/-! ## C63: retried steps and the interaction picture -/

/-- **C63**, the part that holds: without an exact part, the accepted trial starts from the state, time and reference time of the trajectory before the step. -/
theorem retry_partial (S : Sys ι κ) (hS : WellBehaved S) (hex : S.ex = none) (l : Li ι) (hl : S.li = some l) (L : Lim) (hL : 0 < L.dpLimit)
    (hT : 1 ≤ L.overshootTolerance) (sample : ℕ → ℝ) (fuel n : ℕ) (Dt : ℝ) (hDt : 0 < Dt) (x z : St ι κ) (hx : Inv S x)
    (h : step S L sample fuel n Dt x = some z) :
    ∃ w y y' : St ι κ, w.psi = x.psi ∧ w.t = x.t ∧ w.t0 = x.t0 ∧ coherent S fuel Dt w = some y ∧ y'.psi = y.psi ∧ y'.t = y.t ∧ z = performJump l sample y' := by
  obtain ⟨w, y, y', hw, h1, -, -, h2, h3⟩ := step_spec S hS l hl L hL hT sample fuel n Dt hDt x z hx h
  exact ⟨w, y, y', hw.1, hw.2.1, hw.2.2.2.2.1 hex, h1, by rw [h2]; rfl, by rw [h2]; rfl, h3⟩

/-- **C63**, the part that holds: with an exact part (here, without a Hamiltonian part), if the first trial is accepted, the exact propagation is the one from the time before
the step. -/
theorem first_trial_partial (S : Sys ι κ) (U : ℝ → (ι → ℂ) → ℝ → ι → ℂ) (hex : S.ex = some U) (hha : S.ha = none) (fuel : ℕ) (Dt : ℝ) (x y : St ι κ)
    (hx : Inv S x) (h : coherent S fuel Dt x = some y) : y.psi = renorm (U y.t x.psi x.t) ∧ y.t0 = y.t := by
  unfold coherent at h
  obtain ⟨z, hz, rfl⟩ := Option.map_eq_some_iff.1 h
  unfold evolve at hz
  rw [hha] at hz
  simp only [Option.some.injEq] at hz
  subst hz
  simp only [exact, hex]
  exact ⟨by rw [hx.t0_eq (by rw [hex]; rfl)], trivial⟩

/-- An example: two levels with the exact part damping the second one (`exp(-(t-t0))`), and a decay channel whose rate grows in time. -/
noncomputable def exampleSys : Sys (Fin 2) Unit where
  ha := none
  ex := some fun t psi t0 i => if i = 0 then psi 0 else (Real.exp (-(t - t0)) : ℂ) * psi 1
  li := some ⟨fun t _ => [1 + 10 * t ^ 2], fun t psi _ i => (Real.sqrt (1 + 10 * t ^ 2) : ℂ) * psi i⟩

theorem norm_smul_real (c : ℝ) (hc : 0 ≤ c) (psi : ι → ℂ) : norm (fun i => (c : ℂ) * psi i) = c * norm psi := by
  unfold norm
  simp only [Complex.normSq_mul, Complex.normSq_ofReal, ← Finset.mul_sum]
  rw [Real.sqrt_mul (mul_self_nonneg c), Real.sqrt_mul_self hc]

theorem exampleSys_wellBehaved : WellBehaved exampleSys := by
  refine ⟨fun ha h => by simp [exampleSys] at h, fun ha h => by simp [exampleSys] at h, ?_, ?_⟩
  · intro U hU t psi t0 hpsi h0
    simp only [exampleSys, Option.some.injEq] at hU
    subst hU
    apply hpsi
    funext i
    have h0 := congrFun h0 i
    fin_cases i
    · simpa using h0
    · simpa [Complex.exp_ne_zero] using h0
  · intro l hl t psi hpsi i r hr h0
    simp only [exampleSys, Option.some.injEq] at hl
    subst hl
    have h1 : 0 ≤ 1 + 10 * t ^ 2 := by positivity
    cases i with
    | succ i => simp at hr
    | zero =>
      simp only [List.getElem?_cons_zero, Option.some.injEq] at hr
      rw [norm_smul_real _ (Real.sqrt_nonneg _), hpsi, mul_one, Real.sq_sqrt h1, hr]

/-- The initial state of the example: an equal superposition. -/
noncomputable def examplePsi : Fin 2 → ℂ := fun _ => ((Real.sqrt (1 / 2) : ℝ) : ℂ)

theorem norm_examplePsi : norm examplePsi = 1 := by
  unfold norm examplePsi
  simp only [Complex.normSq_ofReal, Real.mul_self_sqrt (by norm_num : (0 : ℝ) ≤ 1 / 2)]
  norm_num

/-- Probability limit 1/2, tolerance factor 2. -/
noncomputable def exampleLim : Lim := ⟨1 / 2, 2⟩

theorem example_rates (t : ℝ) (psi : Fin 2 → ℂ) (l : Li (Fin 2)) (hl : exampleSys.li = some l) : effectiveRates l t psi = [1 + 10 * t ^ 2] := by
  simp only [exampleSys, Option.some.injEq] at hl
  subst hl
  have h1 : ¬ 1 + 10 * t ^ 2 < 0 := not_lt.2 (by positivity)
  unfold effectiveRates
  simp [h1]

theorem example_construct : construct exampleSys exampleLim examplePsi () 3 = ⟨0, 0, examplePsi, (), 0, ((1 / 2 : ℝ) : WithTop ℝ), 0, 0, 0⟩ := by
  unfold construct
  cases hl : exampleSys.li with
  | none => simp [exampleSys] at hl
  | some l =>
    have ho : ¬ overshot exampleLim (effectiveRates l 0 examplePsi) 0 := by
      rw [example_rates _ _ l hl]
      unfold overshot exampleLim; norm_num
    have : exampleSys.ha = none := rfl
    simp only [eq_false ho, if_false]
    simp only [adjustTry, this, example_rates _ _ l hl]
    simp only [suggested, total, exampleLim]
    norm_num

/-- The hypotheses of the theorems about steps hold for the example at the start. -/
theorem example_inv : Inv exampleSys (construct exampleSys exampleLim examplePsi () 3) :=
  (construct_inv exampleSys exampleLim (by norm_num [exampleLim]) (by norm_num [exampleLim]) examplePsi norm_examplePsi () 3 (by norm_num)).1

theorem example_coherent (Dt t t0 d : ℝ) (hd : d ≤ Dt) (psi : Fin 2 → ℂ) (did : ℝ) (n m k : ℕ) :
    coherent exampleSys 0 Dt ⟨t, t0, psi, (), did, (d : WithTop ℝ), n, m, k⟩ =
      some ⟨t + d, t + d, renorm fun i => if i = 0 then psi 0 else (Real.exp (-(t + d - t0)) : ℂ) * psi 1, (), d, (d : WithTop ℝ), n, m, k⟩ := by
  have h1 : exampleSys.ha = none := rfl
  obtain ⟨l, hl⟩ : ∃ l, exampleSys.li = some l := ⟨_, rfl⟩
  unfold coherent evolve
  simp only [h1, hl, min_eq_left (WithTop.coe_le_coe.2 hd), WithTop.untopD_coe, Option.map_some, exact, exampleSys]

theorem example_no_overshot (L : Lim) (fuel n : ℕ) (Dt : ℝ) (c y : St (Fin 2) Unit) (l : Li (Fin 2)) (hl : exampleSys.li = some l)
    (ho : (1 + 10 * y.t ^ 2) * y.dtDid ≤ L.overshootTolerance * L.dpLimit) :
    retryLoop exampleSys l L fuel Dt c n y = some (adjustTry exampleSys L [1 + 10 * y.t ^ 2] y) := by
  have ho' : ¬ overshot L (effectiveRates l y.t y.psi) y.dtDid := by
    rw [example_rates _ _ l hl]
    unfold overshot total
    simp only [List.foldl_cons, List.foldl_nil, zero_add]
    exact not_lt.2 ho
  rw [retryLoop.eq_def]
  simp only [eq_false ho', if_false]
  rw [example_rates _ _ l hl]

/-- **C63**, the violated part: in the example, the first trial (a step of 1/2) gets rejected, and the retried step of 1/7 is accepted without a jump. Although the
second amplitude should have been damped by `exp(-1/7)` with respect to the first one, it is amplified by `exp(5/14)`, because the exact propagation of
the retried step starts from the end of the rejected one. -/
theorem retry_wrong_propagator : ∃ z, step exampleSys exampleLim (fun _ => 9 / 10) 0 1 1 (construct exampleSys exampleLim examplePsi () 3) = some z ∧
    z.t = 1 / 7 ∧ z.psi 1 = (Real.exp (5 / 14) : ℂ) * z.psi 0 ∧ z.psi 0 ≠ 0 := by
  obtain ⟨l, hl⟩ : ∃ l, exampleSys.li = some l := ⟨_, rfl⟩
  rw [example_construct]
  unfold step
  rw [example_coherent 1 0 0 (1 / 2) (by norm_num), Option.bind_some, hl]
  simp only
  set y : St (Fin 2) Unit := ⟨0 + 1 / 2, 0 + 1 / 2, renorm fun i => if i = 0 then examplePsi 0 else (Real.exp (-(0 + 1 / 2 - 0)) : ℂ) * examplePsi 1, (), 1 / 2,
    ((1 / 2 : ℝ) : WithTop ℝ), 0, 0, 0⟩ with hy
  have ho : overshot exampleLim (effectiveRates l y.t y.psi) y.dtDid := by
    rw [example_rates _ _ l hl]
    unfold overshot exampleLim total
    norm_num [hy]
  have hs : suggested exampleLim (effectiveRates l y.t y.psi) = ((1 / 7 : ℝ) : WithTop ℝ) := by
    rw [example_rates _ _ l hl]
    unfold suggested exampleLim total
    norm_num [hy]
  rw [retryLoop.eq_def]
  simp only [eq_true ho, if_true, setBack, hs]
  simp only [hy]
  rw [example_coherent 1 0 (0 + 1 / 2) (1 / 7) (by norm_num), Option.bind_some, example_no_overshot _ _ _ _ _ _ l hl (by norm_num [exampleLim])]
  simp only [Option.map_some, performJump, adjustTry, example_rates _ _ l hl]
  have hsel : selectJump [1 + 10 * ((0 : ℝ) + 1 / 7) ^ 2] (9 / 10) (1 / 7) = none := by
    unfold selectJump
    simp only [selectLoop]
    norm_num
  simp only [hsel]
  refine ⟨_, rfl, by norm_num, ?_, ?_⟩
  · simp only
    unfold renorm divBy
    simp only [one_ne_zero, if_false, if_true]
    rw [mul_div_assoc, show (-(0 + 1 / 7 - (0 + 1 / 2)) : ℝ) = 5 / 14 by norm_num]
    rfl
  · simp only
    unfold renorm divBy
    have h0 : examplePsi 0 ≠ 0 := by
      unfold examplePsi
      rw [Complex.ofReal_ne_zero]
      exact (Real.sqrt_pos.2 (by norm_num)).ne'
    simp only [if_true]
    refine div_ne_zero h0 ?_
    rw [Complex.ofReal_ne_zero]
    refine ((norm_pos_iff _).2 fun h => h0 ?_).ne'
    simpa using congrFun h 0

/-- The hypotheses of `step_terminates` and `reload_without_exact` are met e.g. by a system with a single channel of rate 1 which leaves the state as it is. -/
example (sample : ℕ → ℝ) : ∃ N, ∀ n ≥ N, (step (⟨none, none, some ⟨fun _ _ => [1], fun _ psi _ => psi⟩⟩ : Sys (Fin 2) Unit) exampleLim sample 0 n 1
    (construct ⟨none, none, some ⟨fun _ _ => [1], fun _ psi _ => psi⟩⟩ exampleLim examplePsi () 3)).isSome := by
  have hc : Consistent (⟨fun _ _ => [1], fun _ psi _ => psi⟩ : Li (Fin 2)) := by
    intro t psi hpsi i r hr _
    cases i with
    | succ i => simp at hr
    | zero => simp only [List.getElem?_cons_zero, Option.some.injEq] at hr; rw [hpsi, ← hr]; norm_num
  refine step_terminates _ ⟨fun ha h => by simp at h, fun ha h => by simp at h, fun U h => by simp at h, fun l hl => ?_⟩ _ rfl exampleLim
    (by norm_num [exampleLim]) (by norm_num [exampleLim]) 1 ?_ 0 1 (by norm_num) (fun x _ _ _ => by simp [coherent, evolve]) sample _
    (construct_inv _ exampleLim (by norm_num [exampleLim]) (by norm_num [exampleLim]) examplePsi norm_examplePsi () 3 (by norm_num)).1
  · simp only [Option.some.injEq] at hl; exact hl ▸ hc
  · intro t psi _
    unfold effectiveRates total
    norm_num

end CppQED.MCWF
