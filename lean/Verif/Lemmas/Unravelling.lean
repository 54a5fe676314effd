import Verif.Lemmas.UnravelMaps
import Verif.Lemmas.UnravelProbability

/-! # Helper lemmas about the unravelling of the Master equation: induction over the steps of a run -/

namespace CppQED.Unravel
open MeasureTheory ProbabilityTheory Matrix MCWF
open scoped ComplexConjugate

variable {ι κ Ω : Type*} [Fintype ι] [MeasurableSpace Ω] {μ : Measure Ω} [IsProbabilityMeasure μ] {sample : ℕ → Ω → ℝ}

/-- The numbers are in `[0,1)`. -/
def Unit01 (s : ℕ → ℝ) : Prop := ∀ j, s j ∈ Set.Ico (0 : ℝ) 1

/-- A step before the jump. -/
noncomputable def pre (S : Sys ι κ) (l : Li ι) (L : Lim) (fuel n : ℕ) (Dt : ℝ) (x : St ι κ) : Option (St ι κ) := (MCWF.coherent S fuel Dt x).bind (retryLoop S l L fuel Dt x n)

theorem step_eq_pre (S : Sys ι κ) (l : Li ι) (hl : S.li = some l) (L : Lim) (s : ℕ → ℝ) (fuel n : ℕ) (Dt : ℝ) (x : St ι κ) :
    step S L s fuel n Dt x = (pre S l L fuel n Dt x).map (performJump l s) := by
  unfold step pre
  rw [hl]
  simp only [Option.map_bind]
  rfl

/-- The outcomes of the jump. -/
noncomputable def afterJump (l : Li ι) (y : St ι κ) : Option ℕ → St ι κ
  | some no => { y with psi := jumped l y.t y.psi (effectiveRates l y.t y.psi) (specialJumps l y.t y.psi) no, nRandom := y.nRandom + 1 }
  | none => { y with nRandom := y.nRandom + 1 }

theorem performJump_eq (l : Li ι) (s : ℕ → ℝ) (y : St ι κ) :
    performJump l s y = afterJump l y (selectJump (effectiveRates l y.t y.psi) (s y.nRandom) y.dtDid) := by
  unfold performJump
  cases h : selectJump (effectiveRates l y.t y.psi) (s y.nRandom) y.dtDid <;> simp only [h] <;> rfl

theorem afterJump_nRandom (l : Li ι) (y : St ι κ) (o : Option ℕ) : (afterJump l y o).nRandom = y.nRandom + 1 := by cases o <;> rfl

theorem coherent_nRandom (S : Sys ι κ) (fuel : ℕ) (Dt : ℝ) (x y : St ι κ) (h : MCWF.coherent S fuel Dt x = some y) : y.nRandom = x.nRandom := by
  unfold MCWF.coherent at h
  obtain ⟨z, hz, rfl⟩ := Option.map_eq_some_iff.1 h
  have h1 : z.nRandom = x.nRandom := by
    unfold evolve at hz
    cases hha : S.ha with
    | none =>
      rw [hha] at hz
      simp only [Option.some.injEq] at hz
      rw [← hz]
    | some ha =>
      rw [hha] at hz
      simp only at hz
      cases hd : x.dtTry with
      | top => rw [hd] at hz; simp at hz
      | coe d =>
        rw [hd] at hz
        simp only at hz
        obtain ⟨r, _, rfl⟩ := Option.map_eq_some_iff.1 hz
        rfl
  rw [← h1]
  unfold exact
  cases S.ex <;> rfl

theorem retryLoop_nRandom (S : Sys ι κ) (l : Li ι) (L : Lim) (fuel : ℕ) (Dt : ℝ) (c : St ι κ) (n : ℕ) : ∀ x y, retryLoop S l L fuel Dt c n x = some y → y.nRandom = x.nRandom := by
  classical
  induction n with
  | zero =>
    intro x y h
    unfold retryLoop at h
    by_cases ho : overshot L (effectiveRates l x.t x.psi) x.dtDid
    · simp only [eq_true ho, if_true] at h
      exact absurd h (by simp)
    · simp only [eq_false ho, if_false, Option.some.injEq] at h
      rw [← h]; rfl
  | succ n ih =>
    intro x y h
    unfold retryLoop at h
    by_cases ho : overshot L (effectiveRates l x.t x.psi) x.dtDid
    · simp only [eq_true ho, if_true] at h
      obtain ⟨z, hz, h⟩ := Option.bind_eq_some_iff.1 h
      rw [ih z y h, coherent_nRandom S fuel Dt _ z hz]
      rfl
    · simp only [eq_false ho, if_false, Option.some.injEq] at h
      rw [← h]; rfl

theorem pre_nRandom (S : Sys ι κ) (l : Li ι) (L : Lim) (fuel n : ℕ) (Dt : ℝ) (x y : St ι κ) (h : pre S l L fuel n Dt x = some y) : y.nRandom = x.nRandom := by
  obtain ⟨z, hz, h⟩ := Option.bind_eq_some_iff.1 h
  rw [retryLoop_nRandom S l L fuel Dt x n z y h, coherent_nRandom S fuel Dt x z hz]

/-- Every outcome of nonzero probability is obtained with some number of `[0,1)`. -/
theorem outcome_possible (rates : List ℝ) (hr : ∀ r ∈ rates, 0 ≤ r) (dt : ℝ) (hdt : 0 < dt) (hp : rates.sum * dt ≤ 1) (o : Option ℕ)
    (ho : ∀ i, o = some i → ∃ h : i < rates.length, 0 < rates[i]) : ∃ u ∈ Set.Ico (0 : ℝ) 1, selectJump rates u dt = o := by
  cases o with
  | none =>
    refine ⟨0, ⟨le_rfl, one_pos⟩, ?_⟩
    cases h : selectJump rates 0 dt with
    | none => rfl
    | some i =>
      obtain ⟨h1, h2, _⟩ := (jump_iff rates hr 0 dt le_rfl hdt i).1 h
      have : 0 ≤ (rates.take i).sum := List.sum_nonneg fun r hm => hr r (List.mem_of_mem_take hm)
      nlinarith
  | some i =>
    obtain ⟨h1, h2⟩ := ho i rfl
    have h0 : 0 ≤ (rates.take i).sum := List.sum_nonneg fun r hm => hr r (List.mem_of_mem_take hm)
    have hs := take_succ_sum rates i h1
    have hle := take_sum_le rates hr (i + 1)
    refine ⟨((rates.take i).sum + rates[i] / 2) * dt, ⟨by positivity, ?_⟩, ?_⟩
    · have : (rates.take i).sum + rates[i] / 2 < rates.sum := by linarith
      nlinarith
    · refine (jump_iff rates hr _ dt (by positivity) hdt i).2 ⟨h1, ?_, ?_⟩
      · exact mul_lt_mul_of_pos_right (by linarith) hdt
      · exact mul_lt_mul_of_pos_right (by linarith) hdt

/-- The setting: the system, and what is assumed of it. -/
structure Setting (S : Sys ι κ) (l : Li ι) (L : Lim) (A : Matrix ι ι ℂ) (J : List (Matrix ι ι ℂ)) (c ε h : ℝ) : Prop where
  well : WellBehaved S
  li : S.li = some l
  dp : 0 < L.dpLimit
  tol : 1 ≤ L.overshootTolerance
  prob : L.overshootTolerance * L.dpLimit ≤ 1
  follows : Follows S A J c ε h
  noRetry : S.ex.isSome → ∀ t psi, MCWF.norm psi = 1 → total (effectiveRates l t psi) * h ≤ L.overshootTolerance * L.dpLimit

section setting
variable {S : Sys ι κ} {l : Li ι} {L : Lim} {A : Matrix ι ι ℂ} {J : List (Matrix ι ι ℂ)} {c ε h : ℝ}

theorem Setting.jumps (hs : Setting S l L A J c ε h) (t : ℝ) (psi : ι → ℂ) :
    (effectiveRates l t psi).length = J.length ∧ ∀ (i : ℕ) (h : i < J.length), l.actWithJ t psi i = J[i] *ᵥ psi := by
  obtain ⟨l', h1, h2⟩ := hs.follows.jumps
  rw [hs.li] at h1
  cases h1
  rw [length_effectiveRates]
  exact h2 t psi

/-- Positive factors do not matter. -/
theorem renorm_pos (ψ : ι → ℂ) (s : ℝ) (hs : 0 < s) : renorm (fun i => s * ψ i) = renorm ψ := by
  have hn : MCWF.norm (fun i => s * ψ i) = s * MCWF.norm ψ := by
    unfold MCWF.norm
    simp only [Complex.normSq_mul, Complex.normSq_ofReal, ← Finset.mul_sum]
    rw [Real.sqrt_mul (by positivity), Real.sqrt_mul_self hs.le]
  unfold renorm divBy
  funext i
  rw [hn]
  push_cast
  have : (s : ℂ) ≠ 0 := by exact_mod_cast hs.ne'
  by_cases h : (MCWF.norm ψ : ℂ) = 0
  · simp [h]
  · field_simp

/-- The coherent part of a step. -/
theorem pre_spec (hs : Setting S l L A J c ε h) (fuel n : ℕ) (Dt : ℝ) (hDt : 0 < Dt) (hDth : Dt ≤ h) (x y : St ι κ) (hx : Inv S x) (hy : pre S l L fuel n Dt x = some y) :
    ∃ φ : ι → ℂ, y.psi = renorm φ ∧ MCWF.norm y.psi = 1 ∧ (∀ i, ‖φ i - (x.psi i + y.dtDid * (A *ᵥ x.psi) i)‖ ≤ c * y.dtDid ^ 2 + ε * y.dtDid) ∧
      y.t = x.t + y.dtDid ∧ 0 < y.dtDid ∧ y.dtDid ≤ Dt ∧ (effectiveRates l y.t y.psi).sum * y.dtDid ≤ 1 := by
  obtain ⟨z, hz, hy⟩ := Option.bind_eq_some_iff.1 hy
  have hx0 := ne_zero_of_norm _ hx.norm_one
  obtain ⟨w, y2, hw, hc, hev, hp, rfl⟩ := retryLoop_spec S hs.well l L hs.dp hs.tol fuel Dt hDt x hx0 n x z y ⟨rfl, rfl, rfl, rfl, fun _ => rfl, Or.inl rfl⟩ hx.try_pos hx.try_fin hz hy
  have ht0 : S.ex.isSome → w.t0 = w.t := by
    intro he
    rcases hw.2.2.2.2.2 with rfl | ⟨v, y', hv, _, _, ho, _⟩
    · exact hx.t0_eq he
    · exfalso
      have h1 := hs.noRetry he y'.t y'.psi hv.norm_one
      have h2 := total_nonneg l y'.t y'.psi
      have h3 : y'.dtDid ≤ h := hv.did_le.trans hDth
      nlinarith
  unfold MCWF.coherent at hc
  obtain ⟨v, hv, hvy⟩ := Option.map_eq_some_iff.1 hc
  have hdid : (exact S v).dtDid = v.dtDid := by unfold exact; cases S.ex <;> rfl
  have hy2 : y2.dtDid = v.dtDid := by rw [← hvy]; exact hdid
  obtain ⟨σ, hσ, hacc⟩ := hs.follows.coherent fuel Dt w v hDt (by rw [hw.1]; exact hx.norm_one) ht0 hv (by rw [← hy2]; exact hev.did_pos) (by rw [← hy2]; exact hev.did_le.trans hDth)
  refine ⟨fun i => σ * (exact S v).psi i, ?_, hev.norm_one, ?_, ?_, hev.did_pos, hev.did_le, ?_⟩
  · show y2.psi = _
    rw [← hvy, renorm_pos _ _ hσ]
  · intro i
    have := hacc i
    rw [hw.1] at this
    show ‖σ * (exact S v).psi i - (x.psi i + y2.dtDid * (A *ᵥ x.psi) i)‖ ≤ c * y2.dtDid ^ 2 + ε * y2.dtDid
    rw [hy2]
    exact this
  · show y2.t = x.t + y2.dtDid
    rw [hev.time, hw.2.1]
  · show (effectiveRates l y2.t y2.psi).sum * y2.dtDid ≤ 1
    rw [← total_eq_sum]
    exact hp.trans hs.prob

/-- The outcomes of a step are again states between steps. -/
theorem afterJump_inv (hs : Setting S l L A J c ε h) (fuel n : ℕ) (Dt : ℝ) (hDt : 0 < Dt) (hDth : Dt ≤ h) (x y : St ι κ) (hx : Inv S x) (hy : pre S l L fuel n Dt x = some y) (o : Option ℕ)
    (ho : ∀ i, o = some i → ∃ h : i < (effectiveRates l y.t y.psi).length, 0 < (effectiveRates l y.t y.psi)[i]) :
    Inv S (afterJump l y o) ∧ (afterJump l y o).t = y.t ∧ (∃ u ∈ Set.Ico (0 : ℝ) 1, selectJump (effectiveRates l y.t y.psi) u y.dtDid = o) := by
  obtain ⟨φ, h1, h2, h3, h4, h5, h6, h7⟩ := pre_spec hs fuel n Dt hDt hDth x y hx hy
  obtain ⟨u, hu, hsel⟩ := outcome_possible _ (effectiveRates_nonneg l y.t y.psi) y.dtDid h5 h7 o ho
  have he : step S L (fun _ => u) fuel n Dt x = some (afterJump l y o) := by
    rw [step_eq_pre S l hs.li, hy, Option.map_some, performJump_eq, hsel]
  exact ⟨step_inv S hs.well L hs.dp hs.tol (fun _ => u) (fun _ => hu.1) fuel n Dt hDt x _ hx he, by cases o <;> rfl, u, hu, hsel⟩

/-- The state after a jump. -/
theorem afterJump_outer (hs : Setting S l L A J c ε h) (fuel n : ℕ) (Dt : ℝ) (hDt : 0 < Dt) (hDth : Dt ≤ h) (x y : St ι κ) (hx : Inv S x) (hy : pre S l L fuel n Dt x = some y)
    (i : ℕ) (hi : i < (effectiveRates l y.t y.psi).length) (hiJ : i < J.length) :
    (effectiveRates l y.t y.psi)[i] • outer (afterJump l y (some i)).psi = jumpMap J[i] (outer y.psi) ∧
    (((effectiveRates l y.t y.psi)[i] : ℝ) : ℂ) = trMap (jumpMap J[i] (outer y.psi)) := by
  obtain ⟨φ, h1, h2, h3, h4, h5, h6, h7⟩ := pre_spec hs fuel n Dt hDt hDth x y hx hy
  have hact := (hs.jumps y.t y.psi).2 i hiJ
  have hlen : i < (l.rates y.t y.psi).length := by rw [← length_effectiveRates]; exact hi
  have hrate := effectiveRates_consistent l (hs.well.li_consistent l hs.li) y.t y.psi h2 i hlen
  rw [List.getElem?_eq_getElem hi, Option.some.injEq] at hrate
  have hr2 : (((effectiveRates l y.t y.psi)[i] : ℝ) : ℂ) = trMap (jumpMap J[i] (outer y.psi)) := by
    rw [hrate, ← outer_mulVec, tr_outer, hact]
  refine ⟨?_, hr2⟩
  have hnn := effectiveRates_nonneg l y.t y.psi _ (List.getElem_mem hi)
  rcases hnn.lt_or_eq with hpos | hz
  · obtain ⟨u, hu, hsel⟩ := outcome_possible _ (effectiveRates_nonneg l y.t y.psi) y.dtDid h5 h7 (some i) (by rintro j ⟨⟩; exact ⟨hi, hpos⟩)
    obtain ⟨_, q2, q3⟩ := (jump_iff _ (effectiveRates_nonneg l y.t y.psi) u y.dtDid hu.1 h5 i).1 hsel
    obtain ⟨_, r2⟩ := (performJump_spec l (hs.well.li_consistent l hs.li) (fun _ => u) (fun _ => hu.1) y h2 h5).1 i hi q2 q3
    rw [performJump_eq, hsel] at r2
    have hψ : (afterJump l y (some i)).psi = renorm (J[i] *ᵥ y.psi) := by
      rw [r2, hact]
      rfl
    have := outer_renorm (J[i] *ᵥ y.psi)
    rw [outer_mulVec, ← hr2] at this
    rw [hψ, ← this]
    funext a b
    simp
  · rw [← hz, zero_smul, ← outer_mulVec]
    have : MCWF.norm (J[i] *ᵥ y.psi) = 0 := by
      rw [← hact]
      rw [← hz] at hrate
      nlinarith [MCWF.norm_nonneg (l.actWithJ y.t y.psi i)]
    have hz : J[i] *ᵥ y.psi = 0 := by
      by_contra hne
      exact absurd this ((norm_pos_iff _).2 hne).ne'
    rw [hz]
    funext a b
    simp [outer]

/-- The average of the dyads after a step. -/
theorem mean_outer (hs : Setting S l L A J c ε h) (fuel n : ℕ) (Dt : ℝ) (hDt : 0 < Dt) (hDth : Dt ≤ h) (x y : St ι κ) (hx : Inv S x) (hy : pre S l L fuel n Dt x = some y) :
    (1 - (effectiveRates l y.t y.psi).sum * y.dtDid) • outer (afterJump l y none).psi +
      ∑ i : Fin (effectiveRates l y.t y.psi).length, ((effectiveRates l y.t y.psi)[i] * y.dtDid) • outer (afterJump l y (some i)).psi =
    outer y.psi - (y.dtDid : ℂ) • trMap (jumpsMap J (outer y.psi)) • outer y.psi + y.dtDid • jumpsMap J (outer y.psi) := by
  have hlen := (hs.jumps y.t y.psi).1
  have hj := fun i hi hiJ => afterJump_outer hs fuel n Dt hDt hDth x y hx hy i hi hiJ
  have hsumJ : jumpsMap J (outer y.psi) = ∑ i : Fin (effectiveRates l y.t y.psi).length, jumpMap (J[(i : ℕ)]'(hlen ▸ i.2)) (outer y.psi) := by
    rw [jumpsMap_apply, ← Fin.sum_univ_fun_getElem]
    exact (Fintype.sum_equiv (finCongr hlen) _ _ fun i => rfl).symm
  have hsumr : (((effectiveRates l y.t y.psi).sum : ℝ) : ℂ) = trMap (jumpsMap J (outer y.psi)) := by
    rw [hsumJ, map_sum, ← Fin.sum_univ_getElem, Complex.ofReal_sum]
    exact Finset.sum_congr rfl fun i _ => (hj i i.2 (hlen ▸ i.2)).2
  have h1 : ∑ i : Fin (effectiveRates l y.t y.psi).length, ((effectiveRates l y.t y.psi)[i] * y.dtDid) • outer (afterJump l y (some i)).psi = y.dtDid • jumpsMap J (outer y.psi) := by
    rw [hsumJ, Finset.smul_sum]
    refine Finset.sum_congr rfl fun i _ => ?_
    rw [mul_comm, mul_smul]
    congr 1
    exact (hj i i.2 (hlen ▸ i.2)).1
  rw [h1, ← hsumr]
  congr 1
  show (1 - (effectiveRates l y.t y.psi).sum * y.dtDid) • outer y.psi = _
  funext a b
  simp only [Pi.smul_apply, Pi.sub_apply, Complex.real_smul, smul_eq_mul]
  push_cast
  ring

/-- What the induction assumes of the rest of the run, started in the time interval `[a,e]`. -/
structure Good (S : Sys ι κ) (K : (ℕ → ℝ) → St ι κ → Option (St ι κ)) (b : ℕ) (a e : ℝ) : Prop where
  meas : ∀ x i j, Measurable fun s => dyad (K s x) i j
  dep : ∀ x s s', (∀ j, x.nRandom ≤ j → j < x.nRandom + b → s j = s' j) → K s x = K s' x
  bound : ∀ x, Inv S x → a ≤ x.t → x.t ≤ e → ∀ s, Unit01 s → ∀ i j, ‖dyad (K s x) i j‖ ≤ 1

/-- A step followed by the rest of the run. -/
noncomputable def stepThen (S : Sys ι κ) (L : Lim) (fuel n : ℕ) (Dt : ℝ) (K : (ℕ → ℝ) → St ι κ → Option (St ι κ)) (s : ℕ → ℝ) (x : St ι κ) : Option (St ι κ) :=
  (step S L s fuel n Dt x).bind (K s)

theorem stepThen_eq (hl : S.li = some l) (fuel n : ℕ) (Dt : ℝ) (K : (ℕ → ℝ) → St ι κ → Option (St ι κ)) (s : ℕ → ℝ) (x : St ι κ) :
    stepThen S L fuel n Dt K s x = (pre S l L fuel n Dt x).bind fun y => K s (afterJump l y (selectJump (effectiveRates l y.t y.psi) (s y.nRandom) y.dtDid)) := by
  unfold stepThen
  rw [step_eq_pre S l hl, Option.bind_map]
  simp only [Function.comp_def, performJump_eq]

theorem stepThen_meas (hl : S.li = some l) {K : (ℕ → ℝ) → St ι κ → Option (St ι κ)} {b : ℕ} {a e : ℝ} (hK : Good S K b a e) (fuel n : ℕ) (Dt : ℝ) (x : St ι κ) (i j : ι) :
    Measurable fun s => dyad (stepThen S L fuel n Dt K s x) i j := by
  cases hy : pre S l L fuel n Dt x with
  | none =>
    simp only [stepThen_eq hl, hy, Option.bind_none, dyad]
    exact measurable_const
  | some y =>
    simp only [stepThen_eq hl, hy, Option.bind_some]
    have h1 : Measurable fun p : Option ℕ × (ℕ → ℝ) => dyad (K p.2 (afterJump l y p.1)) i j :=
      measurable_from_prod_countable_right fun o => hK.meas (afterJump l y o) i j
    exact h1.comp (((measurable_selectJump _ _).comp (measurable_pi_apply y.nRandom)).prodMk measurable_id)

theorem stepThen_dep (hl : S.li = some l) {K : (ℕ → ℝ) → St ι κ → Option (St ι κ)} {b : ℕ} {a e : ℝ} (hK : Good S K b a e) (fuel n : ℕ) (Dt : ℝ) (x : St ι κ) (s s' : ℕ → ℝ)
    (h : ∀ j, x.nRandom ≤ j → j < x.nRandom + (b + 1) → s j = s' j) : stepThen S L fuel n Dt K s x = stepThen S L fuel n Dt K s' x := by
  rw [stepThen_eq hl, stepThen_eq hl]
  cases hy : pre S l L fuel n Dt x with
  | none => rfl
  | some y =>
    have hn := pre_nRandom S l L fuel n Dt x y hy
    simp only [Option.bind_some]
    rw [h y.nRandom (by omega) (by omega)]
    refine hK.dep _ _ _ fun j h1 h2 => ?_
    rw [afterJump_nRandom] at h1 h2
    exact h j (by omega) (by omega)

theorem stepThen_bound (hs : Setting S l L A J c ε h) {K : (ℕ → ℝ) → St ι κ → Option (St ι κ)} {b : ℕ} {a e : ℝ} (hK : Good S K b a e) (fuel n : ℕ) (Dt : ℝ) (hDt : 0 < Dt) (hDth : Dt ≤ h)
    (x : St ι κ) (hx : Inv S x) (ha : a ≤ x.t) (he : x.t + Dt ≤ e) (s : ℕ → ℝ) (hu : Unit01 s) (i j : ι) : ‖dyad (stepThen S L fuel n Dt K s x) i j‖ ≤ 1 := by
  unfold stepThen
  cases hz : step S L s fuel n Dt x with
  | none => simp [dyad]
  | some z =>
    have ht : a ≤ z.t ∧ z.t ≤ e := by
      rw [step_eq_pre S l hs.li] at hz
      obtain ⟨y, hy, rfl⟩ := Option.map_eq_some_iff.1 hz
      obtain ⟨φ, h1, h2, h3, h4, h5, h6, h7⟩ := pre_spec hs fuel n Dt hDt hDth x y hx hy
      rw [performJump_eq]
      have : (afterJump l y (selectJump (effectiveRates l y.t y.psi) (s y.nRandom) y.dtDid)).t = y.t := by
        cases selectJump (effectiveRates l y.t y.psi) (s y.nRandom) y.dtDid <;> rfl
      rw [this]
      constructor <;> linarith
    exact hK.bound z (step_inv S hs.well L hs.dp hs.tol s (fun k => (hu k).1) fuel n Dt hDt x z hx hz) ht.1 ht.2 s hu i j

/-- The average of the elements of the dyad at the end of the run. -/
noncomputable def mean (μ : Measure Ω) (sample : ℕ → Ω → ℝ) (K : (ℕ → ℝ) → St ι κ → Option (St ι κ)) (x : St ι κ) : ι → ι → ℂ :=
  fun i j => ∫ ω, dyad (K (fun k => sample k ω) x) i j ∂μ

theorem mean_stepThen (hU : UniformNumbers μ sample) (hs : Setting S l L A J c ε h) {K : (ℕ → ℝ) → St ι κ → Option (St ι κ)} {b : ℕ} {a e : ℝ} (hK : Good S K b a e) (fuel n : ℕ) (Dt : ℝ) (hDt : 0 < Dt)
    (hDth : Dt ≤ h) (x y : St ι κ) (hx : Inv S x) (ha : a ≤ x.t) (he : x.t + Dt ≤ e) (hy : pre S l L fuel n Dt x = some y) :
    mean μ sample (stepThen S L fuel n Dt K) x = (1 - (effectiveRates l y.t y.psi).sum * y.dtDid) • mean μ sample K (afterJump l y none) +
      ∑ i : Fin (effectiveRates l y.t y.psi).length, ((effectiveRates l y.t y.psi)[i] * y.dtDid) • mean μ sample K (afterJump l y (some i)) := by
  obtain ⟨φ, h1, h2, h3, h4, h5, h6, h7⟩ := pre_spec hs fuel n Dt hDt hDth x y hx hy
  funext p q
  have hb : ∀ o : Option ℕ, (∀ i, o = some i → ∃ h : i < (effectiveRates l y.t y.psi).length, 0 < (effectiveRates l y.t y.psi)[i]) → ∀ s, Unit01 s → ‖dyad (K s (afterJump l y o)) p q‖ ≤ 1 := by
    intro o ho s hu
    obtain ⟨q1, q2, _⟩ := afterJump_inv hs fuel n Dt hDt hDth x y hx hy o ho
    exact hK.bound _ q1 (by rw [q2]; linarith) (by rw [q2]; linarith) s hu p q
  have := integral_step hU (effectiveRates l y.t y.psi) (effectiveRates_nonneg l y.t y.psi) y.dtDid h5 h7 y.nRandom b (fun o s => dyad (K s (afterJump l y o)) p q)
    (fun o => hK.meas _ p q) (fun o s s' hss => by
      have := hK.dep (afterJump l y o) s s' (by rw [afterJump_nRandom]; exact hss)
      simp only [this]) 1
    (fun s hu => hb none (by simp) s hu)
    (fun i hi hpos s hu => hb (some i) (by rintro j ⟨⟩; exact ⟨hi, hpos⟩) s hu)
  simp only [mean, stepThen_eq hs.li, hy, Option.bind_some, Pi.add_apply, Pi.smul_apply, Finset.sum_apply, Complex.real_smul]
  exact this

/-- The estimate for a step followed by the rest of the run. -/
theorem stepThen_estimate (hU : UniformNumbers μ sample) (hs : Setting S l L A J c ε h) {K : (ℕ → ℝ) → St ι κ → Option (St ι κ)} {b : ℕ} {a e : ℝ} (hK : Good S K b a e) (fuel n : ℕ) (T K0 M : ℝ)
    (hε : 0 ≤ ε) (hε1 : ε ≤ 1) (hK0 : 0 ≤ K0) (hM : 0 < M) (hb : ∀ s, 0 ≤ s → s ≤ T → ‖semi (gen A J) s‖ ≤ M)
    (hloc : ∀ (τ : ℝ) (ψ φ : ι → ℂ), 0 ≤ τ → τ ≤ T → MCWF.norm ψ = 1 → MCWF.norm (MCWF.renorm φ) = 1 → (∀ i, ‖φ i - (ψ i + τ * (A *ᵥ ψ) i)‖ ≤ c * τ ^ 2 + ε * τ) →
      ‖outer (MCWF.renorm φ) - (τ : ℂ) • trMap (jumpsMap J (outer (MCWF.renorm φ))) • outer (MCWF.renorm φ) + τ • jumpsMap J (outer (MCWF.renorm φ)) - semi (gen A J) τ (outer ψ)‖ ≤
        K0 * (τ ^ 2 + ε * τ))
    (Dt : ℝ) (hDt : 0 < Dt) (hDth : Dt ≤ h) (x : St ι κ) (hx : Inv S x) (hx0 : 0 ≤ x.t) (hxT : x.t + Dt ≤ T) (ha : a ≤ x.t) (he : x.t + Dt ≤ e)
    (hfin : ∀ s, Unit01 s → (stepThen S L fuel n Dt K s x).isSome)
    (hest : ∀ z, Inv S z → x.t < z.t → z.t ≤ x.t + Dt → (∀ s, Unit01 s → (K s z).isSome) → ‖mean μ sample K z - semi (gen A J) (T - z.t) (outer z.psi)‖ ≤ M * K0 * (h + ε) * (T - z.t)) :
    ‖mean μ sample (stepThen S L fuel n Dt K) x - semi (gen A J) (T - x.t) (outer x.psi)‖ ≤ M * K0 * (h + ε) * (T - x.t) := by
  cases hy : pre S l L fuel n Dt x with
  | none =>
    have := hfin (fun _ => 0) (fun _ => ⟨le_rfl, one_pos⟩)
    rw [stepThen_eq hs.li, hy] at this
    simp at this
  | some y =>
    obtain ⟨φ, h1, h2, h3, h4, h5, h6, h7⟩ := pre_spec hs fuel n Dt hDt hDth x y hx hy
    have hnR := pre_nRandom S l L fuel n Dt x y hy
    set r := effectiveRates l y.t y.psi with hr
    set τ := y.dtDid with hτ
    have hrn : ∀ q ∈ r, 0 ≤ q := effectiveRates_nonneg l y.t y.psi
    have hh : 0 ≤ h := hDt.le.trans hDth
    -- the estimates for the outcomes
    have hout : ∀ o : Option ℕ, (∀ i, o = some i → ∃ h : i < r.length, 0 < r[i]) →
        ‖mean μ sample K (afterJump l y o) - semi (gen A J) (T - x.t - τ) (outer (afterJump l y o).psi)‖ ≤ M * K0 * (h + ε) * (T - x.t - τ) := by
      intro o ho
      obtain ⟨q1, q2, u, hu, hsel⟩ := afterJump_inv hs fuel n Dt hDt hDth x y hx hy o ho
      have ht : (afterJump l y o).t = x.t + τ := by rw [q2, h4]
      have := hest (afterJump l y o) q1 (by rw [ht]; linarith) (by rw [ht]; linarith) (by
        intro s hsu
        let s' : ℕ → ℝ := fun j => if j = y.nRandom then u else s j
        have hs' : Unit01 s' := by
          intro j
          by_cases hj : j = y.nRandom
          · simp only [s', hj, if_true]; exact hu
          · simp only [s', hj, if_false]; exact hsu j
        have := hfin s' hs'
        rw [stepThen_eq hs.li, hy, Option.bind_some] at this
        have e' : s' y.nRandom = u := by simp [s']
        rw [e', hsel] at this
        rw [hK.dep (afterJump l y o) s s' (by
          intro j j1 _
          rw [afterJump_nRandom] at j1
          have : j ≠ y.nRandom := by omega
          simp [s', this])]
        exact this)
      rw [ht] at this
      rwa [show T - x.t - τ = T - (x.t + τ) by ring]
    have hB : 0 ≤ M * K0 * (h + ε) * (T - x.t - τ) := by
      have : 0 ≤ T - x.t - τ := by linarith
      positivity
    rw [mean_stepThen hU hs hK fuel n Dt hDt hDth x y hx ha he hy]
    have hmo : (1 - r.sum * τ) • outer (afterJump l y none).psi + ∑ i : Fin r.length, (r[i] * τ) • outer (afterJump l y (some i)).psi =
        outer y.psi - (τ : ℂ) • trMap (jumpsMap J (outer y.psi)) • outer y.psi + τ • jumpsMap J (outer y.psi) := mean_outer hs fuel n Dt hDt hDth x y hx hy
    change ‖(1 - r.sum * τ) • mean μ sample K (afterJump l y none) + ∑ i : Fin r.length, (r[i] * τ) • mean μ sample K (afterJump l y (some i)) - semi (gen A J) (T - x.t) (outer x.psi)‖ ≤ _
    set E := outer y.psi - (τ : ℂ) • trMap (jumpsMap J (outer y.psi)) • outer y.psi + τ • jumpsMap J (outer y.psi) with hE
    set P := semi (gen A J) (T - x.t - τ) with hP
    have hsplit : (1 - r.sum * τ) • mean μ sample K (afterJump l y none) + ∑ i : Fin r.length, (r[i] * τ) • mean μ sample K (afterJump l y (some i)) - semi (gen A J) (T - x.t) (outer x.psi) =
        ((1 - r.sum * τ) • (mean μ sample K (afterJump l y none) - P (outer (afterJump l y none).psi)) +
          ∑ i : Fin r.length, (r[i] * τ) • (mean μ sample K (afterJump l y (some i)) - P (outer (afterJump l y (some i)).psi))) + P (E - semi (gen A J) τ (outer x.psi)) := by
      have e1 : P E = (1 - r.sum * τ) • P (outer (afterJump l y none).psi) + ∑ i : Fin r.length, (r[i] * τ) • P (outer (afterJump l y (some i)).psi) := by
        rw [← hmo]; simp only [map_add, map_smul, map_sum]
      have e2 : P (semi (gen A J) τ (outer x.psi)) = semi (gen A J) (T - x.t) (outer x.psi) := by
        rw [hP, show T - x.t = (T - x.t - τ) + τ by ring, semi_add]
        simp
      rw [map_sub, e1, e2]
      simp only [smul_sub, Finset.sum_sub_distrib]
      abel
    rw [hsplit]
    have hw0 : 0 ≤ 1 - r.sum * τ := by linarith
    have hb1 : ‖(1 - r.sum * τ) • (mean μ sample K (afterJump l y none) - P (outer (afterJump l y none).psi))‖ ≤ (1 - r.sum * τ) * (M * K0 * (h + ε) * (T - x.t - τ)) := by
      rw [norm_smul, Real.norm_of_nonneg hw0]
      exact mul_le_mul_of_nonneg_left (hout none (by simp)) hw0
    have hb2 : ∀ i : Fin r.length, ‖(r[i] * τ) • (mean μ sample K (afterJump l y (some i)) - P (outer (afterJump l y (some i)).psi))‖ ≤ r[i] * τ * (M * K0 * (h + ε) * (T - x.t - τ)) := by
      intro i
      have hri : 0 ≤ r[i] := hrn _ (List.getElem_mem _)
      rw [norm_smul, Real.norm_of_nonneg (mul_nonneg hri h5.le)]
      rcases hri.lt_or_eq with hpos | hz
      · exact mul_le_mul_of_nonneg_left (hout (some i) (by rintro j ⟨⟩; exact ⟨i.2, hpos⟩)) (mul_nonneg hri h5.le)
      · rw [← hz]; simp
    have hb3 : ‖P (E - semi (gen A J) τ (outer x.psi))‖ ≤ M * (K0 * (τ ^ 2 + ε * τ)) := by
      refine (P.le_opNorm _).trans (mul_le_mul (hb _ (by linarith) (by linarith)) ?_ (norm_nonneg _) hM.le)
      rw [hE, h1]
      exact hloc τ x.psi φ h5.le (by linarith) hx.norm_one (by rw [← h1]; exact h2) h3
    have hsum : ∑ i : Fin r.length, r[i] * τ * (M * K0 * (h + ε) * (T - x.t - τ)) = r.sum * τ * (M * K0 * (h + ε) * (T - x.t - τ)) := by
      rw [← Finset.sum_mul, ← Finset.sum_mul]
      congr 2
      exact Fin.sum_univ_getElem r
    have hτh : τ ^ 2 + ε * τ ≤ (h + ε) * τ := by nlinarith
    calc _ ≤ (1 - r.sum * τ) * (M * K0 * (h + ε) * (T - x.t - τ)) + ∑ i : Fin r.length, r[i] * τ * (M * K0 * (h + ε) * (T - x.t - τ)) + M * (K0 * (τ ^ 2 + ε * τ)) := by
          refine (norm_add_le _ _).trans (add_le_add ((norm_add_le _ _).trans (add_le_add hb1 ?_)) hb3)
          exact (norm_sum_le _ _).trans (Finset.sum_le_sum fun i _ => hb2 i)
      _ = M * K0 * (h + ε) * (T - x.t - τ) + M * (K0 * (τ ^ 2 + ε * τ)) := by rw [hsum]; ring
      _ ≤ M * K0 * (h + ε) * (T - x.t - τ) + M * (K0 * ((h + ε) * τ)) := by gcongr
      _ = M * K0 * (h + ε) * (T - x.t) := by ring

/-- An advancement followed by the rest of the run. -/
noncomputable def advThen (S : Sys ι κ) (L : Lim) (fuel n : ℕ) (e : ℝ) (K : (ℕ → ℝ) → St ι κ → Option (St ι κ)) (N : ℕ) (s : ℕ → ℝ) (x : St ι κ) : Option (St ι κ) :=
  (advanceLoop S L s fuel n e N x).bind (K s)

theorem advThen_done (fuel n : ℕ) (e : ℝ) (K : (ℕ → ℝ) → St ι κ → Option (St ι κ)) (N : ℕ) (s : ℕ → ℝ) (x : St ι κ) (hx : x.t = e) : advThen S L fuel n e K N s x = K s x := by
  unfold advThen
  cases N <;> simp [advanceLoop, hx]

theorem advThen_zero (fuel n : ℕ) (e : ℝ) (K : (ℕ → ℝ) → St ι κ → Option (St ι κ)) (s : ℕ → ℝ) (x : St ι κ) (hx : x.t ≠ e) : advThen S L fuel n e K 0 s x = none := by
  have : ¬e - x.t = 0 := fun h => hx (by linarith)
  simp [advThen, advanceLoop, this]

theorem advThen_succ (fuel n : ℕ) (e : ℝ) (K : (ℕ → ℝ) → St ι κ → Option (St ι κ)) (N : ℕ) (s : ℕ → ℝ) (x : St ι κ) (hx : x.t ≠ e) :
    advThen S L fuel n e K (N + 1) s x = stepThen S L fuel n (e - x.t) (advThen S L fuel n e K N) s x := by
  have : ¬e - x.t = 0 := fun h => hx (by linarith)
  simp only [advThen, advanceLoop, this, if_false, stepThen, Option.bind_assoc]
  rfl

theorem advThen_good (hs : Setting S l L A J c ε h) {K : (ℕ → ℝ) → St ι κ → Option (St ι κ)} {b : ℕ} {a e : ℝ} (hK : Good S K b a e) (hae : e - a ≤ h) (fuel n N : ℕ) :
    Good S (advThen S L fuel n e K N) (N + b) a e := by
  induction N with
  | zero =>
    refine ⟨fun x i j => ?_, fun x s s' hss => ?_, fun x hx h1 h2 s hu i j => ?_⟩
    · by_cases hx : x.t = e
      · simp only [advThen_done fuel n e K 0 _ x hx]; exact hK.meas x i j
      · simp only [advThen_zero fuel n e K _ x hx, dyad]; exact measurable_const
    · by_cases hx : x.t = e
      · rw [advThen_done fuel n e K 0 _ x hx, advThen_done fuel n e K 0 _ x hx]; exact hK.dep x s s' fun j j1 j2 => hss j j1 (by omega)
      · rw [advThen_zero fuel n e K _ x hx, advThen_zero fuel n e K _ x hx]
    · by_cases hx' : x.t = e
      · rw [advThen_done fuel n e K 0 _ x hx']; exact hK.bound x hx h1 h2 s hu i j
      · rw [advThen_zero fuel n e K _ x hx']; simp [dyad]
  | succ N ih =>
    refine ⟨fun x i j => ?_, fun x s s' hss => ?_, fun x hx h1 h2 s hu i j => ?_⟩
    · by_cases hx : x.t = e
      · simp only [advThen_done fuel n e K _ _ x hx]; exact hK.meas x i j
      · simp only [advThen_succ fuel n e K N _ x hx]; exact stepThen_meas hs.li ih fuel n _ x i j
    · by_cases hx : x.t = e
      · rw [advThen_done fuel n e K _ _ x hx, advThen_done fuel n e K _ _ x hx]; exact hK.dep x s s' fun j j1 j2 => hss j j1 (by omega)
      · rw [advThen_succ fuel n e K N _ x hx, advThen_succ fuel n e K N _ x hx]; exact stepThen_dep hs.li ih fuel n _ x s s' fun j j1 j2 => hss j j1 (by omega)
    · by_cases hx' : x.t = e
      · rw [advThen_done fuel n e K _ _ x hx']; exact hK.bound x hx h1 h2 s hu i j
      · rw [advThen_succ fuel n e K N _ x hx']
        have : x.t < e := lt_of_le_of_ne h2 hx'
        exact stepThen_bound hs ih fuel n (e - x.t) (by linarith) (by linarith) x hx h1 (by linarith) s hu i j

/-- What is proved by induction over the run: the error of the average, for runs started in the time interval `[a,e]`. -/
def Est (S : Sys ι κ) (A : Matrix ι ι ℂ) (J : List (Matrix ι ι ℂ)) (μ : Measure Ω) (sample : ℕ → Ω → ℝ) (T C : ℝ) (K : (ℕ → ℝ) → St ι κ → Option (St ι κ)) (a e : ℝ) : Prop :=
  ∀ z, Inv S z → a ≤ z.t → z.t ≤ e → (∀ s, Unit01 s → (K s z).isSome) → ‖mean μ sample K z - semi (gen A J) (T - z.t) (outer z.psi)‖ ≤ C * (T - z.t)

/-- The bound for a step. -/
structure Local (A : Matrix ι ι ℂ) (J : List (Matrix ι ι ℂ)) (c ε T K0 M : ℝ) : Prop where
  eps : 0 ≤ ε
  eps1 : ε ≤ 1
  K0_nonneg : 0 ≤ K0
  M_pos : 0 < M
  semi : ∀ s, 0 ≤ s → s ≤ T → ‖semi (gen A J) s‖ ≤ M
  loc : ∀ (τ : ℝ) (ψ φ : ι → ℂ), 0 ≤ τ → τ ≤ T → MCWF.norm ψ = 1 → MCWF.norm (MCWF.renorm φ) = 1 → (∀ i, ‖φ i - (ψ i + τ * (A *ᵥ ψ) i)‖ ≤ c * τ ^ 2 + ε * τ) →
      ‖outer (MCWF.renorm φ) - (τ : ℂ) • trMap (jumpsMap J (outer (MCWF.renorm φ))) • outer (MCWF.renorm φ) + τ • jumpsMap J (outer (MCWF.renorm φ)) - Unravel.semi (gen A J) τ (outer ψ)‖ ≤
        K0 * (τ ^ 2 + ε * τ)

theorem advThen_est (hU : UniformNumbers μ sample) (hs : Setting S l L A J c ε h) {T K0 M : ℝ} (hL : Local A J c ε T K0 M) {K : (ℕ → ℝ) → St ι κ → Option (St ι κ)} {b : ℕ} {a e : ℝ}
    (hK : Good S K b a e) (hae : e - a ≤ h) (ha0 : 0 ≤ a) (heT : e ≤ T) (hest : Est S A J μ sample T (M * K0 * (h + ε)) K a e) (fuel n N : ℕ) :
    Est S A J μ sample T (M * K0 * (h + ε)) (advThen S L fuel n e K N) a e := by
  have hdone : ∀ N z, z.t = e → Inv S z → a ≤ z.t → (∀ s, Unit01 s → (advThen S L fuel n e K N s z).isSome) →
      ‖mean μ sample (advThen S L fuel n e K N) z - semi (gen A J) (T - z.t) (outer z.psi)‖ ≤ M * K0 * (h + ε) * (T - z.t) := by
    intro N z hz hzi h1 hfin
    simp only [advThen_done fuel n e K N _ z hz] at hfin
    have : mean μ sample (advThen S L fuel n e K N) z = mean μ sample K z := by
      unfold mean
      simp only [advThen_done fuel n e K N _ z hz]
    rw [this]
    exact hest z hzi h1 hz.le hfin
  induction N with
  | zero =>
    intro z hz h1 h2 hfin
    by_cases hx : z.t = e
    · exact hdone 0 z hx hz h1 hfin
    · have := hfin (fun _ => 0) (fun _ => ⟨le_rfl, one_pos⟩)
      rw [advThen_zero fuel n e K _ z hx] at this
      simp at this
  | succ N ih =>
    intro z hz h1 h2 hfin
    by_cases hx : z.t = e
    · exact hdone (N + 1) z hx hz h1 hfin
    · have hlt : z.t < e := lt_of_le_of_ne h2 hx
      have he : mean μ sample (advThen S L fuel n e K (N + 1)) z = mean μ sample (stepThen S L fuel n (e - z.t) (advThen S L fuel n e K N)) z := by
        unfold mean
        simp only [advThen_succ fuel n e K N _ z hx]
      simp only [advThen_succ fuel n e K N _ z hx] at hfin
      rw [he]
      exact stepThen_estimate hU hs (advThen_good hs hK hae fuel n N) fuel n T K0 M hL.eps hL.eps1 hL.K0_nonneg hL.M_pos hL.semi hL.loc (e - z.t) (by linarith) (by linarith) z hz (by linarith)
        (by linarith) h1 (by linarith) hfin fun w hw w1 w2 hwf => ih w hw (by linarith) (by linarith) hwf

theorem runTo_done (fuel n N : ℕ) (T Dt : ℝ) (m : ℕ) (s : ℕ → ℝ) (x : St ι κ) (hx : ¬x.t < T) : runTo S L s fuel n N T Dt m x = some x := by
  cases m <;> simp [runTo, hx]

theorem runTo_zero (fuel n N : ℕ) (T Dt : ℝ) (s : ℕ → ℝ) (x : St ι κ) (hx : x.t < T) : runTo S L s fuel n N T Dt 0 x = none := by
  simp [runTo, hx]

theorem runTo_succ (fuel n N : ℕ) (T Dt : ℝ) (m : ℕ) (s : ℕ → ℝ) (x : St ι κ) (hx : x.t < T) :
    runTo S L s fuel n N T Dt (m + 1) x = advThen S L fuel n (x.t + min Dt (T - x.t)) (fun s => runTo S L s fuel n N T Dt m) N s x := by
  simp [runTo, hx, advThen]

theorem dyad_bound (x : St ι κ) (hx : MCWF.norm x.psi = 1) (i j : ι) : ‖dyad (some x) i j‖ ≤ 1 :=
  ((norm_le_pi_norm (outer x.psi i) j).trans (norm_le_pi_norm (outer x.psi) i)).trans (norm_outer_le x.psi hx)

theorem Good.mono {K : (ℕ → ℝ) → St ι κ → Option (St ι κ)} {b : ℕ} {a e a' e' : ℝ} (hK : Good S K b a e) (ha : a ≤ a') (he : e' ≤ e) : Good S K b a' e' :=
  ⟨hK.meas, hK.dep, fun x hx h1 h2 => hK.bound x hx (ha.trans h1) (h2.trans he)⟩

theorem runTo_good (hs : Setting S l L A J c ε h) (fuel n N : ℕ) (T Dt : ℝ) (hDt : 0 < Dt) (hDth : Dt ≤ h) (m : ℕ) :
    Good S (fun s => runTo S L s fuel n N T Dt m) (m * N) 0 T := by
  induction m with
  | zero =>
    refine ⟨fun x i j => ?_, fun x s s' hss => ?_, fun x hx h1 h2 s hu i j => ?_⟩
    · by_cases hx : x.t < T
      · simp only [runTo_zero fuel n N T Dt _ x hx, dyad]; exact measurable_const
      · simp only [runTo_done fuel n N T Dt 0 _ x hx]; exact measurable_const
    · by_cases hx : x.t < T
      · simp only [runTo_zero fuel n N T Dt _ x hx]
      · simp only [runTo_done fuel n N T Dt 0 _ x hx]
    · by_cases hx' : x.t < T
      · simp only [runTo_zero fuel n N T Dt _ x hx']; simp [dyad]
      · simp only [runTo_done fuel n N T Dt 0 _ x hx']; exact dyad_bound x hx.norm_one i j
  | succ m ih =>
    have hgood : ∀ x : St ι κ, Good S (advThen S L fuel n (x.t + min Dt (T - x.t)) (fun s => runTo S L s fuel n N T Dt m) N) (N + m * N) (max x.t 0) (x.t + min Dt (T - x.t)) := by
      intro x
      exact advThen_good hs (ih.mono (le_max_right _ _) (by linarith [min_le_right Dt (T - x.t)])) (by linarith [min_le_left Dt (T - x.t), le_max_left x.t 0]) fuel n N
    refine ⟨fun x i j => ?_, fun x s s' hss => ?_, fun x hx h1 h2 s hu i j => ?_⟩
    · by_cases hx : x.t < T
      · simp only [runTo_succ fuel n N T Dt m _ x hx]; exact (hgood x).meas x i j
      · simp only [runTo_done fuel n N T Dt _ _ x hx]; exact measurable_const
    · by_cases hx : x.t < T
      · simp only [runTo_succ fuel n N T Dt m _ x hx]
        exact (hgood x).dep x s s' fun j j1 j2 => hss j j1 (by rw [Nat.succ_mul]; omega)
      · simp only [runTo_done fuel n N T Dt _ _ x hx]
    · by_cases hx' : x.t < T
      · simp only [runTo_succ fuel n N T Dt m _ x hx']
        exact (hgood x).bound x hx (max_le le_rfl h1) (by linarith [lt_min hDt (sub_pos.2 hx')]) s hu i j
      · simp only [runTo_done fuel n N T Dt _ _ x hx']; exact dyad_bound x hx.norm_one i j

theorem runTo_est (hU : UniformNumbers μ sample) (hs : Setting S l L A J c ε h) {T K0 M : ℝ} (hL : Local A J c ε T K0 M) (fuel n N : ℕ) (Dt : ℝ) (hDt : 0 < Dt) (hDth : Dt ≤ h) (m : ℕ) :
    Est S A J μ sample T (M * K0 * (h + ε)) (fun s => runTo S L s fuel n N T Dt m) 0 T := by
  have hdone : ∀ m z, ¬z.t < T → z.t ≤ T → ‖mean μ sample (fun s => runTo S L s fuel n N T Dt m) z - semi (gen A J) (T - z.t) (outer z.psi)‖ ≤ M * K0 * (h + ε) * (T - z.t) := by
    intro m z hz hzT
    have h0 : T - z.t = 0 := by linarith [not_lt.1 hz]
    have : mean μ sample (fun s => runTo S L s fuel n N T Dt m) z = outer z.psi := by
      funext i j
      simp only [mean, runTo_done fuel n N T Dt m _ z hz, dyad, integral_const, probReal_univ, one_smul]
      rfl
    rw [this, h0, semi_zero]
    simp
  induction m with
  | zero =>
    intro z hz h1 h2 hfin
    by_cases hx : z.t < T
    · have := hfin (fun _ => 0) (fun _ => ⟨le_rfl, one_pos⟩)
      simp [runTo_zero fuel n N T Dt _ z hx] at this
    · exact hdone 0 z hx h2
  | succ m ih =>
    intro z hz h1 h2 hfin
    by_cases hx : z.t < T
    · have he : mean μ sample (fun s => runTo S L s fuel n N T Dt (m + 1)) z = mean μ sample (advThen S L fuel n (z.t + min Dt (T - z.t)) (fun s => runTo S L s fuel n N T Dt m) N) z := by
        unfold mean
        simp only [runTo_succ fuel n N T Dt m _ z hx]
      simp only [runTo_succ fuel n N T Dt m _ z hx] at hfin
      rw [he]
      have hle := min_le_right Dt (T - z.t)
      have hle' := min_le_left Dt (T - z.t)
      have hpos := lt_min hDt (sub_pos.2 hx)
      exact advThen_est hU hs hL ((runTo_good hs fuel n N T Dt hDt hDth m).mono h1 (by linarith)) (by linarith) h1 (by linarith)
        (fun w hw w1 w2 hwf => ih w hw (by linarith) (by linarith) hwf) fuel n N z hz le_rfl (by linarith) hfin
    · exact hdone (m + 1) z hx h2

end setting

end CppQED.Unravel
