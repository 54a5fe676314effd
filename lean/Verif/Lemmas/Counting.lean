import Verif.Spec.Counting
import Verif.Props.MCWFLog
import Verif.Props.UnravelElements

/-!
# Lemmas for C165: the support of the state along a trajectory
-/

namespace CppQED.Counting

open CppQED.MCWF CppQED.Spec Matrix

section General
variable {ι κ : Type*} [Fintype ι]

/-- The state of the trial accepted in a step is the result of a trial from the state before the step. -/
theorem step_from (S : Sys ι κ) (hS : WellBehaved S) (l : Li ι) (hl : S.li = some l) (L : Lim) (hL : 0 < L.dpLimit) (hT : 1 ≤ L.overshootTolerance)
    (sample : ℕ → ℝ) (hs : ∀ k, 0 ≤ sample k) (fuel n : ℕ) (Dt : ℝ) (hDt : 0 < Dt) (x : St ι κ) (hx : Inv S x) (g : MCWFLog.Logged) (z : St ι κ) (g' : MCWFLog.Logged)
    (h : MCWFLog.step S L sample fuel n Dt x g = some (z, g')) :
    ∃ w y2 y : St ι κ, w.psi = x.psi ∧ coherent S fuel Dt w = some y2 ∧ y.psi = y2.psi ∧
      ((g'.log.traj = g.log.traj ∧ z.psi = y.psi) ∨
       ∃ no, no < (l.rates y.t y.psi).length ∧ g'.log.traj = g.log.traj ++ [(z.t, no)] ∧
        z.psi = fun j => l.actWithJ y.t y.psi no j / (Real.sqrt (∑ k, Complex.normSq (l.actWithJ y.t y.psi no k)) : ℝ)) := by
  obtain ⟨-, ⟨h0, -⟩ | ⟨l', y, hl', hz, ⟨y0, hy0, hy⟩, ht⟩⟩ := MCWFLog.step_traj S L sample fuel n Dt x g z g' h
  · rw [hl] at h0; exact absurd h0 (by simp)
  obtain rfl := Option.some.inj (hl.symm.trans hl')
  have hx0 := ne_zero_of_norm _ hx.norm_one
  obtain ⟨w, y2, hw, hco, hev, -, hy2⟩ := retryLoop_spec S hS l L hL hT fuel Dt hDt x hx0 n x y0 y ⟨rfl, rfl, rfl, rfl, fun _ => rfl, Or.inl rfl⟩ hx.try_pos hx.try_fin hy0 hy
  have hn : MCWF.norm y.psi = 1 := by rw [hy2]; exact hev.norm_one
  have hd : 0 < y.dtDid := by rw [hy2]; exact hev.did_pos
  obtain ⟨p1, p2, -, p4, -⟩ := performJump_spec l (hS.li_consistent l hl) sample hs y hn hd
  refine ⟨w, y2, y, hw.1, hco, by rw [hy2]; rfl, ?_⟩
  cases hsel : selectJump (effectiveRates l y.t y.psi) (sample y.nRandom) y.dtDid with
  | none =>
    rw [hsel] at ht
    refine Or.inl ⟨by simpa using ht, ?_⟩
    rw [hz, p2 hsel]
  | some no =>
    rw [hsel] at ht
    obtain ⟨q1, q2, q3⟩ := (jump_iff _ (effectiveRates_nonneg l y.t y.psi) _ _ (hs _) hd no).1 hsel
    obtain ⟨-, r2⟩ := p1 no q1 q2 q3
    refine Or.inr ⟨no, ?_, ?_, ?_⟩
    · rwa [length_effectiveRates] at q1
    · rw [ht, hz, p4]
    · rw [hz, r2]

omit [Fintype ι] in
theorem tryLoop_support (rhs : ℝ → (ι → ℂ) → ι → ℂ) (stepper : ODE.Stepper (ι → ℂ) κ) (hk : KeepsSupport rhs stepper) (B : Set ι) (hB : ∀ t psi, SupportedOn B psi → SupportedOn B (rhs t psi)) (fuel : ℕ) (k : κ) (s : ι → ℂ)
    (t d : ℝ) (m : ℕ) (r : (ι → ℂ) × ℝ × ℝ × κ × ℕ) (hs : SupportedOn B s) (h : ODE.tryLoop stepper fuel k s t d m = some r) : SupportedOn B r.1 := by
  induction fuel generalizing k s t d m with
  | zero => exact absurd h (by simp [ODE.tryLoop])
  | succ fuel ih =>
    rw [ODE.tryLoop] at h
    split at h
    · obtain rfl := Option.some.inj h
      exact hk B hB k s t d hs
    · exact ih _ _ _ _ _ (hk B hB k s t d hs) h

end General

variable {n : ℕ} {κ : Type*}

/-- The operator changes the quantum number `Q` by `δ`. -/
def Shifts (Q : Fin n → ℤ) (δ : ℤ) (A : Matrix (Fin n) (Fin n) ℂ) : Prop := ∀ i j, A i j ≠ 0 → Q i = Q j + δ

/-- The states with the quantum numbers of the states present in `psi`, plus `m`. -/
def sector (Q : Fin n → ℤ) (psi : Fin n → ℂ) (m : ℤ) : Set (Fin n) := {i | ∃ j, psi j ≠ 0 ∧ Q i = Q j + m}

theorem Shifts.mulVec {Q : Fin n → ℤ} {δ : ℤ} {A : Matrix (Fin n) (Fin n) ℂ} (hA : Shifts Q δ A) (psi0 : Fin n → ℂ) (m : ℤ) (psi : Fin n → ℂ) (h : SupportedOn (sector Q psi0 m) psi) :
    SupportedOn (sector Q psi0 (m + δ)) (A *ᵥ psi) := by
  intro i hi
  change ∑ j, A i j * psi j = 0
  refine Finset.sum_eq_zero fun j _ => ?_
  by_cases ha : A i j = 0
  · simp [ha]
  rw [h j, mul_zero]
  rintro ⟨k, hk, hjk⟩
  exact hi ⟨k, hk, by rw [hA i j ha, hjk]; ring⟩

theorem coherent_support (S : Master.Sys n) (W : Fin n → ℂ) (V : Matrix (Fin n) (Fin n) ℂ) (nJ : ℕ) (J : ℕ → Matrix (Fin n) (Fin n) ℂ) (hP : Unravel.Pictured S W V nJ J) (Q : Fin n → ℤ) (hV : Shifts Q 0 V)
    (make : (ℝ → (Fin n → ℂ) → Fin n → ℂ) → ODE.Stepper (Fin n → ℂ) κ) (hk : ∀ t0, KeepsSupport (S.rhs t0) (make (S.rhs t0))) (rates : ℝ → (Fin n → ℂ) → List ℝ) (psi0 : Fin n → ℂ) (m : ℤ)
    (fuel : ℕ) (Dt : ℝ) (x y : St (Fin n) κ) (hx : SupportedOn (sector Q psi0 m) x.psi) (h : coherent (S.toMCWF make rates) fuel Dt x = some y) : SupportedOn (sector Q psi0 m) y.psi := by
  obtain ⟨G, U, lin, hU, hG⟩ := hP
  have hGs : ∀ t t0, Shifts Q 0 (G t t0) := by
    intro t t0 i j hij
    refine hV i j fun h0 => hij ?_
    have := congrFun (congrFun (hG t t0) i) j
    rw [hU, Matrix.diagonal_mul, Matrix.mul_diagonal, h0, zero_mul, mul_eq_zero] at this
    exact this.resolve_left (Complex.exp_ne_zero _)
  have hrhs : ∀ t0 t psi, SupportedOn (sector Q psi0 m) psi → SupportedOn (sector Q psi0 m) (S.rhs t0 t psi) := by
    intro t0 t psi hpsi
    unfold Master.Sys.rhs
    cases hf : S.ha with
    | none => intro i _; rfl
    | some f =>
      simp only
      rw [lin.ha f hf, zero_add]
      have := (hGs t t0).mulVec psi0 m psi hpsi
      rwa [add_zero] at this
  unfold coherent at h
  obtain ⟨u, hu, rfl⟩ := Option.map_eq_some_iff.1 h
  have hus : SupportedOn (sector Q psi0 m) u.psi := by
    unfold evolve at hu
    cases hha : S.ha with
    | none =>
      have : (S.toMCWF make rates).ha = none := by simp [Master.Sys.toMCWF, hha]
      rw [this] at hu
      obtain rfl := Option.some.inj hu
      exact hx
    | some f =>
      have : (S.toMCWF make rates).ha = some fun t0 => make (S.rhs t0) := by simp [Master.Sys.toMCWF, hha]
      rw [this] at hu
      simp only at hu
      cases hd : x.dtTry with
      | top => rw [hd] at hu; simp at hu
      | coe d =>
        rw [hd] at hu
        obtain ⟨r, hr, rfl⟩ := Option.map_eq_some_iff.1 hu
        unfold ODE.step at hr
        obtain ⟨r', hr', rfl⟩ := Option.map_eq_some_iff.1 hr
        exact tryLoop_support _ _ (hk x.t0) _ (hrhs x.t0) fuel _ _ _ _ _ r' hx hr'
  have hes : SupportedOn (sector Q psi0 m) (exact (S.toMCWF make rates) u).psi := by
    unfold exact
    cases hex : S.ex with
    | none =>
      have : (S.toMCWF make rates).ex = none := by simp [Master.Sys.toMCWF, hex]
      rw [this]
      exact hus
    | some f =>
      have : (S.toMCWF make rates).ex = some f := by simp [Master.Sys.toMCWF, hex]
      rw [this]
      simp only
      rw [lin.ex f hex, hU]
      intro i hi
      rw [Matrix.mulVec_diagonal, hus i hi, mul_zero]
  intro i hi
  simp only [renorm, divBy]
  rw [hes i hi, zero_div]

/-- A system whose Hamiltonian keeps the quantum number, and whose jumps change it by `δ`. -/
theorem counts_of.{v} (S : Master.Sys n) (W : Fin n → ℂ) (V : Matrix (Fin n) (Fin n) ℂ) (nJ : ℕ) (J : ℕ → Matrix (Fin n) (Fin n) ℂ) (hP : Unravel.Pictured S W V nJ J) (rates : ℝ → (Fin n → ℂ) → List ℝ)
    (hR : Unravel.RatesOf nJ J rates) (Q : Fin n → ℤ) (δ : List ℤ) (hlen : δ.length = nJ) (hV : Shifts Q 0 V) (hJ : ∀ k < nJ, Shifts Q (δ.getD k 0) (J k)) : Counts.{v} S rates Q δ := by
  intro κ make hst L hL hT sample hs fuel N Dts hD psi hpsi ces dtInit hdt level nL z g hrun
  obtain ⟨G, U, lin, hU, hG⟩ := id hP
  have hwell : WellBehaved (S.toMCWF make rates) := Unravel.toMCWF_wellBehaved S G U nJ J lin W hU make rates hR fun _ t0 => ⟨(hst t0).1, (hst t0).2.1⟩
  have hk : ∀ t0, KeepsSupport (S.rhs t0) (make (S.rhs t0)) := fun t0 => (hst t0).2.2
  have key : ∀ (Dts : List ℝ), (∀ Dt ∈ Dts, 0 < Dt) → ∀ (x : St (Fin n) κ) (g0 : MCWFLog.Logged), Inv (S.toMCWF make rates) x → (∀ e ∈ g0.log.traj, e.2 < δ.length) →
      SupportedOn (sector Q psi (balance δ g0.log.traj)) x.psi → MCWFLog.steps (S.toMCWF make rates) L sample fuel N Dts x g0 = some (z, g) →
      MCWF.norm z.psi = 1 ∧ (∀ e ∈ g.log.traj, e.2 < δ.length) ∧ SupportedOn (sector Q psi (balance δ g.log.traj)) z.psi := by
    intro Dts
    induction Dts with
    | nil =>
      intro _ x g0 hx hb hsup h
      obtain ⟨rfl, rfl⟩ := Prod.mk.inj (Option.some.inj h)
      exact ⟨hx.norm_one, hb, hsup⟩
    | cons Dt Dts ih =>
      intro hD x g0 hx hb hsup h
      obtain ⟨⟨y, gy⟩, hy, h⟩ := Option.bind_eq_some_iff.1 h
      have hDt := hD Dt (by simp)
      have hy' := MCWFLog.step_some _ _ _ _ _ _ _ _ _ hy
      have hyi := step_inv _ hwell L hL hT sample hs fuel N Dt hDt x y hx hy'
      refine ih (fun d hd => hD d (by simp [hd])) y gy hyi ?_ ?_ h
      all_goals
        cases hl : (S.toMCWF make rates).li with
        | none =>
          obtain ⟨-, ⟨-, h1⟩ | ⟨l', _, hl', _⟩⟩ := MCWFLog.step_traj _ L sample fuel N Dt x g0 y gy hy
          · rw [h1]
            first
            | exact hb
            | unfold MCWF.step at hy'
              obtain ⟨y1, hy1, h2⟩ := Option.bind_eq_some_iff.1 hy'
              rw [hl] at h2
              obtain rfl := Option.some.inj h2
              exact coherent_support S W V nJ J hP Q hV make hk rates psi _ fuel Dt x _ hsup hy1
          · rw [hl] at hl'; exact absurd hl' (by simp)
        | some l =>
          have hl0 := hl
          simp only [Master.Sys.toMCWF] at hl
          obtain ⟨l0, hl1, rfl⟩ := Option.map_eq_some_iff.1 hl
          obtain ⟨w, y2, y3, hw, hco, hy3, hcase⟩ := step_from _ hwell _ hl0 L hL hT sample hs fuel N Dt hDt x hx g0 y gy hy
          have hsup3 : SupportedOn (sector Q psi (balance δ g0.log.traj)) y3.psi := by
            rw [hy3]
            exact coherent_support S W V nJ J hP Q hV make hk rates psi _ fuel Dt w y2 (by rw [hw]; exact hsup) hco
          rcases hcase with ⟨h1, h2⟩ | ⟨no, hno, h1, h2⟩
          · rw [h1]
            first
            | exact hb
            | rw [h2]; exact hsup3
          · have hno' : no < nJ := by
              have := (hR y3.t y3.psi).1
              simpa only [this] using hno
            rw [h1]
            first
            | intro e he
              rcases List.mem_append.1 he with he | he
              · exact hb e he
              · obtain rfl := List.mem_singleton.1 he
                rw [hlen]; exact hno'
            | have hbal : balance δ (g0.log.traj ++ [(y.t, no)]) = balance δ g0.log.traj + δ.getD no 0 := by simp [balance]
              rw [hbal, h2]
              intro i hi
              have := (hJ no hno').mulVec psi _ _ hsup3 i hi
              simp only
              rw [(lin.jumps l0 hl1).2 no hno', this, zero_div]
  rw [MCWFLog.construct_eq] at hrun
  have hc := construct_inv (S.toMCWF make rates) L hL hT psi hpsi ces dtInit hdt
  obtain ⟨r1, r2, r3⟩ := key Dts hD _ _ hc.1 (by rw [MCWFLog.construct_traj]; simp) (by
    rw [MCWFLog.construct_traj, hc.2.1]
    intro i hi
    by_contra h0
    exact hi ⟨i, h0, by simp [balance]⟩) hrun
  refine ⟨r1, r2, fun i hi => ?_⟩
  by_contra h0
  exact hi (r3 i h0)

end CppQED.Counting
