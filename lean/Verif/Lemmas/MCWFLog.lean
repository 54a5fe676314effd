import Verif.Model.MCWFLog
import Verif.Props.MCWF

/-!
# Lemmas about the logger of the Monte Carlo wave-function trajectory
-/

namespace CppQED.MCWFLog

open CppQED.MCWF

variable {ι κ : Type*} [Fintype ι]

/-! ## The logger does not influence the trajectory -/

theorem coherent_eq (S : Sys ι κ) (fuel : ℕ) (Dt : ℝ) (x : St ι κ) (g : Logged) :
    (coherent S fuel Dt x g).map Prod.fst = MCWF.coherent S fuel Dt x := by
  unfold coherent MCWF.coherent
  rw [Option.map_map]
  rfl

/-- The result of the development together with the norm before the renormalisation. -/
theorem coherent_some (S : Sys ι κ) (fuel : ℕ) (Dt : ℝ) (x : St ι κ) (g : Logged) (r : St ι κ × Logged) (h : coherent S fuel Dt x g = some r) :
    ∃ y, evolve S fuel Dt x = some y ∧ MCWF.coherent S fuel Dt x = some r.1 ∧ r.2 = logNorm (MCWF.norm (exact S y).psi) g := by
  unfold coherent at h
  obtain ⟨y, hy, rfl⟩ := Option.map_eq_some_iff.1 h
  refine ⟨y, hy, ?_, rfl⟩
  unfold MCWF.coherent
  rw [hy]
  rfl

theorem performJump_fst (l : Li ι) (sample : ℕ → ℝ) (x : St ι κ) (g : Logged) : (performJump l sample x g).1 = MCWF.performJump l sample x := by
  unfold performJump MCWF.performJump
  simp only
  cases selectJump (effectiveRates l x.t x.psi) (sample x.nRandom) x.dtDid <;> rfl

theorem performJump_snd (l : Li ι) (sample : ℕ → ℝ) (x : St ι κ) (g : Logged) :
    (performJump l sample x g).2 = match selectJump (effectiveRates l x.t x.psi) (sample x.nRandom) x.dtDid with
      | some no => logJump x.t no g
      | none => g := by
  unfold performJump
  simp only
  cases selectJump (effectiveRates l x.t x.psi) (sample x.nRandom) x.dtDid <;> rfl

theorem retryLoop_eq (S : Sys ι κ) (l : Li ι) (L : Lim) (fuel : ℕ) (Dt : ℝ) (cache : St ι κ) (n : ℕ) (x : St ι κ) (g : Logged) :
    (retryLoop S l L fuel Dt cache n x g).map Prod.fst = MCWF.retryLoop S l L fuel Dt cache n x := by
  induction n generalizing x g with
  | zero =>
    unfold retryLoop MCWF.retryLoop manageTimeStep
    by_cases ho : MCWF.overshot L (effectiveRates l x.t x.psi) x.dtDid
    · simp [ho]
    · simp [ho]
  | succ n ih =>
    unfold retryLoop MCWF.retryLoop manageTimeStep
    by_cases ho : MCWF.overshot L (effectiveRates l x.t x.psi) x.dtDid
    · simp only [ho, if_true]
      rw [← coherent_eq S fuel Dt _ (logStepBack (total (effectiveRates l x.t x.psi) * x.dtDid) x.dtDid
        (setBack L (effectiveRates l x.t x.psi) cache.t cache.dtDid x).dtTry (setBack L (effectiveRates l x.t x.psi) cache.t cache.dtDid x).t true g)]
      cases coherent S fuel Dt { setBack L (effectiveRates l x.t x.psi) cache.t cache.dtDid x with psi := cache.psi } _ with
      | none => rfl
      | some y => exact ih y.1 y.2
    · simp [ho]

theorem step_eq (S : Sys ι κ) (L : Lim) (sample : ℕ → ℝ) (fuel n : ℕ) (Dt : ℝ) (x : St ι κ) (g : Logged) :
    (step S L sample fuel n Dt x g).map Prod.fst = MCWF.step S L sample fuel n Dt x := by
  unfold step MCWF.step
  rw [← coherent_eq S fuel Dt x g]
  cases coherent S fuel Dt x g with
  | none => rfl
  | some y =>
    cases hl : S.li with
    | none => rfl
    | some l =>
      simp only [Option.bind_some, Option.map_some]
      rw [← retryLoop_eq S l L fuel Dt x n y.1 y.2]
      cases retryLoop S l L fuel Dt x n y.1 y.2 with
      | none => rfl
      | some z => simp [performJump_fst]

theorem step_some (S : Sys ι κ) (L : Lim) (sample : ℕ → ℝ) (fuel n : ℕ) (Dt : ℝ) (x : St ι κ) (g : Logged) (r : St ι κ × Logged)
    (h : step S L sample fuel n Dt x g = some r) : MCWF.step S L sample fuel n Dt x = some r.1 := by
  rw [← step_eq S L sample fuel n Dt x g, h]
  rfl

theorem steps_eq (S : Sys ι κ) (L : Lim) (sample : ℕ → ℝ) (fuel n : ℕ) (Dts : List ℝ) (x : St ι κ) (g : Logged) :
    (steps S L sample fuel n Dts x g).map Prod.fst = MCWF.steps S L sample fuel n Dts x := by
  induction Dts generalizing x g with
  | nil => rfl
  | cons Dt Dts ih =>
    unfold steps MCWF.steps
    rw [← step_eq S L sample fuel n Dt x g]
    cases step S L sample fuel n Dt x g with
    | none => rfl
    | some y => exact ih y.1 y.2

theorem construct_eq (S : Sys ι κ) (L : Lim) (psi : ι → ℂ) (ces : κ) (dtInit : ℝ) (logLevel : ℤ) (nL : ℕ) :
    (construct S L psi ces dtInit logLevel nL).1 = MCWF.construct S L psi ces dtInit := by
  unfold construct MCWF.construct
  cases S.li with
  | none => rfl
  | some l =>
    simp only
    unfold manageTimeStep
    split <;> rfl

/-! ## Relations preserved by all the calls of the logger -/

/-- A relation between two loggers which is preserved if both register the same. -/
structure Preserved (R : Logged → Logged → Prop) : Prop where
  step : ∀ g h, R g h → R (logStep g) (logStep h)
  stepBack : ∀ dp d n t c g h, R g h → R (logStepBack dp d n t c g) (logStepBack dp d n t c h)
  overshot : ∀ dp o n c g h, R g h → R (logOvershot dp o n c g) (logOvershot dp o n c h)
  norm : ∀ r g h, R g h → R (logNorm r g) (logNorm r h)
  jump : ∀ t no g h, R g h → R (logJump t no g) (logJump t no h)

/-- Two results are the same apart from the loggers, which are related. -/
def SameRun (R : Logged → Logged → Prop) (a b : Option (St ι κ × Logged)) : Prop :=
  match a, b with
  | none, none => True
  | some a, some b => a.1 = b.1 ∧ R a.2 b.2
  | _, _ => False

variable {R : Logged → Logged → Prop}

theorem coherent_rel (hR : Preserved R) (S : Sys ι κ) (fuel : ℕ) (Dt : ℝ) (x : St ι κ) (g h : Logged) (hgh : R g h) :
    SameRun R (coherent S fuel Dt x g) (coherent S fuel Dt x h) := by
  unfold coherent
  cases evolve S fuel Dt x with
  | none => exact trivial
  | some y => exact ⟨rfl, hR.norm _ _ _ hgh⟩

theorem manage_rel (hR : Preserved R) (S : Sys ι κ) (L : Lim) (rates : List ℝ) (t d : ℝ) (c : Bool) (x : St ι κ) (g h : Logged) (hgh : R g h) :
    (manageTimeStep S L rates t d c x g).1 = (manageTimeStep S L rates t d c x h).1 ∧
    (manageTimeStep S L rates t d c x g).2.1 = (manageTimeStep S L rates t d c x h).2.1 ∧
    R (manageTimeStep S L rates t d c x g).2.2 (manageTimeStep S L rates t d c x h).2.2 := by
  unfold manageTimeStep
  split
  · exact ⟨rfl, rfl, hR.stepBack _ _ _ _ _ _ _ hgh⟩
  · refine ⟨rfl, rfl, ?_⟩
    simp only
    split
    · exact hR.overshot _ _ _ _ _ _ hgh
    · exact hgh

theorem bind_rel {a b : Option (St ι κ × Logged)} {f f' : St ι κ × Logged → Option (St ι κ × Logged)} (h : SameRun R a b)
    (hf : ∀ x g g', R g g' → SameRun R (f (x, g)) (f' (x, g'))) : SameRun R (a.bind f) (b.bind f') := by
  cases a with
  | none => cases b with
    | none => exact trivial
    | some b => exact h.elim
  | some a => cases b with
    | none => exact h.elim
    | some b =>
      obtain ⟨a1, a2⟩ := a
      obtain ⟨b1, b2⟩ := b
      obtain ⟨h1, h2⟩ := h
      simp only at h1
      subst h1
      exact hf _ _ _ h2

theorem retryLoop_rel (hR : Preserved R) (S : Sys ι κ) (l : Li ι) (L : Lim) (fuel : ℕ) (Dt : ℝ) (cache : St ι κ) (n : ℕ) (x : St ι κ) (g h : Logged)
    (hgh : R g h) : SameRun R (retryLoop S l L fuel Dt cache n x g) (retryLoop S l L fuel Dt cache n x h) := by
  induction n generalizing x g h with
  | zero =>
    unfold retryLoop
    obtain ⟨h1, h2, h3⟩ := manage_rel hR S L (effectiveRates l x.t x.psi) cache.t cache.dtDid true x g h hgh
    simp only
    rw [h1]
    split
    · exact trivial
    · exact ⟨h2, h3⟩
  | succ n ih =>
    unfold retryLoop
    obtain ⟨h1, h2, h3⟩ := manage_rel hR S L (effectiveRates l x.t x.psi) cache.t cache.dtDid true x g h hgh
    simp only
    rw [h1]
    split
    · rw [h2]
      exact bind_rel (coherent_rel hR S fuel Dt _ _ _ h3) fun y g' h' hy => ih y g' h' hy
    · exact ⟨h2, h3⟩

theorem performJump_rel (hR : Preserved R) (l : Li ι) (sample : ℕ → ℝ) (x : St ι κ) (g h : Logged) (hgh : R g h) :
    R (performJump l sample x g).2 (performJump l sample x h).2 := by
  rw [performJump_snd, performJump_snd]
  split
  · exact hR.jump _ _ _ _ hgh
  · exact hgh

theorem step_rel (hR : Preserved R) (S : Sys ι κ) (L : Lim) (sample : ℕ → ℝ) (fuel n : ℕ) (Dt : ℝ) (x : St ι κ) (g h : Logged) (hgh : R g h) :
    SameRun R (step S L sample fuel n Dt x g) (step S L sample fuel n Dt x h) := by
  unfold step
  refine bind_rel (coherent_rel hR S fuel Dt x g h hgh) fun y g' h' hy => ?_
  cases S.li with
  | none => exact ⟨rfl, hR.step _ _ hy⟩
  | some l =>
    have := retryLoop_rel hR S l L fuel Dt x n y g' h' hy
    simp only
    revert this
    cases retryLoop S l L fuel Dt x n y g' with
    | none => cases retryLoop S l L fuel Dt x n y h' with
      | none => exact id
      | some b => exact fun h => h.elim
    | some a => cases retryLoop S l L fuel Dt x n y h' with
      | none => exact fun h => h.elim
      | some b =>
        rintro ⟨h1, h2⟩
        refine ⟨?_, hR.step _ _ ?_⟩
        · simp only [performJump_fst, h1]
        · rw [h1]
          exact performJump_rel hR l sample b.1 _ _ h2

theorem steps_rel (hR : Preserved R) (S : Sys ι κ) (L : Lim) (sample : ℕ → ℝ) (fuel n : ℕ) (Dts : List ℝ) (x : St ι κ) (g h : Logged) (hgh : R g h) :
    SameRun R (steps S L sample fuel n Dts x g) (steps S L sample fuel n Dts x h) := by
  induction Dts generalizing x g h with
  | nil => exact ⟨rfl, hgh⟩
  | cons Dt Dts ih =>
    unfold steps
    exact bind_rel (step_rel hR S L sample fuel n Dt x g h hgh) fun y g' h' hy => ih y g' h' hy

/-! ## Properties of the logger preserved by all the calls -/

/-- A property of the logger preserved by all calls with `logControl` true. -/
structure Kept (P : Logged → Prop) : Prop where
  step : ∀ g, P g → P (logStep g)
  stepBack : ∀ dp d n t g, P g → P (logStepBack dp d n t true g)
  overshot : ∀ dp o n g, P g → P (logOvershot dp o n true g)
  norm : ∀ r g, P g → P (logNorm r g)
  jump : ∀ t no g, P g → P (logJump t no g)

theorem retryLoop_kept {P : Logged → Prop} (hP : Kept P) (S : Sys ι κ) (l : Li ι) (L : Lim) (fuel : ℕ) (Dt : ℝ) (cache : St ι κ) (n : ℕ) (x : St ι κ) (g : Logged)
    (hg : P g) (r : St ι κ × Logged) (h : retryLoop S l L fuel Dt cache n x g = some r) : P r.2 := by
  have hm : ∀ (x : St ι κ) (g : Logged), P g → P (manageTimeStep S L (effectiveRates l x.t x.psi) cache.t cache.dtDid true x g).2.2 := by
    intro x g hg
    unfold manageTimeStep
    split
    · exact hP.stepBack _ _ _ _ _ hg
    · simp only
      split
      · exact hP.overshot _ _ _ _ hg
      · exact hg
  induction n generalizing x g with
  | zero =>
    unfold retryLoop at h
    simp only at h
    split at h
    · exact absurd h (by simp)
    · obtain rfl := Option.some.inj h
      exact hm x g hg
  | succ n ih =>
    unfold retryLoop at h
    simp only at h
    split at h
    · obtain ⟨y, hy, h⟩ := Option.bind_eq_some_iff.1 h
      obtain ⟨_, -, -, h2⟩ := coherent_some S fuel Dt _ _ _ hy
      exact ih y.1 y.2 (h2 ▸ hP.norm _ _ (hm x g hg)) h
    · obtain rfl := Option.some.inj h
      exact hm x g hg

theorem step_kept {P : Logged → Prop} (hP : Kept P) (S : Sys ι κ) (L : Lim) (sample : ℕ → ℝ) (fuel n : ℕ) (Dt : ℝ) (x : St ι κ) (g : Logged)
    (hg : P g) (r : St ι κ × Logged) (h : step S L sample fuel n Dt x g = some r) : P r.2 := by
  unfold step at h
  obtain ⟨y, hy, h⟩ := Option.bind_eq_some_iff.1 h
  obtain ⟨_, -, -, h2⟩ := coherent_some S fuel Dt _ _ _ hy
  have hy2 : P y.2 := h2 ▸ hP.norm _ _ hg
  cases hl : S.li with
  | none =>
    rw [hl] at h
    obtain rfl := Option.some.inj h
    exact hP.step _ hy2
  | some l =>
    rw [hl] at h
    obtain ⟨z, hz, rfl⟩ := Option.map_eq_some_iff.1 h
    refine hP.step _ ?_
    rw [performJump_snd]
    have := retryLoop_kept hP S l L fuel Dt x n y.1 y.2 hy2 z hz
    split
    · exact hP.jump _ _ _ this
    · exact this

theorem steps_kept {P : Logged → Prop} (hP : Kept P) (S : Sys ι κ) (L : Lim) (sample : ℕ → ℝ) (fuel n : ℕ) (Dts : List ℝ) (x : St ι κ) (g : Logged)
    (hg : P g) (r : St ι κ × Logged) (h : steps S L sample fuel n Dts x g = some r) : P r.2 := by
  induction Dts generalizing x g with
  | nil => obtain rfl := Option.some.inj h; exact hg
  | cons Dt Dts ih =>
    obtain ⟨y, hy, h⟩ := Option.bind_eq_some_iff.1 h
    exact ih y.1 y.2 (step_kept hP S L sample fuel n Dt x g hg y hy) h

/-- What a step adds to the record of jumps, and what it counts. -/
theorem step_traj (S : Sys ι κ) (L : Lim) (sample : ℕ → ℝ) (fuel n : ℕ) (Dt : ℝ) (x : St ι κ) (g : Logged) (z : St ι κ) (g' : Logged)
    (h : step S L sample fuel n Dt x g = some (z, g')) :
    g'.log.nSteps = g.log.nSteps + 1 ∧
    ((S.li = none ∧ g'.log.traj = g.log.traj) ∨
     ∃ l y, S.li = some l ∧ z = MCWF.performJump l sample y ∧ (∃ y0, MCWF.coherent S fuel Dt x = some y0 ∧ MCWF.retryLoop S l L fuel Dt x n y0 = some y) ∧
      g'.log.traj = g.log.traj ++ match selectJump (effectiveRates l y.t y.psi) (sample y.nRandom) y.dtDid with
        | some no => [(y.t, no)]
        | none => []) := by
  unfold step at h
  obtain ⟨y, hy, h⟩ := Option.bind_eq_some_iff.1 h
  obtain ⟨_, -, h1, h2⟩ := coherent_some S fuel Dt _ _ _ hy
  have hy1 : y.2.log.nSteps = g.log.nSteps := by rw [h2]; rfl
  have hy2 : y.2.log.traj = g.log.traj := by rw [h2]; rfl
  cases hl : S.li with
  | none =>
    rw [hl] at h
    obtain ⟨rfl, rfl⟩ := Prod.mk.inj (Option.some.inj h)
    exact ⟨congrArg (· + 1) hy1, Or.inl ⟨rfl, hy2⟩⟩
  | some l =>
    rw [hl] at h
    obtain ⟨w, hw, h⟩ := Option.map_eq_some_iff.1 h
    obtain ⟨rfl, rfl⟩ := Prod.mk.inj h
    have hk : w.2.log.nSteps = g.log.nSteps ∧ w.2.log.traj = g.log.traj := by
      have hm : ∀ (x' : St ι κ) (g' : Logged), g'.log.nSteps = g.log.nSteps ∧ g'.log.traj = g.log.traj →
          (manageTimeStep S L (effectiveRates l x'.t x'.psi) x.t x.dtDid true x' g').2.2.log.nSteps = g.log.nSteps ∧
          (manageTimeStep S L (effectiveRates l x'.t x'.psi) x.t x.dtDid true x' g').2.2.log.traj = g.log.traj := by
        intro x' g' hg'
        unfold manageTimeStep
        split
        · exact hg'
        · simp only
          split <;> exact hg'
      have : ∀ (n : ℕ) (y : St ι κ × Logged), y.2.log.nSteps = g.log.nSteps ∧ y.2.log.traj = g.log.traj → retryLoop S l L fuel Dt x n y.1 y.2 = some w →
          w.2.log.nSteps = g.log.nSteps ∧ w.2.log.traj = g.log.traj := by
        intro n
        induction n with
        | zero =>
          intro y hy h
          unfold retryLoop at h
          simp only at h
          split at h
          · exact absurd h (by simp)
          · obtain rfl := Option.some.inj h
            exact hm _ _ hy
        | succ n ih =>
          intro y hy h
          unfold retryLoop at h
          simp only at h
          split at h
          · obtain ⟨y', hy', h⟩ := Option.bind_eq_some_iff.1 h
            obtain ⟨_, -, -, h2⟩ := coherent_some S fuel Dt _ _ _ hy'
            refine ih y' ?_ h
            rw [h2]
            exact hm y.1 y.2 hy
          · obtain rfl := Option.some.inj h
            exact hm _ _ hy
      exact this n y ⟨hy1, hy2⟩ hw
    refine ⟨?_, Or.inr ⟨l, w.1, rfl, performJump_fst l sample w.1 w.2, ⟨y.1, h1, ?_⟩, ?_⟩⟩
    · show (performJump l sample w.1 w.2).2.log.nSteps + 1 = _
      rw [performJump_snd, ← hk.1]
      split <;> rfl
    · rw [← retryLoop_eq S l L fuel Dt x n y.1 y.2, hw]; rfl
    · show (performJump l sample w.1 w.2).2.log.traj = _
      rw [performJump_snd, ← hk.2]
      split <;> simp [logJump]

end CppQED.MCWFLog
