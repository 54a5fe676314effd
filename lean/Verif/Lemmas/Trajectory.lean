import Verif.Spec.Trajectory
import Mathlib.Tactic.Linarith
import Mathlib.Tactic.SplitIfs
import Mathlib.Tactic.Ring

/-!
# Unfolding the main loop of the trajectory driver
-/

namespace CppQED.Traj

open CppQED.Spec

variable {σ ρ α : Type*}

lemma streamCond_eq (m : Mode) (k : ℕ) : (k = 0 ∨ streamCond m k = true) ↔ streamedAt m k = true := by
  cases m <;> simp [streamCond, streamedAt]

lemma streamings_succ (m : Mode) (k : ℕ) : streamings m (k + 1) = streamings m k + (if streamedAt m k then 1 else 0) := by
  unfold streamings
  rw [List.range_succ, List.filter_append, List.length_append]
  by_cases h : streamedAt m k = true <;> simp [h]

/-- The state of the loop before iteration `k`. -/
noncomputable def P (I : Iface σ ρ) (c : Cfg) (cont : Bool) (s : σ) (intro : List (Ev σ)) (k : ℕ) (a : α) : LoopState σ α :=
  { traj := stateAt I c.mode s (k - 1)
    count := k
    stateCount := streamings c.mode k
    stateSaved := k != 0 && savedAt c cont (k - 1)
    arrayStreamed := k != 0 && rowAt c cont (k - 1)
    auto := a
    evs := intro ++ (List.range k).flatMap (evAt I c cont s) }

lemma stateAt_succ (I : Iface σ ρ) (m : Mode) (s : σ) (k : ℕ) : stateAt I m s (k + 1) = move I m (stateAt I m s k) :=
  Function.iterate_succ_apply' _ _ _

/-- The beginning of the body. -/
lemma body_pre (I : Iface σ ρ) (c : Cfg) (cont : Bool) (s : σ) (intro : List (Ev σ)) (k : ℕ) (a : α) :
    (if (P I c cont s intro k a).count ≠ 0 then
      { P I c cont s intro k a with traj := move I c.mode (P I c cont s intro k a).traj, stateSaved := false, arrayStreamed := false }
      else P I c cont s intro k a) =
    { P I c cont s intro k a with traj := stateAt I c.mode s k, stateSaved := false, arrayStreamed := false } := by
  cases k with
  | zero => simp [P]
  | succ k => simp [P, stateAt_succ]

/-- The body in closed form: without an autostop. -/
lemma body_P (I : Iface σ ρ) (auto : α → σ → Option α) (c : Cfg) (cont : Bool) (s : σ) (intro : List (Ev σ)) (k : ℕ) (a a' : α)
    (h : (if rowAt c cont k then auto a (stateAt I c.mode s k) else some a) = some a') :
    ∃ st, body I auto c cont (P I c cont s intro k a) = (st, false) ∧ { st with count := st.count + 1 } = P I c cont s intro (k + 1) a' := by
  unfold body
  rw [body_pre]
  simp only [streamCond_eq]
  by_cases hs : streamedAt c.mode k = true
  · have hcnt : ({ P I c cont s intro k a with traj := stateAt I c.mode s k, stateSaved := false, arrayStreamed := false } :
        LoopState σ α).count = k := rfl
    by_cases hw : (c.stateStreamFreq ≠ 0 ∧ streamings c.mode k % c.stateStreamFreq = 0 ∧
        (streamings c.mode k ≠ 0 ∨ (c.firstStateStream = true ∧ cont = false)))
    · have hsv : savedAt c cont k = true := by
        simp only [savedAt, hs, Bool.true_and, Bool.and_eq_true, bne_iff_ne, beq_iff_eq, Bool.or_eq_true, Bool.not_eq_true']
        exact hw
      by_cases hr : k ≠ 0 ∨ cont = false
      · have hrow : rowAt c cont k = true := by
          simp only [rowAt, hs, Bool.true_and, Bool.or_eq_true, bne_iff_ne, Bool.not_eq_true']; exact hr
        rw [if_pos hrow] at h
        simp only [P, hs, if_true, eq_true hw, eq_true hr, h]
        refine ⟨_, rfl, ?_⟩
        simp [streamings_succ, hs, hsv, hrow, List.range_succ, List.flatMap_append, evAt]
      · have hrow : rowAt c cont k = false := by
          push Not at hr; simp [rowAt, hr.1, hr.2]
        rw [hrow] at h
        simp only [P, hs, if_true, eq_true hw, eq_false hr, if_false]
        refine ⟨_, rfl, ?_⟩
        simp at h
        simp [streamings_succ, hs, hsv, hrow, List.range_succ, List.flatMap_append, evAt, h]
    · have hsv : savedAt c cont k = false := by
        rw [← Bool.not_eq_true]
        simp only [savedAt, hs, Bool.true_and, Bool.and_eq_true, bne_iff_ne, beq_iff_eq, Bool.or_eq_true, Bool.not_eq_true']
        exact hw
      by_cases hr : k ≠ 0 ∨ cont = false
      · have hrow : rowAt c cont k = true := by
          simp only [rowAt, hs, Bool.true_and, Bool.or_eq_true, bne_iff_ne, Bool.not_eq_true']; exact hr
        rw [if_pos hrow] at h
        simp only [P, hs, if_true, eq_false hw, if_false, eq_true hr, h]
        refine ⟨_, rfl, ?_⟩
        simp [streamings_succ, hs, hsv, hrow, List.range_succ, List.flatMap_append, evAt]
      · have hrow : rowAt c cont k = false := by
          push Not at hr; simp [rowAt, hr.1, hr.2]
        rw [hrow] at h
        simp only [P, hs, if_true, eq_false hw, if_false, eq_false hr, if_false]
        refine ⟨_, rfl, ?_⟩
        simp at h
        simp [streamings_succ, hs, hsv, hrow, List.range_succ, List.flatMap_append, evAt, h]
  · have hsv : savedAt c cont k = false := by simp [savedAt, hs]
    have hrow : rowAt c cont k = false := by simp [rowAt, hs]
    rw [hrow] at h
    simp only [P, hs]
    refine ⟨_, rfl, ?_⟩
    simp at h
    simp [streamings_succ, hs, hsv, hrow, List.range_succ, List.flatMap_append, evAt, h]

/-- The body in closed form: with an autostop. -/
lemma body_P_stop (I : Iface σ ρ) (auto : α → σ → Option α) (c : Cfg) (cont : Bool) (s : σ) (intro : List (Ev σ)) (k : ℕ) (a : α)
    (hrow : rowAt c cont k = true) (h : auto a (stateAt I c.mode s k) = none) :
    ∃ st, body I auto c cont (P I c cont s intro k a) = (st, true) ∧ { st with count := st.count + 1 } = P I c cont s intro (k + 1) a := by
  have hs : streamedAt c.mode k = true := by simp [rowAt] at hrow; exact hrow.1
  have hr : k ≠ 0 ∨ cont = false := by
    simp only [rowAt, hs, Bool.true_and, Bool.or_eq_true, bne_iff_ne, Bool.not_eq_true'] at hrow; exact hrow
  unfold body
  rw [body_pre]
  simp only [streamCond_eq]
  by_cases hw : (c.stateStreamFreq ≠ 0 ∧ streamings c.mode k % c.stateStreamFreq = 0 ∧
      (streamings c.mode k ≠ 0 ∨ (c.firstStateStream = true ∧ cont = false)))
  · have hsv : savedAt c cont k = true := by
      simp only [savedAt, hs, Bool.true_and, Bool.and_eq_true, bne_iff_ne, beq_iff_eq, Bool.or_eq_true, Bool.not_eq_true']
      exact hw
    simp only [P, hs, if_true, eq_true hw, eq_true hr, h]
    refine ⟨_, rfl, ?_⟩
    simp [streamings_succ, hs, hsv, hrow, List.range_succ, List.flatMap_append, evAt]
  · have hsv : savedAt c cont k = false := by
      rw [← Bool.not_eq_true]
      simp only [savedAt, hs, Bool.true_and, Bool.and_eq_true, bne_iff_ne, beq_iff_eq, Bool.or_eq_true, Bool.not_eq_true']
      exact hw
    simp only [P, hs, if_true, eq_false hw, if_false, eq_true hr, h]
    refine ⟨_, rfl, ?_⟩
    simp [streamings_succ, hs, hsv, hrow, List.range_succ, List.flatMap_append, evAt]

/-- Does the loop enter iteration `k`? -/
def GoesOn (I : Iface σ ρ) (m : Mode) (s : σ) (k : ℕ) : Prop :=
  match m with
  | .timeDt T _ => I.time (stateAt I m s (k - 1)) < T
  | .nDt n _ => k ≤ n
  | .timeDc T _ => I.time (stateAt I m s (k - 1)) < T

lemma loopCond_P (I : Iface σ ρ) (c : Cfg) (cont : Bool) (s : σ) (intro : List (Ev σ)) (k : ℕ) (a : α) :
    loopCond I c.mode (P I c cont s intro k a) = true ↔ GoesOn I c.mode s k := by
  unfold loopCond GoesOn P
  cases h : c.mode <;> simp

lemma autoAt_mono (I : Iface σ ρ) (auto : α → σ → Option α) (a₀ : α) (c : Cfg) (cont : Bool) (s : σ) (k : ℕ) (a : α)
    (h : autoAt I auto a₀ c cont s (k + 1) = some a) :
    ∃ b, autoAt I auto a₀ c cont s k = some b ∧ (if rowAt c cont k then auto b (stateAt I c.mode s k) else some b) = some a := by
  unfold autoAt at h
  by_cases hr : rowAt c cont k = true
  · rw [if_pos hr] at h
    obtain ⟨b, hb, hb'⟩ := Option.bind_eq_some_iff.1 h
    exact ⟨b, hb, by rw [if_pos hr]; exact hb'⟩
  · rw [if_neg hr] at h
    exact ⟨a, h, by rw [if_neg hr]⟩

lemma mainLoop_skip (I : Iface σ ρ) (auto : α → σ → Option α) (a₀ : α) (c : Cfg) (cont : Bool) (s : σ) (intro : List (Ev σ)) (fuel : ℕ) :
    ∀ (k : ℕ) (a : α), (∀ j < k, GoesOn I c.mode s j) → autoAt I auto a₀ c cont s k = some a →
    mainLoop I auto c cont (fuel + k) (P I c cont s intro 0 a₀) = mainLoop I auto c cont fuel (P I c cont s intro k a) := by
  intro k
  induction k generalizing fuel with
  | zero => intro a _ h; simp [autoAt] at h; rw [h]; rfl
  | succ k ih =>
    intro a hgo ha
    obtain ⟨b, hb, hb'⟩ := autoAt_mono I auto a₀ c cont s k a ha
    have := ih (fuel + 1) b (fun j hj => hgo j (by omega)) hb
    rw [show fuel + (k + 1) = fuel + 1 + k by omega, this, mainLoop, if_pos ((loopCond_P I c cont s intro k b).2 (hgo k (by omega)))]
    obtain ⟨st, hst, hst'⟩ := body_P I auto c cont s intro k b a hb'
    rw [hst]
    simp only
    rw [hst']

/-- The loop left by its condition. -/
lemma mainLoop_end (I : Iface σ ρ) (auto : α → σ → Option α) (a₀ a : α) (c : Cfg) (cont : Bool) (s : σ) (intro : List (Ev σ)) (k fuel : ℕ)
    (hgo : ∀ j < k, GoesOn I c.mode s j) (hend : ¬ GoesOn I c.mode s k) (ha : autoAt I auto a₀ c cont s k = some a) (hf : k ≤ fuel) :
    mainLoop I auto c cont fuel (P I c cont s intro 0 a₀) = some (P I c cont s intro k a) := by
  obtain ⟨f, rfl⟩ := Nat.exists_eq_add_of_le hf
  rw [Nat.add_comm k f, mainLoop_skip I auto a₀ c cont s intro f k a hgo ha]
  have : ¬ loopCond I c.mode (P I c cont s intro k a) = true := fun h => hend ((loopCond_P _ _ _ _ _ _ _).1 h)
  cases f <;> simp only [mainLoop, if_neg this]

/-- The loop left by an autostop. -/
lemma mainLoop_stop (I : Iface σ ρ) (auto : α → σ → Option α) (a₀ a : α) (c : Cfg) (cont : Bool) (s : σ) (intro : List (Ev σ)) (k fuel : ℕ)
    (hgo : ∀ j ≤ k, GoesOn I c.mode s j) (hrow : rowAt c cont k = true) (ha : autoAt I auto a₀ c cont s k = some a)
    (hstop : auto a (stateAt I c.mode s k) = none) (hf : k < fuel) :
    ∃ st, mainLoop I auto c cont fuel (P I c cont s intro 0 a₀) = some st ∧ st.traj = stateAt I c.mode s k ∧
      st.evs = intro ++ (List.range (k + 1)).flatMap (evAt I c cont s) ++ [.stopComment] ∧ st.stateSaved = savedAt c cont k ∧
      st.arrayStreamed = true := by
  obtain ⟨f, rfl⟩ := Nat.exists_eq_add_of_lt hf
  rw [show k + f + 1 = (f + 1) + k by omega, mainLoop_skip I auto a₀ c cont s intro (f + 1) k a (fun j hj => hgo j hj.le) ha, mainLoop,
    if_pos ((loopCond_P I c cont s intro k a).2 (hgo k le_rfl))]
  obtain ⟨st, hst, hst'⟩ := body_P_stop I auto c cont s intro k a hrow hstop
  rw [hst]
  refine ⟨_, rfl, ?_⟩
  have h1 := congrArg LoopState.traj hst'
  have h2 := congrArg LoopState.evs hst'
  have h3 := congrArg LoopState.stateSaved hst'
  have h4 := congrArg LoopState.arrayStreamed hst'
  simp [P] at h1 h2 h3 h4
  simp [h1, h2, h3, h4, hrow]

/-- More fuel does not change the result. -/
lemma mainLoop_fuel (I : Iface σ ρ) (auto : α → σ → Option α) (c : Cfg) (cont : Bool) (fuel : ℕ) :
    ∀ (st st' : LoopState σ α) (m : ℕ), mainLoop I auto c cont fuel st = some st' → mainLoop I auto c cont (fuel + m) st = some st' := by
  induction fuel with
  | zero =>
    intro st st' m h
    rw [mainLoop] at h
    by_cases hc : loopCond I c.mode st = true
    · rw [if_pos hc] at h; exact absurd h (by simp)
    · rw [if_neg hc] at h
      cases m <;> simp only [mainLoop, if_neg hc, Nat.zero_add, h]
  | succ fuel ih =>
    intro st st' m h
    rw [show fuel + 1 + m = fuel + m + 1 by omega, mainLoop]
    rw [mainLoop] at h
    by_cases hc : loopCond I c.mode st = true
    · rw [if_pos hc] at h ⊢
      rcases hb : body I auto c cont st with ⟨st1, b⟩
      rw [hb] at h
      cases b with
      | true => exact h
      | false => exact ih _ _ m h
    · rw [if_neg hc] at h ⊢; exact h

/-- A finished loop has been left in one of the two ways. -/
lemma mainLoop_cases (I : Iface σ ρ) (auto : α → σ → Option α) (a₀ : α) (c : Cfg) (cont : Bool) (s : σ) (intro : List (Ev σ)) (fuel : ℕ) :
    ∀ (k : ℕ) (a : α) (st : LoopState σ α), (∀ j < k, GoesOn I c.mode s j) → autoAt I auto a₀ c cont s k = some a →
    mainLoop I auto c cont fuel (P I c cont s intro k a) = some st →
    (∃ N b, (∀ j < N, GoesOn I c.mode s j) ∧ ¬ GoesOn I c.mode s N ∧ autoAt I auto a₀ c cont s N = some b ∧ st = P I c cont s intro N b) ∨
    (∃ N b, (∀ j ≤ N, GoesOn I c.mode s j) ∧ rowAt c cont N = true ∧ autoAt I auto a₀ c cont s N = some b ∧
      auto b (stateAt I c.mode s N) = none ∧ autoAt I auto a₀ c cont s (N + 1) = none) := by
  induction fuel with
  | zero =>
    intro k a st hgo ha h
    left
    rw [mainLoop] at h
    by_cases hc : loopCond I c.mode (P I c cont s intro k a) = true
    · rw [if_pos hc] at h; exact absurd h (by simp)
    · rw [if_neg hc] at h
      exact ⟨k, a, hgo, fun hg => hc ((loopCond_P _ _ _ _ _ _ _).2 hg), ha, (Option.some.inj h).symm⟩
  | succ fuel ih =>
    intro k a st hgo ha h
    by_cases hc : loopCond I c.mode (P I c cont s intro k a) = true
    swap
    · left
      rw [mainLoop, if_neg hc] at h
      exact ⟨k, a, hgo, fun hg => hc ((loopCond_P _ _ _ _ _ _ _).2 hg), ha, (Option.some.inj h).symm⟩
    · have hgk := (loopCond_P I c cont s intro k a).1 hc
      have hgo' : ∀ j < k + 1, GoesOn I c.mode s j := fun j hj => by
        rcases Nat.lt_succ_iff_lt_or_eq.1 hj with h | h
        · exact hgo j h
        · exact h ▸ hgk
      by_cases hstop : rowAt c cont k = true ∧ auto a (stateAt I c.mode s k) = none
      · right
        exact ⟨k, a, fun j hj => hgo' j (by omega), hstop.1, ha, hstop.2, by rw [autoAt, if_pos hstop.1, ha]; exact hstop.2⟩
      · obtain ⟨a', ha'⟩ : ∃ a', (if rowAt c cont k then auto a (stateAt I c.mode s k) else some a) = some a' := by
          by_cases hr : rowAt c cont k = true
          · rw [if_pos hr]
            exact Option.ne_none_iff_exists'.1 fun hn => hstop ⟨hr, hn⟩
          · exact ⟨a, by rw [if_neg hr]⟩
        have hauto : autoAt I auto a₀ c cont s (k + 1) = some a' := by
          rw [autoAt, ha]
          by_cases hr : rowAt c cont k = true
          · rw [if_pos hr] at ha' ⊢; exact ha'
          · rw [if_neg hr] at ha' ⊢; exact ha'
        obtain ⟨st1, hst, hst'⟩ := body_P I auto c cont s intro k a a' ha'
        rw [mainLoop, if_pos hc, hst] at h
        simp only at h
        rw [hst'] at h
        exact ih (k + 1) a' st hgo' hauto h

lemma P_zero (I : Iface σ ρ) (c : Cfg) (cont : Bool) (s : σ) (intro : List (Ev σ)) (a : α) :
    (⟨s, 0, 0, false, false, a, intro⟩ : LoopState σ α) = P I c cont s intro 0 a := by
  simp [P, stateAt, streamings]

/-! ### Projections of the effects -/

@[simp] lemma rows_append (l l' : List (Ev σ)) : rows (l ++ l') = rows l ++ rows l' := List.filterMap_append
@[simp] lemma saves_append (l l' : List (Ev σ)) : saves (l ++ l') = saves l ++ saves l' := List.filterMap_append
@[simp] lemma returned_append (l l' : List (Ev σ)) : returned (l ++ l') = returned l ++ returned l' := List.filterMap_append
@[simp] lemma rows_nil : rows ([] : List (Ev σ)) = [] := rfl
@[simp] lemma saves_nil : saves ([] : List (Ev σ)) = [] := rfl
@[simp] lemma returned_nil : returned ([] : List (Ev σ)) = [] := rfl

lemma rows_flatMap (I : Iface σ ρ) (c : Cfg) (cont : Bool) (s : σ) (l : List ℕ) :
    rows (l.flatMap (evAt I c cont s)) = (l.filter (rowAt c cont)).map (stateAt I c.mode s) := by
  induction l with
  | nil => rfl
  | cons k l ih =>
    rw [List.flatMap_cons, rows_append, ih, List.filter_cons]
    unfold evAt
    by_cases h1 : savedAt c cont k = true <;> by_cases h2 : rowAt c cont k = true <;> simp [h1, h2, rows]

lemma returned_flatMap (I : Iface σ ρ) (c : Cfg) (cont : Bool) (s : σ) (l : List ℕ) :
    returned (l.flatMap (evAt I c cont s)) = (l.filter (rowAt c cont)).map (stateAt I c.mode s) := by
  induction l with
  | nil => rfl
  | cons k l ih =>
    rw [List.flatMap_cons, returned_append, ih, List.filter_cons]
    unfold evAt
    by_cases h1 : savedAt c cont k = true <;> by_cases h2 : rowAt c cont k = true <;> simp [h1, h2, returned]

lemma saves_flatMap (I : Iface σ ρ) (c : Cfg) (cont : Bool) (s : σ) (l : List ℕ) :
    saves (l.flatMap (evAt I c cont s)) = (l.filter (savedAt c cont)).map (stateAt I c.mode s) := by
  induction l with
  | nil => rfl
  | cons k l ih =>
    rw [List.flatMap_cons, saves_append, ih, List.filter_cons]
    unfold evAt
    by_cases h1 : savedAt c cont k = true <;> by_cases h2 : rowAt c cont k = true <;> simp [h1, h2, saves]

/-- The introduction. -/
def introEvs (c : Cfg) (cont : Bool) : List (Ev σ) := if c.streamInfo then (if cont then [.contHeader] else [.header]) else []

@[simp] lemma rows_intro (c : Cfg) (cont : Bool) : rows (introEvs c cont : List (Ev σ)) = [] := by
  unfold introEvs; split_ifs <;> rfl
@[simp] lemma saves_intro (c : Cfg) (cont : Bool) : saves (introEvs c cont : List (Ev σ)) = [] := by
  unfold introEvs; split_ifs <;> rfl
@[simp] lemma returned_intro (c : Cfg) (cont : Bool) : returned (introEvs c cont : List (Ev σ)) = [] := by
  unfold introEvs; split_ifs <;> rfl

/-- The end of a run. -/
noncomputable def tailEvs (I : Iface σ ρ) (c : Cfg) (cont : Bool) (s : σ) (N : ℕ) (stopped : Bool) : List (Ev σ) :=
  (if stopped then [.stopComment] else if rowAt c cont N then [] else [.row (stateAt I c.mode s N) false]) ++ [.logOnEnd] ++
  (if savedAt c cont N then [] else [.save (stateAt I c.mode s N)])

/-- All the effects of a run with `N` moves. -/
noncomputable def allEvs (I : Iface σ ρ) (c : Cfg) (cont : Bool) (s : σ) (N : ℕ) (stopped : Bool) : List (Ev σ) :=
  introEvs c cont ++ (List.range (N + 1)).flatMap (evAt I c cont s) ++ tailEvs I c cont s N stopped

lemma goesOn_zero (I : Iface σ ρ) (m : Mode) (s : σ) (h : I.time s < timeToReach I m s) : GoesOn I m s 0 := by
  cases m with
  | timeDt T Dt => exact h
  | nDt n Dt => exact Nat.zero_le n
  | timeDc T dc => exact h

lemma runFrom_unfold (I : Iface σ ρ) (auto : α → σ → Option α) (a₀ : α) (c : Cfg) (cont : Bool) (fuel : ℕ) (s : σ)
    (h : I.time s < timeToReach I c.mode s) (h0 : timeToReach I c.mode s ≠ 0) :
    runFrom I auto a₀ c cont fuel s =
      (mainLoop I auto c cont fuel (P I c cont s (introEvs c cont) 0 a₀)).map fun st => ⟨finish st, st.traj⟩ := by
  unfold runFrom
  have h1 : ¬ (timeToReach I c.mode s ≠ 0 ∧ timeToReach I c.mode s ≤ I.time s) := fun hh => absurd hh.2 (not_le.2 h)
  simp only [if_neg h1, if_neg h0]
  rw [P_zero I c cont s]
  rfl

/-- Complete description of a run that finishes. -/
lemma runFrom_effects (I : Iface σ ρ) (auto : α → σ → Option α) (a₀ : α) (c : Cfg) (cont : Bool) (fuel : ℕ) (s : σ) (r : Res σ)
    (h : I.time s < timeToReach I c.mode s) (h0 : timeToReach I c.mode s ≠ 0)
    (hr : runFrom I auto a₀ c cont fuel s = some r) :
    ∃ N stopped, r.final = stateAt I c.mode s N ∧ r.evs = allEvs I c cont s N stopped ∧ (∀ j ≤ N, GoesOn I c.mode s j) ∧
      (stopped = false → ¬ GoesOn I c.mode s (N + 1) ∧ autoAt I auto a₀ c cont s (N + 1) ≠ none) ∧
      (stopped = true → rowAt c cont N = true ∧ autoAt I auto a₀ c cont s N ≠ none ∧ autoAt I auto a₀ c cont s (N + 1) = none) := by
  rw [runFrom_unfold I auto a₀ c cont fuel s h h0] at hr
  obtain ⟨st, hst, hst'⟩ := Option.map_eq_some_iff.1 hr
  rcases mainLoop_cases I auto a₀ c cont s _ fuel 0 a₀ st (fun j hj => absurd hj (by omega)) rfl hst with
    ⟨N, b, hgo, hend, hb, rfl⟩ | ⟨N, b, hgo, hrow, hb, hstop, hnone⟩
  · obtain ⟨N, rfl⟩ : ∃ M, N = M + 1 := by
      cases N with
      | zero => exact absurd (goesOn_zero I c.mode s h) hend
      | succ M => exact ⟨M, rfl⟩
    refine ⟨N, false, ?_, ?_, fun j hj => hgo j (by omega), fun _ => ⟨hend, by simp [hb]⟩, by simp⟩
    · rw [← hst']; simp [P]
    · rw [← hst']; simp [P, finish, allEvs, tailEvs]
  · refine ⟨N, true, ?_, ?_, hgo, by simp, fun _ => ⟨hrow, by simp [hb], hnone⟩⟩
    · have hlt : N < N + 1 + fuel := by omega
      obtain ⟨st', h1, h2, h3, h4, h5⟩ := mainLoop_stop I auto a₀ b c cont s (introEvs c cont) N (N + 1 + fuel) hgo hrow hb hstop hlt
      have := mainLoop_fuel I auto c cont _ _ _ (N + 1) hst
      rw [Nat.add_comm] at h1
      rw [this] at h1
      rw [← hst', Option.some.inj h1]; exact h2
    · have hlt : N < N + 1 + fuel := by omega
      obtain ⟨st', h1, h2, h3, h4, h5⟩ := mainLoop_stop I auto a₀ b c cont s (introEvs c cont) N (N + 1 + fuel) hgo hrow hb hstop hlt
      have := mainLoop_fuel I auto c cont _ _ _ (N + 1) hst
      rw [Nat.add_comm] at h1
      rw [this] at h1
      rw [← hst', Option.some.inj h1]
      simp only [finish, h2, h3, h4, h5, allEvs, tailEvs]
      simp

lemma runFrom_end (I : Iface σ ρ) (auto : α → σ → Option α) (a₀ a : α) (c : Cfg) (cont : Bool) (fuel N : ℕ) (s : σ)
    (h : I.time s < timeToReach I c.mode s) (h0 : timeToReach I c.mode s ≠ 0) (hgo : ∀ j ≤ N, GoesOn I c.mode s j)
    (hend : ¬ GoesOn I c.mode s (N + 1)) (ha : autoAt I auto a₀ c cont s (N + 1) = some a) (hf : N + 1 ≤ fuel) :
    runFrom I auto a₀ c cont fuel s = some ⟨allEvs I c cont s N false, stateAt I c.mode s N⟩ := by
  rw [runFrom_unfold I auto a₀ c cont fuel s h h0, mainLoop_end I auto a₀ a c cont s _ (N + 1) fuel (fun j hj => hgo j (by omega)) hend ha hf]
  simp [P, finish, allEvs, tailEvs]

lemma autoAt_never (I : Iface σ ρ) (c : Cfg) (cont : Bool) (s : σ) (k : ℕ) : autoAt I neverStop () c cont s k = some () := by
  induction k with
  | zero => rfl
  | succ k ih => rw [autoAt, ih]; split_ifs <;> rfl

lemma rows_tail (I : Iface σ ρ) (c : Cfg) (cont : Bool) (s : σ) (N : ℕ) (b : Bool) :
    rows (tailEvs I c cont s N b) = if b = true ∨ rowAt c cont N = true then [] else [stateAt I c.mode s N] := by
  unfold tailEvs
  by_cases h1 : savedAt c cont N = true <;> by_cases h2 : rowAt c cont N = true <;> cases b <;> simp [h1, h2, rows]

lemma saves_tail (I : Iface σ ρ) (c : Cfg) (cont : Bool) (s : σ) (N : ℕ) (b : Bool) :
    saves (tailEvs I c cont s N b) = if savedAt c cont N = true then [] else [stateAt I c.mode s N] := by
  unfold tailEvs
  by_cases h1 : savedAt c cont N = true <;> by_cases h2 : rowAt c cont N = true <;> cases b <;> simp [h1, h2, saves]

lemma returned_tail (I : Iface σ ρ) (c : Cfg) (cont : Bool) (s : σ) (N : ℕ) (b : Bool) : returned (tailEvs I c cont s N b) = [] := by
  unfold tailEvs
  by_cases h1 : savedAt c cont N = true <;> by_cases h2 : rowAt c cont N = true <;> cases b <;> simp [h1, h2, returned]

lemma rows_all (I : Iface σ ρ) (c : Cfg) (cont : Bool) (s : σ) (N : ℕ) (b : Bool) :
    rows (allEvs I c cont s N b) = ((List.range (N + 1)).filter (rowAt c cont)).map (stateAt I c.mode s) ++
      if b = true ∨ rowAt c cont N = true then [] else [stateAt I c.mode s N] := by
  simp [allEvs, rows_flatMap, rows_tail]

lemma saves_all (I : Iface σ ρ) (c : Cfg) (cont : Bool) (s : σ) (N : ℕ) (b : Bool) :
    saves (allEvs I c cont s N b) = ((List.range (N + 1)).filter (savedAt c cont)).map (stateAt I c.mode s) ++
      if savedAt c cont N = true then [] else [stateAt I c.mode s N] := by
  simp [allEvs, saves_flatMap, saves_tail]

lemma returned_all (I : Iface σ ρ) (c : Cfg) (cont : Bool) (s : σ) (N : ℕ) (b : Bool) :
    returned (allEvs I c cont s N b) = ((List.range (N + 1)).filter (rowAt c cont)).map (stateAt I c.mode s) := by
  simp [allEvs, returned_flatMap, returned_tail]

/-- `filter p (range (N+1))`, completed by `N`. -/
lemma completed_eq (p : ℕ → Bool) (N : ℕ) :
    (List.range (N + 1)).filter p ++ (if p N = true then [] else [N]) = (List.range N).filter p ++ [N] := by
  rw [List.range_succ, List.filter_append]
  by_cases h : p N = true <;> simp [h]

lemma saves_all' (I : Iface σ ρ) (c : Cfg) (cont : Bool) (s : σ) (N : ℕ) (b : Bool) :
    saves (allEvs I c cont s N b) = ((List.range N).filter (savedAt c cont) ++ [N]).map (stateAt I c.mode s) := by
  rw [saves_all, ← completed_eq, List.map_append]
  by_cases h : savedAt c cont N = true <;> simp [h]

lemma rows_all' (I : Iface σ ρ) (c : Cfg) (cont : Bool) (s : σ) (N : ℕ) (b : Bool) (hb : b = true → rowAt c cont N = true) :
    rows (allEvs I c cont s N b) = ((List.range N).filter (rowAt c cont) ++ [N]).map (stateAt I c.mode s) := by
  rw [rows_all, ← completed_eq, List.map_append]
  by_cases h : rowAt c cont N = true
  · simp [h]
  · have : b = false := by
      cases b with
      | false => rfl
      | true => exact absurd (hb rfl) h
    simp [h, this]

lemma streamings_dt (m : Mode) (h : ∀ k, streamedAt m k = true) (k : ℕ) : streamings m k = k := by
  induction k with
  | zero => rfl
  | succ k ih => rw [streamings_succ, ih, h]; simp

/-! ### Times -/

/-- The condition of a well-posed run: positive cadence. -/
def Mode.Proper : Mode → Prop
  | .timeDt _ Dt => 0 < Dt
  | .nDt _ Dt => 0 < Dt
  | .timeDc _ _ => True

lemma move_forward (I : Iface σ ρ) (hI : Progress I) (m : Mode) (hm : m.Proper) (s : σ) (k : ℕ) (h : GoesOn I m s (k + 1)) :
    I.time (stateAt I m s k) < I.time (stateAt I m s (k + 1)) := by
  rw [stateAt_succ]
  cases m with
  | timeDt T Dt =>
    have h' : I.time (stateAt I (.timeDt T Dt) s k) < T := h
    have hd : 0 < min Dt (T - I.time (stateAt I (.timeDt T Dt) s k)) := lt_min hm (by linarith)
    show _ < I.time (I.advance _ _)
    rw [hI.advance_time _ _ hd]; linarith
  | nDt n Dt =>
    show _ < I.time (I.advance _ _)
    rw [hI.advance_time _ _ hm]; have : 0 < Dt := hm; linarith
  | timeDc T dc =>
    have h' : I.time (stateAt I (.timeDc T dc) s k) < T := h
    exact hI.step_forward _ _ (by linarith)

lemma time_strictMono (I : Iface σ ρ) (hI : Progress I) (m : Mode) (hm : m.Proper) (s : σ) (N : ℕ) (h : ∀ j ≤ N, GoesOn I m s j) :
    ∀ j k, j < k → k ≤ N → I.time (stateAt I m s j) < I.time (stateAt I m s k) := by
  intro j k hjk
  induction k with
  | zero => omega
  | succ k ih =>
    intro hk
    have h1 := move_forward I hI m hm s k (h (k + 1) hk)
    rcases Nat.lt_succ_iff_lt_or_eq.1 hjk with h2 | h2
    · exact (ih h2 (by omega)).trans h1
    · rw [h2]; exact h1

lemma time_nDt (I : Iface σ ρ) (hI : Progress I) (n : ℕ) (Dt : ℝ) (hD : 0 < Dt) (s : σ) (k : ℕ) :
    I.time (stateAt I (.nDt n Dt) s k) = I.time s + k * Dt := by
  induction k with
  | zero => simp [stateAt]
  | succ k ih =>
    rw [stateAt_succ]
    show I.time (I.advance _ _) = _
    rw [hI.advance_time _ _ hD, ih]; push_cast; ring

lemma time_le (I : Iface σ ρ) (hI : Progress I) (T : ℝ) (m : Mode) (hm : m.Proper) (hT : (∃ Dt, m = .timeDt T Dt) ∨ ∃ dc, m = .timeDc T dc)
    (s : σ) (h0 : I.time s ≤ T) (k : ℕ) (hgo : ∀ j ≤ k, GoesOn I m s j) : I.time (stateAt I m s k) ≤ T := by
  cases k with
  | zero => exact h0
  | succ k =>
    rw [stateAt_succ]
    rcases hT with ⟨Dt, rfl⟩ | ⟨dc, rfl⟩
    · have h' : I.time (stateAt I (.timeDt T Dt) s k) < T := hgo (k + 1) le_rfl
      have hd : 0 < min Dt (T - I.time (stateAt I (.timeDt T Dt) s k)) := lt_min hm (by linarith)
      show I.time (I.advance _ _) ≤ _
      rw [hI.advance_time _ _ hd]
      have := min_le_right Dt (T - I.time (stateAt I (.timeDt T Dt) s k)); linarith
    · have h' : I.time (stateAt I (.timeDc T dc) s k) < T := hgo (k + 1) le_rfl
      have := hI.step_allowed (T - I.time (stateAt I (.timeDc T dc) s k)) (stateAt I (.timeDc T dc) s k) (by linarith)
      show I.time (I.step _ _) ≤ _
      linarith

lemma time_timeDt (I : Iface σ ρ) (hI : Progress I) (T Dt : ℝ) (hD : 0 < Dt) (s : σ) (h0 : I.time s < T) (k : ℕ)
    (hk : ∀ j < k, I.time s + j * Dt < T) : I.time (stateAt I (.timeDt T Dt) s k) = min (I.time s + k * Dt) T := by
  induction k with
  | zero => simp [stateAt, h0.le]
  | succ k ih =>
    have ih := ih fun j hj => hk j (by omega)
    have hlt : I.time s + k * Dt < T := hk k (by omega)
    rw [min_eq_left hlt.le] at ih
    rw [stateAt_succ]
    show I.time (I.advance _ _) = _
    have hd : 0 < min Dt (T - I.time (stateAt I (.timeDt T Dt) s k)) := lt_min hD (by linarith)
    rw [hI.advance_time _ _ hd, ih]
    push_cast
    rcases le_total Dt (T - (I.time s + k * Dt)) with h | h
    · rw [min_eq_left h, min_eq_left (by linarith)]; ring
    · rw [min_eq_right h, min_eq_right (by linarith)]; ring

end CppQED.Traj
