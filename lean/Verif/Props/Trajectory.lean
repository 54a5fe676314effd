import Verif.Lemmas.Trajectory
import Mathlib.Algebra.Order.Floor.Ring
import Mathlib.Algebra.Order.Archimedean.Real.Basic
import Mathlib.Tactic.Positivity
import Mathlib.Tactic.FieldSimp
import Mathlib.Tactic.NormNum

/-! # Properties C34 (`advance`), C35 (schedule of streaming), C36 (state saving), C37 (resuming), C59 and C60 (crash) -/

namespace CppQED.Traj
open CppQED.Spec

variable {σ ρ α : Type*}

/-! ## C34 -/

/-- One iteration of `advance`: a step allowed exactly the time left. -/
def stepTowards (time : σ → ℝ) (step : ℝ → σ → σ) (endTime : ℝ) (s : σ) : σ := step (endTime - time s) s

/-- **C34.** When `advance` returns, the time is exactly the old time plus the requested interval, whatever the stepper does. -/
theorem advance_reaches (time : σ → ℝ) (step : ℝ → σ → σ) (deltaT : ℝ) (fuel : ℕ) (s s' : σ)
    (h : advance time step deltaT fuel s = some s') : time s' = time s + deltaT := by
  unfold advance at h
  generalize time s + deltaT = e at h ⊢
  induction fuel generalizing s with
  | zero =>
    rw [advanceLoop] at h
    split_ifs at h with h0
    rw [← Option.some.inj h]; linarith
  | succ n ih =>
    rw [advanceLoop] at h
    split_ifs at h with h0
    · rw [← Option.some.inj h]; linarith
    · exact ih _ h

/-- **C34.** `advance` is a sequence of steps each of which is allowed exactly the time that is left, and it stops as soon as nothing is left. -/
theorem advance_is_steps (time : σ → ℝ) (step : ℝ → σ → σ) (deltaT : ℝ) (fuel : ℕ) (s s' : σ) (h : advance time step deltaT fuel s = some s') :
    ∃ k ≤ fuel, s' = (stepTowards time step (time s + deltaT))^[k] s ∧
      ∀ j < k, time ((stepTowards time step (time s + deltaT))^[j] s) ≠ time s + deltaT := by
  unfold advance at h
  generalize time s + deltaT = e at h ⊢
  induction fuel generalizing s with
  | zero =>
    rw [advanceLoop] at h
    split_ifs at h with h0
    exact ⟨0, le_rfl, (Option.some.inj h).symm, by omega⟩
  | succ n ih =>
    rw [advanceLoop] at h
    split_ifs at h with h0
    · exact ⟨0, by omega, (Option.some.inj h).symm, by omega⟩
    · obtain ⟨k, hk, h1, h2⟩ := ih _ h
      refine ⟨k + 1, by omega, h1, fun j hj => ?_⟩
      cases j with
      | zero => exact fun hh => h0 (by rw [← hh]; exact sub_self _)
      | succ j => exact h2 j (by omega)

/-- **C34.** With a stepper that goes forward and does not exceed its allowance, the time does not pass the target during `advance`, and every
step makes progress. -/
theorem advance_no_overshoot (time : σ → ℝ) (step : ℝ → σ → σ) (hf : ∀ d s, 0 < d → time s < time (step d s))
    (hle : ∀ d s, 0 < d → time (step d s) ≤ time s + d) (deltaT : ℝ) (hd : 0 ≤ deltaT) (s : σ) (k : ℕ)
    (hk : ∀ j < k, time ((stepTowards time step (time s + deltaT))^[j] s) ≠ time s + deltaT) :
    time ((stepTowards time step (time s + deltaT))^[k] s) ≤ time s + deltaT ∧
    ∀ j < k, time ((stepTowards time step (time s + deltaT))^[j] s) < time ((stepTowards time step (time s + deltaT))^[j + 1] s) := by
  have key : ∀ j ≤ k, time ((stepTowards time step (time s + deltaT))^[j] s) ≤ time s + deltaT := by
    intro j
    induction j with
    | zero => intro _; simpa using hd
    | succ j ih =>
      intro hj
      have h1 := lt_of_le_of_ne (ih (by omega)) (hk j (by omega))
      rw [Function.iterate_succ_apply']
      have := hle _ ((stepTowards time step (time s + deltaT))^[j] s) (sub_pos.2 h1)
      exact this.trans (by linarith)
  refine ⟨key k le_rfl, fun j hj => ?_⟩
  have h1 := lt_of_le_of_ne (key j hj.le) (hk j hj)
  rw [Function.iterate_succ_apply']
  exact hf _ _ (sub_pos.2 h1)

/-- **C34.** `advance` terminates if every step which does not use up its allowance is at least `h` long. -/
theorem advance_terminates (time : σ → ℝ) (step : ℝ → σ → σ) (h : ℝ) (hh : 0 < h)
    (hs : ∀ d s, 0 < d → time (step d s) = time s + d ∨ (time s + h ≤ time (step d s) ∧ time (step d s) ≤ time s + d))
    (deltaT : ℝ) (hd : 0 ≤ deltaT) (s : σ) (fuel : ℕ) (hf : deltaT / h < fuel) :
    ∃ s', advance time step deltaT fuel s = some s' := by
  unfold advance
  have key : ∀ (n : ℕ) (e : ℝ) (s : σ), 0 ≤ e - time s → e - time s < n * h → ∃ s', advanceLoop time step e n s = some s' := by
    intro n e
    induction n with
    | zero => intro s h1 h2; simp at h2; linarith
    | succ n ih =>
      intro s h1 h2
      rw [advanceLoop]
      split_ifs with h0
      · exact ⟨s, rfl⟩
      · have hpos : 0 < e - time s := lt_of_le_of_ne h1 (Ne.symm h0)
        have done : time (step (e - time s) s) = e → ∃ s', advanceLoop time step e n (step (e - time s) s) = some s' := by
          intro ht
          have : e - time (step (e - time s) s) = 0 := by rw [ht]; ring
          cases n with
          | zero => exact ⟨_, by rw [advanceLoop, if_pos this]⟩
          | succ n => exact ⟨_, by rw [advanceLoop, if_pos this]⟩
        rcases hs (e - time s) s hpos with h3 | ⟨h3, h4⟩
        · exact done (by rw [h3]; ring)
        · by_cases hq : time (step (e - time s) s) = e
          · exact done hq
          · refine ih _ (by linarith) ?_
            push_cast at h2; linarith
  refine key fuel _ s (by linarith) ?_
  rw [div_lt_iff₀ hh] at hf
  linarith

/-- **C34.** `advanceTo` ends exactly at the given time. -/
theorem advanceTo_reaches (time : σ → ℝ) (step : ℝ → σ → σ) (t : ℝ) (fuel : ℕ) (s s' : σ) (h : advanceTo time step t fuel s = some s') :
    time s' = t := by
  rw [advance_reaches time step _ fuel s s' h]; ring

/-- A clock making steps of at most 1. -/
noncomputable def clock : Iface ℝ ℝ where
  time := id
  step d s := s + min d 1
  advance d s := s + d
  save := id
  load r _ := r

theorem clock_progress : Progress clock where
  advance_time d s _ := rfl
  step_forward d s hd := by show s < s + min d 1; have : 0 < min d 1 := lt_min hd one_pos; linarith
  step_allowed d s _ := by show s + min d 1 ≤ s + d; have := min_le_left d (1 : ℝ); linarith

/-- The clock does arrive after an interval of 7/2. -/
example : ∃ s', advance clock.time clock.step (7 / 2) 4 0 = some s' :=
  advance_terminates clock.time clock.step 1 one_pos (fun d s _ => by
    show s + min d 1 = s + d ∨ (s + 1 ≤ s + min d 1 ∧ s + min d 1 ≤ s + d)
    rcases le_total d 1 with h | h
    · left; rw [min_eq_left h]
    · right; rw [min_eq_right h]; exact ⟨le_rfl, by linarith⟩) (7 / 2) (by norm_num) 0 4 (by norm_num)

/-! ## C35 -/

/-- **C35.** A run whose target time has been reached does nothing. -/
theorem run_target_reached (I : Iface σ ρ) (auto : α → σ → Option α) (a₀ : α) (c : Cfg) (cont : Bool) (fuel : ℕ) (s : σ)
    (h0 : timeToReach I c.mode s ≠ 0) (h : timeToReach I c.mode s ≤ I.time s) : runFrom I auto a₀ c cont fuel s = some ⟨[], s⟩ := by
  unfold runFrom
  exact if_pos ⟨h0, h⟩

/-- **C35** (`NDt`). The run streams at exactly the multiples of `Dt`: `n+1` times in a fresh run, and `n` times in a continuing one, which does not
repeat the row of its initial state. -/
theorem run_nDt (I : Iface σ ρ) (hI : Progress I) (c : Cfg) (n : ℕ) (Dt : ℝ) (hm : c.mode = .nDt n Dt) (hn : 0 < n) (hD : 0 < Dt) (cont : Bool)
    (s : σ) (hs : 0 ≤ I.time s) (fuel : ℕ) (hf : n + 1 ≤ fuel) :
    ∃ r, runFrom I neverStop () c cont fuel s = some r ∧
      rows r.evs = ((List.range (n + 1)).drop (if cont then 1 else 0)).map (fun k => (I.advance Dt)^[k] s) ∧
      returned r.evs = rows r.evs ∧
      (rows r.evs).map I.time = ((List.range (n + 1)).drop (if cont then 1 else 0)).map (fun k : ℕ => I.time s + k * Dt) ∧
      r.final = (I.advance Dt)^[n] s ∧ I.time r.final = I.time s + n * Dt := by
  have hgo : ∀ j ≤ n, GoesOn I c.mode s j := by rw [hm]; intro j hj; exact hj
  have hend : ¬ GoesOn I c.mode s (n + 1) := by rw [hm]; show ¬ (n + 1 ≤ n); omega
  have hpos : 0 < (n : ℝ) * Dt := by positivity
  have hst : ∀ k, stateAt I c.mode s k = (I.advance Dt)^[k] s := by rw [hm]; intro k; rfl
  have ht : ∀ k, I.time ((I.advance Dt)^[k] s) = I.time s + k * Dt := by
    intro k; rw [← hst, hm, time_nDt I hI n Dt hD]
  refine ⟨_, runFrom_end I neverStop () () c cont fuel n s ?_ ?_ hgo hend (autoAt_never I c cont s _) hf, ?_⟩
  · rw [hm]; show I.time s < I.time s + n * Dt; linarith
  · rw [hm]; show I.time s + n * Dt ≠ 0; linarith
  have hstr : ∀ k, streamedAt c.mode k = true := by rw [hm]; intro k; rfl
  have hrow : (List.range (n + 1)).filter (rowAt c cont) = (List.range (n + 1)).drop (if cont then 1 else 0) := by
    have : rowAt c cont = fun k => k != 0 || !cont := by funext k; simp [rowAt, hstr]
    rw [this]
    cases cont with
    | false => simp
    | true =>
      rw [List.range_succ_eq_map]
      simp [List.filter_map, Function.comp_def]
  have hlast : rowAt c cont n = true := by simp [rowAt, hstr]; left; omega
  have hrows : rows (allEvs I c cont s n false) = ((List.range (n + 1)).drop (if cont then 1 else 0)).map (fun k => (I.advance Dt)^[k] s) := by
    rw [rows_all, hrow, if_pos (Or.inr hlast), List.append_nil]
    exact List.map_congr_left fun k _ => hst k
  refine ⟨hrows, ?_, ?_, hst n, ?_⟩
  · rw [returned_all, rows_all, if_pos (Or.inr hlast), List.append_nil]
  · simp only [hrows, List.map_map]
    exact List.map_congr_left fun k _ => ht k
  · show I.time (stateAt I c.mode s n) = _
    rw [hst]; exact ht n

/-- **C35** (`T`, `Dt`). The run streams at the beginning (if fresh), then after every `Dt`, and the last time exactly at `T`. -/
theorem run_timeDt (I : Iface σ ρ) (hI : Progress I) (c : Cfg) (T Dt : ℝ) (hm : c.mode = .timeDt T Dt) (hD : 0 < Dt) (hT : T ≠ 0) (cont : Bool)
    (s : σ) (hs : I.time s < T) (fuel : ℕ) (hf : ⌈(T - I.time s) / Dt⌉₊ + 1 ≤ fuel) :
    ∃ r, runFrom I neverStop () c cont fuel s = some r ∧
      (rows r.evs).map I.time =
        ((List.range (⌈(T - I.time s) / Dt⌉₊ + 1)).drop (if cont then 1 else 0)).map (fun k : ℕ => min (I.time s + k * Dt) T) ∧
      returned r.evs = rows r.evs ∧ (rows r.evs).getLast? = some r.final ∧ I.time r.final = T := by
  set N := ⌈(T - I.time s) / Dt⌉₊ with hN
  have hNpos : 0 < N := Nat.ceil_pos.2 (div_pos (by linarith) hD)
  have hlt : ∀ j < N, I.time s + j * Dt < T := by
    intro j hj
    have := Nat.lt_ceil.1 hj
    rw [lt_div_iff₀ hD] at this
    linarith
  have hNT : T ≤ I.time s + N * Dt := by
    have := Nat.le_ceil ((T - I.time s) / Dt)
    rw [div_le_iff₀ hD] at this
    linarith
  have htime : ∀ k ≤ N, I.time (stateAt I c.mode s k) = min (I.time s + k * Dt) T := by
    intro k hk
    rw [hm]
    exact time_timeDt I hI T Dt hD s hs k fun j hj => hlt j (by omega)
  have hgo : ∀ j ≤ N, GoesOn I c.mode s j := by
    intro j hj
    have h1 := htime (j - 1) (by omega)
    rw [hm] at h1 ⊢
    show I.time _ < T
    rw [h1]
    exact min_lt_of_left_lt (hlt (j - 1) (by omega))
  have hend : ¬ GoesOn I c.mode s (N + 1) := by
    have h1 := htime N le_rfl
    rw [hm] at h1 ⊢
    show ¬ (I.time (stateAt I _ s N) < T)
    rw [h1, min_eq_right hNT]; exact lt_irrefl T
  refine ⟨_, runFrom_end I neverStop () () c cont fuel N s ?_ ?_ hgo hend (autoAt_never I c cont s _) hf, ?_⟩
  · rw [hm]; exact hs
  · rw [hm]; exact hT
  have hstr : ∀ k, streamedAt c.mode k = true := by rw [hm]; intro k; rfl
  have hrow : (List.range (N + 1)).filter (rowAt c cont) = (List.range (N + 1)).drop (if cont then 1 else 0) := by
    have : rowAt c cont = fun k => k != 0 || !cont := by funext k; simp [rowAt, hstr]
    rw [this]
    cases cont with
    | false => simp
    | true =>
      rw [List.range_succ_eq_map]
      simp [List.filter_map, Function.comp_def]
  have hlast : rowAt c cont N = true := by simp [rowAt, hstr]; left; omega
  refine ⟨?_, ?_, ?_, ?_⟩
  · show (rows (allEvs I c cont s N false)).map I.time = _
    rw [rows_all, hrow, if_pos (Or.inr hlast), List.append_nil, List.map_map]
    exact List.map_congr_left fun k hk => htime k (by have := List.mem_range.1 (List.mem_of_mem_drop hk); omega)
  · rw [returned_all, rows_all, if_pos (Or.inr hlast), List.append_nil]
  · show (rows (allEvs I c cont s N false)).getLast? = _
    rw [rows_all' _ _ _ _ _ _ (by simp)]; simp
  · show I.time (stateAt I c.mode s N) = T
    rw [htime N le_rfl, min_eq_right hNT]

/-- **C35** (`T`, `dc`). If the stepper reaches `T` in exactly `N` steps, then the rows are the initial state (if fresh), the states after every
`dc`-th step, and the state at `T`, streamed only once; each state is `step`ped from the previous one with the time left to `T` as the allowance. The
row at the end is missing from the returned list if `dc` does not divide `N`. -/
theorem run_timeDc (I : Iface σ ρ) (c : Cfg) (T : ℝ) (dc : ℕ) (hm : c.mode = .timeDc T dc) (hT : T ≠ 0) (cont : Bool)
    (s : σ) (N : ℕ) (hbefore : ∀ k < N, I.time ((fun s => I.step (T - I.time s) s)^[k] s) < T)
    (hat : I.time ((fun s => I.step (T - I.time s) s)^[N] s) = T) (hN : 0 < N) (fuel : ℕ) (hf : N + 1 ≤ fuel) :
    ∃ r, runFrom I neverStop () c cont fuel s = some r ∧
      rows r.evs = ((List.range N).filter (fun k => decide (dc ∣ k ∧ (k ≠ 0 ∨ cont = false))) ++ [N]).map
        (fun k => (fun s => I.step (T - I.time s) s)^[k] s) ∧
      returned r.evs = ((List.range (N + 1)).filter (fun k => decide (dc ∣ k ∧ (k ≠ 0 ∨ cont = false)))).map
        (fun k => (fun s => I.step (T - I.time s) s)^[k] s) ∧
      r.final = (fun s => I.step (T - I.time s) s)^[N] s := by
  have hst : ∀ k, stateAt I c.mode s k = (fun s => I.step (T - I.time s) s)^[k] s := by rw [hm]; intro k; rfl
  have hgo : ∀ j ≤ N, GoesOn I c.mode s j := by
    intro j hj
    have := hbefore (j - 1) (by omega)
    rw [← hst] at this
    rw [hm] at this ⊢; exact this
  have hend : ¬ GoesOn I c.mode s (N + 1) := by
    rw [← hst] at hat
    rw [hm] at hat ⊢
    show ¬ (I.time (stateAt I _ s N) < T)
    rw [hat]; exact lt_irrefl T
  have h0 : I.time s < T := hbefore 0 hN
  refine ⟨_, runFrom_end I neverStop () () c cont fuel N s ?_ ?_ hgo hend (autoAt_never I c cont s _) hf, ?_⟩
  · rw [hm]; exact h0
  · rw [hm]; exact hT
  have hrow : rowAt c cont = fun k => decide (dc ∣ k ∧ (k ≠ 0 ∨ cont = false)) := by
    funext k
    rw [Bool.eq_iff_iff]
    simp only [rowAt, hm, streamedAt, Bool.and_eq_true, Bool.or_eq_true, beq_iff_eq, bne_iff_ne, Bool.not_eq_true', decide_eq_true_eq,
      Nat.dvd_iff_mod_eq_zero]
    constructor
    · rintro ⟨rfl | h, h'⟩
      · exact ⟨Nat.zero_mod _, h'⟩
      · exact ⟨h, h'⟩
    · rintro ⟨h, h'⟩; exact ⟨Or.inr h, h'⟩
  have hfun : stateAt I c.mode s = fun k => (fun s => I.step (T - I.time s) s)^[k] s := funext hst
  refine ⟨?_, ?_, hst N⟩
  · show rows (allEvs I c cont s N false) = _
    rw [rows_all' _ _ _ _ _ _ (by simp), hrow, hfun]
  · show returned (allEvs I c cont s N false) = _
    rw [returned_all, hrow, hfun]

theorem clock_states : (fun s => clock.step ((7 : ℝ) / 2 - clock.time s) s)^[1] (0 : ℝ) = 1 ∧
    (fun s => clock.step ((7 : ℝ) / 2 - clock.time s) s)^[2] (0 : ℝ) = 2 ∧
    (fun s => clock.step ((7 : ℝ) / 2 - clock.time s) s)^[3] (0 : ℝ) = 3 ∧
    (fun s => clock.step ((7 : ℝ) / 2 - clock.time s) s)^[4] (0 : ℝ) = 7 / 2 := by
  have e1 : (0 : ℝ) + min (7 / 2 - 0) 1 = 1 := by rw [min_eq_right (by norm_num)]; norm_num
  have e2 : (1 : ℝ) + min (7 / 2 - 1) 1 = 2 := by rw [min_eq_right (by norm_num)]; norm_num
  have e3 : (2 : ℝ) + min (7 / 2 - 2) 1 = 3 := by rw [min_eq_right (by norm_num)]; norm_num
  have e4 : (3 : ℝ) + min (7 / 2 - 3) 1 = 7 / 2 := by rw [min_eq_left (by norm_num)]; norm_num
  have h1 : (fun s => clock.step ((7 : ℝ) / 2 - clock.time s) s)^[1] (0 : ℝ) = 1 := e1
  have h2 : (fun s => clock.step ((7 : ℝ) / 2 - clock.time s) s)^[2] (0 : ℝ) = 2 := by
    rw [Function.iterate_succ_apply', h1]; exact e2
  have h3 : (fun s => clock.step ((7 : ℝ) / 2 - clock.time s) s)^[3] (0 : ℝ) = 3 := by
    rw [Function.iterate_succ_apply', h2]; exact e3
  have h4 : (fun s => clock.step ((7 : ℝ) / 2 - clock.time s) s)^[4] (0 : ℝ) = 7 / 2 := by
    rw [Function.iterate_succ_apply', h3]; exact e4
  exact ⟨h1, h2, h3, h4⟩

/-- The clock up to 7/2 makes 4 steps; with `dc=3`, the rows of a fresh run are those at 0, 3, 7/2, the last one is not in the returned list. -/
example (c : Cfg) (hm : c.mode = .timeDc (7 / 2) 3) :
    ∃ r, runFrom clock neverStop () c false 5 (0 : ℝ) = some r ∧ rows r.evs = [0, 3, 7 / 2] ∧ returned r.evs = [0, 3] := by
  obtain ⟨c1, c2, c3, c4⟩ := clock_states
  obtain ⟨r, h, h1, h2, _⟩ := run_timeDc clock c (7 / 2) 3 hm (by norm_num) false 0 4 (by
    intro k hk
    have : k = 0 ∨ k = 1 ∨ k = 2 ∨ k = 3 := by omega
    rcases this with rfl | rfl | rfl | rfl
    · show (0 : ℝ) < 7 / 2; norm_num
    · rw [c1]; show (1 : ℝ) < 7 / 2; norm_num
    · rw [c2]; show (2 : ℝ) < 7 / 2; norm_num
    · rw [c3]; show (3 : ℝ) < 7 / 2; norm_num) (by rw [c4]; rfl) (by norm_num) 5 le_rfl
  have s1 : ((List.range 4).filter (fun k => decide (3 ∣ k ∧ (k ≠ 0 ∨ false = false))) ++ [4]) = [0, 3, 4] := by decide
  have s2 : ((List.range 5).filter (fun k => decide (3 ∣ k ∧ (k ≠ 0 ∨ false = false)))) = [0, 3] := by decide
  rw [s1] at h1
  rw [s2] at h2
  refine ⟨r, h, ?_, ?_⟩
  · rw [h1]; simp only [List.map_cons, List.map_nil, c3, c4]; rfl
  · rw [h2]; simp only [List.map_cons, List.map_nil, c3]; rfl

/-- **C35.** The trajectory never passes `T`, whatever the mode with an end time, autostop or not, and the times of all the rows are strictly
increasing, not before the initial time (after it in a continuing run), the last one belonging to the final state. -/
theorem run_rows_ordered (I : Iface σ ρ) (hI : Progress I) (auto : α → σ → Option α) (a₀ : α) (c : Cfg) (hm : c.mode.Proper) (cont : Bool)
    (fuel : ℕ) (s : σ) (r : Res σ) (hs : I.time s < timeToReach I c.mode s) (h0 : timeToReach I c.mode s ≠ 0)
    (hr : runFrom I auto a₀ c cont fuel s = some r) :
    ((rows r.evs).map I.time).Pairwise (· < ·) ∧ (∀ x ∈ rows r.evs, I.time s ≤ I.time x ∧ I.time x ≤ timeToReach I c.mode s) ∧
    (rows r.evs).getLast? = some r.final ∧ I.time r.final ≤ timeToReach I c.mode s := by
  obtain ⟨N, stopped, hfin, hev, hgo, h1, h2⟩ := runFrom_effects I auto a₀ c cont fuel s r hs h0 hr
  have hrows : rows r.evs = ((List.range N).filter (rowAt c cont) ++ [N]).map (stateAt I c.mode s) := by
    rw [hev]; exact rows_all' I c cont s N stopped fun hb => (h2 hb).1
  have hmono := time_strictMono I hI c.mode hm s N hgo
  have hmem : ∀ k ∈ (List.range N).filter (rowAt c cont) ++ [N], k ≤ N := by
    intro k hk
    rcases List.mem_append.1 hk with hk | hk
    · exact (List.mem_range.1 (List.mem_of_mem_filter hk)).le
    · exact (List.mem_singleton.1 hk).le
  have hub : ∀ k ≤ N, I.time (stateAt I c.mode s k) ≤ timeToReach I c.mode s := by
    intro k hk
    have hle : I.time (stateAt I c.mode s N) ≤ timeToReach I c.mode s := by
      cases hmm : c.mode with
      | timeDt T Dt =>
        rw [hmm] at hm hs hgo
        exact time_le I hI T _ hm (Or.inl ⟨Dt, rfl⟩) s hs.le N hgo
      | nDt n Dt =>
        rw [hmm] at hm hs hgo
        rw [time_nDt I hI n Dt hm]
        have : (N : ℝ) ≤ n := by exact_mod_cast (hgo N le_rfl : N ≤ n)
        have hD : 0 < Dt := hm
        show I.time s + N * Dt ≤ I.time s + n * Dt
        have := mul_le_mul_of_nonneg_right this hD.le
        linarith
      | timeDc T dc =>
        rw [hmm] at hm hs hgo
        exact time_le I hI T _ hm (Or.inr ⟨dc, rfl⟩) s hs.le N hgo
    rcases hk.lt_or_eq with hk | hk
    · exact (hmono k N hk le_rfl).le.trans hle
    · rw [hk]; exact hle
  refine ⟨?_, ?_, ?_, ?_⟩
  · rw [hrows, List.map_map, List.pairwise_map]
    have hp : ((List.range N).filter (rowAt c cont) ++ [N]).Pairwise (· < ·) := by
      rw [List.pairwise_append]
      refine ⟨List.Pairwise.filter _ List.pairwise_lt_range, List.pairwise_singleton _ _, fun a ha b hb => ?_⟩
      rw [List.mem_singleton.1 hb]
      exact List.mem_range.1 (List.mem_of_mem_filter ha)
    exact (List.Pairwise.and_mem.1 hp).imp fun {a b} hab => hmono a b hab.2.2 (hmem b hab.2.1)
  · intro x hx
    rw [hrows] at hx
    obtain ⟨k, hk, rfl⟩ := List.mem_map.1 hx
    refine ⟨?_, hub k (hmem k hk)⟩
    rcases Nat.eq_zero_or_pos k with rfl | hk0
    · exact le_rfl
    · exact (hmono 0 k hk0 (hmem k hk)).le
  · rw [hrows, hfin]; simp
  · rw [hfin]; exact hub N le_rfl

/-! ## C36 -/

/-- **C36.** Whenever a run with something to do finishes, normally or by an autostop, the last record of the state file is the final state, the
times of the records are strictly increasing — in particular, the final state is not written twice — and each record is of a state of the run. -/
theorem run_saves_final (I : Iface σ ρ) (hI : Progress I) (auto : α → σ → Option α) (a₀ : α) (c : Cfg) (hm : c.mode.Proper) (cont : Bool)
    (fuel : ℕ) (s : σ) (r : Res σ) (hs : I.time s < timeToReach I c.mode s) (h0 : timeToReach I c.mode s ≠ 0)
    (hr : runFrom I auto a₀ c cont fuel s = some r) :
    (saves r.evs).getLast? = some r.final ∧ ((saves r.evs).map I.time).Pairwise (· < ·) := by
  obtain ⟨N, stopped, hfin, hev, hgo, h1, h2⟩ := runFrom_effects I auto a₀ c cont fuel s r hs h0 hr
  have hsaves : saves r.evs = ((List.range N).filter (savedAt c cont) ++ [N]).map (stateAt I c.mode s) := by
    rw [hev]; exact saves_all' I c cont s N stopped
  have hmono := time_strictMono I hI c.mode hm s N hgo
  refine ⟨by rw [hsaves, hfin]; simp, ?_⟩
  rw [hsaves, List.map_map, List.pairwise_map]
  have hp : ((List.range N).filter (savedAt c cont) ++ [N]).Pairwise (· < ·) := by
    rw [List.pairwise_append]
    refine ⟨List.Pairwise.filter _ List.pairwise_lt_range, List.pairwise_singleton _ _, fun a ha b hb => ?_⟩
    rw [List.mem_singleton.1 hb]
    exact List.mem_range.1 (List.mem_of_mem_filter ha)
  refine (List.Pairwise.and_mem.1 hp).imp fun {a b} hab => hmono a b hab.2.2 ?_
  rcases List.mem_append.1 hab.2.1 with hk | hk
  · exact (List.mem_range.1 (List.mem_of_mem_filter hk)).le
  · exact (List.mem_singleton.1 hk).le

/-- **C36.** Which states are saved in an `NDt` run: after every `sdf`-th interval (at the beginning only in a fresh run with `firstStateStream`),
and the last one in any case. -/
theorem run_nDt_saves (I : Iface σ ρ) (c : Cfg) (n : ℕ) (Dt : ℝ) (hm : c.mode = .nDt n Dt) (hn : 0 < n) (hD : 0 < Dt) (cont : Bool)
    (s : σ) (hs : 0 ≤ I.time s) (fuel : ℕ) (r : Res σ) (hr : runFrom I neverStop () c cont fuel s = some r) :
    saves r.evs = ((List.range n).filter (fun k => decide (c.stateStreamFreq ≠ 0 ∧ c.stateStreamFreq ∣ k ∧
      (k ≠ 0 ∨ (c.firstStateStream = true ∧ cont = false)))) ++ [n]).map (fun k => (I.advance Dt)^[k] s) := by
  have hpos : 0 < (n : ℝ) * Dt := by positivity
  have hlt : I.time s < timeToReach I c.mode s := by rw [hm]; show I.time s < I.time s + n * Dt; linarith
  have hne : timeToReach I c.mode s ≠ 0 := by rw [hm]; show I.time s + n * Dt ≠ 0; linarith
  obtain ⟨N, stopped, hfin, hev, hgo, h1, h2⟩ := runFrom_effects I neverStop () c cont fuel s r hlt hne hr
  have hst : stopped = false := by
    cases stopped with
    | false => rfl
    | true => have := (h2 rfl).2.2; rw [autoAt_never] at this; exact absurd this (by simp)
  have hN : N = n := by
    have a1 : N ≤ n := by have := hgo N le_rfl; rw [hm] at this; exact this
    have a2 : ¬ (N + 1 ≤ n) := by have := (h1 hst).1; rw [hm] at this; exact this
    omega
  subst hN
  have hstr : ∀ k, streamedAt c.mode k = true := by rw [hm]; intro k; rfl
  have hsv : savedAt c cont = fun k => decide (c.stateStreamFreq ≠ 0 ∧ c.stateStreamFreq ∣ k ∧
      (k ≠ 0 ∨ (c.firstStateStream = true ∧ cont = false))) := by
    funext k
    rw [Bool.eq_iff_iff]
    simp only [savedAt, hstr, streamings_dt c.mode hstr, Bool.true_and, Bool.and_eq_true, Bool.or_eq_true, beq_iff_eq, bne_iff_ne,
      Bool.not_eq_true', decide_eq_true_eq, Nat.dvd_iff_mod_eq_zero]
  rw [hev, saves_all', hsv]
  refine List.map_congr_left fun k _ => ?_
  rw [hm]; rfl

/-- **C36**, a limit: a run to time exactly 0 streams once, but writes no state. -/
theorem run_zero_no_save (I : Iface σ ρ) (auto : α → σ → Option α) (a₀ : α) (c : Cfg) (cont : Bool) (fuel : ℕ) (s : σ)
    (h : timeToReach I c.mode s = 0) :
    ∃ r, runFrom I auto a₀ c cont fuel s = some r ∧ rows r.evs = [s] ∧ saves r.evs = [] ∧ r.final = s := by
  refine ⟨_, (if_neg (fun hh => hh.1 h)).trans (if_pos h), ?_⟩
  rcases c with ⟨m, f, fs, si, sf⟩
  cases si <;> cases cont <;> exact ⟨rfl, rfl, rfl⟩

example : ∃ r, runFrom clock neverStop () ⟨.nDt 5 2, 2, true, true, true⟩ false 6 (0 : ℝ) = some r ∧
    saves r.evs = [0, 4, 8, 10] := by
  obtain ⟨r, h, _⟩ := run_nDt clock clock_progress ⟨.nDt 5 2, 2, true, true, true⟩ 5 2 rfl (by norm_num) (by norm_num) false 0 le_rfl 6 le_rfl
  refine ⟨r, h, ?_⟩
  rw [run_nDt_saves clock _ 5 2 rfl (by norm_num) (by norm_num) false 0 le_rfl 6 r h]
  have : (List.range 5).filter (fun k => decide ((2 : ℕ) ≠ 0 ∧ 2 ∣ k ∧ (k ≠ 0 ∨ (true = true ∧ false = false)))) ++ [5] = [0, 2, 4, 5] := by decide
  rw [this]
  have h' : ∀ x : ℝ, clock.advance 2 x = x + 2 := fun _ => rfl
  simp only [List.map_cons, List.map_nil, Function.iterate_succ_apply', Function.iterate_zero_apply, h']
  norm_num

/-! ## C37 -/

theorem loadAll_last (I : Iface σ ρ) (hI : FullySerialised I) (xs : List σ) (x s : σ) (h : xs.getLast? = some x) :
    loadAll I (xs.map I.save) s = x := by
  obtain ⟨ys, rfl⟩ := List.getLast?_eq_some_iff.1 h
  simp [loadAll, hI x]

/-- **C37.** A process that finds a nonempty trajectory file and state records starts from the last record, whatever the initial condition it has been
given, whatever the mode. -/
theorem run_resumes (I : Iface σ ρ) (hS : FullySerialised I) (auto : α → σ → Option α) (a₀ : α) (c : Cfg) (hfile : c.streamToFile = true)
    (past : List (Ev σ)) (x s₀ : σ) (hw : wroteTrajectory past = true) (hx : (saves past).getLast? = some x) (fuel : ℕ) :
    run I auto a₀ c (filesAfter I past) fuel s₀ = some (runFrom I auto a₀ c true fuel x) := by
  unfold run startup filesAfter
  rw [if_pos ⟨hfile, hw⟩, Option.map_some, Option.map_some, loadAll_last I hS _ x s₀ hx]

/-- **C37.** … and a process that finds no trajectory file starts from its initial condition, even if there are states saved. -/
theorem run_fresh (I : Iface σ ρ) (auto : α → σ → Option α) (a₀ : α) (c : Cfg) (s₀ : σ) (states : List σ) (fuel : ℕ) :
    run I auto a₀ c (filesAfter I (states.map .save)) fuel s₀ = some (runFrom I auto a₀ c false fuel s₀) := by
  unfold run startup filesAfter
  rw [if_neg (by simp [wroteTrajectory])]; rfl

/-- **C37.** A resumed run appends exactly the next `n` rows, and ends in the `n`th state. -/
theorem resume_nDt (I : Iface σ ρ) (hI : Progress I) (hS : FullySerialised I) (c : Cfg) (hfile : c.streamToFile = true)
    (n : ℕ) (Dt : ℝ) (hm : c.mode = .nDt n Dt) (hn : 0 < n) (hD : 0 < Dt)
    (past : List (Ev σ)) (x s₀ : σ) (ht : 0 ≤ I.time x) (hw : wroteTrajectory past = true) (hx : (saves past).getLast? = some x)
    (fuel : ℕ) (hf : n + 1 ≤ fuel) :
    ∃ r, run I neverStop () c (filesAfter I past) fuel s₀ = some (some r) ∧
      rows r.evs = (List.range n).map (fun k => (I.advance Dt)^[k + 1] x) ∧ r.final = (I.advance Dt)^[n] x ∧
      (saves r.evs).getLast? = some r.final := by
  obtain ⟨r, hr, h1, _, _, h4, _⟩ := run_nDt I hI c n Dt hm hn hD true x ht fuel hf
  refine ⟨r, by rw [run_resumes I hS neverStop () c hfile past x s₀ hw hx, hr], ?_, h4, ?_⟩
  · rw [h1, if_pos rfl, List.range_succ_eq_map]
    simp [Function.comp_def]
  · have hpos : 0 < (n : ℝ) * Dt := by positivity
    refine (run_saves_final I hI neverStop () c (by rw [hm]; exact hD) true fuel x r ?_ ?_ hr).1
    · rw [hm]; show I.time x < I.time x + n * Dt; linarith
    · rw [hm]; show I.time x + n * Dt ≠ 0; linarith

/-- **C37.** A run interrupted arbitrarily many times (each process running over some number of intervals) leaves the same rows and the same last state
record as the uninterrupted one: the `k`th row is the initial state advanced `k` times, without duplication. -/
theorem sessions_eq (I : Iface σ ρ) (hI : Progress I) (hS : FullySerialised I) (c : Cfg) (hfile : c.streamToFile = true) (Dt : ℝ) (hD : 0 < Dt)
    (s₀ : σ) (ht : 0 ≤ I.time s₀) (fuel : ℕ) (ns : List ℕ) (hne : ns ≠ []) (hns : ∀ n ∈ ns, 0 < n ∧ n + 1 ≤ fuel) :
    ∃ E, sessions I c Dt fuel s₀ ns [] = some E ∧ rows E = (List.range (ns.sum + 1)).map (fun k => (I.advance Dt)^[k] s₀) ∧
      (saves E).getLast? = some ((I.advance Dt)^[ns.sum] s₀) := by
  have htime : ∀ k, I.time ((I.advance Dt)^[k] s₀) = I.time s₀ + k * Dt := fun k => time_nDt I hI 0 Dt hD s₀ k
  -- continuation
  have cont : ∀ (ns : List ℕ) (past : List (Ev σ)) (m : ℕ), (∀ n ∈ ns, 0 < n ∧ n + 1 ≤ fuel) → wroteTrajectory past = true →
      rows past = (List.range (m + 1)).map (fun k => (I.advance Dt)^[k] s₀) → (saves past).getLast? = some ((I.advance Dt)^[m] s₀) →
      ∃ E, sessions I c Dt fuel s₀ ns past = some E ∧ rows E = (List.range (m + ns.sum + 1)).map (fun k => (I.advance Dt)^[k] s₀) ∧
        (saves E).getLast? = some ((I.advance Dt)^[m + ns.sum] s₀) := by
    intro ns
    induction ns with
    | nil => intro past m _ _ h1 h2; exact ⟨past, rfl, by simpa using h1, by simpa using h2⟩
    | cons n ns ih =>
      intro past m hall hw h1 h2
      have htm : 0 ≤ I.time ((I.advance Dt)^[m] s₀) := by rw [htime]; positivity
      obtain ⟨r, hr, hrows, hfin, hsv⟩ := resume_nDt I hI hS { c with mode := .nDt n Dt } hfile n Dt rfl (hall n (by simp)).1 hD past _ s₀ htm hw
        h2 fuel (hall n (by simp)).2
      obtain ⟨E, hE, hE1, hE2⟩ := ih (past ++ r.evs) (m + n) (fun k hk => hall k (by simp [hk])) (by simp [wroteTrajectory] at hw ⊢; exact Or.inl hw)
        (by
          rw [rows_append, h1, hrows, show m + n + 1 = (m + 1) + n by omega, List.range_add (m := n), List.map_append, List.map_map]
          congr 1
          refine List.map_congr_left fun k _ => ?_
          show (I.advance Dt)^[k + 1] ((I.advance Dt)^[m] s₀) = (I.advance Dt)^[m + 1 + k] s₀
          rw [← Function.iterate_add_apply]; congr 1; omega)
        (by
          rw [saves_append, List.getLast?_append, hsv, hfin, Option.some_or, ← Function.iterate_add_apply, Nat.add_comm n m])
      refine ⟨E, ?_, ?_, ?_⟩
      · rw [sessions, hr]; exact hE
      · rw [hE1]; simp [Nat.add_assoc]
      · rw [hE2]; simp [Nat.add_assoc]
  cases ns with
  | nil => exact absurd rfl hne
  | cons n ns =>
    obtain ⟨r, hr, h1, _, _, h4, _⟩ := run_nDt I hI { c with mode := .nDt n Dt } n Dt rfl (hns n (by simp)).1 hD false s₀ ht fuel (hns n (by simp)).2
    have hpos : 0 < (n : ℝ) * Dt := by have := (hns n (by simp)).1; positivity
    have hsv := (run_saves_final I hI neverStop () { c with mode := .nDt n Dt } hD false fuel s₀ r
      (by show I.time s₀ < I.time s₀ + n * Dt; linarith) (by show I.time s₀ + n * Dt ≠ 0; linarith) hr).1
    have h1' : rows r.evs = (List.range (n + 1)).map (fun k => (I.advance Dt)^[k] s₀) := by simpa using h1
    have hw : wroteTrajectory r.evs = true := by
      rw [wroteTrajectory, List.any_eq_true]
      have : s₀ ∈ rows r.evs := by rw [h1']; exact List.mem_map.2 ⟨0, by simp, rfl⟩
      obtain ⟨e, he, he'⟩ := List.mem_filterMap.1 this
      refine ⟨e, he, ?_⟩
      cases e <;> simp_all
    obtain ⟨E, hE, hE1, hE2⟩ := cont ns r.evs n (fun k hk => hns k (by simp [hk])) hw h1' (by rw [hsv, h4])
    refine ⟨E, ?_, by rw [hE1]; simp, by rw [hE2]; simp⟩
    rw [sessions, show ([] : List (Ev σ)) = ([] : List σ).map .save from rfl, run_fresh, hr]
    exact hE

/-- **C37.** In particular, compared with the uninterrupted run. -/
theorem sessions_eq_uninterrupted (I : Iface σ ρ) (hI : Progress I) (hS : FullySerialised I) (c : Cfg) (hfile : c.streamToFile = true) (Dt : ℝ)
    (hD : 0 < Dt) (s₀ : σ) (ht : 0 ≤ I.time s₀) (fuel : ℕ) (ns : List ℕ) (hne : ns ≠ []) (hns : ∀ n ∈ ns, 0 < n ∧ n + 1 ≤ fuel)
    (hsum : ns.sum + 1 ≤ fuel) :
    ∃ E E', sessions I c Dt fuel s₀ ns [] = some E ∧ sessions I c Dt fuel s₀ [ns.sum] [] = some E' ∧ rows E = rows E' ∧
      (saves E).getLast? = (saves E').getLast? ∧ saves E' ≠ [] := by
  obtain ⟨E, h, h1, h2⟩ := sessions_eq I hI hS c hfile Dt hD s₀ ht fuel ns hne hns
  have hpos : 0 < ns.sum := by
    cases ns with
    | nil => exact absurd rfl hne
    | cons n ns => have := (hns n (by simp)).1; simp; omega
  obtain ⟨E', h', h1', h2'⟩ := sessions_eq I hI hS c hfile Dt hD s₀ ht fuel [ns.sum] (by simp) (by simpa using ⟨hpos, hsum⟩)
  refine ⟨E, E', h, h', by rw [h1, h1']; simp, by rw [h2, h2']; simp, fun hh => ?_⟩
  rw [hh] at h2'; simp at h2'

theorem clock_serialised : FullySerialised clock := fun _ _ => rfl

example : ∃ E, sessions clock ⟨.nDt 1 1, 2, true, true, true⟩ 2 9 (0 : ℝ) [1, 3, 2] [] = some E ∧ rows E = [0, 2, 4, 6, 8, 10, 12] := by
  obtain ⟨E, h, h1, _⟩ := sessions_eq clock clock_progress clock_serialised ⟨.nDt 1 1, 2, true, true, true⟩ rfl 2 two_pos (0 : ℝ) le_rfl 9 [1, 3, 2]
    (by simp) (by decide)
  refine ⟨E, h, h1.trans ?_⟩
  have h' : ∀ x : ℝ, clock.advance 2 x = x + 2 := fun _ => rfl
  have : List.range ([1, 3, 2].sum + 1) = [0, 1, 2, 3, 4, 5, 6] := by decide
  rw [this]
  simp only [List.map_cons, List.map_nil, Function.iterate_succ_apply', Function.iterate_zero_apply, h']
  norm_num

/-! ## C59: crash at any point -/

theorem prefix_append_cases {β : Type*} {E l₁ l₂ : List β} (h : E <+: l₁ ++ l₂) : E <+: l₁ ∨ ∃ t, E = l₁ ++ t ∧ t <+: l₂ := by
  rcases List.prefix_or_prefix_of_prefix h (List.prefix_append l₁ l₂) with h' | ⟨t, rfl⟩
  · exact Or.inl h'
  · exact Or.inr ⟨t, rfl, (List.prefix_append_right_inj l₁).1 h⟩

theorem rows_prefix {E l : List (Ev σ)} (h : E <+: l) : rows E <+: rows l := h.filterMap _

theorem saves_prefix {E l : List (Ev σ)} (h : E <+: l) : saves E <+: saves l := h.filterMap _

/-- **C59.** Let a fresh `NDt` run with `sdf≥1` and `firstStateStream` crash at any point. Then the rows in the trajectory file are those of the states
`0,…,a-1` of the run; and once a row has been written, the last state record is of state number `b` of the run with `b≤a≤b+sdf`: at most `sdf` rows
have to be recomputed. -/
theorem crash_state (I : Iface σ ρ) (c : Cfg) (n : ℕ) (Dt : ℝ) (hm : c.mode = .nDt n Dt) (hn : 0 < n) (hD : 0 < Dt)
    (hsdf : c.stateStreamFreq ≠ 0) (hfirst : c.firstStateStream = true)
    (s : σ) (hs : 0 ≤ I.time s) (fuel : ℕ) (r : Res σ) (hr : runFrom I neverStop () c false fuel s = some r)
    (E : List (Ev σ)) (hE : E <+: r.evs) :
    ∃ a, rows E = (List.range a).map (fun k => (I.advance Dt)^[k] s) ∧
      ((a = 0 ∧ saves E = []) ∨
        ∃ b ≤ n, (saves E).getLast? = some ((I.advance Dt)^[b] s) ∧ b ≤ a ∧ a ≤ b + c.stateStreamFreq) := by
  have hpos : 0 < (n : ℝ) * Dt := by positivity
  have hlt : I.time s < timeToReach I c.mode s := by rw [hm]; show I.time s < I.time s + n * Dt; linarith
  have hne : timeToReach I c.mode s ≠ 0 := by rw [hm]; show I.time s + n * Dt ≠ 0; linarith
  obtain ⟨N, stopped, hfin, hev, hgo, h1, h2⟩ := runFrom_effects I neverStop () c false fuel s r hlt hne hr
  have hst : stopped = false := by
    cases stopped with
    | false => rfl
    | true => have := (h2 rfl).2.2; rw [autoAt_never] at this; exact absurd this (by simp)
  subst hst
  have hN : N = n := by
    have a1 : N ≤ n := by have := hgo N le_rfl; rw [hm] at this; exact this
    have a2 : ¬ (N + 1 ≤ n) := by have := (h1 rfl).1; rw [hm] at this; exact this
    omega
  subst hN
  have hstr : ∀ k, streamedAt c.mode k = true := by rw [hm]; intro k; rfl
  have hsv : ∀ k, savedAt c false k = true ↔ c.stateStreamFreq ∣ k := by
    intro k
    simp only [savedAt, hstr, streamings_dt c.mode hstr, Bool.true_and, Bool.and_eq_true, Bool.or_eq_true, beq_iff_eq, bne_iff_ne,
      Bool.not_eq_true', hfirst, Nat.dvd_iff_mod_eq_zero]
    simp [hsdf]
  have hrow : ∀ k, rowAt c false k = true := by intro k; simp [rowAt, hstr]
  set st := fun k => (I.advance Dt)^[k] s with hstdef
  have hS : ∀ k, stateAt I c.mode s k = st k := by rw [hm]; intro k; rfl
  set F := fun k => (List.range k).flatMap (evAt I c false s) with hF
  have hFrows : ∀ k, rows (F k) = (List.range k).map st := by
    intro k
    rw [hF]; simp only
    rw [rows_flatMap, List.filter_eq_self.2 fun k _ => hrow k]
    exact List.map_congr_left fun k _ => hS k
  -- the last record after `k` complete iterations
  have hFsaves : ∀ k, (k = 0 ∧ saves (F k) = []) ∨
      ∃ b < k, c.stateStreamFreq ∣ b ∧ (saves (F k)).getLast? = some (st b) ∧ k ≤ b + c.stateStreamFreq := by
    intro k
    induction k with
    | zero => exact Or.inl ⟨rfl, rfl⟩
    | succ k ih =>
      right
      have hsucc : F (k + 1) = F k ++ evAt I c false s k := by simp [hF, List.range_succ]
      by_cases hd : c.stateStreamFreq ∣ k
      · refine ⟨k, by omega, hd, ?_, by omega⟩
        rw [hsucc, saves_append, evAt, if_pos ((hsv k).2 hd), if_pos (hrow k), hS]
        simp [saves]
      · rcases ih with ⟨rfl, _⟩ | ⟨b, hb, hdb, hlast, hle⟩
        · exact absurd (dvd_zero _) hd
        · refine ⟨b, by omega, hdb, ?_, ?_⟩
          · rw [hsucc, saves_append, evAt, if_neg fun h => hd ((hsv k).1 h), if_pos (hrow k), hS]
            simpa [saves] using hlast
          · have : k ≠ b + c.stateStreamFreq := fun h => hd (h ▸ Dvd.dvd.add hdb dvd_rfl)
            omega
  -- prefixes of the regular part
  have hreg : ∀ k ≤ N + 1, ∀ E, E <+: F k → ∃ a, rows E = (List.range a).map st ∧
      ((a = 0 ∧ saves E = []) ∨ ∃ b ≤ N, (saves E).getLast? = some (st b) ∧ b ≤ a ∧ a ≤ b + c.stateStreamFreq) := by
    intro k
    induction k with
    | zero =>
      intro _ E hE
      have : E = [] := List.prefix_nil.1 hE
      exact ⟨0, by rw [this]; rfl, Or.inl ⟨rfl, by rw [this]; rfl⟩⟩
    | succ k ih =>
      intro hk E hE
      have hsucc : F (k + 1) = F k ++ evAt I c false s k := by simp [hF, List.range_succ]
      rw [hsucc] at hE
      rcases prefix_append_cases hE with h | ⟨t, rfl, ht⟩
      · exact ih (by omega) E h
      · by_cases hd : c.stateStreamFreq ∣ k
        · rw [evAt, if_pos ((hsv k).2 hd), if_pos (hrow k), hS] at ht
          have hcases : t = [] ∨ t = [.save (st k)] ∨ t = [.save (st k), .row (st k) true] := by
            rcases t with _ | ⟨x, t⟩
            · exact Or.inl rfl
            · simp only [List.cons_append, List.nil_append, List.cons_prefix_cons] at ht
              obtain ⟨rfl, ht⟩ := ht
              rcases t with _ | ⟨y, t⟩
              · exact Or.inr (Or.inl rfl)
              · simp only [List.cons_prefix_cons] at ht
                obtain ⟨rfl, ht⟩ := ht
                rw [List.prefix_nil.1 ht]; exact Or.inr (Or.inr rfl)
          rcases hcases with rfl | rfl | rfl
          · rw [List.append_nil]; exact ih (by omega) _ (List.prefix_rfl)
          · refine ⟨k, by rw [rows_append, hFrows]; simp [rows], Or.inr ⟨k, by omega, ?_, le_rfl, by omega⟩⟩
            rw [saves_append]; simp [saves]
          · refine ⟨k + 1, by rw [rows_append, hFrows, List.range_succ]; simp [rows], Or.inr ⟨k, by omega, ?_, by omega, by omega⟩⟩
            rw [saves_append]; simp [saves]
        · rw [evAt, if_neg fun h => hd ((hsv k).1 h), if_pos (hrow k), hS] at ht
          have hcases : t = [] ∨ t = [.row (st k) true] := by
            rcases t with _ | ⟨x, t⟩
            · exact Or.inl rfl
            · simp only [List.nil_append, List.cons_prefix_cons] at ht
              obtain ⟨rfl, ht⟩ := ht
              rw [List.prefix_nil.1 ht]; exact Or.inr rfl
          rcases hcases with rfl | rfl
          · rw [List.append_nil]; exact ih (by omega) _ (List.prefix_rfl)
          · refine ⟨k + 1, by rw [rows_append, hFrows, List.range_succ]; simp [rows], Or.inr ?_⟩
            rcases hFsaves k with ⟨rfl, _⟩ | ⟨b, hb, hdb, hlast, hle⟩
            · exact absurd (dvd_zero _) hd
            · have : k ≠ b + c.stateStreamFreq := fun h => hd (h ▸ Dvd.dvd.add hdb dvd_rfl)
              exact ⟨b, by omega, by rw [saves_append]; simpa [saves] using hlast, by omega, by omega⟩
  rw [hev, allEvs, List.append_assoc] at hE
  rcases prefix_append_cases hE with h | ⟨t, rfl, ht⟩
  · -- in the introduction
    have hr0 : rows E = [] := by
      have := rows_prefix h
      rw [rows_intro] at this
      exact List.prefix_nil.1 this
    have hs0 : saves E = [] := by
      have := saves_prefix h
      rw [saves_intro] at this
      exact List.prefix_nil.1 this
    exact ⟨0, by rw [hr0]; rfl, Or.inl ⟨rfl, hs0⟩⟩
  · rcases prefix_append_cases ht with h | ⟨u, rfl, hu⟩
    · obtain ⟨a, ha, hb⟩ := hreg (N + 1) le_rfl t h
      exact ⟨a, by simpa using ha, by simpa using hb⟩
    · -- in the end
      have hru : rows u = [] := by
        have := rows_prefix hu
        rw [rows_tail, if_pos (Or.inr (hrow N))] at this
        exact List.prefix_nil.1 this
      have hsu : saves u = [] ∨ saves u = [st N] := by
        have := saves_prefix hu
        rw [saves_tail, hS] at this
        split_ifs at this
        · exact Or.inl (List.prefix_nil.1 this)
        · generalize saves u = v at this ⊢
          rcases v with _ | ⟨x, v⟩
          · exact Or.inl rfl
          · rw [List.cons_prefix_cons] at this
            rw [this.1, List.prefix_nil.1 this.2]; exact Or.inr rfl
      refine ⟨N + 1, ?_, Or.inr ?_⟩
      · rw [rows_append, rows_append, rows_intro, hru, List.append_nil, List.nil_append]; exact hFrows (N + 1)
      · rw [saves_append, saves_append, saves_intro, List.nil_append]
        rcases hsu with h | h
        · rw [h, List.append_nil]
          rcases hFsaves (N + 1) with ⟨h0, _⟩ | ⟨b, hb, hdb, hlast, hle⟩
          · omega
          · exact ⟨b, by omega, hlast, by omega, hle⟩
        · refine ⟨N, le_rfl, ?_, by omega, by omega⟩
          rw [h]; simp [hstdef]

/-- **C59.** The process restarted after the crash continues from that record: its rows are those of the states `b+1, b+2, …` of the original run, and if
it runs over the remaining `n-b` intervals, then it ends in the same final state as the uninterrupted run would have. -/
theorem crash_resume (I : Iface σ ρ) (hI : Progress I) (hS : FullySerialised I) (c : Cfg) (hfile : c.streamToFile = true) (Dt : ℝ) (hD : 0 < Dt)
    (s s₀ : σ) (hs : 0 ≤ I.time s) (E : List (Ev σ)) (hw : wroteTrajectory E = true) (b : ℕ)
    (hb : (saves E).getLast? = some ((I.advance Dt)^[b] s)) (n' : ℕ) (hn' : 0 < n') (fuel : ℕ) (hf : n' + 1 ≤ fuel) :
    ∃ r, run I neverStop () { c with mode := .nDt n' Dt } (filesAfter I E) fuel s₀ = some (some r) ∧
      rows r.evs = (List.range n').map (fun k => (I.advance Dt)^[b + 1 + k] s) ∧ r.final = (I.advance Dt)^[b + n'] s := by
  have ht : 0 ≤ I.time ((I.advance Dt)^[b] s) := by
    have : I.time ((I.advance Dt)^[b] s) = I.time s + b * Dt := time_nDt I hI 0 Dt hD s b
    rw [this]; positivity
  obtain ⟨r, hr, h1, h2, _⟩ := resume_nDt I hI hS { c with mode := .nDt n' Dt } hfile n' Dt rfl hn' hD E _ s₀ ht hw hb fuel hf
  refine ⟨r, hr, ?_, ?_⟩
  · rw [h1]
    refine List.map_congr_left fun k _ => ?_
    rw [← Function.iterate_add_apply]; congr 1; omega
  · rw [h2, ← Function.iterate_add_apply, Nat.add_comm]

/-- **C60**, the violated part: a crash between the writing of the state record and that of the row leaves a hole in the trajectory file, the restarted
run does not stream the state it starts from. Here, of the states at 0, 2, 4 the one at 2 is never streamed. -/
theorem crash_leaves_hole : ∃ (r : Res ℝ) (E : List (Ev ℝ)) (r' : Res ℝ),
    runFrom clock neverStop () ⟨.nDt 2 2, 1, true, true, true⟩ false 3 (0 : ℝ) = some r ∧ E <+: r.evs ∧
    run clock neverStop () ⟨.nDt 1 2, 1, true, true, true⟩ (filesAfter clock E) 2 (0 : ℝ) = some (some r') ∧
    rows r.evs = [0, 2, 4] ∧ rows E ++ rows r'.evs = [0, 4] := by
  have h' : ∀ x : ℝ, clock.advance 2 x = x + 2 := fun _ => rfl
  have hpos : clock.time (0 : ℝ) < timeToReach clock (.nDt 2 2) (0 : ℝ) := by
    show (0 : ℝ) < 0 + (2 : ℕ) * 2; norm_num
  have hrun := runFrom_end clock neverStop () () ⟨.nDt 2 2, 1, true, true, true⟩ false 3 2 (0 : ℝ) hpos hpos.ne'
    (fun j hj => hj) (show ¬ (2 + 1 ≤ 2) by omega) (autoAt_never _ _ _ _ _) le_rfl
  have hst : ∀ k, stateAt clock (.nDt 2 2) (0 : ℝ) k = 2 * k := by
    intro k
    induction k with
    | zero => simp [stateAt]
    | succ k ih => rw [stateAt_succ, ih]; show 2 * (k : ℝ) + 2 = _; push_cast; ring
  have hall : allEvs clock ⟨.nDt 2 2, 1, true, true, true⟩ false (0 : ℝ) 2 false =
      [.header, .save 0, .row 0 true, .save 2, .row 2 true, .save 4, .row 4 true, .logOnEnd] := by
    have hr : List.range (2 + 1) = [0, 1, 2] := by decide
    have hsv : ∀ k < 3, savedAt ⟨.nDt 2 2, 1, true, true, true⟩ false k = true := by
      intro k _; simp [savedAt, streamedAt, Nat.mod_one]
    have hrw : ∀ k, rowAt ⟨.nDt 2 2, 1, true, true, true⟩ false k = true := by
      intro k; simp [rowAt, streamedAt]
    simp only [allEvs, hr, List.flatMap_cons, List.flatMap_nil, evAt, tailEvs, hrw, hsv 0 (by omega), hsv 1 (by omega), hsv 2 (by omega), hst]
    norm_num [introEvs]
  have hw : wroteTrajectory ([.header, .save 0, .row 0 true, .save 2] : List (Ev ℝ)) = true := rfl
  obtain ⟨r', hr', h1, _⟩ := resume_nDt clock clock_progress clock_serialised ⟨.nDt 1 2, 1, true, true, true⟩ rfl 1 2 rfl one_pos two_pos
    [.header, .save 0, .row 0 true, .save 2] 2 0 (show (0 : ℝ) ≤ 2 by norm_num) hw rfl 2 le_rfl
  refine ⟨_, [.header, .save 0, .row 0 true, .save 2], r', hrun, ?_, hr', ?_, ?_⟩
  · show _ <+: allEvs clock ⟨.nDt 2 2, 1, true, true, true⟩ false (0 : ℝ) 2 false
    rw [hall]; exact ⟨[.row 2 true, .save 4, .row 4 true, .logOnEnd], rfl⟩
  · show rows (allEvs clock ⟨.nDt 2 2, 1, true, true, true⟩ false (0 : ℝ) 2 false) = _
    rw [hall]; rfl
  · rw [h1]
    have : (List.range 1).map (fun k => (clock.advance 2)^[k + 1] (2 : ℝ)) = [2 + 2] := rfl
    rw [this]
    show [(0 : ℝ)] ++ [2 + 2] = [0, 4]
    norm_num

/-- **C60**, the part that holds: if at the time of the crash the last saved state has been streamed and nothing after it, then the file after the
restarted run has each row exactly once. -/
theorem crash_no_hole_partial (I : Iface σ ρ) (hI : Progress I) (hS : FullySerialised I) (c : Cfg) (hfile : c.streamToFile = true) (Dt : ℝ)
    (hD : 0 < Dt) (s s₀ : σ) (hs : 0 ≤ I.time s) (E : List (Ev σ)) (hw : wroteTrajectory E = true) (b : ℕ)
    (hb : (saves E).getLast? = some ((I.advance Dt)^[b] s)) (ha : rows E = (List.range (b + 1)).map (fun k => (I.advance Dt)^[k] s))
    (n' : ℕ) (hn' : 0 < n') (fuel : ℕ) (hf : n' + 1 ≤ fuel) :
    ∃ r, run I neverStop () { c with mode := .nDt n' Dt } (filesAfter I E) fuel s₀ = some (some r) ∧
      rows E ++ rows r.evs = (List.range (b + n' + 1)).map (fun k => (I.advance Dt)^[k] s) := by
  obtain ⟨r, hr, h1, _⟩ := crash_resume I hI hS c hfile Dt hD s s₀ hs E hw b hb n' hn' fuel hf
  refine ⟨r, hr, ?_⟩
  rw [ha, h1, show b + n' + 1 = (b + 1) + n' by omega, List.range_add (m := n'), List.map_append, List.map_map]
  rfl

/-- The dispatch (C35): `dc` takes precedence over `Dt`, `NDt` over `T` when in `Dt` mode. -/
theorem dispatch_dc (p : Pars) (h : p.dc ≠ 0) : dispatch true p = some (.timeDc p.T p.dc) := if_pos ⟨rfl, h⟩

theorem dispatch_Dt (hasStep : Bool) (p : Pars) (h : hasStep = false ∨ p.dc = 0) (hD : p.Dt ≠ 0) :
    dispatch hasStep p = some (if p.NDt ≠ 0 then .nDt p.NDt p.Dt else .timeDt p.T p.Dt) := by
  have h1 : ¬ (hasStep = true ∧ p.dc ≠ 0) := by
    rintro ⟨h1, h2⟩; rcases h with h | h
    · rw [h] at h1; exact absurd h1 (by simp)
    · exact h2 h
  unfold dispatch
  rw [if_neg h1, if_neg hD]
  split_ifs <;> rfl

theorem dispatch_throws (hasStep : Bool) (p : Pars) : dispatch hasStep p = none ↔ (hasStep = false ∨ p.dc = 0) ∧ p.Dt = 0 := by
  unfold dispatch
  by_cases h1 : hasStep = true ∧ p.dc ≠ 0
  · rw [if_pos h1]
    refine ⟨fun h => absurd h (by simp), fun h => ?_⟩
    rcases h.1 with h | h
    · rw [h] at h1; exact absurd h1.1 (by simp)
    · exact absurd h h1.2
  · have : hasStep = false ∨ p.dc = 0 := by
      by_cases hs : hasStep = true
      · exact Or.inr (by_contra fun h => h1 ⟨hs, h⟩)
      · exact Or.inl (by simpa using hs)
    rw [if_neg h1]
    by_cases h2 : p.Dt = 0
    · rw [if_pos h2]; exact ⟨fun _ => ⟨this, h2⟩, fun _ => rfl⟩
    · rw [if_neg h2]
      refine ⟨fun h => ?_, fun h => absurd h.2 h2⟩
      split_ifs at h

end CppQED.Traj
