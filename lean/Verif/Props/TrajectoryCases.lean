import Verif.Props.Trajectory

/-!
# Concrete cases of the theorems on the trajectory driver

The clock of `Verif.Props.Trajectory` (its steps are not longer than 1) meets the hypotheses of the theorems.
-/

namespace CppQED.Traj
open CppQED.Spec

/-- `advance_reaches`, `advance_is_steps`, `advanceTo_reaches`: the advancement by 7/2 ends, after some steps. -/
example : ∃ s' k, advance clock.time clock.step (7 / 2) 4 0 = some s' ∧ clock.time s' = 7 / 2 ∧ k ≤ 4 ∧ s' = (stepTowards clock.time clock.step (0 + 7 / 2))^[k] 0 := by
  obtain ⟨s', h⟩ := advance_terminates clock.time clock.step 1 one_pos (fun d s _ => by
    show s + min d 1 = s + d ∨ (s + 1 ≤ s + min d 1 ∧ s + min d 1 ≤ s + d)
    rcases le_total d 1 with h | h
    · left; rw [min_eq_left h]
    · right; rw [min_eq_right h]; exact ⟨le_rfl, by linarith⟩) (7 / 2) (by norm_num) 0 4 (by norm_num)
  obtain ⟨k, hk, h1, -⟩ := advance_is_steps _ _ _ _ _ _ h
  refine ⟨s', k, h, ?_, hk, h1⟩
  rw [advance_reaches _ _ _ _ _ _ h]
  show (0 : ℝ) + 7 / 2 = 7 / 2
  norm_num

/-- `advanceTo_reaches`. -/
example : ∃ s', advanceTo clock.time clock.step (7 / 2) 4 (1 / 4) = some s' ∧ clock.time s' = 7 / 2 := by
  obtain ⟨s', h⟩ := advance_terminates clock.time clock.step 1 one_pos (fun d s _ => by
    show s + min d 1 = s + d ∨ (s + 1 ≤ s + min d 1 ∧ s + min d 1 ≤ s + d)
    rcases le_total d 1 with h | h
    · left; rw [min_eq_left h]
    · right; rw [min_eq_right h]; exact ⟨le_rfl, by linarith⟩) (7 / 2 - 1 / 4) (by norm_num) (1 / 4) 4 (by norm_num)
  have h' : advanceTo clock.time clock.step (7 / 2) 4 (1 / 4) = some s' := h
  exact ⟨s', h', advanceTo_reaches _ _ _ _ _ _ h'⟩

/-- `advance_no_overshoot`: after two steps towards 7/2. -/
example : clock.time ((stepTowards clock.time clock.step (0 + 7 / 2))^[2] 0) ≤ 0 + 7 / 2 := by
  refine (advance_no_overshoot clock.time clock.step clock_progress.step_forward clock_progress.step_allowed (7 / 2) (by norm_num) 0 2 ?_).1
  intro j hj
  have h0 : clock.time (0 : ℝ) = 0 := rfl
  have h1 : clock.time (stepTowards clock.time clock.step (clock.time (0 : ℝ) + 7 / 2) 0) = 1 := by
    show (0 : ℝ) + min (0 + 7 / 2 - 0) 1 = 1
    norm_num
  rcases (by omega : j = 0 ∨ j = 1) with rfl | rfl
  · show (0 : ℝ) ≠ 0 + 7 / 2
    norm_num
  · rw [Function.iterate_one, h1, h0]
    norm_num

/-- The three modes of the dispatcher, and its exception. -/
example : dispatch true ⟨5, 2, 3, 4⟩ = some (.timeDc 5 2) ∧ dispatch false ⟨5, 2, 3, 4⟩ = some (.nDt 4 3) ∧ dispatch true ⟨5, 0, 3, 0⟩ = some (.timeDt 5 3) ∧ dispatch true ⟨5, 0, 0, 4⟩ = none := by
  refine ⟨dispatch_dc _ (by norm_num), ?_, ?_, (dispatch_throws _ _).2 ⟨Or.inr rfl, rfl⟩⟩
  · rw [dispatch_Dt _ _ (Or.inl rfl) (by norm_num)]; simp
  · rw [dispatch_Dt _ _ (Or.inr rfl) (by norm_num)]; simp

/-- `run_timeDt`, `run_rows_ordered` and `run_saves_final`: a run up to 5 with streaming in every 2, from 1/2. -/
example : ∃ r, runFrom clock neverStop () ⟨.timeDt 5 2, 2, true, true, true⟩ false 4 (1 / 2) = some r ∧ (rows r.evs).map clock.time = [1 / 2, 5 / 2, 9 / 2, 5] ∧
    ((rows r.evs).map clock.time).Pairwise (· < ·) ∧ (saves r.evs).getLast? = some r.final := by
  have hc : ⌈((5 : ℝ) - clock.time (1 / 2)) / 2⌉₊ = 3 := by
    show ⌈((5 : ℝ) - 1 / 2) / 2⌉₊ = 3
    rw [Nat.ceil_eq_iff (by norm_num)]
    norm_num
  obtain ⟨r, h, h1, -, -, -⟩ := run_timeDt clock clock_progress ⟨.timeDt 5 2, 2, true, true, true⟩ 5 2 rfl (by norm_num) (by norm_num) false (1 / 2)
    (by show (1 / 2 : ℝ) < 5; norm_num) 4 (by rw [hc])
  refine ⟨r, h, ?_, ?_, ?_⟩
  · rw [h1, hc]
    have : clock.time (1 / 2) = 1 / 2 := rfl
    simp only [Bool.false_eq_true, if_false, List.drop_zero, List.range_succ, List.range_zero, List.map_append, List.map_cons, List.map_nil, List.nil_append, this]
    norm_num
  · exact (run_rows_ordered clock clock_progress neverStop () _ (by show (0 : ℝ) < 2; norm_num) false 4 (1 / 2) r (by show (1 / 2 : ℝ) < 5; norm_num) (by show (5 : ℝ) ≠ 0; norm_num) h).1
  · exact (run_saves_final clock clock_progress neverStop () _ (by show (0 : ℝ) < 2; norm_num) false 4 (1 / 2) r (by show (1 / 2 : ℝ) < 5; norm_num) (by show (5 : ℝ) ≠ 0; norm_num) h).1

/-- `run_target_reached`, `run_zero_no_save`. -/
example : runFrom clock neverStop () ⟨.timeDt 5 2, 2, true, true, true⟩ false 4 7 = some ⟨[], 7⟩ ∧
    ∃ r, runFrom clock neverStop () ⟨.timeDt 0 2, 2, true, true, true⟩ false 4 (0 : ℝ) = some r ∧ saves r.evs = [] := by
  refine ⟨run_target_reached clock neverStop () _ false 4 7 (by show (5 : ℝ) ≠ 0; norm_num) (by show (5 : ℝ) ≤ 7; norm_num), ?_⟩
  obtain ⟨r, h, -, h2, -⟩ := run_zero_no_save clock neverStop () ⟨.timeDt 0 2, 2, true, true, true⟩ false 4 (0 : ℝ) rfl
  exact ⟨r, h, h2⟩

/-- `sessions_eq_uninterrupted`: three sessions of one, three and two intervals. -/
example : ∃ E E', sessions clock ⟨.nDt 1 1, 2, true, true, true⟩ 2 9 (0 : ℝ) [1, 3, 2] [] = some E ∧ sessions clock ⟨.nDt 1 1, 2, true, true, true⟩ 2 9 (0 : ℝ) [6] [] = some E' ∧ rows E = rows E' := by
  obtain ⟨E, E', h1, h2, h3, -⟩ := sessions_eq_uninterrupted clock clock_progress clock_serialised ⟨.nDt 1 1, 2, true, true, true⟩ rfl 2 two_pos (0 : ℝ) le_rfl 9 [1, 3, 2]
    (by simp) (by decide) (by decide)
  exact ⟨E, E', h1, h2, h3⟩

/-- `resume_nDt`, `run_resumes`: a run of three further intervals after the state 4 has been saved. -/
example : ∃ r, run clock neverStop () ⟨.nDt 3 2, 2, true, true, true⟩ (filesAfter clock [.header, .row (0 : ℝ) true, .save 4, .logOnEnd]) 4 (1 : ℝ) = some (some r) ∧ rows r.evs = [6, 8, 10] ∧ r.final = 10 := by
  obtain ⟨r, h, h1, h2, -⟩ := resume_nDt clock clock_progress clock_serialised ⟨.nDt 3 2, 2, true, true, true⟩ rfl 3 2 rfl (by norm_num) (by norm_num)
    [.header, .row (0 : ℝ) true, .save 4, .logOnEnd] 4 (1 : ℝ) (by show (0 : ℝ) ≤ 4; norm_num) rfl rfl 4 le_rfl
  have h' : ∀ x : ℝ, clock.advance 2 x = x + 2 := fun _ => rfl
  refine ⟨r, h, h1.trans ?_, h2.trans ?_⟩
  · simp only [List.range_succ, List.range_zero, List.nil_append, List.cons_append, List.map_cons, List.map_nil, Function.iterate_succ_apply', Function.iterate_zero_apply, h']
    norm_num
  · simp only [Function.iterate_succ_apply', Function.iterate_zero_apply, h']
    norm_num

/-- `crash_state`: a crash at whatever point of a run of five intervals, with the state saved at every second. -/
example : ∃ r, runFrom clock neverStop () ⟨.nDt 5 2, 2, true, true, true⟩ false 6 (0 : ℝ) = some r ∧ ∀ E, E <+: r.evs →
    ∃ a, rows E = (List.range a).map (fun k => (clock.advance 2)^[k] 0) ∧
      ((a = 0 ∧ saves E = []) ∨ ∃ b ≤ 5, (saves E).getLast? = some ((clock.advance 2)^[b] 0) ∧ b ≤ a ∧ a ≤ b + 2) := by
  obtain ⟨r, h, -⟩ := run_nDt clock clock_progress ⟨.nDt 5 2, 2, true, true, true⟩ 5 2 rfl (by norm_num) (by norm_num) false 0 le_rfl 6 le_rfl
  exact ⟨r, h, fun E hE => crash_state clock ⟨.nDt 5 2, 2, true, true, true⟩ 5 2 rfl (by norm_num) (by norm_num) (by norm_num) rfl 0 le_rfl 6 r h E hE⟩

/-- `crash_no_hole_partial`: the rows 0, 2, 4 have been written when the state 4 is saved last. -/
example : ∃ r, run clock neverStop () ⟨.nDt 2 2, 2, true, true, true⟩ (filesAfter clock [.header, .row (0 : ℝ) true, .row 2 true, .save 4, .row 4 true]) 3 (1 : ℝ) = some (some r) ∧
    rows [.header, .row (0 : ℝ) true, .row 2 true, .save 4, .row 4 true] ++ rows r.evs = [0, 2, 4, 6, 8] := by
  have h' : ∀ x : ℝ, clock.advance 2 x = x + 2 := fun _ => rfl
  obtain ⟨r, h, h1⟩ := crash_no_hole_partial clock clock_progress clock_serialised ⟨.nDt 2 2, 2, true, true, true⟩ rfl 2 (by norm_num) 0 (1 : ℝ) le_rfl
    [.header, .row (0 : ℝ) true, .row 2 true, .save 4, .row 4 true] rfl 2 (by
      simp only [saves, List.filterMap, List.getLast?, Function.iterate_succ_apply', Function.iterate_zero_apply, h']
      norm_num) (by
      simp only [rows, List.filterMap, List.range_succ, List.range_zero, List.nil_append, List.cons_append, List.map_cons, List.map_nil, Function.iterate_succ_apply', Function.iterate_zero_apply, h']
      norm_num) 2 (by norm_num) 3 le_rfl
  refine ⟨r, h, h1.trans ?_⟩
  simp only [List.range_succ, List.range_zero, List.nil_append, List.cons_append, List.map_cons, List.map_nil, Function.iterate_succ_apply', Function.iterate_zero_apply, h']
  norm_num

end CppQED.Traj
