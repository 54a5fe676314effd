import Verif.Model.Autostop
import Mathlib.Algebra.BigOperators.Group.List.Basic
import Mathlib.Data.List.Induction
import Mathlib.Tactic.Ring
import Mathlib.Tactic.FieldSimp
import Mathlib.Tactic.Linarith
import Mathlib.Tactic.NormNum

/-! # Property C46 (autostop) -/

namespace CppQED.Autostop

variable {ι : Type*}

/-- The mean of a list of arrays, componentwise. -/
noncomputable def meanOf (l : List (ι → ℝ)) (i : ι) : ℝ := (l.map (· i)).sum / l.length

/-- Values of a magnitude below the absolute tolerance are replaced by this tolerance, others are retained, including those of exactly this magnitude, of either sign. -/
theorem clip_spec (epsAbs : ℝ) (x : ι → ℝ) (i : ι) : (|x i| < epsAbs → clip epsAbs x i = epsAbs) ∧ (epsAbs ≤ |x i| → clip epsAbs x i = x i) := by
  unfold clip
  exact ⟨fun h => if_pos h, fun h => if_neg (not_lt.2 h)⟩

/-- The relevant history: the streamed arrays except for the very first one, with small values replaced by the absolute tolerance. -/
noncomputable def stored (epsAbs : ℝ) (xs : List (ι → ℝ)) : List (ι → ℝ) := (xs.drop 1).map (clip epsAbs)

/-- The last `n` elements. -/
def lastN (n : ℕ) (l : List (ι → ℝ)) : List (ι → ℝ) := l.drop (l.length - n)

/-- The invariant: after a nonempty history, the queue holds the last `rep` elements of the stored history, and the averages are their mean. -/
def Inv (epsAbs : ℝ) (rep : ℕ) (xs : List (ι → ℝ)) (st : State ι) : Prop :=
  (xs = [] ∧ st = init) ∨
  (xs ≠ [] ∧ st.queue = lastN rep (stored epsAbs xs) ∧ ∃ avg, st.averages = some avg ∧ ∀ i, avg i = meanOf st.queue i)

theorem stored_append (epsAbs : ℝ) (xs : List (ι → ℝ)) (h : xs ≠ []) (x : ι → ℝ) :
    stored epsAbs (xs ++ [x]) = stored epsAbs xs ++ [clip epsAbs x] := by
  obtain ⟨y, ys, rfl⟩ := List.exists_cons_of_ne_nil h
  simp [stored]

theorem inv_step (eps epsAbs : ℝ) (rep : ℕ) (hrep : rep ≠ 0) (xs : List (ι → ℝ)) (st st' : State ι) (x : ι → ℝ) (h : Inv epsAbs rep xs st)
    (hc : call eps epsAbs rep st x = some st') : Inv epsAbs rep (xs ++ [x]) st' := by
  right
  refine ⟨by simp, ?_⟩
  rcases h with ⟨rfl, rfl⟩ | ⟨hne, hq, avg, ha, hmean⟩
  · simp only [call, if_neg hrep, init, Option.some.injEq] at hc
    subst hc
    refine ⟨by simp [lastN, stored], _, rfl, fun i => by simp [meanOf]⟩
  · have hst := stored_append epsAbs xs hne x
    set L := stored epsAbs xs with hL
    set b := clip epsAbs x with hb
    have hqlen : st.queue.length = min rep L.length := by
      rw [hq, lastN, List.length_drop]; omega
    simp only [call, if_neg hrep, ha, ← hb] at hc
    -- growing queue
    have grow : st.queue.length ≠ rep → st.queue ++ [b] = lastN rep (L ++ [b]) := by
      intro hlt
      have hle : L.length < rep := by omega
      rw [hq, lastN, lastN, List.length_append, List.length_singleton, show L.length - rep = 0 by omega,
        show L.length + 1 - rep = 0 by omega, List.drop_zero, List.drop_zero]
    have growMean : ∀ i, ((st.queue.length : ℝ) * avg i + b i) / (st.queue.length + 1 : ℕ) = meanOf (st.queue ++ [b]) i := by
      intro i
      rw [hmean i, meanOf, meanOf, List.map_append, List.sum_append, List.length_append]
      by_cases h0 : st.queue.length = 0
      · have : st.queue = [] := List.length_eq_zero_iff.1 h0
        rw [this]; simp
      · have : (st.queue.length : ℝ) ≠ 0 := by exact_mod_cast h0
        rw [mul_div_cancel₀ _ this]; simp
    cases hqq : st.queue with
    | nil =>
      rw [hqq] at hc
      simp only [Option.some.injEq] at hc
      rw [hqq] at grow growMean
      subst hc
      rw [hst]
      exact ⟨grow (by simpa using hrep.symm), _, rfl, growMean⟩
    | cons front tail =>
      rw [hqq] at hc
      simp only at hc
      by_cases hfull : (front :: tail).length = rep
      · rw [if_pos hfull] at hc
        by_cases hcrit : ∀ i, |avg i - b i| / (|avg i| + |b i|) < eps
        · rw [if_pos hcrit] at hc; exact absurd hc (by simp)
        · rw [if_neg hcrit, Option.some.injEq] at hc
          subst hc
          rw [hst]
          have hlen : rep ≤ L.length := by
            have := hqlen; rw [hqq, hfull] at this; omega
          have hdrop : tail = L.drop (L.length - rep + 1) := by
            have : (front :: tail).drop 1 = (L.drop (L.length - rep)).drop 1 := by rw [← hqq, hq, lastN]
            simpa [List.drop_drop, Nat.add_comm] using this
          refine ⟨?_, _, rfl, fun i => ?_⟩
          · show tail ++ [b] = lastN rep (L ++ [b])
            rw [lastN, List.length_append, List.length_singleton, List.drop_append_of_le_length (by omega),
              show L.length + 1 - rep = L.length - rep + 1 by omega, hdrop]
          · show avg i + (b i - front i) / rep = meanOf (tail ++ [b]) i
            rw [hmean i, hqq, meanOf, meanOf, hfull]
            have h2 : (tail ++ [b]).length = rep := by rw [← hfull]; simp
            rw [h2, List.map_append, List.sum_append, List.map_cons, List.sum_cons]
            simp only [List.map_cons, List.map_nil, List.sum_cons, List.sum_nil]
            ring
      · rw [if_neg hfull] at hc
        simp only [Option.some.injEq] at hc
        rw [hqq] at grow growMean
        subst hc
        rw [hst]
        exact ⟨grow hfull, _, rfl, growMean⟩

theorem feed_append (eps epsAbs : ℝ) (rep : ℕ) (xs : List (ι → ℝ)) (x : ι → ℝ) :
    feed eps epsAbs rep (xs ++ [x]) = (feed eps epsAbs rep xs).bind fun st => call eps epsAbs rep st x := by
  unfold feed
  rw [List.foldlM_append]
  simp

theorem inv_feed (eps epsAbs : ℝ) (rep : ℕ) (hrep : rep ≠ 0) (xs : List (ι → ℝ)) :
    ∀ st, feed eps epsAbs rep xs = some st → Inv epsAbs rep xs st := by
  induction xs using List.reverseRecOn with
  | nil => intro st h; left; exact ⟨rfl, (Option.some.inj h).symm⟩
  | append_singleton xs x ih =>
    intro st' h
    rw [feed_append] at h
    obtain ⟨st, h1, h2⟩ := Option.bind_eq_some_iff.1 h
    exact inv_step eps epsAbs rep hrep xs st st' x (ih st h1) h2

/-- **C46.** With repetition 0, the run is never stopped. -/
theorem never_stops (eps epsAbs : ℝ) (xs : List (ι → ℝ)) : feed eps epsAbs 0 xs ≠ none := by
  have : feed eps epsAbs 0 xs = some init := by
    induction xs using List.reverseRecOn with
    | nil => rfl
    | append_singleton xs x ih => rw [feed_append, ih]; rfl
  rw [this]; simp

/-- **C46.** With repetition `rep>0`, after a history of streamings that has not been stopped, the next streaming stops the run if and only if there have been
at least `rep` streamings besides the very first one, and the new array agrees with the mean of the last `rep` ones within the relative tolerance
in every component. -/
theorem stops_iff (eps epsAbs : ℝ) (rep : ℕ) (hrep : rep ≠ 0) (xs : List (ι → ℝ)) (x : ι → ℝ) (hxs : feed eps epsAbs rep xs ≠ none) :
    feed eps epsAbs rep (xs ++ [x]) = none ↔
      rep + 1 ≤ xs.length ∧ ∀ i, |meanOf (lastN rep (stored epsAbs xs)) i - clip epsAbs x i| /
        (|meanOf (lastN rep (stored epsAbs xs)) i| + |clip epsAbs x i|) < eps := by
  obtain ⟨st, hst⟩ := Option.ne_none_iff_exists'.1 hxs
  rw [feed_append, hst, Option.bind_some]
  rcases inv_feed eps epsAbs rep hrep xs st hst with ⟨rfl, rfl⟩ | ⟨hne, hq, avg, ha, hmean⟩
  · simp [call, hrep, init]
  · have hslen : (stored epsAbs xs).length = xs.length - 1 := by simp [stored]
    have hxlen : 0 < xs.length := List.length_pos_iff.2 hne
    have hqlen : st.queue.length = min rep (xs.length - 1) := by
      rw [hq, lastN, List.length_drop, hslen]; omega
    rw [← hq]
    simp only [call, if_neg hrep, ha]
    cases hqq : st.queue with
    | nil =>
      rw [hqq] at hqlen
      simp only [List.length_nil] at hqlen
      have : ¬ (rep + 1 ≤ xs.length) := by omega
      simp [this]
    | cons front tail =>
      simp only
      by_cases hfull : (front :: tail).length = rep
      · rw [if_pos hfull]
        have hlen : rep + 1 ≤ xs.length := by rw [hqq, hfull] at hqlen; omega
        have hm : avg = meanOf (front :: tail) := by funext i; rw [hmean i, hqq]
        rw [hm]
        by_cases hcrit : ∀ i, |meanOf (front :: tail) i - clip epsAbs x i| / (|meanOf (front :: tail) i| + |clip epsAbs x i|) < eps
        · rw [if_pos hcrit]; exact ⟨fun _ => ⟨hlen, hcrit⟩, fun _ => rfl⟩
        · rw [if_neg hcrit]; exact ⟨fun h => absurd h (by simp), fun h => absurd h.2 hcrit⟩
      · rw [if_neg hfull]
        have : ¬ (rep + 1 ≤ xs.length) := by rw [hqq] at hqlen; omega
        simp [this]

/-- **C46.** The run is never stopped before `rep+2` streamings. -/
theorem not_before (eps epsAbs : ℝ) (rep : ℕ) (xs : List (ι → ℝ)) (h : xs.length < rep + 2) : feed eps epsAbs rep xs ≠ none := by
  by_cases hrep : rep = 0
  · rw [hrep]; exact never_stops eps epsAbs xs
  induction xs using List.reverseRecOn with
  | nil => simp [feed]
  | append_singleton xs x ih =>
    rw [List.length_append, List.length_singleton] at h
    intro hn
    have := ((stops_iff eps epsAbs rep hrep xs x (ih (by omega))).1 hn).1
    omega

/-- **C46.** If the streamed arrays become constant, then the run is stopped, at the latest by the `rep+1`st constant streaming. -/
theorem stops_if_constant (eps epsAbs : ℝ) (heps : 0 < eps) (rep : ℕ) (hrep : rep ≠ 0) (xs : List (ι → ℝ)) (hne : xs ≠ []) (x : ι → ℝ) :
    feed eps epsAbs rep (xs ++ List.replicate (rep + 1) x) = none := by
  by_contra hn
  rw [List.replicate_succ', ← List.append_assoc] at hn
  have hprev : feed eps epsAbs rep (xs ++ List.replicate rep x) ≠ none := by
    intro h; rw [feed_append, h] at hn; exact hn rfl
  refine hn ((stops_iff eps epsAbs rep hrep _ x hprev).2 ⟨?_, fun i => ?_⟩)
  · have := List.length_pos_iff.2 hne
    simp; omega
  · have hst : ∀ k, stored epsAbs (xs ++ List.replicate k x) = stored epsAbs xs ++ List.replicate k (clip epsAbs x) := by
      intro k
      obtain ⟨y, ys, rfl⟩ := List.exists_cons_of_ne_nil hne
      simp [stored]
    have hlast : lastN rep (stored epsAbs (xs ++ List.replicate rep x)) = List.replicate rep (clip epsAbs x) := by
      rw [hst, lastN, List.length_append, List.length_replicate, Nat.add_sub_cancel]
      simp
    have hmean : meanOf (lastN rep (stored epsAbs (xs ++ List.replicate rep x))) i = clip epsAbs x i := by
      rw [hlast, meanOf]
      have : (rep : ℝ) ≠ 0 := by exact_mod_cast hrep
      simp [List.map_replicate, List.sum_replicate, this]
    rw [hmean, sub_self, abs_zero, zero_div]
    exact heps

/-- A history of three streamings goes on, a fourth one with the same values stops. -/
example : feed (ι := Unit) (1 / 10) (1 / 100) 2 [fun _ => 5, fun _ => 1, fun _ => 3] ≠ none ∧
    feed (ι := Unit) (1 / 10) (1 / 100) 2 [fun _ => 5, fun _ => 1, fun _ => 3, fun _ => 2] = none := by
  have h1 : feed (ι := Unit) (1 / 10) (1 / 100) 2 [fun _ => 5, fun _ => 1, fun _ => 3] ≠ none := not_before _ _ _ _ (by simp)
  refine ⟨h1, ?_⟩
  have := (stops_iff (ι := Unit) (1 / 10) (1 / 100) 2 (by norm_num) [fun _ => 5, fun _ => 1, fun _ => 3] (fun _ => 2) h1).2
  refine this ⟨by simp, fun i => ?_⟩
  have hst : stored (ι := Unit) (1 / 100) [fun _ => 5, fun _ => 1, fun _ => 3] = [fun _ => 1, fun _ => 3] := by
    unfold stored clip; norm_num
  have hm : meanOf (lastN 2 (stored (ι := Unit) (1 / 100) [fun _ => 5, fun _ => 1, fun _ => 3])) i = 2 := by
    rw [hst]; norm_num [lastN, meanOf]
  have hc : clip (ι := Unit) (1 / 100) (fun _ => 2) i = 2 := by unfold clip; norm_num
  rw [hm, hc]; norm_num

end CppQED.Autostop
