import Mathlib.Data.Real.Basic

/-!
# Model of the autostop handler

Source: `/repo/CPPQEDutils/Trajectory.h:179-222` (`AutostopHandlerGeneric`). The streamed array is a function on the finite type of its indices.
-/

namespace CppQED.Autostop

/-- The data members; `averages = none` if `averages_` has size 0. -/
structure State (ι : Type*) where
  averages : Option (ι → ℝ)
  queue : List (ι → ℝ)

/-- Constructor (Trajectory.h:186-187). -/
def init {ι : Type*} : State ι := ⟨none, []⟩

open Classical in
/-- The buffer (Trajectory.h:191-193). -/
noncomputable def clip {ι : Type*} (epsAbs : ℝ) (x : ι → ℝ) : ι → ℝ := fun i => if |x i| < epsAbs then epsAbs else x i

open Classical in
/-- `operator()` (Trajectory.h:189-213); `none`: `StoppingCriterionReachedException`. For nonempty arrays. (In the comparison, 0/0 is 0; in the code, it
is a NaN that the `max` reduction ignores.) -/
noncomputable def call {ι : Type*} (eps epsAbs : ℝ) (rep : ℕ) (st : State ι) (x : ι → ℝ) : Option (State ι) :=
  let buffer := clip epsAbs x
  if rep = 0 then some st
  else
    match st.averages with
    | none => some { st with averages := some fun _ => 0 }
    | some avg =>
      match st.queue with
      | [] => -- rep ≠ 0, so the queue is not full
        some ⟨some fun i => ((st.queue.length : ℝ) * avg i + buffer i) / (st.queue.length + 1 : ℕ), st.queue ++ [buffer]⟩
      | front :: tail =>
        if st.queue.length = rep then
          if ∀ i, |avg i - buffer i| / (|avg i| + |buffer i|) < eps then none
          else some ⟨some fun i => avg i + (buffer i - front i) / rep, tail ++ [buffer]⟩
        else some ⟨some fun i => ((st.queue.length : ℝ) * avg i + buffer i) / (st.queue.length + 1 : ℕ), st.queue ++ [buffer]⟩

/-- The handler called with a sequence of streamed arrays. -/
noncomputable def feed {ι : Type*} (eps epsAbs : ℝ) (rep : ℕ) (xs : List (ι → ℝ)) : Option (State ι) :=
  xs.foldlM (call eps epsAbs rep) init

end CppQED.Autostop
