import Verif.Model.DensityStreamer
import Verif.Props.Composite
import Mathlib.Tactic.FieldSimp

/-!
# Columns of the trajectories based on density operators, and time averages: C97, C98
-/

namespace CppQED.DStream
open CppQED.Composite CppQED.Spec

/-- The columns in addition to those of the system, with their labels. -/
def measureColumns (emptyV : Bool) (ems : Switch) (ρ : Measures) : List (String × ℝ) :=
  if emptyV then [] else
    [(ems.e0, "negativity", ρ.negativity), (ems.e1, "mutual information", ρ.mutualInformation), (ems.e2, "purity of partial trace", ρ.purity)].filterMap fun x => if x.1 then some x.2 else none

/-- **C97.** The columns written, and the array returned (which is what is averaged in ensembles and used for the stopping criterion), are those of the system followed by exactly the measures switched on, in the order negativity, mutual
information, purity; the key numbers its labels consecutively, and in the same order. -/
theorem stream_key (emptyV : Bool) (ems : Switch) (av : Option Av) (ls : List String) (xs : List ℝ) (processed : Option (List ℝ)) (hx : processed.getD [] = xs) (hl : ls.length = xs.length)
    (hkey : match av with | none => ls = [] | some av => KeyOK ls.length av.streamKey ls) (ρ : Measures) :
    (stream emptyV ems processed ρ).1 = xs ++ (measureColumns emptyV ems ρ).map Prod.snd ∧ (stream emptyV ems processed ρ).2 = (stream emptyV ems processed ρ).1 ∧
    KeyOK (stream emptyV ems processed ρ).2.length (streamKey emptyV ems av) (ls ++ (measureColumns emptyV ems ρ).map Prod.fst) := by
  have hb : ∀ i, entries (systemKey av i).1 = ls.zipIdx i ∧ (systemKey av i).2 = i + ls.length := by
    intro i
    cases av with
    | none => simp only at hkey; subst hkey; simp [entries, systemKey]
    | some av => exact hkey.2 i
  have hk : ∀ (l : String) (st : List KeyItem × ℕ), entries (keyEntry l st).1 = entries st.1 ++ [(l, st.2)] ∧ (keyEntry l st).2 = st.2 + 1 := fun l st => ⟨by rw [keyEntry, entries_append]; rfl, rfl⟩
  have ht : ∀ (l : String) (st : List KeyItem × ℕ), entries (st.1 ++ [KeyItem.title l]) = entries st.1 := fun l st => by rw [entries_append]; simp [entries]
  obtain ⟨e0, e1, e2⟩ := ems
  subst hx
  refine ⟨?_, ?_, ?_, fun i => ?_⟩
  · cases emptyV <;> cases e0 <;> cases e1 <;> cases e2 <;> simp [stream, measureColumns, appendTo]
  · cases emptyV <;> cases e0 <;> cases e1 <;> cases e2 <;> simp [stream, appendTo]
  · cases emptyV <;> cases e0 <;> cases e1 <;> cases e2 <;> simp [stream, measureColumns, appendTo, hl]
  · obtain ⟨b1, b2⟩ := hb i
    unfold streamKey
    generalize (systemKey av i) = st at b1 b2
    cases emptyV <;> cases e0 <;> cases e1 <;> cases e2 <;> simp [stream, measureColumns, appendTo, hk, ht, b1, b2, hl, List.zipIdx_append, add_assoc]

/-- A Master-equation trajectory of a system with a single average, with negativity and purity. -/
example := (stream_key false ⟨true, false, true⟩ (some ⟨⟨1, keyPrinter "S" ["x"], fun _ _ => [3]⟩, id, fun _ => []⟩) ["x"] [3] (some [3]) rfl rfl (keyPrinter_ok "S" ["x"]) ⟨1, 2, 1⟩).1

/-! ## C98: time averages -/

/-- The averages streamed after the relaxation time in a history. -/
noncomputable def sampled (relaxationTime : ℝ) (h : List Event) : List (List ℝ) :=
  h.filterMap fun | .stream t now => if relaxationTime < t then some now else none | _ => none

/-- **C98.** After any history of streams, of continuing from a saved state in another object, and of logs written at the end, the time averages are the arithmetic means of the (not processed) averages of all the streams after the
relaxation time, and zero if there was none. -/
theorem timeAverage (n : ℕ) (relaxationTime : ℝ) (process : List ℝ → List ℝ) (h : List Event) (hn : ∀ t now, Event.stream t now ∈ h → now.length = n) :
    let s := h.foldl (TimeAv.step relaxationTime process) (TimeAv.init n)
    s.sum = (sampled relaxationTime h).length ∧ s.averages.length = n ∧
      ∀ k < n, s.averages.getD k 0 = ((sampled relaxationTime h).map fun a => a.getD k 0).sum / ((sampled relaxationTime h).length : ℝ) := by
  induction h using List.reverseRecOn with
  | nil =>
    simp only [List.foldl_nil, TimeAv.init, sampled, List.filterMap_nil, List.length_nil, List.length_replicate, List.map_nil, List.sum_nil, Nat.cast_zero, div_zero, true_and]
    intro k hk
    simp [List.getElem?_replicate, hk]
  | append_singleton h e ih =>
    obtain ⟨h1, h2, h3⟩ := ih fun t now hm => hn t now (by simp [hm])
    simp only [List.foldl_append, List.foldl_cons, List.foldl_nil]
    have hs : sampled relaxationTime (h ++ [e]) = sampled relaxationTime h ++ sampled relaxationTime [e] := List.filterMap_append
    generalize h.foldl (TimeAv.step relaxationTime process) (TimeAv.init n) = s at h1 h2 h3
    cases e with
    | reload o => simpa [TimeAv.step, TimeAv.read, TimeAv.write, hs, sampled] using ⟨h1, h2, h3⟩
    | logOnEnd => simpa [TimeAv.step, TimeAv.logOnEnd, hs, sampled] using ⟨h1, h2, h3⟩
    | stream t now =>
      have hl := hn t now (by simp)
      by_cases ht : relaxationTime < t
      · have hone : sampled relaxationTime [Event.stream t now] = [now] := by simp [sampled, ht]
        rw [hs, hone]
        simp only [TimeAv.step, TimeAv.stream, gt_iff_lt, ht, if_true, List.length_append, List.length_cons, List.length_nil, List.length_zipWith, h2, hl, min_self, h1, true_and, Nat.zero_add]
        intro k hk
        have h4 := h3 k hk
        rw [List.getD_eq_getElem?_getD, List.getElem?_eq_getElem (by omega), Option.getD_some] at h4
        rw [List.getD_eq_getElem?_getD, List.getElem?_eq_getElem (by simp; omega), Option.getD_some, List.getElem_zipWith, h4, List.map_append, List.sum_append]
        simp only [List.map_cons, List.map_nil, List.sum_cons, List.sum_nil, add_zero, Nat.cast_add, Nat.cast_one]
        rw [List.getD_eq_getElem?_getD, List.getElem?_eq_getElem (by omega), Option.getD_some]
        rcases Nat.eq_zero_or_pos (sampled relaxationTime h).length with h0 | h0
        · have := List.length_eq_zero_iff.1 h0
          simp [this]
        · congr 2
          exact div_mul_cancel₀ _ (by exact_mod_cast h0.ne')
      · have hone : sampled relaxationTime [Event.stream t now] = [] := by simp [sampled, ht]
        rw [hs, hone, List.append_nil]
        simpa [TimeAv.step, TimeAv.stream, ht] using ⟨h1, h2, h3⟩

/-- The log at the end consists of the processed means. -/
theorem logOnEnd_eq (process : List ℝ → List ℝ) (s : TimeAv) : (s.logOnEnd process).1 = process s.averages ∧ (s.logOnEnd process).2 = s := ⟨rfl, rfl⟩

/-- Streams at 0, 1 and 2 with relaxation time 1/2, the run being continued in another object after the second. -/
example := timeAverage 1 (1 / 2) id [.stream 0 [5], .stream 1 [1], .logOnEnd, .reload ⟨[7], 9⟩, .stream 2 [3]] (by
  intro t now h
  simp only [List.mem_cons, Event.stream.injEq, reduceCtorEq, List.not_mem_nil, or_false, false_or] at h
  rcases h with ⟨-, rfl⟩ | ⟨-, rfl⟩ | ⟨-, rfl⟩ <;> rfl)

end CppQED.DStream
