import Verif.Spec.StateFileOpen
import Verif.Props.StateFile
import Mathlib.Tactic.SplitIfs

/-! # Lemmas on the opening of state files -/

namespace CppQED.StateFile

open CppQED.Tridiag (Outcome)

variable {c : Codec}

theorem history_cons (f : Option (List Byte)) (u : Use) (us : List Use) :
    history c f (u :: us) = history c (some (session c u.compression false f u.bytes)) us := rfl

theorem history_append (f : Option (List Byte)) (us vs : List Use) : history c f (us ++ vs) = history c (history c f us) vs := List.foldl_append

/-- Files not beginning with `B` are not taken for compressed ones. -/
theorem isbz2_plain {b : Byte} {rest : List Byte} (h : b ≠ 66) : isbz2 (some (b :: rest)) = false := by
  simp [isbz2, h]

theorem isbz2_magic (rest : List Byte) : isbz2 (some (66 :: 90 :: 104 :: rest)) = true := by
  simp [isbz2]

theorem isbz2_streams (hc : Bzip2 c) (ss : List (List Byte)) (x : List Byte) (h : ss ≠ []) : isbz2 (some (ss.flatMap c.compress ++ x)) = true := by
  obtain ⟨s, ss, rfl⟩ := List.exists_cons_of_ne_nil h
  obtain ⟨rest, hr⟩ := hc.magic s
  rw [List.flatMap_cons, hr]
  exact isbz2_magic _

theorem history_plain {b : Byte} (h : b ≠ 66) (us : List Use) (rest : List Byte) :
    history c (some (b :: rest)) us = some (b :: rest ++ us.flatMap Use.bytes) := by
  induction us generalizing rest with
  | nil => simp [history]
  | cons u us ih =>
    rw [history_cons]
    have : session c u.compression false (some (b :: rest)) u.bytes = b :: (rest ++ u.bytes) := by
      simp [session, isbz2_plain h]
    rw [this, ih]
    simp

theorem history_streams (hc : Bzip2 c) (us : List Use) (hus : ∀ u ∈ us, u.compression = false → u.bytes = []) (ss : List (List Byte)) (hs : ss ≠ []) :
    ∃ ss', ss' ≠ [] ∧ history c (some (ss.flatMap c.compress)) us = some (ss'.flatMap c.compress) ∧ ss'.flatten = ss.flatten ++ us.flatMap Use.bytes := by
  induction us generalizing ss with
  | nil => exact ⟨ss, hs, rfl, by simp⟩
  | cons u us ih =>
    rw [history_cons]
    have hz : isbz2 (some (ss.flatMap c.compress)) = true := by simpa using isbz2_streams hc ss [] hs
    have hus' : ∀ v ∈ us, v.compression = false → v.bytes = [] := fun v hv => hus v (List.mem_cons_of_mem _ hv)
    cases hcu : u.compression with
    | true =>
      have : session c true false (some (ss.flatMap c.compress)) u.bytes = (ss ++ [u.bytes]).flatMap c.compress := by
        simp [session, hz]
      rw [this]
      obtain ⟨ss', h1, h2, h3⟩ := ih hus' (ss ++ [u.bytes]) (by simp)
      exact ⟨ss', h1, h2, by rw [h3]; simp⟩
    | false =>
      have hb := hus u List.mem_cons_self hcu
      have : session c false false (some (ss.flatMap c.compress)) u.bytes = ss.flatMap c.compress := by simp [session, hb]
      rw [this]
      obtain ⟨ss', h1, h2, h3⟩ := ih hus' ss hs
      exact ⟨ss', h1, h2, by rw [h3]; simp [hb]⟩

theorem history_extends (us : List Use) (p : List Byte) : ∃ x, history c (some p) us = some (p ++ x) := by
  induction us generalizing p with
  | nil => exact ⟨[], by simp [history]⟩
  | cons u us ih =>
    rw [history_cons]
    obtain ⟨x, hx⟩ := ih (session c u.compression false (some p) u.bytes)
    refine ⟨(if u.compression && isbz2 (some p) then c.compress u.bytes else u.bytes) ++ x, ?_⟩
    rw [hx]; simp [session]

theorem first_plain (us : List Use) (h : ∃ v ∈ us, v.compression = false ∧ v.bytes ≠ []) :
    ∃ A v B, us = A ++ v :: B ∧ (∀ u ∈ A, u.compression = false → u.bytes = []) ∧ v.compression = false ∧ v.bytes ≠ [] := by
  induction us with
  | nil => obtain ⟨v, hv, _⟩ := h; cases hv
  | cons u us ih =>
    by_cases hu : u.compression = false ∧ u.bytes ≠ []
    · exact ⟨[], u, us, rfl, by simp, hu.1, hu.2⟩
    · obtain ⟨v, hv, hv'⟩ := h
      rcases List.mem_cons.1 hv with rfl | hv
      · exact absurd hv' hu
      · obtain ⟨A, w, B, rfl, hA, hw⟩ := ih ⟨v, hv, hv'⟩
        refine ⟨u :: A, w, B, rfl, ?_, hw⟩
        intro x hx hxc
        rcases List.mem_cons.1 hx with rfl | hx
        · by_contra hne; exact hu ⟨hxc, hne⟩
        · exact hA x hx hxc

theorem history_junk (hc : Bzip2 c) (us : List Use) (hr : ∀ u ∈ us, Records u.bytes) (h : ∃ v ∈ us, v.compression = false ∧ v.bytes ≠ [])
    (ss : List (List Byte)) (hs : ss ≠ []) :
    ∃ ss' b rest, ss' ≠ [] ∧ b ≠ 66 ∧ history c (some (ss.flatMap c.compress)) us = some (ss'.flatMap c.compress ++ b :: rest) := by
  obtain ⟨A, v, B, rfl, hA, hv, hne⟩ := first_plain us h
  obtain ⟨ss', h1, h2, _⟩ := history_streams hc A hA ss hs
  obtain ⟨b, rest, hb, hd, hd'⟩ := (hr v (by simp)).resolve_left hne
  rw [history_append, h2, history_cons]
  have : session c v.compression false (some (ss'.flatMap c.compress)) v.bytes = ss'.flatMap c.compress ++ b :: rest := by
    simp [session, hv, hb]
  rw [this]
  obtain ⟨x, hx⟩ := history_extends (c := c) B (ss'.flatMap c.compress ++ b :: rest)
  exact ⟨ss', b, rest ++ x, h1, by omega, by rw [hx]; simp⟩

/-- A use that neither writes anything nor begins a compressed file. -/
def Idle (u : Use) : Prop := u.compression = false ∧ u.bytes = []

theorem first_busy (us : List Use) : (∀ u ∈ us, Idle u) ∨ ∃ A u B, us = A ++ u :: B ∧ (∀ v ∈ A, Idle v) ∧ ¬ Idle u := by
  induction us with
  | nil => exact Or.inl (by simp)
  | cons u us ih =>
    by_cases hu : Idle u
    · rcases ih with h | ⟨A, w, B, rfl, hA, hw⟩
      · refine Or.inl fun v hv => ?_
        rcases List.mem_cons.1 hv with rfl | hv
        · exact hu
        · exact h v hv
      · refine Or.inr ⟨u :: A, w, B, rfl, fun v hv => ?_, hw⟩
        rcases List.mem_cons.1 hv with rfl | hv
        · exact hu
        · exact hA v hv
    · exact Or.inr ⟨[], u, us, rfl, by simp, hu⟩

theorem first_busy_unique {A B A' B' : List Use} {u u' : Use} (h : A ++ u :: B = A' ++ u' :: B') (hA : ∀ v ∈ A, Idle v) (hu : ¬ Idle u)
    (hA' : ∀ v ∈ A', Idle v) (hu' : ¬ Idle u') : A = A' ∧ u = u' ∧ B = B' := by
  induction A generalizing A' with
  | nil =>
    cases A' with
    | nil => simpa using h
    | cons a A' =>
      rw [List.nil_append, List.cons_append, List.cons.injEq] at h
      exact absurd (h.1 ▸ hA' a List.mem_cons_self) hu
  | cons a A ih =>
    cases A' with
    | nil =>
      rw [List.nil_append, List.cons_append, List.cons.injEq] at h
      exact absurd (h.1 ▸ hA a List.mem_cons_self) hu'
    | cons a' A' =>
      rw [List.cons_append, List.cons_append, List.cons.injEq] at h
      obtain ⟨h1, h2, h3⟩ := ih h.2 (fun v hv => hA v (List.mem_cons_of_mem _ hv)) (fun v hv => hA' v (List.mem_cons_of_mem _ hv))
      exact ⟨by rw [h.1, h1], h2, h3⟩

theorem history_idle (us : List Use) (h : ∀ u ∈ us, Idle u) : history c (some []) us = some [] := by
  induction us with
  | nil => rfl
  | cons u us ih =>
    rw [history_cons]
    have hu := h u List.mem_cons_self
    have : session c u.compression false (some []) u.bytes = [] := by simp [session, hu.1, hu.2]
    rw [this]
    exact ih fun v hv => h v (List.mem_cons_of_mem _ hv)

theorem flatMap_idle (us : List Use) (h : ∀ u ∈ us, Idle u) : us.flatMap Use.bytes = [] := by
  rw [List.flatMap_eq_nil_iff]; exact fun u hu => (h u hu).2

theorem history_none (us : List Use) (h : us ≠ []) : history c none us = history c (some []) us := by
  obtain ⟨u, us, rfl⟩ := List.exists_cons_of_ne_nil h
  rfl

end CppQED.StateFile
