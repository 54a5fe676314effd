import Verif.Model.PyText
import Verif.Props.FormDouble
import Verif.Props.Commenting

/-!
# Lemmas on the text that is read from Python
-/

namespace CppQED.PyText
open CppQED.Tridiag CppQED.FormDouble CppQED.Spec

theorem fileLines_cons (l s : Str) (h : '\n' ∉ l) : fileLines (l ++ '\n' :: s) = (l ++ ['\n']) :: fileLines s := by
  induction l with
  | nil => rw [List.nil_append, fileLines, if_pos rfl]; rfl
  | cons c l ih =>
    rw [List.cons_append, fileLines, if_neg (fun e => h (by simp [e])), ih fun hh => h (by simp [hh])]
    rfl

theorem fileLines_unlines (ls : List Str) (h : ∀ l ∈ ls, '\n' ∉ l) (s : Str) : fileLines (unlines ls ++ s) = ls.map (· ++ ['\n']) ++ fileLines s := by
  induction ls with
  | nil => rfl
  | cons l ls ih =>
    have : unlines (l :: ls) ++ s = l ++ '\n' :: (unlines ls ++ s) := by simp [unlines]
    rw [this, fileLines_cons _ _ (h l (by simp)), ih fun l hl => h l (by simp [hl])]
    rfl

theorem split_line (l : Str) (h : '\n' ∉ l) : split (l ++ ['\n']) = columns l := by
  have : ∀ l : Str, '\n' ∉ l → (l ++ ['\n']).splitOnP (fun c => c == ' ' || c == '\t' || c == '\n') = l.splitOnP isSpace ++ [[]] := by
    intro l
    induction l with
    | nil => intro _; rfl
    | cons c l ih =>
      intro h
      have hc : c ≠ '\n' := fun e => h (by simp [e])
      rw [List.cons_append, List.splitOnP_cons, List.splitOnP_cons, ih fun hh => h (by simp [hh])]
      have hs : (c == ' ' || c == '\t' || c == '\n') = isSpace c := by simp [isSpace, hc]
      rw [hs]
      by_cases hc' : isSpace c = true
      · rw [if_pos hc', if_pos hc']; rfl
      · rw [if_neg hc', if_neg hc']
        have hne := List.splitOnP_ne_nil isSpace l
        cases hl : l.splitOnP isSpace with
        | nil => exact absurd hl hne
        | cons a L => rfl
  rw [split, this l h, List.filter_append]
  simp [columns]

theorem split_nil : split [] = [] := by simp [split]

/-- the words of a comment -/
theorem words_marked (l : Str) : split (cut (some '#') (marked l ++ ['\n'])) = [] := by
  unfold marked
  by_cases h : l = []
  · rw [if_pos h]
    have : cut (some '#') ([] ++ ['\n']) = [] ++ ['\n'] := by decide
    rw [this, split_line _ (by simp)]
    exact columns_nil
  · rw [if_neg h]
    have : cut (some '#') (['#', ' '] ++ l ++ ['\n']) = [] := rfl
    rw [this, split_nil]

theorem plain_noHash (p : ℤ) (v : Double) : '#' ∉ plain p v := by
  have hs : ∀ s, '#' ∉ sgn s := by intro s; cases s <;> simp [sgn]
  cases v with
  | nan s => simp [plain, hs]
  | inf s => simp [plain, hs]
  | fin s x =>
    intro hc
    rcases List.mem_append.1 hc with h | h
    · exact hs s h
    · rcases general_chars _ _ _ _ h with ⟨d, hd, h⟩ | h | h | h | h
      · interval_cases d <;> simp [Nat.digitChar] at h
      all_goals simp at h

theorem bound_noHash (f : Form) (v : Double) : '#' ∉ bound f v := by
  unfold bound adjusted
  intro h
  rcases List.mem_append.1 h with h | h
  · exact plain_noHash _ _ h
  · exact absurd (List.eq_of_mem_replicate h) (by decide)

/-- A row of the output without the newline. -/
noncomputable def rowBody (p : ℤ) (r : Row) : Str := bound (positive p) r.t ++ bound (positive p) r.dt ++ r.elements.flatMap (streamCommon p) ++ streamMeasures p r.measures

theorem streamRow_eq (p : ℤ) (r : Row) : streamRow p r.t r.dt r.elements r.measures = rowBody p r ++ ['\n'] := rfl

theorem mem_rowBody {p : ℤ} {r : Row} {c : Char} (h : c ∈ rowBody p r) : c = '\t' ∨ ∃ f v, c ∈ bound f v := by
  simp only [rowBody, List.mem_append, List.mem_flatMap] at h
  rcases h with ((hc | hc) | ⟨a, -, hc⟩) | hc
  · exact Or.inr ⟨_, _, hc⟩
  · exact Or.inr ⟨_, _, hc⟩
  · rcases List.mem_cons.1 hc with rfl | hc
    · exact Or.inl rfl
    · obtain ⟨v, -, hv⟩ := List.mem_flatMap.1 hc
      exact Or.inr ⟨_, _, hv⟩
  · obtain ⟨v, -, hv⟩ := List.mem_flatMap.1 hc
    rcases List.mem_cons.1 hv with rfl | hv
    · exact Or.inl rfl
    · exact Or.inr ⟨_, _, hv⟩

theorem rowBody_noEol (p : ℤ) (r : Row) : '\n' ∉ rowBody p r := by
  intro h
  rcases mem_rowBody h with h | ⟨f, v, h⟩
  · exact absurd h (by decide)
  · exact bound_newline f v _ h rfl

theorem rowBody_noHash (p : ℤ) (r : Row) : '#' ∉ rowBody p r := by
  intro h
  rcases mem_rowBody h with h | ⟨f, v, h⟩
  · exact absurd h (by decide)
  · exact bound_noHash f v h

theorem cut_noHash (l : Str) (h : '#' ∉ l) : cut (some '#') l = l := by
  refine List.takeWhile_eq_self_iff.2 fun c hc => ?_
  rw [bne_iff_ne]
  rintro rfl
  exact h hc

/-- The words of a row of the output. -/
noncomputable def rowCells (p : ℤ) (r : Row) : List Str := plain (max 6 p) r.t :: plain (max 6 p) r.dt :: (r.elements.flatten ++ r.measures).map (plain p)

theorem words_row (p : ℤ) (hp : 0 ≤ p) (r : Row) (hr : r.Valid) : split (cut (some '#') (rowBody p r ++ ['\n'])) = rowCells p r := by
  have h := output_readable p hp [r] (by simpa using hr)
  rw [cut_noHash _ (by
    intro h
    rcases List.mem_append.1 h with h | h
    · exact rowBody_noHash p r h
    · exact absurd h (by decide)), split_line _ (rowBody_noEol p r)]
  have h2 : lines ([r].flatMap fun r => streamRow p r.t r.dt r.elements r.measures) = [rowBody p r] := by
    have := lines_flatMap [r] (rowBody p) (by
      intro r' _ c hc e
      subst e
      exact rowBody_noEol p r' hc)
    simpa [streamRow_eq] using this
  rw [h2] at h
  simpa [rowCells] using h

theorem convert_ok {ρ : Type} {float : Str → Option ρ} {val : Str → ρ} {ws : List Str} (h : ∀ w ∈ ws, float w = some (val w)) : convert float ws = some (ws.map val) := by
  induction ws with
  | nil => rfl
  | cons w ws ih =>
    rw [convert, h w (by simp), ih fun w hw => h w (by simp [hw])]
    rfl

theorem convertRows_ok {ρ : Type} {float : Str → Option ρ} {val : Str → ρ} {rows : List (List Str)} (h : ∀ r ∈ rows, ∀ w ∈ r, float w = some (val w)) :
    convertRows float none rows = some (rows.map fun r => r.map val) := by
  induction rows with
  | nil => rfl
  | cons r rows ih =>
    rw [convertRows, select, Option.bind_some, convert_ok (h r (by simp)), ih fun r hr => h r (by simp [hr])]
    rfl

theorem convert_none {ρ : Type} {float : Str → Option ρ} {ws : List Str} {w : Str} (hw : w ∈ ws) (h : float w = none) : convert float ws = none := by
  induction ws with
  | nil => simp at hw
  | cons x ws ih =>
    rw [convert]
    rcases List.mem_cons.1 hw with rfl | hw
    · rw [h]; rfl
    · rw [ih hw]
      cases float x <;> rfl

theorem convertRows_none {ρ : Type} {float : Str → Option ρ} {cols : Option (List ℕ)} {rows : List (List Str)} {r : List Str} (hr : r ∈ rows) (h : (select cols r).bind (convert float) = none) : convertRows float cols rows = none := by
  induction rows with
  | nil => simp at hr
  | cons x rows ih =>
    rw [convertRows]
    rcases List.mem_cons.1 hr with rfl | hr
    · cases hs : select cols r with
      | none => rfl
      | some y =>
        rw [hs, Option.bind_some] at h
        rw [Option.bind_some, h]; rfl
    · rw [ih hr]
      cases select cols x with
      | none => rfl
      | some y =>
        rw [Option.bind_some]
        cases convert float y <;> rfl

theorem squeeze_two {ρ : Type} (a b : List ρ) (rest : List (List ρ)) (h : a.length ≠ 1) : squeeze (a :: b :: rest) = .table (a :: b :: rest) := by
  have : squeeze (a :: b :: rest) = if (a :: b :: rest).all (·.length == 1) then .vector (a :: b :: rest).flatten else .table (a :: b :: rest) := by
    rcases a with _ | ⟨x, _ | ⟨y, a⟩⟩ <;> rfl
  rw [this, if_neg]
  simp [h]

theorem squeeze_one {ρ : Type} (a : List ρ) (h : a.length ≠ 1) : squeeze [a] = .vector a := by
  rcases a with _ | ⟨x, _ | ⟨y, a⟩⟩
  · rfl
  · exact absurd rfl h
  · rfl

end CppQED.PyText
