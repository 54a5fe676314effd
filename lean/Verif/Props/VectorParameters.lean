import Verif.Props.TinyVectorIO
import Verif.Props.Pars

/-! # C177, C178: vectors on the command line -/

namespace CppQED.TinyIO
open CppQED.Tridiag CppQED.Spec
open CppQED.Pars (Table Kind lineOf update isSpace)

variable {α V : Type}

theorem vectorParam_reads {S : ScalarIO α} {checks : Bool} {n : ℕ} {inj : List α → V} {l : List α} {w : Str} (h : ∀ r, input S checks n (w ++ r) = .ok (l, r)) : Reads (vectorParam S checks n inj) w (inj l) := by
  intro rest _
  unfold vectorParam
  rw [h rest]
  simp

/-- The command line depends only on the text. -/
theorem update_words (t : Table V) (pre x : Str) (b a : List Str) {ws : List Str} {w : Str} (hw : lineOf ws = ' ' :: w) : update t pre (b ++ (pre ++ x) :: (ws ++ a)) = update t pre (b ++ (pre ++ x) :: w :: a) := by
  have e : lineOf (b ++ (pre ++ x) :: (ws ++ a)) = lineOf (b ++ (pre ++ x) :: w :: a) := by
    have : lineOf (b ++ (pre ++ x) :: (ws ++ a)) = lineOf b ++ (' ' :: (pre ++ x) ++ (lineOf ws ++ lineOf a)) := by simp [lineOf]
    rw [this, hw]
    simp [lineOf]
  unfold update
  rw [e]

theorem lastGiven_append (a b : List (Setting V)) (x : Str) : lastGiven (a ++ b) x = (lastGiven b x).or (lastGiven a x) := by
  simp [lastGiven, List.reverse_append, List.findSome?_append]

theorem update_vector {S : ScalarIO α} {checks : Bool} {n : ℕ} {inj : List α → V} {l : List α} {w : Str} (h : ∀ r, input S checks n (w ++ r) = .ok (l, r)) {c : Char} {w' : Str} (hc : w = c :: w') (hb : isSpace c = false)
    (t : Table V) (ht : Built t) {pre x : Str} (hx : GoodName pre x) {v : V} (hm : (x, Kind.typed (vectorParam S checks n inj) v) ∈ t) {ws : List Str} (hw : lineOf ws = ' ' :: w)
    (before after : List (Setting V)) (hB : ∀ s ∈ before ++ after, s.Valid t pre) (hA : lastGiven after x = none) :
    ∃ t', update t pre (before.flatMap (Setting.words pre) ++ (pre ++ x) :: (ws ++ after.flatMap (Setting.words pre))) = .ok t' ∧ valueOf t' x = some (.typed (inj l))
      ∧ ∀ y, y ≠ x → valueOf t' y = (lastGiven (before ++ after) y).or (valueOf t y) := by
  obtain ⟨t', h1, h2⟩ := Pars.update_sets t ht pre (before ++ [Setting.value x w (inj l)] ++ after) (by
    intro s hs
    simp only [List.mem_append, List.mem_singleton] at hs hB
    rcases hs with (hs | rfl) | hs
    · exact hB s (Or.inl hs)
    · exact ⟨hx, ⟨_, v, hm, vectorParam_reads h⟩, c, w', hc, hb⟩
    · exact hB s (Or.inr hs))
  refine ⟨t', ?_, ?_, fun y hy => ?_⟩
  · rw [update_words t pre x _ _ hw]
    simpa [Setting.words] using h1
  · rw [h2, lastGiven_append, lastGiven_append, hA]
    simp [lastGiven, Setting.gives]
  · rw [h2, lastGiven_append, lastGiven_append, lastGiven_append]
    simp [lastGiven, Setting.gives, Ne.symm hy]

/-- C177: if the words after the name of a parameter that is a vector make up a text of a vector with the right number of components, then the parameter gets this vector, if it is not given again, and all the others get what they are given before and after that. -/
theorem commandLine_vector {S : ScalarIO α} {T : α → Str → Prop} (h : Understands S T) {checks : Bool} {n : ℕ} {inj : List α → V} {l : List α} {w : Str} (hl : VectorText T l ('[' :: w)) (hn : l.length = n + 1)
    (t : Table V) (ht : Built t) {pre x : Str} (hx : GoodName pre x) {v : V} (hm : (x, Kind.typed (vectorParam S checks n inj) v) ∈ t) {ws : List Str} (hw : lineOf ws = ' ' :: '[' :: w)
    (before after : List (Setting V)) (hB : ∀ s ∈ before ++ after, s.Valid t pre) (hA : lastGiven after x = none) :
    ∃ t', update t pre (before.flatMap (Setting.words pre) ++ (pre ++ x) :: (ws ++ after.flatMap (Setting.words pre))) = .ok t' ∧ valueOf t' x = some (.typed (inj l))
      ∧ ∀ y, y ≠ x → valueOf t' y = (lastGiven (before ++ after) y).or (valueOf t y) :=
  update_vector (fun r => input_text h checks hl hn r) rfl (by decide) t ht hx hm hw before after hB hA

/-- C178: without the checks the opening bracket may be forgotten, or be any other character: it is dropped. The program goes on with the vector of what follows. -/
theorem commandLine_forgotten {S : ScalarIO α} {T : α → Str → Prop} (h : Understands S T) {inj : List α → V} {a : α} {l : List α} {c : Char} (hc : isSpace c = false) {u s : Str} (hu : T a u) (hs : RestText T l s)
    (t : Table V) (ht : Built t) {pre x : Str} (hx : GoodName pre x) {v : V} (hm : (x, Kind.typed (vectorParam S false l.length inj) v) ∈ t)
    (before after : List (Setting V)) (hB : ∀ s ∈ before ++ after, s.Valid t pre) (hA : lastGiven after x = none) :
    ∃ t', update t pre (before.flatMap (Setting.words pre) ++ (pre ++ x) :: (c :: (u ++ s)) :: after.flatMap (Setting.words pre)) = .ok t' ∧ valueOf t' x = some (.typed (inj (a :: l)))
      ∧ ∀ y, y ≠ x → valueOf t' y = (lastGiven (before ++ after) y).or (valueOf t y) := by
  have hc' : ¬ Blanks [c] := fun hB => by
    have := hB c (by simp)
    simp only [List.mem_cons, List.not_mem_nil, or_false] at this
    rcases this with rfl | rfl | rfl | rfl | rfl | rfl <;> revert hc <;> decide
  exact update_vector (fun r => input_forgotten h hc' hu hs rfl r) rfl hc t ht hx hm (ws := [c :: (u ++ s)]) (by simp [lineOf]) before after hB hA

/-- C178: with the checks the program would stop. -/
theorem commandLine_refused (S : ScalarIO α) (n : ℕ) (inj : List α → V) {c : Char} (hc : isSpace c = false) (hc' : c ≠ '[') (w : Str) (t : Table V) (ht : Built t) {pre x : Str} (hx : GoodName pre x) {v : V}
    (hm : (x, Kind.typed (vectorParam S true n inj) v) ∈ t) (before : List (Setting V)) (hB : ∀ s ∈ before, s.Valid t pre) (more : List Str) :
    update t pre (before.flatMap (Setting.words pre) ++ (pre ++ x) :: (c :: w) :: more) = .abort := by
  have e : (lineOf ((c :: w) :: more)).dropWhile isSpace = c :: (w ++ lineOf more) := by
    have : lineOf ((c :: w) :: more) = ' ' :: c :: (w ++ lineOf more) := by simp [lineOf]
    rw [this, List.dropWhile_cons, if_pos (by decide), List.dropWhile_cons, if_neg (by simp [hc])]
  have hc0 : ¬ Blanks [c] := fun h0 => by
    have := h0 c (by simp)
    simp only [List.mem_cons, List.not_mem_nil, or_false] at this
    rcases this with rfl | rfl | rfl | rfl | rfl | rfl <;> revert hc <;> decide
  refine Pars.update_badValue t ht pre before hB x hx _ v hm ((c :: w) :: more) (Or.inr ?_)
  rw [e]
  unfold vectorParam
  have hr := input_refuses S n (s := c :: (w ++ lineOf more)) (s' := w ++ lineOf more) ⟨[], blanks_nil, hc0, rfl⟩ hc'
  cases hi : input S true n (c :: (w ++ lineOf more)) with
  | ok p => exact absurd hi (hr p.1 p.2)
  | throw => rfl
  | undef => rfl

/-! ## Examples: a table with a vector of two components and one of one -/

/-- `deltas`, with the default `[0,0]`, and `kappa`, with the default `[0]`. -/
noncomputable def deltasTable (checks : Bool) : Table (List ℝ) := [("deltas".toList, .typed (vectorParam digitsIO checks 1 id) [0, 0]), ("kappa".toList, .typed (vectorParam digitsIO checks 0 id) [0])]

theorem deltas_built (checks : Bool) : Built (deltasTable checks) :=
  .add (.add .nil "deltas".toList (vectorParam digitsIO checks 1 id) [0, 0] rfl) "kappa".toList (vectorParam digitsIO checks 0 id) [0] rfl

theorem deltas_good : GoodName "--".toList "deltas".toList := ⟨by decide, by decide, by decide, by decide⟩

theorem kappa_good : GoodName "--".toList "kappa".toList := ⟨by decide, by decide, by decide, by decide⟩

theorem kappa_valid (checks : Bool) : (Setting.value "kappa".toList "[3]".toList [3]).Valid (deltasTable checks) "--".toList :=
  ⟨kappa_good, ⟨_, [0], by simp [deltasTable], vectorParam_reads (inj := id) (input_text digits_understood checks (VectorText.mk 3 [] ['3'] [] [] _ digits_3 blanks_nil blanks_nil (.close [] blanks_nil)) rfl)⟩, '[', "3]".toList, rfl, by decide⟩

/-- `--deltas [12, 3] --kappa [3]`, in which a space separates two words of the first vector. -/
example (checks : Bool) : ∃ t', update (deltasTable checks) "--".toList ["--deltas".toList, "[12,".toList, "3]".toList, "--kappa".toList, "[3]".toList] = .ok t'
    ∧ valueOf t' "deltas".toList = some (.typed [12, 3]) ∧ valueOf t' "kappa".toList = some (.typed [3]) := by
  obtain ⟨t', h1, h2, h3⟩ := commandLine_vector (w := "12, 3]".toList) digits_understood (checks := checks) (n := 1) (inj := id) (l := [12, 3])
    (VectorText.mk 12 [3] ['1', '2'] [] [] _ digits_12 blanks_nil blanks_nil (.next 3 [] ['3'] [] [' '] _ digits_3 blanks_nil (by simp [Blanks]) (.close [] blanks_nil))) rfl
    (deltasTable checks) (deltas_built checks) deltas_good (v := [0, 0]) (by simp [deltasTable]) (ws := ["[12,".toList, "3]".toList]) (by decide)
    [] [Setting.value "kappa".toList "[3]".toList [3]] (by simpa using kappa_valid checks) (by simp [lastGiven, Setting.gives])
  exact ⟨t', h1, h2, (h3 "kappa".toList (by decide)).trans (by simp [lastGiven, Setting.gives])⟩

/-- `--kappa [3] --deltas 812,3]` is accepted as `[12,3]`. -/
example : ∃ t', update (deltasTable false) "--".toList ["--kappa".toList, "[3]".toList, "--deltas".toList, "812,3]".toList] = .ok t' ∧ valueOf t' "deltas".toList = some (.typed [12, 3]) := by
  obtain ⟨t', h1, h2, -⟩ := commandLine_forgotten digits_understood (inj := id) (c := '8') (by decide) digits_12 (.next 3 [] ['3'] [] [] _ digits_3 blanks_nil blanks_nil (.close [] blanks_nil))
    (deltasTable false) (deltas_built false) deltas_good (v := [0, 0]) (by simp [deltasTable]) [Setting.value "kappa".toList "[3]".toList [3]] [] (by simpa using kappa_valid false) rfl
  exact ⟨t', h1, h2⟩

/-- With the checks the program would stop. -/
example : update (deltasTable true) "--".toList ["--kappa".toList, "[3]".toList, "--deltas".toList, "812,3]".toList] = .abort :=
  commandLine_refused digitsIO 1 id (c := '8') (by decide) (by decide) "12,3]".toList (deltasTable true) (deltas_built true) deltas_good (v := [0, 0]) (by simp [deltasTable])
    [Setting.value "kappa".toList "[3]".toList [3]] (by simpa using kappa_valid true) []

end CppQED.TinyIO
