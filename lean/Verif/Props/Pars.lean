import Verif.Lemmas.Pars

/-!
# Command-line parameters: C47
-/

namespace CppQED.Pars
open CppQED.Spec

variable {V : Type}

theorem lineOf_head (ws : List Str) : lineOf ws = [] ∨ ∃ r, lineOf ws = ' ' :: r := by
  cases ws with
  | nil => exact Or.inl rfl
  | cons w ws => exact Or.inr ⟨w ++ lineOf ws, by simp [lineOf]⟩

theorem lineOf_append (a b : List Str) : lineOf (a ++ b) = lineOf a ++ lineOf b := by simp [lineOf]

theorem valid_setVal {t : Table V} (h : Inv t) {pre : Str} {s : Setting V} (hs : s.Valid t pre) (x : Str) (w : Val V) : s.Valid (setVal t x w) pre := by
  have key : ∀ y b, valueOf t y = some (.bool b) → ∃ b, valueOf (setVal t x w) y = some (.bool b) := by
    intro y b hb
    obtain ⟨i, k, hi, hk⟩ := get_of_value hb
    obtain ⟨b', rfl⟩ : ∃ b', k = .bool b' := by
      rcases hk with ⟨_, _, _, e⟩ | ⟨b', e, _⟩
      · cases e
      · exact ⟨b', e⟩
    by_cases hy : y = x
    · obtain ⟨b'', hb''⟩ := (put_bool (.bool b') w).2 ⟨b', rfl⟩
      refine ⟨b'', ?_⟩
      have hg : (setVal t x w)[i]? = some (y, .bool b'') := by rw [setVal_get, hi]; simp [hy, hb'']
      rw [valueOf_get (h.setVal x w).nodup hg]
    · exact ⟨b, by rw [valueOf_set_ne _ _ _ hy]; exact hb⟩
  cases s with
  | on y => exact ⟨hs.1, let ⟨b, hb⟩ := hs.2; key y b hb⟩
  | off y => exact ⟨hs.1, let ⟨b, hb⟩ := hs.2; key y b hb⟩
  | value y v' v =>
    obtain ⟨h1, ⟨rd, v₀, hm, hr⟩, h3⟩ := hs
    refine ⟨h1, ?_, h3⟩
    obtain ⟨i, hi⟩ := List.getElem?_of_mem hm
    by_cases hy : y = x
    · have hg : (setVal t x w)[i]? = some (y, put (.typed rd v₀) w) := by rw [setVal_get, hi]; simp [hy]
      cases w with
      | typed v' => exact ⟨rd, v', List.mem_of_getElem? hg, hr⟩
      | bool b => exact ⟨rd, v₀, List.mem_of_getElem? hg, hr⟩
    · exact ⟨rd, v₀, List.mem_of_getElem? (i := i) (by rw [setVal_get, hi]; simp [hy]), hr⟩

/-- The table after the items. -/
def setAll (t : Table V) (ss : List (Setting V)) : Table V := ss.foldl (fun t s => setVal t s.name s.val) t

theorem setAll_inv {t : Table V} (h : Inv t) (ss : List (Setting V)) : Inv (setAll t ss) := by
  induction ss generalizing t with
  | nil => exact h
  | cons s ss ih => exact ih (h.setVal _ _)

theorem loop_settings (pre : Str) (ss : List (Setting V)) {t : Table V} (h : Inv t) (hs : ∀ s ∈ ss, s.Valid t pre) (more : List Str) :
    loop pre t (lineOf (ss.flatMap (Setting.words pre) ++ more)) = loop pre (setAll t ss) (lineOf more) := by
  induction ss generalizing t with
  | nil => rfl
  | cons s ss ih =>
    rw [List.flatMap_cons, List.append_assoc, lineOf_append, loop_setting pre h s (hs s (List.mem_cons_self ..)) (lineOf_head _),
      ih (h.setVal _ _) fun s' hs' => valid_setVal h (hs s' (List.mem_cons_of_mem _ hs')) _ _]
    rfl

theorem loop_nil (pre : Str) (t : Table V) : loop pre t [] = .ok t := by rw [loop]; simp

theorem gives_eq (s : Setting V) (x : Str) : s.gives x = if s.name = x then some s.val else none := by
  cases s <;> rfl

theorem valueOf_set_self {t : Table V} (h : Inv t) {pre : Str} {s : Setting V} (hs : s.Valid t pre) : valueOf (setVal t s.name s.val) s.name = some s.val := by
  have key : ∀ (y : Str) (b c : Bool), valueOf t y = some (.bool b) → valueOf (setVal t y (.bool c)) y = some (.bool c) := by
    intro y b c hb
    obtain ⟨i, k, hi, hk⟩ := get_of_value hb
    obtain ⟨b', rfl⟩ : ∃ b', k = .bool b' := by
      rcases hk with ⟨_, _, _, e⟩ | ⟨b', e, _⟩
      · cases e
      · exact ⟨b', e⟩
    have hg : (setVal t y (.bool c))[i]? = some (y, Kind.bool c) := by rw [setVal_get, hi]; simp [put]
    rw [valueOf_get (h.setVal _ _).nodup hg]
  cases s with
  | on y => obtain ⟨-, b, hb⟩ := hs; exact key y b true hb
  | off y => obtain ⟨-, b, hb⟩ := hs; exact key y b false hb
  | value y v' v =>
    obtain ⟨-, ⟨rd, v₀, hm, -⟩, -⟩ := hs
    obtain ⟨i, hi⟩ := List.getElem?_of_mem hm
    have hg : (setVal t y (.typed v))[i]? = some (y, Kind.typed rd v) := by rw [setVal_get, hi]; simp [put]
    exact valueOf_get (h.setVal _ _).nodup hg

theorem setAll_value (pre : Str) (ss : List (Setting V)) {t : Table V} (h : Inv t) (hs : ∀ s ∈ ss, s.Valid t pre) (x : Str) : valueOf (setAll t ss) x = (lastGiven ss x).or (valueOf t x) := by
  induction ss generalizing t with
  | nil => rfl
  | cons s ss ih =>
    have e := ih (h.setVal s.name s.val) fun s' hs' => valid_setVal h (hs s' (List.mem_cons_of_mem _ hs')) _ _
    have e' : setAll t (s :: ss) = setAll (setVal t s.name s.val) ss := rfl
    rw [e', e]
    unfold lastGiven
    rw [List.reverse_cons, List.findSome?_append, List.findSome?_singleton, gives_eq, Option.or_assoc]
    congr 1
    by_cases hx : s.name = x
    · rw [if_pos hx, ← hx, valueOf_set_self h (hs s (List.mem_cons_self ..))]; rfl
    · rw [if_neg hx, valueOf_set_ne _ _ _ (Ne.symm hx)]; rfl

/-- **C47.** A correct command line: a list of switches, negated switches and values. Every parameter gets the last value given to it, those not mentioned keep the default. -/
theorem update_sets (t : Table V) (ht : Built t) (pre : Str) (ss : List (Setting V)) (hs : ∀ s ∈ ss, s.Valid t pre) :
    ∃ t', update t pre (ss.flatMap (Setting.words pre)) = .ok t' ∧ ∀ x, valueOf t' x = (lastGiven ss x).or (valueOf t x) := by
  have := loop_settings pre ss (inv_of_built ht) hs []
  rw [List.append_nil] at this
  exact ⟨_, by unfold update; rw [this, show lineOf [] = [] from rfl, loop_nil], setAll_value pre ss (inv_of_built ht) hs⟩

theorem setAll_names (t : Table V) (ss : List (Setting V)) : (setAll t ss).map Prod.fst = t.map Prod.fst := by
  induction ss generalizing t with
  | nil => rfl
  | cons s ss ih => rw [show setAll t (s :: ss) = setAll (setVal t s.name s.val) ss from rfl, ih, setVal_names]

/-- **C47.** After any correct items, an unknown name stops the program, whatever follows. -/
theorem update_unknown (t : Table V) (ht : Built t) (pre : Str) (ss : List (Setting V)) (hs : ∀ s ∈ ss, s.Valid t pre) (x : Str) (hx : GoodName pre x) (hn : x ∉ t.map Prod.fst) (more : List Str) :
    update t pre (ss.flatMap (Setting.words pre) ++ (pre ++ x) :: more) = .abort := by
  unfold update
  rw [loop_settings pre ss (inv_of_built ht) hs, show lineOf ((pre ++ x) :: more) = ' ' :: (pre ++ x) ++ lineOf more by simp [lineOf], loop_word pre _ hx (lineOf_head _),
    findSubscript_none.2 (by rw [setAll_names]; exact hn)]

theorem setAll_get (t : Table V) (ss : List (Setting V)) {i : ℕ} {x : Str} (hi : t[i]? = some (x, Kind.title)) : (setAll t ss)[i]? = some (x, Kind.title) := by
  induction ss generalizing t with
  | nil => exact hi
  | cons s ss ih => exact ih _ (by rw [setVal_get, hi]; simp [put])

theorem setAll_get_typed (t : Table V) (ss : List (Setting V)) {i : ℕ} {x : Str} {rd : Str → Option (V × ℕ)} {v : V} (hi : t[i]? = some (x, Kind.typed rd v)) : ∃ v, (setAll t ss)[i]? = some (x, Kind.typed rd v) := by
  induction ss generalizing t v with
  | nil => exact ⟨v, hi⟩
  | cons s ss ih =>
    have : ∃ v', (setVal t s.name s.val)[i]? = some (x, Kind.typed rd v') := by
      rw [setVal_get, hi]
      simp only [Option.map_some]
      split_ifs
      · cases s.val with
        | typed v' => exact ⟨v', rfl⟩
        | bool b => exact ⟨v, rfl⟩
      · exact ⟨v, rfl⟩
    obtain ⟨v', hv'⟩ := this
    exact ih _ hv'

/-- **C47.** A title is not a parameter. -/
theorem update_title (t : Table V) (ht : Built t) (pre : Str) (ss : List (Setting V)) (hs : ∀ s ∈ ss, s.Valid t pre) (x : Str) (hx : GoodName pre x) (hn : (x, Kind.title) ∈ t) (more : List Str) :
    update t pre (ss.flatMap (Setting.words pre) ++ (pre ++ x) :: more) = .abort := by
  obtain ⟨i, hi⟩ := List.getElem?_of_mem hn
  have hi' := setAll_get t ss hi
  unfold update
  rw [loop_settings pre ss (inv_of_built ht) hs, show lineOf ((pre ++ x) :: more) = ' ' :: (pre ++ x) ++ lineOf more by simp [lineOf], loop_word pre _ hx (lineOf_head _),
    sub_of_get (setAll_inv (inv_of_built ht) ss) hi']
  simp [read, hi']

/-- **C47.** So does a word without the prefix. -/
theorem update_noPrefix (t : Table V) (ht : Built t) (pre : Str) (ss : List (Setting V)) (hs : ∀ s ∈ ss, s.Valid t pre) (w : Str) (hw : w ≠ []) (hw' : ∀ c ∈ w, isSpace c = false) (hp : ¬ pre <+: w) (more : List Str) :
    update t pre (ss.flatMap (Setting.words pre) ++ w :: more) = .abort := by
  unfold update
  rw [loop_settings pre ss (inv_of_built ht) hs, show lineOf (w :: more) = ' ' :: w ++ lineOf more by simp [lineOf]]
  obtain ⟨c, w', e⟩ := List.exists_cons_of_ne_nil hw
  have e1 := dropWhile_space (rest := lineOf more) e (hw' c (by rw [e]; exact List.mem_cons_self ..))
  obtain ⟨e2, e3⟩ := takeWhile_word (rest := lineOf more) hw' (lineOf_head _)
  rw [loop]
  simp only [e1, e2]
  rw [dif_neg (by simp [hw]), if_pos]
  intro h
  exact hp (List.prefix_iff_eq_take.2 h.symm)

/-- **C47.** And a text which cannot be read as value of the parameter; a missing value at the end included. -/
theorem update_badValue (t : Table V) (ht : Built t) (pre : Str) (ss : List (Setting V)) (hs : ∀ s ∈ ss, s.Valid t pre) (x : Str) (hx : GoodName pre x) (rd : Str → Option (V × ℕ)) (v : V)
    (hm : (x, Kind.typed rd v) ∈ t) (more : List Str) (hbad : (lineOf more).dropWhile isSpace = [] ∨ rd ((lineOf more).dropWhile isSpace) = none) :
    update t pre (ss.flatMap (Setting.words pre) ++ (pre ++ x) :: more) = .abort := by
  obtain ⟨i, hi⟩ := List.getElem?_of_mem hm
  obtain ⟨v', hi'⟩ := setAll_get_typed t ss hi
  unfold update
  rw [loop_settings pre ss (inv_of_built ht) hs, show lineOf ((pre ++ x) :: more) = ' ' :: (pre ++ x) ++ lineOf more by simp [lineOf], loop_word pre _ hx (lineOf_head _),
    sub_of_get (setAll_inv (inv_of_built ht) ss) hi']
  simp only [read, hi']
  rcases hbad with h | h
  · rw [if_pos h]
  · rw [h]; split_ifs <;> rfl

/-- **C47.** Help and version: `--help` and `--version` with the prefix `--`. -/
theorem update_help (t : Table V) (ht : Built t) (pre : Str) (hp : ∀ c ∈ pre, isSpace c = false) (ss : List (Setting V)) (hs : ∀ s ∈ ss, s.Valid t pre) (w : Str)
    (hw : w = ['h', 'e', 'l', 'p'] ∨ w = ['v', 'e', 'r', 's', 'i', 'o', 'n']) (more : List Str) : update t pre (ss.flatMap (Setting.words pre) ++ (pre ++ w) :: more) = .exit := by
  have hne : w ≠ [] := by rcases hw with rfl | rfl <;> simp
  unfold update
  rw [loop_settings pre ss (inv_of_built ht) hs, show lineOf ((pre ++ w) :: more) = ' ' :: (pre ++ w) ++ lineOf more by simp [lineOf]]
  have hw' : ∀ c ∈ pre ++ w, isSpace c = false := by
    intro c hc
    rcases List.mem_append.1 hc with h | h
    · exact hp c h
    · rcases hw with rfl | rfl <;> simp only [List.mem_cons, List.not_mem_nil, or_false] at h
      · rcases h with rfl | rfl | rfl | rfl <;> decide
      · rcases h with rfl | rfl | rfl | rfl | rfl | rfl | rfl <;> decide
  obtain ⟨c, w', e⟩ := List.exists_cons_of_ne_nil (show pre ++ w ≠ [] by simp [hne])
  have e1 := dropWhile_space (rest := lineOf more) e (hw' c (by rw [e]; exact List.mem_cons_self ..))
  obtain ⟨e2, e3⟩ := takeWhile_word (rest := lineOf more) hw' (lineOf_head _)
  rw [loop]
  simp only [e1, e2]
  rw [dif_neg (by simp [hne]), if_neg (by simp), List.drop_left]
  rcases hw with rfl | rfl
  · rw [if_pos (show ['h', 'e', 'l', 'p'] = helpWord from rfl)]
  · rw [if_neg (by decide), if_pos (show ['v', 'e', 'r', 's', 'i', 'o', 'n'] = versionWord from rfl)]

example : update ([] : Table ℕ) "--".toList ["--version".toList, "rest".toList] = .exit := update_help [] .nil "--".toList (by decide) [] (by simp) ['v', 'e', 'r', 's', 'i', 'o', 'n'] (Or.inr rfl) ["rest".toList]

/-! ## Any command line -/

theorem read_frame {t t' : Table V} (h : Inv t) {i : ℕ} {n : Str} {k : Kind V} (hi : t[i]? = some (n, k)) {line line' : Str} (hr : read t i line = .ok t' line') (x : Str) (h1 : n ≠ x) (h2 : n ≠ noPrefix ++ x) :
    valueOf t' x = valueOf t x ∧ Inv t' ∧ line' <:+ line := by
  cases k with
  | typed rd v =>
    simp only [read, hi] at hr
    split_ifs at hr
    split at hr
    · simp at hr
    · rename_i v' m _
      simp only [ReadRes.ok.injEq] at hr
      obtain ⟨rfl, rfl⟩ := hr
      have e : t.set i (n, Kind.typed rd v') = setVal t n (.typed v') := by rw [setVal_eq h.nodup hi]; rfl
      rw [e]
      exact ⟨valueOf_set_ne _ _ _ (Ne.symm h1), h.setVal _ _, (List.drop_suffix _ _).trans (List.dropWhile_suffix _)⟩
  | bool b =>
    simp only [read, hi, ReadRes.ok.injEq] at hr
    obtain ⟨rfl, rfl⟩ := hr
    have e : t.set i (n, Kind.bool true) = setVal t n (.bool true) := by rw [setVal_eq h.nodup hi]; rfl
    rw [e]
    exact ⟨valueOf_set_ne _ _ _ (Ne.symm h1), h.setVal _ _, List.suffix_refl _⟩
  | negated p =>
    simp only [read, hi, ReadRes.ok.injEq] at hr
    obtain ⟨rfl, rfl⟩ := hr
    obtain ⟨m, b, hm, e⟩ := h.neg i n p hi
    rw [modify_eq h.nodup hm]
    refine ⟨valueOf_set_ne _ _ _ ?_, h.setVal _ _, List.suffix_refl _⟩
    rintro rfl
    exact h2 e
  | title => simp [read, hi] at hr

/-- **C47.** Whatever the command line and the types of the parameters: a parameter whose name does not occur in the line (neither the negated name) keeps its value. -/
theorem update_frame (t : Table V) (ht : Built t) (pre : Str) (argv : List Str) (t' : Table V) (h : update t pre argv = .ok t') (x : Str) (h1 : ¬ (pre ++ x) <:+: lineOf argv)
    (h2 : ¬ (pre ++ noPrefix ++ x) <:+: lineOf argv) : valueOf t' x = valueOf t x := by
  unfold update at h
  generalize lineOf argv = line at h h1 h2
  have hi := inv_of_built ht
  clear ht
  induction hl : line.length using Nat.strong_induction_on generalizing t line with
  | _ n ih =>
    rw [loop] at h
    dsimp only at h
    split_ifs at h with e1 e2 e3 e4
    · simp only [Res.ok.injEq] at h; rw [h]
    · split at h
      · simp at h
      · rename_i i hsub
        split at h
        · simp at h
        · simp at h
        · rename_i t1 line' hr
          set s := line.dropWhile isSpace with hs
          set temp := s.takeWhile fun c => !isSpace c with htemp
          have hin : temp <:+: line := (List.takeWhile_prefix _).isInfix.trans (List.dropWhile_suffix _).isInfix
          have htemp' : pre ++ temp.drop pre.length = temp := by
            have : temp.take pre.length = pre := by simpa using e2
            conv_rhs => rw [← List.take_append_drop pre.length temp, this]
          obtain ⟨hlt, hx, -⟩ := List.findIdx?_eq_some_iff_getElem.1 hsub
          have hn : t[i].1 = temp.drop pre.length := by simpa using hx
          have hget : t[i]? = some (t[i].1, t[i].2) := by rw [List.getElem?_eq_getElem hlt]
          obtain ⟨a, b, c⟩ := read_frame hi hget hr x (fun e => h1 (by rw [← e, hn, htemp']; exact hin)) (fun e => h2 (by rw [List.append_assoc, ← e, hn, htemp']; exact hin))
          have c' : line' <:+ line := c.trans ((List.dropWhile_suffix _).trans (List.dropWhile_suffix _))
          rw [ih line'.length (hl ▸ Nat.lt_of_le_of_lt (read_length hr) (word_length e1)) t1 line' h (fun e => h1 (e.trans c'.isInfix)) (fun e => h2 (e.trans c'.isInfix)) b rfl, a]

/-! ## Registration -/

/-- **C47.** A name cannot be registered twice. -/
theorem add_twice (t : Table V) (s : Str) (rd : Str → Option (V × ℕ)) (v : V) : add t s rd v = none ↔ s ∈ t.map Prod.fst := addKind_none

/-- **C47.** A registered parameter has its default value, and the others are not touched. -/
theorem add_default (t t' : Table V) (s : Str) (rd : Str → Option (V × ℕ)) (v : V) (h : add t s rd v = some t') : valueOf t' s = some (.typed v) ∧ ∀ x, x ≠ s → valueOf t' x = valueOf t x := by
  obtain ⟨h1, rfl⟩ := addKind_eq.1 h
  constructor
  · unfold valueOf
    rw [List.find?_append, List.find?_eq_none.2 (fun b hb => by simp only [decide_eq_true_eq]; rintro rfl; exact h1 (List.mem_map_of_mem hb))]
    simp
  · intro x hx
    unfold valueOf
    rw [List.find?_append]
    simp [Ne.symm hx]

/-- **C47.** A switch needs its name and its negated name, it throws exactly if one of them is taken. -/
theorem addBool_throws (t : Table V) (s : Str) (v : Bool) : (addBool t s v).2 = true ↔ s ∈ t.map Prod.fst ∨ noPrefix ++ s ∈ t.map Prod.fst := by
  have hne : noPrefix ++ s ≠ s := fun e => by have := congrArg List.length e; simp only [noPrefix, List.length_append, List.length_cons, List.length_nil] at this; omega
  unfold addBool
  split
  · rename_i e; simp [addKind_none.1 e]
  · rename_i t1 e
    obtain ⟨h1, rfl⟩ := addKind_eq.1 e
    split
    · rename_i e'
      have := addKind_none.1 e'
      rw [List.map_append, List.mem_append] at this
      rcases this with h | h
      · simp only [true_iff]; exact Or.inr h
      · simp only [List.map_cons, List.map_nil, List.mem_singleton] at h; exact absurd h hne
    · rename_i t2 e'
      obtain ⟨h2, -⟩ := addKind_eq.1 e'
      simp only [Bool.false_eq_true, false_iff, not_or]
      exact ⟨h1, fun h => h2 (by rw [List.map_append]; exact List.mem_append_left _ h)⟩

/-- **C47.** A registered switch has its default value, and the others are not touched. -/
theorem addBool_default (t t' : Table V) (s : Str) (v : Bool) (h : addBool t s v = (t', false)) : valueOf t' s = some (.bool v) ∧ ∀ x, x ≠ s → valueOf t' x = valueOf t x := by
  unfold addBool at h
  split at h
  · simp at h
  · rename_i t1 e
    obtain ⟨h1, rfl⟩ := addKind_eq.1 e
    split at h
    · simp at h
    · rename_i t2 e'
      obtain ⟨h2, rfl⟩ := addKind_eq.1 e'
      simp only [Prod.mk.injEq, and_true] at h
      subst h
      constructor
      · unfold valueOf
        rw [List.append_assoc, List.find?_append, List.find?_eq_none.2 (fun b hb => by simp only [decide_eq_true_eq]; rintro rfl; exact h1 (List.mem_map_of_mem hb))]
        simp
      · intro x hx
        unfold valueOf
        rw [List.append_assoc, List.find?_append]
        cases t.find? fun b => decide (b.1 = x) with
        | some b => rfl
        | none =>
          by_cases hn : noPrefix ++ s = x
          · simp [Ne.symm hx, hn]
          · simp [Ne.symm hx, hn]

/-! ## An example -/

/-- One digit. -/
def digit : Str → Option (ℕ × ℕ)
  | c :: _ => if c.isDigit then some (c.toNat - 48, 1) else none
  | [] => none

example : ∃ t t' : Table ℕ, Built t ∧ valueOf t ['T'] = some (.typed 7) ∧
    update t "--".toList ["--T".toList, "5".toList, "--log".toList, "--T".toList, "3".toList, "--no_log".toList] = .ok t' ∧ valueOf t' ['T'] = some (.typed 3) ∧ valueOf t' "log".toList = some (.bool false) ∧
    valueOf t' ['N'] = some (.typed 2) := by
  let t0 : Table ℕ := [(['T'], .typed digit 7)]
  let t1 : Table ℕ := t0 ++ [("log".toList, .bool false), ("no_log".toList, .negated 1)]
  let t2 : Table ℕ := t1 ++ [(['N'], .typed digit 2)]
  have hb : Built t2 := ((Built.nil.add ['T'] digit 7 rfl : Built t0).addBool "log".toList false (t' := t1) rfl).add ['N'] digit 2 rfl
  have hr : ∀ c : Char, c.isDigit → Reads digit [c] (c.toNat - 48) := fun c hc rest _ => by simp [digit, hc]
  have hg : ∀ x : Str, (∀ c ∈ "--".toList ++ x, isSpace c = false) → x ≠ [] → x ≠ ['h', 'e', 'l', 'p'] → x ≠ ['v', 'e', 'r', 's', 'i', 'o', 'n'] → GoodName "--".toList x := fun x a b c d => ⟨a, b, c, d⟩
  obtain ⟨t', h1, h2⟩ := update_sets t2 hb "--".toList [.value ['T'] ['5'] 5, .on "log".toList, .value ['T'] ['3'] 3, .off "log".toList] (by
    intro s hs
    simp only [List.mem_cons, List.not_mem_nil, or_false] at hs
    rcases hs with rfl | rfl | rfl | rfl
    · exact ⟨hg _ (by decide) (by decide) (by decide) (by decide), ⟨digit, 7, by simp [t2, t1, t0], hr '5' (by decide)⟩, '5', [], rfl, by decide⟩
    · exact ⟨hg _ (by decide) (by decide) (by decide) (by decide), false, rfl⟩
    · exact ⟨hg _ (by decide) (by decide) (by decide) (by decide), ⟨digit, 7, by simp [t2, t1, t0], hr '3' (by decide)⟩, '3', [], rfl, by decide⟩
    · exact ⟨hg _ (by decide) (by decide) (by decide) (by decide), false, rfl⟩)
  exact ⟨t2, t', hb, rfl, h1, h2 _, h2 _, h2 _⟩

/-- **C47.** The characters separating words on the command line are the six of `isspace` in the C locale, and no others. -/
theorem isSpace_iff (c : Char) : isSpace c = true ↔ c = ' ' ∨ 9 ≤ c.toNat ∧ c.toNat ≤ 13 := by
  have key : ∀ a : Char, c = a ↔ c.toNat = a.toNat := fun a => ⟨fun h => h ▸ rfl, fun h => Char.ext (UInt32.toNat_inj.1 h)⟩
  simp only [isSpace, Bool.or_eq_true, decide_eq_true_eq]
  rw [key '\t', key '\n', key '\x0b', key '\x0c', key '\r']
  have h1 : '\t'.toNat = 9 := rfl
  have h2 : '\n'.toNat = 10 := rfl
  have h3 : '\x0b'.toNat = 11 := rfl
  have h4 : '\x0c'.toNat = 12 := rfl
  have h5 : '\r'.toNat = 13 := rfl
  rw [h1, h2, h3, h4, h5]
  by_cases h : c = ' '
  · simp [h]
  · simp only [h, false_or]; omega

example : isSpace '\t' = true ∧ isSpace 'a' = false := by decide

end CppQED.Pars
