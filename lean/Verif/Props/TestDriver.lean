import Verif.Lemmas.TestDriver
import Mathlib.Data.List.Sort
import Mathlib.Order.Lattice

/-!
# C157, C158: the configuration of the tests, and the runs
-/

namespace CppQED.TestDriver
open CppQED.Tridiag CppQED.PyText

theorem val_some {cfg : Config} (hw : WellFormed cfg) (s k v : Str) : val cfg s k = some v ↔ Value cfg s k v := by
  unfold val
  by_cases h : ∃ v, Value cfg s k v
  · rw [dif_pos h, Option.some.injEq]
    exact ⟨fun h' => h' ▸ h.choose_spec, fun h' => h.choose_spec.unique hw h'⟩
  · rw [dif_neg h]
    exact ⟨fun h' => by simp at h', fun h' => absurd ⟨v, h'⟩ h⟩

theorem val_none (cfg : Config) (s k : Str) : val cfg s k = none ↔ ∀ v, ¬ Value cfg s k v := by
  unfold val
  by_cases h : ∃ v, Value cfg s k v
  · rw [dif_pos h]
    exact ⟨fun h' => by simp at h', fun h' => absurd h.choose_spec (h' _)⟩
  · rw [dif_neg h]
    exact ⟨fun _ v hv => h ⟨v, hv⟩, fun _ => rfl⟩

/-- **C157.** The value of a key that a test gets is the first definition along the chain of imports in the configuration as it was read, whatever has been asked before. If there is none, it is the default, and the test fails if the key
is required. -/
theorem getOption_value (limit : ℕ) {cfg cp : Config} (hw : WellFormed cfg) (h : Reachable limit cfg cp) (s k : Str) (he : Ends cfg limit s) (hk : lower k ≠ importKey) (d : Option Str) (r : Bool) :
    (∀ v, Value cfg s (lower k) v → ∃ cp', getOption limit cp s k d r = .ok (some v, cp')) ∧
      ((∀ v, ¬ Value cfg s (lower k) v) → (r = false → ∃ cp', getOption limit cp s k d r = .ok (d, cp')) ∧ (r = true → getOption limit cp s k d r = .throw)) := by
  have hs := h.same hw
  obtain ⟨cp', h1, h2, h3⟩ := import_spec limit cp s hs.wf (he.of_same hs hw)
  have hv : ∀ v, Value cfg s (lower k) v ↔ option cp' s k = some v := fun v => by
    rw [hs.value s _ v hk, h2.value s _ v hk, value_no_import h3, option_some h2.wf]
  unfold getOption
  simp only [h1, Outcome.bind]
  refine ⟨fun v hv' => ⟨cp', by rw [(hv v).1 hv']⟩, fun hn => ?_⟩
  have : option cp' s k = none := by
    cases ho : option cp' s k with
    | none => rfl
    | some v => exact absurd ((hv v).2 ho) (hn v)
  rw [this]
  exact ⟨fun hr => ⟨cp', by rw [hr]; rfl⟩, fun hr => by rw [hr]; rfl⟩

/-- The value of a key is unique. -/
theorem value_unique {cfg : Config} (hw : WellFormed cfg) {s k v w : Str} (h : Value cfg s k v) (h' : Value cfg s k w) : v = w := h.unique hw h'

/-- **C157.** If the imports form a cycle, or lead to a section that does not exist, then every query of the section fails, whatever has been asked before. -/
theorem getOption_cycle (limit : ℕ) {cfg cp : Config} (hw : WellFormed cfg) (h : Reachable limit cfg cp) (s k : Str) (he : ∀ n, ¬ Ends cfg n s) (d : Option Str) (r : Bool) (v : Option Str) (cp' : Config) :
    getOption limit cp s k d r ≠ .ok (v, cp') := by
  intro hq
  have hs := h.same hw
  obtain ⟨m, hm⟩ := h.endless hw limit s (ends_of_import limit cp s cp' hs.wf (getOption_ok hq))
  exact he m hm

/-- The form of `getOption_value` for the functions of the driver. -/
theorem getOption_eq {limit : ℕ} {cfg cp : Config} (hw : WellFormed cfg) (h : Reachable limit cfg cp) (s k : Str) (he : Ends cfg limit s) (hk : lower k ≠ importKey) (d : Option Str) (r : Bool) :
    (∃ v cp', val cfg s (lower k) = some v ∧ getOption limit cp s k d r = .ok (some v, cp') ∧ Reachable limit cfg cp' ∧ ∀ t, ¬ Defined cp' s importKey t) ∨
      (val cfg s (lower k) = none ∧ r = false ∧ ∃ cp', getOption limit cp s k d r = .ok (d, cp') ∧ Reachable limit cfg cp' ∧ ∀ t, ¬ Defined cp' s importKey t) ∨
        (val cfg s (lower k) = none ∧ r = true ∧ getOption limit cp s k d r = .throw) := by
  have hs := h.same hw
  obtain ⟨cpi, h1, h2, h3⟩ := import_spec limit cp s hs.wf (he.of_same hs hw)
  obtain ⟨g1, g2⟩ := getOption_value limit hw h s k he hk d r
  have hno : ∀ v cp', getOption limit cp s k d r = .ok (v, cp') → Reachable limit cfg cp' ∧ ∀ t, ¬ Defined cp' s importKey t := by
    intro v cp' hq
    have := getOption_ok hq
    rw [h1] at this
    cases this
    exact ⟨h.query hq, h3⟩
  cases hv : val cfg s (lower k) with
  | some v =>
    obtain ⟨cp', hq⟩ := g1 v ((val_some hw s _ v).1 hv)
    exact Or.inl ⟨v, cp', rfl, hq, hno _ _ hq⟩
  | none =>
    obtain ⟨a, b⟩ := g2 ((val_none cfg s _).1 hv)
    cases r with
    | false =>
      obtain ⟨cp', hq⟩ := a rfl
      exact Or.inr (Or.inl ⟨rfl, rfl, cp', hq, hno _ _ hq⟩)
    | true => exact Or.inr (Or.inr ⟨rfl, rfl, b rfl⟩)

/-- A key with a default. -/
theorem getOption_default {limit : ℕ} {cfg cp : Config} (hw : WellFormed cfg) (h : Reachable limit cfg cp) (s k : Str) (he : Ends cfg limit s) (hk : lower k ≠ importKey) (d : Option Str) :
    ∃ cp', getOption limit cp s k d false = .ok ((val cfg s (lower k)).orElse fun _ => d, cp') ∧ Reachable limit cfg cp' ∧ ∀ t, ¬ Defined cp' s importKey t := by
  rcases getOption_eq hw h s k he hk d false with ⟨v, cp', h1, h2, h3, h4⟩ | ⟨h1, -, cp', h2, h3, h4⟩ | ⟨-, h, -⟩
  · exact ⟨cp', by rw [h1]; exact h2, h3, h4⟩
  · exact ⟨cp', by rw [h1]; exact h2, h3, h4⟩
  · cases h

/-- A required key. -/
theorem getOption_required {limit : ℕ} {cfg cp : Config} (hw : WellFormed cfg) (h : Reachable limit cfg cp) (s k : Str) (he : Ends cfg limit s) (hk : lower k ≠ importKey) (d : Option Str) :
    (∃ v cp', val cfg s (lower k) = some v ∧ getOption limit cp s k d true = .ok (some v, cp') ∧ Reachable limit cfg cp' ∧ ∀ t, ¬ Defined cp' s importKey t) ∨ (val cfg s (lower k) = none ∧ getOption limit cp s k d true = .throw) := by
  rcases getOption_eq hw h s k he hk d true with h | ⟨-, h, -⟩ | ⟨h1, -, h2⟩
  · exact Or.inl h
  · cases h
  · exact Or.inr ⟨h1, h2⟩

/-- **C157.** The run modes of a section. -/
theorem runmodes_eq {o : Setup} {cfg cp : Config} (hw : WellFormed cfg) (h : Reachable o.limit cfg cp) (s : Str) (he : Ends cfg o.limit s) :
    ∃ cp', runmodes o cp s = .ok (modesOf cfg s, cp') ∧ Reachable o.limit cfg cp' ∧ ∀ t, ¬ Defined cp' s importKey t := by
  obtain ⟨cp', h1, h2, h3⟩ := getOption_default hw h s "runmodes".toList he (by decide) (some "generic".toList)
  refine ⟨cp', ?_, h2, h3⟩
  unfold runmodes modesOf commas
  rw [h1]
  simp only [Outcome.bind]
  have hl : lower "runmodes".toList = "runmodes".toList := by decide
  rw [hl]
  cases val cfg s "runmodes".toList <;> rfl

/-! ## Runner -/

theorem leStr_iff (a b : Str) : leStr a b = true ↔ a ≤ b := by
  induction a generalizing b with
  | nil => simp [leStr]
  | cons x s ih =>
    cases b with
    | nil => simp [leStr]
    | cons y t =>
      rw [leStr, List.cons_le_cons_iff, Bool.or_eq_true, Bool.and_eq_true, decide_eq_true_iff, beq_iff_eq, ih]
      rfl

theorem sorted_keys {sec : Section} (hn : (sec.map (·.1)).Nodup) (pref : Str) :
    ((((sec.map (·.1)).filter fun k => pref.isPrefixOf k).mergeSort leStr)).Pairwise (· < ·) ∧
      ∀ k, k ∈ (((sec.map (·.1)).filter fun k => pref.isPrefixOf k).mergeSort leStr) ↔ pref <+: k ∧ ∃ v, (k, v) ∈ sec := by
  set l := (sec.map (·.1)).filter fun k => pref.isPrefixOf k with hl
  have h1 : (l.mergeSort leStr).Pairwise fun a b => leStr a b = true := by
    apply List.pairwise_mergeSort
    · intro a b c hab hbc
      rw [leStr_iff] at *
      exact List.le_trans hab hbc
    · intro a b
      rw [Bool.or_eq_true, leStr_iff, leStr_iff]
      exact List.le_total a b
  have hnd : (l.mergeSort leStr).Nodup := (List.mergeSort_perm l leStr).nodup_iff.2 (hn.filter _)
  refine ⟨?_, fun k => ?_⟩
  · refine (h1.and hnd).imp fun {a b} hab => ?_
    rw [leStr_iff] at hab
    exact Decidable.not_not.1 fun hx => hab.2 (List.le_antisymm hab.1 (List.not_lt.1 hx))
  · rw [List.mem_mergeSort, hl, List.mem_filter, List.isPrefixOf_iff_prefix]
    simp [and_comm]

theorem extendOpts_words {limit : ℕ} {cfg cp : Config} (hw : WellFormed cfg) (h : Reachable limit cfg cp) (s pref : Str) (hs : (cfg s).isSome) (hno : ∀ t, ¬ Defined cp s importKey t) :
    ∃ ws, extendOpts cp s pref = .ok ws ∧ Words cfg s pref ws := by
  have hsame := h.same hw
  have hs' := hsame.some s
  rw [hs] at hs'
  obtain ⟨sec, hsec⟩ := Option.isSome_iff_exists.1 hs'
  have hn := (hsame.wf s sec hsec).1
  have hlow := (hsame.wf s sec hsec).2
  obtain ⟨k1, k2⟩ := sorted_keys hn pref
  set ks := (((sec.map (·.1)).filter fun k => pref.isPrefixOf k).mergeSort leStr) with hks
  have hval : ∀ k v, k ≠ importKey → (Value cfg s k v ↔ (k, v) ∈ sec) := by
    intro k v hk
    rw [hsame.value s k v hk, value_no_import hno]
    unfold Defined
    rw [hsec]
    simp
  have hne : ∀ k v, (k, v) ∈ sec → k ≠ importKey := by
    rintro k v hk rfl
    exact hno v ⟨sec, hsec, hk⟩
  refine ⟨ks.flatMap fun k => split ((option cp s k).getD []), by unfold extendOpts; rw [hsec], ks, ks.map fun k => (option cp s k).getD [], k1, fun k => ?_, ?_, ?_⟩
  · rw [k2]
    constructor
    · rintro ⟨a, v, hv⟩
      exact ⟨hne k v hv, a, v, (hval k v (hne k v hv)).2 hv⟩
    · rintro ⟨a, b, v, hv⟩
      exact ⟨b, v, (hval k v a).1 hv⟩
  · rw [List.forall₂_map_right_iff, List.forall₂_same]
    intro k hk
    obtain ⟨-, v, hv⟩ := (k2 k).1 hk
    have hlk : lower k = k := hlow _ hv
    have : option cp s k = some v := by
      rw [option_some hsame.wf, hlk]
      exact ⟨sec, hsec, hv⟩
    rw [this]
    exact (hval k v (hne k v hv)).2 hv
  · rw [List.flatMap_map]

theorem output_text (o : Setup) (mode : Str) : output o mode o.test false = o.outputdir ++ '/' :: (if mode = "generic".toList then o.test else o.test ++ '_' :: mode) := by
  unfold output baseName join
  simp only [Bool.false_eq_true, if_false, List.append_nil]

theorem output_state (o : Setup) (mode : Str) : output o mode o.test true = (o.outputdir ++ '/' :: (if mode = "generic".toList then o.test else o.test ++ '_' :: mode)) ++ ".state".toList := by
  unfold output baseName join
  rw [if_pos rfl, List.append_assoc, List.cons_append]

theorem commandLine_eq {o : Setup} {cfg cp : Config} (hw : WellFormed cfg) (h : Reachable o.limit cfg cp) (hS : (cfg "Setup".toList).isSome) (hSi : ∀ t, ¬ Defined cfg "Setup".toList importKey t) (hT : (cfg o.test).isSome)
    (hno : ∀ t, ¬ Defined cp o.test importKey t) (mode : Str) (extra : List Str) (interpreter : Option Str) : ∃ cmd, commandLine o cp mode extra interpreter = .ok cmd ∧ Command o cfg extra interpreter mode cmd := by
  obtain ⟨a, a1, a2⟩ := extendOpts_words hw h "Setup".toList "opts".toList hS fun t ht => hSi t ((h.same hw).imports _ _ ht)
  obtain ⟨b, b1, b2⟩ := extendOpts_words hw h o.test "opts".toList hT hno
  obtain ⟨c, c1, c2⟩ := extendOpts_words hw h o.test mode hT hno
  refine ⟨_, ?_, a, b, c, a2, b2, c2, Eq.refl _⟩
  unfold commandLine
  rw [a1, ok_bind, b1, ok_bind, c1, ok_bind, output_text]

theorem runLoop_eq {W : Type} (sys : System W) {o : Setup} {cfg cp : Config} (hw : WellFormed cfg) (h : Reachable o.limit cfg cp) (hS : (cfg "Setup".toList).isSome) (hSi : ∀ t, ¬ Defined cfg "Setup".toList importKey t)
    (hT : (cfg o.test).isSome) (hno : ∀ t, ¬ Defined cp o.test importKey t) (cleaning : Bool) (extra : List Str) (interpreter : Option Str) (modes : List Str) :
    ∃ cmds : List (Str × List Str), cmds.map (·.1) = modes ∧ (∀ c ∈ cmds, Command o cfg extra interpreter c.1 c.2) ∧ ∀ w, runLoop sys o cp cleaning extra interpreter modes w = .ok (exec sys o cleaning cmds w) := by
  induction modes with
  | nil => exact ⟨[], rfl, by simp, fun w => rfl⟩
  | cons m ms ih =>
    obtain ⟨cmds, h1, h2, h3⟩ := ih
    obtain ⟨cmd, c1, c2⟩ := commandLine_eq hw h hS hSi hT hno m extra interpreter
    refine ⟨(m, cmd) :: cmds, by simp [h1], ?_, fun w => ?_⟩
    · intro c hc
      rcases List.mem_cons.1 hc with rfl | hc
      · exact c2
      · exact h2 c hc
    · unfold runLoop exec
      rw [c1, ok_bind]
      simp only [clean, output_text, output_state, h3]
      generalize sys.call cmd _ = r
      by_cases hr : r.1 = 0
      · rw [if_pos hr, if_pos hr]
      · rw [if_neg hr, if_neg hr]

/-- **C158.** The test runs the script in each run mode with the options of the configuration, one after the other until the first that fails, and it succeeds exactly if all of them do. -/
theorem run_eq {W : Type} (sys : System W) (o : Setup) {cfg cp : Config} (hw : WellFormed cfg) (h : Reachable o.limit cfg cp) (hS : (cfg "Setup".toList).isSome) (hSi : ∀ t, ¬ Defined cfg "Setup".toList importKey t)
    (hT : (cfg o.test).isSome) (he : Ends cfg o.limit o.test) (cleaning : Bool) (extra : List Str) (interpreter : Option Str) :
    ∃ cmds : List (Str × List Str), cmds.map (·.1) = modesOf cfg o.test ∧ (∀ c ∈ cmds, Command o cfg extra interpreter c.1 c.2) ∧
      ∃ cp', Reachable o.limit cfg cp' ∧ ∀ w, run sys o cp cleaning extra interpreter w = .ok (exec sys o cleaning cmds w, cp') := by
  obtain ⟨cp', h1, h2, h3⟩ := runmodes_eq hw h o.test he
  obtain ⟨cmds, a, b, c⟩ := runLoop_eq sys hw h2 hS hSi hT h3 cleaning extra interpreter (modesOf cfg o.test)
  refine ⟨cmds, a, b, cp', h2, fun w => ?_⟩
  unfold run
  rw [h1, ok_bind]
  simp only [c, ok_bind]

/-- **C158.** A test that continues trajectories runs the script in all run modes with the options `firstrun`, after deleting the old output, and then, if all of these succeed, in all run modes with the options `secondrun`, without
deleting anything. -/
theorem continuedRun_eq {W : Type} (sys : System W) (o : Setup) {cfg cp : Config} (hw : WellFormed cfg) (h : Reachable o.limit cfg cp) (hS : (cfg "Setup".toList).isSome) (hSi : ∀ t, ¬ Defined cfg "Setup".toList importKey t)
    (hT : (cfg o.test).isSome) (he : Ends cfg o.limit o.test) (interpreter : Option Str) :
    ∃ first second : List (Str × List Str), first.map (·.1) = modesOf cfg o.test ∧ second.map (·.1) = modesOf cfg o.test ∧
      (∀ c ∈ first, Command o cfg (split ((val cfg o.test "firstrun".toList).getD [])) interpreter c.1 c.2) ∧ (∀ c ∈ second, Command o cfg (split ((val cfg o.test "secondrun".toList).getD [])) interpreter c.1 c.2) ∧
        ∀ w, ∃ cp', continuedRun sys o cp interpreter w = .ok (match exec sys o true first w with
          | .inl e => .inl e
          | .inr w => exec sys o false second w, cp') := by
  have hl1 : lower "firstrun".toList = "firstrun".toList := by decide
  have hl2 : lower "secondrun".toList = "secondrun".toList := by decide
  have hget : ∀ x : Option Str, (x.orElse fun _ => some []).getD [] = x.getD [] := by intro x; cases x <;> rfl
  obtain ⟨cp1, h1, h2, -⟩ := getOption_default hw h o.test "firstrun".toList he (by decide) (some [])
  obtain ⟨c1, a1, a2, cp2, a3, a4⟩ := run_eq sys o hw h2 hS hSi hT he true (split ((val cfg o.test "firstrun".toList).getD [])) interpreter
  obtain ⟨cp3, h5, h6, -⟩ := getOption_default hw a3 o.test "secondrun".toList he (by decide) (some [])
  obtain ⟨c2, b1, b2, cp4, b3, b4⟩ := run_eq sys o hw h6 hS hSi hT he false (split ((val cfg o.test "secondrun".toList).getD [])) interpreter
  refine ⟨c1, c2, a1, b1, a2, b2, fun w => ?_⟩
  unfold continuedRun
  rw [h1, ok_bind]
  simp only [hl1, hget, a4, ok_bind]
  cases exec sys o true c1 w with
  | inl e => exact ⟨cp2, rfl⟩
  | inr w' =>
    refine ⟨cp4, ?_⟩
    simp only [h5, ok_bind, hl2, hget, b4]

/-! ## The hypotheses are met -/

/-- A configuration in the style of `/repo/Testing/physics/testdriver.conf`. -/
def sample : Config := fun s =>
  if s = "Setup".toList then some [("opts_physics".toList, "--dc 0 --T 2".toList)]
  else if s = "evolved".toList then some [("runmodes".toList, "generic".toList), ("opts".toList, "--gamma 1.2".toList), ("postprocess_local".toList, "PTLA_postprocess".toList)]
  else if s = "atom".toList then some [("import".toList, "evolved".toList), ("runmodes".toList, "master,ensemble".toList)]
  else if s = "atomsch".toList then some [("import".toList, "atom".toList), ("opts_plq".toList, "--picture Sch".toList)]
  else if s = "a".toList then some [("import".toList, "b".toList)]
  else if s = "b".toList then some [("import".toList, "a".toList)]
  else none

theorem sample_wellFormed : WellFormed sample := by
  intro s sec h
  unfold sample at h
  split at h
  · cases h; decide
  split at h
  · cases h; decide
  split at h
  · cases h; decide
  split at h
  · cases h; decide
  split at h
  · cases h; decide
  split at h
  · cases h; decide
  · cases h

theorem sample_defined {s k v : Str} {sec : Section} (h : sample s = some sec) : Defined sample s k v ↔ (k, v) ∈ sec := by
  unfold Defined; rw [h]; simp

theorem sample_ends : Ends sample 3 "atomsch".toList :=
  .step (t := "atom".toList) ((sample_defined (sec := [("import".toList, "atom".toList), ("opts_plq".toList, "--picture Sch".toList)]) (by decide)).2 (by decide)) (by decide)
    (.step (t := "evolved".toList) ((sample_defined (sec := [("import".toList, "evolved".toList), ("runmodes".toList, "master,ensemble".toList)]) (by decide)).2 (by decide)) (by decide)
      (.last fun t ht => by
        rw [sample_defined (sec := [("runmodes".toList, "generic".toList), ("opts".toList, "--gamma 1.2".toList), ("postprocess_local".toList, "PTLA_postprocess".toList)]) (by decide)] at ht
        simp [importKey] at ht))

/-- The options of a section that imports a section that imports another one. -/
example : ∃ cp, getOption 3 sample "atomsch".toList "opts".toList none false = .ok (some "--gamma 1.2".toList, cp) := by
  refine (getOption_value 3 sample_wellFormed .init _ _ sample_ends (by decide) none false).1 _ ?_
  rw [show lower "opts".toList = "opts".toList by decide]
  refine .imported (t := "atom".toList) (fun w hw => ?_) (by decide) ((sample_defined (sec := [("import".toList, "atom".toList), ("opts_plq".toList, "--picture Sch".toList)]) (by decide)).2 (by decide))
    (.imported (t := "evolved".toList) (fun w hw => ?_) (by decide) ((sample_defined (sec := [("import".toList, "evolved".toList), ("runmodes".toList, "master,ensemble".toList)]) (by decide)).2 (by decide))
      (.own ((sample_defined (sec := [("runmodes".toList, "generic".toList), ("opts".toList, "--gamma 1.2".toList), ("postprocess_local".toList, "PTLA_postprocess".toList)]) (by decide)).2 (by decide))))
  · rw [sample_defined (sec := [("import".toList, "atom".toList), ("opts_plq".toList, "--picture Sch".toList)]) (by decide)] at hw
    simp at hw
  · rw [sample_defined (sec := [("import".toList, "evolved".toList), ("runmodes".toList, "master,ensemble".toList)]) (by decide)] at hw
    simp at hw

/-- Two sections that import each other. -/
theorem sample_cycle (n : ℕ) : ¬ Ends sample n "a".toList ∧ ¬ Ends sample n "b".toList := by
  have ha : Defined sample "a".toList importKey "b".toList := (sample_defined (sec := [("import".toList, "b".toList)]) (by decide)).2 (by decide)
  have hb : Defined sample "b".toList importKey "a".toList := (sample_defined (sec := [("import".toList, "a".toList)]) (by decide)).2 (by decide)
  induction n with
  | zero => exact ⟨fun h => (by cases h), fun h => (by cases h)⟩
  | succ n ih =>
    constructor
    · intro h
      cases h with
      | last h => exact h _ ha
      | step h _ he => rw [h.unique sample_wellFormed ha] at he; exact ih.2 he
    · intro h
      cases h with
      | last h => exact h _ hb
      | step h _ he => rw [h.unique sample_wellFormed hb] at he; exact ih.1 he

example (v : Option Str) (cp : Config) : getOption 1000 sample "a".toList "opts".toList none false ≠ .ok (v, cp) :=
  getOption_cycle 1000 sample_wellFormed .init _ _ (fun n => (sample_cycle n).1) none false v cp

/-- The test `atomsch` is run in two modes. -/
example {W : Type} (sys : System W) (o : Setup) (ho : o.test = "atomsch".toList) (hl : o.limit = 3) : ∃ cmds : List (Str × List Str), cmds.map (·.1) = modesOf sample o.test ∧
    (∀ c ∈ cmds, Command o sample [] none c.1 c.2) ∧ ∃ cp', Reachable o.limit sample cp' ∧ ∀ w, run sys o sample true [] none w = .ok (exec sys o true cmds w, cp') := by
  refine run_eq sys o sample_wellFormed .init (by decide) (fun t ht => ?_) (by rw [ho]; decide) (by rw [ho, hl]; exact sample_ends) true [] none
  rw [sample_defined (sec := [("opts_physics".toList, "--dc 0 --T 2".toList)]) (by decide)] at ht
  simp [importKey] at ht

end CppQED.TestDriver
