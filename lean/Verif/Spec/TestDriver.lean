import Verif.Model.TestDriver

/-!
# What the keys of the configuration of the tests mean

Vocabulary for C157 to C161: the value of a key of a section is the first definition along the chain of imports.
-/

namespace CppQED.TestDriver
open CppQED.PyText

/-- The key that names the section to import. -/
def importKey : Str := "import".toList

/-- The section `s` itself defines the key `k` with value `v`. -/
def Defined (cfg : Config) (s k v : Str) : Prop := ∃ sec, cfg s = some sec ∧ (k, v) ∈ sec

/-- What `configparser` guarantees: no key twice in a section, names of keys in lower case. -/
def WellFormed (cfg : Config) : Prop := ∀ s sec, cfg s = some sec → (sec.map (·.1)).Nodup ∧ ∀ e ∈ sec, lower e.1 = e.1

/-- The value of a key of a section: that of the section itself if there is one, otherwise that of the imported section, unless the name of the key ends in `_local`. -/
inductive Value (cfg : Config) : Str → Str → Str → Prop
  | own {s k v : Str} (h : Defined cfg s k v) : Value cfg s k v
  | imported {s t k v : Str} (h : ∀ w, ¬ Defined cfg s k w) (hl : ¬ "_local".toList <:+ k) (hi : Defined cfg s importKey t) (ht : Value cfg t k v) : Value cfg s k v

/-- The chain of imports starting at a section ends before `n` imports, and all the sections imported exist. -/
inductive Ends (cfg : Config) : ℕ → Str → Prop
  | last {n : ℕ} {s : Str} (h : ∀ t, ¬ Defined cfg s importKey t) : Ends cfg (n + 1) s
  | step {n : ℕ} {s t : Str} (h : Defined cfg s importKey t) (ht : (cfg t).isSome) (he : Ends cfg n t) : Ends cfg (n + 1) s

/-- The states of the `ConfigParser` after any history of queries. -/
inductive Reachable (limit : ℕ) (cfg : Config) : Config → Prop
  | init : Reachable limit cfg cfg
  | query {cp cp' : Config} {s k : Str} {d : Option Str} {r : Bool} {v : Option Str} (h : Reachable limit cfg cp) (hq : getOption limit cp s k d r = .ok (v, cp')) : Reachable limit cfg cp'

open Classical in
/-- The value of a key of a section, if it has one. -/
noncomputable def val (cfg : Config) (s k : Str) : Option Str := if h : ∃ v, Value cfg s k v then some h.choose else none

/-- The run modes of a section: the list in the key `runmodes`, or only `generic`. -/
noncomputable def modesOf (cfg : Config) (s : Str) : List Str := ((val cfg s "runmodes".toList).getD "generic".toList).splitOn ','

/-- The words in the values of the keys of a section whose name begins with `pref`, in alphabetical order of the keys. -/
def Words (cfg : Config) (s pref : Str) (ws : List Str) : Prop :=
  ∃ ks vs : List Str, ks.Pairwise (· < ·) ∧ (∀ k, k ∈ ks ↔ k ≠ importKey ∧ pref <+: k ∧ ∃ v, Value cfg s k v) ∧ List.Forall₂ (Value cfg s) ks vs ∧ ws = vs.flatMap split

/-- The command that runs the script in a run mode: the options of all tests, those of the test, those of the run mode; then the run mode itself and the output file. -/
def Command (o : Setup) (cfg : Config) (extra : List Str) (interpreter : Option Str) (mode : Str) (cmd : List Str) : Prop :=
  ∃ a b c, Words cfg "Setup".toList "opts".toList a ∧ Words cfg o.test "opts".toList b ∧ Words cfg o.test mode c ∧
    cmd = interpreter.toList ++ [o.script] ++ extra ++ a ++ b ++ c ++ (if mode = "generic".toList then [] else ["--evol".toList, mode]) ++
      ["--o".toList, o.outputdir ++ '/' :: (if mode = "generic".toList then o.test else o.test ++ '_' :: mode)]

/-- The commands are run one after the other until the first that fails, each after the deletion of the two output files of its run mode if `cleaning`. -/
def exec {W : Type} (sys : System W) (o : Setup) (cleaning : Bool) : List (Str × List Str) → W → (ℕ × W) ⊕ W
  | [], w => .inr w
  | (mode, cmd) :: cs, w =>
    let file := o.outputdir ++ '/' :: (if mode = "generic".toList then o.test else o.test ++ '_' :: mode)
    let r := sys.call cmd (if cleaning then sys.delete (file ++ ".state".toList) (sys.delete file w) else w)
    if r.1 = 0 then exec sys o cleaning cs r.2 else .inl r

/-- The words in the lines of a text, without comments and without the lines that have no word. -/
def dataWords (s : Str) : List (List Str) := ((fileLines s).map fun l => split (l.takeWhile (· != '#'))).filter (· ≠ [])

/-- The words form a table with `n` rows and `m` columns. -/
def IsTable (rows : List (List Str)) (n m : ℕ) : Prop := rows.length = n ∧ ∀ r ∈ rows, r.length = m

/-- Two words are numbers that agree to the tolerance, relative to the second. -/
def Agree (float : Str → Option ℝ) (a b : Str) : Prop := ∃ x y, float a = some x ∧ float b = some y ∧ |x - y| ≤ 1e-8 + 1e-5 * |y|

/-- The run modes used by the comparison `test` of a section. -/
noncomputable def filteredModes (test : Str) (cfg : Config) (s : Str) : List Str := match val cfg s (lower ("runmodes_".toList ++ test ++ "_local".toList)) with
  | none => modesOf cfg s
  | some f => (modesOf cfg s).filter fun m => m ∈ f.splitOn ','

/-- The data of a section in a run mode: from the rows of the output file, postprocessed, without the first `start` and of these the first `length` if the keys are there, the first column (the time) and the `n`th of the `columns`. -/
def Data (N : Numerics) (o : Setup) (cfg : Config) (s mode : Str) (n : ℕ) (data : List (ℝ × ℝ)) : Prop :=
  ∃ rows rows' rows'' cols c, N.load (output o mode s false) (val cfg s "postprocess_local".toList) (val cfg s "format_local".toList) = .ok rows ∧
    (match val cfg s (lower ("start_".toList ++ o.test)) with
      | none => rows' = rows
      | some v => ∃ k, N.int v = some k ∧ rows' = rows.drop k) ∧
    (match val cfg s (lower ("length_".toList ++ o.test)) with
      | none => rows'' = rows'
      | some v => ∃ k, N.int v = some k ∧ rows'' = rows'.take k) ∧
    (∃ v, val cfg s (lower ("columns_".toList ++ o.test)) = some v ∧ List.Forall₂ (fun w k => N.int w = some k) (v.splitOn ',') cols) ∧ cols[n]? = some c ∧
    List.Forall₂ (fun row x => row[0]? = some x.1 ∧ row[c]? = some x.2) rows'' data

/-- The acceptable deviation of a column. -/
def Eps (N : Numerics) (o : Setup) (cfg : Config) (s mode : Str) (n : ℕ) (eps : ℝ) : Prop :=
  ∃ v w, val cfg s (lower ("epsilon_".toList ++ mode ++ '_' :: o.test)) = some v ∧ (v.splitOn ',')[n]? = some w ∧ N.float w = some eps

/-- What has to hold for one column. -/
def ColumnAgrees (N : Numerics) (o : Setup) (cfg : Config) (s mode : Str) (n : ℕ) : Prop :=
  ∃ r data ref eps d, val cfg o.test "reference".toList = some r ∧ Data N o cfg s mode n data ∧ Data N o cfg r ((modesOf cfg r).headD []) n ref ∧ Eps N o cfg s mode n eps ∧ N.deviation ref data = .ok d ∧ d < eps

/-- The columns that are compared. -/
def ColumnsOf (N : Numerics) (o : Setup) (cfg : Config) (s : Str) (cols : List ℕ) : Prop :=
  ∃ v, val cfg s (lower ("columns_".toList ++ o.test)) = some v ∧ List.Forall₂ (fun w k => N.int w = some k) (v.splitOn ',') cols

/-- The thermal state with the mean number `nTh` of photons, of a mode with `d` levels. -/
noncomputable def planck (nTh : ℝ) (d : ℕ) : Matrix (Fin d) (Fin d) ℂ := Matrix.diagonal fun k => ((nTh ^ (k : ℕ) / (1 + nTh) ^ ((k : ℕ) + 1) : ℝ) : ℂ)

end CppQED.TestDriver
