import Verif.Spec.FunctionComparer
import Verif.Props.TestComparer

/-! # Property C176: comparisons of trajectories with functions -/

namespace CppQED.TestDriver
open CppQED.Tridiag CppQED.PyText

theorem globalFunction_ok (name : Str) (f : ℝ → ℝ → ℝ → ℝ) : globalFunction name = .ok f ↔ Law name f := by
  unfold globalFunction
  constructor
  · intro h
    split_ifs at h with h1 h2 h3
    · cases h; rw [h1]; exact .decay
    · cases h; rw [h2]; exact .position
    · cases h; rw [h3]; exact .spread
  · intro h
    cases h with
    | decay => rw [if_pos rfl]; rfl
    | position => rw [if_neg (by decide), if_pos rfl]; rfl
    | spread => rw [if_neg (by decide), if_neg (by decide), if_pos rfl]; rfl

theorem call_ok (law : ℝ → ℝ → ℝ → ℝ) (l : List Lit) (f : ℝ → ℝ) : call law l = .ok f ↔ ∃ a b, l = [.num a, .num b] ∧ f = law a b := by
  unfold call
  split
  · rename_i a b
    constructor
    · intro h; cases h; exact ⟨a, b, rfl, rfl⟩
    · rintro ⟨a', b', h, rfl⟩; cases h; rfl
  · rename_i h
    constructor
    · intro h; cases h
    · rintro ⟨a, b, rfl, -⟩; exact absurd rfl (h a b)

/-- What the parameters of a column mean. -/
theorem parameters_ok (law : ℝ → ℝ → ℝ → ℝ) (n : ℕ) (p : Lit) (f : ℝ → ℝ) :
    ((p.ofColumn n).bind fun p => p.unpack.bind fun args => call law args) = .ok f ↔ ∃ a b, ParametersOf n p a b ∧ f = law a b := by
  constructor
  · intro h
    obtain ⟨q, h1, h2⟩ := bind_ok h
    obtain ⟨args, h3, h4⟩ := bind_ok h2
    obtain ⟨a, b, rfl, rfl⟩ := (call_ok _ _ _).1 h4
    refine ⟨a, b, ?_, rfl⟩
    have hq : q = .tuple [.num a, .num b] ∨ q = .list [.num a, .num b] := by
      cases q with
      | num x => cases h3
      | tuple l => cases h3; exact Or.inl rfl
      | list l => cases h3; exact Or.inr rfl
    cases p with
    | num x =>
      cases h1
      rcases hq with h | h <;> cases h
    | tuple l =>
      cases h1
      rcases hq with h | h
      · cases h; exact .same a b
      · cases h
    | list l =>
      unfold Lit.ofColumn at h1
      split at h1
      · rename_i heq
        cases heq
        split at h1
        · cases h1
        · rename_i e
          cases h1
          rcases hq with rfl | rfl
          · exact .entry _ a b e
          · exact .listEntry _ a b e
      · rename_i hne
        exact absurd rfl (hne l)
  · rintro ⟨a, b, h, rfl⟩
    cases h with
    | same => rfl
    | entry l _ _ h => simp only [Lit.ofColumn, h]; rfl
    | listEntry l _ _ h => simp only [Lit.ofColumn, h]; rfl

theorem gives_functionReference {N : FunctionNumerics} {o : Setup} {cfg : Config} (hw : WellFormed cfg) (he : ∀ s, Ends cfg o.limit s) (s : Str) (n : ℕ) : Gives o.limit cfg (fun cp => functionReference N o cp s n) fun f =>
    ∃ name law v p a b, val cfg o.test "reference_function".toList = some name ∧ Law name law ∧ val cfg s (lower ("parameters_".toList ++ o.test)) = some v ∧ N.literal v = .ok p ∧ ParametersOf n p a b ∧ f = law a b := by
  have l1 : lower "reference_function".toList = "reference_function".toList := by decide
  have hk : lower ("parameters_".toList ++ o.test) ≠ importKey := lower_ne_import (by simp)
  unfold functionReference
  refine (Gives.bind (gives_required hw o.test "reference_function".toList (he _) (by decide)) fun name hname => Gives.outcome fun law hlaw => Gives.bind (gives_optional hw s _ (he s) hk) fun v hv =>
    Gives.outcome fun p hp => Gives.outcome fun q hq => Gives.outcome fun args hargs => Gives.outcome fun f hf => Gives.ok f).congr fun f => ?_
  rw [l1]
  constructor
  · rintro ⟨_, ⟨name, rfl, h1⟩, law, h2, _, rfl, p, h3, q, h4, args, h5, g, h6, rfl⟩
    have h7 : ((p.ofColumn n).bind fun p => p.unpack.bind fun args => call law args) = .ok f := by rw [h4, ok_bind, h5, ok_bind, h6]
    obtain ⟨a, b, h8, h9⟩ := (parameters_ok _ _ _ _).1 h7
    cases hv : val cfg s (lower ("parameters_".toList ++ o.test)) with
    | none =>
      rw [hv] at h3
      cases h3
      cases h8
    | some v =>
      rw [hv] at h3
      exact ⟨name, law, v, p, a, b, h1, (globalFunction_ok _ _).1 h2, rfl, h3, h8, h9⟩
  · rintro ⟨name, law, v, p, a, b, h1, h2, h3, h4, h5, rfl⟩
    have h7 := (parameters_ok law n p (law a b)).2 ⟨a, b, h5, rfl⟩
    obtain ⟨q, h8, h9⟩ := bind_ok h7
    obtain ⟨args, h10, h11⟩ := bind_ok h9
    exact ⟨some name, ⟨name, rfl, h1⟩, law, (globalFunction_ok _ _).2 h2, _, rfl, p, by rw [h3]; exact h4, q, h8, args, h10, law a b, h11, rfl⟩

theorem function_decides {N : FunctionNumerics} {o : Setup} {cfg : Config} (hw : WellFormed cfg) (he : ∀ s, Ends cfg o.limit s) (s mode : Str) (n : ℕ) : Decides o.limit cfg (compareFunction N o s mode n) (FollowsLaw N o cfg s mode n) := by
  have hmain : Gives o.limit cfg (compareFunction N o s mode n) fun b => ∃ data, Data N.toNumerics o cfg s mode n data ∧ ∃ ref, (∃ name law v p a b, val cfg o.test "reference_function".toList = some name ∧ Law name law ∧
      val cfg s (lower ("parameters_".toList ++ o.test)) = some v ∧ N.literal v = .ok p ∧ ParametersOf n p a b ∧ ref = law a b) ∧ ∃ eps, Eps N.toNumerics o cfg s mode n eps ∧ ∃ d, N.deviationFn ref data = .ok d ∧ b = decide (d < eps) := by
    unfold compareFunction
    exact Gives.bind (gives_data hw s mode n (he s)) fun data hd => Gives.bind (gives_functionReference hw he s n) fun ref hr => Gives.bind (gives_eps hw s mode n (he s)) fun eps heps => Gives.outcome fun d hd => Gives.ok (decide (d < eps))
  intro cp hr
  have := hmain.decides cp hr
  constructor
  · refine Iff.trans this.1 ?_
    unfold FollowsLaw
    constructor
    · rintro ⟨data, h1, ref, ⟨name, law, v, p, a, b, g1, g2, g3, g4, g5, rfl⟩, eps, h4, d, h5, h6⟩
      exact ⟨name, law, v, p, a, b, data, eps, d, g1, g2, g3, g4, g5, h1, h4, h5, by simpa using h6.symm⟩
    · rintro ⟨name, law, v, p, a, b, data, eps, d, g1, g2, g3, g4, g5, h1, h4, h5, h6⟩
      exact ⟨data, h1, _, ⟨name, law, v, p, a, b, g1, g2, g3, g4, g5, rfl⟩, eps, h4, d, h5, by simpa using h6⟩
  · exact this.2

theorem functionModes_decides {N : FunctionNumerics} {o : Setup} {cfg : Config} (hw : WellFormed cfg) (he : ∀ s, Ends cfg o.limit s) (s : Str) (modes : List Str) :
    Decides o.limit cfg (compareFunctionModes N o s modes) (∀ m ∈ modes, ∃ cols, ColumnsOf N.toNumerics o cfg s cols ∧ ∀ n < cols.length, FollowsLaw N o cfg s m n) := by
  unfold compareFunctionModes
  refine collect_decides _ _ _ fun m _ => ?_
  intro cp hr
  obtain ⟨g1, g2⟩ := gives_columns (N := N.toNumerics) hw s (he s) cp hr
  have hcol : ∀ cols, Decides o.limit cfg (collect (compareFunction N o s m) (List.range cols)) (∀ n < cols, FollowsLaw N o cfg s m n) := by
    intro cols
    have := collect_decides (compareFunction N o s m) (FollowsLaw N o cfg s m) (List.range cols) fun n _ => function_decides hw he s m n
    simpa only [List.mem_range] using this
  constructor
  · constructor
    · rintro ⟨cp', hc⟩
      obtain ⟨⟨cols, c1⟩, h1, h2⟩ := bind_ok hc
      obtain ⟨r1, r2⟩ := g1 cols c1 h1
      exact ⟨cols, r1, (hcol cols.length c1 r2).1.1 ⟨cp', h2⟩⟩
    · rintro ⟨cols, h1, h2⟩
      obtain ⟨c1, h3⟩ := g2 cols h1
      obtain ⟨c2, h4⟩ := (hcol cols.length c1 (g1 cols c1 h3).2).1.2 h2
      refine ⟨c2, ?_⟩
      change getColumns N.toNumerics o cp s = _ at h3
      show (getColumns N.toNumerics o cp s).bind _ = _
      rw [h3, ok_bind]
      exact h4
  · intro b cp' hc
    obtain ⟨⟨cols, c1⟩, h1, h2⟩ := bind_ok hc
    obtain ⟨r1, r2⟩ := g1 cols c1 h1
    exact (hcol cols.length c1 r2).2 _ _ h2

/-- **C176.** The comparison of trajectories with a function passes exactly if the key `trajectories` is there, and for all the trajectories, in all their run modes that the comparison uses, in each of the columns named, the deviation
from the law named in the test with the parameters of that column is below the acceptable one. -/
theorem functionComparer_iff (N : FunctionNumerics) (o : Setup) {cfg cp : Config} (hw : WellFormed cfg) (h : Reachable o.limit cfg cp) (he : ∀ s, Ends cfg o.limit s) :
    (∃ cp', functionComparer N o cp = .ok cp') ↔ ∃ ts, val cfg o.test "trajectories".toList = some ts ∧
      ∀ t ∈ ts.splitOn ',', ∀ m ∈ filteredModes o.test cfg t, ∃ cols, ColumnsOf N.toNumerics o cfg t cols ∧ ∀ n < cols.length, FollowsLaw N o cfg t m n := by
  have l1 : lower "trajectories".toList = "trajectories".toList := by decide
  have key := fun ts => trajLoop_decides hw he (compareFunctionModes N o) _ (fun t modes => functionModes_decides (N := N) hw he t modes) ts
  unfold functionComparer
  constructor
  · rintro ⟨cp', hc⟩
    obtain ⟨ts, c1, a1, -, a3, a4⟩ := (required_decides hw h o.test "trajectories".toList (he _) (by decide) _ _).1 hc
    simp only [Option.getD_some] at a4
    obtain ⟨⟨b, c4⟩, e1, e2⟩ := bind_ok a4
    cases b with
    | false => simp at e2
    | true => exact ⟨ts, by rw [← l1]; exact a1, (key _ c1 a3).1.1 ⟨c4, e1⟩⟩
  · rintro ⟨ts, a1, hall⟩
    rcases getOption_required hw h o.test "trajectories".toList (he _) (by decide) none with ⟨v, c1, a2, a3, a4, -⟩ | ⟨a2, -⟩
    rotate_left
    · rw [l1, a1] at a2; cases a2
    rw [l1, a1] at a2; cases a2
    obtain ⟨c4, e1⟩ := (key (ts.splitOn ',') c1 a4).1.2 hall
    refine ⟨c4, ?_⟩
    simp only [a3, ok_bind, Option.getD_some]
    show ((trajLoop o (compareFunctionModes N o) (commas ts) c1).bind _) = _
    rw [show commas ts = ts.splitOn ',' from rfl, e1]
    rfl

/-! ## An example -/

/-- Two columns of the output of a free particle, compared with its motion, with other parameters for each of them. -/
def lawful : Config := fun s =>
  if s = "cmp".toList then some [("trajectories".toList, "traj".toList), ("reference_function".toList, "FreeParticleX".toList)]
  else if s = "traj".toList then some [("runmodes".toList, "master".toList), ("columns_cmp".toList, "1,2".toList), ("epsilon_master_cmp".toList, "2,3".toList), ("parameters_cmp".toList, "[(1,2),[0,1]]".toList)]
  else none

theorem lawful_wellFormed : WellFormed lawful := by
  intro s sec h
  unfold lawful at h
  split_ifs at h <;> cases h <;> decide

theorem lawful_ends (s : Str) : Ends lawful 1 s := by
  refine .last fun t ht => ?_
  obtain ⟨sec, h1, h2⟩ := ht
  have : ∀ e ∈ sec, e.1 ≠ importKey := by
    unfold lawful at h1
    split_ifs at h1 <;> cases h1 <;> decide
  exact this _ h2 rfl

theorem lawful_value {s k v : Str} (h : Defined lawful s k v) : val lawful s k = some v := (val_some lawful_wellFormed _ _ _).2 (.own h)

theorem lawful_none {s k : Str} (h : ∀ v, ¬ Defined lawful s k v) : val lawful s k = none := by
  refine (val_none _ _ _).2 fun v hv => ?_
  cases hv with
  | own h' => exact h v h'
  | imported _ _ hi _ =>
    cases lawful_ends s with
    | last hl => exact hl _ hi
    | step _ _ he => cases he

/-- One line of output, at the time 1, with the values `x` and `y`. -/
noncomputable def lawNumerics (x y : ℝ) : FunctionNumerics where
  toNumerics := { simpleNumerics x with load := fun _ _ _ => .ok [[1, x, y]] }
  literal := fun s => if s = "[(1,2),[0,1]]".toList then .ok (.list [.tuple [.num 1, .num 2], .list [.num 0, .num 1]]) else .throw
  deviationFn := fun f data => .ok ((data.map fun p => (f p.1 - p.2) ^ 2).sum)

theorem lawful_columns (x y : ℝ) : ColumnsOf (lawNumerics x y).toNumerics cmpSetup lawful "traj".toList [1, 2] :=
  ⟨_, lawful_value (v := "1,2".toList) ⟨_, rfl, by decide⟩, by
    rw [show "1,2".toList.splitOn ',' = ["1".toList, "2".toList] by decide]
    exact .cons rfl (.cons rfl .nil)⟩

theorem lawful_data (x y : ℝ) (n : ℕ) (z : ℝ) (h : (n = 0 ∧ z = x) ∨ (n = 1 ∧ z = y)) : Data (lawNumerics x y).toNumerics cmpSetup lawful "traj".toList "master".toList n [(1, z)] := by
  have hst : val lawful "traj".toList (lower ("start_".toList ++ cmpSetup.test)) = none := by
    refine lawful_none ?_
    rintro v ⟨sec, h1, h2⟩
    cases h1; revert h2; simp [cmpSetup, lower]
  have hle : val lawful "traj".toList (lower ("length_".toList ++ cmpSetup.test)) = none := by
    refine lawful_none ?_
    rintro v ⟨sec, h1, h2⟩
    cases h1; revert h2; simp [cmpSetup, lower]
  unfold Data
  simp only [hst, hle]
  rcases h with ⟨rfl, rfl⟩ | ⟨rfl, rfl⟩
  · exact ⟨_, _, _, [1, 2], 1, rfl, rfl, rfl, lawful_columns _ _, rfl, .cons ⟨rfl, rfl⟩ .nil⟩
  · exact ⟨_, _, _, [1, 2], 2, rfl, rfl, rfl, lawful_columns _ _, rfl, .cons ⟨rfl, rfl⟩ .nil⟩

theorem lawful_eps (x y : ℝ) (n : ℕ) (z : ℝ) (h : (n = 0 ∧ z = 2) ∨ (n = 1 ∧ z = 3)) : Eps (lawNumerics x y).toNumerics cmpSetup lawful "traj".toList "master".toList n z := by
  have hf : ∀ c : Char, (lawNumerics x y).float [c] = some ((c.toNat : ℝ) - 48) := fun _ => rfl
  refine ⟨_, if n = 0 then "2".toList else "3".toList, lawful_value (v := "2,3".toList) ⟨_, rfl, by decide⟩, ?_, ?_⟩
  · rcases h with ⟨rfl, rfl⟩ | ⟨rfl, rfl⟩ <;> decide
  · rcases h with ⟨rfl, rfl⟩ | ⟨rfl, rfl⟩
    · rw [if_pos rfl, show "2".toList = ['2'] by decide, hf]
      show some (((50 : ℕ) : ℝ) - 48) = _
      norm_num
    · rw [if_neg (by norm_num), show "3".toList = ['3'] by decide, hf]
      show some (((51 : ℕ) : ℝ) - 48) = _
      norm_num

/-- The comparison passes if both of the columns are close to their laws `1 + 4 t` and `2 t` at the time 1. -/
example (x y : ℝ) (hx : (5 - x) ^ 2 < 2) (hy : (2 - y) ^ 2 < 3) : ∃ cp', functionComparer (lawNumerics x y) cmpSetup lawful = .ok cp' := by
  refine (functionComparer_iff (lawNumerics x y) cmpSetup lawful_wellFormed .init lawful_ends).2 ⟨_, lawful_value (v := "traj".toList) ⟨_, rfl, by decide⟩, fun t ht m hm => ?_⟩
  rw [show "traj".toList.splitOn ',' = ["traj".toList] by decide, List.mem_singleton] at ht
  subst ht
  have hmodes : filteredModes "cmp".toList lawful "traj".toList = ["master".toList] := by
    unfold filteredModes modesOf
    rw [lawful_none (k := lower ("runmodes_".toList ++ "cmp".toList ++ "_local".toList)) (by
      rintro v ⟨sec, h1, h2⟩
      cases h1; revert h2; simp [lower]), lawful_value (v := "master".toList) ⟨_, rfl, by decide⟩]
    decide
  rw [show cmpSetup.test = "cmp".toList from rfl, hmodes, List.mem_singleton] at hm
  subst hm
  refine ⟨[1, 2], lawful_columns x y, fun n hn => ?_⟩
  have hname : val lawful cmpSetup.test "reference_function".toList = some "FreeParticleX".toList := lawful_value ⟨_, rfl, by decide⟩
  have hpar : val lawful "traj".toList (lower ("parameters_".toList ++ cmpSetup.test)) = some "[(1,2),[0,1]]".toList := lawful_value ⟨_, rfl, by decide⟩
  have hlit : (lawNumerics x y).literal "[(1,2),[0,1]]".toList = .ok (.list [.tuple [.num 1, .num 2], .list [.num 0, .num 1]]) := by
    simp only [lawNumerics]
    exact if_pos True.intro
  have hdev : ∀ (f : ℝ → ℝ) (z : ℝ), (lawNumerics x y).deviationFn f [(1, z)] = .ok ((f 1 - z) ^ 2) := fun f z => by
    show Outcome.ok _ = _
    simp
  rcases (by simp at hn; omega : n = 0 ∨ n = 1) with rfl | rfl
  · exact ⟨_, _, _, _, 1, 2, _, 2, _, hname, .position, hpar, hlit, .entry _ _ _ rfl, lawful_data x y 0 x (Or.inl ⟨rfl, rfl⟩), lawful_eps x y 0 2 (Or.inl ⟨rfl, rfl⟩), hdev _ _, by norm_num; exact hx⟩
  · exact ⟨_, _, _, _, 0, 1, _, 3, _, hname, .position, hpar, hlit, .listEntry _ _ _ rfl, lawful_data x y 1 y (Or.inr ⟨rfl, rfl⟩), lawful_eps x y 1 3 (Or.inr ⟨rfl, rfl⟩), hdev _ _, by norm_num; exact hy⟩

end CppQED.TestDriver
