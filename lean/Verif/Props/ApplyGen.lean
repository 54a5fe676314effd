import Verif.Model.ApplyGen
import Verif.Spec.ApplyGen
import Verif.Props.Tridiagonal

/-!
# C164: the generated specialisations of `apply` do what `apply` does
-/

namespace CppQED.ApplyGen
open CppQED.Tridiag CppQED.Spec CppQED.Spec.Cpp

/-! ## The program -/

def suff : ℕ → Suffix
  | 0 => .none
  | 1 => .l
  | _ => .h

/-- The variables selected for the axes `i`, `i+1`, … -/
def named : ℕ → List ℕ → List Var
  | _, [] => []
  | i, v :: V => (i, suff v) :: named (i + 1) V

theorem named_append (i : ℕ) (V : List ℕ) (x : ℕ) : named i (V ++ [x]) = named i V ++ [(i + V.length, suff x)] := by
  induction V generalizing i with
  | nil => rfl
  | cons v V ih => simp only [List.cons_append, named, ih, List.length_cons]; congr 4; omega

theorem named_length (i : ℕ) (V : List ℕ) : (named i V).length = V.length := by
  induction V generalizing i with
  | nil => rfl
  | cons v V ih => simp [named, ih]

/-- The statements, in the order of `doApply`. -/
def blocks : (n start : ℕ) → (vD vA vP : List ℕ) → List Stmt
  | 0, start, vD, vA, vP => [⟨start, named 0 vD, named 0 vA, named 0 vP⟩]
  | n + 1, start, vD, vA, vP => blocks n start (vD ++ [0]) (vA ++ [0]) (vP ++ [0]) ++ blocks n (start + 3 ^ n) (vD ++ [2]) (vA ++ [1]) (vP ++ [1]) ++
      blocks n (start + 2 * 3 ^ n) (vD ++ [1]) (vA ++ [1]) (vP ++ [2])

/-- The declarations of an axis. -/
def decl3 (i : ℕ) : List (Var × Init) := [((i, .none), .upTo i), ((i, .l), .below i i), ((i, .h), .moved (i, .l) i)]

def declsFrom : ℕ → ℕ → List (Var × Init)
  | _, 0 => []
  | i, n + 1 => decl3 i ++ declsFrom (i + 1) n

def prog (rank : ℕ) : Prog := ⟨declsFrom 0 rank, blocks rank 0 [] [] []⟩

/-! ## Its text -/

theorem sepBy_append (sep : String) (l : List String) (h : l ≠ []) (x : String) : sepBy sep (l ++ [x]) = sepBy sep l ++ sep ++ x := by
  induction l with
  | nil => exact absurd rfl h
  | cons a l ih =>
    cases l with
    | nil => rfl
    | cons b l =>
      have := ih (by simp)
      simp only [List.cons_append, sepBy] at this ⊢
      rw [this]; simp only [String.append_assoc]

theorem stmts_append (l l' : List Stmt) : stmts (l ++ l') = stmts l ++ stmts l' := by
  induction l with
  | nil => simp [stmts]
  | cons a l ih => simp only [List.cons_append, stmts, ih, String.append_assoc]

theorem vars_append (V : List ℕ) (h : V ≠ []) (x : ℕ) : vars (named 0 (V ++ [x])) = vars (named 0 V) ++ "," ++ var (V.length, suff x) := by
  unfold vars
  rw [named_append, List.map_append, List.map_singleton, sepBy_append, Nat.zero_add]
  cases V with
  | nil => exact absurd rfl h
  | cons v V => simp [named]

theorem comma (i : ℕ) (s : String) : "," ++ ("I" ++ (toString i ++ s)) = ",I" ++ (toString i ++ s) := by
  rw [← String.append_assoc]; rfl

theorem vars_step (V : List ℕ) (h : V ≠ []) : vars (named 0 (V ++ [0])) = vars (named 0 V) ++ (",I" ++ toString V.length) ++ " " ∧
    vars (named 0 (V ++ [1])) = vars (named 0 V) ++ (",I" ++ toString V.length) ++ "l" ∧ vars (named 0 (V ++ [2])) = vars (named 0 V) ++ (",I" ++ toString V.length) ++ "h" := by
  refine ⟨?_, ?_, ?_⟩ <;> rw [vars_append V h] <;> simp only [var, suff, String.append_assoc, comma]

theorem close : ");" ++ "\n" = ");\n" := by decide

theorem recurse_eq (n j : ℕ) (vD vA vP : List ℕ) (h : vD ≠ []) (hA : vA.length = vD.length) (hP : vP.length = vD.length) :
    recurse n vD.length j (vars (named 0 vD)) (vars (named 0 vA)) (vars (named 0 vP)) = (stmts (blocks n j vD vA vP), j + 3 ^ n) := by
  induction n generalizing j vD vA vP with
  | zero =>
    have h1 : recurse 0 vD.length j (vars (named 0 vD)) (vars (named 0 vA)) (vars (named 0 vP)) = (statement j (vars (named 0 vD)) (vars (named 0 vA)) (vars (named 0 vP)), j + 1) := by rw [recurse]
    have h2 : blocks 0 j vD vA vP = [⟨j, named 0 vD, named 0 vA, named 0 vP⟩] := by rw [blocks]
    rw [h1, h2, pow_zero, stmts, stmts, String.append_empty]
    unfold statement line stmt
    simp only [String.append_assoc, close]
  | succ n ih =>
    have hA0 : vA ≠ [] := by rintro rfl; exact h (List.length_eq_zero_iff.1 hA.symm)
    have hP0 : vP ≠ [] := by rintro rfl; exact h (List.length_eq_zero_iff.1 hP.symm)
    obtain ⟨d0, d1, d2⟩ := vars_step vD h
    obtain ⟨a0, a1, a2⟩ := vars_step vA hA0
    obtain ⟨p0, p1, p2⟩ := vars_step vP hP0
    rw [hA] at a0 a1 a2
    rw [hP] at p0 p1 p2
    have key := fun j (x y z : ℕ) => ih j (vD ++ [x]) (vA ++ [y]) (vP ++ [z]) (by simp) (by simp [hA]) (by simp [hP])
    simp only [List.length_append, List.length_singleton] at key
    simp only [recurse]
    rw [← d0, ← d1, ← d2, ← a0, ← a1, ← p0, ← p1, ← p2, key, key, key]
    simp only [blocks, stmts_append, Prod.mk.injEq]
    refine ⟨?_, by rw [pow_succ]; ring⟩
    rw [show j + 3 ^ n + 3 ^ n = j + 2 * 3 ^ n by ring]

theorem body_eq (rank : ℕ) (h : 0 < rank) : body rank = stmts (blocks rank 0 [] [] []) := by
  obtain ⟨n, rfl⟩ : ∃ n, rank = n + 1 := ⟨rank - 1, by omega⟩
  unfold body
  have k := fun j (x y z : ℕ) => recurse_eq n j [x] [y] [z] (by simp) rfl rfl
  have v0 : vars (named 0 [0]) = "I0 " := by decide
  have v1 : vars (named 0 [1]) = "I0l" := by decide
  have v2 : vars (named 0 [2]) = "I0h" := by decide
  simp only [Nat.add_sub_cancel]
  rw [← v0, ← v1, ← v2]
  have k0 := k 0 0 0 0
  have k1 := k (0 + 3 ^ n) 2 1 1
  have k2 := k (0 + 3 ^ n + 3 ^ n) 1 1 2
  simp only [List.length_singleton] at k0 k1 k2
  rw [k0, k1, k2]
  simp only [blocks, stmts_append, List.nil_append]
  rw [show 0 + 3 ^ n + 3 ^ n = 0 + 2 * 3 ^ n by ring]

theorem comma_line : "," ++ "\n    " = ",\n    " := by decide

/-- The declarations of an axis in the text. -/
def axis (i : ℕ) : String := sepBy ",\n    " ((decl3 i).map fun d => var d.1 ++ init d.2)

theorem axis_eq (i : ℕ) : "    " ++ axis i = "    I" ++ toString i ++ " (0,psi.ubound(" ++ toString i ++ ")),\n    I" ++ toString i ++ "l(0,psi.ubound(" ++ toString i ++ ")-int(K(" ++ toString i ++
    "))),\n    I" ++ toString i ++ "h(I" ++ toString i ++ "l+int(K(" ++ toString i ++ ")))" := by
  have e1 : " " ++ "(0,psi.ubound(" = " (0,psi.ubound(" := by decide
  have e2 : "l" ++ "(0,psi.ubound(" = "l(0,psi.ubound(" := by decide
  have e3 : "h" ++ ("(" ++ "I") = "h(I" := by decide
  have e4 : "l" ++ "+int(K(" = "l+int(K(" := by decide
  have e5 : "    " ++ "I" = "    I" := by decide
  have e6 : "))" ++ (",\n    " ++ "I") = ")),\n    I" := by decide
  have e7 : ")))" ++ (",\n    " ++ "I") = "))),\n    I" := by decide
  unfold axis decl3
  simp only [List.map_cons, List.map_nil, sepBy, var, init]
  rw [← e1, ← e2, ← e3, ← e4, ← e5, ← e6, ← e7]
  simp only [String.append_assoc]

theorem sepBy_join (sep : String) (l l' : List String) (h : l ≠ []) (h' : l' ≠ []) : sepBy sep (l ++ l') = sepBy sep l ++ sep ++ sepBy sep l' := by
  induction l with
  | nil => exact absurd rfl h
  | cons a l ih =>
    cases l with
    | nil =>
      cases l' with
      | nil => exact absurd rfl h'
      | cons b l' => rfl
    | cons b l =>
      have := ih (by simp)
      simp only [List.cons_append, sepBy] at this ⊢
      rw [this]; simp only [String.append_assoc]

theorem rangesLoop_eq (rank n : ℕ) (hn : n < rank) : rangesLoop rank (n + 1) = "    " ++ sepBy ",\n    " ((declsFrom (rank - (n + 1)) (n + 1)).map fun d => var d.1 ++ init d.2) ++ ";\n\n" := by
  induction n with
  | zero =>
    have e : ";\n" ++ "\n" = ";\n\n" := by decide
    rw [rangesLoop, rangesLoop, declsFrom, declsFrom, List.append_nil, String.append_empty]
    unfold ranges1 line
    simp only
    rw [if_neg (by omega), ← axis_eq, String.append_assoc, e]
    rfl
  | succ n ih =>
    have e : "," ++ "\n" = ",\n" := by decide
    have e' : ",\n    " = ",\n" ++ "    " := by decide
    have hdec : declsFrom (rank - (n + 1 + 1)) (n + 1 + 1) = decl3 (rank - (n + 1 + 1)) ++ declsFrom (rank - (n + 1)) (n + 1) := by
      rw [declsFrom, show rank - (n + 1 + 1) + 1 = rank - (n + 1) by omega]
    rw [rangesLoop, ih (by omega), hdec, List.map_append, sepBy_join _ _ _ (by simp [decl3]) (by simp [declsFrom, decl3])]
    unfold ranges1 line
    simp only
    rw [if_pos (by omega), ← axis_eq]
    have ha : sepBy ",\n    " ((decl3 (rank - (n + 1 + 1))).map fun d => var d.1 ++ init d.2) = axis (rank - (n + 1 + 1)) := rfl
    rw [ha]
    generalize sepBy ",\n    " ((declsFrom (rank - (n + 1)) (n + 1)).map fun d => var d.1 ++ init d.2) = x
    generalize axis (rank - (n + 1 + 1)) = y
    rw [e', ← e]
    simp only [String.append_assoc]

/-- **C164.** What the script prints for a rank is the source of a program. -/
theorem generate_source (rank : ℕ) (h : 0 < rank) : generate rank = source rank (prog rank) := by
  obtain ⟨n, rfl⟩ : ∃ n, rank = n + 1 := ⟨rank - 1, by omega⟩
  unfold generate source
  rw [body_eq _ h, rangesLoop_eq _ _ (Nat.lt_succ_self n), Nat.sub_self]
  have e1 : "\n    " = "\n" ++ "    " := by decide
  unfold header footer line prog
  simp only
  generalize sepBy ",\n    " ((declsFrom 0 (n + 1)).map fun d => var d.1 ++ init d.2) = x
  generalize stmts (blocks (n + 1) 0 [] [] []) = y
  rw [e1]
  simp only [String.append_assoc]

/-! ## Its meaning -/

/-- The ranges of the first `k` axes. -/
def envOf (T : Tri) (k : ℕ) : Env := fun v => if v.1 < k then some (range3 (T.dims.getD v.1 0) (T.diffs.getD v.1 0) (match v.2 with | .none => 0 | .l => 1 | .h => 2)) else none

theorem declare_eq (T : Tri) (h1 : T.dims.length = T.rank) (h2 : T.diffs.length = T.rank) (n i : ℕ) (h : i + n = T.rank) : declare T (declsFrom i n) (envOf T i) = some (envOf T T.rank) := by
  induction n generalizing i with
  | zero => rw [declsFrom, declare, show i = T.rank by omega]
  | succ n ih =>
    have hi : i < T.rank := by omega
    have d1 : T.dims[i]? = some (T.dims.getD i 0) := by
      rw [List.getD_eq_getElem?_getD, List.getElem?_eq_getElem (by omega)]; rfl
    have d2 : T.diffs[i]? = some (T.diffs.getD i 0) := by
      rw [List.getD_eq_getElem?_getD, List.getElem?_eq_getElem (by omega)]; rfl
    have hn : ∀ s, envOf T i (i, s) = none := fun s => by simp [envOf]
    rw [declsFrom, decl3]
    simp only [List.cons_append, List.nil_append, declare, Init.eval, d1, d2, Option.bind_eq_bind, Option.bind_some, hn, Option.isSome_none, Bool.false_eq_true, if_false, Prod.mk.injEq, reduceCtorEq, and_false,
      Option.pure_def, if_true]
    rw [← ih (i + 1) (by omega)]
    congr 1
    funext v
    obtain ⟨a, s⟩ := v
    unfold envOf
    by_cases ha : a = i
    · subst ha
      cases s <;> simp [range3]
    · have : (a < i + 1) = (a < i) := by apply propext; omega
      simp [ha, this]

theorem mapM_named (T : Tri) (V : List ℕ) (i : ℕ) (h1 : T.dims.length = T.rank) (h2 : T.diffs.length = T.rank) (hV : i + V.length ≤ T.rank) (hv : ∀ v ∈ V, v < 3) :
    (named i V).mapM (envOf T T.rank) = some (rangesAt (T.dims.drop i) (T.diffs.drop i) V) := by
  induction V generalizing i with
  | nil => simp [named, rangesAt]
  | cons v V ih =>
    rw [List.length_cons] at hV
    have hd : T.dims.drop i = T.dims.getD i 0 :: T.dims.drop (i + 1) := by
      rw [List.getD_eq_getElem?_getD, List.getElem?_eq_getElem (by omega)]; exact List.drop_eq_getElem_cons (by omega)
    have hk : T.diffs.drop i = T.diffs.getD i 0 :: T.diffs.drop (i + 1) := by
      rw [List.getD_eq_getElem?_getD, List.getElem?_eq_getElem (by omega)]; exact List.drop_eq_getElem_cons (by omega)
    rw [named, List.mapM_cons, ih (i + 1) (by omega) fun w hw => hv w (List.mem_cons_of_mem _ hw), hd, hk]
    have hx : envOf T T.rank (i, suff v) = some (range3 (T.dims.getD i 0) (T.diffs.getD i 0) v) := by
      have h3 := hv v List.mem_cons_self
      unfold envOf
      rw [if_pos (by omega)]
      interval_cases v <;> rfl
    rw [hx]
    rfl

theorem execStmts_append (T : Tri) (env : Env) (psi : NIdx → ℂ) (l l' : List Stmt) (d : NIdx → ℂ) : execStmts T env psi (l ++ l') d = (execStmts T env psi l d).bind (execStmts T env psi l') := by
  induction l generalizing d with
  | nil => rfl
  | cons s l ih =>
    simp only [List.cons_append, execStmts, Option.bind_eq_bind]
    cases s.exec T env psi d with
    | none => rfl
    | some d' => exact ih d'

theorem blocks_exec (T : Tri) (h1 : T.dims.length = T.rank) (h2 : T.diffs.length = T.rank) (psi : NIdx → ℂ) (n start : ℕ) (vD vA vP : List ℕ) (hD : vD.length + n = T.rank) (hA : vA.length + n = T.rank)
    (hP : vP.length + n = T.rank) (vD3 : ∀ v ∈ vD, v < 3) (vA3 : ∀ v ∈ vA, v < 3) (vP3 : ∀ v ∈ vP, v < 3) (d : NIdx → ℂ) :
    execStmts T (envOf T T.rank) psi (blocks n start vD vA vP) d = some (doApply T n start vD vA vP psi d) := by
  induction n generalizing start vD vA vP d with
  | zero =>
    have hs : ∀ V : List ℕ, V.length + 0 = T.rank → (∀ v ∈ V, v < 3) → subscripts T (envOf T T.rank) (named 0 V) = some (rangesAt T.dims T.diffs V) := by
      intro V hV hv
      unfold subscripts
      rw [if_pos (by rw [named_length]; exact hV), mapM_named T V 0 h1 h2 (by omega) hv]
      rfl
    simp only [blocks, execStmts, Stmt.exec, hs vD hD vD3, hs vA hA vA3, hs vP hP vP3, Option.bind_eq_bind, Option.bind_some, doApply, addBlock]
    split_ifs <;> rfl
  | succ n ih =>
    have m : ∀ (V : List ℕ) (x : ℕ), (∀ v ∈ V, v < 3) → x < 3 → ∀ v ∈ V ++ [x], v < 3 := by
      intro V x hV hx v hv
      rcases List.mem_append.1 hv with hv | hv
      · exact hV v hv
      · rw [List.mem_singleton.1 hv]; exact hx
    have key := fun start (x y z : ℕ) (hx : x < 3) (hy : y < 3) (hz : z < 3) d => ih start (vD ++ [x]) (vA ++ [y]) (vP ++ [z]) (by simp; omega) (by simp; omega) (by simp; omega) (m _ _ vD3 hx) (m _ _ vA3 hy) (m _ _ vP3 hz) d
    simp only [blocks, execStmts_append, doApply]
    rw [key _ _ _ _ (by norm_num) (by norm_num) (by norm_num), Option.bind_some, key _ _ _ _ (by norm_num) (by norm_num) (by norm_num), Option.bind_some, key _ _ _ _ (by norm_num) (by norm_num) (by norm_num), Nat.zero_mul, Nat.one_mul, Nat.add_zero]

/-- **C164.** What the script prints for a rank is a specialisation of `apply` which compiles and does the same as the generic one, for every operator and state of that rank. -/
theorem generate_apply (rank : ℕ) (h : 0 < rank) : ∃ p, generate rank = source rank p ∧ ∀ T : Tri, T.rank = rank → T.dims.length = rank → T.diffs.length = rank → ∀ psi dpsidt, p.exec T psi dpsidt = some (apply T psi dpsidt) := by
  refine ⟨prog rank, generate_source rank h, ?_⟩
  rintro T rfl h1 h2 psi dpsidt
  unfold Prog.exec prog
  have h0 : (fun _ => none : Env) = envOf T 0 := by funext v; simp [envOf]
  simp only [h0, declare_eq T h1 h2 T.rank 0 (by omega), Option.bind_eq_bind, Option.bind_some]
  exact blocks_exec T h1 h2 psi T.rank 0 [] [] [] (by simp) (by simp) (by simp) (by simp) (by simp) (by simp) dpsidt

/-- **C164.** In particular, it adds the product of the matrix with the state. -/
theorem generate_matrix (rank : ℕ) (h : 0 < rank) : ∃ p, generate rank = source rank p ∧ ∀ T : Tri, T.rank = rank → T.dims.length = rank → T.diffs.length = rank → ∀ psi dpsidt, ∃ d, p.exec T psi dpsidt = some d ∧
    ∀ i ∈ natBox T.dims, d i = dpsidt i + ∑ j ∈ natBox T.dims, entry T i j * psi j := by
  obtain ⟨p, h1, h2⟩ := generate_apply rank h
  refine ⟨p, h1, fun T t1 t2 t3 psi dpsidt => ⟨_, h2 T t1 t2 t3 psi dpsidt, fun i hi => apply_eq_matrix T (t2.trans t1.symm) (t3.trans t1.symm) psi dpsidt i hi⟩⟩

/-! ## Cases -/

example : statement 5 "I0h,I1l" "I0l,I1l" "I0l,I1h" = stmt ⟨5, [(0, .h), (1, .l)], [(0, .l), (1, .l)], [(0, .l), (1, .h)]⟩ := by
  set_option maxRecDepth 4000 in decide

/-- The sixth of the statements for rank 2, and the ninth. -/
example : (blocks 2 0 [] [] [])[5]? = some ⟨5, [(0, .h), (1, .l)], [(0, .l), (1, .l)], [(0, .l), (1, .h)]⟩ ∧ (blocks 2 0 [] [] [])[8]? = some ⟨8, [(0, .l), (1, .l)], [(0, .l), (1, .l)], [(0, .h), (1, .h)]⟩ := ⟨rfl, rfl⟩

/-- The hypotheses are met by every product of operators of rank 1, here of two unit matrices. -/
example (psi dpsidt : NIdx → ℂ) : ∃ p T, generate 2 = source 2 p ∧ T.rank = 2 ∧ T.dims = [3, 4] ∧ p.exec T psi dpsidt = some (apply T psi dpsidt) := by
  obtain ⟨p, h1, h2⟩ := generate_apply 2 (by norm_num)
  exact ⟨p, ⟨2, [3, 4], [0, 0], 0, fun i => if i = 0 then ⟨[3, 4], fun _ => 1⟩ else Diag.empty 2, fun _ => Diag.empty 2⟩, h1, rfl, rfl, h2 _ rfl rfl rfl psi dpsidt⟩

end CppQED.ApplyGen
