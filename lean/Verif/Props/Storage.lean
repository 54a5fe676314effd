import Verif.Lemmas.Storage

/-!
# Properties C112 and C111 with dimensions, views and products; C124: `std::swap`; C125: the averages of a system that borrows the averages of another one
-/

namespace CppQED.Storage
open Spec Tridiag

/-! ## C112: value semantics -/

/-- **C112.** A program that does not touch variables moved from or referenced (until they are constructed anew) is undefined exactly if it is so with value semantics; and otherwise leaves every variable (but those given away)
with the value it has with value semantics. -/
theorem values (p : List Stmt) (hp : Disciplined (fun _ => False) p) :
    match run p .empty, evalAll p fun _ => none with
    | none, none => True
    | some s, some w => ∀ v, ¬deadAfterAll (fun _ => False) p v → s.value v = w v
    | _, _ => False := by
  have R : Rel (fun _ => False) .empty fun _ => none := ⟨fun _ _ => rfl, empty_allocated, fun v _ h _ _ _ _ e => by cases e⟩
  rcases R.run hp with ⟨h1, h2⟩ | ⟨s, w, h1, h2, R'⟩
  · simp [h1, h2]
  · simp only [h1, h2]; exact R'.val

/-- The program of the example: a product state, a copy of it, an in-place change of the original, the sum of the two; the factors are moved from. -/
noncomputable def exampleProgram : List Stmt :=
  [.declare 0 [2], .update 0 (fun _ => [1, 2]), .moveInit 1 0, .declare 0 [1], .update 0 (fun _ => [3]), .product 2 1 0, .copyInit 3 2, .update 2 (List.map (2 * ·)), .plus 3 2]

example : Disciplined (fun _ => False) exampleProgram := by
  simp [Disciplined, exampleProgram, uses, deadAfter, givesAway, defines]

/-- The copy does not follow its original, and the moved-from variable constructed anew does not disturb the one that it was moved to. -/
example : ∃ s, run exampleProgram .empty = some s ∧ s.value 3 = some ([2, 1], [9, 18]) ∧ s.value 1 = some ([2], [1, 2]) ∧ s.value 2 = some ([2, 1], [6, 12]) := by
  refine ⟨_, rfl, ?_, ?_, ?_⟩ <;> norm_num [State.value, alloc, write, bindVar, Function.update_apply, State.empty, direct]

/-! ## C124: swapping -/

/-- **C124.** `std::swap` of two states of the same dimensions leaves both of them with the value of the second one. -/
theorem swap_result {s s' : State} {t x y : ℕ} {v w : List ℕ × Data} (htx : t ≠ x) (hty : t ≠ y)
    (hx : s.value x = some v) (hy : s.value y = some w) (hs : ∀ h h', s.var x = some h → s.var y = some h' → h.loc ≠ h'.loc) (h : run (swap t x y) s = some s') :
    s'.value x = some w ∧ s'.value y = some w := by
  obtain ⟨a, ha, rfl⟩ := Option.map_eq_some_iff.1 hx
  obtain ⟨b, hb, rfl⟩ := Option.map_eq_some_iff.1 hy
  have hne := hs a b ha hb
  simp only [swap, run, exec, ha, hb, Option.map_some, Option.bind_some, bindVar, write, Function.update_self, Function.update_of_ne htx.symm, Function.update_of_ne hty.symm] at h
  by_cases hd : a.dims = b.dims
  · simp only [hd, if_true, Option.bind_some, Function.update_self, Function.update_of_ne htx.symm, Function.update_of_ne hty.symm, ha, hb, Option.some.injEq] at h
    subst h
    simp [State.value, Function.update_of_ne htx.symm, Function.update_of_ne hty.symm, ha, hb, hne, hd, Function.update_apply]
  · simp [hd] at h

/-- **C124.** It exchanges the two states only if they are equal, when there is nothing to exchange. -/
theorem swap_exchanges_iff {s s' : State} {t x y : ℕ} {v w : List ℕ × Data} (htx : t ≠ x) (hty : t ≠ y)
    (hx : s.value x = some v) (hy : s.value y = some w) (hs : ∀ h h', s.var x = some h → s.var y = some h' → h.loc ≠ h'.loc) (h : run (swap t x y) s = some s') :
    (s'.value x = s.value y ∧ s'.value y = s.value x) ↔ v = w := by
  obtain ⟨h1, h2⟩ := swap_result htx hty hx hy hs h
  rw [h1, h2, hx, hy]
  simp [eq_comm]

/-- **C124 (partial).** With a temporary that is a copy, the two states are exchanged. Missing: `std::swap`, whose temporary is constructed by moving. -/
theorem swap_by_copy_partial {s s' : State} (hr : Reachable s) {t x y : ℕ} {v w : List ℕ × Data} (htx : t ≠ x) (hty : t ≠ y)
    (hx : s.value x = some v) (hy : s.value y = some w) (hs : ∀ h h', s.var x = some h → s.var y = some h' → h.loc ≠ h'.loc)
    (h : run [.copyInit t x, .assign x y, .assign y t] s = some s') : s'.value x = some w ∧ s'.value y = some v := by
  have hal := reachable_allocated hr
  obtain ⟨a, ha, rfl⟩ := Option.map_eq_some_iff.1 hx
  obtain ⟨b, hb, rfl⟩ := Option.map_eq_some_iff.1 hy
  have hne := hs a b ha hb
  have na := (hal x a ha).ne
  have nb := (hal y b hb).ne
  simp only [run, exec, ha, hb, Option.map_some, Option.bind_some, alloc, write, Function.update_self, Function.update_of_ne htx.symm, Function.update_of_ne hty.symm] at h
  by_cases hd : a.dims = b.dims
  · simp only [hd, if_true, Option.bind_some, Function.update_self, Function.update_of_ne htx.symm, Function.update_of_ne hty.symm, ha, hb, Option.some.injEq] at h
    subst h
    simp [State.value, Function.update_of_ne htx.symm, Function.update_of_ne hty.symm, ha, hb, hne, hd, Function.update_apply, na, nb, na.symm, nb.symm]
  · simp [hd] at h

/-- The states 1 and 2 of a single-level system: swapped, both are 2. -/
example : ∃ s, run ([.declare 0 [1], .update 0 (fun _ => [1]), .declare 1 [1], .update 1 (fun _ => [2])] ++ swap 2 0 1) .empty = some s ∧ s.value 0 = some ([1], [2]) ∧ s.value 1 = some ([1], [2]) := by
  refine ⟨_, rfl, ?_, ?_⟩ <;> norm_num [State.value, alloc, write, bindVar, Function.update_apply, State.empty]

/-! ## C111: `evolve` and the state handed to it -/

/-- **C111.** A single Monte Carlo trajectory from a state vector and the Master equation from a density operator work in place: whatever the trajectory does (unless its state gets reseated), the caller's variable has the
trajectory's state, at any time. -/
theorem evolve_in_place {i : Initial} {e : Method} (hie : (i = .stateVector ∧ e = .single) ∨ (i = .densityOperator ∧ e = .master)) {x m : ℕ} (hxm : m ≠ x) {ms : List ℕ} {init q : List Stmt}
    (hi : handOver i e x m ms = .ok init) (hx : ∀ c ∈ q, x ∉ defines c) (hm : ∀ c ∈ q, m ∉ defines c) {s s' : State} (h : run (init ++ q) s = some s') :
    s'.value x = s'.value m ∧ (s'.value x).isSome := by
  have hinit : init = [.moveInit m x] := by
    rcases hie with ⟨rfl, rfl⟩ | ⟨rfl, rfl⟩ <;> (simp only [handOver, Outcome.ok.injEq] at hi; exact hi.symm)
  subst hinit
  obtain ⟨s1, h1, h2⟩ := Option.bind_eq_some_iff.1 h
  obtain ⟨k, hk, rfl⟩ := Option.map_eq_some_iff.1 h1
  have vx := run_var h2 hx
  have vm := run_var h2 hm
  simp only [bindVar, Function.update_self, Function.update_of_ne hxm.symm, hk] at vx vm
  simp [State.value, vx, vm]

theorem run_append (p q : List Stmt) (s : State) : run (p ++ q) s = (run p s).bind (run q) := by
  induction p generalizing s with
  | nil => rfl
  | cons c p ih => simp only [List.cons_append, run, Option.bind_assoc]; congr 1; funext s; exact ih s

/-- **C111.** An ensemble, and the Master equation from a state vector, leave the caller's state as it was, whatever the trajectories do. -/
theorem evolve_separate {e : Method} (he : e ≠ .single) {x m : ℕ} (hxm : m ≠ x) {ms : List ℕ} (hms : x ∉ ms) {init q : List Stmt}
    (hi : handOver .stateVector e x m ms = .ok init) (hq : ∀ c ∈ q, Avoids x c) {s s' : State} (hr : Reachable s) (hu : SharedWithin (· = x) s x) (h : run (init ++ q) s = some s') :
    s'.value x = s.value x := by
  have hal := reachable_allocated hr
  rw [run_append] at h
  obtain ⟨s1, h1, h2⟩ := Option.bind_eq_some_iff.1 h
  have key : ∀ (p : List Stmt), (∀ c ∈ p, ∃ m, m ≠ x ∧ (c = .copyInit m x ∨ c = .dyad m x)) → ∀ s s1, Allocated s → SharedWithin (· = x) s x → run p s = some s1 →
      s1.value x = s.value x ∧ SharedWithin (· = x) s1 x ∧ Allocated s1 := by
    intro p
    induction p with
    | nil => intro _ s s1 a u e; cases e; exact ⟨rfl, u, a⟩
    | cons c p ih =>
      intro hp s s1 a u e
      obtain ⟨s2, e1, e2⟩ := Option.bind_eq_some_iff.1 e
      have a2 := exec_allocated a e1
      obtain ⟨m, hm, hc⟩ := hp c List.mem_cons_self
      have al : ∀ dims d, s2 = alloc s m dims d → s2.value x = s.value x ∧ SharedWithin (· = x) s2 x := by
        rintro dims d rfl
        refine ⟨by rw [value_alloc a, if_neg hm.symm], ?_⟩
        intro v k kv hv f1 f2
        simp only [alloc, Function.update_apply, hm.symm, if_false] at f1 f2
        split_ifs at f2 with h1
        · cases f2; exact (a x k f1).ne'
        · exact u v k kv hv f1 f2
      have b : s2.value x = s.value x ∧ SharedWithin (· = x) s2 x := by
        rcases hc with rfl | rfl
        · obtain ⟨k, _, f⟩ := Option.map_eq_some_iff.1 e1; exact al _ _ f.symm
        · obtain ⟨k, _, f⟩ := Option.map_eq_some_iff.1 e1; exact al _ _ f.symm
      obtain ⟨g1, g2, g3⟩ := ih (fun c hc => hp c (List.mem_cons_of_mem _ hc)) s2 s1 a2 b.2 e2
      exact ⟨g1.trans b.1, g2, g3⟩
  have hp : ∀ c ∈ init, ∃ m, m ≠ x ∧ (c = Stmt.copyInit m x ∨ c = Stmt.dyad m x) := by
    cases e with
    | single => exact absurd rfl he
    | ensemble =>
      simp only [handOver, Outcome.ok.injEq] at hi
      subst hi
      intro c hc
      obtain ⟨k, hk, rfl⟩ := List.mem_map.1 hc
      exact ⟨k, fun e => hms (e ▸ hk), .inl rfl⟩
    | master =>
      simp only [handOver, Outcome.ok.injEq] at hi
      subst hi
      intro c hc
      rw [List.mem_singleton] at hc
      exact ⟨m, hxm, .inr hc⟩
  obtain ⟨g1, g2, g3⟩ := key init hp s s1 hal hu h1
  exact (run_frame (A := (· = x)) g3 h2 (fun c hc v hv => by subst hv; exact hq c hc) rfl g2).1.trans g1

/-- **C111.** So does a trajectory whose state is read from an archive before it is evolved further, whatever the method: it works in the memory of what has been read. -/
theorem evolve_resumed {i : Initial} {e : Method} (hie : (i = .stateVector ∧ e = .single) ∨ (i = .densityOperator ∧ e = .master)) {x m : ℕ} (hxm : m ≠ x) {ms : List ℕ} {init q : List Stmt} {d : Data}
    (hi : handOver i e x m ms = .ok init) (hq : ∀ c ∈ q, Avoids x c) {s s' : State} (hr : Reachable s) (hu : SharedWithin (fun v => v = x ∨ v = m) s x)
    (h : run (init ++ .load m d :: q) s = some s') : s'.value x = s.value x := by
  have hal := reachable_allocated hr
  have hinit : init = [.moveInit m x] := by
    rcases hie with ⟨rfl, rfl⟩ | ⟨rfl, rfl⟩ <;> (simp only [handOver, Outcome.ok.injEq] at hi; exact hi.symm)
  subst hinit
  obtain ⟨s1, h1, h2⟩ := Option.bind_eq_some_iff.1 h
  obtain ⟨k, hk, rfl⟩ := Option.map_eq_some_iff.1 h1
  obtain ⟨s2, h3, h4⟩ := Option.bind_eq_some_iff.1 h2
  have a1 := exec_allocated hal h1
  have a2 := exec_allocated a1 h3
  simp only [exec, bindVar, Function.update_self, Option.bind_some, Option.ite_none_right_eq_some, Option.some.injEq] at h3
  obtain ⟨_, rfl⟩ := h3
  have hv : ∀ {dims d}, (alloc (bindVar s m k) m dims d).value x = s.value x := by
    intro dims d
    rw [value_alloc a1, if_neg hxm.symm, value_bind, if_neg hxm.symm]
  refine (run_frame (A := (· = x)) a2 h4 (fun c hc v hv => by subst hv; exact hq c hc) rfl ?_).1.trans hv
  intro v l lv hvx f1 f2
  simp only [alloc, Function.update_apply, hxm.symm, if_false] at f1 f2
  by_cases hvm : v = m
  · rw [if_pos hvm] at f2; cases f2; exact (hal x l f1).ne'
  · simp only [hvm, if_false] at f2
    exact hu v l lv (by simp [hvx, hvm]) f1 f2

/-- **C111.** A single Monte Carlo trajectory from a density operator is refused, and nothing else is. -/
theorem evolve_refuses (i : Initial) (e : Method) (x m : ℕ) (ms : List ℕ) : handOver i e x m ms = .throw ↔ i = .densityOperator ∧ e = .single := by
  cases i <;> cases e <;> simp [handOver]

/-- A trajectory doubling the amplitudes: the caller's state is doubled with it by `single`, … -/
example : ∃ init s, handOver .stateVector .single 0 1 [] = .ok init ∧
    run ([.declare 0 [2], .update 0 (fun _ => [1, 2])] ++ (init ++ [.update 1 (List.map (2 * ·))])) .empty = some s ∧ s.value 0 = some ([2], [2, 4]) := by
  refine ⟨_, _, rfl, rfl, ?_⟩
  norm_num [State.value, alloc, write, bindVar, Function.update_apply, State.empty]

/-- … but not by `master`, … -/
example : ∃ init s, handOver .stateVector .master 0 1 [] = .ok init ∧
    run ([.declare 0 [2], .update 0 (fun _ => [1, 2])] ++ (init ++ [.update 1 (List.map (2 * ·))])) .empty = some s ∧ s.value 0 = some ([2], [1, 2]) ∧ s.value 1 = some ([2, 2], [2, 4, 4, 8]) := by
  have h2 : (starRingEnd ℂ) 2 = 2 := Complex.conj_ofNat 2
  refine ⟨_, _, rfl, rfl, ?_, ?_⟩ <;> norm_num [State.value, alloc, write, bindVar, Function.update_apply, State.empty, direct, h2]

/-- … nor when resumed from an archive. -/
example : ∃ init s, handOver .stateVector .single 0 1 [] = .ok init ∧
    run ([.declare 0 [2], .update 0 (fun _ => [1, 2])] ++ (init ++ .load 1 [5, 6] :: [.update 1 (List.map (2 * ·))])) .empty = some s ∧ s.value 0 = some ([2], [1, 2]) ∧ s.value 1 = some ([2], [10, 12]) := by
  refine ⟨_, _, rfl, rfl, ?_, ?_⟩ <;> norm_num [State.value, alloc, write, bindVar, Function.update_apply, State.empty]

/-! ## C125: borrowed averages -/

/-- **C125 (partial).** The script that evolves a one-index view `y` of the state `x` as a single trajectory from its beginning, with the averages borrowed in `x`: at any time, the averages are those of the trajectory's state,
taken with the dimensions of `x`. Missing: the other methods and resumed runs, for which see `borrowed_averages_frozen` and `borrowed_averages_resumed`. -/
theorem borrowed_averages_partial {α : Type*} (average : List ℕ × Data → α) {x y m : ℕ} (hxy : x ≠ y) (hxm : x ≠ m) {ms : List ℕ} {init q : List Stmt}
    (hi : handOver .stateVector .single y m ms = .ok init) (hx : ∀ c ∈ q, x ∉ defines c) (hm : ∀ c ∈ q, m ∉ defines c) {s s' : State} {v : List ℕ × Data} (hv : s.value x = some v)
    (h : run (.view y x :: init ++ q) s = some s') : ∃ d, s'.value m = some ([v.1.prod], d) ∧ transferring average x s' m = some (average (v.1, d)) := by
  simp only [handOver, Outcome.ok.injEq] at hi
  subst hi
  obtain ⟨s1, h1, h2⟩ := Option.bind_eq_some_iff.1 h
  obtain ⟨k, hk, rfl⟩ := Option.map_eq_some_iff.1 h1
  obtain ⟨s2, h3, h4⟩ := Option.bind_eq_some_iff.1 h2
  obtain ⟨l, hl, rfl⟩ := Option.map_eq_some_iff.1 h3
  have vx := run_var h4 hx
  have vm := run_var h4 hm
  simp only [bindVar, Function.update_self, Option.some.injEq] at hl
  subst hl
  simp only [bindVar, Function.update_self, Function.update_of_ne hxy, Function.update_of_ne hxm, hk] at vx vm
  simp only [State.value, hk, Option.map_some, Option.some.injEq] at hv
  subst hv
  exact ⟨s'.cell k.loc, by simp [State.value, vm], by simp [transferring, State.value, vx]⟩

/-- **C125.** With the other methods, the averages are those of the initial state for ever, whatever becomes of the trajectories' states. -/
theorem borrowed_averages_frozen {α : Type*} (average : List ℕ × Data → α) {e : Method} (he : e ≠ .single) {x y m : ℕ} (hxy : y ≠ x) (hxm : m ≠ x) (hym : m ≠ y) {ms : List ℕ} (hmx : x ∉ ms) (hmy : y ∉ ms)
    {init q : List Stmt} (hi : handOver .stateVector e y m ms = .ok init) (hq : ∀ c ∈ q, Avoids x c ∧ Avoids y c) {s s' : State} (hr : Reachable s) (hu : SharedWithin (fun v => v = x ∨ v = y) s x)
    (h : run (.view y x :: init ++ q) s = some s') (a : ℕ) : transferring average x s' a = transferring average x s a := by
  have hal := reachable_allocated hr
  obtain ⟨s1, h1, h2⟩ := Option.bind_eq_some_iff.1 h
  have a1 := exec_allocated hal h1
  have e1 : s1.value x = s.value x ∧ SharedWithin (fun v => v = x ∨ v = y) s1 x := by
    obtain ⟨k, hk, rfl⟩ := Option.map_eq_some_iff.1 h1
    refine ⟨by rw [value_bind, if_neg hxy.symm], ?_⟩
    intro v l lv hv f1 f2
    push Not at hv
    simp only [bindVar, Function.update_apply, hxy.symm, hv.2, if_false] at f1 f2
    exact hu v l lv (by simp [hv]) f1 f2
  obtain ⟨s2, h3, h4⟩ := Option.bind_eq_some_iff.1 ((run_append init q s1).symm.trans h2)
  have key : ∀ (p : List Stmt), (∀ c ∈ p, ∃ m, m ≠ x ∧ m ≠ y ∧ (c = .copyInit m y ∨ c = .dyad m y)) → ∀ s s1, Allocated s → SharedWithin (fun v => v = x ∨ v = y) s x → run p s = some s1 →
      s1.value x = s.value x ∧ SharedWithin (fun v => v = x ∨ v = y) s1 x ∧ Allocated s1 := by
    intro p
    induction p with
    | nil => intro _ s s1 a u e; cases e; exact ⟨rfl, u, a⟩
    | cons c p ih =>
      intro hp s s1 a u e
      obtain ⟨s2, e1, e2⟩ := Option.bind_eq_some_iff.1 e
      have a2 := exec_allocated a e1
      obtain ⟨m, hm, hm', hc⟩ := hp c List.mem_cons_self
      have al : ∀ dims d, s2 = alloc s m dims d → s2.value x = s.value x ∧ SharedWithin (fun v => v = x ∨ v = y) s2 x := by
        rintro dims d rfl
        refine ⟨by rw [value_alloc a, if_neg hm.symm], ?_⟩
        intro v k kv hv f1 f2
        simp only [alloc, Function.update_apply, hm.symm, if_false] at f1 f2
        split_ifs at f2 with h1
        · cases f2; exact (a x k f1).ne'
        · exact u v k kv hv f1 f2
      have b : s2.value x = s.value x ∧ SharedWithin (fun v => v = x ∨ v = y) s2 x := by
        rcases hc with rfl | rfl
        · obtain ⟨k, _, f⟩ := Option.map_eq_some_iff.1 e1; exact al _ _ f.symm
        · obtain ⟨k, _, f⟩ := Option.map_eq_some_iff.1 e1; exact al _ _ f.symm
      obtain ⟨g1, g2, g3⟩ := ih (fun c hc => hp c (List.mem_cons_of_mem _ hc)) s2 s1 a2 b.2 e2
      exact ⟨g1.trans b.1, g2, g3⟩
  have hp : ∀ c ∈ init, ∃ m, m ≠ x ∧ m ≠ y ∧ (c = Stmt.copyInit m y ∨ c = Stmt.dyad m y) := by
    cases e with
    | single => exact absurd rfl he
    | ensemble =>
      simp only [handOver, Outcome.ok.injEq] at hi
      subst hi
      intro c hc
      obtain ⟨k, hk, rfl⟩ := List.mem_map.1 hc
      exact ⟨k, fun e => hmx (e ▸ hk), fun e => hmy (e ▸ hk), .inl rfl⟩
    | master =>
      simp only [handOver, Outcome.ok.injEq] at hi
      subst hi
      intro c hc
      rw [List.mem_singleton] at hc
      exact ⟨m, hxm, hym, .inr hc⟩
  obtain ⟨g1, g2, g3⟩ := key init hp s1 s2 a1 e1.2 h3
  have := (run_frame g3 h4 (fun c hc v hv => by rcases hv with rfl | rfl; exacts [(hq c hc).1, (hq c hc).2]) (.inl rfl) g2).1
  rw [transferring, transferring, this, g1, e1.1]

/-- **C125.** The same holds for a single trajectory that is resumed from an archive. -/
theorem borrowed_averages_resumed {α : Type*} (average : List ℕ × Data → α) {x y m : ℕ} (hxy : y ≠ x) (hxm : m ≠ x) (hym : m ≠ y) {ms : List ℕ} {d : Data}
    {init q : List Stmt} (hi : handOver .stateVector .single y m ms = .ok init) (hq : ∀ c ∈ q, Avoids x c ∧ Avoids y c) {s s' : State} (hr : Reachable s)
    (hu : SharedWithin (fun v => v = x ∨ v = y ∨ v = m) s x) (h : run (.view y x :: init ++ .load m d :: q) s = some s') (a : ℕ) : transferring average x s' a = transferring average x s a := by
  have hal := reachable_allocated hr
  simp only [handOver, Outcome.ok.injEq] at hi
  subst hi
  obtain ⟨s1, h1, h2⟩ := Option.bind_eq_some_iff.1 h
  have a1 := exec_allocated hal h1
  obtain ⟨k, hk, rfl⟩ := Option.map_eq_some_iff.1 h1
  obtain ⟨s2, h3, h4⟩ := Option.bind_eq_some_iff.1 h2
  have a2 := exec_allocated a1 h3
  obtain ⟨l, hl, rfl⟩ := Option.map_eq_some_iff.1 h3
  obtain ⟨s3, h5, h6⟩ := Option.bind_eq_some_iff.1 h4
  have a3 := exec_allocated a2 h5
  simp only [exec, bindVar, Function.update_self, Option.bind_some, Option.ite_none_right_eq_some, Option.some.injEq] at h5
  obtain ⟨_, rfl⟩ := h5
  have hv : ∀ {dims d}, (alloc (bindVar (bindVar s y ⟨[k.dims.prod], k.loc⟩) m l) m dims d).value x = s.value x := by
    intro dims d
    rw [value_alloc a2, if_neg hxm.symm, value_bind, if_neg hxm.symm, value_bind, if_neg hxy.symm]
  have := (run_frame (A := fun v => v = x ∨ v = y) a3 h6 (fun c hc v hv => by rcases hv with rfl | rfl; exacts [(hq c hc).1, (hq c hc).2]) (x := x) (.inl rfl) ?_).1.trans hv
  · rw [transferring, transferring, this]
  intro v j jv hvx f1 f2
  push Not at hvx
  simp only [alloc, Function.update_apply, hxm.symm, hxy.symm, hvx.2, if_false] at f1 f2
  by_cases hvm : v = m
  · rw [if_pos hvm] at f2; cases f2; exact (hal x j f1).ne'
  · simp only [hvm, if_false] at f2
    exact hu v j jv (by simp [hvx, hvm]) f1 f2

/-- The script with a trajectory that doubles the amplitudes: the borrowed averages (here all of the data) follow it if it is a single trajectory, … -/
example : ∃ init s, handOver .stateVector .single 1 2 [] = .ok init ∧
    run ([.declare 0 [2, 1], .update 0 (fun _ => [1, 2])] ++ (.view 1 0 :: init ++ [.update 2 (List.map (2 * ·))])) .empty = some s ∧ transferring id 0 s 2 = some ([2, 1], [2, 4]) := by
  refine ⟨_, _, rfl, rfl, ?_⟩
  norm_num [transferring, State.value, alloc, write, bindVar, Function.update_apply, State.empty]

/-- … and do not with the Master equation. -/
example : ∃ init s, handOver .stateVector .master 1 2 [] = .ok init ∧
    run ([.declare 0 [2, 1], .update 0 (fun _ => [1, 2])] ++ (.view 1 0 :: init ++ [.update 2 (List.map (2 * ·))])) .empty = some s ∧ transferring id 0 s 2 = some ([2, 1], [1, 2]) := by
  refine ⟨_, _, rfl, rfl, ?_⟩
  norm_num [transferring, State.value, alloc, write, bindVar, Function.update_apply, State.empty]

end CppQED.Storage
