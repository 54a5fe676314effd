import Verif.Lemmas.Aliasing
import Verif.Spec.ValueSemantics
import Mathlib.Tactic.NormNum
import Mathlib.Tactic.IntervalCases

/-! # C111, C112, C113, C114: storage of state vectors, and what `evolve` does with its argument -/

namespace CppQED.Alias
open Spec

section values
variable {V : Type*}

/-- A store with no variables. -/
def empty (v : V) : Store V := ⟨⟨0, fun _ => v⟩, 0, fun _ => 0⟩

/-- The store shows the values of the variables that can be used, which are in different blocks. -/
def Shows (live : Set ℕ) (s : Store V) (e : Env V) : Prop :=
  s.count = e.2 ∧ (∀ x ∈ live, x < s.count ∧ s.ref x < s.mem.next ∧ read s x = e.1 x) ∧ ∀ x ∈ live, ∀ y ∈ live, x ≠ y → s.ref x ≠ s.ref y

theorem exec_shows {live : Set ℕ} {s : Store V} {e : Env V} (h : Shows live s e) (c : Stmt V) (hc : allowed live c) : Shows (after live s.count c) (exec s c) (run e c) := by
  obtain ⟨h1, h2, h3⟩ := h
  have fresh : ∀ v : V, Shows (live ∪ {s.count}) (bindNew s (alloc s.mem v)) (Function.update e.1 e.2 v, e.2 + 1) := by
    intro v
    refine ⟨by simp [bindNew, h1], ?_, ?_⟩
    · intro x hx
      rcases hx with hx | hx
      · obtain ⟨a, b, c⟩ := h2 x hx
        have hx' : x ≠ s.count := by omega
        have hr : s.ref x ≠ s.mem.next := by omega
        refine ⟨by simp only [bindNew]; omega, by simp [bindNew, hx', alloc]; omega, ?_⟩
        simp only [read, bindNew, alloc, Function.update_of_ne hx', Function.update_of_ne hr, ← h1] at c ⊢
        exact c
      · rw [Set.mem_singleton_iff] at hx
        subst hx
        exact ⟨by simp [bindNew], by simp [bindNew, alloc], by simp [read, bindNew, alloc, h1]⟩
    · have key : ∀ x ∈ live, (bindNew s (alloc s.mem v)).ref x = s.ref x ∧ s.ref x < s.mem.next := by
        intro x hx
        obtain ⟨a, b, c⟩ := h2 x hx
        have hx' : x ≠ s.count := by omega
        exact ⟨by simp [bindNew, hx'], b⟩
      have self : (bindNew s (alloc s.mem v)).ref s.count = s.mem.next := by simp [bindNew, alloc]
      rintro x (hx | hx) y (hy | hy) hxy
      · rw [(key x hx).1, (key y hy).1]; exact h3 x hx y hy hxy
      · rw [Set.mem_singleton_iff] at hy
        rw [hy, self, (key x hx).1]
        have := (key x hx).2
        omega
      · rw [Set.mem_singleton_iff] at hx
        rw [hx, self, (key y hy).1]
        have := (key y hy).2
        omega
      · rw [Set.mem_singleton_iff] at hx hy
        exact absurd (hx.trans hy.symm) hxy
  have overwrite : ∀ x ∈ live, ∀ v : V, Shows live { s with mem := write s.mem (s.ref x) v } (Function.update e.1 x v, e.2) := by
    intro x hx v
    refine ⟨h1, ?_, h3⟩
    intro y hy
    obtain ⟨a, b, c⟩ := h2 y hy
    refine ⟨a, b, ?_⟩
    by_cases hxy : y = x
    · subst hxy
      simp [read, write]
    · have hr : s.ref y ≠ s.ref x := h3 y hy x hx hxy
      simp only [read, write, Function.update_of_ne hxy, Function.update_of_ne hr]
      exact c
  have val : ∀ x ∈ live, s.mem.cell (s.ref x) = e.1 x := fun x hx => (h2 x hx).2.2
  cases c with
  | declare v => exact fresh v
  | copy x =>
    have := fresh (s.mem.cell (s.ref x))
    rw [val x hc] at this
    simp only [exec, copyCtor, run, after, val x hc]
    exact this
  | move x =>
    have hx : x ∈ live := hc
    refine ⟨by simp [exec, bindNew, run, h1], ?_, ?_⟩
    · rintro y (⟨hy, hyx⟩ | hy)
      · obtain ⟨a, b, c⟩ := h2 y hy
        have hy' : y ≠ s.count := by omega
        refine ⟨by simp only [exec, bindNew]; omega, by simp [exec, bindNew, hy']; exact b, ?_⟩
        simp only [read, exec, bindNew, run, Function.update_of_ne hy', ← h1] at c ⊢
        exact c
      · rw [Set.mem_singleton_iff] at hy
        subst hy
        refine ⟨by simp [exec, bindNew], by simp [exec, bindNew, moveCtor]; exact (h2 x hx).2.1, ?_⟩
        simp only [read, exec, bindNew, run, moveCtor, Function.update_self, ← h1]
        exact val x hx
    · have key : ∀ y ∈ live, (exec s (.move x)).ref y = s.ref y := by
        intro y hy
        have : y ≠ s.count := by have := (h2 y hy).1; omega
        simp [exec, bindNew, this]
      have self : (exec s (.move x)).ref s.count = s.ref x := by simp [exec, bindNew, moveCtor]
      rintro y (⟨hy, hyx⟩ | hy) z (⟨hz, hzx⟩ | hz) hyz
      · rw [key y hy, key z hz]; exact h3 y hy z hz hyz
      · rw [Set.mem_singleton_iff] at hz
        rw [hz, self, key y hy]; exact h3 y hy x hx hyx
      · rw [Set.mem_singleton_iff] at hy
        rw [hy, self, key z hz]; exact h3 x hx z hz (Ne.symm hzx)
      · rw [Set.mem_singleton_iff] at hy hz
        exact absurd (hy.trans hz.symm) hyz
  | assign x y =>
    have := overwrite x hc.1 (s.mem.cell (s.ref y))
    rw [val y hc.2] at this
    simp only [exec, assign, run, after, val y hc.2]
    exact this
  | moveAssign x y =>
    have := overwrite x hc.1 (s.mem.cell (s.ref y))
    rw [val y hc.2] at this
    simp only [exec, assign, run, after, val y hc.2]
    exact this
  | modify x f =>
    have := overwrite x hc (f (s.mem.cell (s.ref x)))
    rw [val x hc] at this
    simp only [exec, modify, run, after, val x hc]
    exact this
  | combine x y f =>
    have := overwrite x hc.1 (f (s.mem.cell (s.ref x)) (s.mem.cell (s.ref y)))
    rw [val x hc.1, val y hc.2] at this
    simp only [exec, run, after, val x hc.1, val y hc.2]
    exact this
  | reference x y =>
    obtain ⟨hx, hy, hxy⟩ := hc
    refine ⟨h1, ?_, ?_⟩
    · rintro z ⟨hz, hzy⟩
      obtain ⟨a, b, c⟩ := h2 z hz
      by_cases hzx : z = x
      · subst hzx
        refine ⟨a, by simp [exec]; exact (h2 y hy).2.1, ?_⟩
        simp only [read, exec, run, Function.update_self]
        exact val y hy
      · refine ⟨a, by simp [exec, hzx]; exact b, ?_⟩
        simp only [read, exec, run, Function.update_of_ne hzx]
        exact c
    · rintro z ⟨hz, hzy⟩ w ⟨hw, hwy⟩ hzw
      have hzy' : z ≠ y := hzy
      have hwy' : w ≠ y := hwy
      simp only [exec]
      by_cases hzx : z = x
      · have hwx : w ≠ x := fun hh => hzw (hzx.trans hh.symm)
        rw [hzx, Function.update_self, Function.update_of_ne hwx]
        exact h3 y hy w hw (Ne.symm hwy')
      · rw [Function.update_of_ne hzx]
        by_cases hwx : w = x
        · rw [hwx, Function.update_self]
          exact h3 z hz y hy hzy'
        · rw [Function.update_of_ne hwx]
          exact h3 z hz w hw hzw

theorem exec_count (s : Store V) (c : Stmt V) : (exec s c).count = size s.count c := by cases c <;> rfl

theorem execAll_shows {final : Set ℕ} : ∀ (p : List (Stmt V)) (live : Set ℕ) (s : Store V) (e : Env V), Shows live s e → WellUsed final live s.count p →
    Shows final (execAll s p) (runAll e p)
  | [], live, s, e, h, hw => by
    have : final = live := hw
    rw [this]
    exact h
  | c :: p, live, s, e, h, hw => by
    have h' := exec_shows h c hw.1
    exact execAll_shows p _ (exec s c) (run e c) h' (by rw [exec_count]; exact hw.2)

/-- C112: a program of any length on state vectors (copies, assignments of lvalues and of rvalues, arithmetic in place, moves and references) gives every variable the value it would have if
the variables held values of their own, as long as no variable is touched after its content has been moved or referenced into another one. -/
theorem value_semantics (v : V) (p : List (Stmt V)) (final : Set ℕ) (h : WellUsed final ∅ 0 p) (x : ℕ) (hx : x ∈ final) :
    read (execAll (empty v) p) x = (runAll (fun _ => v, 0) p).1 x :=
  ((execAll_shows p ∅ (empty v) (fun _ => v, 0) ⟨rfl, fun _ hx => hx.elim, fun _ hx => hx.elim⟩ h).2.1 x hx).2.2

/-- C112: after `StateVector y(std::move(x))`, `x` and `y` show the same elements forever, whatever the program does, unless one of them is made to reference another array. -/
theorem moved_alias (s : Store V) (x : ℕ) (p : List (Stmt V)) (hx : x < s.count)
    (hp : ∀ z w, Stmt.reference z w ∈ p → z ≠ x ∧ z ≠ s.count) : read (execAll (exec s (.move x)) p) x = read (execAll (exec s (.move x)) p) s.count := by
  have h0 : (exec s (.move x)).ref x = (exec s (.move x)).ref s.count := by
    have : x ≠ s.count := by omega
    simp [exec, bindNew, moveCtor, this]
  have hc : s.count < (exec s (.move x)).count := by simp [exec, bindNew]
  suffices H : ∀ (p : List (Stmt V)) (q : Store V), q.ref x = q.ref s.count → s.count < q.count → (∀ z w, Stmt.reference z w ∈ p → z ≠ x ∧ z ≠ s.count) →
      (execAll q p).ref x = (execAll q p).ref s.count by
    simp only [read, H p _ h0 hc hp]
  intro p
  induction p with
  | nil => intro q h _ _; exact h
  | cons c p ih =>
    intro q h hq hp
    refine ih (exec q c) ?_ ?_ (fun z w hz => hp z w (List.mem_cons_of_mem _ hz))
    · have e1 : x ≠ q.count := by omega
      have e2 : s.count ≠ q.count := by omega
      cases c with
      | reference z w =>
        obtain ⟨a, b⟩ := hp z w List.mem_cons_self
        simp [exec, a.symm, b.symm, h]
      | declare v => simp [exec, bindNew, e1, e2, h]
      | copy z => simp [exec, bindNew, e1, e2, h]
      | move z => simp [exec, bindNew, e1, e2, h]
      | _ => exact h
    · rw [exec_count]
      cases c <;> simp only [size] <;> omega

/-- The hypotheses are met: the state psi, a cached copy, an in-place change, and the restoring of the cached value. -/
example : WellUsed {0, 1} ∅ 0 [Stmt.declare (5 : ℕ), .copy 0, .modify 0 (· + 1), .assign 0 1] ∧
    read (execAll (empty 0) [Stmt.declare (5 : ℕ), .copy 0, .modify 0 (· + 1)]) 0 = 6 ∧ read (execAll (empty 0) [Stmt.declare (5 : ℕ), .copy 0, .modify 0 (· + 1)]) 1 = 5 ∧
    read (execAll (empty 0) [Stmt.declare (5 : ℕ), .copy 0, .modify 0 (· + 1), .assign 0 1]) 0 = 5 := by
  refine ⟨?_, rfl, rfl, rfl⟩
  refine ⟨trivial, by simp [allowed, after], by simp [allowed, after], by simp [allowed, after, size], ?_⟩
  simp only [after, size, WellUsed]
  ext x
  simp
  tauto

/-- The restriction is needed: with a moved-from variable, an assignment to the one changes the other. -/
example : read (execAll (empty 0) [Stmt.declare (5 : ℕ), .move 0, .modify 1 (· + 1)]) 0 = 6 := rfl

end values

section single
variable {ι κ : Type*} [Fintype ι]

/-- The initial state of a single trajectory made from variable `u` by `evolve`. -/
noncomputable abbrev startOf (S : MCWF.Sys ι κ) (L : MCWF.Lim) (ces : κ) (dtInit : ℝ) (m : Mem (ι → ℂ)) (u : ℕ) : MCWF.St ι κ := MCWF.construct S L (m.cell u) ces dtInit

/-- C111: `evolve` of a single trajectory from the state vector in block `u` runs exactly if the trajectory defined on values does, and then, if no state is loaded, the very argument holds the
final state of the trajectory, and no other state vector of the program has changed. -/
theorem single_inout (S : MCWF.Sys ι κ) (L : MCWF.Lim) (sample : ℕ → ℝ) (fuel n : ℕ) (ces : κ) (dtInit : ℝ) (m : Mem (ι → ℂ)) (u : ℕ) (hu : u < m.next)
    (ops : List (Op (MCWF.Record ι κ))) (hs : ∀ op ∈ ops, ∃ Dt, op = .step Dt) :
    let c := construct S L ces dtInit m u
    let run := runObj (step S L sample fuel n) load ops c.1 c.2
    let value := runValue (MCWF.step S L sample fuel n) MCWF.load ops (startOf S L ces dtInit m u)
    (run = none ↔ value = none) ∧
    ∀ r, run = some r → ∃ x, value = some x ∧ r.1.cell u = x.psi ∧ ∀ k < m.next, k ≠ u → r.1.cell k = m.cell k := by
  intro c run value
  obtain ⟨c1, c2, c3⟩ := construct_ref S L ces dtInit m u hu
  have hl : c.2.loc < c.1.next := by
    have := c3.1
    simp only [c] at *
    omega
  obtain ⟨h1, h2⟩ := (mcwf_sound S L sample fuel n).run ops c.1 c.2 hl
  have hv : view c.1 c.2 = startOf S L ces dtInit m u := c1
  rw [hv] at h1
  refine ⟨?_, ?_⟩
  · simp only [value, ← h1, run, Option.map_eq_none_iff]
  · intro r hr
    have hr' : runObj (step S L sample fuel n) load ops c.1 c.2 = some r := hr
    have hloc := (mcwf_sound S L sample fuel n).only_steps ops c.1 c.2 hl hs r hr'
    obtain ⟨hf, -, -⟩ := h2 r hr'
    have hcu : c.2.loc = u := c2
    rw [hr'] at h1
    refine ⟨view r.1 r.2, h1.symm, ?_, ?_⟩
    · simp only [view]
      rw [hloc, hcu]
    · intro k hk hku
      rw [hf.2 k (lt_of_lt_of_le hk c3.1) (by rw [hcu]; exact hku), c3.2 k hk]

/-- C113 (partial): with a state loaded after any number of steps, the argument keeps the state before the loading, and never sees the later evolution, although the trajectory goes on correctly. -/
theorem single_loaded (S : MCWF.Sys ι κ) (L : MCWF.Lim) (sample : ℕ → ℝ) (fuel n : ℕ) (ces : κ) (dtInit : ℝ) (m : Mem (ι → ℂ)) (u : ℕ) (hu : u < m.next)
    (pre post : List (Op (MCWF.Record ι κ))) (hs : ∀ op ∈ pre, ∃ Dt, op = .step Dt) (q : MCWF.Record ι κ) :
    let c := construct S L ces dtInit m u
    ∀ r, runObj (step S L sample fuel n) load (pre ++ .load q :: post) c.1 c.2 = some r →
      (∃ x, runValue (MCWF.step S L sample fuel n) MCWF.load pre (startOf S L ces dtInit m u) = some x ∧ r.1.cell u = x.psi) ∧
      runValue (MCWF.step S L sample fuel n) MCWF.load (pre ++ .load q :: post) (startOf S L ces dtInit m u) = some (view r.1 r.2) := by
  intro c r hr
  obtain ⟨c1, c2, c3⟩ := construct_ref S L ces dtInit m u hu
  have hl : c.2.loc < c.1.next := by
    have := c3.1
    simp only [c] at *
    omega
  have hv : view c.1 c.2 = startOf S L ces dtInit m u := c1
  have hall := (mcwf_sound S L sample fuel n).run (pre ++ .load q :: post) c.1 c.2 hl
  rw [hr, hv] at hall
  refine ⟨?_, hall.1.symm⟩
  rw [runObj_append] at hr
  obtain ⟨s, hs', hr⟩ := Option.bind_eq_some_iff.mp hr
  obtain ⟨-, hpre⟩ := single_inout S L sample fuel n ces dtInit m u hu pre hs
  obtain ⟨x, hx, hxu, -⟩ := hpre s hs'
  refine ⟨x, hx, ?_⟩
  have hk := (mcwf_sound S L sample fuel n).after_load q post s.1 s.2 r hr
  have hf := ((mcwf_sound S L sample fuel n).run pre c.1 c.2 hl).2 s hs'
  rw [hk.2 u (lt_of_lt_of_le (lt_of_lt_of_le hu c3.1) hf.1.1), hxu]

/-- C113 (partial): in particular, a run beginning with a state file leaves the argument of `evolve` as it was, so that the evolved state cannot be accessed through it. -/
theorem evolved_state_accessible_partial (S : MCWF.Sys ι κ) (L : MCWF.Lim) (sample : ℕ → ℝ) (fuel n : ℕ) (ces : κ) (dtInit : ℝ) (m : Mem (ι → ℂ)) (u : ℕ) (hu : u < m.next)
    (ops : List (Op (MCWF.Record ι κ))) :
    let c := construct S L ces dtInit m u
    ((∀ op ∈ ops, ∃ Dt, op = .step Dt) → ∀ r, runObj (step S L sample fuel n) load ops c.1 c.2 = some r → r.1.cell u = (view r.1 r.2).psi) ∧
    ∀ q r, runObj (step S L sample fuel n) load (.load q :: ops) c.1 c.2 = some r → r.1.cell u = m.cell u := by
  intro c
  refine ⟨fun hs r hr => ?_, fun q r hr => ?_⟩
  · obtain ⟨c1, c2, c3⟩ := construct_ref S L ces dtInit m u hu
    have hl : c.2.loc < c.1.next := by
      have := c3.1
      simp only [c] at *
      omega
    have hloc := (mcwf_sound S L sample fuel n).only_steps ops c.1 c.2 hl hs r hr
    have hcu : c.2.loc = u := c2
    simp only [view]
    rw [hloc, hcu]
  · obtain ⟨c1, c2, c3⟩ := construct_ref S L ces dtInit m u hu
    have hk := (mcwf_sound S L sample fuel n).after_load q ops c.1 c.2 r hr
    rw [hk.2 u (lt_of_lt_of_le hu c3.1), c3.2 u hu]

end single

section ensemble
variable {ι κ : Type*} [Fintype ι]

/-- The history of member `i` alone: its own operations, in their order, on values. -/
noncomputable abbrev memberRun (S : MCWF.Sys ι κ) (L : MCWF.Lim) (sample : ℕ → ℕ → ℝ) (fuel n : ℕ) (i : ℕ) (ops : List (ℕ × Op (MCWF.Record ι κ))) (x : MCWF.St ι κ) :
    Option (MCWF.St ι κ) := runValue (MCWF.step S L (sample i) fuel n) MCWF.load ((ops.filter fun y => y.1 == i).map Prod.snd) x

/-- C114: the members of an ensemble made from `psi` do not interfere, in whatever order they are stepped and loaded, and however the vector of the members got reallocated while it was built: at
the end each of the `N` members is in the state its own operations lead to, from the initial state made from `psi`, as if it were alone; and no state vector of the program (not even `psi`) has
changed. -/
theorem ensemble_members (S : MCWF.Sys ι κ) (L : MCWF.Lim) (sample : ℕ → ℕ → ℝ) (fuel n : ℕ) (ces : κ) (dtInit : ℝ) (grows : ℕ → Bool) (m : Mem (ι → ℂ)) (u : ℕ) (hu : u < m.next)
    (N : ℕ) (ops : List (ℕ × Op (MCWF.Record ι κ))) :
    let e := makeEnsemble S L ces dtInit grows u N m
    let run := runMany (fun i => step S L (sample i) fuel n) load ops e.1 e.2
    (run = none → ∃ i < N, memberRun S L sample fuel n i ops (startOf S L ces dtInit m u) = none) ∧
    ∀ m' os, run = some (m', os) → os.length = N ∧
      (∀ i < N, ∃ o, os[i]? = some o ∧ memberRun S L sample fuel n i ops (startOf S L ces dtInit m u) = some (view m' o)) ∧
      ∀ k < m.next, m'.cell k = m.cell k := by
  intro e run
  obtain ⟨e1, e2, e3⟩ := makeEnsemble_ref S L ces dtInit grows u m hu N
  obtain ⟨h1, h2⟩ := runMany_sound (fun i => mcwf_sound S L (sample i) fuel n) ops e.1 e.2 e3.1
  have hget : ∀ i < N, ∃ o, e.2[i]? = some o := fun i hi => ⟨_, List.getElem?_eq_getElem (by rw [e2]; exact hi)⟩
  have hview : ∀ i o, e.2[i]? = some o → view e.1 o = startOf S L ces dtInit m u := fun i o ho => (e3.2 o (List.mem_of_getElem? ho)).2
  refine ⟨fun hn => ?_, fun m' os hs => ?_⟩
  · obtain ⟨i, o, ho, hv⟩ := h1 hn
    rw [hview i o ho] at hv
    have hi : i < N := by
      obtain ⟨h, -⟩ := List.getElem?_eq_some_iff.mp ho
      rw [e2] at h
      exact h
    exact ⟨i, hi, hv⟩
  · obtain ⟨a, b, c, d, f⟩ := h2 m' os hs
    refine ⟨a.trans e2, fun i hi => ?_, fun k hk => ?_⟩
    · obtain ⟨o, ho⟩ := hget i hi
      obtain ⟨o', h3, h4⟩ := f i o ho
      rw [hview i o ho] at h4
      exact ⟨o', h3, h4⟩
    · rw [d k (lt_of_lt_of_le hk e1.1) ?_, e1.2 k hk]
      intro o ho
      have := (e3.2 o ho).1
      omega

end ensemble

section master
variable {n : ℕ} {κ : Type*}

/-- C111: `evolve` with the Master equation from the density operator in block `u`: if no state is loaded, the very argument holds the final state, and no other density operator of the program
has changed. -/
theorem master_inout (solver : (ℝ → Master.Rho n → Master.Rho n) → ODE.Stepper (Master.Rho n) κ) (S : Master.Sys n) (fuel : ℕ) (dimsAgree : Bool) (ode : ODE.Engine κ)
    (m : Mem (Master.Rho n)) (u : ℕ) (hu : u < m.next) (ops : List (Op (Master.Rho n × ℝ × ODE.Engine κ))) (hs : ∀ op ∈ ops, ∃ Dt, op = .step Dt) :
    (mconstruct S dimsAgree ode u = none ↔ Master.construct S dimsAgree (m.cell u) ode = none) ∧
    ∀ o x, mconstruct S dimsAgree ode u = some o → Master.construct S dimsAgree (m.cell u) ode = some x →
      let run := runObj (mstep solver S fuel) mload ops m o
      let value := runValue (Master.step solver S fuel) Master.load ops x
      (run = none ↔ value = none) ∧
      ∀ r, run = some r → ∃ y, value = some y ∧ r.1.cell u = y.rho ∧ ∀ k < m.next, k ≠ u → r.1.cell k = m.cell k := by
  refine ⟨?_, ?_⟩
  · unfold mconstruct Master.construct
    split
    · simp
    · split <;> simp
  · intro o x ho hx run value
    have hox : o.loc = u ∧ mview m o = x := by
      unfold mconstruct at ho
      unfold Master.construct at hx
      by_cases c1 : S.ex.isSome ∧ S.exApplicable = false
      · simp [c1] at ho
      · by_cases c2 : dimsAgree = false
        · simp [c2] at ho
        · rw [if_neg c1, if_neg c2] at ho hx
          cases ho
          cases hx
          exact ⟨rfl, rfl⟩
    obtain ⟨rfl, rfl⟩ := hox
    obtain ⟨h1, h2⟩ := (master_sound solver S fuel).run ops m o hu
    refine ⟨?_, ?_⟩
    · simp only [value, ← h1, run, Option.map_eq_none_iff]
    · intro r hr
      have hr' : runObj (mstep solver S fuel) mload ops m o = some r := hr
      have hloc := (master_sound solver S fuel).only_steps ops m o hu hs r hr'
      obtain ⟨hf, -, -⟩ := h2 r hr'
      rw [hr'] at h1
      refine ⟨mview r.1 r.2, h1.symm, ?_, fun k hk hku => hf.2 k hk hku⟩
      simp only [mview]
      rw [hloc]

/-- C113 (partial): … but if the run begins with the loading of a state, the argument stays as it was, and so do all the other density operators of the program. -/
theorem master_loaded (solver : (ℝ → Master.Rho n → Master.Rho n) → ODE.Stepper (Master.Rho n) κ) (S : Master.Sys n) (fuel : ℕ)
    (m : Mem (Master.Rho n)) (o : MObj κ) (ops : List (Op (Master.Rho n × ℝ × ODE.Engine κ))) (q : Master.Rho n × ℝ × ODE.Engine κ) :
    ∀ r, runObj (mstep solver S fuel) mload (.load q :: ops) m o = some r → ∀ k < m.next, r.1.cell k = m.cell k :=
  fun r hr => ((master_sound solver S fuel).after_load q ops m o r hr).2

/-- C111: `evolve` with the Master equation from a state vector makes a density operator of its own (in a new block, holding `rho0`, the dyad): whatever happens, no density operator of the
program changes. -/
theorem master_from_psi (solver : (ℝ → Master.Rho n → Master.Rho n) → ODE.Stepper (Master.Rho n) κ) (S : Master.Sys n) (fuel : ℕ) (ode : ODE.Engine κ)
    (m : Mem (Master.Rho n)) (rho0 : Master.Rho n) (ops : List (Op (Master.Rho n × ℝ × ODE.Engine κ))) (o : MObj κ)
    (ho : mconstruct S true ode (alloc m rho0).1 = some o) :
    mview (alloc m rho0).2 o = ⟨0, 0, rho0, ode⟩ ∧
    ∀ r, runObj (mstep solver S fuel) mload ops (alloc m rho0).2 o = some r → ∀ k < m.next, r.1.cell k = m.cell k := by
  have hox : o = ⟨m.next, 0, 0, ode⟩ := by
    unfold mconstruct at ho
    by_cases c1 : S.ex.isSome ∧ S.exApplicable = false
    · simp [c1] at ho
    · rw [if_neg c1] at ho
      simp only [Bool.true_eq_false, if_false, Option.some.injEq, moveCtor, alloc_fst] at ho
      exact ho.symm
  subst hox
  refine ⟨by simp [mview, alloc], fun r hr k hk => ?_⟩
  obtain ⟨hf, -, -⟩ := ((master_sound solver S fuel).run ops (alloc m rho0).2 ⟨m.next, 0, 0, ode⟩ (by simp [alloc])).2 r hr
  rw [hf.2 k (by simp only [alloc_next]; omega) (by simp only; omega), (keeps_alloc m rho0).2 k hk]

end master

/-! ## A concrete case -/

/-- A system with nothing but an exact part always steps; here the argument is seen to hold the evolved state, while after a loading it is not. -/
example : let S : MCWF.Sys (Fin 2) Unit := ⟨none, some fun _ psi _ => ![psi 1, psi 0], none⟩
    let L : MCWF.Lim := ⟨1 / 100, 10⟩
    let m : Mem (Fin 2 → ℂ) := ⟨3, fun _ => ![1, 0]⟩
    let c := construct S L () 1 m 1
    (∃ r, runObj (step S L (fun _ => 0) 1 1) load [.step 1] c.1 c.2 = some r ∧ r.1.cell 1 = ![0, 1] ∧ r.1.cell 0 = ![1, 0]) ∧
    ∃ r, runObj (step S L (fun _ => 0) 1 1) load [.load ⟨![1, 0], 0, (), 0, 0, 0, 1, 0⟩, .step 1] c.1 c.2 = some r ∧ (view r.1 r.2).psi = ![0, 1] ∧ r.1.cell 1 = ![1, 0] := by
  have hn : MCWF.renorm (![0, 1] : Fin 2 → ℂ) = ![0, 1] := by
    funext i
    fin_cases i <;> simp [MCWF.renorm, MCWF.divBy, MCWF.norm, Fin.sum_univ_two]
  refine ⟨⟨_, rfl, ?_, ?_⟩, ⟨_, rfl, ?_, ?_⟩⟩
  · simp [modify, write, construct, copyCtor, alloc, moveCtor, exact, hn]
  · simp [modify, write, construct, copyCtor, alloc, moveCtor, exact]
  · simp [view, load, modify, write, construct, copyCtor, alloc, moveCtor, exact, hn]
  · simp [load, modify, write, construct, copyCtor, alloc, moveCtor, exact]

/-- An ensemble of two members, stepped in turns: it runs. -/
example : let S : MCWF.Sys (Fin 2) Unit := ⟨none, some fun _ psi _ => ![psi 1, psi 0], none⟩
    let L : MCWF.Lim := ⟨1 / 100, 10⟩
    let m : Mem (Fin 2 → ℂ) := ⟨3, fun _ => ![1, 0]⟩
    let e := makeEnsemble S L () 1 (fun _ => true) 1 2 m
    ∃ r, runMany (fun i => step S L ((fun _ _ => 0 : ℕ → ℕ → ℝ) i) 1 1) load [(1, .step 1), (0, .step 2), (1, .step 1)] e.1 e.2 = some r := by
  intro S L m e
  obtain ⟨h, -⟩ := ensemble_members S L (fun _ _ => 0) 1 1 () 1 (fun _ => true) m 1 (by norm_num [m]) 2 [(1, .step 1), (0, .step 2), (1, .step 1)]
  apply Option.ne_none_iff_exists'.mp
  intro hn
  obtain ⟨i, hi, hv⟩ := h hn
  interval_cases i
  · exact absurd hv (by simp [memberRun, runValue, MCWF.step, MCWF.coherent, MCWF.evolve, S])
  · exact absurd hv (by simp [memberRun, runValue, MCWF.step, MCWF.coherent, MCWF.evolve, S])

end CppQED.Alias
