import Verif.Spec.Storage

/-! # Lemmas on the storage of state vectors -/

namespace CppQED.Storage
open Spec

/-- Every variable's block has been allocated. -/
def Allocated (s : State) : Prop := ∀ v h, s.var v = some h → h.loc < s.next

/-- Live variables have the values of the store and do not share. -/
structure Rel (dead : ℕ → Prop) (s : State) (w : Store) : Prop where
  val : ∀ v, ¬dead v → s.value v = w v
  alc : Allocated s
  sep : ∀ v v' h h', ¬dead v → ¬dead v' → v ≠ v' → s.var v = some h → s.var v' = some h' → h.loc ≠ h'.loc

theorem alloc_allocated {s : State} (ha : Allocated s) (x dims d) : Allocated (alloc s x dims d) := by
  intro v h hv
  simp only [alloc, Function.update_apply] at hv ⊢
  split_ifs at hv with e
  · cases hv; exact Nat.lt_succ_self _
  · exact Nat.lt_succ_of_lt (ha v h hv)

theorem bind_allocated {s : State} (ha : Allocated s) (x) {h : Handle} (hh : h.loc < s.next) : Allocated (bindVar s x h) := by
  intro v h' hv
  simp only [bindVar, Function.update_apply] at hv ⊢
  split_ifs at hv with e
  · cases hv; exact hh
  · exact ha v h' hv

theorem write_allocated {s : State} (ha : Allocated s) (l d) : Allocated (write s l d) := fun v h hv => ha v h hv

theorem exec_allocated {s s' : State} (ha : Allocated s) {c : Stmt} (he : exec s c = some s') : Allocated s' := by
  cases c <;> simp only [exec, Option.map_eq_some_iff, Option.bind_eq_some_iff, Option.some.injEq, Option.ite_none_right_eq_some] at he
  case declare => subst he; exact alloc_allocated ha _ _ _
  case copyInit => obtain ⟨h, hy, rfl⟩ := he; exact alloc_allocated ha _ _ _
  case moveInit => obtain ⟨h, hy, rfl⟩ := he; exact bind_allocated ha _ (ha _ _ hy)
  case view => obtain ⟨h, hy, rfl⟩ := he; exact bind_allocated ha _ (ha _ h hy)
  case reference => obtain ⟨_, _, h, hy, rfl⟩ := he; exact bind_allocated ha _ (ha _ _ hy)
  case assign => obtain ⟨_, _, h, hy, _, rfl⟩ := he; exact write_allocated ha _ _
  case plus => obtain ⟨_, _, h, hy, _, rfl⟩ := he; exact write_allocated ha _ _
  case minus => obtain ⟨_, _, h, hy, _, rfl⟩ := he; exact write_allocated ha _ _
  case update => obtain ⟨h, hy, _, rfl⟩ := he; exact write_allocated ha _ _
  case product => obtain ⟨_, _, h, hy, rfl⟩ := he; exact alloc_allocated ha _ _ _
  case dyad => obtain ⟨h, hy, rfl⟩ := he; exact alloc_allocated ha _ _ _
  case load => obtain ⟨h, hy, _, rfl⟩ := he; exact alloc_allocated ha _ _ _

theorem run_allocated {p : List Stmt} : ∀ {s s' : State}, Allocated s → run p s = some s' → Allocated s' := by
  induction p with
  | nil => intro s s' ha h; cases h; exact ha
  | cons c p ih =>
    intro s s' ha h
    obtain ⟨s1, h1, h2⟩ := Option.bind_eq_some_iff.1 h
    exact ih (exec_allocated ha h1) h2

theorem empty_allocated : Allocated .empty := by intro v h hv; cases hv

theorem reachable_allocated {s : State} (h : Reachable s) : Allocated s := by
  obtain ⟨p, hp⟩ := h
  exact run_allocated empty_allocated hp

theorem value_alloc {s : State} (ha : Allocated s) (x dims d v) :
    (alloc s x dims d).value v = if v = x then some (dims, d) else s.value v := by
  simp only [State.value, alloc, Function.update_apply]
  by_cases e : v = x
  · simp [e]
  · rw [if_neg e, if_neg e]
    cases hv : s.var v with
    | none => rfl
    | some h => simp [(ha v h hv).ne]

theorem value_bind (s : State) (x h v) : (bindVar s x h).value v = if v = x then some (h.dims, s.cell h.loc) else s.value v := by
  simp only [State.value, bindVar, Function.update_apply]
  split_ifs <;> simp

theorem value_write (s : State) (l d v) :
    (write s l d).value v = (s.var v).map fun h => (h.dims, if h.loc = l then d else s.cell h.loc) := by
  simp only [State.value, write, Function.update_apply]

variable {dead : ℕ → Prop} {s : State} {w : Store}

/-- A new block for `x`. -/
theorem Rel.alloc (R : Rel dead s w) (x dims d) :
    Rel (fun v => dead v ∧ v ≠ x) (alloc s x dims d) (Function.update w x (some (dims, d))) := by
  refine ⟨fun v hv => ?_, alloc_allocated R.alc _ _ _, ?_⟩
  · rw [value_alloc R.alc, Function.update_apply]
    by_cases e : v = x
    · rw [if_pos e, if_pos e]
    · rw [if_neg e, if_neg e]; exact R.val v fun hd => hv ⟨hd, e⟩
  · intro v v' h h' hv hv' hne e e'
    simp only [Storage.alloc, Function.update_apply] at e e'
    split_ifs at e e' with e1 e2 e2
    · exact absurd (e1.trans e2.symm) hne
    · cases e; exact (R.alc v' h' e').ne'
    · cases e'; exact (R.alc v h e).ne
    · exact R.sep v v' h h' (fun hd => hv ⟨hd, e1⟩) (fun hd => hv' ⟨hd, e2⟩) hne e e'

/-- The block of the live `y` for `x`. -/
theorem Rel.bind (R : Rel dead s w) (x) {y} {h : Handle} (hy : ¬dead y) (e : s.var y = some h) (dims) :
    Rel (fun v => (dead v ∧ v ≠ x) ∨ v = y) (bindVar s x ⟨dims, h.loc⟩) (Function.update w x (some (dims, s.cell h.loc))) := by
  refine ⟨fun v hv => ?_, bind_allocated R.alc _ (R.alc y h e), ?_⟩
  · rw [value_bind, Function.update_apply]
    by_cases ex : v = x
    · rw [if_pos ex, if_pos ex]
    · rw [if_neg ex, if_neg ex]; exact R.val v fun hd => hv (.inl ⟨hd, ex⟩)
  · intro v v' k k' hv hv' hne e1 e2
    simp only [bindVar, Function.update_apply] at e1 e2
    push Not at hv hv'
    split_ifs at e1 e2 with h1 h2 h2
    · exact absurd (h1.trans h2.symm) hne
    · cases e1; exact R.sep y v' h k' hy (fun hd => h2 (hv'.1 hd)) (Ne.symm hv'.2) e e2
    · cases e2; exact R.sep v y k h (fun hd => h1 (hv.1 hd)) hy hv.2 e1 e
    · exact R.sep v v' k k' (fun hd => h1 (hv.1 hd)) (fun hd => h2 (hv'.1 hd)) hne e1 e2

/-- Writing into the block of the live `x`. -/
theorem Rel.write (R : Rel dead s w) {x} {h : Handle} (hx : ¬dead x) (e : s.var x = some h) (d) :
    Rel dead (write s h.loc d) (Function.update w x (some (h.dims, d))) := by
  refine ⟨fun v hv => ?_, write_allocated R.alc _ _, fun v v' k k' => R.sep v v' k k'⟩
  rw [value_write, Function.update_apply]
  by_cases ex : v = x
  · rw [if_pos ex, ex, e]; simp
  · rw [if_neg ex, ← R.val v hv, State.value]
    cases hk : s.var v with
    | none => rfl
    | some k => simp [R.sep v x k h hv hx ex hk e]

theorem Rel.some_iff (R : Rel dead s w) {y} (hy : ¬dead y) : w y = (s.var y).map fun h => (h.dims, s.cell h.loc) := (R.val y hy).symm

theorem Rel.mono {dead' : ℕ → Prop} (R : Rel dead s w) (h : ∀ v, dead v → dead' v) : Rel dead' s w :=
  ⟨fun v hv => R.val v fun hd => hv (h v hd), R.alc, fun v v' k k' hv hv' => R.sep v v' k k' (fun hd => hv (h v hd)) (fun hd => hv' (h v' hd))⟩

/-- One statement. -/
theorem Rel.exec (R : Rel dead s w) (c : Stmt) (hc : ∀ v ∈ uses c, ¬dead v) :
    (Storage.exec s c = none ∧ eval w c = none) ∨ ∃ s' w', Storage.exec s c = some s' ∧ eval w c = some w' ∧ Rel (deadAfter dead c) s' w' := by
  cases c with
  | declare x dims => exact .inr ⟨_, _, rfl, rfl, (R.alloc x dims _).mono fun v hv => .inl ⟨hv.1, by simpa [defines] using hv.2⟩⟩
  | copyInit x y =>
    have hy := hc y (by simp [uses])
    rw [Storage.exec, eval, R.some_iff hy]
    cases e : s.var y with
    | none => exact .inl ⟨rfl, rfl⟩
    | some h => exact .inr ⟨_, _, rfl, rfl, (R.alloc x _ _).mono fun v hv => .inl ⟨hv.1, by simpa [defines] using hv.2⟩⟩
  | moveInit x y =>
    have hy := hc y (by simp [uses])
    rw [Storage.exec, eval, R.some_iff hy]
    cases e : s.var y with
    | none => exact .inl ⟨rfl, rfl⟩
    | some h => exact .inr ⟨_, _, rfl, rfl, (R.bind x hy e h.dims).mono fun v hv => hv.imp (fun a => ⟨a.1, by simpa [defines] using a.2⟩) fun a => by simpa [givesAway] using a⟩
  | view x y =>
    have hy := hc y (by simp [uses])
    rw [Storage.exec, eval, R.some_iff hy]
    cases e : s.var y with
    | none => exact .inl ⟨rfl, rfl⟩
    | some h => exact .inr ⟨_, _, rfl, rfl, (R.bind x hy e [h.dims.prod]).mono fun v hv => hv.imp (fun a => ⟨a.1, by simpa [defines] using a.2⟩) fun a => by simpa [givesAway] using a⟩
  | reference x y =>
    have hx := hc x (by simp [uses])
    have hy := hc y (by simp [uses])
    rw [Storage.exec, eval, R.some_iff hy, R.some_iff hx]
    cases e' : s.var x with
    | none => exact .inl ⟨rfl, rfl⟩
    | some k =>
      cases e : s.var y with
      | none => exact .inl ⟨rfl, rfl⟩
      | some h => exact .inr ⟨_, _, rfl, rfl, (R.bind x hy e h.dims).mono fun v hv => hv.imp (fun a => ⟨a.1, by simpa [defines] using a.2⟩) fun a => by simpa [givesAway] using a⟩
  | assign x y =>
    have hx := hc x (by simp [uses])
    have hy := hc y (by simp [uses])
    rw [Storage.exec, eval, R.some_iff hy, R.some_iff hx]
    cases e' : s.var x with
    | none => exact .inl ⟨rfl, rfl⟩
    | some k =>
      cases e : s.var y with
      | none => exact .inl ⟨rfl, rfl⟩
      | some h =>
        by_cases hd : k.dims = h.dims
        · refine .inr ⟨_, _, if_pos hd, if_pos hd, ?_⟩
          have := R.write hx e' (s.cell h.loc)
          rw [hd] at this
          exact this.mono fun v hv => .inl ⟨hv, by simp [defines]⟩
        · exact .inl ⟨if_neg hd, if_neg hd⟩
  | plus x y =>
    have hx := hc x (by simp [uses])
    have hy := hc y (by simp [uses])
    rw [Storage.exec, eval, R.some_iff hy, R.some_iff hx]
    cases e' : s.var x with
    | none => exact .inl ⟨rfl, rfl⟩
    | some k =>
      cases e : s.var y with
      | none => exact .inl ⟨rfl, rfl⟩
      | some h =>
        by_cases hd : k.dims = h.dims
        · exact .inr ⟨_, _, if_pos hd, if_pos hd, (R.write hx e' _).mono fun v hv => .inl ⟨hv, by simp [defines]⟩⟩
        · exact .inl ⟨if_neg hd, if_neg hd⟩
  | minus x y =>
    have hx := hc x (by simp [uses])
    have hy := hc y (by simp [uses])
    rw [Storage.exec, eval, R.some_iff hy, R.some_iff hx]
    cases e' : s.var x with
    | none => exact .inl ⟨rfl, rfl⟩
    | some k =>
      cases e : s.var y with
      | none => exact .inl ⟨rfl, rfl⟩
      | some h =>
        by_cases hd : k.dims = h.dims
        · exact .inr ⟨_, _, if_pos hd, if_pos hd, (R.write hx e' _).mono fun v hv => .inl ⟨hv, by simp [defines]⟩⟩
        · exact .inl ⟨if_neg hd, if_neg hd⟩
  | update x f =>
    have hx := hc x (by simp [uses])
    rw [Storage.exec, eval, R.some_iff hx]
    cases e' : s.var x with
    | none => exact .inl ⟨rfl, rfl⟩
    | some k =>
      by_cases hd : (f (s.cell k.loc)).length = (s.cell k.loc).length
      · exact .inr ⟨_, _, if_pos hd, if_pos hd, (R.write hx e' _).mono fun v hv => .inl ⟨hv, by simp [defines]⟩⟩
      · exact .inl ⟨if_neg hd, if_neg hd⟩
  | product x y z =>
    have hy := hc y (by simp [uses])
    have hz := hc z (by simp [uses])
    rw [Storage.exec, eval, R.some_iff hy, R.some_iff hz]
    cases e' : s.var y with
    | none => exact .inl ⟨rfl, rfl⟩
    | some k =>
      cases e : s.var z with
      | none => exact .inl ⟨rfl, rfl⟩
      | some h => exact .inr ⟨_, _, rfl, rfl, (R.alloc x _ _).mono fun v hv => .inl ⟨hv.1, by simpa [defines] using hv.2⟩⟩
  | dyad x y =>
    have hy := hc y (by simp [uses])
    rw [Storage.exec, eval, R.some_iff hy]
    cases e : s.var y with
    | none => exact .inl ⟨rfl, rfl⟩
    | some h =>
      refine .inr ⟨_, _, rfl, rfl, ?_⟩
      have := R.alloc x (h.dims ++ h.dims) (direct (s.cell h.loc) ((s.cell h.loc).map (starRingEnd ℂ)))
      simp only [direct, List.map_map] at this ⊢
      exact this.mono fun v hv => .inl ⟨hv.1, by simpa [defines] using hv.2⟩
  | load x d =>
    have hx := hc x (by simp [uses])
    rw [Storage.exec, eval, R.some_iff hx]
    cases e' : s.var x with
    | none => exact .inl ⟨rfl, rfl⟩
    | some k =>
      by_cases hd : d.length = k.dims.prod
      · exact .inr ⟨_, _, if_pos hd, if_pos hd, (R.alloc x _ _).mono fun v hv => .inl ⟨hv.1, by simpa [defines] using hv.2⟩⟩
      · exact .inl ⟨if_neg hd, if_neg hd⟩

/-- A program. -/
theorem Rel.run {p : List Stmt} : ∀ {dead : ℕ → Prop} {s : State} {w : Store}, Rel dead s w → Disciplined dead p →
    (Storage.run p s = none ∧ evalAll p w = none) ∨ ∃ s' w', Storage.run p s = some s' ∧ evalAll p w = some w' ∧ Rel (deadAfterAll dead p) s' w' := by
  induction p with
  | nil => intro dead s w R _; exact .inr ⟨_, _, rfl, rfl, R⟩
  | cons c p ih =>
    intro dead s w R hp
    rcases R.exec c hp.1 with ⟨h1, h2⟩ | ⟨s', w', h1, h2, R'⟩
    · exact .inl ⟨by rw [Storage.run, h1]; rfl, by rw [evalAll, h2]; rfl⟩
    · rw [Storage.run, evalAll, h1, h2]
      exact ih R' hp.2

/-- A statement which does not construct `x` leaves its handle. -/
theorem exec_var {s s' : State} {c : Stmt} (he : exec s c = some s') {x : ℕ} (hx : x ∉ defines c) : s'.var x = s.var x := by
  cases c <;> simp only [exec, Option.map_eq_some_iff, Option.bind_eq_some_iff, Option.some.injEq, Option.ite_none_right_eq_some] at he <;>
    simp only [defines, List.mem_singleton, List.not_mem_nil, not_false_eq_true] at hx
  case declare => subst he; simp [alloc, Function.update_apply, hx]
  case copyInit => obtain ⟨h, hy, rfl⟩ := he; simp [alloc, Function.update_apply, hx]
  case moveInit => obtain ⟨h, hy, rfl⟩ := he; simp [bindVar, Function.update_apply, hx]
  case view => obtain ⟨h, hy, rfl⟩ := he; simp [bindVar, Function.update_apply, hx]
  case reference => obtain ⟨_, _, h, hy, rfl⟩ := he; simp [bindVar, Function.update_apply, hx]
  case assign => obtain ⟨_, _, h, hy, _, rfl⟩ := he; rfl
  case plus => obtain ⟨_, _, h, hy, _, rfl⟩ := he; rfl
  case minus => obtain ⟨_, _, h, hy, _, rfl⟩ := he; rfl
  case update => obtain ⟨h, hy, _, rfl⟩ := he; rfl
  case product => obtain ⟨_, _, h, hy, rfl⟩ := he; simp [alloc, Function.update_apply, hx]
  case dyad => obtain ⟨h, hy, rfl⟩ := he; simp [alloc, Function.update_apply, hx]
  case load => obtain ⟨h, hy, _, rfl⟩ := he; simp [alloc, Function.update_apply, hx]

theorem run_var {p : List Stmt} : ∀ {s s' : State}, run p s = some s' → ∀ {x : ℕ}, (∀ c ∈ p, x ∉ defines c) → s'.var x = s.var x := by
  induction p with
  | nil => intro s s' h x _; cases h; rfl
  | cons c p ih =>
    intro s s' h x hx
    obtain ⟨s1, h1, h2⟩ := Option.bind_eq_some_iff.1 h
    rw [ih h2 fun c hc => hx c (List.mem_cons_of_mem _ hc), exec_var h1 (hx c List.mem_cons_self)]

/-- A statement which has nothing to do with the variables `A` leaves the value of such a variable `x`, if its data are shared only within `A`, and leaves it like this. -/
theorem exec_frame {A : ℕ → Prop} {s s' : State} (ha : Allocated s) {c : Stmt} (he : exec s c = some s') (hc : ∀ v, A v → Avoids v c) {x : ℕ} (hA : A x) (hu : SharedWithin A s x) :
    s'.value x = s.value x ∧ SharedWithin A s' x := by
  have hu1 : ∀ v, A v → v ∉ uses c := fun v hv => (hc v hv).1
  have hu2 : ∀ v, A v → v ∉ defines c := fun v hv => (hc v hv).2
  have ne : ∀ {y}, ¬A y → x ≠ y := fun h e => h (e ▸ hA)
  have key : ∀ y h d, ¬A y → s.var y = some h → (write s h.loc d).value x = s.value x := by
    intro y h d hne e
    rw [value_write, State.value]
    cases hk : s.var x with
    | none => rfl
    | some k => simp [(hu y k h hne hk e).symm]
  have al : ∀ y dims d, ¬A y → (alloc s y dims d).value x = s.value x ∧ SharedWithin A (alloc s y dims d) x := by
    intro y dims d hne
    refine ⟨by rw [value_alloc ha, if_neg (ne hne)], ?_⟩
    intro v k kv hv e1 e2
    simp only [alloc, Function.update_apply, ne hne, if_false] at e1 e2
    split_ifs at e2 with h1
    · cases e2; exact (ha x k e1).ne'
    · exact hu v k kv hv e1 e2
  have bd : ∀ z y h dims, ¬A z → ¬A y → s.var y = some h → (bindVar s z ⟨dims, h.loc⟩).value x = s.value x ∧ SharedWithin A (bindVar s z ⟨dims, h.loc⟩) x := by
    intro z y h dims hz hne e
    refine ⟨by rw [value_bind, if_neg (ne hz)], ?_⟩
    intro v k kv hv e1 e2
    simp only [bindVar, Function.update_apply, ne hz, if_false] at e1 e2
    split_ifs at e2 with h1
    · cases e2; exact hu y k h hne e1 e
    · exact hu v k kv hv e1 e2
  have u1 : ∀ {y}, y ∈ uses c → ¬A y := fun h hA => hu1 _ hA h
  have u2 : ∀ {y}, y ∈ defines c → ¬A y := fun h hA => hu2 _ hA h
  cases c <;> simp only [exec, Option.map_eq_some_iff, Option.bind_eq_some_iff, Option.some.injEq, Option.ite_none_right_eq_some] at he
  case declare => subst he; exact al _ _ _ (u2 (by simp [defines]))
  case copyInit => obtain ⟨h, hy, rfl⟩ := he; exact al _ _ _ (u2 (by simp [defines]))
  case moveInit => obtain ⟨h, hy, rfl⟩ := he; exact bd _ _ h h.dims (u2 (by simp [defines])) (u1 (by simp [uses])) hy
  case view => obtain ⟨h, hy, rfl⟩ := he; exact bd _ _ h _ (u2 (by simp [defines])) (u1 (by simp [uses])) hy
  case reference x y => obtain ⟨_, _, h, hy, rfl⟩ := he; exact bd x y h h.dims (u2 (by simp [defines])) (u1 (by simp [uses])) hy
  case assign x y => obtain ⟨k, hk, h, hy, _, rfl⟩ := he; exact ⟨key x k _ (u1 (by simp [uses])) hk, fun v a b => hu v a b⟩
  case plus x y => obtain ⟨k, hk, h, hy, _, rfl⟩ := he; exact ⟨key x k _ (u1 (by simp [uses])) hk, fun v a b => hu v a b⟩
  case minus x y => obtain ⟨k, hk, h, hy, _, rfl⟩ := he; exact ⟨key x k _ (u1 (by simp [uses])) hk, fun v a b => hu v a b⟩
  case update x f => obtain ⟨k, hk, _, rfl⟩ := he; exact ⟨key x k _ (u1 (by simp [uses])) hk, fun v a b => hu v a b⟩
  case product => obtain ⟨_, _, h, hy, rfl⟩ := he; exact al _ _ _ (u2 (by simp [defines]))
  case dyad => obtain ⟨h, hy, rfl⟩ := he; exact al _ _ _ (u2 (by simp [defines]))
  case load => obtain ⟨h, hy, _, rfl⟩ := he; exact al _ _ _ (u2 (by simp [defines]))

theorem run_frame {A : ℕ → Prop} {p : List Stmt} : ∀ {s s' : State}, Allocated s → run p s = some s' → (∀ c ∈ p, ∀ v, A v → Avoids v c) → ∀ {x : ℕ}, A x → SharedWithin A s x →
    s'.value x = s.value x ∧ SharedWithin A s' x := by
  induction p with
  | nil => intro s s' _ h _ x _ hu; cases h; exact ⟨rfl, hu⟩
  | cons c p ih =>
    intro s s' ha h hx x hA hu
    obtain ⟨s1, h1, h2⟩ := Option.bind_eq_some_iff.1 h
    obtain ⟨a, b⟩ := exec_frame ha h1 (hx c List.mem_cons_self) hA hu
    obtain ⟨a', b'⟩ := ih (exec_allocated ha h1) h2 (fun c hc => hx c (List.mem_cons_of_mem _ hc)) hA b
    exact ⟨a'.trans a, b'⟩

end CppQED.Storage
