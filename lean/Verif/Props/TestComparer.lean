import Verif.Props.TestVerifier
import Mathlib.Analysis.SpecialFunctions.Pow.Real

/-!
# C161, C162: the comparisons of trajectories and states, and the tests of compilation
-/

namespace CppQED.TestDriver
open CppQED.Tridiag CppQED.PyText

theorem lower_ne_import {k : Str} (h : 6 < k.length) : lower k ≠ importKey := by
  intro he
  have := congrArg List.length he
  have h2 : importKey.length = 6 := by decide
  unfold lower at this
  rw [List.length_map, h2] at this
  omega

theorem filterRunmodes_eq {o : Setup} {cfg cp : Config} (hw : WellFormed cfg) (h : Reachable o.limit cfg cp) (s : Str) (he : Ends cfg o.limit s) :
    ∃ cp', filterRunmodes o cp s = .ok (filteredModes o.test cfg s, cp') ∧ Reachable o.limit cfg cp' := by
  obtain ⟨c1, a1, a2, -⟩ := getOption_default hw h s ("runmodes_".toList ++ o.test ++ "_local".toList) he (lower_ne_import (by simp)) none
  obtain ⟨c2, b1, b2, -⟩ := runmodes_eq hw a2 s he
  refine ⟨c2, ?_, b2⟩
  unfold filterRunmodes filteredModes
  rw [a1, ok_bind]
  simp only [b1, ok_bind]
  cases val cfg s (lower ("runmodes_".toList ++ o.test ++ "_local".toList)) <;> rfl

/-- What a loop over run modes decides: it ends without exception and without failure exactly if `P`, and it leaves a state of the configuration with the same meaning. -/
def Decides (limit : ℕ) (cfg : Config) (f : Config → Outcome (Bool × Config)) (P : Prop) : Prop :=
  ∀ cp, Reachable limit cfg cp → ((∃ cp', f cp = .ok (true, cp')) ↔ P) ∧ ∀ b cp', f cp = .ok (b, cp') → Reachable limit cfg cp'

theorem Decides.and_then {limit : ℕ} {cfg : Config} {f g : Config → Outcome (Bool × Config)} {P Q : Prop} (hf : Decides limit cfg f P) (hg : Decides limit cfg g Q) :
    Decides limit cfg (fun cp => (f cp).bind fun (x, cp) => (g cp).bind fun (y, cp) => .ok (x && y, cp)) (P ∧ Q) := by
  intro cp h
  obtain ⟨f1, f2⟩ := hf cp h
  constructor
  · rw [← f1]
    constructor
    · rintro ⟨cp', hc⟩
      obtain ⟨⟨x, c1⟩, h1, h2⟩ := bind_ok hc
      obtain ⟨⟨y, c2⟩, h3, h4⟩ := bind_ok h2
      simp only [Outcome.ok.injEq, Prod.mk.injEq, Bool.and_eq_true] at h4
      obtain ⟨⟨rfl, rfl⟩, rfl⟩ := h4
      exact ⟨⟨c1, h1⟩, (hg c1 (f2 _ _ h1)).1.1 ⟨c2, h3⟩⟩
    · rintro ⟨⟨c1, h1⟩, hQ⟩
      obtain ⟨c2, h3⟩ := (hg c1 (f2 _ _ h1)).1.2 hQ
      exact ⟨c2, by simp only [h1, ok_bind, h3, Bool.and_self]⟩
  · intro b cp' hc
    obtain ⟨⟨x, c1⟩, h1, h2⟩ := bind_ok hc
    obtain ⟨⟨y, c2⟩, h3, h4⟩ := bind_ok h2
    simp only [Outcome.ok.injEq, Prod.mk.injEq] at h4
    rw [← h4.2]
    exact (hg c1 (f2 _ _ h1)).2 _ _ h3

theorem Decides.true (limit : ℕ) (cfg : Config) : Decides limit cfg (fun cp => .ok (true, cp)) True := by
  intro cp h
  refine ⟨by simp, fun b cp' hc => ?_⟩
  simp only [Outcome.ok.injEq, Prod.mk.injEq] at hc
  rw [← hc.2]; exact h

theorem collect_decides {α : Type} {limit : ℕ} {cfg : Config} (f : α → Config → Outcome (Bool × Config)) (P : α → Prop) (l : List α) (h : ∀ a ∈ l, Decides limit cfg (f a) (P a)) :
    Decides limit cfg (collect f l) (∀ a ∈ l, P a) := by
  induction l with
  | nil =>
    have := Decides.true limit cfg
    simp only [List.not_mem_nil, false_imp_iff, implies_true]
    exact this
  | cons a as ih =>
    have := (h a (List.mem_cons_self ..)).and_then (ih fun b hb => h b (List.mem_cons_of_mem _ hb))
    rw [List.forall_mem_cons]
    exact this

theorem trajLoop_decides {o : Setup} {cfg : Config} (hw : WellFormed cfg) (he : ∀ s, Ends cfg o.limit s) (one : Str → List Str → Config → Outcome (Bool × Config)) (P : Str → Str → Prop)
    (h : ∀ t modes, Decides o.limit cfg (one t modes) (∀ m ∈ modes, P t m)) (ts : List Str) : Decides o.limit cfg (trajLoop o one ts) (∀ t ∈ ts, ∀ m ∈ filteredModes o.test cfg t, P t m) := by
  induction ts with
  | nil =>
    have := Decides.true o.limit cfg
    simp only [List.not_mem_nil, false_imp_iff, implies_true]
    exact this
  | cons t ts ih =>
    rw [List.forall_mem_cons]
    intro cp hr
    obtain ⟨c1, a1, a2⟩ := filterRunmodes_eq hw hr t (he t)
    have := ((h t (filteredModes o.test cfg t)).and_then ih) c1 a2
    unfold trajLoop
    simp only [a1, ok_bind]
    exact this

/-- A required key, read and converted. -/
theorem required_decides {limit : ℕ} {cfg cp : Config} (hw : WellFormed cfg) (h : Reachable limit cfg cp) (s k : Str) (he : Ends cfg limit s) (hk : lower k ≠ importKey) {α : Type} (g : Option Str × Config → Outcome α) (a : α) :
    (getOption limit cp s k none true).bind g = .ok a ↔ ∃ v cp', val cfg s (lower k) = some v ∧ getOption limit cp s k none true = .ok (some v, cp') ∧ Reachable limit cfg cp' ∧ g (some v, cp') = .ok a := by
  rcases getOption_required hw h s k he hk none with ⟨v, cp', h1, h2, h3, -⟩ | ⟨h1, h2⟩
  · rw [h2, ok_bind]
    constructor
    · exact fun hg => ⟨v, cp', h1, rfl, h3, hg⟩
    · rintro ⟨v', c', -, e, -, hg⟩
      simp only [Outcome.ok.injEq, Prod.mk.injEq, Option.some.injEq] at e
      obtain ⟨rfl, rfl⟩ := e
      exact hg
  · rw [h2]
    constructor
    · intro hx; simp [Outcome.bind] at hx
    · rintro ⟨v, _, hx, -⟩; rw [h1] at hx; cases hx

/-- The loop over run modes of the comparison of states. -/
theorem stateLoop_decides {o : Setup} {cfg : Config} (hw : WellFormed cfg) (he : ∀ s, Ends cfg o.limit s) (float : Str → Option ℝ) (measure : Str → Outcome ℝ) (t : Str) (modes : List Str) :
    Decides o.limit cfg (stateLoop o float measure t modes) (∀ m ∈ modes, ∃ x e eps, measure (output o m t true) = .ok x ∧ val cfg t (lower ("epsilon_".toList ++ m ++ '_' :: o.test)) = some e ∧ float e = some eps ∧ x < eps) := by
  induction modes with
  | nil =>
    have := Decides.true o.limit cfg
    simp only [List.not_mem_nil, false_imp_iff, implies_true]
    exact this
  | cons m ms ih =>
    rw [List.forall_mem_cons]
    have hk : lower ("epsilon_".toList ++ m ++ '_' :: o.test) ≠ importKey := lower_ne_import (by simp)
    have hstep : Decides o.limit cfg (fun cp => (measure (output o m t true)).bind fun x => (getOption o.limit cp t ("epsilon_".toList ++ m ++ '_' :: o.test) none true).bind fun (e, cp) => match float (e.getD []) with
        | none => .throw
        | some eps => .ok (decide (x < eps), cp))
        (∃ x e eps, measure (output o m t true) = .ok x ∧ val cfg t (lower ("epsilon_".toList ++ m ++ '_' :: o.test)) = some e ∧ float e = some eps ∧ x < eps) := by
      intro cp hr
      constructor
      · constructor
        · rintro ⟨cp', hc⟩
          obtain ⟨x, h1, h2⟩ := bind_ok hc
          obtain ⟨v, c1, e1, e2, e3, e4⟩ := (required_decides hw hr t _ (he t) hk _ _).1 h2
          simp only [Option.getD_some] at e4
          cases hf : float v with
          | none => rw [hf] at e4; simp at e4
          | some eps =>
            rw [hf] at e4
            simp only [Outcome.ok.injEq, Prod.mk.injEq, decide_eq_true_iff] at e4
            exact ⟨x, v, eps, h1, e1, hf, e4.1⟩
        · rintro ⟨x, v, eps, h1, h2, h3, h4⟩
          rcases getOption_required hw hr t _ (he t) hk none with ⟨v', cp', a1, a2, a3, -⟩ | ⟨a1, -⟩
          · rw [h2] at a1
            cases a1
            refine ⟨cp', ?_⟩
            simp only [h1, ok_bind, a2, Option.getD_some, h3, h4, decide_true]
          · rw [h2] at a1; cases a1
      · intro b cp' hc
        obtain ⟨x, h1, h2⟩ := bind_ok hc
        obtain ⟨v, c1, e1, e2, e3, e4⟩ := (required_decides hw hr t _ (he t) hk _ _).1 h2
        simp only [Option.getD_some] at e4
        cases hf : float v with
        | none => rw [hf] at e4; simp at e4
        | some eps =>
          rw [hf] at e4
          simp only [Outcome.ok.injEq, Prod.mk.injEq] at e4
          rw [← e4.2]; exact e3
    have := hstep.and_then ih
    intro cp hr
    have hx := this cp hr
    have heq : stateLoop o float measure t (m :: ms) cp = ((measure (output o m t true)).bind fun x => (getOption o.limit cp t ("epsilon_".toList ++ m ++ '_' :: o.test) none true).bind fun (e, cp) => match float (e.getD []) with
        | none => .throw
        | some eps => .ok (decide (x < eps), cp)).bind fun (x, cp) => (stateLoop o float measure t ms cp).bind fun (y, cp) => .ok (x && y, cp) := by
      rw [stateLoop]
      cases measure (output o m t true) with
      | ok x =>
        simp only [ok_bind]
        cases getOption o.limit cp t ("epsilon_".toList ++ m ++ '_' :: o.test) none true with
        | ok r =>
          obtain ⟨e, c⟩ := r
          simp only [ok_bind]
          cases float (e.getD []) with
          | none => rfl
          | some eps => rfl
        | throw => rfl
        | undef => rfl
      | throw => rfl
      | undef => rfl
    rw [heq]
    exact hx

/-- **C161.** The comparison of states passes exactly if the keys `trajectories`, `function` and `parameters` are there, and for all the trajectories, in all their run modes that the comparison uses, the measure of the states is defined
and below the acceptable deviation. -/
theorem stateComparer_iff (o : Setup) (float : Str → Option ℝ) (measure : Str → Str → Str → Outcome ℝ) {cfg cp : Config} (hw : WellFormed cfg) (h : Reachable o.limit cfg cp) (he : ∀ s, Ends cfg o.limit s) :
    (∃ cp', stateComparer o float measure cp = .ok cp') ↔ ∃ ts fn p, val cfg o.test "trajectories".toList = some ts ∧ val cfg o.test "function".toList = some fn ∧ val cfg o.test "parameters".toList = some p ∧
      ∀ t ∈ ts.splitOn ',', ∀ m ∈ filteredModes o.test cfg t, ∃ x e eps, measure fn p (output o m t true) = .ok x ∧ val cfg t (lower ("epsilon_".toList ++ m ++ '_' :: o.test)) = some e ∧ float e = some eps ∧ x < eps := by
  have l1 : lower "trajectories".toList = "trajectories".toList := by decide
  have l2 : lower "function".toList = "function".toList := by decide
  have l3 : lower "parameters".toList = "parameters".toList := by decide
  have key : ∀ fn p ts, Decides o.limit cfg (trajLoop o (stateLoop o float (measure fn p)) ts) (∀ t ∈ ts, ∀ m ∈ filteredModes o.test cfg t,
      ∃ x e eps, measure fn p (output o m t true) = .ok x ∧ val cfg t (lower ("epsilon_".toList ++ m ++ '_' :: o.test)) = some e ∧ float e = some eps ∧ x < eps) :=
    fun fn p ts => trajLoop_decides hw he _ _ (fun t modes => stateLoop_decides hw he float (measure fn p) t modes) ts
  unfold stateComparer
  constructor
  · rintro ⟨cp', hc⟩
    obtain ⟨ts, c1, a1, -, a3, a4⟩ := (required_decides hw h o.test "trajectories".toList (he _) (by decide) _ _).1 hc
    obtain ⟨fn, c2, b1, -, b3, b4⟩ := (required_decides hw a3 o.test "function".toList (he _) (by decide) _ _).1 a4
    obtain ⟨c3, d1, d2, -⟩ := getOption_default hw b3 o.test "parameters".toList (he _) (by decide) none
    simp only [d1, ok_bind, l3] at b4
    rw [l1] at a1; rw [l2] at b1
    cases hp : val cfg o.test "parameters".toList with
    | none => rw [hp] at b4; simp at b4
    | some p =>
      rw [hp] at b4
      simp only [Option.getD_some] at b4
      obtain ⟨⟨b, c4⟩, e1, e2⟩ := bind_ok b4
      cases b with
      | false => simp at e2
      | true => exact ⟨ts, fn, p, a1, b1, rfl, (key fn p _ c3 d2).1.1 ⟨c4, e1⟩⟩
  · rintro ⟨ts, fn, p, a1, b1, d1, hall⟩
    rcases getOption_required hw h o.test "trajectories".toList (he _) (by decide) none with ⟨v, c1, a2, a3, a4, -⟩ | ⟨a2, -⟩
    rotate_left
    · rw [l1, a1] at a2; cases a2
    rw [l1, a1] at a2; cases a2
    rcases getOption_required hw a4 o.test "function".toList (he _) (by decide) none with ⟨v, c2, b2, b3, b4, -⟩ | ⟨b2, -⟩
    rotate_left
    · rw [l2, b1] at b2; cases b2
    rw [l2, b1] at b2; cases b2
    obtain ⟨c3, d2, d3, -⟩ := getOption_default hw b4 o.test "parameters".toList (he _) (by decide) none
    obtain ⟨c4, e1⟩ := (key fn p (ts.splitOn ',') c3 d3).1.2 hall
    refine ⟨c4, ?_⟩
    simp only [a3, ok_bind, b3, d2, l3, d1, Option.getD_some]
    show ((trajLoop o (stateLoop o float (measure fn p)) (commas ts) c3).bind _) = _
    rw [show commas ts = ts.splitOn ',' from rfl, e1]
    rfl

/-! ## TrajectoryComparer -/

/-- A function of the driver that returns exactly the values in `R`, and leaves a state of the configuration with the same meaning. -/
def Gives (limit : ℕ) (cfg : Config) {α : Type} (f : Config → Outcome (α × Config)) (R : α → Prop) : Prop :=
  ∀ cp, Reachable limit cfg cp → (∀ a cp', f cp = .ok (a, cp') → R a ∧ Reachable limit cfg cp') ∧ ∀ a, R a → ∃ cp', f cp = .ok (a, cp')

theorem Gives.bind {limit : ℕ} {cfg : Config} {α β : Type} {f : Config → Outcome (α × Config)} {R : α → Prop} {g : α × Config → Outcome (β × Config)} {S : α → β → Prop} (hf : Gives limit cfg f R)
    (hg : ∀ a, R a → Gives limit cfg (fun cp => g (a, cp)) (S a)) : Gives limit cfg (fun cp => (f cp).bind g) fun b => ∃ a, R a ∧ S a b := by
  intro cp h
  obtain ⟨f1, f2⟩ := hf cp h
  constructor
  · intro b cp' hb
    obtain ⟨⟨a, c1⟩, h1, h2⟩ := bind_ok hb
    obtain ⟨r1, r2⟩ := f1 a c1 h1
    obtain ⟨s1, s2⟩ := (hg a r1 c1 r2).1 b cp' h2
    exact ⟨⟨a, r1, s1⟩, s2⟩
  · rintro b ⟨a, ha, hb⟩
    obtain ⟨c1, h1⟩ := f2 a ha
    obtain ⟨c2, h2⟩ := (hg a ha c1 (f1 a c1 h1).2).2 b hb
    exact ⟨c2, by change (f cp).bind g = _; rw [h1, ok_bind]; exact h2⟩

theorem Gives.outcome {limit : ℕ} {cfg : Config} {α β : Type} {x : Outcome α} {g : α → Config → Outcome (β × Config)} {S : α → β → Prop} (hg : ∀ a, x = .ok a → Gives limit cfg (g a) (S a)) :
    Gives limit cfg (fun cp => x.bind fun a => g a cp) fun b => ∃ a, x = .ok a ∧ S a b := by
  intro cp h
  constructor
  · intro b cp' hb
    obtain ⟨a, h1, h2⟩ := bind_ok hb
    obtain ⟨s1, s2⟩ := (hg a h1 cp h).1 b cp' h2
    exact ⟨⟨a, h1, s1⟩, s2⟩
  · rintro b ⟨a, ha, hb⟩
    obtain ⟨c2, h2⟩ := (hg a ha cp h).2 b hb
    exact ⟨c2, by change x.bind (fun a => g a cp) = _; rw [ha, ok_bind]; exact h2⟩

theorem Gives.ok {limit : ℕ} {cfg : Config} {α : Type} (a : α) : Gives limit cfg (fun cp => .ok (a, cp)) fun b => b = a := by
  intro cp h
  refine ⟨fun b cp' hb => ?_, fun b hb => ⟨cp, by rw [hb]⟩⟩
  simp only [Outcome.ok.injEq, Prod.mk.injEq] at hb
  exact ⟨hb.1.symm, hb.2 ▸ h⟩

theorem Gives.throw {limit : ℕ} {cfg : Config} {α : Type} : Gives limit cfg (fun _ => (.throw : Outcome (α × Config))) fun _ => False :=
  fun _ _ => ⟨fun _ _ h => by simp at h, fun _ h => h.elim⟩

theorem Gives.congr {limit : ℕ} {cfg : Config} {α : Type} {f : Config → Outcome (α × Config)} {R S : α → Prop} (h : Gives limit cfg f R) (hRS : ∀ a, R a ↔ S a) : Gives limit cfg f S :=
  fun cp hr => ⟨fun a cp' ha => ⟨(hRS a).1 ((h cp hr).1 a cp' ha).1, ((h cp hr).1 a cp' ha).2⟩, fun a ha => (h cp hr).2 a ((hRS a).2 ha)⟩

theorem gives_optional {limit : ℕ} {cfg : Config} (hw : WellFormed cfg) (s k : Str) (he : Ends cfg limit s) (hk : lower k ≠ importKey) : Gives limit cfg (fun cp => getOption limit cp s k) fun v => v = val cfg s (lower k) := by
  intro cp h
  obtain ⟨c1, h1, h2, -⟩ := getOption_default hw h s k he hk none
  have hx : ((val cfg s (lower k)).orElse fun _ => none) = val cfg s (lower k) := by cases val cfg s (lower k) <;> rfl
  rw [hx] at h1
  refine ⟨fun a cp' ha => ?_, fun a ha => ⟨c1, by rw [ha]; exact h1⟩⟩
  change getOption limit cp s k = _ at ha
  rw [h1] at ha
  simp only [Outcome.ok.injEq, Prod.mk.injEq] at ha
  exact ⟨ha.1.symm, ha.2 ▸ h2⟩

theorem gives_required {limit : ℕ} {cfg : Config} (hw : WellFormed cfg) (s k : Str) (he : Ends cfg limit s) (hk : lower k ≠ importKey) :
    Gives limit cfg (fun cp => getOption limit cp s k none true) fun v => ∃ w, v = some w ∧ val cfg s (lower k) = some w := by
  intro cp h
  rcases getOption_required hw h s k he hk none with ⟨v, c1, h1, h2, h3, -⟩ | ⟨h1, h2⟩
  · refine ⟨fun a cp' ha => ?_, fun a ha => ?_⟩
    · change getOption limit cp s k none true = _ at ha
      rw [h2] at ha
      simp only [Outcome.ok.injEq, Prod.mk.injEq] at ha
      exact ⟨⟨v, ha.1.symm, h1⟩, ha.2 ▸ h3⟩
    · obtain ⟨w, rfl, hw'⟩ := ha
      rw [h1] at hw'
      cases hw'
      exact ⟨c1, h2⟩
  · refine ⟨fun a cp' ha => ?_, fun a ha => ?_⟩
    · change getOption limit cp s k none true = _ at ha
      rw [h2] at ha; simp at ha
    · obtain ⟨w, -, hw'⟩ := ha
      rw [h1] at hw'; cases hw'

theorem gives_runmodes {o : Setup} {cfg : Config} (hw : WellFormed cfg) (s : Str) (he : Ends cfg o.limit s) : Gives o.limit cfg (fun cp => runmodes o cp s) fun v => v = modesOf cfg s := by
  intro cp h
  obtain ⟨c1, h1, h2, -⟩ := runmodes_eq hw h s he
  refine ⟨fun a cp' ha => ?_, fun a ha => ⟨c1, by rw [ha]; exact h1⟩⟩
  change runmodes o cp s = _ at ha
  rw [h1] at ha
  simp only [Outcome.ok.injEq, Prod.mk.injEq] at ha
  exact ⟨ha.1.symm, ha.2 ▸ h2⟩

theorem toInt_ok (N : Numerics) (s : Str) (n : ℕ) : N.toInt s = .ok n ↔ N.int s = some n := by
  unfold Numerics.toInt
  cases N.int s <;> simp

theorem mapOutcome_ok {α β : Type} (f : α → Outcome β) : ∀ (l : List α) (l' : List β), mapOutcome f l = .ok l' ↔ List.Forall₂ (fun a b => f a = .ok b) l l' := by
  intro l
  induction l with
  | nil => intro l'; simp [mapOutcome, eq_comm]
  | cons a l ih =>
    intro l'
    unfold mapOutcome
    constructor
    · intro h
      obtain ⟨b, h1, h2⟩ := bind_ok h
      obtain ⟨bs, h3, h4⟩ := bind_ok h2
      simp only [Outcome.ok.injEq] at h4
      rw [← h4]
      exact .cons h1 ((ih bs).1 h3)
    · intro h
      cases h with
      | cons h1 h2 => rw [h1, ok_bind, (ih _).2 h2]; rfl

theorem column_ok (c : ℕ) (row : List ℝ) (x : ℝ × ℝ) : column c row = .ok x ↔ row[0]? = some x.1 ∧ row[c]? = some x.2 := by
  unfold column
  cases row[0]? <;> cases row[c]? <;> simp [Prod.ext_iff]

theorem gives_columns {N : Numerics} {o : Setup} {cfg : Config} (hw : WellFormed cfg) (s : Str) (he : Ends cfg o.limit s) :
    Gives o.limit cfg (fun cp => getColumns N o cp s) fun cols => ∃ v, val cfg s (lower ("columns_".toList ++ o.test)) = some v ∧ List.Forall₂ (fun w k => N.int w = some k) (v.splitOn ',') cols := by
  have hk : lower ("columns_".toList ++ o.test) ≠ importKey := lower_ne_import (by simp)
  unfold getColumns
  refine (Gives.bind (gives_required hw s _ he hk) fun v hv => Gives.outcome fun c hc => Gives.ok c).congr fun cols => ?_
  constructor
  · rintro ⟨_, ⟨w, rfl, hw'⟩, c, hc, rfl⟩
    rw [mapOutcome_ok] at hc
    refine ⟨w, hw', ?_⟩
    simp only [Option.getD_some, toInt_ok] at hc
    exact hc
  · rintro ⟨w, hw', hc⟩
    refine ⟨some w, ⟨w, rfl, hw'⟩, cols, ?_, rfl⟩
    rw [mapOutcome_ok]
    simp only [Option.getD_some, toInt_ok]
    exact hc

theorem sliced_ok (N : Numerics) (slice : ℕ → List (List ℝ) → List (List ℝ)) (v : Option Str) (rows rows' : List (List ℝ)) : sliced N slice v rows = .ok rows' ↔ (match v with
    | none => rows' = rows
    | some v => ∃ k, N.int v = some k ∧ rows' = slice k rows) := by
  unfold sliced
  cases v with
  | none => simp [eq_comm]
  | some v =>
    simp only
    constructor
    · intro h
      obtain ⟨k, h1, h2⟩ := bind_ok h
      simp only [Outcome.ok.injEq] at h2
      exact ⟨k, (toInt_ok N v k).1 h1, h2.symm⟩
    · rintro ⟨k, h1, rfl⟩
      rw [(toInt_ok N v k).2 h1]; rfl

theorem gives_data {N : Numerics} {o : Setup} {cfg : Config} (hw : WellFormed cfg) (s mode : Str) (n : ℕ) (he : Ends cfg o.limit s) : Gives o.limit cfg (fun cp => getData N o cp s mode n) (Data N o cfg s mode n) := by
  have hl : lower ("length_".toList ++ o.test) ≠ importKey := lower_ne_import (by simp)
  have hst : lower ("start_".toList ++ o.test) ≠ importKey := by
    intro h
    have := congrArg List.head? h
    simp [lower, importKey] at this
  have l1 : lower "postprocess_local".toList = "postprocess_local".toList := by decide
  have l2 : lower "format_local".toList = "format_local".toList := by decide
  unfold getData
  refine (Gives.bind (gives_optional hw s _ he (by decide)) fun post hpost => Gives.bind (gives_optional hw s _ he (by decide)) fun format hformat => Gives.bind (gives_optional hw s _ he hl) fun length hlength =>
    Gives.bind (gives_optional hw s _ he hst) fun start hstart => Gives.outcome fun rows hrows => Gives.outcome fun rows' hrows' => Gives.outcome fun rows'' hrows'' => Gives.bind (S := fun cols data => ∃ c, cols[n]? = some c ∧ mapOutcome (column c) rows'' = .ok data) (gives_columns hw s he) fun cols hcols => ?_).congr ?_
  · simp only
    generalize cols[n]? = c'
    cases c' with
    | none => exact Gives.throw.congr fun a => by simp
    | some c => exact (Gives.outcome fun d hd => Gives.ok d).congr fun a => by simp
  · intro data
    simp only [sliced_ok, mapOutcome_ok, column_ok]
    unfold Data
    constructor
    · rintro ⟨post, rfl, format, rfl, length, rfl, start, rfl, rows, h1, rows', h2, rows'', h3, cols, h4, c, h5, h6⟩
      rw [l1, l2] at h1
      exact ⟨rows, rows', rows'', cols, c, h1, h2, h3, h4, h5, h6⟩
    · rintro ⟨rows, rows', rows'', cols, c, h1, h2, h3, h4, h5, h6⟩
      refine ⟨_, rfl, _, rfl, _, rfl, _, rfl, rows, ?_, rows', h2, rows'', h3, cols, h4, c, h5, h6⟩
      rw [l1, l2]; exact h1

theorem gives_eps {N : Numerics} {o : Setup} {cfg : Config} (hw : WellFormed cfg) (s mode : Str) (n : ℕ) (he : Ends cfg o.limit s) : Gives o.limit cfg (fun cp => getEps N o cp s mode n) (Eps N o cfg s mode n) := by
  have hk : lower ("epsilon_".toList ++ mode ++ '_' :: o.test) ≠ importKey := lower_ne_import (by simp)
  unfold getEps
  refine (Gives.bind (S := fun v eps => ∃ w, (commas (v.getD []))[n]? = some w ∧ N.float w = some eps) (gives_required hw s _ he hk) fun v hv => ?_).congr fun eps => ?_
  · simp only
    cases h1 : (commas (v.getD []))[n]? with
    | none => exact Gives.throw.congr fun a => by simp
    | some w =>
      cases h2 : N.float w with
      | none => simp only [h2]; exact Gives.throw.congr fun a => by simp [h2]
      | some e => simp only [h2]; exact (Gives.ok e).congr fun a => by simp [h2, eq_comm]
  · unfold Eps
    constructor
    · rintro ⟨_, ⟨v, rfl, hv⟩, w, h1, h2⟩
      exact ⟨v, w, hv, h1, h2⟩
    · rintro ⟨v, w, hv, h1, h2⟩
      exact ⟨some v, ⟨v, rfl, hv⟩, w, h1, h2⟩

theorem Gives.decides {limit : ℕ} {cfg : Config} {f : Config → Outcome (Bool × Config)} {R : Bool → Prop} (h : Gives limit cfg f R) : Decides limit cfg f (R true) := by
  intro cp hr
  obtain ⟨h1, h2⟩ := h cp hr
  exact ⟨⟨fun ⟨cp', hc⟩ => (h1 _ _ hc).1, fun ht => h2 _ ht⟩, fun b cp' hc => (h1 _ _ hc).2⟩

theorem column_decides {N : Numerics} {o : Setup} {cfg : Config} (hw : WellFormed cfg) (he : ∀ s, Ends cfg o.limit s) (s mode : Str) (n : ℕ) : Decides o.limit cfg (compareColumn N o s mode n) (ColumnAgrees N o cfg s mode n) := by
  have l1 : lower "reference".toList = "reference".toList := by decide
  have href : Gives o.limit cfg (fun cp => getReference N o cp n) fun ref => ∃ r, val cfg o.test "reference".toList = some r ∧ Data N o cfg r ((modesOf cfg r).headD []) n ref := by
    unfold getReference
    refine (Gives.bind (gives_required hw o.test "reference".toList (he _) (by decide)) fun r hr => Gives.bind (gives_runmodes hw (r.getD []) (he _)) fun modes hm => gives_data hw (r.getD []) (modes.headD []) n (he _)).congr fun ref => ?_
    rw [l1]
    constructor
    · rintro ⟨_, ⟨r, rfl, hr⟩, _, rfl, h⟩
      exact ⟨r, hr, h⟩
    · rintro ⟨r, hr, h⟩
      exact ⟨some r, ⟨r, rfl, hr⟩, _, rfl, h⟩
  have hmain : Gives o.limit cfg (compareColumn N o s mode n) fun b => ∃ data, Data N o cfg s mode n data ∧ ∃ ref, (∃ r, val cfg o.test "reference".toList = some r ∧ Data N o cfg r ((modesOf cfg r).headD []) n ref) ∧
      ∃ eps, Eps N o cfg s mode n eps ∧ ∃ d, N.deviation ref data = .ok d ∧ b = decide (d < eps) := by
    unfold compareColumn
    exact Gives.bind (gives_data hw s mode n (he s)) fun data hd => Gives.bind href fun ref hr => Gives.bind (gives_eps hw s mode n (he s)) fun eps heps => Gives.outcome fun d hd => Gives.ok (decide (d < eps))
  intro cp hr
  have := hmain.decides cp hr
  constructor
  · refine Iff.trans this.1 ?_
    unfold ColumnAgrees
    constructor
    · rintro ⟨data, h1, ref, ⟨r, h2, h3⟩, eps, h4, d, h5, h6⟩
      exact ⟨r, data, ref, eps, d, h2, h1, h3, h4, h5, by simpa using h6.symm⟩
    · rintro ⟨r, data, ref, eps, d, h2, h1, h3, h4, h5, h6⟩
      exact ⟨data, h1, ref, ⟨r, h2, h3⟩, eps, h4, d, h5, by simpa using h6⟩
  · exact this.2

theorem columns_unique {N : Numerics} {o : Setup} {cfg : Config} {s : Str} {a b : List ℕ} (ha : ColumnsOf N o cfg s a) (hb : ColumnsOf N o cfg s b) : a = b := by
  obtain ⟨v, h1, h2⟩ := ha
  obtain ⟨w, h3, h4⟩ := hb
  rw [h1] at h3
  cases h3
  clear h1
  generalize v.splitOn ',' = l at h2 h4
  induction h2 generalizing b with
  | nil => cases h4; rfl
  | cons x _ ih =>
    cases h4 with
    | cons y h4 => rw [x] at y; cases y; rw [ih h4]

theorem modes_decides {N : Numerics} {o : Setup} {cfg : Config} (hw : WellFormed cfg) (he : ∀ s, Ends cfg o.limit s) (s : Str) (modes : List Str) :
    Decides o.limit cfg (compareModes N o s modes) (∀ m ∈ modes, ∃ cols, ColumnsOf N o cfg s cols ∧ ∀ n < cols.length, ColumnAgrees N o cfg s m n) := by
  unfold compareModes
  refine collect_decides _ _ _ fun m _ => ?_
  intro cp hr
  obtain ⟨g1, g2⟩ := gives_columns (N := N) hw s (he s) cp hr
  have hcol : ∀ cols, Decides o.limit cfg (collect (compareColumn N o s m) (List.range cols)) (∀ n < cols, ColumnAgrees N o cfg s m n) := by
    intro cols
    have := collect_decides (compareColumn N o s m) (ColumnAgrees N o cfg s m) (List.range cols) fun n _ => column_decides hw he s m n
    simpa only [List.mem_range] using this
  constructor
  · constructor
    · rintro ⟨cp', hc⟩
      obtain ⟨⟨cols, c1⟩, h1, h2⟩ := bind_ok hc
      obtain ⟨r1, r2⟩ := g1 cols c1 h1
      exact ⟨cols, r1, (hcol cols.length c1 r2).1.1 ⟨cp', h2⟩⟩
    · rintro ⟨cols, h1, h2⟩
      obtain ⟨c1, h3⟩ := g2 cols h1
      obtain ⟨c2, h4⟩ := (hcol cols.length c1 (g1 cols c1 h3).2).1.2 h2
      refine ⟨c2, ?_⟩
      change getColumns N o cp s = _ at h3
      show (getColumns N o cp s).bind _ = _
      rw [h3, ok_bind]
      exact h4
  · intro b cp' hc
    obtain ⟨⟨cols, c1⟩, h1, h2⟩ := bind_ok hc
    obtain ⟨r1, r2⟩ := g1 cols c1 h1
    exact (hcol cols.length c1 r2).2 _ _ h2

/-- **C161.** The comparison of trajectories passes exactly if the key `trajectories` is there, and for all the trajectories, in all their run modes that the comparison uses, in each of the columns named, the deviation from the same
column of the reference is below the acceptable one. -/
theorem trajectoryComparer_iff (N : Numerics) (o : Setup) {cfg cp : Config} (hw : WellFormed cfg) (h : Reachable o.limit cfg cp) (he : ∀ s, Ends cfg o.limit s) :
    (∃ cp', trajectoryComparer N o cp = .ok cp') ↔ ∃ ts, val cfg o.test "trajectories".toList = some ts ∧
      ∀ t ∈ ts.splitOn ',', ∀ m ∈ filteredModes o.test cfg t, ∃ cols, ColumnsOf N o cfg t cols ∧ ∀ n < cols.length, ColumnAgrees N o cfg t m n := by
  have l1 : lower "trajectories".toList = "trajectories".toList := by decide
  have key := fun ts => trajLoop_decides hw he (compareModes N o) _ (fun t modes => modes_decides (N := N) hw he t modes) ts
  unfold trajectoryComparer
  constructor
  · rintro ⟨cp', hc⟩
    obtain ⟨ts, c1, a1, -, a3, a4⟩ := (required_decides hw h o.test "trajectories".toList (he _) (by decide) _ _).1 hc
    simp only [Option.getD_some] at a4
    obtain ⟨⟨b, c4⟩, e1, e2⟩ := bind_ok a4
    cases b with
    | false => simp at e2
    | true => exact ⟨ts, by rw [← l1]; exact a1, (key _ c1 a3).1.1 ⟨c4, e1⟩⟩
  · rintro ⟨ts, a1, hall⟩
    rcases getOption_required hw h o.test "trajectories".toList (he _) (by decide) none with ⟨v, c1, a2, a3, a4, -⟩ | ⟨a2, -⟩
    rotate_left
    · rw [l1, a1] at a2; cases a2
    rw [l1, a1] at a2; cases a2
    obtain ⟨c4, e1⟩ := (key (ts.splitOn ',') c1 a4).1.2 hall
    refine ⟨c4, ?_⟩
    simp only [a3, ok_bind, Option.getD_some]
    show ((trajLoop o (compareModes N o) (commas ts) c1).bind _) = _
    rw [show commas ts = ts.splitOn ',' from rfl, e1]
    rfl

theorem buildDeps_ok (build : Build) (ds : List Str) : buildDeps build ds = .ok () ↔ ∀ d ∈ ds, (build d).1 = 0 := by
  induction ds with
  | nil => simp [buildDeps]
  | cons d ds ih =>
    unfold buildDeps
    by_cases hd : (build d).1 = 0
    · simp only [hd, if_true, List.forall_mem_cons, true_and]; exact ih
    · simp [hd]

/-- **C161.** The test of compilation without the key `error` passes exactly if all the dependencies and the target compile. -/
theorem compileTarget_iff (build : Build) (o : Setup) {cfg cp : Config} (hw : WellFormed cfg) (h : Reachable o.limit cfg cp) (he : Ends cfg o.limit o.test) (hn : val cfg o.test "error".toList = none) :
    (∃ cp', compileTarget build o cp = .ok cp') ↔ (∀ d ∈ split ((val cfg o.test "dependencies".toList).getD []), (build d).1 = 0) ∧ (build o.script).1 = 0 := by
  have l1 : lower "error".toList = "error".toList := by decide
  have l2 : lower "dependencies".toList = "dependencies".toList := by decide
  obtain ⟨c1, a1, a2, -⟩ := getOption_default hw h o.test "error".toList he (by decide) none
  obtain ⟨c2, b1, b2, -⟩ := getOption_default hw a2 o.test "dependencies".toList he (by decide) (some [])
  rw [l1, hn] at a1
  rw [l2] at b1
  unfold compileTarget
  rw [a1, ok_bind]
  simp only [b1, ok_bind]
  have hd : ((val cfg o.test "dependencies".toList).orElse fun _ => some []).getD [] = (val cfg o.test "dependencies".toList).getD [] := by
    generalize val cfg o.test "dependencies".toList = x
    cases x <;> rfl
  rw [hd, show ((none : Option Str).orElse fun _ => none) = none from rfl]
  constructor
  · rintro ⟨cp', hc⟩
    obtain ⟨u, h1, h2⟩ := bind_ok hc
    refine ⟨(buildDeps_ok _ _).1 h1, ?_⟩
    by_contra hb
    simp [hb] at h2
  · rintro ⟨h1, h2⟩
    refine ⟨c2, ?_⟩
    rw [(buildDeps_ok _ _).2 h1, ok_bind]
    simp [h2]

/-- **C162 (partial).** The test of compilation with the key `error` never passes, whatever the compiler does: a string cannot be searched for in the bytes that a process writes. -/
theorem compileTarget_error_partial (build : Build) (o : Setup) {cfg cp : Config} (hw : WellFormed cfg) (h : Reachable o.limit cfg cp) (he : Ends cfg o.limit o.test) {e : Str} (hn : val cfg o.test "error".toList = some e) :
    ¬ ∃ cp', compileTarget build o cp = .ok cp' := by
  have l1 : lower "error".toList = "error".toList := by decide
  obtain ⟨c1, a1, a2, -⟩ := getOption_default hw h o.test "error".toList he (by decide) none
  obtain ⟨c2, b1, b2, -⟩ := getOption_default hw a2 o.test "dependencies".toList he (by decide) (some [])
  rw [l1, hn] at a1
  unfold compileTarget
  rw [a1, ok_bind]
  simp only [b1, ok_bind]
  rintro ⟨cp', hc⟩
  obtain ⟨u, h1, h2⟩ := bind_ok hc
  rw [show ((some e : Option Str).orElse fun _ => none) = some e from rfl] at h2
  simp only at h2
  split at h2
  · cases h2
  · simp [strInBytes, Outcome.bind] at h2

/-- **C162 (partial).** If for each of the trajectories the comparison names only run modes in which the trajectory is not run, the comparison passes whatever the output files, even if there are none. -/
theorem trajectoryComparer_vacuous_partial (N : Numerics) (o : Setup) {cfg cp : Config} (hw : WellFormed cfg) (h : Reachable o.limit cfg cp) (he : ∀ s, Ends cfg o.limit s) {ts : Str} (hts : val cfg o.test "trajectories".toList = some ts)
    (hf : ∀ t ∈ ts.splitOn ',', ∃ f, val cfg t (lower ("runmodes_".toList ++ o.test ++ "_local".toList)) = some f ∧ ∀ m ∈ modesOf cfg t, m ∉ f.splitOn ',') : ∃ cp', trajectoryComparer N o cp = .ok cp' := by
  refine (trajectoryComparer_iff N o hw h he).2 ⟨ts, hts, fun t ht m hm => ?_⟩
  obtain ⟨f, h1, h2⟩ := hf t ht
  unfold filteredModes at hm
  rw [h1] at hm
  simp only [List.mem_filter, decide_eq_true_eq] at hm
  exact absurd hm.2 (h2 m hm.1)

/-- **C162 (partial).** The key `runmodes_<test>` of a trajectory, which the documentation describes, is not used: without the key `runmodes_<test>_local` the comparison passes only if it does in all the run modes of the trajectory. -/
theorem trajectoryComparer_documented_partial (N : Numerics) (o : Setup) {cfg cp : Config} (hw : WellFormed cfg) (h : Reachable o.limit cfg cp) (he : ∀ s, Ends cfg o.limit s) {ts t : Str} (hts : val cfg o.test "trajectories".toList = some ts)
    (ht : t ∈ ts.splitOn ',') (hn : val cfg t (lower ("runmodes_".toList ++ o.test ++ "_local".toList)) = none) (hp : ∃ cp', trajectoryComparer N o cp = .ok cp') :
    ∀ m ∈ modesOf cfg t, ∃ cols, ColumnsOf N o cfg t cols ∧ ∀ n < cols.length, ColumnAgrees N o cfg t m n := by
  obtain ⟨ts', h1, h2⟩ := (trajectoryComparer_iff N o hw h he).1 hp
  rw [hts] at h1
  cases h1
  intro m hm
  refine h2 t ht m ?_
  unfold filteredModes
  rw [hn]
  exact hm

/-- **C162 (partial).** The comparison of states without the key `parameters` never passes, although functions without parameters are provided for. -/
theorem stateComparer_parameters_partial (o : Setup) (float : Str → Option ℝ) (measure : Str → Str → Str → Outcome ℝ) {cfg cp : Config} (hw : WellFormed cfg) (h : Reachable o.limit cfg cp) (he : ∀ s, Ends cfg o.limit s)
    (hn : val cfg o.test "parameters".toList = none) : ¬ ∃ cp', stateComparer o float measure cp = .ok cp' := by
  rw [stateComparer_iff o float measure hw h he]
  rintro ⟨ts, fn, p, -, -, h1, -⟩
  rw [hn] at h1
  cases h1

/-- **C161.** With the parameter 4 the measure of the comparison of temperatures is the distance from the thermal state: it is below `eps` exactly if the sum of the squares of the differences is below `eps ^ 2`. -/
theorem finalTemperature_four {d : ℕ} (state : Matrix (Fin d) (Fin d) ℂ) {eps : ℝ} (he : 0 < eps) : finalTemperature 4 state < eps ↔ ∑ i, ∑ j, ‖state i j - planck 4 d i j‖ ^ 2 < eps ^ 2 := by
  unfold finalTemperature
  rw [Real.sqrt_lt' he]
  have : ∀ i j : Fin d, (if i = j then (((4 : ℝ) ^ (i : ℕ) / (1 + 4) ^ ((i : ℕ) + 1) : ℝ) : ℂ) else 0) = planck 4 d i j := by
    intro i j
    unfold planck
    by_cases h : i = j
    · subst h; simp
    · simp [h]
  simp only [this]

/-- **C162 (partial).** With any other parameter the comparison of temperatures rejects the thermal state if the acceptable deviation is small: the measure of the state is at least `|1 / (1 + nTh) - 1 / 5|`, for a mode with any number of levels. -/
theorem finalTemperature_other_partial (nTh : ℝ) {d : ℕ} (hd : 0 < d) : |1 / (1 + nTh) - 1 / 5| ≤ finalTemperature nTh (planck nTh d) := by
  unfold finalTemperature
  refine Real.le_sqrt_of_sq_le ?_
  rw [sq_abs]
  have hnn : ∀ i j : Fin d, 0 ≤ ‖planck nTh d i j - if i = j then ((nTh ^ (i : ℕ) / (1 + 4) ^ ((i : ℕ) + 1) : ℝ) : ℂ) else 0‖ ^ 2 := fun _ _ => sq_nonneg _
  refine le_trans ?_ (Finset.single_le_sum (f := fun i => ∑ j, ‖planck nTh d i j - if i = j then ((nTh ^ (i : ℕ) / (1 + 4) ^ ((i : ℕ) + 1) : ℝ) : ℂ) else 0‖ ^ 2) (fun i _ => Finset.sum_nonneg fun j _ => hnn i j)
    (Finset.mem_univ (⟨0, hd⟩ : Fin d)))
  refine le_trans ?_ (Finset.single_le_sum (f := fun j => ‖planck nTh d ⟨0, hd⟩ j - if (⟨0, hd⟩ : Fin d) = j then ((nTh ^ 0 / (1 + 4) ^ (0 + 1) : ℝ) : ℂ) else 0‖ ^ 2) (fun j _ => hnn _ j) (Finset.mem_univ (⟨0, hd⟩ : Fin d)))
  simp only [if_true, planck, Matrix.diagonal_apply_eq]
  rw [← Complex.ofReal_sub, Complex.norm_real, Real.norm_eq_abs, sq_abs]
  norm_num

/-! ## Examples -/

/-- A comparison of one trajectory with a reference; the trajectory is run in two modes, of which only one is compared. -/
def comparison : Config := fun s =>
  if s = "cmp".toList then some [("trajectories".toList, "traj".toList), ("reference".toList, "ref".toList)]
  else if s = "traj".toList then some [("runmodes".toList, "master,single".toList), ("runmodes_cmp_local".toList, "master".toList), ("columns_cmp".toList, "1".toList), ("epsilon_master_cmp".toList, "2".toList)]
  else if s = "ref".toList then some [("columns_cmp".toList, "1".toList)]
  else if s = "lost".toList then some [("trajectories".toList, "odd".toList)]
  else if s = "odd".toList then some [("runmodes".toList, "single".toList), ("runmodes_lost_local".toList, "master".toList)]
  else if s = "fails".toList then some [("error".toList, "static assertion".toList)]
  else none

theorem comparison_wellFormed : WellFormed comparison := by
  intro s sec h
  unfold comparison at h
  split_ifs at h <;> cases h <;> decide

theorem comparison_ends (s : Str) : Ends comparison 1 s := by
  refine .last fun t ht => ?_
  obtain ⟨sec, h1, h2⟩ := ht
  have : ∀ e ∈ sec, e.1 ≠ importKey := by
    unfold comparison at h1
    split_ifs at h1 <;> cases h1 <;> decide
  exact this _ h2 rfl

theorem comparison_value {s k v : Str} (h : Defined comparison s k v) : val comparison s k = some v := (val_some comparison_wellFormed _ _ _).2 (.own h)

theorem comparison_none {s k : Str} (h : ∀ v, ¬ Defined comparison s k v) : val comparison s k = none := by
  refine (val_none _ _ _).2 fun v hv => ?_
  cases hv with
  | own h' => exact h v h'
  | imported _ _ hi _ =>
    cases comparison_ends s with
    | last hl => exact hl _ hi
    | step _ _ he => cases he

/-- Output files with one line each, that of the trajectory 1, 4 and that of the reference 1, 3; the deviation is the sum of the squares of the differences. -/
noncomputable def simpleNumerics (x : ℝ) : Numerics where
  int := fun s => match s with
    | [c] => if c.isDigit then some (c.toNat - 48) else none
    | _ => none
  float := fun s => match s with
    | [c] => some ((c.toNat : ℝ) - 48)
    | _ => none
  load := fun f _ _ => if f = "out/traj_master".toList then .ok [[1, x]] else if f = "out/ref".toList then .ok [[1, 3]] else .throw
  deviation := fun a b => .ok (((a.zip b).map fun p => (p.1.2 - p.2.2) ^ 2).sum)

theorem comparison_modes : filteredModes "cmp".toList comparison "traj".toList = ["master".toList] := by
  unfold filteredModes modesOf
  rw [comparison_value (v := "master".toList) ⟨_, rfl, by decide⟩, comparison_value (v := "master,single".toList) ⟨_, rfl, by decide⟩]
  decide

theorem comparison_ref : modesOf comparison "ref".toList = ["generic".toList] := by
  unfold modesOf
  rw [comparison_none (by
    rintro v ⟨sec, h1, h2⟩
    cases h1
    revert h2
    simp)]
  decide

def cmpSetup : Setup := ⟨"cmp".toList, [], "out".toList, [], 1⟩

theorem comparison_columns (x : ℝ) {s : Str} (hs : s = "traj".toList ∨ s = "ref".toList) (cols : List ℕ) : ColumnsOf (simpleNumerics x) cmpSetup comparison s cols ↔ cols = [1] := by
  have hv : val comparison s (lower ("columns_".toList ++ cmpSetup.test)) = some "1".toList := by
    rcases hs with rfl | rfl
    · exact comparison_value ⟨_, rfl, by decide⟩
    · exact comparison_value ⟨_, rfl, by decide⟩
  unfold ColumnsOf
  simp only [hv]
  have hsp : "1".toList.splitOn ',' = ["1".toList] := by decide
  have hint : (simpleNumerics x).int "1".toList = some 1 := by rfl
  constructor
  · rintro ⟨v, h1, h2⟩
    cases h1
    rw [hsp] at h2
    cases h2 with
    | cons a b => cases b; rw [hint] at a; cases a; rfl
  · rintro rfl
    exact ⟨_, rfl, by rw [hsp]; exact .cons hint .nil⟩

theorem comparison_data (x y : ℝ) {s mode : Str} (hs : s = "traj".toList ∨ s = "ref".toList) (hl : ∀ a b, (simpleNumerics x).load (output cmpSetup mode s false) a b = .ok [[1, y]]) (data : List (ℝ × ℝ)) :
    Data (simpleNumerics x) cmpSetup comparison s mode 0 data ↔ data = [(1, y)] := by
  have hst : val comparison s (lower ("start_".toList ++ cmpSetup.test)) = none := by
    refine comparison_none ?_
    rintro v ⟨sec, h1, h2⟩
    rcases hs with rfl | rfl <;> cases h1 <;> revert h2 <;> simp [cmpSetup, lower]
  have hle : val comparison s (lower ("length_".toList ++ cmpSetup.test)) = none := by
    refine comparison_none ?_
    rintro v ⟨sec, h1, h2⟩
    rcases hs with rfl | rfl <;> cases h1 <;> revert h2 <;> simp [cmpSetup, lower]
  unfold Data
  simp only [hl, hst, hle]
  constructor
  · rintro ⟨rows, rows', rows'', cols, c, h1, rfl, rfl, h4, h5, h6⟩
    cases h1
    rw [(comparison_columns x hs cols).1 h4] at h5
    cases h5
    cases h6 with
    | @cons _ b _ _ a r =>
      cases r
      obtain ⟨b1, b2⟩ := b
      simp at a
      rw [← a.1, ← a.2]
  · rintro rfl
    exact ⟨_, _, _, [1], 1, rfl, rfl, rfl, (comparison_columns x hs _).2 rfl, rfl, .cons ⟨rfl, rfl⟩ .nil⟩

theorem comparison_eps (x eps : ℝ) : Eps (simpleNumerics x) cmpSetup comparison "traj".toList "master".toList 0 eps ↔ eps = 2 := by
  unfold Eps
  rw [comparison_value (v := "2".toList) ⟨_, rfl, by decide⟩]
  have h2 : ("2".toList.splitOn ',')[0]? = some "2".toList := by decide
  have h3 : (simpleNumerics x).float "2".toList = some 2 := by
    show some (((50 : ℕ) : ℝ) - 48) = _
    norm_num
  constructor
  · rintro ⟨v, w, a, b, c⟩
    cases a
    rw [h2] at b
    cases b
    rw [h3] at c
    cases c; rfl
  · rintro rfl
    exact ⟨_, _, rfl, h2, h3⟩

theorem comparison_trajData (x : ℝ) (data : List (ℝ × ℝ)) : Data (simpleNumerics x) cmpSetup comparison "traj".toList "master".toList 0 data ↔ data = [(1, x)] :=
  comparison_data x x (s := "traj".toList) (mode := "master".toList) (Or.inl rfl) (fun _ _ => by rfl) data

theorem comparison_refData (x : ℝ) (data : List (ℝ × ℝ)) : Data (simpleNumerics x) cmpSetup comparison "ref".toList "generic".toList 0 data ↔ data = [(1, 3)] :=
  comparison_data x 3 (s := "ref".toList) (mode := "generic".toList) (Or.inr rfl) (fun _ _ => by
    have h : (simpleNumerics x).load = fun f _ _ => if f = "out/traj_master".toList then .ok [[1, x]] else if f = "out/ref".toList then .ok [[1, 3]] else .throw := rfl
    rw [h]
    simp only
    rw [if_neg (by decide), if_pos (by decide)]) data

theorem comparison_deviation (x d : ℝ) : (simpleNumerics x).deviation [(1, 3)] [(1, x)] = .ok d ↔ (3 - x) ^ 2 = d := by
  have h : (simpleNumerics x).deviation = fun a b => .ok (((a.zip b).map fun p => (p.1.2 - p.2.2) ^ 2).sum) := rfl
  rw [h, Outcome.ok.injEq]
  simp

/-- The comparison passes if the value is close to 3, it fails otherwise. -/
example (x : ℝ) : (∃ cp', trajectoryComparer (simpleNumerics x) cmpSetup comparison = .ok cp') ↔ (3 - x) ^ 2 < 2 := by
  have hsp : "traj".toList.splitOn ',' = ["traj".toList] := by decide
  have hr : val comparison "cmp".toList "reference".toList = some "ref".toList := comparison_value ⟨_, rfl, by decide⟩
  rw [trajectoryComparer_iff (simpleNumerics x) cmpSetup comparison_wellFormed .init comparison_ends]
  constructor
  · rintro ⟨ts, h1, h2⟩
    rw [comparison_value (v := "traj".toList) ⟨_, rfl, by decide⟩] at h1
    cases h1
    obtain ⟨cols, h3, h4⟩ := h2 "traj".toList (by rw [hsp]; simp) "master".toList (by rw [show cmpSetup.test = "cmp".toList from rfl, comparison_modes]; simp)
    rw [(comparison_columns x (Or.inl rfl) cols).1 h3] at h4
    obtain ⟨r, data, ref, eps, d, g1, g2, g3, g4, g5, g6⟩ := h4 0 (by simp)
    rw [show cmpSetup.test = "cmp".toList from rfl, hr] at g1
    cases g1
    rw [comparison_ref] at g3
    rw [(comparison_trajData x _).1 g2, (comparison_refData x _).1 g3] at g5
    rw [(comparison_eps x _).1 g4] at g6
    rw [(comparison_deviation x d).1 g5]; exact g6
  · intro hx
    refine ⟨_, comparison_value (v := "traj".toList) ⟨_, rfl, by decide⟩, fun t ht m hm => ?_⟩
    rw [hsp, List.mem_singleton] at ht
    subst ht
    rw [show cmpSetup.test = "cmp".toList from rfl, comparison_modes, List.mem_singleton] at hm
    subst hm
    refine ⟨[1], (comparison_columns x (Or.inl rfl) _).2 rfl, fun n hn => ?_⟩
    obtain rfl : n = 0 := Nat.lt_one_iff.1 hn
    refine ⟨_, [(1, x)], [(1, 3)], 2, (3 - x) ^ 2, hr, (comparison_trajData x _).2 rfl, ?_, (comparison_eps x _).2 rfl, (comparison_deviation x _).2 rfl, hx⟩
    rw [comparison_ref]
    exact (comparison_refData x _).2 rfl

/-- A comparison that looks at nothing. -/
example (N : Numerics) : ∃ cp', trajectoryComparer N ⟨"lost".toList, [], "out".toList, [], 1⟩ comparison = .ok cp' := by
  refine trajectoryComparer_vacuous_partial N _ comparison_wellFormed .init comparison_ends (ts := "odd".toList) (comparison_value ⟨_, rfl, by decide⟩) fun t ht => ?_
  have hsp : "odd".toList.splitOn ',' = ["odd".toList] := by decide
  rw [hsp, List.mem_singleton] at ht
  subst ht
  refine ⟨"master".toList, comparison_value ⟨_, rfl, by decide⟩, ?_⟩
  unfold modesOf
  rw [comparison_value (v := "single".toList) ⟨_, rfl, by decide⟩]
  decide

/-- A compilation that fails as expected does not pass. -/
example (build : Build) : ¬ ∃ cp', compileTarget build ⟨"fails".toList, "target".toList, [], [], 1⟩ comparison = .ok cp' :=
  compileTarget_error_partial build _ comparison_wellFormed .init (comparison_ends _) (e := "static assertion".toList) (comparison_value ⟨_, rfl, by decide⟩)

/-- The test of compilation of a section without keys. -/
example (build : Build) : (∃ cp', compileTarget build ⟨"cmp".toList, "target".toList, [], [], 1⟩ comparison = .ok cp') ↔ (build "target".toList).1 = 0 := by
  rw [compileTarget_iff build _ comparison_wellFormed .init (comparison_ends _) (comparison_none (by rintro v ⟨sec, h1, h2⟩; cases h1; revert h2; simp)),
    comparison_none (s := "cmp".toList) (k := "dependencies".toList) (by rintro v ⟨sec, h1, h2⟩; cases h1; revert h2; simp)]
  rw [show split ((none : Option Str).getD []) = [] by decide]
  simp

/-- The thermal state with one photon is rejected with the acceptable deviation 0.2. -/
example : ¬ finalTemperature 1 (planck 1 20) < 0.2 := by
  have := finalTemperature_other_partial 1 (d := 20) (by norm_num)
  norm_num [abs_of_pos] at this ⊢
  linarith

end CppQED.TestDriver
