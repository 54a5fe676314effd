import Verif.Model.Aliasing
import Mathlib.Tactic.Ring
import Mathlib.Data.List.Nodup

/-! # Lemmas on the storage of state vectors -/

namespace CppQED.Alias

section basic
variable {V : Type*}

/-- Nothing allocated before changes, except possibly block `l`. -/
def Frame (l : ℕ) (m m' : Mem V) : Prop := m.next ≤ m'.next ∧ ∀ k < m.next, k ≠ l → m'.cell k = m.cell k

theorem Frame.refl (l : ℕ) (m : Mem V) : Frame l m m := ⟨le_rfl, fun _ _ _ => rfl⟩

theorem Frame.trans {l : ℕ} {a b c : Mem V} (h : Frame l a b) (h' : Frame l b c) : Frame l a c :=
  ⟨h.1.trans h'.1, fun k hk hl => (h'.2 k (lt_of_lt_of_le hk h.1) hl).trans (h.2 k hk hl)⟩

theorem frame_write (m : Mem V) (l : ℕ) (v : V) : Frame l m (write m l v) := ⟨le_rfl, fun k _ h => by simp [write, h]⟩

theorem frame_modify (m : Mem V) (l : ℕ) (f : V → V) : Frame l m (modify m l f) := frame_write m l _

theorem frame_alloc (m : Mem V) (l : ℕ) (v : V) : Frame l m (alloc m v).2 := by
  refine ⟨Nat.le_succ _, fun k hk _ => ?_⟩
  have : k ≠ m.next := by omega
  simp [alloc, this]

/-- The operation touches no block allocated earlier. -/
def Keeps (m m' : Mem V) : Prop := m.next ≤ m'.next ∧ ∀ k < m.next, m'.cell k = m.cell k

theorem Keeps.refl (m : Mem V) : Keeps m m := ⟨le_rfl, fun _ _ => rfl⟩

theorem Keeps.trans {a b c : Mem V} (h : Keeps a b) (h' : Keeps b c) : Keeps a c :=
  ⟨h.1.trans h'.1, fun k hk => (h'.2 k (lt_of_lt_of_le hk h.1)).trans (h.2 k hk)⟩

theorem Keeps.frame {a b : Mem V} (h : Keeps a b) (l : ℕ) : Frame l a b := ⟨h.1, fun k hk _ => h.2 k hk⟩

theorem keeps_alloc (m : Mem V) (v : V) : Keeps m (alloc m v).2 := by
  refine ⟨Nat.le_succ _, fun k hk => ?_⟩
  have : k ≠ m.next := by omega
  simp [alloc, this]

theorem Keeps.of_frame {a b : Mem V} {l : ℕ} (h : Frame l a b) (hl : a.next ≤ l) : Keeps a b := ⟨h.1, fun k hk => h.2 k hk (by omega)⟩

@[simp] theorem write_cell (m : Mem V) (l : ℕ) (v : V) : (write m l v).cell l = v := by simp [write]
@[simp] theorem write_next (m : Mem V) (l : ℕ) (v : V) : (write m l v).next = m.next := rfl
@[simp] theorem modify_cell (m : Mem V) (l : ℕ) (f : V → V) : (modify m l f).cell l = f (m.cell l) := by simp [modify]
@[simp] theorem modify_next (m : Mem V) (l : ℕ) (f : V → V) : (modify m l f).next = m.next := rfl
@[simp] theorem alloc_cell (m : Mem V) (v : V) : (alloc m v).2.cell (alloc m v).1 = v := by simp [alloc]
@[simp] theorem alloc_fst (m : Mem V) (v : V) : (alloc m v).1 = m.next := rfl
@[simp] theorem alloc_next (m : Mem V) (v : V) : (alloc m v).2.next = m.next + 1 := rfl

end basic

section MCWF
variable {ι κ : Type*} [Fintype ι]

/-- The result on objects shows the result on values, in the same block, and nothing else changes. -/
def Ref (m : Mem (ι → ℂ)) (o : Obj κ) (res : Option (Mem (ι → ℂ) × Obj κ)) (val : Option (MCWF.St ι κ)) : Prop :=
  res.map (fun r => view r.1 r.2) = val ∧ ∀ r, res = some r → r.2.loc = o.loc ∧ Frame o.loc m r.1

theorem evolve_ref (S : MCWF.Sys ι κ) (fuel : ℕ) (Dt : ℝ) (m : Mem (ι → ℂ)) (o : Obj κ) :
    Ref m o (evolve S fuel Dt m o) (MCWF.evolve S fuel Dt (view m o)) := by
  unfold evolve MCWF.evolve
  cases hha : S.ha with
  | none => exact ⟨rfl, by rintro r ⟨⟩; exact ⟨rfl, Frame.refl _ _⟩⟩
  | some ha =>
    cases hd : o.dtTry with
    | top => simp only [view, hd]; exact ⟨rfl, by rintro r ⟨⟩⟩
    | coe d =>
      simp only [view, hd]
      cases h : ODE.step (ha o.t0) fuel Dt ⟨o.ces, o.dtDid, d, o.nSteps, o.nFailedSteps⟩ (m.cell o.loc) o.t with
      | none => exact ⟨rfl, by rintro r ⟨⟩⟩
      | some r => exact ⟨by simp [view], by rintro r ⟨⟩; exact ⟨rfl, frame_write _ _ _⟩⟩

theorem exact_ref (S : MCWF.Sys ι κ) (m : Mem (ι → ℂ)) (o : Obj κ) :
    view (exact S m o).1 (exact S m o).2 = MCWF.exact S (view m o) ∧ (exact S m o).2.loc = o.loc ∧ Frame o.loc m (exact S m o).1 := by
  unfold exact MCWF.exact
  cases S.ex with
  | none => exact ⟨rfl, rfl, Frame.refl _ _⟩
  | some u => exact ⟨by simp [view], rfl, frame_modify _ _ _⟩

theorem coherent_ref (S : MCWF.Sys ι κ) (fuel : ℕ) (Dt : ℝ) (m : Mem (ι → ℂ)) (o : Obj κ) :
    Ref m o (coherent S fuel Dt m o) (MCWF.coherent S fuel Dt (view m o)) := by
  obtain ⟨h1, h2⟩ := evolve_ref S fuel Dt m o
  unfold coherent MCWF.coherent
  rw [← h1]
  cases he : evolve S fuel Dt m o with
  | none => exact ⟨rfl, by rintro r ⟨⟩⟩
  | some r =>
    obtain ⟨hl, hf⟩ := h2 r he
    obtain ⟨e1, e2, e3⟩ := exact_ref S r.1 r.2
    refine ⟨?_, ?_⟩
    · simp only [Option.map_some, ← e1]
      simp [view]
    · rintro s hs
      simp only [Option.map_some, Option.some.injEq] at hs
      subst hs
      refine ⟨e2.trans hl, ?_⟩
      rw [hl] at e3 e2
      refine (hf.trans e3).trans ?_
      simp only [e2]
      exact frame_modify _ _ _

theorem specialLoop_ref (l : MCWF.Li ι) (t : ℝ) (loc : ℕ) : ∀ (rs : List ℝ) (i : ℕ) (m : Mem (ι → ℂ)), loc < m.next →
    let r := specialLoop l t loc i rs m
    Keeps m r.1 ∧ (∀ j ∈ r.2.2, j.2 < r.1.next ∧ j.2 ≠ loc) ∧
    r.2.1 = rs.mapIdx (fun k x => open Classical in if x < 0 then MCWF.norm (l.actWithJ t (m.cell loc) (i + k)) ^ 2 else x) ∧
    r.2.2.map (fun j => (j.1, r.1.cell j.2)) =
      (rs.mapIdx fun k x => open Classical in if x < 0 then [(i + k, MCWF.renorm (l.actWithJ t (m.cell loc) (i + k)))] else []).flatten
  | [], i, m, _ => ⟨Keeps.refl m, by simp [specialLoop], rfl, rfl⟩
  | r :: rs, i, m, h => by
    classical
    intro R
    by_cases hr : r < 0
    · set m1 := (copyCtor m loc).2 with hm1
      set k := (copyCtor m loc).1 with hk
      have hkn : k = m.next := rfl
      set m2 := modify m1 k (fun psi => l.actWithJ t psi i) with hm2
      set m3 := modify m2 k MCWF.renorm with hm3
      have k1 : Keeps m m1 := keeps_alloc m _
      have k3 : Keeps m m3 := by
        refine Keeps.of_frame (l := k) ?_ (le_of_eq hkn.symm)
        exact ((k1.frame k).trans (frame_modify m1 k _)).trans (frame_modify m2 k _)
      have hnext : m3.next = m.next + 1 := rfl
      have hc1 : m1.cell k = m.cell loc := alloc_cell m _
      have hc2 : m2.cell k = l.actWithJ t (m.cell loc) i := by rw [hm2, modify_cell, hc1]
      have hc3 : m3.cell k = MCWF.renorm (l.actWithJ t (m.cell loc) i) := by rw [hm3, modify_cell, hc2]
      have hloc : m3.cell loc = m.cell loc := k3.2 loc h
      have ih := specialLoop_ref l t loc rs (i + 1) m3 (by omega)
      obtain ⟨i1, i2, i3, i4⟩ := ih
      set Q := specialLoop l t loc (i + 1) rs m3 with hQ
      have hR : R = (Q.1, MCWF.norm (m2.cell k) ^ 2 :: Q.2.1, (i, k) :: Q.2.2) := by
        simp only [R]
        rw [specialLoop, if_pos hr]
      rw [hR]
      refine ⟨k3.trans i1, ?_, ?_, ?_⟩
      · rintro j hj
        rcases List.mem_cons.mp hj with rfl | hj
        · exact ⟨by have := i1.1; simp only; omega, by simp only; omega⟩
        · exact i2 j hj
      · simp only [List.mapIdx_cons, hr, if_true, Nat.add_zero, hc2]
        rw [i3, hloc]
        congr 2
        funext a b
        simp only [Nat.add_assoc, Nat.add_comm 1]
      · have hkk : Q.1.cell k = m3.cell k := i1.2 k (by omega)
        simp only [List.mapIdx_cons, hr, if_true, Nat.add_zero, List.map_cons, List.flatten_cons, List.singleton_append, hkk, hc3]
        rw [i4, hloc]
        congr 3
        funext a b
        simp only [Nat.add_assoc, Nat.add_comm 1]
    · obtain ⟨i1, i2, i3, i4⟩ := specialLoop_ref l t loc rs (i + 1) m h
      set Q := specialLoop l t loc (i + 1) rs m with hQ
      have hR : R = (Q.1, r :: Q.2.1, Q.2.2) := by
        simp only [R]
        rw [specialLoop, if_neg hr]
      rw [hR]
      refine ⟨i1, i2, ?_, ?_⟩
      · simp only [List.mapIdx_cons, hr, if_false]
        rw [i3]
        congr 2
        funext a b
        simp only [Nat.add_assoc, Nat.add_comm 1]
      · simp only [List.mapIdx_cons, hr, if_false, List.flatten_cons, List.nil_append]
        rw [i4]
        congr 2
        funext a b
        simp only [Nat.add_assoc, Nat.add_comm 1]

theorem rates_ref (l : MCWF.Li ι) (m : Mem (ι → ℂ)) (o : Obj κ) (h : o.loc < m.next) :
    Keeps m (rates l m o).1 ∧ (∀ j ∈ (rates l m o).2.2, j.2 < (rates l m o).1.next ∧ j.2 ≠ o.loc) ∧
    (rates l m o).2.1 = MCWF.effectiveRates l o.t (m.cell o.loc) ∧
    (rates l m o).2.2.map (fun j => (j.1, (rates l m o).1.cell j.2)) = MCWF.specialJumps l o.t (m.cell o.loc) := by
  obtain ⟨h1, h2, h3, h4⟩ := specialLoop_ref l o.t o.loc (l.rates o.t (m.cell o.loc)) 0 m h
  refine ⟨h1, h2, ?_, ?_⟩
  · rw [rates, h3, MCWF.effectiveRates]
    simp only [Nat.zero_add]
  · rw [rates, h4, MCWF.specialJumps]
    simp only [Nat.zero_add]

theorem find_map {α β : Type*} (f : α → β) (p : α → Bool) (q : β → Bool) (h : ∀ a, q (f a) = p a) : ∀ xs : List α, (xs.map f).find? q = (xs.find? p).map f
  | [] => rfl
  | x :: xs => by
    simp only [List.map_cons, List.find?_cons, h]
    cases p x
    · exact find_map f p q h xs
    · rfl

theorem performJump_ref (l : MCWF.Li ι) (sample : ℕ → ℝ) (m : Mem (ι → ℂ)) (o : Obj κ) (rs : List ℝ) (sp : List (ℕ × ℕ))
    (hr : rs = MCWF.effectiveRates l o.t (m.cell o.loc)) (hs : sp.map (fun j => (j.1, m.cell j.2)) = MCWF.specialJumps l o.t (m.cell o.loc)) :
    view (performJump l sample rs sp m o).1 (performJump l sample rs sp m o).2 = MCWF.performJump l sample (view m o) ∧
    (performJump l sample rs sp m o).2.loc = o.loc ∧ Frame o.loc m (performJump l sample rs sp m o).1 := by
  unfold performJump MCWF.performJump
  simp only [view, ← hr]
  cases hj : MCWF.selectJump rs (sample o.nRandom) o.dtDid with
  | none => exact ⟨rfl, rfl, Frame.refl _ _⟩
  | some no =>
    simp only [MCWF.jumped, ← hs]
    rw [find_map (fun j : ℕ × ℕ => (j.1, m.cell j.2)) (fun j => j.1 == no) (fun j => j.1 == no) (fun _ => rfl)]
    cases hf : sp.find? (fun j => j.1 == no) with
    | none => exact ⟨by simp, rfl, (frame_modify _ _ _).trans (frame_modify _ _ _)⟩
    | some j => exact ⟨by simp [assign], rfl, frame_write _ _ _⟩

theorem retryLoop_ref (S : MCWF.Sys ι κ) (l : MCWF.Li ι) (L : MCWF.Lim) (sample : ℕ → ℝ) (fuel : ℕ) (Dt : ℝ) (psiCache : ℕ) (cache : MCWF.St ι κ) :
    ∀ (n : ℕ) (m : Mem (ι → ℂ)) (o : Obj κ), o.loc < m.next → psiCache < m.next → psiCache ≠ o.loc → m.cell psiCache = cache.psi →
      Ref m o (retryLoop S l L sample fuel Dt psiCache cache.t cache.dtDid n m o)
        ((MCWF.retryLoop S l L fuel Dt cache n (view m o)).map (MCWF.performJump l sample)) := by
  intro n
  induction n with
  | zero =>
    intro m o hl hp hne hc
    obtain ⟨r1, r2, r3, r4⟩ := rates_ref l m o hl
    rw [retryLoop, MCWF.retryLoop]
    simp only [view, r3]
    by_cases ho : MCWF.overshot L (MCWF.effectiveRates l o.t (m.cell o.loc)) o.dtDid
    · have ho2 := ho
      rw [← r3] at ho2
      simp only [ho, ho2, if_true]
      exact ⟨rfl, by rintro r ⟨⟩⟩
    · have ho2 := ho
      rw [← r3] at ho2
      simp only [ho, ho2, if_false, Option.map_some]
      have hcell := r1.2 o.loc hl
      obtain ⟨p1, p2, p3⟩ := performJump_ref l sample (rates l m o).1 (adjustTry S L (rates l m o).2.1 o) (rates l m o).2.1 (rates l m o).2.2
        (by rw [r3]; simp only [adjustTry, hcell]) (by rw [r4]; simp only [adjustTry, hcell])
      rw [r3] at p1 p2 p3
      refine ⟨?_, ?_⟩
      · rw [Option.map_some, p1]
        simp only [view, adjustTry, MCWF.adjustTry, hcell]
        cases S.ha <;> rfl
      · rintro r hr
        rw [Option.some.injEq] at hr
        subst hr
        exact ⟨p2, (r1.frame _).trans p3⟩
  | succ n ih =>
    intro m o hl hp hne hc
    obtain ⟨r1, r2, r3, r4⟩ := rates_ref l m o hl
    rw [retryLoop, MCWF.retryLoop]
    simp only [view, r3]
    by_cases ho : MCWF.overshot L (MCWF.effectiveRates l o.t (m.cell o.loc)) o.dtDid
    · have ho2 := ho
      rw [← r3] at ho2
      simp only [ho, ho2, if_true]
      set m' := assign (rates l m o).1 o.loc psiCache with hm'
      set o' := setBack L (MCWF.effectiveRates l o.t (m.cell o.loc)) cache.t cache.dtDid o with ho'
      have hloc' : o'.loc = o.loc := rfl
      have hcell : m'.cell o.loc = cache.psi := by rw [hm', assign, write_cell, r1.2 psiCache hp, hc]
      have hf' : Frame o.loc m m' := (r1.frame _).trans (frame_write _ _ _)
      obtain ⟨c1, c2⟩ := coherent_ref S fuel Dt m' o'
      have hv : view m' o' = { MCWF.setBack L (MCWF.effectiveRates l o.t (m.cell o.loc)) cache.t cache.dtDid (view m o) with psi := cache.psi } := by
        simp only [view, hloc', hcell]
        rfl
      rw [hv] at c1
      simp only [view] at c1
      rw [← c1]
      cases hco : coherent S fuel Dt m' o' with
      | none => exact ⟨rfl, by rintro r ⟨⟩⟩
      | some s =>
        obtain ⟨s1, s2⟩ := c2 s hco
        rw [hloc'] at s1 s2
        have hfs : Frame o.loc m s.1 := hf'.trans s2
        obtain ⟨q1, q2⟩ := ih s.1 s.2 (by rw [s1]; exact lt_of_lt_of_le hl hfs.1) (lt_of_lt_of_le hp hfs.1) (by rw [s1]; exact hne)
          (by rw [hfs.2 psiCache hp hne, hc])
        simp only [Option.bind_some, Option.map_some]
        refine ⟨q1, fun r hr => ?_⟩
        obtain ⟨a, b⟩ := q2 r hr
        rw [s1] at a b
        exact ⟨a, hfs.trans b⟩
    · have ho2 := ho
      rw [← r3] at ho2
      simp only [ho, ho2, if_false, Option.map_some]
      have hcell := r1.2 o.loc hl
      obtain ⟨p1, p2, p3⟩ := performJump_ref l sample (rates l m o).1 (adjustTry S L (rates l m o).2.1 o) (rates l m o).2.1 (rates l m o).2.2
        (by rw [r3]; simp only [adjustTry, hcell]) (by rw [r4]; simp only [adjustTry, hcell])
      rw [r3] at p1 p2 p3
      refine ⟨?_, ?_⟩
      · rw [Option.map_some, p1]
        simp only [view, adjustTry, MCWF.adjustTry, hcell]
        cases S.ha <;> rfl
      · rintro r hr
        rw [Option.some.injEq] at hr
        subst hr
        exact ⟨p2, (r1.frame _).trans p3⟩

theorem step_ref (S : MCWF.Sys ι κ) (L : MCWF.Lim) (sample : ℕ → ℝ) (fuel n : ℕ) (Dt : ℝ) (m : Mem (ι → ℂ)) (o : Obj κ) (h : o.loc < m.next) :
    Ref m o (step S L sample fuel n Dt m o) (MCWF.step S L sample fuel n Dt (view m o)) := by
  set m1 := (copyCtor m o.loc).2 with hm1
  have k1 : Keeps m m1 := keeps_alloc m _
  have hv : view m1 o = view m o := by simp only [view, k1.2 o.loc h]
  obtain ⟨c1, c2⟩ := coherent_ref S fuel Dt m1 o
  rw [hv] at c1
  unfold step MCWF.step
  rw [← c1]
  dsimp only
  rw [← hm1]
  cases hco : coherent S fuel Dt m1 o with
  | none => exact ⟨rfl, by rintro r ⟨⟩⟩
  | some s =>
    obtain ⟨s1, s2⟩ := c2 s hco
    have hfs : Frame o.loc m s.1 := (k1.frame _).trans s2
    simp only [Option.bind_some, Option.map_some]
    cases hli : S.li with
    | none => exact ⟨rfl, by rintro r ⟨⟩; exact ⟨s1, hfs⟩⟩
    | some l =>
      have hn : m1.next = m.next + 1 := rfl
      have hk : (copyCtor m o.loc).1 = m.next := rfl
      have hcache : m1.cell m.next = m.cell o.loc := alloc_cell m _
      have hne : m.next ≠ o.loc := by omega
      have hsn := s2.1
      obtain ⟨q1, q2⟩ := retryLoop_ref S l L sample fuel Dt m.next (view m o) n s.1 s.2 (by rw [s1]; omega) (by omega) (by rw [s1]; exact hne)
        (by rw [s2.2 m.next (by omega) hne, hcache]; rfl)
      refine ⟨q1, fun r hr => ?_⟩
      obtain ⟨a, b⟩ := q2 r hr
      rw [s1] at a b
      exact ⟨a, hfs.trans b⟩

theorem construct_ref (S : MCWF.Sys ι κ) (L : MCWF.Lim) (ces : κ) (dtInit : ℝ) (m : Mem (ι → ℂ)) (psi : ℕ) (h : psi < m.next) :
    view (construct S L ces dtInit m psi).1 (construct S L ces dtInit m psi).2 = MCWF.construct S L (m.cell psi) ces dtInit ∧
    (construct S L ces dtInit m psi).2.loc = psi ∧ Keeps m (construct S L ces dtInit m psi).1 := by
  unfold construct MCWF.construct
  cases hli : S.li with
  | none => exact ⟨rfl, rfl, Keeps.refl _⟩
  | some l =>
    obtain ⟨r1, r2, r3, r4⟩ := rates_ref l m (⟨moveCtor psi, 0, 0, ces, 0, dtInit, 0, 0, 0⟩ : Obj κ) h
    have hcell := r1.2 psi h
    simp only [moveCtor] at r1 r3 hcell ⊢
    by_cases ho : MCWF.overshot L (MCWF.effectiveRates l 0 (m.cell psi)) 0
    · have ho2 := ho
      rw [← r3] at ho2
      simp only [ho, ho2, if_true, r3]
      exact ⟨by simp only [view, setBack, MCWF.setBack, hcell], rfl, r1⟩
    · have ho2 := ho
      rw [← r3] at ho2
      simp only [ho, ho2, if_false, r3]
      exact ⟨by simp only [view, adjustTry, MCWF.adjustTry, hcell]; cases S.ha <;> rfl, rfl, r1⟩

theorem load_ref (r : MCWF.Record ι κ) (m : Mem (ι → ℂ)) (o : Obj κ) :
    view (load r m o).1 (load r m o).2 = MCWF.load r (view m o) ∧ (load r m o).2.loc = m.next ∧ Keeps m (load r m o).1 ∧ (load r m o).1.next = m.next + 1 := by
  refine ⟨?_, rfl, keeps_alloc _ _, rfl⟩
  simp [view, load, MCWF.load, alloc]

end MCWF

section Master
variable {n : ℕ} {κ : Type*}

@[simp] theorem elements_set (m : Mem (Master.Rho n)) (h : Handle) (rho : Master.Rho n) : elements (setElements m h rho) h = rho := by
  unfold elements setElements
  cases h.swapped <;> simp

theorem mexact_ref (S : Master.Sys n) (m : Mem (Master.Rho n)) (o : MObj κ) :
    (mexact S m o).cell o.loc = Master.exactPart S o.t o.t0 (m.cell o.loc) ∧ Frame o.loc m (mexact S m o) := by
  unfold mexact Master.exactPart
  cases S.ex with
  | none => exact ⟨rfl, Frame.refl _ _⟩
  | some u =>
    refine ⟨?_, ?_⟩
    · ext i j
      simp [setElements, elements, hermitianConjugateSelf, Master.hermitianConjugateSelf, Matrix.transpose]
    · exact (((frame_write _ _ _).trans (frame_write _ _ _)).trans (frame_write _ _ _)).trans (frame_write _ _ _)

theorem mstep_ref (solver : (ℝ → Master.Rho n → Master.Rho n) → ODE.Stepper (Master.Rho n) κ) (S : Master.Sys n) (fuel : ℕ) (Dt : ℝ) (m : Mem (Master.Rho n))
    (o : MObj κ) :
    (mstep solver S fuel Dt m o).map (fun r => mview r.1 r.2) = Master.step solver S fuel Dt (mview m o) ∧
    ∀ r, mstep solver S fuel Dt m o = some r → r.2.loc = o.loc ∧ Frame o.loc m r.1 := by
  unfold mstep Master.step
  simp only [mview]
  cases h : ODE.step (solver fun t rho => Master.derivative S t o.t0 rho) fuel Dt o.ode (m.cell o.loc) o.t with
  | none => exact ⟨rfl, by rintro r ⟨⟩⟩
  | some r =>
    obtain ⟨e1, e2⟩ := mexact_ref S (write m o.loc r.1) ({ o with t := r.2.1, ode := r.2.2 } : MObj κ)
    refine ⟨?_, ?_⟩
    · simp only [Option.map_some, modify_cell]
      simp only [write_cell] at e1
      rw [e1]
    · rintro s hs
      simp only [Option.map_some, Option.some.injEq] at hs
      subst hs
      exact ⟨rfl, (((frame_write m o.loc r.1).trans e2).trans (frame_modify _ _ _)).trans (frame_modify _ _ _)⟩

theorem mload_ref (r : Master.Rho n × ℝ × ODE.Engine κ) (m : Mem (Master.Rho n)) (o : MObj κ) :
    mview (mload r m o).1 (mload r m o).2 = Master.load r (mview m o) ∧ (mload r m o).2.loc = m.next ∧ Keeps m (mload r m o).1 ∧ (mload r m o).1.next = m.next + 1 := by
  refine ⟨?_, rfl, keeps_alloc _ _, rfl⟩
  simp [mview, mload, Master.load, alloc]

end Master

/-! ## Histories -/

section runs
variable {V O X R : Type*}

/-- The operations on objects refine those on values. -/
structure Sound (step : ℝ → Mem V → O → Option (Mem V × O)) (load : R → Mem V → O → Mem V × O) (vstep : ℝ → X → Option X) (vload : R → X → X)
    (loc : O → ℕ) (view : Mem V → O → X) (elems : X → V) : Prop where
  step : ∀ Dt m o, loc o < m.next → (step Dt m o).map (fun r => view r.1 r.2) = vstep Dt (view m o) ∧ ∀ r, step Dt m o = some r → loc r.2 = loc o ∧ Frame (loc o) m r.1
  load : ∀ r m o, view (load r m o).1 (load r m o).2 = vload r (view m o) ∧ loc (load r m o).2 = m.next ∧ Keeps m (load r m o).1 ∧ (load r m o).1.next = m.next + 1
  elems : ∀ m o, elems (view m o) = m.cell (loc o)
  local_view : ∀ m m' o, m'.cell (loc o) = m.cell (loc o) → view m' o = view m o

variable {step : ℝ → Mem V → O → Option (Mem V × O)} {load : R → Mem V → O → Mem V × O} {vstep : ℝ → X → Option X} {vload : R → X → X}
  {loc : O → ℕ} {view : Mem V → O → X} {elems : X → V}

theorem Sound.run (H : Sound step load vstep vload loc view elems) : ∀ (ops : List (Op R)) (m : Mem V) (o : O), loc o < m.next →
    (runObj step load ops m o).map (fun r => view r.1 r.2) = runValue vstep vload ops (view m o) ∧
    ∀ r, runObj step load ops m o = some r → Frame (loc o) m r.1 ∧ loc r.2 < r.1.next ∧ (loc r.2 = loc o ∨ m.next ≤ loc r.2)
  | [], m, o, h => ⟨rfl, by rintro r ⟨⟩; exact ⟨Frame.refl _ _, h, Or.inl rfl⟩⟩
  | .step Dt :: ops, m, o, h => by
    obtain ⟨h1, h2⟩ := H.step Dt m o h
    rw [runObj, runValue, ← h1]
    cases hs : step Dt m o with
    | none => exact ⟨rfl, by rintro r ⟨⟩⟩
    | some s =>
      obtain ⟨s1, s2⟩ := h2 s hs
      obtain ⟨i1, i2⟩ := H.run ops s.1 s.2 (by rw [s1]; exact lt_of_lt_of_le h s2.1)
      simp only [Option.bind_some, Option.map_some]
      refine ⟨i1, fun r hr => ?_⟩
      obtain ⟨a, b, c⟩ := i2 r hr
      rw [s1] at a c
      exact ⟨s2.trans a, b, c.imp id (fun x => s2.1.trans x)⟩
  | .load q :: ops, m, o, h => by
    obtain ⟨l1, l2, l3, l4⟩ := H.load q m o
    rw [runObj, runValue, ← l1]
    obtain ⟨i1, i2⟩ := H.run ops (load q m o).1 (load q m o).2 (by rw [l2, l4]; omega)
    refine ⟨i1, fun r hr => ?_⟩
    obtain ⟨a, b, c⟩ := i2 r hr
    rw [l2] at a c
    refine ⟨?_, b, ?_⟩
    · exact ⟨l3.1.trans a.1, fun k hk _ => (a.2 k (by omega) (by omega)).trans (l3.2 k hk)⟩
    · right
      rcases c with c | c <;> omega

theorem Sound.after_load (H : Sound step load vstep vload loc view elems) (q : R) (ops : List (Op R)) (m : Mem V) (o : O) (r : Mem V × O)
    (hr : runObj step load (.load q :: ops) m o = some r) : Keeps m r.1 := by
  obtain ⟨l1, l2, l3, l4⟩ := H.load q m o
  rw [runObj] at hr
  obtain ⟨a, -, -⟩ := (H.run ops (load q m o).1 (load q m o).2 (by rw [l2, l4]; omega)).2 r hr
  rw [l2] at a
  exact ⟨l3.1.trans a.1, fun k hk => (a.2 k (by omega) (by omega)).trans (l3.2 k hk)⟩

theorem Sound.only_steps (H : Sound step load vstep vload loc view elems) : ∀ (ops : List (Op R)) (m : Mem V) (o : O), loc o < m.next →
    (∀ op ∈ ops, ∃ Dt, op = .step Dt) → ∀ r, runObj step load ops m o = some r → loc r.2 = loc o
  | [], m, o, _, _, r, hr => by cases hr; rfl
  | .load q :: ops, m, o, _, h, r, hr => by obtain ⟨Dt, hd⟩ := h _ List.mem_cons_self; cases hd
  | .step Dt :: ops, m, o, hl, h, r, hr => by
    rw [runObj] at hr
    obtain ⟨s, hs, hr⟩ := Option.bind_eq_some_iff.mp hr
    obtain ⟨s1, s2⟩ := (H.step Dt m o hl).2 s hs
    rw [← s1]
    exact H.only_steps ops s.1 s.2 (by rw [s1]; exact lt_of_lt_of_le hl s2.1) (fun op hop => h op (List.mem_cons_of_mem _ hop)) r hr

theorem runObj_append (step : ℝ → Mem V → O → Option (Mem V × O)) (load : R → Mem V → O → Mem V × O) : ∀ (a b : List (Op R)) (m : Mem V) (o : O),
    runObj step load (a ++ b) m o = (runObj step load a m o).bind fun s => runObj step load b s.1 s.2
  | [], b, m, o => rfl
  | .step Dt :: a, b, m, o => by
    rw [List.cons_append, runObj, runObj, Option.bind_assoc]
    congr 1
    funext s
    exact runObj_append step load a b s.1 s.2
  | .load q :: a, b, m, o => by
    rw [List.cons_append, runObj, runObj]
    exact runObj_append step load a b _ _

/-- The operations on member `i`. -/
def opsOf (i : ℕ) (ops : List (ℕ × Op R)) : List (Op R) := (ops.filter fun x => x.1 == i).map Prod.snd

theorem set_getElem? {α : Type*} (os : List α) (i j : ℕ) (a : α) : (os.set i a)[j]? = if i = j ∧ i < os.length then some a else os[j]? := by
  rw [List.getElem?_set]
  by_cases h : i = j
  · subst h
    by_cases h' : i < os.length
    · simp [h']
    · simp [h']
  · simp [h]

/-- Two members in different places are in different blocks, all allocated. -/
def Apart (loc : O → ℕ) (m : Mem V) (os : List O) : Prop :=
  (∀ o ∈ os, loc o < m.next) ∧ ∀ (i j : ℕ) (a b : O), os[i]? = some a → os[j]? = some b → i ≠ j → loc a ≠ loc b

theorem apart_set {loc : O → ℕ} {m m' : Mem V} {os : List O} (h : Apart loc m os) {i : ℕ} {o o' : O} (hi : os[i]? = some o)
    (hn : m.next ≤ m'.next) (hl : loc o' < m'.next) (hc : loc o' = loc o ∨ m.next ≤ loc o') : Apart loc m' (os.set i o') := by
  obtain ⟨h1, h2⟩ := h
  have hmem : ∀ (j : ℕ) (b : O), os[j]? = some b → b ∈ os := fun j b hb => List.mem_of_getElem? hb
  refine ⟨?_, ?_⟩
  · intro b hb
    rcases List.mem_or_eq_of_mem_set hb with hb | rfl
    · exact lt_of_lt_of_le (h1 b hb) hn
    · exact hl
  · intro j k a b ha hb hjk
    rw [set_getElem?] at ha hb
    by_cases hj : i = j ∧ i < os.length
    · have hk : ¬ (i = k ∧ i < os.length) := by rintro ⟨rfl, -⟩; exact hjk hj.1.symm
      rw [if_pos hj] at ha
      rw [if_neg hk] at hb
      cases ha
      have hne := h2 i k o b hi hb (by rw [hj.1]; exact hjk)
      have := h1 b (hmem k b hb)
      rcases hc with hc | hc
      · rw [hc]; exact hne
      · omega
    · rw [if_neg hj] at ha
      by_cases hk : i = k ∧ i < os.length
      · rw [if_pos hk] at hb
        cases hb
        have hne := h2 j i a o ha hi (by rw [hk.1]; exact hjk)
        have := h1 a (hmem j a ha)
        rcases hc with hc | hc
        · rw [hc]; exact hne
        · omega
      · rw [if_neg hk] at hb
        exact h2 j k a b ha hb hjk

theorem runMany_sound {step : ℕ → ℝ → Mem V → O → Option (Mem V × O)} {vstep : ℕ → ℝ → X → Option X}
    (H : ∀ i, Sound (step i) load (vstep i) vload loc view elems) : ∀ (ops : List (ℕ × Op R)) (m : Mem V) (os : List O), Apart loc m os →
    (runMany step load ops m os = none → ∃ i o, os[i]? = some o ∧ runValue (vstep i) vload (opsOf i ops) (view m o) = none) ∧
    ∀ m' os', runMany step load ops m os = some (m', os') →
      os'.length = os.length ∧ Apart loc m' os' ∧ m.next ≤ m'.next ∧ (∀ k < m.next, (∀ o ∈ os, loc o ≠ k) → m'.cell k = m.cell k) ∧
      ∀ i o, os[i]? = some o → ∃ o', os'[i]? = some o' ∧ runValue (vstep i) vload (opsOf i ops) (view m o) = some (view m' o')
  | [], m, os, h => by
    refine ⟨by rintro ⟨⟩, ?_⟩
    rintro m' os' ⟨⟩
    exact ⟨rfl, h, le_rfl, fun _ _ _ => rfl, fun i o ho => ⟨o, ho, rfl⟩⟩
  | (i, op) :: ops, m, os, h => by
    rw [runMany]
    cases ho : os[i]? with
    | none =>
      obtain ⟨i1, i2⟩ := runMany_sound H ops m os h
      have hne : ∀ j o, os[j]? = some o → opsOf j ((i, op) :: ops) = opsOf j ops := by
        intro j o hj
        have : i ≠ j := by rintro rfl; rw [ho] at hj; cases hj
        simp [opsOf, this]
      refine ⟨fun hn => ?_, fun m' os' hs => ?_⟩
      · obtain ⟨j, o, hj, hv⟩ := i1 hn
        exact ⟨j, o, hj, by rw [hne j o hj]; exact hv⟩
      · obtain ⟨a, b, c, d, e⟩ := i2 m' os' hs
        refine ⟨a, b, c, d, fun j o hj => ?_⟩
        rw [hne j o hj]
        exact e j o hj
    | some o =>
      have hlo : loc o < m.next := h.1 o (List.mem_of_getElem? ho)
      have hlen : i < os.length := by
        by_contra hc
        rw [List.getElem?_eq_none (by omega)] at ho
        cases ho
      -- after an operation on member `i`
      have key : ∀ (s : Mem V × O), Frame (loc o) m s.1 → loc s.2 < s.1.next → (loc s.2 = loc o ∨ m.next ≤ loc s.2) →
          (∀ rest, runValue (vstep i) vload (op :: rest) (view m o) = runValue (vstep i) vload rest (view s.1 s.2)) →
          (runMany step load ops s.1 (os.set i s.2) = none → ∃ j o, os[j]? = some o ∧ runValue (vstep j) vload (opsOf j ((i, op) :: ops)) (view m o) = none) ∧
          ∀ m' os', runMany step load ops s.1 (os.set i s.2) = some (m', os') →
            os'.length = os.length ∧ Apart loc m' os' ∧ m.next ≤ m'.next ∧ (∀ k < m.next, (∀ o ∈ os, loc o ≠ k) → m'.cell k = m.cell k) ∧
            ∀ j o, os[j]? = some o → ∃ o', os'[j]? = some o' ∧ runValue (vstep j) vload (opsOf j ((i, op) :: ops)) (view m o) = some (view m' o') := by
        intro s hf hl hc hv
        have hap : Apart loc s.1 (os.set i s.2) := apart_set h ho hf.1 hl hc
        obtain ⟨i1, i2⟩ := runMany_sound H ops s.1 (os.set i s.2) hap
        have hself : (os.set i s.2)[i]? = some s.2 := by rw [set_getElem?, if_pos ⟨rfl, hlen⟩]
        have hother : ∀ j, j ≠ i → (os.set i s.2)[j]? = os[j]? := by
          intro j hj
          rw [set_getElem?, if_neg (by rintro ⟨rfl, -⟩; exact hj rfl)]
        have hopi : opsOf i ((i, op) :: ops) = op :: opsOf i ops := by simp [opsOf]
        have hopj : ∀ j, j ≠ i → opsOf j ((i, op) :: ops) = opsOf j ops := by
          intro j hj
          simp [opsOf, hj.symm]
        have hview : ∀ j b, j ≠ i → os[j]? = some b → view s.1 b = view m b := by
          intro j b hj hb
          exact (H i).local_view m s.1 b (hf.2 _ (h.1 b (List.mem_of_getElem? hb)) (h.2 j i b o hb ho hj))
        refine ⟨fun hn => ?_, fun m' os' hs => ?_⟩
        · obtain ⟨j, b, hb, hbv⟩ := i1 hn
          by_cases hj : j = i
          · subst hj
            rw [hself] at hb
            cases hb
            exact ⟨j, o, ho, by rw [hopi, hv]; exact hbv⟩
          · rw [hother j hj] at hb
            exact ⟨j, b, hb, by rw [hopj j hj, ← hview j b hj hb]; exact hbv⟩
        · obtain ⟨a, b, c, d, e⟩ := i2 m' os' hs
          refine ⟨by rw [a, List.length_set], b, hf.1.trans c, ?_, ?_⟩
          · intro k hk hko
            have hk' : k ≠ loc o := fun hc => hko o (List.mem_of_getElem? ho) hc.symm
            rw [d k (lt_of_lt_of_le hk hf.1) ?_, hf.2 k hk hk']
            intro b hb
            rcases List.mem_or_eq_of_mem_set hb with hb | rfl
            · exact hko b hb
            · rcases hc with hc | hc
              · rw [hc]; exact hk'.symm
              · omega
          · intro j b hb
            by_cases hj : j = i
            · subst hj
              rw [ho] at hb
              cases hb
              obtain ⟨o', h1, h2⟩ := e j s.2 hself
              exact ⟨o', h1, by rw [hopi, hv]; exact h2⟩
            · obtain ⟨o', h1, h2⟩ := e j b (by rw [hother j hj]; exact hb)
              exact ⟨o', h1, by rw [hopj j hj, ← hview j b hj hb]; exact h2⟩
      cases op with
      | load q =>
        obtain ⟨l1, l2, l3, l4⟩ := (H i).load q m o
        exact key (load q m o) (l3.frame _) (by rw [l2, l4]; omega) (Or.inr (le_of_eq l2.symm)) (fun rest => by rw [runValue, l1])
      | step Dt =>
        obtain ⟨s1, s2⟩ := (H i).step Dt m o hlo
        dsimp only
        cases hs : step i Dt m o with
        | none =>
          refine ⟨fun _ => ⟨i, o, ho, ?_⟩, by rintro m' os' ⟨⟩⟩
          rw [hs] at s1
          have : opsOf i ((i, Op.step Dt) :: ops) = .step Dt :: opsOf i ops := by simp [opsOf]
          rw [this, runValue, ← s1]
          rfl
        | some s =>
          obtain ⟨a, b⟩ := s2 s hs
          rw [hs] at s1
          exact key s b (by rw [a]; exact lt_of_lt_of_le hlo b.1) (Or.inl a) (fun rest => by rw [runValue, ← s1]; rfl)

end runs

section instances

theorem mcwf_sound {ι κ : Type*} [Fintype ι] (S : MCWF.Sys ι κ) (L : MCWF.Lim) (sample : ℕ → ℝ) (fuel n : ℕ) :
    Sound (step S L sample fuel n) load (MCWF.step S L sample fuel n) MCWF.load (fun o : Obj κ => o.loc) view (fun x => x.psi) where
  step Dt m o h := step_ref S L sample fuel n Dt m o h
  load r m o := load_ref r m o
  elems _ _ := rfl
  local_view m m' o h := by simp only [view, h]

theorem master_sound {n : ℕ} {κ : Type*} (solver : (ℝ → Master.Rho n → Master.Rho n) → ODE.Stepper (Master.Rho n) κ) (S : Master.Sys n) (fuel : ℕ) :
    Sound (mstep solver S fuel) mload (Master.step solver S fuel) Master.load (fun o : MObj κ => o.loc) mview (fun x => x.rho) where
  step Dt m o _ := mstep_ref solver S fuel Dt m o
  load r m o := mload_ref r m o
  elems _ _ := rfl
  local_view m m' o h := by simp only [mview, h]

end instances

section ensemble
variable {ι κ : Type*} [Fintype ι]

/-- All the objects show `x`, in different blocks from `b` on. -/
def Fresh (b : ℕ) (x : MCWF.St ι κ) (m : Mem (ι → ℂ)) (os : List (Obj κ)) : Prop :=
  Apart (fun o : Obj κ => o.loc) m os ∧ ∀ o ∈ os, b ≤ o.loc ∧ view m o = x

theorem apart_append {O V : Type*} {loc : O → ℕ} {m : Mem V} {os : List O} {o : O} (h : Apart loc m os) (hl : loc o < m.next) (hn : ∀ a ∈ os, loc a ≠ loc o) :
    Apart loc m (os ++ [o]) := by
  refine ⟨?_, ?_⟩
  · intro a ha
    rcases List.mem_append.mp ha with ha | ha
    · exact h.1 a ha
    · rw [List.mem_singleton.mp ha]; exact hl
  · intro i j a b ha hb hij
    rw [List.getElem?_append] at ha hb
    split at ha <;> split at hb
    · exact h.2 i j a b ha hb hij
    · have := List.mem_of_getElem? hb
      rw [List.mem_singleton.mp this]
      exact hn a (List.mem_of_getElem? ha)
    · have := List.mem_of_getElem? ha
      rw [List.mem_singleton.mp this]
      exact (hn b (List.mem_of_getElem? hb)).symm
    · rename_i h1 h2
      obtain ⟨h3, -⟩ := List.getElem?_eq_some_iff.mp ha
      obtain ⟨h4, -⟩ := List.getElem?_eq_some_iff.mp hb
      simp at h3 h4
      omega

theorem apart_mono {O V : Type*} {loc : O → ℕ} {m m' : Mem V} {os : List O} (h : Apart loc m os) (hn : m.next ≤ m'.next) : Apart loc m' os :=
  ⟨fun o ho => lt_of_lt_of_le (h.1 o ho) hn, h.2⟩

theorem relocate_ref (b : ℕ) (x : MCWF.St ι κ) : ∀ (os : List (Obj κ)) (m : Mem (ι → ℂ)) (acc : List (Obj κ)), b ≤ m.next →
    (∀ o ∈ os, o.loc < m.next ∧ view m o = x) → Fresh b x m acc →
    let r := os.foldl (fun a x => let c := copyObj a.1 x; (c.2, a.2 ++ [c.1])) (m, acc)
    Keeps m r.1 ∧ Fresh b x r.1 r.2 ∧ r.2.length = acc.length + os.length ∧ ∀ o ∈ r.2, o ∈ acc ∨ m.next ≤ o.loc
  | [], m, acc, _, _, h => ⟨Keeps.refl m, h, rfl, fun o ho => Or.inl ho⟩
  | o :: os, m, acc, hb, hos, h => by
    intro r
    set m1 := (copyObj m o).2 with hm1
    set o1 := (copyObj m o).1 with ho1
    have k1 : Keeps m m1 := keeps_alloc m _
    have hn1 : m1.next = m.next + 1 := rfl
    have hl1 : o1.loc = m.next := rfl
    have hv1 : view m1 o1 = x := by
      rw [← (hos o List.mem_cons_self).2]
      simp [view, hm1, ho1, copyObj, copyCtor, alloc]
    have hkeep : ∀ a : Obj κ, a.loc < m.next → view m1 a = view m a := fun a ha => by simp only [view, k1.2 _ ha]
    have hfr : Fresh b x m1 (acc ++ [o1]) := by
      refine ⟨apart_append (apart_mono h.1 k1.1) (by rw [hl1, hn1]; omega) (fun a ha => ?_), ?_⟩
      · have := h.1.1 a ha
        simp only at this ⊢
        omega
      · intro a ha
        rcases List.mem_append.mp ha with ha | ha
        · exact ⟨(h.2 a ha).1, by rw [hkeep a (h.1.1 a ha)]; exact (h.2 a ha).2⟩
        · rw [List.mem_singleton.mp ha]
          exact ⟨by omega, hv1⟩
    obtain ⟨a1, a2, a3, a4⟩ := relocate_ref b x os m1 (acc ++ [o1]) (by omega)
      (fun a ha => ⟨by have := (hos a (List.mem_cons_of_mem _ ha)).1; omega,
        by rw [hkeep a (hos a (List.mem_cons_of_mem _ ha)).1]; exact (hos a (List.mem_cons_of_mem _ ha)).2⟩) hfr
    refine ⟨k1.trans a1, a2, ?_, ?_⟩
    · have : r.2.length = (acc ++ [o1]).length + os.length := a3
      rw [this]
      simp
      omega
    · intro a ha
      rcases a4 a ha with h' | h'
      · rcases List.mem_append.mp h' with h' | h'
        · exact Or.inl h'
        · rw [List.mem_singleton.mp h']
          exact Or.inr (by omega)
      · exact Or.inr (by omega)

theorem makeEnsemble_ref (S : MCWF.Sys ι κ) (L : MCWF.Lim) (ces : κ) (dtInit : ℝ) (grows : ℕ → Bool) (psi : ℕ) (m : Mem (ι → ℂ)) (h : psi < m.next) : ∀ k : ℕ,
    let r := makeEnsemble S L ces dtInit grows psi k m
    Keeps m r.1 ∧ r.2.length = k ∧ Fresh m.next (MCWF.construct S L (m.cell psi) ces dtInit) r.1 r.2
  | 0 => ⟨Keeps.refl m, rfl, ⟨by simp [makeEnsemble], by simp [makeEnsemble]⟩, by simp [makeEnsemble]⟩
  | k + 1 => by
    obtain ⟨i1, i2, i3⟩ := makeEnsemble_ref S L ces dtInit grows psi m h k
    intro r
    set x := MCWF.construct S L (m.cell psi) ces dtInit with hx
    set q := makeEnsemble S L ces dtInit grows psi k m with hq
    set m1 := (copyCtor q.1 psi).2 with hm1
    have hl : (copyCtor q.1 psi).1 = q.1.next := rfl
    have k1 : Keeps q.1 m1 := keeps_alloc _ _
    have hn1 : m1.next = q.1.next + 1 := rfl
    have hc1 : m1.cell q.1.next = m.cell psi := (alloc_cell q.1 _).trans (i1.2 psi h)
    obtain ⟨c1, c2, c3⟩ := construct_ref S L ces dtInit m1 q.1.next (by omega)
    set m2 := (construct S L ces dtInit m1 q.1.next).1 with hm2
    set o := (construct S L ces dtInit m1 q.1.next).2 with ho
    rw [hc1, ← hx] at c1
    have k2 : Keeps q.1 m2 := k1.trans c3
    have hn2 : q.1.next + 1 ≤ m2.next := hn1 ▸ c3.1
    have hview : ∀ a ∈ q.2, a.loc < m2.next ∧ view m2 a = x := by
      intro a ha
      have := i3.1.1 a ha
      simp only at this
      exact ⟨by omega, by rw [← (i3.2 a ha).2]; simp only [view, k2.2 _ this]⟩
    have i1n := i1.1
    by_cases hg : grows k = true
    · have R := relocate_ref m.next x q.2 m2 [] (by omega) hview ⟨⟨by simp, by simp⟩, by simp⟩
      change Keeps m2 (relocate m2 q.2).1 ∧ Fresh m.next x (relocate m2 q.2).1 (relocate m2 q.2).2 ∧ (relocate m2 q.2).2.length = _ ∧
        ∀ o ∈ (relocate m2 q.2).2, o ∈ [] ∨ m2.next ≤ o.loc at R
      obtain ⟨r1, r2, r3, r4⟩ := R
      have hr : r = ((relocate m2 q.2).1, (relocate m2 q.2).2 ++ [o]) := by
        simp only [r]
        rw [makeEnsemble]
        simp only [hg, if_true]
        rfl
      rw [hr]
      refine ⟨(i1.trans k2).trans r1, ?_, ?_, ?_⟩
      · simp only [List.length_append, r3, i2, List.length_singleton, List.length_nil]
        omega
      · refine apart_append r2.1 ?_ ?_
        · have := r1.1
          simp only [c2]
          omega
        · intro a ha
          rcases r4 a ha with h' | h'
          · cases h'
          · simp only [c2]
            omega
      · intro a ha
        rcases List.mem_append.mp ha with ha | ha
        · exact r2.2 a ha
        · rw [List.mem_singleton.mp ha]
          refine ⟨by rw [c2]; omega, ?_⟩
          have c1' : view m2 o = x := c1
          rw [← c1']
          simp only [view, r1.2 o.loc (by rw [c2]; omega)]
    · have hr : r = (m2, q.2 ++ [o]) := by
        simp only [r]
        rw [makeEnsemble]
        simp only [hg]
        rfl
      rw [hr]
      refine ⟨i1.trans k2, by simp [i2], apart_append (apart_mono i3.1 k2.1) (by simp only [c2]; omega) ?_, ?_⟩
      · intro a ha
        have := i3.1.1 a ha
        simp only at this
        simp only [c2]
        omega
      · intro a ha
        rcases List.mem_append.mp ha with ha | ha
        · exact ⟨(i3.2 a ha).1, (hview a ha).2⟩
        · rw [List.mem_singleton.mp ha]
          exact ⟨by rw [c2]; omega, c1⟩

end ensemble

end CppQED.Alias
