import Verif.Props.Interactions

/-!
# The multilevel Jaynes-Cummings interaction: C77
-/

namespace CppQED.Interactions
open CppQED.Elem CppQED.Tridiag CppQED.ModeEl CppQED.Spec CppQED.Composite CppQED.Sigma
open CppQED.MII (Idx)
open CppQED.Slice (Arr sliceBound)
open ComplexConjugate

/-- The two operators of a coupling. -/
noncomputable def mljcItem (a : Tri) (g : ℕ × ℕ × ℂ) : ℕ × ℕ × Tri × Tri := (g.1, g.2.1, scale (-g.2.2) a, hermitianConjugate (scale g.2.2 a))

theorem mljc_eq (axes : List ℕ) (m : ModePtr) {a : Tri} (ha : aop m = .ok a) (gs : List (ℕ × ℕ × ℂ)) :
    mljc axes false m gs = .ok (interaction axes (some (mljcHam (gs.map (mljcItem a))))) := by
  unfold mljc
  have : ∀ gs : List (ℕ × ℕ × ℂ), gs.foldr (fun g (acc : Outcome (List (ℕ × ℕ × Tri × Tri))) => (aop m).bind fun a =>
      if false = true then .throw else acc.bind fun l => .ok ((g.1, g.2.1, scale (-g.2.2) a, hermitianConjugate (scale g.2.2 a)) :: l)) (.ok []) = .ok (gs.map (mljcItem a)) := by
    intro gs
    induction gs with
    | nil => rfl
    | cons g gs ih =>
      rw [List.foldr_cons, ih, ha]
      rfl
  rw [this]
  rfl

theorem acts_apply {d : ℕ} {w : ℕ → ℂ} {T : Tri} {E : Dens} (h : Op [d] (phases [w]) T (lift E)) (τ : ℝ) :
    ActsAs [d] (Tridiag.apply (propagate T τ)) (fun i j => Complex.exp (phases [w] i * τ) * lift E i j * Complex.exp (-(phases [w] j * τ))) :=
  fun psi dpsidt i hi => h.apply τ psi dpsidt i hi

theorem mljc_step {N : ℕ} (m : ModePtr) {a : Tri} (ha : Op [m.dim] (phases [m.w]) a (lift aOp)) (g : ℕ × ℕ × ℂ) (hk : g.1 < N) (hl : g.2.1 < N) (τ : ℝ) (psi d : NIdx → ℂ) (i : NIdx)
    (hi : i ∈ natBox [N, m.dim]) :
    (let md := mljcItem a g
      let a := propagate md.2.2.1 τ
      let adagger := propagate md.2.2.2 τ
      let d := Sigma.directApply md.1 md.2.1 (Tridiag.apply adagger) true psi d
      Sigma.directApply md.2.1 md.1 (Tridiag.apply a) true psi d) i =
      d i + ∑ j ∈ natBox [N, m.dim], rotating [fun _ => 0, m.w] (jcH g.2.2 (fun a b => if a = g.1 ∧ b = g.2.1 then 1 else 0) fun a b => if a = g.2.1 ∧ b = g.1 then 1 else 0) τ (up i) (up j) * psi j := by
  have A1 := acts_apply (ha.scale (-g.2.2)) τ (E := fun i j => -g.2.2 * aOp i j)
  have A2 := acts_apply (E := fun i j => conj g.2.2 * adOp i j) ((ha.scale g.2.2).dagger.congr fun i _ j _ => by simp only [lift, map_mul, conj_aOp]) τ
  have D1 := direct_head_acts A1 N g.2.1 g.1 hk
  have D2 := direct_head_acts A2 N g.1 g.2.1 hl
  simp only [mljcItem]
  rw [D1 psi _ i hi, D2 psi d i hi, add_assoc, ← Finset.sum_add_distrib]
  congr 1
  refine Finset.sum_congr rfl fun j hj => ?_
  have li := length_of_mem hi
  have lj := length_of_mem hj
  rcases i with - | ⟨i0, - | ⟨i1, i⟩⟩ <;> simp at li
  rcases j with - | ⟨j0, - | ⟨j1, j⟩⟩ <;> simp at lj
  subst li lj
  simp only [rotating, phaseSum_up, jcH, tensor_up, lift2, lift, kronHead, ketbra, phases, List.zipWith_cons_cons, List.zipWith_nil_right, List.sum_cons, List.sum_nil, List.getD_cons_zero,
    List.getD_cons_succ, zero_add, add_zero]
  ring

/-- The multilevel Jaynes-Cummings interaction in any picture of the mode, the multilevel system being in Schrödinger picture. -/
theorem mljc_couples (N : ℕ) (m : ModePtr) (hd : m.dim < 2 ^ 63) (h0 : 0 < m.dim) (gs : List (ℕ × ℕ × ℂ)) (hg : ∀ g ∈ gs, g.1 < N ∧ g.2.1 < N) (axes : List ℕ) :
    ∃ ia, mljc axes false m gs = .ok ia ∧ ia.axes = axes ∧ Couples ia [N, m.dim] [fun _ => 0, m.w] (mljcH gs) := by
  obtain ⟨a, a1, a2, -⟩ := aop_op m hd h0
  refine ⟨_, mljc_eq axes m a1 gs, rfl, rfl, fun t t0 => ?_⟩
  simp only [interaction]
  intro psi dpsidt s hs
  obtain ⟨h1, h2⟩ := (box_iff [N, m.dim] s).1 hs
  have key : ∀ (gs : List (ℕ × ℕ × ℂ)) (_ : ∀ g ∈ gs, g.1 < N ∧ g.2.1 < N) (psi d : NIdx → ℂ) (i : NIdx) (_ : i ∈ natBox [N, m.dim]),
      (gs.map (mljcItem a)).foldl (fun d md =>
        let a := propagate md.2.2.1 (t - t0)
        let adagger := propagate md.2.2.2 (t - t0)
        let d := Sigma.directApply md.1 md.2.1 (Tridiag.apply adagger) true psi d
        Sigma.directApply md.2.1 md.1 (Tridiag.apply a) true psi d) d i = d i + ∑ j ∈ natBox [N, m.dim], rotating [fun _ => 0, m.w] (mljcH gs) (t - t0) (up i) (up j) * psi j := by
    intro gs
    induction gs with
    | nil => intro _ psi d i _; simp [rotating, mljcH]
    | cons g gs ih =>
      intro hg psi d i hi
      rw [List.map_cons, List.foldl_cons, ih (fun g' hg' => hg g' (List.mem_cons_of_mem _ hg')) psi _ i hi,
        mljc_step m a2 g (hg g (List.mem_cons_self ..)).1 (hg g (List.mem_cons_self ..)).2 (t - t0) psi d i hi, add_assoc, ← Finset.sum_add_distrib]
      congr 1
      refine Finset.sum_congr rfl fun j _ => ?_
      simp only [rotating, mljcH, List.map_cons, List.sum_cons]
      ring
  unfold mljcHam
  rw [key gs hg _ _ _ h1]
  unfold matAction
  rw [sum_box, h2]

/-- A multilevel system in interaction picture is not accepted. -/
theorem mljc_exact_throws (axes : List ℕ) (m : ModePtr) (hd : m.dim < 2 ^ 63) (h0 : 0 < m.dim) (gs : List (ℕ × ℕ × ℂ)) (hg : gs ≠ []) : mljc axes true m gs = .throw := by
  obtain ⟨a, a1, -⟩ := aop_op m hd h0
  obtain ⟨g, gs, rfl⟩ := List.exists_cons_of_ne_nil hg
  unfold mljc
  rw [List.foldr_cons, a1]
  rfl

example : ∃ ia, mljc [0, 1] false ⟨10, some (⟨2, -1⟩, 0)⟩ [(0, 1, 2), (1, 2, Complex.I)] = .ok ia ∧
    Couples ia [3, 10] [fun _ => 0, ModePtr.w ⟨10, some (⟨2, -1⟩, 0)⟩] (mljcH [(0, 1, 2), (1, 2, Complex.I)]) :=
  let ⟨ia, h, _, h2⟩ := mljc_couples 3 ⟨10, some (⟨2, -1⟩, 0)⟩ (by norm_num) (by norm_num) [(0, 1, 2), (1, 2, Complex.I)] (by simp) [0, 1]
  ⟨ia, h, h2⟩

end CppQED.Interactions
