import Verif.Model.Master
import Verif.Spec.Master
import Verif.Props.CMatrix
import Verif.Props.ODE
import Mathlib.LinearAlgebra.Matrix.PosDef
import Mathlib.LinearAlgebra.Matrix.Notation
import Mathlib.Algebra.BigOperators.Field
import Mathlib.Tactic.NoncommRing

/-!
# Property C42 (Master-equation step) and the general form of C22 (trace conservation)
-/

namespace CppQED.Master
open ComplexConjugate Matrix Spec

variable {n : ℕ} {κ : Type*}

theorem twoTimesRealPart_eq (m : Rho n) : twoTimesRealPart m = m + mᴴ := by
  ext i j
  unfold twoTimesRealPart
  simp only [Matrix.of_apply, Matrix.add_apply, Matrix.conjTranspose_apply]
  rw [(CMat.twoTimesRealPartOfSelf_eq n _ i j).1 i.2 j.2]
  simp

theorem overColumns_mulVec (A rho : Rho n) (f : (Fin n → ℂ) → Fin n → ℂ) (hf : ∀ psi, f psi = A *ᵥ psi) : overColumns f rho = A * rho := by
  ext i j
  simp only [overColumns, Matrix.of_apply, hf, Matrix.mul_apply]
  rfl

theorem hermitianConjugateSelf_eq (rho : Rho n) : (hermitianConjugateSelf rho).2 = rhoᴴ := by
  ext i j; rfl

/-- **C42.** The exact part acts as `U ρ U†` (for any `ρ`, and whether or not `U` is unitary). -/
theorem exactPart_eq (S : Sys n) (actWithU : ℝ → (Fin n → ℂ) → ℝ → Fin n → ℂ) (hex : S.ex = some actWithU) (t t0 : ℝ) (U : Rho n)
    (hU : ∀ psi, actWithU t psi t0 = U *ᵥ psi) (rho : Rho n) : exactPart S t t0 rho = U * rho * Uᴴ := by
  unfold exactPart
  rw [hex]
  simp only
  rw [overColumns_mulVec U rho _ hU, hermitianConjugateSelf_eq, overColumns_mulVec U _ _ hU]
  have h : ∀ m : Rho n, (Matrix.of fun i j => conj ((Matrix.of fun i j => m j i : Rho n) i j) : Rho n) = mᴴ := fun m => by ext i j; rfl
  rw [h]
  simp [Matrix.conjTranspose_mul, Matrix.mul_assoc]

theorem jumpTerm_eq (l : Li n) (t : ℝ) (J : Rho n) (i : ℕ) (hJ : ∀ psi, l.actWithJ t psi i = J *ᵥ psi) (rho : Rho n) : jumpTerm l t rho i = J * rhoᴴ * Jᴴ := by
  unfold jumpTerm
  simp only
  rw [overColumns_mulVec J rho _ hJ, hermitianConjugateSelf_eq, overColumns_mulVec J _ _ hJ, Matrix.conjTranspose_mul, Matrix.mul_assoc]

/-- The system is linear: the Hamiltonian part adds `G ψ`, the exact part is the matrix `U`, the jumps are the matrices `J`; a superoperator, where implemented, adds
`J ρ J†` (for Hermitian `ρ`). -/
structure Linear (S : Sys n) (G : ℝ → ℝ → Rho n) (U : ℝ → ℝ → Rho n) (nJ : ℕ) (J : ℝ → ℕ → Rho n) : Prop where
  ha : ∀ f, S.ha = some f → ∀ t psi d t0, f t psi d t0 = d + G t t0 *ᵥ psi
  ha_none : S.ha = none → ∀ t t0, G t t0 = 0
  ex : ∀ f, S.ex = some f → ∀ t psi t0, f t psi t0 = U t t0 *ᵥ psi
  ex_none : S.ex = none → ∀ t t0, U t t0 = 1
  jumps : ∀ l, S.li = some l → l.nAvr = nJ ∧ ∀ i < nJ, ∀ t psi, l.actWithJ t psi i = J t i *ᵥ psi
  superops : ∀ l, S.li = some l → ∀ i < nJ, ∀ t rho d d', rho.IsHermitian → l.actWithSuperoperator t rho d i = some d' → d' = d + J t i * rho * (J t i)ᴴ
  li_none : S.li = none → nJ = 0

theorem addJumps_eq (l : Li n) (t : ℝ) (J : ℕ → Rho n) (rho : Rho n) (hrho : rho.IsHermitian) (hJ : ∀ i < l.nAvr, ∀ psi, l.actWithJ t psi i = J i *ᵥ psi)
    (hS : ∀ i < l.nAvr, ∀ d d', l.actWithSuperoperator t rho d i = some d' → d' = d + J i * rho * (J i)ᴴ) (d : Rho n) :
    addJumps l t rho d = d + ((List.range l.nAvr).map fun i => J i * rho * (J i)ᴴ).sum := by
  unfold addJumps
  have key : ∀ (L : List ℕ), (∀ i ∈ L, i < l.nAvr) → ∀ d : Rho n,
      L.foldl (fun d i => (l.actWithSuperoperator t rho d i).getD (d + jumpTerm l t rho i)) d = d + (L.map fun i => J i * rho * (J i)ᴴ).sum := by
    intro L
    induction L with
    | nil => intro _ d; simp
    | cons i L ih =>
      intro hL d
      have hi := hL i (by simp)
      rw [List.foldl_cons, ih (fun j hj => hL j (by simp [hj]))]
      have : (l.actWithSuperoperator t rho d i).getD (d + jumpTerm l t rho i) = d + J i * rho * (J i)ᴴ := by
        cases h : l.actWithSuperoperator t rho d i with
        | none => rw [Option.getD_none, jumpTerm_eq l t (J i) i (hJ i hi), hrho.eq]
        | some d' => rw [Option.getD_some, hS i hi d d' h]
      rw [this, List.map_cons, List.sum_cons, add_assoc]
  exact key _ (fun i hi => by simpa using hi) d

/-- **C42, C22.** The derivative of a Hermitian density operator is the right-hand side of the Master equation, whether the superoperators are implemented or the individual
jumps are used. -/
theorem derivative_eq (S : Sys n) (G U : ℝ → ℝ → Rho n) (nJ : ℕ) (J : ℝ → ℕ → Rho n) (hS : Linear S G U nJ J) (t t0 : ℝ) (rho : Rho n) (hrho : rho.IsHermitian) :
    derivative S t t0 rho = lindblad (G t t0) ((List.range nJ).map (J t)) rho := by
  have hh : ∀ d : Rho n, d = G t t0 * rho → twoTimesRealPart d = G t t0 * rho + rho * (G t t0)ᴴ := by
    rintro d rfl
    rw [twoTimesRealPart_eq, Matrix.conjTranspose_mul, hrho.eq]
  have hd : twoTimesRealPart (hamiltonianPart S t t0 rho) = G t t0 * rho + rho * (G t t0)ᴴ := by
    apply hh
    unfold hamiltonianPart
    cases hha : S.ha with
    | none => rw [hS.ha_none hha]; simp
    | some f =>
      ext i j
      simp only [Matrix.of_apply, hS.ha f hha, zero_add, Matrix.mul_apply]
      rfl
  unfold derivative lindblad
  simp only
  rw [hd]
  cases hli : S.li with
  | none =>
    rw [hS.li_none hli]; simp
  | some l =>
    obtain ⟨h1, h2⟩ := hS.jumps l hli
    simp only
    rw [addJumps_eq l t (J t) rho hrho (fun i hi psi => h2 i (h1 ▸ hi) t psi) (fun i hi d d' h => hS.superops l hli i (h1 ▸ hi) t rho d d' hrho h), h1, List.map_map]
    rfl

theorem isHermitian_list_sum {α : Type*} (L : List α) (f : α → Rho n) (h : ∀ a ∈ L, (f a).IsHermitian) : ((L.map f).sum).IsHermitian := by
  induction L with
  | nil => simp [Matrix.isHermitian_zero]
  | cons a L ih =>
    rw [List.map_cons, List.sum_cons]
    exact (h a (by simp)).add (ih fun b hb => h b (by simp [hb]))

/-- **C42.** The right-hand side of the Master equation is Hermitian. -/
theorem lindblad_hermitian (G : Rho n) (J : List (Rho n)) (rho : Rho n) (hrho : rho.IsHermitian) : (lindblad G J rho).IsHermitian := by
  unfold lindblad
  refine Matrix.IsHermitian.add ?_ (isHermitian_list_sum _ _ fun j _ => ?_)
  · unfold Matrix.IsHermitian
    rw [Matrix.conjTranspose_add, Matrix.conjTranspose_mul, Matrix.conjTranspose_mul, Matrix.conjTranspose_conjTranspose, hrho.eq, add_comm]
  · unfold Matrix.IsHermitian
    rw [Matrix.conjTranspose_mul, Matrix.conjTranspose_mul, Matrix.conjTranspose_conjTranspose, hrho.eq, Matrix.mul_assoc]

/-- **C22**, general form: the trace of the derivative is zero for every density operator if and only if the anti-Hermitian part of the Hamiltonian (divided by `i`) balances
the jumps. -/
theorem lindblad_trace (G : Rho n) (J : List (Rho n)) (rho : Rho n) :
    (lindblad G J rho).trace = ((G + Gᴴ + (J.map fun j => jᴴ * j).sum) * rho).trace := by
  unfold lindblad
  have h : ((J.map fun j => j * rho * jᴴ).sum).trace = ((J.map fun j => jᴴ * j).sum * rho).trace := by
    induction J with
    | nil => simp
    | cons j J ih =>
      rw [List.map_cons, List.sum_cons, Matrix.trace_add, ih, List.map_cons, List.sum_cons, Matrix.add_mul, Matrix.trace_add]
      congr 1
      rw [Matrix.trace_mul_comm, Matrix.mul_assoc]
  rw [Matrix.trace_add, Matrix.trace_add, h, Matrix.add_mul, Matrix.add_mul, Matrix.trace_add, Matrix.trace_add, Matrix.trace_mul_comm rho]

theorem lindblad_traceless_iff (G : Rho n) (J : List (Rho n)) : (∀ rho : Rho n, (lindblad G J rho).trace = 0) ↔ Conserving G J := by
  simp only [lindblad_trace]
  constructor
  · intro h
    have h0 : G + Gᴴ + (J.map fun j => jᴴ * j).sum = 0 := by
      ext i j
      have := h (Matrix.single j i 1)
      rw [Matrix.trace_mul_single] at this
      simpa using this
    unfold Conserving
    exact eq_neg_of_add_eq_zero_left h0
  · intro h rho
    unfold Conserving at h
    rw [h]; simp

/-! ## The step -/

/-- **C42.** After each step the density operator is exactly Hermitian, whatever the stepper, the system, and the state before; its trace is one unless the real part of the
trace vanishes before renormalisation. -/
theorem step_hermitian (solver : (ℝ → Rho n → Rho n) → ODE.Stepper (Rho n) κ) (S : Sys n) (fuel : ℕ) (deltaT : ℝ) (x z : St n κ)
    (h : step solver S fuel deltaT x = some z) :
    z.rho.IsHermitian ∧ z.t0 = z.t ∧
    ∃ rho t' e, ODE.step (solver fun t rho => derivative S t x.t0 rho) fuel deltaT x.ode x.rho x.t = some (rho, t', e) ∧ z.t = t' ∧
      (((exactPart S t' x.t0 rho).trace).re ≠ 0 → z.rho.trace = 1) := by
  unfold step at h
  obtain ⟨⟨rho, t', e⟩, hr, rfl⟩ := Option.map_eq_some_iff.1 h
  simp only
  have hH : (exactPart S t' x.t0 rho + (exactPart S t' x.t0 rho)ᴴ).IsHermitian := by
    unfold Matrix.IsHermitian
    rw [Matrix.conjTranspose_add, Matrix.conjTranspose_conjTranspose, add_comm]
  refine ⟨?_, trivial, rho, t', e, hr, rfl, ?_⟩
  · rw [twoTimesRealPart_eq]
    ext i j
    simp only [renorm, Matrix.conjTranspose_apply, Matrix.of_apply]
    rw [star_div₀]
    have := congrFun (congrFun hH i) j
    rw [Matrix.conjTranspose_apply] at this
    rw [this]
    congr 1
    exact Complex.conj_ofReal _
  · intro ht
    rw [twoTimesRealPart_eq]
    set m := exactPart S t' x.t0 rho with hm
    have htr : ∑ k, (m + mᴴ) k k = ((2 * (m.trace).re : ℝ) : ℂ) := by
      have : ∑ k, (m + mᴴ) k k = m.trace + conj m.trace := by
        simp only [Matrix.add_apply, Matrix.conjTranspose_apply, Finset.sum_add_distrib, Matrix.trace, Matrix.diag_apply, map_sum]
        rfl
      rw [this, Complex.add_conj]
    have hre : (∑ k, (m + mᴴ) k k).re = 2 * (m.trace).re := by rw [htr, Complex.ofReal_re]
    have : (renorm (m + mᴴ)).trace = (∑ k, (m + mᴴ) k k) / ((∑ k, (m + mᴴ) k k).re : ℂ) := by
      simp only [Matrix.trace, Matrix.diag_apply, renorm, Matrix.of_apply]
      rw [Finset.sum_div]
    rw [this, hre, htr]
    exact div_self (by rw [Complex.ofReal_ne_zero]; exact mul_ne_zero two_ne_zero ht)

/-- Renormalising the sum of a Hermitian matrix of trace one and its adjoint does nothing. -/
theorem renorm_twoTimes (m : Rho n) (hm : m.IsHermitian) (ht : m.trace = 1) : renorm (twoTimesRealPart m) = m := by
  rw [twoTimesRealPart_eq, hm.eq]
  have : (∑ k, (m + m) k k) = 2 := by
    simp only [Matrix.add_apply, Finset.sum_add_distrib]
    change m.trace + m.trace = 2
    rw [ht]; norm_num
  ext i j
  simp only [renorm, Matrix.of_apply]
  rw [this, Matrix.add_apply]
  simp only [Complex.re_ofNat, Complex.ofReal_ofNat]
  ring

/-- **C42.** What the explicit Runge–Kutta methods calculate from the stages: `y + h Σ a_i k_i`. -/
theorem combine_eq (h : ℝ) (y : Rho n) (as : List ℝ) (ks : List (Rho n)) : combine h y as ks = y + h • (List.zipWith (fun a k => a • k) as ks).sum := by
  induction as generalizing ks with
  | nil => simp [combine]
  | cons a as ih =>
    cases ks with
    | nil => simp [combine]
    | cons k ks =>
      rw [combine, ih, List.zipWith_cons_cons, List.sum_cons, smul_add, smul_smul]
      abel

theorem combine_mem (W : Submodule ℝ (Rho n)) (h : ℝ) (y : Rho n) (hy : y ∈ W) (as : List ℝ) (ks : List (Rho n)) (hks : ∀ k ∈ ks, k ∈ W) : combine h y as ks ∈ W := by
  induction as generalizing ks with
  | nil => simpa [combine] using hy
  | cons a as ih =>
    cases ks with
    | nil => simpa [combine] using hy
    | cons k ks =>
      rw [combine]
      exact W.add_mem (ih ks fun k hk => hks k (by simp [hk])) (W.smul_mem _ (hks k (by simp)))

theorem stages_mem (W : Submodule ℝ (Rho n)) (P : Rho n → Prop) (f : ℝ → Rho n → Rho n) (hP : ∀ y, y ∈ W → P y) (hf : ∀ t y, P y → f t y ∈ W) (t h : ℝ) (y : Rho n) (hy : y ∈ W)
    (rows : List Row) : ∀ k ∈ stages f t h y rows, k ∈ W := by
  unfold stages
  have key : ∀ (rows : List Row) (ks : List (Rho n)), (∀ k ∈ ks, k ∈ W) →
      ∀ k ∈ rows.foldl (fun ks r => ks ++ [f (t + r.c * h) (combine h y r.a ks)]) ks, k ∈ W := by
    intro rows
    induction rows with
    | nil => intro ks hks; exact hks
    | cons r rows ih =>
      intro ks hks
      rw [List.foldl_cons]
      apply ih
      intro k hk
      rcases List.mem_append.1 hk with hk | hk
      · exact hks k hk
      · rw [List.mem_singleton] at hk
        rw [hk]
        exact hf _ _ (hP _ (combine_mem W h y hy _ _ hks))
  exact key rows [] (by simp)

/-- The Hermitian matrices as a real subspace. -/
def hermitian (n : ℕ) : Submodule ℝ (Rho n) where
  carrier := {m | m.IsHermitian}
  add_mem' := fun ha hb => Matrix.IsHermitian.add ha hb
  zero_mem' := Matrix.isHermitian_zero
  smul_mem' := fun c m hm => by
    show (c • m)ᴴ = c • m
    rw [Matrix.conjTranspose_smul, hm.out]
    simp

theorem combine_trace (h : ℝ) (y : Rho n) (as : List ℝ) (ks : List (Rho n)) (hks : ∀ k ∈ ks, k.trace = 0) : (combine h y as ks).trace = y.trace := by
  induction as generalizing ks with
  | nil => rfl
  | cons a as ih =>
    cases ks with
    | nil => rfl
    | cons k ks =>
      rw [combine, Matrix.trace_add, Matrix.trace_smul, hks k (by simp), smul_zero, add_zero]
      exact ih ks fun k hk => hks k (by simp [hk])

/-- **C42.** Any explicit Runge–Kutta step maps Hermitian matrices to Hermitian matrices, and conserves the trace, if the derivative does so. -/
theorem rungeKutta_preserves (f : ℝ → Rho n → Rho n) (hf : ∀ t y, y.IsHermitian → (f t y).IsHermitian) (hft : ∀ t y, y.IsHermitian → (f t y).trace = 0)
    (rows : List Row) (b : List ℝ) (t h : ℝ) (y : Rho n) (hy : y.IsHermitian) :
    (rungeKutta f rows b t h y).IsHermitian ∧ (rungeKutta f rows b t h y).trace = y.trace := by
  let W0 : Submodule ℝ (Rho n) :=
    { carrier := {m | m.IsHermitian ∧ m.trace = 0}
      add_mem' := fun ha hb => ⟨ha.1.add hb.1, by rw [Matrix.trace_add, ha.2, hb.2, add_zero]⟩
      zero_mem' := ⟨Matrix.isHermitian_zero, Matrix.trace_zero _ _⟩
      smul_mem' := fun c m hm => ⟨(hermitian n).smul_mem c hm.1, by rw [Matrix.trace_smul, hm.2, smul_zero]⟩ }
  have hst := stages_mem (hermitian n) (fun y => y.IsHermitian) f (fun y hy => hy) hf t h y hy rows
  have htr : ∀ k ∈ stages f t h y rows, k.trace = 0 := by
    unfold stages
    have key : ∀ (rows : List Row) (ks : List (Rho n)), (∀ k ∈ ks, k.IsHermitian ∧ k.trace = 0) →
        ∀ k ∈ rows.foldl (fun ks r => ks ++ [f (t + r.c * h) (combine h y r.a ks)]) ks, k.trace = 0 := by
      intro rows
      induction rows with
      | nil => intro ks hks k hk; exact (hks k hk).2
      | cons r rows ih =>
        intro ks hks
        rw [List.foldl_cons]
        apply ih
        intro k hk
        rcases List.mem_append.1 hk with hk | hk
        · exact hks k hk
        · rw [List.mem_singleton] at hk
          have hc : (combine h y r.a ks).IsHermitian := combine_mem (hermitian n) h y hy _ _ fun k hk => (hks k hk).1
          rw [hk]
          exact ⟨hf _ _ hc, hft _ _ hc⟩
    exact key rows [] (by simp)
  exact ⟨combine_mem (hermitian n) h y hy _ _ hst, combine_trace h y b _ htr⟩

/-- The successful trials of the stepper are explicit Runge–Kutta steps of the derivative. -/
def IsRungeKutta (solver : (ℝ → Rho n → Rho n) → ODE.Stepper (Rho n) κ) (rows : List Row) (b : List ℝ) : Prop :=
  ∀ f, ODE.Controlled (solver f) ∧ ∀ k s t d, (solver f k s t d).1.success = true → (solver f k s t d).1.state = rungeKutta f rows b t d s

/-- **C42.** A whole step of a linear system conserving probability and with a unitary exact part, using any explicit Runge–Kutta stepper: a Hermitian density operator with
trace one is evolved to `U ρ' U†`, Hermitian and of trace one, where `ρ'` is the result of the Runge–Kutta step; the smoothing and the renormalisation change nothing. -/
theorem step_density (solver : (ℝ → Rho n → Rho n) → ODE.Stepper (Rho n) κ) (rows : List Row) (b : List ℝ) (hRK : IsRungeKutta solver rows b)
    (S : Sys n) (G U : ℝ → ℝ → Rho n) (nJ : ℕ) (J : ℝ → ℕ → Rho n) (hS : Linear S G U nJ J)
    (hcons : ∀ t t0, Conserving (G t t0) ((List.range nJ).map (J t))) (hU : ∀ t t0, (U t t0)ᴴ * U t t0 = 1)
    (fuel : ℕ) (deltaT : ℝ) (hdt : 0 < deltaT) (x z : St n κ) (htry : 0 < x.ode.dtTry) (hx : x.rho.IsHermitian) (hxt : x.rho.trace = 1)
    (h : step solver S fuel deltaT x = some z) :
    z.t = x.t + z.ode.dtDid ∧ 0 < z.ode.dtDid ∧ z.ode.dtDid ≤ deltaT ∧
    z.rho = U z.t x.t0 * rungeKutta (fun t rho => derivative S t x.t0 rho) rows b x.t z.ode.dtDid x.rho * (U z.t x.t0)ᴴ ∧
    z.rho.IsHermitian ∧ z.rho.trace = 1 := by
  unfold step at h
  obtain ⟨⟨rho, t', e⟩, hr, rfl⟩ := Option.map_eq_some_iff.1 h
  obtain ⟨hc, hs⟩ := hRK fun t rho => derivative S t x.t0 rho
  obtain ⟨a1, a2, a3, -, -, -, ⟨k', b1, b2, -⟩, -⟩ := ODE.step_forward _ hc fuel deltaT hdt x.ode htry x.rho x.t rho t' e hr
  simp only
  rw [hs _ _ _ _ b1] at b2
  have hder : ∀ t y, y.IsHermitian → derivative S t x.t0 y = lindblad (G t x.t0) ((List.range nJ).map (J t)) y := fun t y hy => derivative_eq S G U nJ J hS t x.t0 y hy
  obtain ⟨p1, p2⟩ := rungeKutta_preserves (fun t rho => derivative S t x.t0 rho) (fun t y hy => by rw [hder t y hy]; exact lindblad_hermitian _ _ _ hy)
    (fun t y hy => by rw [hder t y hy]; exact (lindblad_traceless_iff _ _).2 (hcons t x.t0) y) rows b x.t e.dtDid x.rho hx
  rw [← b2] at p1 p2
  have hex : exactPart S t' x.t0 rho = U t' x.t0 * rho * (U t' x.t0)ᴴ := by
    cases h : S.ex with
    | none => rw [hS.ex_none h]; simp [exactPart, h]
    | some f => exact exactPart_eq S f h t' x.t0 _ (fun psi => hS.ex f h t' psi x.t0) rho
  have hH : (U t' x.t0 * rho * (U t' x.t0)ᴴ).IsHermitian := by
    unfold Matrix.IsHermitian
    rw [Matrix.conjTranspose_mul, Matrix.conjTranspose_mul, Matrix.conjTranspose_conjTranspose, p1.eq, Matrix.mul_assoc]
  have hT : (U t' x.t0 * rho * (U t' x.t0)ᴴ).trace = 1 := by
    rw [Matrix.trace_mul_comm, ← Matrix.mul_assoc, hU, Matrix.one_mul, p2, hxt]
  rw [hex, renorm_twoTimes _ hH hT, ← b2]
  exact ⟨a1, a2, a3, rfl, hH, hT⟩

open ComplexOrder in
/-- **C42.** The exact part preserves positivity. -/
theorem exactPart_posSemidef (S : Sys n) (actWithU : ℝ → (Fin n → ℂ) → ℝ → Fin n → ℂ) (hex : S.ex = some actWithU) (t t0 : ℝ) (U : Rho n)
    (hU : ∀ psi, actWithU t psi t0 = U *ᵥ psi) (rho : Rho n) (hrho : rho.PosSemidef) : (exactPart S t t0 rho).PosSemidef := by
  rw [exactPart_eq S actWithU hex t t0 U hU]
  exact hrho.mul_mul_conjTranspose_same U

/-- **C42.** Systems with a non-unitary exact part, and states of the wrong dimensions are rejected, others are accepted. -/
theorem construct_iff (S : Sys n) (dimsAgree : Bool) (rho : Rho n) (ode : ODE.Engine κ) :
    (construct S dimsAgree rho ode).isSome ↔ (S.ex.isSome → S.exApplicable = true) ∧ dimsAgree = true := by
  unfold construct
  cases S.ex <;> cases S.exApplicable <;> cases dimsAgree <;> simp

/-- **C42.** The trajectory begins at time zero with the given density operator, the two pictures coinciding. -/
theorem construct_initial (S : Sys n) (dimsAgree : Bool) (rho : Rho n) (ode : ODE.Engine κ) (x : St n κ) (h : construct S dimsAgree rho ode = some x) :
    x.t = 0 ∧ x.t0 = 0 ∧ x.rho = rho ∧ x.ode = ode := by
  unfold construct at h
  split_ifs at h
  injection h with h
  subst h
  exact ⟨rfl, rfl, rfl, rfl⟩

/-- **C42, C37.** Loading the state saved after a step into whatever object restores the trajectory completely. -/
theorem reload_after_step (solver : (ℝ → Rho n → Rho n) → ODE.Stepper (Rho n) κ) (S : Sys n) (fuel : ℕ) (deltaT : ℝ) (x z : St n κ)
    (h : step solver S fuel deltaT x = some z) (y : St n κ) : load (save z) y = z := by
  unfold step at h
  obtain ⟨⟨rho, t', e⟩, hr, rfl⟩ := Option.map_eq_some_iff.1 h
  rfl

/-- **C42.** An archive containing only an array gives the initial condition, and leaves the time and the stepper alone. -/
theorem loadArray_spec (rho : Rho n) (y : St n κ) : (loadArray rho y).rho = rho ∧ (loadArray rho y).t = y.t ∧ (loadArray rho y).t0 = y.t0 ∧ (loadArray rho y).ode = y.ode := ⟨rfl, rfl, rfl, rfl⟩

/-! ## An example: a decaying and precessing two-level system -/

/-- `G`: the upper level decays. -/
noncomputable def exG : Rho 2 := !![0, 0; 0, -1]
/-- `J`: the corresponding jump. -/
noncomputable def exJ : Rho 2 := !![0, (Real.sqrt 2 : ℂ); 0, 0]
/-- `U`: exchanges the sign of the upper amplitude. -/
noncomputable def exU : Rho 2 := !![1, 0; 0, -1]

noncomputable def exampleSys : Sys 2 where
  ha := some fun _ psi d _ => d + exG *ᵥ psi
  ex := some fun _ psi _ => exU *ᵥ psi
  exApplicable := true
  li := some ⟨1, fun _ _ _ _ => none, fun _ psi _ => exJ *ᵥ psi⟩

theorem exampleSys_linear : Linear exampleSys (fun _ _ => exG) (fun _ _ => exU) 1 (fun _ _ => exJ) := by
  refine ⟨?_, fun h => by simp [exampleSys] at h, ?_, fun h => by simp [exampleSys] at h, ?_, ?_, fun h => by simp [exampleSys] at h⟩
  · intro f hf t psi d t0
    simp only [exampleSys, Option.some.injEq] at hf
    subst hf; rfl
  · intro f hf t psi t0
    simp only [exampleSys, Option.some.injEq] at hf
    subst hf; rfl
  · intro l hl
    simp only [exampleSys, Option.some.injEq] at hl
    subst hl
    exact ⟨rfl, fun _ _ _ _ => rfl⟩
  · intro l hl i _ t rho d d' _ h
    simp only [exampleSys, Option.some.injEq] at hl
    subst hl
    simp at h

theorem example_conserving : Conserving exG [exJ] := by
  unfold Conserving
  have h2 : (Real.sqrt 2 : ℂ) * (Real.sqrt 2 : ℂ) = 2 := by
    rw [← Complex.ofReal_mul, Real.mul_self_sqrt (by norm_num)]; norm_num
  ext i j
  fin_cases i <;> fin_cases j <;> simp [exG, exJ, Matrix.mul_apply, Fin.sum_univ_two, h2]
  norm_num

/-- Explicit Euler steps which always succeed. -/
noncomputable def exampleSolver (f : ℝ → Rho 2 → Rho 2) : ODE.Stepper (Rho 2) Unit :=
  ODE.gslTryStep (fun s t d => some (rungeKutta f [⟨0, []⟩] [1] t d s)) (fun _ d => d)

theorem exampleSolver_rungeKutta : IsRungeKutta exampleSolver [⟨0, []⟩] [1] := fun f =>
  ⟨ODE.gsl_controlled _ _ (fun _ _ h => h) (fun _ _ h => h), fun _ _ _ _ _ => rfl⟩

/-- The hypotheses of `step_density` are met by this system: a step of 1/10 from an even superposition. -/
example : ∃ z, step exampleSolver exampleSys 1 (1 / 10) ⟨0, 0, !![1 / 2, 1 / 2; 1 / 2, 1 / 2], ⟨(), 0, 1, 0, 0⟩⟩ = some z ∧ z.rho.IsHermitian ∧ z.rho.trace = 1 ∧ z.t0 = z.t := by
  have hsome : ∃ z, step exampleSolver exampleSys 1 (1 / 10) ⟨0, 0, !![1 / 2, 1 / 2; 1 / 2, 1 / 2], ⟨(), 0, 1, 0, 0⟩⟩ = some z := by
    unfold step ODE.step
    simp only [ODE.tryLoop, exampleSolver, ODE.gslTryStep]
    exact ⟨_, rfl⟩
  obtain ⟨z, hz⟩ := hsome
  obtain ⟨-, -, -, -, h1, h2⟩ := step_density exampleSolver _ _ exampleSolver_rungeKutta exampleSys _ _ 1 _ exampleSys_linear (fun t t0 => by simpa using example_conserving)
    (fun t t0 => by ext i j; fin_cases i <;> fin_cases j <;> simp [exU, Matrix.mul_apply, Fin.sum_univ_two]) 1 (1 / 10) (by norm_num) _ z (by norm_num)
    (by ext i j; fin_cases i <;> fin_cases j <;> simp) (by simp [Matrix.trace, Fin.sum_univ_two]; norm_num) hz
  exact ⟨z, hz, h1, h2, (step_hermitian _ _ _ _ _ z hz).2.1⟩

end CppQED.Master
