import Verif.Spec.Energy
import Verif.Props.Conservation
import Mathlib.Analysis.Calculus.MeanValue

/-!
# C163: the equation of Heisenberg, and the conservation of energy
-/

namespace CppQED.Interactions
open CppQED.Elem CppQED.Tridiag CppQED.ModeEl CppQED.Spec CppQED.Composite
open CppQED.MII (Idx)
open CppQED.Slice (Arr sliceBound)
open CppQED.PTrace
open CppQED.ParticleEl (ModeFunction isComplex potE lightShift expE)
open ComplexConjugate

/-- The derivative of a matrix element between two solutions of a linear equation. -/
theorem element_deriv (B : Finset Idx) (H A : Idx → Idx → ℂ) (φ ψ : ℝ → Idx → ℂ) (t : ℝ) (hφ : ∀ i ∈ B, HasDerivAt (fun s => φ s i) (∑ j ∈ B, H i j * φ t j) t)
    (hψ : ∀ i ∈ B, HasDerivAt (fun s => ψ s i) (∑ j ∈ B, H i j * ψ t j) t) : HasDerivAt (fun s => element B A (φ s) (ψ s)) (element B (heisenberg B H A) (φ t) (ψ t)) t := by
  have hd : ∀ i ∈ B, ∀ j ∈ B, HasDerivAt (fun s => conj (φ s i) * A i j * ψ s j) (conj (∑ k ∈ B, H i k * φ t k) * A i j * ψ t j + conj (φ t i) * A i j * ∑ k ∈ B, H j k * ψ t k) t := by
    intro i hi j hj
    have h1 : HasDerivAt (fun s => conj (φ s i)) (conj (∑ k ∈ B, H i k * φ t k)) t := (hφ i hi).star
    exact (h1.mul_const (A i j)).mul (hψ j hj)
  have hs := HasDerivAt.fun_sum fun i hi => HasDerivAt.fun_sum (hd i hi)
  refine hs.congr_deriv ?_
  simp only [element, heisenberg, Finset.sum_add_distrib, mul_add, add_mul]
  congr 1
  · have e1 : ∑ i ∈ B, ∑ j ∈ B, conj (∑ k ∈ B, H i k * φ t k) * A i j * ψ t j = ∑ i ∈ B, ∑ j ∈ B, ∑ k ∈ B, conj (φ t k) * (conj (H i k) * A i j) * ψ t j := by
      refine Finset.sum_congr rfl fun i _ => Finset.sum_congr rfl fun j _ => ?_
      rw [map_sum, Finset.sum_mul, Finset.sum_mul]
      refine Finset.sum_congr rfl fun k _ => ?_
      rw [map_mul]; ring
    have e2 : ∑ i ∈ B, ∑ j ∈ B, conj (φ t i) * (∑ k ∈ B, conj (H k i) * A k j) * ψ t j = ∑ i ∈ B, ∑ j ∈ B, ∑ k ∈ B, conj (φ t i) * (conj (H k i) * A k j) * ψ t j := by
      refine Finset.sum_congr rfl fun i _ => Finset.sum_congr rfl fun j _ => ?_
      rw [Finset.mul_sum, Finset.sum_mul]
    rw [e1, e2, Finset.sum_comm]
    rw [show ∑ i ∈ B, ∑ j ∈ B, ∑ k ∈ B, conj (φ t i) * (conj (H k i) * A k j) * ψ t j = ∑ j ∈ B, ∑ i ∈ B, ∑ k ∈ B, conj (φ t i) * (conj (H k i) * A k j) * ψ t j from Finset.sum_comm]
    exact Finset.sum_congr rfl fun j _ => Finset.sum_comm
  · refine Finset.sum_congr rfl fun i _ => ?_
    have e1 : ∑ j ∈ B, conj (φ t i) * A i j * ∑ k ∈ B, H j k * ψ t k = ∑ j ∈ B, ∑ k ∈ B, conj (φ t i) * (A i j * H j k) * ψ t k := by
      refine Finset.sum_congr rfl fun j _ => ?_
      rw [Finset.mul_sum]
      exact Finset.sum_congr rfl fun k _ => by ring
    have e2 : ∑ j ∈ B, conj (φ t i) * (∑ k ∈ B, A i k * H k j) * ψ t j = ∑ j ∈ B, ∑ k ∈ B, conj (φ t i) * (A i k * H k j) * ψ t j := by
      refine Finset.sum_congr rfl fun j _ => ?_
      rw [Finset.mul_sum, Finset.sum_mul]
    rw [e1, e2, Finset.sum_comm]

theorem element_congr {B : Finset Idx} {A : Idx → Idx → ℂ} {φ φ' ψ ψ' : Idx → ℂ} (h : ∀ i ∈ B, φ i = φ' i) (h' : ∀ i ∈ B, ψ i = ψ' i) : element B A φ ψ = element B A φ' ψ' :=
  Finset.sum_congr rfl fun i hi => Finset.sum_congr rfl fun j hj => by rw [h i hi, h' j hj]

theorem element_one (B : Finset Idx) (φ ψ : Idx → ℂ) : element B (fun i j => if i = j then 1 else 0) φ ψ = overlap B φ ψ := by
  unfold element overlap
  refine Finset.sum_congr rfl fun i hi => ?_
  rw [Finset.sum_eq_single i]
  · simp
  · intro j _ hj; simp [Ne.symm hj]
  · intro h; exact absurd hi h

theorem element_zero {B : Finset Idx} {A : Idx → Idx → ℂ} (h : ∀ i ∈ B, ∀ j ∈ B, A i j = 0) (φ ψ : Idx → ℂ) : element B A φ ψ = 0 :=
  Finset.sum_eq_zero fun i hi => Finset.sum_eq_zero fun j hj => by rw [h i hi j hj]; ring

theorem heisenberg_one {B : Finset Idx} {H : Idx → Idx → ℂ} (hH : AntiHermitian H) : ∀ i ∈ B, ∀ j ∈ B, heisenberg B H (fun i j => if i = j then 1 else 0) i j = 0 := by
  intro i hi j hj
  unfold heisenberg
  rw [Finset.sum_add_distrib, Finset.sum_eq_single j, Finset.sum_eq_single i]
  · simp [hH i j]
  · intro k _ hk; simp [Ne.symm hk]
  · intro h; exact absurd hi h
  · intro k _ hk; simp [hk]
  · intro h; exact absurd hj h

theorem heisenberg_energy {B : Finset Idx} {H : Idx → Idx → ℂ} (hH : AntiHermitian H) : ∀ i ∈ B, ∀ j ∈ B, heisenberg B H H i j = 0 := by
  intro i _ j _
  unfold heisenberg
  refine Finset.sum_eq_zero fun k _ => ?_
  rw [hH i k]; ring

/-- **C163.** Heisenberg: while the integrated array of a binary system follows the right-hand side, matrix elements of any observable between physical states change as the Hamiltonian says, in whatever pictures. -/
theorem bin_heisenberg {b : Bin} {H : Idx → Idx → ℂ} (hl : b.ub.length = b.lb.length) (h : BinSimulates b H) (A : Idx → Idx → ℂ) (t0 : ℝ) (psi psi' : ℝ → Idx → ℂ) (hpsi : BinFollows b t0 psi)
    (hpsi' : BinFollows b t0 psi') (t : ℝ) : HasDerivAt (fun s => element (boxFinset b.lb b.ub) A (b.actWithU s t0 (psi s)) (b.actWithU s t0 (psi' s)))
      (element (boxFinset b.lb b.ub) (heisenberg (boxFinset b.lb b.ub) H A) (b.actWithU t t0 (psi t)) (b.actWithU t t0 (psi' t))) t :=
  element_deriv _ H A (fun s => b.actWithU s t0 (psi s)) (fun s => b.actWithU s t0 (psi' s)) t (fun i hi => (h t0 t psi (hpsi t) i ((mem_boxFinset _ _ _ hl).1 hi)).2)
    fun i hi => (h t0 t psi' (hpsi' t) i ((mem_boxFinset _ _ _ hl).1 hi)).2

/-- **C163.** The same for composites. -/
theorem comp_heisenberg {c : Comp} {H : Idx → Idx → ℂ} (hl : c.ub.length = c.lb.length) (h : CompSimulates c H) (A : Idx → Idx → ℂ) (t0 : ℝ) (psi psi' : ℝ → Idx → ℂ) (hpsi : CompFollows c t0 psi)
    (hpsi' : CompFollows c t0 psi') (t : ℝ) : HasDerivAt (fun s => element (boxFinset c.lb c.ub) A (c.actWithU s t0 (psi s)) (c.actWithU s t0 (psi' s)))
      (element (boxFinset c.lb c.ub) (heisenberg (boxFinset c.lb c.ub) H A) (c.actWithU t t0 (psi t)) (c.actWithU t t0 (psi' t))) t :=
  element_deriv _ H A (fun s => c.actWithU s t0 (psi s)) (fun s => c.actWithU s t0 (psi' s)) t (fun i hi => (h t0 t psi (hpsi t) i ((mem_boxFinset _ _ _ hl).1 hi)).2)
    fun i hi => (h t0 t psi' (hpsi' t) i ((mem_boxFinset _ _ _ hl).1 hi)).2

theorem const_of_deriv {f : ℝ → ℂ} (h : ∀ t, HasDerivAt f 0 t) (s t : ℝ) : f s = f t :=
  is_const_of_deriv_eq_zero (fun t => (h t).differentiableAt) (fun t => (h t).deriv) s t

/-- In one step, matrix elements of an observable that commutes with the Hamiltonian keep their values. -/
theorem bin_keeps {b : Bin} {H A : Idx → Idx → ℂ} (hl : b.ub.length = b.lb.length) (h : BinSimulates b H) (hA : ∀ i ∈ boxFinset b.lb b.ub, ∀ j ∈ boxFinset b.lb b.ub, heisenberg (boxFinset b.lb b.ub) H A i j = 0)
    (t0 : ℝ) (psi psi' : ℝ → Idx → ℂ) (hpsi : BinFollows b t0 psi) (hpsi' : BinFollows b t0 psi') (t : ℝ) :
    element (boxFinset b.lb b.ub) A (b.actWithU t t0 (psi t)) (b.actWithU t t0 (psi' t)) = element (boxFinset b.lb b.ub) A (psi t0) (psi' t0) := by
  rw [const_of_deriv (f := fun s => element (boxFinset b.lb b.ub) A (b.actWithU s t0 (psi s)) (b.actWithU s t0 (psi' s))) (fun t => (bin_heisenberg hl h A t0 psi psi' hpsi hpsi' t).congr_deriv (element_zero hA _ _)) t t0]
  exact element_congr (fun i hi => (h t0 t0 psi (hpsi t0) i ((mem_boxFinset _ _ _ hl).1 hi)).1) fun i hi => (h t0 t0 psi' (hpsi' t0) i ((mem_boxFinset _ _ _ hl).1 hi)).1

theorem comp_keeps {c : Comp} {H A : Idx → Idx → ℂ} (hl : c.ub.length = c.lb.length) (h : CompSimulates c H) (hA : ∀ i ∈ boxFinset c.lb c.ub, ∀ j ∈ boxFinset c.lb c.ub, heisenberg (boxFinset c.lb c.ub) H A i j = 0)
    (t0 : ℝ) (psi psi' : ℝ → Idx → ℂ) (hpsi : CompFollows c t0 psi) (hpsi' : CompFollows c t0 psi') (t : ℝ) :
    element (boxFinset c.lb c.ub) A (c.actWithU t t0 (psi t)) (c.actWithU t t0 (psi' t)) = element (boxFinset c.lb c.ub) A (psi t0) (psi' t0) := by
  rw [const_of_deriv (f := fun s => element (boxFinset c.lb c.ub) A (c.actWithU s t0 (psi s)) (c.actWithU s t0 (psi' s))) (fun t => (comp_heisenberg hl h A t0 psi psi' hpsi hpsi' t).congr_deriv (element_zero hA _ _)) t t0]
  exact element_congr (fun i hi => (h t0 t0 psi (hpsi t0) i ((mem_boxFinset _ _ _ hl).1 hi)).1) fun i hi => (h t0 t0 psi' (hpsi' t0) i ((mem_boxFinset _ _ _ hl).1 hi)).1

/-- Over any number of steps. -/
theorem bin_steps_keep {b : Bin} {H A : Idx → Idx → ℂ} (hl : b.ub.length = b.lb.length) (h : BinSimulates b H) (hA : ∀ i ∈ boxFinset b.lb b.ub, ∀ j ∈ boxFinset b.lb b.ub, heisenberg (boxFinset b.lb b.ub) H A i j = 0)
    {t t' : ℝ} {φ φ' : Idx → ℂ} (hs : BinSteps b t φ t' φ') : element (boxFinset b.lb b.ub) A φ' φ' = element (boxFinset b.lb b.ub) A φ φ := by
  induction hs with
  | start => rfl
  | step _ psi hpsi h0 t1 ih =>
    rw [bin_keeps hl h hA _ psi psi hpsi hpsi t1, ← ih]
    exact element_congr (fun i hi => h0 i ((mem_boxFinset _ _ _ hl).1 hi)) fun i hi => h0 i ((mem_boxFinset _ _ _ hl).1 hi)

theorem comp_steps_keep {c : Comp} {H A : Idx → Idx → ℂ} (hl : c.ub.length = c.lb.length) (h : CompSimulates c H) (hA : ∀ i ∈ boxFinset c.lb c.ub, ∀ j ∈ boxFinset c.lb c.ub, heisenberg (boxFinset c.lb c.ub) H A i j = 0)
    {t t' : ℝ} {φ φ' : Idx → ℂ} (hs : CompSteps c t φ t' φ') : element (boxFinset c.lb c.ub) A φ' φ' = element (boxFinset c.lb c.ub) A φ φ := by
  induction hs with
  | start => rfl
  | step _ psi hpsi h0 t1 ih =>
    rw [comp_keeps hl h hA _ psi psi hpsi hpsi t1, ← ih]
    exact element_congr (fun i hi => h0 i ((mem_boxFinset _ _ _ hl).1 hi)) fun i hi => h0 i ((mem_boxFinset _ _ _ hl).1 hi)

/-- **C163.** A binary system with an anti-Hermitian generator `H` conserves the energy `⟨iH⟩` and the norm over any number of steps of any lengths. -/
theorem bin_energy {b : Bin} {H : Idx → Idx → ℂ} (hl : b.ub.length = b.lb.length) (h : BinSimulates b H) (hH : AntiHermitian H) {t t' : ℝ} {φ φ' : Idx → ℂ} (hs : BinSteps b t φ t' φ') :
    Complex.I * element (boxFinset b.lb b.ub) H φ' φ' = Complex.I * element (boxFinset b.lb b.ub) H φ φ ∧ overlap (boxFinset b.lb b.ub) φ' φ' = overlap (boxFinset b.lb b.ub) φ φ := by
  refine ⟨by rw [bin_steps_keep hl h (heisenberg_energy hH) hs], ?_⟩
  rw [← element_one, ← element_one]
  exact bin_steps_keep hl h (heisenberg_one hH) hs

/-- **C163.** The same for composites. -/
theorem comp_energy {c : Comp} {H : Idx → Idx → ℂ} (hl : c.ub.length = c.lb.length) (h : CompSimulates c H) (hH : AntiHermitian H) {t t' : ℝ} {φ φ' : Idx → ℂ} (hs : CompSteps c t φ t' φ') :
    Complex.I * element (boxFinset c.lb c.ub) H φ' φ' = Complex.I * element (boxFinset c.lb c.ub) H φ φ ∧ overlap (boxFinset c.lb c.ub) φ' φ' = overlap (boxFinset c.lb c.ub) φ φ := by
  refine ⟨by rw [comp_steps_keep hl h (heisenberg_energy hH) hs], ?_⟩
  rw [← element_one, ← element_one]
  exact comp_steps_keep hl h (heisenberg_one hH) hs

/-- **C163.** Two states that evolve according to an anti-Hermitian generator keep their overlap: orthogonal states remain orthogonal, equal ones equal. -/
theorem bin_overlap {b : Bin} {H : Idx → Idx → ℂ} (hl : b.ub.length = b.lb.length) (h : BinSimulates b H) (hH : AntiHermitian H) (t0 : ℝ) (psi psi' : ℝ → Idx → ℂ) (hpsi : BinFollows b t0 psi) (hpsi' : BinFollows b t0 psi') (t : ℝ) :
    overlap (boxFinset b.lb b.ub) (b.actWithU t t0 (psi t)) (b.actWithU t t0 (psi' t)) = overlap (boxFinset b.lb b.ub) (psi t0) (psi' t0) := by
  rw [← element_one, ← element_one]
  exact bin_keeps hl h (heisenberg_one hH) t0 psi psi' hpsi hpsi' t

/-- **C163.** The same for composites. -/
theorem comp_overlap {c : Comp} {H : Idx → Idx → ℂ} (hl : c.ub.length = c.lb.length) (h : CompSimulates c H) (hH : AntiHermitian H) (t0 : ℝ) (psi psi' : ℝ → Idx → ℂ) (hpsi : CompFollows c t0 psi) (hpsi' : CompFollows c t0 psi') (t : ℝ) :
    overlap (boxFinset c.lb c.ub) (c.actWithU t t0 (psi t)) (c.actWithU t t0 (psi' t)) = overlap (boxFinset c.lb c.ub) (psi t0) (psi' t0) := by
  rw [← element_one, ← element_one]
  exact comp_keeps hl h (heisenberg_one hH) t0 psi psi' hpsi hpsi' t


/-! ## The systems without losses -/

/-- **C163.** Energy and norm in composites of any elements and interactions without losses. -/
theorem composite_energy (es : List Element) (acts : List Part) (h0 : es ≠ []) (hd : ∀ e ∈ es, 0 < e.dim) (w : ℕ → ℕ → ℂ) (H : ℕ → Dens) (V : Part → Idx → Idx → ℂ)
    (hF : ∀ k e, es[k]? = some e → ∃ J, FreeIs e (w k) (H k) J)
    (hI : ∀ ia ∈ acts, ValidAxes es.length ia.axes ∧ 2 ≤ ia.axes.length ∧ Couples ia (ia.axes.map fun a => (es.map Element.dim).getD a 0) (ia.axes.map w) (V ia))
    (hH : ∀ k < es.length, AntiHermitian (H k)) (hV : ∀ ia ∈ acts, AntiHermitian (V ia))
    {t t' : ℝ} {φ φ' : Idx → ℂ} (h : CompSteps (composite es acts) t φ t' φ') :
    let B := boxFinset (composite es acts).lb (composite es acts).ub
    let G := fun i j => ∑ k ∈ Finset.range es.length, extend es.length [k] (single (H k)) i j + (acts.map fun ia => extend es.length ia.axes (V ia) i j).sum
    Complex.I * element B G φ' φ' = Complex.I * element B G φ φ ∧ overlap B φ' φ' = overlap B φ φ := by
  have hs := composite_simulates es acts h0 hd w H V hF hI
  refine comp_energy (by simp [composite]) hs ?_ h
  intro i j
  rw [map_add, map_sum, map_list_sum, List.map_map, neg_add]
  congr 1
  · rw [← Finset.sum_neg_distrib]
    exact Finset.sum_congr rfl fun k hk => antiHermitian_extend _ _ (antiHermitian_single (hH k (Finset.mem_range.1 hk))) i j
  · clear hI hs h
    induction acts with
    | nil => simp
    | cons a acts ih =>
      rw [List.map_cons, List.sum_cons, List.map_cons, List.sum_cons, ih fun x hx => hV x (List.mem_cons_of_mem _ hx), neg_add]
      congr 1
      exact antiHermitian_extend _ _ (hV a List.mem_cons_self) i j

/-- **C163.** The Jaynes–Cummings system without losses, in all pictures and with any pumps. -/
theorem jaynesCummings_energy (pq : QbitEl.Pars) (pm : ModeEl.Pars) (g : ℂ) (qmq qmm : Picture) (hq : qmq = .sch ↔ qmm = .sch) (hγ : pq.gamma = 0)
    (hd : pm.cutoff < 2 ^ 63) (h0 : 0 < pm.cutoff) (hκ : pm.kappa = 0) (hn : 0 ≤ pm.nTh) (hK : pm.omegaKerr = 0) (hA : pm.omegaKerrAlter = 0) :
    ∃ e0 e1 ia, QbitEl.make pq qmq = .ok e0 ∧ makePumpedLossy pm qmm = .ok e1 ∧ jaynesCummings [0, 1] (aop (qbitPtr pq qmq)) (modePtr pm qmm) g = .ok ia ∧
      ∀ t φ t' φ', BinSteps (binary e0 e1 ia) t φ t' φ' →
        let E := fun φ => Complex.I * element (boxFinset (binary e0 e1 ia).lb (binary e0 e1 ia).ub)
          (fun i j => tensor (qbitH 0 pq.delta pq.eta) one i j + tensor one (modeH 0 pm.delta pm.eta) i j + jcH g sigma sigmaDag i j) φ φ
        E φ' = E φ := by
  obtain ⟨e0, e1, ia, a1, a2, a3, a4⟩ := jaynesCummings_simulates pq pm g qmq qmm hq hγ.ge hd h0 hκ.ge hn hK hA
  rw [hγ, hκ, zero_mul] at a4
  exact ⟨e0, e1, ia, a1, a2, a3, fun t φ t' φ' h => (bin_energy (by simp [binary]) a4
    (antiHermitian_add (antiHermitian_add (antiHermitian_tensor0 (antiHermitian_qbitH _ _)) (antiHermitian_tensor1 (antiHermitian_modeH _ _))) (antiHermitian_jcH g _ _ sigma_conj)) h).1⟩

/-- **C163.** Two coupled modes without losses. -/
theorem coupledModes_energy (c : Coupling) (p1 p2 : ModeEl.Pars) (u : ℂ) (qm1 qm2 : Picture) (hc : c.admits (modePtr p1 qm1) (modePtr p2 qm2))
    (hd1 : p1.cutoff < 2 ^ 63) (h1 : 0 < p1.cutoff) (hκ1 : p1.kappa = 0) (hn1 : 0 ≤ p1.nTh) (hK1 : p1.omegaKerr = 0) (hA1 : p1.omegaKerrAlter = 0)
    (hd2 : p2.cutoff < 2 ^ 63) (h2 : 0 < p2.cutoff) (hκ2 : p2.kappa = 0) (hn2 : 0 ≤ p2.nTh) (hK2 : p2.omegaKerr = 0) (hA2 : p2.omegaKerrAlter = 0) :
    ∃ e0 e1 ia, makePumpedLossy p1 qm1 = .ok e0 ∧ makePumpedLossy p2 qm2 = .ok e1 ∧ coupledModes [0, 1] c (modePtr p1 qm1) (modePtr p2 qm2) u = .ok ia ∧
      ∀ t φ t' φ', BinSteps (binary e0 e1 ia) t φ t' φ' →
        let E := fun φ => Complex.I * element (boxFinset (binary e0 e1 ia).lb (binary e0 e1 ia).ub)
          (fun i j => tensor (modeH 0 p1.delta p1.eta) one i j + tensor one (modeH 0 p2.delta p2.eta) i j + couplingH c u i j) φ φ
        E φ' = E φ := by
  obtain ⟨e0, e1, ia, a1, a2, a3, a4⟩ := coupledModes_simulates c p1 p2 u qm1 qm2 hc hd1 h1 hκ1.ge hn1 hK1 hA1 hd2 h2 hκ2.ge hn2 hK2 hA2
  rw [hκ1, hκ2, zero_mul, zero_mul] at a4
  exact ⟨e0, e1, ia, a1, a2, a3, fun t φ t' φ' h => (bin_energy (by simp [binary]) a4
    (antiHermitian_add (antiHermitian_add (antiHermitian_tensor0 (antiHermitian_modeH _ _)) (antiHermitian_tensor1 (antiHermitian_modeH _ _))) (antiHermitian_couplingH c u)) h).1⟩

/-- **C163.** The particle moving along the axis of a cavity without losses. -/
theorem along_energy (pm : ModeEl.Pars) (pp : ParticleEl.Pars) (mf : ModeFunction) (U η : ℝ) (qmm : Picture) (hq : η ≠ 0 → qmm = .sch)
    (hd : pm.cutoff < 2 ^ 63) (h0 : 0 < pm.cutoff) (hκ : pm.kappa = 0) (hT : 0 ≤ pm.nTh) (hK : pm.omegaKerr = 0) (hA : pm.omegaKerrAlter = 0)
    (hp : pp.fin < 63) (hn : 2 * mf.nK.natAbs ≤ 2 ^ pp.fin) :
    ∃ e0 e1 ia, makePumpedLossy pm qmm = .ok e0 ∧ ParticleEl.make pp .sch = .ok e1 ∧
      particleAlongCavity [0, 1] (modePtr pm qmm) ⟨pp.fin, pp.omrec, false⟩ U mf η = .ok ia ∧
      ∀ t φ t' φ', BinSteps (binary e0 e1 ia) t φ t' φ' →
        let E := fun φ => Complex.I * element (boxFinset (binary e0 e1 ia).lb (binary e0 e1 ia).ub)
          (fun i j => tensor (modeH 0 pm.delta pm.eta) one i j + tensor one (particleH pp.fin pp.omrec fun _ => 0) i j +
            (lightShiftH pp.fin U mf i j + interferenceH pp.fin η (waveFunction mf) i j)) φ φ
        E φ' = E φ := by
  obtain ⟨e0, e1, ia, a1, a2, a3, a4⟩ := along_simulates pm pp mf U η qmm hq hd h0 hκ.ge hT hK hA hp hn
  rw [hκ, zero_mul] at a4
  exact ⟨e0, e1, ia, a1, a2, a3, fun t φ t' φ' h => (bin_energy (by simp [binary]) a4
    (antiHermitian_add (antiHermitian_add (antiHermitian_tensor0 (antiHermitian_modeH _ _)) (antiHermitian_tensor1 (antiHermitian_particleH _ _ _ (by simp))))
      (antiHermitian_add (antiHermitian_lightShiftH _ _ _) (antiHermitian_interferenceH _ _ _))) h).1⟩

/-- **C163.** A particle in a light shift exchanges momenta with the field in portions of twice the wave number only: what depends on the momentum with that period is conserved, together with any function of it.
In particular, a travelling wave does not change the momentum. -/
theorem along_quasimomentum (pm : ModeEl.Pars) (pp : ParticleEl.Pars) (mf : ModeFunction) (U : ℝ) (qmm : Picture)
    (hd : pm.cutoff < 2 ^ 63) (h0 : 0 < pm.cutoff) (hκ : pm.kappa = 0) (hT : 0 ≤ pm.nTh) (hK : pm.omegaKerr = 0) (hA : pm.omegaKerrAlter = 0)
    (hp : pp.fin < 63) (hn : 2 * mf.nK.natAbs ≤ 2 ^ pp.fin) (r : ℤ → ℝ) (hr : isComplex mf.type = false → ∀ k, r (k + 2 * mf.nK) = r k) :
    ∃ e0 e1 ia, makePumpedLossy pm qmm = .ok e0 ∧ ParticleEl.make pp .sch = .ok e1 ∧
      particleAlongCavity [0, 1] (modePtr pm qmm) ⟨pp.fin, pp.omrec, false⟩ U mf 0 = .ok ia ∧ BinConserves (binary e0 e1 ia) fun i => r (i.getD 1 0) := by
  obtain ⟨e0, e1, ia, a1, a2, a3, a4⟩ := along_simulates pm pp mf U 0 qmm (by simp) hd h0 hκ.ge hT hK hA hp hn
  refine ⟨e0, e1, ia, a1, a2, a3, bin_conserves (by simp [binary]) a4 ?_ _ fun i j hi hj hij => ?_⟩
  · rw [hκ, zero_mul]
    exact antiHermitian_add (antiHermitian_add (antiHermitian_tensor0 (antiHermitian_modeH _ _)) (antiHermitian_tensor1 (antiHermitian_particleH _ _ _ (by simp)))) (antiHermitian_add (antiHermitian_lightShiftH _ _ _) (antiHermitian_interferenceH _ _ _))
  · have hi' : InBox (lower [e0.dim, e1.dim]) (upper [e0.dim, e1.dim]) i := hi
    have hj' : InBox (lower [e0.dim, e1.dim]) (upper [e0.dim, e1.dim]) j := hj
    obtain ⟨m1, m2⟩ := (box_iff _ i).1 hi'
    obtain ⟨n1, n2⟩ := (box_iff _ j).1 hj'
    obtain ⟨x, y, hx⟩ := two_mem m1
    obtain ⟨x', y', hx'⟩ := two_mem n1
    rw [← m2, ← n2, hx, hx'] at hij ⊢
    rw [lightShift_tensor] at hij
    simp only [up, List.map_cons, List.map_nil, List.getD_cons_zero, List.getD_cons_succ, Int.ofNat_eq_natCast]
    by_contra hne
    apply hij
    have hyy : y ≠ y' := fun h => hne (by rw [h])
    have hz : ∀ i j, multiplication pp.fin (fun _ => 0) i j = 0 := by intro i j; simp [multiplication]
    have hpot : potE U mf y y' = 0 := by
      unfold potE
      split_ifs with hc
      · rfl
      all_goals
        have hr' := hr (by simpa using hc)
        have e1 : expE (2 * mf.nK) y y' = 0 := by
          unfold expE
          rw [if_neg]
          intro h
          apply hne
          rw [h, hr']
        have e2 : expE (-(2 * mf.nK)) y y' = 0 := by
          unfold expE
          rw [if_neg]
          intro h
          apply hne
          rw [show (y' : ℤ) = y + 2 * mf.nK by omega, hr']
        rw [e1, e2]; simp
    simp only [tensor, interferenceH, particleH, lift2, q_up, List.getD_cons_zero, List.getD_cons_succ, one, hz, hpot, if_neg hyy]
    simp

/-- **C163.** The free particle keeps the distribution of its momenta, in all pictures. -/
theorem particle_momenta (pp : ParticleEl.Pars) (hp : pp.fin < 63) (qmp : Picture) (Q : Idx → ℝ) : ∃ e, ParticleEl.make pp qmp = .ok e ∧ CompConserves (composite [e] []) Q := by
  obtain ⟨e, a1, a2, a3⟩ := particle_free pp hp qmp
  have hs := composite_simulates [e] [] (by simp) (by simp [a2]) (fun _ => ParticleEl.Part.m ⟨pp.fin, pp.omrec, decide (qmp ≠ .sch)⟩) (fun _ => particleH pp.fin pp.omrec fun _ => 0) (fun _ => 0)
    (fun k e' he => by
      have : e' = e := by
        cases k with
        | zero => simpa using he.symm
        | succ k => simp at he
      exact ⟨_, this ▸ a3⟩) (by simp)
  refine ⟨e, a1, comp_conserves (by simp [composite]) hs ?_ Q fun i j hi hj hij => ?_⟩
  · intro i j
    have := antiHermitian_extend 1 [0] (antiHermitian_single (antiHermitian_particleH pp.fin pp.omrec (fun _ => 0) (by simp))) i j
    simpa using this
  · have hi' : InBox (lower [e.dim]) (upper [e.dim]) i := hi
    have hj' : InBox (lower [e.dim]) (upper [e.dim]) j := hj
    obtain ⟨m1, m2⟩ := (box_iff _ i).1 hi'
    obtain ⟨n1, n2⟩ := (box_iff _ j).1 hj'
    have lm := length_of_mem m1
    have ln := length_of_mem n1
    have one : ∀ l : NIdx, l.length = [e.dim].length → ∃ a, l = [a] := by
      intro l hl
      rcases l with - | ⟨a, - | ⟨b, l⟩⟩ <;> simp at hl
      exact ⟨a, rfl⟩
    obtain ⟨x, hx⟩ := one _ lm
    obtain ⟨y, hy⟩ := one _ ln
    rw [← m2, ← n2, hx, hy] at hij ⊢
    have hz : ∀ i j, multiplication pp.fin (fun _ => 0) i j = 0 := by intro i j; simp [multiplication]
    by_contra hne
    apply hij
    have hxy : x ≠ y := fun h => hne (by rw [h])
    simp [extend, single, particleH, hz, up, q, hxy, coords]
    exact ite_self _

/-! ## Cases -/

/-- The free particle in the interaction picture really takes steps: the integrated array is constant, the physical state is not. -/
example (φ : Idx → ℂ) (t : ℝ) : ∃ e, ParticleEl.make ⟨6, 1, 0, 0, .cos⟩ .ip = .ok e ∧ CompSteps (composite [e] []) 0 φ t ((composite [e] []).actWithU t 0 φ) := by
  refine ⟨⟨2 ^ 6, none, some (ParticleEl.exactDiagonal 6 1), true, none⟩, by simp [ParticleEl.make, ParticleEl.particle], CompSteps.step .start (fun _ => φ) (fun s i _ => ?_) (fun _ _ => rfl) t⟩
  have : (composite [⟨2 ^ 6, none, some (ParticleEl.exactDiagonal 6 1), true, none⟩] []).addContribution s 0 φ (fun _ => 0) i = 0 := rfl
  rw [this]
  exact hasDerivAt_const s (φ i)

example : ∃ e0 e1 ia, QbitEl.make ⟨3, 0, 0, 1⟩ .uip = .ok e0 ∧ makePumpedLossy ⟨10, -2, 0, 0, 0, 0, 0⟩ .ip = .ok e1 ∧
    jaynesCummings [0, 1] (aop (qbitPtr ⟨3, 0, 0, 1⟩ .uip)) (modePtr ⟨10, -2, 0, 0, 0, 0, 0⟩ .ip) (2 + Complex.I) = .ok ia ∧ ∀ t φ t' φ', BinSteps (binary e0 e1 ia) t φ t' φ' →
      let E := fun φ => Complex.I * element (boxFinset (binary e0 e1 ia).lb (binary e0 e1 ia).ub)
        (fun i j => tensor (qbitH 0 3 1) one i j + tensor one (modeH 0 (-2) 0) i j + jcH (2 + Complex.I) sigma sigmaDag i j) φ φ
      E φ' = E φ :=
  jaynesCummings_energy ⟨3, 0, 0, 1⟩ ⟨10, -2, 0, 0, 0, 0, 0⟩ _ .uip .ip (by simp) rfl (by norm_num) (by norm_num) rfl (by norm_num) rfl rfl

/-- In a standing wave of wave number 1, the momenta of either parity keep their probability. -/
example : ∃ e0 e1 ia, makePumpedLossy ⟨10, -2, 0, 0, 0, 0, 0⟩ .ip = .ok e0 ∧ ParticleEl.make ⟨6, 1, 0, 0, .cos⟩ .sch = .ok e1 ∧
    particleAlongCavity [0, 1] (modePtr ⟨10, -2, 0, 0, 0, 0, 0⟩ .ip) ⟨6, 1, false⟩ (-3) ⟨.cos, 1⟩ 0 = .ok ia ∧ BinConserves (binary e0 e1 ia) fun i => if Even (i.getD 1 0) then 1 else 0 :=
  along_quasimomentum ⟨10, -2, 0, 0, 0, 0, 0⟩ ⟨6, 1, 0, 0, .cos⟩ ⟨.cos, 1⟩ (-3) .ip (by norm_num) (by norm_num) rfl (by norm_num) rfl rfl (by norm_num) (by norm_num) (fun k => if Even k then 1 else 0)
    fun _ k => by simp

end CppQED.Interactions
