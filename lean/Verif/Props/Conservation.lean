import Verif.Props.InteractionsTwoStep
import Verif.Props.InteractionsMLJC
import Verif.Props.MultiLevel

/-!
# Unitarity and conserved quantities: C53
-/

namespace CppQED.Interactions
open CppQED.Elem CppQED.Tridiag CppQED.ModeEl CppQED.Spec CppQED.Composite
open CppQED.MII (Idx)
open CppQED.Slice (Arr sliceBound)
open CppQED.PTrace
open CppQED.ParticleEl (ModeFunction isComplex potE lightShift expE)
open ComplexConjugate

/-- The derivative of the expectation value of a diagonal observable commuting with an anti-Hermitian generator. -/
theorem conserved (B : Finset Idx) (H : Idx → Idx → ℂ) (Q : Idx → ℝ) (hH : ∀ i ∈ B, ∀ j ∈ B, conj (H j i) = -H i j) (hQ : ∀ i ∈ B, ∀ j ∈ B, H i j ≠ 0 → Q i = Q j) (φ : ℝ → Idx → ℂ) (t : ℝ)
    (h : ∀ i ∈ B, HasDerivAt (fun s => φ s i) (∑ j ∈ B, H i j * φ t j) t) : HasDerivAt (fun s => ∑ i ∈ B, Q i * Complex.normSq (φ s i)) 0 t := by
  have hd : ∀ i ∈ B, HasDerivAt (fun s => (Q i : ℂ) * (conj (φ s i) * φ s i)) ((Q i : ℂ) * (conj (∑ j ∈ B, H i j * φ t j) * φ t i + conj (φ t i) * ∑ j ∈ B, H i j * φ t j)) t := by
    intro i hi
    have h1 := h i hi
    have h2 : HasDerivAt (fun s => conj (φ s i)) (conj (∑ j ∈ B, H i j * φ t j)) t := by
      exact h1.star
    exact (h2.mul h1).const_mul _
  have hsum := HasDerivAt.fun_sum hd
  have hz : ∑ i ∈ B, (Q i : ℂ) * (conj (∑ j ∈ B, H i j * φ t j) * φ t i + conj (φ t i) * ∑ j ∈ B, H i j * φ t j) = 0 := by
    have e1 : ∑ i ∈ B, (Q i : ℂ) * (conj (∑ j ∈ B, H i j * φ t j) * φ t i) = ∑ i ∈ B, ∑ j ∈ B, -((Q i : ℂ) * (H j i * conj (φ t j) * φ t i)) := by
      refine Finset.sum_congr rfl fun i hi => ?_
      rw [map_sum, Finset.sum_mul, Finset.mul_sum]
      refine Finset.sum_congr rfl fun j hj => ?_
      rw [map_mul, hH j hj i hi]
      ring
    have e2 : ∑ i ∈ B, (Q i : ℂ) * (conj (φ t i) * ∑ j ∈ B, H i j * φ t j) = ∑ i ∈ B, ∑ j ∈ B, (Q j : ℂ) * (H i j * conj (φ t i) * φ t j) := by
      refine Finset.sum_congr rfl fun i hi => ?_
      rw [Finset.mul_sum, Finset.mul_sum]
      refine Finset.sum_congr rfl fun j hj => ?_
      by_cases h0 : H i j = 0
      · simp [h0]
      · rw [hQ i hi j hj h0]; ring
    simp only [mul_add, Finset.sum_add_distrib]
    rw [e1, e2, Finset.sum_comm]
    simp
  rw [hz] at hsum
  have hre := Complex.reCLM.hasFDerivAt.comp_hasDerivAt t hsum
  simp only [Complex.reCLM_apply, Complex.zero_re] at hre
  refine hre.congr_of_eventuallyEq (Filter.Eventually.of_forall fun s => ?_)
  simp only [Function.comp, Complex.reCLM_apply, Complex.re_sum]
  refine Finset.sum_congr rfl fun i _ => ?_
  rw [mul_comm (conj _), Complex.mul_conj, ← Complex.ofReal_mul, Complex.ofReal_re]

theorem bin_conserves {b : Bin} {H : Idx → Idx → ℂ} (hl : b.ub.length = b.lb.length) (h : BinSimulates b H) (hH : AntiHermitian H) (Q : Idx → ℝ)
    (hQ : ∀ i j, InBox b.lb b.ub i → InBox b.lb b.ub j → H i j ≠ 0 → Q i = Q j) : BinConserves b Q := by
  intro t0 t psi hpsi
  exact conserved _ H Q (fun i _ j _ => hH i j) (fun i hi j hj => hQ i j ((mem_boxFinset _ _ _ hl).1 hi) ((mem_boxFinset _ _ _ hl).1 hj)) (fun s i => b.actWithU s t0 (psi s) i) t
    fun i hi => (h t0 t psi hpsi i ((mem_boxFinset _ _ _ hl).1 hi)).2

theorem comp_conserves {c : Comp} {H : Idx → Idx → ℂ} (hl : c.ub.length = c.lb.length) (h : CompSimulates c H) (hH : AntiHermitian H) (Q : Idx → ℝ)
    (hQ : ∀ i j, InBox c.lb c.ub i → InBox c.lb c.ub j → H i j ≠ 0 → Q i = Q j) : CompConserves c Q := by
  intro t0 t psi hpsi
  exact conserved _ H Q (fun i _ j _ => hH i j) (fun i hi j hj => hQ i j ((mem_boxFinset _ _ _ hl).1 hi) ((mem_boxFinset _ _ _ hl).1 hj)) (fun s i => c.actWithU s t0 (psi s) i) t
    fun i hi => (h t0 t psi hpsi i ((mem_boxFinset _ _ _ hl).1 hi)).2

/-! ## Anti-Hermitian Hamiltonians -/

theorem antiHermitian_add {ι : Type} {A B : ι → ι → ℂ} (hA : AntiHermitian A) (hB : AntiHermitian B) : AntiHermitian fun i j => A i j + B i j := by
  intro i j; rw [map_add, hA i j, hB i j]; ring

theorem conj_aOp' (i j : ℕ) : conj (aOp j i) = adOp i j := conj_aOp i j

theorem antiHermitian_modeH (δ : ℝ) (η : ℂ) : AntiHermitian (modeH 0 δ η) := by
  intro i j
  simp only [modeH, map_add, map_sub, map_mul, map_neg, conj_aOp, conj_adOp, Complex.conj_conj, Complex.conj_I, Complex.conj_ofReal, nOp, Complex.ofReal_zero]
  by_cases h : i = j
  · subst h; simp; ring
  · simp [h, Ne.symm h]

theorem antiHermitian_qbitH (δ : ℝ) (η : ℂ) : AntiHermitian (qbitH 0 δ η) := by
  intro i j
  simp only [qbitH, excited, sigma, sigmaDag, Complex.ofReal_zero]
  by_cases h : i = 1 ∧ j = 1
  · obtain ⟨rfl, rfl⟩ := h; simp
  · have h' : ¬ (j = 1 ∧ i = 1) := fun h'' => h ⟨h''.2, h''.1⟩
    rw [if_neg h, if_neg h']
    by_cases h1 : i = 1 ∧ j = 0
    · obtain ⟨rfl, rfl⟩ := h1; simp
    · by_cases h2 : i = 0 ∧ j = 1
      · obtain ⟨rfl, rfl⟩ := h2; simp
      · have h1' : ¬ (j = 0 ∧ i = 1) := fun h => h1 ⟨h.2, h.1⟩
        have h2' : ¬ (j = 1 ∧ i = 0) := fun h => h2 ⟨h.2, h.1⟩
        simp [h1, h2, h1', h2']

theorem tensor_conj (A B : Dens) (i j : Idx) : conj (tensor A B j i) = tensor (fun i j => conj (A j i)) (fun i j => conj (B j i)) i j := by
  simp only [tensor, map_mul]

theorem antiHermitian_tensor0 {H : Dens} (h : AntiHermitian H) : AntiHermitian (tensor H one) := by
  intro i j
  simp only [tensor, map_mul, h, one]
  by_cases e : q i 1 = q j 1
  · simp [e, h (q i 0) (q j 0)]
  · simp [e, Ne.symm e]

theorem antiHermitian_tensor1 {H : Dens} (h : AntiHermitian H) : AntiHermitian (tensor one H) := by
  intro i j
  simp only [tensor, map_mul, h, one]
  by_cases e : q i 0 = q j 0
  · simp [e, h (q i 1) (q j 1)]
  · simp [e, Ne.symm e]

theorem antiHermitian_jcH (g : ℂ) (σ σDag : Dens) (hσ : ∀ i j, conj (σ j i) = σDag i j) : AntiHermitian (jcH g σ σDag) := by
  intro i j
  have hσ' : ∀ i j, conj (σDag j i) = σ i j := by intro i j; rw [← hσ j i, Complex.conj_conj]
  simp only [jcH, map_sub, map_mul, tensor, Complex.conj_conj, hσ, hσ', conj_aOp, conj_adOp]
  ring

theorem sigma_conj (i j : ℕ) : conj (sigma j i) = sigmaDag i j := by
  unfold sigma sigmaDag
  by_cases h : i = 1 ∧ j = 0
  · simp [h]
  · rw [if_neg h, if_neg (by tauto)]; simp

theorem conj_overI (z : ℂ) : conj (z / Complex.I) = -(conj z / Complex.I) := by rw [map_div₀, Complex.conj_I, div_neg]

theorem quadOp_conj (i j : ℕ) : conj (quadOp j i) = quadOp i j := by
  simp only [quadOp, map_div₀, map_add, conj_aOp, conj_adOp, Complex.conj_ofReal]; ring

theorem nOp_conj (i j : ℕ) : conj (nOp j i) = nOp i j := by
  simp only [nOp]
  by_cases h : i = j
  · simp [h]
  · simp [h, Ne.symm h]

theorem antiHermitian_couplingH (c : Coupling) (u : ℂ) : AntiHermitian (couplingH c u) := by
  intro i j
  cases c with
  | nx =>
    simp only [couplingH, nxH]
    rw [conj_overI]
    simp only [tensor, map_mul, Complex.conj_ofReal, nOp_conj, quadOp_conj]
  | xx =>
    simp only [couplingH, xxH]
    rw [conj_overI]
    simp only [tensor, map_mul, Complex.conj_ofReal, quadOp_conj]
  | xxRWA =>
    simp only [couplingH, xxRwaH, map_sub, tensor, map_mul, Complex.conj_conj, conj_aOp, conj_adOp]
    ring

theorem antiHermitian_interferenceH (fin : ℕ) (η : ℝ) (f : ℝ → ℂ) : AntiHermitian (interferenceH fin η f) := by
  intro i j
  simp only [interferenceH]
  rw [conj_overI]
  simp only [tensor, map_mul, map_add, Complex.conj_ofReal, conj_aOp, conj_adOp, multiplication_conj, Complex.conj_conj]
  ring

theorem antiHermitian_lightShiftH (fin : ℕ) (U : ℝ) (mf : ModeFunction) : AntiHermitian (lightShiftH fin U mf) := by
  intro i j
  simp only [lightShiftH]
  rw [conj_overI]
  simp only [tensor, map_mul, Complex.conj_ofReal, nOp_conj, multiplication_conj, map_sub]

theorem antiHermitian_particleH (fin : ℕ) (ω : ℝ) (V : ℝ → ℂ) (hV : ∀ x, conj (V x) = V x) : AntiHermitian (particleH fin ω V) := by
  intro i j
  simp only [particleH]
  rw [conj_overI]
  simp only [map_add, map_mul, Complex.conj_ofReal, multiplication_conj, hV]
  by_cases h : i = j
  · subst h; simp
  · simp [h, Ne.symm h]

theorem antiHermitian_twoModesH (fin : ℕ) (g : ℂ) (f₀ f₁ : ℝ → ℂ) : AntiHermitian (twoModesH fin g f₀ f₁) := by
  intro i j
  simp only [twoModesH]
  rw [conj_overI]
  simp only [tensor3, map_mul, map_add, Complex.conj_conj, conj_aOp, conj_adOp, multiplication_conj]
  ring

theorem antiHermitian_mljcH (gs : List (ℕ × ℕ × ℂ)) : AntiHermitian (mljcH gs) := by
  intro i j
  unfold mljcH
  induction gs with
  | nil => simp
  | cons g gs ih =>
    rw [List.map_cons, List.sum_cons, List.map_cons, List.sum_cons, map_add, ih, antiHermitian_jcH g.2.2 _ _ (fun a b => by
      by_cases h : a = g.2.1 ∧ b = g.1
      · simp [h]
      · rw [if_neg h, if_neg (by tauto)]; simp) i j]
    ring

theorem antiHermitian_extend (r : ℕ) (V : List ℕ) {H : Idx → Idx → ℂ} (h : AntiHermitian H) : AntiHermitian (extend r V H) := by
  intro i j
  unfold extend
  have : AgreeOff r V j i ↔ AgreeOff r V i j := by
    unfold AgreeOff
    exact ⟨fun h a ha hb => (h a ha hb).symm, fun h a ha hb => (h a ha hb).symm⟩
  by_cases e : AgreeOff r V i j
  · rw [if_pos e, if_pos (this.2 e)]; exact h _ _
  · rw [if_neg e, if_neg fun e' => e (this.1 e')]; simp

theorem antiHermitian_single {H : Dens} (h : AntiHermitian H) : AntiHermitian (single H) := fun i j => h _ _

/-! ## Unitarity -/

/-- **C53.** A composite of free elements and interactions with anti-Hermitian Hamiltonians (divided by `i`) conserves the norm of the physical state, in whatever pictures. -/
theorem composite_unitary (es : List Element) (acts : List Part) (h0 : es ≠ []) (hd : ∀ e ∈ es, 0 < e.dim) (w : ℕ → ℕ → ℂ) (H : ℕ → Dens) (V : Part → Idx → Idx → ℂ)
    (hF : ∀ k e, es[k]? = some e → ∃ J, FreeIs e (w k) (H k) J)
    (hI : ∀ ia ∈ acts, ValidAxes es.length ia.axes ∧ 2 ≤ ia.axes.length ∧ Couples ia (ia.axes.map fun a => (es.map Element.dim).getD a 0) (ia.axes.map w) (V ia))
    (hH : ∀ k < es.length, AntiHermitian (H k)) (hV : ∀ ia ∈ acts, AntiHermitian (V ia)) : CompConserves (composite es acts) fun _ => 1 := by
  refine comp_conserves (by simp [composite]) (composite_simulates es acts h0 hd w H V hF hI) ?_ _ fun _ _ _ _ _ => rfl
  intro i j
  rw [map_add, map_sum, map_list_sum, List.map_map, neg_add]
  congr 1
  · rw [← Finset.sum_neg_distrib]
    exact Finset.sum_congr rfl fun k hk => antiHermitian_extend _ _ (antiHermitian_single (hH k (Finset.mem_range.1 hk))) i j
  · clear hI
    induction acts with
    | nil => simp
    | cons a acts ih =>
      rw [List.map_cons, List.sum_cons, List.map_cons, List.sum_cons, ih fun x hx => hV x (List.mem_cons_of_mem _ hx), neg_add]
      congr 1
      exact antiHermitian_extend _ _ (hV a List.mem_cons_self) i j

/-- **C53.** A single mode without losses, however pumped. -/
theorem mode_unitary (p : ModeEl.Pars) (hd : p.cutoff < 2 ^ 63) (h0 : 0 < p.cutoff) (hκ : p.kappa = 0) (hn : 0 ≤ p.nTh) (hK : p.omegaKerr = 0) (hA : p.omegaKerrAlter = 0) (qmp : Picture) :
    ∃ e, makePumpedLossy p qmp = .ok e ∧ CompConserves (composite [e] []) fun _ => 1 := by
  obtain ⟨e, a1, a2, a3⟩ := mode_free p hd h0 hκ.ge hn hK hA qmp
  refine ⟨e, a1, composite_unitary [e] [] (by simp) (by simp [a2, h0]) (fun _ => (modePtr p qmp).w) (fun _ => modeH (p.kappa * (2 * p.nTh + 1)) p.delta p.eta) (fun _ => 0) (fun k e' he => ?_) (by simp)
    (fun k _ => ?_) (by simp)⟩
  · have : e' = e := by
      cases k with
      | zero => simpa using he.symm
      | succ k => simp at he
    exact ⟨_, this ▸ a3⟩
  · rw [hκ, zero_mul]; exact antiHermitian_modeH _ _

/-- **C53.** A qbit without losses, however pumped. -/
theorem qbit_unitary (p : QbitEl.Pars) (hγ : p.gamma = 0) (qmp : Picture) : ∃ e, QbitEl.make p qmp = .ok e ∧ CompConserves (composite [e] []) fun _ => 1 := by
  obtain ⟨J, e, a1, a2, a3⟩ := qbit_free p hγ.ge qmp
  refine ⟨e, a1, composite_unitary [e] [] (by simp) (by simp [a2]) (fun _ => (qbitPtr p qmp).w) (fun _ => qbitH p.gamma p.delta p.eta) (fun _ => 0) (fun k e' he => ?_) (by simp)
    (fun k _ => ?_) (by simp)⟩
  · have : e' = e := by
      cases k with
      | zero => simpa using he.symm
      | succ k => simp at he
    exact ⟨_, this ▸ a3⟩
  · rw [hγ]; exact antiHermitian_qbitH _ _

/-- **C53.** A Jaynes-Cummings system without losses conserves the norm. -/
theorem jaynesCummings_unitary (pq : QbitEl.Pars) (pm : ModeEl.Pars) (g : ℂ) (qmq qmm : Picture) (hq : qmq = .sch ↔ qmm = .sch) (hγ : pq.gamma = 0)
    (hd : pm.cutoff < 2 ^ 63) (h0 : 0 < pm.cutoff) (hκ : pm.kappa = 0) (hn : 0 ≤ pm.nTh) (hK : pm.omegaKerr = 0) (hA : pm.omegaKerrAlter = 0) :
    ∃ e0 e1 ia, QbitEl.make pq qmq = .ok e0 ∧ makePumpedLossy pm qmm = .ok e1 ∧ jaynesCummings [0, 1] (aop (qbitPtr pq qmq)) (modePtr pm qmm) g = .ok ia ∧
      BinConserves (binary e0 e1 ia) fun _ => 1 := by
  obtain ⟨e0, e1, ia, a1, a2, a3, a4⟩ := jaynesCummings_simulates pq pm g qmq qmm hq hγ.ge hd h0 hκ.ge hn hK hA
  refine ⟨e0, e1, ia, a1, a2, a3, bin_conserves (by simp [binary]) a4 ?_ _ fun _ _ _ _ _ => rfl⟩
  rw [hγ, hκ, zero_mul]
  exact antiHermitian_add (antiHermitian_add (antiHermitian_tensor0 (antiHermitian_qbitH _ _)) (antiHermitian_tensor1 (antiHermitian_modeH _ _))) (antiHermitian_jcH g _ _ sigma_conj)

/-- **C53.** If moreover there are no pumps, then the number of excitations is conserved, too. -/
theorem jaynesCummings_excitations (pq : QbitEl.Pars) (pm : ModeEl.Pars) (g : ℂ) (qmq qmm : Picture) (hq : qmq = .sch ↔ qmm = .sch) (hγ : pq.gamma = 0) (hηq : pq.eta = 0) (hηm : pm.eta = 0)
    (hd : pm.cutoff < 2 ^ 63) (h0 : 0 < pm.cutoff) (hκ : pm.kappa = 0) (hn : 0 ≤ pm.nTh) (hK : pm.omegaKerr = 0) (hA : pm.omegaKerrAlter = 0) :
    ∃ e0 e1 ia, QbitEl.make pq qmq = .ok e0 ∧ makePumpedLossy pm qmm = .ok e1 ∧ jaynesCummings [0, 1] (aop (qbitPtr pq qmq)) (modePtr pm qmm) g = .ok ia ∧
      BinConserves (binary e0 e1 ia) fun i => (i.getD 0 0 : ℝ) + (i.getD 1 0 : ℝ) := by
  obtain ⟨e0, e1, ia, a1, a2, a3, a4⟩ := jaynesCummings_simulates pq pm g qmq qmm hq hγ.ge hd h0 hκ.ge hn hK hA
  obtain ⟨_, e0', b1, b2, -⟩ := qbit_free pq hγ.ge qmq
  obtain ⟨e1', c1, c2, -⟩ := mode_free pm hd h0 hκ.ge hn hK hA qmm
  rw [a1, Outcome.ok.injEq] at b1
  rw [a2, Outcome.ok.injEq] at c1
  subst b1 c1
  refine ⟨e0, e1, ia, a1, a2, a3, bin_conserves (by simp [binary]) a4 ?_ _ fun i j hi hj hij => ?_⟩
  · rw [hγ, hκ, zero_mul]
    exact antiHermitian_add (antiHermitian_add (antiHermitian_tensor0 (antiHermitian_qbitH _ _)) (antiHermitian_tensor1 (antiHermitian_modeH _ _))) (antiHermitian_jcH g _ _ sigma_conj)
  · have hi' : InBox (lower [e0.dim, e1.dim]) (upper [e0.dim, e1.dim]) i := hi
    have hj' : InBox (lower [e0.dim, e1.dim]) (upper [e0.dim, e1.dim]) j := hj
    obtain ⟨m1, m2⟩ := (box_iff _ i).1 hi'
    obtain ⟨n1, n2⟩ := (box_iff _ j).1 hj'
    obtain ⟨x, y, hx⟩ := two_mem m1
    obtain ⟨x', y', hx'⟩ := two_mem n1
    rw [← m2, ← n2, hx, hx'] at hij ⊢
    simp only [hγ, hκ, hηq, hηm, zero_mul] at hij
    simp only [modeH, qbitH, jcH, tensor, q_up, List.getD_cons_zero, List.getD_cons_succ, excited, sigma, sigmaDag, one, nOp, aOp, adOp, map_zero, zero_mul, sub_zero, add_zero] at hij
    simp only [up, List.map_cons, List.map_nil, List.getD_cons_zero, List.getD_cons_succ, Int.ofNat_eq_natCast, Int.cast_natCast]
    have : x + y = x' + y' := by
      by_contra hne
      apply hij
      have h1 : (if x = 1 ∧ x' = 1 then (1 : ℂ) else 0) * (if y = y' then 1 else 0) = 0 := by
        split_ifs <;> simp <;> omega
      have h2 : (if x = x' then (1 : ℂ) else 0) * (if y = y' then (y : ℂ) else 0) = 0 := by
        by_cases hy : y = y'
        · rw [if_neg (show ¬ x = x' by omega), zero_mul]
        · rw [if_neg hy, mul_zero]
      have h3 : (if x = 0 ∧ x' = 1 then (1 : ℂ) else 0) * (if y = y' + 1 then (Real.sqrt y : ℂ) else 0) = 0 := by
        by_cases hy : y = y' + 1
        · rw [if_neg (show ¬ (x = 0 ∧ x' = 1) by omega), zero_mul]
        · rw [if_neg hy, mul_zero]
      have h4 : (if x = 1 ∧ x' = 0 then (1 : ℂ) else 0) * (if y' = y + 1 then (Real.sqrt y' : ℂ) else 0) = 0 := by
        by_cases hy : y' = y + 1
        · rw [if_neg (show ¬ (x = 1 ∧ x' = 0) by omega), zero_mul]
        · rw [if_neg hy, mul_zero]
      rw [h3, h4]
      push_cast at h1 h2 ⊢
      linear_combination (-((0 : ℂ) - Complex.I * pq.delta)) * h1 + (-((0 : ℂ) - Complex.I * pm.delta)) * h2
    exact_mod_cast this

/-- **C53.** Coupled modes without losses conserve the norm. -/
theorem coupledModes_unitary (c : Coupling) (p1 p2 : ModeEl.Pars) (u : ℂ) (qm1 qm2 : Picture) (hc : c.admits (modePtr p1 qm1) (modePtr p2 qm2))
    (hd1 : p1.cutoff < 2 ^ 63) (h1 : 0 < p1.cutoff) (hκ1 : p1.kappa = 0) (hn1 : 0 ≤ p1.nTh) (hK1 : p1.omegaKerr = 0) (hA1 : p1.omegaKerrAlter = 0)
    (hd2 : p2.cutoff < 2 ^ 63) (h2 : 0 < p2.cutoff) (hκ2 : p2.kappa = 0) (hn2 : 0 ≤ p2.nTh) (hK2 : p2.omegaKerr = 0) (hA2 : p2.omegaKerrAlter = 0) :
    ∃ e0 e1 ia, makePumpedLossy p1 qm1 = .ok e0 ∧ makePumpedLossy p2 qm2 = .ok e1 ∧ coupledModes [0, 1] c (modePtr p1 qm1) (modePtr p2 qm2) u = .ok ia ∧
      BinConserves (binary e0 e1 ia) fun _ => 1 := by
  obtain ⟨e0, e1, ia, a1, a2, a3, a4⟩ := coupledModes_simulates c p1 p2 u qm1 qm2 hc hd1 h1 hκ1.ge hn1 hK1 hA1 hd2 h2 hκ2.ge hn2 hK2 hA2
  refine ⟨e0, e1, ia, a1, a2, a3, bin_conserves (by simp [binary]) a4 ?_ _ fun _ _ _ _ _ => rfl⟩
  rw [hκ1, hκ2, zero_mul, zero_mul]
  exact antiHermitian_add (antiHermitian_add (antiHermitian_tensor0 (antiHermitian_modeH _ _)) (antiHermitian_tensor1 (antiHermitian_modeH _ _))) (antiHermitian_couplingH c u)

theorem multiLevel_free (p : MultiEl.Pars) (hs : p.Sane) (hγ : ∀ g ∈ p.gammas, 0 ≤ g.gamma) : FreeIs (MultiEl.make p 0) (fun _ => 0) p.H p.J := by
  have : MultiEl.make p 0 = MultiEl.pumpedLossySch p := by unfold MultiEl.make; simp
  rw [this]
  refine ⟨p.H, by unfold HaIs; intro t psi dpsidt t0; rw [ip_zero]; exact MultiEl.addContribution_eq p hs psi dpsidt, by unfold ExIs; intro n _; rfl, MultiEl.radiative_is p hs hγ _ _ _, fun i _ j _ => by simp⟩

/-- **C77.** The multilevel system with any decays and drives, coupled to a mode in any picture on any list of transitions. -/
theorem mljc_simulates (p : MultiEl.Pars) (hs : p.Sane) (hl : 0 < p.nl) (hγ : ∀ g ∈ p.gammas, 0 ≤ g.gamma) (pm : ModeEl.Pars) (gs : List (ℕ × ℕ × ℂ)) (hg : ∀ g ∈ gs, g.1 < p.nl ∧ g.2.1 < p.nl) (qmm : Picture)
    (hd : pm.cutoff < 2 ^ 63) (h0 : 0 < pm.cutoff) (hκ : 0 ≤ pm.kappa) (hn : 0 ≤ pm.nTh) (hK : pm.omegaKerr = 0) (hA : pm.omegaKerrAlter = 0) :
    ∃ e1 ia, makePumpedLossy pm qmm = .ok e1 ∧ mljc [0, 1] false (modePtr pm qmm) gs = .ok ia ∧
      BinSimulates (binary (MultiEl.make p 0) e1 ia) fun i j => tensor p.H one i j + tensor one (modeH (pm.kappa * (2 * pm.nTh + 1)) pm.delta pm.eta) i j + mljcH gs i j := by
  obtain ⟨e1, b1, b2, b3⟩ := mode_free pm hd h0 hκ hn hK hA qmm
  obtain ⟨ia, i1, -, i3⟩ := mljc_couples p.nl (modePtr pm qmm) (by rw [modePtr_dim]; exact hd) (by rw [modePtr_dim]; exact h0) gs hg [0, 1]
  have hdim : (MultiEl.make p 0).dim = p.nl := by unfold MultiEl.make; simp [MultiEl.pumpedLossySch]
  refine ⟨e1, ia, b1, i1, ?_⟩
  rw [modePtr_dim] at i3
  exact binary_simulates _ e1 ia (by rw [hdim]; exact hl) (by rw [b2]; exact h0) (multiLevel_free p hs hγ) b3 (by rw [hdim, b2]; exact i3)

theorem antiHermitian_multiH (δ : ℕ → ℝ) (η : List (ℕ × ℕ × ℂ)) : AntiHermitian (multiH δ [] η) := by
  refine antiHermitian_add (fun i j => ?_) fun i j => ?_
  · by_cases h : i = j
    · subst h; simp
    · simp [h, Ne.symm h]
  · induction η with
    | nil => simp
    | cons e η ih =>
      rw [List.map_cons, List.sum_cons, List.map_cons, List.sum_cons, map_add, ih]
      have t : ∀ a b : ℕ, conj (transition a b j i) = transition b a i j := by
        intro a b
        unfold transition
        by_cases h : j = a ∧ i = b
        · simp [h]
        · rw [if_neg h, if_neg (by tauto)]; simp
      simp only [map_sub, map_mul, Complex.conj_conj, t]
      ring

/-- **C53.** A multilevel system without decays, with any drives. -/
theorem multiLevel_unitary (p : MultiEl.Pars) (hs : p.Sane) (hl : 0 < p.nl) (hγ : p.gammas = []) : CompConserves (composite [MultiEl.make p 0] []) fun _ => 1 := by
  have hdim : (MultiEl.make p 0).dim = p.nl := by unfold MultiEl.make; simp [MultiEl.pumpedLossySch]
  refine composite_unitary [MultiEl.make p 0] [] (by simp) (by simp [hdim, hl]) (fun _ _ => 0) (fun _ => p.H) (fun _ => 0) (fun k e' he => ?_) (by simp) (fun k _ => ?_) (by simp)
  · have : e' = MultiEl.make p 0 := by
      cases k with
      | zero => simpa using he.symm
      | succ k => simp at he
    exact ⟨_, this ▸ multiLevel_free p hs (by simp [hγ])⟩
  · unfold MultiEl.Pars.H
    rw [hγ]
    exact antiHermitian_multiH _ _

/-- **C53.** Moreover, coupled to a mode without losses. -/
theorem mljc_unitary (p : MultiEl.Pars) (hs : p.Sane) (hl : 0 < p.nl) (hγ : p.gammas = []) (pm : ModeEl.Pars) (gs : List (ℕ × ℕ × ℂ)) (hg : ∀ g ∈ gs, g.1 < p.nl ∧ g.2.1 < p.nl) (qmm : Picture)
    (hd : pm.cutoff < 2 ^ 63) (h0 : 0 < pm.cutoff) (hκ : pm.kappa = 0) (hn : 0 ≤ pm.nTh) (hK : pm.omegaKerr = 0) (hA : pm.omegaKerrAlter = 0) :
    ∃ e1 ia, makePumpedLossy pm qmm = .ok e1 ∧ mljc [0, 1] false (modePtr pm qmm) gs = .ok ia ∧ BinConserves (binary (MultiEl.make p 0) e1 ia) fun _ => 1 := by
  obtain ⟨e1, ia, a1, a2, a3⟩ := mljc_simulates p hs hl (by simp [hγ]) pm gs hg qmm hd h0 hκ.ge hn hK hA
  refine ⟨e1, ia, a1, a2, bin_conserves (by simp [binary]) a3 ?_ _ fun _ _ _ _ _ => rfl⟩
  rw [hκ, zero_mul]
  unfold MultiEl.Pars.H
  rw [hγ]
  exact antiHermitian_add (antiHermitian_add (antiHermitian_tensor0 (antiHermitian_multiH _ _)) (antiHermitian_tensor1 (antiHermitian_modeH _ _))) (antiHermitian_mljcH gs)

example : ∃ e1 ia, makePumpedLossy ⟨10, -2, 0, 0, 0, 0, 1⟩ .ip = .ok e1 ∧ mljc [0, 1] false (modePtr ⟨10, -2, 0, 0, 0, 0, 1⟩ .ip) [(0, 2, Complex.I), (1, 2, 3)] = .ok ia ∧
    BinConserves (binary (MultiEl.make ⟨3, fun i => i, [⟨0, 1, 1 + Complex.I⟩], []⟩ 0) e1 ia) fun _ => 1 :=
  mljc_unitary ⟨3, fun i => i, [⟨0, 1, 1 + Complex.I⟩], []⟩ ⟨by simp, by simp⟩ (by norm_num) rfl ⟨10, -2, 0, 0, 0, 0, 1⟩ [(0, 2, Complex.I), (1, 2, 3)] (by simp) .ip (by norm_num) (by norm_num) rfl (by norm_num) rfl rfl

/-- **C53.** A particle in a cavity without losses conserves the norm. -/
theorem along_unitary (pm : ModeEl.Pars) (pp : ParticleEl.Pars) (mf : ModeFunction) (U η : ℝ) (qmm : Picture) (hq : η ≠ 0 → qmm = .sch)
    (hd : pm.cutoff < 2 ^ 63) (h0 : 0 < pm.cutoff) (hκ : pm.kappa = 0) (hT : 0 ≤ pm.nTh) (hK : pm.omegaKerr = 0) (hA : pm.omegaKerrAlter = 0)
    (hp : pp.fin < 63) (hn : 2 * mf.nK.natAbs ≤ 2 ^ pp.fin) :
    ∃ e0 e1 ia, makePumpedLossy pm qmm = .ok e0 ∧ ParticleEl.make pp .sch = .ok e1 ∧
      particleAlongCavity [0, 1] (modePtr pm qmm) ⟨pp.fin, pp.omrec, false⟩ U mf η = .ok ia ∧ BinConserves (binary e0 e1 ia) fun _ => 1 := by
  obtain ⟨e0, e1, ia, a1, a2, a3, a4⟩ := along_simulates pm pp mf U η qmm hq hd h0 hκ.ge hT hK hA hp hn
  refine ⟨e0, e1, ia, a1, a2, a3, bin_conserves (by simp [binary]) a4 ?_ _ fun _ _ _ _ _ => rfl⟩
  rw [hκ, zero_mul]
  exact antiHermitian_add (antiHermitian_add (antiHermitian_tensor0 (antiHermitian_modeH _ _)) (antiHermitian_tensor1 (antiHermitian_particleH _ _ _ (by simp)))) (antiHermitian_add (antiHermitian_lightShiftH _ _ _) (antiHermitian_interferenceH _ _ _))

example : ∃ e0 e1 ia, QbitEl.make ⟨3, 0, 0, 0⟩ .uip = .ok e0 ∧ makePumpedLossy ⟨10, -2, 0, 0, 0, 0, 0⟩ .ip = .ok e1 ∧
    jaynesCummings [0, 1] (aop (qbitPtr ⟨3, 0, 0, 0⟩ .uip)) (modePtr ⟨10, -2, 0, 0, 0, 0, 0⟩ .ip) (2 + Complex.I) = .ok ia ∧ BinConserves (binary e0 e1 ia) fun i => (i.getD 0 0 : ℝ) + (i.getD 1 0 : ℝ) :=
  jaynesCummings_excitations ⟨3, 0, 0, 0⟩ ⟨10, -2, 0, 0, 0, 0, 0⟩ _ .uip .ip (by simp) rfl rfl rfl (by norm_num) (by norm_num) rfl (by norm_num) rfl rfl

end CppQED.Interactions
