import Verif.Model.CavityScripts
import Verif.Spec.CavityScripts
import Verif.Props.Conservation
import Verif.Props.ScriptPictures
import Verif.Props.InteractionsPhaseNoise

/-!
# The systems of the scripts of atoms and cavities: C148, C149
-/

namespace CppQED.CavScr
open CppQED.Elem CppQED.Tridiag CppQED.ModeEl CppQED.Spec CppQED.Composite CppQED.Interactions CppQED.PTrace
open CppQED.MII (Idx)
open CppQED.Slice (Arr sliceBound)
open CppQED.ScriptSys (Usable exp_const)
open ComplexConjugate

/-! ## C148: what is simulated -/

/-- **C148.** `tutorialBinary`: in all the pictures. -/
theorem tutorialBinary_simulates (pq : QbitEl.Pars) (hγ : 0 ≤ pq.gamma) (pm : ModeEl.Pars) (hm : Usable pm) (g : ℂ) (qmp : Picture) :
    ∃ b, tutorialBinary pq pm g qmp = .ok b ∧
      BinSimulates b fun i j => tensor (qbitH pq.gamma pq.delta pq.eta) one i j + tensor one (modeOf pm) i j + jcH g sigma sigmaDag i j := by
  obtain ⟨e0, e1, ia, a, b, c, d⟩ := jaynesCummings_simulates pq pm g qmp qmp Iff.rfl hγ hm.1 hm.2.1 hm.2.2.1 hm.2.2.2.1 hm.2.2.2.2.1 hm.2.2.2.2.2
  exact ⟨binary e0 e1 ia, by unfold tutorialBinary; rw [a, b]; simp only [Outcome.bind, c], d⟩

/-- **C148.** `QbitMode_C++QED`: in the interaction pictures, and without phase noise also in Schrödinger picture. -/
theorem qbitMode_simulates (pq : QbitEl.Pars) (hγ : 0 ≤ pq.gamma) (pm : ModeEl.Pars) (hm : Usable pm) (g : ℂ) (qmp : Picture) (hq : pq.gammaParallel = 0 ∨ qmp ≠ .sch) :
    ∃ b, qbitMode pq pm g qmp = .ok b ∧
      BinSimulates b fun i j => tensor (qbitH pq.gamma pq.delta pq.eta) one i j + tensor one (modeOf pm) i j + jcH g sigma sigmaDag i j := by
  obtain ⟨e0, e1, ia, a, b, c, d⟩ := jaynesCummings_phaseNoise pq pm g qmp qmp (by
    unfold phaseNoisePicture
    rcases hq with h | h
    · simp [h]
    · simp [h]) hγ hm.1 hm.2.1 hm.2.2.1 hm.2.2.2.1 hm.2.2.2.2.1 hm.2.2.2.2.2
  exact ⟨binary e0 e1 ia, by unfold qbitMode; rw [a, b]; simp only [Outcome.bind, c], d⟩

/-- A mode without pump is the same whether it is made with `ParsLossy` or with `ParsPumpedLossy`. -/
theorem makeLossy_eq (p : ModeEl.Pars) (qmp : Picture) : makeLossy p qmp = makePumpedLossy { p with eta := 0 } qmp := by
  unfold makePumpedLossy makePumped makeLossy makeFree
  by_cases h : p.kappa = 0
  · simp only [h, if_true]; rfl
  · simp only [h, if_false, if_true]; rfl

theorem modePtr_eta (p : ModeEl.Pars) (η : ℂ) (qmp : Picture) : modePtr { p with eta := η } qmp = modePtr p qmp := by cases qmp <;> rfl

/-- The coupling with `-√2 u` is the radiation pressure. -/
theorem nx_radiation (u : ℝ) : nxH (-Real.sqrt 2 * u) = radiationPressure u := by
  funext i j
  have h2 : ((Real.sqrt 2 : ℝ) : ℂ) ≠ 0 := by exact_mod_cast (Real.sqrt_pos.2 two_pos).ne'
  unfold nxH radiationPressure
  congr 1
  simp only [tensor, quadOp]
  push_cast
  field_simp

theorem Usable.unpumped {p : ModeEl.Pars} (h : Usable p) : Usable { p with eta := 0 } := h

/-- **C148.** `Optomechanics`: in Schrödinger picture. -/
theorem optomechanics_simulates (pA pB : ModeEl.Pars) (hA : Usable pA) (hB : Usable pB) (u : ℝ) :
    ∃ b, optomechanics pA pB u .sch = .ok b ∧
      BinSimulates b fun i j => tensor (modeOf pA) one i j + tensor one (modeOf { pB with eta := 0 }) i j + radiationPressure u i j := by
  obtain ⟨e0, e1, ia, a, b, c, d⟩ := coupledModes_simulates .nx pA { pB with eta := 0 } (-Real.sqrt 2 * u : ℝ) .sch .sch rfl hA.1 hA.2.1 hA.2.2.1 hA.2.2.2.1 hA.2.2.2.2.1 hA.2.2.2.2.2
    hB.1 hB.2.1 hB.2.2.1 hB.2.2.2.1 hB.2.2.2.2.1 hB.2.2.2.2.2
  rw [modePtr_eta pB] at c
  refine ⟨binary e0 e1 ia, by unfold optomechanics; rw [makeLossy_eq, a, b]; simp only [Outcome.bind, c], ?_⟩
  simp only [couplingH, Complex.ofReal_re] at d
  rw [nx_radiation] at d
  exact d

theorem cavityRamanAtom_sane (deltas : ℕ → ℝ) (eta : ℂ) (gamma0 gamma1 : ℝ) : (cavityRamanAtom deltas eta gamma0 gamma1).Sane := by
  constructor <;> simp [cavityRamanAtom]

theorem ramanAtom_sane (deltas : ℕ → ℝ) (eta0 eta1 : ℂ) (gamma0 gamma1 : ℝ) : (ramanAtom deltas eta0 eta1 gamma0 gamma1).Sane := by
  constructor <;> simp [ramanAtom]

/-- **C148.** `Raman` without dephasing: the lambda atom with both of its transitions driven. -/
theorem raman_simulates (deltas : ℕ → ℝ) (eta0 eta1 : ℂ) (gamma0 gamma1 : ℝ) (h0 : 0 ≤ gamma0) (h1 : 0 ≤ gamma1) (gp : List ℝ) (hp : ∀ g ∈ gp, g = 0) :
    (raman deltas eta0 eta1 gamma0 gamma1 0 gp).dim = 3 ∧
    Generates (raman deltas eta0 eta1 gamma0 gamma1 0 gp) (multiH deltas [(2, gamma0), (2, gamma1)] [(0, 2, eta0), (1, 2, eta1)])
      [sc (Real.sqrt (2 * gamma0)) (transition 0 2), sc (Real.sqrt (2 * gamma1)) (transition 1 2)] := by
  have hm : raman deltas eta0 eta1 gamma0 gamma1 0 gp = MultiEl.make (ramanAtom deltas eta0 eta1 gamma0 gamma1) 0 := by
    unfold raman MultiEl.makePars
    rw [if_neg]
    simpa using hp
  rw [hm]
  obtain ⟨a, b⟩ := MultiEl.pumpedLossySch_generates _ (ramanAtom_sane deltas eta0 eta1 gamma0 gamma1) (by simp [ramanAtom, h0, h1])
  exact ⟨b, a⟩

/-- **C148.** `CavityRaman` without dephasing: one transition of the lambda atom is driven, the other is coupled to the mode. -/
theorem cavityRaman_simulates (deltas : ℕ → ℝ) (eta : ℂ) (gamma0 gamma1 : ℝ) (h0 : 0 ≤ gamma0) (h1 : 0 ≤ gamma1) (gp : List ℝ) (hp : ∀ g ∈ gp, g = 0) (pm : ModeEl.Pars) (hm : Usable pm) (g : ℂ) :
    ∃ b, cavityRaman deltas eta gamma0 gamma1 0 gp pm g = .ok b ∧
      BinSimulates b fun i j => tensor (multiH deltas [(2, gamma0), (2, gamma1)] [(0, 2, eta)]) one i j + tensor one (modeOf pm) i j + jcH g (transition 1 2) (transition 2 1) i j := by
  obtain ⟨e1, ia, a, b, c⟩ := mljc_simulates (cavityRamanAtom deltas eta gamma0 gamma1) (cavityRamanAtom_sane _ _ _ _) (by simp [cavityRamanAtom]) (by simp [cavityRamanAtom, h0, h1]) pm [(1, 2, g)]
    (by simp [cavityRamanAtom]) .ip hm.1 hm.2.1 hm.2.2.1 hm.2.2.2.1 hm.2.2.2.2.1 hm.2.2.2.2.2
  refine ⟨binary (MultiEl.makePars (cavityRamanAtom deltas eta gamma0 gamma1) 0 gp) e1 ia, by unfold cavityRaman; rw [a]; simp only [Outcome.bind, b], ?_⟩
  have hmk : MultiEl.makePars (cavityRamanAtom deltas eta gamma0 gamma1) 0 gp = MultiEl.make (cavityRamanAtom deltas eta gamma0 gamma1) 0 := by
    unfold MultiEl.makePars
    rw [if_neg]
    simpa using hp
  rw [hmk]
  have hh : mljcH [(1, 2, g)] = jcH g (transition 1 2) (transition 2 1) := by funext i j; simp [mljcH, jcH, tensor, transition]
  rw [hh] at c
  exact c

/-- **C148.** `6qbits`, for any number of qbits and in all the pictures: the Tavis-Cummings model. -/
theorem nQbits_simulates (n : ℕ) (pq : QbitEl.Pars) (hγ : 0 ≤ pq.gamma) (pm : ModeEl.Pars) (hm : Usable pm) (g : ℂ) (qmp : Picture) :
    ∃ c, nQbits n pq pm g qmp = .ok c ∧ c.lb.length = n + 1 ∧ CompSimulates c (tavisCummings n (qbitH pq.gamma pq.delta pq.eta) (modeOf pm) g) := by
  obtain ⟨J0, e0, a1, a2, a3⟩ := qbit_free pq hγ qmp
  obtain ⟨e1, b1, b2, b3⟩ := hm.free qmp
  obtain ⟨S, s1, s2, s3⟩ := aop_qbit pq qmp
  obtain ⟨ia, i1, i2, i3⟩ := jaynesCummings_couples (modePtr pm qmp) (by rw [modePtr_dim]; exact hm.1) (by rw [modePtr_dim]; exact hm.2.1) s2
    (by rw [modePtr_exact, ← qbitPtr_exact pq]; exact s3) [0, 1] g
  have hs : (fun i j => conj (sigma j i)) = sigmaDag := by
    funext i j; simp only [sigma, sigmaDag]; split_ifs <;> simp_all
  rw [hs] at i3
  refine ⟨composite (List.replicate n e0 ++ [e1]) ((List.range n).map fun k => { ia with axes := [k, n] }), by unfold nQbits; rw [a1, b1]; simp only [Outcome.bind, s1, i1], by simp [composite], ?_⟩
  set es := List.replicate n e0 ++ [e1] with hes
  have hlen : es.length = n + 1 := by simp [hes]
  have hget : ∀ k < n, es[k]? = some e0 := by intro k hk; rw [hes, List.getElem?_append_left (by simpa using hk)]; simp [hk]
  have hget' : es[n]? = some e1 := by rw [hes, List.getElem?_append_right (by simp)]; simp
  have := composite_simulates es ((List.range n).map fun k => { ia with axes := [k, n] }) (by simp [hes]) (by
      intro e he
      rw [hes, List.mem_append] at he
      rcases he with he | he
      · rw [List.eq_of_mem_replicate he, a2]; norm_num
      · rw [List.mem_singleton.1 he, b2]; exact hm.2.1)
    (fun k => if k = n then (modePtr pm qmp).w else (qbitPtr pq qmp).w) (fun k => if k = n then modeOf pm else qbitH pq.gamma pq.delta pq.eta) (fun _ => jcH g sigma sigmaDag)
    (fun k e he => by
      have hk : k < n + 1 := by rw [← hlen]; exact (List.getElem?_eq_some_iff.1 he).1
      by_cases h : k = n
      · subst h
        rw [hget', Option.some.injEq] at he
        subst he
        simp only [if_true]
        exact ⟨_, b3⟩
      · rw [hget k (by omega), Option.some.injEq] at he
        subst he
        simp only [if_neg h]
        exact ⟨_, a3⟩)
    (fun x hx => by
      obtain ⟨k, hk, rfl⟩ := List.mem_map.1 hx
      have hk := List.mem_range.1 hk
      refine ⟨⟨by simp, by simp; omega, by simp [hlen]; omega⟩, by simp, ?_⟩
      have d1 : (es.map Element.dim).getD k 0 = 2 := by simp [List.getD_eq_getElem?_getD, hget k hk, a2]
      have d2 : (es.map Element.dim).getD n 0 = pm.cutoff := by simp [List.getD_eq_getElem?_getD, hget', b2]
      simp only [List.map_cons, List.map_nil, d1, d2, if_neg (show k ≠ n by omega), if_true]
      rw [modePtr_dim] at i3
      exact i3)
  convert this using 2
  funext j
  unfold tavisCummings
  rw [hlen, Finset.sum_range_succ]
  congr 1
  · congr 1
    · refine Finset.sum_congr rfl fun k hk => ?_
      rw [if_neg (by have := Finset.mem_range.1 hk; omega)]
    · simp
  · rw [List.map_map]
    change (((Finset.range n).val.map _).sum : ℂ) = _
    exact Multiset.sum_coe _

/-! ## C149: the pictures -/

theorem static_still (V : Idx → Idx → ℂ) (τ : ℝ) (i j : Idx) : rotating [fun _ => 0, fun _ => 0] V τ i j = V i j := by
  have : ∀ s : Idx, phaseSum [fun _ => 0, fun _ => 0] s = 0 := by
    intro s
    rcases s with - | ⟨x, - | ⟨y, s⟩⟩ <;> simp [phaseSum]
  simp [rotating, this]

/-- If the constant matrix `V` contributed by the interaction connects only states of the same frequency, then it is the Hamiltonian of the interaction. -/
theorem static_simulates (e0 e1 : Element) (ia : Part) (h0 : 0 < e0.dim) (h1 : 0 < e1.dim) {w0 w1 : ℕ → ℂ} {H0 H1 : Dens} {J0 J1 : List Dens} {V : Idx → Idx → ℂ}
    (f0 : FreeIs e0 w0 H0 J0) (f1 : FreeIs e1 w1 H1 J1) (hc : Couples ia [e0.dim, e1.dim] [fun _ => 0, fun _ => 0] V)
    (h : ∀ s s', InBox (lower [e0.dim, e1.dim]) (upper [e0.dim, e1.dim]) s → InBox (lower [e0.dim, e1.dim]) (upper [e0.dim, e1.dim]) s' → V s s' ≠ 0 → phaseSum [w0, w1] s = phaseSum [w0, w1] s') :
    BinSimulates (binary e0 e1 ia) fun i j => tensor H0 one i j + tensor one H1 i j + V i j := by
  obtain ⟨hex, hha⟩ := hc
  refine binary_simulates e0 e1 ia h0 h1 f0 f1 (H := V) ⟨hex, fun t t0 => ?_⟩
  have := hha t t0
  rcases hia : ia.ha with - | ha
  · rw [hia] at this; exact this
  · rw [hia] at this
    intro psi dpsidt s hs
    refine (this psi dpsidt s hs).trans ?_
    congr 1
    refine Finset.sum_congr rfl fun j hj => ?_
    have hj := (mem_boxFinset _ _ _ (by simp [lower, upper])).1 hj
    congr 1
    rw [static_still]
    by_cases hv : V s j = 0
    · simp [rotating, hv]
    · rw [rotating, h s j hs hj hv, mul_right_comm, ← Complex.exp_add]
      simp

theorem simulates_congr {b : Bin} {H H' : Idx → Idx → ℂ} (h : BinSimulates b H) (hl : b.ub.length = b.lb.length) (he : ∀ s s', InBox b.lb b.ub s → InBox b.lb b.ub s' → H s s' = H' s s') : BinSimulates b H' := by
  intro t0 t psi hpsi i hi
  obtain ⟨a, c⟩ := h t0 t psi hpsi i hi
  refine ⟨a, c.congr_deriv (Finset.sum_congr rfl fun j hj => ?_)⟩
  rw [he i j hi ((mem_boxFinset _ _ _ (by omega)).1 hj)]

/-- A binary system, the interaction of which contributes the constant matrix `V`, simulates a Hamiltonian exactly if `V` connects only states of the same frequency. -/
theorem couples_static_iff (e0 e1 : Element) (ia : Part) (h0 : 0 < e0.dim) (h1 : 0 < e1.dim) {w0 w1 : ℕ → ℂ} {H0 H1 : Dens} {J0 J1 : List Dens} {V : Idx → Idx → ℂ}
    (f0 : FreeIs e0 w0 H0 J0) (f1 : FreeIs e1 w1 H1 J1) (hc : Couples ia [e0.dim, e1.dim] [fun _ => 0, fun _ => 0] V) :
    (∃ H, BinSimulates (binary e0 e1 ia) H) ↔ ∀ s s', InBox (lower [e0.dim, e1.dim]) (upper [e0.dim, e1.dim]) s → InBox (lower [e0.dim, e1.dim]) (upper [e0.dim, e1.dim]) s' →
      V s s' ≠ 0 → phaseSum [w0, w1] s = phaseSum [w0, w1] s' := by
  obtain ⟨hex, hha⟩ := hc
  constructor
  · rintro ⟨H, hH⟩ s s' hs hs' hV
    rcases hia : ia.ha with - | ha
    · have := hha 0 0
      rw [hia] at this
      exact absurd (this s s' hs hs') hV
    · have key : ∀ t : ℝ, V s s' = rotating [w0, w1] (fun i j => H i j - tensor H0 one i j - tensor one H1 i j) t s s' := by
        intro t
        have := binary_converse e0 e1 ia h0 h1 f0 f1 hex hia (fun _ _ => V) (fun t t0 psi dpsidt s hs => by
          have := hha t t0
          rw [hia] at this
          refine (this psi dpsidt s hs).trans ?_
          congr 1
          exact matAction_congr (lower_length _) (fun j _ => static_still V _ _ _) psi) hH t 0 hs hs'
        rw [sub_zero] at this
        exact this
      have k0 := key 0
      simp only [rotating, Complex.ofReal_zero, mul_zero, neg_zero, Complex.exp_zero, one_mul, mul_one] at k0
      have k1 : ∀ t : ℝ, Complex.exp ((phaseSum [w0, w1] s - phaseSum [w0, w1] s') * t) = 1 := by
        intro t
        have k2 := key t
        simp only [rotating] at k2
        rw [← k0] at k2
        have k3 : V s s' * Complex.exp ((phaseSum [w0, w1] s - phaseSum [w0, w1] s') * t) = V s s' * 1 := by
          rw [mul_one, sub_mul, sub_eq_add_neg, Complex.exp_add]
          rw [mul_comm, mul_right_comm]
          exact k2.symm
        exact mul_left_cancel₀ hV k3
      exact sub_eq_zero.1 (exp_const k1)
  · intro h
    exact ⟨_, static_simulates e0 e1 ia h0 h1 f0 f1 ⟨hex, hha⟩ h⟩

/-- The Jaynes-Cummings coupling to a mode in Schrödinger picture does not rotate, whatever the picture of the other subsystem. -/
theorem jaynesCummings_static (m0 m1 : ModePtr) (hd0 : m0.dim < 2 ^ 63) (h0 : 0 < m0.dim) (hd1 : m1.dim < 2 ^ 63) (h1 : 0 < m1.dim) (g : ℂ) (hm : m1.exact = none) (axes : List ℕ) :
    ∃ ia, jaynesCummings axes (aop m0) m1 g = .ok ia ∧ Couples ia [m0.dim, m1.dim] [fun _ => 0, fun _ => 0] (jcH g aOp adOp) := by
  unfold jaynesCummings
  by_cases hg : g = 0
  · rw [if_neg (by simpa using hg)]
    exact ⟨_, rfl, couples_none _ (fun i _ j _ => by simp [jcH, hg]) axes⟩
  · obtain ⟨S, s1, s2, -, -⟩ := aop_op m0 hd0 h0
    obtain ⟨a, a1, a2, a3⟩ := aop_sch m1 hd1 h1 hm
    have sg : Op [m0.dim] (phases [m0.w]) (scale (conj g) S) (lift fun i j => conj g * aOp i j) := s2.scale (conj g)
    obtain ⟨P, p1, p2⟩ := lost_product sg (ad_op a2) (Or.inr a3)
    obtain ⟨R, r1, r2, r3, r4⟩ := p2.minusHC
    unfold jaynesCummingsH
    rw [if_pos hg, s1, a1]
    simp only [Outcome.bind]
    rw [p1]
    simp only [r1]
    refine ⟨_, rfl, couples_of_ops (List.Forall₂.cons r2 .nil) _ (fun i _ j _ => ?_) axes⟩
    simp only [jcH, tensor_up, lift2, List.map_cons, List.map_nil, List.sum_cons, List.sum_nil, map_mul, conj_adOp, conj_aOp, Complex.conj_conj]
    ring

/-- The optomechanical coupling does not rotate, whatever the pictures of the modes. -/
theorem coupledModes_static (m0 m1 : ModePtr) (hd0 : m0.dim < 2 ^ 63) (h0 : 0 < m0.dim) (hd1 : m1.dim < 2 ^ 63) (h1 : 0 < m1.dim) (u : ℝ) (axes : List ℕ) :
    ∃ ia, coupledModes axes .nx m0 m1 u = .ok ia ∧ Couples ia [m0.dim, m1.dim] [fun _ => 0, fun _ => 0] (nxH u) := by
  unfold coupledModes
  by_cases hu : u = 0
  · rw [if_neg (by simpa using hu)]
    exact ⟨_, rfl, couples_none _ (fun i _ j _ => by simp [nxH, hu]) axes⟩
  · obtain ⟨n, n1, n2, n3, -, -⟩ := nop_op m0 hd0 h0 m0.w
    obtain ⟨x, x1, x2, -, -⟩ := xop_op m1 hd1 h1
    have nu : Op [m0.dim] (phases [m0.w]) (scale (((u : ℂ).re : ℝ) : ℂ) n) (lift fun i j => ((u : ℂ).re : ℂ) * nOp i j) := n3.scale _
    obtain ⟨P, p1, p2⟩ := lost_product nu x2 (Or.inl n2.freqs)
    unfold coupledModesH
    rw [if_pos (by exact_mod_cast hu), n1]
    simp only [Outcome.bind]
    rw [x1]
    simp only [p1]
    refine ⟨_, rfl, couples_of_ops (List.Forall₂.cons (p2.scale _) .nil) _ (fun i _ j _ => ?_) axes⟩
    simp only [nxH, tensor_up, lift2, List.map_cons, List.map_nil, List.sum_cons, List.sum_nil, Complex.ofReal_re]
    ring

theorem phaseSum_two (w0 w1 : ℕ → ℂ) (d0 d1 : ℕ) (s : Idx) (hs : InBox (lower [d0, d1]) (upper [d0, d1]) s) : phaseSum [w0, w1] s = w0 (q s 0) + w1 (q s 1) := by
  have := hs.1
  rcases s with - | ⟨x, - | ⟨y, - | ⟨z, s⟩⟩⟩ <;> simp_all [phaseSum, q, lower]

theorem box_two {d0 d1 a b : ℕ} (ha : a < d0) (hb : b < d1) : InBox (lower [d0, d1]) (upper [d0, d1]) [(a : ℤ), (b : ℤ)] := by
  rw [inBox_cons, inBox_cons, inBox_nil]; exact ⟨by omega, by omega, rfl⟩

theorem w_exact (m : ModePtr) (z : ℂ) (h : m.exact = some (z, 0)) (n : ℕ) : m.w n = n * z := by unfold ModePtr.w; rw [h]; simp [mainDiagonal, kerrDiagonal]

theorem w_none (m : ModePtr) (h : m.exact = none) (n : ℕ) : m.w n = 0 := by unfold ModePtr.w; rw [h]

/-- The Hamiltonian of the script `QbitMode_C++QED`. -/
noncomputable def qbitModeH (pq : QbitEl.Pars) (pm : ModeEl.Pars) (g : ℂ) (i j : Idx) : ℂ :=
  tensor (qbitH pq.gamma pq.delta pq.eta) one i j + tensor one (modeOf pm) i j + jcH g sigma sigmaDag i j

theorem sigma_aOp : ∀ i < 2, ∀ j < 2, sigma i j = aOp i j ∧ sigmaDag i j = adOp i j := by
  intro i hi j hj
  interval_cases i <;> interval_cases j <;> simp [sigma, sigmaDag, aOp, adOp]

/-- **C149, violated.** `QbitMode_C++QED` with phase noise in Schrödinger picture: there being no qbit with phase noise in Schrödinger picture, the qbit is in interaction picture while the mode is not. A
Hamiltonian is simulated exactly if there is no coupling, or the qbit has neither detuning nor decay. -/
theorem qbitMode_sch_partial (pq : QbitEl.Pars) (hγ : 0 ≤ pq.gamma) (hp : pq.gammaParallel ≠ 0) (pm : ModeEl.Pars) (hm : Usable pm) (h1 : 1 < pm.cutoff) (g : ℂ) :
    ∃ b, qbitMode pq pm g .sch = .ok b ∧ ((∃ H, BinSimulates b H) ↔ g = 0 ∨ (pq.gamma = 0 ∧ pq.delta = 0)) ∧
      (g = 0 ∨ (pq.gamma = 0 ∧ pq.delta = 0) → BinSimulates b (qbitModeH pq pm g)) := by
  obtain ⟨J0, e0, a1, a2, a3⟩ := qbit_free_phaseNoise pq hγ .sch
  obtain ⟨e1, b1, b2, b3⟩ := hm.free .sch
  have hpn : qbitPtrPhaseNoise pq .sch = qbitPtr pq .ip := by unfold qbitPtrPhaseNoise; simp [hp]
  have hx : (qbitPtr pq .ip).exact = some (⟨pq.gamma, -pq.delta⟩, 0) := rfl
  obtain ⟨ia, i1, i2⟩ := jaynesCummings_static (qbitPtr pq .ip) (modePtr pm .sch) (by norm_num [qbitPtr]) (by norm_num [qbitPtr]) (by rw [modePtr_dim]; exact hm.1)
    (by rw [modePtr_dim]; exact hm.2.1) g rfl [0, 1]
  rw [modePtr_dim, show (qbitPtr pq .ip).dim = 2 from rfl] at i2
  rw [hpn] at a3
  have hz : (pq.gamma = 0 ∧ pq.delta = 0) ↔ (⟨pq.gamma, -pq.delta⟩ : ℂ) = 0 := by rw [Complex.ext_iff]; simp
  have hbox : ∀ s s', InBox (lower [e0.dim, e1.dim]) (upper [e0.dim, e1.dim]) s → InBox (lower [e0.dim, e1.dim]) (upper [e0.dim, e1.dim]) s' → g = 0 ∨ (pq.gamma = 0 ∧ pq.delta = 0) →
      jcH g aOp adOp s s' ≠ 0 → phaseSum [(qbitPtr pq .ip).w, (modePtr pm .sch).w] s = phaseSum [(qbitPtr pq .ip).w, (modePtr pm .sch).w] s' := by
    intro s s' hs hs' hc hv
    rcases hc with rfl | hc
    · simp [jcH] at hv
    · rw [phaseSum_two _ _ _ _ s hs, phaseSum_two _ _ _ _ s' hs', w_exact _ _ hx, w_exact _ _ hx, w_none _ rfl, w_none _ rfl, hz.1 hc]; simp
  refine ⟨binary e0 e1 ia, by unfold qbitMode; rw [a1, b1]; simp only [Outcome.bind, hpn, i1], ?_, fun hc => ?_⟩
  · rw [couples_static_iff e0 e1 ia (by rw [a2]; norm_num) (by rw [b2]; exact hm.2.1) a3 b3 (by rw [a2, b2]; exact i2)]
    refine ⟨fun h => ?_, fun hc s s' hs hs' hv => hbox s s' hs hs' hc hv⟩
    by_contra hc
    rw [not_or, hz] at hc
    have s1 : InBox (lower [e0.dim, e1.dim]) (upper [e0.dim, e1.dim]) [((0 : ℕ) : ℤ), ((1 : ℕ) : ℤ)] := box_two (by rw [a2]; norm_num) (by rw [b2]; exact h1)
    have s2 : InBox (lower [e0.dim, e1.dim]) (upper [e0.dim, e1.dim]) [((1 : ℕ) : ℤ), ((0 : ℕ) : ℤ)] := box_two (by rw [a2]; norm_num) (by rw [b2]; exact hm.2.1)
    have := h _ _ s1 s2 (by simp [jcH, tensor, q, aOp, adOp, hc.1])
    rw [phaseSum_two _ _ _ _ _ s1, phaseSum_two _ _ _ _ _ s2, w_exact _ _ hx, w_exact _ _ hx, w_none _ rfl, w_none _ rfl] at this
    apply hc.2
    simp only [q, List.getD_cons_zero, List.getD_cons_succ, Nat.cast_zero, Nat.cast_one, Int.toNat_zero, Int.toNat_one, one_mul, zero_mul, add_zero] at this
    exact this.symm
  · have := static_simulates e0 e1 ia (by rw [a2]; norm_num) (by rw [b2]; exact hm.2.1) a3 b3 (V := jcH g aOp adOp) (by rw [a2, b2]; exact i2) (fun s s' hs hs' hv => hbox s s' hs hs' hc hv)
    refine simulates_congr this rfl fun s s' hs hs' => ?_
    have q0 : ∀ s, InBox (lower [e0.dim, e1.dim]) (upper [e0.dim, e1.dim]) s → q s 0 < 2 := by
      intro s hs
      have h2 := hs.2 0 (by simp [lower])
      simp [lower, upper, a2] at h2
      unfold q; simp; omega
    simp only [qbitModeH, jcH, tensor, (sigma_aOp _ (q0 s hs) _ (q0 s' hs')).1, (sigma_aOp _ (q0 s hs) _ (q0 s' hs')).2]

/-- The frequency of the mechanical mode which is treated exactly. -/
noncomputable def mechanicalZ (pB : ModeEl.Pars) (qmp : Picture) : ℂ :=
  open Classical in ⟨if qmp = .ip then pB.kappa * (2 * pB.nTh + 1) else 0, -pB.delta⟩

/-- **C149, violated.** `Optomechanics` in the interaction pictures, of which one is the default: the coupling does not rotate. A Hamiltonian is simulated exactly if there is no coupling, or the mechanical mode
has no frequency in that picture: neither a detuning, nor, unless the picture is unitary, a decay. -/
theorem optomechanics_ip_partial (pA pB : ModeEl.Pars) (hA : Usable pA) (hB : Usable pB) (h1A : 1 < pA.cutoff) (h1B : 1 < pB.cutoff) (u : ℝ) (qmp : Picture) (hq : qmp ≠ .sch) :
    ∃ b, optomechanics pA pB u qmp = .ok b ∧ ((∃ H, BinSimulates b H) ↔ u = 0 ∨ (pB.delta = 0 ∧ (pB.kappa = 0 ∨ qmp = .uip))) ∧
      (u = 0 ∨ (pB.delta = 0 ∧ (pB.kappa = 0 ∨ qmp = .uip)) →
        BinSimulates b fun i j => tensor (modeOf pA) one i j + tensor one (modeOf { pB with eta := 0 }) i j + radiationPressure u i j) := by
  obtain ⟨e0, a1, a2, a3⟩ := hA.free qmp
  obtain ⟨e1, b1, b2, b3⟩ := (Usable.unpumped hB).free qmp
  obtain ⟨ia, i1, i2⟩ := coupledModes_static (modePtr pA qmp) (modePtr pB qmp) (by rw [modePtr_dim]; exact hA.1) (by rw [modePtr_dim]; exact hA.2.1) (by rw [modePtr_dim]; exact hB.1)
    (by rw [modePtr_dim]; exact hB.2.1) (-Real.sqrt 2 * u) [0, 1]
  rw [modePtr_dim, modePtr_dim, nx_radiation] at i2
  rw [modePtr_eta pB] at b3
  rw [← makeLossy_eq] at b1
  have hx : (modePtr pB qmp).exact = some (mechanicalZ pB qmp, 0) := by
    cases qmp with
    | sch => exact absurd rfl hq
    | uip => simp [modePtr, mechanicalZ, hB.2.2.2.2.1]
    | ip =>
      simp only [modePtr, mechanicalZ, hB.2.2.2.2.1, if_true, decay_eq]
      by_cases hk : pB.kappa = 0 <;> simp [hk]
  have hn := hB.2.2.2.1
  have hz : (pB.delta = 0 ∧ (pB.kappa = 0 ∨ qmp = .uip)) ↔ mechanicalZ pB qmp = 0 := by
    rw [Complex.ext_iff]
    have h2 : 2 * pB.nTh + 1 ≠ 0 := by positivity
    cases qmp with
    | sch => exact absurd rfl hq
    | uip => simp [mechanicalZ]
    | ip => simp [mechanicalZ, h2, and_comm]
  have hbox : ∀ s s', InBox (lower [e0.dim, e1.dim]) (upper [e0.dim, e1.dim]) s → InBox (lower [e0.dim, e1.dim]) (upper [e0.dim, e1.dim]) s' → u = 0 ∨ (pB.delta = 0 ∧ (pB.kappa = 0 ∨ qmp = .uip)) →
      radiationPressure u s s' ≠ 0 → phaseSum [(modePtr pA qmp).w, (modePtr pB qmp).w] s = phaseSum [(modePtr pA qmp).w, (modePtr pB qmp).w] s' := by
    intro s s' hs hs' hc hv
    rcases hc with rfl | hc
    · simp [radiationPressure] at hv
    · have h0 : q s 0 = q s' 0 := by
        by_contra hne
        apply hv
        simp [radiationPressure, tensor, nOp, hne]
      rw [phaseSum_two _ _ _ _ s hs, phaseSum_two _ _ _ _ s' hs', w_exact (modePtr pB qmp) _ hx, w_exact (modePtr pB qmp) _ hx, hz.1 hc, h0]; simp
  refine ⟨binary e0 e1 ia, by unfold optomechanics; rw [a1, b1]; simp only [Outcome.bind, i1], ?_, fun hc => ?_⟩
  · rw [couples_static_iff e0 e1 ia (by rw [a2]; exact hA.2.1) (by rw [b2]; exact hB.2.1) a3 b3 (by rw [a2, b2]; exact i2)]
    refine ⟨fun h => ?_, fun hc s s' hs hs' hv => hbox s s' hs hs' hc hv⟩
    by_contra hc
    rw [not_or, hz] at hc
    have s1 : InBox (lower [e0.dim, e1.dim]) (upper [e0.dim, e1.dim]) [((1 : ℕ) : ℤ), ((1 : ℕ) : ℤ)] := box_two (by rw [a2]; exact h1A) (by rw [b2]; exact h1B)
    have s2 : InBox (lower [e0.dim, e1.dim]) (upper [e0.dim, e1.dim]) [((1 : ℕ) : ℤ), ((0 : ℕ) : ℤ)] := box_two (by rw [a2]; exact h1A) (by rw [b2]; exact hB.2.1)
    have := h _ _ s1 s2 (by simp [radiationPressure, tensor, q, nOp, aOp, adOp, hc.1])
    rw [phaseSum_two _ _ _ _ _ s1, phaseSum_two _ _ _ _ _ s2, w_exact (modePtr pB qmp) _ hx, w_exact (modePtr pB qmp) _ hx] at this
    apply hc.2
    simp only [q, List.getD_cons_zero, List.getD_cons_succ, Nat.cast_zero, Nat.cast_one, Int.toNat_zero, Int.toNat_one, one_mul, zero_mul, add_zero] at this
    linear_combination this
  · exact static_simulates e0 e1 ia (by rw [a2]; exact hA.2.1) (by rw [b2]; exact hB.2.1) a3 b3 (V := radiationPressure u) (by rw [a2, b2]; exact i2) (fun s s' hs hs' hv => hbox s s' hs hs' hc hv)

/-! ## Examples -/

/-- A lossy pumped mode at zero temperature, with 10 Fock states. -/
def aMode : ModeEl.Pars := ⟨10, -3, 0, 0, 2, 0, 1⟩

theorem aMode_usable : Usable aMode := by simp only [Usable, aMode]; norm_num

example := tutorialBinary_simulates ⟨1, 2, 3, 0⟩ (by norm_num) aMode aMode_usable (1 + Complex.I) .uip

example := qbitMode_simulates ⟨1, 2, 3, 5⟩ (by norm_num) aMode aMode_usable (1 + Complex.I) .ip (Or.inr (by decide))

example := nQbits_simulates 6 ⟨1, 2, 3, 0⟩ (by norm_num) aMode aMode_usable (1 + Complex.I) .sch

example := optomechanics_simulates aMode aMode aMode_usable aMode_usable 1

example := raman_simulates (fun n => if n = 2 then -10 else 0) (30 + 40 * Complex.I) 5 10 5 (by norm_num) (by norm_num) [0, 0, 0] (by simp)

example := cavityRaman_simulates (fun n => if n = 2 then -10 else 0) 7 10 5 (by norm_num) (by norm_num) [0, 0, 0] (by simp) aMode aMode_usable 3

/-- With phase noise, decay and coupling, nothing is simulated in Schrödinger picture. -/
example : ∃ b, qbitMode ⟨1, 2, 3, 5⟩ aMode 7 .sch = .ok b ∧ ∀ H, ¬ BinSimulates b H := by
  obtain ⟨b, h1, h2, -⟩ := qbitMode_sch_partial ⟨1, 2, 3, 5⟩ (by norm_num) (by norm_num) aMode aMode_usable (by norm_num [aMode]) 7
  refine ⟨b, h1, fun H hH => ?_⟩
  have := h2.1 ⟨H, hH⟩
  norm_num at this

/-- Nor is anything simulated by the optomechanics script in its default picture. -/
example : ∃ b, optomechanics aMode aMode 1 .ip = .ok b ∧ ∀ H, ¬ BinSimulates b H := by
  obtain ⟨b, h1, h2, -⟩ := optomechanics_ip_partial aMode aMode aMode_usable aMode_usable (by norm_num [aMode]) (by norm_num [aMode]) 1 .ip (by decide)
  refine ⟨b, h1, fun H hH => ?_⟩
  have := h2.1 ⟨H, hH⟩
  norm_num [aMode] at this

end CppQED.CavScr
