import Verif.Props.InteractionsTwoStep

/-!
# Interactions of elements in different kinds of pictures: C80, violated

The frequencies of products one factor of which is not in interaction picture are lost (C57). What this means for the interactions.
-/

namespace CppQED.Interactions
open CppQED.Elem CppQED.Tridiag CppQED.ModeEl CppQED.Spec CppQED.Composite
open CppQED.MII (Idx)
open CppQED.Slice (Arr sliceBound)
open CppQED.ParticleEl (ModeFunction isComplex potE lightShift expE)
open ComplexConjugate

/-- If an interaction describes the same Hamiltonian in two pictures, then the phases of the two cannot differ where the Hamiltonian does not vanish. -/
theorem couples_phases {ia : Part} {ds : List ℕ} {ws ws' : List (ℕ → ℂ)} {H : Idx → Idx → ℂ} (h : Couples ia ds ws H) (h' : Couples ia ds ws' H) {s s' : Idx}
    (hs : InBox (lower ds) (upper ds) s) (hs' : InBox (lower ds) (upper ds) s') (h0 : H s s' ≠ 0) : phaseSum ws s - phaseSum ws s' = phaseSum ws' s - phaseSum ws' s' := by
  obtain ⟨-, h⟩ := h
  obtain ⟨-, h'⟩ := h'
  have key : ∀ t : ℝ, rotating ws H t s s' = rotating ws' H t s s' := by
    intro t
    have h := h t 0
    have h' := h' t 0
    cases hh : ia.ha with
    | none => rw [hh] at h; exact absurd (h s s' hs hs') h0
    | some ha =>
      rw [hh] at h h'
      have e := (h (fun j => if j = s' then 1 else 0) (fun _ => 0) s hs).symm.trans (h' (fun j => if j = s' then 1 else 0) (fun _ => 0) s hs)
      have m := (mem_boxFinset _ _ s' (lower_length ds)).2 hs'
      simpa [matAction, m] using e
  have k2 : ∀ t : ℝ, Complex.exp ((phaseSum ws s - phaseSum ws s') * t) = Complex.exp ((phaseSum ws' s - phaseSum ws' s') * t) := by
    intro t
    have e := key t
    unfold rotating at e
    rw [mul_right_comm, mul_right_comm _ (H s s'), ← Complex.exp_add, ← Complex.exp_add] at e
    have e := mul_right_cancel₀ h0 e
    rw [sub_mul, sub_mul, sub_eq_add_neg, sub_eq_add_neg]
    exact e
  have d : ∀ c : ℂ, HasDerivAt (fun t : ℝ => Complex.exp (c * t)) c 0 := by
    intro c
    have := (((Complex.ofRealCLM.hasDerivAt (x := (0 : ℝ))).const_mul c).cexp)
    simpa using this
  have e1 := d (phaseSum ws s - phaseSum ws s')
  rw [show (fun t : ℝ => Complex.exp ((phaseSum ws s - phaseSum ws s') * t)) = fun t : ℝ => Complex.exp ((phaseSum ws' s - phaseSum ws' s') * t) from funext k2] at e1
  exact e1.unique (d _)

/-- The product loses the frequencies. -/
theorem lost_product {d0 d1 : ℕ} {w0 w1 : ℕ → ℂ} {T S : Tri} {A B : Dens} (h0 : Op [d0] (phases [w0]) T (lift A)) (h1 : Op [d1] (phases [w1]) S (lift B))
    (hf : (∀ x, (T.freqs x).size = 0) ∨ ∀ x, (S.freqs x).size = 0) :
    ∃ P, product T S = .ok P ∧ Op [d0, d1] (phases [fun _ => 0, fun _ => 0]) P (lift2 A B) := by
  have hz : ∀ i, phases [fun _ => 0, fun _ => 0] i = 0 := by
    intro i
    rcases i with - | ⟨a, - | ⟨b, i⟩⟩ <;> simp [phases]
  have hP : Tridiag.product T S = .ok ⟨T.rank + S.rank, T.dims ++ S.dims, T.diffs ++ S.diffs, T.time,
      directDiagonals true T.rank (3 ^ S.rank) T.diagonals S.diagonals, directDiagonals false T.rank (3 ^ S.rank) T.freqs S.freqs⟩ := by
    unfold Tridiag.product; rw [if_neg (by rw [h0.time, h1.time]; simp)]
  refine ⟨_, hP, product_wf hP h0.wf h1.wf, by simp [h0.dims, h1.dims], h0.time, ?_, ?_⟩
  · rw [show phases [fun _ => 0, fun _ => 0] = fun _ => 0 from funext hz]
    refine Freqs.none fun x _ => ?_
    simp only [directDiagonals, direct_size]
    rcases hf with hf | hf <;> simp [hf]
  · intro i hi j hj
    obtain ⟨a, b, rfl⟩ := two_mem hi
    obtain ⟨a', b', rfl⟩ := two_mem hj
    rw [mem_natBox, List.forall₂_cons, List.forall₂_cons] at hi hj
    have e := product_entry hP h0.wf.diffs (i₁ := [a]) (j₁ := [a']) (by rw [h0.rank]; rfl) (by rw [h0.rank]; rfl) [b] [b']
    simp only [List.cons_append, List.nil_append] at e
    rw [e, h0.entry _ ((mem_natBox_one _ _).2 hi.1) _ ((mem_natBox_one _ _).2 hj.1), h1.entry _ ((mem_natBox_one _ _).2 hi.2.1) _ ((mem_natBox_one _ _).2 hj.2.1)]
    rfl

theorem aop_sch (m : ModePtr) (hd : m.dim < 2 ^ 63) (h0 : 0 < m.dim) (hm : m.exact = none) :
    ∃ T, aop m = .ok T ∧ Op [m.dim] (phases [m.w]) T (lift aOp) ∧ ∀ x, (T.freqs x).size = 0 := by
  obtain ⟨T, h1, h2, -, -⟩ := aop_op m hd h0
  refine ⟨T, h1, h2, ?_⟩
  obtain ⟨S, s1, -, s3⟩ := aop_ok m.dim hd h0
  unfold aop aopOf at h1
  rw [s1, hm] at h1
  simp only [Outcome.bind, Outcome.ok.injEq] at h1
  rw [← h1]; exact s3

/-- **C80, violated.** Jaynes-Cummings of two elements one of which is in Schrödinger picture, the other in an interaction picture with a nonzero frequency: for no coupling is the Hamiltonian that
of the physical system. (`σ` is the operator `a` for qbits.) -/
theorem jaynesCummings_mixed_wrong (m0 m1 : ModePtr) (hd0 : m0.dim < 2 ^ 63) (h0 : 1 < m0.dim) (hd1 : m1.dim < 2 ^ 63) (h1 : 1 < m1.dim) (g : ℂ) (hg : g ≠ 0)
    (hm : (m0.exact = none ∧ ∃ z, m1.exact = some (z, 0) ∧ z ≠ 0) ∨ (m1.exact = none ∧ ∃ z, m0.exact = some (z, 0) ∧ z ≠ 0)) (axes : List ℕ) :
    ∃ ia, jaynesCummings axes (aop m0) m1 g = .ok ia ∧ ¬ Couples ia [m0.dim, m1.dim] [m0.w, m1.w] (jcH g aOp adOp) := by
  obtain ⟨S, s1, s2, -, -⟩ := aop_op m0 hd0 (by omega)
  obtain ⟨a, a1, a2, -, -⟩ := aop_op m1 hd1 (by omega)
  have sg : Op [m0.dim] (phases [m0.w]) (scale (conj g) S) (lift fun i j => conj g * aOp i j) := s2.scale (conj g)
  have hf : (∀ x, ((scale (conj g) S).freqs x).size = 0) ∨ ∀ x, ((hermitianConjugate a).freqs x).size = 0 := by
    rcases hm with ⟨h, -⟩ | ⟨h, -⟩
    · obtain ⟨S', t1, -, t3⟩ := aop_sch m0 hd0 (by omega) h
      rw [s1, Outcome.ok.injEq] at t1
      subst t1
      exact Or.inl t3
    · obtain ⟨S', t1, -, t3⟩ := aop_sch m1 hd1 (by omega) h
      rw [a1, Outcome.ok.injEq] at t1
      subst t1
      exact Or.inr t3
  obtain ⟨P, p1, p2⟩ := lost_product sg (ad_op a2) hf
  obtain ⟨R, r1, r2, r3, r4⟩ := p2.minusHC
  unfold jaynesCummings jaynesCummingsH
  rw [if_pos hg, s1, a1]
  simp only [Outcome.bind]
  rw [p1]
  simp only [r1]
  refine ⟨_, rfl, fun h => ?_⟩
  have h' : Couples (interaction axes (some (triHam [R]))) [m0.dim, m1.dim] [fun _ => 0, fun _ => 0] (jcH g aOp adOp) := by
    refine couples_of_ops (List.Forall₂.cons r2 .nil) _ (fun i _ j _ => ?_) axes
    simp only [jcH, tensor_up, lift2, List.map_cons, List.map_nil, List.sum_cons, List.sum_nil, map_mul, conj_adOp, conj_aOp, Complex.conj_conj]
    ring
  have e := couples_phases h h' (s := [0, 1]) (s' := [1, 0]) (by rw [inBox_cons, inBox_cons, inBox_nil]; exact ⟨by omega, by omega, rfl⟩)
    (by rw [inBox_cons, inBox_cons, inBox_nil]; exact ⟨by omega, by omega, rfl⟩)
    (by simp [jcH, tensor, q, aOp, adOp, hg])
  have hw : ∀ m : ModePtr, m.exact = none → m.w = fun _ => 0 := by intro m h; unfold ModePtr.w; rw [h]
  have hw' : ∀ (m : ModePtr) (z : ℂ), m.exact = some (z, 0) → m.w 1 - m.w 0 = z := by
    intro m z h; unfold ModePtr.w; rw [h]; simp [mainDiagonal, kerrDiagonal]
  rcases hm with ⟨ha, z, hb, hz⟩ | ⟨ha, z, hb, hz⟩
  · have := hw' m1 z hb
    simp only [phaseSum, hw m0 ha, List.zipWith_cons_cons, List.zipWith_nil_left, List.sum_cons, List.sum_nil, Int.toNat_zero, Int.toNat_one] at e
    apply hz
    rw [← this]
    linear_combination e
  · have := hw' m0 z hb
    simp only [phaseSum, hw m1 ha, List.zipWith_cons_cons, List.zipWith_nil_left, List.sum_cons, List.sum_nil, Int.toNat_zero, Int.toNat_one] at e
    apply hz
    rw [← this]
    linear_combination -e

/-- **C80, violated.** The dispersive coupling of a mode in whichever picture and a mode in an interaction picture. -/
theorem coupledModesNX_wrong (m0 m1 : ModePtr) (hd0 : m0.dim < 2 ^ 63) (h0 : 1 < m0.dim) (hd1 : m1.dim < 2 ^ 63) (h1 : 1 < m1.dim) (u : ℂ) (hu : u.re ≠ 0) (z : ℂ)
    (hm : m1.exact = some (z, 0)) (hz : z ≠ 0) (axes : List ℕ) :
    ∃ ia, coupledModes axes .nx m0 m1 u = .ok ia ∧ ¬ Couples ia [m0.dim, m1.dim] [m0.w, m1.w] (nxH u.re) := by
  obtain ⟨n, n1, n2, n3, -, -⟩ := nop_op m0 hd0 (by omega) m0.w
  obtain ⟨x, x1, x2, -, -⟩ := xop_op m1 hd1 (by omega)
  have nu : Op [m0.dim] (phases [m0.w]) (scale (u.re : ℂ) n) (lift fun i j => u.re * nOp i j) := n3.scale _
  obtain ⟨P, p1, p2⟩ := lost_product nu x2 (Or.inl n2.freqs)
  unfold coupledModes coupledModesH
  rw [if_pos (by rintro rfl; simp at hu), n1]
  simp only [Outcome.bind]
  rw [x1]
  simp only [p1]
  refine ⟨_, rfl, fun h => ?_⟩
  have h' : Couples (interaction axes (some (triHam [scale (1 / Complex.I) P]))) [m0.dim, m1.dim] [fun _ => 0, fun _ => 0] (nxH u.re) := by
    refine couples_of_ops (List.Forall₂.cons (p2.scale _) .nil) _ (fun i _ j _ => ?_) axes
    simp only [nxH, tensor_up, lift2, List.map_cons, List.map_nil, List.sum_cons, List.sum_nil]
    ring
  have e := couples_phases h h' (s := [1, 1]) (s' := [1, 0]) (by rw [inBox_cons, inBox_cons, inBox_nil]; exact ⟨by omega, by omega, rfl⟩)
    (by rw [inBox_cons, inBox_cons, inBox_nil]; exact ⟨by omega, by omega, rfl⟩)
    (by simp [nxH, tensor, q, nOp, quadOp, aOp, adOp, hu])
  have : m1.w 1 - m1.w 0 = z := by unfold ModePtr.w; rw [hm]; simp [mainDiagonal, kerrDiagonal]
  simp only [phaseSum, List.zipWith_cons_cons, List.zipWith_nil_left, List.sum_cons, List.sum_nil, Int.toNat_zero, Int.toNat_one] at e
  apply hz
  rw [← this]
  linear_combination e

/-- **C80, violated.** A particle in interaction picture moving along a cavity with standing waves: whatever the light shift, the Hamiltonian is wrong. -/
theorem along_exact_wrong (m : ModePtr) (hd : m.dim < 2 ^ 63) (h0 : 1 < m.dim) (p : ParticleEl.Part) (hp : p.fin < 63) (hx : p.exact = true) (ho : p.omrec ≠ 0) (mf : ModeFunction)
    (hc : isComplex mf.type = false) (hk : 0 < mf.nK) (hn : 2 * mf.nK.natAbs < 2 ^ p.fin) (U : ℝ) (hU : U ≠ 0) (axes : List ℕ) :
    ∃ ia, particleAlongCavity axes m p U mf 0 = .ok ia ∧ ¬ Couples ia [m.dim, 2 ^ p.fin] [m.w, p.m] (lightShiftH p.fin U mf) := by
  obtain ⟨n, n1, n2, n3, -, -⟩ := nop_op m hd (by omega) m.w
  obtain ⟨c, c1, c2⟩ := ParticleEl.cosOf_ok hp (2 * mf.nK) (by omega)
  have s2 : Op [m.dim] (phases [m.w]) (scale (if mf.type = .sin then -1 else 1) (scale (U : ℂ) n)) (lift fun i j => (if mf.type = .sin then -1 else 1) * (U * nOp i j)) := (n3.scale _).scale _
  obtain ⟨P, p1, p2⟩ := lost_product s2 (op_of_pop c2) (Or.inl n2.freqs)
  unfold particleAlongCavity fillT dispersive
  rw [if_pos ⟨hU, by simp [hc]⟩, n1, c1]
  simp only [Outcome.bind]
  rw [p1]
  simp only [ne_eq, not_true_eq_false, if_false]
  refine ⟨_, rfl, fun h => ?_⟩
  have h' : Couples (interaction axes (some (triHam [scale (1 / (2 * Complex.I)) P]))) [m.dim, 2 ^ p.fin] [fun _ => 0, fun _ => 0] (lightShiftH p.fin U mf) := by
    refine couples_of_ops (List.Forall₂.cons (p2.scale _) .nil) _ (fun i _ j _ => ?_) axes
    rw [lightShift_tensor]
    simp only [List.map_cons, List.map_nil, List.sum_cons, List.sum_nil, lift2, potE, hc]
    rw [if_neg (by simp)]
    ring
  have hpos : (2 : ℕ) ^ p.fin > 0 := by positivity
  have e := couples_phases h h' (s := up [1, (2 * mf.nK).toNat]) (s' := up [1, 0]) 
    (up_box (mem_natBox.2 (.cons h0 (.cons (show (2 * mf.nK).toNat < 2 ^ p.fin by omega) .nil)))) (up_box (mem_natBox.2 (.cons h0 (.cons hpos .nil))))
    (by
      rw [lightShift_tensor]
      simp only [lift2, potE, hc, List.getD_cons_zero, List.getD_cons_succ, nOp, expE, Bool.false_eq_true, if_false, if_true]
      rw [if_pos (show (((2 * mf.nK).toNat : ℕ) : ℤ) = ((0 : ℕ) : ℤ) + 2 * mf.nK by omega), if_neg (show ¬ (((2 * mf.nK).toNat : ℕ) : ℤ) = ((0 : ℕ) : ℤ) + -(2 * mf.nK) by omega)]
      split_ifs <;> simp [hU])
  rw [phaseSum_up, phaseSum_up, phaseSum_up, phaseSum_up] at e
  have hm : p.m = ParticleEl.mainDiagonal p.fin p.omrec := by unfold ParticleEl.Part.m; rw [hx]; rfl
  simp only [phases, hm, List.zipWith_cons_cons, List.zipWith_nil_left, List.sum_cons, List.sum_nil, ParticleEl.mainDiagonal, ParticleEl.gridK_eq, waveNumber] at e
  set k : ℕ := (2 * mf.nK).toNat
  have hk1 : 0 < k := by omega
  have hk2 : k < 2 ^ p.fin := by omega
  have e' : (p.omrec : ℂ) * ((k : ℂ) * ((k : ℂ) - (2 ^ p.fin : ℕ))) = 0 := by
    have hI := Complex.I_ne_zero
    apply mul_left_cancel₀ hI
    push_cast at e ⊢
    linear_combination e
  rcases mul_eq_zero.1 e' with h | h
  · exact ho (by exact_mod_cast h)
  · rcases mul_eq_zero.1 h with h | h
    · have : k = 0 := by exact_mod_cast h
      omega
    · have : (k : ℂ) = ((2 ^ p.fin : ℕ) : ℂ) := by linear_combination h
      have : k = 2 ^ p.fin := by exact_mod_cast this
      omega

/-- The hypotheses can be met. -/
example : ∃ (m0 m1 : ModePtr), (m0.exact = none ∧ ∃ z, m1.exact = some (z, 0) ∧ z ≠ 0) ∧ 1 < m0.dim ∧ 1 < m1.dim :=
  ⟨qbitPtr ⟨1, 1, 1, 0⟩ .sch, modePtr ⟨10, -3, 0, 0, 0, 0, 0⟩ .uip, ⟨rfl, _, rfl, by simp [Complex.ext_iff]⟩, by decide, by norm_num [modePtr]⟩

/-- **C80, the part which holds.** A Jaynes-Cummings system made in two different pairs of pictures: the two integrated problems describe the same Hamiltonian, provided that in both cases both or none of the
elements is in the Schrödinger picture. Missing: the mixed pairs, where it is false (`jaynesCummings_mixed_wrong`). -/
theorem jaynesCummings_pictures_partial (pq : QbitEl.Pars) (pm : ModeEl.Pars) (g : ℂ) (qmq qmm qmq' qmm' : Picture) (hq : qmq = .sch ↔ qmm = .sch) (hq' : qmq' = .sch ↔ qmm' = .sch) (hγ : 0 ≤ pq.gamma)
    (hd : pm.cutoff < 2 ^ 63) (h0 : 0 < pm.cutoff) (hκ : 0 ≤ pm.kappa) (hn : 0 ≤ pm.nTh) (hK : pm.omegaKerr = 0) (hA : pm.omegaKerrAlter = 0) :
    ∃ e0 e1 ia e0' e1' ia' H, QbitEl.make pq qmq = .ok e0 ∧ makePumpedLossy pm qmm = .ok e1 ∧ jaynesCummings [0, 1] (aop (qbitPtr pq qmq)) (modePtr pm qmm) g = .ok ia ∧
      QbitEl.make pq qmq' = .ok e0' ∧ makePumpedLossy pm qmm' = .ok e1' ∧ jaynesCummings [0, 1] (aop (qbitPtr pq qmq')) (modePtr pm qmm') g = .ok ia' ∧
      BinSimulates (binary e0 e1 ia) H ∧ BinSimulates (binary e0' e1' ia') H := by
  obtain ⟨e0, e1, ia, a1, a2, a3, a4⟩ := jaynesCummings_simulates pq pm g qmq qmm hq hγ hd h0 hκ hn hK hA
  obtain ⟨e0', e1', ia', b1, b2, b3, b4⟩ := jaynesCummings_simulates pq pm g qmq' qmm' hq' hγ hd h0 hκ hn hK hA
  exact ⟨e0, e1, ia, e0', e1', ia', _, a1, a2, a3, b1, b2, b3, a4, b4⟩

end CppQED.Interactions
