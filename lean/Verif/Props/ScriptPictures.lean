import Verif.Props.ScriptSystems
import Verif.Props.InteractionsPictures
import Verif.Lemmas.BinaryConverse

/-!
# One particle in one mode, in the interaction pictures: C128, violated

The product of the photon number and of the position-dependent light shift loses the frequencies of the particle (C57, C80).
-/

namespace CppQED.ScriptSys
open CppQED.Elem CppQED.Tridiag CppQED.ModeEl CppQED.Spec CppQED.Composite CppQED.Interactions CppQED.PTrace
open CppQED.MII (Idx)
open CppQED.Slice (Arr sliceBound)
open CppQED.ParticleEl (ModeFunction isComplex potE lightShift expE)
open ComplexConjugate

theorem triHam_two (a b : Tri) (t t0 : ℝ) (psi dpsidt : Arr ℂ) : triHam [a, b] t t0 psi dpsidt = triHam [b] t t0 psi (triHam [a] t t0 psi dpsidt) := by
  funext i
  simp only [triHam, List.foldl_cons, List.foldl_nil]
  congr 1
  funext n
  rw [down_up]

/-- What is contributed by the interaction of a particle in interaction picture along a cavity with standing waves: the light shift does not rotate. -/
theorem along_lost (m : ModePtr) (hd : m.dim < 2 ^ 63) (h0 : 0 < m.dim) (p : ParticleEl.Part) (hp : p.fin < 63) (mf : ModeFunction)
    (hc : isComplex mf.type = false) (hk : mf.nK ≠ 0) (hn : 2 * mf.nK.natAbs ≤ 2 ^ p.fin) (hpic : m.exact.isSome = p.exact) (U η : ℝ) (hU : U ≠ 0) (axes : List ℕ) :
    ∃ ia ha, particleAlongCavity axes m p U mf η = .ok ia ∧ ia.ex = none ∧ ia.ha = some ha ∧ ∀ t t0 psi dpsidt s, InBox (lower [m.dim, 2 ^ p.fin]) (upper [m.dim, 2 ^ p.fin]) s →
      ha t t0 psi dpsidt s = dpsidt s + matAction (lower [m.dim, 2 ^ p.fin]) (upper [m.dim, 2 ^ p.fin])
        (fun i j => lightShiftH p.fin U mf i j + rotating [m.w, p.m] (interferenceH p.fin η (waveFunction mf)) (t - t0) i j) psi s := by
  obtain ⟨n, n1, n2, n3, -, -⟩ := nop_op m hd h0 m.w
  obtain ⟨c, c1, c2⟩ := ParticleEl.cosOf_ok hp (2 * mf.nK) (by omega)
  have s2 : Op [m.dim] (phases [m.w]) (scale (if mf.type = .sin then -1 else 1) (scale (U : ℂ) n)) (lift fun i j => (if mf.type = .sin then -1 else 1) * (U * nOp i j)) := (n3.scale _).scale _
  obtain ⟨P, p1, p2⟩ := lost_product s2 (op_of_pop c2) (Or.inl n2.freqs)
  have d1 : Couples (interaction axes (some (triHam [scale (1 / (2 * Complex.I)) P]))) [m.dim, 2 ^ p.fin] [fun _ => 0, fun _ => 0] (lightShiftH p.fin U mf) := by
    refine couples_of_ops (List.Forall₂.cons (p2.scale _) .nil) _ (fun i _ j _ => ?_) axes
    rw [lightShift_tensor]
    simp only [List.map_cons, List.map_nil, List.sum_cons, List.sum_nil, lift2, potE, hc]
    rw [if_neg (by simp)]
    ring
  have still : ∀ (τ : ℝ) i j, rotating [fun _ => 0, fun _ => 0] (lightShiftH p.fin U mf) τ i j = lightShiftH p.fin U mf i j := by
    intro τ i j
    have : ∀ s : Idx, phaseSum [fun _ => 0, fun _ => 0] s = 0 := by
      intro s
      rcases s with - | ⟨x, - | ⟨y, s⟩⟩ <;> simp [phaseSum]
    simp [rotating, this]
  have hd1 : ∀ t t0 psi dpsidt s, InBox (lower [m.dim, 2 ^ p.fin]) (upper [m.dim, 2 ^ p.fin]) s →
      triHam [scale (1 / (2 * Complex.I)) P] t t0 psi dpsidt s = dpsidt s + matAction (lower [m.dim, 2 ^ p.fin]) (upper [m.dim, 2 ^ p.fin]) (lightShiftH p.fin U mf) psi s := by
    intro t t0 psi dpsidt s hs
    rw [d1.2 t t0 psi dpsidt s hs]
    congr 1
    exact matAction_congr (lower_length _) (fun j _ => still _ _ _) psi
  unfold particleAlongCavity fillT dispersive
  rw [if_pos ⟨hU, by simp [hc]⟩, n1, c1]
  simp only [Outcome.bind]
  rw [p1]
  by_cases hη : η = 0
  · simp only [hη, ne_eq, not_true_eq_false, if_false]
    refine ⟨_, _, rfl, rfl, rfl, fun t t0 psi dpsidt s hs => ?_⟩
    rw [hd1 t t0 psi dpsidt s hs]
    congr 1
    refine matAction_congr (lower_length _) (fun j _ => ?_) psi
    simp [rotating, interferenceH]
  · obtain ⟨h, h1, h2⟩ := interferic_op m hd h0 hp η mf (by omega) hpic (fun _ => hk)
    simp only [ne_eq, hη, not_false_eq_true, if_true, h1]
    refine ⟨_, _, rfl, rfl, rfl, fun t t0 psi dpsidt s hs => ?_⟩
    have d2 : Couples (interaction axes (some (triHam [h]))) [m.dim, 2 ^ p.fin] [m.w, p.m] (interferenceH p.fin η (waveFunction mf)) :=
      couples_of_ops (List.Forall₂.cons h2 .nil) _ (fun i _ j _ => by simp) axes
    simp only [List.cons_append, List.nil_append]
    rw [triHam_two, d2.2 t t0 psi _ s hs, hd1 t t0 psi dpsidt s hs, add_assoc]
    congr 1
    unfold matAction
    rw [← Finset.sum_add_distrib]
    exact Finset.sum_congr rfl fun j _ => by ring

/-- The frequencies of the particle between the wave numbers `-N/2` and `2k-N/2` differ. -/
theorem part_frequencies (p : ParticleEl.Part) (hx : p.exact = true) (ho : p.omrec ≠ 0) (k : ℕ) (h1 : 0 < k) (h2 : k < 2 ^ p.fin) : p.m k ≠ p.m 0 := by
  intro e
  have hm : p.m = ParticleEl.mainDiagonal p.fin p.omrec := by unfold ParticleEl.Part.m; rw [hx]; rfl
  simp only [hm, ParticleEl.mainDiagonal, ParticleEl.gridK_eq, waveNumber] at e
  have e' : (p.omrec : ℂ) * ((k : ℂ) * ((k : ℂ) - (2 ^ p.fin : ℕ))) = 0 := by
    apply mul_left_cancel₀ Complex.I_ne_zero
    push_cast at e ⊢
    linear_combination e
  rcases mul_eq_zero.1 e' with h | h
  · exact ho (by exact_mod_cast h)
  · rcases mul_eq_zero.1 h with h | h
    · have : k = 0 := by exact_mod_cast h
      omega
    · have : (k : ℂ) = ((2 ^ p.fin : ℕ) : ℂ) := by linear_combination h
      have : k = 2 ^ p.fin := by exact_mod_cast this
      omega

/-- An exponential which is constant has vanishing exponent. -/
theorem exp_const {c : ℂ} (h : ∀ t : ℝ, Complex.exp (c * t) = 1) : c = 0 := by
  have d : HasDerivAt (fun t : ℝ => Complex.exp (c * t)) c 0 := by
    have := (((Complex.ofRealCLM.hasDerivAt (x := (0 : ℝ))).const_mul c).cexp)
    simpa using this
  rw [show (fun t : ℝ => Complex.exp (c * t)) = fun _ => 1 from funext h] at d
  exact d.unique (hasDerivAt_const _ _)

/-- A binary system of a mode and a particle in interaction picture along a cavity with standing waves simulates no Hamiltonian. -/
theorem along_simulates_nothing (pm : ModeEl.Pars) (hm : Usable pm) (hd : 1 < pm.cutoff) (pp : ParticleEl.Pars) (hp : pp.fin < 63) (ho : pp.omrec ≠ 0) (pc : ParsAlong) (hc : isComplex pc.modeCav = false)
    (hk : 0 < pc.kCav) (hn : 2 * pc.kCav < 2 ^ pp.fin) (hU : pc.uNot ≠ 0) (V : ℝ) (hUV : 0 ≤ pc.uNot * V) (qmp : Picture) (hq : qmp ≠ .sch) {e0 e1 : Element} {H0 H1 : Dens} {J0 J1 : List Dens}
    (a2 : e0.dim = pm.cutoff) (a3 : FreeIs e0 (modePtr pm qmp).w H0 J0) (b2 : e1.dim = 2 ^ pp.fin) (b3 : FreeIs e1 (part pp qmp).m H1 J1) :
    ∃ ia, along [0, 1] (modePtr pm qmp) (part pp qmp) pc V = .ok ia ∧ ∀ H, ¬ BinSimulates (binary e0 e1 ia) H := by
  obtain ⟨ia, ha, i1, i2, i3, i4⟩ := along_lost (modePtr pm qmp) (by rw [modePtr_dim]; exact hm.1) (by rw [modePtr_dim]; exact hm.2.1) (part pp qmp) hp pc.mf hc
    (by simp only [ParsAlong.mf]; omega) (by simp only [ParsAlong.mf, part, Int.natAbs_natCast]; omega) (picture_agrees pm pp qmp) pc.uNot (scatteringAmplitude pc.uNot V) hU [0, 1]
  refine ⟨ia, by unfold along; rw [etaEff_eq hUV]; exact i1, fun H hs => ?_⟩
  have hbox : (binary e0 e1 ia).lb = lower [(modePtr pm qmp).dim, 2 ^ (part pp qmp).fin] ∧ (binary e0 e1 ia).ub = upper [(modePtr pm qmp).dim, 2 ^ (part pp qmp).fin] := by
    rw [modePtr_dim]
    simp [binary, lower, upper, a2, b2, part]
  have i5 := i4
  rw [← hbox.1, ← hbox.2] at i5
  have hpos : (2 : ℕ) ^ pp.fin > 0 := by positivity
  have in1 : InBox (binary e0 e1 ia).lb (binary e0 e1 ia).ub (up [1, 2 * pc.kCav]) := by
    rw [hbox.1, hbox.2]
    exact up_box (mem_natBox.2 (.cons (by rw [modePtr_dim]; exact hd) (.cons hn .nil)))
  have in2 : InBox (binary e0 e1 ia).lb (binary e0 e1 ia).ub (up [1, 0]) := by
    rw [hbox.1, hbox.2]
    exact up_box (mem_natBox.2 (.cons (by rw [modePtr_dim]; exact hd) (.cons hpos .nil)))
  have key := fun t => binary_converse e0 e1 ia (by rw [a2]; exact hm.2.1) (by rw [b2]; positivity) a3 b3 i2 i3 _ i5 hs t 0 in1 in2
  have zero : interferenceH (part pp qmp).fin (scatteringAmplitude pc.uNot V) (waveFunction pc.mf) (up [1, 2 * pc.kCav]) (up [1, 0]) = 0 := by
    simp [interferenceH, tensor, q, up, aOp, adOp]
  have lz : lightShiftH (part pp qmp).fin pc.uNot pc.mf (up [1, 2 * pc.kCav]) (up [1, 0]) ≠ 0 := by
    rw [lightShift_tensor]
    simp only [lift2, potE, ParsAlong.mf, hc, List.getD_cons_zero, List.getD_cons_succ, nOp, expE, Bool.false_eq_true, if_false, if_true]
    rw [if_pos (show ((2 * pc.kCav : ℕ) : ℤ) = ((0 : ℕ) : ℤ) + 2 * pc.kCav by omega), if_neg (show ¬ ((2 * pc.kCav : ℕ) : ℤ) = ((0 : ℕ) : ℤ) + -(2 * pc.kCav) by omega)]
    by_cases h : pc.modeCav = .sin <;> simp [hU, h]
  set W : Idx → Idx → ℂ := fun i j => H i j - tensor H0 one i j - tensor one H1 i j
  have k2 : ∀ t : ℝ, lightShiftH (part pp qmp).fin pc.uNot pc.mf (up [1, 2 * pc.kCav]) (up [1, 0]) = rotating [(modePtr pm qmp).w, (part pp qmp).m] W t (up [1, 2 * pc.kCav]) (up [1, 0]) := by
    intro t
    have := key t
    rw [sub_zero] at this
    rw [← this]
    simp only [rotating, zero, mul_zero, zero_mul, add_zero]
  have k0 : lightShiftH (part pp qmp).fin pc.uNot pc.mf (up [1, 2 * pc.kCav]) (up [1, 0]) = W (up [1, 2 * pc.kCav]) (up [1, 0]) := by
    rw [k2 0]; simp [rotating]
  have k3 : ∀ t : ℝ, Complex.exp ((phaseSum [(modePtr pm qmp).w, (part pp qmp).m] (up [1, 2 * pc.kCav]) - phaseSum [(modePtr pm qmp).w, (part pp qmp).m] (up [1, 0])) * t) = 1 := by
    intro t
    have := k2 t
    unfold rotating at this
    rw [← k0, mul_right_comm, ← Complex.exp_add] at this
    have e := mul_right_cancel₀ lz ((one_mul _).trans this)
    rw [e]
    congr 1
    ring
  have k4 := exp_const k3
  rw [phaseSum_up, phaseSum_up] at k4
  simp only [phases, List.zipWith_cons_cons, List.zipWith_nil_left, List.sum_cons, List.sum_nil] at k4
  refine part_frequencies (part pp qmp) (by simp [part, hq]) ho (2 * pc.kCav) (by omega) hn ?_
  linear_combination k4

/-- **C128, violated.** Configuration 2 in the interaction pictures, of which one is the default, with a standing wave (the default is `sin`): there is no Hamiltonian that is simulated. -/
theorem conf2_simulates_nothing (pm : ModeEl.Pars) (hm : Usable pm) (hd : 1 < pm.cutoff) (pp : ParticleEl.Pars) (hp : pp.fin < 63) (ho : pp.omrec ≠ 0) (pc : ParsAlong) (hc : isComplex pc.modeCav = false)
    (hk : 0 < pc.kCav) (hn : 2 * pc.kCav < 2 ^ pp.fin) (hU : pc.uNot ≠ 0) (sig : ℝ) (qmp : Picture) (hq : qmp ≠ .sch) (hUV : 0 ≤ pc.uNot * pp.vClass) (hdr : pm.eta ≠ 0 ∨ pp.vClass ≠ 0) (hs : sig ≠ 0) :
    ∃ b, oneParticleOneMode 2 pm pp pc sig qmp = .ok (.evolve b) ∧ ∀ H, ¬ BinSimulates b H := by
  obtain ⟨e0, a1, a2, a3⟩ := (hm.shifted pc).free qmp
  obtain ⟨e, c1, -, -⟩ := pumped_free pp hp qmp
  obtain ⟨e1, b1, b2, b3⟩ := unpumped_free pp hp qmp
  obtain ⟨ia, i1, i2⟩ := along_simulates_nothing (shifted pm pc) (hm.shifted pc) hd pp hp ho pc hc hk hn hU pp.vClass hUV qmp hq a2 a3 b2 b3
  refine ⟨binary e0 e1 ia, ?_, i2⟩
  unfold oneParticleOneMode
  have h : ¬ ((shifted pm pc).eta = 0 ∧ pp.vClass = 0) := fun h => hdr.elim (fun k => k h.1) (fun k => k h.2)
  simp [a1, b1, c1, Outcome.bind, i1, h, hs]

/-- **C128, violated.** The same for configuration 4. -/
theorem conf4_simulates_nothing (pm : ModeEl.Pars) (hm : Usable pm) (hd : 1 < pm.cutoff) (pp : ParticleEl.Pars) (hp : pp.fin < 63) (ho : pp.omrec ≠ 0) (pc : ParsAlong) (hc : isComplex pc.modeCav = false)
    (hk : 0 < pc.kCav) (hn : 2 * pc.kCav < 2 ^ pp.fin) (hU : pc.uNot ≠ 0) (sig : ℝ) (qmp : Picture) (hq : qmp ≠ .sch) :
    ∃ b, oneParticleOneMode 4 pm pp pc sig qmp = .ok (.evolve b) ∧ ∀ H, ¬ BinSimulates b H := by
  obtain ⟨e0, a1, a2, a3⟩ := (hm.shifted pc).free qmp
  obtain ⟨e, c1, -, -⟩ := unpumped_free pp hp qmp
  obtain ⟨e1, b1, b2, b3⟩ := pumped_free pp hp qmp
  obtain ⟨ia, i1, i2⟩ := along_simulates_nothing (shifted pm pc) (hm.shifted pc) hd pp hp ho pc hc hk hn hU 0 (by simp) qmp hq a2 a3 b2 b3
  refine ⟨binary e0 e1 ia, ?_, i2⟩
  unfold oneParticleOneMode
  simp [a1, b1, c1, Outcome.bind, i1]

/-- **C128, the part which holds.** A travelling wave: all the pictures simulate the same Hamiltonian, in configurations 2 and 4. Missing: standing waves, where it is false. -/
theorem pictures_agree_partial (pm : ModeEl.Pars) (hm : Usable pm) (pp : ParticleEl.Pars) (hp : pp.fin < 63) (pc : ParsAlong) (hk : pc.kCav ≠ 0) (hn : 2 * pc.kCav ≤ 2 ^ pp.fin) (sig : ℝ)
    (hx : isComplex pc.modeCav = true) (hUV : 0 ≤ pc.uNot * pp.vClass) (hd : pm.eta ≠ 0 ∨ pp.vClass ≠ 0) (hs : sig ≠ 0) (qmp qmp' : Picture) :
    (∃ b b' H, oneParticleOneMode 2 pm pp pc sig qmp = .ok (.evolve b) ∧ oneParticleOneMode 2 pm pp pc sig qmp' = .ok (.evolve b') ∧ BinSimulates b H ∧ BinSimulates b' H) ∧
    ∃ b b' H, oneParticleOneMode 4 pm pp pc sig qmp = .ok (.evolve b) ∧ oneParticleOneMode 4 pm pp pc sig qmp' = .ok (.evolve b') ∧ BinSimulates b H ∧ BinSimulates b' H := by
  constructor
  · obtain ⟨b, h1, h2⟩ := conf2_simulates pm hm pp hp pc hn sig qmp (Or.inr ⟨hk, Or.inr hx⟩) hUV hd hs
    obtain ⟨b', h1', h2'⟩ := conf2_simulates pm hm pp hp pc hn sig qmp' (Or.inr ⟨hk, Or.inr hx⟩) hUV hd hs
    exact ⟨b, b', _, h1, h1', h2, h2'⟩
  · obtain ⟨b, h1, h2⟩ := conf4_simulates pm hm pp hp pc hn sig qmp (Or.inr ⟨hk, Or.inr hx⟩)
    obtain ⟨b', h1', h2'⟩ := conf4_simulates pm hm pp hp pc hn sig qmp' (Or.inr ⟨hk, Or.inr hx⟩)
    exact ⟨b, b', _, h1, h1', h2, h2'⟩

/-- The default values of the parameters (cavity mode `sin x`, `U=-1`, `ω_rec=1`, 64 plane waves, 10 Fock states) with a pumped cavity, in the default picture. -/
example : ∃ b, oneParticleOneMode 2 ⟨10, -10, 0, 0, 10, 0, 1⟩ ⟨6, 1, -10, 1, .sin⟩ ⟨-1, 1, .sin⟩ 1 .ip = .ok (.evolve b) ∧ ∀ H, ¬ BinSimulates b H :=
  conf2_simulates_nothing _ ⟨by norm_num, by norm_num, by norm_num, by norm_num, rfl, rfl⟩ (by norm_num) _ (by norm_num) (by norm_num) ⟨-1, 1, .sin⟩ rfl (by norm_num) (by norm_num) (by norm_num) _ _
    (by simp) (by norm_num) (Or.inl (by norm_num)) (by norm_num)

end CppQED.ScriptSys
