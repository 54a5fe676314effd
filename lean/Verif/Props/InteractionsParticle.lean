import Verif.Lemmas.InteractionParticle
import Verif.Props.Interactions

/-!
# Particles in cavities: C78
-/

namespace CppQED.Interactions
open CppQED.Elem CppQED.Tridiag CppQED.ModeEl CppQED.Spec CppQED.Composite
open CppQED.MII (Idx)
open CppQED.Slice (Arr sliceBound)
open CppQED.ParticleEl (ModeFunction isComplex potE lightShift)
open ComplexConjugate

variable {p : ParticleEl.Part}

/-- The dispersive terms, with the particle in Schrödinger picture. -/
theorem dispersive_ops (m : ModePtr) (hd : m.dim < 2 ^ 63) (h0 : 0 < m.dim) (hp : p.fin < 63) (U : ℝ) (mf : ModeFunction) (hn : 2 * mf.nK.natAbs ≤ 2 ^ p.fin)
    (hx : p.exact = true → U = 0 ∨ isComplex mf.type = true) :
    ∃ hs Es, dispersive m p U mf = .ok hs ∧ List.Forall₂ (Op [m.dim, 2 ^ p.fin] (phases [m.w, p.m])) hs Es ∧ ∀ i j, (Es.map fun E => E i j).sum = lift2 nOp (potE U mf) i j := by
  unfold dispersive
  by_cases h : U ≠ 0 ∧ ¬ isComplex mf.type = true
  · rw [if_pos h]
    have hex : p.exact = false := by
      by_contra hc
      rw [Bool.not_eq_false] at hc
      rcases hx hc with h' | h'
      · exact h.1 h'
      · exact h.2 h'
    obtain ⟨n, n1, -, n2, -, n4⟩ := nop_op m hd h0 m.w
    obtain ⟨c, c1, c2⟩ := ParticleEl.cosOf_ok hp (2 * mf.nK) (by omega)
    rw [n1, c1]
    simp only [Outcome.bind]
    have s2 : Op [m.dim] (phases [m.w]) (scale (if mf.type = .sin then -1 else 1) (scale (U : ℂ) n)) (lift fun i j => (if mf.type = .sin then -1 else 1) * (U * nOp i j)) := (n2.scale _).scale _
    obtain ⟨P, p1, p2, -, -, -⟩ := product_op (b := false) s2 (op_of_pop c2) ⟨fun h => by simp at h, fun _ => n4⟩ ⟨fun h => by simp at h, fun _ => part_static c hex⟩
    rw [p1]
    refine ⟨_, _, rfl, List.Forall₂.cons (p2.scale _) .nil, fun i j => ?_⟩
    simp only [List.map_cons, List.map_nil, List.sum_cons, List.sum_nil, lift2, potE]
    rw [if_neg h.2]
    ring
  · rw [if_neg h]
    refine ⟨[], [], rfl, .nil, fun i j => ?_⟩
    simp only [List.map_nil, List.sum_nil, lift2, potE]
    rw [ne_eq, ← not_or, not_not] at h
    rcases h with h | h
    · simp [h]
    · simp [h]

/-- The interference term, with the mode and the particle in the same kind of picture. -/
theorem interferic_op (m : ModePtr) (hd : m.dim < 2 ^ 63) (h0 : 0 < m.dim) (hp : p.fin < 63) (η : ℝ) (mf : ModeFunction) (hn : mf.nK.natAbs ≤ 2 ^ p.fin)
    (hpic : m.exact.isSome = p.exact) (hx : p.exact = true → mf.nK ≠ 0) :
    ∃ h, interfericOneModeFN m p η mf = .ok h ∧ Op [m.dim, 2 ^ p.fin] (phases [m.w, p.m]) h fun i j => interferenceH p.fin η (waveFunction mf) (up i) (up j) := by
  obtain ⟨a, a1, a2, -, a4⟩ := aop_op m hd h0
  obtain ⟨f, f1, f2, -, f4⟩ := mfNKX_op hp mf hn hx
  obtain ⟨P, p1, p2, -, -, -⟩ := product_op a2 f2 (by rw [← hpic] at f4; exact a4) (by rw [hpic]; exact f4)
  obtain ⟨R, r1, r2, -, -⟩ := p2.plusHC
  unfold interfericOneModeFN plusHC_overI
  rw [a1, f1]
  simp only [Outcome.bind]
  rw [p1]
  simp only [r1]
  refine ⟨_, rfl, ((r2.scale _).scale _).congr fun i _ j _ => ?_⟩
  simp only [interferenceH, tensor_up, lift2, map_mul, conj_aOp, multiplication_conj]
  ring

/-- **C78.** `ParticleOrthogonalToCavity`: the Hamiltonian is `η(a f+a† f*)` with `η=sign(U)√(UV)`. -/
theorem orthogonal_couples (m : ModePtr) (hd : m.dim < 2 ^ 63) (h0 : 0 < m.dim) (hp : p.fin < 63) (mf : ModeFunction) (V U : ℝ) (hn : mf.nK.natAbs ≤ 2 ^ p.fin)
    (hpic : m.exact.isSome = p.exact) (hx : p.exact = true → mf.nK ≠ 0) (hUV : 0 ≤ U * V) (axes : List ℕ) :
    ∃ ia, particleOrthogonalToCavity axes m p mf V U = .ok ia ∧ ia.axes = axes ∧
      Couples ia [m.dim, 2 ^ p.fin] [m.w, p.m] (interferenceH p.fin ((if U < 0 then -1 else 1) * Real.sqrt (U * V)) (waveFunction mf)) := by
  unfold particleOrthogonalToCavity etaEff
  rw [if_pos hUV]
  obtain ⟨h, h1, h2⟩ := interferic_op m hd h0 hp (sign U * Real.sqrt (U * V)) mf hn hpic hx
  simp only [withEta]
  rw [h1]
  refine ⟨_, rfl, rfl, couples_of_ops (List.Forall₂.cons h2 .nil) _ (fun i _ j _ => ?_) axes⟩
  have hs : sign U = if U < 0 then -1 else 1 := by
    unfold sign
    by_cases h : U < 0
    · rw [if_pos h, if_neg (by simpa using h)]
    · rw [if_neg h, if_pos (by simpa using h)]
  simp [hs]

/-- **C78.** If the product of the two depths is negative, then the constructor throws. -/
theorem orthogonal_throws (m : ModePtr) (mf : ModeFunction) (V U : ℝ) (hUV : U * V < 0) (axes : List ℕ) : particleOrthogonalToCavity axes m p mf V U = .throw := by
  unfold particleOrthogonalToCavity etaEff
  rw [if_neg (by simpa using hUV)]
  rfl

/-- **C78.** `ParticleAlongCavity`: the Hamiltonian is `U |f|² n+η(a f+a† f*)`. -/
theorem along_couples (m : ModePtr) (hd : m.dim < 2 ^ 63) (h0 : 0 < m.dim) (hp : p.fin < 63) (mf : ModeFunction) (U η : ℝ) (hn : 2 * mf.nK.natAbs ≤ 2 ^ p.fin)
    (hpic : η ≠ 0 → m.exact.isSome = p.exact) (hx : p.exact = true → mf.nK ≠ 0 ∧ (U = 0 ∨ isComplex mf.type = true)) (axes : List ℕ) :
    ∃ ia, particleAlongCavity axes m p U mf η = .ok ia ∧ ia.axes = axes ∧
      Couples ia [m.dim, 2 ^ p.fin] [m.w, p.m] (fun i j => lightShiftH p.fin U mf i j + interferenceH p.fin η (waveFunction mf) i j) := by
  obtain ⟨hs, Es, d1, d2, d3⟩ := dispersive_ops m hd h0 hp U mf hn (fun h => (hx h).2)
  unfold particleAlongCavity fillT
  rw [d1]
  simp only [Outcome.bind]
  by_cases hη : η = 0
  · rw [if_neg (by simpa using hη)]
    refine ⟨_, rfl, rfl, couples_of_ops d2 _ (fun i _ j _ => ?_) axes⟩
    rw [d3, lightShift_tensor]
    simp [interferenceH, hη]
  · rw [if_pos hη]
    obtain ⟨h, h1, h2⟩ := interferic_op m hd h0 hp η mf (by omega) (hpic hη) (fun h => (hx h).1)
    rw [h1]
    refine ⟨_, rfl, rfl, couples_of_ops (List.rel_append d2 (List.Forall₂.cons h2 .nil)) _ (fun i _ j _ => ?_) axes⟩
    rw [List.map_append, List.sum_append, d3, lightShift_tensor]
    simp

/-- **C78.** A mode and a pumped particle moving orthogonally to the cavity, with the pumps and losses of the mode. -/
theorem orthogonal_simulates (pm : ModeEl.Pars) (pp : ParticleEl.Pars) (U : ℝ) (qmm qmp : Picture) (hq : qmm = .sch ↔ qmp = .sch)
    (hd : pm.cutoff < 2 ^ 63) (h0 : 0 < pm.cutoff) (hκ : 0 ≤ pm.kappa) (hT : 0 ≤ pm.nTh) (hK : pm.omegaKerr = 0) (hA : pm.omegaKerrAlter = 0)
    (hp : pp.fin < 63) (hn : pp.kPart ≤ 2 ^ pp.fin) (hx : qmp ≠ .sch → pp.kPart ≠ 0) (hUV : 0 ≤ U * pp.vClass) :
    ∃ e0 e1 ia, makePumpedLossy pm qmm = .ok e0 ∧ ParticleEl.makePumped pp qmp = .ok e1 ∧
      particleOrthogonalToCavity [0, 1] (modePtr pm qmm) ⟨pp.fin, pp.omrec, decide (qmp ≠ .sch)⟩ ⟨pp.modePart, pp.kPart⟩ pp.vClass U = .ok ia ∧
      BinSimulates (binary e0 e1 ia) fun i j => tensor (modeH (pm.kappa * (2 * pm.nTh + 1)) pm.delta pm.eta) one i j +
        tensor one (particleH pp.fin pp.omrec (lightShift pp.vClass ⟨pp.modePart, pp.kPart⟩)) i j +
        interferenceH pp.fin ((if U < 0 then -1 else 1) * Real.sqrt (U * pp.vClass)) (waveFunction ⟨pp.modePart, pp.kPart⟩) i j := by
  obtain ⟨e0, a1, a2, a3⟩ := mode_free pm hd h0 hκ hT hK hA qmm
  obtain ⟨e1, b1, b2, b3⟩ := pumpedParticle_free pp hp qmp
  obtain ⟨ia, i1, -, i3⟩ := orthogonal_couples (p := ⟨pp.fin, pp.omrec, decide (qmp ≠ .sch)⟩) (modePtr pm qmm) (by rw [modePtr_dim]; exact hd) (by rw [modePtr_dim]; exact h0) hp
    ⟨pp.modePart, pp.kPart⟩ pp.vClass U (by simpa using hn) (by rw [modePtr_exact]; simp [hq]) (by simpa using hx) hUV [0, 1]
  rw [modePtr_dim] at i3
  exact ⟨e0, e1, ia, a1, b1, i1, binary_simulates e0 e1 ia (by rw [a2]; exact h0) (by rw [b2]; positivity) a3 b3 (by rw [a2, b2]; exact i3)⟩

/-- **C78.** A mode and a particle moving along the cavity, in Schrödinger picture. -/
theorem along_simulates (pm : ModeEl.Pars) (pp : ParticleEl.Pars) (mf : ModeFunction) (U η : ℝ) (qmm : Picture) (hq : η ≠ 0 → qmm = .sch)
    (hd : pm.cutoff < 2 ^ 63) (h0 : 0 < pm.cutoff) (hκ : 0 ≤ pm.kappa) (hT : 0 ≤ pm.nTh) (hK : pm.omegaKerr = 0) (hA : pm.omegaKerrAlter = 0)
    (hp : pp.fin < 63) (hn : 2 * mf.nK.natAbs ≤ 2 ^ pp.fin) :
    ∃ e0 e1 ia, makePumpedLossy pm qmm = .ok e0 ∧ ParticleEl.make pp .sch = .ok e1 ∧
      particleAlongCavity [0, 1] (modePtr pm qmm) ⟨pp.fin, pp.omrec, false⟩ U mf η = .ok ia ∧
      BinSimulates (binary e0 e1 ia) fun i j => tensor (modeH (pm.kappa * (2 * pm.nTh + 1)) pm.delta pm.eta) one i j +
        tensor one (particleH pp.fin pp.omrec fun _ => 0) i j + (lightShiftH pp.fin U mf i j + interferenceH pp.fin η (waveFunction mf) i j) := by
  obtain ⟨e0, a1, a2, a3⟩ := mode_free pm hd h0 hκ hT hK hA qmm
  obtain ⟨e1, b1, b2, b3⟩ := particle_free pp hp .sch
  obtain ⟨ia, i1, -, i3⟩ := along_couples (p := ⟨pp.fin, pp.omrec, false⟩) (modePtr pm qmm) (by rw [modePtr_dim]; exact hd) (by rw [modePtr_dim]; exact h0) hp mf U η hn
    (fun h => by rw [modePtr_exact]; simp [hq h]) (by simp) [0, 1]
  rw [modePtr_dim] at i3
  exact ⟨e0, e1, ia, a1, b1, i1, binary_simulates e0 e1 ia (by rw [a2]; exact h0) (by rw [b2]; positivity) a3 b3 (by rw [a2, b2]; exact i3)⟩

/-- Cavity cooling of a particle: `cos(2x)`, in Schrödinger picture, with 64 points. -/
example : ∃ e0 e1 ia, makePumpedLossy ⟨10, -10, 0, 0, 10, 0, 0⟩ .sch = .ok e0 ∧ ParticleEl.make ⟨6, 1, 0, 0, .cos⟩ .sch = .ok e1 ∧
    particleAlongCavity [0, 1] (modePtr ⟨10, -10, 0, 0, 10, 0, 0⟩ .sch) ⟨6, 1, false⟩ (-5) ⟨.cos, 2⟩ 3 = .ok ia :=
  let ⟨e0, e1, ia, h1, h2, h3, _⟩ := along_simulates ⟨10, -10, 0, 0, 10, 0, 0⟩ ⟨6, 1, 0, 0, .cos⟩ ⟨.cos, 2⟩ (-5) 3 .sch (fun _ => rfl) (by norm_num) (by norm_num) (by norm_num) (by norm_num) rfl rfl
    (by norm_num) (by norm_num)
  ⟨e0, e1, ia, h1, h2, h3⟩

end CppQED.Interactions
