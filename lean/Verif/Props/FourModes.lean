import Verif.Model.CavityScripts
import Verif.Props.Independence
import Verif.Props.ModeAlternative

/-!
# The script of four independent modes: C147
-/

namespace CppQED.CavScr
open CppQED.Elem CppQED.Tridiag CppQED.ModeEl CppQED.Spec CppQED.Composite CppQED.Interactions CppQED.PTrace
open CppQED.MII (Idx)
open Matrix

/-- The jump of the mode at zero temperature. -/
theorem zeroT_li (alternative : Bool) (κ : ℝ) (hκ : 0 ≤ κ) (d : ℕ) (ha : Option (ℝ → Vec → Vec → ℝ → Vec)) (ex : Option (ℝ → ℕ → ℂ)) (b : Bool) :
    LiIs ⟨d, ha, ex, b, some (liouvilleanZeroT alternative κ d)⟩ [sc (Real.sqrt (2 * κ)) aOp] := by
  refine elementLiouvillean_is _ _ _ rfl rfl ?_ ha ex b
  intro i L hL
  rcases i with - | i
  · simp only [List.getElem?_cons_zero, Option.some.injEq] at hL
    subst hL
    refine ⟨aJump_eq _ _, fun s hs => ?_⟩
    simp only [Option.some.injEq] at hs
    rw [← hs]
    exact aSuperoperator_eq _ hκ _
  · simp at hL

/-- What is required of the parameters of a mode in `FourModes`; `nTh` is not used. -/
def Cold (p : ModeEl.Pars) : Prop := p.cutoff < 2 ^ 63 ∧ 0 < p.cutoff ∧ 0 ≤ p.kappa ∧ p.omegaKerr = 0 ∧ p.omegaKerrAlter = 0

theorem cold_free (alternative : Bool) (p : ModeEl.Pars) (h : Cold p) :
    FreeOK (if alternative then pumpedLossyModeAlternative false p else pumpedLossyMode false p .ip) p.cutoff (mainDiagonal ⟨p.kappa, -p.delta⟩ 0) (modeH p.kappa p.delta p.eta)
      [sc (Real.sqrt (2 * p.kappa)) aOp] := by
  have := (ip_free (p := p) h.1 h.2.1 h.2.2.2.1 0 ⟨p.kappa, -p.delta⟩ p.eta fun ha ex b => zeroT_li alternative p.kappa h.2.2.1 p.cutoff ha ex b).congr (H' := modeH p.kappa p.delta p.eta) fun i _ j _ => by
    rw [h.2.2.2.2, kerrE_zero, zero_add, ← hOverIE_eq]; simp
  cases alternative
  · exact this
  · exact this

/-- **C147.** `FourModes`: from a product state, the four modes evolve each according to its own Schrödinger equation, that of the zero temperature whatever the parameters `nTh`. -/
theorem fourModes_independent (p0 p1 p2 p3 : ModeEl.Pars) (h0 : Cold p0) (h1 : Cold p1) (h2 : Cold p2) (h3 : Cold p3) :
    ∃ c, fourModes p0 p1 p2 p3 = .ok c ∧ c.lb = [0, 0, 0, 0] ∧ c.ub = [(p0.cutoff : ℤ) - 1, (p1.cutoff : ℤ) - 1, (p2.cutoff : ℤ) - 1, (p3.cutoff : ℤ) - 1] ∧
      ∀ (t0 : ℝ) (χ0 χ1 χ2 χ3 : ℝ → Vec), SolvesSchroedinger p0.cutoff (modeH p0.kappa p0.delta p0.eta) χ0 → SolvesSchroedinger p1.cutoff (modeH p1.kappa p1.delta p1.eta) χ1 →
        SolvesSchroedinger p2.cutoff (modeH p2.kappa p2.delta p2.eta) χ2 → SolvesSchroedinger p3.cutoff (modeH p3.kappa p3.delta p3.eta) χ3 → ∀ psi : ℝ → Idx → ℂ,
        (∀ t i, InBox c.lb c.ub i → HasDerivAt (fun s => psi s i) (c.addContribution t t0 (psi t) (fun _ => 0) i) t) →
        (∀ i, InBox c.lb c.ub i → psi t0 i = χ0 t0 (q i 0) * χ1 t0 (q i 1) * χ2 t0 (q i 2) * χ3 t0 (q i 3)) →
        ∀ t i, InBox c.lb c.ub i → c.actWithU t t0 (psi t) i = χ0 t (q i 0) * χ1 t (q i 1) * χ2 t (q i 2) * χ3 t (q i 3) := by
  obtain ⟨e0, a0, b0, c0⟩ := cold_free false p0 h0
  obtain ⟨e1, a1, b1, c1⟩ := cold_free true p1 h1
  obtain ⟨e2, a2, b2, c2⟩ := cold_free false p2 h2
  obtain ⟨e3, a3, b3, c3⟩ := cold_free true p3 h3
  simp only [Bool.false_eq_true, if_false, if_true] at a0 a1 a2 a3
  refine ⟨composite [e0, e1, e2, e3] [interaction [0, 1, 2, 3] none], by unfold fourModes; rw [a0, a1, a2, a3]; rfl, rfl, by simp [composite, b0, b1, b2, b3], ?_⟩
  intro t0 χ0 χ1 χ2 χ3 k0 k1 k2 k3 psi hpsi hini t i hi
  have hp : ∀ (s : ℝ) (i : Idx), productOf (fun k : Fin 4 => (![χ0, χ1, χ2, χ3] k) s) i = χ0 s (q i 0) * χ1 s (q i 1) * χ2 s (q i 2) * χ3 s (q i 3) := by
    intro s i
    simp [productOf, Fin.prod_univ_succ]
    ring
  have key := independent_schroedinger [e0, e1, e2, e3] [interaction [0, 1, 2, 3] none] (by simp) (by
      simp only [List.mem_cons, List.not_mem_nil, or_false, forall_eq_or_imp, forall_eq, b0, b1, b2, b3]
      exact ⟨h0.2.1, h1.2.1, h2.2.1, h3.2.1⟩)
    ![modeH p0.kappa p0.delta p0.eta, modeH p1.kappa p1.delta p1.eta, modeH p2.kappa p2.delta p2.eta, modeH p3.kappa p3.delta p3.eta]
    (fun k => by
      change Fin 4 at k
      fin_cases k
      · exact ⟨_, _, c0⟩
      · exact ⟨_, _, c1⟩
      · exact ⟨_, _, c2⟩
      · exact ⟨_, _, c3⟩)
    (fun ia hia => by
      rw [List.mem_singleton.1 hia]
      refine ⟨⟨by simp [interaction], by simp [interaction], by simp [interaction]⟩, by simp [interaction], rfl, rfl⟩) t0 ![χ0, χ1, χ2, χ3]
    (fun k => by
      change Fin 4 at k
      fin_cases k
      · change SolvesSchroedinger e0.dim _ χ0; rw [b0]; exact k0
      · change SolvesSchroedinger e1.dim _ χ1; rw [b1]; exact k1
      · change SolvesSchroedinger e2.dim _ χ2; rw [b2]; exact k2
      · change SolvesSchroedinger e3.dim _ χ3; rw [b3]; exact k3) psi hpsi (fun j hj => by rw [hini j hj]; exact (hp t0 j).symm) t i hi
  rw [key]
  exact hp t i

theorem cold_li (alternative : Bool) (p : ModeEl.Pars) {e : Element} (h : (if alternative then pumpedLossyModeAlternative false p else pumpedLossyMode false p .ip) = .ok e) :
    e.dim = p.cutoff ∧ e.li = some (liouvilleanZeroT alternative p.kappa p.cutoff) := by
  have h' : elementIP p 0 ⟨p.kappa, -p.delta⟩ p.eta (some (liouvilleanZeroT alternative p.kappa p.cutoff)) = .ok e := by
    cases alternative
    · exact h
    · exact h
  unfold elementIP at h'
  cases hH : hamiltonianIP 0 ⟨p.kappa, -p.delta⟩ p.eta p.omegaKerr p.omegaKerrAlter p.cutoff with
  | ok H => rw [hH] at h'; simp only [Outcome.bind, Outcome.ok.injEq] at h'; rw [← h']; exact ⟨rfl, rfl⟩
  | throw => rw [hH] at h'; simp [Outcome.bind] at h'
  | undef => rw [hH] at h'; simp [Outcome.bind] at h'

/-- **C147.** `FourModes`: the jump number `k` is the loss of a photon of the mode number `k`; the factors of the other modes are not changed. -/
theorem fourModes_jump (p : Fin 4 → ModeEl.Pars) (h : ∀ k, Cold (p k)) (k : Fin 4) :
    ∃ c, fourModes (p 0) (p 1) (p 2) (p 3) = .ok c ∧ ∀ (φ : Fin 4 → Vec) (psi : Idx → ℂ), (∀ i, InBox c.lb c.ub i → psi i = productOf φ i) → ∀ t i, InBox c.lb c.ub i →
      c.actWithJ t psi k i = productOf (Function.update φ k fun n => if n + 1 < (p k).cutoff then Real.sqrt (2 * (p k).kappa) * Real.sqrt (n + 1) * φ k (n + 1) else 0) i := by
  have a : ∀ k : Fin 4, ∃ e, (if (k : ℕ) % 2 = 1 then pumpedLossyModeAlternative false (p k) else pumpedLossyMode false (p k) .ip) = .ok e := fun k => by
    obtain ⟨e, a, -, -⟩ := cold_free (decide ((k : ℕ) % 2 = 1)) (p k) (h k)
    exact ⟨e, by simpa using a⟩
  choose e he using a
  have hli : ∀ k, (e k).dim = (p k).cutoff ∧ (e k).li = some (liouvilleanZeroT (decide ((k : ℕ) % 2 = 1)) (p k).kappa (p k).cutoff) := fun k => cold_li _ _ (by simpa using he k)
  have hb : ∀ k, 0 < (e k).dim := fun k => by rw [(hli k).1]; exact (h k).2.1
  have hL : ∀ k, LiIs (e k) [sc (Real.sqrt (2 * (p k).kappa)) aOp] := fun k => by
    have := zeroT_li (decide ((k : ℕ) % 2 = 1)) (p k).kappa (h k).2.2.1 (p k).cutoff (e k).ha (e k).ex (e k).exApplicable
    rw [← (hli k).2, ← (hli k).1] at this
    exact this
  have hc : ∀ k, jumpCount (e k) = 1 := fun k => by simp [jumpCount, (hli k).2, liouvilleanZeroT, elementLiouvillean]
  refine ⟨composite [e 0, e 1, e 2, e 3] [interaction [0, 1, 2, 3] none], ?_, fun φ psi hpsi t i hi => ?_⟩
  · have e0 := he 0
    have e1 := he 1
    have e2 := he 2
    have e3 := he 3
    simp at e0 e1 e2 e3
    unfold fourModes; rw [e0, e1, e2, e3]; rfl
  · have hget : ∀ k : Fin 4, [e 0, e 1, e 2, e 3][(k : ℕ)]'k.2 = e k := by intro k; fin_cases k <;> rfl
    obtain ⟨φ', f1, f2⟩ := independent_jump [e 0, e 1, e 2, e 3] [interaction [0, 1, 2, 3] none] (by simp) (by simp [hb]) (fun ia hia => by
        rw [List.mem_singleton.1 hia]; exact ⟨by simp [interaction], by simp [interaction], by simp [interaction]⟩)
      (by simp [hc, nAvr, getLA, interaction]) k (J := [sc (Real.sqrt (2 * (p k).kappa)) aOp]) (by have := hL k; rwa [← hget k] at this) (L := liouvilleanZeroT (decide ((k : ℕ) % 2 = 1)) (p k).kappa (p k).cutoff)
      (by have := (hli k).2; rwa [← hget k] at this) (j := 0) (by simp [liouvilleanZeroT, elementLiouvillean]) φ psi hpsi t
    have ho : (([e 0, e 1, e 2, e 3].take k).map jumpCount).sum + 0 = k := by fin_cases k <;> simp [hc]
    rw [ho] at f2
    rw [f2 i hi]
    unfold productOf
    refine Finset.prod_congr rfl fun l _ => ?_
    by_cases hl : l = k
    · subst hl
      rw [Function.update_self, Function.update_self]
      have f1 : φ' = aJump (p l).kappa (p l).cutoff (φ l) := by simpa [liouvilleanZeroT, elementLiouvillean] using f1.symm
      have hq : q i l < (p l).cutoff := by
        have := (index_bounds hi l).2.2
        have g : [e 0, e 1, e 2, e 3][l] = e l := hget l
        rw [g, (hli l).1] at this
        exact this
      have := congrFun (aJump_eq (p l).kappa (p l).cutoff (φ l)) ⟨q i l, hq⟩
      rw [mat_sc, Matrix.smul_mulVec, Pi.smul_apply, aOp_mulVec, smul_eq_mul] at this
      simp only [ket] at this
      rw [f1, this]
      split_ifs <;> simp [mul_assoc]
    · rw [Function.update_of_ne hl, Function.update_of_ne hl]

/-! ## Examples -/

/-- The hypotheses are met by four different modes, one of them with a nonzero number of thermal photons, which is ignored. -/
example := fourModes_independent ⟨3, 1, 0, 0, 2, 0, 1⟩ ⟨4, -1, 0, 0, 1, 0, 2⟩ ⟨5, 0, 0, 0, 0, 0, 0⟩ ⟨2, 1, 0, 0, 3, 7, 1⟩ (by simp only [Cold]; norm_num) (by simp only [Cold]; norm_num)
  (by simp only [Cold]; norm_num) (by simp only [Cold]; norm_num)

/-- Two modes: the general theorem. -/
example (p : ModeEl.Pars) (h : Cold p) : ∃ e0 e1, pumpedLossyMode false p .ip = .ok e0 ∧ pumpedLossyModeAlternative false p = .ok e1 ∧
    ∀ k : Fin [e0, e1].length, ∃ w H J, FreeIs [e0, e1][k] w H J := by
  obtain ⟨e0, a0, b0, c0⟩ := cold_free false p h
  obtain ⟨e1, a1, b1, c1⟩ := cold_free true p h
  refine ⟨e0, e1, a0, a1, fun k => ?_⟩
  change Fin 2 at k
  fin_cases k
  · exact ⟨_, _, _, c0⟩
  · exact ⟨_, _, _, c1⟩

end CppQED.CavScr
