import Verif.Props.UnravelComposite
import Verif.Props.UnravelConcrete

/-! # Property C117: qbits in a cavity in Monte Carlo trajectories -/

namespace CppQED.Unravel
open CppQED.Composite CppQED.Spec CppQED.PTrace CppQED.Slice CppQED.Interactions CppQED.Elem
open CppQED.MII (Idx)
open Matrix
open scoped ComplexConjugate

theorem sliceRates_single {e : Element} {l : Liouvillean} {r : LDO → ℝ} {J : Dens} (hl : e.li = some l) (hr : ∀ m, l.rates m = [r m]) (h : IsRate e.dim r (mat e.dim J)) : SliceRates e [J] := by
  intro l' hl'
  rw [hl, Option.some.injEq] at hl'
  subst hl'
  refine ⟨fun m => by rw [hr]; rfl, fun j hj => Or.inr fun m => ?_⟩
  have : j = 0 := by simpa using hj
  subst this
  rw [hr]
  exact h.1 m

theorem sliceRates_none {e : Element} {J : List Dens} (h : e.li = none) : SliceRates e J := by
  intro l hl
  rw [h] at hl
  cases hl

/-- The lossy qbit. -/
theorem qbit_trajectoryFree (p : QbitEl.Pars) (hγ : 0 ≤ p.gamma) (qmp : ModeEl.Picture) : ∃ e, QbitEl.make p qmp = .ok e ∧ e.dim = 2 ∧
    TrajectoryFree e (qbitPtr p qmp).w (qbitH p.gamma p.delta p.eta) (modeJ p.gamma 0) 0 ∧ (0 < p.gamma → e.li.isSome) := by
  have hc := ModeEl.mode_conserving 2 (by norm_num) p.gamma hγ p.delta (-p.eta)
  rw [QbitEl.qbitH_eq] at hc
  rcases hγ.lt_or_eq with h | h
  · obtain ⟨e, h1, h2, h3, f2, hJ', -⟩ := qbit_ready p h qmp
    have hJ : modeJ p.gamma 0 = [sc (Real.sqrt (2 * p.gamma)) aOp] := by simp [modeJ, h.ne']
    obtain ⟨r, r1, r2⟩ := QbitEl.liouvillean_rates p.gamma hγ
    refine ⟨e, h1, h2, ⟨by rw [h2]; norm_num, by rw [hJ]; exact h3, fun i _ => qbitPtr_re p hγ qmp i, by rw [hJ]; exact sliceRates_single f2 r1 (by rw [hJ', h2]; exact r2), le_rfl, ?_⟩, fun _ => by rw [f2]; rfl⟩
    rw [h2]
    simpa using hc
  · obtain ⟨e, h1, h2, h3⟩ := qbit_free_jumps p hγ qmp
    have hJ : modeJ p.gamma 0 = [] := by simp [modeJ, ← h]
    refine ⟨e, h1, h2, ⟨by rw [h2]; norm_num, h3, fun i _ => qbitPtr_re p hγ qmp i, ?_, le_rfl, ?_⟩, fun h' => absurd h' (by rw [← h]; exact lt_irrefl _)⟩
    · obtain ⟨_, -, -, hLi, -⟩ := h3
      rw [hJ] at hLi ⊢
      cases hl : e.li with
      | none => exact sliceRates_none hl
      | some L =>
        obtain ⟨f1, -⟩ := qbit_fields h1
        unfold LiIs at hLi
        rw [hl] at hLi
        rcases f1 with f1 | f1
        · rw [hl] at f1; cases f1
        · rw [hl, Option.some.injEq] at f1
          subst f1
          simp [QbitEl.liouvillean, ModeEl.liouvilleanZeroT, elementLiouvillean] at hLi
    · rw [h2]
      simpa using hc

/-- The lossy qbit with phase noise. -/
theorem qbitPhaseNoise_trajectoryFree (p : QbitEl.Pars) (hγ : 0 ≤ p.gamma) (hp : 0 < p.gammaParallel) (qmp : ModeEl.Picture) : ∃ e, QbitEl.makePhaseNoise p qmp = .ok e ∧ e.dim = 2 ∧
    TrajectoryFree e (qbitPtrPhaseNoise p qmp).w (qbitH p.gamma p.delta p.eta) [sc (Real.sqrt (2 * p.gamma)) sigma, sc (Real.sqrt (2 * p.gammaParallel)) sigmaZ] p.gammaParallel ∧ e.li.isSome := by
  obtain ⟨e, h1, h2, h3⟩ := qbit_free_phaseNoise_jumps p hp.ne' qmp
  have hJ : qbitJ p.gamma p.gammaParallel = [sc (Real.sqrt (2 * p.gamma)) sigma, sc (Real.sqrt (2 * p.gammaParallel)) sigmaZ] := by
    unfold qbitJ; rw [if_pos hp.ne']; rfl
  rw [hJ] at h3
  have f2 : e.li = some (QbitEl.liouvilleanPhaseNoise p.gamma p.gammaParallel) := by
    unfold QbitEl.makePhaseNoise at h1
    rw [if_pos hp.ne'] at h1
    split_ifs at h1
    · exact (elementIP_fields h1).1
    · exact (elementIP_fields h1).1
    · exact (elementIP_fields h1).1
    · exact (elementExact_fields h1).1
  have hr := (QbitEl.phaseNoise_jumps p.gamma p.gammaParallel).2.2
  refine ⟨e, h1, h2, ⟨by rw [h2]; norm_num, h3, fun i _ => by rw [qbitPtrPhaseNoise_eq]; exact qbitPtr_re p hγ _ i, ?_, hp.le, ?_⟩, by rw [f2]; rfl⟩
  · intro l hl
    rw [f2, Option.some.injEq] at hl
    subst hl
    refine ⟨fun m => by rw [hr]; rfl, fun j hj => Or.inl fun m => ?_⟩
    rw [hr]
    have : j < 2 := by simpa using hj
    interval_cases j <;> norm_num
  · rw [h2]
    have hs : ∀ x : ℝ, 0 ≤ x → (Real.sqrt (2 * x) : ℂ) * (Real.sqrt (2 * x) : ℂ) = 2 * x := by
      intro x hx; rw [← Complex.ofReal_mul, Real.mul_self_sqrt (by linarith)]; push_cast; ring
    have hs1 := hs _ hγ
    have hs2 := hs _ hp.le
    generalize (Real.sqrt (2 * p.gamma)) = r at hs1
    generalize (Real.sqrt (2 * p.gammaParallel)) = r' at hs2
    unfold Conserving
    ext i j
    fin_cases i <;> fin_cases j <;>
      simp [Matrix.mul_apply, Fin.sum_univ_two, mat_apply, qbitH, excited, sigma, sigmaDag, sigmaZ, sc, Matrix.conjTranspose_apply, hs1, hs2] <;> ring

/-- The lossy mode at zero temperature. -/
theorem mode_trajectoryFree (p : ModeEl.Pars) (hd : p.cutoff < 2 ^ 63) (h0 : 0 < p.cutoff) (hκ : 0 ≤ p.kappa) (hn : p.nTh = 0) (hK : p.omegaKerr = 0) (hA : p.omegaKerrAlter = 0) (qmp : ModeEl.Picture) :
    ∃ e, ModeEl.makePumpedLossy p qmp = .ok e ∧ e.dim = p.cutoff ∧ TrajectoryFree e (modePtr p qmp).w (modeH p.kappa p.delta p.eta) (modeJ p.kappa 0) 0 ∧ (0 < p.kappa → e.li.isSome) := by
  obtain ⟨e, h1, h2, h3⟩ := mode_free p hd h0 hκ hn.symm.le hK hA qmp
  have hk : p.kappa * (2 * 0 + 1) = p.kappa := by ring
  rw [hn, hk] at h3
  obtain ⟨f1, -⟩ := makePumpedLossy_fields h1
  obtain ⟨_, -, -, hLi, -⟩ := id h3
  have hre : ∀ i, 0 ≤ ((modePtr p qmp).w i).re := by
    intro i
    cases qmp with
    | ip =>
      simp only [modePtr, ModePtr.w, hK]
      refine mainDiagonal_re _ ?_ i
      simp only
      split_ifs
      · exact le_rfl
      · simp only [hn, ModeEl.finiteTemperatureHamiltonianDecay]
        simpa using hκ
    | uip => simp only [modePtr, ModePtr.w, hK]; exact mainDiagonal_re _ le_rfl i
    | sch => exact le_rfl
  have hc := ModeEl.mode_conserving p.cutoff h0 p.kappa hκ p.delta p.eta
  have hfields : (e.li = none ∧ modeJ p.kappa 0 = []) ∨ (e.li = some (ModeEl.liouvillean false p) ∧ modeJ p.kappa 0 = [sc (Real.sqrt (2 * p.kappa)) aOp]) := by
    have hJ : modeJ p.kappa 0 = [] ∨ modeJ p.kappa 0 = [sc (Real.sqrt (2 * p.kappa)) aOp] := by
      by_cases h : p.kappa = 0
      · left; simp [modeJ, h]
      · right; simp [modeJ, h]
    rcases f1 with f1 | ⟨b, f1⟩
    · left
      unfold LiIs at hLi
      rw [f1] at hLi
      exact ⟨f1, hLi⟩
    · right
      unfold LiIs at hLi
      rw [f1] at hLi
      have hl := hLi.1
      cases b with
      | false =>
        refine ⟨f1, ?_⟩
        rcases hJ with h | h
        · rw [h] at hl; simp [ModeEl.liouvillean, ModeEl.liouvilleanZeroT, elementLiouvillean] at hl
        · exact h
      | true =>
        rcases hJ with h | h <;> rw [h] at hl <;> simp [ModeEl.liouvillean, ModeEl.liouvilleanFiniteT, elementLiouvillean] at hl
  refine ⟨e, h1, h2, ⟨by rw [h2]; exact h0, h3, fun i _ => hre i, ?_, le_rfl, ?_⟩, ?_⟩
  · rcases hfields with ⟨f, -⟩ | ⟨f, hJ⟩
    · exact sliceRates_none f
    · rw [hJ]
      obtain ⟨r, r1, r2⟩ := (ModeEl.liouvillean_rates p.kappa 0 hκ le_rfl p.cutoff).1
      exact sliceRates_single f (by unfold ModeEl.liouvillean; exact r1) (by rw [h2]; exact r2)
  · rw [h2]
    simpa using hc
  · intro h
    rcases hfields with ⟨-, hJ⟩ | ⟨f, -⟩
    · simp [modeJ, h.ne'] at hJ
    · rw [f]; rfl

/-- **C117.** The Jaynes-Cummings system of a qbit and a mode with pumps and losses, in Monte Carlo trajectories, in any pair of pictures of which both or none is the Schrödinger picture: their average is the solution of
the Master equation of the Jaynes-Cummings system. -/
theorem jaynesCummings_unravels.{v, w} (pq : QbitEl.Pars) (pm : ModeEl.Pars) (g : ℂ) (qmq qmm : ModeEl.Picture) (hq : qmq = .sch ↔ qmm = .sch) (hγ : 0 ≤ pq.gamma)
    (hd : pm.cutoff < 2 ^ 63) (h0 : 0 < pm.cutoff) (hκ : 0 ≤ pm.kappa) (hn : pm.nTh = 0) (hK : pm.omegaKerr = 0) (hA : pm.omegaKerrAlter = 0) (hl : 0 < pq.gamma ∨ 0 < pm.kappa) :
    ∃ e0 e1 ia, QbitEl.make pq qmq = .ok e0 ∧ ModeEl.makePumpedLossy pm qmm = .ok e1 ∧ jaynesCummings [0, 1] (aop (qbitPtr pq qmq)) (modePtr pm qmm) g = .ok ia ∧
      ∀ (implemented : ℕ → Bool) (n : ℕ) (en : Enum (binary e0 e1 ia).lb (binary e0 e1 ia).ub n),
        Unravels.{v, w} ((binary e0 e1 ia).toSys implemented en) ((binary e0 e1 ia).mcwfRates en)
          (boxMat en fun i j => tensor (qbitH pq.gamma pq.delta pq.eta) one i j + tensor one (modeH pm.kappa pm.delta pm.eta) i j + jcH g sigma sigmaDag i j)
          ((modeJ pq.gamma 0).map (fun j => boxMat en (tensor j one)) ++ (modeJ pm.kappa 0).map (fun j => boxMat en (tensor one j))) := by
  obtain ⟨e0, a1, a2, a3, a4⟩ := qbit_trajectoryFree pq hγ qmq
  obtain ⟨e1, b1, b2, b3, b4⟩ := mode_trajectoryFree pm hd h0 hκ hn hK hA qmm
  obtain ⟨S, s1, s2, s3⟩ := aop_qbit pq qmq
  obtain ⟨ia, i1, -, i3⟩ := jaynesCummings_couples (modePtr pm qmm) (by rw [modePtr_dim]; exact hd) (by rw [modePtr_dim]; exact h0) s2
    (by rw [modePtr_exact, ← show decide (qmq ≠ .sch) = decide (qmm ≠ .sch) by simp only [ne_eq, hq], ← qbitPtr_exact pq]; exact s3) [0, 1] g
  have hs : (fun i j => conj (sigma j i)) = sigmaDag := by
    funext i j; simp only [sigma, sigmaDag]; split_ifs <;> simp_all
  rw [hs, modePtr_dim] at i3
  obtain ⟨l1, l2, -, -⟩ := jaynesCummings_fields i1
  have hlen : ∀ κ n : ℝ, (modeJ κ n).length ≤ 2 := by intro κ n; unfold modeJ; split_ifs <;> simp
  rw [s1]
  refine ⟨e0, e1, ia, a1, b1, i1, fun implemented n en => ?_⟩
  have := binary_unravels.{v, w} e0 e1 ia a3 b3 (hl.imp a4 b4) (by rw [a2, b2]; exact i3) (antiHermitian_jcH g sigma sigmaDag fun i j => congrFun (congrFun hs i) j) l1 l2
    (by have := hlen pq.gamma 0; have := hlen pm.kappa 0; omega) implemented en
  simpa only [add_zero, Complex.ofReal_zero, zero_smul, sub_zero] using this

/-- **C117.** The Jaynes-Cummings system of a qbit with phase noise and a mode, in Monte Carlo trajectories. The qbit's Hamiltonian does not contain the (uniform) decay belonging to the phase noise, still the trajectories are right. -/
theorem jaynesCummings_phaseNoise_unravels.{v, w} (pq : QbitEl.Pars) (pm : ModeEl.Pars) (g : ℂ) (qmq qmm : ModeEl.Picture) (hq : phaseNoisePicture pq qmq = .sch ↔ qmm = .sch) (hγ : 0 ≤ pq.gamma) (hp : 0 < pq.gammaParallel)
    (hd : pm.cutoff < 2 ^ 63) (h0 : 0 < pm.cutoff) (hκ : 0 ≤ pm.kappa) (hn : pm.nTh = 0) (hK : pm.omegaKerr = 0) (hA : pm.omegaKerrAlter = 0) :
    ∃ e0 e1 ia, QbitEl.makePhaseNoise pq qmq = .ok e0 ∧ ModeEl.makePumpedLossy pm qmm = .ok e1 ∧ jaynesCummings [0, 1] (aop (qbitPtrPhaseNoise pq qmq)) (modePtr pm qmm) g = .ok ia ∧
      ∀ (implemented : ℕ → Bool) (n : ℕ) (en : Enum (binary e0 e1 ia).lb (binary e0 e1 ia).ub n),
        Unravels.{v, w} ((binary e0 e1 ia).toSys implemented en) ((binary e0 e1 ia).mcwfRates en)
          ((boxMat en fun i j => tensor (qbitH pq.gamma pq.delta pq.eta) one i j + tensor one (modeH pm.kappa pm.delta pm.eta) i j + jcH g sigma sigmaDag i j) - (pq.gammaParallel : ℂ) • 1)
          ([boxMat en (tensor (sc (Real.sqrt (2 * pq.gamma)) sigma) one), boxMat en (tensor (sc (Real.sqrt (2 * pq.gammaParallel)) sigmaZ) one)] ++ (modeJ pm.kappa 0).map (fun j => boxMat en (tensor one j))) := by
  obtain ⟨e0, a1, a2, a3, a4⟩ := qbitPhaseNoise_trajectoryFree pq hγ hp qmq
  obtain ⟨e1, b1, b2, b3, b4⟩ := mode_trajectoryFree pm hd h0 hκ hn hK hA qmm
  rw [qbitPtrPhaseNoise_eq] at a3 ⊢
  obtain ⟨S, s1, s2, s3⟩ := aop_qbit pq (phaseNoisePicture pq qmq)
  obtain ⟨ia, i1, -, i3⟩ := jaynesCummings_couples (modePtr pm qmm) (by rw [modePtr_dim]; exact hd) (by rw [modePtr_dim]; exact h0) s2
    (by rw [modePtr_exact, ← show decide (phaseNoisePicture pq qmq ≠ .sch) = decide (qmm ≠ .sch) by simp only [ne_eq, hq], ← qbitPtr_exact pq]; exact s3) [0, 1] g
  have hs : (fun i j => conj (sigma j i)) = sigmaDag := by
    funext i j; simp only [sigma, sigmaDag]; split_ifs <;> simp_all
  rw [hs, modePtr_dim] at i3
  obtain ⟨l1, l2, -, -⟩ := jaynesCummings_fields i1
  have hlen : ∀ κ n : ℝ, (modeJ κ n).length ≤ 2 := by intro κ n; unfold modeJ; split_ifs <;> simp
  rw [s1]
  refine ⟨e0, e1, ia, a1, b1, i1, fun implemented n en => ?_⟩
  have := binary_unravels.{v, w} e0 e1 ia a3 b3 (Or.inl a4) (by rw [a2, b2]; exact i3) (antiHermitian_jcH g sigma sigmaDag fun i j => congrFun (congrFun hs i) j) l1 l2
    (by have := hlen pm.kappa 0; simp only [List.length_cons, List.length_nil]; omega) implemented en
  simpa only [add_zero, List.map_cons, List.map_nil] using this

/-- **C117.** Any number of qbits in a cavity: a lossy, pumped mode on the axis 0, and the lossy, pumped qbits on the axes 1, 2, ..., all coupled to the mode by Jaynes-Cummings interactions. The average of the trajectories
solves the Master equation with all these Hamiltonians and losses. -/
theorem qbitsInCavity_unravels.{v, w} (N : ℕ) (hN : N < 2 ^ 62) (pq : ℕ → QbitEl.Pars) (pm : ModeEl.Pars) (g : ℕ → ℂ) (qmq : ℕ → ModeEl.Picture) (qmm : ModeEl.Picture) (hq : ∀ k, qmq k = .sch ↔ qmm = .sch)
    (hγ : ∀ k, 0 ≤ (pq k).gamma) (hd : pm.cutoff < 2 ^ 63) (h0 : 0 < pm.cutoff) (hκ : 0 < pm.kappa) (hn : pm.nTh = 0) (hK : pm.omegaKerr = 0) (hA : pm.omegaKerrAlter = 0) :
    ∃ (em : Element) (eq : ℕ → Element) (ia : ℕ → Part), ModeEl.makePumpedLossy pm qmm = .ok em ∧ (∀ k, QbitEl.make (pq k) (qmq k) = .ok (eq k)) ∧
      (∀ k, jaynesCummings [k + 1, 0] (aop (qbitPtr (pq k) (qmq k))) (modePtr pm qmm) (g k) = .ok (ia k)) ∧
      ∀ (c : Comp), c = composite (em :: (List.range N).map eq) ((List.range N).map ia) → ∀ (implemented : ℕ → Bool) (n : ℕ) (en : Enum c.lb c.ub n),
        Unravels.{v, w} (c.toSys implemented en) (c.mcwfRates en)
          (boxMat en fun i j => extend (N + 1) [0] (single (modeH pm.kappa pm.delta pm.eta)) i j +
            ∑ k ∈ Finset.range N, (extend (N + 1) [k + 1] (single (qbitH (pq k).gamma (pq k).delta (pq k).eta)) i j + extend (N + 1) [k + 1, 0] (jcH (g k) sigma sigmaDag) i j))
          ((modeJ pm.kappa 0).map (fun j => boxMat en (extend (N + 1) [0] (single j))) ++
            (List.range N).flatMap fun k => (modeJ (pq k).gamma 0).map fun j => boxMat en (extend (N + 1) [k + 1] (single j))) := by
  obtain ⟨em, b1, b2, b3, b4⟩ := mode_trajectoryFree pm hd h0 hκ.le hn hK hA qmm
  choose eq a1 a2 a3 a4 using fun k => qbit_trajectoryFree (pq k) (hγ k) (qmq k)
  have hs : (fun i j => conj (sigma j i)) = sigmaDag := by
    funext i j; simp only [sigma, sigmaDag]; split_ifs <;> simp_all
  have hia : ∀ k, ∃ ia, jaynesCummings [k + 1, 0] (aop (qbitPtr (pq k) (qmq k))) (modePtr pm qmm) (g k) = .ok ia ∧ ia.axes = [k + 1, 0] ∧
      Couples ia [2, pm.cutoff] [(qbitPtr (pq k) (qmq k)).w, (modePtr pm qmm).w] (jcH (g k) sigma sigmaDag) := by
    intro k
    obtain ⟨S, s1, s2, s3⟩ := aop_qbit (pq k) (qmq k)
    obtain ⟨ia, i1, i2, i3⟩ := jaynesCummings_couples (modePtr pm qmm) (by rw [modePtr_dim]; exact hd) (by rw [modePtr_dim]; exact h0) s2
      (by rw [modePtr_exact, ← show decide (qmq k ≠ .sch) = decide (qmm ≠ .sch) by simp only [ne_eq, hq k], ← qbitPtr_exact (pq k)]; exact s3) [k + 1, 0] (g k)
    rw [hs, modePtr_dim] at i3
    exact ⟨ia, by rw [s1]; exact i1, i2, i3⟩
  choose ia i1 i2 i3 using hia
  refine ⟨em, eq, ia, b1, a1, i1, ?_⟩
  rintro c rfl implemented n en
  have hlen : ∀ κ n : ℝ, (modeJ κ n).length ≤ 2 := by intro κ n; unfold modeJ; split_ifs <;> simp
  let w : ℕ → ℕ → ℂ := fun k => k.casesOn (modePtr pm qmm).w fun k => (qbitPtr (pq k) (qmq k)).w
  let H : ℕ → Dens := fun k => k.casesOn (modeH pm.kappa pm.delta pm.eta) fun k => qbitH (pq k).gamma (pq k).delta (pq k).eta
  let J : ℕ → List Dens := fun k => k.casesOn (modeJ pm.kappa 0) fun k => modeJ (pq k).gamma 0
  let V : Part → Idx → Idx → ℂ := fun p => jcH (g (p.axes.headD 0 - 1)) sigma sigmaDag
  have hl : (em :: (List.range N).map eq).length = N + 1 := by simp
  have hdim : ∀ k < N, ((em :: (List.range N).map eq).map Element.dim).getD (k + 1) 0 = 2 := by
    intro k hk
    simp [hk, a2]
  have hJl : ∀ k, (J k).length ≤ 2 := by rintro (_ | k) <;> exact hlen _ _
  have := composite_unravels.{v, w} (em :: (List.range N).map eq) ((List.range N).map ia) (by simp) w H J V (fun _ => 0) ?_ ⟨em, by simp, b4 hκ⟩ ?_ ?_ implemented en
  · have hH : (fun i j => ∑ k ∈ Finset.range (em :: (List.range N).map eq).length, extend (em :: (List.range N).map eq).length [k] (single (H k)) i j +
        (((List.range N).map ia).map fun p => extend (em :: (List.range N).map eq).length p.axes (V p) i j).sum) =
        fun i j => extend (N + 1) [0] (single (modeH pm.kappa pm.delta pm.eta)) i j +
            ∑ k ∈ Finset.range N, (extend (N + 1) [k + 1] (single (qbitH (pq k).gamma (pq k).delta (pq k).eta)) i j + extend (N + 1) [k + 1, 0] (jcH (g k) sigma sigmaDag) i j) := by
      funext i j
      rw [hl, Finset.sum_range_succ', Finset.sum_add_distrib, List.map_map]
      have e1 : ((List.range N).map ((fun p => extend (N + 1) p.axes (V p) i j) ∘ ia)).sum = ∑ k ∈ Finset.range N, extend (N + 1) [k + 1, 0] (jcH (g k) sigma sigmaDag) i j := by
        have e0 : ∀ m, ((List.range m).map ((fun p => extend (N + 1) p.axes (V p) i j) ∘ ia)).sum = ∑ k ∈ Finset.range m, extend (N + 1) [k + 1, 0] (jcH (g k) sigma sigmaDag) i j := by
          intro m
          induction m with
          | zero => rfl
          | succ m ih =>
            rw [List.range_succ, List.map_append, List.sum_append, ih, Finset.sum_range_succ]
            simp only [List.map_cons, List.map_nil, List.sum_cons, List.sum_nil, add_zero, Function.comp, V, i2, List.headD_cons, Nat.add_sub_cancel]
        exact e0 N
      rw [e1]
      change _ + extend (N + 1) [0] (single (modeH pm.kappa pm.delta pm.eta)) i j + _ = _
      change (∑ k ∈ Finset.range N, extend (N + 1) [k + 1] (single (qbitH (pq k).gamma (pq k).delta (pq k).eta)) i j) + _ + _ = _
      ring
    rw [hH] at this
    have hJ : ((List.range (em :: (List.range N).map eq).length).flatMap fun k => (J k).map fun j => boxMat en (extend (em :: (List.range N).map eq).length [k] (single j))) =
        (modeJ pm.kappa 0).map (fun j => boxMat en (extend (N + 1) [0] (single j))) ++
            (List.range N).flatMap fun k => (modeJ (pq k).gamma 0).map fun j => boxMat en (extend (N + 1) [k + 1] (single j)) := by
      rw [hl, List.range_succ_eq_map, List.flatMap_cons, List.flatMap_map]
      rfl
    rw [hJ] at this
    simpa only [Finset.sum_const_zero, Complex.ofReal_zero, zero_smul, sub_zero] using this
  · rintro (_ | k) e h
    · simp only [List.getElem?_cons_zero, Option.some.injEq] at h
      subst h
      exact b3
    · simp only [List.getElem?_cons_succ, List.getElem?_map] at h
      obtain ⟨k', hk', rfl⟩ := Option.map_eq_some_iff.1 h
      obtain ⟨-, rfl⟩ := List.getElem?_eq_some_iff.1 hk'
      simp only [List.getElem_range]
      exact a3 k
  · intro p hp
    obtain ⟨k, hk, rfl⟩ := List.mem_map.1 hp
    have hk := List.mem_range.1 hk
    refine ⟨(jaynesCummings_fields (i1 k)).1, ?_, by rw [i2]; simp, ?_, antiHermitian_jcH _ sigma sigmaDag fun i j => congrFun (congrFun hs i) j⟩
    · rw [i2, hl]
      refine ⟨by simp, by simp, ?_⟩
      simp only [List.mem_cons, List.not_mem_nil, or_false]
      omega
    · have e : ([k + 1, 0].map fun a => ((em :: (List.range N).map eq).map Element.dim).getD a 0) = [2, em.dim] := by
        change [((em :: (List.range N).map eq).map Element.dim).getD (k + 1) 0, em.dim] = _
        rw [hdim k hk]
      rw [i2, e]
      have : V (ia k) = jcH (g k) sigma sigmaDag := by simp only [V, i2, List.headD_cons, Nat.add_sub_cancel]
      rw [this]
      have := i3 k
      rw [← b2] at this
      exact this
  · rw [hl]
    have : ∀ m, ((List.range m).map fun k => (J k).length).sum ≤ 2 * m := by
      intro m
      induction m with
      | zero => simp
      | succ m ih =>
        rw [List.range_succ, List.map_append, List.sum_append]
        have := hJl m
        simp only [List.map_cons, List.map_nil, List.sum_cons, List.sum_nil, add_zero]
        omega
    have := this (N + 1)
    omega

open MeasureTheory MCWF in
/-- There are random numbers, steppers and time steps as supposed in `Unravels` such that the mean over the trajectories is as near to the solution as one likes. -/
theorem Unravels.near {n : ℕ} {S : Master.Sys n} {rates : ℝ → (Fin n → ℂ) → List ℝ} {A : Matrix (Fin n) (Fin n) ℂ} {J : List (Matrix (Fin n) (Fin n) ℂ)} (h : Unravels.{0, 0} S rates A J) (T : ℝ) (hT : 0 ≤ T)
    (psi : Fin n → ℂ) (hpsi : MCWF.norm psi = 1) (δ : ℝ) (hδ : 0 < δ) :
    ∃ (κ : Type) (make : (ℝ → (Fin n → ℂ) → Fin n → ℂ) → ODE.Stepper (Fin n → ℂ) κ) (ces : κ) (μ : Measure (ℕ → ℕ → ℝ)) (sample : ℕ → (ℕ → ℕ → ℝ) → ℝ) (L : Lim) (Dt : ℝ) (k : ℕ) (ρ : ℝ → Matrix (Fin n) (Fin n) ℂ),
      UniformNumbers μ sample ∧ Solves A J T ρ ∧ ρ 0 = vecMulVec psi (star psi) ∧
      ∀ i j, ‖(∫ ω, dyad (runTo (S.toMCWF make rates) L (fun k => sample k ω) 1 0 1 T Dt k (construct (S.toMCWF make rates) L psi ces 1)) i j ∂μ) - ρ T i j‖ ≤ δ := by
  obtain ⟨κ, make, ces, C, Γ, hC, hΓ, -, hm⟩ := h.exact_mean T hT
  obtain ⟨sample, hs, -⟩ := uniform_streams
  obtain ⟨ρ, hρ, hρ0⟩ := solution_exists A J T (vecMulVec psi (star psi))
  have hCδ : 0 ≤ C / δ := by positivity
  have hpos : 0 < 1 + C / δ + 2 * Γ := by positivity
  obtain ⟨k, hk⟩ := exists_nat_ge (T * (1 + C / δ + 2 * Γ))
  refine ⟨κ, make, ces, _, sample 0, ⟨1 / 2, 2⟩, 1 / (1 + C / δ + 2 * Γ), k, ρ, hs 0, hρ, hρ0, fun i j => ?_⟩
  have h2 := (hm _ (sample 0) (hs 0) ⟨1 / 2, 2⟩ (1 / (1 + C / δ + 2 * Γ)) (by positivity) (by rw [div_le_one hpos]; linarith) (by norm_num) (by norm_num) (by norm_num)
    (by rw [mul_one_div, div_le_iff₀ hpos]; linarith) psi hpsi ρ hρ hρ0 k (by rw [mul_one_div, le_div_iff₀ hpos]; exact hk)).2 i j
  refine h2.trans ?_
  rw [mul_one_div, div_le_iff₀ hpos]
  have : δ * (C / δ) = C := by field_simp
  nlinarith [mul_nonneg hδ.le hΓ]

open MCWF in
/-- A pumped lossy qbit in a pumped lossy cavity, in interaction picture: there are trajectories whose mean is as near to the solution of the Master equation as one likes. -/
example (T δ : ℝ) (hT : 0 ≤ T) (hδ : 0 < δ) : ∃ (e0 e1 : Element) (ia : Part) (n : ℕ) (en : Enum (binary e0 e1 ia).lb (binary e0 e1 ia).ub n), QbitEl.make ⟨-10, 2, 0, Complex.I⟩ .ip = .ok e0 ∧
    ModeEl.makePumpedLossy ⟨10, 1, 0, 0, 2, 0, 3⟩ .ip = .ok e1 ∧ ∀ psi : Fin n → ℂ, MCWF.norm psi = 1 → ∃ (κ : Type) (make : (ℝ → (Fin n → ℂ) → Fin n → ℂ) → ODE.Stepper (Fin n → ℂ) κ) (ces : κ)
      (μ : MeasureTheory.Measure (ℕ → ℕ → ℝ)) (sample : ℕ → (ℕ → ℕ → ℝ) → ℝ) (L : Lim) (Dt : ℝ) (k : ℕ) (ρ : ℝ → Matrix (Fin n) (Fin n) ℂ), UniformNumbers μ sample ∧
        Solves (boxMat en fun i j => tensor (qbitH 2 (-10) Complex.I) one i j + tensor one (modeH 2 1 3) i j + jcH (1 + Complex.I) sigma sigmaDag i j)
          ((modeJ 2 0).map (fun j => boxMat en (tensor j one)) ++ (modeJ 2 0).map (fun j => boxMat en (tensor one j))) T ρ ∧ ρ 0 = vecMulVec psi (star psi) ∧
        ∀ i j, ‖(∫ ω, dyad (runTo (((binary e0 e1 ia).toSys (fun _ => true) en).toMCWF make ((binary e0 e1 ia).mcwfRates en)) L (fun k => sample k ω) 1 0 1 T Dt k
          (construct (((binary e0 e1 ia).toSys (fun _ => true) en).toMCWF make ((binary e0 e1 ia).mcwfRates en)) L psi ces 1)) i j ∂μ) - ρ T i j‖ ≤ δ := by
  obtain ⟨e0, e1, ia, h1, h2, -, h4⟩ := jaynesCummings_unravels.{0, 0} ⟨-10, 2, 0, Complex.I⟩ ⟨10, 1, 0, 0, 2, 0, 3⟩ (1 + Complex.I) .ip .ip (by simp) (by norm_num) (by norm_num) (by norm_num)
    (by norm_num) rfl rfl rfl (Or.inl (by norm_num))
  let en : Enum (binary e0 e1 ia).lb (binary e0 e1 ia).ub _ := (Spec.boxFinset (binary e0 e1 ia).lb (binary e0 e1 ia).ub).equivFin.symm
  exact ⟨e0, e1, ia, _, en, h1, h2, fun psi hpsi => (h4 _ _ en).near T hT psi hpsi δ hδ⟩

end CppQED.Unravel
