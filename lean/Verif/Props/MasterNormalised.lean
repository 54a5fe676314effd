import Verif.Lemmas.MasterNormalised
import Verif.Props.Positivity
import Verif.Props.Evolved

/-! # Property C123: Master-equation trajectories of systems which do not conserve the trace follow the normalised solution -/

namespace CppQED.Master
open Matrix Unravel Spec
open scoped ComplexConjugate ComplexOrder

variable {n : ℕ}

/-- **C123.** The global error of Master-equation trajectories without supposing that the Master equation conserves the trace. The system is in the interaction picture of the frequencies `W`; the physical density operator follows
the Master equation of `A` and `J`. -/
theorem tracks_normalised.{v} {S : Sys n} {W : Fin n → ℂ} {A : Rho n} {J : List (Rho n)} (hF : FollowsMaster S A J) (hE : ExactIs S W) (happ : S.ex.isSome → S.exApplicable = true) :
    TracksNormalised.{v} S A J := by
  have hcon : ∀ {κ : Type v} (rho : Rho n) (ode : ODE.Engine κ), construct S true rho ode = some ⟨0, 0, rho, ode⟩ := by
    intro κ rho ode
    unfold construct
    rw [if_neg (by rintro ⟨h1, h2⟩; rw [happ h1] at h2; cases h2), if_neg (by simp)]
  refine ⟨fun T hT => ?_, PUnit, makeExact.{v} S W A J, ⟨⟨⟩⟩, fun t0 => makeExact_good hF hE t0, fun Dt T hD hD1 rho ces dtInit hdt fuel m hfuel hm => ?_⟩
  · obtain ⟨Λ, hΛ, hgrow⟩ := semi_growth (gen A J)
    obtain ⟨M, hM, hMb⟩ := semi_bound (gen A J) (T + 1)
    obtain ⟨c, hc, hcb⟩ := sol_trace_lower A J
    obtain ⟨q, hqdef⟩ : ∃ q, q = Real.exp (-(c * (T + 1))) := ⟨_, rfl⟩
    have hq : 0 < q := by rw [hqdef]; exact Real.exp_pos _
    obtain ⟨K, hK⟩ : ∃ K, K = (n * M + 1 + q) * (Real.exp (∑ k, ‖W k‖) ^ 2 * (1 + 2 * (M + 1) / q)) := ⟨_, rfl⟩
    have hM' := hM.le
    have hK0 : 0 ≤ K := by rw [hK]; positivity
    obtain ⟨η, hη⟩ : ∃ η, η = K * ((T + 1) * Real.exp (Λ * (T + 1))) := ⟨_, rfl⟩
    have hη0 : 0 ≤ η := by rw [hη]; positivity
    have hc1 : 0 ≤ n * η * 2 / q := by positivity
    have hc2 : 0 ≤ η * (2 / q) + M * (n * η) * (2 / q * (1 / q)) := by positivity
    refine ⟨η + n * η * 2 / q + (η * (2 / q) + M * (n * η) * (2 / q * (1 / q))), by positivity, ?_⟩
    intro κ solver ε Dt hs hε hsmall hD hD1 rho hpos htr ces dtInit hdt fuel N m x hx
    have hd := density_of_posSemidef rho hpos htr
    have hs1 : K * ε * ((T + 1) * Real.exp (Λ * (T + 1))) ≤ 1 := by
      have e : K * ε * ((T + 1) * Real.exp (Λ * (T + 1))) = η * ε := by rw [hη]; ring
      rw [e]
      rw [add_mul, add_mul] at hsmall
      linarith [mul_nonneg hc1 hε, mul_nonneg hc2 hε]
    have hs2 : n * (K * ε * ((T + 1) * Real.exp (Λ * (T + 1)))) ≤ q / 2 := by
      have e : n * (K * ε * ((T + 1) * Real.exp (Λ * (T + 1)))) = n * η * 2 / q * ε * (q / 2) := by rw [hη]; field_simp
      rw [e]
      have : n * η * 2 / q * ε ≤ 1 := by
        rw [add_mul, add_mul] at hsmall
        linarith [mul_nonneg hη0 hε, mul_nonneg hc2 hε]
      exact mul_le_of_le_one_left (by positivity) this
    have hsol : ∀ t, 0 ≤ t → t ≤ T + 1 → (∀ i j, ‖sol A J t rho i j‖ ≤ M) ∧ q ≤ (sol A J t rho).trace.re := by
      intro t a b
      refine ⟨fun i j => ?_, ?_⟩
      · have := sol_bound A J (hMb t a b) zero_le_one hd.bounded i j
        linarith
      · refine le_trans ?_ (hcb rho hpos htr t a)
        rw [hqdef]
        exact Real.exp_le_exp.2 (neg_le_neg (mul_le_mul_of_nonneg_left b hc))
    unfold simulate at hx
    rw [hcon, Option.bind_some] at hx
    obtain ⟨p1, p2⟩ := run_invariant solver S fuel N T Dt hD (NearRay A J rho K Λ ε)
      (fun a b d ha hat hd0 hdD hab => nearRay_step hF hE solver ε hs hε M q Λ T K hM.le hq hΛ hgrow hK rho hpos hsol hs1 hs2 fuel d hd0 (hdD.trans hD1) a b ha hat hab)
      m _ x ⟨le_rfl, rfl, hdt, hd.hermitian, htr, 1, fun i j => by simp [sol_zero]⟩ hT hx
    refine ⟨p2, p1.hermitian, p1.trace, fun ρ hρ hρ0 => ?_⟩
    have h3 := sol_unique A J 0 T hT ρ (fun r a b => hρ r a (by linarith))
    rw [zero_add, hρ0] at h3
    rw [h3]
    obtain ⟨hr0, hr⟩ := posSemidef_trace _ (sol_posSemidef A J rho hpos T hT)
    obtain ⟨hMT, hqT⟩ := hsol T hT (by linarith)
    have hT1 : K * ε * (T * Real.exp (Λ * T)) ≤ K * ε * ((T + 1) * Real.exp (Λ * (T + 1))) :=
      mul_le_mul_of_nonneg_left (mul_le_mul (by linarith) (Real.exp_le_exp.2 (mul_le_mul_of_nonneg_left (by linarith) hΛ)) (Real.exp_pos _).le (by linarith)) (mul_nonneg hK0 hε)
    obtain ⟨p, hp⟩ := p1.error
    rw [p2] at hp
    have hp' : ∀ i j, ‖(p : ℂ) * x.rho i j - sol A J T rho i j‖ ≤ η * ε := fun i j => (hp i j).trans (hT1.trans (le_of_eq (by rw [hη]; ring)))
    have e1 : K * ε * ((T + 1) * Real.exp (Λ * (T + 1))) = η * ε := by rw [hη]; ring
    rw [e1] at hs1 hs2
    obtain ⟨b1, -, -, b4⟩ := ray_bounds p1.trace hMT hq hqT hp' hs2 hs1 hr
    refine ⟨by rw [hr, Complex.zero_lt_real]; exact lt_of_lt_of_le hq hqT, fun i j => ?_⟩
    have h5 := ray_final hM.le hMT hq hqT hp' b1 b4 i j
    rw [← hr] at h5
    refine h5.trans ?_
    have t3 : η * ε * (2 / q) + M * (n * (η * ε)) * (2 / q * (1 / q)) = (η * (2 / q) + M * (n * η) * (2 / q * (1 / q))) * ε := by ring
    have t4 : 0 ≤ (η + n * η * 2 / q) * ε := by positivity
    rw [t3, add_mul _ _ ε]
    linarith
  · unfold simulate
    rw [hcon, Option.bind_some]
    exact makeExact_run S W A J fuel hfuel T Dt hD hD1 m _ hdt (by simpa using hm)

/-- The normalised solution. -/
noncomputable def normalised (ρ : ℝ → Rho n) (t : ℝ) : Rho n := Matrix.of fun i j => ρ t i j / (ρ t).trace

/-- **C123.** What the normalised solutions are: they are density operators, and obey the Master equation with the change of the trace made up for uniformly. -/
theorem normalised_equation {A : Rho n} {J : List (Rho n)} {T : ℝ} {ρ : ℝ → Rho n} (h : Unravel.Solves A J T ρ) (hp : (ρ 0).PosSemidef) (h1 : (ρ 0).trace = 1) (t : ℝ) (ht : 0 ≤ t) (htT : t ≤ T) :
    (normalised ρ t).PosSemidef ∧ (normalised ρ t).trace = 1 ∧
      ∀ i j, HasDerivAt (fun s => normalised ρ s i j) (lindblad A J (normalised ρ t) i j - (lindblad A J (normalised ρ t)).trace * normalised ρ t i j) t := by
  have hsol := sol_unique A J 0 t ht ρ fun r a b => h r a (by linarith)
  rw [zero_add] at hsol
  obtain ⟨c, -, hc⟩ := sol_trace_lower A J
  have hlow := hc (ρ 0) hp h1 t ht
  rw [← hsol] at hlow
  have hpt : (ρ t).PosSemidef := by rw [hsol]; exact sol_posSemidef A J _ hp t ht
  obtain ⟨-, hr⟩ := posSemidef_trace _ hpt
  have hs0 : 0 < (ρ t).trace.re := lt_of_lt_of_le (Real.exp_pos _) hlow
  have hne : (ρ t).trace ≠ 0 := by rw [hr]; exact_mod_cast hs0.ne'
  have hsm : normalised ρ t = ((ρ t).trace)⁻¹ • ρ t := by
    ext i j
    simp only [normalised, Matrix.of_apply, Matrix.smul_apply, smul_eq_mul]
    rw [div_eq_inv_mul]
  have hl : lindblad A J (normalised ρ t) = ((ρ t).trace)⁻¹ • lindblad A J (ρ t) := by
    rw [hsm]
    unfold lindblad
    rw [Matrix.mul_smul, Matrix.smul_mul, smul_add, smul_add]
    congr 1
    have : ∀ (c : ℂ) (L : List (Rho n)), (L.map fun j => j * c • ρ t * jᴴ).sum = c • (L.map fun j => j * ρ t * jᴴ).sum := by
      intro c L
      induction L with
      | nil => simp
      | cons a L ih => rw [List.map_cons, List.sum_cons, ih, List.map_cons, List.sum_cons, smul_add, Matrix.mul_smul, Matrix.smul_mul]
    exact this _ _
  refine ⟨?_, ?_, fun i j => ?_⟩
  · rw [hsm, hr, ← Complex.ofReal_inv]
    exact hpt.smul (by rw [Complex.zero_le_real]; exact inv_nonneg.2 hs0.le)
  · rw [hsm, Matrix.trace_smul, smul_eq_mul, inv_mul_cancel₀ hne]
  · have hd := (h t ht htT i j).div (Evolved.trace_hasDerivAt ρ _ t (h t ht htT)) hne
    refine hd.congr_deriv ?_
    rw [hl, Matrix.trace_smul, hsm]
    simp only [Matrix.smul_apply, smul_eq_mul]
    field_simp

/-! ## Elements and composites -/

section systems
open CppQED.Composite CppQED.PTrace CppQED.Slice CppQED.Interactions CppQED.Elem CppQED.ModeEl

/-- **C123.** Master-equation trajectories of an element with the Hamiltonian `H` and the jumps `J`, in whatever picture admitted in the Master equation. -/
theorem element_normalised.{v} {e : Element} {w : ℕ → ℂ} {H : Dens} {J : List Dens} (hF : FreeIs e w H J) (hP : CommutesUpToPhase e.dim w J) (happ : e.exApplicable = true) : TracksNormalised.{v} e.toSys (mat e.dim H) (J.map (mat e.dim)) := by
  obtain ⟨V, hH, hE, hL, hV⟩ := hF
  have hpic := element_pictured hH hE hL
  have hVH : mat e.dim V - Matrix.diagonal (fun i : Fin e.dim => w i) = mat e.dim H := by
    ext i j
    have := hV i i.2 j j.2
    rw [Matrix.sub_apply, mat_apply, mat_apply, ← this, Matrix.diagonal_apply]
    simp [Fin.ext_iff]
  have hJ := map_range_getD J 0 (mat e.dim)
  have hex := Pictured.exactIs hpic
  obtain ⟨G, U, lin, hU, hG⟩ := hpic
  have hfol := picture_master e.toSys _ _ G U J.length _ lin hU hG (fun i hi t t0 => by
    have hm : J.getD i 0 ∈ J := by
      rw [List.getD_eq_getElem?_getD, List.getElem?_eq_getElem hi]
      exact List.getElem_mem hi
    obtain ⟨c, c1, c2⟩ := hP (J.getD i 0) hm (t - t0)
    exact ⟨c, c1, by rw [hU]; exact c2⟩)
  rw [hVH, hJ] at hfol
  exact tracks_normalised hfol hex fun _ => happ

/-- **C123.** Master-equation trajectories of a composite of free elements and interactions. -/
theorem composite_normalised.{v} (es : List Element) (acts : List Part) (h0 : es ≠ []) (hd : ∀ e ∈ es, 0 < e.dim) (w : ℕ → ℕ → ℂ) (H : ℕ → Dens) (J : ℕ → List Dens) (V : Part → MII.Idx → MII.Idx → ℂ)
    (hF : ∀ k e, es[k]? = some e → FreeIs e (w k) (H k) (J k) ∧ CommutesUpToPhase e.dim (w k) (J k))
    (hI : ∀ ia ∈ acts, ia.li = none ∧ ValidAxes es.length ia.axes ∧ 2 ≤ ia.axes.length ∧ Couples ia (ia.axes.map fun a => (es.map Element.dim).getD a 0) (ia.axes.map w) (V ia))
    (implemented : ℕ → Bool)
    (hS : ∀ k e L, es[k]? = some e → e.li = some L → ∀ j < (J k).length, implemented (((List.range k).map fun l => (J l).length).sum + j) = true →
      ∀ rho drhodt, ∃ d', L.actWithSuperoperator j rho drhodt = .ok d')
    (hsz : ((List.range es.length).map fun k => (J k).length).sum < 2 ^ 64) (en : Enum (composite es acts).lb (composite es acts).ub n) (happ : (composite es acts).applicableInMaster = true) :
    TracksNormalised.{v} ((composite es acts).toSys implemented en)
      (boxMat en fun i j => ∑ k ∈ Finset.range es.length, extend es.length [k] (Spec.single (H k)) i j + (acts.map fun ia => extend es.length ia.axes (V ia) i j).sum)
      ((List.range es.length).flatMap fun k => (J k).map fun j => boxMat en (extend es.length [k] (Spec.single j))) := by
  have hfol := composite_master es acts h0 hd w H J V hF hI implemented hS hsz en
  have hpic := composite_pictured es acts h0 hd w H J V (fun k e h => (hF k e h).1) hI hsz en
  exact tracks_normalised hfol ((Pictured.exactIs hpic).of_ex rfl) fun _ => happ

/-- **C123.** Master-equation trajectories of binary systems. -/
theorem binary_normalised.{v} (e0 e1 : Element) (ia : Part) {w0 w1 : ℕ → ℂ} {H0 H1 : Dens} {J0 J1 : List Dens} {H : MII.Idx → MII.Idx → ℂ} (h0 : MasterFree e0 w0 H0 J0) (h1 : MasterFree e1 w1 H1 J1)
    (hI : Couples ia [e0.dim, e1.dim] [w0, w1] H) (hli : ia.li = none) (hav : ia.av = none) (implemented : ℕ → Bool) (hsz : J0.length + J1.length < 2 ^ 64)
    (en : Enum (binary e0 e1 ia).lb (binary e0 e1 ia).ub n) (happ : (binary e0 e1 ia).applicableInMaster = true) :
    TracksNormalised.{v} ((binary e0 e1 ia).toSys implemented en) (boxMat en fun i j => tensor H0 one i j + tensor one H1 i j + H i j)
      (J0.map (fun j => boxMat en (tensor j one)) ++ J1.map (fun j => boxMat en (tensor one j))) := by
  have hfol := (binary_master e0 e1 ia h0 h1 hI hli hav implemented hsz en).1
  let es := [e0, e1]
  let acts : List Part := [{ ia with axes := [0, 1] }]
  have hes : es ≠ [] := by simp [es]
  let en' : Enum (composite es acts).lb (composite es acts).ub n := en
  let w : ℕ → ℕ → ℂ := fun k => if k = 0 then w0 else w1
  let HH : ℕ → Dens := fun k => if k = 0 then H0 else H1
  let JJ : ℕ → List Dens := fun k => if k = 0 then J0 else J1
  have hF : ∀ k e, es[k]? = some e → FreeIs e (w k) (HH k) (JJ k) ∧ 0 < e.dim := by
    intro k e h
    rcases k with _ | _ | k
    · simp only [es, List.getElem?_cons_zero, Option.some.injEq] at h; subst h; exact ⟨h0.2.1, h0.1⟩
    · simp only [es, List.getElem?_cons_succ, List.getElem?_cons_zero, Option.some.injEq] at h; subst h; exact ⟨h1.2.1, h1.1⟩
    · simp [es] at h
  have hd : ∀ e ∈ es, 0 < e.dim := by
    intro e he
    obtain ⟨k, hk⟩ := List.getElem?_of_mem he
    exact (hF k e hk).2
  have hacts : ∀ ia' ∈ acts, ia'.li = none ∧ ValidAxes es.length ia'.axes ∧ 2 ≤ ia'.axes.length ∧ Couples ia' (ia'.axes.map fun a => (es.map Element.dim).getD a 0) (ia'.axes.map w) H := by
    intro ia' h
    simp only [acts, List.mem_cons, List.not_mem_nil, or_false] at h
    subst h
    exact ⟨hli, ⟨by simp, by simp, by simp [es]⟩, by simp, hI⟩
  have hpic := composite_pictured es acts hes hd w HH JJ (fun _ => H) (fun k e h => (hF k e h).1) hacts (by simpa [es, JJ, List.range_succ] using hsz) en'
  have hb : ValidBounds (binary e0 e1 ia).lb (binary e0 e1 ia).ub := validBounds_of es hes hd
  have hIn : InBounds (binary e0 e1 ia).lb (binary e0 e1 ia).ub (binary e0 e1 ia).ia := couples_inBounds hI hli hav
  obtain ⟨hex, -⟩ := bin_toSys (binary e0 e1 ia) hb rfl hIn (Or.inr (Or.inr hli)) (by
    have f0 : LiIs e0 J0 := by obtain ⟨_, -, -, h, -⟩ := h0.2.1; exact h
    have f1 : LiIs e1 J1 := by obtain ⟨_, -, -, h, -⟩ := h1.2.1; exact h
    have e0'' : nAvr .li (freePart e0) = J0.length := freePart_nAvr f0 0
    have e1'' : nAvr .li (freePart e1) = J1.length := freePart_nAvr f1 0
    simp only [Bin.nAvr, binary, e0'', e1'']
    simp [nAvr, getLA, hli]
    omega) implemented en
  have hE := (Pictured.exactIs hpic).of_ex (S' := (binary e0 e1 ia).toSys implemented en) (by rw [hex]; rfl)
  exact tracks_normalised.{v} hfol hE fun _ => happ

/-- **C123.** The pumped lossy mode in Master-equation trajectories. -/
theorem mode_normalised.{v} (p : ModeEl.Pars) (hd : p.cutoff < 2 ^ 63) (h0 : 0 < p.cutoff) (hκ : 0 ≤ p.kappa) (hn : 0 ≤ p.nTh) (hK : p.omegaKerr = 0) (hA : p.omegaKerrAlter = 0) (qmp : Picture)
    (hp : qmp ≠ .ip ∨ p.kappa = 0) : ∃ e, makePumpedLossy p qmp = .ok e ∧ e.dim = p.cutoff ∧
    TracksNormalised.{v} e.toSys (mat e.dim (modeH (p.kappa * (2 * p.nTh + 1)) p.delta p.eta)) ((modeJ p.kappa p.nTh).map (mat e.dim)) := by
  obtain ⟨e, h1, h2, h3, -, h4, h5, -⟩ := mode_masterFree p hd h0 hκ hn hK hA qmp hp
  exact ⟨e, h1, h2, element_normalised.{v} h4 h5 h3⟩

/-- **C123.** The Jaynes-Cummings system of a qbit and a mode with all their pumps and losses in Master-equation trajectories. -/
theorem jaynesCummings_normalised.{v} (pq : QbitEl.Pars) (pm : ModeEl.Pars) (g : ℂ) (qmq qmm : Picture) (hq : qmq = .sch ↔ qmm = .sch) (hγ : 0 ≤ pq.gamma)
    (hd : pm.cutoff < 2 ^ 63) (h0 : 0 < pm.cutoff) (hκ : 0 ≤ pm.kappa) (hn : 0 ≤ pm.nTh) (hK : pm.omegaKerr = 0) (hA : pm.omegaKerrAlter = 0)
    (hpq : qmq ≠ .ip ∨ pq.gamma = 0) (hpm : qmm ≠ .ip ∨ pm.kappa = 0) :
    ∃ e0 e1 ia, QbitEl.make pq qmq = .ok e0 ∧ makePumpedLossy pm qmm = .ok e1 ∧ jaynesCummings [0, 1] (aop (qbitPtr pq qmq)) (modePtr pm qmm) g = .ok ia ∧
      ∀ (implemented : ℕ → Bool) (n : ℕ) (en : Enum (binary e0 e1 ia).lb (binary e0 e1 ia).ub n),
        TracksNormalised.{v} ((binary e0 e1 ia).toSys implemented en)
          (boxMat en fun i j => tensor (qbitH pq.gamma pq.delta pq.eta) one i j + tensor one (modeH (pm.kappa * (2 * pm.nTh + 1)) pm.delta pm.eta) i j + jcH g sigma sigmaDag i j)
          ((modeJ pq.gamma 0).map (fun j => boxMat en (tensor j one)) ++ (modeJ pm.kappa pm.nTh).map (fun j => boxMat en (tensor one j))) := by
  obtain ⟨e0, a1, a2, a3, a4⟩ := qbit_masterFree pq hγ qmq hpq
  obtain ⟨e1, b1, b2, b3, b4⟩ := mode_masterFree pm hd h0 hκ hn hK hA qmm hpm
  obtain ⟨S, s1, s2, s3⟩ := aop_qbit pq qmq
  obtain ⟨ia, i1, -, i3⟩ := jaynesCummings_couples (modePtr pm qmm) (by rw [modePtr_dim]; exact hd) (by rw [modePtr_dim]; exact h0) s2
    (by rw [modePtr_exact, ← show decide (qmq ≠ .sch) = decide (qmm ≠ .sch) by simp only [ne_eq, hq], ← qbitPtr_exact pq]; exact s3) [0, 1] g
  have hs : (fun i j => conj (sigma j i)) = sigmaDag := by
    funext i j; simp only [sigma, sigmaDag]; split_ifs <;> simp_all
  rw [hs, modePtr_dim] at i3
  obtain ⟨l1, l2, l3, l4⟩ := jaynesCummings_fields i1
  have hlen : ∀ κ n : ℝ, (modeJ κ n).length ≤ 2 := by intro κ n; unfold modeJ; split_ifs <;> simp
  rw [s1]
  refine ⟨e0, e1, ia, a1, b1, i1, fun implemented n en => ?_⟩
  refine binary_normalised e0 e1 ia a4 b4 (by rw [a2, b2]; exact i3) l1 l2 implemented (by have := hlen pq.gamma 0; have := hlen pm.kappa pm.nTh; omega) en ?_
  simp [Bin.applicableInMaster, Composite.applicableInMaster, binary, freePart, a3, b3, l4]
  exact ⟨⟨by split <;> rfl, by split <;> rfl⟩, by split <;> rfl⟩

/-- **C123.** Networks of pumped lossy modes with any couplings between them in Master-equation trajectories. -/
theorem network_normalised.{v} (N : ℕ) (hN : 0 < N) (p : ℕ → ModeEl.Pars) (qm : ℕ → Picture)
    (hp : ∀ k < N, (p k).cutoff < 2 ^ 63 ∧ 0 < (p k).cutoff ∧ 0 ≤ (p k).kappa ∧ 0 ≤ (p k).nTh ∧ (p k).omegaKerr = 0 ∧ (p k).omegaKerrAlter = 0)
    (links : List Link) (hlinks : ∀ l ∈ links, l.Ok N p qm) (hpm : ∀ k < N, qm k ≠ .ip ∨ (p k).kappa = 0) (hsz : ((List.range N).map fun k => (modeJ (p k).kappa (p k).nTh).length).sum < 2 ^ 64) :
    ∃ (e : ℕ → Element) (ia : Link → Part), (∀ k < N, makePumpedLossy (p k) (qm k) = .ok (e k)) ∧
      (∀ l ∈ links, coupledModes [l.a, l.b] l.kind (modePtr (p l.a) (qm l.a)) (modePtr (p l.b) (qm l.b)) l.u = .ok (ia l)) ∧
      ∀ (implemented : ℕ → Bool) (n : ℕ) (en : Enum (composite ((List.range N).map e) (links.map ia)).lb (composite ((List.range N).map e) (links.map ia)).ub n),
        TracksNormalised.{v} ((composite ((List.range N).map e) (links.map ia)).toSys implemented en)
          (boxMat en fun i j => ∑ k ∈ Finset.range N, extend N [k] (Spec.single (modeH ((p k).kappa * (2 * (p k).nTh + 1)) (p k).delta (p k).eta)) i j + (links.map fun l => extend N [l.a, l.b] (couplingH l.kind l.u) i j).sum)
          ((List.range N).flatMap fun k => (modeJ (p k).kappa (p k).nTh).map fun j => boxMat en (extend N [k] (Spec.single j))) := by
  obtain ⟨e, ia, V, he, hia, hV⟩ := network_parts N p qm hp links hlinks
  have happ : (composite ((List.range N).map e) (links.map ia)).applicableInMaster = true := by
    rw [comp_applicableInMaster]
    unfold Comp.parts
    intro q hq
    rcases List.mem_append.1 hq with hq | hq
    · obtain ⟨k, hk, rfl⟩ := List.mem_mapIdx.1 hq
      have hk' : k < N := by simpa [composite] using hk
      have h1 : (e k).exApplicable = true := (makePumpedLossy_fields (he k hk').1).2 (hpm k hk')
      unfold Composite.applicableInMaster
      simp only [composite, List.map_map, List.getElem_map, List.getElem_range, Function.comp, freePart, h1]
      split <;> rfl
    · obtain ⟨l, hl, rfl⟩ := List.mem_map.1 hq
      unfold Composite.applicableInMaster
      rw [(coupledModes_fields (hia l hl)).2.2.1]
  refine ⟨e, ia, fun k hk => (he k hk).1, hia, fun implemented n en => ?_⟩
  · have hlen : ((List.range N).map e).length = N := by simp
    have hes : (List.range N).map e ≠ [] := by simp; omega
    have hget : ∀ k x, ((List.range N).map e)[k]? = some x → k < N ∧ x = e k := by
      intro k x h
      obtain ⟨h1, h2⟩ := List.getElem?_eq_some_iff.1 h
      rw [hlen] at h1
      exact ⟨h1, by simpa [eq_comm] using h2⟩
    have hd : ∀ x ∈ (List.range N).map e, 0 < x.dim := by
      intro x hx
      obtain ⟨k, hk, rfl⟩ := List.mem_map.1 hx
      rw [(he k (List.mem_range.1 hk)).2.1]
      exact (hp k (List.mem_range.1 hk)).2.1
    have hdim : ∀ a < N, (((List.range N).map e).map Element.dim).getD a 0 = (p a).cutoff := by
      intro a ha
      simp [ha, (he a ha).2.1]
    have hF : ∀ k x, ((List.range N).map e)[k]? = some x → FreeIs x (modePtr (p k) (qm k)).w (modeH ((p k).kappa * (2 * (p k).nTh + 1)) (p k).delta (p k).eta) (modeJ (p k).kappa (p k).nTh) ∧
        CommutesUpToPhase x.dim (modePtr (p k) (qm k)).w (modeJ (p k).kappa (p k).nTh) := by
      intro k x h
      obtain ⟨hk, rfl⟩ := hget k x h
      have h1 := (he k hk).2.2
      exact ⟨h1, mode_phases (p k) (hp k hk).2.2.2.2.1 (qm k) (hpm k hk) _ _ _⟩
    have hI : ∀ q ∈ links.map ia, q.li = none ∧ ValidAxes ((List.range N).map e).length q.axes ∧ 2 ≤ q.axes.length ∧
        Couples q (q.axes.map fun a => (((List.range N).map e).map Element.dim).getD a 0) (q.axes.map fun k => (modePtr (p k) (qm k)).w) (V q) := by
      intro q hq
      obtain ⟨l, hl, rfl⟩ := List.mem_map.1 hq
      obtain ⟨v1, v2, v3, v4⟩ := hV l hl
      obtain ⟨ha, hb, hab, -⟩ := hlinks l hl
      refine ⟨(coupledModes_fields (hia l hl)).1, ?_, ?_, ?_⟩
      · rw [v1, hlen]
        exact ⟨by simp, by simpa using hab, by simp [ha, hb]⟩
      · rw [v1]; simp
      · rw [v1]
        simp only [List.map_cons, List.map_nil, hdim _ ha, hdim _ hb]
        exact v2
    have hS : ∀ k x L, ((List.range N).map e)[k]? = some x → x.li = some L → ∀ j < (modeJ (p k).kappa (p k).nTh).length,
        implemented (((List.range k).map fun l => (modeJ (p l).kappa (p l).nTh).length).sum + j) = true → ∀ rho drhodt, ∃ d', L.actWithSuperoperator j rho drhodt = .ok d' := by
      intro k x L h hL j hj _
      obtain ⟨hk, rfl⟩ := hget k x h
      obtain ⟨c1, c2, c3, c4, c5, c6⟩ := hp k hk
      obtain ⟨y, y1, -, -, -, -, -, y2⟩ := mode_masterFree (p k) c1 c2 c3 c4 c5 c6 (qm k) (hpm k hk)
      rw [(he k hk).1] at y1
      injection y1 with y1
      subst y1
      exact y2 L hL j hj
    have key := composite_normalised.{v} ((List.range N).map e) (links.map ia) hes hd (fun k => (modePtr (p k) (qm k)).w) (fun k => modeH ((p k).kappa * (2 * (p k).nTh + 1)) (p k).delta (p k).eta)
      (fun k => modeJ (p k).kappa (p k).nTh) V hF hI implemented hS (by rw [hlen]; exact hsz) en happ
    have ham : (boxMat en fun i j => ∑ k ∈ Finset.range N, extend N [k] (Spec.single (modeH ((p k).kappa * (2 * (p k).nTh + 1)) (p k).delta (p k).eta)) i j +
            (links.map fun l => extend N [l.a, l.b] (couplingH l.kind l.u) i j).sum) =
        boxMat en fun i j => ∑ k ∈ Finset.range ((List.range N).map e).length, extend ((List.range N).map e).length [k] (Spec.single (modeH ((p k).kappa * (2 * (p k).nTh + 1)) (p k).delta (p k).eta)) i j +
            ((links.map ia).map fun q => extend ((List.range N).map e).length q.axes (V q) i j).sum := by
      ext x y
      simp only [boxMat, Matrix.of_apply, hlen, List.map_map]
      congr 2
      refine List.map_congr_left fun l hl => ?_
      obtain ⟨v1, v2, v3, v4⟩ := hV l hl
      obtain ⟨ha, hb, hab, -⟩ := hlinks l hl
      simp only [Function.comp, v1]
      unfold extend
      have hbox : ∀ z : Fin n, InBox (lower [(p l.a).cutoff, (p l.b).cutoff]) (upper [(p l.a).cutoff, (p l.b).cutoff]) (coords [l.a, l.b] (en z)) := by
        intro z
        have hz : InBox (((List.range N).map e).map fun _ => (0 : ℤ)) (((List.range N).map e).map fun x => (x.dim : ℤ) - 1) (en z) := enum_box (validBounds_of _ hes hd).2.1 en z
        have hz' : ∀ a < N, 0 ≤ (en z : MII.Idx).getD a 0 ∧ (en z : MII.Idx).getD a 0 ≤ (p a).cutoff - 1 := by
          intro a ha
          have := getD_nonneg _ hz (a := a) (e := e a) (by simp [ha])
          rw [(he a ha).2.1] at this
          unfold q at this
          omega
        exact (inBox_cons _ _ _ _).2 ⟨hz' _ ha, (inBox_cons _ _ _ _).2 ⟨hz' _ hb, (inBox_nil _).2 rfl⟩⟩
      rw [v4 _ _ (hbox x) (hbox y)]
    rw [ham]
    simpa only [hlen] using key

/-- **C123.** What the trajectories of the thermal mode follow: with the absorption of thermal photons the cutoff makes the Master equation lose trace at the highest photon number, for which the renormalisation makes up uniformly. -/
theorem mode_normalised_equation (d : ℕ) (hd : 0 < d) (κ nTh : ℝ) (hκ : 0 ≤ κ) (hn : 0 ≤ nTh) (δ : ℝ) (η : ℂ) {T : ℝ} {ρ : ℝ → Rho d}
    (h : Unravel.Solves (mat d (modeH (κ * (2 * nTh + 1)) δ η)) ((modeJ κ nTh).map (mat d)) T ρ) (hp : (ρ 0).PosSemidef) (h1 : (ρ 0).trace = 1) (t : ℝ) (ht : 0 ≤ t) (htT : t ≤ T) (i j : Fin d) :
    HasDerivAt (fun s => normalised ρ s i j) (lindblad (mat d (modeH (κ * (2 * nTh + 1)) δ η)) ((modeJ κ nTh).map (mat d)) (normalised ρ t) i j -
      2 * κ * nTh * (1 - d * normalised ρ t ⟨d - 1, by omega⟩ ⟨d - 1, by omega⟩) * normalised ρ t i j) t := by
  obtain ⟨-, q1, q2⟩ := normalised_equation h hp h1 t ht htT
  refine (q2 i j).congr_deriv ?_
  rw [Evolved.trace_generator d hd κ nTh hκ hn, q1]
  have : Spec.expectation (Evolved.top d) (normalised ρ t) = normalised ρ t ⟨d - 1, by omega⟩ ⟨d - 1, by omega⟩ := by
    unfold Spec.expectation Evolved.top
    rw [Matrix.trace]
    simp only [Matrix.diag_apply, Matrix.diagonal_mul, ite_mul, one_mul, zero_mul]
    rw [Finset.sum_eq_single (⟨d - 1, by omega⟩ : Fin d), if_pos (by simp; omega)]
    · intro i _ hi
      rw [if_neg]
      intro h
      exact hi (Fin.ext (by simp; omega))
    · simp
  rw [this]

/-! ## Concrete cases -/

/-- Instance: a driven thermal mode of ten levels with half a thermal photon, in the unitary interaction picture, from the vacuum: with the exact stepper the trajectory is the normalised solution. -/
example (T : ℝ) (hT : 0 ≤ T) : ∃ e : Element, makePumpedLossy ⟨10, 1, 0, 0, 2, 1 / 2, 3⟩ .uip = .ok e ∧ e.dim = 10 ∧ ∀ psi : Fin e.dim → ℂ, MCWF.norm psi = 1 →
    ∃ (κ : Type) (solver : (ℝ → Rho e.dim → Rho e.dim) → ODE.Stepper (Rho e.dim) κ) (ces : κ) (m : ℕ) (x : St e.dim κ) (ρ : ℝ → Rho e.dim),
      simulate solver e.toSys ces 1 1 1 m T 1 (vecMulVec psi (star psi)) = some x ∧ ρ 0 = vecMulVec psi (star psi) ∧
      Unravel.Solves (mat e.dim (modeH (2 * (2 * (1 / 2) + 1)) 1 3)) ((modeJ 2 (1 / 2)).map (mat e.dim)) T ρ ∧ x.rho = normalised ρ T := by
  obtain ⟨e, h1, h2, h⟩ := mode_normalised.{0} ⟨10, 1, 0, 0, 2, 1 / 2, 3⟩ (by norm_num) (by norm_num) (by norm_num) (by norm_num) rfl rfl .uip (Or.inl (by simp))
  refine ⟨e, h1, h2, fun psi hpsi => ?_⟩
  obtain ⟨κ, solver, ⟨ces⟩, hs, hsome⟩ := h.attained
  obtain ⟨C, hC, herr⟩ := h.error T hT
  obtain ⟨m, hm⟩ := exists_nat_ge T
  obtain ⟨x, hx⟩ := Option.isSome_iff_exists.1 (hsome 1 T one_pos le_rfl (vecMulVec psi (star psi)) ces 1 le_rfl 1 m one_pos (by simpa using hm))
  obtain ⟨ρ, hρ, hρ0⟩ := solution_exists _ _ T (vecMulVec psi (star psi))
  refine ⟨κ, solver, ces, m, x, ρ, hx, hρ0, hρ, ?_⟩
  obtain ⟨-, -, -, h5⟩ := herr solver 0 1 hs le_rfl (by simp) one_pos le_rfl _ (Matrix.posSemidef_vecMulVec_self_star psi) (density_pure psi hpsi).trace ces 1 one_pos 1 1 m x hx
  ext i j
  have := (h5 ρ hρ hρ0).2 i j
  rw [mul_zero] at this
  exact sub_eq_zero.1 (norm_le_zero_iff.1 this)

/-- Instance: a qbit in a thermal cavity. -/
example : ∃ (e0 e1 : Element) (ia : Part), QbitEl.make ⟨-10, 2, 0, Complex.I⟩ .uip = .ok e0 ∧ makePumpedLossy ⟨10, 1, 0, 0, 2, 1 / 2, 3⟩ .uip = .ok e1 ∧
    ∀ (n : ℕ) (en : Enum (binary e0 e1 ia).lb (binary e0 e1 ia).ub n), ∃ A J, TracksNormalised.{0} ((binary e0 e1 ia).toSys (fun _ => true) en) A J := by
  obtain ⟨e0, e1, ia, h1, h2, -, h4⟩ := jaynesCummings_normalised.{0} ⟨-10, 2, 0, Complex.I⟩ ⟨10, 1, 0, 0, 2, 1 / 2, 3⟩ (1 + Complex.I) .uip .uip (by simp) (by norm_num) (by norm_num) (by norm_num)
    (by norm_num) (by norm_num) rfl rfl (Or.inl (by simp)) (Or.inl (by simp))
  exact ⟨e0, e1, ia, h1, h2, fun n en => ⟨_, _, h4 _ n en⟩⟩

/-- Instance: a ring of three thermal modes. -/
example : ∃ (e : ℕ → Element) (ia : Link → Part), (∀ k : ℕ, k < 3 → makePumpedLossy ⟨10, k, 0, 0, 1, 2, k⟩ .uip = .ok (e k)) ∧
    ∀ (n : ℕ) (en : Enum (composite ((List.range 3).map e) (([⟨0, 1, .xxRWA, 1⟩, ⟨1, 2, .xx, 2⟩, ⟨2, 0, .xxRWA, Complex.I⟩] : List Link).map ia)).lb _ n), ∃ A J,
      TracksNormalised.{0} ((composite ((List.range 3).map e) (([⟨0, 1, .xxRWA, 1⟩, ⟨1, 2, .xx, 2⟩, ⟨2, 0, .xxRWA, Complex.I⟩] : List Link).map ia)).toSys (fun _ => true) en) A J := by
  obtain ⟨e, ia, h1, -, h3⟩ := network_normalised.{0} 3 (by norm_num) (fun k => ⟨10, k, 0, 0, 1, 2, k⟩) (fun _ => .uip) (fun k _ => ⟨by norm_num, by norm_num, by norm_num, by norm_num, rfl, rfl⟩)
    [⟨0, 1, .xxRWA, 1⟩, ⟨1, 2, .xx, 2⟩, ⟨2, 0, .xxRWA, Complex.I⟩] (by
      intro l hl
      simp only [List.mem_cons, List.not_mem_nil, or_false] at hl
      rcases hl with rfl | rfl | rfl <;> exact ⟨by norm_num, by norm_num, by norm_num, rfl⟩) (fun _ _ => Or.inl (by simp)) (by simp [List.range_succ, modeJ])
  exact ⟨e, ia, h1, fun n en => ⟨_, _, h3 _ n en⟩⟩

end systems

end CppQED.Master
