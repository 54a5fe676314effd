import Verif.Lemmas.MasterGlobal
import Verif.Props.EnsembleRate
import Verif.Props.ModeNetwork
import Verif.Props.UnravelCavity

/-! # Property C119: Master-equation trajectories solve the Master equation, and agree with ensembles of quantum trajectories -/

namespace CppQED.Master
open Matrix Unravel Spec
open scoped ComplexConjugate ComplexOrder

variable {n : ℕ}

/-- **C119.** The global error of Master-equation trajectories. The system is in the interaction picture of the frequencies `W`; the physical density operator follows the Master equation of `A` and `J`, which conserves the
probability up to a uniform decay missing from `A`, which the renormalisation in each step makes up for. -/
theorem tracks_master.{v} {S : Sys n} {W : Fin n → ℂ} {A : Rho n} {J : List (Rho n)} (hF : FollowsMaster S A J) (hE : ExactIs S W) (g : ℝ) (hg : 0 ≤ g) (hC : Conserving (A - (g : ℂ) • 1) J)
    (happ : S.ex.isSome → S.exApplicable = true) : TracksMaster.{v} S (A - (g : ℂ) • 1) J := by
  have hcon : ∀ {κ : Type v} (rho : Rho n) (ode : ODE.Engine κ), construct S true rho ode = some ⟨0, 0, rho, ode⟩ := by
    intro κ rho ode
    unfold construct
    rw [if_neg (by rintro ⟨h1, h2⟩; rw [happ h1] at h2; cases h2), if_neg (by simp)]
  refine ⟨fun T hT => ?_, PUnit, makeExact.{v} S W A J, ⟨⟨⟩⟩, fun t0 => makeExact_good hF hE t0, fun Dt T hD hD1 rho ces dtInit hdt fuel m hfuel hm => ?_⟩
  · obtain ⟨Λ, hΛ, hgrow⟩ := semi_growth (gen (A - (g : ℂ) • 1) J)
    obtain ⟨M, hM, hMb⟩ := semi_bound (gen (A - (g : ℂ) • 1) J) T
    set B := M + 1 with hB
    set E := Real.exp (∑ k, ‖W k‖) with hEdef
    have hE0 : 0 < E := Real.exp_pos _
    set K := 2 * (1 + n * (Real.exp Λ * B)) * (E ^ 2 * B) with hK
    have hB1 : 1 ≤ B := by rw [hB]; linarith
    have hK0 : 0 ≤ K := by rw [hK]; positivity
    refine ⟨K * (T * Real.exp (Λ * T)) + 2 * n * (E ^ 2 * B), by positivity, ?_⟩
    intro κ solver ε Dt hs hε hsmall hD hD1 rho hrho ces dtInit hdt fuel N m x hx
    have h1 : 0 ≤ K * (T * Real.exp (Λ * T)) * ε := by positivity
    have h2 : 0 ≤ 2 * n * (E ^ 2 * B) * ε := by positivity
    have hs1 : 2 * n * (E ^ 2 * (ε * B)) ≤ 1 := by nlinarith
    have hs2 : K * ε * (T * Real.exp (Λ * T)) ≤ 1 := by nlinarith
    have hM1 : ∀ τ, 0 ≤ τ → τ ≤ 1 → ‖semi (gen (A - (g : ℂ) • 1) J) τ‖ ≤ Real.exp Λ := fun τ a b => (hgrow τ a b).trans (Real.exp_le_exp.2 (mul_le_of_le_one_right hΛ b))
    have hsol : ∀ t, 0 ≤ t → t ≤ T → ∀ i j, ‖sol (A - (g : ℂ) • 1) J t rho i j‖ ≤ B - 1 := by
      intro t a b i j
      have := sol_bound (A - (g : ℂ) • 1) J (hMb t a b) zero_le_one hrho.bounded i j
      rw [hB]; linarith
    unfold simulate at hx
    rw [hcon, Option.bind_some] at hx
    obtain ⟨p1, p2⟩ := run_invariant solver S fuel N T Dt hD (Near (A - (g : ℂ) • 1) J rho K Λ ε)
      (fun a b d ha hat hd0 hdD hab => near_step hF hE g hg hC solver ε hs hε (Real.exp Λ) B Λ T K hM1 (Real.exp_pos _).le hB1 hΛ hgrow hs1 rfl rho hsol hs2 fuel d hd0 (hdD.trans hD1) a b ha hat hab)
      m _ x ⟨le_rfl, rfl, hdt, hrho.hermitian, hrho.trace, fun i j => by simp [sol_zero]⟩ hT hx
    refine ⟨p2, p1.hermitian, p1.trace, fun ρ hρ hρ0 i j => ?_⟩
    have h3 := sol_unique (A - (g : ℂ) • 1) J 0 T hT ρ (fun r a b => hρ r a (by linarith))
    rw [zero_add, hρ0] at h3
    have h4 := p1.error i j
    rw [p2] at h4
    rw [h3]
    refine h4.trans ?_
    nlinarith
  · unfold simulate
    rw [hcon, Option.bind_some]
    exact makeExact_run S W A J fuel hfuel T Dt hD hD1 m _ hdt (by simpa using hm)

/-- Density operators in the usual sense may be the initial conditions. -/
theorem density_of_posSemidef (rho : Rho n) (hp : rho.PosSemidef) (h1 : rho.trace = 1) : Density rho where
  hermitian := hp.1
  trace := h1
  bounded i j := by
    classical
    have hdiag : ∀ k, 0 ≤ (rho k k).re ∧ (rho k k).im = 0 := by
      intro k
      have := hp.diag_nonneg (i := k)
      exact ⟨(Complex.nonneg_iff.1 this).1, (Complex.nonneg_iff.1 this).2.symm⟩
    have hsum : ∑ k, (rho k k).re = 1 := by
      have := congrArg Complex.re h1
      simpa [Matrix.trace] using this
    have hle : ∀ k, (rho k k).re ≤ 1 := fun k => by
      rw [← hsum]
      exact Finset.single_le_sum (f := fun k => (rho k k).re) (fun k _ => (hdiag k).1) (Finset.mem_univ k)
    by_cases hij : i = j
    · subst hij
      rw [show rho i i = ((rho i i).re : ℂ) from Complex.ext rfl (by simp [(hdiag i).2]), Complex.norm_real, Real.norm_of_nonneg (hdiag i).1]
      exact hle i
    -- |ρ_ij|² ≤ ρ_ii ρ_jj
    have hji : rho j i = conj (rho i j) := by have := congrFun (congrFun hp.1 j) i; exact this.symm
    by_cases h0 : rho i j = 0
    · rw [h0, norm_zero]; exact zero_le_one
    have hpos : 0 < ‖rho i j‖ := norm_pos_iff.2 h0
    set u : ℂ := conj (rho i j) / ‖rho i j‖ with hu
    have hun : u * rho i j = ‖rho i j‖ := by
      rw [hu, div_mul_eq_mul_div, Complex.conj_mul', pow_two, mul_div_assoc, div_self (by exact_mod_cast hpos.ne'), mul_one]
    have hcu : conj u * conj (rho i j) = ‖rho i j‖ := by rw [← map_mul, hun, Complex.conj_ofReal]
    have huu : conj u * u = 1 := by
      rw [Complex.conj_mul', hu, norm_div, Complex.norm_conj, Complex.norm_real, norm_norm, div_self hpos.ne']
      simp
    have hq := hp.dotProduct_mulVec_nonneg (Pi.single i (-1) + Pi.single j u)
    have hv : star (Pi.single i (-1) + Pi.single j u : Fin n → ℂ) ⬝ᵥ (rho *ᵥ (Pi.single i (-1) + Pi.single j u)) = rho i i + rho j j - 2 * ‖rho i j‖ := by
      have hstar : star (Pi.single i (-1) + Pi.single j u : Fin n → ℂ) = Pi.single i (-1) + Pi.single j (conj u) := by
        rw [star_add, ← Pi.single_star, ← Pi.single_star]
        simp
      rw [hstar, Matrix.mulVec_add, add_dotProduct, dotProduct_add, dotProduct_add]
      simp only [single_dotProduct, Matrix.mulVec_single, Pi.smul_apply, MulOpposite.smul_eq_mul_unop, MulOpposite.unop_op, Matrix.col_apply]
      rw [hji]
      linear_combination (rho j j) * huu - hun - hcu
    rw [hv] at hq
    have := (Complex.nonneg_iff.1 hq).1
    have hre : (2 * (‖rho i j‖ : ℂ)).re = 2 * ‖rho i j‖ := by simp
    simp only [Complex.sub_re, Complex.add_re, hre] at this
    have := hle i; have := hle j
    linarith

theorem density_pure (psi : Fin n → ℂ) (h : MCWF.norm psi = 1) : Density (vecMulVec psi (star psi)) where
  hermitian := by
    ext i j
    simp [Matrix.vecMulVec_apply, mul_comm]
  trace := by
    have := tr_outer psi
    rw [h] at this
    simpa [trMap_apply, outer, Matrix.trace, Matrix.vecMulVec_apply] using this
  bounded i j := by
    rw [Matrix.vecMulVec_apply, norm_mul, Pi.star_apply, norm_star]
    have h1 := norm_apply_le psi h i
    have h2 := norm_apply_le psi h j
    nlinarith [_root_.norm_nonneg (psi i), _root_.norm_nonneg (psi j)]

/-! ## Elements and composites -/

section systems
open CppQED.Composite CppQED.PTrace CppQED.Slice CppQED.Interactions CppQED.Elem CppQED.ModeEl

/-- The exact part does not depend on which superoperators are implemented. -/
theorem ExactIs.of_ex {S S' : Sys n} {W : Fin n → ℂ} (h : ExactIs S W) (he : S'.ex = S.ex) : ExactIs S' W := by
  intro t t0 rho i j
  rw [← h]
  unfold exactPart
  rw [he]

/-- **C119.** Master-equation trajectories of an element with the Hamiltonian `H` and the jumps `J`, in whatever picture admitted in the Master equation. -/
theorem element_tracks.{v} {e : Element} {w : ℕ → ℂ} {H : Dens} {J : List Dens} (hF : FreeIs e w H J) (hP : CommutesUpToPhase e.dim w J) (happ : e.exApplicable = true) (g : ℝ) (hg : 0 ≤ g)
    (hC : Conserving (mat e.dim H - (g : ℂ) • 1) (J.map (mat e.dim))) : TracksMaster.{v} e.toSys (mat e.dim H - (g : ℂ) • 1) (J.map (mat e.dim)) := by
  obtain ⟨V, hH, hE, hL, hV⟩ := hF
  have hpic := element_pictured hH hE hL
  have hVH : mat e.dim V - Matrix.diagonal (fun i : Fin e.dim => w i) = mat e.dim H := by
    ext i j
    have := hV i i.2 j j.2
    rw [Matrix.sub_apply, mat_apply, mat_apply, ← this, Matrix.diagonal_apply]
    simp [Fin.ext_iff]
  have hJ := map_range_getD J 0 (mat e.dim)
  have hex := Pictured.exactIs hpic
  obtain ⟨G, U, lin, hU, hG⟩ := hpic
  have hfol := picture_master e.toSys _ _ G U J.length _ lin hU hG (fun i hi t t0 => by
    have hm : J.getD i 0 ∈ J := by
      rw [List.getD_eq_getElem?_getD, List.getElem?_eq_getElem hi]
      exact List.getElem_mem hi
    obtain ⟨c, c1, c2⟩ := hP (J.getD i 0) hm (t - t0)
    exact ⟨c, c1, by rw [hU]; exact c2⟩)
  rw [hVH, hJ] at hfol
  exact tracks_master hfol hex g hg hC fun _ => happ

/-- **C119.** Master-equation trajectories of a composite of free elements and interactions. -/
theorem composite_tracks.{v} (es : List Element) (acts : List Part) (h0 : es ≠ []) (hd : ∀ e ∈ es, 0 < e.dim) (w : ℕ → ℕ → ℂ) (H : ℕ → Dens) (J : ℕ → List Dens) (V : Part → MII.Idx → MII.Idx → ℂ)
    (hF : ∀ k e, es[k]? = some e → FreeIs e (w k) (H k) (J k) ∧ CommutesUpToPhase e.dim (w k) (J k))
    (hI : ∀ ia ∈ acts, ia.li = none ∧ ValidAxes es.length ia.axes ∧ 2 ≤ ia.axes.length ∧ Couples ia (ia.axes.map fun a => (es.map Element.dim).getD a 0) (ia.axes.map w) (V ia))
    (implemented : ℕ → Bool)
    (hS : ∀ k e L, es[k]? = some e → e.li = some L → ∀ j < (J k).length, implemented (((List.range k).map fun l => (J l).length).sum + j) = true →
      ∀ rho drhodt, ∃ d', L.actWithSuperoperator j rho drhodt = .ok d')
    (hsz : ((List.range es.length).map fun k => (J k).length).sum < 2 ^ 64) (en : Enum (composite es acts).lb (composite es acts).ub n) (happ : (composite es acts).applicableInMaster = true) (g : ℕ → ℝ)
    (hg : ∀ k < es.length, 0 ≤ g k) (hC : ∀ k e, es[k]? = some e → Conserving (mat e.dim (H k) - (g k : ℂ) • 1) ((J k).map (mat e.dim))) (hV : ∀ ia ∈ acts, AntiHermitian (V ia)) :
    TracksMaster.{v} ((composite es acts).toSys implemented en)
      ((boxMat en fun i j => ∑ k ∈ Finset.range es.length, extend es.length [k] (Spec.single (H k)) i j + (acts.map fun ia => extend es.length ia.axes (V ia) i j).sum) -
        ((∑ k ∈ Finset.range es.length, g k : ℝ) : ℂ) • 1)
      ((List.range es.length).flatMap fun k => (J k).map fun j => boxMat en (extend es.length [k] (Spec.single j))) := by
  have hfol := composite_master es acts h0 hd w H J V hF hI implemented hS hsz en
  have hpic := composite_pictured es acts h0 hd w H J V (fun k e h => (hF k e h).1) hI hsz en
  exact tracks_master hfol ((Pictured.exactIs hpic).of_ex rfl) _ (Finset.sum_nonneg fun k hk => hg k (Finset.mem_range.1 hk))
    (composite_conserving_decay es acts h0 hd H J V g hC (fun ia h => ⟨(hI ia h).2.1, hV ia h⟩) en) fun _ => happ

/-- **C119.** Master-equation trajectories of binary systems. -/
theorem binary_tracks.{v} (e0 e1 : Element) (ia : Part) {w0 w1 : ℕ → ℂ} {H0 H1 : Dens} {J0 J1 : List Dens} {H : MII.Idx → MII.Idx → ℂ} (h0 : MasterFree e0 w0 H0 J0) (h1 : MasterFree e1 w1 H1 J1)
    (hI : Couples ia [e0.dim, e1.dim] [w0, w1] H) (hli : ia.li = none) (hav : ia.av = none) (implemented : ℕ → Bool) (hsz : J0.length + J1.length < 2 ^ 64)
    (en : Enum (binary e0 e1 ia).lb (binary e0 e1 ia).ub n) (happ : (binary e0 e1 ia).applicableInMaster = true) (c0 : Conserving (mat e0.dim H0) (J0.map (mat e0.dim)))
    (c1 : Conserving (mat e1.dim H1) (J1.map (mat e1.dim))) (hH : AntiHermitian H) :
    TracksMaster.{v} ((binary e0 e1 ia).toSys implemented en) (boxMat en fun i j => tensor H0 one i j + tensor one H1 i j + H i j)
      (J0.map (fun j => boxMat en (tensor j one)) ++ J1.map (fun j => boxMat en (tensor one j))) := by
  have hfol := (binary_master e0 e1 ia h0 h1 hI hli hav implemented hsz en).1
  have hcon := binary_conserving e0 e1 ia h0.1 h1.1 en c0 c1 hH
  let es := [e0, e1]
  let acts : List Part := [{ ia with axes := [0, 1] }]
  have hes : es ≠ [] := by simp [es]
  let en' : Enum (composite es acts).lb (composite es acts).ub n := en
  let w : ℕ → ℕ → ℂ := fun k => if k = 0 then w0 else w1
  let HH : ℕ → Dens := fun k => if k = 0 then H0 else H1
  let JJ : ℕ → List Dens := fun k => if k = 0 then J0 else J1
  have hF : ∀ k e, es[k]? = some e → FreeIs e (w k) (HH k) (JJ k) ∧ 0 < e.dim := by
    intro k e h
    rcases k with _ | _ | k
    · simp only [es, List.getElem?_cons_zero, Option.some.injEq] at h; subst h; exact ⟨h0.2.1, h0.1⟩
    · simp only [es, List.getElem?_cons_succ, List.getElem?_cons_zero, Option.some.injEq] at h; subst h; exact ⟨h1.2.1, h1.1⟩
    · simp [es] at h
  have hd : ∀ e ∈ es, 0 < e.dim := by
    intro e he
    obtain ⟨k, hk⟩ := List.getElem?_of_mem he
    exact (hF k e hk).2
  have hacts : ∀ ia' ∈ acts, ia'.li = none ∧ ValidAxes es.length ia'.axes ∧ 2 ≤ ia'.axes.length ∧ Couples ia' (ia'.axes.map fun a => (es.map Element.dim).getD a 0) (ia'.axes.map w) H := by
    intro ia' h
    simp only [acts, List.mem_cons, List.not_mem_nil, or_false] at h
    subst h
    exact ⟨hli, ⟨by simp, by simp, by simp [es]⟩, by simp, hI⟩
  have hpic := composite_pictured es acts hes hd w HH JJ (fun _ => H) (fun k e h => (hF k e h).1) hacts (by simpa [es, JJ, List.range_succ] using hsz) en'
  have hb : ValidBounds (binary e0 e1 ia).lb (binary e0 e1 ia).ub := validBounds_of es hes hd
  have hIn : InBounds (binary e0 e1 ia).lb (binary e0 e1 ia).ub (binary e0 e1 ia).ia := couples_inBounds hI hli hav
  obtain ⟨hex, -⟩ := bin_toSys (binary e0 e1 ia) hb rfl hIn (Or.inr (Or.inr hli)) (by
    have f0 : LiIs e0 J0 := by obtain ⟨_, -, -, h, -⟩ := h0.2.1; exact h
    have f1 : LiIs e1 J1 := by obtain ⟨_, -, -, h, -⟩ := h1.2.1; exact h
    have e0'' : nAvr .li (freePart e0) = J0.length := freePart_nAvr f0 0
    have e1'' : nAvr .li (freePart e1) = J1.length := freePart_nAvr f1 0
    simp only [Bin.nAvr, binary, e0'', e1'']
    simp [nAvr, getLA, hli]
    omega) implemented en
  have hE := (Pictured.exactIs hpic).of_ex (S' := (binary e0 e1 ia).toSys implemented en) (by rw [hex]; rfl)
  have hz : ∀ X : Rho n, X - ((0 : ℝ) : ℂ) • 1 = X := fun X => by simp
  have := tracks_master.{v} hfol hE 0 le_rfl (by rw [hz]; exact hcon) fun _ => happ
  rwa [hz] at this

/-- **C119.** The pumped lossy qbit in Master-equation trajectories. -/
theorem qbit_tracks.{v} (p : QbitEl.Pars) (hγ : 0 ≤ p.gamma) (qmp : Picture) (hp : qmp ≠ .ip ∨ p.gamma = 0) : ∃ e, QbitEl.make p qmp = .ok e ∧ e.dim = 2 ∧
    TracksMaster.{v} e.toSys (mat e.dim (qbitH p.gamma p.delta p.eta)) ((modeJ p.gamma 0).map (mat e.dim)) := by
  obtain ⟨e, h1, h2, h3, -, h4, h5, -⟩ := qbit_masterFree p hγ qmp hp
  refine ⟨e, h1, h2, ?_⟩
  have hz : ∀ X : Rho e.dim, X - ((0 : ℝ) : ℂ) • 1 = X := fun X => by simp
  have := element_tracks.{v} h4 h5 h3 0 le_rfl (by
    rw [hz, h2]
    have := mode_conserving 2 (by norm_num) p.gamma hγ p.delta (-p.eta)
    rwa [QbitEl.qbitH_eq] at this)
  rwa [hz] at this

/-- **C119.** The pumped lossy mode in Master-equation trajectories. -/
theorem mode_tracks.{v} (p : ModeEl.Pars) (hd : p.cutoff < 2 ^ 63) (h0 : 0 < p.cutoff) (hκ : 0 ≤ p.kappa) (hn : p.nTh = 0) (hK : p.omegaKerr = 0) (hA : p.omegaKerrAlter = 0) (qmp : Picture)
    (hp : qmp ≠ .ip ∨ p.kappa = 0) : ∃ e, makePumpedLossy p qmp = .ok e ∧ e.dim = p.cutoff ∧
    TracksMaster.{v} e.toSys (mat e.dim (modeH p.kappa p.delta p.eta)) ((modeJ p.kappa 0).map (mat e.dim)) := by
  obtain ⟨e, h1, h2, h3, -, h4, h5, -⟩ := mode_masterFree p hd h0 hκ hn.ge hK hA qmp hp
  refine ⟨e, h1, h2, ?_⟩
  rw [hn, mul_zero, zero_add, mul_one] at h4
  rw [hn] at h5
  have hz : ∀ X : Rho e.dim, X - ((0 : ℝ) : ℂ) • 1 = X := fun X => by simp
  have := element_tracks.{v} h4 h5 h3 0 le_rfl (by
    rw [hz, h2]
    exact mode_conserving p.cutoff h0 p.kappa hκ p.delta p.eta)
  rwa [hz] at this

/-- **C119.** The Jaynes-Cummings system of a qbit and a mode with all their pumps and losses in Master-equation trajectories. -/
theorem jaynesCummings_tracks.{v} (pq : QbitEl.Pars) (pm : ModeEl.Pars) (g : ℂ) (qmq qmm : Picture) (hq : qmq = .sch ↔ qmm = .sch) (hγ : 0 ≤ pq.gamma)
    (hd : pm.cutoff < 2 ^ 63) (h0 : 0 < pm.cutoff) (hκ : 0 ≤ pm.kappa) (hn : pm.nTh = 0) (hK : pm.omegaKerr = 0) (hA : pm.omegaKerrAlter = 0)
    (hpq : qmq ≠ .ip ∨ pq.gamma = 0) (hpm : qmm ≠ .ip ∨ pm.kappa = 0) :
    ∃ e0 e1 ia, QbitEl.make pq qmq = .ok e0 ∧ makePumpedLossy pm qmm = .ok e1 ∧ jaynesCummings [0, 1] (aop (qbitPtr pq qmq)) (modePtr pm qmm) g = .ok ia ∧
      ∀ (implemented : ℕ → Bool) (n : ℕ) (en : Enum (binary e0 e1 ia).lb (binary e0 e1 ia).ub n),
        TracksMaster.{v} ((binary e0 e1 ia).toSys implemented en)
          (boxMat en fun i j => tensor (qbitH pq.gamma pq.delta pq.eta) one i j + tensor one (modeH pm.kappa pm.delta pm.eta) i j + jcH g sigma sigmaDag i j)
          ((modeJ pq.gamma 0).map (fun j => boxMat en (tensor j one)) ++ (modeJ pm.kappa 0).map (fun j => boxMat en (tensor one j))) := by
  obtain ⟨e0, a1, a2, a3, a4⟩ := qbit_masterFree pq hγ qmq hpq
  obtain ⟨e1, b1, b2, b3, b4⟩ := mode_masterFree pm hd h0 hκ hn.ge hK hA qmm hpm
  rw [hn, mul_zero, zero_add, mul_one] at b4
  obtain ⟨S, s1, s2, s3⟩ := aop_qbit pq qmq
  obtain ⟨ia, i1, -, i3⟩ := jaynesCummings_couples (modePtr pm qmm) (by rw [modePtr_dim]; exact hd) (by rw [modePtr_dim]; exact h0) s2
    (by rw [modePtr_exact, ← show decide (qmq ≠ .sch) = decide (qmm ≠ .sch) by simp only [ne_eq, hq], ← qbitPtr_exact pq]; exact s3) [0, 1] g
  have hs : (fun i j => conj (sigma j i)) = sigmaDag := by
    funext i j; simp only [sigma, sigmaDag]; split_ifs <;> simp_all
  rw [hs, modePtr_dim] at i3
  obtain ⟨l1, l2, l3, l4⟩ := jaynesCummings_fields i1
  have hlen : ∀ κ n : ℝ, (modeJ κ n).length ≤ 2 := by intro κ n; unfold modeJ; split_ifs <;> simp
  rw [s1]
  refine ⟨e0, e1, ia, a1, b1, i1, fun implemented n en => ?_⟩
  refine binary_tracks e0 e1 ia a4 b4 (by rw [a2, b2]; exact i3) l1 l2 implemented (by have := hlen pq.gamma 0; have := hlen pm.kappa 0; omega) en ?_ ?_ ?_
    (antiHermitian_jcH g sigma sigmaDag fun i j => congrFun (congrFun hs i) j)
  · simp [Bin.applicableInMaster, Composite.applicableInMaster, binary, freePart, a3, b3, l4]
    exact ⟨⟨by split <;> rfl, by split <;> rfl⟩, by split <;> rfl⟩
  · rw [a2]
    have := mode_conserving 2 (by norm_num) pq.gamma hγ pq.delta (-pq.eta)
    rwa [QbitEl.qbitH_eq] at this
  · rw [b2]
    exact mode_conserving pm.cutoff h0 pm.kappa hκ pm.delta pm.eta

/-- **C119.** Networks of pumped lossy modes with any couplings between them in Master-equation trajectories. -/
theorem network_tracks.{v} (N : ℕ) (hN : 0 < N) (p : ℕ → ModeEl.Pars) (qm : ℕ → Picture)
    (hp : ∀ k < N, (p k).cutoff < 2 ^ 63 ∧ 0 < (p k).cutoff ∧ 0 ≤ (p k).kappa ∧ (p k).nTh = 0 ∧ (p k).omegaKerr = 0 ∧ (p k).omegaKerrAlter = 0)
    (links : List Link) (hlinks : ∀ l ∈ links, l.Ok N p qm) (hpm : ∀ k < N, qm k ≠ .ip ∨ (p k).kappa = 0) (hsz : ((List.range N).map fun k => (modeJ (p k).kappa 0).length).sum < 2 ^ 64) :
    ∃ (e : ℕ → Element) (ia : Link → Part), (∀ k < N, makePumpedLossy (p k) (qm k) = .ok (e k)) ∧
      (∀ l ∈ links, coupledModes [l.a, l.b] l.kind (modePtr (p l.a) (qm l.a)) (modePtr (p l.b) (qm l.b)) l.u = .ok (ia l)) ∧
      ∀ (implemented : ℕ → Bool) (n : ℕ) (en : Enum (composite ((List.range N).map e) (links.map ia)).lb (composite ((List.range N).map e) (links.map ia)).ub n),
        TracksMaster.{v} ((composite ((List.range N).map e) (links.map ia)).toSys implemented en)
          (boxMat en fun i j => ∑ k ∈ Finset.range N, extend N [k] (Spec.single (modeH (p k).kappa (p k).delta (p k).eta)) i j + (links.map fun l => extend N [l.a, l.b] (couplingH l.kind l.u) i j).sum)
          ((List.range N).flatMap fun k => (modeJ (p k).kappa 0).map fun j => boxMat en (extend N [k] (Spec.single j))) := by
  replace hp : ∀ k < N, (p k).cutoff < 2 ^ 63 ∧ 0 < (p k).cutoff ∧ 0 ≤ (p k).kappa ∧ 0 ≤ (p k).nTh ∧ (p k).omegaKerr = 0 ∧ (p k).omegaKerrAlter = 0 ∧ (p k).nTh = 0 := fun k hk => by
    obtain ⟨c1, c2, c3, c4, c5, c6⟩ := hp k hk
    exact ⟨c1, c2, c3, c4.ge, c5, c6, c4⟩
  obtain ⟨e, ia, V, he, hia, hV⟩ := network_parts N p qm (fun k hk => by obtain ⟨c1, c2, c3, c4, c5, c6, -⟩ := hp k hk; exact ⟨c1, c2, c3, c4, c5, c6⟩) links hlinks
  have happ : (composite ((List.range N).map e) (links.map ia)).applicableInMaster = true := by
    rw [comp_applicableInMaster]
    unfold Comp.parts
    intro q hq
    rcases List.mem_append.1 hq with hq | hq
    · obtain ⟨k, hk, rfl⟩ := List.mem_mapIdx.1 hq
      have hk' : k < N := by simpa [composite] using hk
      have h1 : (e k).exApplicable = true := (makePumpedLossy_fields (he k hk').1).2 (hpm k hk')
      unfold Composite.applicableInMaster
      simp only [composite, List.map_map, List.getElem_map, List.getElem_range, Function.comp, freePart, h1]
      split <;> rfl
    · obtain ⟨l, hl, rfl⟩ := List.mem_map.1 hq
      unfold Composite.applicableInMaster
      rw [(coupledModes_fields (hia l hl)).2.2.1]
  refine ⟨e, ia, fun k hk => (he k hk).1, hia, fun implemented n en => ?_⟩
  · have hlen : ((List.range N).map e).length = N := by simp
    have hes : (List.range N).map e ≠ [] := by simp; omega
    have hget : ∀ k x, ((List.range N).map e)[k]? = some x → k < N ∧ x = e k := by
      intro k x h
      obtain ⟨h1, h2⟩ := List.getElem?_eq_some_iff.1 h
      rw [hlen] at h1
      exact ⟨h1, by simpa [eq_comm] using h2⟩
    have hd : ∀ x ∈ (List.range N).map e, 0 < x.dim := by
      intro x hx
      obtain ⟨k, hk, rfl⟩ := List.mem_map.1 hx
      rw [(he k (List.mem_range.1 hk)).2.1]
      exact (hp k (List.mem_range.1 hk)).2.1
    have hdim : ∀ a < N, (((List.range N).map e).map Element.dim).getD a 0 = (p a).cutoff := by
      intro a ha
      simp [ha, (he a ha).2.1]
    have hF : ∀ k x, ((List.range N).map e)[k]? = some x → FreeIs x (modePtr (p k) (qm k)).w (modeH (p k).kappa (p k).delta (p k).eta) (modeJ (p k).kappa 0) ∧
        CommutesUpToPhase x.dim (modePtr (p k) (qm k)).w (modeJ (p k).kappa 0) := by
      intro k x h
      obtain ⟨hk, rfl⟩ := hget k x h
      have h1 := (he k hk).2.2
      rw [(hp k hk).2.2.2.2.2.2, mul_zero, zero_add, mul_one] at h1
      exact ⟨h1, mode_phases (p k) (hp k hk).2.2.2.2.1 (qm k) (hpm k hk) _ _ _⟩
    have hI : ∀ q ∈ links.map ia, q.li = none ∧ ValidAxes ((List.range N).map e).length q.axes ∧ 2 ≤ q.axes.length ∧
        Couples q (q.axes.map fun a => (((List.range N).map e).map Element.dim).getD a 0) (q.axes.map fun k => (modePtr (p k) (qm k)).w) (V q) := by
      intro q hq
      obtain ⟨l, hl, rfl⟩ := List.mem_map.1 hq
      obtain ⟨v1, v2, v3, v4⟩ := hV l hl
      obtain ⟨ha, hb, hab, -⟩ := hlinks l hl
      refine ⟨(coupledModes_fields (hia l hl)).1, ?_, ?_, ?_⟩
      · rw [v1, hlen]
        exact ⟨by simp, by simpa using hab, by simp [ha, hb]⟩
      · rw [v1]; simp
      · rw [v1]
        simp only [List.map_cons, List.map_nil, hdim _ ha, hdim _ hb]
        exact v2
    have hS : ∀ k x L, ((List.range N).map e)[k]? = some x → x.li = some L → ∀ j < (modeJ (p k).kappa 0).length,
        implemented (((List.range k).map fun l => (modeJ (p l).kappa 0).length).sum + j) = true → ∀ rho drhodt, ∃ d', L.actWithSuperoperator j rho drhodt = .ok d' := by
      intro k x L h hL j hj _
      obtain ⟨hk, rfl⟩ := hget k x h
      obtain ⟨c1, c2, c3, c4, c5, c6, c7⟩ := hp k hk
      obtain ⟨y, y1, -, -, -, -, -, y2⟩ := mode_masterFree (p k) c1 c2 c3 c4 c5 c6 (qm k) (hpm k hk)
      rw [(he k hk).1] at y1
      injection y1 with y1
      subst y1
      exact y2 L hL j (by rw [c7]; exact hj)
    have key := composite_tracks.{v} ((List.range N).map e) (links.map ia) hes hd (fun k => (modePtr (p k) (qm k)).w) (fun k => modeH (p k).kappa (p k).delta (p k).eta)
      (fun k => modeJ (p k).kappa 0) V hF hI implemented hS (by rw [hlen]; exact hsz) en happ (fun _ => 0) (fun _ _ => le_rfl)
      (fun k x h => by
        obtain ⟨hk, rfl⟩ := hget k x h
        rw [(he k hk).2.1]
        simpa using mode_conserving (p k).cutoff (hp k hk).2.1 (p k).kappa (hp k hk).2.2.1 (p k).delta (p k).eta)
      (fun q hq => by
        obtain ⟨l, hl, rfl⟩ := List.mem_map.1 hq
        exact (hV l hl).2.2.1)
    rw [Finset.sum_const_zero, Complex.ofReal_zero, zero_smul, sub_zero] at key
    have ham : (boxMat en fun i j => ∑ k ∈ Finset.range N, extend N [k] (Spec.single (modeH (p k).kappa (p k).delta (p k).eta)) i j +
            (links.map fun l => extend N [l.a, l.b] (couplingH l.kind l.u) i j).sum) =
        boxMat en fun i j => ∑ k ∈ Finset.range ((List.range N).map e).length, extend ((List.range N).map e).length [k] (Spec.single (modeH (p k).kappa (p k).delta (p k).eta)) i j +
            ((links.map ia).map fun q => extend ((List.range N).map e).length q.axes (V q) i j).sum := by
      ext x y
      simp only [boxMat, Matrix.of_apply, hlen, List.map_map]
      congr 2
      refine List.map_congr_left fun l hl => ?_
      obtain ⟨v1, v2, v3, v4⟩ := hV l hl
      obtain ⟨ha, hb, hab, -⟩ := hlinks l hl
      simp only [Function.comp, v1]
      unfold extend
      have hbox : ∀ z : Fin n, InBox (lower [(p l.a).cutoff, (p l.b).cutoff]) (upper [(p l.a).cutoff, (p l.b).cutoff]) (coords [l.a, l.b] (en z)) := by
        intro z
        have hz : InBox (((List.range N).map e).map fun _ => (0 : ℤ)) (((List.range N).map e).map fun x => (x.dim : ℤ) - 1) (en z) := enum_box (validBounds_of _ hes hd).2.1 en z
        have hz' : ∀ a < N, 0 ≤ (en z : MII.Idx).getD a 0 ∧ (en z : MII.Idx).getD a 0 ≤ (p a).cutoff - 1 := by
          intro a ha
          have := getD_nonneg _ hz (a := a) (e := e a) (by simp [ha])
          rw [(he a ha).2.1] at this
          unfold q at this
          omega
        exact (inBox_cons _ _ _ _).2 ⟨hz' _ ha, (inBox_cons _ _ _ _).2 ⟨hz' _ hb, (inBox_nil _).2 rfl⟩⟩
      rw [v4 _ _ (hbox x) (hbox y)]
    rw [ham]
    simpa only [hlen] using key

/-- Instance: a qbit in a cavity, both driven and damped, in unitary interaction picture. With the exact stepper, the trajectory from any density operator is the exact solution of the Master equation. -/
example (T : ℝ) (hT : 0 ≤ T) : ∃ (e0 e1 : Element) (ia : Part) (n : ℕ) (en : Enum (binary e0 e1 ia).lb (binary e0 e1 ia).ub n), QbitEl.make ⟨-10, 2, 0, Complex.I⟩ .uip = .ok e0 ∧
    makePumpedLossy ⟨10, 1, 0, 0, 2, 0, 3⟩ .uip = .ok e1 ∧ ∃ (κ : Type) (solver : (ℝ → Rho n → Rho n) → ODE.Stepper (Rho n) κ) (ces : κ) (m : ℕ), ∀ psi : Fin n → ℂ, MCWF.norm psi = 1 → ∃ x ρ,
      simulate solver ((binary e0 e1 ia).toSys (fun _ => true) en) ces 1 1 1 m T 1 (vecMulVec psi (star psi)) = some x ∧ ρ 0 = vecMulVec psi (star psi) ∧
        Unravel.Solves (boxMat en fun i j => tensor (qbitH 2 (-10) Complex.I) one i j + tensor one (modeH 2 1 3) i j + jcH (1 + Complex.I) sigma sigmaDag i j)
          ((modeJ 2 0).map (fun j => boxMat en (tensor j one)) ++ (modeJ 2 0).map (fun j => boxMat en (tensor one j))) T ρ ∧ x.rho = ρ T := by
  obtain ⟨e0, e1, ia, h1, h2, -, h4⟩ := jaynesCummings_tracks.{0} ⟨-10, 2, 0, Complex.I⟩ ⟨10, 1, 0, 0, 2, 0, 3⟩ (1 + Complex.I) .uip .uip (by simp) (by norm_num) (by norm_num) (by norm_num)
    (by norm_num) rfl rfl rfl (Or.inl (by simp)) (Or.inl (by simp))
  let en : Enum (binary e0 e1 ia).lb (binary e0 e1 ia).ub _ := (Spec.boxFinset (binary e0 e1 ia).lb (binary e0 e1 ia).ub).equivFin.symm
  have h := h4 (fun _ => true) _ en
  obtain ⟨κ, solver, ⟨ces⟩, hs, hsome⟩ := h.attained
  obtain ⟨C, hC, herr⟩ := h.error T hT
  obtain ⟨m, hm⟩ := exists_nat_ge T
  refine ⟨e0, e1, ia, _, en, h1, h2, κ, solver, ces, m, fun psi hpsi => ?_⟩
  obtain ⟨x, hx⟩ := Option.isSome_iff_exists.1 (hsome 1 T one_pos le_rfl (vecMulVec psi (star psi)) ces 1 le_rfl 1 m one_pos (by simpa using hm))
  obtain ⟨ρ, hρ, hρ0⟩ := solution_exists _ _ T (vecMulVec psi (star psi))
  refine ⟨x, ρ, hx, hρ0, hρ, ?_⟩
  obtain ⟨-, -, -, h5⟩ := herr solver 0 1 hs le_rfl (by simp) one_pos le_rfl _ (density_pure psi hpsi) ces 1 one_pos 1 1 m x hx
  ext i j
  have := h5 ρ hρ hρ0 i j
  rw [mul_zero] at this
  exact sub_eq_zero.1 (norm_le_zero_iff.1 this)

/-- Instance: a ring of three modes. -/
example : ∃ (e : ℕ → Element) (ia : Link → Part), (∀ k : ℕ, k < 3 → makePumpedLossy ⟨10, k, 0, 0, 1, 0, k⟩ .uip = .ok (e k)) ∧
    ∀ (n : ℕ) (en : Enum (composite ((List.range 3).map e) (([⟨0, 1, .xxRWA, 1⟩, ⟨1, 2, .xx, 2⟩, ⟨2, 0, .xxRWA, Complex.I⟩] : List Link).map ia)).lb _ n), ∃ A J,
      TracksMaster.{0} ((composite ((List.range 3).map e) (([⟨0, 1, .xxRWA, 1⟩, ⟨1, 2, .xx, 2⟩, ⟨2, 0, .xxRWA, Complex.I⟩] : List Link).map ia)).toSys (fun _ => true) en) A J := by
  obtain ⟨e, ia, h1, -, h3⟩ := network_tracks.{0} 3 (by norm_num) (fun k => ⟨10, k, 0, 0, 1, 0, k⟩) (fun _ => .uip) (fun k _ => ⟨by norm_num, by norm_num, by norm_num, rfl, rfl, rfl⟩)
    [⟨0, 1, .xxRWA, 1⟩, ⟨1, 2, .xx, 2⟩, ⟨2, 0, .xxRWA, Complex.I⟩] (by
      intro l hl
      simp only [List.mem_cons, List.not_mem_nil, or_false] at hl
      rcases hl with rfl | rfl | rfl <;> exact ⟨by norm_num, by norm_num, by norm_num, rfl⟩) (fun _ _ => Or.inl (by simp)) (by simp [List.range_succ, modeJ])
  exact ⟨e, ia, h1, fun n en => ⟨_, _, h3 _ n en⟩⟩

end systems

/-! ## Comparison with quantum trajectories -/

section comparison
open MeasureTheory ProbabilityTheory

/-- **C119.** The two methods agree: the Master-equation trajectory and the mean of the Monte Carlo trajectories from the same pure state differ by the errors of the two only. The two systems may be in different pictures, `S` and
`S'`, and use different steppers and timesteps. -/
theorem TracksMaster.mean_agrees.{v, w} {S S' : Sys n} {rates : ℝ → (Fin n → ℂ) → List ℝ} {A : Rho n} {J : List (Rho n)} (h : TracksMaster.{v} S A J) (h' : Unravels.{v, w} S' rates A J) (T : ℝ) (hT : 0 ≤ T) :
    ∃ C C' Γ, 0 ≤ C ∧ 0 ≤ C' ∧ 0 ≤ Γ ∧ ∀ {κ κ' : Type v} (solver : (ℝ → Rho n → Rho n) → ODE.Stepper (Rho n) κ) (ε Dt : ℝ),
      (∀ t0, GoodSolver (solver fun t rho => derivative S t t0 rho) (fun t rho => derivative S t t0 rho) ε) → 0 ≤ ε → C * ε ≤ 1 → 0 < Dt → Dt ≤ 1 →
      ∀ {Ω : Type w} [MeasurableSpace Ω] (μ : Measure Ω) [IsProbabilityMeasure μ] (sample : ℕ → Ω → ℝ), UniformNumbers μ sample →
      ∀ (make : (ℝ → (Fin n → ℂ) → Fin n → ℂ) → ODE.Stepper (Fin n → ℂ) κ') (L : MCWF.Lim) (ε' Dt' : ℝ),
      (S'.ha.isSome → ∀ t0, GoodStepper (make (S'.rhs t0)) (S'.rhs t0) ε') → 0 ≤ ε' → ε' ≤ 1 → 0 < Dt' → Dt' ≤ 1 →
      0 < L.dpLimit → 1 ≤ L.overshootTolerance → L.overshootTolerance * L.dpLimit ≤ 1 → (S'.ex.isSome → Γ * Dt' ≤ L.overshootTolerance * L.dpLimit) →
      ∀ (psi : Fin n → ℂ) (ces : κ) (ces' : κ') (dtInit dtInit' : ℝ), MCWF.norm psi = 1 → 0 < dtInit → 0 < dtInit' →
      ∀ (fuel N k : ℕ) (x : St n κ), simulate solver S ces dtInit fuel N k T Dt (vecMulVec psi (star psi)) = some x →
      ∀ (fuel' m' N' k' : ℕ), (∀ s : ℕ → ℝ, (∀ k, 0 ≤ s k ∧ s k < 1) →
        (MCWF.runTo (S'.toMCWF make rates) L s fuel' m' N' T Dt' k' (MCWF.construct (S'.toMCWF make rates) L psi ces' dtInit')).isSome) →
      ∀ i j, ‖(∫ ω, dyad (MCWF.runTo (S'.toMCWF make rates) L (fun k => sample k ω) fuel' m' N' T Dt' k' (MCWF.construct (S'.toMCWF make rates) L psi ces' dtInit')) i j ∂μ) - x.rho i j‖ ≤
        C * ε + C' * (Dt' + ε') := by
  obtain ⟨C, hC, h1⟩ := h.error T hT
  obtain ⟨C', Γ, hC', hΓ, h2⟩ := h'.mean T hT
  refine ⟨C, C', Γ, hC, hC', hΓ, ?_⟩
  intro κ κ' solver ε Dt hs hε hsm hD hD1 Ω _ μ _ sample hU make L ε' Dt' hs' hε' hε1' hD' hD1' hdp htol hprob hno psi ces ces' dtInit dtInit' hpsi hdt hdt' fuel N k x hx fuel' m' N' k' hfin i j
  obtain ⟨ρ, hρ, hρ0⟩ := solution_exists A J T (vecMulVec psi (star psi))
  obtain ⟨-, -, -, h3⟩ := h1 solver ε Dt hs hε hsm hD hD1 _ (density_pure psi hpsi) ces dtInit hdt fuel N k x hx
  have h4 := h3 ρ hρ hρ0 i j
  have h5 := h2 μ sample hU make L ε' Dt' hs' hε' hε1' hD' hD1' hdp htol hprob hno psi ces' dtInit' hpsi hdt' fuel' m' N' k' hfin ρ hρ hρ0 i j
  have h6 := norm_sub_le_norm_sub_add_norm_sub (∫ ω, dyad (MCWF.runTo (S'.toMCWF make rates) L (fun k => sample k ω) fuel' m' N' T Dt' k' (MCWF.construct (S'.toMCWF make rates) L psi ces' dtInit')) i j ∂μ)
    (ρ T i j) (x.rho i j)
  rw [norm_sub_rev (ρ T i j)] at h6
  linarith

/-- **C119.** The same for the density operator calculated from an ensemble of trajectories: it is unlikely that it is farther from the Master-equation trajectory than `a` beyond the error of the latter. -/
theorem TracksMaster.ensemble_agrees.{v, w} {S S' : Sys n} {rates : ℝ → (Fin n → ℂ) → List ℝ} {A : Rho n} {J : List (Rho n)} (h : TracksMaster.{v} S A J) (h' : Unravels.{v, w} S' rates A J) (T : ℝ) (hT : 0 ≤ T) :
    ∃ C C' Γ, 0 ≤ C ∧ 0 ≤ C' ∧ 0 ≤ Γ ∧ ∀ {κ κ' : Type v} (solver : (ℝ → Rho n → Rho n) → ODE.Stepper (Rho n) κ) (ε Dt : ℝ),
      (∀ t0, GoodSolver (solver fun t rho => derivative S t t0 rho) (fun t rho => derivative S t t0 rho) ε) → 0 ≤ ε → C * ε ≤ 1 → 0 < Dt → Dt ≤ 1 →
      ∀ {Ω : Type w} [MeasurableSpace Ω] (μ : Measure Ω) [IsProbabilityMeasure μ] (sample : ℕ → ℕ → Ω → ℝ), (∀ k, UniformNumbers μ (sample k)) → iIndepFun (fun k ω i => sample k i ω) μ →
      ∀ (make : (ℝ → (Fin n → ℂ) → Fin n → ℂ) → ODE.Stepper (Fin n → ℂ) κ') (L : MCWF.Lim) (ε' Dt' : ℝ),
      (S'.ha.isSome → ∀ t0, GoodStepper (make (S'.rhs t0)) (S'.rhs t0) ε') → 0 ≤ ε' → ε' ≤ 1 → 0 < Dt' → Dt' ≤ 1 →
      0 < L.dpLimit → 1 ≤ L.overshootTolerance → L.overshootTolerance * L.dpLimit ≤ 1 → (S'.ex.isSome → Γ * Dt' ≤ L.overshootTolerance * L.dpLimit) →
      ∀ (psi : Fin n → ℂ) (ces : κ) (ces' : κ') (dtInit dtInit' : ℝ), MCWF.norm psi = 1 → 0 < dtInit → 0 < dtInit' →
      ∀ (fuel N k : ℕ) (x : St n κ), simulate solver S ces dtInit fuel N k T Dt (vecMulVec psi (star psi)) = some x →
      ∀ (fuel' m' N' k' : ℕ), (∀ s : ℕ → ℝ, (∀ k, 0 ≤ s k ∧ s k < 1) →
        (MCWF.runTo (S'.toMCWF make rates) L s fuel' m' N' T Dt' k' (MCWF.construct (S'.toMCWF make rates) L psi ces' dtInit')).isSome) →
      ∀ (shape : List ℕ), shape.prod = n → ∀ (rho : CMat.Array) (members : ℕ), 0 < members → ∀ i j, ∀ a : ℝ, 0 < a →
        μ.real {ω | a + C * ε ≤ ‖ensembleMatrix shape rho (fun q => MCWF.runTo (S'.toMCWF make rates) L (fun i => sample q i ω) fuel' m' N' T Dt' k' (MCWF.construct (S'.toMCWF make rates) L psi ces' dtInit')) members i j
          - x.rho i j‖} ≤ (1 / members + (C' * (Dt' + ε')) ^ 2) / a ^ 2 := by
  obtain ⟨C, hC, h1⟩ := h.error T hT
  obtain ⟨C', Γ, hC', hΓ, h2⟩ := h'.ensemble_elements T hT
  refine ⟨C, C', Γ, hC, hC', hΓ, ?_⟩
  intro κ κ' solver ε Dt hs hε hsm hD hD1 Ω _ μ _ sample hU hI make L ε' Dt' hs' hε' hε1' hD' hD1' hdp htol hprob hno psi ces ces' dtInit dtInit' hpsi hdt hdt' fuel N k x hx fuel' m' N' k' hfin shape hshape rho
    members hmem i j a ha
  obtain ⟨ρ, hρ, hρ0⟩ := solution_exists A J T (vecMulVec psi (star psi))
  obtain ⟨-, -, -, h3⟩ := h1 solver ε Dt hs hε hsm hD hD1 _ (density_pure psi hpsi) ces dtInit hdt fuel N k x hx
  have h4 := h3 ρ hρ hρ0 i j
  have h5 := (h2 μ sample hU hI make L ε' Dt' hs' hε' hε1' hD' hD1' hdp htol hprob hno psi ces' dtInit' hpsi hdt' fuel' m' N' k' hfin ρ hρ hρ0 shape hshape rho members hmem i j).2 a ha
  refine le_trans (measureReal_mono (fun ω hω => ?_) (measure_ne_top _ _)) h5
  have h6 := norm_sub_le_norm_sub_add_norm_sub (ensembleMatrix shape rho (fun q => MCWF.runTo (S'.toMCWF make rates) L (fun i => sample q i ω) fuel' m' N' T Dt' k'
    (MCWF.construct (S'.toMCWF make rates) L psi ces' dtInit')) members i j) (ρ T i j) (x.rho i j)
  rw [norm_sub_rev (ρ T i j)] at h6
  have h7 : a + C * ε ≤ _ := hω
  show a ≤ _
  linarith

/-- Instance: the qbit in the cavity simulated by both methods. -/
example : ∃ (e0 e1 : Elem.Element) (ia : Composite.Part), QbitEl.make ⟨-10, 2, 0, Complex.I⟩ .uip = .ok e0 ∧ ModeEl.makePumpedLossy ⟨10, 1, 0, 0, 2, 0, 3⟩ .uip = .ok e1 ∧
    ∀ (n : ℕ) (en : Composite.Enum (Interactions.binary e0 e1 ia).lb (Interactions.binary e0 e1 ia).ub n), ∃ A J, J.length = 2 ∧ TracksMaster.{0} ((Interactions.binary e0 e1 ia).toSys (fun _ => true) en) A J ∧
      Unravels.{0, 0} ((Interactions.binary e0 e1 ia).toSys (fun _ => true) en) ((Interactions.binary e0 e1 ia).mcwfRates en) A J := by
  obtain ⟨e0, e1, ia, h1, h2, h3, h4⟩ := jaynesCummings_tracks.{0} ⟨-10, 2, 0, Complex.I⟩ ⟨10, 1, 0, 0, 2, 0, 3⟩ (1 + Complex.I) .uip .uip (by simp) (by norm_num) (by norm_num) (by norm_num)
    (by norm_num) rfl rfl rfl (Or.inl (by simp)) (Or.inl (by simp))
  obtain ⟨e0', e1', ia', h1', h2', h3', h4'⟩ := jaynesCummings_unravels.{0, 0} ⟨-10, 2, 0, Complex.I⟩ ⟨10, 1, 0, 0, 2, 0, 3⟩ (1 + Complex.I) .uip .uip (by simp) (by norm_num) (by norm_num) (by norm_num)
    (by norm_num) rfl rfl rfl (Or.inl (by norm_num))
  rw [h1] at h1'
  rw [h2] at h2'
  rw [h3] at h3'
  injection h1' with h1'
  injection h2' with h2'
  injection h3' with h3'
  subst h1' h2' h3'
  exact ⟨e0, e1, ia, h1, h2, fun n en => ⟨_, _, by simp [modeJ], h4 _ n en, h4' _ n en⟩⟩

end comparison

end CppQED.Master
