import Verif.Lemmas.Interactions
import Verif.Props.Qbit
import Verif.Props.Spin
import Verif.Props.ParticleDynamics

/-! # The free elements in their pictures -/

namespace CppQED.Interactions
open CppQED.Elem CppQED.Tridiag CppQED.ModeEl CppQED.Spec Matrix
open ComplexConjugate

/-- The frequencies of the interaction picture of a mode. -/
noncomputable def ModePtr.w (m : ModePtr) : ℕ → ℂ := match m.exact with
  | none => fun _ => 0
  | some (zI, omegaKerr) => mainDiagonal zI omegaKerr

/-- A free element is made in the interaction picture of the given frequencies. -/
def FreeOK (o : Outcome Element) (d : ℕ) (w : ℕ → ℂ) (H : Dens) (J : List Dens) : Prop := ∃ e, o = .ok e ∧ e.dim = d ∧ FreeIs e w H J

theorem FreeOK.congr {o : Outcome Element} {d : ℕ} {w : ℕ → ℂ} {H H' : Dens} {J : List Dens} (h : FreeOK o d w H J) (he : ∀ i < d, ∀ j < d, H i j = H' i j) : FreeOK o d w H' J := by
  obtain ⟨e, h1, h2, h3⟩ := h
  exact ⟨e, h1, h2, h3.congr (by rw [h2]; exact he)⟩

theorem ip_zero (V : Dens) (t : ℝ) : interactionPicture (fun _ => 0) V t = V := by
  funext i j; simp [interactionPicture]

section mode
variable {p : ModeEl.Pars} {J : List Dens} {li : Option Liouvillean}

theorem exact_free (zI : ℂ) (hL : ∀ ha ex b, LiIs ⟨p.cutoff, ha, ex, b, li⟩ J) :
    FreeOK (elementExact p zI li) p.cutoff (mainDiagonal zI 0) (fun i j => - if i = j then i * zI else 0) J := by
  refine ⟨_, rfl, rfl, fun _ _ => 0, by unfold HaIs; simp, by unfold ExIs; intro t n _; exact exactDiagonal_is zI t n, hL _ _ _, fun i _ j _ => ?_⟩
  simp [mainDiagonal, kerrDiagonal]

theorem ip_free (hd : p.cutoff < 2 ^ 63) (h0 : 0 < p.cutoff) (hK : p.omegaKerr = 0) (zSch zI eta : ℂ) (hL : ∀ ha ex b, LiIs ⟨p.cutoff, ha, ex, b, li⟩ J) :
    FreeOK (elementIP p zSch zI eta li) p.cutoff (mainDiagonal zI 0) (fun i j => hOverIE (zSch + zI) eta 0 i j + kerrE p.omegaKerrAlter i j) J := by
  obtain ⟨H, hH, h⟩ := hamiltonianIP_ok zSch zI eta p.omegaKerr p.omegaKerrAlter p.cutoff hd h0
  rw [hK] at h
  refine ⟨_, by unfold elementIP; rw [hH]; rfl, rfl, fun i j => hOverIE zSch eta 0 i j + kerrE p.omegaKerrAlter i j, by unfold HaIs; exact h,
    by unfold ExIs; intro t n _; exact exactDiagonal_is zI t n, hL _ _ _, fun i _ j _ => ?_⟩
  simp only [← hOverIE_add]
  have : mainDiagonal zI 0 i = i * zI := by simp [mainDiagonal, kerrDiagonal]
  rw [this]; ring

theorem sch_free (hd : p.cutoff < 2 ^ 63) (h0 : 0 < p.cutoff) (zSch eta : ℂ) (hL : ∀ ha ex b, LiIs ⟨p.cutoff, ha, ex, b, li⟩ J) :
    FreeOK (elementSch p zSch eta li) p.cutoff (fun _ => 0) (fun i j => hOverIE zSch eta p.omegaKerr i j + kerrE p.omegaKerrAlter i j) J := by
  obtain ⟨H, hH, h⟩ := hamiltonianSch_ok zSch eta p.omegaKerr p.omegaKerrAlter p.cutoff hd h0
  refine ⟨_, by unfold elementSch; rw [hH]; rfl, rfl, fun i j => hOverIE zSch eta p.omegaKerr i j + kerrE p.omegaKerrAlter i j, by
    unfold HaIs; intro t psi dpsidt t0; rw [ip_zero]; exact h t psi dpsidt t0, by unfold ExIs; intro n _; rfl, hL _ _ _, fun i _ j _ => by simp⟩

end mode

theorem neg_diag (zI : ℂ) (i j : ℕ) : -(if i = j then (i : ℂ) * zI else 0) = hOverIE zI 0 0 i j := by
  have := hOverIE_add 0 zI 0 i j
  rw [zero_add] at this
  rw [← this, hOverIE_zero]; simp

/-- The mode: in all the pictures the same Hamiltonian. -/
theorem mode_free (p : ModeEl.Pars) (hd : p.cutoff < 2 ^ 63) (h0 : 0 < p.cutoff) (hκ : 0 ≤ p.kappa) (hn : 0 ≤ p.nTh) (hK : p.omegaKerr = 0) (hA : p.omegaKerrAlter = 0) (qmp : Picture) :
    FreeOK (makePumpedLossy p qmp) p.cutoff (modePtr p qmp).w (modeH (p.kappa * (2 * p.nTh + 1)) p.delta p.eta) (modeJ p.kappa p.nTh) := by
  rw [← hOverIE_eq]
  have kz : ∀ i j, kerrE p.omegaKerrAlter i j = 0 := by intro i j; rw [hA, kerrE_zero]
  unfold makePumpedLossy makePumped makeLossy makeFree modePtr ModePtr.w
  by_cases h : p.kappa = 0
  · simp only [if_pos h, hK]
    rw [h, zero_mul]
    have hL : ∀ ha ex b, LiIs ⟨p.cutoff, ha, ex, b, none⟩ (modeJ 0 p.nTh) := fun _ _ _ => noLi _ _ _ _ _
    by_cases he : p.eta = 0
    · simp only [if_pos he]
      rw [he]
      have hx := (exact_free (p := p) ⟨0, -p.delta⟩ hL).congr fun i _ j _ => neg_diag _ i j
      cases qmp with
      | ip => exact hx
      | uip => exact hx
      | sch => exact (sch_free hd h0 ⟨0, -p.delta⟩ 0 hL).congr fun i _ j _ => by rw [kz, add_zero, hK]
    · simp only [if_neg he]
      have hx := (ip_free (p := p) hd h0 hK 0 ⟨0, -p.delta⟩ p.eta hL).congr (H' := hOverIE ⟨0, -p.delta⟩ p.eta 0) fun i _ j _ => by rw [kz, add_zero, zero_add]
      cases qmp with
      | ip => exact hx
      | uip => exact hx
      | sch => exact (sch_free hd h0 ⟨0, -p.delta⟩ p.eta hL).congr fun i _ j _ => by rw [kz, add_zero, hK]
  · simp only [if_neg h, hK]
    have hL := liouvillean_is p (lt_of_le_of_ne hκ (Ne.symm h)) hn
    have hz : (⟨p.kappa * (2 * p.nTh + 1), 0⟩ : ℂ) + ⟨0, -p.delta⟩ = ⟨p.kappa * (2 * p.nTh + 1), -p.delta⟩ := by apply Complex.ext <;> simp
    by_cases he : p.eta = 0
    · simp only [if_pos he]
      rw [he]
      cases qmp with
      | ip => unfold lossyMode; simp only [decay_eq]; exact (exact_free (p := p) _ hL).congr fun i _ j _ => neg_diag _ i j
      | uip => unfold lossyMode; simp only [decay_eq]; exact (ip_free (p := p) hd h0 hK _ _ _ hL).congr fun i _ j _ => by rw [kz, add_zero, hz]
      | sch => unfold lossyMode; simp only [decay_eq]; exact (sch_free hd h0 _ _ hL).congr fun i _ j _ => by rw [kz, add_zero, hK]
    · simp only [if_neg he]
      cases qmp with
      | ip => unfold pumpedLossyMode; simp only [decay_eq]; exact (ip_free (p := p) hd h0 hK _ _ _ hL).congr fun i _ j _ => by rw [kz, add_zero, zero_add]
      | uip => unfold pumpedLossyMode; simp only [decay_eq]; exact (ip_free (p := p) hd h0 hK _ _ _ hL).congr fun i _ j _ => by rw [kz, add_zero, hz]
      | sch => unfold pumpedLossyMode; simp only [decay_eq]; exact (sch_free hd h0 _ _ hL).congr fun i _ j _ => by rw [kz, add_zero, hK]

open QbitEl in
/-- The qbit: in all the pictures the same Hamiltonian. -/
theorem qbit_free_jumps (p : QbitEl.Pars) (hγ : 0 ≤ p.gamma) (qmp : Picture) : FreeOK (QbitEl.make p qmp) 2 (qbitPtr p qmp).w (qbitH p.gamma p.delta p.eta) (modeJ p.gamma 0) := by
  have hz : (⟨p.gamma, 0⟩ : ℂ) + ⟨0, -p.delta⟩ = ⟨p.gamma, -p.delta⟩ := by apply Complex.ext <;> simp
  have hH : ∀ γ δ η, ∀ i < 2, ∀ j < 2, hOverIE ⟨γ, -δ⟩ (-η) 0 i j = qbitH γ δ η i j := by
    intro γ δ η i hi j hj
    have := congrFun (congrFun (QbitEl.qbitH_eq γ δ η) ⟨i, hi⟩) ⟨j, hj⟩
    rw [← hOverIE_eq] at this
    exact this
  have kz : ∀ i j, kerrE p.mode.omegaKerrAlter i j = 0 := by intro i j; rw [show p.mode.omegaKerrAlter = 0 from rfl, kerrE_zero]
  have hd : p.mode.cutoff < 2 ^ 63 := by norm_num [QbitEl.Pars.mode]
  have h0 : 0 < p.mode.cutoff := by norm_num [QbitEl.Pars.mode]
  have hx : ∀ (li : Option Liouvillean) (J : List Dens) (_ : ∀ ha ex b, LiIs ⟨2, ha, ex, b, li⟩ J) (zI : ℂ) (γ δ : ℝ) (_ : zI = ⟨γ, -δ⟩),
      FreeOK (QbitEl.elementExact p zI li) 2 (mainDiagonal zI 0) (qbitH γ δ 0) J := by
    intro li J hL zI γ δ h
    refine (exact_free (p := p.mode) zI hL).congr fun i hi j hj => ?_
    rw [neg_diag, ← hH _ _ _ i hi j hj, h, neg_zero]
  have hi : ∀ (li : Option Liouvillean) (J : List Dens) (_ : ∀ ha ex b, LiIs ⟨2, ha, ex, b, li⟩ J) (zSch zI η : ℂ) (γ δ : ℝ) (_ : zSch + zI = ⟨γ, -δ⟩),
      FreeOK (QbitEl.elementIP p zSch zI η li) 2 (mainDiagonal zI 0) (qbitH γ δ η) J := by
    intro li J hL zSch zI η γ δ h
    refine (ip_free (p := p.mode) hd h0 rfl zSch zI (-η) hL).congr fun i hi j hj => ?_
    rw [kz, add_zero, ← hH _ _ _ i hi j hj, h]
  have hs : ∀ (li : Option Liouvillean) (J : List Dens) (_ : ∀ ha ex b, LiIs ⟨2, ha, ex, b, li⟩ J) (zSch η : ℂ) (γ δ : ℝ) (_ : zSch = ⟨γ, -δ⟩),
      FreeOK (QbitEl.elementSch p zSch η li) 2 (fun _ => 0) (qbitH γ δ η) J := by
    intro li J hL zSch η γ δ h
    refine (sch_free (p := p.mode) hd h0 zSch (-η) hL).congr fun i hi j hj => ?_
    rw [kz, add_zero, ← hH _ _ _ i hi j hj, h]; rfl
  by_cases hg : p.gamma = 0
  · rw [show modeJ p.gamma 0 = [] by simp [modeJ, hg]]
    by_cases he : p.eta = 0
    · cases qmp with
      | ip => unfold QbitEl.make; simp only [if_pos (show p.gamma = 0 ∧ p.eta = 0 from ⟨hg, he⟩)]; rw [he, hg]; unfold qbitPtr ModePtr.w; simp only [hg]; exact hx _ _ QbitEl.noLi _ _ _ rfl
      | uip => unfold QbitEl.make; simp only [if_pos (show p.gamma = 0 ∧ p.eta = 0 from ⟨hg, he⟩)]; rw [he, hg]; exact hx _ _ QbitEl.noLi _ _ _ rfl
      | sch => unfold QbitEl.make; simp only [if_pos (show p.gamma = 0 ∧ p.eta = 0 from ⟨hg, he⟩)]; rw [he, hg]; exact hs _ _ QbitEl.noLi _ _ _ _ rfl
    · have hc : ¬(p.gamma = 0 ∧ p.eta = 0) := fun h => he h.2
      cases qmp with
      | ip => unfold QbitEl.make; simp only [if_neg hc, if_pos hg]; unfold qbitPtr ModePtr.w; simp only [hg]; exact hi _ _ QbitEl.noLi _ _ _ _ _ (zero_add _)
      | uip => unfold QbitEl.make; simp only [if_neg hc, if_pos hg]; rw [hg]; exact hi _ _ QbitEl.noLi _ _ _ _ _ (zero_add _)
      | sch => unfold QbitEl.make; simp only [if_neg hc, if_pos hg]; rw [hg]; exact hs _ _ QbitEl.noLi _ _ _ _ rfl
  · have hc : ¬(p.gamma = 0 ∧ p.eta = 0) := fun h => hg h.1
    have hL := fun ha ex b => QbitEl.loss_is p.gamma (lt_of_le_of_ne hγ (Ne.symm hg)) ha ex b
    by_cases he : p.eta = 0
    · cases qmp with
      | ip => unfold QbitEl.make; simp only [if_neg hc, if_neg hg, if_pos he]; rw [he]; exact hx _ _ hL _ _ _ rfl
      | uip => unfold QbitEl.make; simp only [if_neg hc, if_neg hg, if_pos he]; rw [he]; exact hi _ _ hL _ _ _ _ _ hz
      | sch => unfold QbitEl.make; simp only [if_neg hc, if_neg hg, if_pos he]; rw [he]; exact hs _ _ hL _ _ _ _ rfl
    · cases qmp with
      | ip => unfold QbitEl.make; simp only [if_neg hc, if_neg hg, if_neg he]; exact hi _ _ hL _ _ _ _ _ (zero_add _)
      | uip => unfold QbitEl.make; simp only [if_neg hc, if_neg hg, if_neg he]; exact hi _ _ hL _ _ _ _ _ hz
      | sch => unfold QbitEl.make; simp only [if_neg hc, if_neg hg, if_neg he]; exact hs _ _ hL _ _ _ _ rfl

open QbitEl in
theorem qbit_free (p : QbitEl.Pars) (hγ : 0 ≤ p.gamma) (qmp : Picture) : ∃ J, FreeOK (QbitEl.make p qmp) 2 (qbitPtr p qmp).w (qbitH p.gamma p.delta p.eta) J :=
  ⟨_, qbit_free_jumps p hγ qmp⟩

/-- The frequencies of the spin: those of `splus`, and those of the propagator, which differ by a constant. -/
noncomputable def SpinPtr.w (s : SpinPtr) : ℕ → ℂ := if s.exact then mainDiagonal s.z 0 else fun _ => 0

/-- The lossless or lossy spin in its interaction picture. -/
theorem spin_free (p : SpinEl.Pars) (li : Option Liouvillean) (h : li = none ∨ li = some (SpinEl.liouvillean p)) :
    ∃ J, FreeOK (SpinEl.spin p li) p.dimension (spinPtr p true).w (fun i j => -p.z * (sZ p.twoS i j + if i = j then (p.twoS : ℂ) / 2 else 0)) J := by
  have : ∃ J, ∀ ha ex b, LiIs ⟨p.dimension, ha, ex, b, li⟩ J := by
    rcases h with rfl | rfl
    · exact ⟨_, SpinEl.noLi p⟩
    · exact ⟨_, SpinEl.liouvillean_is p⟩
  obtain ⟨J, hL⟩ := this
  have hw : (spinPtr p true).w = mainDiagonal p.z 0 := by simp [spinPtr, SpinPtr.w]
  rw [hw]
  refine ⟨J, _, rfl, rfl, fun _ _ => 0, by unfold HaIs; simp, ?_, hL _ _ _, fun i _ j _ => ?_⟩
  · unfold ExIs; intro t n _
    rw [← exactDiagonal_is]; unfold exactDiagonal; congr 1; push_cast; ring
  · simp only [mainDiagonal, kerrDiagonal, sZ]
    by_cases h : (i : ℕ) = j <;> simp [h]; ring

/-- The spin in the Schrödinger picture. -/
theorem spinSch_free (p : SpinEl.Pars) (hd : p.dimension < 2 ^ 63) (li : Option Liouvillean) (h : li = none ∨ li = some (SpinEl.liouvillean p)) :
    ∃ J, FreeOK (SpinEl.spinSch p li) p.dimension (spinPtr p false).w (fun i j => -p.z * sN p.twoS p.theta p.phi i j) J := by
  have : ∃ J, ∀ ha ex b, LiIs ⟨p.dimension, ha, ex, b, li⟩ J := by
    rcases h with rfl | rfl
    · exact ⟨_, SpinEl.noLi p⟩
    · exact ⟨_, SpinEl.liouvillean_is p⟩
  obtain ⟨J, hL⟩ := this
  obtain ⟨N, hN, sN'⟩ := SpinEl.sn_static p.dimension p.twoS hd (SpinEl.dimension_pos p) p.theta p.phi
  have hw : (spinPtr p false).w = fun _ => 0 := by simp [spinPtr, SpinPtr.w]
  rw [hw]
  refine ⟨J, _, by unfold SpinEl.spinSch; rw [hN]; rfl, rfl, fun i j => -p.z * sN p.twoS p.theta p.phi i j, ?_, by unfold ExIs; intro n _; rfl, hL _ _ _, fun i _ j _ => by simp⟩
  unfold HaIs; intro t psi dpsidt t0
  rw [ip_zero]
  funext n
  rw [Pi.add_apply, mulVec_ket]
  simp only [ket, TriHam.addContribution, List.foldl_cons, List.foldl_nil, Bool.false_eq_true, if_false]
  rw [apply_static (sN'.scale (-p.z)).ok _ _ _ n.2]; rfl

open ParticleEl in
/-- The free particle. -/
theorem particle_free (p : ParticleEl.Pars) (hp : p.fin < 63) (qmp : Picture) :
    FreeOK (ParticleEl.make p qmp) (2 ^ p.fin) (Part.m ⟨p.fin, p.omrec, decide (qmp ≠ .sch)⟩) (particleH p.fin p.omrec fun _ => 0) [] := by
  have hz : ∀ i j, multiplication p.fin (fun _ => 0) i j = 0 := by intro i j; simp [multiplication]
  unfold ParticleEl.make Part.m
  by_cases h : qmp = .sch
  · simp only [if_pos h, h, ne_eq, not_true_eq_false, decide_false, Bool.false_eq_true, if_false]
    obtain ⟨T, h1, h2⟩ := diagonal_dop (2 ^ p.fin) (pow_lt hp) (by positivity) (ParticleEl.mainDiagonal p.fin (-p.omrec))
    refine ⟨_, by unfold particleSch; rw [h1]; rfl, rfl, fun i j => if i = j then ParticleEl.mainDiagonal p.fin (-p.omrec) i else 0, ?_, by unfold ExIs; intro n _; rfl, noLi' _ _ _ _,
      fun i _ j _ => ?_⟩
    · unfold HaIs
      intro t psi dpsidt t0
      funext n
      rw [Pi.add_apply, mulVec_ket]
      simp only [ket, TriHam.addContribution, List.foldl_cons, List.foldl_nil, Bool.false_eq_true, if_false, ip_zero]
      rw [apply_static h2.ok _ _ _ n.2]; rfl
    · unfold particleH
      rw [hz]
      beta_reduce
      split_ifs with hij
      · rw [kinetic_eq]; push_cast; ring
      · simp
  · simp only [if_neg h, ne_eq, h, not_false_eq_true, decide_true, if_true]
    refine ⟨_, rfl, rfl, fun _ _ => 0, by unfold HaIs; intro i _ j _; rfl, by unfold ExIs; intro t n _; exact ParticleEl.exactDiagonal_is _ _ _ _, noLi' _ _ _ _, fun i _ j _ => ?_⟩
    unfold particleH
    rw [hz]
    split_ifs with hij
    · rw [kinetic_eq]; ring
    · simp

open ParticleEl in
/-- The pumped particle. -/
theorem pumpedParticle_free (p : ParticleEl.Pars) (hp : p.fin < 63) (qmp : Picture) :
    FreeOK (ParticleEl.makePumped p qmp) (2 ^ p.fin) (Part.m ⟨p.fin, p.omrec, decide (qmp ≠ .sch)⟩) (particleH p.fin p.omrec (lightShift p.vClass ⟨p.modePart, p.kPart⟩)) [] := by
  obtain ⟨T, t1, t2⟩ := ParticleEl.hOverI_ok (2 ^ p.fin) (pow_lt hp) (by positivity) p.vClass ⟨p.modePart, p.kPart⟩
  unfold ParticleEl.makePumped Part.m
  by_cases h : qmp = .sch
  · simp only [if_pos h, h, ne_eq, not_true_eq_false, decide_false, Bool.false_eq_true, if_false]
    obtain ⟨S, h1, h2⟩ := diagonal_dop (2 ^ p.fin) (pow_lt hp) (by positivity) (ParticleEl.mainDiagonal p.fin (-p.omrec))
    have hR : ∃ R, Tridiag.add S T = .ok R ∧ TriOK (2 ^ p.fin) R (fun i j => (if i = j then ParticleEl.mainDiagonal p.fin (-p.omrec) i else 0) + potE p.vClass ⟨p.modePart, p.kPart⟩ i j) := by
      rcases t2 with ⟨a, b⟩ | ⟨a, b⟩
      · obtain ⟨k, hk⟩ := a.diffs
        obtain ⟨R, r1, r2⟩ := h2.add (unfurnished_pop a hk b)
        exact ⟨R, r1, r2.ok⟩
      · exact ⟨S, add_empty h2.ok.rank h2.diffs a, h2.ok.congr fun i hi j hj => by rw [b i hi j hj, add_zero]⟩
    obtain ⟨R, r1, r2⟩ := hR
    refine ⟨_, by rw [if_pos trivial]; unfold pumpedParticleSch; rw [h1, t1]; simp only [Outcome.bind]; rw [r1], rfl,
      fun i j => (if i = j then ParticleEl.mainDiagonal p.fin (-p.omrec) i else 0) + potE p.vClass ⟨p.modePart, p.kPart⟩ i j, ?_, by unfold ExIs; intro n _; rfl, noLi' _ _ _ _, fun i _ j _ => ?_⟩
    · unfold HaIs
      intro t psi dpsidt t0
      funext n
      rw [Pi.add_apply, mulVec_ket]
      simp only [ket, TriHam.addContribution, List.foldl_cons, List.foldl_nil, Bool.false_eq_true, if_false, ip_zero]
      rw [apply_static r2 _ _ _ n.2]; rfl
    · unfold particleH
      beta_reduce
      rw [potE_eq p.fin]
      split_ifs with hij
      · rw [kinetic_eq]; push_cast; ring
      · ring
  · simp only [if_neg h, ne_eq, h, not_false_eq_true, decide_true, if_true]
    refine ⟨_, by unfold pumpedParticle; rw [t1]; rfl, rfl, potE p.vClass ⟨p.modePart, p.kPart⟩, ?_, by unfold ExIs; intro t n _; exact ParticleEl.exactDiagonal_is _ _ _ _, noLi' _ _ _ _,
      fun i _ j _ => ?_⟩
    · unfold HaIs
      intro t psi dpsidt t0
      funext n
      rw [Pi.add_apply, mulVec_ket]
      simp only [ket, TriHam.addContribution, List.foldl_cons, List.foldl_nil, if_true]
      rcases t2 with ⟨a, b⟩ | ⟨a, b⟩
      · rw [apply_furnished a _ _ _ _ _ n.2]; rfl
      · rw [a.furnish, a.apply_propagate, Finset.sum_eq_zero]
        · simp [arr1]
        · intro j hj
          simp [interactionPicture, b n n.2 j (Finset.mem_range.1 hj)]
    · unfold particleH
      beta_reduce
      rw [potE_eq p.fin]
      split_ifs with hij
      · rw [kinetic_eq]; ring
      · ring

end CppQED.Interactions
