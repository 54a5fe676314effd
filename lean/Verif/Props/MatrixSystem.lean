import Verif.Model.MatrixSystem
import Verif.Props.Sigma
import Verif.Props.MultiLevel
import Verif.Props.CompositeTrace

/-! # Property C126: a system replaced with the matrix of its Hamiltonian -/

namespace CppQED.Interactions
open CppQED.Elem CppQED.ModeEl CppQED.Spec CppQED.Composite CppQED.Tridiag CppQED.PTrace CppQED.Slice
open CppQED.MII (Idx)
open ComplexConjugate Matrix

/-- **C126.** If the right-hand side of a system is a matrix that does not depend on time, then the matrix system made of it exists, has no exact part and no jumps, and has the same right-hand side at any time. -/
theorem matrixSystem_rhs {n : ℕ} (S : Master.Sys n) (G : Matrix (Fin n) (Fin n) ℂ) (hG : ∀ t0 t psi, S.rhs t0 t psi = G *ᵥ psi) (res0 : Fin n → Fin n → ℂ) :
    ∃ ha, S.matrixSystem res0 = .ok ⟨n, ha, none, true, none⟩ ∧ ∀ t0 t psi, (Element.toSys ⟨n, ha, none, true, none⟩).rhs t0 t psi = S.rhs t0 t psi := by
  refine ⟨_, by unfold Master.Sys.matrixSystem MultiEl.matrixHamiltonian; rw [if_neg (by simp)], fun t0 t psi => ?_⟩
  have hc : ∀ i j : Fin n, Sigma.calculateMatrix (S.ha.map fun f psi dpsidt => f 0 psi dpsidt 0) res0 i j / Complex.I = G i j := by
    intro i j
    have h := congrFun (hG 0 0 (Pi.single j 1)) i
    rw [Matrix.mulVec_single_one, Matrix.col_apply] at h
    cases hS : S.ha with
    | none =>
      rw [Option.map_none, Sigma.calculateMatrix_none, ← h, Master.Sys.rhs, hS]; simp
    | some f =>
      rw [Option.map_some, Sigma.calculateMatrix, Sigma.foldl_rowStep, ← h, Master.Sys.rhs, hS]
      simp only [List.mem_finRange, if_true]
      rw [mul_div_cancel_left₀ _ Complex.I_ne_zero]
      rfl
  rw [hG]
  funext i
  simp only [Master.Sys.rhs, Element.toSys, Option.map_some, CMat.apply]
  rw [← Fin.sum_univ_eq_sum_range (fun j => (if h : (i : ℕ) < n ∧ j < n then Sigma.calculateMatrix (S.ha.map fun f psi dpsidt => f 0 psi dpsidt 0) res0 ⟨i, h.1⟩ ⟨j, h.2⟩ / Complex.I else 0) * arr psi j) n]
  simp only [Fin.is_lt, and_self, dite_true, Fin.eta, hc, arr, Pi.zero_apply, zero_add]
  rfl

/-- A binary system without exact parts that simulates `H` has the right-hand side `H`. -/
theorem binary_rhs (b : Bin) (h0 : b.free0.ex = none) (h1 : b.free1.ex = none) (hi : b.ia.ex = none) {H : Idx → Idx → ℂ} (hb : BinSimulates b H) (hl : b.ub.length = b.lb.length) (implemented : ℕ → Bool) {n : ℕ}
    (en : Enum b.lb b.ub n) (t0 t : ℝ) (psi : Fin n → ℂ) : (b.toSys implemented en).rhs t0 t psi = boxMat en H *ᵥ psi := by
  have hu : ∀ t t0 v, b.actWithU t t0 v = v := by
    intro t t0 v; simp only [Bin.actWithU, propagation, h0, h1, hi]
  have hz : unflatten en (0 : Fin n → ℂ) = fun _ => 0 := by funext i; simp [unflatten]
  have key : ∀ k, b.addContribution t t0 (unflatten en psi) (fun _ => 0) (en k) = (boxMat en H *ᵥ psi) k := by
    intro k
    have hd : ∀ i, HasDerivAt (fun s : ℝ => unflatten en psi i + ((s - t : ℝ) : ℂ) * b.addContribution t t0 (unflatten en psi) (fun _ => 0) i) (b.addContribution t t0 (unflatten en psi) (fun _ => 0) i) t := by
      intro i
      have h := ((((hasDerivAt_id t).sub_const t).ofReal_comp).mul_const (b.addContribution t t0 (unflatten en psi) (fun _ => 0) i)).const_add (unflatten en psi i)
      simpa using h
    have e : (fun i => unflatten en psi i + ((t - t : ℝ) : ℂ) * b.addContribution t t0 (unflatten en psi) (fun _ => 0) i) = unflatten en psi := by funext i; simp
    have h := (hb t0 t (fun s i => unflatten en psi i + ((s - t : ℝ) : ℂ) * b.addContribution t t0 (unflatten en psi) (fun _ => 0) i) (fun i _ => by rw [e]; exact hd i) (en k) (enum_box hl en k)).2
    simp only [hu, e] at h
    rw [matAction_enum] at h
    exact (hd (en k)).unique h
  funext k
  rw [← key k]
  simp only [Master.Sys.rhs, Bin.toSys]
  by_cases hh : (b.free0.ha.isSome || b.free1.ha.isSome || b.ia.ha.isSome) = true
  · simp only [hh, if_true, hz]
  · simp only [hh]
    simp only [Bool.or_eq_true, not_or, Bool.not_eq_true, Option.isSome_eq_false_iff, Option.isNone_iff_eq_none] at hh
    simp [Bin.addContribution, contribution, hh.1.1, hh.1.2, hh.2]

theorem elementSch_ex {p : ModeEl.Pars} {zSch eta : ℂ} {li : Option Liouvillean} {e : Element} (h : ModeEl.elementSch p zSch eta li = .ok e) : e.ex = none := by
  unfold ModeEl.elementSch at h
  obtain ⟨_, -, h⟩ := bind_ok h
  injection h with h; subst h; rfl

theorem qbit_sch_ex {p : QbitEl.Pars} {e : Element} (h : QbitEl.make p .sch = .ok e) : e.ex = none := by
  unfold QbitEl.make at h
  split_ifs at h <;> exact elementSch_ex h

theorem mode_sch_ex {p : ModeEl.Pars} {e : Element} (h : makePumpedLossy p .sch = .ok e) : e.ex = none := by
  unfold makePumpedLossy makePumped makeLossy at h
  split_ifs at h <;> exact elementSch_ex h

/-- **C126.** The matrix script of the Jaynes-Cummings system (with all pumps and losses) in the Schrödinger picture: the matrix system has no jumps, and its state vector, which is that of the qbit and the mode in any order of storage,
follows the same equation as the binary system between jumps, `dψ/dt=Hψ` with the (non-Hermitian) Hamiltonian divided by `i`. -/
theorem jaynesCummings_matrix (pq : QbitEl.Pars) (pm : ModeEl.Pars) (g : ℂ) (hγ : 0 ≤ pq.gamma)
    (hd : pm.cutoff < 2 ^ 63) (h0 : 0 < pm.cutoff) (hκ : 0 ≤ pm.kappa) (hn : 0 ≤ pm.nTh) (hK : pm.omegaKerr = 0) (hA : pm.omegaKerrAlter = 0) :
    ∃ e0 e1 ia, QbitEl.make pq .sch = .ok e0 ∧ makePumpedLossy pm .sch = .ok e1 ∧ jaynesCummings [0, 1] (aop (qbitPtr pq .sch)) (modePtr pm .sch) g = .ok ia ∧
      ∀ (implemented : ℕ → Bool) (n : ℕ) (en : Enum (binary e0 e1 ia).lb (binary e0 e1 ia).ub n) (res0 : Fin n → Fin n → ℂ),
        ∃ ha, ((binary e0 e1 ia).toSys implemented en).matrixSystem res0 = .ok ⟨n, ha, none, true, none⟩ ∧ ∀ t0 t psi,
          (Element.toSys ⟨n, ha, none, true, none⟩).rhs t0 t psi = ((binary e0 e1 ia).toSys implemented en).rhs t0 t psi ∧
          (Element.toSys ⟨n, ha, none, true, none⟩).rhs t0 t psi = boxMat en (fun i j =>
            tensor (qbitH pq.gamma pq.delta pq.eta) one i j + tensor one (modeH (pm.kappa * (2 * pm.nTh + 1)) pm.delta pm.eta) i j + jcH g sigma sigmaDag i j) *ᵥ psi := by
  obtain ⟨e0, e1, ia, a1, a2, a3, a4⟩ := jaynesCummings_simulates pq pm g .sch .sch Iff.rfl hγ hd h0 hκ hn hK hA
  refine ⟨e0, e1, ia, a1, a2, a3, fun implemented n en res0 => ?_⟩
  have hr := binary_rhs (binary e0 e1 ia) (by simp [binary, freePart, qbit_sch_ex a1]) (by simp [binary, freePart, mode_sch_ex a2]) (jaynesCummings_fields a3).2.2.1 a4 rfl implemented en
  obtain ⟨ha, h1, h2⟩ := matrixSystem_rhs _ _ hr res0
  exact ⟨ha, h1, fun t0 t psi => ⟨h2 t0 t psi, (h2 t0 t psi).trans (hr t0 t psi)⟩⟩

/-- A pumped lossy qbit in a lossy cavity with three photon numbers. -/
example : ∃ e0 e1 ia, QbitEl.make ⟨-10, 2, 0, Complex.I⟩ .sch = .ok e0 ∧ makePumpedLossy ⟨3, 1, 0, 0, 2, 0, 3⟩ .sch = .ok e1 ∧ ∀ (implemented : ℕ → Bool) (n : ℕ) (en : Enum (binary e0 e1 ia).lb (binary e0 e1 ia).ub n),
    ∃ ha, ((binary e0 e1 ia).toSys implemented en).matrixSystem (fun _ _ => 5) = .ok ⟨n, ha, none, true, none⟩ ∧
      ∀ t0 t psi, (Element.toSys ⟨n, ha, none, true, none⟩).rhs t0 t psi = ((binary e0 e1 ia).toSys implemented en).rhs t0 t psi :=
  let ⟨e0, e1, ia, h1, h2, _, h4⟩ := jaynesCummings_matrix ⟨-10, 2, 0, Complex.I⟩ ⟨3, 1, 0, 0, 2, 0, 3⟩ (1 + Complex.I) (by norm_num) (by norm_num) (by norm_num) (by norm_num) (by norm_num) rfl rfl
  ⟨e0, e1, ia, h1, h2, fun i n en => let ⟨ha, a, b⟩ := h4 i n en fun _ _ => 5; ⟨ha, a, fun t0 t psi => (b t0 t psi).1⟩⟩

end CppQED.Interactions
