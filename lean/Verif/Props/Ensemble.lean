import Verif.Model.Ensemble
import Verif.Props.QuantumData
import Verif.Props.Trajectory

/-!
# Properties C43 (ensemble averages), C44 (random streams), C45 and C64 (exact propagation cache)
-/

namespace CppQED.Ensemble
open CppQED.CMat CppQED.QD
open ComplexConjugate ComplexOrder

/-! ## C43 -/

theorem matrixView_ofMatrixView (rho : Array) (D : ℕ) (m : Mat) (i j : ℕ) (hj : j < D) : matrixView (ofMatrixView rho D m) D i j = m i j := by
  simp only [matrixView, ofMatrixView]
  have hd : (i * D + j) / D = i := by rw [mul_comm, Nat.mul_add_div (by omega), Nat.div_eq_of_lt hj, add_zero]
  have hm : (i * D + j) % D = j := by rw [mul_comm, Nat.mul_add_mod, Nat.mod_eq_of_lt hj]
  rw [hd, hm]

/-- **C43.** The density operator of an ensemble is the arithmetic mean of the dyads of its members, whatever the buffer for the result contained before. -/
theorem averageDensity_eq (rho psi : Array) (psis : List Array) (hs : ∀ phi ∈ psis, phi.shape = psi.shape) (i j : ℕ) (hj : j < psi.shape.prod) :
    matrixView (averageDensity rho psi psis) psi.shape.prod i j =
      ((psi :: psis).map fun phi => phi.data i * conj (phi.data j)).sum / ((psi :: psis).length : ℂ) := by
  have key : ∀ (psis : List Array), (∀ phi ∈ psis, phi.shape = psi.shape) → ∀ r : Array,
      matrixView (psis.foldl (fun rho psi => addTo psi rho 1) r) psi.shape.prod i j =
        matrixView r psi.shape.prod i j + (psis.map fun phi => phi.data i * conj (phi.data j)).sum := by
    intro psis
    induction psis with
    | nil => intro _ r; simp
    | cons phi psis ih =>
      intro h r
      rw [List.foldl_cons, ih (fun q hq => h q (by simp [hq])), List.map_cons, List.sum_cons, ← add_assoc]
      congr 1
      have hphi := h phi (by simp)
      rw [addTo, hphi]
      rw [matrixView_ofMatrixView _ _ _ _ _ hj]
      simp
  have hdiv : ∀ (a : Array) (c : ℝ), matrixView (divBy a c) psi.shape.prod i j = matrixView a psi.shape.prod i j / (c : ℂ) := fun a c => rfl
  unfold averageDensity
  simp only
  rw [hdiv, key psis hs, assignDyad, matrixView_ofMatrixView _ _ _ _ _ hj, List.map_cons, List.sum_cons, List.length_cons]
  simp

/-- The matrix of the density operator of an ensemble. -/
noncomputable def averageMatrix (rho psi : Array) (psis : List Array) : Matrix (Fin psi.shape.prod) (Fin psi.shape.prod) ℂ :=
  Matrix.of fun i j => matrixView (averageDensity rho psi psis) psi.shape.prod i j

theorem averageMatrix_eq (rho psi : Array) (psis : List Array) (hs : ∀ phi ∈ psis, phi.shape = psi.shape) :
    averageMatrix rho psi psis = (((psi :: psis).length : ℂ)⁻¹) •
      ((psi :: psis).map fun phi => Matrix.vecMulVec (fun i : Fin psi.shape.prod => phi.data i) (star fun i : Fin psi.shape.prod => phi.data i)).sum := by
  ext i j
  simp only [averageMatrix, Matrix.of_apply]
  rw [averageDensity_eq rho psi psis hs i j j.2, div_eq_inv_mul]
  simp only [Matrix.smul_apply, smul_eq_mul]
  congr 1
  generalize psi :: psis = L
  induction L with
  | nil => simp
  | cons phi L ih => rw [List.map_cons, List.sum_cons, List.map_cons, List.sum_cons, Matrix.add_apply, ← ih]; simp [Matrix.vecMulVec_apply]

/-- **C43.** It is positive semidefinite, hence Hermitian. -/
theorem averageMatrix_posSemidef (rho psi : Array) (psis : List Array) (hs : ∀ phi ∈ psis, phi.shape = psi.shape) : (averageMatrix rho psi psis).PosSemidef := by
  rw [averageMatrix_eq rho psi psis hs]
  refine Matrix.PosSemidef.smul ?_ (by positivity)
  generalize psi :: psis = L
  induction L with
  | nil => simpa using Matrix.PosSemidef.zero
  | cons phi L ih =>
    rw [List.map_cons, List.sum_cons]
    exact (Matrix.posSemidef_vecMulVec_self_star _).add ih

/-- **C43.** Its trace is the mean of the squared norms of the members, in particular 1 if all the members are normalised. -/
theorem averageMatrix_trace (rho psi : Array) (psis : List Array) (hs : ∀ phi ∈ psis, phi.shape = psi.shape) :
    (averageMatrix rho psi psis).trace = ((((psi :: psis).map fun phi => svNorm phi ^ 2).sum / (psi :: psis).length : ℝ) : ℂ) ∧
    ((∀ phi ∈ psi :: psis, svNorm phi = 1) → (averageMatrix rho psi psis).trace = 1) := by
  have h1 : (averageMatrix rho psi psis).trace = ((((psi :: psis).map fun phi => svNorm phi ^ 2).sum / (psi :: psis).length : ℝ) : ℂ) := by
    rw [averageMatrix_eq rho psi psis hs, Matrix.trace_smul, smul_eq_mul, Complex.ofReal_div, div_eq_inv_mul, Complex.ofReal_natCast]
    congr 1
    have hs' : ∀ phi ∈ psi :: psis, phi.shape = psi.shape := by
      intro phi hphi
      rcases List.mem_cons.1 hphi with rfl | h
      · rfl
      · exact hs phi h
    generalize psi :: psis = L at hs'
    induction L with
    | nil => simp
    | cons phi L ih =>
      rw [List.map_cons, List.sum_cons, List.map_cons, List.sum_cons, Matrix.trace_add, ih (fun q hq => hs' q (by simp [hq])), Complex.ofReal_add]
      congr 1
      rw [svNorm_sq, hs' phi (by simp), ← Fin.sum_univ_eq_sum_range (fun k => Complex.normSq (phi.data k))]
      simp only [Matrix.trace, Matrix.diag_apply, Matrix.vecMulVec_apply, Pi.star_apply, Complex.ofReal_sum]
      apply Finset.sum_congr rfl
      intro k _
      exact Complex.mul_conj _
  refine ⟨h1, fun hn => ?_⟩
  rw [h1]
  have : ((psi :: psis).map fun phi => svNorm phi ^ 2) = (psi :: psis).map fun _ => (1 : ℝ) := List.map_congr_left fun phi hphi => by rw [hn phi hphi]; norm_num
  rw [this]
  simp only [List.map_const', List.sum_replicate, nsmul_eq_mul, mul_one]
  rw [div_self]
  · simp
  · simp only [List.length_cons]; positivity

/-- **C43.** It does not depend on the order of the members, nor on the content of the buffer. -/
theorem averageDensity_perm (rho rho' psi psi' : Array) (psis psis' : List Array) (hs : ∀ phi ∈ psis, phi.shape = psi.shape)
    (hp : (psi :: psis).Perm (psi' :: psis')) (i j : ℕ) (hj : j < psi.shape.prod) :
    matrixView (averageDensity rho psi psis) psi.shape.prod i j = matrixView (averageDensity rho' psi' psis') psi'.shape.prod i j := by
  have hs0 : ∀ phi ∈ psi :: psis, phi.shape = psi.shape := by
    intro phi hphi
    rcases List.mem_cons.1 hphi with rfl | h
    · rfl
    · exact hs phi h
  have hpsi' : psi'.shape = psi.shape := hs0 psi' (hp.mem_iff.2 (by simp))
  have hs' : ∀ phi ∈ psis', phi.shape = psi'.shape := fun phi hphi => by rw [hpsi']; exact hs0 phi (hp.mem_iff.2 (by simp [hphi]))
  rw [averageDensity_eq rho psi psis hs i j hj, averageDensity_eq rho' psi' psis' hs' i j (by rw [hpsi']; exact hj), hp.length_eq, (hp.map _).sum_eq]

/-- **C43.** The expectation value of any operator in the averaged density operator is the mean of those in the members. -/
theorem averageMatrix_expectation (rho psi : Array) (psis : List Array) (hs : ∀ phi ∈ psis, phi.shape = psi.shape)
    (A : Matrix (Fin psi.shape.prod) (Fin psi.shape.prod) ℂ) :
    (A * averageMatrix rho psi psis).trace =
      ((psi :: psis).map fun phi => ∑ i : Fin psi.shape.prod, ∑ j : Fin psi.shape.prod, conj (phi.data i) * A i j * phi.data j).sum / ((psi :: psis).length : ℂ) := by
  rw [averageMatrix_eq rho psi psis hs, Matrix.mul_smul, Matrix.trace_smul, smul_eq_mul, div_eq_inv_mul]
  congr 1
  generalize psi :: psis = L
  induction L with
  | nil => simp
  | cons phi L ih =>
    rw [List.map_cons, List.sum_cons, Matrix.mul_add, Matrix.trace_add, ih, List.map_cons, List.sum_cons]
    congr 1
    simp only [Matrix.trace, Matrix.diag_apply, Matrix.mul_apply, Matrix.vecMulVec_apply, Pi.star_apply]
    apply Finset.sum_congr rfl
    intro i _
    apply Finset.sum_congr rfl
    intro j _
    show A i j * (phi.data j * conj (phi.data i)) = _
    ring

/-- The naive average and the average of the time steps are the arithmetic means. -/
theorem averageNaive_eq (a : ℝ) (as : List ℝ) : averageNaive a as = (a :: as).sum / ((a :: as).length : ℝ) := by
  unfold averageNaive
  have : ∀ (as : List ℝ) (a : ℝ), as.foldl (fun init s => init + s) a = a + as.sum := by
    intro as
    induction as with
    | nil => simp
    | cons b as ih => intro a; rw [List.foldl_cons, ih, List.sum_cons, add_assoc]
  rw [this]
  simp

/-- The time step reported by the ensemble is the arithmetic mean of those of its members. -/
theorem dtDid_eq (dts : List ℝ) : dtDid dts = dts.sum / (dts.length : ℝ) := by
  unfold dtDid
  have : ∀ (as : List ℝ) (a : ℝ), as.foldl (fun init s => init + s) a = a + as.sum := by
    intro as
    induction as with
    | nil => simp
    | cons b as ih => intro a; rw [List.foldl_cons, ih, List.sum_cons, add_assoc]
  rw [this, zero_add]

example : dtDid [1, 2, 6] = 3 := by rw [dtDid_eq]; norm_num

/-- **C43.** Each of the members is advanced over the same time, in its place, and they remain synchronised; the ensemble satisfies what the driver requires of a trajectory (C35–C37). -/
theorem ensemble_advance {σ ρ : Type*} (I : Traj.Iface σ ρ) (hI : ∀ d s, 0 < d → I.time (I.advance d s) = I.time s + d) (s : σ × List σ) (d : ℝ) (hd : 0 < d) :
    List.Forall₂ (fun m₀ m => m = I.advance d m₀ ∧ I.time m = I.time m₀ + d) (s.1 :: s.2) (((ensemble I).advance d s).1 :: ((ensemble I).advance d s).2) ∧
    ((∀ m ∈ s.2, I.time m = I.time s.1) → ∀ m ∈ ((ensemble I).advance d s).2, I.time m = (ensemble I).time ((ensemble I).advance d s)) := by
  refine ⟨.cons ⟨rfl, hI d s.1 hd⟩ ?_, ?_⟩
  · show List.Forall₂ _ s.2 (s.2.map (I.advance d))
    rw [List.forall₂_map_right_iff]
    exact List.forall₂_same.2 fun m _ => ⟨rfl, hI d m hd⟩
  · intro hsync m hm
    obtain ⟨m₀, h0, rfl⟩ := List.mem_map.1 hm
    show I.time (I.advance d m₀) = I.time (I.advance d s.1)
    rw [hI d m₀ hd, hI d s.1 hd, hsync m₀ h0]

theorem ensemble_progress {σ ρ : Type*} (I : Traj.Iface σ ρ) (hI : ∀ d s, 0 < d → I.time (I.advance d s) = I.time s + d) : Spec.Progress (ensemble I) :=
  ⟨fun d s hd => hI d s.1 hd, fun d s hd => by show I.time s.1 < I.time (I.advance d s.1); rw [hI d s.1 hd]; linarith, fun d s hd => (hI d s.1 hd).le⟩

/-- **C43, C37.** Loading the saved state of an ensemble into one with the same number of members restores all the members. -/
theorem ensemble_load {σ ρ : Type*} (I : Traj.Iface σ ρ) (hI : Spec.FullySerialised I) (s s' : σ × List σ) (hl : s'.2.length = s.2.length) :
    (ensemble I).load ((ensemble I).save s) s' = s := by
  obtain ⟨s1, s2⟩ := s
  obtain ⟨s1', s2'⟩ := s'
  simp only [ensemble, Prod.mk.injEq]
  refine ⟨hI s1 s1', ?_⟩
  simp only at hl
  induction s2 generalizing s2' with
  | nil => simp
  | cons a s2 ih =>
    cases s2' with
    | nil => simp at hl
    | cons b s2' =>
      rw [List.map_cons, List.zipWith_cons_cons, hI a b, ih s2' (by simpa using hl)]

/-- An example: three clocks. -/
example : (ensemble Traj.clock).advance 2 ((1 : ℝ), [1, 1]) = (3, [3, 3]) := by
  simp only [ensemble, Traj.clock, List.map_cons, List.map_nil]
  norm_num

/-! ## C44 -/

/-- **C44.** Member number `i` uses the stream `prngStream+i` of the seed; the parameters are left ready for a subsequent ensemble. -/
theorem makeEnsemble_eq (n : ℕ) (p : RandomPars) (hp : p.prngStream < ulong) :
    (makeEnsemble n p).1 = (List.range n).map (fun i => (p.seed, (p.prngStream + i) % ulong)) ∧
    (makeEnsemble n p).2 = ⟨p.seed, (p.prngStream + n) % ulong⟩ := by
  induction n generalizing p with
  | zero =>
    obtain ⟨s, q⟩ := p
    simp only at hp
    simp [makeEnsemble, Nat.mod_eq_of_lt hp]
  | succ n ih =>
    have hU : 0 < ulong := by unfold ulong; norm_num
    obtain ⟨h1, h2⟩ := ih (incrementForNextStream p) (Nat.mod_lt _ hU)
    constructor
    · rw [makeEnsemble]
      simp only
      rw [h1, List.range_succ_eq_map, List.map_cons, List.map_map]
      congr 1
      · simp [make, Nat.mod_eq_of_lt hp]
      · apply List.map_congr_left
        intro i _
        simp only [Function.comp, incrementForNextStream, Nat.mod_add_mod, Prod.mk.injEq, true_and]
        congr 1
        omega
    · rw [makeEnsemble]
      simp only
      rw [h2]
      simp only [incrementForNextStream, Nat.mod_add_mod, RandomPars.mk.injEq, true_and]
      congr 1
      omega

theorem stream_injective (q i j : ℕ) (hi : i < ulong) (hj : j < ulong) (h : (q + i) % ulong = (q + j) % ulong) : i = j := by
  have : i ≡ j [MOD ulong] := Nat.ModEq.add_left_cancel' q h
  rw [Nat.ModEq, Nat.mod_eq_of_lt hi, Nat.mod_eq_of_lt hj] at this
  exact this

/-- **C44.** The streams of the members are different from each other. -/
theorem makeEnsemble_nodup (n : ℕ) (p : RandomPars) (hp : p.prngStream < ulong) (hn : n ≤ ulong) : (makeEnsemble n p).1.Nodup := by
  rw [(makeEnsemble_eq n p hp).1]
  refine List.Nodup.map_on ?_ List.nodup_range
  intro i hi j hj h
  simp only [List.mem_range] at hi hj
  exact stream_injective p.prngStream i j (by omega) (by omega) (Prod.mk.inj h).2

/-- **C44.** A second ensemble made from the same parameters does not reuse any stream of the first one. -/
theorem makeEnsemble_disjoint (n m : ℕ) (p : RandomPars) (hp : p.prngStream < ulong) (hn : n + m ≤ ulong) :
    (makeEnsemble n p).1.Disjoint (makeEnsemble m (makeEnsemble n p).2).1 := by
  have hU : 0 < ulong := by unfold ulong; norm_num
  obtain ⟨h1, h2⟩ := makeEnsemble_eq n p hp
  obtain ⟨h3, -⟩ := makeEnsemble_eq m (makeEnsemble n p).2 (by rw [h2]; exact Nat.mod_lt _ hU)
  rw [h1, h3, h2]
  intro x hx hy
  obtain ⟨i, hi, rfl⟩ := List.mem_map.1 hx
  obtain ⟨j, hj, h⟩ := List.mem_map.1 hy
  simp only [List.mem_range] at hi hj
  have h := (Prod.mk.inj h).2
  simp only [Nat.mod_add_mod] at h
  rw [add_assoc] at h
  have := stream_injective p.prngStream (n + j) i (by omega) (by omega) h
  omega

/-- **C44.** A member of an ensemble can be reproduced as a single trajectory with its stream number. -/
theorem makeEnsemble_reproduce (n : ℕ) (p : RandomPars) (hp : p.prngStream < ulong) (i : ℕ) (hi : i < n) :
    (makeEnsemble n p).1[i]? = some (make { p with prngStream := (p.prngStream + i) % ulong }) := by
  rw [(makeEnsemble_eq n p hp).1, List.getElem?_map, List.getElem?_range hi]
  rfl

/-- An example around the end of the range of stream numbers. -/
example : (makeEnsemble 3 ⟨1001, ulong - 1⟩).1 = [(1001, ulong - 1), (1001, 0), (1001, 1)] := by
  unfold ulong
  simp [makeEnsemble, make, incrementForNextStream, ulong]

/-! ## C45, C64 -/

variable {τ ι : Type*} [DecidableEq τ]

theorem history_inv (updateU : τ → ι → ℂ) (c : Cache τ ι) (hc : c.diagonal = updateU c.t) (calls : List (τ × (ι → ℂ))) :
    (history updateU c calls).diagonal = updateU (history updateU c calls).t := by
  induction calls generalizing c with
  | nil => exact hc
  | cons x calls ih =>
    refine ih _ ?_
    unfold actWithU
    simp only
    by_cases h : x.1 ≠ c.t
    · rw [if_pos h]
    · rw [if_neg h]; exact hc

/-- **C45.** After any history of calls containing one with a nonzero time, or for a nonzero time after any history, the action is the multiplication with the diagonal of the
requested time: the cache never supplies that of another time, nor its uninitialised content. -/
theorem actWithU_correct (updateU : τ → ι → ℂ) (garbage : ι → ℂ) (zero : τ) (calls : List (τ × (ι → ℂ))) (t : τ) (psi : ι → ℂ)
    (h : t ≠ zero ∨ ∃ x ∈ calls, x.1 ≠ zero) :
    (actWithU updateU (history updateU (freeExact garbage zero) calls) t psi).1 = fun i => psi i * updateU t i := by
  have main : ∀ c : Cache τ ι, c.diagonal = updateU c.t ∨ t ≠ c.t → (actWithU updateU c t psi).1 = fun i => psi i * updateU t i := by
    intro c hc
    unfold actWithU
    simp only
    by_cases ht : t ≠ c.t
    · rw [if_pos ht]
    · rw [if_neg ht]
      rcases hc with hc | hc
      · rw [hc, ← not_ne_iff.1 ht]
      · exact absurd hc ht
  -- either the cache is valid, or no call has had a nonzero time
  have key : ∀ calls : List (τ × (ι → ℂ)), (history updateU (freeExact garbage zero) calls).diagonal = updateU (history updateU (freeExact garbage zero) calls).t ∨
      ((∀ x ∈ calls, x.1 = zero) ∧ (history updateU (freeExact garbage zero) calls).t = zero) := by
    intro calls
    induction calls using List.reverseRecOn with
    | nil => exact Or.inr ⟨by simp, rfl⟩
    | append_singleton calls x ih =>
      have e : history updateU (freeExact garbage zero) (calls ++ [x]) = (actWithU updateU (history updateU (freeExact garbage zero) calls) x.1 x.2).2 := by
        unfold history; rw [List.foldl_append]; rfl
      rw [e]
      unfold actWithU
      simp only
      by_cases hx : x.1 ≠ (history updateU (freeExact garbage zero) calls).t
      · rw [if_pos hx]; exact Or.inl rfl
      · rw [if_neg hx]
        rcases ih with ih | ⟨ih1, ih2⟩
        · exact Or.inl ih
        · refine Or.inr ⟨?_, ih2⟩
          intro y hy
          rcases List.mem_append.1 hy with hy | hy
          · exact ih1 y hy
          · rw [List.mem_singleton] at hy
            rw [hy, not_ne_iff.1 hx, ih2]
  apply main
  rcases key calls with hk | ⟨hk1, hk2⟩
  · exact Or.inl hk
  · rcases h with h | ⟨x, hx, hxz⟩
    · right; rw [hk2]; exact h
    · exact absurd (hk1 x hx) hxz

/-- An example: the calls are at times 1, 2, 2, 1. -/
example (garbage psi : Fin 2 → ℂ) (U : ℕ → Fin 2 → ℂ) :
    (actWithU U (history U (freeExact garbage 0) [(1, psi), (2, psi), (2, psi)]) 1 psi).1 = fun i => psi i * U 1 i :=
  actWithU_correct U garbage 0 _ 1 psi (Or.inl (by norm_num))

/-- **C64**, the part that holds: a zero time in the first call is all right only if the memory of the diagonal happens to contain the correct values (on the nonzero amplitudes). -/
theorem zero_time_partial (updateU : τ → ι → ℂ) (garbage : ι → ℂ) (zero : τ) (psi : ι → ℂ) :
    (actWithU updateU (freeExact garbage zero) zero psi).1 = (fun i => psi i * updateU zero i) ↔ ∀ i, psi i ≠ 0 → garbage i = updateU zero i := by
  unfold actWithU freeExact
  simp only [ne_eq, not_true_eq_false, if_false]
  rw [funext_iff]
  constructor
  · intro h i hi
    exact mul_left_cancel₀ hi (h i)
  · intro h i
    by_cases hi : psi i = 0
    · rw [hi]; simp
    · rw [h i hi]

/-- **C64**, the violated part: the first call with time zero, where the propagator should be the identity, multiplies the state vector with the uninitialised content. -/
theorem zero_time_garbage (updateU : ℝ → Fin 1 → ℂ) (hU : updateU 0 = 1) (t0 : ℝ) :
    ∃ garbage psi : Fin 1 → ℂ, (actWithU updateU (freeExact garbage (oneTime 0 0)) (oneTime t0 t0) psi).1 ≠ psi := by
  have e : ∀ t, oneTime t t = 0 := fun t => sub_self t
  rw [e, e]
  refine ⟨fun _ => 2, fun _ => 1, fun h => ?_⟩
  have := (zero_time_partial updateU (fun _ => 2) 0 (fun _ => 1)).1 (by rw [h, hU]; simp) 0 one_ne_zero
  rw [hU] at this
  norm_num at this

/-- **C45.** Of the two kinds of times the diagonal is stored for, one distinguishes the calls by both the time and the beginning of the step, the other by the time elapsed. -/
theorem times_spec (t t0 s s0 : ℝ) : (twoTime t t0 = twoTime s s0 ↔ t = s ∧ t0 = s0) ∧ (oneTime t t0 = oneTime s s0 ↔ t - t0 = s - s0) := by
  simp [twoTime, oneTime]

end CppQED.Ensemble
