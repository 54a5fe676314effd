import Verif.Model.MathExtensions
import Mathlib.Analysis.SpecialFunctions.Stirling
import Mathlib.Analysis.SpecialFunctions.Exponential
import Mathlib.Data.Nat.Choose.Multinomial
import Mathlib.Data.Sym.Card
import Mathlib.Tactic

/-!
# Factorials, Fock and coherent states: C51
-/

namespace CppQED.Spec

/-- The components of the coherent state in Fock space. -/
noncomputable def coherentComponent (α : ℂ) (n : ℕ) : ℂ := (Real.exp (-‖α‖ ^ 2 / 2) : ℂ) * α ^ n / (Real.sqrt n.factorial : ℂ)

end CppQED.Spec

namespace CppQED.MathExt
open CppQED.Spec

/-- **C51.** -/
theorem fact_spec (n : ℕ) : (n ≤ 170 → fact n = .ok n.factorial) ∧ (170 < n → fact n = .throws) := by
  unfold fact
  exact ⟨fun h => if_neg (by omega), fun h => if_pos h⟩

/-- **C51.** The binomial is the number of subsets with `m` elements. -/
theorem choose_spec (n m : ℕ) : (m ≤ n → choose n m = .ok ((Finset.range n).powersetCard m).card) ∧ (n < m → choose n m = .gslError) := by
  unfold choose
  refine ⟨fun h => ?_, fun h => if_pos h⟩
  rw [if_neg (by omega), Finset.card_powersetCard, Finset.card_range]

/-- **C51.** `multiChoose` is the number of multisets with `k` elements. -/
theorem multiChoose_spec (n k : ℕ) : multiChoose n k = Fintype.card (Sym (Fin n) k) := by
  unfold multiChoose
  rw [Sym.card_sym_eq_choose, Fintype.card_fin]

theorem sqrAbs_eq (α : ℂ) : sqrAbs α = ‖α‖ ^ 2 := by
  rw [← Complex.normSq_eq_norm_sq, Complex.normSq_apply]; unfold sqrAbs; ring

/-- Stirling's approximation of the factorial. -/
noncomputable def stirling (n : ℕ) : ℝ := Real.sqrt (2 * Real.pi * n) * (n / Real.exp 1) ^ n

theorem log_stirling_le (n : ℕ) (hn : n ≠ 0) : Real.log (Stirling.stirlingSeq n) - Real.log (Real.sqrt Real.pi) ≤ 1 / (12 * n) := by
  have hpos : ∀ m : ℕ, m ≠ 0 → 0 < Stirling.stirlingSeq m := by
    intro m hm
    obtain ⟨k, rfl⟩ := Nat.exists_eq_succ_of_ne_zero hm
    exact Stirling.stirlingSeq'_pos k
  have step : ∀ k : ℕ, Real.log (Stirling.stirlingSeq n) - Real.log (Stirling.stirlingSeq (n + k)) ≤ 1 / (12 * n) - 1 / (12 * (n + k : ℕ)) := by
    intro k
    induction k with
    | zero => simp
    | succ k ih =>
      have h := Stirling.log_stirlingSeq_sdiff_le (n + k)
      have h0 : (0 : ℝ) < n + k := by
        have : (0 : ℝ) < n := by exact_mod_cast Nat.pos_of_ne_zero hn
        positivity
      have e : (1 : ℝ) / (12 * ((n + k : ℕ) : ℝ) * (((n + k : ℕ) : ℝ) + 1)) = 1 / (12 * (n + k : ℕ)) - 1 / (12 * (n + (k + 1) : ℕ)) := by
        push_cast
        field_simp
        ring
      rw [e] at h
      rw [show n + (k + 1) = n + k + 1 from rfl] at *
      linarith
  have hlim : Filter.Tendsto (fun k : ℕ => Real.log (Stirling.stirlingSeq n) - Real.log (Stirling.stirlingSeq (n + k))) Filter.atTop (nhds (Real.log (Stirling.stirlingSeq n) - Real.log (Real.sqrt Real.pi))) := by
    refine tendsto_const_nhds.sub ?_
    have h1 : Filter.Tendsto (fun k : ℕ => Stirling.stirlingSeq (n + k)) Filter.atTop (nhds (Real.sqrt Real.pi)) := by
      have := (Filter.tendsto_add_atTop_iff_nat n).2 Stirling.tendsto_stirlingSeq_sqrt_pi
      simpa [add_comm] using this
    exact h1.log (by positivity)
  refine le_of_tendsto hlim (Filter.Eventually.of_forall fun k => (step k).trans ?_)
  have : (0 : ℝ) ≤ 1 / (12 * (n + k : ℕ)) := by positivity
  linarith

theorem factorial_le (n : ℕ) (hn : n ≠ 0) : (n.factorial : ℝ) ≤ stirling n * Real.exp (1 / (12 * n)) := by
  have h := log_stirling_le n hn
  obtain ⟨k, hk⟩ := Nat.exists_eq_succ_of_ne_zero hn
  have hpos : 0 < Stirling.stirlingSeq n := by rw [hk]; exact Stirling.stirlingSeq'_pos k
  have h2 : Stirling.stirlingSeq n ≤ Real.sqrt Real.pi * Real.exp (1 / (12 * n)) := by
    rw [← Real.log_le_log_iff hpos (by positivity), Real.log_mul (by positivity) (by positivity), Real.log_exp]
    linarith
  have h0 : (0 : ℝ) < n := by exact_mod_cast Nat.pos_of_ne_zero hn
  unfold Stirling.stirlingSeq at h2
  rw [div_le_iff₀ (by positivity)] at h2
  refine h2.trans (le_of_eq ?_)
  unfold stirling
  rw [show 2 * Real.pi * n = Real.pi * (2 * n) by ring, Real.sqrt_mul Real.pi_pos.le]
  ring

theorem coherentElement_stirling {n : ℕ} (hn : 170 ≤ n) (α : ℂ) : coherentElement n α = α ^ n / (Real.sqrt (stirling n) : ℂ) := by
  have h0 : (0 : ℝ) < n := by exact_mod_cast (by omega : 0 < n)
  unfold coherentElement
  rw [if_pos (by omega), if_neg (by omega), div_pow, ← Complex.ofReal_pow]
  have e1 : (2 * n * Real.pi) ^ (-(1 / 4) : ℝ) = (Real.sqrt (Real.sqrt (2 * Real.pi * n)))⁻¹ := by
    rw [Real.rpow_neg (by positivity), Real.sqrt_eq_rpow, Real.sqrt_eq_rpow, ← Real.rpow_mul (by positivity)]
    rw [show 2 * n * Real.pi = 2 * Real.pi * n by ring]
    norm_num
  have e2 : Real.sqrt (stirling n) = Real.sqrt (Real.sqrt (2 * Real.pi * n)) * Real.sqrt (n / Real.exp 1) ^ n := by
    unfold stirling
    rw [Real.sqrt_mul (Real.sqrt_nonneg _)]
    congr 1
    rw [Real.sqrt_eq_iff_mul_self_eq (by positivity) (by positivity), ← mul_pow, Real.mul_self_sqrt (by positivity)]
  rw [e1, e2]
  push_cast
  field_simp

/-- **C51.** `coherentElement` is `α^n/√n!` for `n<170`, and also at the border where Stirling's formula takes over its relative error is never more than `exp(1/(24n))-1`, that is, 0.025%. -/
theorem coherentElement_spec (n : ℕ) (α : ℂ) : ∃ κ : ℝ, coherentElement n α = κ * (α ^ n / (Real.sqrt n.factorial : ℂ)) ∧ 1 ≤ κ ∧ (n < 170 → κ = 1) ∧ (170 ≤ n → κ ≤ Real.exp (1 / (24 * n))) := by
  by_cases hn : n < 170
  · refine ⟨1, ?_, le_refl _, fun _ => rfl, fun h => absurd h (by omega)⟩
    unfold coherentElement
    split_ifs with h0
    · simp
    · have : n = 0 := by simpa using h0
      subst this
      simp
  · have h0 : (0 : ℝ) < n := by exact_mod_cast (by omega : 0 < n)
    have hS : 0 < stirling n := by unfold stirling; positivity
    have hf : (0 : ℝ) < n.factorial := by exact_mod_cast n.factorial_pos
    refine ⟨Real.sqrt (n.factorial / stirling n), ?_, ?_, fun h => absurd h hn, fun _ => ?_⟩
    · rw [coherentElement_stirling (by omega), Real.sqrt_div hf.le]
      push_cast
      have h1 : ((Real.sqrt (n.factorial : ℝ) : ℝ) : ℂ) ≠ 0 := by exact_mod_cast (Real.sqrt_pos.2 hf).ne'
      have h2 : ((Real.sqrt (stirling n) : ℝ) : ℂ) ≠ 0 := by exact_mod_cast (Real.sqrt_pos.2 hS).ne'
      field_simp
    · rw [← Real.sqrt_one]
      exact Real.sqrt_le_sqrt ((one_le_div hS).2 (Stirling.le_factorial_stirling n))
    · rw [Real.sqrt_le_left (Real.exp_pos _).le, ← Real.exp_nat_mul, div_le_iff₀ hS]
      have := factorial_le n (by omega)
      rw [mul_comm] at this
      rw [show ((2 : ℕ) : ℝ) * (1 / (24 * n)) = 1 / (12 * n) by push_cast; field_simp; norm_num]
      exact this

theorem error_small {n : ℕ} (hn : 170 ≤ n) : Real.exp (1 / (24 * n)) ≤ 1.00025 := by
  have h0 : (170 : ℝ) ≤ n := by exact_mod_cast hn
  have h1 : (1 : ℝ) / (24 * n) ≤ 1 / 4080 := by
    apply one_div_le_one_div_of_le (by norm_num)
    linarith
  refine (Real.exp_le_exp.2 h1).trans ?_
  have := Real.exp_bound' (x := 1 / 4080) (by norm_num) (by norm_num) (n := 2) (by norm_num)
  refine this.trans ?_
  norm_num [Finset.sum_range_succ, Nat.factorial]

/-- **C51.** The components of the coherent state, exactly for cutoffs up to 170. -/
theorem coherent_components (α : ℂ) (dim : ℕ) (i : Fin dim) (hi : i.1 < 170) : coherent α dim i = coherentComponent α i := by
  obtain ⟨κ, h1, -, h2, -⟩ := coherentElement_spec i α
  unfold coherent coherentComponent
  rw [h1, h2 hi, sqrAbs_eq]
  push_cast
  ring

/-- **C51.** … and for any cutoff within 0.025%. -/
theorem coherent_components_large (α : ℂ) (dim : ℕ) (i : Fin dim) : ∃ κ : ℝ, coherent α dim i = κ * coherentComponent α i ∧ 1 ≤ κ ∧ κ ≤ 1.00025 := by
  obtain ⟨κ, h1, h2, h3, h4⟩ := coherentElement_spec i α
  refine ⟨κ, ?_, h2, ?_⟩
  · unfold coherent coherentComponent
    rw [h1, sqrAbs_eq]
    push_cast
    ring
  · by_cases h : i.1 < 170
    · rw [h3 h]; norm_num
    · exact (h4 (by omega)).trans (error_small (by omega))

theorem component_normSq (α : ℂ) (n : ℕ) : ‖coherentComponent α n‖ ^ 2 = Real.exp (-‖α‖ ^ 2) * ((‖α‖ ^ 2) ^ n / n.factorial) := by
  unfold coherentComponent
  have hf : (0 : ℝ) < n.factorial := by exact_mod_cast n.factorial_pos
  rw [norm_div, norm_mul, norm_pow, Complex.norm_real, Complex.norm_real, div_pow, mul_pow, Real.norm_of_nonneg (Real.exp_pos _).le, Real.norm_of_nonneg (Real.sqrt_nonneg _), Real.sq_sqrt hf.le, ← Real.exp_nat_mul]
  push_cast
  rw [show 2 * (-‖α‖ ^ 2 / 2) = -‖α‖ ^ 2 by ring, ← pow_mul, ← pow_mul, mul_comm n 2]
  ring

/-- **C51.** What the cutoff cuts off is the tail of the Poisson distribution: the norm is at most 1, and tends to 1 with the cutoff. -/
theorem coherent_norm (α : ℂ) : HasSum (fun n => ‖coherentComponent α n‖ ^ 2) 1 := by
  have h : HasSum (fun n : ℕ => (‖α‖ ^ 2) ^ n / (n.factorial : ℝ)) (Real.exp (‖α‖ ^ 2)) := by
    have := NormedSpace.expSeries_div_hasSum_exp (𝔸 := ℝ) (‖α‖ ^ 2)
    rwa [← Real.exp_eq_exp_ℝ] at this
  have := h.mul_left (Real.exp (-‖α‖ ^ 2))
  rw [← Real.exp_add, neg_add_cancel, Real.exp_zero] at this
  rwa [← funext (component_normSq α)] at this

theorem coherent_norm_le (α : ℂ) {dim : ℕ} (hd : dim ≤ 170) : ∑ i, ‖coherent α dim i‖ ^ 2 ≤ 1 := by
  have h : ∑ i, ‖coherent α dim i‖ ^ 2 = ∑ n ∈ Finset.range dim, ‖coherentComponent α n‖ ^ 2 := by
    rw [Finset.sum_range]
    exact Finset.sum_congr rfl fun i _ => by rw [coherent_components α dim i (by omega)]
  rw [h, ← (coherent_norm α).tsum_eq]
  exact (coherent_norm α).summable.sum_le_tsum _ fun n _ => by positivity

/-- **C51.** It is the eigenstate of the annihilation operator, up to the cutoff. -/
theorem coherent_eigen (α : ℂ) {dim : ℕ} (i j : Fin dim) (hij : j.1 = i.1 + 1) (hj : j.1 < 170) : Real.sqrt (i.1 + 1) * coherent α dim j = α * coherent α dim i := by
  rw [coherent_components α dim i (by omega), coherent_components α dim j hj]
  unfold coherentComponent
  rw [hij, Nat.factorial_succ, pow_succ]
  push_cast
  have h1 : ((Real.sqrt (i.1 + 1) : ℝ) : ℂ) ≠ 0 := by
    have : (0 : ℝ) < i.1 + 1 := by positivity
    exact_mod_cast (Real.sqrt_pos.2 this).ne'
  have h2 : ((Real.sqrt (i.1.factorial : ℝ) : ℝ) : ℂ) ≠ 0 := by
    have : (0 : ℝ) < i.1.factorial := by exact_mod_cast i.1.factorial_pos
    exact_mod_cast (Real.sqrt_pos.2 this).ne'
  rw [Real.sqrt_mul (by positivity)]
  push_cast
  field_simp
  ring

/-- **C51.** -/
theorem fock_spec (n dim : ℕ) (φ : ℝ) :
    (dim ≤ n → fock n dim φ = .throws) ∧ (∀ h : n < dim, ∃ ψ, fock n dim φ = .ok ψ ∧ ψ ⟨n, h⟩ = Complex.exp (Complex.I * φ) ∧ (∀ i, i.1 ≠ n → ψ i = 0) ∧ ∑ i, ‖ψ i‖ ^ 2 = 1) := by
  unfold fock
  refine ⟨fun h => if_pos h, fun h => ⟨_, if_neg (by omega), by simp, fun i hi => by simp [hi], ?_⟩⟩
  rw [Finset.sum_eq_single ⟨n, h⟩]
  · simp only [if_true]
    rw [mul_comm, Complex.norm_exp_ofReal_mul_I]
    norm_num
  · intro b _ hb
    have : b.1 ≠ n := fun e => hb (Fin.ext e)
    simp [this]
  · simp

/-- **C51.** `init`: a Fock state if `minitFock` is given, a coherent state otherwise, and nothing else. -/
theorem init_spec (nF : ℕ) (α : ℂ) (dim : ℕ) :
    (nF = 0 → init nF α dim = .ok (coherent α dim)) ∧ (nF ≠ 0 → init nF α dim = fock nF dim 0) := by
  unfold init
  exact ⟨fun h => by simp [h], fun h => by simp [h]⟩

example : ∃ ψ, fock 3 5 0 = .ok ψ ∧ ψ ⟨3, by norm_num⟩ = 1 := by
  obtain ⟨ψ, h1, h2, -⟩ := (fock_spec 3 5 0).2 (by norm_num)
  exact ⟨ψ, h1, by simpa using h2⟩

end CppQED.MathExt
