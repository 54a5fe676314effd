import Verif.Props.Interactions

/-! # What a binary system must contain in order to simulate a Hamiltonian -/

namespace CppQED.Interactions
open CppQED.Elem CppQED.Tridiag CppQED.ModeEl CppQED.Spec CppQED.Composite
open CppQED.MII (Idx)
open CppQED.Slice (Arr sliceBound)
open CppQED.PTrace
open ComplexConjugate

/-- The propagator of a binary system the interaction of which has no exact part. -/
theorem binary_actWithU (e0 e1 : Element) (ia : Part) (h0 : 0 < e0.dim) (h1 : 0 < e1.dim) {w0 w1 : ℕ → ℂ} {H0 H1 : Dens} {J0 J1 : List Dens}
    (f0 : FreeIs e0 w0 H0 J0) (f1 : FreeIs e1 w1 H1 J1) (hex : ia.ex = none) (t t0 : ℝ) (x : Arr ℂ) (i : Idx) (hi : InBox (binary e0 e1 ia).lb (binary e0 e1 ia).ub i) :
    (binary e0 e1 ia).actWithU t t0 x i = x i * Complex.exp (-((w0 (q i 0) + w1 (q i 1)) * (t - t0 : ℝ))) := by
  obtain ⟨V0, a0, b0, -, c0⟩ := f0
  obtain ⟨V1, a1, b1, -, c1⟩ := f1
  have hes := validBounds_of [e0, e1] (by simp) (by simpa using ⟨h0, h1⟩)
  have := bin_actWithU (binary e0 e1 ia) hes rfl t t0 _ _ (fun _ => 1) (freePart_ex e0 w0 b0 _ _ 0 (by rfl) t t0) (freePart_ex e1 w1 b1 _ _ 1 (by rfl) t t0)
    (by change match ia.ex with | none => _ | some ex => _; rw [hex]; simp) x i hi
  rw [this, mul_one, ← Complex.exp_add]
  simp only [List.getD_cons_zero, q]
  congr 2
  ring

/-- If a binary system simulates the Hamiltonian `H`, then its interaction contributes the part of `H` beyond the Hamiltonians of the free elements, in the interaction picture of these. -/
theorem binary_converse (e0 e1 : Element) (ia : Part) (h0 : 0 < e0.dim) (h1 : 0 < e1.dim) {w0 w1 : ℕ → ℂ} {H0 H1 : Dens} {J0 J1 : List Dens}
    (f0 : FreeIs e0 w0 H0 J0) (f1 : FreeIs e1 w1 H1 J1) (hex : ia.ex = none) {ha : ℝ → ℝ → Arr ℂ → Arr ℂ → Arr ℂ} (hha : ia.ha = some ha) (K : ℝ → ℝ → Idx → Idx → ℂ)
    (hK : ∀ t t0 psi dpsidt s, InBox (binary e0 e1 ia).lb (binary e0 e1 ia).ub s → ha t t0 psi dpsidt s = dpsidt s + matAction (binary e0 e1 ia).lb (binary e0 e1 ia).ub (K t t0) psi s)
    {H : Idx → Idx → ℂ} (hs : BinSimulates (binary e0 e1 ia) H) (t t0 : ℝ) {s s' : Idx} (hi : InBox (binary e0 e1 ia).lb (binary e0 e1 ia).ub s)
    (hj : InBox (binary e0 e1 ia).lb (binary e0 e1 ia).ub s') :
    K t t0 s s' = rotating [w0, w1] (fun i j => H i j - tensor H0 one i j - tensor one H1 i j) (t - t0) s s' := by
  set V : Idx → Idx → ℂ := fun i j => H i j - tensor H0 one i j - tensor one H1 i j with hV
  let ia' : Part := interaction [0, 1] (some fun t t0 psi dpsidt s => dpsidt s + matAction (lower [e0.dim, e1.dim]) (upper [e0.dim, e1.dim]) (rotating [w0, w1] V (t - t0)) psi s)
  have hc : Couples ia' [e0.dim, e1.dim] [w0, w1] V := ⟨rfl, fun t t0 psi dpsidt s _ => rfl⟩
  have hs' : BinSimulates (binary e0 e1 ia') H := by
    have := binary_simulates e0 e1 ia' h0 h1 f0 f1 hc
    have e : (fun i j => tensor H0 one i j + tensor one H1 i j + V i j) = H := by funext i j; simp only [hV]; ring
    rwa [e] at this
  set lb := (binary e0 e1 ia).lb with hlb
  set ub := (binary e0 e1 ia).ub with hub
  let φ : Arr ℂ := fun j => if j = s' then 1 else 0
  let A : Arr ℂ := (binary e0 e1 ia).addContribution t t0 φ (fun _ => 0)
  let A' : Arr ℂ := (binary e0 e1 ia').addContribution t t0 φ (fun _ => 0)
  have line : ∀ (B : Arr ℂ) (i : Idx), HasDerivAt (fun r : ℝ => φ i + ((r - t : ℝ) : ℂ) * B i) (B i) t := by
    intro B i
    have h := (((hasDerivAt_id t).sub_const t).ofReal_comp.mul_const (B i)).const_add (φ i)
    simpa using h
  have at0 : ∀ B : Arr ℂ, (fun i => φ i + ((t - t : ℝ) : ℂ) * B i) = φ := by intro B; funext i; simp
  have d := (hs t0 t (fun r i => φ i + ((r - t : ℝ) : ℂ) * A i) (fun i _ => by
    have := line A i
    simpa only [at0] using this) s hi).2
  have d' := (hs' t0 t (fun r i => φ i + ((r - t : ℝ) : ℂ) * A' i) (fun i _ => by
    have := line A' i
    simpa only [at0] using this) s hi).2
  simp only [at0] at d d'
  have hU := fun (x : Arr ℂ) r i hi => binary_actWithU e0 e1 ia h0 h1 f0 f1 hex r t0 x i hi
  have hU' := fun (x : Arr ℂ) r i hi => binary_actWithU e0 e1 ia' h0 h1 f0 f1 rfl r t0 x i hi
  have hm : matAction lb ub H ((binary e0 e1 ia).actWithU t t0 φ) s = matAction (binary e0 e1 ia').lb (binary e0 e1 ia').ub H ((binary e0 e1 ia').actWithU t t0 φ) s := by
    refine Finset.sum_congr rfl fun j hj => ?_
    have hj' := (mem_boxFinset lb ub j (by simp [hlb, hub, binary])).1 hj
    rw [hU φ t j hj', hU' φ t j hj']
  rw [hm] at d
  have dd := d.sub d'
  rw [sub_self] at dd
  have E : ∀ r : ℝ, ((fun r => (binary e0 e1 ia).actWithU r t0 (fun i => φ i + ((r - t : ℝ) : ℂ) * A i) s) - fun r => (binary e0 e1 ia').actWithU r t0 (fun i => φ i + ((r - t : ℝ) : ℂ) * A' i) s) r =
      (((r - t : ℝ) : ℂ) * (A s - A' s)) * Complex.exp (-((w0 (q s 0) + w1 (q s 1)) * (r - t0 : ℝ))) := by
    intro r
    simp only [Pi.sub_apply]
    rw [hU _ r s hi, hU' _ r s hi]
    ring
  rw [show _ = _ from funext E] at dd
  have d2 : HasDerivAt (fun r : ℝ => ((r - t : ℝ) : ℂ) * (A s - A' s)) (A s - A' s) t := by
    have h := ((hasDerivAt_id t).sub_const t).ofReal_comp.mul_const (A s - A' s)
    simpa using h
  have d3 := picture_hasDerivAt (w0 (q s 0) + w1 (q s 1)) t0 t _ _ d2
  have e := dd.unique d3
  simp only [sub_self, Complex.ofReal_zero, zero_mul, mul_zero, sub_zero] at e
  have hA : A s = A' s := by
    rcases mul_eq_zero.1 e.symm with h | h
    · exact sub_eq_zero.1 h
    · exact absurd h (Complex.exp_ne_zero _)
  have a1 : A s = (contribution 2 lb ub t t0 φ (contribution 2 lb ub t t0 φ (fun _ => 0) { freePart e0 with axes := [0] }) { freePart e1 with axes := [1] }) s + matAction lb ub (K t t0) φ s := by
    rw [← hK _ _ _ _ _ hi]
    simp only [A, Bin.addContribution]
    rw [show (binary e0 e1 ia).ia.ha = some ha from hha]
    rfl
  have a2 : A' s = (contribution 2 lb ub t t0 φ (contribution 2 lb ub t t0 φ (fun _ => 0) { freePart e0 with axes := [0] }) { freePart e1 with axes := [1] }) s +
      matAction lb ub (rotating [w0, w1] V (t - t0)) φ s := rfl
  rw [a1, a2] at hA
  have hA := add_left_cancel hA
  have m := (mem_boxFinset lb ub s' (by simp [hlb, hub, binary])).2 hj
  simpa [matAction, φ, m] using hA

end CppQED.Interactions
