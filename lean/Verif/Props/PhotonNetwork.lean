import Verif.Spec.PhotonNetwork
import Verif.Props.SingleExcitation
import Mathlib.Data.List.GetD

/-! # Property C172: a photon hopping in a network of lossy modes -/

namespace CppQED.Interactions
open CppQED.Composite CppQED.PTrace CppQED.Slice CppQED.Elem CppQED.ModeEl CppQED.Spec CppQED.Master CppQED.Relax CppQED.Tridiag CppQED.MII Matrix
open scoped ComplexConjugate ComplexOrder

section basis

theorem photonAt_getD (N k m : ℕ) (hm : m < N) : (photonAt N k).getD m 0 = if m = k then 1 else 0 := by
  simp [photonAt, List.getD_eq_getElem?_getD, hm]

theorem vacuum_getD (N m : ℕ) : (vacuum N).getD m 0 = 0 := by
  by_cases h : m < N
  · simp [vacuum, List.getD_eq_getElem?_getD, h]
  · simp [vacuum, List.getD_eq_getElem?_getD, h]

theorem list_ext_getD {N : ℕ} {i j : List ℤ} (hi : i.length = N) (hj : j.length = N) (h : ∀ m < N, i.getD m 0 = j.getD m 0) : i = j := by
  refine List.ext_getElem (by omega) fun m h1 h2 => ?_
  have := h m (by omega)
  rwa [List.getD_eq_getElem _ _ h1, List.getD_eq_getElem _ _ h2] at this

@[simp] theorem photonAt_length (N k : ℕ) : (photonAt N k).length = N := by simp [photonAt]
@[simp] theorem vacuum_length (N : ℕ) : (vacuum N).length = N := by simp [vacuum]

theorem photonAt_inj {N k k' : ℕ} (hk : k < N) (h : photonAt N k = photonAt N k') : k = k' := by
  have := congrArg (fun l => l.getD k 0) h
  simp only [photonAt_getD N _ k hk, if_true] at this
  by_contra hne
  simp [hne] at this

theorem photonKet_at (N : ℕ) (a : ℕ → ℂ) (k : ℕ) (hk : k < N) : photonKet N a (photonAt N k) = a k := by
  unfold photonKet
  rw [Finset.sum_eq_single_of_mem k (Finset.mem_range.2 hk) fun b _ hb => if_neg fun h => hb (photonAt_inj hk h).symm]
  exact if_pos rfl

theorem photonKet_else (N : ℕ) (a : ℕ → ℂ) (i : List ℤ) (h : ∀ k < N, i ≠ photonAt N k) : photonKet N a i = 0 :=
  Finset.sum_eq_zero fun k hk => if_neg (h k (Finset.mem_range.1 hk))

/-- The photon is not in the vacuum. -/
theorem photonAt_ne_vacuum {N k : ℕ} (hk : k < N) : photonAt N k ≠ vacuum N := by
  intro h
  have := congrArg (fun l => l.getD k 0) h
  simp only [photonAt_getD N _ k hk, vacuum_getD, if_true] at this
  exact one_ne_zero this

end basis

section action
variable {D : List ℕ} {N : ℕ} (hD : D.length = N)

theorem inBox_nonneg {i : List ℤ} (hi : InBox (lower D) (upper D) i) : i.length = D.length ∧ ∀ m, 0 ≤ i.getD m 0 := by
  refine ⟨by simpa [lower] using hi.1, fun m => ?_⟩
  by_cases h : m < D.length
  · have := (hi.2 m (by simpa [lower] using h)).1
    simpa [lower, List.getD_eq_getElem?_getD, h] using this
  · have : i.length = D.length := by simpa [lower] using hi.1
    rw [List.getD_eq_default _ _ (by omega)]

include hD

theorem vacuum_mem (h0 : ∀ d ∈ D, 0 < d) : InBox (lower D) (upper D) (vacuum N) := by
  subst hD
  refine ⟨by simp [lower], fun m hm => ?_⟩
  have hm' : m < D.length := by simpa [lower] using hm
  have := h0 D[m] (List.getElem_mem _)
  rw [vacuum_getD]
  simp [lower, upper, List.getD_eq_getElem?_getD, hm']
  omega

theorem photonAt_mem (h1 : ∀ d ∈ D, 1 < d) (k : ℕ) : InBox (lower D) (upper D) (photonAt N k) := by
  subst hD
  refine ⟨by simp [lower], fun m hm => ?_⟩
  have hm' : m < D.length := by simpa [lower] using hm
  have := h1 D[m] (List.getElem_mem _)
  rw [photonAt_getD _ _ _ hm']
  simp [lower, upper, List.getD_eq_getElem?_getD, hm']
  split_ifs <;> constructor <;> omega

theorem photon_sum (h1 : ∀ d ∈ D, 1 < d) (F : List ℤ → ℂ) (a : ℕ → ℂ) :
    ∑ s ∈ boxFinset (lower D) (upper D), F s * photonKet N a s = ∑ k ∈ Finset.range N, F (photonAt N k) * a k := by
  have hlen : (upper D).length = (lower D).length := by simp [upper, lower]
  simp only [photonKet, Finset.mul_sum]
  rw [Finset.sum_comm]
  refine Finset.sum_congr rfl fun k _ => ?_
  rw [Finset.sum_eq_single_of_mem (photonAt N k) ((mem_boxFinset _ _ _ hlen).2 (photonAt_mem hD h1 k)) fun s _ hs => by rw [if_neg hs, mul_zero], if_pos rfl]

theorem vacuum_sum (h0 : ∀ d ∈ D, 0 < d) (F : List ℤ → ℂ) : ∑ s ∈ boxFinset (lower D) (upper D), F s * vacuumKet N s = F (vacuum N) := by
  have hlen : (upper D).length = (lower D).length := by simp [upper, lower]
  rw [Finset.sum_eq_single_of_mem (vacuum N) ((mem_boxFinset _ _ _ hlen).2 (vacuum_mem hD h0)) fun s _ hs => by rw [vacuumKet, if_neg hs, mul_zero], vacuumKet, if_pos rfl, mul_one]

end action

section elements
variable {N : ℕ} {i : List ℤ} (hi : i.length = N) (hi0 : ∀ m, 0 ≤ i.getD m 0)

open Classical in
theorem extend_at (m : ℕ) (O : Dens) (i j : List ℤ) : extend N [m] (Spec.single O) i j = if AgreeOff N [m] i j then O (i.getD m 0).toNat (j.getD m 0).toNat else 0 := by
  simp [extend, Spec.single, coords, q]

open Classical in
theorem extend_rwa (b c : ℕ) (u : ℂ) (i j : List ℤ) : extend N [b, c] (xxRwaH u) i j =
    if AgreeOff N [b, c] i j then conj u * (aOp (i.getD b 0).toNat (j.getD b 0).toNat * adOp (i.getD c 0).toNat (j.getD c 0).toNat) -
      u * (adOp (i.getD b 0).toNat (j.getD b 0).toNat * aOp (i.getD c 0).toNat (j.getD c 0).toNat) else 0 := by
  simp [extend, xxRwaH, tensor, coords, q]

include hi hi0

theorem agree_photon (m k : ℕ) (hm : m < N) : (AgreeOff N [m] i (photonAt N k) ∧ (i.getD m 0).toNat = if m = k then 1 else 0) ↔ i = photonAt N k := by
  constructor
  · rintro ⟨h, h'⟩
    refine list_ext_getD hi (photonAt_length N k) fun x hx => ?_
    by_cases hxm : x = m
    · subst hxm
      have := hi0 x
      rw [photonAt_getD _ _ _ hx]
      split_ifs at h' ⊢ <;> omega
    · exact h x hx (by simpa using hxm)
  · rintro rfl
    refine ⟨fun _ _ _ => rfl, ?_⟩
    rw [photonAt_getD _ _ _ hm]
    split_ifs <;> rfl

theorem agree_vacuum (m k : ℕ) (hm : m < N) (hk : m = k) : (AgreeOff N [m] i (photonAt N k) ∧ (i.getD m 0).toNat = 0) ↔ i = vacuum N := by
  subst hk
  constructor
  · rintro ⟨h, h'⟩
    refine list_ext_getD hi (vacuum_length N) fun x hx => ?_
    rw [vacuum_getD]
    by_cases hxm : x = m
    · subst hxm
      have := hi0 x
      omega
    · rw [h x hx (by simpa using hxm), photonAt_getD _ _ _ hx, if_neg hxm]
  · rintro rfl
    refine ⟨fun x hx hxm => ?_, by rw [vacuum_getD]; rfl⟩
    rw [vacuum_getD, photonAt_getD _ _ _ hx, if_neg (by simpa using hxm)]

/-- The link transfers the photon from `k=b` to `c`. -/
theorem agree_link (b c : ℕ) (hb : b < N) (hc : c < N) (hbc : b ≠ c) : (AgreeOff N [b, c] i (photonAt N b) ∧ (i.getD b 0).toNat = 0 ∧ (i.getD c 0).toNat = 1) ↔ i = photonAt N c := by
  constructor
  · rintro ⟨h, h1, h2⟩
    refine list_ext_getD hi (photonAt_length N c) fun x hx => ?_
    have := hi0 x
    rw [photonAt_getD _ _ _ hx]
    by_cases hxb : x = b
    · subst hxb
      rw [if_neg hbc]; omega
    · by_cases hxc : x = c
      · subst hxc
        rw [if_pos rfl]; omega
      · rw [h x hx (by simp [hxb, hxc]), photonAt_getD _ _ _ hx, if_neg hxb, if_neg hxc]
  · rintro rfl
    refine ⟨fun x hx hxm => ?_, ?_, ?_⟩
    · rw [photonAt_getD _ _ _ hx, photonAt_getD _ _ _ hx, if_neg (by simp at hxm; exact hxm.2), if_neg (by simp at hxm; exact hxm.1)]
    · rw [photonAt_getD _ _ _ hb, if_neg hbc]; rfl
    · rw [photonAt_getD _ _ _ hc, if_pos rfl]; rfl

theorem mode_element (κ δ : ℝ) (m k : ℕ) (hm : m < N) :
    extend N [m] (Spec.single (modeH κ δ 0)) i (photonAt N k) = if m = k ∧ i = photonAt N k then -(κ : ℂ) + Complex.I * δ else 0 := by
  have h := agree_photon hi hi0 m k hm
  have hj : ((photonAt N k).getD m 0).toNat = if m = k then 1 else 0 := by
    rw [photonAt_getD _ _ _ hm]; split_ifs <;> rfl
  rw [extend_at, hj]
  generalize (i.getD m 0).toNat = x at *
  by_cases hmk : m = k
  · subst hmk
    simp only [if_true, true_and] at h ⊢
    by_cases ha : AgreeOff N [m] i (photonAt N m)
    · rw [if_pos ha]
      by_cases hx : x = 1
      · rw [if_pos (h.1 ⟨ha, hx⟩), hx]
        simp [modeH, nOp]
        ring
      · rw [if_neg fun e => hx (h.2 e).2]
        simp [modeH, nOp, hx]
    · rw [if_neg ha, if_neg fun e => ha (h.2 e).1]
  · simp only [hmk, if_false, false_and]
    split_ifs
    · simp only [modeH, nOp, zero_mul, map_zero, add_zero, sub_zero]
      split_ifs with hx
      · rw [hx]; simp
      · simp
    · rfl

theorem link_element (b c : ℕ) (u : ℂ) (hb : b < N) (hc : c < N) (hbc : b ≠ c) (k : ℕ) :
    extend N [b, c] (xxRwaH u) i (photonAt N k) = (if k = b ∧ i = photonAt N c then conj u else 0) - if k = c ∧ i = photonAt N b then u else 0 := by
  have h1 := agree_link hi hi0 b c hb hc hbc
  have h2 := agree_link hi hi0 c b hc hb hbc.symm
  have hsw : ∀ j, AgreeOff N [c, b] i j ↔ AgreeOff N [b, c] i j := fun j => by
    have : ∀ a, a ∉ [c, b] ↔ a ∉ [b, c] := fun a => by simp [and_comm]
    simp only [AgreeOff, this]
  rw [hsw] at h2
  have hjb : ((photonAt N k).getD b 0).toNat = if b = k then 1 else 0 := by rw [photonAt_getD _ _ _ hb]; split_ifs <;> rfl
  have hjc : ((photonAt N k).getD c 0).toNat = if c = k then 1 else 0 := by rw [photonAt_getD _ _ _ hc]; split_ifs <;> rfl
  rw [extend_rwa, hjb, hjc]
  generalize (i.getD b 0).toNat = x at *
  generalize (i.getD c 0).toNat = y at *
  by_cases hkb : b = k
  · subst hkb
    simp only [hbc, hbc.symm, if_true, if_false, true_and, false_and, sub_zero]
    by_cases ha : AgreeOff N [b, c] i (photonAt N b)
    · rw [if_pos ha]
      by_cases hxy : x = 0 ∧ y = 1
      · rw [if_pos (h1.1 ⟨ha, hxy⟩), hxy.1, hxy.2]
        simp [aOp, adOp]
      · rw [if_neg fun e => hxy (h1.2 e).2]
        by_cases hx : x = 0
        · have hy : y ≠ 1 := fun hy => hxy ⟨hx, hy⟩
          simp [aOp, adOp, hx, hy]
        · simp [aOp, adOp, hx]
    · rw [if_neg ha, if_neg fun e => ha (h1.2 e).1]
  · by_cases hkc : c = k
    · subst hkc
      simp only [hbc, hbc.symm, if_true, if_false, true_and, false_and, zero_sub]
      by_cases ha : AgreeOff N [b, c] i (photonAt N c)
      · rw [if_pos ha]
        by_cases hxy : y = 0 ∧ x = 1
        · rw [if_pos (h2.1 ⟨ha, hxy⟩), hxy.1, hxy.2]
          simp [aOp, adOp]
        · rw [if_neg fun e => hxy (h2.2 e).2]
          by_cases hy : y = 0
          · have hx : x ≠ 1 := fun hx => hxy ⟨hy, hx⟩
            simp [aOp, adOp, hx, hy]
          · simp [aOp, adOp, hy]
      · rw [if_neg ha, if_neg fun e => ha (h2.2 e).1]
        simp
    · simp [hkb, hkc, Ne.symm hkb, Ne.symm hkc, aOp]

theorem jump_element (r : ℂ) (m k : ℕ) (hm : m < N) : extend N [m] (Spec.single (sc r aOp)) i (photonAt N k) = if m = k ∧ i = vacuum N then r else 0 := by
  have hj : ((photonAt N k).getD m 0).toNat = if m = k then 1 else 0 := by
    rw [photonAt_getD _ _ _ hm]; split_ifs <;> rfl
  rw [extend_at, hj]
  by_cases hmk : m = k
  · have h := agree_vacuum hi hi0 m k hm hmk
    subst hmk
    generalize (i.getD m 0).toNat = x at *
    simp only [if_true, true_and]
    by_cases ha : AgreeOff N [m] i (photonAt N m)
    · rw [if_pos ha]
      by_cases hx : x = 0
      · rw [if_pos (h.1 ⟨ha, hx⟩), hx]
        simp [sc, aOp]
      · rw [if_neg fun e => hx (h.2 e).2]
        simp [sc, aOp]
        omega
    · rw [if_neg ha, if_neg fun e => ha (h.2 e).1]
  · simp [hmk, sc, aOp]

omit hi hi0 in
theorem vacuum_elements (κ δ : ℝ) (r u : ℂ) (m b c : ℕ) : extend N [m] (Spec.single (modeH κ δ 0)) i (vacuum N) = 0 ∧ extend N [b, c] (xxRwaH u) i (vacuum N) = 0 ∧
    extend N [m] (Spec.single (sc r aOp)) i (vacuum N) = 0 := by
  rw [extend_at, extend_rwa, extend_at]
  simp only [vacuum_getD]
  refine ⟨?_, by simp [aOp], by simp [sc, aOp]⟩
  split_ifs
  · simp only [modeH, nOp, Int.toNat_zero, zero_mul, map_zero, add_zero, sub_zero]
    split_ifs with hx
    · rw [hx]; simp
    · simp
  · rfl

end elements

section solution
variable {N : ℕ} (κ δ : ℕ → ℝ) (links : List (ℕ × ℕ × ℂ))

/-- The Hamiltonian of the lossy network divided by `i`. -/
noncomputable def networkH (N : ℕ) (i j : List ℤ) : ℂ :=
  ∑ k ∈ Finset.range N, extend N [k] (Spec.single (modeH (κ k) (δ k) 0)) i j + (links.map fun l => extend N [l.1, l.2.1] (xxRwaH l.2.2) i j).sum

/-- The right-hand side of the equations of the amplitudes. -/
noncomputable def hopping (a : ℕ → ℂ) (k : ℕ) : ℂ :=
  (-κ k + Complex.I * δ k) * a k + (links.map fun l => (if l.2.1 = k then conj l.2.2 * a l.1 else 0) - if l.1 = k then l.2.2 * a l.2.1 else 0).sum

theorem vacuum_action (i : List ℤ) : networkH κ δ links N i (vacuum N) = 0 := by
  unfold networkH
  rw [Finset.sum_eq_zero fun k _ => (vacuum_elements (κ k) (δ k) 0 0 k 0 0).1, zero_add]
  refine List.sum_eq_zero fun x hx => ?_
  obtain ⟨l, -, rfl⟩ := List.mem_map.1 hx
  exact (vacuum_elements 0 0 0 l.2.2 0 l.1 l.2.1).2.1

theorem links_action (hl : ∀ l ∈ links, l.1 < N ∧ l.2.1 < N ∧ l.1 ≠ l.2.1) {i : List ℤ} (hi : i.length = N) (hi0 : ∀ m, 0 ≤ i.getD m 0) (a : ℕ → ℂ) :
    ∑ k ∈ Finset.range N, (links.map fun l => extend N [l.1, l.2.1] (xxRwaH l.2.2) i (photonAt N k)).sum * a k =
      (links.map fun l => (if i = photonAt N l.2.1 then conj l.2.2 * a l.1 else 0) - if i = photonAt N l.1 then l.2.2 * a l.2.1 else 0).sum := by
  induction links with
  | nil => simp
  | cons l links ih =>
    obtain ⟨hb, hc, hbc⟩ := hl l List.mem_cons_self
    simp only [List.map_cons, List.sum_cons, add_mul]
    rw [Finset.sum_add_distrib, ih fun l' h => hl l' (List.mem_cons_of_mem _ h)]
    congr 1
    simp only [link_element hi hi0 l.1 l.2.1 l.2.2 hb hc hbc, sub_mul, Finset.sum_sub_distrib]
    congr 1
    · rw [Finset.sum_eq_single_of_mem l.1 (Finset.mem_range.2 hb) fun k _ hk => by simp [hk]]
      simp
    · rw [Finset.sum_eq_single_of_mem l.2.1 (Finset.mem_range.2 hc) fun k _ hk => by simp [hk]]
      simp

theorem photon_action (hl : ∀ l ∈ links, l.1 < N ∧ l.2.1 < N ∧ l.1 ≠ l.2.1) {i : List ℤ} (hi : i.length = N) (hi0 : ∀ m, 0 ≤ i.getD m 0) (a : ℕ → ℂ) :
    ∑ k ∈ Finset.range N, networkH κ δ links N i (photonAt N k) * a k = photonKet N (hopping κ δ links a) i := by
  unfold networkH
  simp only [add_mul]
  rw [Finset.sum_add_distrib, links_action links hl hi hi0 a]
  have h1 : ∑ k ∈ Finset.range N, (∑ m ∈ Finset.range N, extend N [m] (Spec.single (modeH (κ m) (δ m) 0)) i (photonAt N k)) * a k =
      ∑ k ∈ Finset.range N, if i = photonAt N k then (-κ k + Complex.I * δ k) * a k else 0 := by
    refine Finset.sum_congr rfl fun k hk => ?_
    rw [Finset.sum_eq_single_of_mem k hk fun m hm hmk => by rw [mode_element hi hi0 _ _ m k (Finset.mem_range.1 hm), if_neg fun h => hmk h.1],
      mode_element hi hi0 _ _ k k (Finset.mem_range.1 hk)]
    simp
  rw [h1]
  by_cases h : ∃ k < N, i = photonAt N k
  · obtain ⟨k, hk, rfl⟩ := h
    have hinj : ∀ k', photonAt N k = photonAt N k' ↔ k' = k := fun k' => ⟨fun h => (photonAt_inj hk h).symm, fun h => by rw [h]⟩
    rw [photonKet_at _ _ k hk]
    simp only [hinj]
    rw [Finset.sum_eq_single_of_mem k (Finset.mem_range.2 hk) fun b _ hb => if_neg hb, if_pos rfl]
    rfl
  · push Not at h
    rw [photonKet_else _ _ _ h, Finset.sum_eq_zero fun k hk => if_neg (h k (Finset.mem_range.1 hk)), zero_add]
    refine List.sum_eq_zero fun x hx => ?_
    obtain ⟨l, hm, rfl⟩ := List.mem_map.1 hx
    obtain ⟨hb, hc, -⟩ := hl l hm
    rw [if_neg (h _ hc), if_neg (h _ hb), sub_zero]

/-- The probability of the photon. -/
theorem photon_norm {D : List ℕ} (hD : D.length = N) (h1 : ∀ d ∈ D, 1 < d) (a : ℕ → ℂ) :
    ∑ s ∈ boxFinset (lower D) (upper D), photonKet N a s * conj (photonKet N a s) = ∑ k ∈ Finset.range N, (Complex.normSq (a k) : ℂ) := by
  have := photon_sum hD h1 (fun s => conj (photonKet N a s)) a
  simp only [mul_comm (conj _)] at this
  rw [this]
  refine Finset.sum_congr rfl fun k hk => ?_
  rw [photonKet_at _ _ _ (Finset.mem_range.1 hk), Complex.mul_conj]

theorem vacuum_norm {D : List ℕ} (hD : D.length = N) (h1 : ∀ d ∈ D, 0 < d) : ∑ s ∈ boxFinset (lower D) (upper D), vacuumKet N s * conj (vacuumKet N s) = 1 := by
  have := vacuum_sum hD h1 (fun s => conj (vacuumKet N s))
  simp only [mul_comm (conj _)] at this
  rw [this]
  simp [vacuumKet]

variable {D : List ℕ} (hD : D.length = N) (h1 : ∀ d ∈ D, 1 < d) {n : ℕ} {lb ub : List ℤ} (hlb : lb = lower D) (hub : ub = upper D) (en : Enum lb ub n)
include hD h1 hlb hub

theorem photon_trace (a : ℕ → ℂ) : (Matrix.of fun i j : Fin n => photonState N a (en i) (en j)).trace = 1 := by
  subst hlb hub
  rw [Matrix.trace]
  simp only [Matrix.diag_apply, Matrix.of_apply, photonState]
  rw [Finset.sum_add_distrib, ← Finset.mul_sum, ← sum_enum en (fun s => photonKet N a s * conj (photonKet N a s)), ← sum_enum en (fun s => vacuumKet N s * conj (vacuumKet N s)),
    photon_norm hD h1, vacuum_norm hD fun d hd => (h1 d hd).le.trans_lt' Nat.zero_lt_one]
  ring

omit hD h1 hlb hub in
theorem photon_posSemidef (a : ℕ → ℂ) (h : ∑ k ∈ Finset.range N, Complex.normSq (a k) ≤ 1) : (Matrix.of fun i j : Fin n => photonState N a (en i) (en j)).PosSemidef := by
  have e : (Matrix.of fun i j : Fin n => photonState N a (en i) (en j)) = vecMulVec (fun k => photonKet N a (en k)) (star fun k => photonKet N a (en k)) +
      (((1 - ∑ k ∈ Finset.range N, Complex.normSq (a k) : ℝ)) : ℂ) • vecMulVec (fun k => vacuumKet N (en k)) (star fun k => vacuumKet N (en k)) := by
    ext i j
    rw [Matrix.of_apply, Matrix.add_apply, vecMulVec_apply, Matrix.smul_apply, vecMulVec_apply, smul_eq_mul, Pi.star_apply, Pi.star_apply, Complex.star_def]
    unfold photonState
    push_cast
    ring
  rw [e]
  refine (Matrix.posSemidef_vecMulVec_self_star _).add ((Matrix.posSemidef_vecMulVec_self_star _).smul ?_)
  exact_mod_cast (by linarith : (0 : ℝ) ≤ 1 - ∑ k ∈ Finset.range N, Complex.normSq (a k))

/-- The solution of the Master equation. -/
theorem photon_solves (hl : ∀ l ∈ links, l.1 < N ∧ l.2.1 < N ∧ l.1 ≠ l.2.1) (T : ℝ) (a : ℝ → ℕ → ℂ) (ha : Hops N κ δ links T a)
    (hcons : Conserving (boxMat en (networkH κ δ links N)) ((List.range N).flatMap fun k => (modeJ (κ k) 0).map fun j => boxMat en (extend N [k] (Spec.single j)))) :
    Unravel.Solves (boxMat en (networkH κ δ links N)) ((List.range N).flatMap fun k => (modeJ (κ k) 0).map fun j => boxMat en (extend N [k] (Spec.single j))) T
      fun t => Matrix.of fun i j => photonState N (a t) (en i) (en j) := by
  subst hlb hub
  have h0 : ∀ d ∈ D, 0 < d := fun d hd => (h1 d hd).le.trans_lt' Nat.zero_lt_one
  have hlen : (upper D).length = (lower D).length := by simp [upper, lower]
  have hbox : ∀ k, (en k : List ℤ).length = N ∧ ∀ m, 0 ≤ (en k : List ℤ).getD m 0 := fun k => hD ▸ inBox_nonneg (enum_box hlen en k)
  have hmul : ∀ (F : Idx → Idx → ℂ) (f : List ℤ → ℂ) k, (boxMat en F *ᵥ fun k => f (en k)) k = ∑ s ∈ boxFinset (lower D) (upper D), F (en k) s * f s := by
    intro F f k
    rw [sum_enum en]
    rfl
  have hJmem : ∀ j, j ∈ ((List.range N).flatMap fun k => (modeJ (κ k) 0).map fun j => boxMat en (extend N [k] (Spec.single j))) →
      ∃ k < N, ∃ r : ℂ, j = boxMat en (extend N [k] (Spec.single (sc r aOp))) := by
    intro j hj
    obtain ⟨k, hk, hj⟩ := List.mem_flatMap.1 hj
    obtain ⟨o, ho, rfl⟩ := List.mem_map.1 hj
    refine ⟨k, List.mem_range.1 hk, (Real.sqrt (2 * κ k) : ℂ), ?_⟩
    unfold modeJ at ho
    split_ifs at ho
    · simp at ho
    · simp only [List.mem_singleton] at ho
      rw [ho]
    · exact absurd rfl ‹¬ (0 : ℝ) = 0›
  have hsol := dark_solves (boxMat en (networkH κ δ links N)) _ (fun k => vacuumKet N (en k)) (by
      funext k
      rw [hmul, vacuum_sum hD h0]
      exact vacuum_action κ δ links _) (by
      intro j hj
      obtain ⟨k, hk, r, rfl⟩ := hJmem j hj
      funext x
      rw [hmul, vacuum_sum hD h0]
      exact (vacuum_elements 0 0 r 0 k 0 0).2.2) (by
      rw [← sum_enum en (fun s => vacuumKet N s * conj (vacuumKet N s))]
      exact vacuum_norm hD h0) hcons T (fun t k => photonKet N (a t) (en k)) (by
      intro t t0 tT k
      rw [hmul, photon_sum hD h1, photon_action κ δ links hl (hbox k).1 (hbox k).2]
      unfold photonKet
      refine HasDerivAt.fun_sum fun m hm => ?_
      split_ifs
      · exact ha t t0 tT m (Finset.mem_range.1 hm)
      · exact hasDerivAt_const t 0) (by
      intro t j hj
      obtain ⟨k, hk, r, rfl⟩ := hJmem j hj
      refine ⟨r * a t k, ?_⟩
      funext x
      rw [hmul, photon_sum hD h1]
      simp only [jump_element (hbox x).1 (hbox x).2 r k _ hk]
      rw [Finset.sum_eq_single_of_mem k (Finset.mem_range.2 hk) fun m _ hm => by simp [Ne.symm hm]]
      by_cases hv : (en x : List ℤ) = vacuum N <;> simp [vacuumKet, hv])
  have e : (fun t => Matrix.of fun i j => photonState N (a t) (en i) (en j)) = fun t => vecMulVec (fun k => photonKet N (a t) (en k)) (star fun k => photonKet N (a t) (en k)) +
      (1 - ∑ k, photonKet N (a t) (en k) * conj (photonKet N (a t) (en k))) • vecMulVec (fun k => vacuumKet N (en k)) (star fun k => vacuumKet N (en k)) := by
    funext t
    rw [← sum_enum en (fun s => photonKet N (a t) s * conj (photonKet N (a t) s)), photon_norm hD h1]
    ext i j
    rw [Matrix.of_apply, Matrix.add_apply, vecMulVec_apply, Matrix.smul_apply, vecMulVec_apply, smul_eq_mul, Pi.star_apply, Pi.star_apply, Complex.star_def]
    rfl
  rw [e]
  exact hsol

end solution

section conserving
variable {N : ℕ}

theorem antiHermitian_list (l : List (Idx → Idx → ℂ)) (h : ∀ A ∈ l, AntiHermitian A) : AntiHermitian fun i j => (l.map fun A => A i j).sum := by
  intro i j
  induction l with
  | nil => simp
  | cons A l ih =>
    have h1 := ih fun B hB => h B (List.mem_cons_of_mem _ hB)
    have h2 := h A List.mem_cons_self i j
    simp only [List.map_cons, List.sum_cons, map_add] at h1 ⊢
    rw [h1, h2]
    ring

theorem conserving_add {n : ℕ} {lb ub : List ℤ} (en : Enum lb ub n) {A B : Idx → Idx → ℂ} {J : List (Rho n)} (h : Conserving (boxMat en A) J) (hB : AntiHermitian B) :
    Conserving (boxMat en fun i j => A i j + B i j) J := by
  unfold Conserving at h ⊢
  rw [← h]
  ext i j
  simp only [boxMat, Matrix.add_apply, Matrix.of_apply, Matrix.conjTranspose_apply, Complex.star_def, map_add]
  rw [hB]
  ring

end conserving

/-- There are amplitudes as wanted. -/
theorem hops_exist (N : ℕ) (κ δ : ℕ → ℝ) (links : List (ℕ × ℕ × ℂ)) (hl : ∀ l ∈ links, l.1 < N ∧ l.2.1 < N ∧ l.1 ≠ l.2.1) (T : ℝ) (a0 : ℕ → ℂ) : ∃ a, Hops N κ δ links T a ∧ ∀ k < N, a 0 k = a0 k := by
  let M : ℕ → ℕ → ℂ := fun k m => (if m = k then -κ k + Complex.I * δ k else 0) + (links.map fun l => (if l.2.1 = k ∧ l.1 = m then conj l.2.2 else 0) - if l.1 = k ∧ l.2.1 = m then l.2.2 else 0).sum
  have hM : ∀ (a : ℕ → ℂ) k, k < N → ∑ m ∈ Finset.range N, M k m * a m = hopping κ δ links a k := by
    intro a k hk
    simp only [M]
    unfold hopping
    rw [Finset.sum_congr rfl fun m _ => add_mul _ _ _, Finset.sum_add_distrib, Finset.sum_eq_single_of_mem k (Finset.mem_range.2 hk) fun m _ hm => by rw [if_neg hm, zero_mul], if_pos rfl]
    congr 1
    clear hk M
    induction links with
    | nil => simp
    | cons l links ih =>
      obtain ⟨hb, hc, -⟩ := hl l List.mem_cons_self
      simp only [List.map_cons, List.sum_cons, add_mul]
      rw [Finset.sum_add_distrib, ih fun l' h => hl l' (List.mem_cons_of_mem _ h)]
      congr 1
      simp only [sub_mul, Finset.sum_sub_distrib]
      congr 1
      · rw [Finset.sum_eq_single_of_mem l.1 (Finset.mem_range.2 hb) fun m _ hm => by simp [Ne.symm hm]]
        simp
      · rw [Finset.sum_eq_single_of_mem l.2.1 (Finset.mem_range.2 hc) fun m _ hm => by simp [Ne.symm hm]]
        simp
  let A : Rho (N + 1) := fun i j => if (i : ℕ) < N ∧ (j : ℕ) < N then M i j else 0
  let r : Rho (N + 1) := fun i j => if (i : ℕ) < N ∧ (j : ℕ) = N then a0 i else 0
  have hX : ∀ (X : Rho (N + 1)) k, (hk : k < N) → lindblad A [] X ⟨k, by omega⟩ (Fin.last N) = ∑ m ∈ Finset.range N, M k m * (if hm : m < N + 1 then X ⟨m, hm⟩ (Fin.last N) else 0) := by
    intro X k hk
    have e : lindblad A [] X ⟨k, by omega⟩ (Fin.last N) = ∑ m, A ⟨k, by omega⟩ m * X m (Fin.last N) + ∑ m, X ⟨k, by omega⟩ m * conj (A (Fin.last N) m) := by
      unfold lindblad
      simp only [List.map_nil, List.sum_nil, Matrix.add_apply, Matrix.mul_apply, Matrix.conjTranspose_apply, Complex.star_def, Matrix.zero_apply, add_zero]
    rw [e, Finset.sum_eq_zero (s := Finset.univ) (f := fun m => X ⟨k, by omega⟩ m * conj (A (Fin.last N) m)) fun m _ => by simp [A], add_zero, Fin.sum_univ_castSucc, Finset.sum_range]
    have hlast : A ⟨k, by omega⟩ (Fin.last N) = 0 := by simp [A]
    rw [hlast, zero_mul, add_zero]
    refine Finset.sum_congr rfl fun m _ => ?_
    have hm : (m : ℕ) < N + 1 := by omega
    simp only [A, Fin.val_castSucc, hk, m.2, and_self, if_true, hm, dif_pos]
    rfl
  refine ⟨fun t k => if hk : k < N + 1 then sol A [] t r ⟨k, hk⟩ (Fin.last N) else 0, fun t _ _ k hk => ?_, fun k hk => ?_⟩
  · have hk' : k < N + 1 := by omega
    have h := hasDerivAt_sol A [] r 0 t ⟨k, hk'⟩ (Fin.last N)
    simp only [sub_zero] at h
    simp only [hk', dif_pos]
    refine h.congr_deriv ?_
    rw [hX _ k hk, hM _ k hk]
    simp only [hopping, hk', dif_pos]
  · have hk' : k < N + 1 := by omega
    simp only [hk', dif_pos, sol_zero]
    simp [r, hk]

/-- **C172.** Networks of any number of lossy modes without pumps at zero temperature, with hopping between any pairs of them, in Master-equation trajectories started with one photon (or with none with some probability):
whatever the cutoffs from two on, the photon is in the modes with amplitudes obeying the equations of coupled damped classical oscillators, and what is missing from the norm is in the vacuum, up to the error of the stepper. -/
theorem network_single.{v} (N : ℕ) (hN : 0 < N) (p : ℕ → ModeEl.Pars) (qm : ℕ → Picture)
    (hp : ∀ k < N, (p k).cutoff < 2 ^ 63 ∧ 1 < (p k).cutoff ∧ 0 ≤ (p k).kappa ∧ (p k).nTh = 0 ∧ (p k).eta = 0 ∧ (p k).omegaKerr = 0 ∧ (p k).omegaKerrAlter = 0)
    (links : List Link) (hlinks : ∀ l ∈ links, l.Ok N p qm ∧ l.kind = .xxRWA) (hpm : ∀ k < N, qm k ≠ .ip ∨ (p k).kappa = 0) (hsz : N < 2 ^ 64) :
    ∃ (e : ℕ → Element) (ia : Link → Part), (∀ k < N, makePumpedLossy (p k) (qm k) = .ok (e k) ∧ (e k).dim = (p k).cutoff) ∧
      (∀ l ∈ links, coupledModes [l.a, l.b] l.kind (modePtr (p l.a) (qm l.a)) (modePtr (p l.b) (qm l.b)) l.u = .ok (ia l)) ∧
      ∀ (implemented : ℕ → Bool) (n : ℕ) (en : Enum (composite ((List.range N).map e) (links.map ia)).lb (composite ((List.range N).map e) (links.map ia)).ub n) (T : ℝ), 0 ≤ T → ∃ C, 0 ≤ C ∧
        ∀ a : ℝ → ℕ → ℂ, Hops N (fun k => (p k).kappa) (fun k => (p k).delta) (links.map fun l => (l.a, l.b, l.u)) T a → ∑ k ∈ Finset.range N, Complex.normSq (a 0 k) ≤ 1 →
          ∀ rho : Rho n, (∀ i j, rho i j = photonState N (a 0) (en i) (en j)) →
            (∃ x, Reached.{v} ((composite ((List.range N).map e) (links.map ia)).toSys implemented en) C T 0 rho x) ∧
            ∀ ε x, Reached.{v} ((composite ((List.range N).map e) (links.map ia)).toSys implemented en) C T ε rho x → ∀ i j, ‖x i j - photonState N (a T) (en i) (en j)‖ ≤ C * ε := by
  have hJ : ∀ k < N, modeJ (p k).kappa (p k).nTh = modeJ (p k).kappa 0 := fun k hk => by rw [(hp k hk).2.2.2.1]
  have hlen1 : ∀ κ : ℝ, (modeJ κ 0).length ≤ 1 := by intro κ; unfold modeJ; split_ifs <;> simp at *
  have hsz' : ((List.range N).map fun k => (modeJ (p k).kappa (p k).nTh).length).sum < 2 ^ 64 := by
    refine lt_of_le_of_lt ?_ hsz
    have := List.sum_le_card_nsmul ((List.range N).map fun k => (modeJ (p k).kappa (p k).nTh).length) 1 (by
      intro x hx
      obtain ⟨k, hk, rfl⟩ := List.mem_map.1 hx
      rw [hJ k (List.mem_range.1 hk)]
      exact hlen1 _)
    simpa using this
  have hp' : ∀ k < N, (p k).cutoff < 2 ^ 63 ∧ 0 < (p k).cutoff ∧ 0 ≤ (p k).kappa ∧ 0 ≤ (p k).nTh ∧ (p k).omegaKerr = 0 ∧ (p k).omegaKerrAlter = 0 := by
    intro k hk
    obtain ⟨a1, a2, a3, a4, a5, a6, a7⟩ := hp k hk
    exact ⟨a1, by omega, a3, a4.ge, a6, a7⟩
  obtain ⟨e, ia, b1, b2, b3⟩ := network_normalised.{v} N hN p qm hp' links (fun l hl => (hlinks l hl).1) hpm hsz'
  have hdim : ∀ k < N, (e k).dim = (p k).cutoff := by
    intro k hk
    obtain ⟨a1, a2, a3, a4, a5, a6, a7⟩ := hp k hk
    obtain ⟨e1', c1, d1, -⟩ := mode_free (p k) a1 (by omega) a3 a4.ge a6 a7 (qm k)
    rw [b1 k hk, Outcome.ok.injEq] at c1
    rw [c1, d1]
  refine ⟨e, ia, fun k hk => ⟨b1 k hk, hdim k hk⟩, b2, fun implemented n en T hT => ?_⟩
  set D : List ℕ := (List.range N).map fun k => (p k).cutoff with hDdef
  have hD : D.length = N := by simp [hDdef]
  have h1 : ∀ d ∈ D, 1 < d := by
    intro d hd
    obtain ⟨k, hk, rfl⟩ := List.mem_map.1 hd
    exact (hp k (List.mem_range.1 hk)).2.1
  have hlb : (composite ((List.range N).map e) (links.map ia)).lb = lower D := by
    simp [composite, lower, hDdef]
  have hub : (composite ((List.range N).map e) (links.map ia)).ub = upper D := by
    simp only [composite, upper, hDdef, List.map_map]
    refine List.map_congr_left fun k hk => ?_
    simp [hdim k (List.mem_range.1 hk)]
  set L := links.map fun l => (l.a, l.b, l.u) with hL
  have hLok : ∀ l ∈ L, l.1 < N ∧ l.2.1 < N ∧ l.1 ≠ l.2.1 := by
    intro l hl
    obtain ⟨l', hl', rfl⟩ := List.mem_map.1 hl
    obtain ⟨⟨x, y, z, -⟩, -⟩ := hlinks l' hl'
    exact ⟨x, y, z⟩
  have h := b3 implemented n en
  have hH : (fun i j => ∑ k ∈ Finset.range N, extend N [k] (Spec.single (modeH ((p k).kappa * (2 * (p k).nTh + 1)) (p k).delta (p k).eta)) i j + (links.map fun l => extend N [l.a, l.b] (couplingH l.kind l.u) i j).sum) =
      networkH (fun k => (p k).kappa) (fun k => (p k).delta) L N := by
    funext i j
    unfold networkH
    congr 1
    · refine Finset.sum_congr rfl fun k hk => ?_
      obtain ⟨a1, a2, a3, a4, a5, a6, a7⟩ := hp k (Finset.mem_range.1 hk)
      rw [a4, a5, mul_zero, zero_add, mul_one]
    · rw [hL, List.map_map]
      refine congrArg List.sum (List.map_congr_left fun l hl => ?_)
      simp only [Function.comp, (hlinks l hl).2, couplingH]
  have hJJ : ((List.range N).flatMap fun k => (modeJ (p k).kappa (p k).nTh).map fun j => boxMat en (extend N [k] (Spec.single j))) =
      ((List.range N).flatMap fun k => (modeJ (p k).kappa 0).map fun j => boxMat en (extend N [k] (Spec.single j))) := by
    refine List.flatMap_congr fun k hk => ?_
    rw [hJ k (List.mem_range.1 hk)]
  rw [hH, hJJ] at h
  have hcons : Conserving (boxMat en (networkH (fun k => (p k).kappa) (fun k => (p k).delta) L N))
      ((List.range N).flatMap fun k => (modeJ (p k).kappa 0).map fun j => boxMat en (extend N [k] (Spec.single j))) := by
    have hes : ((List.range N).map e).length = N := by simp
    have hfree := composite_conserving ((List.range N).map e) [] (by simp; omega) (by
        intro x hx
        obtain ⟨k, hk, rfl⟩ := List.mem_map.1 hx
        rw [hdim k (List.mem_range.1 hk)]
        have := (hp k (List.mem_range.1 hk)).2.1
        omega) (fun k => modeH (p k).kappa (p k).delta 0) (fun k => modeJ (p k).kappa 0) (fun _ _ _ => 0) (by
        intro k x hx
        obtain ⟨h1, h2⟩ := List.getElem?_eq_some_iff.1 hx
        rw [hes] at h1
        have hx' : x = e k := by simpa [eq_comm] using h2
        obtain ⟨a1, a2, a3, a4, a5, a6, a7⟩ := hp k h1
        rw [hx', hdim k h1]
        exact mode_conserving _ (by omega) _ a3 _ _) (by simp) en
    rw [hes] at hfree
    simp only [List.map_nil, List.sum_nil, add_zero] at hfree
    have hanti : AntiHermitian fun i j => (L.map fun l => extend N [l.1, l.2.1] (xxRwaH l.2.2) i j).sum := by
      have := antiHermitian_list (L.map fun l => extend N [l.1, l.2.1] (xxRwaH l.2.2)) (by
        intro A hA
        obtain ⟨l, -, rfl⟩ := List.mem_map.1 hA
        exact antiHermitian_extend _ _ (antiHermitian_couplingH .xxRWA l.2.2))
      simpa only [List.map_map, Function.comp_def] using this
    exact conserving_add en hfree hanti
  obtain ⟨C, hC, H⟩ := reached_close h T hT
  refine ⟨C, hC, fun a ha hle rho hrho => ?_⟩
  have hsol := photon_solves (fun k => (p k).kappa) (fun k => (p k).delta) L hD h1 hlb hub en hLok T a ha hcons
  have hini : (Matrix.of fun i j : Fin n => photonState N (a 0) (en i) (en j)) = rho := by
    ext i j
    rw [Matrix.of_apply, hrho]
  have htr := photon_trace hD h1 hlb hub en
  have hpsd : rho.PosSemidef := by rw [← hini]; exact photon_posSemidef en _ hle
  have htr0 : rho.trace = 1 := by rw [← hini]; exact htr _
  refine ⟨reached_exists h C T hT rho hpsd htr0, fun ε x hx i j => ?_⟩
  obtain ⟨-, -, -, ρ, hs, hz, hcl⟩ := H C ε rho x le_rfl hx
  have u1 := sol_unique _ _ 0 T hT ρ fun r a b => hs r a (by linarith)
  have u2 := sol_unique _ _ 0 T hT _ fun r a b => hsol r a (by linarith)
  simp only [zero_add] at u1 u2
  rw [hz] at u1
  rw [hini, ← u1] at u2
  have hTT := htr (a T)
  have := hcl i j
  unfold normalised at this
  rw [Matrix.of_apply, ← u2, hTT, div_one, Matrix.of_apply] at this
  exact this

/-- The probabilities in these states: of the photon in a mode, of the vacuum; and the coherences between the modes. -/
theorem photonState_populations (N : ℕ) (a : ℕ → ℂ) (k l : ℕ) (hk : k < N) (hl : l < N) : photonState N a (photonAt N k) (photonAt N k) = Complex.normSq (a k) ∧
    photonState N a (photonAt N k) (photonAt N l) = a k * conj (a l) ∧ photonState N a (vacuum N) (vacuum N) = 1 - ∑ m ∈ Finset.range N, (Complex.normSq (a m) : ℂ) := by
  have hv : photonKet N a (vacuum N) = 0 := photonKet_else _ _ _ fun m hm h => photonAt_ne_vacuum hm h.symm
  simp [photonState, photonKet_at, hk, hl, vacuumKet, photonAt_ne_vacuum, hv, Complex.mul_conj]

/-- **C172.** The probability that the photon is still there decreases at twice the rate `∑ κₖ|aₖ|²`: the links only transfer it. -/
theorem hops_norm (N : ℕ) (κ δ : ℕ → ℝ) (links : List (ℕ × ℕ × ℂ)) (hl : ∀ l ∈ links, l.1 < N ∧ l.2.1 < N ∧ l.1 ≠ l.2.1) (T : ℝ) (a : ℝ → ℕ → ℂ) (ha : Hops N κ δ links T a) (t : ℝ) (h0 : 0 ≤ t) (hT : t ≤ T) :
    HasDerivAt (fun s => ∑ k ∈ Finset.range N, Complex.normSq (a s k)) (-(2 * ∑ k ∈ Finset.range N, κ k * Complex.normSq (a t k))) t := by
  have hc : HasDerivAt (fun s => ∑ k ∈ Finset.range N, a s k * conj (a s k)) (∑ k ∈ Finset.range N, (hopping κ δ links (a t) k * conj (a t k) + a t k * conj (hopping κ δ links (a t) k))) t :=
    HasDerivAt.fun_sum fun k hk => (ha t h0 hT k (Finset.mem_range.1 hk)).mul (ha t h0 hT k (Finset.mem_range.1 hk)).star
  have hre := Complex.reCLM.hasFDerivAt.comp_hasDerivAt t hc
  have e1 : (Complex.reCLM ∘ fun s => ∑ k ∈ Finset.range N, a s k * conj (a s k)) = fun s => ∑ k ∈ Finset.range N, Complex.normSq (a s k) := by
    funext s
    simp only [Function.comp, Complex.reCLM_apply, Complex.mul_conj, Complex.re_sum, Complex.ofReal_re]
  rw [e1] at hre
  refine hre.congr_deriv ?_
  have hz : ∀ z w : ℂ, (z * conj w + w * conj z).re = 2 * (z * conj w).re := by
    intro z w; simp; ring
  simp only [Complex.reCLM_apply, Complex.re_sum, hz]
  rw [← Finset.mul_sum, ← mul_neg, ← Finset.sum_neg_distrib]
  congr 1
  have hlinks : ∑ k ∈ Finset.range N, ((links.map fun l => (if l.2.1 = k then conj l.2.2 * a t l.1 else 0) - if l.1 = k then l.2.2 * a t l.2.1 else 0).sum * conj (a t k)).re = 0 := by
    rw [← Complex.re_sum]
    clear ha hc hre
    induction links with
    | nil => simp
    | cons l links ih =>
      obtain ⟨hb, hc, -⟩ := hl l List.mem_cons_self
      simp only [List.map_cons, List.sum_cons, add_mul]
      rw [Finset.sum_add_distrib, Complex.add_re, ih fun l' h => hl l' (List.mem_cons_of_mem _ h), add_zero]
      simp only [sub_mul, ite_mul, zero_mul, Finset.sum_sub_distrib, Finset.sum_ite_eq, Finset.mem_range, hb, hc, if_true]
      simp
      ring
  have hsplit : ∀ k, (hopping κ δ links (a t) k * conj (a t k)).re = -(κ k * Complex.normSq (a t k)) +
      ((links.map fun l => (if l.2.1 = k then conj l.2.2 * a t l.1 else 0) - if l.1 = k then l.2.2 * a t l.2.1 else 0).sum * conj (a t k)).re := by
    intro k
    unfold hopping
    rw [add_mul, Complex.add_re, mul_assoc, Complex.mul_conj]
    congr 1
    simp
  simp only [hsplit]
  rw [Finset.sum_add_distrib, hlinks, add_zero]

/-- Instance: a photon in the first of three modes of a ring, two of which are lossy. -/
example : ∃ (e : ℕ → Element) (ia : Link → Part), (∀ k : ℕ, k < 3 → makePumpedLossy ⟨2, k, 0, 0, k, 0, 0⟩ .uip = .ok (e k)) ∧
    ∀ (implemented : ℕ → Bool) (n : ℕ) (en : Enum (composite ((List.range 3).map e) (([⟨0, 1, .xxRWA, 1⟩, ⟨1, 2, .xxRWA, 2⟩, ⟨2, 0, .xxRWA, Complex.I⟩] : List Link).map ia)).lb _ n), ∃ C a,
      Hops 3 (fun k => k) (fun k => k) [(0, 1, 1), (1, 2, 2), (2, 0, Complex.I)] 5 a ∧ a 0 0 = 1 ∧
      ∃ x, Reached.{0} ((composite ((List.range 3).map e) (([⟨0, 1, .xxRWA, 1⟩, ⟨1, 2, .xxRWA, 2⟩, ⟨2, 0, .xxRWA, Complex.I⟩] : List Link).map ia)).toSys implemented en) C 5 0
        (Matrix.of fun i j => photonState 3 (a 0) (en i) (en j)) x := by
  obtain ⟨e, ia, h1, -, h3⟩ := network_single.{0} 3 (by norm_num) (fun k => ⟨2, k, 0, 0, k, 0, 0⟩) (fun _ => .uip) (fun k _ => ⟨by norm_num, by norm_num, by positivity, rfl, rfl, rfl, rfl⟩)
    [⟨0, 1, .xxRWA, 1⟩, ⟨1, 2, .xxRWA, 2⟩, ⟨2, 0, .xxRWA, Complex.I⟩] (by
      intro l hl
      simp only [List.mem_cons, List.not_mem_nil, or_false] at hl
      rcases hl with rfl | rfl | rfl <;> exact ⟨⟨by norm_num, by norm_num, by norm_num, rfl⟩, rfl⟩) (fun _ _ => Or.inl (by simp)) (by norm_num)
  refine ⟨e, ia, fun k hk => (h1 k hk).1, fun implemented n en => ?_⟩
  obtain ⟨C, -, H⟩ := h3 implemented n en 5 (by norm_num)
  obtain ⟨a, ha, ha0⟩ := hops_exist 3 (fun k => k) (fun k => k) [(0, 1, 1), (1, 2, 2), (2, 0, Complex.I)] (by
    intro l hl
    simp only [List.mem_cons, List.not_mem_nil, or_false] at hl
    rcases hl with rfl | rfl | rfl <;> norm_num) 5 fun k => if k = 0 then 1 else 0
  have hsum : ∑ k ∈ Finset.range 3, Complex.normSq (a 0 k) ≤ 1 := by
    rw [Finset.sum_congr rfl fun k hk => by rw [ha0 k (Finset.mem_range.1 hk)]]
    simp
  exact ⟨C, a, ha, by simpa using ha0 0 (by norm_num), (H a ha hsum _ fun i j => rfl).1⟩

end CppQED.Interactions
