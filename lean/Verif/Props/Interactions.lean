import Verif.Lemmas.InteractionOps
import Verif.Props.Sigma

/-!
# Interacting systems: C77
-/

namespace CppQED.Interactions
open CppQED.Elem CppQED.Tridiag CppQED.ModeEl CppQED.Spec CppQED.Composite
open CppQED.MII (Idx)
open CppQED.Slice (Arr sliceBound)
open CppQED.PTrace
open ComplexConjugate

theorem matAction_congr {lb ub : Idx} (hl : ub.length = lb.length) {A B : Idx → Idx → ℂ} {i : Idx} (h : ∀ j, InBox lb ub j → A i j = B i j) (psi : Arr ℂ) :
    matAction lb ub A psi i = matAction lb ub B psi i :=
  Finset.sum_congr rfl fun j hj => by rw [h j ((mem_boxFinset lb ub j hl).1 hj)]

theorem sliceBound_one (es : List Element) (a : ℕ) (e : Element) (h : es[a]? = some e) (f : Element → ℤ) : sliceBound [a] (es.map f) = [f e] := by
  simp [sliceBound, List.getD_eq_getElem?_getD, h]

theorem validBounds_of (es : List Element) (h0 : es ≠ []) (hd : ∀ e ∈ es, 0 < e.dim) : ValidBounds (es.map fun _ => (0 : ℤ)) (es.map fun e => (e.dim : ℤ) - 1) := by
  refine ⟨by simpa [List.length_pos_iff] using h0, by simp, fun j hj => ?_⟩
  rw [List.length_map] at hj
  have := hd _ (List.getElem_mem hj)
  simp only [List.getD_eq_getElem?_getD, List.getElem?_map, List.getElem?_eq_getElem hj, Option.map_some, Option.getD_some]
  omega

theorem getD_nonneg (es : List Element) {i : Idx} (hi : InBox (es.map fun _ => (0 : ℤ)) (es.map fun e => (e.dim : ℤ) - 1) i) {a : ℕ} {e : Element} (h : es[a]? = some e) :
    0 ≤ i.getD a 0 ∧ q i a < e.dim := by
  obtain ⟨h1, h2⟩ := List.getElem?_eq_some_iff.1 h
  have := hi.2 a (by simpa using h1)
  simp only [List.getD_eq_getElem?_getD, List.getElem?_map, h, Option.map_some, Option.getD_some] at this
  unfold q
  rw [List.getD_eq_getElem?_getD]
  omega

/-- The free evolution of an axis, moved to the Hamiltonian. -/
theorem extend_single (es : List Element) {i j : Idx} (hi : InBox (es.map fun _ => (0 : ℤ)) (es.map fun e => (e.dim : ℤ) - 1) i)
    (hj : InBox (es.map fun _ => (0 : ℤ)) (es.map fun e => (e.dim : ℤ) - 1) j) {a : ℕ} {e : Element} (h : es[a]? = some e) (V H : Dens) (w : ℕ → ℂ)
    (hV : ∀ i < e.dim, ∀ j < e.dim, (V i j - if i = j then w i else 0) = H i j) :
    extend es.length [a] (single V) i j - (if i = j then w (q i a) else 0) = extend es.length [a] (single H) i j := by
  have hqi := getD_nonneg es hi h
  have hqj := getD_nonneg es hj h
  have hs : ∀ A : Dens, single A (coords [a] i) (coords [a] j) = A (q i a) (q j a) := fun A => rfl
  unfold extend
  by_cases hA : AgreeOff es.length [a] i j
  · rw [if_pos hA, if_pos hA, hs, hs, ← hV _ hqi.2 _ hqj.2]
    congr 1
    by_cases hq : q i a = q j a
    · have hij : i = j := by
        apply List.ext_getElem
        · rw [hi.1, hj.1]
        · intro n h1 h2
          have e1 : i.getD n 0 = i[n] := by simp [List.getD_eq_getElem?_getD, h1]
          have e2 : j.getD n 0 = j[n] := by simp [List.getD_eq_getElem?_getD, h2]
          rw [← e1, ← e2]
          by_cases hn : n = a
          · subst hn
            unfold q at hq
            have := hqi.1
            have := hqj.1
            omega
          · refine hA n ?_ (by simpa using hn)
            have := hi.1
            rw [List.length_map] at this
            omega
      rw [if_pos hij, if_pos hq]
    · rw [if_neg hq, if_neg (fun h => hq (by rw [h]))]
  · rw [if_neg hA, if_neg hA, if_neg, sub_zero]
    rintro rfl
    exact hA fun _ _ _ => rfl

theorem extend_tensor0 (H : Dens) {i j : Idx} (hi : i.length = 2) (hj : j.length = 2) (h0 : ∀ a < 2, 0 ≤ i.getD a 0 ∧ 0 ≤ j.getD a 0) : extend 2 [0] (single H) i j = tensor H one i j := by
  unfold extend tensor one
  have hs : single H (coords [0] i) (coords [0] j) = H (q i 0) (q j 0) := rfl
  have hA : AgreeOff 2 [0] i j ↔ q i 1 = q j 1 := by
    have := h0 1 (by norm_num)
    constructor
    · intro h; unfold q; rw [h 1 (by norm_num) (by simp)]
    · intro h a ha ha'
      have : a = 1 := by simp at ha'; omega
      subst this
      unfold q at h
      omega
  simp only [hA, hs]
  split_ifs <;> simp

theorem extend_tensor1 (H : Dens) {i j : Idx} (hi : i.length = 2) (hj : j.length = 2) (h0 : ∀ a < 2, 0 ≤ i.getD a 0 ∧ 0 ≤ j.getD a 0) : extend 2 [1] (single H) i j = tensor one H i j := by
  unfold extend tensor one
  have hs : single H (coords [1] i) (coords [1] j) = H (q i 1) (q j 1) := rfl
  have hA : AgreeOff 2 [1] i j ↔ q i 0 = q j 0 := by
    have := h0 0 (by norm_num)
    constructor
    · intro h; unfold q; rw [h 0 (by norm_num) (by simp)]
    · intro h a ha ha'
      have : a = 0 := by simp at ha'; omega
      subst this
      unfold q at h
      omega
  simp only [hA, hs]
  split_ifs <;> simp

/-- **C77.** A binary system of free elements in whatever pictures, with an interaction in the pictures of the two, simulates the sum of the Hamiltonians. -/
theorem binary_simulates (e0 e1 : Element) (ia : Part) (h0 : 0 < e0.dim) (h1 : 0 < e1.dim) {w0 w1 : ℕ → ℂ} {H0 H1 : Dens} {J0 J1 : List Dens} {H : Idx → Idx → ℂ}
    (f0 : FreeIs e0 w0 H0 J0) (f1 : FreeIs e1 w1 H1 J1) (hia : Couples ia [e0.dim, e1.dim] [w0, w1] H) :
    BinSimulates (binary e0 e1 ia) fun i j => tensor H0 one i j + tensor one H1 i j + H i j := by
  obtain ⟨V0, a0, b0, -, c0⟩ := f0
  obtain ⟨V1, a1, b1, -, c1⟩ := f1
  obtain ⟨hex, hha⟩ := hia
  have hes := validBounds_of [e0, e1] (by simp) (by simpa using ⟨h0, h1⟩)
  intro t0 t psi hpsi i hi
  let w : ℕ → ℤ → ℂ := fun a z => if a = 0 then w0 z.toNat else w1 z.toNat
  have hphase : ∀ s : Idx, phaseOf w [0, 1] s = phaseSum [w0, w1] s := by
    intro s
    rcases s with - | ⟨x, - | ⟨y, s⟩⟩ <;> simp [phaseOf, phaseSum, w]
  have key := bin_schroedinger (binary e0 e1 ia) hes rfl w (single V0) (single V1) H
    (fun t t0 => freePart_ex e0 w0 b0 _ _ 0 (by rfl) t t0) (fun t t0 => freePart_ex e1 w1 b1 _ _ 1 (by rfl) t t0) hex
    (fun t t0 => freePart_ha e0 w0 V0 a0 _ _ 0 rfl rfl w (fun z => rfl) t t0) (fun t t0 => freePart_ha e1 w1 V1 a1 _ _ 1 rfl rfl w (fun z => rfl) t t0)
    (fun t t0 => by
      have := hha t t0
      change match ia.ha with | none => _ | some ha => _
      cases hh : ia.ha with
      | none => rw [hh] at this; exact this
      | some ha =>
        rw [hh] at this
        simp only at this ⊢
        intro psi dpsidt s hs
        rw [this psi dpsidt s hs]
        congr 1
        change matAction (binary e0 e1 ia).lb (binary e0 e1 ia).ub _ psi s = _
        refine matAction_congr (by simp [binary]) (fun j _ => ?_) psi
        simp only [rotating, inPicture, hphase]) t0 t psi hpsi i hi
  refine ⟨key.1, ?_⟩
  have e : matAction (binary e0 e1 ia).lb (binary e0 e1 ia).ub (fun i j => tensor H0 one i j + tensor one H1 i j + H i j) ((binary e0 e1 ia).actWithU t t0 (psi t)) i =
      matAction (binary e0 e1 ia).lb (binary e0 e1 ia).ub (binHamiltonian w (single V0) (single V1) H) ((binary e0 e1 ia).actWithU t t0 (psi t)) i := by
    refine matAction_congr (by simp [binary]) (fun j hj => ?_) _
    have x0 := extend_single [e0, e1] hi hj (a := 0) rfl V0 H0 w0 c0
    have x1 := extend_single [e0, e1] hi hj (a := 1) rfl V1 H1 w1 c1
    have hn : ∀ a < 2, 0 ≤ i.getD a 0 ∧ 0 ≤ j.getD a 0 := by
      intro a ha
      have : a = 0 ∨ a = 1 := by omega
      rcases this with rfl | rfl
      · exact ⟨(getD_nonneg [e0, e1] hi (a := 0) rfl).1, (getD_nonneg [e0, e1] hj (a := 0) rfl).1⟩
      · exact ⟨(getD_nonneg [e0, e1] hi (a := 1) rfl).1, (getD_nonneg [e0, e1] hj (a := 1) rfl).1⟩
    simp only [List.length_cons, List.length_nil, Nat.zero_add, Nat.reduceAdd] at x0 x1
    rw [extend_tensor0 H0 hi.1 hj.1 hn] at x0
    rw [extend_tensor1 H1 hi.1 hj.1 hn] at x1
    unfold binHamiltonian
    rw [← x0, ← x1]
    simp only [w, if_true, one_ne_zero, if_false, q]
    split_ifs <;> ring
  rw [e]
  exact key.2

/-- The composite of free elements and interactions has the form required by `comp_schroedinger`, and its Hamiltonian is the sum of those of the components. -/
theorem composite_components (es : List Element) (acts : List Part) (h0 : es ≠ []) (hd : ∀ e ∈ es, 0 < e.dim) (w : ℕ → ℕ → ℂ) (H : ℕ → Dens) (V : Part → Idx → Idx → ℂ)
    (hF : ∀ k e, es[k]? = some e → ∃ J, FreeIs e (w k) (H k) J)
    (hI : ∀ ia ∈ acts, ValidAxes es.length ia.axes ∧ 2 ≤ ia.axes.length ∧ Couples ia (ia.axes.map fun a => (es.map Element.dim).getD a 0) (ia.axes.map w) (V ia)) :
    ∃ (w' : ℕ → ℤ → ℂ) (V' : Part → Idx → Idx → ℂ), (∀ a z, w' a z = w a z.toNat) ∧ (composite es acts).Ok ∧ (composite es acts).frees.length = (composite es acts).r ∧
      (∀ t t0 idx p, (composite es acts).frees[idx]? = some p →
        ExOK (composite es acts).lb (composite es acts).ub t t0 { p with axes := [idx] } (fun s => Complex.exp (-(w' idx (s.getD 0 0) * (t - t0 : ℝ))))) ∧
      (∀ p ∈ (composite es acts).acts, p.ex = none) ∧
      (∀ t t0, ∀ p ∈ (composite es acts).parts, HaOK (composite es acts).lb (composite es acts).ub t t0 p (inPicture w' p.axes (V' p) (t - t0))) ∧
      ∀ i j, InBox (composite es acts).lb (composite es acts).ub i → InBox (composite es acts).lb (composite es acts).ub j → (composite es acts).hamiltonian w' V' i j =
        ∑ k ∈ Finset.range es.length, extend es.length [k] (single (H k)) i j + (acts.map fun ia => extend es.length ia.axes (V ia) i j).sum := by
  have hes := validBounds_of es h0 hd
  choose! J hJ using hF
  have hW : ∃ W : ℕ → Dens, ∀ k e, es[k]? = some e → HaIs e (w k) (W k) ∧ ExIs e (w k) ∧ ∀ i < e.dim, ∀ j < e.dim, (W k i j - if i = j then w k i else 0) = H k i j := by
    have : ∀ k, ∃ W : Dens, ∀ e, es[k]? = some e → HaIs e (w k) W ∧ ExIs e (w k) ∧ ∀ i < e.dim, ∀ j < e.dim, (W i j - if i = j then w k i else 0) = H k i j := by
      intro k
      cases hk : es[k]? with
      | none => exact ⟨0, fun e he => by simp at he⟩
      | some e =>
        obtain ⟨W, a, b, c, d⟩ := hJ k e hk
        refine ⟨W, fun e' he => ?_⟩
        rw [Option.some.injEq] at he
        subst he
        exact ⟨a, b, d⟩
    choose W hW using this
    exact ⟨W, hW⟩
  obtain ⟨W, hW⟩ := hW
  let V' : Part → Idx → Idx → ℂ := fun p => if p.axes.length = 1 then single (W (p.axes.getD 0 0)) else V p
  let w' : ℕ → ℤ → ℂ := fun a z => w a z.toNat
  have hok : (composite es acts).Ok := by
    refine ⟨hes, by simp [composite], fun p hp => ?_⟩
    unfold Comp.parts at hp
    rw [List.mem_append, List.mem_mapIdx] at hp
    rcases hp with ⟨k, hk, rfl⟩ | hp
    · refine ⟨by simp, by simp, ?_⟩
      simp only [composite, List.length_map] at hk ⊢
      simpa using hk
    · exact (hI p hp).1
  have hfree : ∀ (k : ℕ) (p : Part), (composite es acts).frees[k]? = some p → ∃ e, es[k]? = some e ∧ p = freePart e := by
    intro k p hp
    simp only [composite, List.getElem?_map, Option.map_eq_some_iff] at hp
    obtain ⟨e, h1, h2⟩ := hp
    exact ⟨e, h1, h2.symm⟩
  refine ⟨w', V', fun _ _ => rfl, hok, by simp [composite],
    (fun t t0 k p hp => by
      obtain ⟨e, h1, rfl⟩ := hfree k p hp
      refine freePart_ex e (w k) (hW k e h1).2.1 _ _ k ?_ t t0
      simp only [composite]
      rw [sliceBound_one es k e h1, sliceBound_one es k e h1]
      rfl),
    (fun p hp => (hI p hp).2.2.1),
    (fun t t0 p hp => by
      unfold Comp.parts at hp
      rw [List.mem_append, List.mem_mapIdx] at hp
      rcases hp with ⟨k, hk, rfl⟩ | hp
      · obtain ⟨e, h1, h2⟩ := hfree k _ (List.getElem?_eq_getElem hk)
        rw [h2]
        have : V' { freePart e with axes := [k] } = single (W k) := by simp [V']
        rw [this]
        simp only [composite]
        exact freePart_ha e (w k) (W k) (hW k e h1).1 _ _ k (by rw [sliceBound_one es k e h1]; rfl) (by rw [sliceBound_one es k e h1]; rfl) w' (fun z => rfl) t t0
      · obtain ⟨hv, h2, -, hc⟩ := hI p hp
        have hV' : V' p = V p := by
          simp only [V']
          rw [if_neg (by omega)]
        have hl : sliceBound p.axes (composite es acts).lb = lower (p.axes.map fun a => (es.map Element.dim).getD a 0) := by
          simp only [sliceBound, composite, lower, List.map_map]
          refine List.map_congr_left fun a ha => ?_
          have := hv.2.2 a ha
          simp [List.getD_eq_getElem?_getD, List.getElem?_replicate, this]
        have hu : sliceBound p.axes (composite es acts).ub = upper (p.axes.map fun a => (es.map Element.dim).getD a 0) := by
          simp only [sliceBound, composite, upper, List.map_map]
          refine List.map_congr_left fun a ha => ?_
          have := hv.2.2 a ha
          simp [List.getD_eq_getElem?_getD, List.getElem?_eq_getElem this]
        have hphase : ∀ s : Idx, phaseOf w' p.axes s = phaseSum (p.axes.map w) s := by
          intro s
          unfold phaseOf phaseSum
          rw [List.zipWith_map_left]
        unfold HaOK
        rw [hl, hu, hV']
        have := hc t t0
        cases hh : p.ha with
        | none =>
          rw [hh] at this
          simp only at this ⊢
          intro s s' hs hs'
          simp [inPicture, this s s' hs hs']
        | some ha =>
          rw [hh] at this
          simp only at this ⊢
          intro psi dpsidt s hs
          rw [this psi dpsidt s hs]
          congr 1
          refine matAction_congr (lower_length _) (fun j _ => ?_) psi
          simp only [rotating, inPicture, hphase]), ?_⟩
  intro i j hi hj
  unfold Comp.hamiltonian Comp.parts
  rw [List.map_append, List.sum_append, map_mapIdx_ofFn, List.sum_ofFn]
  have e1 : (acts.map fun p => extend es.length p.axes (V' p) i j).sum = (acts.map fun p => extend es.length p.axes (V p) i j).sum := by
    congr 1
    refine List.map_congr_left fun p hp => ?_
    have := (hI p hp).2.1
    simp only [V']
    rw [if_neg (by omega)]
  have e2 : ∀ k ∈ Finset.range es.length, extend es.length [k] (single (W k)) i j - (if i = j then w k (q i k) else 0) = extend es.length [k] (single (H k)) i j := by
    intro k hk
    have hk' := List.getElem?_eq_getElem (Finset.mem_range.1 hk)
    exact extend_single es hi hj hk' (W k) (H k) (w k) (hW k _ hk').2.2
  rw [← Finset.sum_congr rfl e2, Finset.sum_sub_distrib]
  have e3 : (∑ a : Fin (composite es acts).frees.length, extend (composite es acts).r ({ (composite es acts).frees[a] with axes := [(a : ℕ)] } : Part).axes
      (V' ({ (composite es acts).frees[a] with axes := [(a : ℕ)] } : Part)) i j) = ∑ k ∈ Finset.range es.length, extend es.length [k] (single (W k)) i j := by
    rw [Finset.sum_range]
    refine Fintype.sum_equiv (finCongr (by simp [composite])) _ _ fun a => ?_
    simp [V', composite]; rfl
  have e4 : (if i = j then ∑ a ∈ Finset.range (composite es acts).r, w' a (i.getD a 0) else 0) = ∑ x ∈ Finset.range es.length, if i = j then w x (q i x) else 0 := by
    by_cases hij : i = j
    · simp only [if_pos hij]; rfl
    · simp only [if_neg hij]; simp
  rw [e4]
  have e3' := e3
  change (∑ a : Fin (composite es acts).frees.length, _) + (acts.map fun p => extend es.length p.axes (V' p) i j).sum - _ = _
  rw [e1]
  change _ + _ - _ = _
  linear_combination e3'

/-- **C77.** The same for composites of any number of free elements and interactions, each of the latter acting on at least two distinct subsystems. -/
theorem composite_simulates (es : List Element) (acts : List Part) (h0 : es ≠ []) (hd : ∀ e ∈ es, 0 < e.dim) (w : ℕ → ℕ → ℂ) (H : ℕ → Dens) (V : Part → Idx → Idx → ℂ)
    (hF : ∀ k e, es[k]? = some e → ∃ J, FreeIs e (w k) (H k) J)
    (hI : ∀ ia ∈ acts, ValidAxes es.length ia.axes ∧ 2 ≤ ia.axes.length ∧ Couples ia (ia.axes.map fun a => (es.map Element.dim).getD a 0) (ia.axes.map w) (V ia)) :
    CompSimulates (composite es acts) fun i j =>
      ∑ k ∈ Finset.range es.length, extend es.length [k] (single (H k)) i j + (acts.map fun ia => extend es.length ia.axes (V ia) i j).sum := by
  obtain ⟨w', V', -, hok, hr, hE, hA, hH, hT⟩ := composite_components es acts h0 hd w H V hF hI
  intro t0 t psi hpsi i hi
  obtain ⟨k1, k2⟩ := comp_schroedinger (composite es acts) hok hr w' V' hE hA hH t0 t psi hpsi i hi
  refine ⟨k1, k2.congr_deriv ?_⟩
  exact matAction_congr (validBounds_of es h0 hd).2.1 (fun j hj => hT i j hi hj) _

/-! ## Jaynes-Cummings -/

/-- The interaction on its own: whatever the operator `σ`, provided that it is in the same kind of picture as the mode. -/
theorem jaynesCummings_couples {d : ℕ} {w : ℕ → ℂ} {S : Tri} {σ : Dens} (m : ModePtr) (hd : m.dim < 2 ^ 63) (h0 : 0 < m.dim) (hS : Op [d] (phases [w]) S (lift σ))
    (hG : Good m.exact.isSome S (phases [w])) (axes : List ℕ) (g : ℂ) :
    ∃ ia, jaynesCummings axes (.ok S) m g = .ok ia ∧ ia.axes = axes ∧ Couples ia [d, m.dim] [w, m.w] (jcH g σ fun i j => conj (σ j i)) := by
  unfold jaynesCummings
  by_cases hg : g = 0
  · rw [if_neg (by simpa using hg)]
    refine ⟨_, rfl, rfl, couples_none _ (fun i _ j _ => ?_) axes⟩
    simp [jcH, hg]
  · rw [if_pos hg]
    obtain ⟨a, a1, a2, a3, a4⟩ := aop_op m hd h0
    have s2 : Op [d] (phases [w]) (scale (conj g) S) (lift fun i j => conj g * σ i j) := hS.scale (conj g)
    have ad : Op [m.dim] (phases [m.w]) (hermitianConjugate a) (lift adOp) := a2.dagger.congr fun i _ j _ => by simp only [lift, conj_aOp]
    obtain ⟨P, p1, p2, p3, p4, -⟩ := product_op s2 ad (hG.scale _) a4.dagger
    obtain ⟨R, r1, r2, r3, r4⟩ := p2.minusHC
    unfold jaynesCummingsH
    rw [a1]
    simp only [Outcome.bind]
    rw [p1]
    simp only [r1]
    refine ⟨_, rfl, rfl, couples_of_ops (List.Forall₂.cons r2 .nil) _ (fun i _ j _ => ?_) axes⟩
    simp only [jcH, tensor_up, lift2, List.map_cons, List.map_nil, List.sum_cons, List.sum_nil, map_mul, conj_adOp, Complex.conj_conj]
    ring

/-- A qbit and a mode are in the same kind of picture. -/
theorem aop_qbit (p : QbitEl.Pars) (qmp : Picture) : ∃ T, aop (qbitPtr p qmp) = .ok T ∧ Op [2] (phases [(qbitPtr p qmp).w]) T (lift sigma) ∧ Good (qbitPtr p qmp).exact.isSome T (phases [(qbitPtr p qmp).w]) := by
  have hdim : (qbitPtr p qmp).dim = 2 := by cases qmp <;> rfl
  obtain ⟨T, h1, h2, h3, h4⟩ := aop_op (qbitPtr p qmp) (by rw [hdim]; norm_num) (by rw [hdim]; norm_num)
  rw [hdim] at h2
  refine ⟨T, h1, h2.congr fun i hi j hj => ?_, h4⟩
  obtain ⟨a, rfl⟩ := List.length_eq_one_iff.1 (length_of_mem hi)
  obtain ⟨b, rfl⟩ := List.length_eq_one_iff.1 (length_of_mem hj)
  rw [mem_natBox_one] at hi hj
  have := congrFun (congrFun (QbitEl.mat_sigma 1) ⟨a, hi⟩) ⟨b, hj⟩
  simpa [lift, sc, mat_apply] using this

theorem modePtr_dim (p : ModeEl.Pars) (qmp : Picture) : (modePtr p qmp).dim = p.cutoff := by cases qmp <;> rfl
theorem modePtr_exact (p : ModeEl.Pars) (qmp : Picture) : (modePtr p qmp).exact.isSome = decide (qmp ≠ .sch) := by cases qmp <;> rfl
theorem qbitPtr_exact (p : QbitEl.Pars) (qmp : Picture) : (qbitPtr p qmp).exact.isSome = decide (qmp ≠ .sch) := by cases qmp <;> rfl

/-- **C77.** The Jaynes-Cummings system of a qbit and a mode, with all their pumps and losses, in any pair of pictures of which both or none is the Schrödinger picture. -/
theorem jaynesCummings_simulates (pq : QbitEl.Pars) (pm : ModeEl.Pars) (g : ℂ) (qmq qmm : Picture) (hq : qmq = .sch ↔ qmm = .sch) (hγ : 0 ≤ pq.gamma)
    (hd : pm.cutoff < 2 ^ 63) (h0 : 0 < pm.cutoff) (hκ : 0 ≤ pm.kappa) (hn : 0 ≤ pm.nTh) (hK : pm.omegaKerr = 0) (hA : pm.omegaKerrAlter = 0) :
    ∃ e0 e1 ia, QbitEl.make pq qmq = .ok e0 ∧ makePumpedLossy pm qmm = .ok e1 ∧ jaynesCummings [0, 1] (aop (qbitPtr pq qmq)) (modePtr pm qmm) g = .ok ia ∧
      BinSimulates (binary e0 e1 ia) fun i j => tensor (qbitH pq.gamma pq.delta pq.eta) one i j + tensor one (modeH (pm.kappa * (2 * pm.nTh + 1)) pm.delta pm.eta) i j + jcH g sigma sigmaDag i j := by
  obtain ⟨J0, e0, a1, a2, a3⟩ := qbit_free pq hγ qmq
  obtain ⟨e1, b1, b2, b3⟩ := mode_free pm hd h0 hκ hn hK hA qmm
  obtain ⟨S, s1, s2, s3⟩ := aop_qbit pq qmq
  obtain ⟨ia, i1, -, i3⟩ := jaynesCummings_couples (modePtr pm qmm) (by rw [modePtr_dim]; exact hd) (by rw [modePtr_dim]; exact h0) s2
    (by rw [modePtr_exact, ← show decide (qmq ≠ .sch) = decide (qmm ≠ .sch) by simp only [ne_eq, hq], ← qbitPtr_exact pq]; exact s3) [0, 1] g
  rw [s1]
  refine ⟨e0, e1, ia, a1, b1, i1, ?_⟩
  have hs : (fun i j => conj (sigma j i)) = sigmaDag := by
    funext i j; simp only [sigma, sigmaDag]; split_ifs <;> simp_all
  rw [hs, modePtr_dim] at i3
  exact binary_simulates e0 e1 ia (by rw [a2]; norm_num) (by rw [b2]; exact h0) a3 b3 (by rw [a2, b2]; exact i3)

/-- A pumped lossy qbit in a cavity with thermal photons. -/
example : ∃ e0 e1 ia, QbitEl.make ⟨-10, 2, 0, Complex.I⟩ .uip = .ok e0 ∧ makePumpedLossy ⟨10, 1, 0, 0, 2, 1 / 2, 3⟩ .ip = .ok e1 ∧
    jaynesCummings [0, 1] (aop (qbitPtr ⟨-10, 2, 0, Complex.I⟩ .uip)) (modePtr ⟨10, 1, 0, 0, 2, 1 / 2, 3⟩ .ip) (1 + Complex.I) = .ok ia :=
  let ⟨e0, e1, ia, h1, h2, h3, _⟩ := jaynesCummings_simulates ⟨-10, 2, 0, Complex.I⟩ ⟨10, 1, 0, 0, 2, 1 / 2, 3⟩ (1 + Complex.I) .uip .ip (by simp) (by norm_num) (by norm_num) (by norm_num)
    (by norm_num) (by norm_num) rfl rfl
  ⟨e0, e1, ia, h1, h2, h3⟩

/-- **C77.** The same for a spin of any size in its interaction picture. -/
theorem jaynesCummingsSpin_simulates (ps : SpinEl.Pars) (li : Option Liouvillean) (hli : li = none ∨ li = some (SpinEl.liouvillean ps)) (hs : ps.dimension < 2 ^ 63)
    (pm : ModeEl.Pars) (g : ℂ) (qmm : Picture) (hq : qmm ≠ .sch) (hd : pm.cutoff < 2 ^ 63) (h0 : 0 < pm.cutoff) (hκ : 0 ≤ pm.kappa) (hn : 0 ≤ pm.nTh) (hK : pm.omegaKerr = 0)
    (hA : pm.omegaKerrAlter = 0) :
    ∃ e0 e1 ia, SpinEl.spin ps li = .ok e0 ∧ makePumpedLossy pm qmm = .ok e1 ∧ jaynesCummings [0, 1] (sminus (spinPtr ps true)) (modePtr pm qmm) g = .ok ia ∧
      BinSimulates (binary e0 e1 ia) fun i j => tensor (fun i j => -ps.z * (sZ ps.twoS i j + if i = j then (ps.twoS : ℂ) / 2 else 0)) one i j +
        tensor one (modeH (pm.kappa * (2 * pm.nTh + 1)) pm.delta pm.eta) i j + jcH g (sMinus ps.twoS) (sPlus ps.twoS) i j := by
  obtain ⟨J0, e0, a1, a2, a3⟩ := spin_free ps li hli
  obtain ⟨e1, b1, b2, b3⟩ := mode_free pm hd h0 hκ hn hK hA qmm
  obtain ⟨S, s1, s2, s3, s4⟩ := sminus_op (spinPtr ps true) hs (SpinEl.dimension_pos ps)
  obtain ⟨ia, i1, -, i3⟩ := jaynesCummings_couples (modePtr pm qmm) (by rw [modePtr_dim]; exact hd) (by rw [modePtr_dim]; exact h0) s2
    (by rw [modePtr_exact, decide_eq_true hq]; exact s4) [0, 1] g
  rw [s1]
  refine ⟨e0, e1, ia, a1, b1, i1, ?_⟩
  have hs : (fun i j => conj (sMinus ps.twoS j i)) = sPlus ps.twoS := by
    funext i j; simp only [sMinus, sPlus]; split_ifs <;> simp
  rw [modePtr_dim, show (spinPtr ps true).twoS = ps.twoS from rfl, hs] at i3
  exact binary_simulates e0 e1 ia (by rw [a2]; exact SpinEl.dimension_pos ps) (by rw [b2]; exact h0) a3 b3 (by rw [a2, b2]; exact i3)

/-- **C77.** The same for a spin of any size and direction in the Schrödinger picture. -/
theorem jaynesCummingsSpinSch_simulates (ps : SpinEl.Pars) (li : Option Liouvillean) (hli : li = none ∨ li = some (SpinEl.liouvillean ps)) (hs : ps.dimension < 2 ^ 63)
    (pm : ModeEl.Pars) (g : ℂ) (hd : pm.cutoff < 2 ^ 63) (h0 : 0 < pm.cutoff) (hκ : 0 ≤ pm.kappa) (hn : 0 ≤ pm.nTh) (hK : pm.omegaKerr = 0) (hA : pm.omegaKerrAlter = 0) :
    ∃ e0 e1 ia, SpinEl.spinSch ps li = .ok e0 ∧ makePumpedLossy pm .sch = .ok e1 ∧ jaynesCummings [0, 1] (sminus (spinPtr ps false)) (modePtr pm .sch) g = .ok ia ∧
      BinSimulates (binary e0 e1 ia) fun i j => tensor (fun i j => -ps.z * sN ps.twoS ps.theta ps.phi i j) one i j +
        tensor one (modeH (pm.kappa * (2 * pm.nTh + 1)) pm.delta pm.eta) i j + jcH g (sMinus ps.twoS) (sPlus ps.twoS) i j := by
  obtain ⟨J0, e0, a1, a2, a3⟩ := spinSch_free ps hs li hli
  obtain ⟨e1, b1, b2, b3⟩ := mode_free pm hd h0 hκ hn hK hA .sch
  obtain ⟨S, s1, s2, s3, s4⟩ := sminus_op (spinPtr ps false) hs (SpinEl.dimension_pos ps)
  obtain ⟨ia, i1, -, i3⟩ := jaynesCummings_couples (modePtr pm .sch) (by rw [modePtr_dim]; exact hd) (by rw [modePtr_dim]; exact h0) s2 s4 [0, 1] g
  rw [s1]
  refine ⟨e0, e1, ia, a1, b1, i1, ?_⟩
  have hs : (fun i j => conj (sMinus ps.twoS j i)) = sPlus ps.twoS := by
    funext i j; simp only [sMinus, sPlus]; split_ifs <;> simp
  rw [modePtr_dim, show (spinPtr ps false).twoS = ps.twoS from rfl, hs] at i3
  exact binary_simulates e0 e1 ia (by rw [a2]; exact SpinEl.dimension_pos ps) (by rw [b2]; exact h0) a3 b3 (by rw [a2, b2]; exact i3)

/-! ## Coupled modes -/

/-- The Hamiltonian of the coupling. -/
noncomputable def couplingH : Coupling → ℂ → Idx → Idx → ℂ
  | .nx, u => nxH u.re
  | .xx, u => xxH u.re
  | .xxRWA, u => xxRwaH u

/-- The pictures in which a coupling is simulated correctly: both or none of the modes in Schrödinger picture, for the optomechanical coupling the second mode in Schrödinger picture. -/
def Coupling.admits (c : Coupling) (m1 m2 : ModePtr) : Prop := match c with
  | .nx => m2.exact = none
  | _ => m1.exact.isSome = m2.exact.isSome

theorem coupledModes_couples (c : Coupling) (m1 m2 : ModePtr) (u : ℂ) (hd1 : m1.dim < 2 ^ 63) (h1 : 0 < m1.dim) (hd2 : m2.dim < 2 ^ 63) (h2 : 0 < m2.dim) (hc : c.admits m1 m2) (axes : List ℕ) :
    ∃ ia, coupledModes axes c m1 m2 u = .ok ia ∧ ia.axes = axes ∧ Couples ia [m1.dim, m2.dim] [m1.w, m2.w] (couplingH c u) := by
  unfold coupledModes
  have hi : 1 / Complex.I = -Complex.I := by rw [one_div, Complex.inv_I]
  by_cases hu : u = 0
  · rw [if_neg (by simpa using hu)]
    refine ⟨_, rfl, rfl, couples_none _ (fun i _ j _ => ?_) axes⟩
    cases c <;> simp [couplingH, nxH, xxH, xxRwaH, hu]
  · rw [if_pos hu]
    obtain ⟨x2, x1', x2', x3', x4'⟩ := xop_op m2 hd2 h2
    cases c with
    | nx =>
      obtain ⟨n, n1, n2, n3, n4, n5⟩ := nop_op m1 hd1 h1 m1.w
      have s2 : Op [m1.dim] (phases [m1.w]) (scale (u.re : ℂ) n) (lift fun i j => (u.re : ℂ) * nOp i j) := n3.scale _
      have hc' : m2.exact.isSome = false := by rw [show m2.exact = none from hc]; rfl
      rw [hc'] at x4'
      obtain ⟨P, p1, p2, -⟩ := product_op (b := false) s2 x2' ⟨fun h => by simp at h, fun _ => n5.scale _⟩ x4'
      unfold coupledModesH
      simp only [n1, x1', Outcome.bind]
      rw [p1]
      refine ⟨_, rfl, rfl, couples_of_ops (List.Forall₂.cons (p2.scale _) .nil) _ (fun i _ j _ => ?_) axes⟩
      simp only [couplingH, nxH, tensor_up, lift2, List.map_cons, List.map_nil, List.sum_cons, List.sum_nil]
      rw [div_eq_mul_one_div]; ring
    | xx =>
      obtain ⟨x1, y1, y2, y3, y4⟩ := xop_op m1 hd1 h1
      have s2 : Op [m1.dim] (phases [m1.w]) (scale (u.re : ℂ) x1) (lift fun i j => (u.re : ℂ) * quadOp i j) := y2.scale _
      rw [show m1.exact.isSome = m2.exact.isSome from hc] at y4
      obtain ⟨P, p1, p2, -⟩ := product_op s2 x2' (y4.scale _) x4'
      unfold coupledModesH
      simp only [y1, x1', Outcome.bind]
      rw [p1]
      refine ⟨_, rfl, rfl, couples_of_ops (List.Forall₂.cons (p2.scale _) .nil) _ (fun i _ j _ => ?_) axes⟩
      simp only [couplingH, xxH, tensor_up, lift2, List.map_cons, List.map_nil, List.sum_cons, List.sum_nil]
      rw [div_eq_mul_one_div]; ring
    | xxRWA =>
      obtain ⟨a, a1, a2, a3, a4⟩ := aop_op m1 hd1 h1
      obtain ⟨b, b1, b2, b3, b4⟩ := aop_op m2 hd2 h2
      have s2 : Op [m1.dim] (phases [m1.w]) (scale (conj u) a) (lift fun i j => conj u * aOp i j) := a2.scale (conj u)
      have bd : Op [m2.dim] (phases [m2.w]) (hermitianConjugate b) (lift adOp) := b2.dagger.congr fun i _ j _ => by simp only [lift, conj_aOp]
      rw [show m1.exact.isSome = m2.exact.isSome from hc] at a4
      obtain ⟨P, p1, p2, p3, p4, -⟩ := product_op s2 bd (a4.scale _) b4.dagger
      obtain ⟨R, r1, r2, r3, r4⟩ := p2.minusHC
      unfold coupledModesH
      simp only [a1, b1, Outcome.bind]
      rw [p1]
      simp only [r1]
      refine ⟨_, rfl, rfl, couples_of_ops (List.Forall₂.cons r2 .nil) _ (fun i _ j _ => ?_) axes⟩
      simp only [couplingH, xxRwaH, tensor_up, lift2, List.map_cons, List.map_nil, List.sum_cons, List.sum_nil, map_mul, conj_adOp, conj_aOp, Complex.conj_conj]
      ring

/-- **C77.** Two coupled modes, with all their pumps and losses. -/
theorem coupledModes_simulates (c : Coupling) (p1 p2 : ModeEl.Pars) (u : ℂ) (qm1 qm2 : Picture) (hc : c.admits (modePtr p1 qm1) (modePtr p2 qm2))
    (hd1 : p1.cutoff < 2 ^ 63) (h1 : 0 < p1.cutoff) (hκ1 : 0 ≤ p1.kappa) (hn1 : 0 ≤ p1.nTh) (hK1 : p1.omegaKerr = 0) (hA1 : p1.omegaKerrAlter = 0)
    (hd2 : p2.cutoff < 2 ^ 63) (h2 : 0 < p2.cutoff) (hκ2 : 0 ≤ p2.kappa) (hn2 : 0 ≤ p2.nTh) (hK2 : p2.omegaKerr = 0) (hA2 : p2.omegaKerrAlter = 0) :
    ∃ e0 e1 ia, makePumpedLossy p1 qm1 = .ok e0 ∧ makePumpedLossy p2 qm2 = .ok e1 ∧ coupledModes [0, 1] c (modePtr p1 qm1) (modePtr p2 qm2) u = .ok ia ∧
      BinSimulates (binary e0 e1 ia) fun i j => tensor (modeH (p1.kappa * (2 * p1.nTh + 1)) p1.delta p1.eta) one i j +
        tensor one (modeH (p2.kappa * (2 * p2.nTh + 1)) p2.delta p2.eta) i j + couplingH c u i j := by
  obtain ⟨e0, a1, a2, a3⟩ := mode_free p1 hd1 h1 hκ1 hn1 hK1 hA1 qm1
  obtain ⟨e1, b1, b2, b3⟩ := mode_free p2 hd2 h2 hκ2 hn2 hK2 hA2 qm2
  obtain ⟨ia, i1, -, i3⟩ := coupledModes_couples c (modePtr p1 qm1) (modePtr p2 qm2) u (by rw [modePtr_dim]; exact hd1) (by rw [modePtr_dim]; exact h1)
    (by rw [modePtr_dim]; exact hd2) (by rw [modePtr_dim]; exact h2) hc [0, 1]
  rw [modePtr_dim, modePtr_dim] at i3
  exact ⟨e0, e1, ia, a1, b1, i1, binary_simulates e0 e1 ia (by rw [a2]; exact h1) (by rw [b2]; exact h2) a3 b3 (by rw [a2, b2]; exact i3)⟩

/-- Optomechanics, with the light in interaction picture and the mirror in Schrödinger picture. -/
example : Coupling.nx.admits (modePtr ⟨10, 1, 0, 0, 2, 1 / 2, 3⟩ .ip) (modePtr ⟨20, 1, 0, 0, 2, 1 / 2, 3⟩ .sch) ∧ Coupling.xx.admits (modePtr ⟨10, 1, 0, 0, 2, 1 / 2, 3⟩ .ip) (modePtr ⟨20, 1, 0, 0, 2, 1 / 2, 3⟩ .uip) :=
  ⟨rfl, rfl⟩

/-! ## The Dicke model -/

theorem generalDicke_couples (m : ModePtr) (s : SpinPtr) (u y : ℂ) (hdm : m.dim < 2 ^ 63) (hm : 0 < m.dim) (hds : s.dim < 2 ^ 63) (hs : 0 < s.dim) (hp : m.exact.isSome = s.exact) (axes : List ℕ) :
    ∃ ia, generalDicke axes m s u y = .ok ia ∧ ia.axes = axes ∧ Couples ia [m.dim, s.dim] [m.w, s.w] (dickeH u y s.twoS) := by
  obtain ⟨n, n1, n2, n3, n4, n5⟩ := nop_op m hdm hm m.w
  obtain ⟨z, z1, z2⟩ := ParticleEl.diagonal_dop s.dim hds hs fun i => (i : ℂ) - s.twoS / 2
  obtain ⟨id, d1, d2⟩ := ParticleEl.identity_dop s.dim hds hs
  obtain ⟨zs, s1, s2, s3, s4⟩ := dop_add_op z2 (d2.scale ((s.twoS : ℂ) / 2)) s.w
  obtain ⟨A, A1, A2, A3, -, A5⟩ := product_op (b := false) (A := fun i j => u * nOp i j) (n3.scale u) s2 ⟨fun h => by simp at h, fun _ => n5.scale u⟩ ⟨fun h => by simp at h, fun _ => s4⟩
  obtain ⟨a, a1, a2, a3, a4⟩ := aop_op m hdm hm
  obtain ⟨x, x1, x2, x3, x4⟩ := good_add a2.dagger a2 rfl a4.dagger a4
  obtain ⟨X, X1, X2, X3, X4⟩ := sx_op s hds hs
  rw [← hp] at X4
  obtain ⟨B, B1, B2, B3, -⟩ := product_op (A := fun i j => y * (adOp i j + aOp i j)) ((x2.scale y).congr fun i _ j _ => by simp only [lift, conj_aOp]) X2 (x4.scale y) X4
  have hAd : A.diffs = [0, 0] := by
    rw [A3, s3, show (scale u n).diffs = n.diffs from rfl, n4]; rfl
  have hBd : B.diffs = [1, 1] := by
    rw [B3, X3, show (scale y x).diffs = x.diffs from rfl, x3, show (hermitianConjugate a).diffs = a.diffs from rfl, a3]; rfl
  have hAr : A.rank = 2 := A2.rank
  obtain ⟨H, H1, H2, -⟩ := A2.add B2 ⟨by
      rw [hAd, hBd]
      intro k hk
      left
      have : k = 0 ∨ k = 1 := by simp at hk; omega
      rcases this with rfl | rfl <;> rfl, Or.inr fun x hx hf => absurd (A5 (fun x _ => n2.freqs x) x hx) hf, Or.inr fun x hx _ => by
        rw [hBd, hAr]
        rcases h : digits3 2 x with - | ⟨a, - | ⟨b, l⟩⟩ <;> simp [KPos]⟩
  unfold generalDicke generalDickeH SpinEl.sz
  rw [n1, z1, d1, a1, X1]
  simp only [Outcome.bind]
  rw [s1]
  simp only []
  rw [A1]
  simp only []
  rw [x1]
  simp only []
  rw [B1]
  simp only []
  rw [H1]
  refine ⟨_, rfl, rfl, couples_of_ops (List.Forall₂.cons (H2.scale _) .nil) _ (fun i _ j _ => ?_) axes⟩
  simp only [dickeH, tensor_up, lift2, List.map_cons, List.map_nil, List.sum_cons, List.sum_nil, sZ, one]
  rw [div_eq_mul_one_div]; ring

/-- **C77.** The Dicke model in interaction picture. -/
theorem generalDicke_simulates (pm : ModeEl.Pars) (ps : SpinEl.Pars) (u y : ℂ) (qmm : Picture) (hq : qmm ≠ .sch) (li : Option Liouvillean) (hli : li = none ∨ li = some (SpinEl.liouvillean ps))
    (hs : ps.dimension < 2 ^ 63) (hd : pm.cutoff < 2 ^ 63) (h0 : 0 < pm.cutoff) (hκ : 0 ≤ pm.kappa) (hn : 0 ≤ pm.nTh) (hK : pm.omegaKerr = 0) (hA : pm.omegaKerrAlter = 0) :
    ∃ e0 e1 ia, makePumpedLossy pm qmm = .ok e0 ∧ SpinEl.spin ps li = .ok e1 ∧ generalDicke [0, 1] (modePtr pm qmm) (spinPtr ps true) u y = .ok ia ∧
      BinSimulates (binary e0 e1 ia) fun i j => tensor (modeH (pm.kappa * (2 * pm.nTh + 1)) pm.delta pm.eta) one i j +
        tensor one (fun i j => -ps.z * (sZ ps.twoS i j + if i = j then (ps.twoS : ℂ) / 2 else 0)) i j + dickeH u y ps.twoS i j := by
  obtain ⟨J0, e1, a1, a2, a3⟩ := spin_free ps li hli
  obtain ⟨e0, b1, b2, b3⟩ := mode_free pm hd h0 hκ hn hK hA qmm
  obtain ⟨ia, i1, -, i3⟩ := generalDicke_couples (modePtr pm qmm) (spinPtr ps true) u y (by rw [modePtr_dim]; exact hd) (by rw [modePtr_dim]; exact h0) hs (SpinEl.dimension_pos ps)
    (by rw [modePtr_exact, decide_eq_true hq]; rfl) [0, 1]
  rw [modePtr_dim] at i3
  exact ⟨e0, e1, ia, b1, a1, i1, binary_simulates e0 e1 ia (by rw [b2]; exact h0) (by rw [a2]; exact SpinEl.dimension_pos ps) b3 a3 (by rw [a2, b2]; exact i3)⟩

/-- **C77.** The Dicke model in Schrödinger picture. -/
theorem generalDickeSch_simulates (pm : ModeEl.Pars) (ps : SpinEl.Pars) (u y : ℂ) (li : Option Liouvillean) (hli : li = none ∨ li = some (SpinEl.liouvillean ps))
    (hs : ps.dimension < 2 ^ 63) (hd : pm.cutoff < 2 ^ 63) (h0 : 0 < pm.cutoff) (hκ : 0 ≤ pm.kappa) (hn : 0 ≤ pm.nTh) (hK : pm.omegaKerr = 0) (hA : pm.omegaKerrAlter = 0) :
    ∃ e0 e1 ia, makePumpedLossy pm .sch = .ok e0 ∧ SpinEl.spinSch ps li = .ok e1 ∧ generalDicke [0, 1] (modePtr pm .sch) (spinPtr ps false) u y = .ok ia ∧
      BinSimulates (binary e0 e1 ia) fun i j => tensor (modeH (pm.kappa * (2 * pm.nTh + 1)) pm.delta pm.eta) one i j +
        tensor one (fun i j => -ps.z * sN ps.twoS ps.theta ps.phi i j) i j + dickeH u y ps.twoS i j := by
  obtain ⟨J0, e1, a1, a2, a3⟩ := spinSch_free ps hs li hli
  obtain ⟨e0, b1, b2, b3⟩ := mode_free pm hd h0 hκ hn hK hA .sch
  obtain ⟨ia, i1, -, i3⟩ := generalDicke_couples (modePtr pm .sch) (spinPtr ps false) u y (by rw [modePtr_dim]; exact hd) (by rw [modePtr_dim]; exact h0) hs (SpinEl.dimension_pos ps) rfl [0, 1]
  rw [modePtr_dim] at i3
  exact ⟨e0, e1, ia, b1, a1, i1, binary_simulates e0 e1 ia (by rw [b2]; exact h0) (by rw [a2]; exact SpinEl.dimension_pos ps) b3 a3 (by rw [a2, b2]; exact i3)⟩

end CppQED.Interactions
