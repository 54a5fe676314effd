import Verif.Lemmas.Op
import Verif.Spec.Interactions
import Verif.Props.CompositePicture
import Verif.Props.ModeDynamics

/-! # Lemmas for the interactions: arrays with different kinds of indices -/

namespace CppQED.Interactions
open CppQED.Elem CppQED.Tridiag CppQED.ModeEl CppQED.Spec CppQED.Composite
open CppQED.MII (Idx)
open CppQED.Slice (Arr sliceBound)
open ComplexConjugate

/-! ## Boxes -/

theorem inBox_cons (d : ℕ) (ds : List ℕ) (x : ℤ) (xs : Idx) : InBox (lower (d :: ds)) (upper (d :: ds)) (x :: xs) ↔ (0 ≤ x ∧ x ≤ (d : ℤ) - 1) ∧ InBox (lower ds) (upper ds) xs := by
  unfold InBox lower upper
  constructor
  · rintro ⟨h1, h2⟩
    refine ⟨by simpa using h2 0 (by simp), by simpa using h1, fun j hj => ?_⟩
    simpa using h2 (j + 1) (by simpa using hj)
  · rintro ⟨h1, h2, h3⟩
    refine ⟨by simpa using h2, fun j hj => ?_⟩
    cases j with
    | zero => simpa using h1
    | succ j => simpa using h3 j (by simpa using hj)

theorem inBox_nil (i : Idx) : InBox (lower []) (upper []) i ↔ i = [] := by
  unfold InBox lower upper
  simp

theorem box_iff (ds : List ℕ) (i : Idx) : InBox (lower ds) (upper ds) i ↔ down i ∈ natBox ds ∧ up (down i) = i := by
  rw [mem_natBox]
  induction ds generalizing i with
  | nil =>
    rw [inBox_nil]
    cases i <;> simp [down, up]
  | cons d ds ih =>
    cases i with
    | nil => simp [InBox, lower, down]
    | cons x xs =>
      rw [inBox_cons, ih]
      simp only [down, up, List.map_cons, List.forall₂_cons, List.cons.injEq]
      constructor
      · rintro ⟨⟨a, b⟩, c, e⟩; exact ⟨⟨by omega, c⟩, by simp; omega, e⟩
      · rintro ⟨⟨a, c⟩, b, e⟩
        simp only [Int.ofNat_eq_natCast] at b
        exact ⟨by omega, c, e⟩

theorem down_up (n : NIdx) : down (up n) = n := by
  unfold down up
  rw [List.map_map]
  exact List.map_id'' (fun x => by simp) n

theorem up_box {ds : List ℕ} {n : NIdx} (h : n ∈ natBox ds) : InBox (lower ds) (upper ds) (up n) := by
  rw [box_iff, down_up]; exact ⟨h, rfl⟩

theorem lower_length (ds : List ℕ) : (upper ds).length = (lower ds).length := by simp [lower, upper]

theorem sum_box {ds : List ℕ} (f : Idx → ℂ) : ∑ s ∈ boxFinset (lower ds) (upper ds), f s = ∑ n ∈ natBox ds, f (up n) := by
  refine Finset.sum_bij' (fun s _ => down s) (fun n _ => up n) ?_ ?_ ?_ ?_ ?_
  · intro s hs; exact ((box_iff ds s).1 ((mem_boxFinset _ _ _ (lower_length ds)).1 hs)).1
  · intro n hn; exact (mem_boxFinset _ _ _ (lower_length ds)).2 (up_box hn)
  · intro s hs; exact ((box_iff ds s).1 ((mem_boxFinset _ _ _ (lower_length ds)).1 hs)).2
  · intro n _; exact down_up n
  · intro s hs; rw [((box_iff ds s).1 ((mem_boxFinset _ _ _ (lower_length ds)).1 hs)).2]

theorem q_up (n : NIdx) (a : ℕ) : q (up n) a = n.getD a 0 := by
  unfold q up
  simp only [List.getD_eq_getElem?_getD, List.getElem?_map]
  cases n[a]? <;> simp

/-! ## Frequencies -/

/-- The sum of the frequencies. -/
def phases (ws : List (ℕ → ℂ)) (n : NIdx) : ℂ := (List.zipWith (fun w k => w k) ws n).sum

theorem phaseSum_up (ws : List (ℕ → ℂ)) (n : NIdx) : phaseSum ws (up n) = phases ws n := by
  unfold phaseSum phases up
  rw [List.zipWith_map_right]
  simp

theorem phases_one (w : ℕ → ℂ) (n : ℕ) : phases [w] [n] = w n := by simp [phases]

theorem phases_append (ws ws' : List (ℕ → ℂ)) (n n' : NIdx) (h : ws.length = n.length) : phases (ws ++ ws') (n ++ n') = phases ws n + phases ws' n' := by
  unfold phases
  rw [List.zipWith_append h, List.sum_append]

/-! ## Interactions -/

theorem foldl_ops {ds : List ℕ} {M : NIdx → ℂ} {Hs : List Tri} {Es : List (NIdx → NIdx → ℂ)} (h : List.Forall₂ (Op ds M) Hs Es) (τ : ℝ) (psi d : NIdx → ℂ) (i : NIdx) (hi : i ∈ natBox ds) :
    Hs.foldl (fun d h => Tridiag.apply (propagate h τ) psi d) d i =
      d i + ∑ j ∈ natBox ds, Complex.exp (M i * τ) * (Es.map fun E => E i j).sum * Complex.exp (-(M j * τ)) * psi j := by
  induction h generalizing d with
  | nil => simp
  | cons h _ ih =>
    rw [List.foldl_cons, ih, h.apply τ psi d i hi, add_assoc, ← Finset.sum_add_distrib]
    congr 1
    refine Finset.sum_congr rfl fun j _ => ?_
    simp only [List.map_cons, List.sum_cons]
    ring

/-- An interaction made of tridiagonals. -/
theorem couples_of_ops {ds : List ℕ} {ws : List (ℕ → ℂ)} {Hs : List Tri} {Es : List (NIdx → NIdx → ℂ)} (h : List.Forall₂ (Op ds (phases ws)) Hs Es) (H : Idx → Idx → ℂ)
    (hH : ∀ i ∈ natBox ds, ∀ j ∈ natBox ds, H (up i) (up j) = (Es.map fun E => E i j).sum) (axes : List ℕ) : Couples (interaction axes (some (triHam Hs))) ds ws H := by
  refine ⟨rfl, fun t t0 => ?_⟩
  simp only [interaction]
  intro psi dpsidt s hs
  obtain ⟨h1, h2⟩ := (box_iff ds s).1 hs
  unfold triHam
  rw [foldl_ops h _ _ _ _ h1, h2]
  unfold matAction
  rw [sum_box]
  congr 1
  refine Finset.sum_congr rfl fun j hj => ?_
  unfold rotating
  rw [← hH _ h1 j hj, h2, phaseSum_up, ← phaseSum_up, h2]

theorem couples_none {ds : List ℕ} {ws : List (ℕ → ℂ)} (H : Idx → Idx → ℂ) (hH : ∀ i ∈ natBox ds, ∀ j ∈ natBox ds, H (up i) (up j) = 0) (axes : List ℕ) :
    Couples (interaction axes none) ds ws H := by
  refine ⟨rfl, fun t t0 => ?_⟩
  simp only [interaction]
  intro s s' hs hs'
  obtain ⟨h1, h2⟩ := (box_iff ds s).1 hs
  obtain ⟨h1', h2'⟩ := (box_iff ds s').1 hs'
  rw [← h2, ← h2', hH _ h1 _ h1']

/-! ## Free elements -/

/-- The element is in the interaction picture of the frequencies `w`, its Hamiltonian is `H`, its jumps are `J`. -/
def FreeIs (e : Element) (w : ℕ → ℂ) (H : Dens) (J : List Dens) : Prop :=
  ∃ V, HaIs e w V ∧ ExIs e w ∧ LiIs e J ∧ ∀ i < e.dim, ∀ j < e.dim, (V i j - if i = j then w i else 0) = H i j

theorem FreeIs.congr {e : Element} {w : ℕ → ℂ} {H H' : Dens} {J : List Dens} (h : FreeIs e w H J) (he : ∀ i < e.dim, ∀ j < e.dim, H i j = H' i j) : FreeIs e w H' J := by
  obtain ⟨V, h1, h2, h3, h4⟩ := h
  exact ⟨V, h1, h2, h3, fun i hi j hj => by rw [h4 i hi j hj, he i hi j hj]⟩

theorem freePart_ex (e : Element) (w : ℕ → ℂ) (h : ExIs e w) (lb ub : Idx) (a : ℕ) (hb : InBox (sliceBound [a] lb) (sliceBound [a] ub) = InBox (lower [e.dim]) (upper [e.dim])) (t t0 : ℝ) :
    ExOK lb ub t t0 { freePart e with axes := [a] } (fun s => Complex.exp (-(w (q s 0) * (t - t0 : ℝ)))) := by
  unfold ExOK
  simp only [freePart]
  unfold ExIs at h
  rw [hb]
  cases hx : e.ex with
  | none =>
    rw [hx] at h
    simp only [Option.map_none] at h ⊢
    intro s hs
    obtain ⟨h1, h2⟩ := (box_iff _ s).1 hs
    rw [← h2, q_up]
    obtain ⟨n, hn⟩ := List.length_eq_one_iff.1 (length_of_mem h1)
    rw [hn] at h1 ⊢
    rw [List.getD_cons_zero, h n ((mem_natBox_one _ _).1 h1)]
    simp
  | some U =>
    rw [hx] at h
    simp only [Option.map_some] at h ⊢
    intro psi s hs
    obtain ⟨h1, h2⟩ := (box_iff _ s).1 hs
    obtain ⟨n, hn⟩ := List.length_eq_one_iff.1 (length_of_mem h1)
    have e1 : q s 0 = n := by rw [← h2, q_up, hn]; rfl
    have e2 : (s.getD 0 0).toNat = n := e1
    rw [e1, e2]
    rw [hn] at h1
    rw [h _ n ((mem_natBox_one _ _).1 h1)]
    rfl

theorem freePart_ha (e : Element) (w : ℕ → ℂ) (V : Dens) (h : HaIs e w V) (lb ub : Idx) (a : ℕ) (hl : sliceBound [a] lb = lower [e.dim]) (hu : sliceBound [a] ub = upper [e.dim]) (w' : ℕ → ℤ → ℂ)
    (hw : ∀ z, w' a z = w z.toNat) (t t0 : ℝ) :
    HaOK lb ub t t0 { freePart e with axes := [a] } (inPicture w' [a] (single V) (t - t0)) := by
  unfold HaOK
  simp only [freePart]
  unfold HaIs at h
  rw [hl, hu]
  cases hx : e.ha with
  | none =>
    rw [hx] at h
    simp only [Option.map_none] at h ⊢
    intro s s' hs hs'
    obtain ⟨h1, h2⟩ := (box_iff _ s).1 hs
    obtain ⟨h1', h2'⟩ := (box_iff _ s').1 hs'
    obtain ⟨n, hn⟩ := List.length_eq_one_iff.1 (length_of_mem h1)
    obtain ⟨m, hm⟩ := List.length_eq_one_iff.1 (length_of_mem h1')
    unfold inPicture single
    rw [← h2, ← h2', q_up, q_up, hn, hm]
    rw [hn] at h1; rw [hm] at h1'
    simp [h n ((mem_natBox_one _ _).1 h1) m ((mem_natBox_one _ _).1 h1')]
  | some f =>
    rw [hx] at h
    simp only [Option.map_some] at h ⊢
    intro psi dpsidt s hs
    obtain ⟨h1, h2⟩ := (box_iff _ s).1 hs
    obtain ⟨n, hn⟩ := List.length_eq_one_iff.1 (length_of_mem h1)
    have es : s = [(n : ℤ)] := by rw [← h2, hn]; rfl
    subst es
    rw [hn] at h1
    have hn' := (mem_natBox_one _ _).1 h1
    have := congrFun (h t (fun n => psi [(n : ℤ)]) (fun n => dpsidt [(n : ℤ)]) t0) ⟨n, hn'⟩
    rw [Pi.add_apply, mulVec_ket] at this
    simp only [ket] at this
    simp only [List.getD_cons_zero, Int.toNat_natCast]
    rw [this]
    congr 1
    unfold matAction
    rw [sum_box, sum_natBox_one]
    refine Finset.sum_congr rfl fun j _ => ?_
    simp only [interactionPicture, inPicture, single, phaseOf, up, q, List.map_cons, List.map_nil, List.zipWith_cons_cons, List.zipWith_nil_right, List.sum_cons, List.sum_nil, add_zero,
      List.getD_cons_zero, hw, Int.ofNat_eq_natCast, Int.toNat_natCast]
    rw [Complex.exp_neg (w n * _), inv_inv]

end CppQED.Interactions
