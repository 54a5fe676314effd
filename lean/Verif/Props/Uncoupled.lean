import Verif.Lemmas.Reduced
import Verif.Props.MasterGlobal

/-!
# A group of subsystems which is not coupled to the rest: C150
-/

namespace CppQED.Interactions
open CppQED.Elem CppQED.ModeEl CppQED.Spec CppQED.Composite CppQED.Tridiag CppQED.PTrace CppQED.Slice
open CppQED.MII (Idx)
open ComplexConjugate Matrix

variable {n n' : ℕ}

theorem lindblad_parts {ι κ : Type*} (ks : List ι) (as : List κ) (G : ι → Matrix (Fin n) (Fin n) ℂ) (J : ι → List (Matrix (Fin n) (Fin n) ℂ)) (F : κ → Matrix (Fin n) (Fin n) ℂ) (ρ : Matrix (Fin n) (Fin n) ℂ) :
    lindblad ((ks.map G).sum + (as.map F).sum) (ks.flatMap J) ρ = (ks.map fun k => lindblad (G k) (J k) ρ).sum + (as.map fun a => lindblad (F a) [] ρ).sum := by
  have h1 : ∀ ks : List ι, lindblad (ks.map G).sum (ks.flatMap J) ρ = (ks.map fun k => lindblad (G k) (J k) ρ).sum := by
    intro ks
    induction ks with
    | nil => simp [lindblad]
    | cons k ks ih =>
      rw [List.map_cons, List.sum_cons, List.map_cons, List.sum_cons, ← ih]
      simp only [lindblad, List.map_cons, List.sum_cons, List.flatMap_cons, List.map_append, List.sum_append, Matrix.conjTranspose_add, Matrix.add_mul, Matrix.mul_add]
      abel
  have h2 : ∀ as : List κ, lindblad (as.map F).sum [] ρ = (as.map fun a => lindblad (F a) [] ρ).sum := by
    intro as
    induction as with
    | nil => simp [lindblad]
    | cons k ks ih =>
      rw [List.map_cons, List.sum_cons, List.map_cons, List.sum_cons, ← ih]
      simp only [lindblad, List.map_cons, List.sum_cons, List.map_nil, List.sum_nil, Matrix.conjTranspose_add, Matrix.add_mul, Matrix.mul_add]
      abel
  rw [← h1, ← h2]
  simp only [lindblad, List.map_nil, List.sum_nil, Matrix.conjTranspose_add, Matrix.add_mul, Matrix.mul_add]
  abel

theorem boxMat_hamiltonian {lb ub : Idx} (en : Enum lb ub n) (r : ℕ) (H : ℕ → Dens) (acts : List Part) (I : Part → Idx → Idx → ℂ) :
    (boxMat en fun i j => ∑ k ∈ Finset.range r, extend r [k] (Spec.single (H k)) i j + (acts.map fun ia => extend r ia.axes (I ia) i j).sum) =
      ((List.range r).map fun k => boxMat en (extend r [k] (Spec.single (H k)))).sum + (acts.map fun ia => boxMat en (extend r ia.axes (I ia))).sum := by
  ext x y
  have hl : ∀ {α : Type} (l : List α) (f : α → Idx → Idx → ℂ), (l.map fun a => boxMat en (f a)).sum x y = (l.map fun a => f a (en x) (en y)).sum := by
    intro α l f
    induction l with
    | nil => simp
    | cons a l ih => simp only [List.map_cons, List.sum_cons, Matrix.add_apply, ih]; rfl
  rw [Matrix.add_apply, hl, hl]
  simp only [boxMat, Matrix.of_apply]
  rfl

theorem sum_group {M : Type*} [AddCommMonoid M] {r : ℕ} {V : List ℕ} (hV : ValidAxes r V) (f : ℕ → M) (h : ∀ k < r, k ∉ V → f k = 0) :
    ((List.range r).map f).sum = ((List.range V.length).map fun j => f (V.getD j 0)).sum := by
  have e1 : ((List.range V.length).map fun j => f (V.getD j 0)) = V.map f := by
    apply List.ext_getElem
    · simp
    · intro k h1 h2
      have : k < V.length := by simpa using h2
      simp [List.getD_eq_getElem?_getD, this]
  rw [e1, ← List.sum_toFinset f hV.2.1, ← List.sum_toFinset f (List.nodup_range)]
  symm
  refine Finset.sum_subset (fun k hk => ?_) fun k hk hn => h k (by simpa using hk) (by simpa using hn)
  simpa using hV.2.2 k (by simpa using hk)

theorem sum_filter_list {α M : Type*} [AddCommMonoid M] (l : List α) (p : α → Bool) (f : α → M) (h : ∀ a ∈ l, p a = false → f a = 0) : (l.map f).sum = ((l.filter p).map f).sum := by
  induction l with
  | nil => rfl
  | cons a l ih =>
    have := ih fun b hb => h b (by simp [hb])
    rw [List.map_cons, List.sum_cons, this, List.filter_cons]
    split_ifs with hp
    · simp
    · rw [h a (by simp) (by simpa using hp), zero_add]

section
variable {V : List ℕ} {es es' : List Element} {acts acts' : List Part}

theorem separate_length (hs : Separate V es acts es' acts') : es'.length = V.length := by simpa using (congrArg List.length hs.elements).symm

theorem separate_get (hs : Separate V es acts es' acts') {j : ℕ} (hj : j < V.length) : es'[j]? = es[V.getD j 0]? := by
  have h := congrArg (fun l : List (Option Element) => l[j]?) hs.elements
  simp only [List.getElem?_map, List.getElem?_eq_getElem hj, Option.map_some] at h
  rw [List.getD_eq_getElem?_getD, List.getElem?_eq_getElem hj, Option.getD_some]
  cases hx : es'[j]? with
  | none => rw [hx] at h; simp at h
  | some e => rw [hx] at h; simpa using h.symm

theorem separate_bounds (hs : Separate V es acts es' acts') (f : Element → ℤ) : es'.map f = sliceBound V (es.map f) := by
  unfold sliceBound
  apply List.ext_getElem
  · simp [separate_length hs]
  · intro k h1 h2
    have hk : k < V.length := by simpa using h2
    have hk' : k < es'.length := by simpa using h1
    have := separate_get hs hk
    rw [List.getElem?_eq_getElem hk', List.getD_eq_getElem?_getD, List.getElem?_eq_getElem hk, Option.getD_some] at this
    simp [List.getD_eq_getElem?_getD, ← this]

/-- **C150.** The Master equation of a group of subsystems which is not coupled to the rest: the time derivative of the density operator of the group, as given by the Master equation of the whole system, is what is given by the
Master equation of the group alone, for whatever state of the whole system. It is supposed that the rest conserves the probability. -/
theorem separate_generator (hs : Separate V es acts es' acts') (hd : ∀ e ∈ es, 0 < e.dim) (H : ℕ → Dens) (J : ℕ → List Dens) (I : Part → Idx → Idx → ℂ)
    (hI : ∀ ia ∈ acts, ValidAxes es.length ia.axes) (hC : ∀ k e, es[k]? = some e → k ∉ V → Conserving (mat e.dim (H k)) ((J k).map (mat e.dim)))
    (hA : ∀ ia ∈ acts, (∀ a ∈ ia.axes, a ∉ V) → AntiHermitian (I ia))
    (en : Enum (composite es acts).lb (composite es acts).ub n) (hN : ∀ ia ∈ acts, ia.ha = none → boxMat en (extend es.length ia.axes (I ia)) = 0) (en' : Enum (composite es' acts').lb (composite es' acts').ub n') (ρ : Matrix (Fin n) (Fin n) ℂ) :
    reduced V en en' (lindblad
        (boxMat en fun i j => ∑ k ∈ Finset.range es.length, extend es.length [k] (Spec.single (H k)) i j + (acts.map fun ia => extend es.length ia.axes (I ia) i j).sum)
        ((List.range es.length).flatMap fun k => (J k).map fun j => boxMat en (extend es.length [k] (Spec.single j))) ρ) =
      lindblad
        (boxMat en' fun i j => ∑ k ∈ Finset.range es'.length, extend es'.length [k] (Spec.single (H (V.getD k 0))) i j + (acts'.map fun ia => extend es'.length ia.axes (I (renumbered V ia)) i j).sum)
        ((List.range es'.length).flatMap fun k => (J (V.getD k 0)).map fun j => boxMat en' (extend es'.length [k] (Spec.single j))) (reduced V en en' ρ) := by
  have h0 : es ≠ [] := by
    rintro rfl
    obtain ⟨h1, -, h3⟩ := hs.axes
    obtain ⟨a, ha⟩ := List.exists_mem_of_ne_nil V h1
    simpa using h3 a ha
  have hb : ValidBounds (composite es acts).lb (composite es acts).ub := validBounds_of es h0 hd
  have hlen : (composite es acts).lb.length = es.length := by simp [composite]
  have g : Geo es.length V (composite es acts).lb (composite es acts).ub := ⟨hs.axes, hb, hlen⟩
  have gk : ∀ k < es.length, Geo es.length [k] (composite es acts).lb (composite es acts).ub := fun k hk => ⟨⟨by simp, by simp, by simpa using hk⟩, hb, hlen⟩
  have hlb : (composite es' acts').lb = sliceBound V (composite es acts).lb := separate_bounds hs _
  have hub : (composite es' acts').ub = sliceBound V (composite es acts).ub := separate_bounds hs _
  have hl' := separate_length hs
  rw [boxMat_hamiltonian, boxMat_hamiltonian, lindblad_parts, lindblad_parts]
  generalize (composite es' acts').lb = lb' at en' hlb
  generalize (composite es' acts').ub = ub' at en' hub
  subst hlb hub
  rw [reduced_add g, reduced_listSum g, reduced_listSum g, List.map_map, List.map_map, hl']
  congr 1
  · rw [sum_group hs.axes]
    · congr 1
      refine List.map_congr_left fun j hj => ?_
      have hj' : j < V.length := by simpa using hj
      have hx : ∀ A, boxMat en (extend es.length [V.getD j 0] A) = boxMat en (extend es.length V (extend V.length [j] A)) := by
        intro A
        ext k l
        exact (extend_extend hs.axes (W := [j]) (by simpa using hj') A _ _).symm
      simp only [Function.comp, hx]
      have := reduced_inside g en en' (extend V.length [j] (Spec.single (H (V.getD j 0)))) ((J (V.getD j 0)).map fun m => extend V.length [j] (Spec.single m)) ρ
      simpa only [List.map_map, Function.comp_def] using this
    · intro k hk hn
      have he := List.getElem?_eq_getElem hk
      refine reduced_outside g en en' _ _ (fun A => extend_commute g (gk k hk) en (fun a ha h => hn (by rw [← List.mem_singleton.1 h]; exact ha)) A _) ?_ ?_ ρ
      · intro j hj A
        obtain ⟨m, -, rfl⟩ := List.mem_map.1 hj
        exact extend_commute g (gk k hk) en (fun a ha h => hn (by rw [← List.mem_singleton.1 h]; exact ha)) A _
      · have := conserving_extend (gk k hk) en (Spec.single (H k)) ((J k).map Spec.single) (by
          have e1 : sliceBound [k] (composite es acts).lb = lower [es[k].dim] := by simp only [composite]; rw [sliceBound_one es k _ he]; rfl
          have e2 : sliceBound [k] (composite es acts).ub = upper [es[k].dim] := by simp only [composite]; rw [sliceBound_one es k _ he]; rfl
          rw [e1, e2]
          exact conservingOn_single (hC k _ he hn))
        simpa only [List.map_map, Function.comp_def] using this
  · rw [sum_filter_list acts (fun ia => ia.axes.all (V.contains ·)), hs.inside, List.map_map]
    · congr 1
      refine List.map_congr_left fun ia hia => ?_
      have hx : ∀ A, boxMat en (extend es.length (renumbered V ia).axes A) = boxMat en (extend es.length V (extend V.length ia.axes A)) := by
        intro A
        ext k l
        exact (extend_extend hs.axes (W := ia.axes) (hs.range ia hia) A _ _).symm
      simp only [Function.comp, hx]
      exact reduced_inside g en en' (extend V.length ia.axes (I (renumbered V ia))) [] ρ
    · intro ia hia hn
      have ho : (∀ a ∈ ia.axes, a ∉ V) ∨ ia.ha = none := by
        rcases hs.outside ia hia with h | h
        · exfalso
          have : ia.axes.all (V.contains ·) = true := by simpa using h
          rw [this] at hn
          simp at hn
        · exact h
      rcases ho with ho | ho
      swap
      · simp only [Function.comp, hN ia hia ho]
        have : lindblad (0 : Matrix (Fin n) (Fin n) ℂ) [] ρ = 0 := by simp [lindblad]
        rw [this, reduced_zero g]
      have gi : Geo es.length ia.axes (composite es acts).lb (composite es acts).ub := ⟨hI ia hia, hb, hlen⟩
      refine reduced_outside g en en' _ [] (fun A => extend_commute g gi en (fun a ha h => ho a h ha) A _) (by simp) ?_ ρ
      have := conserving_extend gi en (I ia) [] (by
        intro s s' _ _
        have := hA ia hia ho s s'
        rw [this]; simp)
      simpa using this

theorem composite_geo (hs : Separate V es acts es' acts') (hd : ∀ e ∈ es, 0 < e.dim) : Geo es.length V (composite es acts).lb (composite es acts).ub := by
  have h0 : es ≠ [] := by
    rintro rfl
    obtain ⟨h1, -, h3⟩ := hs.axes
    obtain ⟨a, ha⟩ := List.exists_mem_of_ne_nil V h1
    simpa using h3 a ha
  exact ⟨hs.axes, validBounds_of es h0 hd, by simp [composite]⟩

/-- **C150.** The reduced density operator of the specification is what the partial trace of the framework gives. -/
theorem separate_reduce (hs : Separate V es acts es' acts') (hd : ∀ e ∈ es, 0 < e.dim) (en : Enum (composite es acts).lb (composite es acts).ub n)
    (en' : Enum (composite es' acts').lb (composite es' acts').ub n') (ρ : Matrix (Fin n) (Fin n) ℂ) :
    ∃ fuel σ, reduceDO es.length V (composite es acts).lb (composite es acts).ub fuel (unflatten2 en ρ) = some σ ∧ boxMat en' σ = reduced V en en' ρ := by
  have g := composite_geo hs hd
  obtain ⟨σ, h1, h2⟩ := reduce_eq_ptrace es.length V _ _ g.hV g.hb g.hl ((boxSize (composite es acts).lb (composite es acts).ub).toNat + 1) (by push_cast; omega) (unflatten2 en ρ)
  refine ⟨_, σ, h1, ?_⟩
  have hlb : (composite es' acts').lb = sliceBound V (composite es acts).lb := separate_bounds hs _
  have hub : (composite es' acts').ub = sliceBound V (composite es acts).ub := separate_bounds hs _
  generalize (composite es' acts').lb = lb' at en' hlb
  generalize (composite es' acts').ub = ub' at en' hub
  subst hlb hub
  ext k l
  exact h2 _ _ (g.mem_slice.1 (en' k).2) (g.mem_slice.1 (en' l).2)

/-! ## Solutions -/

theorem reduced_hasDerivAt {lb ub lb' ub' : Idx} (V : List ℕ) (en : Enum lb ub n) (en' : Enum lb' ub' n') (ρ : ℝ → Matrix (Fin n) (Fin n) ℂ) (D : Matrix (Fin n) (Fin n) ℂ) (t : ℝ)
    (h : ∀ i j, HasDerivAt (fun s => ρ s i j) (D i j) t) (k l : Fin n') : HasDerivAt (fun s => reduced V en en' (ρ s) k l) (reduced V en en' D k l) t := by
  simp only [reduced, Matrix.of_apply, ptrace]
  refine HasDerivAt.fun_sum fun i _ => ?_
  unfold unflatten2
  split_ifs with hc
  · exact h _ _
  · exact hasDerivAt_const _ _

/-- **C150.** If the density operator of the whole system follows its Master equation, then that of a group of subsystems, which is not coupled to the rest, follows the Master equation of the group alone. -/
theorem separate_solves (hs : Separate V es acts es' acts') (hd : ∀ e ∈ es, 0 < e.dim) (H : ℕ → Dens) (J : ℕ → List Dens) (I : Part → Idx → Idx → ℂ)
    (hI : ∀ ia ∈ acts, ValidAxes es.length ia.axes) (hC : ∀ k e, es[k]? = some e → k ∉ V → Conserving (mat e.dim (H k)) ((J k).map (mat e.dim)))
    (hA : ∀ ia ∈ acts, (∀ a ∈ ia.axes, a ∉ V) → AntiHermitian (I ia))
    (en : Enum (composite es acts).lb (composite es acts).ub n) (hN : ∀ ia ∈ acts, ia.ha = none → boxMat en (extend es.length ia.axes (I ia)) = 0) (en' : Enum (composite es' acts').lb (composite es' acts').ub n') (T : ℝ) (ρ : ℝ → Matrix (Fin n) (Fin n) ℂ)
    (hρ : Unravel.Solves
      (boxMat en fun i j => ∑ k ∈ Finset.range es.length, extend es.length [k] (Spec.single (H k)) i j + (acts.map fun ia => extend es.length ia.axes (I ia) i j).sum)
      ((List.range es.length).flatMap fun k => (J k).map fun j => boxMat en (extend es.length [k] (Spec.single j))) T ρ) :
    Unravel.Solves
      (boxMat en' fun i j => ∑ k ∈ Finset.range es'.length, extend es'.length [k] (Spec.single (H (V.getD k 0))) i j + (acts'.map fun ia => extend es'.length ia.axes (I (renumbered V ia)) i j).sum)
      ((List.range es'.length).flatMap fun k => (J (V.getD k 0)).map fun j => boxMat en' (extend es'.length [k] (Spec.single j))) T fun t => reduced V en en' (ρ t) := by
  intro t h0 h1 k l
  rw [← separate_generator hs hd H J I hI hC hA en hN en']
  exact reduced_hasDerivAt V en en' ρ _ t (hρ t h0 h1) k l

/-! ## Trajectories -/

theorem reduced_bound {lb ub lb' ub' : Idx} (V : List ℕ) (en : Enum lb ub n) (en' : Enum lb' ub' n') (X Y : Matrix (Fin n) (Fin n) ℂ) {b : ℝ} (hb0 : 0 ≤ b) (hb : ∀ i j, ‖X i j - Y i j‖ ≤ b) (k l : Fin n') :
    ‖reduced V en en' X k l - reduced V en en' Y k l‖ ≤ n * b := by
  have hcard : (boxFinset lb ub).card = n := by
    have := Fintype.card_congr en
    simpa using this.symm
  simp only [reduced, Matrix.of_apply, ptrace]
  rw [← Finset.sum_sub_distrib]
  refine (norm_sum_le _ _).trans ?_
  refine (Finset.sum_le_card_nsmul _ _ b fun i _ => ?_).trans ?_
  · unfold unflatten2
    split_ifs
    · exact hb _ _
    · simpa using hb0
  · rw [nsmul_eq_mul]
    refine mul_le_mul_of_nonneg_right ?_ hb0
    rw [← hcard]
    exact_mod_cast Finset.card_filter_le _ _

theorem separate_couples (hs : Separate V es acts es' acts') (w : ℕ → ℕ → ℂ) (I : Part → Idx → Idx → ℂ)
    (hI : ∀ ia ∈ acts, ia.li = none ∧ ValidAxes es.length ia.axes ∧ 2 ≤ ia.axes.length ∧ Couples ia (ia.axes.map fun a => (es.map Element.dim).getD a 0) (ia.axes.map w) (I ia)) :
    ∀ ia ∈ acts', ia.li = none ∧ ValidAxes es'.length ia.axes ∧ 2 ≤ ia.axes.length ∧
      Couples ia (ia.axes.map fun a => (es'.map Element.dim).getD a 0) (ia.axes.map fun a => w (V.getD a 0)) (I (renumbered V ia)) := by
  intro ia hia
  have hm : renumbered V ia ∈ acts := by
    have : renumbered V ia ∈ acts.filter (fun ia => ia.axes.all (V.contains ·)) := by rw [hs.inside]; exact List.mem_map_of_mem hia
    exact (List.mem_filter.1 this).1
  obtain ⟨h1, ⟨v1, v2, -⟩, h3, h4⟩ := hI _ hm
  refine ⟨h1, ⟨fun h => v1 (by simp [renumbered, h]), List.Nodup.of_map _ v2, fun a ha => by rw [separate_length hs]; exact hs.range ia hia a ha⟩, by simpa [renumbered] using h3, ?_⟩
  have e1 : (renumbered V ia).axes.map (fun a => (es.map Element.dim).getD a 0) = ia.axes.map fun a => (es'.map Element.dim).getD a 0 := by
    simp only [renumbered, List.map_map]
    refine List.map_congr_left fun a ha => ?_
    simp only [Function.comp, List.getD_eq_getElem?_getD, List.getElem?_map]
    have := separate_get hs (hs.range ia hia a ha)
    rw [this, List.getD_eq_getElem?_getD]
  have e2 : (renumbered V ia).axes.map w = ia.axes.map fun a => w (V.getD a 0) := by simp only [renumbered, List.map_map]; rfl
  rw [e1, e2] at h4
  exact h4

end

open CppQED.Master in
/-- **C150.** Master-equation trajectories of a group of subsystems which is not coupled to the rest. Let the whole system and the group alone be simulated by Master-equation trajectories, the latter from the reduced density operator of
the group. Then, whenever both have arrived at time `T`, the reduced density operator of the whole system is the density operator of the trajectory of the group, up to an error proportional to those of the steppers. So what is
simulated for the group depends neither on the presence, nor on the initial state, nor on the parameters of the rest, even if it is initially entangled with the group. -/
theorem separate_trajectories.{v} {V : List ℕ} {es es' : List Element} {acts acts' : List Part} (hs : Separate V es acts es' acts') (hd : ∀ e ∈ es, 0 < e.dim) (w : ℕ → ℕ → ℂ) (H : ℕ → Dens) (J : ℕ → List Dens)
    (I : Part → Idx → Idx → ℂ) (hF : ∀ k e, es[k]? = some e → MasterFree e (w k) (H k) (J k)) (hC : ∀ k e, es[k]? = some e → Conserving (mat e.dim (H k)) ((J k).map (mat e.dim)))
    (hI : ∀ ia ∈ acts, ia.li = none ∧ ValidAxes es.length ia.axes ∧ 2 ≤ ia.axes.length ∧ Couples ia (ia.axes.map fun a => (es.map Element.dim).getD a 0) (ia.axes.map w) (I ia)) (hA : ∀ ia ∈ acts, AntiHermitian (I ia))
    (implemented implemented' : ℕ → Bool) (hsz : ((List.range es.length).map fun k => (J k).length).sum < 2 ^ 64)
    (en : Enum (composite es acts).lb (composite es acts).ub n) (en' : Enum (composite es' acts').lb (composite es' acts').ub n')
    (happ : (composite es acts).applicableInMaster = true) (happ' : (composite es' acts').applicableInMaster = true) (T : ℝ) (hT : 0 ≤ T) :
    ∃ C, 0 ≤ C ∧ ∀ {κ : Type v} (solver : (ℝ → Rho n → Rho n) → ODE.Stepper (Rho n) κ) (solver' : (ℝ → Rho n' → Rho n') → ODE.Stepper (Rho n') κ) (ε Dt Dt' : ℝ),
      (∀ t0, GoodSolver (solver fun t rho => derivative ((composite es acts).toSys implemented en) t t0 rho) (fun t rho => derivative ((composite es acts).toSys implemented en) t t0 rho) ε) →
      (∀ t0, GoodSolver (solver' fun t rho => derivative ((composite es' acts').toSys implemented' en') t t0 rho) (fun t rho => derivative ((composite es' acts').toSys implemented' en') t t0 rho) ε) →
      0 ≤ ε → C * ε ≤ 1 → 0 < Dt → Dt ≤ 1 → 0 < Dt' → Dt' ≤ 1 → ∀ (rho : Rho n), Density rho → Density (reduced V en en' rho) →
      ∀ (ces ces' : κ) (dtInit dtInit' : ℝ), 0 < dtInit → 0 < dtInit' → ∀ (fuel N m fuel' N' m' : ℕ) (x : St n κ) (y : St n' κ),
      simulate solver ((composite es acts).toSys implemented en) ces dtInit fuel N m T Dt rho = some x →
      simulate solver' ((composite es' acts').toSys implemented' en') ces' dtInit' fuel' N' m' T Dt' (reduced V en en' rho) = some y →
      ∀ i j, ‖reduced V en en' x.rho i j - y.rho i j‖ ≤ C * ε := by
  have h0 : es ≠ [] := by
    rintro rfl
    obtain ⟨h1, -, h3⟩ := hs.axes
    obtain ⟨a, ha⟩ := List.exists_mem_of_ne_nil V h1
    simpa using h3 a ha
  have hl' := separate_length hs
  have hget : ∀ k e, es'[k]? = some e → es[V.getD k 0]? = some e := fun k e h => by
    have hk : k < V.length := by
      by_contra hc
      rw [List.getElem?_eq_none (by omega)] at h
      simp at h
    rw [← separate_get hs hk, h]
  have h0' : es' ≠ [] := by
    rintro rfl
    have := hs.axes.1
    simp only [List.length_nil] at hl'
    exact this (List.length_eq_zero_iff.1 hl'.symm)
  have hd' : ∀ e ∈ es', 0 < e.dim := by
    intro e he
    obtain ⟨k, hk, rfl⟩ := List.getElem_of_mem he
    exact hd _ (List.mem_of_getElem? (hget k _ (List.getElem?_eq_getElem hk)))
  have hsz' : ((List.range es'.length).map fun k => (J (V.getD k 0)).length).sum < 2 ^ 64 := by
    refine lt_of_le_of_lt ?_ hsz
    rw [hl']
    have e1 : ((List.range V.length).map fun k => (J (V.getD k 0)).length) = V.map fun k => (J k).length := by
      apply List.ext_getElem
      · simp
      · intro k h1 h2
        have : k < V.length := by simpa using h2
        simp [List.getD_eq_getElem?_getD, this]
    rw [e1, ← List.sum_toFinset _ hs.axes.2.1, ← List.sum_toFinset _ (List.nodup_range)]
    exact Finset.sum_le_sum_of_subset fun k hk => by simpa using hs.axes.2.2 k (by simpa using hk)
  have hcI := separate_couples hs w I hI
  have hAnti' : ∀ ia ∈ acts', AntiHermitian (I (renumbered V ia)) := fun ia hia => by
    have : renumbered V ia ∈ acts.filter (fun ia => ia.axes.all (V.contains ·)) := by rw [hs.inside]; exact List.mem_map_of_mem hia
    exact hA _ (List.mem_filter.1 this).1
  have big := composite_tracks.{v} es acts h0 hd w H J I (fun k e h => ⟨(hF k e h).2.1, (hF k e h).2.2.1⟩) hI implemented (fun k e L h hL j hj _ => (hF k e h).2.2.2 L hL j hj) hsz en happ (fun _ => 0) (fun _ _ => le_rfl)
    (fun k e h => by simpa using hC k e h) hA
  have small := composite_tracks.{v} es' acts' h0' hd' (fun k => w (V.getD k 0)) (fun k => H (V.getD k 0)) (fun k => J (V.getD k 0)) (fun ia => I (renumbered V ia))
    (fun k e h => ⟨(hF _ e (hget k e h)).2.1, (hF _ e (hget k e h)).2.2.1⟩) hcI implemented' (fun k e L h hL j hj _ => (hF _ e (hget k e h)).2.2.2 L hL j hj) hsz' en' happ' (fun _ => 0) (fun _ _ => le_rfl)
    (fun k e h => by simpa using hC _ e (hget k e h)) hAnti'
  simp only [Finset.sum_const_zero, Complex.ofReal_zero, zero_smul, sub_zero] at big small
  obtain ⟨C, hC0, hbig⟩ := big.error T hT
  obtain ⟨C', hC0', hsmall⟩ := small.error T hT
  refine ⟨(n + 1) * C + C', by positivity, ?_⟩
  intro κ solver solver' ε Dt Dt' good good' hε hCε hDt hDt1 hDt' hDt1' rho hrho hrho' ces ces' dtInit dtInit' hdt hdt' fuel N m fuel' N' m' x y hx hy i j
  have hn : (0 : ℝ) ≤ n := Nat.cast_nonneg n
  have hCe : 0 ≤ C * ε := mul_nonneg hC0 hε
  have hCe' : 0 ≤ C' * ε := mul_nonneg hC0' hε
  have hnC : 0 ≤ n * (C * ε) := mul_nonneg hn hCe
  have hsum : ((n : ℝ) + 1) * C * ε + C' * ε ≤ 1 := by rw [← add_mul]; exact hCε
  obtain ⟨-, -, -, hx4⟩ := hbig solver ε Dt good hε (by nlinarith) hDt hDt1 rho hrho ces dtInit hdt fuel N m x hx
  obtain ⟨-, -, -, hy4⟩ := hsmall solver' ε Dt' good' hε (by nlinarith) hDt' hDt1' _ hrho' ces' dtInit' hdt' fuel' N' m' y hy
  set A := (boxMat en fun i j => ∑ k ∈ Finset.range es.length, extend es.length [k] (Spec.single (H k)) i j + (acts.map fun ia => extend es.length ia.axes (I ia) i j).sum) with hAdef
  set JJ := ((List.range es.length).flatMap fun k => (J k).map fun j => boxMat en (extend es.length [k] (Spec.single j))) with hJJ
  have hsol : Unravel.Solves A JJ T fun t => sol A JJ t rho := fun t _ _ i j => by simpa using hasDerivAt_sol A JJ rho 0 t i j
  have hN : ∀ ia ∈ acts, ia.ha = none → boxMat en (extend es.length ia.axes (I ia)) = 0 := by
    intro ia hia hn
    have gi : Geo es.length ia.axes (composite es acts).lb (composite es acts).ub := ⟨(hI ia hia).2.1, validBounds_of es h0 hd, by simp [composite]⟩
    have e1 : sliceBound ia.axes (composite es acts).lb = lower (ia.axes.map fun a => (es.map Element.dim).getD a 0) := by
      simp only [sliceBound, lower, composite, List.map_map]
      refine List.map_congr_left fun a ha => ?_
      simp [List.getD_eq_getElem?_getD, (hI ia hia).2.1.2.2 a ha]
    have e2 : sliceBound ia.axes (composite es acts).ub = upper (ia.axes.map fun a => (es.map Element.dim).getD a 0) := by
      simp only [sliceBound, upper, composite, List.map_map]
      refine List.map_congr_left fun a ha => ?_
      simp [List.getD_eq_getElem?_getD, (hI ia hia).2.1.2.2 a ha]
    have hz := (hI ia hia).2.2.2.2 0 0
    rw [hn] at hz
    rw [boxMat_extend_congr gi en (B := fun _ _ => 0) (fun s s' h1 h2 => hz s s' (e1 ▸ e2 ▸ gi.mem_slice.1 h1) (e1 ▸ e2 ▸ gi.mem_slice.1 h2)), boxMat_extend_zero]
  have hred := separate_solves hs hd H J I (fun ia h => (hI ia h).2.1) (fun k e h _ => hC k e h) (fun ia h _ => hA ia h) en hN en' T _ hsol
  have b1 := reduced_bound V en en' x.rho (sol A JJ T rho) hCe (hx4 _ hsol (sol_zero A JJ rho)) i j
  have b2 := hy4 _ hred (by simp only [sol_zero]) i j
  calc ‖reduced V en en' x.rho i j - y.rho i j‖ = ‖(reduced V en en' x.rho i j - reduced V en en' (sol A JJ T rho) i j) - (y.rho i j - reduced V en en' (sol A JJ T rho) i j)‖ := by congr 1; ring
    _ ≤ n * (C * ε) + C' * ε := (norm_sub_le _ _).trans (add_le_add b1 b2)
    _ ≤ ((n + 1) * C + C') * ε := by nlinarith

/-- **C150.** An atom coupled to a cavity, and another cavity, a spectator, which is coupled to neither of them: the elements and the interaction exist, and are as supposed in the theorems above, for the group of the atom and its
cavity. -/
theorem spectator (pq : QbitEl.Pars) (pm ps : ModeEl.Pars) (g : ℂ) (hγ : 0 ≤ pq.gamma) (hpm : pm.cutoff < 2 ^ 63 ∧ 0 < pm.cutoff ∧ 0 ≤ pm.kappa ∧ pm.nTh = 0 ∧ pm.omegaKerr = 0 ∧ pm.omegaKerrAlter = 0)
    (hps : ps.cutoff < 2 ^ 63 ∧ 0 < ps.cutoff ∧ 0 ≤ ps.kappa ∧ ps.nTh = 0 ∧ ps.omegaKerr = 0 ∧ ps.omegaKerrAlter = 0) :
    ∃ e0 e1 e2 ia, QbitEl.make pq .uip = .ok e0 ∧ makePumpedLossy pm .uip = .ok e1 ∧ makePumpedLossy ps .sch = .ok e2 ∧ jaynesCummings [0, 1] (aop (qbitPtr pq .uip)) (modePtr pm .uip) g = .ok ia ∧
      Separate [0, 1] [e0, e1, e2] [ia] [e0, e1] [ia] ∧ (∀ e ∈ [e0, e1, e2], 0 < e.dim) ∧ (composite [e0, e1, e2] [ia]).applicableInMaster = true ∧ (composite [e0, e1] [ia]).applicableInMaster = true ∧
      ∃ (w : ℕ → ℕ → ℂ) (H : ℕ → Dens) (J : ℕ → List Dens) (I : Part → Idx → Idx → ℂ), (∀ k e, [e0, e1, e2][k]? = some e → MasterFree e (w k) (H k) (J k)) ∧
        (∀ k e, [e0, e1, e2][k]? = some e → Conserving (mat e.dim (H k)) ((J k).map (mat e.dim))) ∧
        (∀ a ∈ [ia], a.li = none ∧ ValidAxes 3 a.axes ∧ 2 ≤ a.axes.length ∧ Couples a (a.axes.map fun x => ([e0, e1, e2].map Element.dim).getD x 0) (a.axes.map w) (I a)) ∧ (∀ a ∈ [ia], AntiHermitian (I a)) ∧
        H 0 = qbitH pq.gamma pq.delta pq.eta ∧ H 1 = modeH pm.kappa pm.delta pm.eta ∧ H 2 = modeH ps.kappa ps.delta ps.eta ∧ I ia = jcH g sigma sigmaDag ∧
        ∀ k, (J k).length ≤ 2 := by
  obtain ⟨c1, c2, c3, c4, c5, c6⟩ := hpm
  obtain ⟨d1, d2, d3, d4, d5, d6⟩ := hps
  obtain ⟨e0, a1, a2, a3, a4⟩ := qbit_masterFree pq hγ .uip (Or.inl (by simp))
  obtain ⟨e1, b1, b2, b3, b4⟩ := mode_masterFree pm c1 c2 c3 c4.ge c5 c6 .uip (Or.inl (by simp))
  obtain ⟨e2, f1, f2, f3, f4⟩ := mode_masterFree ps d1 d2 d3 d4.ge d5 d6 .sch (Or.inl (by simp))
  rw [c4, mul_zero, zero_add, mul_one] at b4
  rw [d4, mul_zero, zero_add, mul_one] at f4
  obtain ⟨S, s1, s2, s3⟩ := aop_qbit pq .uip
  obtain ⟨ia, i1, i2, i3⟩ := jaynesCummings_couples (modePtr pm .uip) (by rw [modePtr_dim]; exact c1) (by rw [modePtr_dim]; exact c2) s2
    (by rw [modePtr_exact, ← qbitPtr_exact pq]; exact s3) [0, 1] g
  have hs : (fun i j => conj (sigma j i)) = sigmaDag := by
    funext i j; simp only [sigma, sigmaDag]; split_ifs <;> simp_all
  rw [hs, modePtr_dim] at i3
  obtain ⟨l1, l2, l3, l4⟩ := jaynesCummings_fields i1
  refine ⟨e0, e1, e2, ia, a1, b1, f1, by rw [s1]; exact i1, ?_, ?_, ?_, ?_, ?_⟩
  · refine ⟨⟨by simp, by simp, by simp⟩, rfl, ?_, ?_, ?_⟩
    · intro a ha x hx
      obtain rfl := List.mem_singleton.1 ha
      rw [i2] at hx
      simp at hx ⊢
      omega
    · have hr : renumbered [0, 1] ia = ia := by
        unfold renumbered
        rw [show (ia.axes.map fun a => ([0, 1] : List ℕ).getD a 0) = ia.axes by rw [i2]; rfl]
      rw [List.map_singleton, hr, List.filter_cons, i2]
      rfl
    · intro a ha
      obtain rfl := List.mem_singleton.1 ha
      exact Or.inl (by rw [i2]; exact fun _ h => h)
  · intro e he
    simp only [List.mem_cons, List.not_mem_nil, or_false] at he
    rcases he with rfl | rfl | rfl
    · exact a4.1
    · exact b4.1
    · exact f4.1
  · rw [comp_applicableInMaster]
    intro q hq
    simp only [Comp.parts, composite, List.map_cons, List.map_nil, List.mapIdx_cons, List.mapIdx_nil, List.cons_append, List.nil_append, List.mem_cons, List.not_mem_nil, or_false] at hq
    unfold Composite.applicableInMaster
    rcases hq with rfl | rfl | rfl | rfl
    · simp only [freePart, a3]; split <;> rfl
    · simp only [freePart, b3]; split <;> rfl
    · simp only [freePart, f3]; split <;> rfl
    · rw [l3]
  · rw [comp_applicableInMaster]
    intro q hq
    simp only [Comp.parts, composite, List.map_cons, List.map_nil, List.mapIdx_cons, List.mapIdx_nil, List.cons_append, List.nil_append, List.mem_cons, List.not_mem_nil, or_false] at hq
    unfold Composite.applicableInMaster
    rcases hq with rfl | rfl | rfl
    · simp only [freePart, a3]; split <;> rfl
    · simp only [freePart, b3]; split <;> rfl
    · rw [l3]
  · refine ⟨fun k => [(qbitPtr pq .uip).w, (modePtr pm .uip).w, (modePtr ps .sch).w].getD k 0, fun k => [qbitH pq.gamma pq.delta pq.eta, modeH pm.kappa pm.delta pm.eta, modeH ps.kappa ps.delta ps.eta].getD k 0,
      fun k => [modeJ pq.gamma 0, modeJ pm.kappa 0, modeJ ps.kappa 0].getD k [], fun _ => jcH g sigma sigmaDag, ?_, ?_, ?_, ?_, rfl, rfl, rfl, rfl, ?_⟩
    · rintro (_ | _ | _ | k) e he
      · obtain rfl : e0 = e := by simpa using he
        exact a4
      · obtain rfl : e1 = e := by simpa using he
        simpa [c4] using b4
      · obtain rfl : e2 = e := by simpa using he
        simpa [d4] using f4
      · simp at he
    · rintro (_ | _ | _ | k) e he
      · obtain rfl : e0 = e := by simpa using he
        rw [a2]
        have := mode_conserving 2 (by norm_num) pq.gamma hγ pq.delta (-pq.eta)
        rwa [QbitEl.qbitH_eq] at this
      · obtain rfl : e1 = e := by simpa using he
        rw [b2]
        exact mode_conserving pm.cutoff c2 pm.kappa c3 pm.delta pm.eta
      · obtain rfl : e2 = e := by simpa using he
        rw [f2]
        exact mode_conserving ps.cutoff d2 ps.kappa d3 ps.delta ps.eta
      · simp at he
    · intro a ha
      obtain rfl := List.mem_singleton.1 ha
      rw [i2]
      refine ⟨l1, ⟨by simp, by simp, by simp⟩, by simp, ?_⟩
      simpa [a2, b2] using i3
    · exact fun _ _ => antiHermitian_jcH g sigma sigmaDag fun i j => congrFun (congrFun hs i) j
    · have hlen : ∀ κ n : ℝ, (modeJ κ n).length ≤ 2 := by intro κ n; unfold modeJ; split_ifs <;> simp
      rintro (_ | _ | _ | k)
      · exact hlen _ _
      · exact hlen _ _
      · exact hlen _ _
      · simp

open CppQED.Master in
/-- **C150.** The spectator does not matter: whatever its parameters are and whatever its initial state is (even if it is entangled with the atom and the cavity), the reduced density operator of the atom and the cavity is that of the
trajectory without the spectator. -/
theorem spectator_irrelevant.{v} (pq : QbitEl.Pars) (pm ps : ModeEl.Pars) (g : ℂ) (hγ : 0 ≤ pq.gamma) (hpm : pm.cutoff < 2 ^ 63 ∧ 0 < pm.cutoff ∧ 0 ≤ pm.kappa ∧ pm.nTh = 0 ∧ pm.omegaKerr = 0 ∧ pm.omegaKerrAlter = 0)
    (hps : ps.cutoff < 2 ^ 63 ∧ 0 < ps.cutoff ∧ 0 ≤ ps.kappa ∧ ps.nTh = 0 ∧ ps.omegaKerr = 0 ∧ ps.omegaKerrAlter = 0) :
    ∃ e0 e1 e2 ia, QbitEl.make pq .uip = .ok e0 ∧ makePumpedLossy pm .uip = .ok e1 ∧ makePumpedLossy ps .sch = .ok e2 ∧ jaynesCummings [0, 1] (aop (qbitPtr pq .uip)) (modePtr pm .uip) g = .ok ia ∧
      ∀ (implemented implemented' : ℕ → Bool) (n n' : ℕ) (en : Enum (composite [e0, e1, e2] [ia]).lb (composite [e0, e1, e2] [ia]).ub n) (en' : Enum (composite [e0, e1] [ia]).lb (composite [e0, e1] [ia]).ub n')
        (T : ℝ), 0 ≤ T → ∃ C, 0 ≤ C ∧ ∀ {κ : Type v} (solver : (ℝ → Rho n → Rho n) → ODE.Stepper (Rho n) κ) (solver' : (ℝ → Rho n' → Rho n') → ODE.Stepper (Rho n') κ) (ε Dt Dt' : ℝ),
        (∀ t0, GoodSolver (solver fun t rho => derivative ((composite [e0, e1, e2] [ia]).toSys implemented en) t t0 rho) (fun t rho => derivative ((composite [e0, e1, e2] [ia]).toSys implemented en) t t0 rho) ε) →
        (∀ t0, GoodSolver (solver' fun t rho => derivative ((composite [e0, e1] [ia]).toSys implemented' en') t t0 rho) (fun t rho => derivative ((composite [e0, e1] [ia]).toSys implemented' en') t t0 rho) ε) →
        0 ≤ ε → C * ε ≤ 1 → 0 < Dt → Dt ≤ 1 → 0 < Dt' → Dt' ≤ 1 → ∀ (rho : Rho n), Density rho → Density (reduced [0, 1] en en' rho) →
        ∀ (ces ces' : κ) (dtInit dtInit' : ℝ), 0 < dtInit → 0 < dtInit' → ∀ (fuel N m fuel' N' m' : ℕ) (x : St n κ) (y : St n' κ),
        simulate solver ((composite [e0, e1, e2] [ia]).toSys implemented en) ces dtInit fuel N m T Dt rho = some x →
        simulate solver' ((composite [e0, e1] [ia]).toSys implemented' en') ces' dtInit' fuel' N' m' T Dt' (reduced [0, 1] en en' rho) = some y →
        ∀ i j, ‖reduced [0, 1] en en' x.rho i j - y.rho i j‖ ≤ C * ε := by
  obtain ⟨e0, e1, e2, ia, h1, h2, h3, h4, hs, hd, ha, ha', w, H, J, I, hF, hC, hI, hA, -, -, -, -, hJ⟩ := spectator pq pm ps g hγ hpm hps
  refine ⟨e0, e1, e2, ia, h1, h2, h3, h4, fun implemented implemented' n n' en en' T hT => ?_⟩
  refine separate_trajectories.{v} hs hd w H J I hF hC hI hA implemented implemented' ?_ en en' ha ha' T hT
  have := hJ 0
  have := hJ 1
  have := hJ 2
  simp [List.range_succ]
  omega

example := spectator_irrelevant.{0} ⟨1, 2, 0, 1⟩ ⟨3, 1, 0, 0, 2, 0, 1⟩ ⟨5, -1, 0, 0, 1, 0, 2⟩ 2 (by norm_num) (by norm_num) (by norm_num)

end CppQED.Interactions
