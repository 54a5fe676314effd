import Verif.Model.MultiLevel
import Verif.Spec.MultiLevel
import Verif.Props.Qbit

/-!
# The multilevel element and the pumped two-level atom: C22, C53, C74
-/

namespace CppQED.MultiEl
open CppQED.Elem CppQED.Tridiag CppQED.Spec CppQED.ModeEl Matrix
open ComplexConjugate

/-- The Hamiltonian of the parameters. -/
noncomputable def Pars.H (p : Pars) : Dens := multiH p.deltas (p.gammas.map fun g => (g.second, g.gamma)) (p.etas.map fun P => (P.first, P.second, P.eta))

/-- The jump operators. -/
noncomputable def Pars.J (p : Pars) : List Dens := p.gammas.map fun g => sc (Real.sqrt (2 * g.gamma)) (transition g.first g.second)

/-- What is checked at compile time. -/
structure Pars.Sane (p : Pars) : Prop where
  etas : ∀ P ∈ p.etas, P.first < p.nl ∧ P.second < p.nl ∧ P.first ≠ P.second
  gammas : ∀ g ∈ p.gammas, g.first < p.nl ∧ g.second < p.nl ∧ g.first ≠ g.second

theorem zSchs_eq (p : Pars) (i : ℕ) : zSchs p i = -(Complex.I * p.deltas i) + (p.gammas.map fun g => if g.second = i then (g.gamma : ℂ) else 0).sum := by
  unfold zSchs
  have : ∀ (L : List Decay) (z : ℕ → ℂ), L.foldl (fun res g => Function.update res g.second (res g.second + (g.gamma : ℂ))) z i = z i + (L.map fun g => if g.second = i then (g.gamma : ℂ) else 0).sum := by
    intro L
    induction L with
    | nil => intro z; simp
    | cons g L ih =>
      intro z
      rw [List.foldl_cons, ih, List.map_cons, List.sum_cons, ← add_assoc]
      congr 1
      by_cases h : g.second = i
      · subst h; simp
      · rw [Function.update_of_ne (Ne.symm h), if_neg h, add_zero]
  rw [this]
  ring

theorem transition_mulVec (d l m : ℕ) (hm : m < d) (psi : Vec) (n : Fin d) : (mat d (transition l m) *ᵥ ket d psi) n = if (n : ℕ) = l then psi m else 0 := by
  rw [mulVec_ket]
  unfold transition
  split_ifs with h
  · rw [Finset.sum_eq_single m]
    · simp [h]
    · intro j _ hj; simp [hj]
    · intro h'; exact absurd (Finset.mem_range.2 hm) h'
  · exact Finset.sum_eq_zero fun j _ => by simp [h]

theorem sum_transition (d l m : ℕ) (hm : m < d) (psi : Vec) (n : ℕ) : ∑ j ∈ Finset.range d, transition l m n j * psi j = if n = l then psi m else 0 := by
  unfold transition
  split_ifs with h
  · rw [Finset.sum_eq_single m]
    · simp [h]
    · intro j _ hj; simp [hj]
    · intro h'; exact absurd (Finset.mem_range.2 hm) h'
  · exact Finset.sum_eq_zero fun j _ => by simp [h]

/-- **C74.** The Hamiltonian action is the multiplication with the specified matrix. -/
theorem addContribution_eq (p : Pars) (hs : p.Sane) (psi dpsidt : Vec) : ket p.nl (addContribution p psi dpsidt) = ket p.nl dpsidt + mat p.nl p.H *ᵥ ket p.nl psi := by
  have h1 : ∀ n < p.nl, (List.range p.nl).foldl (fun (d : Vec) ind => d.set ind (d ind + -(zSchs p ind) * psi ind)) dpsidt n = dpsidt n + -(zSchs p n) * psi n := by
    have : ∀ k n, (List.range k).foldl (fun (d : Vec) ind => d.set ind (d ind + -(zSchs p ind) * psi ind)) dpsidt n = if n < k then dpsidt n + -(zSchs p n) * psi n else dpsidt n := by
      intro k
      induction k with
      | zero => intro n; simp
      | succ k ih =>
        intro n
        rw [List.range_succ, List.foldl_append, List.foldl_cons, List.foldl_nil, Elem.set_apply, ih, ih]
        by_cases h : n = k
        · subst h; simp
        · rw [if_neg h]
          by_cases h' : n < k
          · rw [if_pos h', if_pos (by omega)]
          · rw [if_neg h', if_neg (by omega)]
    intro n hn
    rw [this, if_pos hn]
  have h2 : ∀ (L : List Pump), (∀ P ∈ L, P.first < p.nl ∧ P.second < p.nl ∧ P.first ≠ P.second) → ∀ (d : Vec) n,
      L.foldl (fun (d : Vec) P =>
        let d := d.set P.first (d P.first + conj P.eta * psi P.second)
        d.set P.second (d P.second - P.eta * psi P.first)) d n =
      d n + ∑ j ∈ Finset.range p.nl, (L.map fun P => conj P.eta * transition P.first P.second n j - P.eta * transition P.second P.first n j).sum * psi j := by
    intro L
    induction L with
    | nil => intro _ d n; simp
    | cons P L ih =>
      intro hL d n
      obtain ⟨a, b, c⟩ := hL P List.mem_cons_self
      rw [List.foldl_cons, ih fun Q hQ => hL Q (List.mem_cons_of_mem _ hQ)]
      simp only [List.map_cons, List.sum_cons, add_mul, Finset.sum_add_distrib, sub_mul, Finset.sum_sub_distrib, mul_assoc, ← Finset.mul_sum]
      rw [sum_transition _ _ _ b, sum_transition _ _ _ a, ← add_assoc]
      congr 1
      simp only [Elem.set_apply]
      by_cases x : n = P.second
      · subst x
        rw [if_pos rfl, if_neg (Ne.symm c), if_neg (Ne.symm c), if_pos rfl]; ring
      · rw [if_neg x, if_neg x]
        by_cases y : n = P.first
        · subst y; simp
        · rw [if_neg y, if_neg y]; ring
  funext n
  rw [Pi.add_apply, mulVec_ket]
  unfold ket addContribution
  simp only
  rw [h2 _ hs.etas, h1 n n.2]
  unfold Pars.H multiH
  simp only [add_mul, Finset.sum_add_distrib, List.map_map]
  rw [← add_assoc]
  congr 1
  · congr 1
    rw [Finset.sum_eq_single (n : ℕ), if_pos rfl, zSchs_eq]
    · simp only [Function.comp_def]; ring
    · intro j _ hj; rw [if_neg (Ne.symm hj), zero_mul]
    · intro h; exact absurd (Finset.mem_range.2 n.2) h

theorem transition_sandwich (d l m : ℕ) (hm : m < d) (rho : Dens) : mat d (transition l m) * mat d rho * (mat d (transition l m))ᴴ = mat d fun i j => if i = l ∧ j = l then rho m m else 0 := by
  ext i j
  have h1 : ∀ x : Fin d, (mat d (transition l m) * mat d rho) i x = if (i : ℕ) = l then rho m x else 0 := fun x => transition_mulVec d l m hm (fun i => rho i x) i
  rw [Matrix.mul_apply, Finset.sum_eq_single ⟨m, hm⟩]
  · rw [h1]
    simp only [Matrix.conjTranspose_apply, mat_apply, transition]
    by_cases a : (i : ℕ) = l <;> by_cases b : (j : ℕ) = l <;> simp [a, b]
  · intro x _ hx
    have : ¬ (x : ℕ) = m := fun h => hx (Fin.ext h)
    simp [Matrix.conjTranspose_apply, mat_apply, transition, this]
  · simp

/-- **C74.** Each decay: jump, superoperator and rate. -/
theorem decay_eq (d : ℕ) (g : Decay) (h1 : g.first < d) (h2 : g.second < d) (hγ : 0 ≤ g.gamma) :
    let J := mat d (sc (Real.sqrt (2 * g.gamma)) (transition g.first g.second))
    IsJump d (decay g).jump J ∧ (∀ s, (decay g).super = some s → IsSuper d s J) ∧ IsRate d (decay g).rate J := by
  intro J
  have hs : ∀ rho, J * mat d rho * Jᴴ = mat d fun i j => if i = g.first ∧ j = g.first then 2 * g.gamma * rho g.second g.second else 0 := by
    intro rho
    simp only [J]
    rw [mat_sc, sandwich d _ _ _ (by linarith), transition_sandwich d _ _ h2]
    ext i j
    simp [mat_apply, Matrix.smul_apply]
  have hj : IsJump d (decay g).jump J := by
    intro psi
    funext n
    simp only [J]
    rw [mat_sc, Matrix.smul_mulVec, Pi.smul_apply, transition_mulVec d _ _ h2]
    simp only [decay, ket, Elem.set_apply, smul_eq_mul, mul_ite, mul_zero]
  have ht : ∀ rho, (J * mat d rho * Jᴴ).trace = 2 * g.gamma * rho g.second g.second := by
    intro rho
    rw [hs]
    unfold Matrix.trace
    rw [Finset.sum_eq_single ⟨g.first, h1⟩]
    · simp [mat_apply]
    · intro x _ hx
      have : ¬ (x : ℕ) = g.first := fun h => hx (Fin.ext h)
      simp [mat_apply, this]
    · simp
  refine ⟨hj, ?_, ?_, ?_⟩
  · intro s h
    simp only [decay, Option.some.injEq] at h
    subst h
    intro rho drhodt
    rw [hs]
    ext i j
    simp only [mat_apply, Elem.add_apply, Matrix.add_apply]
  · intro rho
    rw [ht, show (2 * g.gamma : ℂ) = ((2 * g.gamma : ℝ) : ℂ) by push_cast; rfl, Complex.re_ofReal_mul]; rfl
  · intro psi
    have := dyad_sandwich d J psi
    rw [ht] at this
    have := congrArg Complex.re this
    rw [Complex.ofReal_re, show (2 * g.gamma : ℂ) = ((2 * g.gamma : ℝ) : ℂ) by push_cast; rfl, Complex.re_ofReal_mul] at this
    rw [← this]; rfl

/-- **C74.** The label of a channel names the transition it makes: the channel `Jump a -> b` moves the amplitude of the level `a` into the level `b`, and leaves no other. -/
theorem radiative_labels (gs : List Decay) (k : ℕ) (hk : k < gs.length) : ∃ (a b : ℕ) (γ : ℝ), (radiative gs).labels[k]? = some ("Jump " ++ toString a ++ " -> " ++ toString b) ∧
    (∀ m, ((radiative gs).rates m)[k]? = some (2 * γ * m.diag a)) ∧ ∀ psi : Vec, (radiative gs).actWithJ k psi = .ok fun n => if n = b then Real.sqrt (2 * γ) * psi a else 0 := by
  refine ⟨gs[k].second, gs[k].first, gs[k].gamma, by simp [radiative, elementLiouvillean, hk], fun m => by simp [radiative, elementLiouvillean, hk, decay], fun psi => ?_⟩
  obtain ⟨-, h, -⟩ := elementLiouvillean_spec (gs.map fun g => "Jump " ++ toString g.second ++ " -> " ++ toString g.first) (gs.map decay) k psi (fun _ _ => 0) (fun _ _ => 0) ⟨0, fun _ _ => 0, 0⟩
  refine (h (decay gs[k]) (by simp [hk])).1.trans ?_
  congr 1
  funext n
  simp only [decay, Vec.set, Function.update_apply]

/-- The second channel of a cascade. -/
example : (radiative [⟨0, 1, 3⟩, ⟨1, 2, 5⟩]).labels[1]? = some "Jump 2 -> 1" := by decide

theorem radiative_is (p : Pars) (hs : p.Sane) (hγ : ∀ g ∈ p.gammas, 0 ≤ g.gamma) (ha : Option (ℝ → Vec → Vec → ℝ → Vec)) (ex : Option (ℝ → ℕ → ℂ)) (b : Bool) :
    LiIs ⟨p.nl, ha, ex, b, some (radiative p.gammas)⟩ p.J := by
  refine elementLiouvillean_is _ _ _ (by simp) (by simp [Pars.J]) ?_ ha ex b
  intro i L hL
  obtain ⟨g, hg, rfl⟩ : ∃ g, p.gammas[i]? = some g ∧ decay g = L := by simpa using hL
  have hm := List.mem_of_getElem? hg
  have hJ : p.J.getD i 0 = sc (Real.sqrt (2 * g.gamma)) (transition g.first g.second) := by
    simp [Pars.J, List.getD_eq_getElem?_getD, hg]
  rw [hJ]
  obtain ⟨a, b, -⟩ := decay_eq p.nl g (hs.gammas g hm).1 (hs.gammas g hm).2.1 (hγ g hm)
  exact ⟨a, b⟩

theorem static_generates {d : ℕ} (f : Vec → Vec → Vec) (H : Dens) (hf : ∀ psi dpsidt, ket d (f psi dpsidt) = ket d dpsidt + mat d H *ᵥ ket d psi) (li : Option Liouvillean) (J : List Dens)
    (hL : ∀ ha ex b, LiIs ⟨d, ha, ex, b, li⟩ J) : Generates ⟨d, some fun _ psi dpsidt _ => f psi dpsidt, none, true, li⟩ H J := by
  have := generates_of (e := ⟨d, some fun _ psi dpsidt _ => f psi dpsidt, none, true, li⟩) (w := fun _ => 0) (V := H) (J := J)
    (by
      unfold HaIs; intro t psi dpsidt t0
      have e1 : ∀ (V : Dens) (t : ℝ), interactionPicture (fun _ => 0) V t = V := by
        intro V t; funext i j; simp [interactionPicture]
      rw [e1]
      exact hf psi dpsidt) (by unfold ExIs; intro n _; rfl) (hL _ _ _) (fun _ j _ t => phase_one _ j t)
  simpa using this

/-- **C74.** The multilevel element without phase diffusion simulates the specified Hamiltonian and decays. -/
theorem pumpedLossySch_generates (p : Pars) (hs : p.Sane) (hγ : ∀ g ∈ p.gammas, 0 ≤ g.gamma) : Generates (make p 0) p.H p.J ∧ (make p 0).dim = p.nl := by
  have : make p 0 = pumpedLossySch p := by unfold make; simp
  rw [this]
  exact ⟨static_generates (addContribution p) p.H (addContribution_eq p hs) _ _ (radiative_is p hs hγ), rfl⟩

/-- **C22, C53.** The Hamiltonian and the jumps together conserve the probability. Without decays, this says that the Hamiltonian divided by `i` is anti-Hermitian. -/
theorem multiLevel_conserving (p : Pars) (hs : p.Sane) (hγ : ∀ g ∈ p.gammas, 0 ≤ g.gamma) : Conserving (mat p.nl p.H) (p.J.map (mat p.nl)) := by
  have hJ : ∀ (L : List Decay), (∀ g ∈ L, g.first < p.nl ∧ g.second < p.nl ∧ g.first ≠ g.second) → (∀ g ∈ L, 0 ≤ g.gamma) →
      ((L.map fun g => mat p.nl (sc (Real.sqrt (2 * g.gamma)) (transition g.first g.second))).map fun j => jᴴ * j).sum =
        mat p.nl fun i j => if i = j then 2 * (L.map fun g => if g.second = i then (g.gamma : ℂ) else 0).sum else 0 := by
    intro L
    induction L with
    | nil => intro _ _; ext i j; simp [mat_apply]
    | cons g L ih =>
      intro h1 h2
      rw [List.map_cons, List.map_cons, List.sum_cons, ih (fun x hx => h1 x (List.mem_cons_of_mem _ hx)) (fun x hx => h2 x (List.mem_cons_of_mem _ hx))]
      obtain ⟨a, b, -⟩ := h1 g List.mem_cons_self
      have hg := h2 g List.mem_cons_self
      have e : (mat p.nl (transition g.first g.second))ᴴ * mat p.nl (transition g.first g.second) = mat p.nl fun i j => if i = j then (if g.second = i then 1 else 0) else 0 := by
        ext i j
        rw [Matrix.mul_apply, Finset.sum_eq_single ⟨g.first, a⟩]
        · simp only [Matrix.conjTranspose_apply, mat_apply, transition]
          by_cases x : (i : ℕ) = g.second <;> by_cases y : (j : ℕ) = g.second <;> simp [x, y, eq_comm]
        · intro x _ hx
          have : ¬ (x : ℕ) = g.first := fun h => hx (Fin.ext h)
          simp [Matrix.conjTranspose_apply, mat_apply, transition, this]
        · simp
      rw [mat_sc, Matrix.conjTranspose_smul, Matrix.smul_mul, Matrix.mul_smul, smul_smul, e, Complex.star_def, Complex.conj_ofReal, ← Complex.ofReal_mul, Real.mul_self_sqrt (by linarith)]
      ext i j
      simp only [Matrix.add_apply, Matrix.smul_apply, mat_apply, smul_eq_mul, List.map_cons, List.sum_cons]
      split_ifs <;> push_cast <;> ring
  unfold Conserving
  have e : p.J.map (mat p.nl) = p.gammas.map fun g => mat p.nl (sc (Real.sqrt (2 * g.gamma)) (transition g.first g.second)) := by
    unfold Pars.J; rw [List.map_map]; rfl
  rw [e, hJ _ hs.gammas hγ]
  ext i j
  have hη : ∀ L : List Pump, (L.map fun P => conj P.eta * transition P.first P.second i j - P.eta * transition P.second P.first i j).sum +
      conj (L.map fun P => conj P.eta * transition P.first P.second j i - P.eta * transition P.second P.first j i).sum = 0 := by
    intro L
    induction L with
    | nil => simp
    | cons P L ih =>
      simp only [List.map_cons, List.sum_cons, map_add, map_sub, map_mul, Complex.conj_conj]
      have c : ∀ l m a b : ℕ, conj (transition l m a b) = transition m l b a := by
        intro l m a b; unfold transition; by_cases h : a = l <;> by_cases h' : b = m <;> simp [h, h']
      rw [c, c]
      linear_combination ih
  have hγ' : ∀ (L : List Decay) (k : ℕ), conj (L.map fun g => if g.second = k then (g.gamma : ℂ) else 0).sum = (L.map fun g => if g.second = k then (g.gamma : ℂ) else 0).sum := by
    intro L k
    induction L with
    | nil => simp
    | cons g L ih =>
      simp only [List.map_cons, List.sum_cons, map_add, ih]
      split_ifs <;> simp
  have := hη p.etas
  simp only [Matrix.add_apply, Matrix.neg_apply, Matrix.conjTranspose_apply, mat_apply, Pars.H, multiH, List.map_map, Function.comp_def, Complex.star_def, map_add] at this ⊢
  by_cases h : (i : ℕ) = j
  · rw [h] at this ⊢
    simp only [if_true, map_sub, map_mul, Complex.conj_I, Complex.conj_ofReal, hγ']
    linear_combination this
  · rw [if_neg h, if_neg (Ne.symm h), if_neg h]
    simp only [map_zero, zero_add, neg_zero]
    exact this

/-- A three-level system with two driven transitions and two decays. -/
noncomputable def lambda : Pars := ⟨3, fun i => i, [⟨0, 2, 1 + Complex.I⟩, ⟨1, 2, 2⟩], [⟨0, 2, 1⟩, ⟨1, 2, 1 / 2⟩]⟩

example : lambda.Sane ∧ ∀ g ∈ lambda.gammas, 0 ≤ g.gamma := by
  refine ⟨⟨?_, ?_⟩, ?_⟩ <;> simp [lambda]

/-! ## Phase diffusion -/

theorem foldl_shift {α : Type*} (f : α → ℕ → α) (b : ℕ) (g : α → α) (h0 : ∀ d, f d b = g d) (h : ∀ d, ∀ k > 0, f d (b + k) = d) (n : ℕ) (hn : 0 < n) (d : α) :
    (List.range (b + n)).foldl f d = g ((List.range b).foldl f d) := by
  induction n with
  | zero => omega
  | succ n ih =>
    rw [← add_assoc, List.range_succ, List.foldl_append, List.foldl_cons, List.foldl_nil]
    rcases Nat.eq_zero_or_pos n with rfl | hn'
    · rw [add_zero, h0]
    · rw [ih hn', h _ _ hn']

theorem foldl_range_congr {α : Type*} (f g : α → ℕ → α) (b : ℕ) (h : ∀ d, ∀ k < b, f d k = g d k) (d : α) : (List.range b).foldl f d = (List.range b).foldl g d := by
  induction b with
  | zero => simp
  | succ n ih =>
    rw [List.range_succ, List.foldl_append, List.foldl_append, List.foldl_cons, List.foldl_nil, List.foldl_cons, List.foldl_nil, ih fun d k hk => h d k (by omega), h _ _ (by omega)]

/-- **C74.** The multilevel element with phase diffusion: the derivative of the density operator is that of the Hamiltonian, the decays and the phase flips, up to a multiple of the density operator;
as in C71, this is with the first of the diffusion coefficients. -/
theorem diffusive_derivative (p : Pars) (hn : 0 < p.nl) (hs : p.Sane) (hγ : ∀ g ∈ p.gammas, 0 ≤ g.gamma) (coeffs : List ℝ) (h0 : 0 ≤ coeffs.getD 0 0) (t t0 : ℝ)
    (ρ : Matrix (Fin p.nl) (Fin p.nl) ℂ) (hρ : ρ.IsHermitian) :
    Master.derivative (pumpedLossyDiffusiveSch p coeffs).toSys t t0 ρ =
      lindblad (mat p.nl p.H) (p.J.map (mat p.nl)) ρ + flipSum p.nl (List.replicate p.nl (coeffs.getD 0 0)) ρ - ((2 * coeffs.getD 0 0 * (p.nl - 1) : ℝ) : ℂ) • ρ := by
  have hrad : Master.derivative (pumpedLossySch p).toSys t t0 ρ = lindblad (mat p.nl p.H) (p.J.map (mat p.nl)) ρ := by
    have hl := linear_of (e := pumpedLossySch p) (w := fun _ => 0) (V := p.H) (J := p.J) (by
      unfold HaIs pumpedLossySch; intro t psi dpsidt t0
      have e1 : ∀ (V : Dens) (t : ℝ), interactionPicture (fun _ => 0) V t = V := by
        intro V t; funext i j; simp [interactionPicture]
      rw [e1]
      exact addContribution_eq p hs psi dpsidt) (by unfold ExIs pumpedLossySch; intro n _; rfl) (radiative_is p hs hγ _ _ _)
    rw [Master.derivative_eq _ _ _ _ _ hl t t0 ρ hρ]
    have e1 : interactionPicture (fun _ => 0) p.H (t - t0) = p.H := by funext i j; simp [interactionPicture]
    have e2 : (List.range p.J.length).map (fun i => mat p.nl (p.J.getD i 0)) = p.J.map (mat p.nl) := by
      apply List.ext_getElem?
      intro i
      by_cases h : i < p.J.length
      · simp [h, List.getElem?_range h]
      · simp [List.getElem?_eq_none (not_lt.1 h), List.getElem?_eq_none (show (List.range p.J.length).length ≤ i by simpa using h)]
    simp only [e1]
    rw [← e2]; rfl
  rw [← hrad]
  have hb : (radiative p.gammas).labels.length = p.gammas.length := by simp [radiative, elementLiouvillean]
  let ld : Master.Li p.nl :=
    { nAvr := (diffusive p.nl p.nl coeffs (radiative p.gammas)).labels.length
      actWithSuperoperator := fun _ rho drhodt i => match (diffusive p.nl p.nl coeffs (radiative p.gammas)).actWithSuperoperator i (arr2 rho) (arr2 drhodt) with
        | .ok d => some (Matrix.of fun m n => d m n)
        | .error _ => none
      actWithJ := fun _ psi i => match (diffusive p.nl p.nl coeffs (radiative p.gammas)).actWithJ i (arr psi) with
        | .ok psi => fun n => psi n
        | .error _ => psi }
  let lr : Master.Li p.nl :=
    { nAvr := (radiative p.gammas).labels.length
      actWithSuperoperator := fun _ rho drhodt i => match (radiative p.gammas).actWithSuperoperator i (arr2 rho) (arr2 drhodt) with
        | .ok d => some (Matrix.of fun m n => d m n)
        | .error _ => none
      actWithJ := fun _ psi i => match (radiative p.gammas).actWithJ i (arr psi) with
        | .ok psi => fun n => psi n
        | .error _ => psi }
  suffices key : ∀ D, Master.addJumps ld t ρ D = Master.addJumps lr t ρ D + flipSum p.nl (List.replicate p.nl (coeffs.getD 0 0)) ρ - ((2 * coeffs.getD 0 0 * (p.nl - 1) : ℝ) : ℂ) • ρ from key _
  intro D
  unfold Master.addJumps
  simp only [ld, lr]
  have hlen : (diffusive p.nl p.nl coeffs (radiative p.gammas)).labels.length = (radiative p.gammas).labels.length + p.nl := by simp [diffusive]
  rw [hlen, foldl_shift _ _ (fun d : Matrix (Fin p.nl) (Fin p.nl) ℂ => d + flipSum p.nl (List.replicate p.nl (coeffs.getD 0 0)) ρ - ((2 * coeffs.getD 0 0 * (p.nl - 1) : ℝ) : ℂ) • ρ) ?_ ?_ _ hn]
  · congr 2
    refine foldl_range_congr _ _ _ ?_ _
    intro d k hk
    obtain ⟨a, b⟩ := (diffusive_dispatch p.nl p.nl coeffs (radiative p.gammas) k (fun _ => 0) (arr2 ρ) (arr2 d) ⟨1, fun _ _ => 0, 0⟩).2.2.1 rfl hk
    rw [b]
    congr 2
    unfold Master.jumpTerm
    have : ∀ psi : Vec, (diffusive p.nl p.nl coeffs (radiative p.gammas)).actWithJ k psi = (radiative p.gammas).actWithJ k psi := fun psi =>
      ((diffusive_dispatch p.nl p.nl coeffs (radiative p.gammas) k psi (arr2 ρ) (arr2 d) ⟨1, fun _ _ => 0, 0⟩).2.2.1 rfl hk).1
    simp only [this]
  · intro d
    obtain ⟨d', h1, h2⟩ := diffusive_superoperator_partial p.nl hn coeffs h0 (arr2 ρ) (arr2 d) (radiative p.gammas)
    rw [h1, Option.getD_some]
    rw [mat_arr2, mat_arr2] at h2
    exact h2
  · intro d k hk
    have : (diffusive p.nl p.nl coeffs (radiative p.gammas)).actWithSuperoperator ((radiative p.gammas).labels.length + k) (arr2 ρ) (arr2 d) = .ok (arr2 d) := by
      unfold diffusive
      simp only [ne_eq, not_true_eq_false, if_false]
      rw [if_neg (by omega), if_neg (by omega)]
    rw [this, Option.getD_some]
    exact mat_arr2 d

/-- **C22.** With phase diffusion, the derivative of the trace is proportional to the trace. -/
theorem diffusive_trace (p : Pars) (hn : 0 < p.nl) (hs : p.Sane) (hγ : ∀ g ∈ p.gammas, 0 ≤ g.gamma) (coeffs : List ℝ) (h0 : 0 ≤ coeffs.getD 0 0) (t t0 : ℝ)
    (ρ : Matrix (Fin p.nl) (Fin p.nl) ℂ) (hρ : ρ.IsHermitian) :
    (Master.derivative (pumpedLossyDiffusiveSch p coeffs).toSys t t0 ρ).trace = 2 * coeffs.getD 0 0 * ρ.trace := by
  refine (congrArg Matrix.trace (diffusive_derivative p hn hs hγ coeffs h0 t t0 ρ hρ)).trans ?_
  change (lindblad (mat p.nl p.H) (p.J.map (mat p.nl)) ρ + flipSum p.nl (List.replicate p.nl (coeffs.getD 0 0)) ρ - ((2 * coeffs.getD 0 0 * (p.nl - 1) : ℝ) : ℂ) • ρ).trace = _
  rw [Matrix.trace_sub, Matrix.trace_add, (Master.lindblad_traceless_iff _ _).2 (multiLevel_conserving p hs hγ), Matrix.trace_smul]
  have : (flipSum p.nl (List.replicate p.nl (coeffs.getD 0 0)) ρ).trace = 2 * coeffs.getD 0 0 * p.nl * ρ.trace := by
    unfold Matrix.trace
    rw [Finset.mul_sum]
    refine Finset.sum_congr rfl fun i _ => ?_
    have hg : ∀ l < p.nl, (List.replicate p.nl (coeffs.getD 0 0)).getD l 0 = coeffs.getD 0 0 := fun l hl => by simp [List.getD_eq_getElem?_getD, List.getElem?_replicate, hl]
    rw [Matrix.diag_apply, flipSum_apply p.nl _ (fun l hl => by rw [hg l hl]; exact h0), Matrix.diag_apply]
    congr 1
    rw [Finset.sum_congr rfl (g := fun _ => 2 * ((coeffs.getD 0 0 : ℝ) : ℂ))]
    · simp; ring
    · intro l hl
      rw [hg l (Finset.mem_range.1 hl)]
      split_ifs <;> ring
  rw [this, smul_eq_mul]
  push_cast
  ring

example : make lambda 2 = pumpedLossyDiffusiveSch lambda [2, 2, 2] := by
  unfold make; rw [if_pos (by norm_num)]; rfl

/-! ## Matrix Hamiltonians -/

/-- **C74.** `TimeIndependentMatrixHamiltonian` simulates the given matrix, and throws exactly if that is not square. -/
theorem matrixHamiltonian_generates (rows cols : ℕ) (m : CMat.Mat) : (matrixHamiltonian rows cols m = .throw ↔ rows ≠ cols) ∧
    ∀ e, matrixHamiltonian rows cols m = .ok e → e.dim = rows ∧ Generates e m [] := by
  unfold matrixHamiltonian
  by_cases h : rows = cols
  · simp only [h, ne_eq, not_true_eq_false, if_false, reduceCtorEq, Outcome.ok.injEq, false_iff, not_false_eq_true, true_and]
    rintro e rfl
    refine ⟨rfl, static_generates (fun psi dpsidt => CMat.apply cols psi dpsidt m) m ?_ _ _ (by intro ha ex b; unfold LiIs; simp)⟩
    intro psi dpsidt
    funext n
    rw [Pi.add_apply, mulVec_ket]
    rfl
  · simp [h]

/-- **C74.** The pumped two-level atom simulates the same Hamiltonian and decay as the pumped lossy qbit. -/
theorem ptla_generates (γ δ : ℝ) (η : ℂ) : Generates (ptla γ δ η) (qbitH γ δ η) [sc (Real.sqrt (2 * γ)) sigma] ∧ (ptla γ δ η).dim = 2 := by
  refine ⟨?_, rfl⟩
  unfold ptla
  refine static_generates (fun psi dpsidt => CMat.apply 2 psi dpsidt (ptlaHamiltonianOverI ⟨-γ, δ⟩ η)) _ ?_ _ _ ?_
  · intro psi dpsidt
    funext n
    rw [Pi.add_apply, mulVec_ket]
    unfold ket CMat.apply
    congr 1
    have hz : (⟨-γ, δ⟩ : ℂ) = -γ + δ * Complex.I := by apply Complex.ext <;> simp
    fin_cases n
    · simp [Finset.sum_range_succ, ptlaHamiltonianOverI, qbitH, excited, sigma, sigmaDag]
    · simp [Finset.sum_range_succ, ptlaHamiltonianOverI, qbitH, excited, sigma, sigmaDag, hz]; left; ring
  · refine elementLiouvillean_is _ _ _ rfl rfl ?_
    intro i L hL
    rcases i with - | i
    · simp only [List.getElem?_cons_zero, Option.some.injEq] at hL
      subst hL
      refine ⟨?_, fun s hs => by simp at hs⟩
      intro psi
      funext n
      simp only [List.getD_cons_zero]
      rw [mulVec_ket]
      fin_cases n
      · simp [ket, Elem.set_apply, Finset.sum_range_succ, sc, sigma]
      · simp [ket, Elem.set_apply, Finset.sum_range_succ, sc, sigma]
    · simp at hL

/-- **C22.** The pumped two-level atom conserves the probability. -/
theorem ptla_conserving (γ δ : ℝ) (hγ : 0 ≤ γ) (η : ℂ) : Conserving (mat 2 (qbitH γ δ η)) [mat 2 (sc (Real.sqrt (2 * γ)) sigma)] := by
  have hs : (Real.sqrt (2 * γ) : ℂ) * (Real.sqrt (2 * γ) : ℂ) = 2 * γ := by
    rw [← Complex.ofReal_mul, Real.mul_self_sqrt (by linarith)]; push_cast; ring
  generalize (Real.sqrt (2 * γ)) = r at hs
  unfold Conserving
  ext i j
  fin_cases i <;> fin_cases j <;>
    simp [Matrix.mul_apply, Fin.sum_univ_two, mat_apply, qbitH, excited, sigma, sigmaDag, sc, Matrix.conjTranspose_apply, hs] <;> ring

/-- **C74.** The rate of the decay of the pumped two-level atom. -/
theorem ptla_rate (γ δ : ℝ) (η : ℂ) (hγ : 0 ≤ γ) : ∃ l, (ptla γ δ η).li = some l ∧ ∃ r, (∀ m, l.rates m = [r m]) ∧ IsRate 2 r (mat 2 (sc (Real.sqrt (2 * γ)) sigma)) := by
  refine ⟨_, rfl, fun m => 2 * γ * m.diag 1, fun m => by simp [ptlaLiouvillean, elementLiouvillean], ?_⟩
  have h := (decay_eq 2 ⟨0, 1, γ⟩ (by norm_num) (by norm_num) hγ).2.2
  have e : transition 0 1 = sigma := by funext i j; simp [transition, sigma]
  simp only [e] at h
  exact h

/-! ## The maker functions -/

/-- **C74.** Without non-zero elements in the vector of phase-diffusion rates, the element without phase diffusion is made. Otherwise, there is in addition to the decays a phase flip for each level with its own rate, calculated by
the trajectory. -/
theorem makeVector_spec (p : Pars) (v : List ℝ) :
    ((∀ x ∈ v, x = 0) → makeVector p v = make p 0) ∧
    ((∃ x ∈ v, x ≠ 0) → ∃ l, (makeVector p v).li = some l ∧ (∀ m, l.rates m = (p.gammas.map fun g => (decay g).rate m) ++ List.replicate p.nl (-1)) ∧
      (∀ k < p.gammas.length, ∀ psi, l.actWithJ k psi = (radiative p.gammas).actWithJ k psi) ∧
      ∀ i psi, ∃ psi', l.actWithJ (p.gammas.length + i) psi = .ok psi' ∧ ket p.nl psi' = ((Real.sqrt (2 * v.getD i 0) : ℂ) • flip p.nl i) *ᵥ ket p.nl psi) := by
  classical
  constructor
  · intro h
    have : v.any (fun g => decide (g ≠ 0)) = false := by
      rw [List.any_eq_false]; intro x hx; simp [h x hx]
    unfold makeVector make
    rw [if_neg (by simpa using this), if_neg (by simp)]
  · rintro ⟨x, hx, hne⟩
    have : v.any (fun g => decide (g ≠ 0)) = true := by
      rw [List.any_eq_true]; exact ⟨x, hx, by simp [hne]⟩
    have hlen : (radiative p.gammas).labels.length = p.gammas.length := by simp [radiative, elementLiouvillean]
    have hm : makeVector p v = pumpedLossyDiffusiveSch p v := by
      unfold makeVector
      rw [if_pos (by simpa using this)]
    rw [hm]
    refine ⟨_, rfl, fun m => ?_, fun k hk psi => ?_, fun i psi => ?_⟩
    · simp [diffusive, radiative, elementLiouvillean]
    · have := diffusive_dispatch p.nl p.nl v (radiative p.gammas) k psi (fun _ _ => 0) (fun _ _ => 0) (LDO.ofSV 0 fun _ => 0)
      exact (this.2.2.1 rfl (by rw [hlen]; exact hk)).1
    · have := diffusive_jump p.nl v (radiative p.gammas) i psi
      rw [hlen] at this
      exact this

/-- **C74.** The scalar means the same rate for each level, and is overridden by a vector with a non-zero element. -/
theorem makePars_spec (p : Pars) (hn : 0 < p.nl) (g : ℝ) (v : List ℝ) :
    make p g = makeVector p (List.replicate p.nl g) ∧ ((∀ x ∈ v, x = 0) → makePars p g v = make p g) ∧ ((∃ x ∈ v, x ≠ 0) → makePars p g v = makeVector p v) := by
  classical
  refine ⟨?_, fun h => ?_, fun ⟨x, hx, hne⟩ => ?_⟩
  · unfold make makeVector
    by_cases h : g = 0
    · simp [h]
    · have : (List.replicate p.nl g).any (fun g => decide (g ≠ 0)) = true := by
        rw [List.any_eq_true]; exact ⟨g, by simp; omega, by simp [h]⟩
      rw [if_pos h, if_pos (by simpa using this)]
  · unfold makePars
    have : v.any (fun g => decide (g ≠ 0)) = false := by
      rw [List.any_eq_false]; intro x hx; simp [h x hx]
    rw [if_neg (by simpa using this)]
  · unfold makePars
    have : v.any (fun g => decide (g ≠ 0)) = true := by
      rw [List.any_eq_true]; exact ⟨x, hx, by simp [hne]⟩
    rw [if_pos (by simpa using this)]

/-- **C74.** The derivative of the density operator for what is made with the scalar rate `g`; without, cf. `pumpedLossySch_generates`. -/
theorem make_derivative (p : Pars) (hn : 0 < p.nl) (hs : p.Sane) (hγ : ∀ g ∈ p.gammas, 0 ≤ g.gamma) (g : ℝ) (h0 : 0 < g) (t t0 : ℝ) :
    (make p g).dim = p.nl ∧ ∀ ρ : Matrix (Fin (make p g).dim) (Fin (make p g).dim) ℂ, ρ.IsHermitian → Master.derivative (make p g).toSys t t0 ρ =
      lindblad (mat (make p g).dim p.H) (p.J.map (mat (make p g).dim)) ρ + flipSum (make p g).dim (List.replicate p.nl g) ρ - ((2 * g * (p.nl - 1) : ℝ) : ℂ) • ρ := by
  have hm : make p g = pumpedLossyDiffusiveSch p (List.replicate p.nl g) := by unfold make; simp [h0.ne']
  rw [hm]
  refine ⟨rfl, fun ρ hρ => ?_⟩
  have hg : (List.replicate p.nl g).getD 0 0 = g := by
    obtain ⟨k, hk⟩ : ∃ k, p.nl = k + 1 := ⟨p.nl - 1, by omega⟩
    rw [hk]; simp [List.replicate_succ]
  have := diffusive_derivative p hn hs hγ (List.replicate p.nl g) (by rw [hg]; exact h0.le) t t0 ρ hρ
  rw [hg] at this
  exact this

/-! ## The exact part -/

/-- **C74.** The diagonal of the exact part solves the free evolution, and is allowed in the Master equation exactly if it is unitary. -/
theorem exact_spec (nl : ℕ) (zI : ℕ → ℂ) :
    (∀ i, exactDiagonal zI 0 i = 1) ∧ (∀ i (t : ℝ), HasDerivAt (fun s => exactDiagonal zI s i) (-zI i * exactDiagonal zI t i) t) ∧
    (exactApplicable nl zI = true ↔ ∀ i < nl, ∀ t, ‖exactDiagonal zI t i‖ = 1) := by
  refine ⟨fun i => by simp [exactDiagonal], fun i t => ?_, ?_⟩
  · have h := ((Complex.ofRealCLM.hasDerivAt (x := t)).const_mul (-zI i)).cexp
    simp only [Complex.ofRealCLM_apply, Complex.ofReal_one, mul_one] at h
    rw [mul_comm]
    exact h
  · have hf : ∀ (L : List ℕ) (b : Bool), (L.foldl (fun init i => init || decide ((zI i).re ≠ 0)) b) = (b || L.any fun i => decide ((zI i).re ≠ 0)) := by
      intro L
      induction L with
      | nil => simp
      | cons x L ih => intro b; rw [List.foldl_cons, ih, List.any_cons, Bool.or_assoc]
    have h1 : exactApplicable nl zI = true ↔ ∀ i < nl, (zI i).re = 0 := by
      unfold exactApplicable
      have := hf (List.range nl) false
      simp only [Bool.false_or] at this
      rw [Bool.not_eq_true']
      refine Iff.trans (Eq.congr_left ?_) (List.any_eq_false (l := List.range nl) (p := fun i => decide ((zI i).re ≠ 0)) |>.trans ?_)
      · convert this
      · simp
    rw [h1]
    have hn : ∀ i (t : ℝ), ‖exactDiagonal zI t i‖ = Real.exp (-(zI i).re * t) := by
      intro i t; rw [exactDiagonal, Complex.norm_exp]; simp
    constructor
    · intro h i hi t; rw [hn, h i hi]; simp
    · intro h i hi
      have := h i hi 1
      rw [hn, Real.exp_eq_one_iff] at this
      linarith

/-- With different rates for the levels. -/
example : (∃ x ∈ ([0, 1 / 2, 2] : List ℝ), x ≠ 0) ∧ 0 < lambda.nl := ⟨⟨2, by simp, by norm_num⟩, by simp [lambda]⟩

end CppQED.MultiEl
