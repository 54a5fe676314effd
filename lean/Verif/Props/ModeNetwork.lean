import Verif.Props.CompositeTrace

/-!
# Networks of coupled modes: C83, C85
-/

namespace CppQED.Interactions
open CppQED.Elem CppQED.ModeEl CppQED.Spec CppQED.Composite CppQED.Tridiag CppQED.PTrace CppQED.Slice
open CppQED.MII (Idx)
open ComplexConjugate Matrix

theorem coupledModes_fields {axes : List ℕ} {c : Coupling} {m1 m2 : ModePtr} {u : ℂ} {ia : Part} (h : coupledModes axes c m1 m2 u = .ok ia) :
    ia.li = none ∧ ia.av = none ∧ ia.ex = none ∧ ia.applicable = true := by
  unfold coupledModes at h
  split_ifs at h
  · obtain ⟨_, -, h⟩ := bind_ok h
    injection h with h; subst h; exact ⟨rfl, rfl, rfl, rfl⟩
  · injection h with h; subst h; exact ⟨rfl, rfl, rfl, rfl⟩

/-- A coupling between the modes number `a` and `b`. -/
structure Link where
  a : ℕ
  b : ℕ
  kind : Coupling
  u : ℂ

/-- The links connect different modes of the `N`, in pictures admitted by the coupling. -/
def Link.Ok (l : Link) (N : ℕ) (p : ℕ → ModeEl.Pars) (qm : ℕ → Picture) : Prop :=
  l.a < N ∧ l.b < N ∧ l.a ≠ l.b ∧ l.kind.admits (modePtr (p l.a) (qm l.a)) (modePtr (p l.b) (qm l.b))

section
variable (N : ℕ) (hN : 0 < N) (p : ℕ → ModeEl.Pars) (qm : ℕ → Picture)
  (hp : ∀ k < N, (p k).cutoff < 2 ^ 63 ∧ 0 < (p k).cutoff ∧ 0 ≤ (p k).kappa ∧ 0 ≤ (p k).nTh ∧ (p k).omegaKerr = 0 ∧ (p k).omegaKerrAlter = 0)
  (links : List Link) (hlinks : ∀ l ∈ links, l.Ok N p qm)
include hp hlinks

/-- The elements and the interactions, and the Hamiltonians of the latter. -/
theorem network_parts : ∃ (e : ℕ → Element) (ia : Link → Part) (V : Part → Idx → Idx → ℂ),
    (∀ k < N, makePumpedLossy (p k) (qm k) = .ok (e k) ∧ (e k).dim = (p k).cutoff ∧
      FreeIs (e k) (modePtr (p k) (qm k)).w (modeH ((p k).kappa * (2 * (p k).nTh + 1)) (p k).delta (p k).eta) (modeJ (p k).kappa (p k).nTh)) ∧
    (∀ l ∈ links, coupledModes [l.a, l.b] l.kind (modePtr (p l.a) (qm l.a)) (modePtr (p l.b) (qm l.b)) l.u = .ok (ia l)) ∧
    (∀ l ∈ links, (ia l).axes = [l.a, l.b] ∧ Couples (ia l) [(p l.a).cutoff, (p l.b).cutoff] [(modePtr (p l.a) (qm l.a)).w, (modePtr (p l.b) (qm l.b)).w] (V (ia l)) ∧ AntiHermitian (V (ia l)) ∧
      ∀ s s', InBox (lower [(p l.a).cutoff, (p l.b).cutoff]) (upper [(p l.a).cutoff, (p l.b).cutoff]) s → InBox (lower [(p l.a).cutoff, (p l.b).cutoff]) (upper [(p l.a).cutoff, (p l.b).cutoff]) s' →
        V (ia l) s s' = couplingH l.kind l.u s s') := by
  classical
  have he : ∀ k, ∃ e, k < N → makePumpedLossy (p k) (qm k) = .ok e ∧ e.dim = (p k).cutoff ∧
      FreeIs e (modePtr (p k) (qm k)).w (modeH ((p k).kappa * (2 * (p k).nTh + 1)) (p k).delta (p k).eta) (modeJ (p k).kappa (p k).nTh) := by
    intro k
    by_cases hk : k < N
    · obtain ⟨c1, c2, c3, c4, c5, c6⟩ := hp k hk
      obtain ⟨e, b1, b2, b3⟩ := mode_free (p k) c1 c2 c3 c4 c5 c6 (qm k)
      exact ⟨e, fun _ => ⟨b1, b2, b3⟩⟩
    · exact ⟨⟨1, none, none, true, none⟩, fun h => absurd h hk⟩
  choose e he using he
  have hl : ∀ l, ∃ ia, l ∈ links → coupledModes [l.a, l.b] l.kind (modePtr (p l.a) (qm l.a)) (modePtr (p l.b) (qm l.b)) l.u = .ok ia ∧ ia.axes = [l.a, l.b] ∧
      Couples ia [(p l.a).cutoff, (p l.b).cutoff] [(modePtr (p l.a) (qm l.a)).w, (modePtr (p l.b) (qm l.b)).w] (couplingH l.kind l.u) := by
    intro l
    by_cases h : l ∈ links
    · obtain ⟨ha, hb, -, hadm⟩ := hlinks l h
      obtain ⟨ca1, ca2, -⟩ := hp _ ha
      obtain ⟨cb1, cb2, -⟩ := hp _ hb
      obtain ⟨ia, i1, i2, i3⟩ := coupledModes_couples l.kind (modePtr (p l.a) (qm l.a)) (modePtr (p l.b) (qm l.b)) l.u (by rw [modePtr_dim]; exact ca1) (by rw [modePtr_dim]; exact ca2)
        (by rw [modePtr_dim]; exact cb1) (by rw [modePtr_dim]; exact cb2) hadm [l.a, l.b]
      rw [modePtr_dim, modePtr_dim] at i3
      exact ⟨ia, fun _ => ⟨i1, i2, i3⟩⟩
    · exact ⟨interaction [] none, fun h' => absurd h' h⟩
  choose ia hia using hl
  let V : Part → Idx → Idx → ℂ := fun q => if h : ∃ l ∈ links, ia l = q then couplingH h.choose.kind h.choose.u else fun _ _ => 0
  refine ⟨e, ia, V, fun k hk => he k hk, fun l h => (hia l h).1, fun l h => ?_⟩
  have hex : ∃ l' ∈ links, ia l' = ia l := ⟨l, h, rfl⟩
  have hV : V (ia l) = couplingH hex.choose.kind hex.choose.u := by simp only [V]; rw [dif_pos hex]
  obtain ⟨m1, m2⟩ := hex.choose_spec
  obtain ⟨-, ax, cp⟩ := hia _ m1
  obtain ⟨-, ax', cp'⟩ := hia l h
  rw [m2] at ax cp
  have hax : [hex.choose.a, hex.choose.b] = [l.a, l.b] := ax.symm.trans ax'
  simp only [List.cons.injEq, and_true] at hax
  rw [hax.1, hax.2] at cp
  rw [hV]
  exact ⟨ax', cp, antiHermitian_couplingH _ _, fun s s' hs hs' => couples_unique cp cp' hs hs'⟩

include hN

/-- **C83.** Any network of lossy and pumped modes in Master-equation trajectories. -/
theorem network_master (hpm : ∀ k < N, qm k ≠ .ip ∨ (p k).kappa = 0) (hsz : ((List.range N).map fun k => (modeJ (p k).kappa (p k).nTh).length).sum < 2 ^ 64) :
    ∃ (e : ℕ → Element) (ia : Link → Part), (∀ k < N, makePumpedLossy (p k) (qm k) = .ok (e k)) ∧
      (∀ l ∈ links, coupledModes [l.a, l.b] l.kind (modePtr (p l.a) (qm l.a)) (modePtr (p l.b) (qm l.b)) l.u = .ok (ia l)) ∧
      (composite ((List.range N).map e) (links.map ia)).applicableInMaster = true ∧
      ∀ (implemented : ℕ → Bool) (n : ℕ) (en : Enum (composite ((List.range N).map e) (links.map ia)).lb (composite ((List.range N).map e) (links.map ia)).ub n),
        FollowsMaster ((composite ((List.range N).map e) (links.map ia)).toSys implemented en)
          (boxMat en fun i j => ∑ k ∈ Finset.range N, extend N [k] (Spec.single (modeH ((p k).kappa * (2 * (p k).nTh + 1)) (p k).delta (p k).eta)) i j +
            (links.map fun l => extend N [l.a, l.b] (couplingH l.kind l.u) i j).sum)
          ((List.range N).flatMap fun k => (modeJ (p k).kappa (p k).nTh).map fun j => boxMat en (extend N [k] (Spec.single j))) ∧
        ((∀ k < N, (p k).nTh = 0) → ConservesTrace ((composite ((List.range N).map e) (links.map ia)).toSys implemented en)) := by
  obtain ⟨e, ia, V, he, hia, hV⟩ := network_parts N p qm hp links hlinks
  refine ⟨e, ia, fun k hk => (he k hk).1, hia, ?_, fun implemented n en => ?_⟩
  · rw [comp_applicableInMaster]
    unfold Comp.parts
    intro q hq
    rcases List.mem_append.1 hq with hq | hq
    · obtain ⟨k, hk, rfl⟩ := List.mem_mapIdx.1 hq
      have hk' : k < N := by simpa [composite] using hk
      have h1 : (e k).exApplicable = true := (makePumpedLossy_fields (he k hk').1).2 (hpm k hk')
      unfold Composite.applicableInMaster
      simp only [composite, List.map_map, List.getElem_map, List.getElem_range, Function.comp, freePart, h1]
      split <;> rfl
    · obtain ⟨l, hl, rfl⟩ := List.mem_map.1 hq
      unfold Composite.applicableInMaster
      rw [(coupledModes_fields (hia l hl)).2.2.1]
  · have hlen : ((List.range N).map e).length = N := by simp
    have hes : (List.range N).map e ≠ [] := by simp; omega
    have hget : ∀ k x, ((List.range N).map e)[k]? = some x → k < N ∧ x = e k := by
      intro k x h
      obtain ⟨h1, h2⟩ := List.getElem?_eq_some_iff.1 h
      rw [hlen] at h1
      exact ⟨h1, by simpa [eq_comm] using h2⟩
    have hd : ∀ x ∈ (List.range N).map e, 0 < x.dim := by
      intro x hx
      obtain ⟨k, hk, rfl⟩ := List.mem_map.1 hx
      rw [(he k (List.mem_range.1 hk)).2.1]
      exact (hp k (List.mem_range.1 hk)).2.1
    have hdim : ∀ a < N, (((List.range N).map e).map Element.dim).getD a 0 = (p a).cutoff := by
      intro a ha
      simp [ha, (he a ha).2.1]
    have hF : ∀ k x, ((List.range N).map e)[k]? = some x → FreeIs x (modePtr (p k) (qm k)).w (modeH ((p k).kappa * (2 * (p k).nTh + 1)) (p k).delta (p k).eta) (modeJ (p k).kappa (p k).nTh) ∧
        CommutesUpToPhase x.dim (modePtr (p k) (qm k)).w (modeJ (p k).kappa (p k).nTh) := by
      intro k x h
      obtain ⟨hk, rfl⟩ := hget k x h
      exact ⟨(he k hk).2.2, mode_phases (p k) (hp k hk).2.2.2.2.1 (qm k) (hpm k hk) _ _ _⟩
    have hI : ∀ q ∈ links.map ia, q.li = none ∧ ValidAxes ((List.range N).map e).length q.axes ∧ 2 ≤ q.axes.length ∧
        Couples q (q.axes.map fun a => (((List.range N).map e).map Element.dim).getD a 0) (q.axes.map fun k => (modePtr (p k) (qm k)).w) (V q) := by
      intro q hq
      obtain ⟨l, hl, rfl⟩ := List.mem_map.1 hq
      obtain ⟨v1, v2, v3, v4⟩ := hV l hl
      obtain ⟨ha, hb, hab, -⟩ := hlinks l hl
      refine ⟨(coupledModes_fields (hia l hl)).1, ?_, ?_, ?_⟩
      · rw [v1, hlen]
        exact ⟨by simp, by simpa using hab, by simp [ha, hb]⟩
      · rw [v1]; simp
      · rw [v1]
        simp only [List.map_cons, List.map_nil, hdim _ ha, hdim _ hb]
        exact v2
    have hS : ∀ k x L, ((List.range N).map e)[k]? = some x → x.li = some L → ∀ j < (modeJ (p k).kappa (p k).nTh).length,
        implemented (((List.range k).map fun l => (modeJ (p l).kappa (p l).nTh).length).sum + j) = true → ∀ rho drhodt, ∃ d', L.actWithSuperoperator j rho drhodt = .ok d' := by
      intro k x L h hL j hj _
      obtain ⟨hk, rfl⟩ := hget k x h
      obtain ⟨c1, c2, c3, c4, c5, c6⟩ := hp k hk
      obtain ⟨y, y1, -, -, -, -, -, y2⟩ := mode_masterFree (p k) c1 c2 c3 c4 c5 c6 (qm k) (hpm k hk)
      rw [(he k hk).1] at y1
      injection y1 with y1
      subst y1
      exact y2 L hL j hj
    have key := composite_master ((List.range N).map e) (links.map ia) hes hd (fun k => (modePtr (p k) (qm k)).w) (fun k => modeH ((p k).kappa * (2 * (p k).nTh + 1)) (p k).delta (p k).eta)
      (fun k => modeJ (p k).kappa (p k).nTh) V hF hI implemented hS (by rw [hlen]; exact hsz) en
    have ham : (boxMat en fun i j => ∑ k ∈ Finset.range N, extend N [k] (Spec.single (modeH ((p k).kappa * (2 * (p k).nTh + 1)) (p k).delta (p k).eta)) i j +
            (links.map fun l => extend N [l.a, l.b] (couplingH l.kind l.u) i j).sum) =
        boxMat en fun i j => ∑ k ∈ Finset.range ((List.range N).map e).length, extend ((List.range N).map e).length [k] (Spec.single (modeH ((p k).kappa * (2 * (p k).nTh + 1)) (p k).delta (p k).eta)) i j +
            ((links.map ia).map fun q => extend ((List.range N).map e).length q.axes (V q) i j).sum := by
      ext x y
      simp only [boxMat, Matrix.of_apply, hlen, List.map_map]
      congr 2
      refine List.map_congr_left fun l hl => ?_
      obtain ⟨v1, v2, v3, v4⟩ := hV l hl
      obtain ⟨ha, hb, hab, -⟩ := hlinks l hl
      simp only [Function.comp, v1]
      unfold extend
      have hbox : ∀ z : Fin n, InBox (lower [(p l.a).cutoff, (p l.b).cutoff]) (upper [(p l.a).cutoff, (p l.b).cutoff]) (coords [l.a, l.b] (en z)) := by
        intro z
        have hz : InBox (((List.range N).map e).map fun _ => (0 : ℤ)) (((List.range N).map e).map fun x => (x.dim : ℤ) - 1) (en z) := enum_box (validBounds_of _ hes hd).2.1 en z
        have hz' : ∀ a < N, 0 ≤ (en z : Idx).getD a 0 ∧ (en z : Idx).getD a 0 ≤ (p a).cutoff - 1 := by
          intro a ha
          have := getD_nonneg _ hz (a := a) (e := e a) (by simp [ha])
          rw [(he a ha).2.1] at this
          unfold q at this
          omega
        exact (inBox_cons _ _ _ _).2 ⟨hz' _ ha, (inBox_cons _ _ _ _).2 ⟨hz' _ hb, (inBox_nil _).2 rfl⟩⟩
      rw [v4 _ _ (hbox x) (hbox y)]
    refine ⟨?_, fun hT => ?_⟩
    · rw [ham]
      simpa only [hlen] using key
    · refine composite_trace _ _ hes hd _ _ _ V hF hI implemented hS (by rw [hlen]; exact hsz) en ?_ ?_
      · intro k x h
        obtain ⟨hk, rfl⟩ := hget k x h
        have := mode_conserving (p k).cutoff (hp k hk).2.1 (p k).kappa (hp k hk).2.2.1 (p k).delta (p k).eta
        rw [(he k hk).2.1]
        simp only [hT k hk]
        simpa using this
      · intro q hq
        obtain ⟨l, hl, rfl⟩ := List.mem_map.1 hq
        exact (hV l hl).2.2.1

end

/-- A ring of three lossy modes, of which two are pumped. -/
example : ∀ l ∈ ([⟨0, 1, .xxRWA, 1⟩, ⟨1, 2, .xx, 2⟩, ⟨2, 0, .xxRWA, Complex.I⟩] : List Link), l.Ok 3 (fun k => ⟨10, k, 0, 0, 1, 0, k⟩) fun _ => .uip := by
  intro l hl
  simp only [List.mem_cons, List.not_mem_nil, or_false] at hl
  rcases hl with rfl | rfl | rfl <;> exact ⟨by norm_num, by norm_num, by norm_num, rfl⟩

end CppQED.Interactions
