import Verif.Lemmas.Descent
import Verif.Props.Spectrum

/-!
# C108 — the energy in a ground state search

`ground_state_search` makes steps of finite size. How the energy changes in them: it falls at the rate that the
reported numbers give, up to a correction of second order in the step size.
-/

namespace JVMC

open Spec Matrix

variable {C : Type} [Fintype C] [DecidableEq C] {kernel : C → List (C × ℂ)} {O : Matrix C C ℂ} {n : ℕ}
  {smp : Type} {ε : ℝ} {logPsi : (Fin (n + 1) → ℝ) → C → ℂ} {θ : Fin (n + 1) → ℝ}
  {grads : C → Fin (n + 1) → ℂ} {w : World (C × ℂ × ℝ)} {D : Set (Fin (n + 1) → ℝ)} {G Λ : ℝ}

/-- The energy of the state with parameters `θ`. -/
noncomputable def energyAt (O : Matrix C C ℂ) (logPsi : (Fin (n + 1) → ℝ) → C → ℂ) (θ : Fin (n + 1) → ℝ) : ℝ :=
  (Spec.expect O fun c => Complex.exp (logPsi θ c)).re

/-- The energy variance of the state with parameters `θ`. -/
noncomputable def varianceAt (O : Matrix C C ℂ) (logPsi : (Fin (n + 1) → ℝ) → C → ℂ) (θ : Fin (n + 1) → ℝ) : ℝ :=
  spread O fun c => Complex.exp (logPsi θ c)

/-- The squared speed of the state, up to norm and phase, when the parameters move with velocities `u`. -/
noncomputable def speedAt (logPsi : (Fin (n + 1) → ℝ) → C → ℂ) (θ u : Fin (n + 1) → ℝ) : ℝ :=
  offRay (fun c => Complex.exp (logPsi θ c)) (stateVelocity logPsi θ u)

/-- Bound for the second derivative of the energy along straight lines, where the velocities of the parameters
are bounded by `V`, derivatives of the log-amplitudes by `G` and their rates of change by `Λ`, and the
Hamiltonian by `M`. -/
noncomputable def energyCurvature (M G Λ V : ℝ) : ℝ := M * (2 * (Λ * V ^ 2) + 5 * (G * V) ^ 2)

/-- Sampler, Hamiltonian and network of the TDVP object: whenever samples are drawn for parameters `θ`, their
weights are those of `|ψ_θ|²` up to the relative error `ε`, and local energies and gradients are those of
`exp(log ψ_θ)` (for `ε = 0`: `ExactlySampled`). -/
def SampledWithin (ε : ℝ) (kernel : C → List (C × ℂ)) (O : Matrix C C ℂ) (logPsi : (Fin (n + 1) → ℝ) → C → ℂ)
    (env : TdvpEnv n smp) (r : ℕ) : Prop :=
  ∀ θ p sm t, flattenParams p = List.ofFn θ → ∀ joint sm', env.measure p sm t = .ok (joint, sm') →
    ∃ grads w, SampledStep ε kernel O logPsi θ grads w ∧ r < List.length w ∧
      joint = tdvpJoint O (fun c => Complex.exp (logPsi θ c)) grads w

/-- Exact samples are samples with error zero. -/
theorem ExactlySampled.within [Nonempty C] {env : TdvpEnv n smp} {r : ℕ}
    (h : ExactlySampled kernel O logPsi env r) : SampledWithin 0 kernel O logPsi env r := by
  intro θ p sm t hp joint sm' hm
  obtain ⟨grads, w, hst, hr, hj⟩ := h θ p sm t hp joint sm' hm
  exact ⟨grads, w, ⟨hst.operator, hst.hermitian, hst.differentiable, hst.gradients, hst.samples,
    near_of_born _ _ hst.weights 0 le_rfl⟩, hr, hj⟩

/-! ## One step -/

/-- The rate of change of the energy in terms of distances between states. -/
theorem rate_exact [Nonempty C] (hst : SampledStep ε kernel O logPsi θ grads w) (u : Fin (n + 1) → ℝ) :
    HasDerivAt (fun τ : ℝ => Spec.expect O fun c => Complex.exp (logPsi (θ + τ • u) c))
      ((offRay (fun c => Complex.exp (logPsi θ c)) (fun s => stateVelocity logPsi θ u s
          + 1 * (O *ᵥ fun c => Complex.exp (logPsi θ c)) s) - varianceAt O logPsi θ - speedAt logPsi θ u : ℝ) : ℂ) 0 := by
  obtain ⟨w₀, h₀⟩ := hst.exact
  refine (energy_derivative hst.hermitian logPsi θ u hst.differentiable grads hst.gradients).congr_deriv ?_
  congr 1
  set ψ : C → ℂ := fun c => Complex.exp (logPsi θ c) with hψ
  set l₀ := allSamples (tdvpJoint O ψ grads w₀) with hl₀
  have hL : speedAt logPsi θ u = tdvpDistance l₀ 0 u := by
    rw [hl₀, distance_offRay h₀]
    simp only [zero_mul, add_zero]
    rfl
  have hS : varianceAt O logPsi θ = tdvpDistance l₀ 1 0 := by
    rw [hl₀, distance_offRay h₀, sampled_still hst]
    simp [varianceAt]
  rw [hL, hS, ← distance_offRay h₀, ← hψ, ← hl₀]
  have h1 := distance_split l₀ 1 u
  have h2 := distance_split l₀ 0 u
  have h3 : tdvpDistance l₀ 0 0 = 0 := by simp [tdvpDistance]
  have h4 : (∑ i, (u i : ℂ) * (-(1 : ℂ) * specF l₀ i)).re = - ∑ k, u k * (specF l₀ k).re := by
    rw [Complex.re_sum, ← Finset.sum_neg_distrib]
    refine Finset.sum_congr rfl fun k _ => ?_
    rw [Complex.re_ofReal_mul, neg_one_mul, Complex.neg_re]
    ring
  have h5 : (∑ i, (u i : ℂ) * (-(0 : ℂ) * specF l₀ i)).re = 0 := by simp
  have he : (∑ k, u k * (bornCov O ψ fun s => grads s k).re : ℝ) = ∑ k, u k * (specF l₀ k).re := by
    simp only [hl₀, specF_born O ψ (fun s => Complex.exp_ne_zero _) grads w₀ h₀.weights]
  rw [h4] at h1
  rw [h5, h3] at h2
  rw [he, h1, h2]
  ring

/-- C108: the energy after a step with arbitrary velocities `u`, up to second order: it falls by the variance and
the squared speed of the state, and it grows by the squared distance of the velocities from imaginary-time
evolution. -/
theorem c108_step [Nonempty C] (hs : SmoothOn logPsi D G Λ) (hD : Convex ℝ D)
    (hst : SampledStep ε kernel O logPsi θ grads w) {M : ℝ} (hM : NormAtMost O M) {dt : ℝ} (hdt : 0 ≤ dt)
    {u : Fin (n + 1) → ℝ} (hθ : θ ∈ D) (hθ' : θ + dt • u ∈ D) {V : ℝ} (hV : ‖u‖ ≤ V) :
    |energyAt O logPsi (θ + dt • u) - energyAt O logPsi θ
      - dt * (offRay (fun c => Complex.exp (logPsi θ c)) (fun s => stateVelocity logPsi θ u s
          + 1 * (O *ᵥ fun c => Complex.exp (logPsi θ c)) s) - varianceAt O logPsi θ - speedAt logPsi θ u)|
      ≤ dt ^ 2 * energyCurvature M G Λ V :=
  energy_step hs hD hst.hermitian hM hdt hθ hθ' hV (rate_exact hst u)

/-- The update that a call returns is one of `solve`. -/
theorem call_solve {env : TdvpEnv n smp} {cfg : TdvpCfg n} {r : ℕ} {netP : List ℝ} {t : ℝ} {sm sm' : smp}
    {at₀ at₁ : TdvpAttrs n} {st : NqsInit} {st' : NqsState} {u : Fin (n + 1) → ℝ}
    (h : (tdvpCall env cfg r netP t (some 0) sm at₀).call (some st) = (.ok (some u, at₁, sm'), st')) :
    ∃ p joint, paramUnflatten st.realParams st.sizes netP = .ok p ∧ env.measure p sm t = .ok (joint, sm') ∧
      ∃ (E : SObs (Fin 1)) (G : SObs (Fin (n + 1))) (res : SolveRes n) (atA atB : TdvpAttrs n),
        IsTdvpData joint E G ∧ tdvpSolve cfg r (some (E, G)) atA = .ok (res, atB) ∧ res.update = some u := by
  obtain ⟨p, joint, E, G, res, atS, p', hp, hm, hd, hs, -, -, -, hz⟩ :=
    tdvpCall_ok env cfg r netP t (some 0) sm sm' at₀ at₁ st st' (some u) h
  refine ⟨p, joint, hp, hm, E, G, ?_⟩
  obtain ⟨err, -, hf, ht⟩ := hz rfl
  by_cases hcv : cfg.crossValidation = true
  · obtain ⟨res', atS', cv, hs', hu, -⟩ := crossValidate_ok _ r E G _ _ at₁ (some u) (ht hcv)
    exact ⟨res', _, _, hd, hs', hu.symm⟩
  · exact ⟨res, _, _, hd, hs, (hf (by simpa using hcv)).1.symm⟩

/-- The rate of change of the energy in the direction that a call returns. -/
theorem call_rate [Nonempty C] {env : TdvpEnv n smp} {cfg : TdvpCfg n} {r : ℕ} (hε : ε ≤ 1)
    (henv : SampledWithin ε kernel O logPsi env r) (heigh : EighCorrect cfg) (hq : cfg.makeReal ≠ "imag") {x : ℝ}
    (hx : 0 < x) (hpre : cfg.rhsPrefactor = (x : ℂ)) (hshift : 0 ≤ cfg.diagonalShift) {p₀ : Params}
    (hp₀ : (flattenParams p₀).length = n + 1) {ops : List NqsOp} (hops : ∀ op ∈ ops, op.Fits p₀)
    (hinit : nqsRun p₀ ops ≠ none) {t : ℝ} {sm sm' : smp} {at₀ at₁ : TdvpAttrs n} {st' : NqsState}
    {u : Fin (n + 1) → ℝ}
    (h : (tdvpCall env cfg r (List.ofFn θ) t (some 0) sm at₀).call (nqsRun p₀ ops) = (.ok (some u, at₁, sm'), st')) :
    ∃ grads w, SampledStep ε kernel O logPsi θ grads w ∧
      ∃ e : ℝ, HasDerivAt (fun τ : ℝ => Spec.expect O fun c => Complex.exp (logPsi (θ + τ • u) c)) (e : ℂ) 0 ∧
        e ≤ -((1 - ε) * speedAt logPsi θ u) / x + 2 * ε * (√(speedAt logPsi θ u) * √(varianceAt O logPsi θ)) := by
  obtain ⟨st, hst⟩ := Option.ne_none_iff_exists'.mp hinit
  have hw := wf_run p₀ ops hops st hst
  rw [hst] at h
  obtain ⟨q, hq', -, -, hq3⟩ := paramUnflatten_ok st.realParams st.sizes (List.ofFn θ)
    (by rw [List.length_ofFn, hw.1, hw.2.1, ← flatten_length_params, hp₀])
  obtain ⟨p, joint, hp, hm, E, G, res, atA, atB, hd, hs, hu⟩ := call_solve h
  obtain rfl := Except.ok.inj (hq'.symm.trans hp)
  obtain ⟨grads, w, hstep, hr, rfl⟩ := henv θ q sm t hq3 joint sm' hm
  refine ⟨grads, w, hstep, ?_⟩
  obtain ⟨e, hd', hn⟩ := rate_near hstep hε u
  refine ⟨e, hd', ?_⟩
  have hi : TdvpInput (tdvpJoint O (fun c => Complex.exp (logPsi θ c)) grads w) r E G :=
    ⟨World.map_ne _ _ hstep.samples.devices, by
      intro s hs
      unfold tdvpJoint at hs
      rw [allSamples_wmap] at hs
      obtain ⟨y, hy, rfl⟩ := List.mem_map.mp hs
      exact hstep.nonneg y hy, by simpa [tdvpJoint, World.map] using hr, hd⟩
  have hwor := c88_never_worse cfg heigh hq hshift r _ E G hi atA atB res hs u hu
  have hL := (sampled_offRay hstep hε 0 u).1
  simp only [zero_mul, add_zero] at hL
  change (1 - ε) * speedAt logPsi θ u ≤ _ at hL
  change |e - _| ≤ 2 * ε * (√(speedAt logPsi θ u) * √(varianceAt O logPsi θ)) at hn
  set l := allSamples (tdvpJoint O (fun c => Complex.exp (logPsi θ c)) grads w) with hl
  have h1 := distance_split l x u
  have h2 := distance_split l 0 u
  have h3 : tdvpDistance l 0 0 = 0 := by simp [tdvpDistance]
  have h4 : (∑ i, (u i : ℂ) * (-(x : ℂ) * specF l i)).re = -x * ∑ k, u k * (specF l k).re := by
    rw [Complex.re_sum, Finset.mul_sum]
    refine Finset.sum_congr rfl fun k _ => ?_
    rw [Complex.re_ofReal_mul, show -(x : ℂ) = ((-x : ℝ) : ℂ) by push_cast; ring, Complex.re_ofReal_mul]
    ring
  have h5 : (∑ i, (u i : ℂ) * (-(0 : ℂ) * specF l i)).re = 0 := by simp
  rw [h4] at h1
  rw [h5, h3] at h2
  rw [hpre] at hwor
  have h7 : sampledRate l u ≤ -((1 - ε) * speedAt logPsi θ u) / x := by
    rw [le_div_iff₀ hx]
    unfold sampledRate
    nlinarith
  have := (abs_le.mp hn).2
  linarith

/-- What a call with prefactor one reports about the change of the energy. -/
theorem call_reported [Nonempty C] {env : TdvpEnv n smp} {cfg : TdvpCfg n} {r : ℕ} (hε : ε < 1)
    (henv : SampledWithin ε kernel O logPsi env r) (heigh : EighCorrect cfg) (hq : cfg.makeReal ≠ "imag")
    (hpre : cfg.rhsPrefactor = 1) (hshift : 0 ≤ cfg.diagonalShift) {p₀ : Params}
    (hp₀ : (flattenParams p₀).length = n + 1) {ops : List NqsOp} (hops : ∀ op ∈ ops, op.Fits p₀)
    (hinit : nqsRun p₀ ops ≠ none) {t : ℝ} {sm sm' : smp} {at₀ at₁ : TdvpAttrs n} {st' : NqsState}
    {u : Fin (n + 1) → ℝ}
    (h : (tdvpCall env cfg r (List.ofFn θ) t (some 0) sm at₀).call (nqsRun p₀ ops) = (.ok (some u, at₁, sm'), st')) :
    ∃ (E : ℂ) (var : ℝ) (m : TdvpMeta n), at₁.eloc0 = some (some (E, var)) ∧ at₁.metaData = some m ∧
      0 ≤ var ∧ (1 - ε) * varianceAt O logPsi θ ≤ var ∧ (m.tdvpError = none → var = 0) ∧
      ∃ e : ℝ, HasDerivAt (fun τ : ℝ => Spec.expect O fun c => Complex.exp (logPsi (θ + τ • u) c)) (e : ℂ) 0 ∧
        ∀ d, m.tdvpError = some d ∨ (m.tdvpError = none ∧ d = 0) →
          e ≤ -((1 / (1 + ε) - d / (1 - ε)) * var) := by
  obtain ⟨grads, w, hstep, e, he, hle⟩ := call_rate hε.le henv heigh hq one_pos (by simpa using hpre) hshift hp₀ hops hinit h
  have h0 := hstep.eps_nonneg
  obtain ⟨st, hst⟩ := Option.ne_none_iff_exists'.mp hinit
  have hw := wf_run p₀ ops hops st hst
  rw [hst] at h
  obtain ⟨q, hq', -, -, hq3⟩ := paramUnflatten_ok st.realParams st.sizes (List.ofFn θ)
    (by rw [List.length_ofFn, hw.1, hw.2.1, ← flatten_length_params, hp₀])
  obtain ⟨p, joint, hp, hm, -⟩ := call_solve h
  obtain rfl := Except.ok.inj (hq'.symm.trans hp)
  obtain ⟨grads', w', hstep', hr, rfl⟩ := henv θ q sm t hq3 joint sm' hm
  have i1 : ∀ rk ∈ tdvpJoint O (fun c => Complex.exp (logPsi θ c)) grads' w', rk ≠ [] :=
    World.map_ne _ _ hstep'.samples.devices
  have i2 : ∀ s ∈ allSamples (tdvpJoint O (fun c => Complex.exp (logPsi θ c)) grads' w'), 0 ≤ s.1 := by
    intro s hs
    unfold tdvpJoint at hs
    rw [allSamples_wmap] at hs
    obtain ⟨y, hy, rfl⟩ := List.mem_map.mp hs
    exact hstep'.nonneg y hy
  have i3 : r < List.length (tdvpJoint O (fun c => Complex.exp (logPsi θ c)) grads' w') := by
    simpa [tdvpJoint, World.map] using hr
  obtain ⟨hv, hnan⟩ := call_variance env cfg r _ t sm sm' at₀ at₁ st st' _ q hp _ hm i1 i2 i3 h
  have hvar := sampled_variance hstep' hε.le
  set joint := tdvpJoint O (fun c => Complex.exp (logPsi θ c)) grads' w' with hj
  have hsp : 0 ≤ varianceAt O logPsi θ := by
    have h1 := sampled_still hstep' 1
    rw [map_one, one_mul] at h1
    unfold varianceAt
    rw [← h1]
    unfold offRay
    exact div_nonneg (Finset.sum_nonneg fun _ _ => Complex.normSq_nonneg _)
      (Finset.sum_nonneg fun _ _ => Complex.normSq_nonneg _)
  by_cases hz : wVar ((allSamples joint).map fun s => (s.1, s.2.1)) 0 = 0
  · obtain ⟨m, hm1, hm2⟩ := hnan hz
    refine ⟨_, _, m, hv, hm1, hz.ge, hvar.1, fun _ => hz, e, he, ?_⟩
    rintro d (hd | ⟨-, rfl⟩)
    · rw [hm2] at hd
      cases hd
    · rw [hz] at hvar ⊢
      have hs0 : varianceAt O logPsi θ = 0 := by
        refine le_antisymm ?_ hsp
        have h1 : (1 - ε) * varianceAt O logPsi θ ≤ 0 := hvar.1
        by_contra hlt
        exact absurd h1 (not_le.mpr (mul_pos (by linarith) (not_le.mp hlt)))
      rw [hs0, Real.sqrt_zero, mul_zero, mul_zero, add_zero, div_one] at hle
      have h2 : 0 ≤ speedAt logPsi θ u := by
        unfold speedAt offRay
        exact div_nonneg (Finset.sum_nonneg fun _ _ => Complex.normSq_nonneg _)
          (Finset.sum_nonneg fun _ _ => Complex.normSq_nonneg _)
      have := mul_nonneg (show 0 ≤ 1 - ε by linarith) h2
      rw [mul_zero]
      linarith
  · obtain ⟨m, hm1, hm2⟩ := c46_metadata env cfg (by rw [hpre]; simp) r _ t sm sm' at₀ at₁ st st' u q hp _ hm i1 i2 i3
      hz h
    refine ⟨_, _, m, hv, hm1, (mul_nonneg (by linarith) hsp).trans hvar.1, hvar.1, (fun hn => by rw [hm2] at hn; cases hn), e, he, ?_⟩
    rintro d (hd | ⟨hd, -⟩)
    · have hrep : SampledReport ε kernel O logPsi 1 θ u d (wMean ((allSamples joint).map fun s => (s.1, s.2.1)) 0)
          (wVar ((allSamples joint).map fun s => (s.1, s.2.1)) 0) :=
        ⟨smp, env, cfg, r, t, sm, sm', at₀, at₁, st, st', q, grads', w', m, hpre, hp, hstep', hr, hm, h, hm1, hd, hv⟩
      obtain ⟨-, -, h3, h4, -⟩ := c104_reported (by simp) hε.le hrep
      have hee := he.unique (rate_exact hstep' u)
      have hee' : e = _ := Complex.ofReal_injective hee
      rw [hee']
      set var := wVar ((allSamples joint).map fun s => (s.1, s.2.1)) 0
      have h2 : 0 ≤ speedAt logPsi θ u := by
        unfold speedAt offRay
        exact div_nonneg (Finset.sum_nonneg fun _ _ => Complex.normSq_nonneg _)
          (Finset.sum_nonneg fun _ _ => Complex.normSq_nonneg _)
      have h5 : offRay (fun c => Complex.exp (logPsi θ c)) (fun s => stateVelocity logPsi θ u s
          + 1 * (O *ᵥ fun c => Complex.exp (logPsi θ c)) s) ≤ d * var / (1 - ε) := by
        rw [le_div_iff₀ (by linarith)]
        linarith
      have h6 : var / (1 + ε) ≤ varianceAt O logPsi θ := by
        rw [div_le_iff₀ (by linarith)]
        have : var ≤ (1 + ε) * varianceAt O logPsi θ := h3
        linarith
      have h7 : (1 / (1 + ε) - d / (1 - ε)) * var = var / (1 + ε) - d * var / (1 - ε) := by ring
      rw [h7]
      linarith
    · rw [hm2] at hd
      cases hd

/-! ## The search -/

/-- The steps of a search: the parameters `θ 0, ..., θ N`, and the velocities `u k` which the TDVP object returns
for `θ k`; its attributes are `A k` before and `A (k + 1)` after this call. -/
def SearchSteps (env : TdvpEnv n smp) (cfg : TdvpCfg n) (r : ℕ) (p₀ : Params) (stepSize : ℝ) (N : ℕ)
    (θ u : ℕ → Fin (n + 1) → ℝ) (A : ℕ → TdvpAttrs n) : Prop :=
  ∀ k < N, θ (k + 1) = θ k + stepSize • u k ∧
    ∃ sm₁ sm₂ ops', (∀ op ∈ ops', op.Fits p₀) ∧
      (getParameters.call (nqsRun p₀ ops')).1 = .ok (some (List.ofFn (θ k))) ∧
      (tdvpCall env { cfg with diagonalShift := 0.95 ^ k * cfg.diagonalShift } r (List.ofFn (θ k)) 0
        (some 0) sm₁ (A k)).call (nqsRun p₀ ops') = (.ok (some (u k), A (k + 1), sm₂), nqsRun p₀ ops')

theorem run_of_get {p₀ : Params} {ops : List NqsOp} {x : List ℝ}
    (h : (getParameters.call (nqsRun p₀ ops)).1 = .ok (some x)) : nqsRun p₀ ops ≠ none := by
  intro h0
  rw [h0] at h
  cases h

/-- What all theorems assume about the search: a TDVP object for imaginary time evolution with positive
prefactor `x`, whose samples have relative error `ε`. -/
structure SearchSetting (ε : ℝ) (kernel : C → List (C × ℂ)) (O : Matrix C C ℂ)
    (logPsi : (Fin (n + 1) → ℝ) → C → ℂ) (env : TdvpEnv n smp) (cfg : TdvpCfg n) (r : ℕ) (x : ℝ) : Prop where
  error : ε < 1
  samples : SampledWithin ε kernel O logPsi env r
  eigh : EighCorrect cfg
  part : cfg.makeReal ≠ "imag"
  positive : 0 < x
  prefactor : cfg.rhsPrefactor = (x : ℂ)
  shift : 0 ≤ cfg.diagonalShift

/-- Smoothness along the search: all parameters lie in a convex set on which the log-amplitudes are smooth, the
velocities are bounded by `V` and the Hamiltonian by `M`. -/
structure SearchSmooth (O : Matrix C C ℂ) (logPsi : (Fin (n + 1) → ℝ) → C → ℂ) (N : ℕ) (θ u : ℕ → Fin (n + 1) → ℝ)
    (M G Λ V : ℝ) : Prop where
  domain : ∃ D, SmoothOn logPsi D G Λ ∧ Convex ℝ D ∧ ∀ k ≤ N, θ k ∈ D
  hamiltonian : NormAtMost O M
  velocities : ∀ k < N, ‖u k‖ ≤ V

variable {env : TdvpEnv n smp} {cfg : TdvpCfg n} {r : ℕ} {x : ℝ} {p₀ : Params} {stepSize : ℝ} {N : ℕ}
  {θs us : ℕ → Fin (n + 1) → ℝ} {A : ℕ → TdvpAttrs n} {M V : ℝ}

omit [DecidableEq C] in
theorem sum_steps {f g : ℕ → ℝ} (h : ∀ k < N, f (k + 1) ≤ f k + g k) : f N ≤ f 0 + ∑ k ∈ Finset.range N, g k := by
  induction N with
  | zero => simp
  | succ m ih =>
    rw [Finset.sum_range_succ]
    have := ih fun k hk => h k (Nat.lt_succ_of_lt hk)
    have := h m (Nat.lt_succ_self m)
    linarith

/-- C108 for one step of a search: it lowers the energy by the step size times the squared speed of the state (divided by
the prefactor), up to the sampling error and a term of second order in the step size. -/
theorem c108_each [Nonempty C] (hset : SearchSetting ε kernel O logPsi env cfg r x)
    (hp₀ : (flattenParams p₀).length = n + 1) (hdt : 0 ≤ stepSize)
    (hsteps : SearchSteps env cfg r p₀ stepSize N θs us A) (hsm : SearchSmooth O logPsi N θs us M G Λ V) (k : ℕ)
    (hk : k < N) :
    energyAt O logPsi (θs (k + 1)) ≤ energyAt O logPsi (θs k)
      + (stepSize * (-((1 - ε) * speedAt logPsi (θs k) (us k)) / x
          + 2 * ε * (√(speedAt logPsi (θs k) (us k)) * √(varianceAt O logPsi (θs k))))
        + stepSize ^ 2 * energyCurvature M G Λ V) := by
  obtain ⟨D, hs, hD, hθ⟩ := hsm.domain
  obtain ⟨hnext, sm₁, sm₂, ops', hops', hget, hcall⟩ := hsteps k hk
  obtain ⟨grads, w, hst, e, he, hle⟩ := call_rate (cfg := { cfg with diagonalShift := 0.95 ^ k * cfg.diagonalShift })
    hset.error.le hset.samples hset.eigh hset.part hset.positive hset.prefactor
    (mul_nonneg (by positivity) hset.shift) hp₀ hops' (run_of_get hget) hcall
  have h1 := hθ (k + 1) hk
  rw [hnext] at h1
  have key := energy_step hs hD hst.hermitian hsm.hamiltonian hdt (hθ k hk.le) h1 (hsm.velocities k hk) he
  have h2 := (abs_le.mp key).2
  have h3 := mul_le_mul_of_nonneg_left hle hdt
  rw [hnext]
  unfold energyCurvature energyAt
  linarith

/-- C108: the energy at the end of the search is at most the initial one, minus `stepSize / x` times the sum of
the squared speeds of the state, plus sampling errors and a correction of second order in the step size. -/
theorem c108_energy [Nonempty C] (hset : SearchSetting ε kernel O logPsi env cfg r x)
    (hp₀ : (flattenParams p₀).length = n + 1) (hdt : 0 ≤ stepSize)
    (hsteps : SearchSteps env cfg r p₀ stepSize N θs us A) (hsm : SearchSmooth O logPsi N θs us M G Λ V) :
    energyAt O logPsi (θs N) ≤ energyAt O logPsi (θs 0)
      + stepSize * (∑ k ∈ Finset.range N, (-((1 - ε) * speedAt logPsi (θs k) (us k)) / x
        + 2 * ε * (√(speedAt logPsi (θs k) (us k)) * √(varianceAt O logPsi (θs k)))))
      + N * stepSize ^ 2 * energyCurvature M G Λ V := by
  have := sum_steps (N := N) (f := fun k => energyAt O logPsi (θs k)) (g := fun k =>
    stepSize * (-((1 - ε) * speedAt logPsi (θs k) (us k)) / x
        + 2 * ε * (√(speedAt logPsi (θs k) (us k)) * √(varianceAt O logPsi (θs k))))
      + stepSize ^ 2 * energyCurvature M G Λ V) (c108_each hset hp₀ hdt hsteps hsm)
  refine this.trans (le_of_eq ?_)
  rw [Finset.sum_add_distrib, Finset.sum_const, Finset.card_range, nsmul_eq_mul, ← Finset.mul_sum]
  ring

/-- C108 for the reported numbers: with prefactor one, each call reports a variance `ElocVar0` and, unless this is
zero, a number as `"tdvp_error"`. The energy at the end of the search is at most the initial one, minus the step
size times the sum of `(1 - tdvp_error) * ElocVar0` (for exact samples), plus a correction of second order in
the step size. -/
theorem c108_reported [Nonempty C] (hset : SearchSetting ε kernel O logPsi env cfg r 1)
    (hp₀ : (flattenParams p₀).length = n + 1) (hdt : 0 ≤ stepSize)
    (hsteps : SearchSteps env cfg r p₀ stepSize N θs us A) :
    ∃ d var : ℕ → ℝ, (∀ k < N, 0 ≤ var k ∧ (∃ E, (A (k + 1)).eloc0 = some (some (E, var k))) ∧
        ∃ m, (A (k + 1)).metaData = some m ∧
          (m.tdvpError = some (d k) ∨ (m.tdvpError = none ∧ var k = 0 ∧ d k = 0))) ∧
      ∀ M G Λ V, SearchSmooth O logPsi N θs us M G Λ V →
        energyAt O logPsi (θs N) ≤ energyAt O logPsi (θs 0)
          - stepSize * (∑ k ∈ Finset.range N, (1 / (1 + ε) - d k / (1 - ε)) * var k)
          + N * stepSize ^ 2 * energyCurvature M G Λ V := by
  have hcall : ∀ k : ℕ, ∃ d var : ℝ, k < N → 0 ≤ var ∧ ∃ E m, (A (k + 1)).eloc0 = some (some (E, var)) ∧
      (A (k + 1)).metaData = some m ∧ (m.tdvpError = some d ∨ (m.tdvpError = none ∧ var = 0 ∧ d = 0)) ∧
      O.IsHermitian ∧
      ∃ e : ℝ, HasDerivAt (fun τ : ℝ => Spec.expect O fun c => Complex.exp (logPsi (θs k + τ • us k) c)) (e : ℂ) 0 ∧
        e ≤ -((1 / (1 + ε) - d / (1 - ε)) * var) := by
    intro k
    by_cases hk : k < N
    · obtain ⟨hnext, sm₁, sm₂, ops', hops', hget, hcall⟩ := hsteps k hk
      obtain ⟨E, var, m, h1, h2, hv0, -, h3, e, he, hle⟩ := call_reported
        (cfg := { cfg with diagonalShift := 0.95 ^ k * cfg.diagonalShift })
        hset.error hset.samples hset.eigh hset.part (by simpa using hset.prefactor)
        (mul_nonneg (by positivity) hset.shift) hp₀ hops' (run_of_get hget) hcall
      obtain ⟨_, _, hst, -⟩ := call_rate (cfg := { cfg with diagonalShift := 0.95 ^ k * cfg.diagonalShift })
        hset.error.le hset.samples hset.eigh hset.part hset.positive hset.prefactor
        (mul_nonneg (by positivity) hset.shift) hp₀ hops' (run_of_get hget) hcall
      cases hd : m.tdvpError with
      | none => exact ⟨0, var, fun _ => ⟨hv0, E, m, h1, h2, .inr ⟨hd, h3 hd, rfl⟩, hst.hermitian, e, he, hle 0 (.inr ⟨hd, rfl⟩)⟩⟩
      | some d => exact ⟨d, var, fun _ => ⟨hv0, E, m, h1, h2, .inl hd, hst.hermitian, e, he, hle d (.inl hd)⟩⟩
    · exact ⟨0, 0, fun h => absurd h hk⟩
  choose d var h using hcall
  refine ⟨d, var, fun k hk => ?_, fun M G Λ V hsm => ?_⟩
  · obtain ⟨h0, E, m, h1, h2, h3, -⟩ := h k hk
    exact ⟨h0, ⟨E, h1⟩, m, h2, h3⟩
  · obtain ⟨D, hs, hD, hθ⟩ := hsm.domain
    have := sum_steps (N := N) (f := fun k => energyAt O logPsi (θs k)) (g := fun k =>
      -(stepSize * ((1 / (1 + ε) - d k / (1 - ε)) * var k)) + stepSize ^ 2 * energyCurvature M G Λ V) (by
      intro k hk
      obtain ⟨-, -, -, -, -, -, hH, e, he, hle⟩ := h k hk
      have hnext := (hsteps k hk).1
      have h1 := hθ (k + 1) hk
      rw [hnext] at h1
      have key := energy_step hs hD hH hsm.hamiltonian hdt (hθ k hk.le) h1 (hsm.velocities k hk) he
      have h2 := (abs_le.mp key).2
      have h3 := mul_le_mul_of_nonneg_left hle hdt
      rw [hnext]
      unfold energyCurvature energyAt
      linarith)
    refine this.trans (le_of_eq ?_)
    rw [Finset.sum_add_distrib, Finset.sum_const, Finset.card_range, nsmul_eq_mul, Finset.sum_neg_distrib,
      ← Finset.mul_sum]
    ring

/-- C108 for `ground_state_search`: when it returns after `s.n` steps, there are parameters `θ 0, ..., θ s.n` from
the initial to the final ones, each set by one step from the one before, for which the bounds above hold; with
reported errors of at most `δ`, the number of steps is bounded by the energy that can be gained. -/
theorem c108_search [Nonempty C] {Q : Type} (hset : SearchSetting ε kernel O logPsi env cfg r 1)
    (meas : NqsState → smp → Except PyErr (Q × smp)) (numSteps : ℤ) (tol : ℝ)
    (record : Bool) (hp₀ : (flattenParams p₀).length = n + 1) (ops : List NqsOp)
    (hops : ∀ op ∈ ops, op.Fits p₀) (hinit : nqsRun p₀ ops ≠ none) (at₀ : TdvpAttrs n) (sm₀ : smp)
    (hdt : 0 < stepSize) (s : GsState Q (NqsState × TdvpAttrs n × smp))
    (h : groundStateSearch (tdvpApi env cfg r meas) numSteps tol stepSize record cfg.diagonalShift
      (nqsRun p₀ ops, at₀, sm₀) = .ok s) :
    ∃ (θ u : ℕ → Fin (n + 1) → ℝ) (A : ℕ → TdvpAttrs n), SearchSteps env cfg r p₀ stepSize s.n θ u A ∧
      A 0 = at₀ ∧ s.w.2.1 = A s.n ∧
      (getParameters.call (nqsRun p₀ ops)).1 = .ok (some (List.ofFn (θ 0))) ∧
      (getParameters.call s.w.1).1 = .ok (some (List.ofFn (θ s.n))) ∧
      ∀ M G Λ V, SearchSmooth O logPsi s.n θ u M G Λ V →
        ∀ δ, 0 ≤ δ → (∀ k < s.n, ∀ m, (A (k + 1)).metaData = some m → ∀ d, m.tdvpError = some d → d ≤ δ) →
        ∀ c, c = 1 / (1 + ε) - δ / (1 - ε) → 0 ≤ c →
        energyAt O logPsi (θ s.n) ≤ energyAt O logPsi (θ 0) - stepSize * c * tol * (s.n - 1 : ℕ)
          + s.n * stepSize ^ 2 * energyCurvature M G Λ V ∧
        ∀ e₀, O.IsHermitian → (∀ e v, Level O e v → e₀ ≤ e) → stepSize * energyCurvature M G Λ V < c * tol →
          ((s.n - 1 : ℕ) : ℝ) ≤ (energyAt O logPsi (θ 0) - e₀ + stepSize ^ 2 * energyCurvature M G Λ V)
            / (stepSize * (c * tol - stepSize * energyCurvature M G Λ V)) := by
  obtain ⟨θ, u, v, A, hA0, hA, h0, hk, -, hfin, hab, -⟩ := c51_tdvp_partial env cfg r meas numSteps tol stepSize record
    p₀ hp₀ ops hops hinit at₀ sm₀ s h
  have hsteps : SearchSteps env cfg r p₀ stepSize s.n θ u A := by
    intro k hkn
    obtain ⟨h1, sm₁, sm₂, ops', h2, h3, h4, -⟩ := hk k hkn
    exact ⟨h1, sm₁, sm₂, ops', h2, h3, h4⟩
  refine ⟨θ, u, A, hsteps, hA0, hA, h0, hfin, fun M G Λ V hsm δ hδ hd c hc hc0 => ?_⟩
  obtain ⟨d, var, hrep, hbound⟩ := c108_reported hset hp₀ hdt.le hsteps
  have hb := hbound M G Λ V hsm
  have hε := hset.error
  have hsum : c * tol * (s.n - 1 : ℕ) ≤ ∑ k ∈ Finset.range s.n, (1 / (1 + ε) - d k / (1 - ε)) * var k := by
    have hterm : ∀ k < s.n, c * var k ≤ (1 / (1 + ε) - d k / (1 - ε)) * var k := by
      intro k hkn
      obtain ⟨hv0, -, m, hm, hd'⟩ := hrep k hkn
      refine mul_le_mul_of_nonneg_right ?_ hv0
      have hdk : d k ≤ δ := by
        rcases hd' with h1 | ⟨-, -, h1⟩
        · exact hd k hkn m hm _ h1
        · rw [h1]
          exact hδ
      have := div_le_div_of_nonneg_right hdk (show 0 ≤ 1 - ε by linarith)
      rw [hc]
      linarith
    have habove : ∀ k, k + 1 < s.n → tol ≤ var k := by
      intro k hkn
      obtain ⟨-, -, -, -, -, -, -, hv⟩ := hk k (by omega)
      obtain ⟨-, ⟨E, hE⟩, -⟩ := hrep k (by omega)
      rw [hE] at hv
      have hvk : v k = some (var k) := (Option.some.inj hv).symm
      obtain ⟨y, hy, hy'⟩ := hab k hkn
      rw [hvk] at hy
      rw [Option.some.inj hy]
      exact hy'.le
    cases hn : s.n with
    | zero => simp
    | succ N =>
      rw [Finset.sum_range_succ, Nat.add_sub_cancel]
      have h1 : (N : ℝ) * (c * tol) ≤ ∑ k ∈ Finset.range N, (1 / (1 + ε) - d k / (1 - ε)) * var k := by
        have := Finset.card_nsmul_le_sum (Finset.range N) (fun k => (1 / (1 + ε) - d k / (1 - ε)) * var k) (c * tol)
          (fun k hkN => by
            rw [Finset.mem_range] at hkN
            exact (mul_le_mul_of_nonneg_left (habove k (by omega)) hc0).trans (hterm k (by omega)))
        rwa [Finset.card_range, nsmul_eq_mul] at this
      have h2 := (mul_nonneg hc0 (hrep N (by omega)).1).trans (hterm N (by omega))
      linarith
  have hmain : energyAt O logPsi (θ s.n) ≤ energyAt O logPsi (θ 0) - stepSize * c * tol * (s.n - 1 : ℕ)
      + s.n * stepSize ^ 2 * energyCurvature M G Λ V := by
    have := mul_le_mul_of_nonneg_left hsum hdt.le
    linarith
  refine ⟨hmain, fun e₀ hO he₀ hlt => ?_⟩
  obtain ⟨s₀⟩ := ‹Nonempty C›
  have hlow : ∀ p, e₀ ≤ energyAt O logPsi p := fun p =>
    c98_variational hO _ (fun h0 => Complex.exp_ne_zero _ (congrFun h0 s₀)) e₀ he₀
  rw [le_div_iff₀ (mul_pos hdt (by linarith))]
  have hK : 0 ≤ energyCurvature M G Λ V := by
    obtain ⟨D, hs, -⟩ := hsm.domain
    have := hsm.hamiltonian.1
    have := hs.rate_nonneg
    unfold energyCurvature
    positivity
  rcases Nat.eq_zero_or_pos s.n with hn | hn
  · rw [hn]
    have := hlow (θ 0)
    have h3 : 0 ≤ stepSize ^ 2 * energyCurvature M G Λ V := by positivity
    simp
    linarith
  · have h3 : (s.n : ℝ) = ((s.n - 1 : ℕ) : ℝ) + 1 := by
      have : s.n = s.n - 1 + 1 := by omega
      exact_mod_cast this
    have h4 := hlow (θ s.n)
    have h5 : (s.n : ℝ) * stepSize ^ 2 * energyCurvature M G Λ V
        = ((s.n - 1 : ℕ) : ℝ) * (stepSize ^ 2 * energyCurvature M G Λ V) + stepSize ^ 2 * energyCurvature M G Λ V := by
      rw [h3]
      ring
    rw [h5] at hmain
    generalize ((s.n - 1 : ℕ) : ℝ) = y at hmain ⊢
    generalize energyCurvature M G Λ V = K at hmain ⊢
    linarith

/-! ## A case: one spin in a transverse field -/

theorem tilt_smooth : SmoothOn tiltLog Set.univ 1 0 := by
  have hf : ∀ (s : Fin 2) (θ : Fin 1 → ℝ), HasFDerivAt (fun p => tiltLog p s)
      (LinearMap.toContinuousLinearMap (tiltLinear s)) θ := fun s θ =>
    (LinearMap.toContinuousLinearMap (tiltLinear s)).hasFDerivAt
  refine ⟨zero_le_one, le_rfl, fun θ _ s => (hf s θ).differentiableAt, ?_, ?_⟩
  · intro θ _ s v
    rw [(hf s θ).fderiv, one_mul]
    change ‖tiltLog v s‖ ≤ ‖v‖
    have h1 : ‖tiltLog v s‖ ≤ ‖v 0‖ := by
      unfold tiltLog
      rw [norm_mul, Complex.norm_real]
      fin_cases s <;> simp
    exact h1.trans (norm_le_pi_norm v 0)
  · intro θ _ θ' _ s v
    rw [(hf s θ).fderiv, (hf s θ').fderiv]
    simp

theorem tilt_norm : NormAtMost tiltMatrix 1 := by
  refine ⟨zero_le_one, fun v => ?_⟩
  simp [norm2, tiltMatrix, Matrix.mulVec, dotProduct, Fin.sum_univ_two, add_comm]

theorem tilt_setting : SearchSetting 0 tiltKernel tiltMatrix tiltLog tiltEnv tiltCfg 0 1 :=
  ⟨zero_lt_one, tilt_sampled.within, someEigh_correct _ rfl, by simp [tiltCfg], one_pos, by simp [tiltCfg],
    by simp [tiltCfg]⟩

/-- The velocity and the error for `ψ = (1, 2)`. -/
theorem tilt_velocity {sm sm' : Unit} {at₀ at₁ : TdvpAttrs 0} {st : NqsInit} {st' : NqsState} {u : Fin 1 → ℝ}
    (hw : st.realParams = true ∧ st.sizes = [1])
    (h : (tdvpCall tiltEnv tiltCfg 0 (List.ofFn fun _ : Fin 1 => Real.log 2) 0 (some 0) sm at₀).call (some st)
      = (.ok (some u, at₁, sm'), st')) :
    ‖u‖ ≤ 7 / 4 ∧ ∀ m, at₁.metaData = some m → ∀ d, m.tdvpError = some d → d ≤ 1 / 36 := by
  have hp : paramUnflatten st.realParams st.sizes (List.ofFn fun _ : Fin 1 => Real.log 2)
      = .ok (.real [[Real.log 2]]) := by
    have := flattenParams_unflatten (.real [[Real.log 2]])
    rw [hw.1, hw.2]
    simpa [flattenParams, Params.isReal, Params.sizes] using this
  have hm : tiltEnv.measure (.real [[Real.log 2]]) sm 0 = .ok (tiltJoint, ()) := by
    have := tilt_joint (fun _ => Real.log 2) rfl
    rw [← this]
    simp [tiltEnv, flattenParams]
  have h1 : ∀ rk ∈ tiltJoint, rk ≠ [] := by simp [tiltJoint]
  have h2 : ∀ s ∈ allSamples tiltJoint, 0 ≤ s.1 := by
    rw [tiltSamples]
    norm_num
  have h3 : 0 < List.length tiltJoint := by simp [tiltJoint]
  obtain ⟨q, joint, hq, hm', E, G, res, atA, atB, hd, hs, hu⟩ := call_solve h
  obtain rfl := Except.ok.inj (hp.symm.trans hq)
  obtain ⟨rfl, -⟩ := Prod.mk.inj (Except.ok.inj (hm.symm.trans hm'))
  obtain ⟨u', hu', hle, hge⟩ := tilt_solve E G ⟨h1, h2, h3, hd⟩ res atA atB hs
  obtain rfl : u = u' := Option.some.inj (hu.symm.trans hu')
  have hvar : wVar ((allSamples tiltJoint).map fun s => (s.1, s.2.1)) 0 = 9 / 25 := by
    rw [tiltSamples]
    simp [wVar, wMean]
    norm_num
  refine ⟨?_, fun m hmeta d hd => ?_⟩
  · rw [pi_norm_le_iff_of_nonneg (by norm_num)]
    intro i
    rw [Fin.fin_one_eq_zero i, Real.norm_eq_abs, abs_le]
    constructor <;> linarith
  · obtain ⟨m', hm1, hm2⟩ := c46_metadata tiltEnv tiltCfg (by simp [tiltCfg]) 0 _ 0 sm () at₀ at₁ st st' u _ hp
      tiltJoint hm h1 h2 h3 (by rw [hvar]; norm_num) h
    obtain rfl := Option.some.inj (hmeta.symm.trans hm1)
    rw [hd] at hm2
    rw [Option.some.inj hm2, hvar]
    have hdist : tdvpDistance (allSamples tiltJoint) tiltCfg.rhsPrefactor u = 4 / 25 * (u 0 + 3 / 2) ^ 2 := by
      rw [tiltSamples]
      simp [tdvpDistance, wMean, tiltCfg]
      rw [show (-((u 0 : ℂ) * (4 / 5)) + (-2 - (-(5⁻¹ * 2) + -(4 / 5 * 2⁻¹))) : ℂ)
          = ((-(u 0 * (4 / 5)) - 6 / 5 : ℝ) : ℂ) by push_cast; ring,
        show ((u 0 : ℂ) * (1 - 4 / 5) + (-2⁻¹ - (-(5⁻¹ * 2) + -(4 / 5 * 2⁻¹))) : ℂ)
          = ((u 0 * (1 / 5) + 3 / 10 : ℝ) : ℂ) by push_cast; ring, Complex.normSq_ofReal, Complex.normSq_ofReal]
      ring
    rw [hdist, div_le_iff₀ (by norm_num)]
    nlinarith

/-- A search of one step. -/
theorem tilt_one_step (dt : ℝ) : ∃ s : GsState Unit (NqsState × TdvpAttrs 0 × Unit),
    groundStateSearch (tdvpApi tiltEnv tiltCfg 0 fun _ _ => .ok ((), ())) 1 (1 / 10) dt false tiltCfg.diagonalShift
      (nqsRun (.real [[Real.log 2]]) [.eval], {}, ()) = .ok s ∧ s.n = 1 := by
  obtain ⟨u, at₁, hu, hc, E, hE⟩ := tilt_call ()
  have hinit : nqsRun (.real [[Real.log 2]]) [.eval] ≠ none :=
    (c25_initialised_iff _ _).mpr ⟨.eval, List.mem_singleton_self _, rfl⟩
  obtain ⟨st, hst⟩ := Option.ne_none_iff_exists'.mp hinit
  have hw := wf_run _ _ (by simp [NqsOp.Fits]) st hst
  have hget : (getParameters.call (some st)).1 = .ok (some [Real.log 2]) := by
    rw [← hst]
    rfl
  obtain ⟨q, hq, -, -, hq3⟩ := paramUnflatten_ok st.realParams st.sizes
    (List.ofFn ((fun _ : Fin 1 => Real.log 2) + dt • u)) (by rw [List.length_ofFn, hw.1, hw.2.1]; rfl)
  have hset : (setParameters (.vec (List.ofFn ((fun _ : Fin 1 => Real.log 2) + dt • u)))).call (some st)
      = (.ok (), some { st with params := q }) := by
    rw [call_setVec, hq]
  refine ⟨⟨1, some (9 / 25), some (0.95 * 0), 0.95 * 0, (some { st with params := q }, at₁, ()), []⟩, ?_, rfl⟩
  rw [hst] at hc ⊢
  have h1 : (tdvpApi tiltEnv tiltCfg 0 fun _ _ => Except.ok ((), ())).getParams (some st, {}, ())
      = .ok fun _ => Real.log 2 := by
    simp only [tdvpApi, hget]
    rw [dif_pos (by simp)]
    congr 1
    funext i
    rw [Fin.fin_one_eq_zero i]
    rfl
  have h2 : (tdvpApi tiltEnv tiltCfg 0 fun _ _ => Except.ok ((), ())).rhs 0 (fun _ => Real.log 2) 0 (some st, {}, ())
      = .ok (u, (some st, at₁, ())) := by
    simp only [tdvpApi]
    rw [show ({ tiltCfg with diagonalShift := 0 } : TdvpCfg 0) = tiltCfg from rfl, hc]
  have h3 : (tdvpApi tiltEnv tiltCfg 0 fun _ _ => Except.ok ((), ())).setParams
      ((fun _ : Fin 1 => Real.log 2) + dt • u) (some st, at₁, ())
      = .ok (some { st with params := q }, at₁, ()) := by
    simp only [tdvpApi]
    rw [hset]
  have h4 : (tdvpApi tiltEnv tiltCfg 0 fun _ _ => Except.ok ((), ())).variance (some { st with params := q }, at₁, ())
      = .ok (some (9 / 25)) := by
    simp only [tdvpApi, hE]
    rfl
  have h5 : gsBody (tdvpApi tiltEnv tiltCfg 0 fun _ _ => Except.ok ((), ())) dt false
      ⟨0, some 1, some 0, 0, (some st, {}, ()), []⟩
      = .ok ⟨1, some (9 / 25), some (0.95 * 0), 0.95 * 0, (some { st with params := q }, at₁, ()), []⟩ := by
    simp only [gsBody, h1, h2, h3, h4, bind, Except.bind, gsMeasure]
    rfl
  change gsLoop (tdvpApi tiltEnv tiltCfg 0 fun _ _ => Except.ok ((), ())) 1 (1 / 10) dt false 1
    ⟨0, some 1, some 0, 0, (some st, {}, ()), []⟩ = _
  rw [gsLoop, if_pos (by norm_num [gsCond]), h5]
  simp only [bind, Except.bind]
  rw [gsLoop, if_neg (by norm_num [gsCond])]

/-- Case for all theorems about searches: one step of size `1/1000`. -/
theorem tilt_steps : ∃ (s : GsState Unit (NqsState × TdvpAttrs 0 × Unit)) (θ u : ℕ → Fin 1 → ℝ)
    (A : ℕ → TdvpAttrs 0),
    groundStateSearch (tdvpApi tiltEnv tiltCfg 0 fun _ _ => .ok ((), ())) 1 (1 / 10) (1 / 1000) false
      tiltCfg.diagonalShift (nqsRun (.real [[Real.log 2]]) [.eval], {}, ()) = .ok s ∧ s.n = 1 ∧
    SearchSteps tiltEnv tiltCfg 0 (.real [[Real.log 2]]) (1 / 1000) 1 θ u A ∧
    SearchSmooth tiltMatrix tiltLog 1 θ u 1 1 0 (7 / 4) ∧ θ 0 = (fun _ => Real.log 2) ∧
    (∀ k < 1, ∀ m, (A (k + 1)).metaData = some m → ∀ d, m.tdvpError = some d → d ≤ 1 / 36) ∧
    -- the conclusion of `c108_search`
    energyAt tiltMatrix tiltLog (θ 1) ≤ energyAt tiltMatrix tiltLog (θ 0) + energyCurvature 1 1 0 (7 / 4) / 1000 ^ 2 ∧
    (0 : ℝ) ≤ (energyAt tiltMatrix tiltLog (θ 0) + 1 + (1 / 1000) ^ 2 * energyCurvature 1 1 0 (7 / 4))
      / (1 / 1000 * (35 / 36 * (1 / 10) - 1 / 1000 * energyCurvature 1 1 0 (7 / 4))) := by
  obtain ⟨s, hs, hn⟩ := tilt_one_step (1 / 1000)
  obtain ⟨θ, u, A, hsteps, hA0, hA, h0, -, hall⟩ := c108_search tilt_setting (fun _ _ => .ok ((), ())) 1 (1 / 10) false
    rfl [.eval] (by simp [NqsOp.Fits]) ((c25_initialised_iff _ _).mpr ⟨.eval, List.mem_singleton_self _, rfl⟩) {} ()
    (by norm_num) s hs
  rw [hn] at hsteps hall
  have hθ0 : θ 0 = fun _ => Real.log 2 := by
    have h1 : (Except.ok (some [Real.log 2]) : Except PyErr (Option (List ℝ))) = .ok (some (List.ofFn (θ 0))) := h0
    have h2 := Option.some.inj (Except.ok.inj h1)
    funext i
    rw [Fin.fin_one_eq_zero i]
    simpa using h2.symm
  have hvel : ‖u 0‖ ≤ 7 / 4 ∧ ∀ m, (A 1).metaData = some m → ∀ d, m.tdvpError = some d → d ≤ 1 / 36 := by
    obtain ⟨-, sm₁, sm₂, ops', hops', hget, hcall⟩ := hsteps 0 one_pos
    obtain ⟨st, hst⟩ := Option.ne_none_iff_exists'.mp (run_of_get hget)
    have hw := wf_run _ ops' hops' st hst
    rw [hst, hθ0, show ({ tiltCfg with diagonalShift := 0.95 ^ 0 * tiltCfg.diagonalShift } : TdvpCfg 0) = tiltCfg by
      simp [tiltCfg]] at hcall
    exact tilt_velocity ⟨hw.1, hw.2.1⟩ hcall
  have hsm : SearchSmooth tiltMatrix tiltLog 1 θ u 1 1 0 (7 / 4) := by
    refine ⟨⟨Set.univ, tilt_smooth, convex_univ, fun _ _ => Set.mem_univ _⟩, tilt_norm, fun k hk => ?_⟩
    obtain rfl : k = 0 := by omega
    exact hvel.1
  obtain ⟨h1, h2⟩ := hall 1 1 0 (7 / 4) hsm (1 / 36) (by norm_num) (fun k hk => by
    obtain rfl : k = 0 := by omega
    exact hvel.2) (35 / 36) (by norm_num) (by norm_num)
  have h3 := h2 (-1) (tilt_step fun _ => 0).hermitian (by
    rintro e v ⟨hv, hl⟩
    have h0 := hl 0
    have h1 := hl 1
    simp [tiltMatrix, Matrix.mulVec, dotProduct, Fin.sum_univ_two] at h0 h1
    have h2 : v 0 ≠ 0 := by
      intro h2
      rw [h2, mul_zero, neg_eq_zero] at h0
      exact hv (funext fun i => by fin_cases i <;> simp [h2, h0])
    have h3 : ((e * e : ℝ) : ℂ) = 1 := by
      apply mul_right_cancel₀ h2
      push_cast
      linear_combination -(e : ℂ) * h0 + h1
    have h4 : e * e = 1 := by exact_mod_cast h3
    nlinarith) (by norm_num [energyCurvature])
  refine ⟨s, θ, u, A, hs, hn, hsteps, hsm, hθ0, (fun k hk => by
    obtain rfl : k = 0 := by omega
    exact hvel.2), ?_, ?_⟩
  · have h4 : ((1 - 1 : ℕ) : ℝ) = 0 := by simp
    rw [h4] at h1
    refine h1.trans (le_of_eq ?_)
    push_cast
    ring
  · have h4 : ((1 - 1 : ℕ) : ℝ) = 0 := by simp
    rw [h4] at h3
    refine h3.trans (le_of_eq ?_)
    ring

/-- Case for `c108_step`: the state `(1, 1)` times any factor. -/
example (a : ℝ) (u : Fin 1 → ℝ) :
    |energyAt tiltMatrix tiltLog ((fun _ => a) + (1 / 10 : ℝ) • u) - energyAt tiltMatrix tiltLog (fun _ => a)
      - 1 / 10 * (offRay (fun c => Complex.exp (tiltLog (fun _ => a) c)) (fun s => stateVelocity tiltLog (fun _ => a) u s
          + 1 * (tiltMatrix *ᵥ fun c => Complex.exp (tiltLog (fun _ => a) c)) s)
        - varianceAt tiltMatrix tiltLog (fun _ => a) - speedAt tiltLog (fun _ => a) u)|
      ≤ (1 / 10) ^ 2 * energyCurvature 1 1 0 ‖u‖ := by
  have hst := tilt_step fun _ => a
  exact c108_step tilt_smooth convex_univ (ε := 0) ⟨hst.operator, hst.hermitian, hst.differentiable, hst.gradients,
    hst.samples, near_of_born _ _ hst.weights 0 le_rfl⟩ tilt_norm (by norm_num) (Set.mem_univ _) (Set.mem_univ _) le_rfl

/-- Case for `c108_energy` and `c108_reported`. -/
example : ∃ (θ u : ℕ → Fin 1 → ℝ) (d var : ℝ),
    energyAt tiltMatrix tiltLog (θ 1) ≤ energyAt tiltMatrix tiltLog (θ 0) - 1 / 1000 * ((1 - d) * var)
      + 1 * (1 / 1000) ^ 2 * energyCurvature 1 1 0 (7 / 4) ∧
    energyAt tiltMatrix tiltLog (θ 1) ≤ energyAt tiltMatrix tiltLog (θ 0) - 1 / 1000 * speedAt tiltLog (θ 0) (u 0)
      + 1 * (1 / 1000) ^ 2 * energyCurvature 1 1 0 (7 / 4) := by
  obtain ⟨s, θ, u, A, -, -, hsteps, hsm, -⟩ := tilt_steps
  obtain ⟨d, var, -, h⟩ := c108_reported tilt_setting rfl (by norm_num) hsteps
  have h1 := h _ _ _ _ hsm
  have h2 := c108_energy tilt_setting rfl (by norm_num) hsteps hsm
  refine ⟨θ, u, d 0, var 0, ?_, ?_⟩
  · simpa using h1
  · refine h2.trans (le_of_eq ?_)
    simp
    ring

end JVMC
