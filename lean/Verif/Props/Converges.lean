import Verif.Props.Descent

/-!
# C109 — ground state searches converge

With small reported errors, `ground_state_search` approaches the ground state exponentially, up to the errors of
the finite steps.
-/

namespace JVMC

open Spec Matrix

variable {C : Type} [Fintype C] [DecidableEq C] {kernel : C → List (C × ℂ)} {O : Matrix C C ℂ} {n : ℕ}
  {smp : Type} {ε : ℝ} {logPsi : (Fin (n + 1) → ℝ) → C → ℂ} {G Λ : ℝ}

/-- The levels of a Hamiltonian with a non-degenerate ground state. -/
theorem ground_levels {e₀ e₁ : ℝ} {v : C → ℂ} (hg : GroundState O e₀ e₁ v) (hO : O.IsHermitian) (k : C) :
    hO.eigenvalues k = e₀ ∨ e₁ ≤ hO.eigenvalues k := by
  by_cases hk : hO.eigenvalues k < e₁
  · left
    obtain ⟨a, ha⟩ := ground_unique hg hO k hk
    obtain ⟨hb0, hbl⟩ := eigen_level hO k
    obtain ⟨s, hs⟩ : ∃ s, (hO.eigenvectorBasis k).ofLp s ≠ 0 := by
      by_contra h
      push Not at h
      exact hb0 (funext h)
    have h1 := hbl s
    have h2 : (hO.eigenvectorBasis k).ofLp = a • v := funext ha
    have h3 : (O *ᵥ (hO.eigenvectorBasis k).ofLp) s = e₀ * (hO.eigenvectorBasis k).ofLp s := by
      rw [h2, Matrix.mulVec_smul]
      simp only [Pi.smul_apply, smul_eq_mul, hg.level.2 s]
      ring
    rw [h3] at h1
    exact Complex.ofReal_injective (mul_right_cancel₀ hs h1).symm
  · exact .inr (not_lt.mp hk)

/-- A state between the ground state and the excited states has a variance. -/
theorem gap_variance {e₀ e₁ : ℝ} {v : C → ℂ} (hg : GroundState O e₀ e₁ v) (hO : O.IsHermitian) (ψ : C → ℂ)
    (hψ : ψ ≠ 0) :
    ((Spec.expect O ψ).re - e₀) * (e₁ - (Spec.expect O ψ).re) ≤ spread O ψ ∧ e₀ ≤ (Spec.expect O ψ).re := by
  have hZ := norm2_pos_of_ne ψ hψ
  have hsp := spread_levels hO ψ hψ
  have hE : (Spec.expect O ψ).re * norm2 ψ = ∑ k, hO.eigenvalues k * Complex.normSq (amplitude hO ψ k) := by
    rw [expect_levels hO, ← Complex.ofReal_div, Complex.ofReal_re, div_mul_cancel₀ _ hZ.ne']
  have hn := amplitude_norm hO ψ
  set E := (Spec.expect O ψ).re
  constructor
  · have h1 : 0 ≤ ∑ k, (hO.eigenvalues k - e₀) * (hO.eigenvalues k - e₁) * Complex.normSq (amplitude hO ψ k) := by
      refine Finset.sum_nonneg fun k _ => mul_nonneg ?_ (Complex.normSq_nonneg _)
      rcases ground_levels hg hO k with h | h
      · rw [h, sub_self, zero_mul]
      · exact mul_nonneg (by linarith [hg.gap]) (by linarith)
    have h2 : ∀ k, (hO.eigenvalues k - e₀) * (hO.eigenvalues k - e₁) * Complex.normSq (amplitude hO ψ k)
        = (hO.eigenvalues k - E) ^ 2 * Complex.normSq (amplitude hO ψ k)
          + (2 * E - e₀ - e₁) * (hO.eigenvalues k * Complex.normSq (amplitude hO ψ k))
          + (e₀ * e₁ - E ^ 2) * Complex.normSq (amplitude hO ψ k) := fun k => by ring
    simp only [h2, Finset.sum_add_distrib, ← Finset.mul_sum] at h1
    rw [← hsp, ← hE, hn] at h1
    have h3 : 0 ≤ (spread O ψ - (E - e₀) * (e₁ - E)) * norm2 ψ := by
      refine h1.trans (le_of_eq ?_)
      ring
    have := nonneg_of_mul_nonneg_left h3 hZ
    linarith
  · have h1 : e₀ * norm2 ψ ≤ E * norm2 ψ := by
      rw [hE, ← hn, Finset.mul_sum]
      refine Finset.sum_le_sum fun k _ => mul_le_mul_of_nonneg_right ?_ (Complex.normSq_nonneg _)
      rcases ground_levels hg hO k with h | h
      · exact h.ge
      · exact hg.gap.le.trans h
    exact le_of_mul_le_mul_right h1 hZ

variable {env : TdvpEnv n smp} {cfg : TdvpCfg n} {r : ℕ} {p₀ : Params} {stepSize : ℝ} {N : ℕ}
  {θs us : ℕ → Fin (n + 1) → ℝ} {A : ℕ → TdvpAttrs n} {M V : ℝ}

/-- The energy falls in one step by the variance. -/
theorem search_step [Nonempty C] (hset : SearchSetting ε kernel O logPsi env cfg r 1)
    (hp₀ : (flattenParams p₀).length = n + 1) (hdt : 0 ≤ stepSize)
    (hsteps : SearchSteps env cfg r p₀ stepSize N θs us A) (hsm : SearchSmooth O logPsi N θs us M G Λ V)
    {δ : ℝ} (hδ : 0 ≤ δ)
    (hd : ∀ k < N, ∀ m, (A (k + 1)).metaData = some m → ∀ d, m.tdvpError = some d → d ≤ δ)
    {c : ℝ} (hc : c = (1 - ε) / (1 + ε) - δ) (hc0 : 0 ≤ c) {k : ℕ} (hk : k < N) :
    energyAt O logPsi (θs (k + 1)) ≤ energyAt O logPsi (θs k) - stepSize * (c * varianceAt O logPsi (θs k))
      + stepSize ^ 2 * energyCurvature M G Λ V := by
  have hε := hset.error
  obtain ⟨D, hs, hD, hθ⟩ := hsm.domain
  obtain ⟨hnext, sm₁, sm₂, ops', hops', hget, hcall⟩ := hsteps k hk
  obtain ⟨E, var, m, h1, h2, hv0, hv1, h3, e, he, hle⟩ := call_reported
    (cfg := { cfg with diagonalShift := 0.95 ^ k * cfg.diagonalShift })
    hset.error hset.samples hset.eigh hset.part (by simpa using hset.prefactor)
    (mul_nonneg (by positivity) hset.shift) hp₀ hops' (run_of_get hget) hcall
  obtain ⟨_, _, hst, -⟩ := call_rate (cfg := { cfg with diagonalShift := 0.95 ^ k * cfg.diagonalShift })
    hset.error.le hset.samples hset.eigh hset.part hset.positive hset.prefactor
    (mul_nonneg (by positivity) hset.shift) hp₀ hops' (run_of_get hget) hcall
  obtain ⟨d, hdd, hdδ⟩ : ∃ d, (m.tdvpError = some d ∨ (m.tdvpError = none ∧ d = 0)) ∧ d ≤ δ := by
    cases hm : m.tdvpError with
    | none => exact ⟨0, .inr ⟨rfl, rfl⟩, hδ⟩
    | some d => exact ⟨d, .inl rfl, hd k hk m h2 d hm⟩
  have hrate := hle d hdd
  have h1ε : 0 < 1 - ε := by linarith
  have hce : c / (1 - ε) ≤ 1 / (1 + ε) - d / (1 - ε) := by
    have := div_le_div_of_nonneg_right hdδ h1ε.le
    have h4 : c / (1 - ε) = 1 / (1 + ε) - δ / (1 - ε) := by
      rw [hc, sub_div, div_div, mul_comm (1 + ε), ← div_div, div_self h1ε.ne']
    rw [h4]
    linarith
  have hmain : c * varianceAt O logPsi (θs k) ≤ (1 / (1 + ε) - d / (1 - ε)) * var := by
    calc c * varianceAt O logPsi (θs k) = c / (1 - ε) * ((1 - ε) * varianceAt O logPsi (θs k)) := by
          field_simp
      _ ≤ c / (1 - ε) * var := mul_le_mul_of_nonneg_left hv1 (div_nonneg hc0 h1ε.le)
      _ ≤ _ := mul_le_mul_of_nonneg_right hce hv0
  have h5 := hθ (k + 1) hk
  rw [hnext] at h5
  have key := energy_step hs hD hst.hermitian hsm.hamiltonian hdt (hθ k hk.le) h5 (hsm.velocities k hk) he
  have h6 := (abs_le.mp key).2
  have h7 := mul_le_mul_of_nonneg_left (hrate.trans (neg_le_neg hmain)) hdt
  rw [hnext]
  unfold energyCurvature energyAt
  linarith

/-- The recursion for the energies. -/
theorem descent_bound {a : ℕ → ℝ} {dt c Δ g K : ℝ} (hdt : 0 < dt) (hc : 0 < c) (hg : 0 < g) (hK : 0 ≤ K)
    (ha : ∀ k ≤ N, 0 ≤ a k) (h0 : a 0 ≤ Δ - g) (h1 : dt * (c * g) ≤ 1) (h2 : dt * K ≤ c * g * (Δ - g))
    (hstep : ∀ k < N, a (k + 1) ≤ a k - dt * (c * (a k * (Δ - a k))) + dt ^ 2 * K) :
    ∀ k ≤ N, a k ≤ Δ - g ∧ a k ≤ (1 - dt * (c * g)) ^ k * a 0 + dt * K / (c * g) := by
  have hcg := mul_pos hc hg
  intro k hk
  induction k with
  | zero =>
    refine ⟨h0, ?_⟩
    rw [pow_zero, one_mul]
    have : 0 ≤ dt * K / (c * g) := by positivity
    linarith
  | succ k ih =>
    obtain ⟨i1, i2⟩ := ih (by omega)
    have hs := hstep k hk
    have ha0 := ha k (by omega)
    have h3 : a (k + 1) ≤ (1 - dt * (c * g)) * a k + dt ^ 2 * K := by
      have h4 : g * a k ≤ a k * (Δ - a k) := by nlinarith
      have h5 := mul_le_mul_of_nonneg_left h4 (mul_nonneg hdt.le hc.le)
      linarith
    constructor
    · have h6 := mul_le_mul_of_nonneg_left i1 (show 0 ≤ 1 - dt * (c * g) by linarith)
      have h7 := mul_le_mul_of_nonneg_left h2 hdt.le
      linarith
    · have h6 := mul_le_mul_of_nonneg_left i2 (show 0 ≤ 1 - dt * (c * g) by linarith)
      have h7 : dt * (c * g) * (dt * K / (c * g)) = dt ^ 2 * K := by
        field_simp
      calc a (k + 1) ≤ (1 - dt * (c * g)) * ((1 - dt * (c * g)) ^ k * a 0 + dt * K / (c * g)) + dt ^ 2 * K := by
            linarith
        _ = _ := by
            rw [← h7, pow_succ]
            ring

/-- C109: let the energy of the initial state be below the first excited level by at least `g`, and the errors that
the TDVP object reports at most `δ < 1` (for samples of relative error `ε`: less than `(1-ε)/(1+ε)`). If the step
size is small enough, the energy approaches the ground state energy exponentially, at a rate of `(1-δ) g`, up to
an error proportional to the step size, and so does the squared distance from the ground state. -/
theorem c109_converges [Nonempty C] (hset : SearchSetting ε kernel O logPsi env cfg r 1)
    (hp₀ : (flattenParams p₀).length = n + 1) (hdt : 0 < stepSize)
    (hsteps : SearchSteps env cfg r p₀ stepSize N θs us A) (hsm : SearchSmooth O logPsi N θs us M G Λ V)
    (hO : O.IsHermitian) {e₀ e₁ : ℝ} {v : C → ℂ} (hgr : GroundState O e₀ e₁ v) {δ : ℝ} (hδ : 0 ≤ δ)
    (hd : ∀ k < N, ∀ m, (A (k + 1)).metaData = some m → ∀ d, m.tdvpError = some d → d ≤ δ)
    {c : ℝ} (hc : c = (1 - ε) / (1 + ε) - δ) (hc0 : 0 < c) {g : ℝ} (hg : 0 < g)
    (hstart : energyAt O logPsi (θs 0) ≤ e₁ - g) (h1 : stepSize * (c * g) ≤ 1)
    (h2 : stepSize * energyCurvature M G Λ V ≤ c * g * (e₁ - e₀ - g)) :
    ∀ k ≤ N,
      energyAt O logPsi (θs k) - e₀ ≤ (1 - stepSize * (c * g)) ^ k * (energyAt O logPsi (θs 0) - e₀)
        + stepSize * energyCurvature M G Λ V / (c * g) ∧
      stateDistance v (fun s => Complex.exp (logPsi (θs k) s)) ^ 2
        ≤ ((1 - stepSize * (c * g)) ^ k * (energyAt O logPsi (θs 0) - e₀)
          + stepSize * energyCurvature M G Λ V / (c * g)) / (e₁ - e₀) := by
  obtain ⟨s₀⟩ := ‹Nonempty C›
  have hne : ∀ p, (fun s => Complex.exp (logPsi p s)) ≠ 0 := fun p h0 => Complex.exp_ne_zero _ (congrFun h0 s₀)
  have hK : 0 ≤ energyCurvature M G Λ V := by
    obtain ⟨D, hs, -⟩ := hsm.domain
    have := hsm.hamiltonian.1
    have := hs.rate_nonneg
    unfold energyCurvature
    positivity
  have hlow : ∀ p, e₀ ≤ energyAt O logPsi p := fun p => (gap_variance hgr hO _ (hne p)).2
  have key := descent_bound (N := N) (a := fun k => energyAt O logPsi (θs k) - e₀) (Δ := e₁ - e₀) hdt hc0 hg hK
    (fun k _ => sub_nonneg.mpr (hlow _)) (by linarith) h1 h2 (by
      intro k hk
      have h3 := search_step (n := n) hset hp₀ hdt.le hsteps hsm hδ hd hc hc0.le hk
      have h4 := (gap_variance hgr hO _ (hne (θs k))).1
      have h5 : (energyAt O logPsi (θs k) - e₀) * (e₁ - e₀ - (energyAt O logPsi (θs k) - e₀))
          ≤ varianceAt O logPsi (θs k) := by
        rw [show e₁ - e₀ - (energyAt O logPsi (θs k) - e₀) = e₁ - energyAt O logPsi (θs k) by ring]
        exact h4
      have h6 := mul_le_mul_of_nonneg_left (mul_le_mul_of_nonneg_left h5 hc0.le) hdt.le
      linarith)
  intro k hk
  have h3 := (key k hk).2
  refine ⟨h3, (c98_ground_state hO _ (hne _) hgr).trans ?_⟩
  exact div_le_div_of_nonneg_right h3 (by linarith [hgr.gap])

/-- C109 for `ground_state_search`: the state which it leaves behind after `s.n` steps. -/
theorem c109_search [Nonempty C] {Q : Type} (hset : SearchSetting ε kernel O logPsi env cfg r 1)
    (meas : NqsState → smp → Except PyErr (Q × smp)) (numSteps : ℤ) (tol : ℝ)
    (record : Bool) (hp₀ : (flattenParams p₀).length = n + 1) (ops : List NqsOp)
    (hops : ∀ op ∈ ops, op.Fits p₀) (hinit : nqsRun p₀ ops ≠ none) (at₀ : TdvpAttrs n) (sm₀ : smp)
    (hdt : 0 < stepSize) (s : GsState Q (NqsState × TdvpAttrs n × smp))
    (h : groundStateSearch (tdvpApi env cfg r meas) numSteps tol stepSize record cfg.diagonalShift
      (nqsRun p₀ ops, at₀, sm₀) = .ok s) (hO : O.IsHermitian) {e₀ e₁ : ℝ} {v : C → ℂ}
    (hgr : GroundState O e₀ e₁ v) :
    ∃ (θ u : ℕ → Fin (n + 1) → ℝ) (A : ℕ → TdvpAttrs n), SearchSteps env cfg r p₀ stepSize s.n θ u A ∧
      A 0 = at₀ ∧ s.w.2.1 = A s.n ∧
      (getParameters.call (nqsRun p₀ ops)).1 = .ok (some (List.ofFn (θ 0))) ∧
      (getParameters.call s.w.1).1 = .ok (some (List.ofFn (θ s.n))) ∧
      ∀ M G Λ V, SearchSmooth O logPsi s.n θ u M G Λ V →
        ∀ δ, 0 ≤ δ → (∀ k < s.n, ∀ m, (A (k + 1)).metaData = some m → ∀ d, m.tdvpError = some d → d ≤ δ) →
        ∀ c, c = (1 - ε) / (1 + ε) - δ → 0 < c → ∀ g, 0 < g → energyAt O logPsi (θ 0) ≤ e₁ - g →
          stepSize * (c * g) ≤ 1 → stepSize * energyCurvature M G Λ V ≤ c * g * (e₁ - e₀ - g) →
        stateDistance v (fun x => Complex.exp (logPsi (θ s.n) x)) ^ 2
          ≤ ((1 - stepSize * (c * g)) ^ s.n * (energyAt O logPsi (θ 0) - e₀)
            + stepSize * energyCurvature M G Λ V / (c * g)) / (e₁ - e₀) := by
  obtain ⟨θ, u, A, hsteps, hA0, hA, h0, hfin, -⟩ := c108_search hset meas numSteps tol record hp₀ ops hops hinit at₀ sm₀
    hdt s h
  exact ⟨θ, u, A, hsteps, hA0, hA, h0, hfin, fun M G Λ V hsm δ hδ hd c hc hc0 g hg hstart h1 h2 =>
    (c109_converges hset hp₀ hdt hsteps hsm hO hgr hδ hd hc hc0 hg hstart h1 h2 s.n le_rfl).2⟩

/-! ### Concrete cases -/

theorem tilt_start : energyAt tiltMatrix tiltLog (fun _ => Real.log 2) = -(4 / 5) := by
  unfold energyAt
  rw [tilt_psi, Real.exp_log (by norm_num)]
  simp [Spec.expect, norm2, tiltMatrix, Matrix.mulVec, dotProduct, Fin.sum_univ_two, Complex.normSq_apply]
  norm_num

/-- Case for `c109_converges`: the step from `(1, 2)`, whose ground state is `(1, 1)`. -/
example : ∃ θ : ℕ → Fin 1 → ℝ, ∀ k ≤ 1,
    energyAt tiltMatrix tiltLog (θ k) + 1 ≤ (1 - 7 / 4000) ^ k * (1 / 5) + 7 / 800 ∧
    stateDistance ![1, 1] (fun s => Complex.exp (tiltLog (θ k) s)) ^ 2
      ≤ ((1 - 7 / 4000) ^ k * (1 / 5) + 7 / 800) / 2 := by
  obtain ⟨s, θ, u, A, -, -, hsteps, hsm, hθ, hd, -⟩ := tilt_steps
  refine ⟨θ, fun k hk => ?_⟩
  have h := c109_converges tilt_setting rfl (by norm_num) hsteps hsm (tilt_step fun _ => 0).hermitian tilt_ground
    (by norm_num) hd (c := 35 / 36) (by norm_num) (by norm_num) (g := 9 / 5) (by norm_num)
    (by rw [hθ, tilt_start]; norm_num) (by norm_num) (by norm_num [energyCurvature]) k hk
  rw [hθ, tilt_start] at h
  norm_num [energyCurvature] at h
  norm_num
  exact h

/-- Case for `c109_search`. -/
example : ∃ s : GsState Unit (NqsState × TdvpAttrs 0 × Unit),
    groundStateSearch (tdvpApi tiltEnv tiltCfg 0 fun _ _ => .ok ((), ())) 1 (1 / 10) (1 / 1000) false
      tiltCfg.diagonalShift (nqsRun (.real [[Real.log 2]]) [.eval], {}, ()) = .ok s ∧
    ∃ θ u A, SearchSteps tiltEnv tiltCfg 0 (.real [[Real.log 2]]) (1 / 1000) s.n θ u A ∧
      (getParameters.call s.w.1).1 = .ok (some (List.ofFn (θ s.n))) := by
  obtain ⟨s, hs, -⟩ := tilt_one_step (1 / 1000)
  obtain ⟨θ, u, A, hsteps, -, -, -, hfin, -⟩ := c109_search tilt_setting (fun _ _ => .ok ((), ())) 1 (1 / 10) false
    rfl [.eval] (by simp [NqsOp.Fits]) ((c25_initialised_iff _ _).mpr ⟨.eval, List.mem_singleton_self _, rfl⟩) {} ()
    (by norm_num) s hs (tilt_step fun _ => 0).hermitian tilt_ground
  exact ⟨s, hs, θ, u, A, hsteps, hfin⟩

end JVMC
