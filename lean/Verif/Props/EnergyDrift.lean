import Verif.Props.Descent
import Verif.Props.EvolutionRuns

/-!
# C112: the energy in a time evolution

How much the energy changes in a real-time evolution with the loops of the examples (`eulerLoop`, `heunLoop`,
`ahLoop`), where exact evolution conserves it.
-/

namespace JVMC

open Spec Set Matrix

section

variable {n : ℕ} {C σ : Type} [Fintype C] [DecidableEq C] {logPsi : (Fin (n + 1) → ℝ) → C → ℂ}
  {D : Set (Fin (n + 1) → ℝ)} {G Λ M h T ε : ℝ} {kernel : C → List (C × ℂ)} {O : Matrix C C ℂ}

/-- A call of a TDVP object for real-time evolution (an imaginary `rhsPrefactor` and `makeReal="imag"`) with network
parameters `θ` returned the velocities `u`; the Hamiltonian has the branches `kernel` and the matrix `O`, and the
samples are those of `|ψ_θ|²` up to the relative error `ε`. Everything else (regularisation, stage `k` of the
integration scheme, cross validation, earlier calls, state of the network and the sampler, ranks) is arbitrary. -/
def RealTimeCall (ε : ℝ) (kernel : C → List (C × ℂ)) (O : Matrix C C ℂ) (logPsi : (Fin (n + 1) → ℝ) → C → ℂ)
    (k : Option ℕ) (θ u : Fin (n + 1) → ℝ) : Prop :=
  ∃ (smp : Type) (env : TdvpEnv n smp) (cfg : TdvpCfg n) (r : ℕ) (time : ℝ) (sm sm' : smp)
    (at₀ at₁ : TdvpAttrs n) (st : NqsInit) (st' : NqsState) (p : Params)
    (grads : C → Fin (n + 1) → ℂ) (w : World (C × ℂ × ℝ)) (y : ℝ),
    cfg.makeReal = "imag" ∧ y ≠ 0 ∧ cfg.rhsPrefactor = Complex.I * (y : ℂ) ∧
    paramUnflatten st.realParams st.sizes (List.ofFn θ) = .ok p ∧
    SampledStep ε kernel O logPsi θ grads w ∧ r < List.length w ∧
    env.measure p sm time = .ok (tdvpJoint O (fun c => Complex.exp (logPsi θ c)) grads w, sm') ∧
    (tdvpCall env cfg r (List.ofFn θ) time k sm at₀).call (some st) = (.ok (some u, at₁, sm'), st')

/-- The update that a call returns is one of `solve`, at every stage of the integration scheme. -/
theorem any_call_solve {smp : Type} {env : TdvpEnv n smp} {cfg : TdvpCfg n} {r : ℕ} {netP : List ℝ} {t : ℝ}
    {k : Option ℕ} {sm sm' : smp} {at₀ at₁ : TdvpAttrs n} {st : NqsInit} {st' : NqsState} {u : Fin (n + 1) → ℝ}
    (h : (tdvpCall env cfg r netP t k sm at₀).call (some st) = (.ok (some u, at₁, sm'), st')) :
    ∃ p joint, paramUnflatten st.realParams st.sizes netP = .ok p ∧ env.measure p sm t = .ok (joint, sm') ∧
      ∃ (E : SObs (Fin 1)) (G : SObs (Fin (n + 1))) (res : SolveRes n) (atA atB : TdvpAttrs n),
        IsTdvpData joint E G ∧ tdvpSolve cfg r (some (E, G)) atA = .ok (res, atB) ∧ res.update = some u := by
  by_cases hk : k = some 0
  · subst hk
    exact call_solve h
  · obtain ⟨p, joint, E, G, res, atS, p', hp, hm, hd, hs, -, -, hz, -⟩ :=
      tdvpCall_ok env cfg r netP t k sm sm' at₀ at₁ st st' (some u) h
    exact ⟨p, joint, hp, hm, E, G, res, _, _, hd, hs, (hz hk).1.symm⟩

omit [DecidableEq C] in
theorem spread_bound [Nonempty C] (hM : NormAtMost O M) (θ : Fin (n + 1) → ℝ) :
    √(varianceAt O logPsi θ) ≤ M := by
  obtain ⟨s₀⟩ := ‹Nonempty C›
  have hZ : 0 < norm2 fun c => Complex.exp (logPsi θ c) := norm2_pos _ s₀ (Complex.exp_ne_zero _)
  rw [Real.sqrt_le_left hM.1]
  unfold varianceAt spread
  have h1 := hM.2 fun c => Complex.exp (logPsi θ c)
  rw [← div_le_iff₀ hZ] at h1
  have h2 := Complex.normSq_nonneg (Spec.expect O fun c => Complex.exp (logPsi θ c))
  linarith

omit [DecidableEq C] in
theorem speed_bound [Nonempty C] (hs : SmoothOn logPsi D G Λ) {θ u : Fin (n + 1) → ℝ} (hθ : θ ∈ D) {V : ℝ}
    (hV : ‖u‖ ≤ V) : √(speedAt logPsi θ u) ≤ G * V := by
  obtain ⟨s₀⟩ := ‹Nonempty C›
  have hV0 : 0 ≤ V := (norm_nonneg _).trans hV
  have hg : 0 ≤ G * V := mul_nonneg hs.bound_nonneg hV0
  rw [Real.sqrt_le_left hg]
  unfold speedAt
  refine offRay_le _ _ (fun h0 => Complex.exp_ne_zero _ (congrFun h0 s₀)) 0 _ ?_
  have hv : ∀ s, stateVelocity logPsi θ u s
      = fderiv ℝ (fun p => logPsi p s) θ u * Complex.exp (logPsi θ s) := by
    intro s
    unfold stateVelocity
    have := (segment_deriv (θ := θ) (u := u) (τ := 0) (s := s) (logPsi := logPsi)
      (by rw [zero_smul, add_zero]; exact hs.differentiable θ hθ s)).deriv
    rw [this, zero_smul, add_zero]
  refine le_trans (le_of_eq ?_) (toE_mul_le (fun c => fderiv ℝ (fun p => logPsi p c) θ u) _ (G * V) hg fun s =>
    (hs.bound θ hθ s u).trans (mul_le_mul_of_nonneg_left hV hs.bound_nonneg))
  congr 1
  ext s
  simp [toE, hv]

/-- C112: the rate at which the energy changes in the direction that a call returns: zero with exact samples. -/
theorem c112_rate [Nonempty C] (hε : ε ≤ 1) {k : Option ℕ} {θ u : Fin (n + 1) → ℝ}
    (hc : RealTimeCall ε kernel O logPsi k θ u) :
    ∃ e : ℝ, HasDerivAt (fun τ : ℝ => Spec.expect O fun c => Complex.exp (logPsi (θ + τ • u) c)) (e : ℂ) 0 ∧
      |e| ≤ 2 * ε * (√(speedAt logPsi θ u) * √(varianceAt O logPsi θ)) := by
  obtain ⟨smp, env, cfg, r, time, sm, sm', at₀, at₁, st, st', p, grads, w, y, hq, hy, hpre, hp, hst, hr, hm, hcall⟩ := hc
  obtain ⟨p', joint, hp', hm', E, G, res, atA, atB, hd, hs, hu⟩ := any_call_solve hcall
  obtain rfl := Except.ok.inj (hp.symm.trans hp')
  obtain rfl := (Prod.mk.inj (Except.ok.inj (hm.symm.trans hm'))).1
  obtain ⟨e, hd', hn⟩ := rate_near hst hε u
  refine ⟨e, hd', ?_⟩
  have hi : TdvpInput (tdvpJoint O (fun c => Complex.exp (logPsi θ c)) grads w) r E G :=
    ⟨World.map_ne _ _ hst.samples.devices, by
      intro s hs
      unfold tdvpJoint at hs
      rw [allSamples_wmap] at hs
      obtain ⟨y, hy, rfl⟩ := List.mem_map.mp hs
      exact hst.nonneg y hy, by simpa [tdvpJoint, World.map] using hr, hd⟩
  obtain ⟨snr, p, _, hp, hup, _⟩ := solve_pinv cfg r _ E G hi atA atB res hs u hu
  set l := allSamples (tdvpJoint O (fun c => Complex.exp (logPsi θ c)) grads w) with hl
  have hF : ∀ k, specQF cfg l k = Complex.I * ((-y * (specF l k).re : ℝ) : ℂ) := by
    intro k
    unfold specQF TdvpCfg.q
    rw [if_pos hq, hpre]
    generalize specF l k = z
    apply Complex.ext
    · simp
    · simp; ring
  set V := (cfg.eigh (specQS cfg l)).2 with hV
  have hquad := congrArg Complex.im (pinv_quad V p (specQF cfg l))
  rw [Complex.ofReal_im, Complex.im_sum] at hquad
  have hsum : y * ∑ k, u k * (specF l k).re = 0 := by
    rw [← hquad, Finset.mul_sum]
    apply Finset.sum_congr rfl
    intro k _
    have hz : u k = ((V *ᵥ fun k => (p k : ℂ) * (Vᴴ *ᵥ specQF cfg l) k) k).re := congrFun hup k
    rw [hz, hF k]
    generalize (V *ᵥ fun k => (p k : ℂ) * (Vᴴ *ᵥ specQF cfg l) k) k = z
    simp
    ring
  have : sampledRate l u = 0 := by
    unfold sampledRate
    rw [(mul_eq_zero.1 hsum).resolve_left hy, mul_zero]
  rwa [this, sub_zero] at hn

omit [DecidableEq C] in
/-- Expectation values of a bounded operator. -/
theorem expect_bound {A : Matrix C C ℂ} (hA : NormAtMost A M) (ψ : C → ℂ) (hψ : ψ ≠ 0) :
    ‖Spec.expect A ψ‖ ≤ M := by
  have h1 : ‖‖toE ψ‖⁻¹ • toE ψ‖ = 1 := by
    rw [norm_smul, norm_inv, norm_norm, inv_mul_cancel₀ (norm_pos_iff.mpr (toE_ne ψ hψ)).ne']
  rw [expect_unit A ψ hψ]
  refine (norm_inner_le_norm _ _).trans ?_
  rw [h1, one_mul]
  refine (matE_le hA _).trans ?_
  rw [h1, mul_one]

omit [DecidableEq C] in
theorem energy_sub {A B : Matrix C C ℂ} (θ : Fin (n + 1) → ℝ) :
    energyAt A logPsi θ - energyAt B logPsi θ = energyAt (A - B) logPsi θ := by
  unfold energyAt Spec.expect
  rw [← Complex.sub_re, ← sub_div, ← Finset.sum_sub_distrib]
  simp only [Matrix.sub_mulVec, Pi.sub_apply, mul_sub]

section euler

variable {kernel : ℝ → C → List (C × ℂ)} {H : ℝ → Matrix C C ℂ}

/-- The change of the energy per time in an `Euler` evolution: by the change of the Hamiltonian, by sampling errors
and by the finite time step. -/
noncomputable def driftRate (M G Λ V h ε dt : ℝ) : ℝ :=
  h + 2 * ε * (G * V * M) + dt * energyCurvature M G Λ V

/-- C112 for one step of `Euler`. -/
theorem c112_step [Nonempty C] (hs : SmoothOn logPsi D G Λ) (hD : Convex ℝ D) (hε : ε ≤ 1)
    (hH : SlowHamiltonian H T M h) {t dt V : ℝ} (ht : 0 ≤ t) (hdt : 0 ≤ dt) (hT : t + dt ≤ T) {k : Option ℕ}
    {θ u : Fin (n + 1) → ℝ} (hc : RealTimeCall ε (kernel t) (H t) logPsi k θ u) (hθ : θ ∈ D) (hθ' : θ + dt • u ∈ D)
    (hV : ‖u‖ ≤ V) :
    |energyAt (H (t + dt)) logPsi (θ + dt • u) - energyAt (H t) logPsi θ| ≤ dt * driftRate M G Λ V h ε dt := by
  obtain ⟨s₀⟩ := id ‹Nonempty C›
  have ht0 : t ∈ Icc 0 T := ⟨ht, by linarith⟩
  have ht1 : t + dt ∈ Icc 0 T := ⟨by linarith, hT⟩
  have hM := hH.bound t ht0
  have hε0 : 0 ≤ ε := by
    obtain ⟨_, _, _, _, _, _, _, _, _, _, _, _, _, _, _, _, _, _, _, hst, _⟩ := hc
    exact hst.eps_nonneg
  obtain ⟨e, he, hb⟩ := c112_rate hε hc
  have h1 := energy_step hs hD (hH.hermitian t ht0) hM hdt hθ hθ' hV he
  have h2 : |energyAt (H (t + dt)) logPsi (θ + dt • u) - energyAt (H t) logPsi (θ + dt • u)| ≤ h * dt := by
    rw [energy_sub]
    refine (Complex.abs_re_le_norm _).trans ?_
    have := expect_bound (hH.rate t ht0 _ ht1 (by linarith)) (fun c => Complex.exp (logPsi (θ + dt • u) c))
      (fun h0 => Complex.exp_ne_zero _ (congrFun h0 s₀))
    rwa [add_sub_cancel_left] at this
  have h3 : √(speedAt logPsi θ u) * √(varianceAt (H t) logPsi θ) ≤ G * V * M :=
    mul_le_mul (speed_bound hs hθ hV) (spread_bound hM θ) (Real.sqrt_nonneg _)
      (mul_nonneg hs.bound_nonneg ((norm_nonneg _).trans hV))
  have h4 : |e| ≤ 2 * ε * (G * V * M) := hb.trans (mul_le_mul_of_nonneg_left h3 (by positivity))
  have h5 : |dt * e| ≤ dt * (2 * ε * (G * V * M)) := by
    rw [abs_mul, abs_of_nonneg hdt]
    exact mul_le_mul_of_nonneg_left h4 hdt
  unfold energyAt at h2 ⊢
  unfold driftRate energyCurvature
  rw [abs_le] at h1 h2 h5 ⊢
  constructor <;> nlinarith [h1.1, h1.2, h2.1, h2.2, h5.1, h5.2]

/-- C112 for `Euler`: in an evolution with the velocities that the calls return, the energies after `k` and after
`l` steps differ by at most the elapsed time times `driftRate`: with exact samples and a constant Hamiltonian
that is a discretisation error of first order in the time step, whatever the regularisation and however far the
variational state is from the exact one. -/
theorem c112_euler [Nonempty C] (hs : SmoothOn logPsi D G Λ) (hD : Convex ℝ D) (hε : ε ≤ 1)
    (hH : SlowHamiltonian H T M h) (dt : ℝ) (hdt : 0 ≤ dt)
    (f : VRhs (Fin (n + 1) → ℝ) σ) (θ₀ : Fin (n + 1) → ℝ) (s₀ : σ) (V : ℝ) (N : ℕ)
    (hN : N * dt ≤ T) (hin : ∀ k ≤ N, (eulerLoop dt f k 0 θ₀ s₀).2.1 ∈ D)
    (hcall : ∀ k < N, ∀ t θ s, eulerLoop dt f k 0 θ₀ s₀ = (t, θ, s) → ‖(f θ t 0 s).1‖ ≤ V ∧
      RealTimeCall ε (kernel t) (H t) logPsi (some 0) θ (f θ t 0 s).1) (k l : ℕ) (hkl : k ≤ l) (hl : l ≤ N) :
    |energyAt (H (l * dt)) logPsi (eulerLoop dt f l 0 θ₀ s₀).2.1
        - energyAt (H (k * dt)) logPsi (eulerLoop dt f k 0 θ₀ s₀).2.1|
      ≤ (l - k) * dt * driftRate M G Λ V h ε dt := by
  induction l, hkl using Nat.le_induction with
  | base => simp
  | succ l hkl ih =>
    have h1 := ih (by omega)
    obtain ⟨hV, hc⟩ := hcall l (by omega) _ _ _ rfl
    have ht := eulerLoop_time dt f l 0 θ₀ s₀
    rw [zero_add] at ht
    rw [ht] at hV hc
    have hnext := hin (l + 1) hl
    rw [eulerLoop_succ, ht] at hnext ⊢
    have hle : ((l + 1 : ℕ) : ℝ) * dt ≤ T :=
      (mul_le_mul_of_nonneg_right (by exact_mod_cast hl) hdt).trans hN
    have e1 : ((l + 1 : ℕ) : ℝ) * dt = l * dt + dt := by push_cast; ring
    rw [e1] at hle ⊢
    have h2 := c112_step hs hD hε hH (by positivity) hdt hle hc (hin l (by omega)) hnext hV
    push_cast
    have h3 := abs_sub_le (energyAt (H (l * dt + dt)) logPsi ((eulerLoop dt f l 0 θ₀ s₀).2.1
        + dt • (f (eulerLoop dt f l 0 θ₀ s₀).2.1 (l * dt) 0 (eulerLoop dt f l 0 θ₀ s₀).2.2).1))
      (energyAt (H (l * dt)) logPsi (eulerLoop dt f l 0 θ₀ s₀).2.1)
      (energyAt (H (k * dt)) logPsi (eulerLoop dt f k 0 θ₀ s₀).2.1)
    refine h3.trans ((add_le_add h2 h1).trans (le_of_eq ?_))
    ring

/-- C112 for the energies that the calls report (`ElocMean0`): the reported energies of two steps differ by at
most the drift and the sampling errors of the two energies. -/
theorem c112_reported [Nonempty C] (hs : SmoothOn logPsi D G Λ) (hD : Convex ℝ D) (hε : ε ≤ 1)
    (hH : SlowHamiltonian H T M h) (dt : ℝ) (hdt : 0 ≤ dt)
    (f : VRhs (Fin (n + 1) → ℝ) σ) (θ₀ : Fin (n + 1) → ℝ) (s₀ : σ) (V : ℝ) (N : ℕ)
    (hN : N * dt ≤ T) (hin : ∀ k ≤ N, (eulerLoop dt f k 0 θ₀ s₀).2.1 ∈ D) (x : ℂ) (hx : Complex.normSq x = 1)
    (d var : ℕ → ℝ) (E : ℕ → ℂ)
    (hcall : ∀ k < N, ∀ t θ s, eulerLoop dt f k 0 θ₀ s₀ = (t, θ, s) → ‖(f θ t 0 s).1‖ ≤ V ∧
      RealTimeCall ε (kernel t) (H t) logPsi (some 0) θ (f θ t 0 s).1 ∧
      SampledReport ε (kernel t) (H t) logPsi x θ (f θ t 0 s).1 (d k) (E k) (var k))
    (k l : ℕ) (hkl : k ≤ l) (hl : l < N) :
    |(E l).re - (E k).re| ≤ (l - k) * dt * driftRate M G Λ V h ε dt + 2 * (ε * M) := by
  have h1 := c112_euler (kernel := kernel) hs hD hε hH dt hdt f θ₀ s₀ V N hN hin
    (fun k hk t θ s hr => ⟨(hcall k hk t θ s hr).1, (hcall k hk t θ s hr).2.1⟩) k l hkl hl.le
  have h2 : ∀ j < N, |(E j).re - energyAt (H (j * dt)) logPsi (eulerLoop dt f j 0 θ₀ s₀).2.1| ≤ ε * M := by
    intro j hj
    obtain ⟨-, hc, hrep⟩ := hcall j hj _ _ _ rfl
    have ht := eulerLoop_time dt f j 0 θ₀ s₀
    rw [zero_add] at ht
    rw [ht] at hc hrep
    have hε0 : 0 ≤ ε := by
      obtain ⟨_, _, _, _, _, _, _, _, _, _, _, _, _, _, _, _, _, _, _, hst, _⟩ := hc
      exact hst.eps_nonneg
    have hle : (j : ℝ) * dt ≤ T :=
      (mul_le_mul_of_nonneg_right (by exact_mod_cast hj.le) hdt).trans hN
    have h3 := (c104_reported hx hε hrep).1
    unfold energyAt
    rw [← Complex.sub_re]
    exact (Complex.abs_re_le_norm _).trans (h3.trans (mul_le_mul_of_nonneg_left
      (spread_bound (hH.bound _ ⟨by positivity, hle⟩) _) hε0))
  have h3 := h2 l hl
  have h4 := h2 k (by omega)
  rw [abs_le] at h1 h3 h4 ⊢
  constructor <;> linarith [h1.1, h1.2, h3.1, h3.2, h4.1, h4.2]

end euler

omit [DecidableEq C] in
theorem energy_differentiable [Nonempty C] (O : Matrix C C ℂ) {θ : Fin (n + 1) → ℝ}
    (hd : ∀ s, DifferentiableAt ℝ (fun p => logPsi p s) θ) :
    DifferentiableAt ℝ (fun p => Spec.expect O fun c => Complex.exp (logPsi p c)) θ := by
  obtain ⟨s₀⟩ := ‹Nonempty C›
  have hZ := norm2_pos (fun c => Complex.exp (logPsi θ c)) s₀ (Complex.exp_ne_zero _)
  have hexp : ∀ s, DifferentiableAt ℝ (fun p => Complex.exp (logPsi p s)) θ := fun s => (hd s).cexp
  have hconj : ∀ s, DifferentiableAt ℝ (fun p => (starRingEnd ℂ) (Complex.exp (logPsi p s))) θ := fun s =>
    Complex.conjCLE.toContinuousLinearMap.differentiableAt.comp θ (hexp s)
  have e : ∀ p, Spec.expect O (fun c => Complex.exp (logPsi p c))
      = (∑ s, (starRingEnd ℂ) (Complex.exp (logPsi p s)) * ∑ s', O s s' * Complex.exp (logPsi p s'))
        / ∑ s, (starRingEnd ℂ) (Complex.exp (logPsi p s)) * Complex.exp (logPsi p s) := by
    intro p
    unfold Spec.expect norm2
    push_cast
    simp only [Matrix.mulVec, dotProduct, Complex.normSq_eq_conj_mul_self]
  simp only [e, div_eq_mul_inv]
  refine DifferentiableAt.fun_mul ?_ (DifferentiableAt.fun_inv ?_ ?_)
  · exact DifferentiableAt.fun_sum fun s _ => (hconj s).mul (DifferentiableAt.fun_sum fun s' _ =>
      (hexp s').const_mul _)
  · exact DifferentiableAt.fun_sum fun s _ => (hconj s).mul (hexp s)
  · have : ((norm2 fun c => Complex.exp (logPsi θ c) : ℝ) : ℂ) ≠ 0 := by exact_mod_cast hZ.ne'
    unfold norm2 at this
    push_cast at this
    simpa only [Complex.normSq_eq_conj_mul_self] using this

/-- C112 for the TDVP equation itself: with exact samples the energy is exactly conserved along its solutions. -/
theorem c112_flow [Nonempty C] {F : (Fin (n + 1) → ℝ) → ℝ → Fin (n + 1) → ℝ} {y : ℝ → Fin (n + 1) → ℝ}
    (hy : IsSolution F y 0 T) (hcall : ∀ t ∈ Icc 0 T, ∃ k, RealTimeCall 0 kernel O logPsi k (y t) (F (y t) t)) :
    ∀ t ∈ Icc 0 T, energyAt O logPsi (y t) = energyAt O logPsi (y 0) := by
  have hder : ∀ t ∈ Icc 0 T, HasDerivWithinAt (fun t => Spec.expect O fun c => Complex.exp (logPsi (y t) c)) 0
      (Icc 0 T) t := by
    intro t ht
    obtain ⟨k, hc⟩ := hcall t ht
    have hdiff : ∀ s, DifferentiableAt ℝ (fun p => logPsi p s) (y t) := by
      obtain ⟨_, _, _, _, _, _, _, _, _, _, _, _, _, _, _, _, _, _, _, hst, _⟩ := hc
      exact hst.differentiable
    have h1 := (energy_differentiable O hdiff).hasFDerivAt
    obtain ⟨e, he, hb⟩ := c112_rate zero_le_one hc
    have he0 : e = 0 := by simpa using hb
    have h2 : HasDerivAt (fun τ : ℝ => y t + τ • F (y t) t) (F (y t) t) 0 := by
      simpa using ((hasDerivAt_id (0 : ℝ)).smul_const (F (y t) t)).const_add (y t)
    have h3 := HasFDerivAt.comp_hasDerivAt (0 : ℝ) (f := fun τ : ℝ => y t + τ • F (y t) t) (by simpa using h1) h2
    have h4 := h3.unique he
    have h5 := h1.comp_hasDerivWithinAt t (hy t ht)
    rw [h4, he0] at h5
    exact_mod_cast h5
  intro t ht
  have h1 := constant_of_derivWithin_zero (f := fun t => Spec.expect O fun c => Complex.exp (logPsi (y t) c))
    (fun t ht => (hder t ht).differentiableWithinAt) (fun t ht => by
      have hlt : (0 : ℝ) < T := ht.1.trans_lt ht.2
      exact (hder t (Ico_subset_Icc_self ht)).derivWithin (uniqueDiffOn_Icc hlt t (Ico_subset_Icc_self ht))) t ht
  exact congrArg Complex.re h1

/-- Parameters close to a solution of the TDVP equation. -/
theorem near_energy [Nonempty C] (hs : SmoothOn logPsi D G Λ) (hD : Convex ℝ D) (hM : NormAtMost O M)
    {F : (Fin (n + 1) → ℝ) → ℝ → Fin (n + 1) → ℝ} {y : ℝ → Fin (n + 1) → ℝ} (hy : IsSolution F y 0 T)
    (hcall : ∀ t ∈ Icc 0 T, ∃ k, RealTimeCall 0 kernel O logPsi k (y t) (F (y t) t)) {t : ℝ} (ht : t ∈ Icc 0 T)
    {x : Fin (n + 1) → ℝ} (hx : x ∈ D) (hyt : y t ∈ D) {δ : ℝ} (hδ : ‖x - y t‖ ≤ δ) :
    |energyAt O logPsi x - energyAt O logPsi (y 0)| ≤ 2 * M * (G * δ) := by
  obtain ⟨s₀⟩ := id ‹Nonempty C›
  have hne : ∀ p, (fun c => Complex.exp (logPsi p c)) ≠ 0 := fun p h0 => Complex.exp_ne_zero _ (congrFun h0 s₀)
  rw [← c112_flow hy hcall t ht]
  have h1 := distance_params hs hD (fun c => Complex.exp (logPsi (y t) c)) (hne _) hyt hx
  rw [distance_self _ (hne _), zero_add] at h1
  have h2 := c97_expect O M hM _ _ (hne (y t)) (hne x)
  unfold energyAt
  rw [← Complex.sub_re]
  refine (Complex.abs_re_le_norm _).trans ?_
  rw [norm_sub_rev]
  refine h2.trans (mul_le_mul_of_nonneg_left (h1.trans (mul_le_mul_of_nonneg_left hδ hs.bound_nonneg)) ?_)
  have := hM.1
  positivity

/-- C112 for `Heun`: the energy after `N` steps is the initial one up to an error of second order in the time
step. -/
theorem c112_heun [Nonempty C] (hs : SmoothOn logPsi D G Λ) (hD : Convex ℝ D) (hM : NormAtMost O M)
    {F : (Fin (n + 1) → ℝ) → ℝ → Fin (n + 1) → ℝ} {y : ℝ → Fin (n + 1) → ℝ} (hy : IsSolution F y 0 T)
    {K K' L R ε : ℝ} (hK : SlowVelocity F y 0 T K) (hK' : SlowAcceleration F y 0 T K')
    (hL : LipschitzNear F y 0 T R L) {f : VRhs (Fin (n + 1) → ℝ) σ} (hf : EvaluatesNear f F y 0 T R ε)
    (hcall : ∀ t ∈ Icc 0 T, ∃ k, RealTimeCall 0 kernel O logPsi k (y t) (F (y t) t))
    (dt : ℝ) (hdt : 0 ≤ dt) (N : ℕ) (hN : N * dt ≤ T) (s : σ)
    (hR : (1 + dt * L) * accumulated (L + dt * L ^ 2 / 2)
      (ε * (1 + dt * L / 2) + dt ^ 2 * ((L * K + K') / 2)) 0 (N * dt) + dt * (ε + K * dt) ≤ R)
    (hin : ∀ x, ‖x - y (N * dt)‖ ≤ R → x ∈ D) :
    |energyAt O logPsi (heunLoop dt f N 0 (y 0) s).2.1 - energyAt O logPsi (y 0)|
      ≤ 2 * M * (G * accumulated (L + dt * L ^ 2 / 2)
          (ε * (1 + dt * L / 2) + dt ^ 2 * ((L * K + K') / 2)) 0 (N * dt)) := by
  have h1 := c96_heun hy hK hK' hL hf dt hdt N (by rw [zero_add]; exact hN) (y 0) s
    (by rw [sub_self, norm_zero]; exact hR)
  rw [sub_self, norm_zero, zero_add] at h1
  have hacc : 0 ≤ accumulated (L + dt * L ^ 2 / 2) (ε * (1 + dt * L / 2) + dt ^ 2 * ((L * K + K') / 2)) 0
      (N * dt) := (norm_nonneg _).trans h1.2
  have hdL : 0 ≤ dt * L := mul_nonneg hdt hL.1
  have hR0 : accumulated (L + dt * L ^ 2 / 2) (ε * (1 + dt * L / 2) + dt ^ 2 * ((L * K + K') / 2)) 0
      (N * dt) ≤ R := by
    have hr : 0 ≤ dt * (ε + K * dt) := mul_nonneg hdt (add_nonneg hf.1 (mul_nonneg hK.1 hdt))
    nlinarith [mul_nonneg hdL hacc]
  refine near_energy hs hD hM hy hcall ⟨by positivity, hN⟩ (hin _ (h1.2.trans hR0)) (hin _ ?_) h1.2
  rw [sub_self, norm_zero]
  exact hacc.trans hR0

/-- C112 for `AdaptiveHeun`, whatever time steps are chosen. -/
theorem c112_adaptive [Nonempty C] (hs : SmoothOn logPsi D G Λ) (hD : Convex ℝ D) (hM : NormAtMost O M)
    {F : (Fin (n + 1) → ℝ) → ℝ → Fin (n + 1) → ℝ} {y : ℝ → Fin (n + 1) → ℝ} (hy : IsSolution F y 0 T)
    {K K' L R ε : ℝ} (hK : SlowVelocity F y 0 T K) (hK' : SlowAcceleration F y 0 T K')
    (hL : LipschitzNear F y 0 T R L) {g : VRhs (Fin (n + 1) → ℝ) σ} (hg : EvaluatesNear g F y 0 T R ε)
    (inplace : Bool) (f : RRhs (Fin (n + 1) → ℝ) σ) (hf : Computes inplace f g)
    (hcall : ∀ t ∈ Icc 0 T, ∃ k, RealTimeCall 0 kernel O logPsi k (y t) (F (y t) t))
    (norm : (Fin (n + 1) → ℝ) → ℝ) (hnorm : ∀ x, 0 ≤ norm x) (obj : AHeun) (htol : 0 < obj.tolerance)
    (hdt : 0 < obj.dt) (hle : obj.dt ≤ obj.maxStep) (w : List (Fin (n + 1) → ℝ) × σ)
    (hR : (1 + obj.maxStep / 2 * L) * accumulated (L + obj.maxStep / 2 * L ^ 2 / 2)
      (ε * (1 + obj.maxStep / 2 * L / 2) + (obj.maxStep / 2) ^ 2 * ((L * K + K') / 2)) 0 T
        + obj.maxStep / 2 * (ε + K * (obj.maxStep / 2)) ≤ R)
    (N : ℕ) (t' : ℝ) (x' : Fin (n + 1) → ℝ) (obj' : AHeun) (w' : List (Fin (n + 1) → ℝ) × σ)
    (hres : ahLoop inplace f norm N obj 0 (y 0) w = .ok (t', x', obj', w')) (hT : t' ≤ T)
    (hxD : x' ∈ D) (hyD : y t' ∈ D) :
    |energyAt O logPsi x' - energyAt O logPsi (y 0)|
      ≤ 2 * M * (G * accumulated (L + obj.maxStep / 2 * L ^ 2 / 2)
          (ε * (1 + obj.maxStep / 2 * L / 2) + (obj.maxStep / 2) ^ 2 * ((L * K + K') / 2)) 0 t') := by
  have h1 := c96_adaptive hy hK hK' hL hg inplace f hf norm hnorm obj htol hdt hle (y 0) w
    (by rw [sub_self, norm_zero, sub_zero]; exact hR) N t' x' obj' w' hres hT
  rw [sub_self, norm_zero, sub_zero] at h1
  exact near_energy hs hD hM hy hcall ⟨h1.1, hT⟩ hxD hyD h1.2

end

/-! ### A case: one spin with two real parameters, `ψ = (1, exp (θ₀ + i θ₁))`, which covers almost all states -/

noncomputable def spinUp (θ : Fin 2 → ℝ) : ℝ :=
  Complex.normSq (Complex.exp (spinLog θ 1)) / norm2 fun c => Complex.exp (spinLog θ c)

noncomputable def spinExact (θ : Fin 2 → ℝ) : World (Fin 2 × ℂ × ℝ) :=
  [[[(0, spinLog θ 0, 1 - spinUp θ), (1, spinLog θ 1, spinUp θ)]]]

theorem spinUp_pos (θ : Fin 2 → ℝ) : 0 < spinUp θ ∧ 0 < 1 - spinUp θ ∧
    1 - spinUp θ = Complex.normSq (Complex.exp (spinLog θ 0)) / norm2 fun c => Complex.exp (spinLog θ c) := by
  have h0 := Complex.normSq_pos.mpr (Complex.exp_ne_zero (spinLog θ 0))
  have h1 := Complex.normSq_pos.mpr (Complex.exp_ne_zero (spinLog θ 1))
  have hZ : norm2 (fun c => Complex.exp (spinLog θ c))
      = Complex.normSq (Complex.exp (spinLog θ 0)) + Complex.normSq (Complex.exp (spinLog θ 1)) := by
    unfold norm2
    rw [Fin.sum_univ_two]
  have e : 1 - spinUp θ = Complex.normSq (Complex.exp (spinLog θ 0)) / norm2 fun c => Complex.exp (spinLog θ c) := by
    unfold spinUp
    rw [hZ]
    field_simp
    ring
  refine ⟨?_, ?_, e⟩
  · unfold spinUp
    rw [hZ]
    positivity
  · rw [e, hZ]
    positivity

noncomputable def spinGrads (s : Fin 2) : Fin 2 → ℂ := ![(s.val : ℂ), Complex.I * s.val]

theorem spin_exact_step {kernel : Fin 2 → List (Fin 2 × ℂ)} {O : Matrix (Fin 2) (Fin 2) ℂ}
    (hop : OperatorOf kernel O) (hO : O.IsHermitian) (θ : Fin 2 → ℝ) :
    SampledStep 0 kernel O spinLog θ spinGrads (spinExact θ) := by
  have hf : ∀ s : Fin 2, HasFDerivAt (fun p => spinLog p s)
      (LinearMap.toContinuousLinearMap (spinLinear s)) θ := fun s =>
    (LinearMap.toContinuousLinearMap (spinLinear s)).hasFDerivAt
  obtain ⟨h1, h2, h3⟩ := spinUp_pos θ
  refine ⟨hop, hO, fun s => (hf s).differentiableAt, ?_, ?_, near_of_born _ _ ?_ 0 le_rfl⟩
  · intro s k
    rw [(hf s).fderiv]
    change _ = spinLog (Pi.single k 1) s
    fin_cases k <;> simp [spinLog, spinGrads]
  · refine ⟨?_, ?_, ?_⟩ <;> simp [spinExact, allSamples]
  · have h : weighted (spinExact θ) = [(1 - spinUp θ, 0), (spinUp θ, 1)] := rfl
    rw [h]
    constructor
    · simp [h1.le, h2.le]
    · intro s
      fin_cases s
      · simpa [weightOf] using h3
      · simp [weightOf, spinUp]

/-- The samples of a TDVP equation for this network. -/
noncomputable def spinData (a : ℝ) (e : Fin 2 → ℂ) : World (ℝ × (Fin 1 → ℂ) × (Fin 2 → ℂ)) :=
  [[[(1 - a, fun _ => e 0, ![0, 0]), (a, fun _ => e 1, ![1, Complex.I])]]]

theorem spin_exact_joint (O : Matrix (Fin 2) (Fin 2) ℂ) (θ : Fin 2 → ℝ) :
    tdvpJoint O (fun c => Complex.exp (spinLog θ c)) spinGrads (spinExact θ)
      = spinData (spinUp θ) (localValue O fun c => Complex.exp (spinLog θ c)) := by
  simp [tdvpJoint, spinExact, World.map, spinData, spinGrads]

theorem spinDataQS (a : ℝ) (e : Fin 2 → ℂ) : specQS spinRealTime (allSamples (spinData a e))
    = ((a * (1 - a) : ℝ) : ℂ) • !![0, Complex.I; -Complex.I, 0] := by
  have h : allSamples (spinData a e) = [(1 - a, fun _ => e 0, ![0, 0]), (a, fun _ => e 1, ![1, Complex.I])] := rfl
  rw [h]
  unfold specQS
  rw [if_neg (by norm_num [spinRealTime])]
  ext i j
  fin_cases i <;> fin_cases j <;> simp [specS, wCross, wMean, TdvpCfg.q, spinRealTime] <;> ring

theorem spin_data_input (a : ℝ) (h0 : 0 < a) (h1 : 0 < 1 - a) (e : Fin 2 → ℂ) :
    ∃ E G, TdvpInput (spinData a e) 0 E G := by
  refine tdvpInput_exists _ _ ?_ ?_ ?_
  · simp [spinData]
  · intro s hs
    simp [spinData, allSamples] at hs
    rcases hs with rfl | rfl
    · simpa using h1.le
    · exact h0.le
  · simp [spinData]

theorem spin_data_solve (a : ℝ) (h0 : 0 < a) (h1 : 0 < 1 - a) (e : Fin 2 → ℂ) {E : SObs (Fin 1)} {G : SObs (Fin 2)}
    (hi : TdvpInput (spinData a e) 0 E G) :
    ∃ res at₁ ρ, tdvpSolve spinRealTime 0 (some (E, G)) {} = .ok (res, at₁) ∧
      res.update = some fun i => ρ * ((!![0, Complex.I; -Complex.I, 0]
        *ᵥ specQF spinRealTime (allSamples (spinData a e))) i).re := by
  have heqn := getTdvpEquation_eq spinRealTime 0 _ hi.devices hi.weights hi.rank E G hi.data {}
  have hH := specQS_hermitian spinRealTime (allSamples (spinData a e))
  have hE : EighCorrect spinRealTime := someEigh_correct _ rfl
  obtain ⟨res, at₁, hres⟩ := c45_returns_partial spinRealTime (by norm_num [spinRealTime])
    (by norm_num [spinRealTime]) (by norm_num [spinRealTime]) 0 _ E G hi {}
  obtain ⟨hun, hdec, _⟩ := hE _ hH
  set S := specQS spinRealTime (allSamples (spinData a e)) with hS
  set F := specQF spinRealTime (allSamples (spinData a e)) with hF
  set V := (spinRealTime.eigh S).2 with hV
  set ev := (spinRealTime.eigh S).1 with hev
  set c := a * (1 - a) with hc
  have hc0 : 0 < c := mul_pos h0 h1
  have hSc : S = (c : ℂ) • !![0, Complex.I; -Complex.I, 0] := spinDataQS a e
  have hVV : V * Vᴴ = 1 := mul_eq_one_comm.mp hun
  have hSS : S * S = ((c ^ 2 : ℝ) : ℂ) • (1 : Matrix (Fin 2) (Fin 2) ℂ) := by
    rw [hSc]
    ext i j
    fin_cases i <;> fin_cases j <;> simp [Matrix.mul_apply, Fin.sum_univ_two] <;>
      linear_combination (-(c : ℂ) ^ 2) * Complex.I_sq
  have hev2 : ∀ k, ev k ^ 2 = c ^ 2 := by
    intro k
    have e1 : S * S * V = V * (Matrix.diagonal fun k => (ev k : ℂ)) * Matrix.diagonal fun k => (ev k : ℂ) := by
      rw [Matrix.mul_assoc, hdec, ← Matrix.mul_assoc, hdec]
    rw [hSS, Matrix.smul_mul, Matrix.one_mul] at e1
    have e2 := congrArg (fun M => Vᴴ * M) e1
    simp only [Matrix.mul_smul, hun, ← Matrix.mul_assoc, Matrix.one_mul] at e2
    have e3 := congrFun (congrFun e2 k) k
    rw [Matrix.diagonal_mul_diagonal, Matrix.diagonal_apply_eq, Matrix.smul_apply, Matrix.one_apply_eq, smul_eq_mul,
      mul_one] at e3
    have e4 : ((c ^ 2 : ℝ) : ℂ) = ((ev k * ev k : ℝ) : ℂ) := by rw [e3]; push_cast; rfl
    have := Complex.ofReal_injective e4
    linarith
  have habs : ∀ k, |ev k| = c := fun k => by
    have := (sq_eq_sq_iff_abs_eq_abs _ _).mp (hev2 k)
    rwa [abs_of_pos hc0] at this
  have hne : ∀ k, ev k ≠ 0 := fun k h => by
    have := habs k
    rw [h, abs_zero] at this
    exact hc0.ne this
  have hu := c45_formula spinRealTime 0 _ E G hi {} at₁ _ _ _ heqn res hres ev V rfl
    (hne _) (by norm_num [spinRealTime]) (fun _ => 0) (Or.inl rfl)
  refine ⟨res, at₁, 1 / (1 + (res.cutoff / 1) ^ 6) / c, hres, ?_⟩
  rw [hu]
  congr 1
  funext i
  set g := 1 / (1 + (res.cutoff / 1) ^ 6) with hg
  have hp : ∀ k, (if |ev k| / |ev (Fin.last 1)| > 1e-14 then 1 / ev k else 0)
      * (1 / (1 + (res.cutoff / (|ev k| / |ev (Fin.last 1)|)) ^ 6))
      * (if spinRealTime.isExact then (1 : ℝ) else 1 / (1 + (spinRealTime.snrTol / 0) ^ 6)) = g / c ^ 2 * ev k := by
    intro k
    rw [habs, habs, div_self hc0.ne', if_pos (by norm_num), if_pos (show spinRealTime.isExact = true from rfl), mul_one, ← hev2 k,
      ← hg]
    have := hne k
    field_simp
  simp only [hp]
  have hD : S = V * (Matrix.diagonal fun k => (ev k : ℂ)) * Vᴴ := by
    rw [← hdec, Matrix.mul_assoc, hVV, Matrix.mul_one]
  have e1 : ∑ k, V i k * ((g / c ^ 2 * ev k : ℝ) : ℂ) * ∑ j, (starRingEnd ℂ) (V j k) * F j
      = ((g / c ^ 2 : ℝ) : ℂ) * (S *ᵥ F) i := by
    rw [hD, ← Matrix.mulVec_mulVec, ← Matrix.mulVec_mulVec]
    simp only [Matrix.mulVec, dotProduct, Matrix.conjTranspose_apply, Finset.mul_sum]
    simp [Fin.sum_univ_two]
    ring
  rw [e1, Complex.re_ofReal_mul, hSc, Matrix.smul_mulVec, Pi.smul_apply, smul_eq_mul, Complex.re_ofReal_mul]
  field_simp

/-- A call of the TDVP object returns what `solve` returns. -/
theorem spin_call {kernel : Fin 2 → List (Fin 2 × ℂ)} {O : Matrix (Fin 2) (Fin 2) ℂ}
    (hop : OperatorOf kernel O) (hO : O.IsHermitian) (θ : Fin 2 → ℝ) {a : ℝ} {e : Fin 2 → ℂ}
    (ha : spinUp θ = a) (he : localValue O (fun c => Complex.exp (spinLog θ c)) = e)
    {E : SObs (Fin 1)} {G : SObs (Fin 2)} (hi : TdvpInput (spinData a e) 0 E G) {res : SolveRes 1} {atS : TdvpAttrs 1}
    (hres : tdvpSolve spinRealTime 0 (some (E, G)) {} = .ok (res, atS)) {u : Fin 2 → ℝ} (hu : res.update = some u) :
    RealTimeCall 0 kernel O spinLog (some 0) θ u ∧
      (wVar ((allSamples (spinData a e)).map fun s => (s.1, s.2.1)) 0 ≠ 0 →
        ∃ d E var, SampledReport 0 kernel O spinLog Complex.I θ u d E var) := by
  have hp : paramUnflatten (Params.real [[(0 : ℝ), 0]]).isReal (Params.real [[(0 : ℝ), 0]]).sizes (List.ofFn θ)
      = .ok (.real [[θ 0, θ 1]]) := by
    have := flattenParams_unflatten (.real [[θ 0, θ 1]])
    simpa [flattenParams, Params.isReal, Params.sizes] using this
  let env : TdvpEnv 1 Unit := ⟨fun _ _ _ => .ok (spinData a e, ())⟩
  have hinit : nqsRun (.real [[0, 0]]) [.eval] ≠ none :=
    (c25_initialised_iff _ _).mpr ⟨.eval, List.mem_singleton_self _, rfl⟩
  obtain ⟨u', at₁, hc⟩ := c44_returns env spinRealTime (by norm_num [spinRealTime]) (by norm_num [spinRealTime])
    (by norm_num [spinRealTime]) 0 (List.ofFn θ) 0 (some 0) () () {} (.real [[0, 0]]) [.eval]
    (by simp [NqsOp.Fits]) hinit _ hp (spinData a e) rfl hi.devices hi.weights hi.rank
  obtain ⟨st, hst⟩ := Option.ne_none_iff_exists'.mp hinit
  have hw := wf_run _ _ (by simp [NqsOp.Fits]) st hst
  rw [hst] at hc
  have hp' : paramUnflatten st.realParams st.sizes (List.ofFn θ) = .ok (.real [[θ 0, θ 1]]) := by
    rw [hw.1, hw.2.1]
    exact hp
  have huu : u' = some u := by
    obtain ⟨q, joint₂, E', G', res', atS', p', -, hm₂, hd, hs, -, -, -, hz⟩ :=
      tdvpCall_ok env spinRealTime 0 (List.ofFn θ) 0 (some 0) () () {} at₁ st (some st) u' hc
    obtain ⟨rfl, -⟩ := Prod.mk.inj (Except.ok.inj hm₂)
    obtain ⟨err, -, hf, -⟩ := hz rfl
    have h1 := hi.data
    obtain rfl : E' = E := Except.ok.inj (hd.1.symm.trans h1.1)
    obtain rfl : G' = G := Except.ok.inj (hd.2.symm.trans h1.2)
    rw [hres] at hs
    obtain ⟨rfl, -⟩ := Prod.mk.inj (Except.ok.inj hs)
    rw [(hf rfl).1, hu]
  rw [huu] at hc
  refine ⟨⟨Unit, env, spinRealTime, 0, 0, (), (), {}, at₁, st, some st, _, spinGrads, spinExact θ, 1, rfl, one_ne_zero,
    by simp [spinRealTime], hp', spin_exact_step hop hO θ, by simp [spinExact], by
      rw [spin_exact_joint, ha, he], hc⟩, fun hvar => ?_⟩
  have hv := call_variance env spinRealTime 0 (List.ofFn θ) 0 () () {} at₁ st (some st) _ _ hp' (spinData a e) rfl
    hi.devices hi.weights hi.rank hc
  obtain ⟨m, hm1, hm2⟩ := c46_metadata env spinRealTime (by simp [spinRealTime]) 0 (List.ofFn θ) 0 () () {} at₁ st
    (some st) u _ hp' (spinData a e) rfl hi.devices hi.weights hi.rank hvar hc
  exact ⟨_, _, _, Unit, env, spinRealTime, 0, 0, (), (), {}, at₁, st, some st, _, spinGrads, spinExact θ, m, rfl, hp',
    spin_exact_step hop hO θ, by simp [spinExact], by rw [spin_exact_joint, ha, he], hc, hm1, hm2, hv.1⟩

theorem spin_smooth : SmoothOn spinLog univ 2 0 := by
  have hf : ∀ (s : Fin 2) (θ : Fin 2 → ℝ), HasFDerivAt (fun p => spinLog p s)
      (LinearMap.toContinuousLinearMap (spinLinear s)) θ := fun s θ =>
    (LinearMap.toContinuousLinearMap (spinLinear s)).hasFDerivAt
  refine ⟨zero_le_two, le_rfl, fun θ _ s => (hf s θ).differentiableAt, ?_, ?_⟩
  · intro θ _ s v
    rw [(hf s θ).fderiv]
    change ‖spinLog v s‖ ≤ 2 * ‖v‖
    have h1 : ‖spinLog v s‖ ≤ ‖v 0‖ + ‖v 1‖ := by
      have h2 : ‖(v 0 : ℂ) + v 1 * Complex.I‖ ≤ ‖v 0‖ + ‖v 1‖ := by
        refine (norm_add_le _ _).trans (le_of_eq ?_)
        rw [norm_mul, Complex.norm_I, mul_one, Complex.norm_real, Complex.norm_real]
      unfold spinLog
      rw [norm_mul]
      fin_cases s
      · simp
        positivity
      · simpa using h2
    linarith [norm_le_pi_norm v 0, norm_le_pi_norm v 1]
  · intro θ _ θ' _ s v
    rw [(hf s θ).fderiv, (hf s θ').fderiv]
    simp

theorem spin_slow (T : ℝ) : SlowHamiltonian (fun _ => spinMatrix) T 2 0 := by
  refine ⟨le_rfl, fun _ _ => ?_, fun _ _ => ⟨zero_le_two, fun v => ?_⟩, fun _ _ _ _ _ => ?_⟩
  · ext i j
    fin_cases i <;> fin_cases j <;> simp [spinMatrix, Matrix.conjTranspose_apply]
  · unfold norm2 spinMatrix
    simp [Matrix.mulVec, dotProduct, Fin.sum_univ_two, Complex.normSq_apply]
    nlinarith [sq_nonneg (v 0).re, sq_nonneg (v 0).im, sq_nonneg (v 1).re, sq_nonneg (v 1).im]
  · rw [sub_self, zero_mul]
    exact ⟨le_rfl, fun v => by simp [norm2]⟩

/-- Case for `c112_rate`, `c112_step` and `c112_euler`: a spin in a tilted field, with the velocities that the calls
return. -/
example : ∃ f : (Fin 2 → ℝ) → Fin 2 → ℝ,
    (∀ θ, RealTimeCall 0 spinKernel spinMatrix spinLog (some 0) θ (f θ)) ∧
    ∀ (dt : ℝ) (_ : 0 ≤ dt) (θ₀ : Fin 2 → ℝ) (N : ℕ), ∃ V,
      |energyAt spinMatrix spinLog (eulerLoop dt (fun θ _ _ (s : Unit) => (f θ, s)) N 0 θ₀ ()).2.1
        - energyAt spinMatrix spinLog θ₀| ≤ N * dt * (dt * energyCurvature 2 2 0 V) := by
  have hcall : ∀ θ, ∃ u, RealTimeCall 0 spinKernel spinMatrix spinLog (some 0) θ u := by
    intro θ
    obtain ⟨h1, h2, -⟩ := spinUp_pos θ
    obtain ⟨E, G, hi⟩ := spin_data_input _ h1 h2 (localValue spinMatrix fun c => Complex.exp (spinLog θ c))
    obtain ⟨res, atS, ρ, hres, hu⟩ := spin_data_solve _ h1 h2 _ hi
    exact ⟨_, spin_call spin_operator ((spin_slow 0).hermitian 0 (by simp)) θ rfl rfl hi hres hu |>.1⟩
  choose f hf using hcall
  refine ⟨f, hf, fun dt hdt θ₀ N => ?_⟩
  set run := fun k => (eulerLoop dt (fun θ _ _ (s : Unit) => (f θ, s)) k 0 θ₀ ()).2.1 with hrun
  refine ⟨∑ k ∈ Finset.range N, ‖f (run k)‖, ?_⟩
  have := c112_euler (kernel := fun _ => spinKernel) spin_smooth convex_univ zero_le_one (spin_slow (N * dt)) dt hdt
    (fun θ _ _ (s : Unit) => (f θ, s)) θ₀ () (∑ k ∈ Finset.range N, ‖f (run k)‖) N le_rfl (fun _ _ => mem_univ _)
    (by
      intro k hk t θ s hr
      refine ⟨?_, hf θ⟩
      have : θ = run k := by rw [hrun]; simp only [hr]
      rw [this]
      exact Finset.single_le_sum (f := fun k => ‖f (run k)‖) (fun _ _ => norm_nonneg _) (Finset.mem_range.mpr hk))
    0 N (Nat.zero_le _) le_rfl
  simpa [driftRate, eulerLoop] using this

/-- A spin in a field along `z` that precesses in the `x`-`y` plane: there the velocities are the same everywhere. -/
theorem precession_solve : ∃ E G res atS x, TdvpInput (spinData (1 / 2) ![1, -1]) 0 E G ∧
    tdvpSolve spinRealTime 0 (some (E, G)) {} = .ok (res, atS) ∧ res.update = some ![0, x] ∧ ∀ θ : Fin 2 → ℝ, θ 0 = 0 →
    RealTimeCall 0 phaseKernel phaseMatrix spinLog (some 0) θ ![0, x] ∧
      ∃ d E var, SampledReport 0 phaseKernel phaseMatrix spinLog Complex.I θ ![0, x] d E var := by
  obtain ⟨E, G, hi⟩ := spin_data_input (1 / 2) (by norm_num) (by norm_num) ![1, -1]
  obtain ⟨res, atS, ρ, hres, hu⟩ := spin_data_solve (1 / 2) (by norm_num) (by norm_num) _ hi
  have hsamples : allSamples (spinData (1 / 2) ![1, -1])
      = [(1 / 2, fun _ => 1, ![0, 0]), (1 / 2, fun _ => -1, ![1, Complex.I])] := by
    change [(1 - 1 / 2, fun _ => (![1, -1] : Fin 2 → ℂ) 0, ![0, 0]), (1 / 2, fun _ => (![1, -1] : Fin 2 → ℂ) 1,
      ![1, Complex.I])] = _
    norm_num
  have hu' : (fun i => ρ * ((!![0, Complex.I; -Complex.I, 0]
      *ᵥ specQF spinRealTime (allSamples (spinData (1 / 2) ![1, -1]))) i).re)
      = ![0, ρ * ((!![0, Complex.I; -Complex.I, 0]
        *ᵥ specQF spinRealTime (allSamples (spinData (1 / 2) ![1, -1]))) 1).re] := by
    funext i
    fin_cases i
    · rw [hsamples]
      simp [Matrix.mulVec, dotProduct, Fin.sum_univ_two, specQF, specF, wCross, wMean, TdvpCfg.q, spinRealTime]
    · rfl
  rw [hu'] at hu
  refine ⟨E, G, res, atS, ρ * ((!![0, Complex.I; -Complex.I, 0]
    *ᵥ specQF spinRealTime (allSamples (spinData (1 / 2) ![1, -1]))) 1).re, hi, hres, hu, fun θ hθ => ?_⟩
  have hns : ∀ s, Complex.normSq (Complex.exp (spinLog θ s)) = 1 := by
    intro s
    rw [Complex.normSq_eq_norm_sq, Complex.norm_exp]
    have : (spinLog θ s).re = 0 := by
      fin_cases s <;> simp [spinLog, hθ]
    rw [this]
    simp
  have ha : spinUp θ = 1 / 2 := by
    unfold spinUp norm2
    simp [hns]
  have he : localValue phaseMatrix (fun c => Complex.exp (spinLog θ c)) = ![1, -1] := by
    have h0 : ∀ s : Fin 2, Complex.exp (spinLog θ s) ≠ 0 := fun s => Complex.exp_ne_zero _
    have h00 := h0 0
    have h01 := h0 1
    funext s
    unfold localValue phaseMatrix Matrix.mulVec dotProduct
    fin_cases s
    · simp [Fin.sum_univ_two, h00]
    · simp [Fin.sum_univ_two, h01]
  have h := spin_call phase_operator ((phase_slow 0).hermitian 0 (by simp)) θ ha he hi hres hu
  refine ⟨h.1, h.2 ?_⟩
  rw [hsamples]
  norm_num [wVar, wMean]

theorem precession : ∃ (x : ℝ), ∀ θ : Fin 2 → ℝ, θ 0 = 0 →
    RealTimeCall 0 phaseKernel phaseMatrix spinLog (some 0) θ ![0, x] ∧
      ∃ d E var, SampledReport 0 phaseKernel phaseMatrix spinLog Complex.I θ ![0, x] d E var := by
  obtain ⟨_, _, _, _, x, -, -, -, h⟩ := precession_solve
  exact ⟨x, h⟩

theorem precession_stays (x dt : ℝ) (N : ℕ) :
    (eulerLoop dt (fun _ _ _ (s : Unit) => ((![0, x] : Fin 2 → ℝ), s)) N 0 0 ()).2.1 0 = 0 := by
  induction N with
  | zero => rfl
  | succ N ih =>
    rw [eulerLoop_succ]
    simp [ih]

/-- Case for `c112_reported`. -/
example (dt : ℝ) (hdt : 0 ≤ dt) (N : ℕ) : ∃ (x : ℝ) (E : ℕ → ℂ),
    (∀ k < N, ∃ d var, SampledReport 0 phaseKernel phaseMatrix spinLog Complex.I
      (eulerLoop dt (fun _ _ _ (s : Unit) => ((![0, x] : Fin 2 → ℝ), s)) k 0 0 ()).2.1 ![0, x] d (E k) var) ∧
    ∀ l < N, |(E l).re - (E 0).re| ≤ l * dt * (dt * energyCurvature 1 2 0 ‖(![0, x] : Fin 2 → ℝ)‖) := by
  obtain ⟨x, h⟩ := precession
  choose d E var hrep using fun k : ℕ => (h _ (precession_stays x dt k)).2
  refine ⟨x, E, fun k _ => ⟨_, _, hrep k⟩, fun l hl => ?_⟩
  have := c112_reported (kernel := fun _ => phaseKernel) spin_smooth convex_univ zero_le_one (phase_slow (N * dt)) dt hdt
    (fun _ _ _ (s : Unit) => (![0, x], s)) 0 () ‖(![0, x] : Fin 2 → ℝ)‖ N le_rfl (fun _ _ => mem_univ _) Complex.I
    (by simp) d var E (by
      intro k hk t θ s hr
      have hθ : θ = (eulerLoop dt (fun _ _ _ (s : Unit) => ((![0, x] : Fin 2 → ℝ), s)) k 0 0 ()).2.1 := by rw [hr]
      refine ⟨le_rfl, (h θ (by rw [hθ]; exact precession_stays x dt k)).1, ?_⟩
      rw [hθ]
      exact hrep k) 0 l (Nat.zero_le _) hl
  simpa [driftRate] using this

theorem precession_solution (x T : ℝ) : IsSolution (fun _ _ => ![0, x]) (fun t : ℝ => t • (![0, x] : Fin 2 → ℝ)) 0 T :=
  fun t _ => by simpa using ((hasDerivAt_id t).smul_const (![0, x] : Fin 2 → ℝ)).hasDerivWithinAt

/-- Case for `c112_flow` and `c112_heun`. -/
example (dt : ℝ) (hdt : 0 ≤ dt) (N : ℕ) : ∃ x : ℝ,
    (∀ t : ℝ, RealTimeCall 0 phaseKernel phaseMatrix spinLog (some 0) (t • ![0, x]) ![0, x]) ∧
    (∀ t ∈ Icc (0 : ℝ) (N * dt), energyAt phaseMatrix spinLog (t • ![0, x])
      = energyAt phaseMatrix spinLog ((0 : ℝ) • ![0, x])) ∧
    |energyAt phaseMatrix spinLog (heunLoop dt (fun _ _ _ (s : Unit) => ((![0, x] : Fin 2 → ℝ), s)) N 0
        ((0 : ℝ) • ![0, x]) ()).2.1 - energyAt phaseMatrix spinLog ((0 : ℝ) • ![0, x])|
      ≤ 2 * 1 * (2 * accumulated (0 + dt * 0 ^ 2 / 2) (0 * (1 + dt * 0 / 2) + dt ^ 2 * ((0 * 0 + 0) / 2)) 0 (N * dt)) := by
  obtain ⟨x, h⟩ := precession
  have hx : ∀ t : ℝ, RealTimeCall 0 phaseKernel phaseMatrix spinLog (some 0) (t • ![0, x]) ![0, x] :=
    fun t => (h _ (by simp)).1
  have hM := (phase_slow 0).bound 0 (by simp)
  refine ⟨x, hx, c112_flow (precession_solution x _) fun t _ => ⟨_, hx t⟩, ?_⟩
  exact c112_heun (T := N * dt) spin_smooth convex_univ hM (precession_solution x _) (K := 0) (K' := 0) (L := 0) (R := 1)
    (ε := 0) ⟨le_rfl, by simp⟩ ⟨le_rfl, fun _ => 0, fun t _ => hasDerivWithinAt_const t _ _, by simp⟩ ⟨le_rfl, by simp⟩
    (f := fun _ _ _ (s : Unit) => (![0, x], s)) ⟨le_rfl, by simp⟩ (fun t _ => ⟨_, hx t⟩) dt hdt N le_rfl ()
    (by simp [accumulated]) (fun _ _ => mem_univ _)

/-- Case for `c112_adaptive`: the loop reaches every time. -/
example (T : ℝ) : ∃ (x : ℝ) (N : ℕ) (t' : ℝ) (x' : Fin 2 → ℝ) (obj' : AHeun) (w' : List (Fin 2 → ℝ) × Unit),
    ahLoop true (refRhs fun _ _ _ (s : Unit) => ((![0, x] : Fin 2 → ℝ), s)) (fun y => ‖y‖) N ⟨1e-3, 1e-8, 1⟩ 0
      ((0 : ℝ) • ![0, x]) ([], ()) = .ok (t', x', obj', w') ∧ T ≤ t' ∧
    |energyAt phaseMatrix spinLog x' - energyAt phaseMatrix spinLog ((0 : ℝ) • ![0, x])|
      ≤ 2 * 1 * (2 * accumulated (0 + 1 / 2 * 0 ^ 2 / 2) (0 * (1 + 1 / 2 * 0 / 2) + (1 / 2) ^ 2 * ((0 * 0 + 0) / 2)) 0 t') := by
  obtain ⟨x, h⟩ := precession
  have hx : ∀ t : ℝ, RealTimeCall 0 phaseKernel phaseMatrix spinLog (some 0) (t • ![0, x]) ![0, x] :=
    fun t => (h _ (by simp)).1
  have hM := (phase_slow 0).bound 0 (by simp)
  obtain ⟨N, t', x', obj', w', hr, ht⟩ := c96_adaptive_reaches true _
    (refRhs_computes true fun _ _ _ (s : Unit) => ((![0, x] : Fin 2 → ℝ), s))
    (fun y => ‖y‖) ⟨fun y => norm_nonneg y, fun y z => norm_add_le y z, fun c y => (norm_smul c y).le⟩
    ‖(![0, x] : Fin 2 → ℝ)‖ (fun _ _ _ _ => le_rfl) ⟨1e-3, 1e-8, 1⟩ (by norm_num) (by norm_num) (by norm_num) 0
    ((0 : ℝ) • ![0, x]) ([], ()) T
  refine ⟨x, N, t', x', obj', w', hr, ht, ?_⟩
  exact c112_adaptive (T := t') spin_smooth convex_univ hM (precession_solution x _) (K := 0) (K' := 0) (L := 0) (R := 1)
    (ε := 0) ⟨le_rfl, by simp⟩ ⟨le_rfl, fun _ => 0, fun t _ => hasDerivWithinAt_const t _ _, by simp⟩ ⟨le_rfl, by simp⟩
    (g := fun _ _ _ (s : Unit) => (![0, x], s)) ⟨le_rfl, by simp⟩ true _ (refRhs_computes _ _) (fun t _ => ⟨_, hx t⟩)
    (fun y => ‖y‖) (fun y => norm_nonneg y) ⟨1e-3, 1e-8, 1⟩ (by norm_num) (by norm_num) (by norm_num) ([], ())
    (by simp [accumulated]) N t' x' obj' w' hr le_rfl (mem_univ _) (mem_univ _)

end JVMC
