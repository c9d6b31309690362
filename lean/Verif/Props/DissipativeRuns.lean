import Mathlib.Analysis.SpecialFunctions.Trigonometric.InverseDeriv
import Verif.Lemmas.DissipativeRuns
import Verif.Props.EvolutionRuns
import Verif.Props.ProductState

/-!
# C118: accuracy of a whole dissipative time evolution, including the time steps

The network is real and stands for a distribution of outcomes, `rhsPrefactor=-1`, and `A` is the matrix of the
rate equation `dP/dt = A P` (for a `POVMOperator`: of the master equation, C101). `eulerLoop`, `heunLoop` and
`ahLoop` are the time evolution loops of the examples.
-/

namespace JVMC

open Spec Matrix Set

section

variable {n : ℕ} {C σ : Type} [Fintype C] [DecidableEq C] {kernel : C → List (C × ℂ)} {A : Matrix C C ℝ}
  {logP : (Fin (n + 1) → ℝ) → C → ℝ} {D : Set (Fin (n + 1) → ℝ)} {G Λ M K T ε : ℝ}

/-- `MasterStep` with samples of relative error `ε`. -/
structure SampledMasterStep (ε : ℝ) (kernel : C → List (C × ℂ)) (A : Matrix C C ℝ)
    (logP : (Fin (n + 1) → ℝ) → C → ℝ) (θ : Fin (n + 1) → ℝ) (grads : C → Fin (n + 1) → ℂ)
    (w : World (C × ℂ × ℝ)) : Prop where
  operator : OperatorOf kernel (A.map Complex.ofReal)
  conserves : Conserves A
  differentiable : ∀ s, DifferentiableAt ℝ (fun p => logP p s) θ
  gradients : ∀ s k, grads s k = ((fderiv ℝ (fun p => logP p s) θ (Pi.single k 1) : ℝ) : ℂ)
  samples : SamplesOf (fun c => (logP θ c : ℂ)) w
  weights : NearDistribution ε (distribution (logP θ)) (weighted w)

/-- A call of a `TDVP` object with `intStep=0` and `rhsPrefactor=-1` for the parameters `θ`, with samples of
relative error `ε`: it returned the velocities `u`; afterwards `"tdvp_error"` in its metadata is `d` and
`ElocVar0` is `var`. Everything else is arbitrary, as in `RateReport`. -/
def SampledRateReport (ε : ℝ) (kernel : C → List (C × ℂ)) (A : Matrix C C ℝ)
    (logP : (Fin (n + 1) → ℝ) → C → ℝ) (θ u : Fin (n + 1) → ℝ) (d var : ℝ) : Prop :=
  ∃ (smp : Type) (env : TdvpEnv n smp) (cfg : TdvpCfg n) (r : ℕ) (time : ℝ) (sm sm' : smp)
    (at₀ at₁ : TdvpAttrs n) (st : NqsInit) (st' : NqsState) (p : Params)
    (grads : C → Fin (n + 1) → ℂ) (w : World (C × ℂ × ℝ)) (m : TdvpMeta n) (E : ℂ),
    cfg.rhsPrefactor = -1 ∧ paramUnflatten st.realParams st.sizes (List.ofFn θ) = .ok p ∧
    SampledMasterStep ε kernel A logP θ grads w ∧ r < List.length w ∧
    env.measure p sm time = .ok (tdvpJoint (A.map Complex.ofReal)
      (fun c => Complex.exp (logP θ c)) grads w, sm') ∧
    (tdvpCall env cfg r (List.ofFn θ) time (some 0) sm at₀).call (some st)
      = (.ok (some u, at₁, sm'), st') ∧
    at₁.metaData = some m ∧ m.tdvpError = some d ∧ at₁.eloc0 = some (some (E, var))

/-- Exactly weighted samples have relative error `0`, hence any `ε ≥ 0`. -/
theorem rateReport_sampled [Nonempty C] {θ u : Fin (n + 1) → ℝ} {d var : ℝ} (hε : 0 ≤ ε)
    (h : RateReport kernel A logP θ u d var) : SampledRateReport ε kernel A logP θ u d var := by
  obtain ⟨smp, env, cfg, r, time, sm, sm', at₀, at₁, st, st', p, grads, w, m, E, hpre, hp, hst, rest⟩ := h
  refine ⟨smp, env, cfg, r, time, sm, sm', at₀, at₁, st, st', p, grads, w, m, E, hpre, hp,
    ⟨hst.operator, hst.conserves, hst.differentiable, hst.gradients, hst.samples, ⟨hst.weights.nonneg, ?_, ?_⟩⟩,
    rest⟩
  · rw [← sum_weightOf]
    simp only [hst.weights.exact, distribution_total]
  · intro s
    rw [hst.weights.exact, sub_self, abs_zero]
    exact mul_nonneg hε (distribution_pos _ s).le

/-- The variance of the local quantities is the distance from the rate equation. -/
theorem qvar_rate [Nonempty C] {θ : Fin (n + 1) → ℝ} {grads : C → Fin (n + 1) → ℂ} {w : World (C × ℂ × ℝ)}
    (hst : SampledMasterStep ε kernel A logP θ grads w) (v : Fin (n + 1) → ℝ) :
    qvar (distribution (logP θ))
        (velocityOf (A.map Complex.ofReal) (fun c => Complex.exp (logP θ c)) grads (-1) v)
      = fisherLength (distribution (logP θ)) fun s => probVelocity logP θ v s
        - (A *ᵥ distribution (logP θ)) s := by
  set p := distribution (logP θ) with hp
  have hpos : ∀ s, 0 < p s := fun s => distribution_pos _ s
  set f : C → ℝ := fun s => fderiv ℝ (fun p => logP p s) θ v with hf
  have hv : ∀ s, velocityOf (A.map Complex.ofReal) (fun c => Complex.exp (logP θ c)) grads (-1) v s
      = ((f s - (A *ᵥ p) s / p s : ℝ) : ℂ) := by
    intro s
    unfold velocityOf
    rw [localValue_rate]
    have e : v = ∑ k, v k • (Pi.single k (1 : ℝ) : Fin (n + 1) → ℝ) := by
      funext i
      simp [Finset.sum_apply, Pi.single_apply]
    have h1 : ∑ k, (v k : ℂ) * grads s k = ((f s : ℝ) : ℂ) := by
      rw [hf]
      beta_reduce
      conv_rhs => rw [e]
      rw [map_sum, Complex.ofReal_sum]
      refine Finset.sum_congr rfl fun k _ => ?_
      rw [map_smul, hst.gradients s k]
      simp
    rw [h1]
    push_cast
    ring
  have hmean : ∑ s, (p s : ℂ) * velocityOf (A.map Complex.ofReal) (fun c => Complex.exp (logP θ c)) grads (-1) v s
      = ((∑ c, p c * f c : ℝ) : ℂ) := by
    have h1 : ∀ s, (p s : ℂ) * velocityOf (A.map Complex.ofReal) (fun c => Complex.exp (logP θ c)) grads (-1) v s
        = ((p s * f s - (A *ᵥ p) s : ℝ) : ℂ) := by
      intro s
      rw [hv s, ← Complex.ofReal_mul, mul_sub, mul_div_cancel₀ _ (hpos s).ne']
    simp only [h1]
    rw [← Complex.ofReal_sum, Finset.sum_sub_distrib, conserves_total hst.conserves, sub_zero]
  unfold qvar fisherLength
  rw [hmean]
  refine Finset.sum_congr rfl fun s _ => ?_
  rw [hv s, ← Complex.ofReal_sub, Complex.normSq_ofReal]
  beta_reduce
  rw [probVelocity_fderiv hst.differentiable, ← hp]
  have := (hpos s).ne'
  change _ = (p s * (f s - ∑ c, p c * f c) - (A *ᵥ p) s) ^ 2 / p s
  field_simp
  ring

/-- C118 for the numbers reported after a call: `tdvp_error * ElocVar0` is the squared distance of the
distribution moving with the returned velocities from the rate equation, up to the factor `1 ± ε`. -/
theorem c118_reported [Nonempty C] {θ u : Fin (n + 1) → ℝ} {d var : ℝ} (hε : ε ≤ 1)
    (h : SampledRateReport ε kernel A logP θ u d var) :
    (1 - ε) * fisherLength (distribution (logP θ)) (fun s => probVelocity logP θ u s
      - (A *ᵥ distribution (logP θ)) s) ≤ d * var ∧
    d * var ≤ (1 + ε) * fisherLength (distribution (logP θ)) (fun s => probVelocity logP θ u s
      - (A *ᵥ distribution (logP θ)) s) := by
  obtain ⟨smp, env, cfg, r, time, sm, sm', at₀, at₁, st, st', p, grads, w, m, E, hpre, hp, hst, hr, hm,
    hcall, hmeta, herr, hel⟩ := h
  set joint := tdvpJoint (A.map Complex.ofReal) (fun c => Complex.exp (logP θ c)) grads w with hj
  have h1 : ∀ rk ∈ joint, rk ≠ [] := World.map_ne _ _ hst.samples.devices
  have h2 : ∀ s ∈ allSamples joint, 0 ≤ s.1 := by
    intro s hs
    rw [hj] at hs
    unfold tdvpJoint at hs
    rw [allSamples_wmap] at hs
    obtain ⟨y, hy, rfl⟩ := List.mem_map.mp hs
    exact hst.weights.nonneg (y.2.2, y.1) (List.mem_map.mpr ⟨y, hy, rfl⟩)
  have h3 : r < List.length joint := by simpa [hj, tdvpJoint, World.map] using hr
  obtain ⟨hv, hnan⟩ := call_variance env cfg r _ time sm sm' at₀ at₁ st st' _ p hp joint hm h1 h2 h3 hcall
  rw [hel] at hv
  have hvar : var = wVar ((allSamples joint).map fun s => (s.1, s.2.1)) 0 :=
    congrArg Prod.snd (Option.some.inj (Option.some.inj hv))
  by_cases h0 : wVar ((allSamples joint).map fun s => (s.1, s.2.1)) 0 = 0
  · obtain ⟨m', hm', hd'⟩ := hnan h0
    rw [hmeta] at hm'
    obtain rfl := Option.some.inj hm'
    rw [herr] at hd'
    cases hd'
  · obtain ⟨m', hm', hd'⟩ := c46_metadata env cfg (by rw [hpre]; simp) r _ time sm sm' at₀ at₁ st st' u p
      hp joint hm h1 h2 h3 h0 hcall
    rw [hmeta] at hm'
    obtain rfl := Option.some.inj hm'
    rw [herr] at hd'
    rw [Option.some.inj hd', hvar, div_mul_cancel₀ _ h0, hpre, hj, distance_weights, ← qvar_rate hst u]
    exact qvar_near _ _ (distribution_total _) (by rw [sum_weightOf, hst.weights.total]) ε hε hst.weights.near _

/-- The squared distance from the rate equation is at most `tdvp_error * ElocVar0 / (1 - ε)`. -/
theorem reported_error [Nonempty C] {θ u : Fin (n + 1) → ℝ} {d var : ℝ} (hε : ε < 1)
    (h : SampledRateReport ε kernel A logP θ u d var) :
    fisherLength (distribution (logP θ)) (fun s => probVelocity logP θ u s
      - (A *ᵥ distribution (logP θ)) s) ≤ √(d * var / (1 - ε)) ^ 2 := by
  have hpos : 0 < 1 - ε := by linarith
  have h1 := (c118_reported hε.le h).1
  have h2 : 0 ≤ d * var := by
    refine le_trans (mul_nonneg hpos.le ?_) h1
    exact Finset.sum_nonneg fun s _ => div_nonneg (sq_nonneg _) (distribution_pos _ s).le
  rw [Real.sq_sqrt (div_nonneg h2 hpos.le), le_div_iff₀ hpos, mul_comm]
  exact h1

/-- C118: distances between solutions of a rate equation with transition rates `≥ 0` do not grow; in general they
grow at most at the rate of the largest column sum of `|A|`. -/
theorem c118_growth (A : Matrix C C ℝ) :
    (Conserves A → (∀ s s', s ≠ s' → 0 ≤ A s s') → GrowthAtMost A 0) ∧
    ∀ M, (∀ s', ∑ s, |A s s'| ≤ M) → GrowthAtMost A M := by
  refine ⟨fun hA hp s' => ?_, fun M hM s' => ?_⟩
  · have h := hA s'
    rw [← Finset.add_sum_erase _ _ (Finset.mem_univ s')] at h
    refine le_of_eq (Eq.trans ?_ h)
    congr 1
    exact Finset.sum_congr rfl fun s hs => abs_of_nonneg (hp s s' (Finset.ne_of_mem_erase hs))
  · refine le_trans ?_ (hM s')
    rw [← Finset.add_sum_erase _ _ (Finset.mem_univ s')]
    exact add_le_add (le_abs_self _) le_rfl

/-- C118 for `Euler`: after `N` steps with TDVP velocities from samples of relative error `ε` (`0`: exact), and
whatever the regularisation, the distance of the distribution of the network from the solution `q` of the rate
equation is at most the initial one plus the sum of `dt √(tdvp_error * ElocVar0 / (1 - ε))` over the steps, up to
a discretisation error of first order in `dt`, times the growth `e^{K t}` of distances. -/
theorem c118_euler [Nonempty C] (hs : SmoothLog logP D G Λ) (hD : Convex ℝ D) (hK : GrowthAtMost A K)
    (hK0 : 0 ≤ K) (hM : ∀ s', ∑ s, |A s s'| ≤ M) (q : ℝ → C → ℝ) (hq : RateSolution A q T) (hε : ε < 1)
    (dt : ℝ) (hdt : 0 ≤ dt) (f : VRhs (Fin (n + 1) → ℝ) σ) (θ₀ : Fin (n + 1) → ℝ) (s₀ : σ) (V : ℝ)
    (d var : ℕ → ℝ) (N : ℕ) (hN : N * dt ≤ T) (hin : ∀ k ≤ N, (eulerLoop dt f k 0 θ₀ s₀).2.1 ∈ D)
    (hcall : ∀ k < N, ∀ t θ s, eulerLoop dt f k 0 θ₀ s₀ = (t, θ, s) → ‖(f θ t 0 s).1‖ ≤ V ∧
      SampledRateReport ε kernel A logP θ (f θ t 0 s).1 (d k) (var k)) :
    l1Distance (distribution (logP (eulerLoop dt f N 0 θ₀ s₀).2.1)) (q (N * dt))
      ≤ Real.exp (K * (N * dt)) * (l1Distance (distribution (logP θ₀)) (q 0)
        + ∑ k ∈ Finset.range N, dt * √(d k * var k / (1 - ε))
        + N * dt * (dt * (Λ * V ^ 2 + 3 * (G * V) ^ 2 + M * (G * V)))) := by
  induction N with
  | zero => simp [eulerLoop]
  | succ N ih =>
    push_cast at hN
    have h1 := ih (by linarith) (fun k hk => hin k (by omega)) (fun k hk => hcall k (by omega))
    obtain ⟨hV, hrep⟩ := hcall N (by omega) _ _ _ rfl
    have ht := eulerLoop_time dt f N 0 θ₀ s₀
    rw [zero_add] at ht
    have hnext := hin (N + 1) le_rfl
    rw [eulerLoop_succ] at hnext ⊢
    have h2 := rate_step hs hD hK hK0 hM hq (t := N * dt) (by positivity) hdt (by linarith)
      (hin N (by omega)) hnext hV (reported_error hε hrep) (Real.sqrt_nonneg _)
    have e1 : ((N + 1 : ℕ) : ℝ) * dt = N * dt + dt := by push_cast; ring
    have hV0 : 0 ≤ V := (norm_nonneg _).trans hV
    obtain ⟨c₀⟩ := ‹Nonempty C›
    have hM0 : 0 ≤ M := (Finset.sum_nonneg fun _ _ => abs_nonneg _).trans (hM c₀)
    have hc : 0 ≤ Λ * V ^ 2 + 3 * (G * V) ^ 2 + M * (G * V) := by
      have := hs.rate_nonneg
      have := hs.bound_nonneg
      positivity
    rw [e1, Finset.sum_range_succ]
    refine h2.trans ?_
    have hE : 1 ≤ Real.exp (K * (N * dt)) := Real.one_le_exp (by positivity)
    have hx : 0 ≤ dt * (√(d N * var N / (1 - ε)) + dt * (Λ * V ^ 2 + 3 * (G * V) ^ 2 + M * (G * V))) := by
      have := Real.sqrt_nonneg (d N * var N / (1 - ε))
      positivity
    rw [mul_add K, Real.exp_add, mul_comm (Real.exp (K * (N * dt))), mul_assoc]
    refine mul_le_mul_of_nonneg_left ?_ (Real.exp_pos _).le
    nlinarith [mul_le_mul_of_nonneg_right hE hx]

/-- C118 for continuous trajectories: the same without discretisation error; `B` is the integral of the reported
errors. -/
theorem c118_trajectory [Nonempty C] (hK : GrowthAtMost A K) (hK0 : 0 ≤ K) (hT : 0 ≤ T) (hε : ε < 1)
    (θ u : ℝ → Fin (n + 1) → ℝ) (d var : ℝ → ℝ)
    (hθ : ∀ t ∈ Icc 0 T, HasDerivWithinAt θ (u t) (Icc 0 T) t)
    (hcall : ∀ t ∈ Icc 0 T, SampledRateReport ε kernel A logP (θ t) (u t) (d t) (var t))
    (B : ℝ → ℝ) (hB : ∀ t ∈ Icc 0 T, HasDerivWithinAt B (√(d t * var t / (1 - ε))) (Icc 0 T) t)
    (q : ℝ → C → ℝ) (hq : RateSolution A q T) :
    l1Distance (distribution (logP (θ T))) (q T)
      ≤ Real.exp (K * T) * (l1Distance (distribution (logP (θ 0))) (q 0) + (B T - B 0)) := by
  have hdiff : ∀ t ∈ Icc 0 T, ∀ s, DifferentiableAt ℝ (fun p => logP p s) (θ t) := by
    intro t ht
    obtain ⟨_, _, _, _, _, _, _, _, _, _, _, _, _, _, _, _, _, _, hst, _⟩ := hcall t ht
    exact hst.differentiable
  refine l1_growth hK hK0 hT (e := fun t s => distribution (logP (θ t)) s - q t s)
    (e' := fun t s => probVelocity logP (θ t) (u t) s - (A *ᵥ q t) s) ?_ ?_ hB
  · intro t ht s
    have h1 := distribution_deriv (logP := logP) (hθ t ht) (hdiff t ht) s
    rw [← probVelocity_fderiv (hdiff t ht)] at h1
    exact h1.fun_sub (hq t ht s)
  · intro t ht
    refine le_trans (le_of_eq ?_) ((l1_fisher (distribution (logP (θ t))) _ (fun s => distribution_pos _ s)
      (distribution_total _)).trans (Real.sqrt_le_iff.mpr ⟨Real.sqrt_nonneg _, reported_error hε (hcall t ht)⟩))
    refine Finset.sum_congr rfl fun s _ => ?_
    have f1 : (fun s => distribution (logP (θ t)) s - q t s) = distribution (logP (θ t)) - q t := rfl
    rw [f1, Matrix.mulVec_sub]
    simp only [Pi.sub_apply]
    congr 1
    ring

omit [DecidableEq C] in
/-- Parameters close to each other, for distributions. -/
theorem l1_params [Nonempty C] (hs : SmoothLog logP D G Λ) (hD : Convex ℝ D) (χ : C → ℝ)
    {θ θ' : Fin (n + 1) → ℝ} (hθ : θ ∈ D) (hθ' : θ' ∈ D) {δ : ℝ} (hδ : ‖θ' - θ‖ ≤ δ) :
    l1Distance (distribution (logP θ')) χ ≤ l1Distance (distribution (logP θ)) χ + 2 * G * δ := by
  have h := prob_moves hs hD (u := θ' - θ) zero_le_one hθ (by simpa using hθ') hδ
  rw [one_smul, add_sub_cancel] at h
  have h2 : l1Distance (distribution (logP θ')) χ ≤ l1Distance (distribution (logP θ')) (distribution (logP θ))
      + l1Distance (distribution (logP θ)) χ := by
    unfold l1Distance
    rw [← Finset.sum_add_distrib]
    exact Finset.sum_le_sum fun s _ => abs_sub_le _ _ _
  linarith

omit [Fintype C] [DecidableEq C] in
theorem rateSolution_mono [Fintype C] {q : ℝ → C → ℝ} {t : ℝ} (h : RateSolution A q T) (ht : t ≤ T) :
    RateSolution A q t :=
  fun τ hτ s => (h τ ⟨hτ.1, hτ.2.trans ht⟩ s).mono (Icc_subset_Icc_right ht)

/-- Parameters `x` close to the solution of the TDVP equation. -/
theorem near_rate_flow [Nonempty C] (hs : SmoothLog logP D G Λ) (hD : Convex ℝ D) (hK : GrowthAtMost A K)
    (hK0 : 0 ≤ K) (hε : ε < 1) {F : (Fin (n + 1) → ℝ) → ℝ → Fin (n + 1) → ℝ} {y : ℝ → Fin (n + 1) → ℝ}
    (hy : IsSolution F y 0 T) (d var : ℝ → ℝ)
    (hcall : ∀ t ∈ Icc 0 T, SampledRateReport ε kernel A logP (y t) (F (y t) t) (d t) (var t))
    (B : ℝ → ℝ) (hB : ∀ t ∈ Icc 0 T, HasDerivWithinAt B (√(d t * var t / (1 - ε))) (Icc 0 T) t)
    (q : ℝ → C → ℝ) (hq : RateSolution A q T)
    {t : ℝ} (ht : t ∈ Icc 0 T) {x : Fin (n + 1) → ℝ} (hxD : x ∈ D) (hyD : y t ∈ D) {δ : ℝ} (hx : ‖x - y t‖ ≤ δ) :
    l1Distance (distribution (logP x)) (q t)
      ≤ Real.exp (K * t) * (l1Distance (distribution (logP (y 0))) (q 0) + (B t - B 0)) + 2 * G * δ := by
  have hsub : Icc 0 t ⊆ Icc 0 T := Icc_subset_Icc_right ht.2
  have h1 := c118_trajectory hK hK0 ht.1 hε y (fun t => F (y t) t) d var
    (fun τ hτ => (hy τ (hsub hτ)).mono hsub) (fun τ hτ => hcall τ (hsub hτ)) B
    (fun τ hτ => (hB τ (hsub hτ)).mono hsub) q (rateSolution_mono hq ht.2)
  have h2 := l1_params hs hD (q t) hyD hxD hx
  linarith

/-- C118 for `Heun`: the distance is at most what the TDVP errors along the solution `y` of the TDVP equation
amount to, plus a discretisation error of second order in `dt` (C96). -/
theorem c118_heun [Nonempty C] (hs : SmoothLog logP D G Λ) (hD : Convex ℝ D) (hK : GrowthAtMost A K)
    (hK0 : 0 ≤ K) (hε : ε < 1) (q : ℝ → C → ℝ) (hq : RateSolution A q T)
    {F : (Fin (n + 1) → ℝ) → ℝ → Fin (n + 1) → ℝ} {y : ℝ → Fin (n + 1) → ℝ} (hy : IsSolution F y 0 T)
    {J J' L R η : ℝ} (hJ : SlowVelocity F y 0 T J) (hJ' : SlowAcceleration F y 0 T J')
    (hL : LipschitzNear F y 0 T R L) {f : VRhs (Fin (n + 1) → ℝ) σ} (hf : EvaluatesNear f F y 0 T R η)
    (d var : ℝ → ℝ)
    (hcall : ∀ t ∈ Icc 0 T, SampledRateReport ε kernel A logP (y t) (F (y t) t) (d t) (var t))
    (B : ℝ → ℝ) (hB : ∀ t ∈ Icc 0 T, HasDerivWithinAt B (√(d t * var t / (1 - ε))) (Icc 0 T) t)
    (dt : ℝ) (hdt : 0 ≤ dt) (N : ℕ) (hN : N * dt ≤ T) (s : σ)
    (hR : (1 + dt * L) * accumulated (L + dt * L ^ 2 / 2)
      (η * (1 + dt * L / 2) + dt ^ 2 * ((L * J + J') / 2)) 0 (N * dt) + dt * (η + J * dt) ≤ R)
    (hin : ∀ x, ‖x - y (N * dt)‖ ≤ R → x ∈ D) :
    (heunLoop dt f N 0 (y 0) s).1 = N * dt ∧
    l1Distance (distribution (logP (heunLoop dt f N 0 (y 0) s).2.1)) (q (N * dt))
      ≤ Real.exp (K * (N * dt)) * (l1Distance (distribution (logP (y 0))) (q 0) + (B (N * dt) - B 0))
        + 2 * G * accumulated (L + dt * L ^ 2 / 2)
          (η * (1 + dt * L / 2) + dt ^ 2 * ((L * J + J') / 2)) 0 (N * dt) := by
  have h1 := c96_heun hy hJ hJ' hL hf dt hdt N (by rw [zero_add]; exact hN) (y 0) s
    (by rw [sub_self, norm_zero]; exact hR)
  rw [sub_self, norm_zero, zero_add] at h1
  have hacc : 0 ≤ accumulated (L + dt * L ^ 2 / 2) (η * (1 + dt * L / 2) + dt ^ 2 * ((L * J + J') / 2)) 0
      (N * dt) := (norm_nonneg _).trans h1.2
  have hdL : 0 ≤ dt * L := mul_nonneg hdt hL.1
  have hR0 : accumulated (L + dt * L ^ 2 / 2) (η * (1 + dt * L / 2) + dt ^ 2 * ((L * J + J') / 2)) 0
      (N * dt) ≤ R := by
    have hr : 0 ≤ dt * (η + J * dt) := mul_nonneg hdt (add_nonneg hf.1 (mul_nonneg hJ.1 hdt))
    nlinarith [mul_nonneg hdL hacc]
  refine ⟨h1.1, near_rate_flow hs hD hK hK0 hε hy d var hcall B hB q hq ⟨by positivity, hN⟩
    (hin _ (h1.2.trans hR0)) (hin _ ?_) h1.2⟩
  rw [sub_self, norm_zero]
  exact hacc.trans hR0

/-- C118 for `AdaptiveHeun`, whatever time steps are chosen. -/
theorem c118_adaptive [Nonempty C] (hs : SmoothLog logP D G Λ) (hD : Convex ℝ D) (hK : GrowthAtMost A K)
    (hK0 : 0 ≤ K) (hε : ε < 1) (q : ℝ → C → ℝ) (hq : RateSolution A q T)
    {F : (Fin (n + 1) → ℝ) → ℝ → Fin (n + 1) → ℝ} {y : ℝ → Fin (n + 1) → ℝ} (hy : IsSolution F y 0 T)
    {J J' L R η : ℝ} (hJ : SlowVelocity F y 0 T J) (hJ' : SlowAcceleration F y 0 T J')
    (hL : LipschitzNear F y 0 T R L) {g : VRhs (Fin (n + 1) → ℝ) σ} (hg : EvaluatesNear g F y 0 T R η)
    (inplace : Bool) (f : RRhs (Fin (n + 1) → ℝ) σ) (hf : Computes inplace f g)
    (d var : ℝ → ℝ)
    (hcall : ∀ t ∈ Icc 0 T, SampledRateReport ε kernel A logP (y t) (F (y t) t) (d t) (var t))
    (B : ℝ → ℝ) (hB : ∀ t ∈ Icc 0 T, HasDerivWithinAt B (√(d t * var t / (1 - ε))) (Icc 0 T) t)
    (norm : (Fin (n + 1) → ℝ) → ℝ) (hnorm : ∀ x, 0 ≤ norm x) (obj : AHeun) (htol : 0 < obj.tolerance)
    (hdt : 0 < obj.dt) (hle : obj.dt ≤ obj.maxStep) (w : List (Fin (n + 1) → ℝ) × σ)
    (hR : (1 + obj.maxStep / 2 * L) * accumulated (L + obj.maxStep / 2 * L ^ 2 / 2)
      (η * (1 + obj.maxStep / 2 * L / 2) + (obj.maxStep / 2) ^ 2 * ((L * J + J') / 2)) 0 T
        + obj.maxStep / 2 * (η + J * (obj.maxStep / 2)) ≤ R)
    (N : ℕ) (t' : ℝ) (x' : Fin (n + 1) → ℝ) (obj' : AHeun) (w' : List (Fin (n + 1) → ℝ) × σ)
    (hres : ahLoop inplace f norm N obj 0 (y 0) w = .ok (t', x', obj', w')) (hT : t' ≤ T)
    (hxD : x' ∈ D) (hyD : y t' ∈ D) :
    l1Distance (distribution (logP x')) (q t')
      ≤ Real.exp (K * t') * (l1Distance (distribution (logP (y 0))) (q 0) + (B t' - B 0))
        + 2 * G * accumulated (L + obj.maxStep / 2 * L ^ 2 / 2)
          (η * (1 + obj.maxStep / 2 * L / 2) + (obj.maxStep / 2) ^ 2 * ((L * J + J') / 2)) 0 t' := by
  have h1 := c96_adaptive hy hJ hJ' hL hg inplace f hf norm hnorm obj htol hdt hle (y 0) w
    (by rw [sub_self, norm_zero, sub_zero]; exact hR) N t' x' obj' w' hres hT
  rw [sub_self, norm_zero, sub_zero] at h1
  exact near_rate_flow hs hD hK hK0 hε hy d var hcall B hB q hq ⟨h1.1, hT⟩ hxD hyD h1.2

omit [DecidableEq C] in
/-- C118: averages of functions bounded by `B` differ by at most `B` times the distance. -/
theorem c118_average (p q f : C → ℝ) (B : ℝ) (hB : ∀ s, |f s| ≤ B) :
    |outcomeMean p f - outcomeMean q f| ≤ B * l1Distance p q := by
  unfold outcomeMean l1Distance
  rw [← Finset.sum_sub_distrib, Finset.mul_sum]
  refine (Finset.abs_sum_le_sum_abs _ _).trans (Finset.sum_le_sum fun s _ => ?_)
  rw [← sub_mul, abs_mul, mul_comm]
  exact mul_le_mul_of_nonneg_right (hB s) (abs_nonneg _)

end

/-- C118 for measurements, on any number of ranks with one device each: if the distribution of the network is at
distance at most `δ` from that of the outcomes in the state `ρ`, then for every Pauli matrix `measure_povm` with exactly
weighted samples reports the site average of its expectation values in `ρ` up to `3δ`, and what it reports at a
non-zero distance is the site average of the products minus the squared mean, up to `9δ`. Missing: several devices
per rank; distance zero (see `c69_zero_distance_violated`). -/
theorem c118_measured_partial {L : ℕ} [NeZero L] (θ φ : ℝ) (M : Fin 4 → Matrix (Fin 2) (Fin 2) ℂ)
    (hM : getM θ φ "SIC" = .ok M) (ρ : Matrix (Fin L → Fin 2) (Fin L → Fin 2) ℂ) (hρ : ρ.IsHermitian)
    (logP : (Fin L → Fin 4) → ℝ) (δ : ℝ)
    (hδ : l1Distance (distribution logP) (fun s => (outcomeProb (productPovm M) ρ s).re) ≤ δ)
    (w : World ((Fin L → Fin 4) × ℂ × ℝ)) (hdev : ∀ r ∈ w, r.length = 1)
    (hw : ExactWeights (distribution logP) (weighted w)) (n : Option ℕ) (k : Fin 3) :
    let o := matrixToPovmObs (getPaulis k) M (povmTInv M)
    ∃ res cs, measurePovm n (observedWorld (fun s => (evaluateObservable1D o s).1) w)
        (List.ofFn fun d : Fin L => observedWorld (fun s => (evaluateObservable1D o s).2 d) w) = .ok (res, cs) ∧
      res.length = List.length w ∧
      (∀ r ∈ res, ‖(r.mean : ℂ) - (∑ i, (ρ * oneSite (getPaulis k) i).trace) / L‖ ≤ 3 * δ) ∧
      cs.length = L ∧ ∀ d : Fin L, d ≠ 0 → ∀ c, cs[d.val]? = some c → c.length = List.length w ∧
        ∀ r ∈ res, ∀ r' ∈ c, ‖((r'.mean + r.mean ^ 2 : ℝ) : ℂ)
          - (∑ i, (ρ * (oneSite (getPaulis k) i * oneSite (getPaulis k) (i - d))).trace) / L‖ ≤ 9 * δ := by
  intro o
  obtain ⟨M', hM', hP, hH, hc, hT⟩ := sic_hypotheses θ φ
  obtain rfl := Except.ok.inj (hM'.symm.trans hM)
  have hMe : M' = fun a => blochElement (povmVectors θ φ a) := by
    rw [getM_sic] at hM; exact (Except.ok.inj hM).symm
  have ho : ∀ a, |o a| ≤ 3 := by
    intro a
    have := observable_bound θ φ k a
    rw [← hMe] at this
    exact this
  have hLpos : (0 : ℝ) < L := by exact_mod_cast Nat.pos_of_ne_zero (NeZero.ne L)
  set Q : (Fin L → Fin 4) → ℝ := fun s => (outcomeProb (productPovm M') ρ s).re with hQ
  have hMH : ∀ s : Fin L → Fin 4, (productPovm M' s).IsHermitian := by
    intro s
    ext i j
    simp only [productPovm, siteMat, Matrix.conjTranspose_apply, Matrix.of_apply, star_prod]
    refine Finset.prod_congr rfl fun k _ => ?_
    exact congrFun (congrFun (hermitian_of_isPovm hP (s k)) (i k)) (j k)
  have hQc : ∀ s, outcomeProb (productPovm M') ρ s = ((Q s : ℝ) : ℂ) := fun s =>
    Complex.ext rfl (by simpa using c38_prob_real (productPovm M') hMH ρ hρ s)
  have m1 : ((outcomeMean Q fun s => (evaluateObservable1D o s).1 : ℝ) : ℂ)
      = (∑ i, (ρ * oneSite (getPaulis k) i).trace) / L := by
    rw [← c69_mean M' hP hc _ hT (getPaulis k) (pauli_hermitian k) ρ]
    unfold outcomeMean
    push_cast
    exact Finset.sum_congr rfl fun s _ => by rw [hQc, mul_comm]
  have m2 : ∀ d : Fin L, d ≠ 0 → ((outcomeMean Q fun s => (evaluateObservable1D o s).2 d : ℝ) : ℂ)
      = (∑ i, (ρ * (oneSite (getPaulis k) i * oneSite (getPaulis k) (i - d))).trace) / L := by
    intro d hd
    rw [← c69_correlator_partial M' hP hc _ hT (getPaulis k) (pauli_hermitian k) ρ d hd]
    unfold outcomeMean
    push_cast
    exact Finset.sum_congr rfl fun s _ => by rw [hQc, mul_comm]
  have b1 : ∀ s : Fin L → Fin 4, |(evaluateObservable1D o s).1| ≤ 3 := by
    intro s
    change |(∑ i, o (s i)) / (L : ℝ)| ≤ 3
    rw [abs_div, abs_of_pos hLpos, div_le_iff₀ hLpos]
    refine (Finset.abs_sum_le_sum_abs _ _).trans ((Finset.sum_le_sum fun i _ => ho (s i)).trans (le_of_eq ?_))
    simp [mul_comm]
  have b2 : ∀ (d : Fin L) (s : Fin L → Fin 4), |(evaluateObservable1D o s).2 d| ≤ 9 := by
    intro d s
    change |(∑ i : Fin L, o (s i) * o (s (i - d))) / (L : ℝ)| ≤ 9
    rw [abs_div, abs_of_pos hLpos, div_le_iff₀ hLpos]
    refine (Finset.abs_sum_le_sum_abs _ _).trans ((Finset.sum_le_sum (g := fun _ => (9 : ℝ)) fun i _ => ?_).trans
      (le_of_eq ?_))
    · rw [abs_mul]
      have := mul_le_mul (ho (s i)) (ho (s (i - d))) (abs_nonneg _) (by norm_num)
      linarith
    · simp [mul_comm]
  obtain ⟨res, cs, hr, hlen, hres, hcs⟩ := c62_povm_moments_partial n
    (observedWorld (fun s => (evaluateObservable1D o s).1) w)
    (List.ofFn fun d : Fin L => observedWorld (fun s => (evaluateObservable1D o s).2 d) w)
    (observed_devices _ w hdev) (by
      intro w' hw'
      obtain ⟨d, rfl⟩ := (List.mem_ofFn' _ _).mp hw'
      exact ⟨by simp [observedWorld, World.map], observed_devices _ w hdev⟩)
  refine ⟨res, cs, hr, by rw [hlen]; simp [observedWorld, World.map], ?_, ?_, ?_⟩
  · intro r hr'
    rw [(hres r hr').1, observed_mean _ _ w hw, ← m1, ← Complex.ofReal_sub, Complex.norm_real]
    exact (c118_average _ _ _ 3 b1).trans (mul_le_mul_of_nonneg_left hδ (by norm_num))
  · rw [← hcs.length_eq, List.length_ofFn]
  · intro d hd c hc'
    obtain ⟨hlt, rfl⟩ := List.getElem?_eq_some_iff.mp hc'
    have := (List.forall₂_iff_get.mp hcs).2 d.val (by simp) hlt
    rw [List.get_ofFn] at this
    refine ⟨by simpa [observedWorld, World.map] using this.1, ?_⟩
    intro r hr r' hr'
    have := (this.2 r' (by simpa using hr')).1
    rw [this, (hres r hr).1, sub_add_cancel, ← m2 d hd]
    erw [observed_mean _ _ w hw]
    rw [← Complex.ofReal_sub, Complex.norm_real]
    exact (c118_average _ _ _ 9 (b2 d)).trans (mul_le_mul_of_nonneg_left hδ (by norm_num))

/-- C118 for open quantum systems: after any registrations and `add` calls, let `c` be the compiled operator, and
let `Euler` move the parameters of a real network with TDVP velocities computed from it. The distribution of the
network after `N` steps is as far as in `c118_euler` from that of the outcomes in the solution `ρ` of the master
equation. With `c118_measured_partial`: so are the reported magnetisations and correlations, up to a factor. -/
theorem c118_master_equation {L : ℕ} (α β : ℝ) :
    ∃ M, povmInit α β "SIC" = .ok (M, standardReg M) ∧
      ∀ (regCalls : List (RegKind × String × (ℕ × LocMat ℝ)))
        (enum : List (List (Fin L)) → List (List (Fin L))), (∀ l x, x ∈ enum l ↔ x ∈ l) →
      ∀ (terms : List (ℝ × MasterTerm L)), (∀ t ∈ terms, t.2.Proper) →
      ∀ (calls : List (ℕ × Fin terms.length)),
        (∀ c ∈ calls, ∀ c' ∈ calls, c.2 = c'.2 → c.1 = c'.1) →
      ∀ o, (∃ c ∈ calls, c.1 = o) →
      ∃ c, compilePovm ((standardReg M).run regCalls).operators.get? enum
          (((PovmOps.fresh (terms.map termDict)).run
            (calls.map fun c => (c.1, c.2.val))).dicts o) = .ok c ∧
        ∀ (n : ℕ) (σ : Type) (logP : (Fin (n + 1) → ℝ) → Config L 4 → ℝ) (D : Set (Fin (n + 1) → ℝ)) (G Λ : ℝ),
          SmoothLog logP D G Λ → Convex ℝ D →
        ∀ (K B : ℝ), GrowthAtMost (rateMatrix c) K → 0 ≤ K → (∀ s', ∑ s, |rateMatrix c s s'| ≤ B) →
        ∀ (T : ℝ) (ρ : ℝ → Matrix (Fin L → Fin 2) (Fin L → Fin 2) ℂ), (∀ t ∈ Icc 0 T, (ρ t).IsHermitian) →
          (∀ t ∈ Icc 0 T, ∀ x y, HasDerivWithinAt (fun τ => ρ τ x y)
            (masterEquation ((calls.filter fun c => decide (c.1 = o)).map fun c => terms[c.2]) (ρ t) x y)
            (Icc 0 T) t) →
        ∀ ε < 1, ∀ dt ≥ 0, ∀ (f : VRhs (Fin (n + 1) → ℝ) σ) (θ₀ : Fin (n + 1) → ℝ) (s₀ : σ) (V : ℝ)
          (d var : ℕ → ℝ) (N : ℕ), N * dt ≤ T → (∀ k ≤ N, (eulerLoop dt f k 0 θ₀ s₀).2.1 ∈ D) →
          (∀ k < N, ∀ t θ s, eulerLoop dt f k 0 θ₀ s₀ = (t, θ, s) → ‖(f θ t 0 s).1‖ ≤ V ∧
            SampledRateReport ε (povmKernel c) (rateMatrix c) logP θ (f θ t 0 s).1 (d k) (var k)) →
          l1Distance (distribution (logP (eulerLoop dt f N 0 θ₀ s₀).2.1))
              (fun s => (outcomeProb (productPovm M) (ρ (N * dt)) s).re)
            ≤ Real.exp (K * (N * dt)) * (l1Distance (distribution (logP θ₀))
                (fun s => (outcomeProb (productPovm M) (ρ 0) s).re)
              + ∑ k ∈ Finset.range N, dt * √(d k * var k / (1 - ε))
              + N * dt * (dt * (Λ * V ^ 2 + 3 * (G * V) ^ 2 + B * (G * V)))) := by
  obtain ⟨M, hM, h⟩ := c94_master_equation (N := L) α β
  obtain ⟨M', hM', hP, -, -, hT'⟩ := sic_hypotheses α β
  have hMM : M' = M := by
    unfold povmInit at hM
    rw [hM'] at hM
    exact (Prod.mk.inj (Except.ok.inj hM)).1
  subst hMM
  refine ⟨M', hM, ?_⟩
  intro regCalls enum henum terms hp calls hown o ho
  obtain ⟨c, hc, hgen⟩ := h regCalls enum henum terms hp calls hown o ho
  refine ⟨c, hc, ?_⟩
  intro n σ logP D G Λ hs hD K B hK hK0 hB T ρ hH hρ ε hε dt hdt f θ₀ s₀ V d var N hN hin hcall
  obtain ⟨hq, -⟩ := c101_rate_solution hP c _ hgen ρ hH hρ
  exact c118_euler hs hD hK hK0 hB _ hq hε dt hdt f θ₀ s₀ V d var N hN hin hcall

/-! ### Cases: outcomes whose probabilities relax like `w (1 + x_s e^{-2t})` -/

/-- `P_s(t) = w (1 + x_s e^{-2t})`. -/
noncomputable def decayCurve {C : Type} (w : ℝ) (x : C → ℝ) (t : ℝ) (s : C) : ℝ :=
  w * (1 + x s * Real.exp (-2 * t))

theorem decay_deriv {C : Type} (w : ℝ) (x : C → ℝ) (t : ℝ) (s : C) :
    HasDerivAt (fun τ => decayCurve w x τ s) (w * (x s * (Real.exp (-2 * t) * (-2)))) t := by
  have e1 : HasDerivAt (fun x : ℝ => Real.exp (-2 * x)) (Real.exp (-2 * t) * (-2)) t := by
    have := ((hasDerivAt_id t).const_mul (-2 : ℝ)).exp
    simpa using this
  exact ((e1.const_mul (x s)).const_add 1).const_mul w

theorem decay_factor {C : Type} {x : C → ℝ} {κ : ℝ} (hκ : ∀ s, |x s| ≤ κ) (t : ℝ) (ht : 0 ≤ t) (s : C) :
    1 - κ ≤ 1 + x s * Real.exp (-2 * t) := by
  have h1 := Real.exp_pos (-2 * t)
  have h2 : Real.exp (-2 * t) ≤ 1 := Real.exp_le_one_iff.mpr (by linarith)
  have h3 : |x s * Real.exp (-2 * t)| ≤ κ := by
    rw [abs_mul, abs_of_pos h1]
    have := mul_le_mul (hκ s) h2 h1.le ((abs_nonneg _).trans (hκ s))
    linarith
  linarith [(abs_le.mp h3).1]

theorem exp_slow (t t' : ℝ) (ht : 0 ≤ t) (ht' : 0 ≤ t') :
    |Real.exp (-2 * t') - Real.exp (-2 * t)| ≤ 2 * |t' - t| := by
  have key : ∀ a b : ℝ, 0 ≤ a → a ≤ b → |Real.exp (-2 * b) - Real.exp (-2 * a)| ≤ 2 * (b - a) := by
    intro a b ha hab
    have h1 : Real.exp (-2 * b) ≤ Real.exp (-2 * a) := Real.exp_le_exp.mpr (by linarith)
    have h2 : Real.exp (-2 * b) = Real.exp (-2 * a) * Real.exp (-2 * (b - a)) := by
      rw [← Real.exp_add]
      congr 1
      ring
    have h3 := Real.add_one_le_exp (-2 * (b - a))
    have h4 : Real.exp (-2 * a) ≤ 1 := Real.exp_le_one_iff.mpr (by linarith)
    have h5 := Real.exp_pos (-2 * a)
    rw [abs_of_nonpos (by linarith), h2]
    nlinarith
  rcases le_total t t' with h | h
  · rw [abs_of_nonneg (by linarith : 0 ≤ t' - t)]
    exact key t t' ht h
  · rw [abs_sub_comm, abs_of_nonpos (by linarith : t' - t ≤ 0)]
    have := key t' t ht' h
    linarith

theorem decay_smooth {C : Type} {w κ : ℝ} {x : C → ℝ} (hw : 0 < w) (hκ0 : 0 ≤ κ) (hκ1 : κ < 1)
    (hκ : ∀ s, |x s| ≤ κ) :
    SmoothLog (curveLog (decayCurve w x)) {θ | 0 ≤ θ 0} (2 * κ / (1 - κ)) (4 * κ / (1 - κ) ^ 2) := by
  have hκ' : 0 < 1 - κ := by linarith
  have hfac : ∀ θ : Fin 1 → ℝ, 0 ≤ θ 0 → ∀ s, 0 < 1 + x s * Real.exp (-2 * θ 0) := fun θ hθ s =>
    hκ'.trans_le (decay_factor hκ _ hθ s)
  have hf : ∀ θ : Fin 1 → ℝ, 0 ≤ θ 0 → ∀ s, HasFDerivAt (fun p => curveLog (decayCurve w x) p s)
      ((-2 * (x s * Real.exp (-2 * θ 0)) / (1 + x s * Real.exp (-2 * θ 0))) •
        (ContinuousLinearMap.proj 0 : (Fin 1 → ℝ) →L[ℝ] ℝ)) θ := by
    intro θ hθ s
    have h1 := (decay_deriv w x (θ 0) s).log (mul_pos hw (hfac θ hθ s)).ne'
    have h2 := HasDerivAt.comp_hasFDerivAt (h₂ := fun τ => Real.log (decayCurve w x τ s)) θ h1
      (ContinuousLinearMap.proj (R := ℝ) (φ := fun _ : Fin 1 => ℝ) 0).hasFDerivAt
    refine h2.congr_fderiv ?_
    congr 1
    unfold decayCurve
    have := (hfac θ hθ s).ne'
    field_simp
  have hv : ∀ v : Fin 1 → ℝ, |v 0| ≤ ‖v‖ := fun v => norm_le_pi_norm v 0
  have hx : ∀ θ : Fin 1 → ℝ, 0 ≤ θ 0 → ∀ s, |x s * Real.exp (-2 * θ 0)| ≤ κ := by
    intro θ hθ s
    have h1 := Real.exp_pos (-2 * θ 0)
    have h2 : Real.exp (-2 * θ 0) ≤ 1 := Real.exp_le_one_iff.mpr (by linarith)
    rw [abs_mul, abs_of_pos h1]
    have := mul_le_mul (hκ s) h2 h1.le hκ0
    linarith
  refine ⟨by positivity, by positivity, fun θ hθ s => (hf θ hθ s).differentiableAt, ?_, ?_⟩
  · intro θ hθ s v
    rw [(hf θ hθ s).fderiv]
    change |(-2 * (x s * Real.exp (-2 * θ 0)) / (1 + x s * Real.exp (-2 * θ 0))) * v 0| ≤ _
    rw [abs_mul, abs_div, abs_of_pos (hfac θ hθ s), abs_mul]
    refine mul_le_mul ?_ (hv v) (abs_nonneg _) (by positivity)
    refine div_le_div₀ (by positivity) ?_ hκ' (decay_factor hκ _ hθ s)
    have h2 : |(-2 : ℝ)| = 2 := by norm_num
    rw [h2]
    exact mul_le_mul_of_nonneg_left (hx θ hθ s) two_pos.le
  · intro θ hθ θ' hθ' s v
    rw [(hf θ hθ s).fderiv, (hf θ' hθ' s).fderiv]
    change |(-2 * (x s * Real.exp (-2 * θ' 0)) / (1 + x s * Real.exp (-2 * θ' 0))) * v 0
      - (-2 * (x s * Real.exp (-2 * θ 0)) / (1 + x s * Real.exp (-2 * θ 0))) * v 0| ≤ _
    have h1 := hfac θ hθ s
    have h2 := hfac θ' hθ' s
    have e : (-2 * (x s * Real.exp (-2 * θ' 0)) / (1 + x s * Real.exp (-2 * θ' 0)))
        - (-2 * (x s * Real.exp (-2 * θ 0)) / (1 + x s * Real.exp (-2 * θ 0)))
        = -2 * (x s * (Real.exp (-2 * θ' 0) - Real.exp (-2 * θ 0)))
          / ((1 + x s * Real.exp (-2 * θ' 0)) * (1 + x s * Real.exp (-2 * θ 0))) := by
      generalize Real.exp (-2 * θ 0) = a at *
      generalize Real.exp (-2 * θ' 0) = b at *
      rw [div_sub_div _ _ h2.ne' h1.ne']
      congr 1
      ring
    rw [← sub_mul, e, abs_mul, abs_div, abs_of_pos (mul_pos h2 h1)]
    refine mul_le_mul ?_ (hv v) (abs_nonneg _) (mul_nonneg (by positivity) (norm_nonneg _))
    have h3 : |-2 * (x s * (Real.exp (-2 * θ' 0) - Real.exp (-2 * θ 0)))| ≤ 4 * κ * ‖θ' - θ‖ := by
      rw [abs_mul, abs_mul]
      have h4 := mul_le_mul (hκ s) (exp_slow (θ 0) (θ' 0) hθ hθ') (abs_nonneg _) hκ0
      have h5 : |θ' 0 - θ 0| ≤ ‖θ' - θ‖ := norm_le_pi_norm (θ' - θ) 0
      have h6 := mul_le_mul_of_nonneg_left h5 hκ0
      have h7 : |(-2 : ℝ)| = 2 := by norm_num
      rw [h7]
      linarith
    refine (div_le_div₀ (by positivity) h3 (by positivity) ?_ (d := (1 - κ) ^ 2)).trans (le_of_eq (by ring))
    rw [sq]
    exact mul_le_mul (decay_factor hκ _ hθ' s) (decay_factor hκ _ hθ s) hκ'.le h2.le

theorem decay_domain : Convex ℝ {θ : Fin 1 → ℝ | 0 ≤ θ 0} := by
  intro a ha b hb u v hu hv huv
  simp only [mem_ofPred_eq, Pi.add_apply, Pi.smul_apply, smul_eq_mul] at *
  positivity

theorem relax_curve : relaxCurve = decayCurve (1 / 2) fun s : Fin 2 => if s = 0 then -(1 / 2) else 1 / 2 := by
  funext t s
  unfold relaxCurve decayCurve
  fin_cases s <;> simp <;> ring

theorem relax_smooth : SmoothLog (curveLog relaxCurve) {θ | 0 ≤ θ 0} 2 8 := by
  rw [relax_curve]
  have := decay_smooth (w := 1 / 2) (κ := 1 / 2) (x := fun s : Fin 2 => if s = 0 then -(1 / 2) else 1 / 2)
    (by norm_num) (by norm_num) (by norm_num) (fun s => by
      split_ifs
      · rw [abs_neg, abs_of_nonneg (by norm_num)]
      · rw [abs_of_nonneg (by norm_num)])
  norm_num at this
  norm_num
  exact this

theorem relax_columns (s' : Fin 2) : ∑ s, |relaxMatrix s s'| ≤ 2 := by
  fin_cases s' <;> norm_num [relaxMatrix, Fin.sum_univ_two]

theorem relax_growth : GrowthAtMost relaxMatrix 0 :=
  (c118_growth relaxMatrix).1 relax_conserves fun s s' h => by
    fin_cases s <;> fin_cases s' <;> first | exact absurd rfl h | norm_num [relaxMatrix]

/-- The velocity that the calls return. -/
noncomputable def relaxSpeed : ℝ := 1 / (1 + (1e-6) ^ 6)

theorem relaxSpeed_pos : 0 < relaxSpeed := by unfold relaxSpeed; positivity

theorem euler_const (dt : ℝ) (u : Fin 1 → ℝ) (N : ℕ) (t : ℝ) (θ : Fin 1 → ℝ) :
    (eulerLoop dt (fun _ _ _ (s : Unit) => (u, s)) N t θ ()).2.1 = θ + ((N : ℝ) * dt) • u := by
  induction N with
  | zero => simp [eulerLoop]
  | succ N ih =>
    rw [eulerLoop_succ]
    change _ + dt • u = _
    rw [ih, add_assoc, ← add_smul]
    congr 2
    push_cast
    ring

/-- Case for `c118_euler` and `c118_reported`: `N` steps with the velocities that the calls return. -/
example (dt : ℝ) (hdt : 0 ≤ dt) (N : ℕ) :
    ∃ d var : ℕ → ℝ, (∀ k, 0 ≤ d k * var k ∧ d k * var k ≤ 4 * (1 - relaxSpeed) ^ 2) ∧
    l1Distance (distribution (curveLog relaxCurve
        (eulerLoop dt (fun (_ : Fin 1 → ℝ) _ _ (s : Unit) => ((fun _ => relaxSpeed), s)) N 0 0 ()).2.1))
        (relaxCurve (N * dt))
      ≤ Real.exp (0 * (N * dt)) * (l1Distance (distribution (curveLog relaxCurve 0)) (relaxCurve 0)
        + ∑ k ∈ Finset.range N, dt * √(d k * var k / (1 - 1 / 10))
        + N * dt * (dt * (8 * relaxSpeed ^ 2 + 3 * (2 * relaxSpeed) ^ 2 + 2 * (2 * relaxSpeed)))) := by
  have hpos : ∀ k : ℕ, 0 ≤ k * dt * relaxSpeed := fun k => by have := relaxSpeed_pos; positivity
  refine ⟨fun _ => (1 - relaxSpeed) ^ 2, fun k => fisherLength (relaxCurve (k * dt * relaxSpeed))
    (relaxMatrix *ᵥ relaxCurve (k * dt * relaxSpeed)), fun k => ⟨?_, ?_⟩, ?_⟩
  · exact mul_nonneg (sq_nonneg _) (Finset.sum_nonneg fun s _ => div_nonneg (sq_nonneg _) (relax_pos _ (hpos k) s).le)
  · have := mul_le_mul_of_nonneg_left (relax_variance _ (hpos k)) (sq_nonneg (1 - relaxSpeed))
    linarith
  · refine c118_euler (kernel := relaxKernel) relax_smooth decay_domain relax_growth le_rfl relax_columns relaxCurve
      (T := N * dt) (fun t _ s => (relax_deriv t s).hasDerivWithinAt) (by norm_num) dt hdt _ 0 () relaxSpeed _ _ N le_rfl
      (fun k _ => ?_) (fun k _ t θ s h => ⟨?_, ?_⟩)
    · rw [euler_const]
      simpa using hpos k
    · rw [pi_norm_const, Real.norm_of_nonneg relaxSpeed_pos.le]
    · have h1 : θ = fun _ => k * dt * relaxSpeed := by
        have := euler_const dt (fun _ => relaxSpeed) k 0 0
        rw [h] at this
        refine Eq.trans this ?_
        funext i
        simp
      rw [h1]
      exact rateReport_sampled (by norm_num) (relax_report _ (hpos k))

/-- `√(tdvp_error * ElocVar0)` and its integral for this case. -/
theorem relax_error (t : ℝ) (ht : 0 ≤ t) :
    HasDerivAt (fun τ => -((1 - relaxSpeed) / relaxSpeed) * Real.arcsin (Real.exp (-2 * (τ * relaxSpeed)) / 2))
      (√((1 - relaxSpeed) ^ 2 * fisherLength (relaxCurve (t * relaxSpeed))
        (relaxMatrix *ᵥ relaxCurve (t * relaxSpeed)) / (1 - 0))) t := by
  have hc0 := relaxSpeed_pos
  have hc1 : relaxSpeed ≤ 1 := by unfold relaxSpeed; norm_num
  have e1 : HasDerivAt (fun τ : ℝ => Real.exp (-2 * (τ * relaxSpeed)) / 2)
      (Real.exp (-2 * (t * relaxSpeed)) * (-2 * relaxSpeed) / 2) t := by
    have := (((hasDerivAt_id t).mul_const relaxSpeed).const_mul (-2 : ℝ)).exp
    simpa using this.div_const 2
  have h1 := Real.exp_pos (-2 * (t * relaxSpeed))
  have h2 : Real.exp (-2 * (t * relaxSpeed)) ≤ 1 :=
    Real.exp_le_one_iff.mpr (by nlinarith [mul_nonneg ht hc0.le])
  have e2 := (Real.hasDerivAt_arcsin (x := Real.exp (-2 * (t * relaxSpeed)) / 2) (by linarith) (by linarith)).comp t e1
  refine (e2.const_mul (-((1 - relaxSpeed) / relaxSpeed))).congr_deriv ?_
  have hvar : fisherLength (relaxCurve (t * relaxSpeed)) (relaxMatrix *ᵥ relaxCurve (t * relaxSpeed))
      = Real.exp (-2 * (t * relaxSpeed)) ^ 2 / (1 - (Real.exp (-2 * (t * relaxSpeed)) / 2) ^ 2) := by
    unfold fisherLength relaxCurve
    generalize Real.exp (-2 * (t * relaxSpeed)) = a at *
    have h3 : (0 : ℝ) < 1 - a / 2 := by linarith
    have h4 : (0 : ℝ) < 1 + a / 2 := by linarith
    have e : ∀ s, (relaxMatrix *ᵥ fun s => (1 + (if s = 0 then -1 else 1) * (a / 2)) / 2) s
        = (if s = 0 then 1 else -1) * (a / 2) := by
      intro s
      fin_cases s <;> simp [relaxMatrix, Matrix.mulVec, dotProduct, Fin.sum_univ_two] <;> ring
    simp only [e, Fin.sum_univ_two]
    simp only [if_true, Fin.isValue, one_ne_zero, if_false, one_mul, neg_one_mul, even_two, Even.neg_pow,
      ← sub_eq_add_neg]
    have h5 : 1 - (a / 2) ^ 2 = (1 - a / 2) * (1 + a / 2) := by ring
    rw [h5, div_add_div _ _ (by linarith) (by linarith), div_eq_div_iff (by positivity) (by positivity)]
    ring
  rw [hvar]
  generalize Real.exp (-2 * (t * relaxSpeed)) = a at *
  have h5 : (0 : ℝ) < 1 - (a / 2) ^ 2 := by nlinarith
  rw [sub_zero, div_one, ← mul_div_assoc ((1 - relaxSpeed) ^ 2), Real.sqrt_div' _ h5.le, ← mul_pow,
    Real.sqrt_sq (mul_nonneg (by linarith) h1.le)]
  have := Real.sqrt_ne_zero'.mpr h5
  field_simp

/-- Case for `c118_trajectory` and `c118_heun`: the velocities of this network are constant. -/
example (dt : ℝ) (hdt : 0 ≤ dt) (N : ℕ) : ∃ B : ℝ → ℝ,
    l1Distance (distribution (curveLog relaxCurve
        (heunLoop dt (fun (_ : Fin 1 → ℝ) _ _ (s : Unit) => ((fun _ => relaxSpeed), s)) N 0
          (fun _ => 0 * relaxSpeed) ()).2.1))
        (relaxCurve (N * dt))
      ≤ Real.exp (0 * (N * dt)) * (l1Distance (distribution (curveLog relaxCurve fun _ => 0 * relaxSpeed))
          (relaxCurve 0) + (B (N * dt) - B 0))
        + 2 * 2 * accumulated (0 + dt * 0 ^ 2 / 2) (0 * (1 + dt * 0 / 2) + dt ^ 2 * ((0 * 0 + 0) / 2)) 0 (N * dt) := by
  refine ⟨fun τ => -((1 - relaxSpeed) / relaxSpeed) * Real.arcsin (Real.exp (-2 * (τ * relaxSpeed)) / 2),
    (c118_heun (T := N * dt) (ε := 0) (kernel := relaxKernel) relax_smooth decay_domain relax_growth le_rfl
    (by norm_num) relaxCurve (fun t _ s => (relax_deriv t s).hasDerivWithinAt) (F := fun _ _ _ => relaxSpeed)
    (y := fun t _ => t * relaxSpeed) (fun t _ => hasDerivWithinAt_pi.mpr fun _ => by
      simpa using ((hasDerivAt_id t).mul_const relaxSpeed).hasDerivWithinAt)
    (J := 0) (J' := 0) (L := 0) (R := 0) (η := 0)
    ⟨le_rfl, by simp⟩ ⟨le_rfl, fun _ => 0, fun t _ => hasDerivWithinAt_const t _ _, by simp⟩ ⟨le_rfl, by simp⟩
    (f := fun _ _ _ (s : Unit) => ((fun _ => relaxSpeed), s)) ⟨le_rfl, by simp⟩ _ _
    (fun t ht => rateReport_sampled le_rfl (relax_report _ (mul_nonneg ht.1 relaxSpeed_pos.le)))
    _ (fun t ht => (relax_error t ht.1).hasDerivWithinAt)
    dt hdt N le_rfl () (by simp [accumulated]) (fun x hx => ?_)).2⟩
  have : x = fun _ => N * dt * relaxSpeed := by
    rw [← sub_eq_zero]
    exact norm_le_zero_iff.mp hx
  rw [this]
  have := relaxSpeed_pos
  rw [mem_ofPred_eq]
  positivity

/-- Case for `c118_growth` and `c118_average`. -/
example : GrowthAtMost relaxMatrix 0 ∧ GrowthAtMost relaxMatrix 2 ∧
    |outcomeMean (relaxCurve 0) (fun s => s.val) - outcomeMean (relaxCurve 1) (fun s => s.val)|
      ≤ 1 * l1Distance (relaxCurve 0) (relaxCurve 1) :=
  ⟨relax_growth, (c118_growth relaxMatrix).2 2 relax_columns, c118_average _ _ _ 1 fun s => by
    fin_cases s <;> simp⟩

/-! ### A case with a `POVMOperator`: a spin under dephasing, `ρ(t) = (1 + e^{-2t} X)/2` -/

/-- The measurement, for the angles zero. -/
noncomputable def zeroPovm : Fin 4 → Matrix (Fin 2) (Fin 2) ℂ := fun a => blochElement (povmVectors 0 0 a)

theorem zeroPovm_entries (a b : Fin 4) :
    matrixToPovmDis (getPaulis 2) zeroPovm (povmTInv zeroPovm) a b
      = -(3 / 2) * (sicVectors b 0 * sicVectors a 0 + sicVectors b 1 * sicVectors a 1) := dephasing_entries a b

theorem dephasing_operator : ∃ c, compilePovm (N := 1) ((standardReg zeroPovm).run []).operators.get? id
      (((PovmOps.fresh ([((1 : ℝ), MasterTerm.loss Loss.dephasing 0)].map termDict)).run
        [(0, 0)]).dicts 0) = .ok c ∧
    Generates (productPovm zeroPovm) (fun s s' => elementOf (povmKernel c s) s')
      (masterEquation [(1, MasterTerm.loss Loss.dephasing 0)]) ∧
    OperatorOf (povmKernel c) ((rateMatrix c).map Complex.ofReal) ∧ Conserves (rateMatrix c) := by
  obtain ⟨M, hM, h⟩ := c94_master_equation (N := 1) 0 0
  have hM' : M = zeroPovm := by
    have e : povmInit 0 0 "SIC" = .ok (zeroPovm, standardReg zeroPovm) := rfl
    rw [e] at hM
    exact (Prod.mk.inj (Except.ok.inj hM)).1.symm
  subst hM'
  obtain ⟨M', hM', hP, -, -, hT'⟩ := sic_hypotheses 0 0
  have hMM : M' = zeroPovm := by
    rw [getM_sic] at hM'
    exact (Except.ok.inj hM').symm
  subst hMM
  obtain ⟨c, h1, h2⟩ := h [] id (fun _ _ => Iff.rfl) [((1 : ℝ), MasterTerm.loss Loss.dephasing 0)]
    (by simp [MasterTerm.Proper]) [(0, 0)] (by simp) 0 (by simp)
  refine ⟨c, h1, h2, rateMatrix_operator c ?_, c101_conserves hP _ hT' c _ h2⟩
  have hg : ((standardReg zeroPovm).run []).operators.get? "dephasing"
      = some (oneBody (matrixToPovmDis (getPaulis 2) zeroPovm (povmTInv zeroPovm))) := by
    change (standardReg zeroPovm).operators.get? "dephasing" = _
    rw [standard_get]
    rfl
  have hc := (dephasing_compiled _ _ hg).symm.trans h1
  obtain rfl := Except.ok.inj hc
  intro s e he
  simp only [povmKernel, povmSPrimes, List.mem_map, List.mem_flatMap] at he
  obtain ⟨_, ⟨_, hx, y, -, rfl⟩, rfl⟩ := he
  rw [List.mem_singleton] at hx
  subst hx
  simp only [zeroPovm_entries]
  rcases dephasing_above ((([0] : List (Fin 1)).map s).getD 0 0) (y.getD 0 0) with h | h
  · left
    rw [h, Complex.ofReal_zero]
  · right
    rw [Complex.norm_real, Real.norm_eq_abs]
    linarith

theorem dephasing_curve (t : ℝ) (s : Config 1 4) : outcomeProb (productPovm zeroPovm) (dephasingState t) s
    = ((decayCurve (1 / 4) (fun s : Config 1 4 => sicVectors (s 0) 0) t s : ℝ) : ℂ) := by
  refine (dephasing_prob t s).trans (congrArg _ ?_)
  unfold decayCurve
  ring

theorem sic_small (a : Fin 4) : |sicVectors a 0| ≤ 19 / 20 := by
  have h2 : Real.sqrt 2 ≤ 142 / 100 := by
    rw [Real.sqrt_le_left (by norm_num)]
    norm_num
  have h2' := Real.sqrt_nonneg 2
  rw [abs_le]
  fin_cases a <;> simp only [sicVectors, Fin.zero_eta, Fin.mk_one, Fin.reduceFinMk, Matrix.of_apply,
    Matrix.cons_val_zero, Matrix.cons_val_one, Matrix.cons_val] <;> constructor <;> linarith

theorem dephasing_hermitian (t : ℝ) : (dephasingState t).IsHermitian := by
  ext x y
  simp only [dephasingState, Matrix.conjTranspose_apply, Matrix.of_apply, eq_comm (a := y)]
  split_ifs
  · simp
  · rw [Complex.star_def, map_div₀, Complex.conj_ofReal, Complex.conj_ofNat]

theorem dephasing_rate (c : ℕ × List (List (Fin 1) × LocMat ℝ))
    (hc : Generates (productPovm zeroPovm) (fun s s' => elementOf (povmKernel c s) s')
      (masterEquation [(1, MasterTerm.loss Loss.dephasing 0)])) (t : ℝ) (s : Config 1 4) :
    HasDerivAt (fun τ => decayCurve (1 / 4) (fun s : Config 1 4 => sicVectors (s 0) 0) τ s)
      ((rateMatrix c *ᵥ decayCurve (1 / 4) (fun s : Config 1 4 => sicVectors (s 0) 0) t) s) t := by
  have h := hasDerivAt_outcomeProb (productPovm zeroPovm) dephasingState _ t (dephasing_solves t) s
  have h1 := (decay_deriv (1 / 4) (fun s : Config 1 4 => sicVectors (s 0) 0) t s)
  have e : (fun τ => outcomeProb (productPovm zeroPovm) (dephasingState τ) s)
      = fun τ => ((decayCurve (1 / 4) (fun s : Config 1 4 => sicVectors (s 0) 0) τ s : ℝ) : ℂ) := by
    funext τ
    exact dephasing_curve τ s
  rw [e, ← hc (dephasingState t) s] at h
  have h2 : ∑ b, elementOf (povmKernel c s) b * outcomeProb (productPovm zeroPovm) (dephasingState t) b
      = (((rateMatrix c *ᵥ decayCurve (1 / 4) (fun s : Config 1 4 => sicVectors (s 0) 0) t) s : ℝ) : ℂ) := by
    simp only [Matrix.mulVec, dotProduct]
    rw [Complex.ofReal_sum]
    refine Finset.sum_congr rfl fun b _ => ?_
    rw [rateMatrix_kernel, Complex.ofReal_mul]
    rw [dephasing_curve]
  rw [h2] at h
  have h3 := h.unique h1.ofReal_comp
  rw [Complex.ofReal_inj.mp h3]
  exact h1

theorem dephasing_positive (t : ℝ) (ht : 0 ≤ t) (s : Config 1 4) :
    0 < decayCurve (1 / 4) (fun s : Config 1 4 => sicVectors (s 0) 0) t s :=
  mul_pos (by norm_num) (lt_of_lt_of_le (by norm_num) (decay_factor (fun s => sic_small (s 0)) t ht s))

theorem dephasing_total (t : ℝ) : ∑ s, decayCurve (1 / 4) (fun s : Config 1 4 => sicVectors (s 0) 0) t s = 1 := by
  rw [← (Equiv.funUnique (Fin 1) (Fin 4)).symm.sum_comp]
  simp [decayCurve, Fin.sum_univ_four, sicVectors]
  ring

theorem dephasing_moves (c : ℕ × List (List (Fin 1) × LocMat ℝ))
    (hc : Generates (productPovm zeroPovm) (fun s s' => elementOf (povmKernel c s) s')
      (masterEquation [(1, MasterTerm.loss Loss.dephasing 0)])) (t : ℝ) :
    rateMatrix c *ᵥ decayCurve (1 / 4) (fun s : Config 1 4 => sicVectors (s 0) 0) t ≠ 0 := by
  intro h
  have h1 := (dephasing_rate c hc t fun _ => 1).unique (decay_deriv (1 / 4) _ t _)
  rw [h] at h1
  have h3 : sicVectors 1 0 ≠ 0 := by simp [sicVectors]
  have h4 := Real.exp_ne_zero (-2 * t)
  have h5 : (1 / 4 : ℝ) * (sicVectors 1 0 * (Real.exp (-2 * t) * -2)) ≠ 0 := by
    refine mul_ne_zero (by norm_num) (mul_ne_zero h3 (mul_ne_zero h4 (by norm_num)))
  exact h5 h1.symm

/-- Case for `c118_master_equation` and `c118_measured_partial`: `N` steps of `Euler`, then a measurement of `X`. -/
example (dt : ℝ) (hdt : 0 ≤ dt) (N : ℕ) :
    ∃ (c : ℕ × List (List (Fin 1) × LocMat ℝ)) (logP : (Fin 1 → ℝ) → Config 1 4 → ℝ) (d var : ℕ → ℝ) (K δ : ℝ)
      (θ : Fin 1 → ℝ) (w : World (Config 1 4 × ℂ × ℝ)),
    compilePovm (N := 1) ((standardReg zeroPovm).run []).operators.get? id
      (((PovmOps.fresh ([((1 : ℝ), MasterTerm.loss Loss.dephasing 0)].map termDict)).run [(0, 0)]).dicts 0) = .ok c ∧
    θ = (eulerLoop dt (fun (_ : Fin 1 → ℝ) _ _ (s : Unit) => ((fun _ => relaxSpeed), s)) N 0 0 ()).2.1 ∧
    δ = Real.exp (K * (N * dt)) * (l1Distance (distribution (logP 0))
        (fun s => (outcomeProb (productPovm zeroPovm) (dephasingState 0) s).re)
      + ∑ k ∈ Finset.range N, dt * √(d k * var k / (1 - 1 / 10))
      + N * dt * (dt * (1520 * relaxSpeed ^ 2 + 3 * (38 * relaxSpeed) ^ 2 + K * (38 * relaxSpeed)))) ∧
    ExactWeights (distribution (logP θ)) (weighted w) ∧
    ∃ res cs, measurePovm none (observedWorld (fun s => (evaluateObservable1D
          (matrixToPovmObs (getPaulis 0) zeroPovm (povmTInv zeroPovm)) s).1) w)
        (List.ofFn fun d : Fin 1 => observedWorld (fun s => (evaluateObservable1D
          (matrixToPovmObs (getPaulis 0) zeroPovm (povmTInv zeroPovm)) s).2 d) w) = .ok (res, cs) ∧
      res.length = 1 ∧ ∀ r ∈ res, ‖(r.mean : ℂ)
        - (∑ i, (dephasingState (N * dt) * oneSite (getPaulis 0) i).trace) / (1 : ℕ)‖ ≤ 3 * δ := by
  obtain ⟨M, hM, h⟩ := c118_master_equation (L := 1) 0 0
  have hM' : M = zeroPovm := by
    have e : povmInit 0 0 "SIC" = .ok (zeroPovm, standardReg zeroPovm) := rfl
    rw [e] at hM
    exact (Prod.mk.inj (Except.ok.inj hM)).1.symm
  subst hM'
  obtain ⟨c, h1, h2⟩ := h [] id (fun _ _ => Iff.rfl) [((1 : ℝ), MasterTerm.loss Loss.dephasing 0)]
    (by simp [MasterTerm.Proper]) [(0, 0)] (by simp) 0 (by simp)
  obtain ⟨c', hc', hgen, hop, hcons⟩ := dephasing_operator
  obtain rfl := Except.ok.inj (hc'.symm.trans h1)
  have hpos : ∀ k : ℕ, 0 ≤ k * dt * relaxSpeed := fun k => by have := relaxSpeed_pos; positivity
  set q := decayCurve (1 / 4) (fun s : Config 1 4 => sicVectors (s 0) 0) with hq
  have hsm : SmoothLog (curveLog q) {θ | 0 ≤ θ 0} 38 1520 := by
    have := decay_smooth (w := 1 / 4) (κ := 19 / 20) (x := fun s : Config 1 4 => sicVectors (s 0) 0)
      (by norm_num) (by norm_num) (by norm_num) (fun s => sic_small (s 0))
    norm_num at this
    rw [hq]
    norm_num
    exact this
  have hB : ∀ s', ∑ s, |rateMatrix c' s s'| ≤ ∑ s', ∑ s, |rateMatrix c' s s'| := fun s' =>
    Finset.single_le_sum (f := fun s' => ∑ s, |rateMatrix c' s s'|)
      (fun s' _ => Finset.sum_nonneg fun s _ => abs_nonneg _) (Finset.mem_univ s')
  have hθ : ∀ k : ℕ, (eulerLoop dt (fun (_ : Fin 1 → ℝ) _ _ (s : Unit) => ((fun _ => relaxSpeed), s)) k 0 0 ()).2.1
      = fun _ => k * dt * relaxSpeed := by
    intro k
    rw [euler_const]
    funext i
    simp
  have h3 := h2 0 Unit (curveLog q) {θ | 0 ≤ θ 0} 38 1520 hsm decay_domain _ _ ((c118_growth _).2 _ hB)
    (Finset.sum_nonneg fun s' _ => Finset.sum_nonneg fun s _ => abs_nonneg _) hB (N * dt) dephasingState
    (fun t _ => dephasing_hermitian t) (fun t _ x y => (dephasing_solves t x y).hasDerivWithinAt) (1 / 10) (by norm_num)
    dt hdt (fun (_ : Fin 1 → ℝ) _ _ (s : Unit) => ((fun _ => relaxSpeed), s)) 0 () relaxSpeed
    (fun _ => (1 - relaxSpeed) ^ 2) (fun k => fisherLength (q (k * dt * relaxSpeed))
      (rateMatrix c' *ᵥ q (k * dt * relaxSpeed))) N le_rfl
    (fun k _ => by rw [hθ]; exact hpos k) (fun k _ t θ s hk => ⟨by
      rw [pi_norm_const, Real.norm_of_nonneg relaxSpeed_pos.le], by
      have h5 : θ = fun _ => k * dt * relaxSpeed := by
        have := hθ k
        rw [hk] at this
        exact this
      rw [h5]
      exact rateReport_sampled (by norm_num) (c101_follows_solution hop hcons q _ (dephasing_positive _ (hpos k))
        (dephasing_total _) (dephasing_rate c' hgen _) (dephasing_moves c' hgen _))⟩)
  have hw := (follow_step (logP := curveLog q) (θ := fun _ => N * dt * relaxSpeed) hop hcons (fun s => by
    have hdis : distribution (curveLog q fun _ => N * dt * relaxSpeed) = q (N * dt * relaxSpeed) :=
      curveLog_distribution q _ (dephasing_positive _ (hpos N)) (dephasing_total _)
    rw [hdis]
    exact HasDerivAt.comp_hasFDerivAt (h₂ := fun τ => Real.log (q τ s)) (fun _ : Fin 1 => N * dt * relaxSpeed)
      ((dephasing_rate c' hgen _ s).log (dephasing_positive _ (hpos N) s).ne')
      (ContinuousLinearMap.proj (R := ℝ) (φ := fun _ : Fin 1 => ℝ) 0).hasFDerivAt)).weights
  refine ⟨c', curveLog q, fun _ => (1 - relaxSpeed) ^ 2, fun k => fisherLength (q (k * dt * relaxSpeed))
      (rateMatrix c' *ᵥ q (k * dt * relaxSpeed)), ∑ s', ∑ s, |rateMatrix c' s s'|, _, _, followWorld (curveLog q) fun _ => N * dt * relaxSpeed, h1, rfl, rfl,
    by rw [hθ]; exact hw, ?_⟩
  obtain ⟨res, cs, e1, e2, e3, -⟩ := c118_measured_partial (L := 1) 0 0 zeroPovm (getM_sic 0 0) (dephasingState (N * dt))
    (dephasing_hermitian _) _ _ h3 (followWorld (curveLog q) fun _ => N * dt * relaxSpeed) (by simp [followWorld])
    (by rw [hθ]; exact hw) none 0
  exact ⟨res, cs, e1, e2, e3⟩

end JVMC
