import Verif.Lemmas.Runs
import Verif.Props.Convergence
import Verif.Props.SampledTdvp

/-!
# C107: accuracy of a whole time evolution, including the time steps

`eulerLoop`, `heunLoop` and `ahLoop` are the time evolution loops of the examples; `φ` is the exact solution of
the Schrödinger equation.
-/

namespace JVMC

open Spec Set Matrix

section

variable {n : ℕ} {C σ : Type} [Fintype C] [DecidableEq C] {logPsi : (Fin (n + 1) → ℝ) → C → ℂ}
  {D : Set (Fin (n + 1) → ℝ)} {G Λ M h T ε : ℝ} {kernel : ℝ → C → List (C × ℂ)} {H : ℝ → Matrix C C ℂ}

theorem eulerLoop_succ {M : Type} [AddCommGroup M] [Module ℝ M] (dt : ℝ) (f : VRhs M σ) (k : ℕ) (t : ℝ) (x : M)
    (s : σ) : eulerLoop dt f (k + 1) t x s =
      ((eulerLoop dt f k t x s).1 + dt,
        (eulerLoop dt f k t x s).2.1
          + dt • (f (eulerLoop dt f k t x s).2.1 (eulerLoop dt f k t x s).1 0 (eulerLoop dt f k t x s).2.2).1,
        (f (eulerLoop dt f k t x s).2.1 (eulerLoop dt f k t x s).1 0 (eulerLoop dt f k t x s).2.2).2) := by
  induction k generalizing t x s with
  | zero => rfl
  | succ k ih =>
    rw [eulerLoop]
    simp only [eulerStep]
    rw [ih]
    rfl

theorem eulerLoop_time {M : Type} [AddCommGroup M] [Module ℝ M] (dt : ℝ) (f : VRhs M σ) (k : ℕ) (t : ℝ) (x : M)
    (s : σ) : (eulerLoop dt f k t x s).1 = t + k * dt := by
  induction k with
  | zero => simp [eulerLoop]
  | succ k ih =>
    rw [eulerLoop_succ]
    simp only [ih]
    push_cast
    ring

omit [DecidableEq C] in
/-- The errors of the steps of an `Euler` run add up. -/
theorem euler_run [Nonempty C] (hs : SmoothOn logPsi D G Λ) (hD : Convex ℝ D) (hH : SlowHamiltonian H T M h)
    (φ : ℝ → C → ℂ) (hφ : Evolves H Complex.I φ T) (hφ0 : φ 0 ≠ 0) (dt : ℝ) (hdt : 0 ≤ dt)
    (f : VRhs (Fin (n + 1) → ℝ) σ) (θ₀ : Fin (n + 1) → ℝ) (s₀ : σ) (V : ℝ) (e : ℕ → ℝ) (N : ℕ)
    (hN : N * dt ≤ T) (hin : ∀ k ≤ N, (eulerLoop dt f k 0 θ₀ s₀).2.1 ∈ D)
    (hcall : ∀ k < N, ∀ t θ s, eulerLoop dt f k 0 θ₀ s₀ = (t, θ, s) → ‖(f θ t 0 s).1‖ ≤ V ∧ 0 ≤ e k ∧
      offRay (fun c => Complex.exp (logPsi θ c)) (fun c => stateVelocity logPsi θ (f θ t 0 s).1 c
        + Complex.I * (H t *ᵥ fun c => Complex.exp (logPsi θ c)) c) ≤ e k ^ 2) :
    stateDistance (φ (N * dt)) (fun c => Complex.exp (logPsi (eulerLoop dt f N 0 θ₀ s₀).2.1 c))
      ≤ stateDistance (φ 0) (fun c => Complex.exp (logPsi θ₀ c)) + ∑ k ∈ Finset.range N, dt * e k
        + N * dt * (dt * ((Λ * V ^ 2 + h + 2 * (G * V) * (G * V + M)) / 2)) := by
  induction N with
  | zero => simp [eulerLoop]
  | succ N ih =>
    push_cast at hN
    have h1 := ih (by linarith) (fun k hk => hin k (by omega)) (fun k hk => hcall k (by omega))
    obtain ⟨hV, he, hoff⟩ := hcall N (by omega) _ _ _ rfl
    have ht := eulerLoop_time dt f N 0 θ₀ s₀
    rw [zero_add] at ht
    rw [ht] at hV hoff
    have hnext := hin (N + 1) le_rfl
    rw [eulerLoop_succ, ht] at hnext ⊢
    have h2 := straight_step hs hD hH hφ hφ0 (t := N * dt) (by positivity) hdt (by linarith)
      (hin N (by omega)) hnext hV he hoff
    rw [Finset.sum_range_succ]
    have e1 : ((N + 1 : ℕ) : ℝ) * dt = N * dt + dt := by push_cast; ring
    rw [e1]
    refine h2.trans ?_
    nlinarith [h1]

/-- C107 for `Euler`: after `N` steps with TDVP velocities for real-time evolution (`rhsPrefactor=1j`), from
exactly weighted samples and whatever the regularisation, the distance of the variational state from the exact
one is at most the sum of `dt √(tdvp_error * ElocVar0)` over the steps, up to a discretisation error of first
order in `dt`. -/
theorem c107_euler [Nonempty C] (hs : SmoothOn logPsi D G Λ) (hD : Convex ℝ D) (hH : SlowHamiltonian H T M h)
    (φ : ℝ → C → ℂ) (hφ : Evolves H Complex.I φ T) (hφ0 : φ 0 ≠ 0) (dt : ℝ) (hdt : 0 ≤ dt)
    (f : VRhs (Fin (n + 1) → ℝ) σ) (θ₀ : Fin (n + 1) → ℝ) (s₀ : σ) (V : ℝ) (d var : ℕ → ℝ) (N : ℕ)
    (hN : N * dt ≤ T) (hin : ∀ k ≤ N, (eulerLoop dt f k 0 θ₀ s₀).2.1 ∈ D)
    (hcall : ∀ k < N, ∀ t θ s, eulerLoop dt f k 0 θ₀ s₀ = (t, θ, s) → ‖(f θ t 0 s).1‖ ≤ V ∧
      TdvpReport (kernel t) (H t) logPsi Complex.I θ (f θ t 0 s).1 (d k) (var k)) :
    stateDistance (φ (N * dt)) (fun c => Complex.exp (logPsi (eulerLoop dt f N 0 θ₀ s₀).2.1 c))
      ≤ stateDistance (φ 0) (fun c => Complex.exp (logPsi θ₀ c))
        + ∑ k ∈ Finset.range N, dt * √(d k * var k)
        + N * dt * (dt * ((Λ * V ^ 2 + h + 2 * (G * V) * (G * V + M)) / 2)) := by
  refine euler_run hs hD hH φ hφ hφ0 dt hdt f θ₀ s₀ V (fun k => √(d k * var k)) N hN hin ?_
  intro k hk t θ s hr
  obtain ⟨hV, hrep⟩ := hcall k hk t θ s hr
  have h1 := (report_distance (by simp) hrep).1
  refine ⟨hV, Real.sqrt_nonneg _, ?_⟩
  have h2 : 0 ≤ d k * var k := by
    rw [← h1]
    unfold offRay norm2
    exact div_nonneg (Finset.sum_nonneg fun _ _ => Complex.normSq_nonneg _)
      (Finset.sum_nonneg fun _ _ => Complex.normSq_nonneg _)
  rw [Real.sq_sqrt h2, h1]

/-- C107 for `Euler` with samples of relative error `ε < 1`. -/
theorem c107_euler_sampled [Nonempty C] (hs : SmoothOn logPsi D G Λ) (hD : Convex ℝ D)
    (hH : SlowHamiltonian H T M h) (φ : ℝ → C → ℂ) (hφ : Evolves H Complex.I φ T) (hφ0 : φ 0 ≠ 0) (dt : ℝ)
    (hdt : 0 ≤ dt) (f : VRhs (Fin (n + 1) → ℝ) σ) (θ₀ : Fin (n + 1) → ℝ) (s₀ : σ) (V : ℝ) (d var : ℕ → ℝ)
    (E : ℕ → ℂ) (N : ℕ) (hN : N * dt ≤ T) (hin : ∀ k ≤ N, (eulerLoop dt f k 0 θ₀ s₀).2.1 ∈ D) (hε : ε < 1)
    (hcall : ∀ k < N, ∀ t θ s, eulerLoop dt f k 0 θ₀ s₀ = (t, θ, s) → ‖(f θ t 0 s).1‖ ≤ V ∧
      SampledReport ε (kernel t) (H t) logPsi Complex.I θ (f θ t 0 s).1 (d k) (E k) (var k)) :
    stateDistance (φ (N * dt)) (fun c => Complex.exp (logPsi (eulerLoop dt f N 0 θ₀ s₀).2.1 c))
      ≤ stateDistance (φ 0) (fun c => Complex.exp (logPsi θ₀ c))
        + ∑ k ∈ Finset.range N, dt * √(d k * var k / (1 - ε))
        + N * dt * (dt * ((Λ * V ^ 2 + h + 2 * (G * V) * (G * V + M)) / 2)) := by
  refine euler_run hs hD hH φ hφ hφ0 dt hdt f θ₀ s₀ V (fun k => √(d k * var k / (1 - ε))) N hN hin ?_
  intro k hk t θ s hr
  obtain ⟨hV, hrep⟩ := hcall k hk t θ s hr
  have h1 := (c104_reported (by simp) hε.le hrep).2.2.2.1
  have hpos : 0 < 1 - ε := by linarith
  refine ⟨hV, Real.sqrt_nonneg _, ?_⟩
  have h2 : 0 ≤ d k * var k := by
    refine le_trans (mul_nonneg hpos.le ?_) h1
    unfold offRay norm2
    exact div_nonneg (Finset.sum_nonneg fun _ _ => Complex.normSq_nonneg _)
      (Finset.sum_nonneg fun _ _ => Complex.normSq_nonneg _)
  rw [Real.sq_sqrt (div_nonneg h2 hpos.le), le_div_iff₀ hpos, mul_comm]
  exact h1

omit [DecidableEq C] in
/-- Close parameters give close states. -/
theorem distance_params [Nonempty C] (hs : SmoothOn logPsi D G Λ) (hD : Convex ℝ D) (χ : C → ℂ) (hχ : χ ≠ 0)
    {θ θ' : Fin (n + 1) → ℝ} (hθ : θ ∈ D) (hθ' : θ' ∈ D) :
    stateDistance χ (fun c => Complex.exp (logPsi θ' c))
      ≤ stateDistance χ (fun c => Complex.exp (logPsi θ c)) + G * ‖θ' - θ‖ := by
  obtain ⟨c₀⟩ := ‹Nonempty C›
  have hne : ∀ p, (fun c => Complex.exp (logPsi p c)) ≠ 0 := fun p h0 => Complex.exp_ne_zero _ (congrFun h0 c₀)
  have hseg : ∀ τ ∈ Icc (0 : ℝ) 1, θ + τ • (θ' - θ) ∈ D := by
    intro τ hτ
    have := hD hθ hθ' (a := 1 - τ) (b := τ) (by linarith [hτ.2]) hτ.1 (by ring)
    have e : (1 - τ) • θ + τ • θ' = θ + τ • (θ' - θ) := by
      rw [smul_sub, sub_smul, one_smul]
      abel
    rwa [e] at this
  have hg : 0 ≤ G * ‖θ' - θ‖ := mul_nonneg hs.bound_nonneg (norm_nonneg _)
  have key := c97_distance (H := fun _ => (0 : Matrix C C ℂ)) 1 zero_le_one
    (fun _ _ => Matrix.isHermitian_zero) (fun _ => χ)
    (fun τ c => Complex.exp (logPsi (θ + τ • (θ' - θ)) c))
    (fun τ c => fderiv ℝ (fun p => logPsi p c) (θ + τ • (θ' - θ)) (θ' - θ)
      * Complex.exp (logPsi (θ + τ • (θ' - θ)) c))
    (by
      intro t _ s
      simpa using hasDerivWithinAt_const t (Icc (0 : ℝ) 1) (χ s)) hχ
    (fun τ hτ s => (segment_deriv (hs.differentiable _ (hseg τ hτ) s)).hasDerivWithinAt) (fun τ _ => hne _)
    (fun _ => G * ‖θ' - θ‖) (fun τ => τ * (G * ‖θ' - θ‖)) (fun _ _ => hg)
    (fun τ _ => by simpa using ((hasDerivAt_id τ).mul_const (G * ‖θ' - θ‖)).hasDerivWithinAt) (by
      intro τ hτ
      refine offRay_le _ _ (hne _) 0 _ ?_
      refine le_trans (le_of_eq ?_) (toE_mul_le (fun c => fderiv ℝ (fun p => logPsi p c) (θ + τ • (θ' - θ)) (θ' - θ))
        _ _ hg fun s => hs.bound _ (hseg τ hτ) s _)
      congr 1
      ext s
      simp [toE])
  simpa using key

omit [DecidableEq C] in
theorem evolves_mono {φ : ℝ → C → ℂ} {x : ℂ} {t : ℝ} (h : Evolves H x φ T) (ht : t ≤ T) : Evolves H x φ t :=
  fun τ hτ s => (h τ ⟨hτ.1, hτ.2.trans ht⟩ s).mono (Icc_subset_Icc_right ht)

/-- Parameters `x` close to the solution of the TDVP equation. -/
theorem near_flow [Nonempty C] (hs : SmoothOn logPsi D G Λ) (hD : Convex ℝ D)
    (φ : ℝ → C → ℂ) (hφ : Evolves H Complex.I φ T) (hφ0 : φ 0 ≠ 0)
    {F : (Fin (n + 1) → ℝ) → ℝ → Fin (n + 1) → ℝ} {y : ℝ → Fin (n + 1) → ℝ} (hy : IsSolution F y 0 T)
    (d var : ℝ → ℝ)
    (hcall : ∀ t ∈ Icc 0 T, TdvpReport (kernel t) (H t) logPsi Complex.I (y t) (F (y t) t) (d t) (var t))
    (B : ℝ → ℝ) (hB : ∀ t ∈ Icc 0 T, HasDerivWithinAt B (√(d t * var t)) (Icc 0 T) t)
    {t : ℝ} (ht : t ∈ Icc 0 T) {x : Fin (n + 1) → ℝ} (hxD : x ∈ D) (hyD : y t ∈ D) {δ : ℝ} (hx : ‖x - y t‖ ≤ δ) :
    stateDistance (φ t) (fun c => Complex.exp (logPsi x c))
      ≤ stateDistance (φ 0) (fun c => Complex.exp (logPsi (y 0) c)) + (B t - B 0) + G * δ := by
  have hsub : Icc 0 t ⊆ Icc 0 T := Icc_subset_Icc_right ht.2
  have h1 := c97_real_time logPsi ht.1 y (fun t => F (y t) t) d var
    (fun τ hτ => (hy τ (hsub hτ)).mono hsub) (fun τ hτ => hcall τ (hsub hτ)) B
    (fun τ hτ => (hB τ (hsub hτ)).mono hsub) φ (evolves_mono hφ ht.2) hφ0
  have hO := fun t ht => (report_distance (by simp) (hcall t ht)).2.2
  have h2 := distance_params hs hD (φ t) (evolves_ne 1 hO (by simpa using hφ) hφ0 t ht) hyD hxD
  have h3 := mul_le_mul_of_nonneg_left hx hs.bound_nonneg
  linarith

/-- C107 for `Heun`: the distance from the exact state is at most what the TDVP errors along the solution `y` of
the TDVP equation amount to, plus a discretisation error of second order in `dt` (C96). -/
theorem c107_heun [Nonempty C] (hs : SmoothOn logPsi D G Λ) (hD : Convex ℝ D)
    (φ : ℝ → C → ℂ) (hφ : Evolves H Complex.I φ T) (hφ0 : φ 0 ≠ 0)
    {F : (Fin (n + 1) → ℝ) → ℝ → Fin (n + 1) → ℝ} {y : ℝ → Fin (n + 1) → ℝ} (hy : IsSolution F y 0 T)
    {K K' L R ε : ℝ} (hK : SlowVelocity F y 0 T K) (hK' : SlowAcceleration F y 0 T K')
    (hL : LipschitzNear F y 0 T R L) {f : VRhs (Fin (n + 1) → ℝ) σ} (hf : EvaluatesNear f F y 0 T R ε)
    (d var : ℝ → ℝ)
    (hcall : ∀ t ∈ Icc 0 T, TdvpReport (kernel t) (H t) logPsi Complex.I (y t) (F (y t) t) (d t) (var t))
    (B : ℝ → ℝ) (hB : ∀ t ∈ Icc 0 T, HasDerivWithinAt B (√(d t * var t)) (Icc 0 T) t)
    (dt : ℝ) (hdt : 0 ≤ dt) (N : ℕ) (hN : N * dt ≤ T) (s : σ)
    (hR : (1 + dt * L) * accumulated (L + dt * L ^ 2 / 2)
      (ε * (1 + dt * L / 2) + dt ^ 2 * ((L * K + K') / 2)) 0 (N * dt) + dt * (ε + K * dt) ≤ R)
    (hin : ∀ x, ‖x - y (N * dt)‖ ≤ R → x ∈ D) :
    (heunLoop dt f N 0 (y 0) s).1 = N * dt ∧
    stateDistance (φ (N * dt)) (fun c => Complex.exp (logPsi (heunLoop dt f N 0 (y 0) s).2.1 c))
      ≤ stateDistance (φ 0) (fun c => Complex.exp (logPsi (y 0) c)) + (B (N * dt) - B 0)
        + G * accumulated (L + dt * L ^ 2 / 2)
          (ε * (1 + dt * L / 2) + dt ^ 2 * ((L * K + K') / 2)) 0 (N * dt) := by
  have h1 := c96_heun hy hK hK' hL hf dt hdt N (by rw [zero_add]; exact hN) (y 0) s
    (by rw [sub_self, norm_zero]; exact hR)
  rw [sub_self, norm_zero, zero_add] at h1
  have hacc : 0 ≤ accumulated (L + dt * L ^ 2 / 2) (ε * (1 + dt * L / 2) + dt ^ 2 * ((L * K + K') / 2)) 0
      (N * dt) := (norm_nonneg _).trans h1.2
  have hL0 := hL.1
  have hdL : 0 ≤ dt * L := mul_nonneg hdt hL0
  have hR0 : accumulated (L + dt * L ^ 2 / 2) (ε * (1 + dt * L / 2) + dt ^ 2 * ((L * K + K') / 2)) 0
      (N * dt) ≤ R := by
    have hr : 0 ≤ dt * (ε + K * dt) := mul_nonneg hdt (add_nonneg hf.1 (mul_nonneg hK.1 hdt))
    nlinarith [mul_nonneg hdL hacc]
  refine ⟨h1.1, near_flow hs hD φ hφ hφ0 hy d var hcall B hB ⟨by positivity, hN⟩ (hin _ (h1.2.trans hR0))
    (hin _ ?_) h1.2⟩
  rw [sub_self, norm_zero]
  exact hacc.trans hR0

/-- C107 for `AdaptiveHeun`, whatever time steps are chosen. -/
theorem c107_adaptive [Nonempty C] (hs : SmoothOn logPsi D G Λ) (hD : Convex ℝ D)
    (φ : ℝ → C → ℂ) (hφ : Evolves H Complex.I φ T) (hφ0 : φ 0 ≠ 0)
    {F : (Fin (n + 1) → ℝ) → ℝ → Fin (n + 1) → ℝ} {y : ℝ → Fin (n + 1) → ℝ} (hy : IsSolution F y 0 T)
    {K K' L R ε : ℝ} (hK : SlowVelocity F y 0 T K) (hK' : SlowAcceleration F y 0 T K')
    (hL : LipschitzNear F y 0 T R L) {g : VRhs (Fin (n + 1) → ℝ) σ} (hg : EvaluatesNear g F y 0 T R ε)
    (inplace : Bool) (f : RRhs (Fin (n + 1) → ℝ) σ) (hf : Computes inplace f g)
    (d var : ℝ → ℝ)
    (hcall : ∀ t ∈ Icc 0 T, TdvpReport (kernel t) (H t) logPsi Complex.I (y t) (F (y t) t) (d t) (var t))
    (B : ℝ → ℝ) (hB : ∀ t ∈ Icc 0 T, HasDerivWithinAt B (√(d t * var t)) (Icc 0 T) t)
    (norm : (Fin (n + 1) → ℝ) → ℝ) (hnorm : ∀ x, 0 ≤ norm x) (obj : AHeun) (htol : 0 < obj.tolerance)
    (hdt : 0 < obj.dt) (hle : obj.dt ≤ obj.maxStep) (w : List (Fin (n + 1) → ℝ) × σ)
    (hR : (1 + obj.maxStep / 2 * L) * accumulated (L + obj.maxStep / 2 * L ^ 2 / 2)
      (ε * (1 + obj.maxStep / 2 * L / 2) + (obj.maxStep / 2) ^ 2 * ((L * K + K') / 2)) 0 T
        + obj.maxStep / 2 * (ε + K * (obj.maxStep / 2)) ≤ R)
    (N : ℕ) (t' : ℝ) (x' : Fin (n + 1) → ℝ) (obj' : AHeun) (w' : List (Fin (n + 1) → ℝ) × σ)
    (hres : ahLoop inplace f norm N obj 0 (y 0) w = .ok (t', x', obj', w')) (hT : t' ≤ T)
    (hxD : x' ∈ D) (hyD : y t' ∈ D) :
    stateDistance (φ t') (fun c => Complex.exp (logPsi x' c))
      ≤ stateDistance (φ 0) (fun c => Complex.exp (logPsi (y 0) c)) + (B t' - B 0)
        + G * accumulated (L + obj.maxStep / 2 * L ^ 2 / 2)
          (ε * (1 + obj.maxStep / 2 * L / 2) + (obj.maxStep / 2) ^ 2 * ((L * K + K') / 2)) 0 t' := by
  have h1 := c96_adaptive hy hK hK' hL hg inplace f hf norm hnorm obj htol hdt hle (y 0) w
    (by rw [sub_self, norm_zero, sub_zero]; exact hR) N t' x' obj' w' hres hT
  rw [sub_self, norm_zero, sub_zero] at h1
  exact near_flow hs hD φ hφ hφ0 hy d var hcall B hB ⟨h1.1, hT⟩ hxD hyD h1.2

/-- C107 for measurements: what `measure` reports with exactly weighted samples of parameters `θ` deviates from
the expectation value in the exact state by at most twice the norm of the observable times the distance. -/
theorem c107_measure [Nonempty C] (φ : C → ℂ) (hφ : φ ≠ 0) (θ : Fin (n + 1) → ℝ) (δ : ℝ)
    (hδ : stateDistance φ (fun c => Complex.exp (logPsi θ c)) ≤ δ)
    (kernelA : C → List (C × ℂ)) (A : Matrix C C ℂ) (hA : OperatorOf kernelA A) (MA : ℝ)
    (hM : NormAtMost A MA) (zeroCfg : C) (b : ℤ) (num : Option ℕ) (w : World (C × ℂ × ℝ))
    (hw : SamplesOf (logPsi θ) w) (hb : BornWeights (fun c => Complex.exp (logPsi θ c)) (weighted w)) :
    ∃ res, measureOp kernelA ⟨logPsi θ, true⟩ zeroCfg b num w = .ok res ∧
      ∀ r ∈ res, |r.mean - (Spec.expect A φ).re| ≤ 2 * MA * δ := by
  obtain ⟨res, h1, -, h2⟩ := c77_mean hA ⟨logPsi θ, true⟩ rfl zeroCfg b num w hw hb
  refine ⟨res, h1, fun r hr => ?_⟩
  rw [h2 r hr, ← Complex.sub_re]
  obtain ⟨c₀⟩ := ‹Nonempty C›
  have he := c97_expect A MA hM φ (fun c => Complex.exp (logPsi θ c)) hφ
    (fun h0 => Complex.exp_ne_zero _ (congrFun h0 c₀))
  refine (Complex.abs_re_le_norm _).trans ?_
  rw [norm_sub_rev]
  refine he.trans (mul_le_mul_of_nonneg_left hδ ?_)
  have := hM.1
  positivity

end

/-! ### A case: one spin in a field along `z`, as for C97 -/

theorem phase_smooth : SmoothOn phaseLog univ 1 0 := by
  have hf : ∀ (s : Fin 2) (θ : Fin 1 → ℝ), HasFDerivAt (fun p => phaseLog p s)
      (LinearMap.toContinuousLinearMap (phaseLinear s)) θ := fun s θ =>
    (LinearMap.toContinuousLinearMap (phaseLinear s)).hasFDerivAt
  refine ⟨zero_le_one, le_rfl, fun θ _ s => (hf s θ).differentiableAt, ?_, ?_⟩
  · intro θ _ s v
    rw [(hf s θ).fderiv, one_mul]
    change ‖phaseLog v s‖ ≤ ‖v‖
    have h1 : ‖phaseLog v s‖ = ‖v 0‖ := by
      unfold phaseLog
      rw [norm_mul, norm_mul, Complex.norm_I, one_mul, Complex.norm_real]
      fin_cases s <;> norm_num
    rw [h1]
    exact norm_le_pi_norm v 0
  · intro θ _ θ' _ s v
    rw [(hf s θ).fderiv, (hf s θ').fderiv]
    simp

theorem phase_slow (T : ℝ) : SlowHamiltonian (fun _ => phaseMatrix) T 1 0 := by
  refine ⟨le_rfl, fun _ _ => ?_, fun _ _ => ⟨zero_le_one, fun v => ?_⟩, fun _ _ _ _ _ => ?_⟩
  · ext i j
    fin_cases i <;> fin_cases j <;> simp [phaseMatrix, Matrix.conjTranspose_apply]
  · unfold norm2 phaseMatrix
    simp [Matrix.mulVec, dotProduct, Fin.sum_univ_two]
  · rw [sub_self, zero_mul]
    exact ⟨le_rfl, fun v => by simp [norm2]⟩

/-- Case for `c107_euler`: `N` steps with the velocities that the calls return. -/
example (dt : ℝ) (hdt : 0 ≤ dt) (N : ℕ) : ∃ (u : Fin 1 → ℝ) (d var : ℝ),
    stateDistance (fun s => Complex.exp (-(Complex.I * (N * dt : ℝ) * (1 - 2 * (s.val : ℂ)))))
      (fun c => Complex.exp (phaseLog (eulerLoop dt (fun _ _ _ (s : Unit) => (u, s)) N 0 0 ()).2.1 c))
      ≤ N * dt * √(d * var) + N * dt * (dt * ((0 * ‖u‖ ^ 2 + 0 + 2 * (1 * ‖u‖) * (1 * ‖u‖ + 1)) / 2)) := by
  obtain ⟨u, d, var, h⟩ := phase_report
  refine ⟨u, d, var, ?_⟩
  have := c107_euler (kernel := fun _ => phaseKernel) phase_smooth convex_univ (phase_slow (N * dt)) _
    (phase_evolves (N * dt)) (fun h0 => Complex.exp_ne_zero _ (congrFun h0 0)) dt hdt
    (fun _ _ _ (s : Unit) => (u, s)) 0 () ‖u‖ (fun _ => d) (fun _ => var) N le_rfl (fun _ _ => mem_univ _)
    (fun k _ t θ s _ => ⟨le_rfl, h θ⟩)
  have h0 : stateDistance (fun s : Fin 2 => Complex.exp (-(Complex.I * (0 : ℝ) * (1 - 2 * (s.val : ℂ)))))
      (fun c => Complex.exp (phaseLog 0 c)) = 0 := by
    have h1 : (fun s : Fin 2 => Complex.exp (-(Complex.I * (0 : ℝ) * (1 - 2 * (s.val : ℂ)))))
        = fun c => Complex.exp (phaseLog 0 c) := by
      funext s
      simp [phaseLog]
    rw [h1]
    exact distance_self _ fun h0 => Complex.exp_ne_zero _ (congrFun h0 0)
  rw [h0, Finset.sum_const, Finset.card_range, nsmul_eq_mul, ← mul_assoc] at this
  linarith

/-- Case for `c107_euler_sampled`. -/
example (dt : ℝ) (hdt : 0 ≤ dt) (N : ℕ) : ∃ (u : Fin 1 → ℝ) (d var : ℝ),
    stateDistance (fun s => Complex.exp (-(Complex.I * (N * dt : ℝ) * (1 - 2 * (s.val : ℂ)))))
      (fun c => Complex.exp (phaseLog (eulerLoop dt (fun _ _ _ (s : Unit) => (u, s)) N 0 0 ()).2.1 c))
      ≤ stateDistance (fun s : Fin 2 => Complex.exp (-(Complex.I * (0 : ℝ) * (1 - 2 * (s.val : ℂ)))))
          (fun c => Complex.exp (phaseLog 0 c))
        + ∑ _k ∈ Finset.range N, dt * √(d * var / (1 - 1 / 10))
        + N * dt * (dt * ((0 * ‖u‖ ^ 2 + 0 + 2 * (1 * ‖u‖) * (1 * ‖u‖ + 1)) / 2)) := by
  obtain ⟨u, d, E, var, h⟩ := phase_sampled
  refine ⟨u, d, var, ?_⟩
  exact c107_euler_sampled (kernel := fun _ => phaseKernel) phase_smooth convex_univ (phase_slow (N * dt)) _
    (phase_evolves (N * dt)) (fun h0 => Complex.exp_ne_zero _ (congrFun h0 0)) dt hdt
    (fun _ _ _ (s : Unit) => (u, s)) 0 () ‖u‖ (fun _ => d) (fun _ => var)
    (fun k => E (eulerLoop dt (fun _ _ _ (s : Unit) => (u, s)) k 0 0 ()).2.1) N le_rfl (fun _ _ => mem_univ _)
    (by norm_num) (fun k _ t θ s hk => ⟨le_rfl, by rw [hk]; exact h θ⟩)

/-- Case for `c107_heun`: the velocities of this network are constant. -/
example (dt : ℝ) (hdt : 0 ≤ dt) (N : ℕ) : ∃ (u : Fin 1 → ℝ) (d var : ℝ),
    stateDistance (fun s => Complex.exp (-(Complex.I * (N * dt : ℝ) * (1 - 2 * (s.val : ℂ)))))
      (fun c => Complex.exp (phaseLog (heunLoop dt (fun _ _ _ (s : Unit) => (u, s)) N 0 ((0 : ℝ) • u) ()).2.1 c))
      ≤ stateDistance (fun s : Fin 2 => Complex.exp (-(Complex.I * (0 : ℝ) * (1 - 2 * (s.val : ℂ)))))
          (fun c => Complex.exp (phaseLog ((0 : ℝ) • u) c)) + (N * dt * √(d * var) - 0 * √(d * var))
        + 1 * accumulated (0 + dt * 0 ^ 2 / 2) (0 * (1 + dt * 0 / 2) + dt ^ 2 * ((0 * 0 + 0) / 2)) 0 (N * dt) := by
  obtain ⟨u, d, var, h⟩ := phase_report
  refine ⟨u, d, var, ?_⟩
  have hu : ∀ t : ℝ, HasDerivAt (fun t : ℝ => t • u) u t := fun t => by
    simpa using (hasDerivAt_id t).smul_const u
  exact (c107_heun (T := N * dt) (kernel := fun _ => phaseKernel) phase_smooth convex_univ _ (phase_evolves (N * dt))
    (fun h0 => Complex.exp_ne_zero _ (congrFun h0 0)) (F := fun _ _ => u) (y := fun t => t • u)
    (fun t _ => (hu t).hasDerivWithinAt) (K := 0) (K' := 0) (L := 0) (R := 1) (ε := 0)
    ⟨le_rfl, by simp⟩ ⟨le_rfl, fun _ => 0, fun t _ => hasDerivWithinAt_const t _ u, by simp⟩ ⟨le_rfl, by simp⟩
    (f := fun _ _ _ (s : Unit) => (u, s)) ⟨le_rfl, by simp⟩ (fun _ => d) (fun _ => var) (fun t _ => h _)
    (fun t => t * √(d * var)) (fun t _ => by simpa using ((hasDerivAt_id t).mul_const (√(d * var))).hasDerivWithinAt)
    dt hdt N le_rfl () (by simp [accumulated]) (fun _ _ => mem_univ _)).2

end JVMC
