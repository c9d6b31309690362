import Mathlib.Analysis.Calculus.Deriv.Pow
import Mathlib.Analysis.SpecialFunctions.ExpDeriv
import Mathlib.Analysis.SpecialFunctions.Trigonometric.Deriv
import Verif.Lemmas.Convergence
import Verif.Model.Trajectory
import Verif.Props.Stepper

/-!
# C96: integrated trajectories converge to the solution

`F` is the exact right-hand side, `y` a solution. The evaluations `f` may deviate from `F` by up to `ε`
(e.g. due to sampling); `F` has to be Lipschitz continuous only close to the solution.
-/

namespace JVMC

open Spec Set Filter Topology

variable {M σ : Type} [NormedAddCommGroup M] [NormedSpace ℝ M]

section fixed

variable {F : M → ℝ → M} {y : ℝ → M} {a b K K' L R ε : ℝ} {f : VRhs M σ}

theorem euler_loop (hy : IsSolution F y a b) (hK : SlowVelocity F y a b K)
    (hL : LipschitzNear F y a b R L) (hf : EvaluatesNear f F y a b R ε) {dt : ℝ} (hdt : 0 ≤ dt)
    {e₀ : ℝ} (he₀ : 0 ≤ e₀) (n : ℕ) (t : ℝ) (x : M) (s : σ) (ha : a ≤ t) (hn : t + n * dt ≤ b)
    (hR : accumulated L (ε + K * dt) e₀ (t - a + n * dt) ≤ R)
    (hx : ‖x - y t‖ ≤ accumulated L (ε + K * dt) e₀ (t - a)) :
    (eulerLoop dt f n t x s).1 = t + n * dt ∧
      ‖(eulerLoop dt f n t x s).2.1 - y (t + n * dt)‖
        ≤ accumulated L (ε + K * dt) e₀ (t - a + n * dt) := by
  have hr : 0 ≤ ε + K * dt := add_nonneg hf.1 (mul_nonneg hK.1 hdt)
  induction n generalizing t x s with
  | zero => simpa [eulerLoop] using hx
  | succ n ih =>
    push_cast at hn hR ⊢
    have hnd : 0 ≤ (n : ℝ) * dt := by positivity
    have hxR : ‖x - y t‖ ≤ R := hx.trans ((accumulated_mono hL.1 hr he₀ (by linarith)
      (by nlinarith)).trans hR)
    have htm : t ∈ Icc a b := ⟨ha, by nlinarith⟩
    have h1 := euler_error hy hK hL hdt ha (by nlinarith) hxR (hf.2 t htm x 0 s hxR)
    have h2 := accumulated_step hL.1 hr he₀ (by linarith) hdt hx h1
    have e : t - a + dt = t + dt - a := by ring
    have e2 : t + dt - a + n * dt = t - a + (n + 1) * dt := by ring
    have e3 : t + dt + n * dt = t + (n + 1) * dt := by ring
    rw [e] at h2
    have h3 := ih (t + dt) (x + dt • (f x t 0 s).1) (f x t 0 s).2 (by linarith) (by linarith)
      (by rw [e2]; exact hR) h2
    rw [e2, e3] at h3
    exact h3

/-- Repeated `Euler` steps follow the solution up to an error of first order in the time step, and of
first order in the deviations of the right-hand side. -/
theorem c96_euler (hy : IsSolution F y a b) (hK : SlowVelocity F y a b K)
    (hL : LipschitzNear F y a b R L) (hf : EvaluatesNear f F y a b R ε) (dt : ℝ) (hdt : 0 ≤ dt)
    (n : ℕ) (hn : a + n * dt ≤ b) (y₀ : M) (s : σ)
    (hR : accumulated L (ε + K * dt) ‖y₀ - y a‖ (n * dt) ≤ R) :
    (eulerLoop dt f n a y₀ s).1 = a + n * dt ∧
      ‖(eulerLoop dt f n a y₀ s).2.1 - y (a + n * dt)‖
        ≤ accumulated L (ε + K * dt) ‖y₀ - y a‖ (n * dt) := by
  have h := euler_loop hy hK hL hf hdt (norm_nonneg (y₀ - y a)) n a y₀ s le_rfl hn
    (by simpa using hR) (by simp [accumulated])
  simpa using h

theorem heun_loop (hy : IsSolution F y a b) (hK : SlowVelocity F y a b K)
    (hK' : SlowAcceleration F y a b K') (hL : LipschitzNear F y a b R L)
    (hf : EvaluatesNear f F y a b R ε) {dt : ℝ} (hdt : 0 ≤ dt)
    {e₀ : ℝ} (he₀ : 0 ≤ e₀) (n : ℕ) (t : ℝ) (x : M) (s : σ) (ha : a ≤ t) (hn : t + n * dt ≤ b)
    (hR : (1 + dt * L) * accumulated (L + dt * L ^ 2 / 2)
      (ε * (1 + dt * L / 2) + dt ^ 2 * ((L * K + K') / 2)) e₀ (t - a + n * dt)
        + dt * (ε + K * dt) ≤ R)
    (hx : ‖x - y t‖ ≤ accumulated (L + dt * L ^ 2 / 2)
      (ε * (1 + dt * L / 2) + dt ^ 2 * ((L * K + K') / 2)) e₀ (t - a)) :
    (heunLoop dt f n t x s).1 = t + n * dt ∧
      ‖(heunLoop dt f n t x s).2.1 - y (t + n * dt)‖ ≤ accumulated (L + dt * L ^ 2 / 2)
        (ε * (1 + dt * L / 2) + dt ^ 2 * ((L * K + K') / 2)) e₀ (t - a + n * dt) := by
  have hL0 := hL.1
  have hK0 := hK.1
  have hK'0 := hK'.1
  have hε := hf.1
  set r := ε * (1 + dt * L / 2) + dt ^ 2 * ((L * K + K') / 2) with hrdef
  set g := L + dt * L ^ 2 / 2 with hgdef
  have hr : 0 ≤ r := by rw [hrdef]; positivity
  have hg : 0 ≤ g := by rw [hgdef]; positivity
  induction n generalizing t x s with
  | zero => simpa [heunLoop] using hx
  | succ n ih =>
    push_cast at hn hR ⊢
    have hnd : 0 ≤ (n : ℝ) * dt := by positivity
    have hm := accumulated_mono (τ := t - a) (τ' := t - a + (n + 1) * dt) hg hr he₀ (by linarith)
      (by nlinarith)
    have hxR : (1 + dt * L) * ‖x - y t‖ + dt * (ε + K * dt) ≤ R := by
      refine le_trans ?_ hR
      have : 0 ≤ 1 + dt * L := by positivity
      have := mul_le_mul_of_nonneg_left (hx.trans hm) this
      linarith
    have hxR' : ‖x - y t‖ ≤ R := by
      have h1 : 0 ≤ dt * L * ‖x - y t‖ := by positivity
      have h2 : 0 ≤ dt * (ε + K * dt) := by positivity
      nlinarith
    have htm : t ∈ Icc a b := ⟨ha, by nlinarith⟩
    have htm' : t + dt ∈ Icc a b := ⟨by linarith, by nlinarith⟩
    have h1 := heun_error (k0 := (f x t 0 s).1)
      (k1 := (f (x + dt • (f x t 0 s).1) (t + dt) 1 (f x t 0 s).2).1) hy hK hK' hL hdt le_rfl ha
      (by nlinarith) hε hxR (hf.2 t htm x 0 s hxR') (fun h => hf.2 _ htm' _ 1 _ h)
    rw [← hgdef, ← hrdef] at h1
    have h2 := accumulated_step hg hr he₀ (by linarith) hdt hx h1
    have e : t - a + dt = t + dt - a := by ring
    have e2 : t + dt - a + n * dt = t - a + (n + 1) * dt := by ring
    have e3 : t + dt + n * dt = t + (n + 1) * dt := by ring
    rw [e] at h2
    have h3 := ih (t + dt) (x + (dt / 2) • ((f x t 0 s).1
      + (f (x + dt • (f x t 0 s).1) (t + dt) 1 (f x t 0 s).2).1))
      (f (x + dt • (f x t 0 s).1) (t + dt) 1 (f x t 0 s).2).2 (by linarith) (by linarith)
      (by rw [e2]; exact hR) h2
    rw [e2, e3] at h3
    have e4 : heunLoop dt f (n + 1) t x s = heunLoop dt f n (t + dt)
        (x + (dt / 2) • ((f x t 0 s).1 + (f (x + dt • (f x t 0 s).1) (t + dt) 1 (f x t 0 s).2).1))
        (f (x + dt • (f x t 0 s).1) (t + dt) 1 (f x t 0 s).2).2 := by
      rw [heunLoop]
      simp only [heunStep]
      congr 2
      ring_nf
    rw [e4]
    exact h3

/-- Repeated `Heun` steps follow the solution up to an error of second order in the time step, and of
first order in the deviations of the right-hand side. -/
theorem c96_heun (hy : IsSolution F y a b) (hK : SlowVelocity F y a b K)
    (hK' : SlowAcceleration F y a b K') (hL : LipschitzNear F y a b R L)
    (hf : EvaluatesNear f F y a b R ε) (dt : ℝ) (hdt : 0 ≤ dt)
    (n : ℕ) (hn : a + n * dt ≤ b) (y₀ : M) (s : σ)
    (hR : (1 + dt * L) * accumulated (L + dt * L ^ 2 / 2)
      (ε * (1 + dt * L / 2) + dt ^ 2 * ((L * K + K') / 2)) ‖y₀ - y a‖ (n * dt)
        + dt * (ε + K * dt) ≤ R) :
    (heunLoop dt f n a y₀ s).1 = a + n * dt ∧
      ‖(heunLoop dt f n a y₀ s).2.1 - y (a + n * dt)‖ ≤ accumulated (L + dt * L ^ 2 / 2)
        (ε * (1 + dt * L / 2) + dt ^ 2 * ((L * K + K') / 2)) ‖y₀ - y a‖ (n * dt) := by
  have h := heun_loop hy hK hK' hL hf hdt (norm_nonneg (y₀ - y a)) n a y₀ s le_rfl hn
    (by simpa using hR) (by simp [accumulated])
  simpa using h

omit [NormedSpace ℝ M] in
theorem exact_evaluates (F : M → ℝ → M) (y : ℝ → M) (a b R : ℝ) :
    EvaluatesNear (fun x t _ (s : σ) => (F x t, s)) F y a b R 0 :=
  ⟨le_rfl, fun t _ x k s _ => by simp⟩

/-- With more and more `Euler` steps the result tends to the solution. -/
theorem c96_euler_limit (hab : a ≤ b) (hy : IsSolution F y a b) (hK : SlowVelocity F y a b K)
    (hL : LipschitzNear F y a b R L) (hR : 0 < R) (s : σ) :
    Tendsto (fun N : ℕ => (eulerLoop ((b - a) / ((N + 1 : ℕ) : ℝ)) (fun x t _ (s : σ) => (F x t, s))
      (N + 1) a (y a) s).2.1) atTop (𝓝 (y b)) := by
  have hb0 : Tendsto (fun N : ℕ => (b - a) / ((N + 1 : ℕ) : ℝ)) atTop (𝓝 0) := by
    have h1 : Tendsto (fun N : ℕ => ((N + 1 : ℕ) : ℝ)) atTop atTop :=
      tendsto_natCast_atTop_atTop.comp (tendsto_add_atTop_nat 1)
    exact tendsto_const_nhds.div_atTop h1
  have hb1 : Tendsto (fun N : ℕ => accumulated L (0 + K * ((b - a) / ((N + 1 : ℕ) : ℝ))) 0 (b - a))
      atTop (𝓝 0) := by
    unfold accumulated
    have := ((hb0.const_mul K).const_mul (b - a)).const_mul (Real.exp (L * (b - a)))
    simpa using this
  rw [tendsto_iff_norm_sub_tendsto_zero]
  refine squeeze_zero_norm' ?_ hb1
  have hev := hb1.eventually (gt_mem_nhds hR)
  filter_upwards [hev] with N hN
  rw [norm_norm]
  have hpos : (0 : ℝ) < ((N + 1 : ℕ) : ℝ) := by positivity
  have hmul : ((N + 1 : ℕ) : ℝ) * ((b - a) / ((N + 1 : ℕ) : ℝ)) = b - a := by
    field_simp
  have h := c96_euler (σ := σ) hy hK hL (exact_evaluates F y a b R) ((b - a) / ((N + 1 : ℕ) : ℝ))
    (div_nonneg (by linarith) hpos.le) (N + 1) (by rw [hmul]; linarith) (y a) s
    (by rw [hmul, sub_self, norm_zero]; exact hN.le)
  rw [hmul, sub_self, norm_zero, add_sub_cancel] at h
  exact h.2

/-- With more and more `Heun` steps the result tends to the solution. -/
theorem c96_heun_limit (hab : a ≤ b) (hy : IsSolution F y a b) (hK : SlowVelocity F y a b K)
    (hK' : SlowAcceleration F y a b K') (hL : LipschitzNear F y a b R L) (hR : 0 < R) (s : σ) :
    Tendsto (fun N : ℕ => (heunLoop ((b - a) / ((N + 1 : ℕ) : ℝ)) (fun x t _ (s : σ) => (F x t, s))
      (N + 1) a (y a) s).2.1) atTop (𝓝 (y b)) := by
  have hb0 : Tendsto (fun N : ℕ => (b - a) / ((N + 1 : ℕ) : ℝ)) atTop (𝓝 0) := by
    have h1 : Tendsto (fun N : ℕ => ((N + 1 : ℕ) : ℝ)) atTop atTop :=
      tendsto_natCast_atTop_atTop.comp (tendsto_add_atTop_nat 1)
    exact tendsto_const_nhds.div_atTop h1
  set B : ℝ → ℝ := fun d => accumulated (L + d * L ^ 2 / 2)
    (0 * (1 + d * L / 2) + d ^ 2 * ((L * K + K') / 2)) 0 (b - a) with hB
  have hBc : Continuous B := by
    rw [hB]
    unfold accumulated
    fun_prop
  have hb1 : Tendsto (fun N : ℕ => B ((b - a) / ((N + 1 : ℕ) : ℝ))) atTop (𝓝 0) := by
    have := (hBc.tendsto 0).comp hb0
    have e : B 0 = 0 := by simp [hB, accumulated]
    rw [e] at this
    exact this
  have hb2 : Tendsto (fun N : ℕ => (1 + (b - a) / ((N + 1 : ℕ) : ℝ) * L)
      * B ((b - a) / ((N + 1 : ℕ) : ℝ))
      + (b - a) / ((N + 1 : ℕ) : ℝ) * (0 + K * ((b - a) / ((N + 1 : ℕ) : ℝ)))) atTop (𝓝 0) := by
    have hc : Continuous fun d : ℝ => (1 + d * L) * B d + d * (0 + K * d) := by fun_prop
    have := (hc.tendsto 0).comp hb0
    have e : (1 + 0 * L) * B 0 + 0 * (0 + K * 0) = 0 := by simp [hB, accumulated]
    rw [e] at this
    exact this
  rw [tendsto_iff_norm_sub_tendsto_zero]
  refine squeeze_zero_norm' ?_ hb1
  have hev := hb2.eventually (gt_mem_nhds hR)
  filter_upwards [hev] with N hN
  rw [norm_norm]
  have hpos : (0 : ℝ) < ((N + 1 : ℕ) : ℝ) := by positivity
  have hmul : ((N + 1 : ℕ) : ℝ) * ((b - a) / ((N + 1 : ℕ) : ℝ)) = b - a := by
    field_simp
  have h := c96_heun (σ := σ) hy hK hK' hL (exact_evaluates F y a b R) ((b - a) / ((N + 1 : ℕ) : ℝ))
    (div_nonneg (by linarith) hpos.le) (N + 1) (by rw [hmul]; linarith) (y a) s
    (by rw [hmul, sub_self, norm_zero]; exact hN.le)
  rw [hmul, sub_self, norm_zero, add_sub_cancel] at h
  exact h.2

end fixed

section adaptive

variable {F : M → ℝ → M} {y : ℝ → M} {a b K K' L R ε : ℝ} {g : VRhs M σ}

theorem attempts_pos {norm : M → ℝ} {tol mx t : ℝ} {x : M} {dt dt' : ℝ} {s s' : σ} (hmx : 0 < mx)
    (hdt : 0 < dt) (h : Attempts g norm tol mx t x dt s dt' s') : 0 < dt' := by
  induction h with
  | accept _ _ _ => exact hdt
  | reject dt s _ _ _ _ ih =>
    apply ih
    apply lt_min _ hmx
    apply mul_pos hdt
    exact lt_of_lt_of_le (by norm_num) (le_max_left _ _)

/-- Two half steps. -/
theorem heunPair_error (hy : IsSolution F y a b) (hK : SlowVelocity F y a b K)
    (hK' : SlowAcceleration F y a b K') (hL : LipschitzNear F y a b R L)
    (hf : EvaluatesNear g F y a b R ε) {H : ℝ} {e₀ : ℝ} (he₀ : 0 ≤ e₀) {t d : ℝ} {x : M} {s : σ}
    (ha : a ≤ t) (hd : 0 ≤ d) (hdH : d ≤ 2 * H) (hb : t + d ≤ b)
    (hR : (1 + H * L) * accumulated (L + H * L ^ 2 / 2)
      (ε * (1 + H * L / 2) + H ^ 2 * ((L * K + K') / 2)) e₀ (b - a) + H * (ε + K * H) ≤ R)
    (hx : ‖x - y t‖ ≤ accumulated (L + H * L ^ 2 / 2)
      (ε * (1 + H * L / 2) + H ^ 2 * ((L * K + K') / 2)) e₀ (t - a)) :
    ‖x + (heunPair g t d x s).1.2 - y (t + d)‖ ≤ accumulated (L + H * L ^ 2 / 2)
      (ε * (1 + H * L / 2) + H ^ 2 * ((L * K + K') / 2)) e₀ (t + d - a) := by
  have hL0 := hL.1
  have hK0 := hK.1
  have hK'0 := hK'.1
  have hε := hf.1
  have hH0 : 0 ≤ H := by linarith
  set r := ε * (1 + H * L / 2) + H ^ 2 * ((L * K + K') / 2) with hrdef
  set w := L + H * L ^ 2 / 2 with hwdef
  have hr : 0 ≤ r := by rw [hrdef]; positivity
  have hw : 0 ≤ w := by rw [hwdef]; positivity
  -- one half step
  have half : ∀ (t' : ℝ) (x' : M) (k0 k1 : M), a ≤ t' → t' + d / 2 ≤ b →
      ‖x' - y t'‖ ≤ accumulated w r e₀ (t' - a) →
      (‖x' - y t'‖ ≤ R → ‖k0 - F x' t'‖ ≤ ε) →
      (‖x' + (d / 2) • k0 - y (t' + d / 2)‖ ≤ R →
        ‖k1 - F (x' + (d / 2) • k0) (t' + d / 2)‖ ≤ ε) →
      ‖x' + (d / 4) • (k0 + k1) - y (t' + d / 2)‖ ≤ accumulated w r e₀ (t' + d / 2 - a) := by
    intro t' x' k0 k1 ha' hb' hx' hk0 hk1
    have hm := accumulated_mono (τ := t' - a) (τ' := b - a) hw hr he₀ (by linarith) (by linarith)
    have hxR : (1 + H * L) * ‖x' - y t'‖ + H * (ε + K * H) ≤ R := by
      refine le_trans ?_ hR
      have : 0 ≤ 1 + H * L := by positivity
      have := mul_le_mul_of_nonneg_left (hx'.trans hm) this
      linarith
    have hxR' : ‖x' - y t'‖ ≤ R := by
      have h1 : 0 ≤ H * L * ‖x' - y t'‖ := by positivity
      have h2 : 0 ≤ H * (ε + K * H) := by positivity
      nlinarith
    have h1 := heun_error (h := d / 2) (H := H) hy hK hK' hL (by linarith) (by linarith) ha' hb' hε hxR
      (hk0 hxR') hk1
    rw [← hwdef, ← hrdef] at h1
    have h2 := accumulated_step hw hr he₀ (by linarith) (by linarith : 0 ≤ d / 2) hx' h1
    have e : t' - a + d / 2 = t' + d / 2 - a := by ring
    have e2 : d / 2 / 2 = d / 4 := by ring
    rw [e, e2] at h2
    exact h2
  have htm : t ∈ Icc a b := ⟨ha, by linarith⟩
  have htm2 : t + d / 2 ∈ Icc a b := ⟨by linarith, by linarith⟩
  have htm3 : t + d ∈ Icc a b := ⟨by linarith, hb⟩
  have e3 : t + d / 2 + d / 2 = t + d := by ring
  unfold heunPair
  simp only
  have h1 := half t x (g x t 0 s).1 (g (x + (d / 2) • (g x t 0 s).1) (t + d / 2) 2
    (g (x + d • (g x t 0 s).1) (t + d) 1 (g x t 0 s).2).2).1 ha (by linarith) hx
    (fun h => hf.2 t htm x 0 s h) (fun h => hf.2 _ htm2 _ 2 _ h)
  generalize (g (x + d • (g x t 0 s).1) (t + d) 1 (g x t 0 s).2).2 = s2 at h1 ⊢
  generalize hk0 : (g x t 0 s).1 = k0 at h1 ⊢
  generalize hk10 : (g (x + (d / 2) • k0) (t + d / 2) 2 s2) = k10 at h1 ⊢
  generalize hmid : x + (d / 4) • (k0 + k10.1) = xm at h1 ⊢
  have h2 := half (t + d / 2) xm (g xm (t + d / 2) 3 k10.2).1
    (g (xm + (d / 2) • (g xm (t + d / 2) 3 k10.2).1) (t + d) 4 (g xm (t + d / 2) 3 k10.2).2).1
    (by linarith) (by linarith) h1 (fun h => hf.2 _ htm2 _ 3 _ h)
    (by rw [e3]; exact fun h => hf.2 _ htm3 _ 4 _ h)
  rw [e3] at h2
  rw [← add_assoc, hmid]
  exact h2

theorem ahLoop_succ (inplace : Bool) (f : RRhs M σ) (hg : Computes inplace f g) (norm : M → ℝ)
    (hnorm : ∀ x, 0 ≤ norm x) (n : ℕ) (obj : AHeun) (htol : 0 < obj.tolerance) (t : ℝ) (x : M)
    (w : List M × σ) (t' : ℝ) (x' : M) (obj' : AHeun) (w' : List M × σ)
    (hres : ahLoop inplace f norm (n + 1) obj t x w = .ok (t', x', obj', w')) :
    ∃ s₁ d w₁, Attempts g norm obj.tolerance obj.maxStep t x obj.dt w.2 d s₁ ∧
      ahLoop inplace f norm n ⟨nextDt obj.tolerance obj.maxStep (heunDev g norm t d x s₁) d,
        obj.tolerance, obj.maxStep⟩ (t + d) (x + (heunPair g t d x s₁).1.2) w₁
        = .ok (t', x', obj', w') := by
  rw [ahLoop] at hres
  simp only [newArr] at hres
  cases hst : ahStep inplace obj t f w.1.length norm (w.1 ++ [x], w.2) with
  | error e => rw [hst] at hres; simp at hres
  | ok r =>
    obtain ⟨⟨y', d, o⟩, h', s'⟩ := r
    rw [hst] at hres
    obtain ⟨s₁, hat, hy', -, ho, -⟩ := c49_step_partial inplace obj htol f g hg norm hnorm t
      w.1.length (w.1 ++ [x]) w.2 y' d o h' s' hst
    have hx : (w.1 ++ [x]).getD w.1.length 0 = x := by simp
    rw [hx] at hat hy' ho
    subst ho
    subst hy'
    exact ⟨s₁, d, _, hat, hres⟩

theorem nextDt_pos {tol mx dev dt : ℝ} (htol : 0 < tol) (hmx : 0 < mx) (hdev : 0 ≤ dev)
    (hdt : 0 < dt) : 0 < nextDt tol mx dev dt := by
  unfold nextDt
  apply lt_min _ hmx
  apply mul_pos hdt
  split_ifs with h
  · norm_num
  · have : 0 < tol / dev := div_pos htol (lt_of_le_of_ne hdev (Ne.symm h))
    exact lt_min (by norm_num) (mul_pos (by norm_num) (Real.rpow_pos_of_pos this _))

theorem ahLoop_mono (inplace : Bool) (f : RRhs M σ) (hg : Computes inplace f g)
    (norm : M → ℝ) (hnorm : ∀ x, 0 ≤ norm x) {tol mx : ℝ} (htol : 0 < tol) (hmx : 0 < mx)
    (n : ℕ) (obj : AHeun) (ho1 : obj.tolerance = tol) (ho2 : obj.maxStep = mx) (ho3 : 0 < obj.dt)
    (t : ℝ) (x : M) (w : List M × σ) (t' : ℝ) (x' : M) (obj' : AHeun) (w' : List M × σ)
    (hres : ahLoop inplace f norm n obj t x w = .ok (t', x', obj', w')) : t ≤ t' := by
  induction n generalizing obj t x w with
  | zero =>
    simp only [ahLoop, Except.ok.injEq, Prod.mk.injEq] at hres
    exact hres.1.le
  | succ n ih =>
    obtain ⟨s₁, d, w₁, hat, hrest⟩ := ahLoop_succ inplace f hg norm hnorm n obj (ho1 ▸ htol) t x w _ _
      _ _ hres
    rw [ho1, ho2] at hat hrest
    have hdpos := attempts_pos hmx ho3 hat
    have := ih _ rfl rfl (nextDt_pos htol hmx (hnorm _) hdpos) _ _ _ hrest
    linarith

theorem ah_loop (hy : IsSolution F y a b) (hK : SlowVelocity F y a b K)
    (hK' : SlowAcceleration F y a b K') (hL : LipschitzNear F y a b R L)
    (hf : EvaluatesNear g F y a b R ε) (inplace : Bool) (f : RRhs M σ) (hg : Computes inplace f g)
    (norm : M → ℝ) (hnorm : ∀ x, 0 ≤ norm x) {tol mx : ℝ} (htol : 0 < tol) (hmx : 0 < mx)
    {e₀ : ℝ} (he₀ : 0 ≤ e₀)
    (hR : (1 + mx / 2 * L) * accumulated (L + mx / 2 * L ^ 2 / 2)
      (ε * (1 + mx / 2 * L / 2) + (mx / 2) ^ 2 * ((L * K + K') / 2)) e₀ (b - a)
        + mx / 2 * (ε + K * (mx / 2)) ≤ R)
    (n : ℕ) (obj : AHeun) (ho1 : obj.tolerance = tol) (ho2 : obj.maxStep = mx) (ho3 : 0 < obj.dt)
    (ho4 : obj.dt ≤ mx) (t : ℝ) (x : M) (w : List M × σ) (ha : a ≤ t)
    (hx : ‖x - y t‖ ≤ accumulated (L + mx / 2 * L ^ 2 / 2)
      (ε * (1 + mx / 2 * L / 2) + (mx / 2) ^ 2 * ((L * K + K') / 2)) e₀ (t - a))
    (t' : ℝ) (x' : M) (obj' : AHeun) (w' : List M × σ) (hb : t' ≤ b)
    (hres : ahLoop inplace f norm n obj t x w = .ok (t', x', obj', w')) :
    t ≤ t' ∧ ‖x' - y t'‖ ≤ accumulated (L + mx / 2 * L ^ 2 / 2)
      (ε * (1 + mx / 2 * L / 2) + (mx / 2) ^ 2 * ((L * K + K') / 2)) e₀ (t' - a) := by
  have mono := ahLoop_mono inplace f hg norm hnorm htol hmx
  have hmx0 : 0 ≤ mx / 2 := by linarith
  induction n generalizing obj t x w with
  | zero =>
    simp only [ahLoop, Except.ok.injEq, Prod.mk.injEq] at hres
    obtain ⟨rfl, rfl, -, -⟩ := hres
    exact ⟨le_rfl, hx⟩
  | succ n ih =>
    obtain ⟨s₁, d, w₁, hat, hrest⟩ := ahLoop_succ inplace f hg norm hnorm n obj (ho1 ▸ htol) t x w _ _
      _ _ hres
    rw [ho1, ho2] at hat hrest
    have hdpos := attempts_pos hmx ho3 hat
    have hdle : d ≤ mx := by
      rcases attempts_le hat with rfl | h
      · exact ho4
      · exact h
    have hm := mono n _ rfl rfl (nextDt_pos htol hmx (hnorm _) hdpos) _ _ _ _ _ _ _ hrest
    have hstep := heunPair_error (s := s₁) hy hK hK' hL hf (H := mx / 2) he₀ ha hdpos.le
      (by linarith) (by linarith) hR hx
    have := ih _ rfl rfl (nextDt_pos htol hmx (hnorm _) hdpos) (min_le_right _ _) (t + d) _ _
      (by linarith) hstep hrest
    exact ⟨by linarith, this.2⟩

/-- Repeated `AdaptiveHeun` steps, whatever time steps are chosen: the error is of second order in
`maxStep`. -/
theorem c96_adaptive (hy : IsSolution F y a b) (hK : SlowVelocity F y a b K)
    (hK' : SlowAcceleration F y a b K') (hL : LipschitzNear F y a b R L)
    (hf : EvaluatesNear g F y a b R ε) (inplace : Bool) (f : RRhs M σ) (hg : Computes inplace f g)
    (norm : M → ℝ) (hnorm : ∀ x, 0 ≤ norm x) (obj : AHeun) (htol : 0 < obj.tolerance)
    (hdt : 0 < obj.dt) (hle : obj.dt ≤ obj.maxStep) (y₀ : M) (w : List M × σ)
    (hR : (1 + obj.maxStep / 2 * L) * accumulated (L + obj.maxStep / 2 * L ^ 2 / 2)
      (ε * (1 + obj.maxStep / 2 * L / 2) + (obj.maxStep / 2) ^ 2 * ((L * K + K') / 2)) ‖y₀ - y a‖
        (b - a) + obj.maxStep / 2 * (ε + K * (obj.maxStep / 2)) ≤ R)
    (n : ℕ) (t' : ℝ) (x' : M) (obj' : AHeun) (w' : List M × σ)
    (hres : ahLoop inplace f norm n obj a y₀ w = .ok (t', x', obj', w')) (hb : t' ≤ b) :
    a ≤ t' ∧ ‖x' - y t'‖ ≤ accumulated (L + obj.maxStep / 2 * L ^ 2 / 2)
      (ε * (1 + obj.maxStep / 2 * L / 2) + (obj.maxStep / 2) ^ 2 * ((L * K + K') / 2)) ‖y₀ - y a‖
        (t' - a) :=
  ah_loop hy hK hK' hL hf inplace f hg norm hnorm htol (hdt.trans_le hle) (norm_nonneg _) hR n obj rfl
    rfl hdt hle a y₀ w le_rfl (by simp [accumulated]) t' x' obj' w' hb hres

/-- Accepted time steps of bounded right-hand sides are not too small. -/
theorem attempts_ge {norm : M → ℝ} (hn : IsSeminorm norm) {B : ℝ} (hB0 : 0 < B)
    (hB : ∀ y t k s, norm (g y t k s).1 ≤ B) {tol mx δ : ℝ} (htol : 0 < tol) (hδ0 : 0 < δ)
    (hδ : δ ≤ tol / (40 * B)) (hδm : δ ≤ mx) {t : ℝ} {x : M} {dt dt' : ℝ} {s s' : σ} (hdt : δ ≤ dt)
    (h : Attempts g norm tol mx t x dt s dt' s') : δ ≤ dt' := by
  induction h with
  | accept _ _ _ => exact hdt
  | reject dt s _ _ hrej _ ih =>
    apply ih
    have h1 := dev_le g norm hn B hB t dt (hδ0.le.trans hdt) x s
    have h2 : tol < 2 * dt * B := hrej.trans_le h1
    rw [le_div_iff₀ (by positivity)] at hδ
    refine le_trans ?_ (c49_rejected tol mx _ dt htol hrej (hδ0.trans_le hdt)).2
    refine le_min ?_ hδm
    have h3 : δ * (40 * B) < 2 * dt * B := by linarith
    have h4 : (dt / 5 - δ) * B > 0 := by nlinarith
    have := (mul_pos_iff_of_pos_right hB0).mp h4
    linarith

/-- After an accepted step, so is the next one. -/
theorem nextDt_ge {tol mx δ dev d B : ℝ} (hB0 : 0 < B) (hδ0 : 0 < δ)
    (hδ : δ ≤ tol / (40 * B)) (hδm : δ ≤ mx) (hdev0 : 0 ≤ dev) (hdev : dev ≤ 2 * d * B)
    (hdt : dev ≤ tol) (hd : δ ≤ d) : δ ≤ nextDt tol mx dev d := by
  unfold nextDt
  refine le_min ?_ hδm
  rw [le_div_iff₀ (by positivity)] at hδ
  have hd0 : 0 < d := hδ0.trans_le hd
  by_cases hz : dev = 0
  · rw [if_pos hz]
    linarith
  · rw [if_neg hz]
    have hdevp : 0 < dev := lt_of_le_of_ne hdev0 (Ne.symm hz)
    by_cases hcase : δ ≤ 0.9 * d
    · have h1 : (0.9 : ℝ) ≤ min 2 (0.9 * (tol / dev) ^ (0.33333 : ℝ)) := by
        refine (factor_accept _ ?_).2
        rw [le_div_iff₀ hdevp, one_mul]
        exact hdt
      nlinarith
    · rw [not_le] at hcase
      have h2 : dev * 16 ≤ tol := by
        have : d * B < δ / 0.9 * B := by
          apply mul_lt_mul_of_pos_right _ hB0
          rw [lt_div_iff₀ (by norm_num)]
          linarith
        have e : δ / 0.9 * B = (δ * B) * (10 / 9) := by ring
        rw [e] at this
        linarith
      have h3 : (16 : ℝ) ≤ tol / dev := by
        rw [le_div_iff₀ hdevp]
        linarith
      have h4 : (2 : ℝ) ≤ (tol / dev) ^ (0.33333 : ℝ) := by
        calc (2 : ℝ) = (16 : ℝ) ^ (0.25 : ℝ) := by
              rw [show (16 : ℝ) = 2 ^ (4 : ℝ) by norm_num, ← Real.rpow_mul (by norm_num)]
              norm_num
          _ ≤ (16 : ℝ) ^ (0.33333 : ℝ) :=
              Real.rpow_le_rpow_of_exponent_le (by norm_num) (by norm_num)
          _ ≤ _ := Real.rpow_le_rpow (by norm_num) h3 (by norm_num)
      have h5 : (1 : ℝ) ≤ min 2 (0.9 * (tol / dev) ^ (0.33333 : ℝ)) := le_min (by norm_num) (by linarith)
      nlinarith

/-- Repeated `AdaptiveHeun` steps return, and get as far as one likes, if the right-hand side is
bounded. -/
theorem c96_adaptive_reaches (inplace : Bool) (f : RRhs M σ) (hg : Computes inplace f g) (norm : M → ℝ)
    (hn : IsSeminorm norm) (B : ℝ) (hB : ∀ y t k s, norm (g y t k s).1 ≤ B) (obj : AHeun)
    (htol : 0 < obj.tolerance) (hmax : 0 < obj.maxStep) (hdt : 0 < obj.dt) (t : ℝ) (x : M)
    (w : List M × σ) (T : ℝ) :
    ∃ n t' x' obj' w', ahLoop inplace f norm n obj t x w = .ok (t', x', obj', w') ∧ T ≤ t' := by
  obtain ⟨B', hB'0, hBB⟩ : ∃ B', 0 < B' ∧ B ≤ B' := ⟨max B 1, by positivity, le_max_left _ _⟩
  have hB' : ∀ y t k s, norm (g y t k s).1 ≤ B' := fun y t k s => (hB y t k s).trans hBB
  obtain ⟨δ, hδ0, hδ1, hδ2, hδ3⟩ : ∃ δ > 0, δ ≤ obj.tolerance / (40 * B') ∧ δ ≤ obj.maxStep ∧ δ ≤ obj.dt :=
    ⟨min (obj.tolerance / (40 * B')) (min obj.maxStep obj.dt),
      lt_min (by positivity) (lt_min hmax hdt), min_le_left _ _,
      (min_le_right _ _).trans (min_le_left _ _), (min_le_right _ _).trans (min_le_right _ _)⟩
  have key : ∀ (n : ℕ) (obj₁ : AHeun), obj₁.tolerance = obj.tolerance → obj₁.maxStep = obj.maxStep →
      δ ≤ obj₁.dt → ∀ t x w, ∃ t' x' obj' w', ahLoop inplace f norm n obj₁ t x w
        = .ok (t', x', obj', w') ∧ t + n * δ ≤ t' := by
    intro n
    induction n with
    | zero =>
      intro obj₁ _ _ _ t x w
      exact ⟨t, x, obj₁, w, rfl, by simp⟩
    | succ n ih =>
      intro obj₁ e1 e2 e3 t x w
      obtain ⟨⟨⟨y', d, o⟩, h', s'⟩, hr⟩ := c49_returns_partial inplace obj₁ (e1 ▸ htol) (e2 ▸ hmax)
        (hδ0.trans_le e3) f g hg norm hn B' hB' t w.1.length (w.1 ++ [x]) w.2
      obtain ⟨s₁, hat, -, -, ho, -⟩ := c49_step_partial inplace obj₁ (e1 ▸ htol) f g hg norm hn.nonneg t
        w.1.length (w.1 ++ [x]) w.2 y' d o h' s' hr
      subst ho
      rw [e1, e2] at hat
      have hd := attempts_ge hn hB'0 hB' htol hδ0 hδ1 hδ2 e3 hat
      have hnx := nextDt_ge hB'0 hδ0 hδ1 hδ2 (hn.nonneg _)
        (dev_le g norm hn B' hB' t d (hδ0.le.trans hd) ((w.1 ++ [x]).getD w.1.length 0) s₁)
        (attempts_dev hat) hd
      rw [ahLoop]
      simp only [newArr]
      rw [hr]
      simp only
      obtain ⟨t', x', obj', w', hl, ht'⟩ := ih ⟨nextDt obj₁.tolerance obj₁.maxStep
        (heunDev g norm t d ((w.1 ++ [x]).getD w.1.length 0) s₁) d, obj₁.tolerance, obj₁.maxStep⟩ e1 e2
        (by simp only [e1, e2]; exact hnx) (t + d) y' (h', s')
      refine ⟨t', x', obj', w', hl, ?_⟩
      push_cast
      linarith
  obtain ⟨n, hn'⟩ := exists_nat_ge ((T - t) / δ)
  rw [div_le_iff₀ hδ0] at hn'
  obtain ⟨t', x', obj', w', h1, h2⟩ := key n obj rfl rfl hδ3 t x w
  exact ⟨n, t', x', obj', w', h1, by linarith⟩

end adaptive

/-- The documentation of `AdaptiveHeun` promises a time step "such that the integration error is smaller
than the given tolerance". It is not: for `dy/dt = sin(2 π t)²` and the initial time step 1, the step
from 0 to 1 is accepted for every tolerance, with an error of 1/2. -/
theorem c96_tolerance_violated :
    ∃ (F : ℝ → ℝ → ℝ) (y : ℝ → ℝ), (∀ t, HasDerivAt y (F (y t) t) t) ∧
      ∀ (inplace : Bool) (tol : ℝ), 0 < tol → ∃ y' o w',
        ahStep inplace ⟨1, tol, 1⟩ 0 (refRhs fun y t _ s => (F y t, s)) 0 (fun x => |x|) ([y 0], ())
          = .ok ((y', 1, o), w') ∧ |y' - y (0 + 1)| = 1 / 2 := by
  refine ⟨fun _ t => Real.sin (2 * Real.pi * t) ^ 2,
    fun t => t / 2 - Real.sin (4 * Real.pi * t) / (8 * Real.pi), ?_, ?_⟩
  · intro t
    have h1 : HasDerivAt (fun t : ℝ => Real.sin (4 * Real.pi * t))
        (Real.cos (4 * Real.pi * t) * (4 * Real.pi * 1)) t :=
      ((hasDerivAt_id t).const_mul (4 * Real.pi)).sin
    have h2 := ((hasDerivAt_id t).div_const 2).sub (h1.div_const (8 * Real.pi))
    refine h2.congr_deriv ?_
    have h3 : 4 * Real.pi * t = 2 * (2 * Real.pi * t) := by ring
    have h4 := Real.sin_sq (2 * Real.pi * t)
    have hpi := Real.pi_ne_zero
    simp only
    rw [h3, Real.cos_two_mul, h4]
    field_simp
    ring
  · intro inplace tol htol
    set g : VRhs ℝ Unit := fun _ t _ s => (Real.sin (2 * Real.pi * t) ^ 2, s) with hg
    obtain ⟨⟨⟨y', d, o⟩, w'⟩, hret⟩ := c49_returns_partial inplace ⟨1, tol, 1⟩ htol one_pos one_pos
      (refRhs g) g (refRhs_computes inplace g) (fun x => |x|)
      ⟨fun x => abs_nonneg x, fun x y => abs_add_le x y, fun c x => (abs_mul c x).le⟩ 1 (by
        intro y t k s
        simp only [hg]
        rw [abs_of_nonneg (sq_nonneg _)]
        exact Real.sin_sq_le_one _) 0 0
      [0 / 2 - Real.sin (4 * Real.pi * 0) / (8 * Real.pi)] ()
    have e0 : Real.sin (2 * Real.pi * 0) = 0 := by simp
    have e1 : Real.sin (2 * Real.pi * 1) = 0 := by simp
    have e2 : Real.sin (2 * Real.pi * (1 / 2)) = 0 := by
      rw [show 2 * Real.pi * (1 / 2) = Real.pi by ring, Real.sin_pi]
    have hp : ∀ x : ℝ, (heunPair g 0 1 x ()).1 = (0, 0) := by
      intro x
      simp only [heunPair, hg, zero_add, e0, e1, e2]
      simp
    obtain ⟨s₁, hat, hy', -⟩ := c49_step_partial inplace ⟨1, tol, 1⟩ htol (refRhs g) g
      (refRhs_computes inplace g) (fun x => |x|) (fun x => abs_nonneg x) 0 0 _ () y' d o w'.1 w'.2 hret
    have hd : d = 1 := by
      cases hat with
      | accept _ _ _ => rfl
      | reject _ _ _ _ h _ =>
        exfalso
        have : heunDev g (fun x => |x|) 0 1 (([0 / 2 - Real.sin (4 * Real.pi * 0) / (8 * Real.pi)] :
            List ℝ).getD 0 0) () = 0 := by
          unfold heunDev
          rw [hp]
          simp
        rw [this] at h
        linarith
    subst hd
    refine ⟨y', o, w', hret, ?_⟩
    rw [hy', hp]
    have e4 : Real.sin (4 * Real.pi) = 0 := by
      have := Real.sin_nat_mul_pi 4
      simpa using this
    simp only [zero_add, mul_zero, Real.sin_zero, mul_one, e4]
    norm_num

/-! ## The hypotheses can be met -/

/-- Exponential growth, for all times up to 1 and arbitrarily large deviations. -/
theorem growth_hypotheses (R : ℝ) :
    IsSolution (fun (x : ℝ) _ => x) Real.exp 0 1 ∧ LipschitzNear (fun (x : ℝ) _ => x) Real.exp 0 1 R 1 ∧
      SlowVelocity (fun (x : ℝ) _ => x) Real.exp 0 1 (Real.exp 1) ∧
      SlowAcceleration (fun (x : ℝ) _ => x) Real.exp 0 1 (Real.exp 1) := by
  have hl : ∀ s ∈ Icc (0 : ℝ) 1, ∀ t ∈ Icc (0 : ℝ) 1,
      ‖Real.exp s - Real.exp t‖ ≤ Real.exp 1 * |s - t| := by
    intro s hs t ht
    have := (convex_Icc (0 : ℝ) 1).norm_image_sub_le_of_norm_deriv_le (f := Real.exp) (C := Real.exp 1)
      (fun x _ => Real.differentiableAt_exp) (fun x hx => by
        rw [Real.deriv_exp, Real.norm_eq_abs, abs_of_pos (Real.exp_pos x)]
        exact Real.exp_le_exp.mpr hx.2) ht hs
    exact this
  have hd : ∀ t ∈ Icc (0 : ℝ) 1, HasDerivWithinAt Real.exp (Real.exp t) (Icc 0 1) t :=
    fun t _ => (Real.hasDerivAt_exp t).hasDerivWithinAt
  exact ⟨hd, ⟨zero_le_one, fun t _ x z _ _ => by simp⟩, ⟨(Real.exp_pos 1).le, hl⟩,
    ⟨(Real.exp_pos 1).le, Real.exp, hd, hl⟩⟩

/-- Case of `c96_euler`: exponential growth, evaluated with an error `ε` that depends on the number of
evaluations so far, from a wrong initial value. -/
example (ε : ℝ) (hε : 0 ≤ ε) (x₀ : ℝ) (n : ℕ) (hn : 0 < n) :
    ‖(eulerLoop (1 / (n : ℝ)) (fun (x : ℝ) _ _ (s : ℕ) => (x + (-1) ^ s * ε, s + 1)) n 0 x₀ 0).2.1
      - Real.exp 1‖ ≤ Real.exp 1 * (|x₀ - 1| + (ε + Real.exp 1 / n)) := by
  have hn' : (0 : ℝ) < n := by exact_mod_cast hn
  have hmul : (n : ℝ) * (1 / (n : ℝ)) = 1 := by field_simp
  obtain ⟨h1, h2, h3, -⟩ := growth_hypotheses (accumulated 1 (ε + Real.exp 1 * (1 / (n : ℝ))) ‖x₀ - Real.exp 0‖
    (1 - 0))
  have h := (c96_euler (σ := ℕ) (f := fun (x : ℝ) _ _ (s : ℕ) => (x + (-1) ^ s * ε, s + 1)) (ε := ε)
    h1 h3 h2 ⟨hε, fun t _ x k s _ => by
      simp only [add_sub_cancel_left]
      rw [norm_mul, norm_pow, norm_neg, norm_one, one_pow, one_mul, Real.norm_eq_abs,
        abs_of_nonneg hε]⟩ (1 / (n : ℝ)) (by positivity) n (by rw [hmul]; norm_num) x₀ 0
    (by rw [hmul]; simp)).2
  rw [hmul] at h
  simpa [accumulated, div_eq_mul_inv] using h

/-- Case of the limits. -/
example : Tendsto (fun N : ℕ => (heunLoop ((1 - 0) / ((N + 1 : ℕ) : ℝ)) (fun (x : ℝ) _ _ (s : Unit) => (x, s))
    (N + 1) 0 (Real.exp 0) ()).2.1) atTop (𝓝 (Real.exp 1)) := by
  obtain ⟨h1, h2, h3, h4⟩ := growth_hypotheses 1
  exact c96_heun_limit zero_le_one h1 h3 h4 h2 one_pos ()

/-- Case of `c96_adaptive`: the hypotheses on the solution are those above. Case of
`c96_adaptive_reaches`: -/
example (T : ℝ) : ∃ n t' x' obj' w', ahLoop (M := ℝ) true
    (refRhs fun y t _ (n : ℕ) => (t / (1 + t ^ 2 + y ^ 2), n + 1))
    (fun x => |x|) n ⟨1e-3, 1e-8, 1⟩ 0 5 ([], 0) = .ok (t', x', obj', w') ∧ T ≤ t' := by
  have hB : ∀ (y t : ℝ) (k : ℕ) (s : ℕ), |((fun (y t : ℝ) (_ : ℕ) (n : ℕ) =>
      (t / (1 + t ^ 2 + y ^ 2), n + 1)) y t k s).1| ≤ 1 := by
    intro y t k s
    dsimp only
    rw [abs_div, abs_of_pos (show 0 < 1 + t ^ 2 + y ^ 2 by positivity), div_le_one (by positivity)]
    rw [abs_le]
    constructor <;> nlinarith [sq_nonneg (t - 1), sq_nonneg (t + 1), sq_nonneg y]
  exact c96_adaptive_reaches true _ (refRhs_computes _ _)
    (fun x => |x|) ⟨fun x => abs_nonneg x, fun x y => abs_add_le x y, fun c x => (abs_mul c x).le⟩ 1 hB
    ⟨1e-3, 1e-8, 1⟩ (by norm_num) (by norm_num) (by norm_num) 0 5 ([], 0) T

end JVMC
