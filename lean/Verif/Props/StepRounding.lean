import Mathlib.Analysis.Calculus.Deriv.Pow
import Mathlib.Analysis.SpecialFunctions.ExpDeriv
import Mathlib.Analysis.Calculus.Deriv.Prod
import Mathlib.Analysis.Calculus.MeanValue
import Mathlib.Analysis.Complex.ExponentialBounds
import Verif.Lemmas.StepRounding

/-!
# C133: rounding errors of time integration

The solution is `y`, the exact right-hand side `G`; its evaluations `f` may deviate by `ε`. Rounding errors act like a further
deviation `eulerRounding` or `heunRounding`, which grows when the time step gets small.
-/

namespace JVMC

open Spec Set

variable {σ : Type} {d : ℕ} {r : Rounding} {f : VRhs (Fin d → ℝ) σ} {G : (Fin d → ℝ) → Fin d → ℝ}
  {y : ℝ → Fin d → ℝ} {b B V K K' L R ε dt tmax : ℝ}

theorem euler_rounded_step (hdt : 0 < dt) (hB : BoundedNear y 0 b R B) (hf : EvaluatesWithin f G y 0 b R ε V)
    {t : ℝ} (ht : t ∈ Icc 0 b) {x : Fin d → ℝ} (hx : ‖x - y t‖ ≤ R) {s : σ} {t' : ℝ} {k : ℕ} {p : Fin d → ℝ}
    (hp : ∀ i, r.Rd (dt * (f x t' k s).1 i) (p i)) :
    ∃ k', (fun i => r.rnd (x i + p i)) = x + dt • k' ∧ ‖k' - (f x t' k s).1‖ ≤ eulerRounding r.u B V dt ∧
      ‖k' - G x‖ ≤ ε + eulerRounding r.u B V dt := by
  obtain ⟨h1, h2⟩ := hf.2 t ht x t' k s hx
  have hBx := hB t ht x hx
  have h3 := euler_local r hdt.le ((norm_nonneg _).trans hBx) ((norm_nonneg _).trans h2) hBx h2 hp
  have e : r.u * (B + 3 * dt * V) = dt * eulerRounding r.u B V dt := by
    unfold eulerRounding
    field_simp
  rw [e] at h3
  obtain ⟨k', e1, e2⟩ := effective hdt h3
  refine ⟨k', e1, e2, ?_⟩
  have := norm_sub_le_norm_sub_add_norm_sub k' (f x t' k s).1 (G x)
  linarith

theorem euler_rounded_loop (hdt : 0 < dt) (hy : IsSolution (fun x _ => G x) y 0 b)
    (hK : SlowVelocity (fun x _ => G x) y 0 b K) (hL : LipschitzNear (fun x _ => G x) y 0 b R L)
    (hB : BoundedNear y 0 b R B) (hf : EvaluatesWithin f G y 0 b R ε V)
    (hδ : 0 ≤ eulerRounding r.u B V dt) {e₀ : ℝ} (he₀ : 0 ≤ e₀)
    {t x s n T Y S} (hrun : TimeLoop r (EulerStepRnd r dt 0 f) tmax t x s n T Y S) :
    ∀ τ : ℝ, 0 ≤ τ → τ + n * dt ≤ b →
      accumulated L (ε + eulerRounding r.u B V dt + K * dt) e₀ (τ + n * dt) ≤ R →
      ‖x - y τ‖ ≤ accumulated L (ε + eulerRounding r.u B V dt + K * dt) e₀ τ →
      ‖Y - y (τ + n * dt)‖ ≤ accumulated L (ε + eulerRounding r.u B V dt + K * dt) e₀ (τ + n * dt) := by
  have hr : 0 ≤ ε + eulerRounding r.u B V dt + K * dt :=
    add_nonneg (add_nonneg hf.1 hδ) (mul_nonneg hK.1 hdt.le)
  induction hrun with
  | done h =>
    intro τ _ _ _ hx
    simpa using hx
  | @pass t x s x1 dt1 s1 n T Y S h hs hl ih =>
    intro τ hτ hn hR hx
    push_cast at hn hR ⊢
    have hnd : 0 ≤ (n : ℝ) * dt := by positivity
    have hxR : ‖x - y τ‖ ≤ R := hx.trans ((accumulated_mono hL.1 hr he₀ hτ (by nlinarith)).trans hR)
    have htm : τ ∈ Icc 0 b := ⟨hτ, by nlinarith⟩
    obtain ⟨p, hp, e⟩ := hs
    obtain ⟨k', e1, -, e2⟩ := euler_rounded_step hdt hB hf htm hxR hp
    have ex1 : x1 = x + dt • k' := by
      rw [← e1]
      exact congrArg (fun o => o.1.1) e
    have h1 := euler_error hy hK hL hdt.le hτ (by nlinarith) hxR e2
    rw [← ex1] at h1
    have h2 := accumulated_step hL.1 hr he₀ hτ hdt.le hx h1
    have e3 : τ + dt + n * dt = τ + (n + 1) * dt := by ring
    have h3 := ih (τ + dt) (by linarith) (by linarith) (by rw [e3]; exact hR) h2
    rw [e3] at h3
    exact h3

/-- Euler steps in floating point arithmetic follow the solution: rounding acts like a further error of the
right-hand side of size `eulerRounding`. -/
theorem c133_euler (hdt : 0 < dt) (hy : IsSolution (fun x _ => G x) y 0 b)
    (hK : SlowVelocity (fun x _ => G x) y 0 b K) (hL : LipschitzNear (fun x _ => G x) y 0 b R L)
    (hB : BoundedNear y 0 b R B) (hf : EvaluatesWithin f G y 0 b R ε V) (hB0 : 0 ≤ B) (hV0 : 0 ≤ V)
    {t : ℝ} {y₀ : Fin d → ℝ} {s : σ} {n : ℕ} {T : ℝ} {Y : Fin d → ℝ} {S : σ}
    (hrun : TimeLoop r (EulerStepRnd r dt 0 f) tmax t y₀ s n T Y S) (hn : n * dt ≤ b)
    (hR : accumulated L (ε + eulerRounding r.u B V dt + K * dt) ‖y₀ - y 0‖ (n * dt) ≤ R) :
    ‖Y - y (n * dt)‖ ≤ accumulated L (ε + eulerRounding r.u B V dt + K * dt) ‖y₀ - y 0‖ (n * dt) := by
  have hδ : 0 ≤ eulerRounding r.u B V dt := by
    have := r.u_nonneg
    unfold eulerRounding
    positivity
  have h := euler_rounded_loop hdt hy hK hL hB hf hδ (norm_nonneg (y₀ - y 0)) hrun 0 le_rfl
    (by simpa using hn) (by simpa using hR) (by simp [accumulated])
  simpa using h

theorem heun_rounded_step (hdt : 0 < dt) (hy : IsSolution (fun x _ => G x) y 0 b)
    (hK : SlowVelocity (fun x _ => G x) y 0 b K) (hK' : SlowAcceleration (fun x _ => G x) y 0 b K')
    (hL : LipschitzNear (fun x _ => G x) y 0 b R L)
    (hB : BoundedNear y 0 b R B) (hf : EvaluatesWithin f G y 0 b R ε V) (hB0 : 0 ≤ B) (hV0 : 0 ≤ V)
    {t : ℝ} (ht : 0 ≤ t) (hb : t + dt ≤ b) {x x1 : Fin d → ℝ} {dt1 : ℝ} {s s1 : σ}
    (hx : (1 + dt * L) * ‖x - y t‖ + dt * (ε + heunRounding r.u B V dt + K * dt) ≤ R)
    (hs : HeunStepRnd r dt 0 f x s ((x1, dt1), s1)) :
    ‖x1 - y (t + dt)‖ ≤ (1 + dt * (L + dt * L ^ 2 / 2)) * ‖x - y t‖
      + dt * ((ε + heunRounding r.u B V dt) * (1 + dt * L / 2) + dt ^ 2 * ((L * K + K') / 2)) := by
  have hu := r.u_nonneg
  have hε := hf.1
  have hδE : 0 ≤ eulerRounding r.u B V dt := by
    unfold eulerRounding
    positivity
  have hle : 2 * (r.u * (B / dt + 15 * V)) + eulerRounding r.u B V dt = heunRounding r.u B V dt := by
    unfold eulerRounding heunRounding
    ring
  have hδ2 : 0 ≤ r.u * (B / dt + 15 * V) := by positivity
  have hL0 := hL.1
  have hK0 := hK.1
  have hxn := norm_nonneg (x - y t)
  have hδH : 0 ≤ heunRounding r.u B V dt := by linarith
  have hxR : ‖x - y t‖ ≤ R := by
    refine le_trans ?_ hx
    have h1 : 0 ≤ dt * L * ‖x - y t‖ := by positivity
    have h2 : 0 ≤ dt * (ε + heunRounding r.u B V dt + K * dt) := by positivity
    nlinarith
  have htm : t ∈ Icc 0 b := ⟨ht, by linarith⟩
  obtain ⟨p, hp, h, sum, dy0, hh, hsum, hdy, e⟩ := hs
  obtain ⟨k0, e1, e2, e3⟩ := euler_rounded_step hdt hB hf htm hxR hp
  rw [e1] at hsum e
  set k1' : Fin d → ℝ := (f (x + dt • k0) (r.rnd (0 + dt)) 1 (f x 0 0 s).2).1 with hk1'
  set k0' : Fin d → ℝ := (f x 0 0 s).1 with hk0'
  have ex1 : x1 = fun i => r.rnd (x i + dy0 i) := congrArg (fun o => o.1.1) e
  have e3' : ‖k0 - G x‖ ≤ ε + heunRounding r.u B V dt := by linarith
  have hnear : ‖x + dt • k0 - y (t + dt)‖ ≤ R :=
    (euler_error (F := fun x _ => G x) hy hK hL hdt.le ht hb hxR e3').trans hx
  have htm1 : t + dt ∈ Icc 0 b := ⟨by linarith, hb⟩
  obtain ⟨g1, g2⟩ := hf.2 (t + dt) htm1 (x + dt • k0) (r.rnd (0 + dt)) 1 (f x 0 0 s).2 hnear
  rw [← hk1'] at g1 g2
  have g3 := (hf.2 t htm x 0 0 s hxR).2
  rw [← hk0'] at g3
  have l1 := heun_local r hdt.le hB0 hV0 (hB t htm x hxR) g3 g2 hh hsum hdy
  rw [← ex1] at l1
  have el : r.u * (B + 15 * dt * V) = (dt / 2) * (2 * (r.u * (B / dt + 15 * V))) := by
    field_simp
  rw [el] at l1
  obtain ⟨c, c1, c2⟩ := effective (by linarith : 0 < dt / 2) l1
  have c3 : x1 = x + (dt / 2) • (k0 + (c - k0)) := by
    rw [c1]
    congr 2
    abel
  have c4 : ‖(c - k0) - G (x + dt • k0)‖ ≤ ε + heunRounding r.u B V dt := by
    have q : (c - k0) - G (x + dt • k0) = (c - (k0' + k1')) + (k0' - k0) + (k1' - G (x + dt • k0)) := by abel
    rw [q]
    have q1 := norm_add_le ((c - (k0' + k1')) + (k0' - k0)) (k1' - G (x + dt • k0))
    have q2 := norm_add_le (c - (k0' + k1')) (k0' - k0)
    have q3 : ‖k0' - k0‖ ≤ eulerRounding r.u B V dt := by rwa [norm_sub_rev]
    linarith
  rw [c3]
  exact heun_error (F := fun x _ => G x) hy hK hK' hL hdt.le le_rfl ht hb (by linarith) hx e3' (fun _ => c4)

theorem heun_rounded_loop (hdt : 0 < dt) (hy : IsSolution (fun x _ => G x) y 0 b)
    (hK : SlowVelocity (fun x _ => G x) y 0 b K) (hK' : SlowAcceleration (fun x _ => G x) y 0 b K')
    (hL : LipschitzNear (fun x _ => G x) y 0 b R L)
    (hB : BoundedNear y 0 b R B) (hf : EvaluatesWithin f G y 0 b R ε V) (hB0 : 0 ≤ B) (hV0 : 0 ≤ V)
    {e₀ : ℝ} (he₀ : 0 ≤ e₀)
    {t x s n T Y S} (hrun : TimeLoop r (HeunStepRnd r dt 0 f) tmax t x s n T Y S) :
    ∀ τ : ℝ, 0 ≤ τ → τ + n * dt ≤ b →
      (1 + dt * L) * accumulated (L + dt * L ^ 2 / 2)
        ((ε + heunRounding r.u B V dt) * (1 + dt * L / 2) + dt ^ 2 * ((L * K + K') / 2)) e₀ (τ + n * dt)
        + dt * (ε + heunRounding r.u B V dt + K * dt) ≤ R →
      ‖x - y τ‖ ≤ accumulated (L + dt * L ^ 2 / 2)
        ((ε + heunRounding r.u B V dt) * (1 + dt * L / 2) + dt ^ 2 * ((L * K + K') / 2)) e₀ τ →
      ‖Y - y (τ + n * dt)‖ ≤ accumulated (L + dt * L ^ 2 / 2)
        ((ε + heunRounding r.u B V dt) * (1 + dt * L / 2) + dt ^ 2 * ((L * K + K') / 2)) e₀ (τ + n * dt) := by
  have hL0 := hL.1
  have hK0 := hK.1
  have hK'0 := hK'.1
  have hε := hf.1
  have hδ : 0 ≤ heunRounding r.u B V dt := by
    have := r.u_nonneg
    unfold heunRounding
    positivity
  have hg : 0 ≤ L + dt * L ^ 2 / 2 := by positivity
  have hr : 0 ≤ (ε + heunRounding r.u B V dt) * (1 + dt * L / 2) + dt ^ 2 * ((L * K + K') / 2) := by positivity
  induction hrun with
  | done h =>
    intro τ _ _ _ hx
    simpa using hx
  | @pass t x s x1 dt1 s1 n T Y S h hs hl ih =>
    intro τ hτ hn hR hx
    push_cast at hn hR ⊢
    have hnd : 0 ≤ (n : ℝ) * dt := by positivity
    have hm := accumulated_mono hg hr he₀ hτ (by nlinarith : τ ≤ τ + (n + 1) * dt)
    have hxR : (1 + dt * L) * ‖x - y τ‖ + dt * (ε + heunRounding r.u B V dt + K * dt) ≤ R := by
      refine le_trans ?_ hR
      have := mul_le_mul_of_nonneg_left (hx.trans hm) (by positivity : 0 ≤ 1 + dt * L)
      linarith
    have h1 := heun_rounded_step hdt hy hK hK' hL hB hf hB0 hV0 hτ (by nlinarith) hxR hs
    have h2 := accumulated_step hg hr he₀ hτ hdt.le hx h1
    have e3 : τ + dt + n * dt = τ + (n + 1) * dt := by ring
    have h3 := ih (τ + dt) (by linarith) (by linarith) (by rw [e3]; exact hR) h2
    rw [e3] at h3
    exact h3

/-- Heun steps in floating point arithmetic: likewise, with `heunRounding`; the error of the method is of second
order. -/
theorem c133_heun (hdt : 0 < dt) (hy : IsSolution (fun x _ => G x) y 0 b)
    (hK : SlowVelocity (fun x _ => G x) y 0 b K) (hK' : SlowAcceleration (fun x _ => G x) y 0 b K')
    (hL : LipschitzNear (fun x _ => G x) y 0 b R L)
    (hB : BoundedNear y 0 b R B) (hf : EvaluatesWithin f G y 0 b R ε V) (hB0 : 0 ≤ B) (hV0 : 0 ≤ V)
    {t : ℝ} {y₀ : Fin d → ℝ} {s : σ} {n : ℕ} {T : ℝ} {Y : Fin d → ℝ} {S : σ}
    (hrun : TimeLoop r (HeunStepRnd r dt 0 f) tmax t y₀ s n T Y S) (hn : n * dt ≤ b)
    (hR : (1 + dt * L) * accumulated (L + dt * L ^ 2 / 2)
        ((ε + heunRounding r.u B V dt) * (1 + dt * L / 2) + dt ^ 2 * ((L * K + K') / 2)) ‖y₀ - y 0‖ (n * dt)
        + dt * (ε + heunRounding r.u B V dt + K * dt) ≤ R) :
    ‖Y - y (n * dt)‖ ≤ accumulated (L + dt * L ^ 2 / 2)
        ((ε + heunRounding r.u B V dt) * (1 + dt * L / 2) + dt ^ 2 * ((L * K + K') / 2)) ‖y₀ - y 0‖ (n * dt) := by
  have h := heun_rounded_loop hdt hy hK hK' hL hB hf hB0 hV0 (norm_nonneg (y₀ - y 0)) hrun 0 le_rfl
    (by simpa using hn) (by simpa using hR) (by simp [accumulated])
  simpa using h

/-! ## The clock -/

section clock

variable {M : Type} {step : M → σ → (M × ℝ) × σ → Prop}

theorem eulerRnd_fixed : FixedStep (EulerStepRnd r dt 0 f) dt := by
  rintro y s o ⟨p, _, rfl⟩
  rfl

theorem heunRnd_fixed : FixedStep (HeunStepRnd r dt 0 f) dt := by
  rintro y s o ⟨p, _, h, sum, dy0, _, _, _, rfl⟩
  rfl

theorem eulerRnd_total (y : Fin d → ℝ) (s : σ) : ∃ o, EulerStepRnd r dt 0 f y s o :=
  ⟨_, fun i => r.rnd (dt * (f y 0 0 s).1 i), fun _ => Or.inl rfl, rfl⟩

theorem heunRnd_total (y : Fin d → ℝ) (s : σ) : ∃ o, HeunStepRnd r dt 0 f y s o :=
  ⟨_, fun i => r.rnd (dt * (f y 0 0 s).1 i), fun _ => Or.inl rfl, _, _, _, Or.inl rfl, fun _ => Or.inl rfl,
    fun _ => Or.inl rfl, rfl⟩

theorem clock_tick (hdt : 0 ≤ dt) {m : ℕ} {t : ℝ} (h1 : (1 - r.u) ^ m * (m * dt) ≤ t)
    (h2 : t ≤ (1 + r.u) ^ m * (m * dt)) :
    (1 - r.u) ^ (m + 1) * ((m + 1 : ℕ) * dt) ≤ r.rnd (t + dt) ∧
      r.rnd (t + dt) ≤ (1 + r.u) ^ (m + 1) * ((m + 1 : ℕ) * dt) := by
  have hu := r.u_nonneg
  have hu1 := r.u_lt
  have p0 : 0 ≤ (1 - r.u) ^ m := pow_nonneg (by linarith) m
  have p1 : (1 - r.u) ^ m ≤ 1 := pow_le_one₀ (by linarith) (by linarith)
  have p2 : 1 ≤ (1 + r.u) ^ m := one_le_pow₀ (by linarith)
  have hmd : 0 ≤ (m : ℝ) * dt := by positivity
  have ht : 0 ≤ t := le_trans (mul_nonneg p0 hmd) h1
  have h3 := abs_le.mp (r.err (t + dt))
  rw [abs_of_nonneg (by linarith)] at h3
  have l : (1 - r.u) ^ m * ((m + 1) * dt) ≤ t + dt := by nlinarith
  have l' : t + dt ≤ (1 + r.u) ^ m * ((m + 1) * dt) := by nlinarith
  push_cast
  constructor
  · have := mul_le_mul_of_nonneg_left l (by linarith : 0 ≤ 1 - r.u)
    rw [pow_succ]
    nlinarith
  · have := mul_le_mul_of_nonneg_left l' (by linarith : 0 ≤ 1 + r.u)
    rw [pow_succ]
    nlinarith

theorem clock_run (hdt : 0 ≤ dt) (hs : FixedStep step dt) {t x s n T Y S}
    (hrun : TimeLoop r step tmax t x s n T Y S) :
    ∀ m : ℕ, (1 - r.u) ^ m * (m * dt) ≤ t → t ≤ (1 + r.u) ^ m * (m * dt) →
      (1 - r.u) ^ (m + n) * ((m + n : ℕ) * dt) ≤ T ∧ T ≤ (1 + r.u) ^ (m + n) * ((m + n : ℕ) * dt) ∧
      (∀ N, m ≤ N → N < m + n → (1 - r.u) ^ N * (N * dt) < tmax) ∧ ¬ T < tmax := by
  induction hrun with
  | done h =>
    intro m h1 h2
    exact ⟨h1, h2, fun N a b => absurd b (by omega), h⟩
  | @pass t x s x1 dt1 s1 n T Y S h hst hl ih =>
    intro m h1 h2
    have e : dt1 = dt := hs _ _ _ hst
    subst e
    obtain ⟨c1, c2⟩ := clock_tick hdt h1 h2
    obtain ⟨d1, d2, d3, d4⟩ := ih (m + 1) c1 c2
    have e : m + 1 + n = m + (n + 1) := by omega
    rw [e] at d1 d2
    refine ⟨d1, d2, ?_, d4⟩
    intro N a b
    rcases Nat.eq_or_lt_of_le a with rfl | a
    · exact lt_of_le_of_lt h1 h
    · exact d3 N a (by omega)

/-- The time that a loop has reached after `n` steps is `n dt`, up to `n` relative rounding errors. -/
theorem c133_clock (hdt : 0 ≤ dt) (hs : FixedStep step dt) {x : M} {s : σ} {n : ℕ} {T : ℝ} {Y : M} {S : σ}
    (hrun : TimeLoop r step tmax 0 x s n T Y S) : WithinFactor r.u n (n * dt) T ∧ tmax ≤ T := by
  obtain ⟨h1, h2, -, h4⟩ := clock_run hdt hs hrun 0 (by simp) (by simp)
  simp only [zero_add] at h1 h2
  refine ⟨?_, not_lt.mp h4⟩
  rcases eq_or_lt_of_le (by positivity : 0 ≤ (n : ℝ) * dt) with h0 | h0
  · refine ⟨1, pow_le_one₀ (by linarith [r.u_lt]) (by linarith [r.u_nonneg]), one_le_pow₀ (by linarith [r.u_nonneg]), ?_⟩
    rw [← h0] at h1 h2 ⊢
    linarith
  · refine ⟨T / (n * dt), ?_, ?_, ?_⟩
    · rwa [le_div_iff₀ h0]
    · rwa [div_le_iff₀ h0]
    · rw [div_mul_cancel₀ _ h0.ne']

/-- The number of passes is the expected one if `tmax` is not too close to a multiple of the time step. -/
theorem c133_passes_partial (hdt : 0 ≤ dt) (hs : FixedStep step dt) {x : M} {s : σ} {n : ℕ} {T : ℝ} {Y : M} {S : σ}
    (hrun : TimeLoop r step tmax 0 x s n T Y S) (N : ℕ) (h1 : (1 + r.u) ^ N * (N * dt) < tmax)
    (h2 : tmax ≤ (1 - r.u) ^ (N + 1) * ((N + 1 : ℕ) * dt)) : n = N + 1 := by
  obtain ⟨-, c2, c3, c4⟩ := clock_run hdt hs hrun 0 (by simp) (by simp)
  simp only [zero_add] at c2 c3
  apply le_antisymm
  · by_contra hc
    exact absurd (c3 (N + 1) (by omega) (by omega)) (not_lt.mpr h2)
  · by_contra hc
    have hnN : n ≤ N := by omega
    have hu := r.u_nonneg
    have : (1 + r.u) ^ n * (n * dt) ≤ (1 + r.u) ^ N * (N * dt) := by
      apply mul_le_mul (pow_le_pow_right₀ (by linarith) hnN) _ (by positivity) (by positivity)
      exact mul_le_mul_of_nonneg_right (by exact_mod_cast hnN) hdt
    linarith [not_lt.mp c4]

theorem pow_one_add_le {u : ℝ} (hu : 0 ≤ u) (m : ℕ) (h : 2 * (m * u) ≤ 1) : (1 + u) ^ m ≤ 1 + 2 * (m * u) := by
  induction m with
  | zero => simp
  | succ m ih =>
    push_cast at h ⊢
    have h1 := ih (by nlinarith)
    have h2 : 2 * ((m : ℝ) * u) * u ≤ 1 * u := mul_le_mul_of_nonneg_right (by nlinarith) hu
    have h3 := mul_le_mul_of_nonneg_right h1 (by linarith : 0 ≤ 1 + u)
    rw [pow_succ]
    nlinarith

/-- In any case the number of passes is at most one off, unless there are very many (in double precision: more than
`6 · 10⁷`). -/
theorem c133_one_off (hdt : 0 < dt) (hs : FixedStep step dt) {x : M} {s : σ} {n : ℕ} {T : ℝ} {Y : M} {S : σ}
    (hrun : TimeLoop r step tmax 0 x s n T Y S) (N : ℕ) (h1 : N * dt < tmax) (h2 : tmax ≤ (N + 1 : ℕ) * dt)
    (hN : 2 * ((N : ℝ) + 2) ^ 2 * r.u ≤ 1) : N ≤ n ∧ n ≤ N + 2 := by
  obtain ⟨-, c2, c3, c4⟩ := clock_run hdt.le hs hrun 0 (by simp) (by simp)
  simp only [zero_add] at c2 c3
  have hu := r.u_nonneg
  have hN0 : (0 : ℝ) ≤ N := Nat.cast_nonneg N
  constructor
  · by_contra hc
    have hnN : (n : ℝ) + 1 ≤ N := by exact_mod_cast (by omega : n + 1 ≤ N)
    have hn0 : (0 : ℝ) ≤ n := Nat.cast_nonneg n
    have q : 2 * (n : ℝ) ^ 2 * r.u ≤ 1 := by
      refine le_trans ?_ hN
      apply mul_le_mul_of_nonneg_right _ hu
      nlinarith
    have q1 : 2 * ((n : ℝ) * r.u) ≤ 1 := by
      rw [← mul_assoc]
      refine le_trans ?_ hN
      apply mul_le_mul_of_nonneg_right _ hu
      nlinarith
    have := pow_one_add_le hu n q1
    have q2 : (1 + r.u) ^ n * (n * dt) ≤ (1 + 2 * (n * r.u)) * (n * dt) :=
      mul_le_mul_of_nonneg_right this (by positivity)
    have q3 : (1 + 2 * (n * r.u)) * (n * dt) ≤ (n + 1) * dt := by nlinarith
    have q4 : ((n : ℝ) + 1) * dt ≤ N * dt := mul_le_mul_of_nonneg_right hnN hdt.le
    linarith [not_lt.mp c4]
  · by_contra hc
    have a1 := c3 (N + 2) (by omega) (by omega)
    have a2 := one_add_mul_le_pow (a := -r.u) (by linarith [r.u_lt]) (N + 2)
    rw [← sub_eq_add_neg] at a2
    push_cast at a1 a2 h2
    have a3 := mul_le_mul_of_nonneg_right a2 (by positivity : 0 ≤ ((N : ℝ) + 2) * dt)
    have a4 : (1 + (N + 2) * -r.u) * ((N + 2) * dt) ≥ (N + 1) * dt := by nlinarith
    linarith

/-- The loop ends: there is a run, if steps do not raise. -/
theorem c133_ends_partial (hdt : 0 ≤ dt) (hs : FixedStep step dt) (htot : ∀ y s, ∃ o, step y s o) (N : ℕ)
    (hN : tmax ≤ (1 - r.u) ^ N * (N * dt)) (x : M) (s : σ) :
    ∃ n T Y S, TimeLoop r step tmax 0 x s n T Y S := by
  suffices h : ∀ k m : ℕ, m + k = N → ∀ t x s, (1 - r.u) ^ m * (m * dt) ≤ t → t ≤ (1 + r.u) ^ m * (m * dt) →
      ∃ n T Y S, TimeLoop r step tmax t x s n T Y S from h N 0 (by omega) 0 x s (by simp) (by simp)
  intro k
  induction k with
  | zero =>
    intro m hm t x s h1 _
    refine ⟨0, t, x, s, .done ?_⟩
    have : m = N := by omega
    subst this
    linarith
  | succ k ih =>
    intro m hm t x s h1 h2
    by_cases ht : t < tmax
    · obtain ⟨⟨⟨x1, dt1⟩, s1⟩, ho⟩ := htot x s
      have e : dt1 = dt := hs _ _ _ ho
      subst e
      obtain ⟨c1, c2⟩ := clock_tick hdt h1 h2
      obtain ⟨n, T, Y, S, h⟩ := ih (m + 1) (by omega) _ x1 s1 c1 c2
      exact ⟨n + 1, T, Y, S, .pass ht ho h⟩
    · exact ⟨0, t, x, s, .done ht⟩

/-- A time step below half of the spacing of the floating point numbers does not change the time. -/
theorem roundDouble_stuck {L : ℤ} {m : ℕ} (h1 : 2 ^ 52 ≤ m) (h2 : m < 2 ^ 53) (h3 : 0 ≤ dt)
    (h4 : dt < (2 : ℝ) ^ (L - 53)) :
    roundDouble (m * (2 : ℝ) ^ (L - 52) + dt) = m * (2 : ℝ) ^ (L - 52) := by
  have hp : (0 : ℝ) < 2 ^ (L - 52) := zpow_pos (by norm_num) _
  have e1 : (2 : ℝ) ^ L = 2 ^ 52 * 2 ^ (L - 52) := by
    rw [← zpow_natCast, ← zpow_add₀ (by norm_num)]
    congr 1
    push_cast
    ring
  have e2 : (2 : ℝ) ^ (L + 1) = 2 ^ 53 * 2 ^ (L - 52) := by
    rw [zpow_add_one₀ (by norm_num), e1]
    ring
  have e3 : (2 : ℝ) ^ (L - 53) = 2 ^ (L - 52) / 2 := by
    rw [show L - 52 = L - 53 + 1 by ring, zpow_add_one₀ (by norm_num)]
    ring
  rw [e3] at h4
  have m1 : (2 : ℝ) ^ 52 ≤ m := by exact_mod_cast h1
  have m2 : (m : ℝ) + 1 ≤ 2 ^ 53 := by exact_mod_cast h2
  rw [roundDouble_eq (L := L)]
  · have : round ((m * (2 : ℝ) ^ (L - 52) + dt) / 2 ^ (L - 52)) = m := by
      rw [round_eq, Int.floor_eq_iff]
      have : (m * (2 : ℝ) ^ (L - 52) + dt) / 2 ^ (L - 52) = m + dt / 2 ^ (L - 52) := by
        field_simp
      rw [this]
      have d1 : 0 ≤ dt / (2 : ℝ) ^ (L - 52) := by positivity
      have d2 : dt / (2 : ℝ) ^ (L - 52) < 1 / 2 := by
        rw [div_lt_iff₀ hp]
        linarith
      push_cast
      constructor <;> linarith
    rw [this]
    push_cast
    ring
  · rw [e1]
    nlinarith
  · rw [e2]
    nlinarith

/-- Very small time steps: when the time step is less than half of the spacing of double precision numbers at the
present time, the time stands still and the loop never ends. -/
theorem c133_stuck_violated {L : ℤ} {m : ℕ} (h1 : 2 ^ 52 ≤ m) (h2 : m < 2 ^ 53) (h3 : 0 ≤ dt)
    (h4 : dt < (2 : ℝ) ^ (L - 53)) (hs : FixedStep step dt) (ht : m * (2 : ℝ) ^ (L - 52) < tmax) (x : M) (s : σ) :
    ¬ ∃ n T Y S, TimeLoop Rounding.double step tmax (m * (2 : ℝ) ^ (L - 52)) x s n T Y S := by
  rintro ⟨n, T, Y, S, hrun⟩
  generalize ht0 : (m * (2 : ℝ) ^ (L - 52)) = t at hrun
  induction hrun with
  | done h => exact h (by rw [← ht0]; exact ht)
  | @pass t x s x1 dt1 s1 n T Y S h hst hl ih =>
    apply ih
    have e : dt1 = dt := hs _ _ _ hst
    rw [e, ← ht0]
    exact (roundDouble_stuck h1 h2 h3 h4).symm

theorem loop_step (hs : FixedStep step dt) {t : ℝ} {x : M} {s : σ} {n : ℕ} {T : ℝ} {Y : M} {S : σ}
    (hrun : TimeLoop r step tmax t x s n T Y S) (h : t < tmax) :
    ∃ x1 s1 m, n = m + 1 ∧ TimeLoop r step tmax (r.rnd (t + dt)) x1 s1 m T Y S := by
  cases hrun with
  | done h' => exact absurd h h'
  | @pass _ _ _ x1 dt1 s1 m _ _ _ h hst hl =>
    have e : dt1 = dt := hs _ _ _ hst
    subst e
    exact ⟨x1, s1, m, rfl, hl⟩

theorem loop_end {t : ℝ} {x : M} {s : σ} {n : ℕ} {T : ℝ} {Y : M} {S : σ}
    (hrun : TimeLoop r step tmax t x s n T Y S) (h : ¬ t < tmax) : n = 0 := by
  cases hrun with
  | done _ => rfl
  | pass h' _ _ => exact absurd h' h

/-- The double precision numbers `0.69` and `3.45`. -/
theorem double_069 : roundDouble (69 / 100) = 6214967485771284 / 2 ^ 53 ∧
    roundDouble (345 / 100) = 7768709357214106 / 2 ^ 51 := by
  constructor
  · rw [roundDouble_eq (L := -1) (by norm_num) (by norm_num)]
    have : round ((69 / 100 : ℝ) / 2 ^ ((-1 : ℤ) - 52)) = 6214967485771284 := by
      rw [round_eq, Int.floor_eq_iff]
      norm_num
    rw [this]
    norm_num
  · rw [roundDouble_eq (L := 1) (by norm_num) (by norm_num)]
    have : round ((345 / 100 : ℝ) / 2 ^ ((1 : ℤ) - 52)) = 7768709357214106 := by
      rw [round_eq, Int.floor_eq_iff]
      norm_num
    rw [this]
    norm_num

theorem double_exact {m : ℕ} {L : ℤ} (h1 : 2 ^ 52 ≤ m) (h2 : m < 2 ^ 53) :
    roundDouble (m * (2 : ℝ) ^ (L - 52)) = m * (2 : ℝ) ^ (L - 52) := by
  have := roundDouble_stuck (dt := 0) (L := L) h1 h2 le_rfl (zpow_pos (by norm_num) _)
  simpa using this

/-- Steps of `0.69` up to `3.45 = 5 · 0.69` in double precision: the loop makes six passes. -/
theorem c133_extra_pass_violated (hs : FixedStep step (roundDouble (69 / 100))) {x : M} {s : σ} {n : ℕ} {T : ℝ}
    {Y : M} {S : σ} (hrun : TimeLoop Rounding.double step (roundDouble (345 / 100)) 0 x s n T Y S) : n = 6 := by
  rw [double_069.1] at hs
  rw [double_069.2] at hrun
  have r1 : Rounding.double.rnd (0 + 6214967485771284 / 2 ^ 53) = 6214967485771284 / 2 ^ 53 := by
    have := double_exact (m := 6214967485771284) (L := -1) (by norm_num) (by norm_num)
    norm_num [Rounding.double] at this ⊢
    exact this
  have r2 : Rounding.double.rnd (6214967485771284 / 2 ^ 53 + 6214967485771284 / 2 ^ 53)
      = 6214967485771284 / 2 ^ 52 := by
    have := double_exact (m := 6214967485771284) (L := 0) (by norm_num) (by norm_num)
    norm_num [Rounding.double] at this ⊢
    exact this
  have r3 : Rounding.double.rnd (6214967485771284 / 2 ^ 52 + 6214967485771284 / 2 ^ 53)
      = 4661225614328463 / 2 ^ 51 := by
    have := double_exact (m := 4661225614328463) (L := 1) (by norm_num) (by norm_num)
    norm_num [Rounding.double] at this ⊢
    exact this
  have r4 : Rounding.double.rnd (4661225614328463 / 2 ^ 51 + 6214967485771284 / 2 ^ 53)
      = 6214967485771284 / 2 ^ 51 := by
    have := double_exact (m := 6214967485771284) (L := 1) (by norm_num) (by norm_num)
    norm_num [Rounding.double] at this ⊢
    exact this
  have r5 : Rounding.double.rnd (6214967485771284 / 2 ^ 51 + 6214967485771284 / 2 ^ 53)
      = 7768709357214105 / 2 ^ 51 := by
    have := double_exact (m := 7768709357214105) (L := 1) (by norm_num) (by norm_num)
    norm_num [Rounding.double] at this ⊢
    exact this
  have r6 : Rounding.double.rnd (7768709357214105 / 2 ^ 51 + 6214967485771284 / 2 ^ 53)
      = 4661225614328463 / 2 ^ 50 := by
    have := double_exact (m := 4661225614328463) (L := 2) (by norm_num) (by norm_num)
    norm_num [Rounding.double] at this ⊢
    exact this
  obtain ⟨x1, s1, n1, rfl, h1⟩ := loop_step hs hrun (by norm_num)
  rw [r1] at h1
  obtain ⟨x2, s2, n2, rfl, h2⟩ := loop_step hs h1 (by norm_num)
  rw [r2] at h2
  obtain ⟨x3, s3, n3, rfl, h3⟩ := loop_step hs h2 (by norm_num)
  rw [r3] at h3
  obtain ⟨x4, s4, n4, rfl, h4⟩ := loop_step hs h3 (by norm_num)
  rw [r4] at h4
  obtain ⟨x5, s5, n5, rfl, h5⟩ := loop_step hs h4 (by norm_num)
  rw [r5] at h5
  obtain ⟨x6, s6, n6, rfl, h6⟩ := loop_step hs h5 (by norm_num)
  rw [r6] at h6
  have := loop_end h6 (by norm_num)
  omega

end clock

/-! ## Cases -/

/-- Exponential decay `dy/dt = -y` of two parameters, evaluated exactly. -/
def decayRhs2 : VRhs (Fin 2 → ℝ) Unit := fun x _ _ s => (-x, s)

/-- Its solution. -/
noncomputable def decay2 (t : ℝ) : Fin 2 → ℝ := fun _ => Real.exp (-t)

theorem decay2_deriv (t : ℝ) : HasDerivAt decay2 (-decay2 t) t := by
  rw [hasDerivAt_pi]
  intro i
  have h := (Real.hasDerivAt_exp (-t)).comp t (hasDerivAt_neg t)
  simpa [decay2, Function.comp_def] using h

theorem decay2_solution : IsSolution (fun x _ => -x) decay2 0 1 := fun t _ => (decay2_deriv t).hasDerivWithinAt

theorem decay2_lip {s t : ℝ} (hs : s ∈ Icc (0 : ℝ) 1) (ht : t ∈ Icc (0 : ℝ) 1) :
    ‖decay2 s - decay2 t‖ ≤ 1 * |s - t| := by
  have := (convex_Icc (0 : ℝ) 1).norm_image_sub_le_of_norm_hasDerivWithin_le (f := decay2) (C := 1)
    (fun x _ => (decay2_deriv x).hasDerivWithinAt) (fun x hx => by
      rw [norm_neg, pi_norm_le_iff_of_nonneg (by norm_num)]
      intro i
      simp only [decay2, Real.norm_eq_abs, Real.abs_exp]
      exact Real.exp_le_one_iff.mpr (by linarith [hx.1])) ht hs
  simpa using this

theorem decay2_velocity : SlowVelocity (fun x _ => -x) decay2 0 1 1 := by
  refine ⟨by norm_num, fun s hs t ht => ?_⟩
  have e : -decay2 s - -decay2 t = -(decay2 s - decay2 t) := by abel
  rw [e, norm_neg]
  exact decay2_lip hs ht

theorem decay2_acceleration : SlowAcceleration (fun x _ => -x) decay2 0 1 1 := by
  refine ⟨by norm_num, decay2, fun t _ => ?_, fun s hs t ht => decay2_lip hs ht⟩
  have := (decay2_deriv t).neg
  rw [neg_neg] at this
  exact this.hasDerivWithinAt

theorem decay2_lipschitz : LipschitzNear (fun x _ => -x) decay2 0 1 1 1 := by
  refine ⟨by norm_num, fun t _ x z _ _ => ?_⟩
  have e : -x - -z = -(x - z) := by abel
  rw [e, norm_neg, one_mul]

theorem decay2_bounded : BoundedNear decay2 0 1 1 2 := by
  intro t ht x hx
  have h1 : ‖decay2 t‖ ≤ 1 := by
    rw [pi_norm_le_iff_of_nonneg (by norm_num)]
    intro i
    simp only [decay2, Real.norm_eq_abs, Real.abs_exp]
    exact Real.exp_le_one_iff.mpr (by linarith [ht.1])
  have := norm_add_le (x - decay2 t) (decay2 t)
  rw [sub_add_cancel] at this
  linarith

theorem decay2_evaluates : EvaluatesWithin decayRhs2 (fun x => -x) decay2 0 1 1 0 2 := by
  refine ⟨le_rfl, fun t ht x t' k s hx => ⟨by simp [decayRhs2], ?_⟩⟩
  simpa [decayRhs2] using decay2_bounded t ht x hx

theorem exp_17_32 : Real.exp (17 / 32) ≤ 3 :=
  (Real.exp_le_exp.mpr (by norm_num)).trans (Real.exp_one_lt_d9.le.trans (by norm_num))

/-- Four Euler steps of `1/8` in double precision. -/
example : ∃ T Y S, TimeLoop Rounding.double (EulerStepRnd Rounding.double (1 / 8) 0 decayRhs2) (7 / 16) 0 (decay2 0) () 4 T Y S ∧
    ‖Y - decay2 (4 * (1 / 8))‖ ≤ accumulated 1 (0 + eulerRounding Rounding.double.u 2 2 (1 / 8) + 1 * (1 / 8)) 0 (4 * (1 / 8)) := by
  obtain ⟨n, T, Y, S, h⟩ := c133_ends_partial (r := Rounding.double) (tmax := 7 / 16) (dt := 1 / 8) (by norm_num)
    (eulerRnd_fixed (f := decayRhs2)) eulerRnd_total 4 (by norm_num [Rounding.double]) (decay2 0) ()
  have hn := c133_passes_partial (by norm_num) eulerRnd_fixed h 3 (by norm_num [Rounding.double]) (by norm_num [Rounding.double])
  subst hn
  refine ⟨T, Y, S, h, ?_⟩
  have := c133_euler (by norm_num) decay2_solution decay2_velocity decay2_lipschitz decay2_bounded decay2_evaluates
    (by norm_num) (by norm_num) h (by norm_num) (by
      have e := (Real.exp_le_exp.mpr (by norm_num : (1 / 2 : ℝ) ≤ 17 / 32)).trans exp_17_32
      norm_num [accumulated, eulerRounding, Rounding.double] at e ⊢
      linarith)
  norm_num at this ⊢
  exact this

/-- Four Heun steps of `1/8` in double precision. -/
example : ∃ T Y S, TimeLoop Rounding.double (HeunStepRnd Rounding.double (1 / 8) 0 decayRhs2) (7 / 16) 0 (decay2 0) () 4 T Y S ∧
    ‖Y - decay2 (4 * (1 / 8))‖ ≤ 1 / 40 := by
  obtain ⟨n, T, Y, S, h⟩ := c133_ends_partial (r := Rounding.double) (tmax := 7 / 16) (dt := 1 / 8) (by norm_num)
    (heunRnd_fixed (f := decayRhs2)) heunRnd_total 4 (by norm_num [Rounding.double]) (decay2 0) ()
  have hn := c133_passes_partial (by norm_num) heunRnd_fixed h 3 (by norm_num [Rounding.double]) (by norm_num [Rounding.double])
  subst hn
  refine ⟨T, Y, S, h, ?_⟩
  have e := exp_17_32
  have := c133_heun (by norm_num) decay2_solution decay2_velocity decay2_acceleration decay2_lipschitz decay2_bounded
    decay2_evaluates (by norm_num) (by norm_num) h (by norm_num) (by
      norm_num [accumulated, heunRounding, Rounding.double] at e ⊢
      linarith)
  norm_num [accumulated, heunRounding, Rounding.double] at this e ⊢
  linarith

/-- The loop of the last cases makes the expected number of passes up to one. -/
example {n T Y S} (h : TimeLoop Rounding.double (HeunStepRnd Rounding.double (1 / 8) 0 decayRhs2) (7 / 16) 0 (decay2 0) () n T Y S) :
    WithinFactor Rounding.double.u n (n * (1 / 8)) T ∧ 3 ≤ n ∧ n ≤ 5 :=
  ⟨(c133_clock (by norm_num) heunRnd_fixed h).1,
    c133_one_off (by norm_num) heunRnd_fixed h 3 (by norm_num) (by norm_num) (by norm_num [Rounding.double])⟩

/-- At time `1`, a time step of `2⁻⁵⁵` does nothing. -/
example : ¬ ∃ n T Y S, TimeLoop Rounding.double (HeunStepRnd Rounding.double ((2 : ℝ) ^ (-55 : ℤ)) 0 decayRhs2) 2
    (((2 ^ 52 : ℕ) : ℝ) * 2 ^ ((0 : ℤ) - 52)) (decay2 0) () n T Y S :=
  c133_stuck_violated le_rfl (by norm_num) (zpow_pos (by norm_num) _).le (by norm_num) heunRnd_fixed (by norm_num) _ _

/-- Six passes of Euler steps of `0.69` until `3.45`. -/
example : ∃ T Y S, TimeLoop Rounding.double (EulerStepRnd Rounding.double (roundDouble (69 / 100)) 0 decayRhs2)
    (roundDouble (345 / 100)) 0 (decay2 0) () 6 T Y S := by
  obtain ⟨n, T, Y, S, h⟩ := c133_ends_partial (r := Rounding.double) (tmax := roundDouble (345 / 100))
    (dt := roundDouble (69 / 100)) (by rw [double_069.1]; norm_num)
    (eulerRnd_fixed (f := decayRhs2)) eulerRnd_total 6 (by
      rw [double_069.1, double_069.2]
      norm_num [Rounding.double]) (decay2 0) ()
  have hn := c133_extra_pass_violated eulerRnd_fixed h
  subst hn
  exact ⟨T, Y, S, h⟩

end JVMC
