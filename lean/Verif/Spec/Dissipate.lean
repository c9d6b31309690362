import Verif.Spec.Stepper

/-!
# Specification: time evolutions whose errors are measured with a metric that changes along the way

`heunPair`: one Heun step and two half steps. `nextDt`: the rule for the next time step.
-/

namespace JVMC.Spec

variable {M σ R : Type} [AddCommGroup M] [Module ℝ M]

/-- The deviation of an attempt, measured with what is known after its last evaluation. -/
noncomputable def metricDev (g : M → ℝ → ℕ → σ → M × σ) (norm : σ → M → ℝ) (t dt : ℝ) (y : M) (s : σ) : ℝ :=
  norm (heunPair g t dt y s).2 ((heunPair g t dt y s).1.2 - (heunPair g t dt y s).1.1)

/-- The attempts of a step: starting with time step `dt` and state `s`, all attempts before the one with `dt'` and `s'` deviate
by more than `tol`, and that one does not. -/
inductive MetricAttempts (g : M → ℝ → ℕ → σ → M × σ) (norm : σ → M → ℝ) (tol maxStep t : ℝ) (y : M) :
    ℝ → σ → ℝ → σ → Prop
  | accept (dt : ℝ) (s : σ) : metricDev g norm t dt y s ≤ tol → MetricAttempts g norm tol maxStep t y dt s dt s
  | reject (dt : ℝ) (s : σ) (dt' : ℝ) (s' : σ) : tol < metricDev g norm t dt y s →
      MetricAttempts g norm tol maxStep t y
        (min (dt * max 0.2 (0.9 * (tol / metricDev g norm t dt y s) ^ (0.33333 : ℝ))) maxStep)
        (heunPair g t dt y s).2 dt' s' →
      MetricAttempts g norm tol maxStep t y dt s dt' s'

/-- An evolution from parameters `y₀` to the time `tmax` in `N` steps: `t k`, `θ k`, `s k` and `dt k` are time, parameters, state
and proposed time step after `k` steps. At each of them a measurement is made, then a step from the parameters `θ k`. -/
structure DissRun (g : M → ℝ → ℕ → σ → M × σ) (norm : σ → M → ℝ) (meas : M → σ → R × σ) (tmax tol maxStep dt₀ : ℝ) (y₀ : M)
    (s₀ : σ) (N : ℕ) (t dt : ℕ → ℝ) (θ : ℕ → M) (s : ℕ → σ) : Prop where
  start : t 0 = 0 ∧ θ 0 = y₀ ∧ s 0 = s₀ ∧ dt 0 = dt₀
  step : ∀ k < N, ∃ s₁, MetricAttempts g norm tol maxStep 0 (θ k) (dt k) (meas (θ k) (s k)).2 (t (k + 1) - t k) s₁ ∧
    θ (k + 1) = θ k + (heunPair g 0 (t (k + 1) - t k) (θ k) s₁).1.2 ∧
    s (k + 1) = (heunPair g 0 (t (k + 1) - t k) (θ k) s₁).2 ∧
    dt (k + 1) = nextDt tol maxStep (metricDev g norm 0 (t (k + 1) - t k) (θ k) s₁) (t (k + 1) - t k)
  before : ∀ k < N, t k < tmax
  reached : tmax ≤ t N

end JVMC.Spec
