import Mathlib.Analysis.Normed.Group.Constructions
import Verif.Model.Rounding
import Verif.Model.Stepper

/-!
# Model of time integration with rounding errors

`Euler.step` and `Heun.step` (`jVMC/util/stepper.py:14-92`) on arrays of floating point numbers, and the loops of the
examples that add up the time steps (`examples/ex2_unitary_time_evolution.py:71-78`,
`examples/ex5_dissipative_Lindblad.py:76-84`, `tests/povm_test.py:122-136`). As in `Model/Rounding`, results of products may
or may not be rounded (fused instructions), so the steps are relations. Simplification: no overflow or underflow.
-/

namespace JVMC

variable {σ : Type} {d : ℕ}

/-- stepper.py:14-40 `Euler.step` in floating point arithmetic: `yInitial + self.dt * dy`. -/
def EulerStepRnd (r : Rounding) (dt t : ℝ) (f : VRhs (Fin d → ℝ) σ) (yInitial : Fin d → ℝ) (s : σ)
    (out : ((Fin d → ℝ) × ℝ) × σ) : Prop :=
  let (dy, s) := f yInitial t 0 s
  ∃ p : Fin d → ℝ, (∀ i, r.Rd (dt * dy i) (p i)) ∧
    out = ((fun i => r.rnd (yInitial i + p i), dt), s)

/-- stepper.py:62-92 `Heun.step` in floating point arithmetic: `y = yInitial.copy() + dt * k0`, then
`yInitial + 0.5 * dt * (k0 + k1)`. -/
def HeunStepRnd (r : Rounding) (dt t : ℝ) (f : VRhs (Fin d → ℝ) σ) (yInitial : Fin d → ℝ) (s : σ)
    (out : ((Fin d → ℝ) × ℝ) × σ) : Prop :=
  let (k0, s) := f yInitial t 0 s
  ∃ p : Fin d → ℝ, (∀ i, r.Rd (dt * k0 i) (p i)) ∧
    let y : Fin d → ℝ := fun i => r.rnd (yInitial i + p i)
    let (k1, s) := f y (r.rnd (t + dt)) 1 s
    ∃ (h : ℝ) (sum dy0 : Fin d → ℝ), r.Rd ((1 / 2) * dt) h ∧ (∀ i, r.Rd (k0 i + k1 i) (sum i)) ∧
      (∀ i, r.Rd (h * sum i) (dy0 i)) ∧
      out = ((fun i => r.rnd (yInitial i + dy0 i), dt), s)

/-- ex2:71-78, ex5:76-84, povm_test.py:122-136: `while t < tmax: dp, dt = stepper.step(0, ...); t += dt`, in floating
point arithmetic. `TimeLoop r step tmax t y s n t' y' s'`: started with `t`, `y` and `s`, the loop ends after `n` passes with
`t'`, `y'` and `s'`. Measurements and output are left out. -/
inductive TimeLoop {M : Type} (r : Rounding) (step : M → σ → (M × ℝ) × σ → Prop) (tmax : ℝ) :
    ℝ → M → σ → ℕ → ℝ → M → σ → Prop
  | done {t y s} (h : ¬ t < tmax) : TimeLoop r step tmax t y s 0 t y s
  | pass {t y s y1 dt s1 n t' y' s'} (h : t < tmax) (hs : step y s ((y1, dt), s1))
      (hl : TimeLoop r step tmax (r.rnd (t + dt)) y1 s1 n t' y' s') :
      TimeLoop r step tmax t y s (n + 1) t' y' s'

end JVMC
