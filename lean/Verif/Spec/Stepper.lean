import Mathlib.Algebra.Module.Basic
import Mathlib.Analysis.SpecialFunctions.Pow.Real

/-!
# What integration steps should compute
-/

namespace JVMC.Spec

variable {M σ : Type} [AddCommGroup M] [Module ℝ M]

/-- Five evaluations of a right-hand side (which may have a state, and sees the stage number): the
increment of a Heun step of size `dt`, the increment of two Heun steps of size `dt/2`, and the state
after it. The first evaluation is shared. -/
noncomputable def heunPair (g : M → ℝ → ℕ → σ → M × σ) (t dt : ℝ) (y : M) (s : σ) : (M × M) × σ :=
  let (k0, s) := g y t 0 s
  let (k1, s) := g (y + dt • k0) (t + dt) 1 s
  let (k10, s) := g (y + (dt / 2) • k0) (t + dt / 2) 2 s
  let yMid := y + (dt / 4) • (k0 + k10)
  let (k01, s) := g yMid (t + dt / 2) 3 s
  let (k11, s) := g (yMid + (dt / 2) • k01) (t + dt) 4 s
  (((dt / 2) • (k0 + k1), (dt / 4) • (k0 + k10) + (dt / 4) • (k01 + k11)), s)

/-- The textbook Heun step of size `h` for `dy/dt = f(y, t)`. -/
noncomputable def heun (f : M → ℝ → M) (t h : ℝ) (y : M) : M :=
  y + (h / 2) • (f y t + f (y + h • f y t) (t + h))

/-- The deviation between one step and two half steps. -/
noncomputable def heunDev (g : M → ℝ → ℕ → σ → M × σ) (norm : M → ℝ) (t dt : ℝ) (y : M) (s : σ) : ℝ :=
  norm ((heunPair g t dt y s).1.2 - (heunPair g t dt y s).1.1)

/-- The attempts of an adaptive step: `Attempts g norm tol maxStep t y dt s dt' s'` if, starting with time
step `dt` and state `s`, all attempts before the one with time step `dt'` and state `s'` deviate by more
than `tol`, and that one does not. After a rejected attempt the time step is multiplied by
`max 0.2 (0.9 (tol/deviation)^0.33333)` and limited to `maxStep`. -/
inductive Attempts (g : M → ℝ → ℕ → σ → M × σ) (norm : M → ℝ) (tol maxStep t : ℝ) (y : M) :
    ℝ → σ → ℝ → σ → Prop
  | accept (dt : ℝ) (s : σ) : heunDev g norm t dt y s ≤ tol → Attempts g norm tol maxStep t y dt s dt s
  | reject (dt : ℝ) (s : σ) (dt' : ℝ) (s' : σ) : tol < heunDev g norm t dt y s →
      Attempts g norm tol maxStep t y
        (min (dt * max 0.2 (0.9 * (tol / heunDev g norm t dt y s) ^ (0.33333 : ℝ))) maxStep)
        (heunPair g t dt y s).2 dt' s' →
      Attempts g norm tol maxStep t y dt s dt' s'

/-- The time step after an accepted one: multiplied by `min 2 (0.9 (tol/deviation)^0.33333)`, 2 if there
is no deviation, and limited to `maxStep`. -/
noncomputable def nextDt (tol maxStep dev dt : ℝ) : ℝ :=
  min (dt * if dev = 0 then 2 else min 2 (0.9 * (tol / dev) ^ (0.33333 : ℝ))) maxStep

end JVMC.Spec
