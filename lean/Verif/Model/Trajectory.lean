import Verif.Model.Stepper

/-!
# Time evolution: repeated steps

The loop `dp, dt = stepper.step(t, f, psi.get_parameters(), ...); psi.set_parameters(dp); t += dt`.
The example passes 0 for `t` because its equation does not depend on time.
-/

namespace JVMC

variable {M σ : Type} [AddCommGroup M] [Module ℝ M]

/-- examples/ex2_unitary_time_evolution.py:71-78 with `Euler` (jVMC/util/stepper.py:14-40): time, parameters and
state of the right-hand side after `n` passes. -/
def eulerLoop (dt : ℝ) (f : VRhs M σ) : ℕ → ℝ → M → σ → ℝ × M × σ
  | 0, t, y, s => (t, y, s)
  | n + 1, t, y, s =>
    let ((y', d), s') := eulerStep dt t f y s
    eulerLoop dt f n (t + d) y' s'

/-- The same with `Heun` (jVMC/util/stepper.py:62-92), without a keyword argument `dt`. -/
noncomputable def heunLoop (dt : ℝ) (f : VRhs M σ) : ℕ → ℝ → M → σ → ℝ × M × σ
  | 0, t, y, s => (t, y, s)
  | n + 1, t, y, s =>
    let ((y', d), s') := heunStep dt none t f y s
    heunLoop dt f n (t + d) y' s'

/-- The same with `AdaptiveHeun` (jVMC/util/stepper.py:112-182): `get_parameters` returns a new array in every
pass. Simplification: the loop ends if the time step of the object is NaN (C49: it never is). -/
noncomputable def ahLoop (inplace : Bool) (f : RRhs M σ) (norm : M → ℝ) :
    ℕ → AHeun → ℝ → M → List M × σ → Except PyErr (ℝ × M × AHeun × (List M × σ))
  | 0, obj, t, y, w => .ok (t, y, obj, w)
  | n + 1, obj, t, y, w =>
    let (r, w) := newArr y w
    match ahStep inplace obj t f r norm w with
    | .error e => .error e
    | .ok ((_, _, none), _) => .error .noReturn
    | .ok ((y', d, some obj'), w') => ahLoop inplace f norm n obj' (t + d) y' w'

end JVMC
