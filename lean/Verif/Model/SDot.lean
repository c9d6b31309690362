import Verif.Model.SpmdRun

/-!
# `TDVP.S_dot` and the norm of the examples that use it
-/

namespace JVMC

variable {n : ℕ}

/-- tdvp.py:215-217 `S_dot(v)`: `S0 @ v`, where `eqn` holds the attributes assigned by the last evaluation
(tdvp.py:134-148); the attribute `S0` does not exist before the first one. -/
noncomputable def sDot (eqn : Option (Flt (TdvpEqn n))) (v : Fin (n + 1) → ℝ) :
    Except PyErr (Flt (Fin (n + 1) → ℂ)) :=
  match eqn with
  | none => .error .attributeError
  | some none => .ok none
  | some (some e) => .ok (some (e.S0.mulVec fun k => (v k : ℂ)))

/-- `norm_fun(v, df=tdvpEquation.S_dot)`: the real part of `vᴴ S0 v`.
(examples/ex5_dissipative_Lindblad.py:19-20, 83, examples/ex6_dissipative_Lindblad_2D.py:19-20, 89) -/
noncomputable def normFun (eqn : Option (Flt (TdvpEqn n))) (v : Fin (n + 1) → ℝ) : Except PyErr (Flt ℝ) :=
  (sDot eqn v).map fun d => d.map fun d => (∑ k, (starRingEnd ℂ) (v k : ℂ) * d k).re

/-- `normFun` as the norm of `AdaptiveHeun`. Simplification: zero when it raises or is NaN; the stepper evaluates it
only after the updates of five calls, which have no NaN entries. (stepper.py:146-162) -/
noncomputable def sDotNorm (eqn : Option (Flt (TdvpEqn n))) (v : Fin (n + 1) → ℝ) : ℝ :=
  match normFun eqn v with
  | .ok (some x) => x
  | _ => 0

end JVMC
