import Verif.Model.Stepper

/-!
# Model of the time evolutions in `examples/ex5_dissipative_Lindblad.py` and `examples/ex6_dissipative_Lindblad_2D.py`

`psi` is represented by the vector of its parameters, which `get_parameters` returns and `set_parameters` replaces. `g` is the
TDVP object as a right-hand side and `σ` all that it and the sampler change (attributes, random state; also an exception that
was raised). Parameters are JAX arrays, so nothing is changed in place.
-/

namespace JVMC

variable {M σ R : Type} [AddCommGroup M] [Module ℝ M]

/-- The local variables of `AdaptiveHeun.step`: `fe`, `dt` (`none`: NaN), `dy1` and `realDt` (unbound before the first pass),
and what the right-hand side changes. (stepper.py:137-176) -/
structure StepVars (M σ : Type) where
  fe : Num
  dt : Flt ℝ
  out : Option (M × ℝ)
  s : σ

/-- The body of the loop of `AdaptiveHeun.step`, when the norm reads attributes that the right-hand side sets:
`normFunction=partial(norm_fun, df=tdvpEquation.S_dot)`. (stepper.py:145-176, ex5_dissipative_Lindblad.py:83,
ex6_dissipative_Lindblad_2D.py:89) -/
noncomputable def metricBody (obj : AHeun) (g : VRhs M σ) (norm : σ → M → ℝ) (t : ℝ) (yInitial : M) (x : StepVars M σ) :
    StepVars M σ :=
  match x.dt with
  | none => x
  | some dt =>
    let (k0, s) := g yInitial t 0 x.s
    let (k1, s) := g (yInitial + dt • k0) (t + dt) 1 s
    let dy0 := ((1 / 2) * dt) • (k0 + k1)
    let (k10, s) := g (yInitial + dt • k0 - ((1 / 2) * dt) • k0) (t + (1 / 2) * dt) 2 s
    let dy1 := ((1 / 4) * dt) • (k0 + k10)
    let (k01, s) := g (yInitial + dy1) (t + (1 / 2) * dt) 3 s
    let (k11, s) := g (yInitial + dy1 + ((1 / 2) * dt) • k01) (t + dt) 4 s
    let dy1 := dy1 + ((1 / 4) * dt) • (k01 + k11)
    let fe := Num.quot obj.tolerance (norm s (dy1 - dy0))
    let dt' := (ahFactor fe).map fun tmp => if dt * tmp > obj.maxStep then obj.maxStep else dt * tmp
    ⟨fe, dt', some (dy1, dt), s⟩

/-- `AdaptiveHeun.step` with such a norm: new value, time step and object (`none`: its `dt` is NaN). (stepper.py:112-182) -/
noncomputable def metricStep (obj : AHeun) (t : ℝ) (g : VRhs M σ) (y : M) (norm : σ → M → ℝ) (s : σ) :
    Except PyErr ((M × ℝ × Flt AHeun) × σ) :=
  match whileLoop (fun x => x.fe.below 1) (metricBody obj g norm t y) ⟨.fin 0.5, some obj.dt, none, s⟩ with
  | none => .error .noReturn
  | some x =>
    match x.out with
    | none => .error .unboundLocalError
    | some (dy1, realDt) => .ok ((y + dy1, realDt, x.dt.map fun d => { obj with dt := d }), x.s)

/-- The variables of the script: time, parameters of `psi`, stepper, the objects, `times` and the entries of `res`.
(ex5_dissipative_Lindblad.py:69-76) -/
structure DissVars (M σ R : Type) where
  t : ℝ
  y : M
  stepper : AHeun
  s : σ
  times : List ℝ
  res : List R

/-- One pass of the loop: `times.append(t)`, `measure_povm` and the entries of `res`, `stepper.step(0, tdvpEquation,
psi.get_parameters(), ...)`, `t += dt`, `psi.set_parameters(dp)`. `meas` is the measurement at the parameters of `psi`.
Simplifications: `print` is left out; a NaN time step counts as an evolution that does not end (it never occurs, see
`metricStep_spec`). (ex5_dissipative_Lindblad.py:77-89, ex6_dissipative_Lindblad_2D.py:83-92) -/
noncomputable def dissPass (g : VRhs M σ) (norm : σ → M → ℝ) (meas : M → σ → R × σ) (x : DissVars M σ R) :
    Except PyErr (DissVars M σ R) :=
  let times := x.times ++ [x.t]
  let (o, s) := meas x.y x.s
  let res := x.res ++ [o]
  match metricStep x.stepper 0 g x.y norm s with
  | .error e => .error e
  | .ok ((_, _, none), _) => .error .noReturn
  | .ok ((dp, dt, some obj), s) => .ok ⟨x.t + dt, dp, obj, s, times, res⟩

/-- `while t < 5 * 1e-0`. (ex5_dissipative_Lindblad.py:76, ex6_dissipative_Lindblad_2D.py:82) -/
noncomputable def dissGoesOn (tmax : ℝ) (s : Except PyErr (DissVars M σ R)) : Bool :=
  match s with
  | .error _ => false
  | .ok x => decide (x.t < tmax)

/-- The body of the loop; an exception ends the script. (ex5_dissipative_Lindblad.py:76-89) -/
noncomputable def dissBody (g : VRhs M σ) (norm : σ → M → ℝ) (meas : M → σ → R × σ) :
    Except PyErr (DissVars M σ R) → Except PyErr (DissVars M σ R)
  | .error e => .error e
  | .ok x => dissPass g norm meas x

/-- The script from `times = []` on. (ex5_dissipative_Lindblad.py:74-89, ex6_dissipative_Lindblad_2D.py:79-92) -/
noncomputable def dissScript (g : VRhs M σ) (norm : σ → M → ℝ) (meas : M → σ → R × σ) (tmax : ℝ) (stepper : AHeun) (y : M)
    (s : σ) : Except PyErr (DissVars M σ R) :=
  match whileLoop (dissGoesOn tmax) (dissBody g norm meas) (.ok ⟨0, y, stepper, s, [], []⟩) with
  | none => .error .noReturn
  | some x => x

end JVMC
